import Verif.Model.Protocol
/-
Specification: when does a processing object have something to do.
-/
namespace Specula

/-- `x` is one of the items an object sees through an input. -/
inductive Sees {ν : Type} : Local ν → Item ν → Prop
  | one (x : Item ν) : Sees (.one x) x
  | many (xs : List (Item ν)) (x : Item ν) (h : x ∈ xs) : Sees (.many xs) x

/-- There is something new for an object at time `t`: it has no inputs at all, or every input is optional and unset,
or some item seen through some input was generated at time `t` or later. -/
def SomethingNew {ν : Type} (decls : List InDecl) (ins : InDecl → Local ν) (t : Int) : Prop :=
  decls = [] ∨ (∀ d ∈ decls, d.optional = true ∧ ins d = .none) ∨
    ∃ d ∈ decls, ∃ x, Sees (ins d) x ∧ ∃ g, x.gen = some g ∧ t ≤ g

end Specula
