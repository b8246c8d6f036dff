import Verif.Spec.Combine
import Verif.Spec.Refs
/-
Specification vocabulary for replay files (C12, C13).
-/
namespace Specula

/-- The object is of the given class. -/
def HasClass (v : Value) (c : String) : Prop := ∃ pars, v = .dict pars ∧ Dict.get? pars "class" = some (.str c)

/-- Value of a parameter of an object. -/
def param (v : Value) (k : String) : Option Value := match v with | .dict pars => Dict.get? pars k | _ => none

/-- Value connected to input `i`. -/
def inputValue (v : Value) (i : String) : Option Value :=
  match param v "inputs" with | some (.dict ins) => Dict.get? ins i | _ => none

/-- Some input of the DataStore `store` saves output `k` of object `o` under the name `a`
(a reference `a-o.k`, possibly with a delay). -/
def StoresAs (store : Value) (o k a : String) : Prop :=
  ∃ i s r, s ∈ inputTexts store i ∧ splitOutput s = some r ∧ r.obj = o ∧ r.key = some k ∧ r.alias = some a

/-- Object `b` is named by a reference parameter of the object: a text parameter `…_ref`, or one of the names listed in a
parameter `…_list_ref` / `…_dict_ref`. -/
def NamesObj (v : Value) (b : String) : Prop :=
  ∃ k w, param v k = some w ∧ endsWith k "_ref" = true ∧
    ((w = .str b ∧ endsWith k "_list_ref" = false ∧ endsWith k "_dict_ref" = false) ∨
     ((endsWith k "_list_ref" = true ∨ endsWith k "_dict_ref" = true) ∧ ∃ os, Lists w os ∧ b ∈ os))

/-- An object with an `input_list` has no other input (true of the two classes that use it, DataStore and DataBuffer). -/
def InputListAlone (v : Value) : Prop :=
  inputValue v "input_list" ≠ none → ∀ i, inputValue v i ≠ none → i = "input_list"

/-- Every input reference of the file is well formed and names an object of the file. -/
def InputsClosed (ps : RawParams) : Prop :=
  ∀ n v, ps.get? n = some v → ∀ i s, s ∈ inputTexts v i → ∃ b ∈ ps.keys, RefersText s b

end Specula
