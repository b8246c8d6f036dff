import Verif.Spec.Protocol
namespace Specula
variable {ν : Type}

theorem sees_iff (l : Local ν) (x : Item ν) : Sees l x ↔ x ∈ l.items := by
  constructor
  · intro h
    cases h with
    | one => simp [Local.items]
    | many xs _ h => simpa [Local.items] using h
  · intro h
    cases l with
    | none => simp [Local.items] at h
    | one y => simp only [Local.items, List.mem_singleton] at h; subst h; exact Sees.one _
    | many xs => exact Sees.many xs x (by simpa [Local.items] using h)

theorem isNone_iff (l : Local ν) : l.isNone = true ↔ l = .none := by cases l <;> simp [Local.isNone]

theorem refreshed_iff (t : Int) (g : Option Int) : refreshed t g = true ↔ ∃ x, g = some x ∧ t ≤ x := by
  cases g <;> simp [refreshed]

theorem checkInputTimes_iff (decls : List InDecl) (ins : InDecl → Local ν) (t : Int) :
    checkInputTimes decls ins t = true ↔ SomethingNew decls ins t := by
  unfold checkInputTimes SomethingNew
  by_cases h1 : decls = []
  · simp [h1]
  · have h1' : decls.length ≠ 0 := by simpa [List.length_eq_zero_iff] using h1
    simp only [h1, if_neg h1', false_or]
    split
    · rename_i h2
      simp only [true_iff]
      left
      intro d hd
      have := List.all_eq_true.1 h2 d hd
      simp only [Bool.and_eq_true, isNone_iff] at this
      exact this
    · rename_i h2
      have h3 : ¬ ∀ d ∈ decls, d.optional = true ∧ ins d = .none := by
        intro h
        apply h2
        rw [List.all_eq_true]
        intro d hd
        simp only [Bool.and_eq_true, isNone_iff]
        exact h d hd
      simp only [h3, false_or, List.any_eq_true, refreshed_iff, sees_iff]

end Specula
