import Verif.Model.Raw
/-
Facts about insertion-ordered dictionaries.
-/
namespace Specula
namespace Dict
variable {α : Type}

theorem get?_eq_none {d : Dict α} {k : String} : d.get? k = none ↔ k ∉ d.keys := by
  induction d with
  | nil => simp [get?, keys]
  | cons e d ih =>
    obtain ⟨k', v⟩ := e
    unfold get?
    by_cases h : k' = k
    · simp [h, keys]
    · simp only [h, if_false, ih, keys, List.map_cons, List.mem_cons, not_or]
      exact ⟨fun h' => ⟨fun e => h e.symm, h'⟩, fun h' => h'.2⟩

theorem get?_isSome {d : Dict α} {k : String} : (d.get? k).isSome ↔ k ∈ d.keys := by
  have := get?_eq_none (d := d) (k := k)
  cases h : d.get? k with
  | none => simp [h] at this ⊢; exact this
  | some v =>
    simp only [h] at this
    simp only [Option.isSome_some, true_iff]
    exact Classical.byContradiction fun hk => absurd (this.2 hk) (by simp)

theorem mem_of_get? {d : Dict α} {k : String} {v : α} (h : d.get? k = some v) : (k, v) ∈ d := by
  induction d with
  | nil => simp [get?] at h
  | cons e d ih =>
    obtain ⟨k', v'⟩ := e
    unfold get? at h
    split at h
    · rename_i hk
      simp at h
      simp [hk, h]
    · exact List.mem_cons_of_mem _ (ih h)

theorem get?_of_mem {d : Dict α} (hn : d.keys.Nodup) {k : String} {v : α} (h : (k, v) ∈ d) : d.get? k = some v := by
  induction d with
  | nil => simp at h
  | cons e d ih =>
    obtain ⟨k', v'⟩ := e
    simp only [keys, List.map_cons, List.nodup_cons] at hn
    unfold get?
    rcases List.mem_cons.1 h with h | h
    · simp only [Prod.mk.injEq] at h
      simp [h]
    · have : k' ≠ k := by
        rintro rfl
        exact hn.1 (List.mem_map.2 ⟨_, h, rfl⟩)
      simp [this, ih hn.2 h]

theorem get?_iff_mem {d : Dict α} (hn : d.keys.Nodup) {k : String} {v : α} : d.get? k = some v ↔ (k, v) ∈ d :=
  ⟨mem_of_get?, get?_of_mem hn⟩

theorem get?_set_self (d : Dict α) (k : String) (v : α) : (d.set k v).get? k = some v := by
  induction d with
  | nil => simp [set, get?]
  | cons e d ih =>
    obtain ⟨k', v'⟩ := e
    unfold set
    split
    · rename_i h; simp [get?, h]
    · rename_i h; simp [get?, h, ih]

theorem get?_set_ne (d : Dict α) {k k' : String} (v : α) (h : k' ≠ k) : (d.set k v).get? k' = d.get? k' := by
  induction d with
  | nil => simp [set, get?, Ne.symm h]
  | cons e d ih =>
    obtain ⟨k2, v2⟩ := e
    unfold set
    split
    · rename_i hk; subst hk; simp [get?, Ne.symm h]
    · unfold get?; rw [ih]

theorem get?_set (d : Dict α) (k k' : String) (v : α) :
    (d.set k v).get? k' = if k' = k then some v else d.get? k' := by
  split
  · rename_i h; rw [h, get?_set_self]
  · rename_i h; exact get?_set_ne d v h

theorem mem_keys_set {d : Dict α} {k k' : String} {v : α} : k' ∈ (d.set k v).keys ↔ k' = k ∨ k' ∈ d.keys := by
  rw [← get?_isSome, get?_set, ← get?_isSome]
  split <;> simp_all

theorem keys_set_of_mem {d : Dict α} {k : String} {v : α} (h : k ∈ d.keys) : (d.set k v).keys = d.keys := by
  induction d with
  | nil => simp [keys] at h
  | cons e d ih =>
    obtain ⟨k', v'⟩ := e
    unfold set
    split
    · rfl
    · rename_i hk
      simp only [keys, List.map_cons, List.mem_cons] at h ⊢
      rw [show (Dict.set d k v).map (·.1) = d.map (·.1) from ih (h.resolve_left fun e => hk e.symm)]

theorem keys_set_of_not_mem {d : Dict α} {k : String} {v : α} (h : k ∉ d.keys) : d.set k v = d ++ [(k, v)] := by
  induction d with
  | nil => rfl
  | cons e d ih =>
    obtain ⟨k', v'⟩ := e
    simp only [keys, List.map_cons, List.mem_cons, not_or] at h
    unfold set
    rw [if_neg (fun e => h.1 e.symm), ih h.2]
    rfl

theorem nodup_set {d : Dict α} {k : String} {v : α} (h : d.keys.Nodup) : (d.set k v).keys.Nodup := by
  by_cases hk : k ∈ d.keys
  · rw [keys_set_of_mem hk]; exact h
  · rw [keys_set_of_not_mem hk]
    simp only [keys, List.map_append, List.map_cons, List.map_nil]
    rw [List.nodup_append]
    refine ⟨h, by simp, ?_⟩
    intro a ha b hb
    simp at hb
    subst hb
    rintro rfl
    exact hk ha

theorem get?_del (d : Dict α) (k k' : String) : (d.del k).get? k' = if k' = k then none else d.get? k' := by
  induction d with
  | nil => simp [del, get?]
  | cons e d ih =>
    obtain ⟨k2, v2⟩ := e
    unfold del at ih ⊢
    by_cases h : k2 = k
    · subst h
      rw [List.filter_cons_of_neg (by simp), ih]
      by_cases h2 : k' = k2
      · simp [h2]
      · simp [h2, get?, Ne.symm h2]
    · rw [List.filter_cons_of_pos (by simpa using h)]
      unfold get?
      rw [ih]
      by_cases h2 : k2 = k'
      · subst h2; simp [h]
      · simp [h2]

theorem mem_keys_del {d : Dict α} {k k' : String} : k' ∈ (d.del k).keys ↔ k' ≠ k ∧ k' ∈ d.keys := by
  rw [← get?_isSome, get?_del, ← get?_isSome]
  split <;> simp_all

theorem nodup_del {d : Dict α} {k : String} (h : d.keys.Nodup) : (d.del k).keys.Nodup := by
  unfold del keys
  exact List.Nodup.sublist (List.Sublist.map _ List.filter_sublist) h

theorem get?_update (d e : Dict α) (he : e.keys.Nodup) (k : String) :
    (d.update e).get? k = (e.get? k).or (d.get? k) := by
  induction e generalizing d with
  | nil => simp [update, get?]
  | cons a e ih =>
    obtain ⟨k', v⟩ := a
    simp only [keys, List.map_cons, List.nodup_cons] at he
    have : (Dict.update d ((k', v) :: e)) = (d.set k' v).update e := rfl
    rw [this, ih _ he.2, get?_set]
    rw [show get? ((k', v) :: e) k = if k' = k then some v else get? e k from rfl]
    by_cases h : k = k'
    · subst h
      rw [get?_eq_none.2 he.1]
      simp
    · simp only [h, if_false, if_neg (Ne.symm h)]

theorem nodup_update {d e : Dict α} (h : d.keys.Nodup) : (d.update e).keys.Nodup := by
  induction e generalizing d with
  | nil => exact h
  | cons a e ih => exact ih (nodup_set h)

end Dict
end Specula
