import Verif.Model.Tag
import Verif.Props.Ranks
import Mathlib.Data.Fintype.Pigeonhole
import Mathlib.Data.Fintype.EquivFin
import Mathlib.Tactic.NormNum
/-
C17: message tags.
-/
namespace Specula

theorem first_pct {a b x y : List Char} (ha : '%' ∉ a) (hb : '%' ∉ b) (h : a ++ '%' :: x = b ++ '%' :: y) : a = b ∧ x = y := by
  induction a generalizing b with
  | nil =>
    cases b with
    | nil => simpa using h
    | cons c b => simp only [List.nil_append, List.cons_append, List.cons.injEq] at h; simp [← h.1] at hb
  | cons c a ih =>
    cases b with
    | nil => simp only [List.nil_append, List.cons_append, List.cons.injEq] at h; simp [h.1] at ha
    | cons c' b =>
      simp only [List.cons_append, List.cons.injEq] at h
      simp only [List.mem_cons, not_or] at ha hb
      obtain ⟨rfl, rfl⟩ := ih ha.2 hb.2 h.2
      exact ⟨by rw [h.1], rfl⟩

/-- A name without the separator of the tag text. -/
def NoPct (s : String) : Prop := '%' ∉ s.toList

/-- **C17** (the text identifies the link): two links with the same tag text have the same producer, consumer, output and
input, provided that names contain no `%` and no output is called `None`. -/
theorem C17_text_injective {p d i p' d' i' : String} {k k' : Option String}
    (hp : NoPct p) (hd : NoPct d) (hk : ∀ s, k = some s → NoPct s ∧ s ≠ "None")
    (hp' : NoPct p') (hd' : NoPct d') (hk' : ∀ s, k' = some s → NoPct s ∧ s ≠ "None")
    (h : tagText p d k i = tagText p' d' k' i') : p = p' ∧ d = d' ∧ k = k' ∧ i = i' := by
  unfold tagText at h
  rw [← String.toList_inj] at h
  simp only [String.toList_append, List.append_assoc] at h
  have hpct : "%".toList = ['%'] := rfl
  simp only [hpct, List.singleton_append] at h
  obtain ⟨h1, h⟩ := first_pct hp hp' h
  obtain ⟨h2, h⟩ := first_pct hd hd' h
  have hn : ∀ k : Option String, (∀ s, k = some s → NoPct s ∧ s ≠ "None") → '%' ∉ (k.getD "None").toList := by
    intro k hk
    cases k with
    | none => decide
    | some s => exact (hk s rfl).1
  obtain ⟨h3, h4⟩ := first_pct (hn k hk) (hn k' hk') h
  refine ⟨String.toList_inj.1 h1, String.toList_inj.1 h2, ?_, String.toList_inj.1 h4⟩
  have h3 := String.toList_inj.1 h3
  cases k with
  | none =>
    cases k' with
    | none => rfl
    | some s => exact absurd h3.symm (hk' s rfl).2
  | some s =>
    cases k' with
    | none => exact absurd h3 (hk s rfl).2
    | some s' => exact congrArg some h3

/-- **C17** (what holds of the tags): if the hash separates the texts of the links of a file modulo 10⁶, then links that differ
in producer, consumer, output or input have different tags. -/
theorem C17_tags_differ (sha : String → Nat) (S : String → Prop)
    (hsha : ∀ s t, S s → S t → sha s % 10 ^ 6 = sha t % 10 ^ 6 → s = t)
    {p d i p' d' i' : String} {k k' : Option String}
    (hp : NoPct p) (hd : NoPct d) (hk : ∀ s, k = some s → NoPct s ∧ s ≠ "None")
    (hp' : NoPct p') (hd' : NoPct d') (hk' : ∀ s, k' = some s → NoPct s ∧ s ≠ "None")
    (hS : S (tagText p d k i)) (hS' : S (tagText p' d' k' i'))
    (hne : ¬ (p = p' ∧ d = d' ∧ k = k' ∧ i = i')) : computeTag sha p d k i ≠ computeTag sha p' d' k' i' :=
  fun h => hne (C17_text_injective hp hd hk hp' hd' hk' (hsha _ _ hS hS' h))

/-- **C17** (what does not hold): whatever the hash function is, there are two links between valid names that have the same
tag. -/
theorem C17_collision (sha : String → Nat) : ∃ p p' d k i, p ≠ p' ∧ NoPct p ∧ NoPct p' ∧
    computeTag sha p d k i = computeTag sha p' d k i := by
  let name : Nat → String := fun n => String.ofList (List.replicate n 'a')
  let f : Nat → Fin (10 ^ 6) := fun n => ⟨computeTag sha (name n) "d" (some "out") "in", Nat.mod_lt _ (by norm_num)⟩
  obtain ⟨a, b, hab, hf⟩ := Finite.exists_ne_map_eq_of_infinite f
  have hnp : ∀ n, NoPct (name n) := by
    intro n
    simp only [NoPct, name, String.toList_ofList]
    intro h
    exact absurd (List.eq_of_mem_replicate h) (by decide)
  refine ⟨name a, name b, "d", some "out", "in", ?_, hnp a, hnp b, congrArg Fin.val hf⟩
  intro h
  apply hab
  have := congrArg (fun s => s.toList.length) h
  simpa [name] using this

/-- A collision that is no accident of the hash: two references of one list input to the same output, one of them delayed, are
two links with the same tag. -/
theorem C17_same_output_twice (sha : String → Nat) : ∃ file : List PObj, (file.map (·.name)).Nodup ∧ LinksOk file ∧
    FromProcessing file ∧ ∃ acts t, connectOn (some 0) file (computeTag sha) = some acts ∧ sentTags 1 acts = [t, t] := by
  refine ⟨[{ name := "src", outs := ["o"] },
    { name := "dst", rank := some 1, ins := ["l"],
      inputs := [("l", [{ obj := "src", key := some "o" }, { obj := "src", key := some "o", delay := -1 }])] }],
    by decide, by unfold LinksOk; decide, by unfold FromProcessing; decide, _, computeTag sha "src" "dst" (some "o") "l", rfl, rfl⟩

example : NoPct "wfs_1.out" ∧ (∀ s, some "out_slopes" = some s → NoPct s ∧ s ≠ "None") ∧ (∀ s, (none : Option String) = some s → NoPct s ∧ s ≠ "None") :=
  ⟨by unfold NoPct; decide, fun s h => by obtain rfl := Option.some.inj h; exact ⟨by unfold NoPct; decide, by decide⟩, fun s h => by simp at h⟩

end Specula
