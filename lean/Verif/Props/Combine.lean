import Verif.Model.Combine
import Verif.Spec.Combine
import Verif.Lemmas.Dict
import Verif.Props.SplitOutput
import Mathlib.Data.List.Nodup
/-
Properties C08 and C09: removing objects, combining parameter files.
-/
namespace Specula

/-! ### removing the inputs of one object -/

theorem filterOwned_texts {o : String} {vs l : List Value} (h : filterOwned o vs = some l) :
    texts (.list l) = (texts (.list vs)).filter fun s => ¬ RefersText s o := by
  induction vs generalizing l with
  | nil => simp [filterOwned] at h; subst h; rfl
  | cons v vs ih =>
    unfold filterOwned at h
    split at h
    · simp at h
    · rename_i w hw
      split at h
      · simp at h
      · rename_i r hr
        simp at h
        have := ih hr
        cases v with
        | str s =>
          have hR : RefersText s o ↔ w = o := by
            unfold RefersText; simp only [ownerOf] at hw; rw [hw]; simp
          subst h
          by_cases e : w = o
          · rw [if_pos e, this]
            simp [texts, hR, e]
          · rw [if_neg e]
            simp only [texts, List.filterMap_cons] at this ⊢
            rw [this, List.filter_cons_of_pos (by simpa [hR] using e)]
        | _ => simp [ownerOf] at hw

theorem removeEntry_spec {o i : String} {v : Value} {d : Dict Value} (h : removeEntry o i v = some d) :
    (∀ k ∈ d.keys, k = i) ∧ d.keys.Nodup ∧
    ((d.get? i).map texts).getD [] = (texts v).filter fun s => ¬ RefersText s o := by
  cases v with
  | str s =>
    simp only [removeEntry, Option.map_eq_some_iff] at h
    obtain ⟨w, hw, rfl⟩ := h
    have hR : RefersText s o ↔ w = o := by
      unfold RefersText; simp only [ownerOf] at hw; rw [hw]; simp
    by_cases e : w = o
    · simp [e, Dict.keys, Dict.get?, texts, hR]
    · simp [e, Dict.keys, Dict.get?, texts, hR]
  | list vs =>
    simp only [removeEntry, Option.map_eq_some_iff] at h
    obtain ⟨l, hl, rfl⟩ := h
    refine ⟨by simp [Dict.keys], by simp [Dict.keys], ?_⟩
    rw [← filterOwned_texts hl]
    simp [Dict.get?]
  | _ => simp [removeEntry] at h; subst h; simp [Dict.keys, Dict.get?, texts]

theorem get?_append {α : Type} (d e : Dict α) (k : String) : Dict.get? (d ++ e) k = (d.get? k).or (e.get? k) := by
  induction d with
  | nil => simp [Dict.get?]
  | cons a d ih =>
    obtain ⟨k', v⟩ := a
    simp only [List.cons_append, Dict.get?]
    split
    · simp
    · exact ih

theorem removeIns_spec {o : String} {ins ins' : Dict Value} (hn : ins.keys.Nodup) (h : removeIns o ins = some ins') :
    ins'.keys.Sublist ins.keys ∧ ∀ i, ((ins'.get? i).map texts).getD [] =
      (((ins.get? i).map texts).getD []).filter fun s => ¬ RefersText s o := by
  unfold removeIns at h
  induction ins generalizing ins' with
  | nil => simp at h; subst h; simp [Dict.get?, Dict.keys]
  | cons e ins ih =>
    obtain ⟨i0, v0⟩ := e
    simp only [Dict.keys, List.map_cons, List.nodup_cons] at hn
    simp only [List.mapM_cons, Option.bind_eq_bind, Option.map_eq_some_iff, Option.bind_eq_some_iff, Option.pure_def,
      Option.some.injEq] at h
    obtain ⟨ds, ⟨d, hd, ds', hds', rfl⟩, rfl⟩ := h
    obtain ⟨h1, h2, h3⟩ := removeEntry_spec hd
    obtain ⟨h4, h5⟩ := ih hn.2 (ins' := ds'.flatten) (by rw [hds']; rfl)
    rw [List.flatten_cons]
    constructor
    · have : d.keys.Sublist [i0] := by
        match hd' : d.keys with
        | [] => simp
        | [x] => rw [hd'] at h1; simp at h1; simp [h1]
        | x :: y :: t =>
          rw [hd'] at h1 h2
          have e1 := h1 x (by simp)
          have e2 := h1 y (by simp)
          simp [e1, e2] at h2
      have := this.append h4
      simpa [Dict.keys] using this
    · intro i
      rw [get?_append]
      rw [show Dict.get? ((i0, v0) :: ins) i = if i0 = i then some v0 else Dict.get? ins i from rfl]
      by_cases e : i0 = i
      · subst e
        have : Dict.get? ds'.flatten i0 = none := Dict.get?_eq_none.2 fun hm => hn.1 (h4.subset hm)
        rw [this]
        simpa using h3
      · have : Dict.get? d i = none := Dict.get?_eq_none.2 fun hm => e (h1 i hm).symm
        rw [this]
        simpa [e] using h5 i

theorem removeFromObj_spec {o : String} {v v' : Value} (hn : InputsOk v) (h : removeFromObj o v = some v') :
    WithoutRefs [o] v v' ∧ InputsOk v' := by
  cases v with
  | dict pars =>
    simp only [removeFromObj] at h
    split at h
    · rename_i hno
      simp at h; subst h
      refine ⟨⟨.inl rfl, fun i => ?_⟩, hn⟩
      simp [inputTexts, hno]
    · rename_i ins hins
      simp only [Option.map_eq_some_iff] at h
      obtain ⟨ins', hi, rfl⟩ := h
      obtain ⟨h1, h2⟩ := removeIns_spec (hn pars ins rfl hins) hi
      refine ⟨⟨.inr ⟨pars, _, rfl, rfl, ?_, ?_⟩, ?_⟩, ?_⟩
      · apply Dict.keys_set_of_mem
        rw [← Dict.get?_isSome, hins]; rfl
      · intro k hk
        exact Dict.get?_set_ne _ _ hk
      · intro i
        simp only [inputTexts, Dict.get?_set_self, hins]
        simpa using h2 i
      · intro pars2 ins2 e he
        simp at e; subst e
        rw [Dict.get?_set_self] at he
        simp at he; subst he
        exact h1.nodup (hn pars ins rfl hins)
    · simp at h
  | _ => simp [removeFromObj] at h

theorem removeInputsRaw_spec {o : String} {ps ps' : RawParams} (hn : FileOk ps) (h : removeInputsRaw ps o = some ps') :
    ps'.keys = ps.keys ∧ FileOk ps' ∧
      ∀ n v, ps.get? n = some v → ∃ v', ps'.get? n = some v' ∧ WithoutRefs [o] v v' := by
  unfold removeInputsRaw at h
  induction ps generalizing ps' with
  | nil => simp at h; subst h; exact ⟨rfl, hn, by simp [Dict.get?]⟩
  | cons e ps ih =>
    obtain ⟨n0, v0⟩ := e
    simp only [List.mapM_cons, Option.bind_eq_bind, Option.bind_eq_some_iff, Option.pure_def, Option.map_eq_some_iff,
      Option.some.injEq] at h
    obtain ⟨_, ⟨v0', hv0, rfl⟩, ps1, hps1, rfl⟩ := h
    obtain ⟨hnd, hin⟩ := hn
    have hnd' := hnd
    simp only [Dict.keys, List.map_cons, List.nodup_cons] at hnd'
    obtain ⟨h1, h2, h3⟩ := ih ⟨hnd'.2, fun n v hm => hin n v (List.mem_cons_of_mem _ hm)⟩ hps1
    obtain ⟨g1, g2⟩ := removeFromObj_spec (hin n0 v0 (by simp)) hv0
    have hk : Dict.keys ((n0, v0') :: ps1) = Dict.keys ((n0, v0) :: ps) := by
      simp only [Dict.keys, List.map_cons] at h1 ⊢; rw [h1]
    refine ⟨hk, ⟨by rw [hk]; exact hnd, ?_⟩, ?_⟩
    · intro n v hm
      rcases List.mem_cons.1 hm with hm | hm
      · simp only [Prod.mk.injEq] at hm; rw [hm.2]; exact g2
      · exact h2.2 n v hm
    · intro n v hv
      rw [show Dict.get? ((n0, v0) :: ps) n = if n0 = n then some v0 else Dict.get? ps n from rfl] at hv
      rw [show Dict.get? ((n0, v0') :: ps1) n = if n0 = n then some v0' else Dict.get? ps1 n from rfl]
      split at hv
      · rename_i e
        simp at hv; subst hv
        exact ⟨v0', by simp [e], g1⟩
      · rename_i e
        obtain ⟨v', hv', hw⟩ := h3 n v hv
        exact ⟨v', by simp [e, hv'], hw⟩

theorem fileOk_del {ps : RawParams} (h : FileOk ps) (o : String) : FileOk (ps.del o) :=
  ⟨Dict.nodup_del h.1, fun n v hm => h.2 n v (List.mem_of_mem_filter hm)⟩

theorem remove_step {o : String} {ps ps' : RawParams} (hn : FileOk ps) (ho : o ∈ ps.keys)
    (h : removeInputsRaw (ps.del o) o = some ps') : Removed o ps ps' ∧ FileOk ps' := by
  obtain ⟨h1, h2, h3⟩ := removeInputsRaw_spec (fileOk_del hn o) h
  refine ⟨⟨ho, ?_, ?_⟩, h2⟩
  · rw [h1]
    unfold Dict.keys Dict.del
    rw [List.filter_map]
    congr 1
    apply List.filter_congr
    intro x _
    by_cases h : x.1 = o <;> simp [h]
  · intro n v hne hv
    apply h3 n v
    rw [Dict.get?_del, if_neg hne, hv]

theorem removeObjs_spec {os : List String} {ps ps' : RawParams} (hn : FileOk ps) (h : removeObjs os ps = some ps') :
    RemovedAll os ps ps' ∧ FileOk ps' := by
  induction os generalizing ps with
  | nil => simp [removeObjs] at h; subst h; exact ⟨.nil _, hn⟩
  | cons o os ih =>
    unfold removeObjs at h
    split at h
    · rename_i ho
      split at h
      · simp at h
      · rename_i ps1 h1
        obtain ⟨g1, g2⟩ := remove_step hn ho h1
        obtain ⟨g3, g4⟩ := ih g2 h
        exact ⟨.cons g1 g3, g4⟩
    · simp at h

/-- **C08**: removing an object from a file (a `remove` entry naming it) leaves every other object with the same
parameters, and with inputs that have lost exactly the references to the removed object, in the same order. -/
theorem C08_remove (ps ps' : RawParams) (o : String) (idx : Nat) (hn : FileOk ps)
    (h : combineParams idx ps [("remove", .list [.str o])] = some ps') :
    o ∈ ps.keys ∧ ps'.keys = ps.keys.filter (· ≠ o) ∧
    ∀ n v, n ≠ o → ps.get? n = some v → ∃ v', ps'.get? n = some v' ∧
      -- parameters other than inputs
      (v' = v ∨ ∃ pars pars', v = .dict pars ∧ v' = .dict pars' ∧ Dict.keys pars' = Dict.keys pars ∧
        ∀ k, k ≠ "inputs" → Dict.get? pars' k = Dict.get? pars k) ∧
      -- inputs
      (∀ i, inputTexts v' i = (inputTexts v i).filter fun s => ¬ RefersText s o) ∧
      (∀ i s, s ∈ inputTexts v' i → ¬ RefersText s o) := by
  have h' : removeObjs [o] ps = some ps' := by
    have : indexSuffix "remove" = none := by decide
    simpa [combineParams, combineEntry, this, combineNamed, iterNames] using h
  obtain ⟨h1, h2⟩ := removeObjs_spec hn h'
  cases h1 with
  | cons h1 t =>
    cases t
    refine ⟨h1.existed, h1.keys, ?_⟩
    intro n v hne hv
    obtain ⟨v', hv', hw⟩ := h1.others n v hne hv
    have hi : ∀ i, inputTexts v' i = (inputTexts v i).filter fun s => ¬ RefersText s o := by
      intro i; simpa using hw.inputs i
    refine ⟨v', hv', hw.pars, hi, ?_⟩
    intro i s hs
    rw [hi, List.mem_filter] at hs
    simpa using hs.2

/-! ### index suffixes -/

theorem dropWhile_append_of_all {α : Type} {p : α → Bool} {a b : List α} (h : ∀ x ∈ a, p x = true) :
    (a ++ b).dropWhile p = b.dropWhile p := by
  induction a with
  | nil => rfl
  | cons x xs ih => simp [h x (by simp), ih fun y hy => h y (List.mem_cons_of_mem _ hy)]

theorem takeWhile_append_of_all {α : Type} {p : α → Bool} {a b : List α} (h : ∀ x ∈ a, p x = true) :
    (a ++ b).takeWhile p = a ++ b.takeWhile p := by
  induction a with
  | nil => rfl
  | cons x xs ih => simp [h x (by simp), ih fun y hy => h y (List.mem_cons_of_mem _ hy)]

theorem indexSuffix_iff {name base : String} {n : Nat} : indexSuffix name = some (base, n) ↔ HasIndex name base n := by
  constructor
  · intro h
    unfold indexSuffix at h
    dsimp only at h
    split at h
    · rename_i b hb
      split at h
      · simp at h
      · rename_i hds
        simp only [Option.some.injEq, Prod.mk.injEq] at h
        obtain ⟨rfl, rfl⟩ := h
        refine ⟨(name.toList.reverse.takeWhile (·.isDigit)).reverse, by simpa using hds, ?_, ?_, rfl⟩
        · intro c hc
          rw [List.mem_reverse] at hc
          have := List.all_takeWhile (l := name.toList.reverse) (p := (·.isDigit))
          rw [List.all_eq_true] at this
          exact this c hc
        · have := List.takeWhile_append_dropWhile (l := name.toList.reverse) (p := (·.isDigit))
          rw [hb] at this
          have h2 := congrArg List.reverse this
          rw [List.reverse_reverse, List.reverse_append, List.reverse_cons] at h2
          conv_lhs => rw [← h2]
          simp
    · simp at h
  · rintro ⟨ds, hne, hd, he, rfl⟩
    unfold indexSuffix
    have hr : name.toList.reverse = ds.reverse ++ '_' :: base.toList.reverse := by rw [he]; simp
    have hd' : ∀ c ∈ ds.reverse, Char.isDigit c = true := fun c hc => hd c (List.mem_reverse.1 hc)
    have h1 : name.toList.reverse.dropWhile (·.isDigit) = '_' :: base.toList.reverse := by
      rw [hr, dropWhile_append_of_all hd', List.dropWhile_cons_of_neg (by decide)]
    have h2 : name.toList.reverse.takeWhile (·.isDigit) = ds.reverse := by
      rw [hr, takeWhile_append_of_all hd', List.takeWhile_cons_of_neg (by decide)]; simp
    simp only [h1, h2]
    rw [if_neg (by simpa using hne)]
    simp

theorem indexSuffix_none {name : String} : indexSuffix name = none ↔ ∀ b n, ¬ HasIndex name b n := by
  constructor
  · intro h b n hi
    rw [← indexSuffix_iff, h] at hi
    simp at hi
  · intro h
    cases e : indexSuffix name with
    | none => rfl
    | some x => exact absurd (indexSuffix_iff.1 e) (h x.1 x.2)

theorem endsWith_iff {name suf : String} : endsWith name suf = true ↔ ∃ b, name = b ++ suf := by
  unfold endsWith
  rw [List.isSuffixOf_iff_suffix]
  constructor
  · rintro ⟨t, ht⟩
    exact ⟨String.ofList t, by rw [← String.toList_inj]; simp [ht]⟩
  · rintro ⟨b, rfl⟩
    exact ⟨b.toList, by simp⟩

theorem iterNames_lists {v : Value} {os : List String} (h : iterNames v = some os) : Lists v os := by
  cases v with
  | list vs =>
    have : vs = os.map Value.str := by
      simp only [iterNames] at h
      induction vs generalizing os with
      | nil => simp at h; subst h; rfl
      | cons x xs ih =>
        simp only [List.mapM_cons, Option.bind_eq_bind, Option.bind_eq_some_iff, Option.pure_def, Option.some.injEq] at h
        obtain ⟨s, hs, r, hr, rfl⟩ := h
        cases x <;> simp at hs
        subst hs
        rw [List.map_cons, ← ih hr]
    rw [this]; exact .list os
  | dict kvs => simp only [iterNames, Option.some.injEq] at h; subst h; exact .dict kvs
  | str s => simp only [iterNames, Option.some.injEq] at h; subst h; exact .str s
  | _ => simp [iterNames] at h

theorem lists_iterNames {v : Value} {os : List String} (h : Lists v os) : iterNames v = some os := by
  cases h with
  | list =>
    simp only [iterNames]
    induction os with
    | nil => rfl
    | cons o os ih => simp [List.mapM_cons, ih]
  | dict => rfl
  | str => rfl

/-- one entry for object/keyword `base`, already without index -/
theorem combineNamed_spec {idx : Nat} {ps ps1 ps' : RawParams} {name base : String} {v : Value} {rest : Dict Value}
    (hn : FileOk ps) (hv : InputsOk v ∧ ∀ kvs, v = .dict kvs → (Dict.keys kvs).Nodup)
    (he : Effective idx name base) (h : combineNamed ps base v = some ps1) :
    FileOk ps1 ∧ (Combined idx ps1 rest ps' → Combined idx ps ((name, v) :: rest) ps') := by
  unfold combineNamed at h
  split at h
  · rename_i hb
    subst hb
    split at h
    · simp at h
    · rename_i os hos
      obtain ⟨h1, h2⟩ := removeObjs_spec hn h
      exact ⟨h2, fun t => .remove he (iterNames_lists hos) h1 t⟩
  · rename_i hb
    split at h
    · rename_i ho
      obtain ⟨b, rfl⟩ := endsWith_iff.1 ho
      have hb9 : String.ofList ((b ++ "_override").toList.take ((b ++ "_override").toList.length - 9)) = b := by
        rw [← String.toList_inj]; simp
      rw [hb9] at h
      dsimp only at h
      split at h
      · rename_i pars hp
        split at h
        · rename_i kvs
          simp only [Option.some.injEq] at h
          subst h
          have hbk : b ∈ ps.keys := by rw [← Dict.get?_isSome, hp]; rfl
          constructor
          · refine ⟨Dict.nodup_set hn.1, ?_⟩
            intro n w hm
            have hw := Dict.get?_of_mem (Dict.nodup_set hn.1) hm
            rw [Dict.get?_set] at hw
            split at hw
            · simp only [Option.some.injEq] at hw
              subst hw
              intro pars2 ins e1 e2
              simp only [Value.dict.injEq] at e1; subst e1
              rw [Dict.get?_update _ _ (hv.2 kvs rfl), Option.or_eq_some_iff] at e2
              rcases e2 with e2 | ⟨_, e2⟩
              · exact hv.1 kvs ins rfl e2
              · exact hn.2 b _ (Dict.mem_of_get? hp) pars ins rfl e2
            · exact hn.2 n w (Dict.mem_of_get? hw)
          · intro t
            refine .override he ⟨Dict.keys_set_of_mem hbk, fun n hne => Dict.get?_set_ne _ _ hne, pars, _, hp,
              Dict.get?_set_self _ _ _, ?_⟩ t
            intro k
            rw [Dict.get?_update _ _ (hv.2 kvs rfl)]
            split
            · rename_i hk
              obtain ⟨x, hx⟩ := Option.isSome_iff_exists.1 (Dict.get?_isSome.2 hk)
              rw [hx]; rfl
            · rename_i hk
              rw [Dict.get?_eq_none.2 hk]; rfl
        · simp at h
      · simp at h
    · rename_i ho
      split at h
      · simp at h
      · rename_i hnew
        simp only [Option.some.injEq] at h
        rw [Dict.keys_set_of_not_mem hnew] at h
        subst h
        constructor
        · refine ⟨?_, ?_⟩
          · rw [← Dict.keys_set_of_not_mem hnew]; exact Dict.nodup_set hn.1
          · intro n w hm
            rcases List.mem_append.1 hm with hm | hm
            · exact hn.2 n w hm
            · simp at hm; rw [hm.2]; exact hv.1
        · intro t
          exact .add he hb (fun b e => ho (endsWith_iff.2 ⟨b, e⟩)) hnew t

/-- **C09**: combining a file with an additional one either raises (`none`) or gives a file obtained entry by entry
according to `Combined`: entries for other simulation indices have no effect, `remove` entries remove existing objects
(with their inputs), `_override` entries update existing objects only, and everything else adds a *new* object. -/
theorem C09_combine (idx : Nat) (ps ps' : RawParams) (adds : Dict Value) (hn : FileOk ps)
    (ha : ∀ n v, (n, v) ∈ adds → InputsOk v ∧ ∀ kvs, v = .dict kvs → (Dict.keys kvs).Nodup)
    (h : combineParams idx ps adds = some ps') : Combined idx ps adds ps' := by
  unfold combineParams at h
  induction adds generalizing ps with
  | nil => simp at h; subst h; exact .done _
  | cons e rest ih =>
    obtain ⟨name, v⟩ := e
    rw [List.foldlM_cons] at h
    simp only [Option.bind_eq_bind, Option.bind_eq_some_iff] at h
    obtain ⟨ps1, h1, h2⟩ := h
    have hrest := fun n w hm => ha n w (List.mem_cons_of_mem _ hm)
    unfold combineEntry at h1
    split at h1
    · rename_i base i hi
      dsimp only at hi h1
      split at h1
      · rename_i hne
        simp at h1; subst h1
        exact .skip (indexSuffix_iff.1 hi) hne (ih _ hn hrest h2)
      · rename_i he
        simp only [ne_eq, Decidable.not_not] at he
        subst he
        obtain ⟨g1, g2⟩ := combineNamed_spec (rest := rest) (ps' := ps') hn (ha name v (by simp)) (.inl (indexSuffix_iff.1 hi)) h1
        exact g2 (ih _ g1 hrest h2)
    · rename_i hi
      dsimp only at hi h1
      obtain ⟨g1, g2⟩ := combineNamed_spec (rest := rest) (ps' := ps') hn (ha name v (by simp))
        (.inr ⟨rfl, indexSuffix_none.1 hi⟩) h1
      exact g2 (ih _ g1 hrest h2)

theorem effective_entry {idx : Nat} {name base : String} (he : Effective idx name base) (ps : RawParams) (v : Value) :
    combineEntry idx ps (name, v) = combineNamed ps base v := by
  unfold combineEntry
  rcases he with hi | ⟨rfl, hno⟩
  · rw [indexSuffix_iff.2 hi]; simp
  · rw [indexSuffix_none.2 hno]

theorem combine_at {idx : Nat} {ps ps1 : RawParams} {pre post : Dict Value} {e : String × Value}
    (hp : combineParams idx ps pre = some ps1) (h : combineEntry idx ps1 e = none) :
    combineParams idx ps (pre ++ e :: post) = none := by
  unfold combineParams at hp ⊢
  rw [List.foldlM_append, hp]
  simp [List.foldlM_cons, h]

/-- **C09**: overriding an object that does not exist at that point raises. -/
theorem C09_override_unknown_raises (idx : Nat) (ps ps1 : RawParams) (pre post : Dict Value) (name o : String) (v : Value)
    (hp : combineParams idx ps pre = some ps1) (he : Effective idx name (o ++ "_override")) (ho : o ∉ ps1.keys) :
    combineParams idx ps (pre ++ (name, v) :: post) = none := by
  refine combine_at hp ?_
  rw [effective_entry he]
  unfold combineNamed
  have h1 : o ++ "_override" ≠ "remove" := by
    intro h
    have := congrArg (fun s => s.toList.length) h
    simp at this
  have hb9 : String.ofList ((o ++ "_override").toList.take ((o ++ "_override").toList.length - 9)) = o := by
    rw [← String.toList_inj]; simp
  rw [if_neg h1, if_pos (endsWith_iff.2 ⟨o, rfl⟩), hb9]
  dsimp only
  rw [Dict.get?_eq_none.2 ho]

/-- **C09**: redefining an object that exists at that point raises. -/
theorem C09_redefine_raises (idx : Nat) (ps ps1 : RawParams) (pre post : Dict Value) (name o : String) (v : Value)
    (hp : combineParams idx ps pre = some ps1) (he : Effective idx name o) (hr : o ≠ "remove")
    (hov : ∀ b, o ≠ b ++ "_override") (ho : o ∈ ps1.keys) :
    combineParams idx ps (pre ++ (name, v) :: post) = none := by
  refine combine_at hp ?_
  rw [effective_entry he]
  unfold combineNamed
  rw [if_neg hr, if_neg (by rw [endsWith_iff]; rintro ⟨b, e⟩; exact hov b e), if_pos ho]

theorem removedAll_keys {os : List String} {ps ps' : RawParams} (h : RemovedAll os ps ps') :
    (∀ o ∈ os, o ∈ ps.keys) ∧ ∀ n, n ∈ ps'.keys ↔ n ∈ ps.keys ∧ n ∉ os := by
  induction h with
  | nil => simp
  | @cons o os ps ps1 ps' h t ih =>
    constructor
    · intro o' ho'
      rcases List.mem_cons.1 ho' with rfl | ho'
      · exact h.existed
      · have := ih.1 o' ho'
        rw [h.keys] at this
        exact List.mem_of_mem_filter this
    · intro n
      rw [ih.2, h.keys]
      simp
      tauto

/-- **C09**: removing an object that does not exist at that point raises. -/
theorem C09_remove_unknown_raises (idx : Nat) (ps ps1 : RawParams) (pre post : Dict Value) (name o : String)
    (v : Value) (os : List String) (hp : combineParams idx ps pre = some ps1) (hn : FileOk ps1)
    (he : Effective idx name "remove") (hl : Lists v os) (hos : o ∈ os) (ho : o ∉ ps1.keys) :
    combineParams idx ps (pre ++ (name, v) :: post) = none := by
  refine combine_at hp ?_
  rw [effective_entry he]
  unfold combineNamed
  rw [if_pos rfl]
  rw [lists_iterNames hl]
  dsimp only
  rw [← Option.not_isSome_iff_eq_none, Option.isSome_iff_exists]
  rintro ⟨ps2, h2⟩
  exact ho ((removedAll_keys (removeObjs_spec hn h2).1).1 o hos)

theorem withoutRefs_refl (v : Value) : WithoutRefs [] v v := ⟨.inl rfl, fun i => by simp⟩

theorem withoutRefs_trans {os os' : List String} {v v1 v2 : Value} (h1 : WithoutRefs os v v1) (h2 : WithoutRefs os' v1 v2) :
    WithoutRefs (os ++ os') v v2 := by
  constructor
  · rcases h1.pars with rfl | ⟨p, p1, rfl, rfl, hk, hg⟩
    · exact h2.pars
    · rcases h2.pars with rfl | ⟨q, q1, e, rfl, hk', hg'⟩
      · exact .inr ⟨p, p1, rfl, rfl, hk, hg⟩
      · simp only [Value.dict.injEq] at e; subst e
        exact .inr ⟨p, q1, rfl, rfl, hk'.trans hk, fun k h => (hg' k h).trans (hg k h)⟩
  · intro i
    rw [h2.inputs, h1.inputs, List.filter_filter]
    apply List.filter_congr
    intro s _
    simp only [List.mem_append, decide_eq_decide, ← Bool.decide_and]
    constructor
    · rintro ⟨a, b⟩ o (h | h)
      · exact b o h
      · exact a o h
    · intro h
      exact ⟨fun o ho => h o (.inr ho), fun o ho => h o (.inl ho)⟩

theorem removedAll_others {os : List String} {ps ps' : RawParams} (h : RemovedAll os ps ps') {c : String} (hc : c ∉ os)
    {v : Value} (hv : ps.get? c = some v) : ∃ v', ps'.get? c = some v' ∧ WithoutRefs os v v' := by
  induction h generalizing v with
  | nil => exact ⟨v, hv, withoutRefs_refl v⟩
  | @cons o os ps ps1 ps' h t ih =>
    simp only [List.mem_cons, not_or] at hc
    obtain ⟨v1, h1, w1⟩ := h.others c v hc.1 hv
    obtain ⟨v2, h2, w2⟩ := ih hc.2 h1
    exact ⟨v2, h2, withoutRefs_trans w1 w2⟩

/-- **C09** (frame): an object of the original file that is neither overridden nor removed by an entry applying to this
simulation is still there, with the same parameters, its inputs having lost exactly the references to removed objects. -/
theorem C09_others_unchanged (idx : Nat) (ps ps' : RawParams) (adds : Dict Value) (hn : FileOk ps)
    (ha : ∀ n v, (n, v) ∈ adds → InputsOk v ∧ ∀ kvs, v = .dict kvs → (Dict.keys kvs).Nodup)
    (h : combineParams idx ps adds = some ps') (c : String) (v : Value) (hc : ps.get? c = some v)
    (hov : ∀ name w, (name, w) ∈ adds → ¬ Effective idx name (c ++ "_override"))
    (hrm : ∀ name w os, (name, w) ∈ adds → Effective idx name "remove" → Lists w os → c ∉ os) :
    ∃ os v', ps'.get? c = some v' ∧ WithoutRefs os v v' ∧
      ∀ o, o ∈ os ↔ ∃ name w l, (name, w) ∈ adds ∧ Effective idx name "remove" ∧ Lists w l ∧ o ∈ l := by
  have hC := C09_combine idx ps ps' adds hn ha h
  clear h ha hn
  -- determinism of the classification of names
  have heff : ∀ name a b, Effective idx name a → Effective idx name b → a = b := by
    intro name a b h1 h2
    rcases h1 with h1 | ⟨rfl, h1⟩
    · rcases h2 with h2 | ⟨rfl, h2⟩
      · have := indexSuffix_iff.2 h1
        rw [indexSuffix_iff.2 h2] at this
        simp at this; exact this.symm
      · exact absurd h1 (h2 _ _)
    · rcases h2 with h2 | ⟨rfl, h2⟩
      · exact absurd h2 (h1 _ _)
      · rfl
  have hskip : ∀ name base n a, HasIndex name base n → n ≠ idx → ¬ Effective idx name a := by
    intro name base n a hi hne he
    rcases he with he | ⟨_, he⟩
    · have := indexSuffix_iff.2 hi
      rw [indexSuffix_iff.2 he] at this
      simp at this; exact hne this.2.symm
    · exact he _ _ hi
  have hlists : ∀ w l l', Lists w l → Lists w l' → l = l' := by
    intro w l l' h1 h2
    have := lists_iterNames h1
    rw [lists_iterNames h2] at this
    simpa using this.symm
  -- an entry that is not a removal contributes nothing to the list of removed objects
  have hnot : ∀ (name : String) (w : Value) (rest : Dict Value) (os : List String), ¬ Effective idx name "remove" →
      (∀ o, o ∈ os ↔ ∃ name w l, (name, w) ∈ rest ∧ Effective idx name "remove" ∧ Lists w l ∧ o ∈ l) →
      (∀ o, o ∈ os ↔ ∃ name' w' l, (name', w') ∈ (name, w) :: rest ∧ Effective idx name' "remove" ∧ Lists w' l ∧ o ∈ l) := by
    intro name w rest os hne hos o
    rw [hos o]
    constructor
    · rintro ⟨n, w', l, hm, h⟩
      exact ⟨n, w', l, List.mem_cons_of_mem _ hm, h⟩
    · rintro ⟨n, w', l, hm, h⟩
      rcases List.mem_cons.1 hm with hm | hm
      · simp only [Prod.mk.injEq] at hm
        exact absurd (hm.1 ▸ h.1) hne
      · exact ⟨n, w', l, hm, h⟩
  induction hC generalizing v with
  | done => exact ⟨[], v, hc, withoutRefs_refl v, by simp⟩
  | @skip ps ps' name base n w rest hi hne t ih =>
    obtain ⟨os, v', h1, h2, h3⟩ := ih v hc (fun n w hm => hov n w (List.mem_cons_of_mem _ hm))
      (fun n w l hm => hrm n w l (List.mem_cons_of_mem _ hm))
    exact ⟨os, v', h1, h2, hnot _ _ _ _ (hskip _ _ _ _ hi hne) h3⟩
  | @remove ps ps1 ps' name w l rest he hl h t ih =>
    obtain ⟨v1, hv1, w1⟩ := removedAll_others h (hrm name w l (by simp) he hl) hc
    obtain ⟨os, v', h1, h2, h3⟩ := ih v1 hv1 (fun n w hm => hov n w (List.mem_cons_of_mem _ hm))
      (fun n w l hm => hrm n w l (List.mem_cons_of_mem _ hm))
    refine ⟨l ++ os, v', h1, withoutRefs_trans w1 h2, ?_⟩
    intro o
    rw [List.mem_append, h3]
    constructor
    · rintro (ho | ⟨n, w', l', hm, h⟩)
      · exact ⟨name, w, l, by simp, he, hl, ho⟩
      · exact ⟨n, w', l', List.mem_cons_of_mem _ hm, h⟩
    · rintro ⟨n, w', l', hm, hn, hl', ho⟩
      rcases List.mem_cons.1 hm with hm | hm
      · simp only [Prod.mk.injEq] at hm
        rw [hm.2] at hl'
        exact .inl (hlists _ _ _ hl' hl ▸ ho)
      · exact .inr ⟨n, w', l', hm, hn, hl', ho⟩
  | @override ps ps1 ps' name o kvs rest he h t ih =>
    have hco : c ≠ o := by
      rintro rfl
      exact hov name _ (List.mem_cons_self ..) he
    obtain ⟨os, v', h1, h2, h3⟩ := ih v (by rw [h.others c hco]; exact hc) (fun n w hm => hov n w (List.mem_cons_of_mem _ hm))
      (fun n w l hm => hrm n w l (List.mem_cons_of_mem _ hm))
    refine ⟨os, v', h1, h2, hnot _ _ _ _ ?_ h3⟩
    intro h'
    have := congrArg (fun s => s.toList.length) (heff _ _ _ he h')
    simp at this
  | @add ps ps' name o w rest he hr ho hnew t ih =>
    have hg : Dict.get? (ps ++ [(o, w)]) c = some v := by rw [get?_append, hc]; rfl
    obtain ⟨os, v', h1, h2, h3⟩ := ih v hg (fun n w hm => hov n w (List.mem_cons_of_mem _ hm))
      (fun n w l hm => hrm n w l (List.mem_cons_of_mem _ hm))
    refine ⟨os, v', h1, h2, hnot _ _ _ _ ?_ h3⟩
    intro h'
    exact hr (heff _ _ _ he h')

/-! A concrete case: `dm` reads `ctrl` with a delay, `store` reads a list. -/

def combineBase : RawParams :=
  [("atmo", .dict [("class", .str "Atmo"), ("L0", .num 40)]),
   ("ctrl", .dict [("class", .str "Integrator"), ("inputs", .dict [("delta_comm", .str "atmo.out")])]),
   ("dm", .dict [("class", .str "DM"), ("inputs", .dict [("in_command", .str "ctrl.out_comm:-1")])]),
   ("store", .dict [("inputs", .dict [("input_list", .list [.str "c-ctrl.out_comm", .str "a-atmo.out"])])])]

def combineAdds : Dict Value :=
  [("atmo_override", .dict [("L0", .num 25), ("inputs", .dict [])]),
   ("remove_1", .list [.str "dm"]), ("dm_override_2", .dict []), ("remove", .list [.str "ctrl"]),
   ("ctrl", .dict [("class", .str "IirFilter")])]

example : combineParams 0 combineBase combineAdds = some
    [("atmo", .dict [("class", .str "Atmo"), ("L0", .num 25), ("inputs", .dict [])]),
     ("dm", .dict [("class", .str "DM"), ("inputs", .dict [])]),
     ("store", .dict [("inputs", .dict [("input_list", .list [.str "a-atmo.out"])])]),
     ("ctrl", .dict [("class", .str "IirFilter")])] := by rfl

theorem combineBase_ok : FileOk combineBase := by
  refine ⟨by decide, ?_⟩
  intro n v hm pars ins e he
  simp only [combineBase, List.mem_cons, Prod.mk.injEq, List.not_mem_nil, or_false] at hm
  rcases hm with ⟨-, rfl⟩ | ⟨-, rfl⟩ | ⟨-, rfl⟩ | ⟨-, rfl⟩ <;> simp only [Value.dict.injEq] at e <;> subst e <;>
    simp [Dict.get?] at he <;> subst he <;> simp [Dict.keys]

theorem combineAdds_ok : ∀ n v, (n, v) ∈ combineAdds → InputsOk v ∧ ∀ kvs, v = .dict kvs → (Dict.keys kvs).Nodup := by
  intro n v hm
  simp only [combineAdds, List.mem_cons, Prod.mk.injEq, List.not_mem_nil, or_false] at hm
  rcases hm with ⟨-, rfl⟩ | ⟨-, rfl⟩ | ⟨-, rfl⟩ | ⟨-, rfl⟩ | ⟨-, rfl⟩
  all_goals refine ⟨?_, ?_⟩
  all_goals first
    | (intro pars ins e he; simp at e; done)
    | (intro pars ins e he; simp only [Value.dict.injEq] at e; subst e; simp [Dict.get?] at he; done)
    | (intro pars ins e he; simp only [Value.dict.injEq] at e; subst e; simp [Dict.get?] at he; subst he; simp [Dict.keys])
    | (intro kvs e; simp only [Value.dict.injEq] at e; subst e; simp [Dict.keys])
    | (intro kvs e; simp at e)

/-- the hypotheses of `C09_combine` are met by a non-trivial case -/
example : ∃ ps', Combined 0 combineBase combineAdds ps' :=
  ⟨_, C09_combine 0 combineBase _ combineAdds combineBase_ok combineAdds_ok rfl⟩

theorem effective_iff {idx : Nat} {name b : String} : Effective idx name b ↔
    (match indexSuffix name with | some (b', n) => if n = idx then some b' else none | none => some name) = some b := by
  unfold Effective
  constructor
  · rintro (h | ⟨rfl, h⟩)
    · rw [indexSuffix_iff.2 h]; simp
    · rw [indexSuffix_none.2 h]
  · intro h
    split at h
    · rename_i b' n hi
      split at h
      · rename_i e
        simp at h; subst h; subst e
        exact .inl (indexSuffix_iff.1 hi)
      · simp at h
    · rename_i hi
      simp at h
      exact .inr ⟨h.symm, indexSuffix_none.1 hi⟩

/-- those of `C09_others_unchanged`, for the object `store` -/
example : (∀ name w, (name, w) ∈ combineAdds → ¬ Effective 0 name ("store" ++ "_override")) ∧
    (∀ name w os, (name, w) ∈ combineAdds → Effective 0 name "remove" → Lists w os → "store" ∉ os) := by
  constructor
  · intro name w hm
    rw [effective_iff]
    simp only [combineAdds, List.mem_cons, Prod.mk.injEq, List.not_mem_nil, or_false] at hm
    rcases hm with ⟨rfl, -⟩ | ⟨rfl, -⟩ | ⟨rfl, -⟩ | ⟨rfl, -⟩ | ⟨rfl, -⟩ <;> decide
  · intro name w os hm he hl
    rw [effective_iff] at he
    simp only [combineAdds, List.mem_cons, Prod.mk.injEq, List.not_mem_nil, or_false] at hm
    rcases hm with ⟨rfl, -⟩ | ⟨rfl, -⟩ | ⟨rfl, -⟩ | ⟨rfl, rfl⟩ | ⟨rfl, -⟩
    · exact absurd he (by decide)
    · exact absurd he (by decide)
    · exact absurd he (by decide)
    · have h : some os = some ["ctrl"] := (lists_iterNames hl).symm.trans rfl
      simp only [Option.some.injEq] at h
      rw [h]; decide
    · exact absurd he (by decide)

/-- and those of the raising theorems -/
example : combineParams 0 combineBase [("wfs_override", .dict [])] = none :=
  C09_override_unknown_raises 0 combineBase combineBase [] [] "wfs_override" "wfs" _ rfl
    (.inr ⟨by decide, indexSuffix_none.1 (by decide)⟩) (by decide)

example : combineParams 3 combineBase [("dm_3", .dict [])] = none :=
  C09_redefine_raises 3 combineBase combineBase [] [] "dm_3" "dm" _ rfl (.inl (indexSuffix_iff.1 (by decide))) (by decide)
    (fun b h => by have := congrArg (fun s => s.toList.length) h; simp at this) (by decide)

example : combineParams 0 combineBase [("remove", .list [.str "dm", .str "dm"])] = none := by rfl

end Specula
