import Verif.Model.Store
import Mathlib.Data.List.Induction
import Mathlib.Data.List.Basic
import Mathlib.Tactic.Ring
/-
C25: stored telemetry is exactly the (downsampled) history.
-/
namespace Specula

variable {V : Type}

/-- The triggers at or after the start time. -/
def activeSteps (start : Int) (xs : List (FreshStep V)) : List (FreshStep V) := xs.filter fun x => decide (start ≤ x.time)

/-- The samples of an input received by a list of triggers, each with its time. -/
def receivedOf (k : String) (xs : List (FreshStep V)) : List (Int × V) :=
  xs.filterMap fun x => (x.fresh k).map fun v => (x.time, v)

/-- One element every `n`, the first included. -/
def everyNth {α : Type} (n : Nat) (l : List α) : List α := (l.zipIdx.filter fun p => decide (p.2 % n = 0)).map (·.1)

/-- What trigger `i` (counted from the start time) should store for an input: its sample, if the number of samples received
before is a multiple of the downsampling factor. -/
def storedAt (every : Nat) (k : String) (act : List (FreshStep V)) (i : Nat) : Option (Int × V) :=
  act[i]?.bind fun x => (x.fresh k).bind fun v =>
    if (receivedOf k (act.take i)).length % every = 0 then some (x.time, v) else none

theorem storedAt_append {every : Nat} {k : String} {act : List (FreshStep V)} (x : FreshStep V) {i : Nat} (h : i < act.length) :
    storedAt every k (act ++ [x]) i = storedAt every k act i := by
  unfold storedAt
  rw [List.getElem?_append_left h, List.take_append_of_le_length (by omega)]

theorem storedAt_last {every : Nat} {k : String} {act : List (FreshStep V)} (x : FreshStep V) :
    storedAt every k (act ++ [x]) act.length =
      (x.fresh k).bind fun v => if (receivedOf k act).length % every = 0 then some (x.time, v) else none := by
  unfold storedAt
  simp

theorem filterMap_storedAt_append {every : Nat} {k : String} {act : List (FreshStep V)} (x : FreshStep V) {a m : Nat}
    (h : a + m ≤ act.length) :
    (List.range' a m).filterMap (storedAt every k (act ++ [x])) = (List.range' a m).filterMap (storedAt every k act) := by
  apply List.filterMap_congr
  intro i hi
  have := List.mem_range'_1.1 hi
  exact storedAt_append x (by omega)

theorem odSet_append {t : Int} {v : V} {l : List (Int × V)} (h : ∀ p ∈ l, p.1 < t) : odSet t v l = l ++ [(t, v)] := by
  induction l with
  | nil => rfl
  | cons p l ih =>
    have h1 := h p (by simp)
    rw [odSet, if_neg (by omega), ih (fun q hq => h q (by simp [hq]))]
    rfl

theorem odSet_last {t : Int} {v w : V} {l : List (Int × V)} (h : ∀ p ∈ l, p.1 < t) : odSet t v (l ++ [(t, w)]) = l ++ [(t, v)] := by
  induction l with
  | nil => simp [odSet]
  | cons p l ih =>
    have h1 := h p (by simp)
    rw [List.cons_append, odSet, if_neg (by omega), ih (fun q hq => h q (by simp [hq]))]
    rfl

theorem storedAt_time {every : Nat} {k : String} {act : List (FreshStep V)} {i : Nat} {p : Int × V}
    (h : storedAt every k act i = some p) : ∃ x ∈ act, x.time = p.1 := by
  unfold storedAt at h
  obtain ⟨x, hx, h⟩ := Option.bind_eq_some_iff.1 h
  obtain ⟨v, hv, h⟩ := Option.bind_eq_some_iff.1 h
  split at h
  · rw [← Option.some.inj h]
    exact ⟨x, List.mem_of_getElem? hx, rfl⟩
  · simp at h

theorem receivedOf_append (k : String) (xs : List (FreshStep V)) (x : FreshStep V) :
    receivedOf k (xs ++ [x]) = receivedOf k xs ++ ((x.fresh k).map fun v => (x.time, v)).toList := by
  unfold receivedOf
  rw [List.filterMap_append]
  cases h : x.fresh k <;> simp [h]

/-- The state after a run, in terms of `storedAt`. -/
theorem storeRun_state (c : StoreCfg) (xs : List (FreshStep V)) (hinc : (xs.map (·.time)).Pairwise (· < ·)) :
    storeRun c xs StoreState.init =
      { counters := fun k => (receivedOf k (activeSteps c.start xs)).length
        storage := fun k => (List.range' ((activeSteps c.start xs).length / c.split * c.split)
            ((activeSteps c.start xs).length % c.split)).filterMap (storedAt (c.every k) k (activeSteps c.start xs))
        iter := (activeSteps c.start xs).length
        chunks := (List.range ((activeSteps c.start xs).length / c.split)).map fun j =>
          ⟨j * c.split + c.firstSuffix,
            fun k => (List.range' (j * c.split) c.split).filterMap (storedAt (c.every k) k (activeSteps c.start xs))⟩ } := by
  induction xs using List.reverseRecOn with
  | nil => simp [storeRun, StoreState.init, activeSteps, receivedOf]
  | append_singleton xs x ih =>
    rw [List.map_append, List.pairwise_append] at hinc
    obtain ⟨hinc, -, hlast⟩ := hinc
    have ih := ih hinc
    have hrun : storeRun c (xs ++ [x]) StoreState.init = storeTrigger c x (storeRun c xs StoreState.init) := by
      simp [storeRun, List.foldl_append]
    rw [hrun, ih]
    by_cases hx : x.time < c.start
    · have hact : activeSteps c.start (xs ++ [x]) = activeSteps c.start xs := by
        unfold activeSteps; rw [List.filter_append]; simp; omega
      rw [hact, storeTrigger, if_pos hx]
    · have hact : activeSteps c.start (xs ++ [x]) = activeSteps c.start xs ++ [x] := by
        unfold activeSteps; rw [List.filter_append]; simp; omega
      have htimes : ∀ y ∈ activeSteps c.start xs, y.time < x.time := by
        intro y hy
        exact hlast y.time (List.mem_map.2 ⟨y, (List.mem_filter.1 hy).1, rfl⟩) x.time (by simp)
      rw [hact, storeTrigger, if_neg hx]
      generalize activeSteps c.start xs = act at htimes
      have hdm : act.length / c.split * c.split + act.length % c.split = act.length := by
        rw [Nat.mul_comm]; exact Nat.div_add_mod _ _
      have hrange : List.range' (act.length / c.split * c.split) (act.length % c.split + 1) =
          List.range' (act.length / c.split * c.split) (act.length % c.split) ++ [act.length] := by
        rw [List.range'_concat, Nat.one_mul, hdm]
      -- the storage after the loop over the inputs
      have hstorage : ∀ k, storeInput x.time (c.every k) (receivedOf k act).length (x.fresh k)
            ((List.range' (act.length / c.split * c.split) (act.length % c.split)).filterMap (storedAt (c.every k) k act)) =
          (List.range' (act.length / c.split * c.split) (act.length % c.split + 1)).filterMap
            (storedAt (c.every k) k (act ++ [x])) := by
        intro k
        rw [hrange, List.filterMap_append, filterMap_storedAt_append x (by omega), List.filterMap_cons, List.filterMap_nil,
          storedAt_last]
        cases hf : x.fresh k with
        | none => simp [storeInput]
        | some v =>
          rw [storeInput]
          by_cases hc : (receivedOf k act).length % c.every k = 0
          · simp only [hc, if_true, Option.bind_some]
            apply odSet_append
            intro p hp
            obtain ⟨i, -, hi⟩ := List.mem_filterMap.1 hp
            obtain ⟨y, hy, hyt⟩ := storedAt_time hi
            rw [← hyt]; exact htimes y hy
          · simp [hc]
      have hcount : ∀ k, (if (x.fresh k).isSome = true then (receivedOf k act).length + 1 else (receivedOf k act).length) =
          (receivedOf k (act ++ [x])).length := by
        intro k
        rw [receivedOf_append]
        cases x.fresh k <;> simp
      have hchunks : ∀ m, m ≤ act.length / c.split → (List.range m).map (fun j => (⟨j * c.split + c.firstSuffix,
            fun k => (List.range' (j * c.split) c.split).filterMap (storedAt (c.every k) k (act ++ [x]))⟩ : Chunk V)) =
          (List.range m).map fun j => ⟨j * c.split + c.firstSuffix,
            fun k => (List.range' (j * c.split) c.split).filterMap (storedAt (c.every k) k act)⟩ := by
        intro m hm
        apply List.map_congr_left
        intro j hj
        have hj := List.mem_range.1 hj
        congr 1
        funext k
        apply filterMap_storedAt_append
        have h1 : (j + 1) * c.split ≤ act.length / c.split * c.split := Nat.mul_le_mul_right _ (by omega)
        have h1' : (j + 1) * c.split = j * c.split + c.split := by ring
        omega
      simp only [storeInputs, hcount, hstorage, List.length_append, List.length_singleton]
      by_cases hsp : c.split > 0
      · rw [if_pos hsp]
        have hlt := Nat.mod_lt act.length hsp
        by_cases hd : (act.length + 1) % c.split = 0
        · have hdvd := Nat.dvd_of_mod_eq_zero hd
          have hdiv : (act.length + 1) / c.split = act.length / c.split + 1 := by rw [Nat.succ_div, if_pos hdvd]
          have hmul : (act.length / c.split + 1) * c.split = act.length + 1 := by
            rw [← hdiv]; exact Nat.div_mul_cancel hdvd
          have hmul' : act.length / c.split * c.split + c.split = act.length + 1 := by rw [← hmul]; ring
          have hm : act.length % c.split + 1 = c.split := by omega
          rw [if_pos hd]
          simp only [hdiv, hd, List.range'_zero, List.filterMap_nil, List.range_succ, List.map_append, List.map_cons,
            List.map_nil, hm]
          rw [hchunks _ (le_refl _)]
          have e : act.length + 1 - c.split = act.length / c.split * c.split := by omega
          rw [e]
        · have hnd : ¬ c.split ∣ act.length + 1 := fun h => hd (Nat.mod_eq_zero_of_dvd h)
          have hdiv : (act.length + 1) / c.split = act.length / c.split := by rw [Nat.succ_div, if_neg hnd, Nat.add_zero]
          have hmod : (act.length + 1) % c.split = act.length % c.split + 1 := by
            have h1 : act.length % c.split + 1 ≠ c.split := by
              intro h
              apply hnd
              exact ⟨act.length / c.split + 1, by rw [Nat.mul_add, Nat.mul_comm c.split]; omega⟩
            rw [Nat.add_mod, Nat.mod_eq_of_lt (show 1 < c.split by omega), Nat.mod_eq_of_lt (by omega)]
          rw [if_neg hd]
          simp only [hdiv, hmod]
          rw [hchunks _ (le_refl _)]
      · have h0 : c.split = 0 := by omega
        simp only [h0, Nat.div_zero, Nat.mod_zero, Nat.mul_zero, List.range_zero, List.map_nil]
        simp

theorem everyNth_append {α : Type} (n : Nat) (l : List α) (a : α) :
    everyNth n (l ++ [a]) = everyNth n l ++ if l.length % n = 0 then [a] else [] := by
  unfold everyNth
  rw [List.zipIdx_append, List.filter_append, List.map_append]
  simp only [List.zipIdx_cons, List.zipIdx_nil, Nat.zero_add]
  by_cases h : l.length % n = 0 <;> simp [h]

theorem everyNth_one {α : Type} (l : List α) : everyNth 1 l = l := by
  unfold everyNth
  simp [Nat.mod_one]

/-- All triggers together store one received sample every `every`. -/
theorem storedAt_all (every : Nat) (k : String) (act : List (FreshStep V)) :
    (List.range act.length).filterMap (storedAt every k act) = everyNth every (receivedOf k act) := by
  induction act using List.reverseRecOn with
  | nil => rfl
  | append_singleton act x ih =>
    rw [List.length_append, List.length_singleton, List.range_succ, List.filterMap_append, List.range_eq_range',
      filterMap_storedAt_append x (by omega), ← List.range_eq_range', ih, receivedOf_append, List.filterMap_cons, storedAt_last]
    cases hf : x.fresh k with
    | none => simp
    | some v =>
      simp only [Option.map_some, Option.toList_some, everyNth_append, Option.bind_some, List.filterMap_nil]
      by_cases hc : (receivedOf k act).length % every = 0 <;> simp [hc]

/-- What the additional trigger of `finalize` finds on an input: the current time is still that of the last iteration, so
either nothing fresh, or the sample that was fresh at the last trigger. -/
def FinalOf (k : String) (xs : List (FreshStep V)) (fin : FreshStep V) : Prop :=
  fin.fresh k = none ∨ ∃ ys x, xs = ys ++ [x] ∧ x.time = fin.time ∧ x.fresh k = fin.fresh k

theorem mem_everyNth {α : Type} {n : Nat} {l : List α} {a : α} (h : a ∈ everyNth n l) : a ∈ l := by
  unfold everyNth at h
  obtain ⟨p, hp, rfl⟩ := List.mem_map.1 h
  exact List.mem_of_getElem? (List.mem_zipIdx_iff_getElem?.1 (List.mem_filter.1 hp).1)

theorem mem_receivedOf_time {k : String} {xs : List (FreshStep V)} {p : Int × V} (h : p ∈ receivedOf k xs) : ∃ x ∈ xs, x.time = p.1 := by
  unfold receivedOf at h
  obtain ⟨x, hx, h⟩ := List.mem_filterMap.1 h
  obtain ⟨v, -, rfl⟩ := Option.map_eq_some_iff.1 h
  exact ⟨x, hx, rfl⟩

/-- The sample that the additional trigger at the end may add for an input. -/
def extraSample (start : Int) (every : Nat) (k : String) (xs : List (FreshStep V)) (fin : FreshStep V) : List (Int × V) :=
  if every ≠ 1 ∧ start ≤ fin.time ∧ every ∣ (receivedOf k (activeSteps start xs)).length then
    ((fin.fresh k).map fun v => (fin.time, v)).toList
  else []

/-- What is in memory for an input after the additional trigger, when nothing has been saved since the start. -/
theorem storeInput_final (start : Int) (every : Nat) (k : String) (xs : List (FreshStep V))
    (hinc : (xs.map (·.time)).Pairwise (· < ·)) (fin : FreshStep V) (hfin : FinalOf k xs fin) (hs : start ≤ fin.time) :
    storeInput fin.time every (receivedOf k (activeSteps start xs)).length (fin.fresh k)
        (everyNth every (receivedOf k (activeSteps start xs))) =
      everyNth every (receivedOf k (activeSteps start xs)) ++ extraSample start every k xs fin := by
  unfold extraSample
  rcases hfin with hf | ⟨ys, x, rfl, ht, hx⟩
  · simp [hf, storeInput]
  · cases hf : fin.fresh k with
    | none => simp [storeInput]
    | some v =>
      have hact : activeSteps start (ys ++ [x]) = activeSteps start ys ++ [x] := by
        unfold activeSteps; rw [List.filter_append]; simp; omega
      rw [List.map_append, List.pairwise_append] at hinc
      have htimes : ∀ p ∈ everyNth every (receivedOf k (activeSteps start ys)), p.1 < fin.time := by
        intro p hp
        obtain ⟨y, hy, hyt⟩ := mem_receivedOf_time (mem_everyNth hp)
        rw [← hyt, ← ht]
        exact hinc.2.2 y.time (List.mem_map.2 ⟨y, (List.mem_filter.1 hy).1, rfl⟩) x.time (by simp)
      rw [hact, receivedOf_append, hx, hf]
      simp only [Option.map_some, Option.toList_some, List.length_append, List.length_singleton, everyNth_append, ht, hs,
        true_and, storeInput, Nat.dvd_iff_mod_eq_zero]
      generalize (receivedOf k (activeSteps start ys)).length = n
      by_cases h1 : every = 1
      · subst h1
        simp only [Nat.mod_one, if_true, ne_eq, not_true_eq_false, false_and, if_false, List.append_nil]
        exact odSet_last htimes
      · by_cases h2 : (n + 1) % every = 0
        · have h3 : n % every ≠ 0 := by
            intro h3
            have h4 := Nat.dvd_of_mod_eq_zero h2
            have h5 := Nat.dvd_of_mod_eq_zero h3
            have h6 : every ∣ 1 := (Nat.dvd_add_right h5).1 h4
            exact h1 (Nat.dvd_one.1 h6)
          simp only [h2, h3, if_true, if_false, List.append_nil, ne_eq, h1, not_false_eq_true, and_self]
          exact odSet_append htimes
        · simp [h2]

/-- **C25** (no splitting): one directory is saved; it contains for each input one received sample every `every`, from the
first one at or after the start time, each with the time it was produced, in order of time; and, when the downsampling factor
is not 1 and divides the number of received samples, the sample of the last iteration. -/
theorem C25_no_split (c : StoreCfg) (h0 : c.split = 0) (xs : List (FreshStep V)) (hinc : (xs.map (·.time)).Pairwise (· < ·))
    (fin : FreshStep V) :
    ∃ chunk : Chunk V, storeSaved c xs fin = [chunk] ∧ ∀ k, FinalOf k xs fin →
      chunk.data k = everyNth (c.every k) (receivedOf k (activeSteps c.start xs)) ++ extraSample c.start (c.every k) k xs fin := by
  unfold storeSaved storeFinalize
  rw [storeRun_state c xs hinc]
  simp only [h0, Nat.div_zero, Nat.mod_zero, Nat.mul_zero, List.range_zero, List.map_nil, if_true, ← List.range_eq_range',
    storedAt_all]
  unfold storeTrigger
  by_cases hs : fin.time < c.start
  · simp only [hs, if_true]
    refine ⟨_, rfl, fun k _ => ?_⟩
    have : extraSample c.start (c.every k) k xs fin = [] := by
      unfold extraSample; rw [if_neg (by omega)]
    simp [this]
  · simp only [hs, if_false, h0, gt_iff_lt, Nat.lt_irrefl]
    refine ⟨_, rfl, fun k hfin => ?_⟩
    exact storeInput_final c.start (c.every k) k xs hinc fin hfin (by omega)

/-- **C25** (no downsampling): the saved data is exactly the received history. -/
theorem C25_history (c : StoreCfg) (h0 : c.split = 0) (xs : List (FreshStep V)) (hinc : (xs.map (·.time)).Pairwise (· < ·))
    (fin : FreshStep V) :
    ∃ chunk : Chunk V, storeSaved c xs fin = [chunk] ∧ ∀ k, FinalOf k xs fin → c.every k = 1 →
      chunk.data k = receivedOf k (activeSteps c.start xs) := by
  obtain ⟨chunk, h1, h2⟩ := C25_no_split c h0 xs hinc fin
  refine ⟨chunk, h1, fun k hk he => ?_⟩
  rw [h2 k hk, he, everyNth_one]
  simp [extraSample]

theorem everyNth_sublist {α : Type} (n : Nat) (l : List α) : (everyNth n l).Sublist l := by
  unfold everyNth
  have h := List.Sublist.map Prod.fst (List.filter_sublist (p := fun p : α × Nat => decide (p.2 % n = 0)) (l := l.zipIdx))
  simpa using h

/-- **C25** (order): what is saved for an input is a part of its received history: no sample is invented or saved twice, and
the times are strictly increasing. -/
theorem C25_increasing (c : StoreCfg) (h0 : c.split = 0) (xs : List (FreshStep V)) (hinc : (xs.map (·.time)).Pairwise (· < ·))
    (fin : FreshStep V) (k : String) (hfin : FinalOf k xs fin) (chunk : Chunk V) (hc : chunk ∈ storeSaved c xs fin) :
    (chunk.data k).Sublist (receivedOf k (activeSteps c.start xs)) ∧ ((chunk.data k).map (·.1)).Pairwise (· < ·) := by
  obtain ⟨chunk', h1, h2⟩ := C25_no_split c h0 xs hinc fin
  rw [h1, List.mem_singleton] at hc
  subst hc
  have hsub : (chunk.data k).Sublist (receivedOf k (activeSteps c.start xs)) := by
    rw [h2 k hfin]
    unfold extraSample
    by_cases hx : c.every k ≠ 1 ∧ c.start ≤ fin.time ∧ c.every k ∣ (receivedOf k (activeSteps c.start xs)).length
    · rw [if_pos hx]
      rcases hfin with hf | ⟨ys, x, rfl, ht, hxf⟩
      · simp [hf, everyNth_sublist]
      · cases hf : fin.fresh k with
        | none => simp [everyNth_sublist]
        | some v =>
          obtain ⟨hx1, hx2, hx3⟩ := hx
          have hact : activeSteps c.start (ys ++ [x]) = activeSteps c.start ys ++ [x] := by
            unfold activeSteps; rw [List.filter_append]; simp; omega
          rw [hact, receivedOf_append, hxf, hf] at hx3 ⊢
          simp only [Option.map_some, Option.toList_some, List.length_append, List.length_singleton] at hx3 ⊢
          rw [everyNth_append, if_neg, List.append_nil, ht]
          · exact (everyNth_sublist _ _).append_right _
          · intro h3
            have h6 : c.every k ∣ 1 := (Nat.dvd_add_right (Nat.dvd_of_mod_eq_zero h3)).1 hx3
            exact hx1 (Nat.dvd_one.1 h6)
    · rw [if_neg hx, List.append_nil]
      exact everyNth_sublist _ _
  refine ⟨hsub, ?_⟩
  have htimes : ((receivedOf k (activeSteps c.start xs)).map (·.1)).Sublist (xs.map (·.time)) := by
    have h3 : ∀ l : List (FreshStep V), ((receivedOf k l).map (·.1)).Sublist (l.map (·.time)) := by
      intro l
      induction l with
      | nil => exact List.Sublist.refl _
      | cons x l ih =>
        unfold receivedOf at ih ⊢
        rw [List.filterMap_cons]
        cases x.fresh k with
        | none => exact ih.cons _
        | some v => exact ih.cons_cons _
    exact (h3 _).trans (List.Sublist.map _ List.filter_sublist)
  exact List.Pairwise.sublist ((hsub.map _).trans htimes) hinc

/-- A sample produced by the `finalize` of another object (the last emission of a buffer, for instance) is added at the end. -/
theorem C25_finalize_sample (c : StoreCfg) (h0 : c.split = 0) (xs : List (FreshStep V)) (hinc : (xs.map (·.time)).Pairwise (· < ·))
    (fin : FreshStep V) (k : String) (v : V) (hv : fin.fresh k = some v) (hs : c.start ≤ fin.time) (he : c.every k = 1)
    (hnew : ∀ p ∈ receivedOf k xs, p.1 < fin.time) (chunk : Chunk V) (hc : chunk ∈ storeSaved c xs fin) :
    chunk.data k = receivedOf k (activeSteps c.start xs) ++ [(fin.time, v)] := by
  unfold storeSaved storeFinalize at hc
  rw [storeRun_state c xs hinc] at hc
  simp only [h0, Nat.div_zero, Nat.mod_zero, Nat.mul_zero, List.range_zero, List.map_nil, if_true, ← List.range_eq_range',
    storedAt_all] at hc
  unfold storeTrigger at hc
  rw [if_neg (by omega)] at hc
  simp only [h0, gt_iff_lt, Nat.lt_irrefl, if_false, storeInputs, List.nil_append, List.mem_singleton] at hc
  subst hc
  simp only [he, everyNth_one, hv, storeInput, Nat.mod_one, if_true]
  apply odSet_append
  intro p hp
  apply hnew p
  unfold receivedOf activeSteps at *
  obtain ⟨y, hy, h⟩ := List.mem_filterMap.1 hp
  exact List.mem_filterMap.2 ⟨y, (List.mem_filter.1 hy).1, h⟩

/-! ### Splitting -/

theorem flatten_blocks {α : Type} (f : Nat → Option α) (s m : Nat) :
    ((List.range m).map fun j => (List.range' (j * s) s).filterMap f).flatten = (List.range (m * s)).filterMap f := by
  induction m with
  | zero => simp
  | succ m ih =>
    rw [List.range_succ, List.map_append, List.flatten_append, ih, Nat.succ_mul, List.range_add, List.filterMap_append]
    simp [List.range'_eq_map_range]

theorem storedAt_take {every : Nat} {k : String} {act : List (FreshStep V)} {i : Nat} (h : i ≤ act.length) :
    (List.range i).filterMap (storedAt every k act) = everyNth every (receivedOf k (act.take i)) := by
  rw [← storedAt_all, List.length_take, Nat.min_eq_left h]
  apply List.filterMap_congr
  intro j hj
  have hj := List.mem_range.1 hj
  unfold storedAt
  rw [List.getElem?_take_of_lt hj, List.take_take, Nat.min_eq_left (by omega)]

/-- All that is saved for an input, chunk after chunk. -/
def savedOf (k : String) (chunks : List (Chunk V)) : List (Int × V) := (chunks.map (·.data k)).flatten

/-- **C25** (splitting): the chunks saved cover, `split` triggers each, the first triggers after the start; put one after the
other they are one received sample every `every` among those of the complete chunks.  This is the whole history when `split`
divides the number of triggers; otherwise the samples of the last incomplete chunk are not saved. -/
theorem C25_split (c : StoreCfg) (h1 : 1 < c.split) (xs : List (FreshStep V)) (hinc : (xs.map (·.time)).Pairwise (· < ·))
    (fin : FreshStep V) (hend : ¬ c.split ∣ (activeSteps c.start xs).length + 1 ∨ fin.time < c.start) (k : String) :
    savedOf k (storeSaved c xs fin) = everyNth (c.every k) (receivedOf k
      ((activeSteps c.start xs).take ((activeSteps c.start xs).length / c.split * c.split))) ∧
    (storeSaved c xs fin).map (·.suffix) =
      (List.range ((activeSteps c.start xs).length / c.split)).map fun j => j * c.split + c.firstSuffix := by
  have hch : storeSaved c xs fin = (storeRun c xs StoreState.init).chunks := by
    unfold storeSaved storeFinalize
    rw [if_neg (by omega)]
    have hiter := congrArg StoreState.iter (storeRun_state c xs hinc)
    simp only at hiter
    unfold storeTrigger
    by_cases hs : fin.time < c.start
    · rw [if_pos hs]
    · rw [if_neg hs]
      have hnd := hend.resolve_right hs
      simp only [storeInputs, hiter]
      rw [if_pos (by omega), if_neg (fun h => hnd (Nat.dvd_of_mod_eq_zero h))]
  rw [hch, storeRun_state c xs hinc]
  simp only [savedOf, List.map_map, Function.comp_def]
  rw [flatten_blocks, storedAt_take (Nat.div_mul_le_self _ _)]
  simp

/-- **C25** (splitting, complete): when `split` divides the number of triggers from the start time on, the chunks partition the
history. -/
theorem C25_split_complete (c : StoreCfg) (h1 : 1 < c.split) (xs : List (FreshStep V))
    (hinc : (xs.map (·.time)).Pairwise (· < ·)) (fin : FreshStep V) (hd : c.split ∣ (activeSteps c.start xs).length) (k : String) :
    savedOf k (storeSaved c xs fin) = everyNth (c.every k) (receivedOf k (activeSteps c.start xs)) := by
  have h := (C25_split c h1 xs hinc fin (Or.inl (fun h2 => by
    have h3 : c.split ∣ 1 := (Nat.dvd_add_right hd).1 h2
    have := Nat.dvd_one.1 h3
    omega)) k).1
  rwa [Nat.div_mul_cancel hd, List.take_length] at h

/-- **C25** (splitting, one trigger short): the additional trigger at the end completes the last chunk, and the chunks
partition the history. -/
theorem C25_split_short (c : StoreCfg) (h1 : 1 < c.split) (xs : List (FreshStep V))
    (hinc : (xs.map (·.time)).Pairwise (· < ·)) (fin : FreshStep V) (hd : c.split ∣ (activeSteps c.start xs).length + 1)
    (hs : c.start ≤ fin.time) (k : String) (he : c.every k = 1) (hfin : FinalOf k xs fin) :
    savedOf k (storeSaved c xs fin) = receivedOf k (activeSteps c.start xs) := by
  unfold storeSaved storeFinalize
  rw [if_neg (by omega), storeRun_state c xs hinc]
  unfold storeTrigger
  rw [if_neg (by omega)]
  simp only [storeInputs]
  rw [if_pos (by omega), if_pos (Nat.mod_eq_zero_of_dvd hd)]
  simp only [savedOf, List.map_append, List.map_map, Function.comp_def, List.flatten_append, List.map_cons, List.map_nil,
    List.flatten_cons, List.flatten_nil, List.append_nil]
  rw [flatten_blocks]
  have hdm : (activeSteps c.start xs).length / c.split * c.split + (activeSteps c.start xs).length % c.split =
      (activeSteps c.start xs).length := by
    rw [Nat.mul_comm]; exact Nat.div_add_mod _ _
  have hall : (List.range ((activeSteps c.start xs).length / c.split * c.split)).filterMap
        (storedAt (c.every k) k (activeSteps c.start xs)) ++
      (List.range' ((activeSteps c.start xs).length / c.split * c.split) ((activeSteps c.start xs).length % c.split)).filterMap
        (storedAt (c.every k) k (activeSteps c.start xs)) = receivedOf k (activeSteps c.start xs) := by
    rw [← List.filterMap_append, List.range_eq_range']
    have := storedAt_all (c.every k) k (activeSteps c.start xs)
    rw [he, everyNth_one] at this
    rw [← this, he, List.range_eq_range']
    conv_rhs => rw [← hdm]
    rw [← List.range'_append_1]
    simp
  have hkeep : storeInput fin.time (c.every k) (receivedOf k (activeSteps c.start xs)).length (fin.fresh k)
      ((List.range' ((activeSteps c.start xs).length / c.split * c.split) ((activeSteps c.start xs).length % c.split)).filterMap
        (storedAt (c.every k) k (activeSteps c.start xs))) =
      (List.range' ((activeSteps c.start xs).length / c.split * c.split) ((activeSteps c.start xs).length % c.split)).filterMap
        (storedAt (c.every k) k (activeSteps c.start xs)) := by
    rcases hfin with hf | ⟨ys, x, rfl, ht, hx⟩
    · rw [hf]; rfl
    · cases hf : fin.fresh k with
      | none => rfl
      | some v =>
        have hact : activeSteps c.start (ys ++ [x]) = activeSteps c.start ys ++ [x] := by
          unfold activeSteps; rw [List.filter_append]; simp; omega
        have htimes : ∀ y ∈ activeSteps c.start ys, y.time < x.time := by
          intro y hy
          rw [List.map_append, List.pairwise_append] at hinc
          exact hinc.2.2 y.time (List.mem_map.2 ⟨y, (List.mem_filter.1 hy).1, rfl⟩) x.time (by simp)
        rw [hact] at hd hdm ⊢
        generalize activeSteps c.start ys = act at htimes hd hdm ⊢
        have hmod : ∃ r, (act ++ [x]).length % c.split = r + 1 := by
          rcases h : (act ++ [x]).length % c.split with _ | r
          · exfalso
            have h2 := Nat.dvd_of_mod_eq_zero h
            have h3 : c.split ∣ 1 := (Nat.dvd_add_right h2).1 hd
            have := Nat.dvd_one.1 h3
            omega
          · exact ⟨r, rfl⟩
        obtain ⟨r, hr⟩ := hmod
        rw [hr] at hdm ⊢
        have hlen : (act ++ [x]).length / c.split * c.split + r = act.length := by
          simp only [List.length_append, List.length_singleton] at hdm ⊢
          omega
        rw [List.range'_concat, Nat.one_mul, hlen, List.filterMap_append, List.filterMap_cons, List.filterMap_nil,
          storedAt_last, hx, hf]
        simp only [he, Nat.mod_one, if_true, Option.bind_some, storeInput, ← ht]
        apply odSet_last
        intro p hp
        obtain ⟨i, hi, hip⟩ := List.mem_filterMap.1 hp
        have hi := List.mem_range'_1.1 hi
        rw [storedAt_append x (by omega)] at hip
        obtain ⟨y, hy, hyt⟩ := storedAt_time hip
        rw [← hyt]; exact htimes y hy
  rw [hkeep, hall]

/-! ### Cases -/

/-- Five triggers 10 ticks apart, input `a` fresh at each. -/
def fiveSteps : List (FreshStep Nat) := (List.range 5).map fun (n : Nat) => ⟨(n : Int) * 10, fun k => if k = "a" then some n else none⟩

example : (storeSaved ⟨10, fun _ => 1, 0, 0⟩ fiveSteps ⟨40, fun k => if k = "a" then some 4 else none⟩).map (·.data "a") =
    [[(10, 1), (20, 2), (30, 3), (40, 4)]] := rfl

/-- One sample every two, four received from time 10 on: the samples 1 and 3, and also 4 because of the additional trigger at
the end. -/
theorem C25_extra_sample : (storeSaved ⟨10, fun _ => 2, 0, 0⟩ fiveSteps ⟨40, fun k => if k = "a" then some 4 else none⟩).map
    (·.data "a") = [[(10, 1), (30, 3), (40, 4)]] := rfl

/-- Chunks of three triggers: the samples of the last two are never saved. -/
theorem C25_split_tail_lost :
    (storeSaved ⟨10, fun _ => 1, 3, 0⟩ fiveSteps ⟨40, fun k => if k = "a" then some 4 else none⟩).map (·.data "a") =
      [[(10, 1), (20, 2), (30, 3)]] := rfl

/-- Chunks of one trigger: the last one is saved twice. -/
theorem C25_split_one_duplicates :
    (storeSaved ⟨20, fun _ => 1, 1, 0⟩ fiveSteps ⟨40, fun k => if k = "a" then some 4 else none⟩).map (·.data "a") =
      [[(20, 2)], [(30, 3)], [(40, 4)], [(40, 4)]] := rfl

example : (fiveSteps.map (·.time)).Pairwise (· < ·) ∧ FinalOf "a" fiveSteps ⟨40, fun k => if k = "a" then some 4 else none⟩ := by
  refine ⟨by decide, Or.inr ⟨fiveSteps.take 4, _, rfl, rfl, rfl⟩⟩

end Specula
