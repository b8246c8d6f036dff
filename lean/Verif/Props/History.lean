import Verif.Model.History
import Verif.Props.Select
import Mathlib.Data.List.Basic
import Mathlib.Data.List.GetD
import Mathlib.Order.Basic
import Mathlib.Data.Real.Basic
import Mathlib.Tactic.NormNum
import Mathlib.Tactic.Common
/-
C109: histories shown by the displays.
-/
namespace Specula

/-! ### Specification -/

/-- The last `n` elements, all of them when there are fewer. -/
def lastOf {α : Type} (n : Nat) (l : List α) : List α := (l.reverse.take n).reverse

theorem lastOf_eq {α : Type} (n : Nat) (l : List α) : lastOf n l = l.drop (l.length - n) := by
  unfold lastOf
  rw [List.take_reverse, List.reverse_reverse]

theorem lastOf_map {α β : Type} (f : α → β) (n : Nat) (l : List α) : lastOf n (l.map f) = (lastOf n l).map f := by
  simp [lastOf_eq, List.map_drop]

/-- One element more: the first goes when there are `n` already. -/
theorem lastOf_snoc {α : Type} (n : Nat) (hn : 1 ≤ n) (l : List α) (a : α) :
    lastOf n (l ++ [a]) = (if n ≤ l.length then (lastOf n l).tail else lastOf n l) ++ [a] := by
  simp only [lastOf_eq, List.length_append, List.length_singleton]
  rw [List.drop_append_of_le_length (by omega)]
  split_ifs with h
  · rw [List.tail_drop, show l.length + 1 - n = l.length - n + 1 from by omega]
  · rw [show l.length + 1 - n = 0 from by omega, show l.length - n = 0 from by omega]

theorem lastOf_length {α : Type} (n : Nat) (l : List α) : (lastOf n l).length = min l.length n := by
  rw [lastOf_eq, List.length_drop]; omega

/-! ### The circular shift -/

theorem scrollUp_length {R : Type} (h : List R) : (scrollUp h).length = h.length := by
  unfold scrollUp
  cases h with
  | nil => rfl
  | cons a t => simp [List.getLast?_cons]

theorem scrollUp_take {R : Type} (h : List R) : (scrollUp h).take (h.length - 1) = h.tail := by
  unfold scrollUp
  rw [List.take_append_of_le_length (by simp), List.take_of_length_le (by simp)]

theorem scrollUp_mem {R : Type} (h : List R) (r : R) (hr : r ∈ scrollUp h) : r ∈ h := by
  unfold scrollUp at hr
  rw [List.mem_append] at hr
  rcases hr with hr | hr
  · exact List.mem_of_mem_tail hr
  · rw [Option.mem_toList] at hr
    exact List.mem_of_getLast? hr

theorem set_take_succ {R : Type} (h : List R) (c : Nat) (hc : c < h.length) (a : R) : (h.set c a).take (c + 1) = h.take c ++ [a] := by
  have hm : min c h.length = c := Nat.min_eq_left hc.le
  rw [List.take_set, List.take_succ_eq_append_getElem hc, List.set_append_right _ _ (by rw [List.length_take, hm])]
  simp [List.length_take, hm]

section
variable {T K : Type} [Zero K]

theorem histColumn_set (h : List (List K)) (c i : Nat) (hc : c < h.length) (r : List K) :
    histColumn (h.set c r) c i = (h.take c).map (fun r => r.getD i 0) ++ [r.getD i 0] := by
  unfold histColumn
  rw [set_take_succ h c hc r, List.map_append]
  rfl

/-! ### The loop on the values -/

omit [Zero K] in
theorem modify_take_succ {α : Type} (ls : List α) (i : Nat) (hi : i < ls.length) (f : α → α) : (ls.modify i f).take (i + 1) = ls.take i ++ [f ls[i]] := by
  rw [← set_take_succ _ _ hi]
  congr 1
  apply List.ext_getElem (by simp)
  intro k h1 h2
  rw [List.getElem_modify, List.getElem_set]
  split_ifs with h
  · subst h; rfl
  · rfl

theorem plotLoop_ok (as : List K) (st : PlotSt T K) (i : Nat) (ls : List (PlotLine T K)) (hls : st.lines.getD [] = ls)
    (hc : st.count < st.hist.length) (hg : (st.hist.getD st.count []).length = i + as.length) (ht : st.times.length = st.count + 1)
    (hl : ls.length = i ∨ ls.length = i + as.length) (hon : ∀ l ∈ ls, l.onAxes = true) (hi : as ≠ [] ∨ st.lines ≠ none) :
    plotLoop st i (as.map some) = ({ st with
      hist := st.hist.set st.count ((st.hist.getD st.count []).take i ++ as)
      lines := some (ls.take i ++ (List.range as.length).map fun j => ⟨st.times, (st.hist.take st.count).map (fun r => r.getD (i + j) 0) ++ [as.getD j 0], true⟩) }, false) := by
  induction as generalizing st i ls with
  | nil =>
    have hg' : (st.hist.getD st.count []).take i = st.hist.getD st.count [] := List.take_of_length_le (by simpa using hg.le)
    have hlen : ls.length = i := by simpa using hl
    have hset : st.hist.set st.count (st.hist.getD st.count []) = st.hist := by
      rw [List.getD_eq_getElem _ _ hc, List.set_getElem_self]
    have hsome : st.lines = some ls := by
      cases hh : st.lines with
      | none => exact absurd hh (by simpa using hi)
      | some x => rw [hh] at hls; simpa using hls
    simp only [List.map_nil, plotLoop, List.append_nil, hg', hset, List.length_nil, List.range_zero, List.map_nil]
    rw [List.take_of_length_le hlen.le, ← hsome]
  | cons a as ih =>
    have hgi : i < (st.hist.getD st.count []).length := by rw [hg]; simp
    have hy : histColumn (st.hist.set st.count ((st.hist.getD st.count []).set i a)) st.count i =
        (st.hist.take st.count).map (fun r => r.getD i 0) ++ [a] := by
      rw [histColumn_set _ _ _ hc]
      rw [List.getD_eq_getElem _ _ (by rw [List.length_set]; exact hgi), List.getElem_set_self]
    have hylen : ((st.hist.take st.count).map (fun r => r.getD i 0) ++ [a]).length = st.count + 1 := by
      simp [Nat.min_eq_left (le_of_lt hc)]
    have key : ∀ ls' : List (PlotLine T K), (ls'.length = i + 1 ∨ ls'.length = i + 1 + as.length) → (∀ l ∈ ls', l.onAxes = true) →
        ls'.take (i + 1) = ls.take i ++ [⟨st.times, (st.hist.take st.count).map (fun r => r.getD i 0) ++ [a], true⟩] →
        plotLoop { st with hist := st.hist.set st.count ((st.hist.getD st.count []).set i a), lines := some ls' } (i + 1) (as.map some) = ({ st with
      hist := st.hist.set st.count ((st.hist.getD st.count []).take i ++ (a :: as))
      lines := some (ls.take i ++ (List.range (as.length + 1)).map fun j => ⟨st.times, (st.hist.take st.count).map (fun r => r.getD (i + j) 0) ++ [(a :: as).getD j 0], true⟩) }, false) := by
      intro ls' hl' hon' htk
      have hget : (st.hist.set st.count ((st.hist.getD st.count []).set i a)).getD st.count [] = (st.hist.getD st.count []).set i a := by
        simp [List.getD_eq_getElem?_getD, hc]
      rw [ih { st with hist := st.hist.set st.count ((st.hist.getD st.count []).set i a), lines := some ls' } (i + 1) ls' rfl (by simpa using hc)
        (by dsimp only; rw [hget]; simp only [List.length_set, hg, List.length_cons]; omega) ht hl' hon' (Or.inr (by simp))]
      dsimp only
      rw [hget, htk, List.set_set, set_take_succ _ _ hgi, List.range_succ_eq_map]
      simp only [List.append_assoc, List.singleton_append, List.map_cons, List.map_map, Nat.add_zero, List.getD_cons_zero]
      congr 4
      apply congrArg
      apply List.map_congr_left
      intro j _
      simp only [Function.comp, List.getD_cons_succ, Nat.succ_eq_add_one, show i + 1 + j = i + (j + 1) from by omega, List.take_set_of_le (le_refl _)]
    simp only [List.map_cons, plotLoop, hls, hy, List.length_cons]
    by_cases hil : i < ls.length
    · rw [if_pos hil]
      refine key _ (Or.inr (by simp; simp at hl; omega)) ?_ ?_
      · intro l hl2
        obtain ⟨k, hk, rfl⟩ := List.getElem_of_mem hl2
        rw [List.getElem_modify]
        have hk2 : k < ls.length := by simpa using hk
        split_ifs
        · exact hon ls[k] (List.getElem_mem hk2)
        · exact hon _ (List.getElem_mem hk2)
      · rw [modify_take_succ _ _ hil, hon _ (List.getElem_mem hil)]
    · rw [if_neg hil, if_pos (by rw [ht, hylen])]
      have : ls.length = i := by simp at hl; omega
      refine key _ (Or.inl (by simp [this])) ?_ ?_
      · intro l hl2
        rw [List.mem_append, List.mem_singleton] at hl2
        rcases hl2 with h | rfl
        · exact hon _ h
        · rfl
      · rw [List.take_of_length_le (by simp [this]), List.take_of_length_le this.le]

/-! ### Updates that succeed -/

/-- What holds after the updates `l`, each with `m` values, of a display with `n` rows. -/
structure PlotInv (n m : Nat) (l : List (T × List K)) (st : PlotSt T K) : Prop where
  len : st.hist.length = n
  rows : ∀ r ∈ st.hist, r.length = m
  fixed : plotReshape st m = st
  count : st.count = min l.length n
  data : st.hist.take st.count = lastOf n (l.map Prod.snd)
  times : st.times = lastOf n (l.map Prod.fst)
  lines : l ≠ [] → st.lines = some ((List.range m).map fun j => ⟨st.times, (lastOf n (l.map Prod.snd)).map fun r => r.getD j 0, true⟩)
  nolines : l = [] → st.lines = none

theorem plotReshape_idem (st : PlotSt T K) (m : Nat) : plotReshape (plotReshape st m) m = plotReshape st m := by
  unfold plotReshape
  split_ifs with h1 h2
  · simp at h2
  · rfl
  · rfl

theorem plotTrigger_reshape (st : PlotSt T K) (t : T) (vs : List (Option K)) : plotTrigger (plotReshape st vs.length) t vs = plotTrigger st t vs := by
  unfold plotTrigger plotUpdate
  rw [plotReshape_idem]

theorem plotReshape_congr (s s' : PlotSt T K) (m : Nat) (hf : s'.flat = s.flat) (hw : s'.width = s.width) (h : plotReshape s m = s) : plotReshape s' m = s' := by
  unfold plotReshape at h ⊢
  rw [hf, hw]
  split_ifs at h ⊢ with h1
  · exfalso
    have e1 : s.flat = false := (congrArg PlotSt.flat h).symm
    have e2 : s.width = m := (congrArg PlotSt.width h).symm
    rcases h1 with ⟨h1, -⟩ | ⟨-, h1⟩
    · rw [e1] at h1; exact absurd h1 (by simp)
    · exact h1 e2
  · rfl

theorem plotInit_inv (n m : Nat) (hm : 1 ≤ m) : PlotInv n m ([] : List (T × List K)) (plotReshape (plotInit n) m) := by
  have hfix : plotReshape (plotReshape (plotInit (T := T) (K := K) n) m) m = plotReshape (plotInit n) m := plotReshape_idem _ _
  by_cases h : 1 < m
  · have e : plotReshape (plotInit (T := T) (K := K) n) m = { hist := List.replicate n (List.replicate m 0), flat := false, width := m, count := 0, times := [], lines := none } := by
      unfold plotReshape plotInit
      simp [h]
    rw [e] at hfix ⊢
    refine ⟨by simp, ?_, hfix, by simp, by simp [lastOf], by simp [lastOf], fun h => absurd rfl h, fun _ => rfl⟩
    intro r hr
    rw [List.eq_of_mem_replicate hr]; simp
  · obtain rfl : m = 1 := by omega
    have e : plotReshape (plotInit (T := T) (K := K) n) 1 = plotInit n := by
      unfold plotReshape plotInit
      simp
    rw [e] at hfix ⊢
    refine ⟨by simp [plotInit], ?_, hfix, by simp [plotInit], by simp [lastOf, plotInit], by simp [lastOf, plotInit], fun h => absurd rfl h, fun _ => rfl⟩
    intro r hr
    rw [List.eq_of_mem_replicate hr]; simp

theorem plotTrigger_inv (n m : Nat) (hn : 1 ≤ n) (hm : 1 ≤ m) (l : List (T × List K)) (st : PlotSt T K) (h : PlotInv n m l st) (t : T) (as : List K) (ha : as.length = m) :
    ∃ st', plotTrigger st t (as.map some) = (st', false) ∧ PlotInv n m (l ++ [(t, as)]) st' := by
  have hscr : ∃ h0 c0, plotScroll st = { st with hist := h0, count := c0, times := if n ≤ l.length then st.times.tail else st.times } ∧ h0.length = n ∧ (∀ r ∈ h0, r.length = m) ∧
      c0 < n ∧ c0 + 1 = min (l.length + 1) n ∧ h0.take c0 = if n ≤ l.length then (lastOf n (l.map Prod.snd)).tail else lastOf n (l.map Prod.snd) := by
    unfold plotScroll
    by_cases hfull : n ≤ l.length
    · have hc : st.count = n := by rw [h.count]; omega
      refine ⟨scrollUp st.hist, n - 1, ?_, by rw [scrollUp_length, h.len], fun r hr => h.rows r (scrollUp_mem _ _ hr), by omega, by omega, ?_⟩
      · rw [if_pos (by rw [h.len, hc]), if_pos hfull, h.len]
      · rw [if_pos hfull, ← h.data, hc, ← h.len, scrollUp_take, List.take_length]
    · have hc : st.count = l.length := by rw [h.count]; omega
      refine ⟨st.hist, st.count, ?_, h.len, h.rows, by omega, by omega, ?_⟩
      · rw [if_neg (by rw [h.len, hc]; exact hfull), if_neg hfull]
      · rw [if_neg hfull, h.data]
  obtain ⟨h0, c0, e1, e2, e3, e4, e5, e6⟩ := hscr
  have ht : (if n ≤ l.length then st.times.tail else st.times) ++ [t] = lastOf n ((l ++ [(t, as)]).map Prod.fst) := by
    rw [List.map_append, List.map_singleton, lastOf_snoc n hn, h.times, List.length_map]
  have hd : h0.take c0 ++ [as] = lastOf n ((l ++ [(t, as)]).map Prod.snd) := by
    rw [List.map_append, List.map_singleton, lastOf_snoc n hn, e6, List.length_map]
  set X := (if n ≤ l.length then st.times.tail else st.times) ++ [t] with hX
  have hXlen : X.length = c0 + 1 := by
    rw [ht, lastOf_length]; simp only [List.length_map, List.length_append, List.length_singleton]; omega
  have hrow : (h0.getD c0 []).length = 0 + as.length := by
    rw [List.getD_eq_getElem _ _ (by omega), e3 _ (List.getElem_mem _), ha]; omega
  have hlines : (st.lines.getD []).length = 0 ∨ (st.lines.getD []).length = 0 + as.length := by
    by_cases hl : l = []
    · left; rw [h.nolines hl]; rfl
    · right; rw [h.lines hl]; simp [ha]
  have hon : ∀ x ∈ st.lines.getD [], x.onAxes = true := by
    by_cases hl : l = []
    · rw [h.nolines hl]; simp
    · rw [h.lines hl]
      intro x hx
      simp only [Option.getD_some, List.mem_map] at hx
      obtain ⟨_, _, rfl⟩ := hx
      rfl
  have hloop := plotLoop_ok as { st with hist := h0, count := c0, times := X } 0 (st.lines.getD []) rfl (by dsimp only; omega) hrow hXlen hlines hon
    (Or.inl (by intro h0; rw [h0] at ha; simp at ha; omega))
  dsimp only at hloop
  rw [List.take_zero, List.nil_append, List.take_zero, List.nil_append] at hloop
  refine ⟨{ st with hist := h0.set c0 as, count := c0 + 1, times := X, lines := some ((List.range as.length).map fun j => ⟨X, (h0.take c0).map (fun r => r.getD (0 + j) 0) ++ [as.getD j 0], true⟩) }, ?_, ?_⟩
  · unfold plotTrigger plotUpdate
    rw [List.length_map, ha, h.fixed, e1]
    dsimp only
    rw [← hX, hloop]
    simp [ha]
  · constructor
    · simp [e2]
    · intro r hr
      rcases List.mem_or_eq_of_mem_set hr with hr | rfl
      · exact e3 r hr
      · exact ha
    · exact plotReshape_congr st _ m rfl rfl h.fixed
    · simp only [List.length_append, List.length_singleton]; omega
    · dsimp only
      rw [set_take_succ _ _ (by omega), hd]
    · exact ht
    · intro _
      dsimp only
      rw [← hd, ha]
      congr 1
      apply List.map_congr_left
      intro j _
      simp
    · intro hnil; simp at hnil

/-- The plot shows the last `histlen` values of each input against the last `histlen` times, for any number of updates. -/
theorem C109_history (n m : Nat) (hn : 1 ≤ n) (hm : 1 ≤ m) (l : List (T × List K)) (hl : ∀ u ∈ l, u.2.length = m) (hne : l ≠ []) :
    (plotRun (plotInit n) (l.map fun u => (u.1, u.2.map some))).2 = List.replicate l.length false ∧
    (plotRun (plotInit n) (l.map fun u => (u.1, u.2.map some))).1.lines =
      some ((List.range m).map fun j => ⟨lastOf n (l.map Prod.fst), lastOf n (l.map fun u => u.2.getD j 0), true⟩) := by
  have gen : ∀ (l p : List (T × List K)) (st : PlotSt T K), PlotInv n m p st → (∀ u ∈ l, u.2.length = m) →
      (plotRun st (l.map fun u => (u.1, u.2.map some))).2 = List.replicate l.length false ∧ PlotInv n m (p ++ l) (plotRun st (l.map fun u => (u.1, u.2.map some))).1 := by
    intro l
    induction l with
    | nil => intro p st hp _; exact ⟨rfl, by simpa [plotRun] using hp⟩
    | cons u l ih =>
      intro p st hp hl
      obtain ⟨st', h1, h2⟩ := plotTrigger_inv n m hn hm p st hp u.1 u.2 (hl u (by simp))
      have := ih (p ++ [u]) st' h2 fun v hv => hl v (by simp [hv])
      simp only [List.map_cons, plotRun, h1]
      refine ⟨by rw [this.1]; rfl, by simpa using this.2⟩
  have start : plotRun (plotInit (T := T) (K := K) n) (l.map fun u => (u.1, u.2.map some)) = plotRun (plotReshape (plotInit n) m) (l.map fun u => (u.1, u.2.map some)) := by
    cases l with
    | nil => exact absurd rfl hne
    | cons u l =>
      have hu := hl u (by simp)
      simp only [List.map_cons, plotRun]
      have := plotTrigger_reshape (plotInit (T := T) (K := K) n) u.1 (u.2.map some)
      rw [List.length_map, hu] at this
      rw [this]
  rw [start]
  have h := gen l [] _ (plotInit_inv n m hm) hl
  refine ⟨h.1, ?_⟩
  have h2 := h.2
  rw [List.nil_append] at h2
  rw [h2.lines hne, h2.times]
  congr 1
  apply List.map_congr_left
  intro j _
  rw [← lastOf_map, List.map_map]
  rfl

/-! ### Updates that raise -/

theorem plotLoop_const (vs : List (Option K)) (st : PlotSt T K) (i : Nat) : (plotLoop st i vs).1.times = st.times ∧ (plotLoop st i vs).1.count = st.count ∧
    (plotLoop st i vs).1.hist.length = st.hist.length := by
  induction vs generalizing st i with
  | nil => exact ⟨rfl, rfl, rfl⟩
  | cons v vs ih =>
    cases v with
    | none => exact ⟨rfl, rfl, rfl⟩
    | some a =>
      simp only [plotLoop]
      split_ifs
      · obtain ⟨h1, h2, h3⟩ := ih { st with hist := st.hist.set st.count ((st.hist.getD st.count []).set i a), lines := some ((st.lines.getD []).modify i fun l => { l with xs := st.times, ys := histColumn (st.hist.set st.count ((st.hist.getD st.count []).set i a)) st.count i }) } (i + 1)
        exact ⟨h1, h2, by rw [h3]; simp⟩
      · obtain ⟨h1, h2, h3⟩ := ih { st with hist := st.hist.set st.count ((st.hist.getD st.count []).set i a), lines := some (st.lines.getD [] ++ [⟨st.times, histColumn (st.hist.set st.count ((st.hist.getD st.count []).set i a)) st.count i, true⟩]) } (i + 1)
        exact ⟨h1, h2, by rw [h3]; simp⟩
      · exact ⟨rfl, rfl, by simp⟩

omit [Zero K] in
theorem plotScroll_facts (n f : Nat) (hn : 1 ≤ n) (st : PlotSt T K) (h1 : st.hist.length = n) (h2 : st.count ≤ n) (h3 : st.times.length = st.count + f) :
    (plotScroll st).hist.length = n ∧ (plotScroll st).count < n ∧ (plotScroll st).times.length = (plotScroll st).count + f ∧ (plotScroll st).lines = st.lines := by
  unfold plotScroll
  split_ifs with h
  · refine ⟨by simp [scrollUp_length, h1], by dsimp only; omega, ?_, rfl⟩
    rw [List.length_tail]; dsimp only; omega
  · exact ⟨h1, by omega, h3, rfl⟩

theorem plotReshape_facts (st : PlotSt T K) (m : Nat) : (plotReshape st m).hist.length = st.hist.length ∧ (plotReshape st m).count = st.count ∧
    (plotReshape st m).times = st.times ∧ (plotReshape st m).lines = st.lines := by
  unfold plotReshape
  split_ifs <;> simp

/-- What holds after any updates, `f` of which raised. -/
structure PlotDrift (n f : Nat) (st : PlotSt T K) : Prop where
  len : st.hist.length = n
  count : st.count ≤ n
  times : st.times.length = st.count + f

theorem plotTrigger_drift (n f : Nat) (hn : 1 ≤ n) (st : PlotSt T K) (h : PlotDrift n f st) (t : T) (vs : List (Option K)) :
    PlotDrift n (f + if (plotTrigger st t vs).2 then 1 else 0) (plotTrigger st t vs).1 := by
  obtain ⟨r1, r2, r3, r4⟩ := plotReshape_facts st vs.length
  obtain ⟨s1, s2, s3, s4⟩ := plotScroll_facts n f hn (plotReshape st vs.length) (by rw [r1, h.len]) (by rw [r2]; exact h.count) (by rw [r3, r2]; exact h.times)
  unfold plotTrigger plotUpdate
  dsimp only
  set S := plotScroll (plotReshape st vs.length) with hS
  obtain ⟨l1, l2, l3⟩ := plotLoop_const vs { S with times := S.times ++ [t] } 0
  set L := plotLoop { S with times := S.times ++ [t] } 0 vs with hL
  by_cases hr : L.2 = true ∨ L.1.lines.isNone
  · rw [if_pos hr]
    simp only [if_true]
    refine ⟨by dsimp only; rw [l3]; exact s1, by dsimp only; rw [l2]; dsimp only; omega, ?_⟩
    dsimp only
    rw [l1, l2]
    simp only [List.length_append, List.length_singleton]
    omega
  · rw [if_neg hr]
    simp only [Bool.false_eq_true, if_false]
    refine ⟨by dsimp only; rw [l3]; exact s1, by dsimp only; rw [l2]; dsimp only; omega, ?_⟩
    dsimp only
    rw [l1, l2]
    simp only [List.length_append, List.length_singleton]
    omega

theorem plotRun_drift (n : Nat) (hn : 1 ≤ n) (ins : List (T × List (Option K))) (f : Nat) (st : PlotSt T K) (h : PlotDrift n f st) :
    PlotDrift n (f + (plotRun st ins).2.count true) (plotRun st ins).1 := by
  induction ins generalizing f st with
  | nil => simpa [plotRun] using h
  | cons u ins ih =>
    obtain ⟨t, vs⟩ := u
    have h1 := ih _ _ (plotTrigger_drift n f hn st h t vs)
    simp only [plotRun]
    have e : f + (if (plotTrigger st t vs).2 then 1 else 0) + (plotRun (plotTrigger st t vs).1 ins).2.count true =
        f + ((plotTrigger st t vs).2 :: (plotRun (plotTrigger st t vs).1 ins).2).count true := by
      rw [List.count_cons]
      cases (plotTrigger st t vs).2 <;> simp
      omega
    rw [← e]
    exact h1

theorem plotInit_drift (n : Nat) : PlotDrift n 0 (plotInit (T := T) (K := K) n) := ⟨by simp [plotInit], by simp [plotInit], by simp [plotInit]⟩

/-- Each update that raised leaves one element too many on the x axis, for ever: as many as the updates that raised. -/
theorem C109_drift (n : Nat) (hn : 1 ≤ n) (ins : List (T × List (Option K))) :
    (plotRun (plotInit n) ins).1.times.length = (plotRun (plotInit n) ins).1.count + (plotRun (plotInit n) ins).2.count true := by
  have := (plotRun_drift n hn ins 0 _ (plotInit_drift n)).times
  simpa using this

theorem plotLoop_lengths (vs : List (Option K)) (st : PlotSt T K) (i : Nat) (hc : st.count < st.hist.length) (hle : i ≤ (st.lines.getD []).length)
    (hr : (plotLoop st i vs).2 = false) :
    (∀ j, j < i → ((plotLoop st i vs).1.lines.getD [])[j]? = (st.lines.getD [])[j]?) ∧
    ∀ j, i ≤ j → j < i + vs.length → ∃ l, ((plotLoop st i vs).1.lines.getD [])[j]? = some l ∧ l.xs = st.times ∧ l.ys.length = st.count + 1 := by
  induction vs generalizing st i with
  | nil => exact ⟨fun _ _ => rfl, fun j h1 h2 => by simp at h2; omega⟩
  | cons v vs ih =>
    cases v with
    | none => simp [plotLoop] at hr
    | some a =>
      have hy : (histColumn (st.hist.set st.count ((st.hist.getD st.count []).set i a)) st.count i).length = st.count + 1 := by
        unfold histColumn
        rw [List.length_map, List.length_take, List.length_set]; omega
      have step : ∀ ls' : List (PlotLine T K), (∀ j, j < i → ls'[j]? = (st.lines.getD [])[j]?) →
          (∃ l, ls'[i]? = some l ∧ l.xs = st.times ∧ l.ys.length = st.count + 1) →
          (plotLoop { st with hist := st.hist.set st.count ((st.hist.getD st.count []).set i a), lines := some ls' } (i + 1) vs).2 = false →
          (∀ j, j < i → ((plotLoop { st with hist := st.hist.set st.count ((st.hist.getD st.count []).set i a), lines := some ls' } (i + 1) vs).1.lines.getD [])[j]? = (st.lines.getD [])[j]?) ∧
          ∀ j, i ≤ j → j < i + (vs.length + 1) → ∃ l, ((plotLoop { st with hist := st.hist.set st.count ((st.hist.getD st.count []).set i a), lines := some ls' } (i + 1) vs).1.lines.getD [])[j]? = some l ∧ l.xs = st.times ∧ l.ys.length = st.count + 1 := by
        intro ls' h1 h2 h3
        obtain ⟨g1, g2⟩ := ih { st with hist := st.hist.set st.count ((st.hist.getD st.count []).set i a), lines := some ls' } (i + 1) (by simpa using hc)
          (by
            obtain ⟨l, hl, -⟩ := h2
            have := (List.getElem?_eq_some_iff.1 hl).1
            dsimp only [Option.getD_some]; omega) h3
        refine ⟨fun j hj => ?_, fun j hj1 hj2 => ?_⟩
        · rw [g1 j (by omega)]; exact h1 j hj
        · by_cases hji : j = i
          · subst hji
            rw [g1 j (by omega)]; exact h2
          · exact g2 j (by omega) (by omega)
      simp only [plotLoop] at hr ⊢
      rw [List.length_cons]
      by_cases hil : i < (st.lines.getD []).length
      · rw [if_pos hil] at hr ⊢
        refine step _ (fun j hj => ?_) ?_ hr
        · rw [List.getElem?_modify]; simp [show ¬ i = j from by omega]
        · rw [List.getElem?_modify, List.getElem?_eq_getElem hil]
          simp only [if_true]
          exact ⟨_, rfl, rfl, hy⟩
      · rw [if_neg hil] at hr ⊢
        by_cases hlen : st.times.length = (histColumn (st.hist.set st.count ((st.hist.getD st.count []).set i a)) st.count i).length
        · rw [if_pos hlen] at hr ⊢
          have hi : (st.lines.getD []).length = i := by omega
          refine step _ (fun j hj => ?_) ?_ hr
          · rw [List.getElem?_append_left (by omega)]
          · rw [List.getElem?_append_right (by omega), hi, Nat.sub_self]
            exact ⟨_, rfl, rfl, hy⟩
        · rw [if_neg hlen] at hr
          simp at hr

/-- After `k` updates that raised, a line that is updated has `k` more elements on the x axis than on the y axis: it cannot be drawn. -/
theorem C109_after_error (n : Nat) (hn : 1 ≤ n) (ins : List (T × List (Option K))) (t : T) (vs : List (Option K))
    (hok : (plotTrigger (plotRun (plotInit n) ins).1 t vs).2 = false) (j : Nat) (hj : j < vs.length) :
    ∃ l, ((plotTrigger (plotRun (plotInit n) ins).1 t vs).1.lines.getD [])[j]? = some l ∧
      l.xs.length = l.ys.length + (plotRun (plotInit n) ins).2.count true := by
  have hd := plotRun_drift n hn ins 0 _ (plotInit_drift (T := T) (K := K) n)
  rw [Nat.zero_add] at hd
  generalize (plotRun (plotInit n) ins).1 = st at hok hd ⊢
  generalize (plotRun (plotInit n) ins).2.count true = k at hd ⊢
  obtain ⟨r1, r2, r3, r4⟩ := plotReshape_facts st vs.length
  obtain ⟨s1, s2, s3, s4⟩ := plotScroll_facts n k hn (plotReshape st vs.length) (by rw [r1, hd.len]) (by rw [r2]; exact hd.count) (by rw [r3, r2]; exact hd.times)
  unfold plotTrigger plotUpdate at hok ⊢
  dsimp only at hok ⊢
  set S := plotScroll (plotReshape st vs.length) with hS
  have hl := plotLoop_lengths vs { S with times := S.times ++ [t] } 0 (by dsimp only; omega) (Nat.zero_le _)
  set L := plotLoop { S with times := S.times ++ [t] } 0 vs with hL
  by_cases hr : L.2 = true ∨ L.1.lines.isNone
  · rw [if_pos hr] at hok
    simp at hok
  · rw [if_neg hr]
    simp only [Bool.false_eq_true, if_false]
    obtain ⟨l, h1, h2, h3⟩ := (hl (by simpa using fun h => hr (Or.inl h))).2 j (Nat.zero_le _) (by omega)
    refine ⟨l, h1, ?_⟩
    rw [h2, h3]
    simp only [List.length_append, List.length_singleton]
    omega

theorem plotLoop_off (vs : List (Option K)) (st : PlotSt T K) (i : Nat) (ls : List (PlotLine T K)) (hls : st.lines = some ls) (hi : i + vs.length ≤ ls.length) :
    ∃ ls', (plotLoop st i vs).1.lines = some ls' ∧ ls'.length = ls.length ∧ ((∀ l ∈ ls, l.onAxes = false) → ∀ l ∈ ls', l.onAxes = false) := by
  induction vs generalizing st i ls with
  | nil => exact ⟨ls, hls, rfl, id⟩
  | cons v vs ih =>
    cases v with
    | none => exact ⟨ls, hls, rfl, id⟩
    | some a =>
      rw [List.length_cons] at hi
      have hlt : i < ls.length := by omega
      simp only [plotLoop, hls, Option.getD_some, if_pos hlt]
      obtain ⟨ls', h1, h2, h3⟩ := ih { st with hist := st.hist.set st.count ((st.hist.getD st.count []).set i a), lines := some (ls.modify i fun l => { l with xs := st.times, ys := histColumn (st.hist.set st.count ((st.hist.getD st.count []).set i a)) st.count i }) } (i + 1) _ rfl (by rw [List.length_modify]; omega)
      refine ⟨ls', h1, by rw [h2]; simp, fun hoff => h3 ?_⟩
      intro l hl
      obtain ⟨k, hk, rfl⟩ := List.getElem_of_mem hl
      rw [List.getElem_modify]
      have hk2 : k < ls.length := by simpa using hk
      split_ifs
      · exact hoff ls[k] (List.getElem_mem hk2)
      · exact hoff _ (List.getElem_mem hk2)

omit [Zero K] in
theorem clearAxes_off (ls : List (PlotLine T K)) : ∀ l ∈ clearAxes ls, l.onAxes = false := by
  intro l hl
  unfold clearAxes at hl
  obtain ⟨_, _, rfl⟩ := List.mem_map.1 hl
  rfl

theorem plotTrigger_off (st : PlotSt T K) (t : T) (vs : List (Option K)) (ls : List (PlotLine T K)) (hls : st.lines = some ls) (hv : vs.length ≤ ls.length)
    (h : (∀ l ∈ ls, l.onAxes = false) ∨ (plotTrigger st t vs).2 = true) :
    (∃ ls', (plotTrigger st t vs).1.lines = some ls' ∧ ls'.length = ls.length ∧ ∀ l ∈ ls', l.onAxes = false) := by
  have e : (plotScroll (plotReshape st vs.length)).lines = some ls := by
    rw [← hls, ← (plotReshape_facts st vs.length).2.2.2]
    unfold plotScroll
    split_ifs <;> rfl
  unfold plotTrigger plotUpdate at h ⊢
  dsimp only at h ⊢
  set S := plotScroll (plotReshape st vs.length) with hS
  obtain ⟨ls', h1, h2, h3⟩ := plotLoop_off vs { S with times := S.times ++ [t] } 0 ls e (by omega)
  set L := plotLoop { S with times := S.times ++ [t] } 0 vs with hL
  by_cases hr : L.2 = true ∨ L.1.lines.isNone
  · rw [if_pos hr]
    simp only [if_true]
    refine ⟨clearAxes ls', by rw [h1]; rfl, by rw [← h2]; simp [clearAxes], clearAxes_off _⟩
  · rw [if_neg hr] at h ⊢
    simp only [Bool.false_eq_true, if_false, or_false] at h ⊢
    exact ⟨ls', h1, h2, h3 h⟩

/-- Once an update has raised the lines are no more on the axes, whatever follows: the display stays empty. -/
theorem C109_blank (st : PlotSt T K) (ls : List (PlotLine T K)) (hls : st.lines = some ls) (t : T) (vs : List (Option K)) (hv : vs.length ≤ ls.length)
    (hr : (plotTrigger st t vs).2 = true) (ins : List (T × List (Option K))) (hins : ∀ u ∈ ins, u.2.length ≤ ls.length) :
    ∀ l ∈ (plotRun (plotTrigger st t vs).1 ins).1.lines.getD [], l.onAxes = false := by
  obtain ⟨l1, h1, h2, h3⟩ := plotTrigger_off st t vs ls hls hv (Or.inr hr)
  generalize (plotTrigger st t vs).1 = s at h1 ⊢
  rw [← h2] at hins
  clear hls hv hr h2
  induction ins generalizing s l1 with
  | nil => simp only [plotRun, h1, Option.getD_some]; exact h3
  | cons u ins ih =>
    obtain ⟨l2, g1, g2, g3⟩ := plotTrigger_off s u.1 u.2 l1 h1 (hins u (by simp)) (Or.inl h3)
    simp only [plotRun]
    exact ih l2 (fun v hv => by rw [g2]; exact hins v (List.mem_cons_of_mem _ hv)) g3 _ g1

theorem plotTrigger_stuck (n f : Nat) (hn : 1 ≤ n) (st : PlotSt T K) (hd : PlotDrift n f st) (hf : 1 ≤ f) (hl : st.lines.getD [] = []) (t : T)
    (vs : List (Option K)) (hv : vs ≠ []) : (plotTrigger st t vs).2 = true ∧ (plotTrigger st t vs).1.lines.getD [] = [] := by
  obtain ⟨r1, r2, r3, r4⟩ := plotReshape_facts st vs.length
  obtain ⟨s1, s2, s3, s4⟩ := plotScroll_facts n f hn (plotReshape st vs.length) (by rw [r1, hd.len]) (by rw [r2]; exact hd.count) (by rw [r3, r2]; exact hd.times)
  unfold plotTrigger plotUpdate
  dsimp only
  set S := plotScroll (plotReshape st vs.length) with hS
  have hSl : S.lines.getD [] = [] := by rw [s4, r4]; exact hl
  have key : (plotLoop { S with times := S.times ++ [t] } 0 vs).2 = true ∧ (plotLoop { S with times := S.times ++ [t] } 0 vs).1.lines.getD [] = [] := by
    cases vs with
    | nil => exact absurd rfl hv
    | cons v vs =>
      cases v with
      | none => exact ⟨rfl, hSl⟩
      | some a =>
        have hy : (S.times ++ [t]).length ≠ (histColumn (S.hist.set S.count ((S.hist.getD S.count []).set 0 a)) S.count 0).length := by
          unfold histColumn
          rw [List.length_map, List.length_take, List.length_set, List.length_append, List.length_singleton]
          omega
        simp only [plotLoop, hSl, List.length_nil, Nat.not_lt_zero, if_false, if_neg hy]
        exact ⟨trivial, rfl⟩
  rw [if_pos (Or.inl key.1)]
  simp only [if_true, true_and]
  cases hh : (plotLoop { S with times := S.times ++ [t] } 0 vs).1.lines with
  | none => rfl
  | some x =>
    have := key.2
    rw [hh, Option.getD_some] at this
    rw [this]; rfl

/-- If the first value ever is not a scalar, all following updates raise too. -/
theorem C109_first_error (n : Nat) (hn : 1 ≤ n) (t : T) (ws : List (Option K)) (ins : List (T × List (Option K))) (hins : ∀ u ∈ ins, u.2 ≠ []) :
    (plotRun (plotInit n) ((t, none :: ws) :: ins)).2 = List.replicate (ins.length + 1) true := by
  have gen : ∀ (ins : List (T × List (Option K))) (f : Nat) (st : PlotSt T K), PlotDrift n f st → 1 ≤ f → st.lines.getD [] = [] → (∀ u ∈ ins, u.2 ≠ []) →
      (plotRun st ins).2 = List.replicate ins.length true := by
    intro ins
    induction ins with
    | nil => intro _ _ _ _ _ _; rfl
    | cons u ins ih =>
      intro f st hd hf hl hi
      obtain ⟨h1, h2⟩ := plotTrigger_stuck n f hn st hd hf hl u.1 u.2 (hi u (by simp))
      have h3 := plotTrigger_drift n f hn st hd u.1 u.2
      simp only [plotRun, h1, List.length_cons, List.replicate_succ]
      rw [ih _ _ h3 (by omega) h2 fun v hv => hi v (List.mem_cons_of_mem _ hv)]
  have h1 : (plotTrigger (plotInit (T := T) (K := K) n) t (none :: ws)).2 = true := by
    unfold plotTrigger plotUpdate
    simp [plotLoop]
  have h2 : (plotTrigger (plotInit (T := T) (K := K) n) t (none :: ws)).1.lines.getD [] = [] := by
    have e : (plotScroll (plotReshape (plotInit (T := T) (K := K) n) (none :: ws : List (Option K)).length)).lines = none := by
      have := (plotReshape_facts (plotInit (T := T) (K := K) n) (none :: ws : List (Option K)).length).2.2.2
      unfold plotScroll
      split_ifs
      · exact this
      · exact this
    unfold plotTrigger plotUpdate
    simp only [plotLoop, e, true_or, if_true]
    rfl
  have h3 := plotTrigger_drift n 0 hn _ (plotInit_drift (T := T) (K := K) n) t (none :: ws)
  simp only [plotRun, h1, List.replicate_succ]
  rw [gen ins _ _ h3 (by simp [h1]) h2 hins]

theorem plotTrigger_times (st : PlotSt T K) (t : T) (vs : List (Option K)) :
    (plotTrigger st t vs).1.times = (plotScroll (plotReshape st vs.length)).times ++ [t] := by
  unfold plotTrigger plotUpdate
  dsimp only
  set S := plotScroll (plotReshape st vs.length) with hS
  have h := (plotLoop_const vs { S with times := S.times ++ [t] } 0).1
  split_ifs <;> exact h

/-- With iterations on the x axis the updates are numbered from 1, with or without errors. -/
theorem C109_iterations (n : Nat) (hn : 2 ≤ n) (vss : List (List (Option K))) :
    plotRunIter (plotInit n) vss = plotRun (plotInit n) ((List.range' 1 vss.length).zip vss) := by
  have gen : ∀ (vss : List (List (Option K))) (f k : Nat) (st : PlotSt Nat K), PlotDrift n f st → st.times.getLast? = (if k = 0 then none else some k) →
      plotRunIter st vss = plotRun st ((List.range' (k + 1) vss.length).zip vss) := by
    intro vss
    induction vss with
    | nil => intro _ _ _ _ _; rfl
    | cons vs vss ih =>
      intro f k st hd hk
      have ht : nextIteration (plotScroll (plotReshape st vs.length)).times = k + 1 := by
        have e : (plotScroll (plotReshape st vs.length)).times.getLast? = st.times.getLast? := by
          obtain ⟨r1, r2, r3, -⟩ := plotReshape_facts st vs.length
          unfold plotScroll
          split_ifs with hfull
          · dsimp only
            rw [r3, List.getLast?_tail, if_neg]
            rw [r1, r2, hd.len] at hfull
            have := hd.times
            omega
          · rw [r3]
        unfold nextIteration
        rw [e, hk]
        split_ifs with h0
        · rw [h0]
        · rfl
      simp only [plotRunIter, List.length_cons, List.range'_succ, List.zip_cons_cons, plotRun, ht]
      rw [ih _ (k + 1) _ (plotTrigger_drift n f (by omega) st hd (k + 1) vs) (by
        rw [plotTrigger_times, List.getLast?_concat, if_neg (by omega)])]
  exact gen vss 0 0 _ (plotInit_drift n) (by simp [plotInit])

/-! ### Vectors -/

/-- The elements plotted exist, and are no more than `max_elements`. -/
theorem C109_indices (s : VecSel) (n : Nat) (l : List Nat) (h : plotIndices s n = some l) :
    (∀ p ∈ l, p < n) ∧ ∀ m, s.maxElements = some m → l.length ≤ m := by
  unfold plotIndices at h
  rw [Option.map_eq_some_iff] at h
  obtain ⟨l0, h0, h1⟩ := h
  have hlt : ∀ p ∈ l0, p < n := by
    cases hs : s.slice with
    | some sl => rw [hs] at h0; exact (sliceIdx_lt n sl l0 h0).2
    | none =>
      rw [hs] at h0
      cases hi : s.indices with
      | none =>
        rw [hi] at h0
        obtain rfl := Option.some.inj h0
        intro p hp
        exact List.mem_range.1 hp
      | some is =>
        rw [hi] at h0
        obtain rfl := Option.some.inj h0
        intro p hp
        rw [List.mem_map] at hp
        obtain ⟨a, ha, rfl⟩ := hp
        rw [List.mem_filter] at ha
        have := of_decide_eq_true ha.2
        omega
  cases hm : s.maxElements with
  | none => rw [hm] at h1; subst h1; exact ⟨hlt, fun _ h => by simp at h⟩
  | some m =>
    rw [hm] at h1
    subst h1
    refine ⟨fun p hp => hlt p (List.mem_of_mem_take hp), fun m' h => ?_⟩
    obtain rfl := Option.some.inj h
    simp

/-- Explicit indices are kept in their order when they exist, up to `max_elements`. -/
theorem C109_indices_kept (s : VecSel) (n : Nat) (is : List Nat) (hs : s.slice = none) (hi : s.indices = some (is.map fun k : Nat => (k : Int))) (hin : ∀ p ∈ is, p < n)
    (hm : ∀ m, s.maxElements = some m → is.length ≤ m) : plotIndices s n = some is := by
  have hf : ((is.map fun k : Nat => (k : Int)).filter fun i : Int => 0 ≤ i ∧ i < n).map Int.toNat = is := by
    rw [List.filter_eq_self.2]
    · rw [List.map_map]
      conv_rhs => rw [← List.map_id is]
      exact List.map_congr_left fun a _ => by simp
    · intro a ha
      rw [List.mem_map] at ha
      obtain ⟨k, hk, rfl⟩ := ha
      have := hin k hk
      simp; omega
  unfold plotIndices
  rw [hs, hi]
  dsimp only
  rw [hf, Option.map_some]
  cases h : s.maxElements with
  | none => rfl
  | some m => simp only [List.take_of_length_le (hm m h)]

theorem vecLoop_eq (h : List (List K)) (c : Nat) (X : List T) (idx : List Nat) (ls : List (PlotLine T K)) (i : Nat)
    (hl : ls.length = i ∨ ls.length = i + idx.length) (hon : ∀ l ∈ ls, l.onAxes = true) :
    vecLoop h c X ls i idx = ls.take i ++ idx.map fun k => ⟨X, histColumn h c k, true⟩ := by
  induction idx generalizing ls i with
  | nil =>
    have : ls.length = i := by simpa using hl
    simp [vecLoop, List.take_of_length_le this.le]
  | cons k idx ih =>
    simp only [vecLoop, List.map_cons]
    rw [List.length_cons] at hl
    by_cases hi : i < ls.length
    · rw [if_pos hi, ih _ (i + 1) (Or.inr (by rw [List.length_modify]; omega)) (by
        intro l hl2
        obtain ⟨q, hq, rfl⟩ := List.getElem_of_mem hl2
        have hq2 : q < ls.length := by simpa using hq
        rw [List.getElem_modify]
        split_ifs
        · exact hon ls[q] (List.getElem_mem hq2)
        · exact hon _ (List.getElem_mem hq2)), modify_take_succ _ _ hi, hon _ (List.getElem_mem hi)]
      simp
    · have : ls.length = i := by omega
      rw [if_neg hi, ih _ (i + 1) (Or.inl (by simp [this])) (by
        intro l hl2
        rw [List.mem_append, List.mem_singleton] at hl2
        rcases hl2 with h | rfl
        · exact hon _ h
        · rfl), List.take_of_length_le (by simp [this]), List.take_of_length_le this.le]
      simp

structure VecInv (n w : Nat) (idx : List Nat) (l : List (T × List K)) (st : VecSt T K) : Prop where
  len : (st.hist.getD []).length = n
  some : st.hist.isNone = false
  width : st.width = w
  count : st.count = min l.length n
  data : (st.hist.getD []).take st.count = lastOf n (l.map Prod.snd)
  times : st.times = lastOf n (l.map Prod.fst)
  lines : st.lines.getD [] = if l = [] then [] else idx.map fun k => ⟨st.times, (lastOf n (l.map Prod.snd)).map fun r => r.getD k 0, true⟩

theorem vecTrigger_inv (s : VecSel) (w : Nat) (idx : List Nat) (hn : 1 ≤ s.histlen) (hidx : plotIndices s w = some idx) (hne : idx ≠ []) (l : List (T × List K))
    (st : VecSt T K) (h : VecInv s.histlen w idx l st) (t : T) (v : List K) (hv : v.length = w) :
    ∃ st', vecTrigger s st t v = (st', false) ∧ VecInv s.histlen w idx (l ++ [(t, v)]) st' ∧ st'.lines.isSome := by
  have hscr : ∃ h0 c0, (if s.histlen ≤ st.count then scrollUp (st.hist.getD []) else st.hist.getD []) = h0 ∧ (if s.histlen ≤ st.count then s.histlen - 1 else st.count) = c0 ∧
      (if s.histlen ≤ st.count then st.times.tail else st.times) = (if s.histlen ≤ l.length then st.times.tail else st.times) ∧ h0.length = s.histlen ∧
      c0 < s.histlen ∧ c0 + 1 = min (l.length + 1) s.histlen ∧ h0.take c0 = if s.histlen ≤ l.length then (lastOf s.histlen (l.map Prod.snd)).tail else lastOf s.histlen (l.map Prod.snd) := by
    by_cases hfull : s.histlen ≤ l.length
    · have hc : st.count = s.histlen := by rw [h.count]; omega
      refine ⟨scrollUp (st.hist.getD []), s.histlen - 1, by rw [if_pos hc.ge], by rw [if_pos hc.ge], by rw [if_pos hc.ge, if_pos hfull], by rw [scrollUp_length, h.len], by omega, by omega, ?_⟩
      have e := scrollUp_take (st.hist.getD [])
      rw [h.len] at e
      have d := h.data
      rw [hc, List.take_of_length_le h.len.le] at d
      rw [if_pos hfull, e, d]
    · have hc : st.count = l.length := by rw [h.count]; omega
      have hc2 : ¬ s.histlen ≤ st.count := by omega
      refine ⟨st.hist.getD [], st.count, by rw [if_neg hc2], by rw [if_neg hc2], by rw [if_neg hc2, if_neg hfull], h.len, by omega, by omega, ?_⟩
      rw [if_neg hfull, h.data]
  obtain ⟨h0, c0, e1, e2, e3, e4, e5, e6, e7⟩ := hscr
  have ht : (if s.histlen ≤ l.length then st.times.tail else st.times) ++ [t] = lastOf s.histlen ((l ++ [(t, v)]).map Prod.fst) := by
    rw [List.map_append, List.map_singleton, lastOf_snoc _ hn, h.times, List.length_map]
  have hd : h0.take c0 ++ [v] = lastOf s.histlen ((l ++ [(t, v)]).map Prod.snd) := by
    rw [List.map_append, List.map_singleton, lastOf_snoc _ hn, e7, List.length_map]
  have hcol : ∀ k, histColumn (h0.set c0 v) c0 k = (lastOf s.histlen ((l ++ [(t, v)]).map Prod.snd)).map fun r => r.getD k 0 := by
    intro k
    rw [histColumn_set _ _ _ (by omega), ← hd, List.map_append]
    rfl
  have hl : (st.lines.getD []).length = 0 ∨ (st.lines.getD []).length = 0 + idx.length := by
    rw [h.lines]
    split_ifs
    · left; rfl
    · right; simp
  have hon : ∀ x ∈ st.lines.getD [], x.onAxes = true := by
    rw [h.lines]
    split_ifs
    · simp
    · intro x hx
      obtain ⟨_, _, rfl⟩ := List.mem_map.1 hx
      rfl
  refine ⟨{ hist := some (h0.set c0 v), width := w, count := c0 + 1, times := lastOf s.histlen ((l ++ [(t, v)]).map Prod.fst), lines := some (idx.map fun k => ⟨lastOf s.histlen ((l ++ [(t, v)]).map Prod.fst), (lastOf s.histlen ((l ++ [(t, v)]).map Prod.snd)).map fun r => r.getD k 0, true⟩) }, ?_, ?_, rfl⟩
  · unfold vecTrigger
    simp only [h.some, Bool.false_eq_true, if_false, h.width, hv, ne_eq, not_true_eq_false, hidx]
    cases hi : idx with
    | nil => exact absurd hi hne
    | cons a b =>
      rw [e1, e2, e3, ht, ← hi, vecLoop_eq _ _ _ _ _ _ hl hon]
      simp only [hcol, List.take_zero, List.nil_append]
  · constructor
    · simp [e4]
    · rfl
    · rfl
    · simp only [List.length_append, List.length_singleton]; omega
    · simp only [Option.getD_some]
      rw [set_take_succ _ _ (by omega), hd]
    · rfl
    · simp

/-- A display of a vector shows the last `histlen` values of the elements chosen. -/
theorem C109_vector (s : VecSel) (w : Nat) (idx : List Nat) (hn : 1 ≤ s.histlen) (hidx : plotIndices s w = some idx) (hne : idx ≠ []) (l : List (T × List K))
    (hl : ∀ u ∈ l, u.2.length = w) (hl0 : l ≠ []) :
    (vecRun s vecInit l).2 = List.replicate l.length false ∧
    (vecRun s vecInit l).1.lines = some (idx.map fun k => ⟨lastOf s.histlen (l.map Prod.fst), lastOf s.histlen (l.map fun u => u.2.getD k 0), true⟩) := by
  have gen : ∀ (l p : List (T × List K)) (st : VecSt T K), VecInv s.histlen w idx p st → (p ≠ [] → st.lines.isSome) → (∀ u ∈ l, u.2.length = w) →
      (vecRun s st l).2 = List.replicate l.length false ∧ VecInv s.histlen w idx (p ++ l) (vecRun s st l).1 ∧ (p ++ l ≠ [] → (vecRun s st l).1.lines.isSome) := by
    intro l
    induction l with
    | nil => intro p st hp hs _; exact ⟨rfl, by simpa [vecRun] using hp, by simpa [vecRun] using hs⟩
    | cons u l ih =>
      intro p st hp hs hl
      obtain ⟨st', h1, h2, h3⟩ := vecTrigger_inv s w idx hn hidx hne p st hp u.1 u.2 (hl u (by simp))
      have := ih (p ++ [u]) st' h2 (fun _ => h3) fun v hv => hl v (List.mem_cons_of_mem _ hv)
      simp only [vecRun, h1]
      refine ⟨by rw [this.1]; rfl, by simpa using this.2.1, by simpa using this.2.2⟩
  set st0 : VecSt T K := { hist := some (List.replicate s.histlen (List.replicate w 0)), width := w, count := 0, times := [], lines := none } with hst0
  have h0 : VecInv s.histlen w idx ([] : List (T × List K)) st0 := ⟨by simp [hst0], rfl, rfl, by simp [hst0], by simp [hst0, lastOf], by simp [hst0, lastOf], by simp [hst0]⟩
  have start : vecRun s vecInit l = vecRun s st0 l := by
    cases l with
    | nil => exact absurd rfl hl0
    | cons u l =>
      have hu := hl u (by simp)
      have : vecTrigger s vecInit u.1 u.2 = vecTrigger s st0 u.1 u.2 := by
        unfold vecTrigger
        simp [vecInit, hst0, hu]
      simp only [vecRun, this]
  rw [start]
  obtain ⟨h1, h2, h3⟩ := gen l [] st0 h0 (fun h => absurd rfl h) hl
  refine ⟨h1, ?_⟩
  rw [List.nil_append] at h2 h3
  have h4 := h2.lines
  rw [if_neg hl0] at h4
  cases hh : (vecRun s st0 l).1.lines with
  | none => rw [hh] at h3; exact absurd (h3 hl0) (by simp)
  | some ls =>
    rw [hh, Option.getD_some] at h4
    rw [h4, h2.times]
    congr 1
    apply List.map_congr_left
    intro k _
    rw [← lastOf_map, List.map_map]
    rfl

/-- A vector of another size changes nothing but the lines, which are removed. -/
theorem C109_vector_error (s : VecSel) (st : VecSt T K) (h : st.hist.isSome) (t : T) (v : List K) (hv : v.length ≠ st.width) :
    vecTrigger s st t v = ({ st with lines := st.lines.map clearAxes }, true) := by
  unfold vecTrigger
  have : st.hist.isNone = false := by cases hh : st.hist <;> simp [hh] at h ⊢
  simp only [this, Bool.false_eq_true, if_false]
  rw [if_pos (Ne.symm hv)]

/-! ### DataPlotter -/

omit [Zero K] in
/-- The same for the values plotted by the display server. -/
theorem C109_plotter (n : Nat) (hn : 1 ≤ n) (z : K) (l : List K) : (dpRun ⟨List.replicate n z, 0⟩ [] l).2 = lastOf n l := by
  have gen : ∀ (l p : List K) (st : DpHist K) (shown : List K), st.hist.length = n → st.count = min p.length n → st.hist.take st.count = lastOf n p → shown = lastOf n p →
      (dpRun st shown l).2 = lastOf n (p ++ l) := by
    intro l
    induction l with
    | nil => intro p st shown _ _ _ h; simpa [dpRun] using h
    | cons v l ih =>
      intro p st shown h1 h2 h3 _
      simp only [dpRun]
      have hstep : ∃ (h0 : List K) (c0 : Nat), dpHistory st v = (⟨h0.set c0 v, c0 + 1⟩, (h0.set c0 v).take (c0 + 1)) ∧ h0.length = n ∧ c0 < n ∧ c0 + 1 = min (p.length + 1) n ∧
          h0.take c0 = if n ≤ p.length then (lastOf n p).tail else lastOf n p := by
        unfold dpHistory
        by_cases hfull : n ≤ p.length
        · have hc : st.count = n := by omega
          refine ⟨scrollUp st.hist, n - 1, ?_, by rw [scrollUp_length, h1], by omega, by omega, ?_⟩
          · simp only [h1, hc, le_refl, if_true]
          · rw [if_pos hfull, ← h3, hc, ← h1, scrollUp_take, List.take_length]
        · have hc : st.count = p.length := by omega
          refine ⟨st.hist, st.count, ?_, h1, by omega, by omega, ?_⟩
          · simp only [h1, if_neg (show ¬ n ≤ st.count from by omega)]
          · rw [if_neg hfull, h3]
      obtain ⟨h0, c0, e1, e2, e3, e4, e5⟩ := hstep
      rw [e1]
      dsimp only
      have hd : (h0.set c0 v).take (c0 + 1) = lastOf n (p ++ [v]) := by
        rw [set_take_succ _ _ (by omega), lastOf_snoc n hn, e5]
      rw [ih (p ++ [v]) _ _ (by simp [e2]) (by simp only [List.length_append, List.length_singleton]; omega) hd hd]
      simp
  have := gen l [] ⟨List.replicate n z, 0⟩ [] (by simp) (by simp) (by simp [lastOf]) (by simp [lastOf])
  simpa using this

end

/-! ### Examples -/

example : (plotRun (plotInit 2) ([(1, [10]), (2, [20]), (3, [30])].map fun u : Nat × List Int => (u.1, u.2.map some))).1.lines = some [⟨[2, 3], [20, 30], true⟩] :=
  (C109_history 2 1 (by decide) (by decide) [(1, [10]), (2, [20]), (3, [30])] (by decide) (by decide)).2

/-- With one row the numbers start again at 1 each time. -/
example : (plotRunIter (plotInit 1) [[some (5 : Int)], [some 6], [some 7]]).1.times = [1] := by decide

example : (plotRunIter (plotInit 2) [[some (5 : Int)], [none], [some 7]]).1.times = [1, 2, 3] := by decide

example : lastOf 2 [1, 2, 3] = [2, 3] := by decide

/-- Two inputs, then an array instead of a number in the second one, then numbers again. -/
def errorRun : List (Nat × List (Option Int)) := [(1, [some 1, some 5]), (2, [some 2, none]), (3, [some 3, some 7])]

/-- The lines have three times, two values and are not on the axes. -/
example : ((plotRun (plotInit 10) errorRun).1.lines.getD []).map (fun l => (l.xs, l.ys, l.onAxes)) = [([1, 2, 3], [1, 3], false), ([1, 2, 3], [5, 7], false)] := by decide

example : (plotRun (plotInit 10) errorRun).2 = [false, true, false] := by decide

example : plotIndices ⟨100, some [3, -1, 1, 9], none, some 2⟩ 5 = some [3, 1] := by decide

example : (vecRun ⟨2, some [2, 0], none, none⟩ vecInit [(1, [1, 2, 3]), (2, [4, 5, 6]), (3, [7, 8, (9 : Int)])]).1.lines =
    some [⟨[2, 3], [6, 9], true⟩, ⟨[2, 3], [4, 7], true⟩] :=
  (C109_vector ⟨2, some [2, 0], none, none⟩ 3 [2, 0] (by decide) (by decide) (by decide) [(1, [1, 2, 3]), (2, [4, 5, 6]), (3, [7, 8, 9])] (by decide) (by decide)).2

example : (vecTrigger ⟨2, none, none, none⟩ (vecRun ⟨2, none, none, none⟩ vecInit [(1, [1, (2 : Int)])]).1 2 [1, 2, 3]).2 = true := by decide

end Specula
