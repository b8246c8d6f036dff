import Verif.Model.Integration
import Mathlib.Algebra.BigOperators.Intervals
import Mathlib.Algebra.Field.Basic
import Mathlib.Algebra.Order.Ring.Int
import Mathlib.Algebra.CharZero.Defs
import Mathlib.Data.Nat.Cast.Basic
import Mathlib.Tactic.FieldSimp
import Mathlib.Tactic.Ring
import Mathlib.Tactic.Linarith
import Mathlib.Tactic.Push
import Mathlib.Data.Rat.Defs
import Mathlib.Tactic.NormNum
/-
C22 and C23: integration windows tile the time axis.
-/
namespace Specula

/-- Integration time of `m` steps of `L` ticks, starting at step `s`. -/
def winPar (L : Int) (m s : Nat) : IntegPar := ⟨m * L, L, s * L⟩

theorem winPar_fires (L : Int) (hL : 0 < L) (m s k : Nat) (hsk : s ≤ k) :
    (winPar L m s).fires ((k : Int) * L) = decide (m ∣ k + 1 - s) := by
  unfold IntegPar.fires winPar
  congr 1
  have h1 : (k : Int) * L + L - m * L - s * L = ((k + 1 - s : Nat) : Int) * L - m * L := by
    rw [Nat.cast_sub (by omega)]; push_cast; ring
  simp only [h1]
  rw [eq_iff_iff, ← Int.dvd_iff_emod_eq_zero]
  constructor
  · intro h
    have h2 : (m : Int) * L ∣ ((k + 1 - s : Nat) : Int) * L := by simpa using Int.dvd_add h (Int.dvd_refl ((m : Int) * L))
    exact Int.natCast_dvd_natCast.1 (Int.dvd_of_mul_dvd_mul_right (by omega) h2)
  · intro h
    exact Int.dvd_sub (mul_dvd_mul_right (Int.natCast_dvd_natCast.2 h) L) (dvd_refl _)

/-- Every accepted configuration with a start time that is a multiple of the loop step is of this form. -/
theorem winPar_of_valid (p : IntegPar) (h : p.valid = true) (hL : 0 < p.loopDt) (h0 : 0 ≤ p.start) (hs : p.start % p.loopDt = 0) :
    ∃ m s : Nat, 0 < m ∧ p = winPar p.loopDt m s := by
  obtain ⟨dt, L, st⟩ := p
  simp only [IntegPar.valid, Bool.and_eq_true, decide_eq_true_eq] at h hL h0 hs
  obtain ⟨c, hc⟩ := Int.dvd_of_emod_eq_zero h.2
  obtain ⟨d, hd⟩ := Int.dvd_of_emod_eq_zero hs
  have hc0 : 0 < c := by
    by_contra hn
    have := mul_nonpos_of_nonneg_of_nonpos hL.le (by omega : c ≤ 0)
    omega
  have hd0 : 0 ≤ d := by
    by_contra hn
    have := mul_neg_of_pos_of_neg hL (by omega : d < 0)
    omega
  refine ⟨c.toNat, d.toNat, by omega, ?_⟩
  simp only [winPar, IntegPar.mk.injEq, true_and]
  rw [Int.toNat_of_nonneg hc0.le, Int.toNat_of_nonneg hd0, hc, hd]
  constructor <;> ring

/-- first step of the window of step `k` -/
def winStart (m s k : Nat) : Nat := s + m * ((k - s) / m)

theorem winStart_le {m s k : Nat} (h : s ≤ k) : winStart m s k ≤ k := by
  unfold winStart; have := Nat.mul_div_le (k - s) m; omega

theorem winStart_succ_fire {m s k : Nat} (h : s ≤ k) (hf : m ∣ k + 1 - s) : winStart m s (k + 1) = k + 1 := by
  unfold winStart; rw [Nat.mul_div_cancel' hf]; omega

theorem winStart_succ {m s k : Nat} (h : s ≤ k) (hf : ¬ m ∣ k + 1 - s) : winStart m s (k + 1) = winStart m s k := by
  unfold winStart
  have : k + 1 - s = (k - s) + 1 := by omega
  rw [this] at hf ⊢
  rw [Nat.succ_div, if_neg hf, add_zero]

theorem winStart_fire {m s k : Nat} (h : s ≤ k) (hf : m ∣ k + 1 - s) : winStart m s k = k + 1 - m := by
  have h1 := winStart_succ_fire h hf
  unfold winStart at h1 ⊢
  have : k + 1 - s = (k - s) + 1 := by omega
  rw [this] at hf h1
  rw [Nat.succ_div, if_pos hf, Nat.mul_add, Nat.mul_one] at h1
  omega

section
variable {K : Type} [Field K]

/-- sum of the inputs of the current window so far -/
def winSum (x : Nat → K) (a m s k : Nat) : K := ∑ j ∈ Finset.Ico (max a (winStart m s k)) k, x j

theorem winSum_before {x : Nat → K} {a m s k : Nat} (h : k ≤ s) : winSum x a m s k = 0 := by
  unfold winSum
  have : winStart m s k = s := by unfold winStart; rw [show k - s = 0 by omega]; simp
  rw [this, Finset.Ico_eq_empty (by omega), Finset.sum_empty]

theorem winSum_add {x : Nat → K} {a m s k : Nat} (ha : a ≤ k) (h : s ≤ k) :
    winSum x a m s k + x k = ∑ j ∈ Finset.Ico (max a (winStart m s k)) (k + 1), x j := by
  unfold winSum
  rw [Finset.sum_Ico_succ_top (max_le ha (winStart_le h))]

/-- What a detector should emit at step `k` when the run starts at step `a`: a frame if `k` is the last step of a window,
containing the steps of that window that have been executed. -/
def expectedFrame (L : Int) (m s a : Nat) (factor qe : K) (x : Nat → K) (k : Nat) : Option (Frame K) :=
  if s ≤ k ∧ m ∣ k + 1 - s then
    some ⟨k * L, (∑ j ∈ Finset.Ico (max a (k + 1 - m)) (k + 1), x j) * factor,
      (∑ j ∈ Finset.Ico (max a (k + 1 - m)) (k + 1), x j) * factor * qe⟩
  else none

theorem ccdRun_from (L : Int) (hL : 0 < L) (m : Nat) (_hm : 0 < m) (s a : Nat) (factor qe : K) (x : Nat → K) (k n : Nat) (hk : a ≤ k) :
    ccdRun (winPar L m s) factor qe ((List.range' k n).map fun (k : Nat) => ((k : Int) * L, x k)) (winSum x a m s k * factor) =
      (winSum x a m s (k + n) * factor, (List.range' k n).filterMap (expectedFrame L m s a factor qe x)) := by
  induction n generalizing k with
  | zero => simp [ccdRun]
  | succ n ih =>
    have ih := ih (k + 1) (by omega)
    rw [List.range'_succ, List.map_cons, List.filterMap_cons, ccdRun]
    have hkn : k + (n + 1) = k + 1 + n := by omega
    rw [hkn]
    by_cases hs : s ≤ k
    · have hskip : ¬ ((winPar L m s).start > 0 ∧ (k : Int) * L < (winPar L m s).start) := by
        rintro ⟨-, h⟩
        simp only [winPar] at h
        have := lt_of_mul_lt_mul_right h hL.le
        omega
      by_cases hf : m ∣ k + 1 - s
      · have hfire : (winPar L m s).fires ((k : Int) * L) = true := by rw [winPar_fires L hL m s k hs]; simpa using hf
        have hnext : winSum x a m s (k + 1) = 0 := by
          unfold winSum
          rw [winStart_succ_fire hs hf, Finset.Ico_eq_empty (by omega), Finset.sum_empty]
        have hstep : ccdTrigger (winPar L m s) factor qe ((k : Int) * L) (x k) (winSum x a m s k * factor) =
            (0, some ⟨k * L, (winSum x a m s k + x k) * factor, (winSum x a m s k + x k) * factor * qe⟩) := by
          unfold ccdTrigger
          rw [if_neg hskip]
          simp only [hfire, if_true]
          rw [← add_mul]
        rw [hstep]
        have h0 : (0 : K) = winSum x a m s (k + 1) * factor := by rw [hnext, zero_mul]
        simp only [h0]
        rw [ih]
        simp only [expectedFrame, hs, hf, and_self, if_true, Option.toList_some, List.singleton_append]
        rw [winSum_add hk hs, winStart_fire hs hf]
      · have hfire : (winPar L m s).fires ((k : Int) * L) = false := by rw [winPar_fires L hL m s k hs]; simpa using hf
        have hnext : winSum x a m s (k + 1) = winSum x a m s k + x k := by
          rw [winSum_add hk hs]
          unfold winSum
          rw [winStart_succ hs hf]
        have hstep : ccdTrigger (winPar L m s) factor qe ((k : Int) * L) (x k) (winSum x a m s k * factor) =
            (winSum x a m s (k + 1) * factor, none) := by
          unfold ccdTrigger
          rw [if_neg hskip]
          simp only [hfire, Bool.false_eq_true, if_false]
          rw [hnext, add_mul]
        rw [hstep]
        simp only
        rw [ih]
        simp [expectedFrame, hf]
    · have hskip : (winPar L m s).start > 0 ∧ (k : Int) * L < (winPar L m s).start := by
        have h1 : (k : Int) < s := by omega
        have h2 : (k : Int) * L < s * L := mul_lt_mul_of_pos_right h1 hL
        have h3 : 0 ≤ (k : Int) * L := mul_nonneg (by omega) hL.le
        simp only [winPar]
        omega
      have hstep : ccdTrigger (winPar L m s) factor qe ((k : Int) * L) (x k) (winSum x a m s k * factor) =
          (winSum x a m s (k + 1) * factor, none) := by
        unfold ccdTrigger
        rw [if_pos hskip, winSum_before (k := k + 1) (by omega), winSum_before (k := k) (by omega)]
      rw [hstep]
      simp only
      rw [ih]
      simp [expectedFrame, hs]

/-- **C22** (exposures): a detector with integration time of `m` steps and start at step `s`, run from step `a` for `n` steps
with a new input at every step, emits a frame exactly at the last step of each window `[s + j m, s + (j+1) m)`; the frame is the
sum over the executed steps of its window of the input times the factor. -/
theorem C22_frames (L : Int) (hL : 0 < L) (m : Nat) (hm : 0 < m) (s a : Nat) (factor qe : K) (x : Nat → K) (n : Nat) :
    (ccdRun (winPar L m s) factor qe ((List.range' a n).map fun (k : Nat) => ((k : Int) * L, x k)) 0).2 =
      (List.range' a n).filterMap (expectedFrame L m s a factor qe x) := by
  have h := ccdRun_from L hL m hm s a factor qe x a n (le_refl _)
  have h0 : winSum x a m s a = 0 := by
    unfold winSum; rw [Finset.Ico_eq_empty (by omega), Finset.sum_empty]
  rw [h0, zero_mul] at h
  rw [h]

/-- **C22** (full windows): when the run starts not later than the detector, the frames are one for each complete window, in
order, each over all of its `m` steps. -/
theorem C22_tiling (L : Int) (hL : 0 < L) (m : Nat) (hm : 0 < m) (s : Nat) (factor qe : K) (x : Nat → K) (n : Nat) :
    (ccdRun (winPar L m s) factor qe ((List.range (s + n)).map fun (k : Nat) => ((k : Int) * L, x k)) 0).2.map
        (fun f => (f.time, f.integrated)) =
      (List.range (n / m)).map fun (j : Nat) =>
        (((s + (j + 1) * m - 1 : Nat) : Int) * L, (∑ k ∈ Finset.Ico (s + j * m) (s + (j + 1) * m), x k) * factor) := by
  rw [List.range_eq_range', C22_frames L hL m hm s 0 factor qe x (s + n)]
  induction n with
  | zero =>
    simp only [add_zero, Nat.zero_div, List.range_zero, List.map_nil, List.map_eq_nil_iff, List.filterMap_eq_nil_iff]
    intro k hk
    have := List.mem_range'_1.1 hk
    simp only [expectedFrame]
    rw [if_neg]; omega
  | succ n ih =>
    have hr : List.range' 0 (s + (n + 1)) = List.range' 0 (s + n) ++ [s + n] := by
      rw [← List.range_eq_range', ← List.range_eq_range', ← add_assoc, List.range_succ]
    rw [hr, List.filterMap_append, List.map_append, ih]
    have hsub : s + n + 1 - s = n + 1 := by omega
    by_cases hd : m ∣ n + 1
    · have hdiv : (n + 1) / m = n / m + 1 := by rw [Nat.succ_div, if_pos hd]
      rw [hdiv, List.range_succ, List.map_append]
      congr 1
      have hq : (n / m + 1) * m = n + 1 := by rw [← hdiv]; exact Nat.div_mul_cancel hd
      have hq' : (n / m) * m + m = n + 1 := by rw [← hq]; ring
      simp only [List.filterMap_cons, List.filterMap_nil, List.map_cons, List.map_nil, expectedFrame, hsub, hd,
        Nat.le_add_right, and_self, if_true, hq, Nat.zero_max]
      have e1 : s + n + 1 - m = s + n / m * m := by omega
      have e2 : s + (n + 1) - 1 = s + n := by omega
      rw [e1, e2, add_assoc]
    · have hdiv : (n + 1) / m = n / m := by rw [Nat.succ_div, if_neg hd, add_zero]
      rw [hdiv]
      simp [expectedFrame, hd, hsub]

/-- **C22** (nothing lost, nothing counted twice): the frames plus what is still being integrated add up to all inputs since
the start. -/
theorem C22_conserved (L : Int) (hL : 0 < L) (m : Nat) (hm : 0 < m) (s a : Nat) (factor qe : K) (x : Nat → K) (n : Nat) :
    let r := ccdRun (winPar L m s) factor qe ((List.range' a n).map fun (k : Nat) => ((k : Int) * L, x k)) 0
    (r.2.map (·.integrated)).sum + r.1 = (∑ k ∈ (Finset.Ico a (a + n)).filter (s ≤ ·), x k) * factor := by
  have h := ccdRun_from L hL m hm s a factor qe x a n (le_refl _)
  have h0 : winSum x a m s a = 0 := by
    unfold winSum; rw [Finset.Ico_eq_empty (by omega), Finset.sum_empty]
  rw [h0, zero_mul] at h
  intro r
  have hr : r = _ := h
  rw [hr]
  simp only
  clear h hr r
  induction n with
  | zero => simp [h0]
  | succ n ih =>
    rw [List.range'_concat, List.filterMap_append, List.map_append, List.sum_append, ← add_assoc a n 1,
      ← Finset.insert_Ico_right_eq_Ico_add_one (by omega), Finset.filter_insert]
    simp only [Nat.one_mul, List.filterMap_cons, List.filterMap_nil]
    by_cases hs : s ≤ a + n
    · rw [if_pos hs, Finset.sum_insert (by simp), add_mul, ← ih]
      by_cases hf : m ∣ a + n + 1 - s
      · have hnext : winSum x a m s (a + n + 1) = 0 := by
          unfold winSum
          rw [winStart_succ_fire hs hf, Finset.Ico_eq_empty (by omega), Finset.sum_empty]
        have := winSum_add (x := x) (a := a) (m := m) (s := s) (k := a + n) (by omega) hs
        rw [winStart_fire hs hf] at this
        simp only [expectedFrame, hs, hf, and_self, if_true, List.map_cons, List.map_nil, List.sum_cons, List.sum_nil]
        rw [← this, hnext]; ring
      · have hnext : winSum x a m s (a + n + 1) = winSum x a m s (a + n) + x (a + n) := by
          rw [winSum_add (by omega) hs]
          unfold winSum
          rw [winStart_succ hs hf]
        simp only [expectedFrame, hf, and_false, if_false, List.map_nil, List.sum_nil]
        rw [hnext]; ring
    · rw [if_neg hs, ← ih, winSum_before (by omega), winSum_before (by omega)]
      simp [expectedFrame, hs]

/-- The start time must be a multiple of the loop step: otherwise the detector never emits a frame. -/
theorem C22_unaligned_never_fires (L dt start : Int) (hdt : dt % L = 0) (hst : ¬ start % L = 0) (k : Int) :
    (IntegPar.mk dt L start).fires (k * L) = false := by
  unfold IntegPar.fires
  simp only [decide_eq_false_iff_not]
  intro h
  apply hst
  obtain ⟨c, hc⟩ := Int.dvd_of_emod_eq_zero hdt
  obtain ⟨q, hq⟩ := Int.dvd_of_emod_eq_zero h
  apply Int.emod_eq_zero_of_dvd
  refine ⟨k + 1 - c - c * q, ?_⟩
  subst hc
  linarith

/-- A detector that integrates 2 steps and starts at step 1: frames at steps 2 and 4. -/
example : (ccdRun (winPar 10 2 1) (1 : ℚ) 1 ((List.range' 0 6).map fun (k : Nat) => ((k : Int) * 10, (k : ℚ))) 0).2.map
    (fun f => (f.time, f.integrated)) = [(20, 1 + 2), (40, 3 + 4)] := by
  rw [C22_frames 10 (by norm_num) 2 (by norm_num)]
  simp [List.range', expectedFrame, Finset.sum_Ico_succ_top]

/-- Inputs that are not renewed at every step break the tiling: the object is not triggered at such a step, and if that step is
the last of a window, the exposure goes on to the end of the next window. -/
theorem C22_stale_input_merges_windows :
    (ccdRun (winPar 10 2 0) (1 : ℚ) 1 [(0, 1), (20, 1), (30, 1)] 0).2.map (fun f => (f.time, f.integrated)) = [(30, 3)] := by
  have h1 : (winPar 10 2 0).fires 0 = false := by decide
  have h2 : (winPar 10 2 0).fires 20 = false := by decide
  have h3 : (winPar 10 2 0).fires 30 = true := by decide
  have hs : (winPar 10 2 0).start = 0 := by decide
  simp only [ccdRun, ccdTrigger, h1, h2, h3, hs]
  norm_num

/-! ### Windowed integration -/

theorem winRun_from [CharZero K] (L : Int) (hL : 0 < L) (m : Nat) (hm : 0 < m) (s a : Nat) (onDt : Bool) (x : Nat → K)
    (k n : Nat) (hk : a ≤ k) (st : WinState K) (hst : st.acc = winSum x a m s k / m) (hout : st.out = 0 ∨ s ≤ k) :
    (winRun (winPar L m s) onDt ((List.range' k n).map fun (k : Nat) => ((k : Int) * L, x k)) st).map (·.out) =
      (List.range' k n).map fun k =>
        if s ≤ k ∧ m ∣ k + 1 - s then (∑ j ∈ Finset.Ico (max a (k + 1 - m)) (k + 1), x j) / m else 0 := by
  induction n generalizing k st with
  | zero => rfl
  | succ n ih =>
    rw [List.range'_succ, List.map_cons, winRun, List.map_cons, List.map_cons]
    have hLK : ((L : Int) : K) ≠ 0 := by exact_mod_cast hL.ne'
    have hmK : ((m : Nat) : K) ≠ 0 := by exact_mod_cast hm.ne'
    have hscale : x k * ((winPar L m s).loopDt : K) / ((winPar L m s).dt : K) = x k / m := by
      simp only [winPar]; push_cast; field_simp
    by_cases hs : s ≤ k
    · have hgo : (winPar L m s).start ≤ 0 ∨ (k : Int) * L ≥ (winPar L m s).start := by
        right
        simp only [winPar]
        exact mul_le_mul_of_nonneg_right (by omega) hL.le
      by_cases hf : m ∣ k + 1 - s
      · have hfire : (winPar L m s).fires ((k : Int) * L) = true := by rw [winPar_fires L hL m s k hs]; simpa using hf
        have hnext : winSum x a m s (k + 1) = 0 := by
          unfold winSum
          rw [winStart_succ_fire hs hf, Finset.Ico_eq_empty (by omega), Finset.sum_empty]
        have hstep : (winTrigger (winPar L m s) onDt ((k : Int) * L) (x k) st).acc = winSum x a m s (k + 1) / m ∧
            (winTrigger (winPar L m s) onDt ((k : Int) * L) (x k) st).out = (winSum x a m s k + x k) / m := by
          unfold winTrigger
          simp only [hgo, if_true, hfire, hscale, hst, hnext]
          cases onDt <;> simp [add_div]
        congr 1
        · rw [hstep.2, if_pos ⟨hs, hf⟩, winSum_add hk hs, winStart_fire hs hf]
        · exact ih (k + 1) (by omega) _ hstep.1 (Or.inr (by omega))
      · have hfire : (winPar L m s).fires ((k : Int) * L) = false := by rw [winPar_fires L hL m s k hs]; simpa using hf
        have hnext : winSum x a m s (k + 1) = winSum x a m s k + x k := by
          rw [winSum_add hk hs]
          unfold winSum
          rw [winStart_succ hs hf]
        have hstep : (winTrigger (winPar L m s) onDt ((k : Int) * L) (x k) st).acc = winSum x a m s (k + 1) / m ∧
            (winTrigger (winPar L m s) onDt ((k : Int) * L) (x k) st).out = 0 := by
          unfold winTrigger
          simp only [hgo, if_true, hfire, hscale, hst, hnext, Bool.false_eq_true, if_false]
          cases onDt <;> simp [add_div]
        congr 1
        · rw [hstep.2, if_neg (fun h => hf h.2)]
        · exact ih (k + 1) (by omega) _ hstep.1 (Or.inr (by omega))
    · have hgo : ¬ ((winPar L m s).start ≤ 0 ∨ (k : Int) * L ≥ (winPar L m s).start) := by
        have h1 : (k : Int) < s := by omega
        have h2 : (k : Int) * L < s * L := mul_lt_mul_of_pos_right h1 hL
        have h3 : 0 ≤ (k : Int) * L := mul_nonneg (by omega) hL.le
        simp only [winPar]
        omega
      have hout : st.out = 0 := hout.resolve_right hs
      have hstep : (winTrigger (winPar L m s) onDt ((k : Int) * L) (x k) st).acc = winSum x a m s (k + 1) / m ∧
          (winTrigger (winPar L m s) onDt ((k : Int) * L) (x k) st).out = 0 := by
        unfold winTrigger
        simp only [hgo, if_false]
        rw [winSum_before (by omega)]
        rw [winSum_before (by omega)] at hst
        cases onDt <;> simp [hst, hout]
      congr 1
      · rw [hstep.2, if_neg (fun h => hs h.1)]
      · exact ih (k + 1) (by omega) _ hstep.1 (Or.inl hstep.2)

/-- **C23** (window means): with windows of `m` steps from step `s` on, run from step `a` for `n` steps, the output is the sum
over the executed steps of the window divided by `m` — their mean when the window is complete — at the last step of each window
and zero at all other steps. -/
theorem C23_window_means [CharZero K] (L : Int) (hL : 0 < L) (m : Nat) (hm : 0 < m) (s a : Nat) (onDt : Bool) (x : Nat → K) (n : Nat) (t0 : Int) :
    (winRun (winPar L m s) onDt ((List.range' a n).map fun (k : Nat) => ((k : Int) * L, x k)) ⟨0, 0, t0⟩).map (·.out) =
      (List.range' a n).map fun k =>
        if s ≤ k ∧ m ∣ k + 1 - s then (∑ j ∈ Finset.Ico (max a (k + 1 - m)) (k + 1), x j) / m else 0 :=
  winRun_from L hL m hm s a onDt x a n (le_refl _) ⟨0, 0, t0⟩ (by
    unfold winSum; rw [Finset.Ico_eq_empty (by omega), Finset.sum_empty, zero_div]) (Or.inl rfl)

/-- **C23** (refresh times): with `update_time_on_dt` the output is refreshed exactly at the last step of each window,
otherwise at every step. -/
theorem C23_refresh (L : Int) (hL : 0 < L) (m s k : Nat) (onDt : Bool) (x : K) (st : WinState K) :
    (winTrigger (winPar L m s) onDt ((k : Int) * L) x st).time =
      if onDt = false ∨ (s ≤ k ∧ m ∣ k + 1 - s) then (k : Int) * L else st.time := by
  unfold winTrigger
  by_cases hs : s ≤ k
  · have hgo : (winPar L m s).start ≤ 0 ∨ (k : Int) * L ≥ (winPar L m s).start := by
      right
      simp only [winPar]
      exact mul_le_mul_of_nonneg_right (by omega) hL.le
    simp only [hgo, if_true, winPar_fires L hL m s k hs]
    cases onDt <;> by_cases hf : m ∣ k + 1 - s <;> simp [hf, hs]
  · have hgo : ¬ ((winPar L m s).start ≤ 0 ∨ (k : Int) * L ≥ (winPar L m s).start) := by
      have h1 : (k : Int) < s := by omega
      have h2 : (k : Int) * L < s * L := mul_lt_mul_of_pos_right h1 hL
      have h3 : 0 ≤ (k : Int) * L := mul_nonneg (by omega) hL.le
      simp only [winPar]
      omega
    simp only [hgo, if_false]
    cases onDt <;> simp [hs]

example : (winRun (winPar 10 2 1) false ((List.range' 0 5).map fun (k : Nat) => ((k : Int) * 10, (k : ℚ))) ⟨0, 0, -1⟩).map (·.out) =
    [0, 0, 3 / 2, 0, 7 / 2] := by
  rw [C23_window_means 10 (by norm_num) 2 (by norm_num)]
  simp [List.range', Finset.sum_Ico_succ_top]
  norm_num

end
end Specula
