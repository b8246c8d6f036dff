import Verif.Model.Psf
import Mathlib.Algebra.Order.BigOperators.Ring.Finset
import Mathlib.Algebra.BigOperators.Field
import Mathlib.Analysis.SpecialFunctions.Complex.Log
import Mathlib.Tactic.Linarith
import Mathlib.Tactic.Ring
import Mathlib.Tactic.FieldSimp
import Mathlib.Tactic.LinearCombination
import Mathlib.Tactic.NormNum
import Mathlib.Tactic.Positivity

/-!
# C46: PSF, Strehl ratio and long exposures
-/

namespace Specula
open Finset

/-! ## Long exposure -/

section
variable {K : Type} [Field K] [LinearOrder K] [IsStrictOrderedRing K] {P : Type}

/-- Specification: arithmetic mean. -/
def meanOf (l : List K) : K := l.sum / l.length

/-- Specification: the triggers not earlier than the start time. -/
def exposed (start : K) (xs : List (PsfStep P K)) : List (PsfStep P K) := xs.filter fun x => start ≤ x.time

omit [IsStrictOrderedRing K] in
theorem psf_sums (start : K) (xs : List (PsfStep P K)) (s : PsfState P K) :
    xs.foldl (psfPost start) s =
    { count := s.count + (exposed start xs).length
      intSr := s.intSr + ((exposed start xs).map fun x => x.sr).sum
      intPsf := fun p => s.intPsf p + ((exposed start xs).map fun x => x.psf p).sum
      sumSq := fun p => s.sumSq p + ((exposed start xs).map fun x => x.psf p ^ 2).sum } := by
  induction xs generalizing s with
  | nil => simp [exposed]
  | cons x xs ih =>
    rw [List.foldl_cons, ih]
    unfold exposed psfPost
    by_cases h : start ≤ x.time
    · rw [if_pos h, List.filter_cons_of_pos (by simpa using h)]
      simp only [List.length_cons, List.map_cons, List.sum_cons, PsfState.mk.injEq]
      refine ⟨by omega, by ring, ?_, ?_⟩ <;> (funext p; ring)
    · rw [if_neg h, List.filter_cons_of_neg (by simpa using h)]

omit [LinearOrder K] [IsStrictOrderedRing K] in
theorem sum_sq_dev (l : List K) (m : K) : (l.map fun x => (x - m) ^ 2).sum = (l.map fun x => x ^ 2).sum - 2 * m * l.sum + l.length * m ^ 2 := by
  induction l with
  | nil => simp
  | cons x xs ih => simp only [List.map_cons, List.sum_cons, List.length_cons, ih]; push_cast; ring

/-- At the end the Strehl ratio and the PSF are the means, and the variance that of the PSFs, over exactly the triggers not earlier
than the start time.  The `maximum(variance, 0)` never changes anything in exact arithmetic. -/
theorem C46_long_exposure (start : K) (xs : List (PsfStep P K)) (hne : exposed start xs ≠ []) :
    (psfFinalize (xs.foldl (psfPost start) psfInit)).intSr = meanOf ((exposed start xs).map fun x => x.sr) ∧
    ∀ p, (psfFinalize (xs.foldl (psfPost start) psfInit)).intPsf p = meanOf ((exposed start xs).map fun x => x.psf p) ∧
      (psfFinalize (xs.foldl (psfPost start) psfInit)).variance p =
        meanOf ((exposed start xs).map fun x => (x.psf p - meanOf ((exposed start xs).map fun x => x.psf p)) ^ 2) := by
  have hpos : 0 < (exposed start xs).length := List.length_pos_iff.2 hne
  rw [psf_sums]
  simp only [psfInit, zero_add, psfFinalize, gt_iff_lt, hpos, if_true, meanOf, List.length_map, true_and]
  intro p
  have hn : ((exposed start xs).length : K) ≠ 0 := by exact_mod_cast hpos.ne'
  have hn0 : (0 : K) < (exposed start xs).length := by exact_mod_cast hpos
  have hdev := sum_sq_dev ((exposed start xs).map fun x => x.psf p) (meanOf ((exposed start xs).map fun x => x.psf p))
  have hnn : 0 ≤ (((exposed start xs).map fun x => x.psf p).map fun y => (y - meanOf ((exposed start xs).map fun x => x.psf p)) ^ 2).sum := by
    apply List.sum_nonneg
    intro y hy
    obtain ⟨z, -, rfl⟩ := List.mem_map.1 hy
    positivity
  simp only [List.map_map, Function.comp_def, List.length_map, meanOf] at hdev hnn
  rw [hdev] at hnn ⊢
  generalize ((exposed start xs).map fun x => x.psf p).sum = S at *
  generalize ((exposed start xs).map fun x => x.psf p ^ 2).sum = Q at *
  generalize ((exposed start xs).length : K) = n at *
  have e : Q / n - (S / n) ^ 2 = (Q - 2 * (S / n) * S + n * (S / n) ^ 2) / n := by field_simp; ring
  rw [e, max_eq_left (div_nonneg hnn hn0.le)]

omit [IsStrictOrderedRing K] in
/-- Without a trigger after the start time everything is zero. -/
theorem C46_no_exposure (start : K) (xs : List (PsfStep P K)) (hne : exposed start xs = []) :
    (psfFinalize (xs.foldl (psfPost start) psfInit)).intSr = 0 ∧
    ∀ p, (psfFinalize (xs.foldl (psfPost start) psfInit)).intPsf p = 0 ∧ (psfFinalize (xs.foldl (psfPost start) psfInit)).variance p = 0 := by
  rw [psf_sums, hne]
  simp [psfInit, psfFinalize]

end

/-! ## Fourier transform -/

theorem twiddle_add (w : ℕ) (a b : ℤ) : twiddle w (a + b) = twiddle w a * twiddle w b := by
  unfold twiddle
  rw [← Complex.exp_add]
  congr 1
  push_cast
  ring

theorem twiddle_zero (w : ℕ) : twiddle w 0 = 1 := by simp [twiddle]

theorem twiddle_conj (w : ℕ) (a : ℤ) : (starRingEnd ℂ) (twiddle w a) = twiddle w (-a) := by
  unfold twiddle
  rw [← Complex.exp_conj]
  congr 1
  simp only [map_neg, map_div₀, map_mul, Complex.conj_I, Complex.conj_ofReal, map_ofNat, map_natCast, map_intCast]
  push_cast
  ring

theorem twiddle_period (w : ℕ) (hw : 0 < w) (a n : ℤ) : twiddle w (a + w * n) = twiddle w a := by
  rw [twiddle_add]
  have : twiddle w (w * n) = 1 := by
    unfold twiddle
    rw [Complex.exp_eq_one_iff]
    refine ⟨-n, ?_⟩
    have : (w : ℂ) ≠ 0 := by exact_mod_cast hw.ne'
    push_cast
    field_simp
  rw [this, mul_one]

theorem twiddle_pow (w : ℕ) (d : ℤ) (k : ℕ) : twiddle w (k * d) = twiddle w d ^ k := by
  induction k with
  | zero => simp [twiddle_zero]
  | succ k ih => rw [pow_succ, ← ih, ← twiddle_add]; congr 1; push_cast; ring

theorem twiddle_ne_one (w : ℕ) (hw : 0 < w) (d : ℤ) (h0 : d ≠ 0) (h1 : |d| < w) : twiddle w d ≠ 1 := by
  unfold twiddle
  intro h
  rw [Complex.exp_eq_one_iff] at h
  obtain ⟨n, hn⟩ := h
  have hwc : (w : ℂ) ≠ 0 := by exact_mod_cast hw.ne'
  have hpi : (2 * (Real.pi : ℂ) * Complex.I) ≠ 0 := Complex.two_pi_I_ne_zero
  have e : (-(d : ℂ)) = n * w := by
    field_simp at hn
    have := mul_left_cancel₀ (a := 2 * (Real.pi : ℂ) * Complex.I) hpi (b := -(d : ℂ)) (c := n * w) (by linear_combination (2 * (Real.pi : ℂ) * Complex.I) * hn)
    exact this
  have e' : -d = n * w := by exact_mod_cast e
  have hn0 : n ≠ 0 := by rintro rfl; simp at e'; exact h0 e'
  have h2 : |d| = |n| * w := by rw [← abs_neg, e', abs_mul, Nat.abs_cast]
  have h3 : 1 ≤ |n| := Int.one_le_abs hn0
  nlinarith

theorem twiddle_orthogonal (w : ℕ) (hw : 0 < w) (i i' : ℕ) (hi : i < w) (hi' : i' < w) :
    ∑ k ∈ range w, twiddle w (k * ((i : ℤ) - i')) = if i = i' then (w : ℂ) else 0 := by
  simp only [twiddle_pow]
  split
  · rename_i h; subst h; simp [twiddle_zero]
  · rename_i h
    have hne := twiddle_ne_one w hw ((i : ℤ) - i') (by omega) (by rw [abs_lt]; omega)
    rw [geom_sum_eq hne, ← twiddle_pow]
    have := twiddle_period w hw 0 ((i : ℤ) - i')
    rw [zero_add] at this
    rw [this, twiddle_zero]
    simp

/-- Parseval in one dimension. -/
theorem parseval (w : ℕ) (hw : 0 < w) (f : ℕ → ℂ) :
    ∑ k ∈ range w, Complex.normSq (∑ i ∈ range w, f i * twiddle w (k * i)) = w * ∑ i ∈ range w, Complex.normSq (f i) := by
  have key : ∑ k ∈ range w, ((Complex.normSq (∑ i ∈ range w, f i * twiddle w (k * i)) : ℝ) : ℂ) = w * ∑ i ∈ range w, ((Complex.normSq (f i) : ℝ) : ℂ) := by
    have h1 : ∀ k ∈ range w, ((Complex.normSq (∑ i ∈ range w, f i * twiddle w (k * i)) : ℝ) : ℂ) =
        ∑ i ∈ range w, ∑ i' ∈ range w, f i * (starRingEnd ℂ) (f i') * twiddle w (k * ((i : ℤ) - i')) := by
      intro k _
      rw [← Complex.mul_conj, map_sum, sum_mul_sum]
      apply sum_congr rfl; intro i _
      apply sum_congr rfl; intro i' _
      rw [map_mul, twiddle_conj]
      have : twiddle w (k * ((i : ℤ) - i')) = twiddle w (k * i) * twiddle w (-(k * i')) := by
        rw [← twiddle_add]; congr 1; ring
      rw [this]; ring
    rw [sum_congr rfl h1, sum_comm]
    rw [mul_sum]
    apply sum_congr rfl
    intro i hi
    rw [sum_comm]
    have h2 : ∀ i' ∈ range w, ∑ k ∈ range w, f i * (starRingEnd ℂ) (f i') * twiddle w (k * ((i : ℤ) - i')) =
        if i = i' then (w : ℂ) * (f i * (starRingEnd ℂ) (f i)) else 0 := by
      intro i' hi'
      rw [← mul_sum, twiddle_orthogonal w hw i i' (mem_range.1 hi) (mem_range.1 hi')]
      split
      · rename_i h; subst h; ring
      · ring
    rw [sum_congr rfl h2, sum_ite_eq, if_pos hi, Complex.mul_conj]
  exact_mod_cast key

theorem fft2_split (w : ℕ) (u : ℕ → ℕ → ℂ) (k l : ℕ) :
    fft2 w u k l = ∑ i ∈ range w, (∑ j ∈ range w, u i j * twiddle w (l * j)) * twiddle w (k * i) := by
  unfold fft2
  apply sum_congr rfl; intro i _
  rw [sum_mul]
  apply sum_congr rfl; intro j _
  have : twiddle w ((k * i + l * j : ℕ) : ℤ) = twiddle w (l * j) * twiddle w (k * i) := by
    rw [← twiddle_add]; congr 1; push_cast; ring
  rw [this]; ring

theorem parseval2 (w : ℕ) (hw : 0 < w) (u : ℕ → ℕ → ℂ) :
    ∑ k ∈ range w, ∑ l ∈ range w, Complex.normSq (fft2 w u k l) = (w : ℝ) ^ 2 * ∑ i ∈ range w, ∑ j ∈ range w, Complex.normSq (u i j) := by
  rw [sum_comm]
  simp only [fft2_split]
  have h1 : ∀ l ∈ range w, ∑ k ∈ range w, Complex.normSq (∑ i ∈ range w, (∑ j ∈ range w, u i j * twiddle w (l * j)) * twiddle w (k * i)) =
      w * ∑ i ∈ range w, Complex.normSq (∑ j ∈ range w, u i j * twiddle w (l * j)) := by
    intro l _
    exact parseval w hw fun i => ∑ j ∈ range w, u i j * twiddle w (l * j)
  rw [sum_congr rfl h1, ← mul_sum, sum_comm]
  have h2 : ∀ i ∈ range w, ∑ l ∈ range w, Complex.normSq (∑ j ∈ range w, u i j * twiddle w (l * j)) = w * ∑ j ∈ range w, Complex.normSq (u i j) := by
    intro i _
    exact parseval w hw (u i)
  rw [sum_congr rfl h2, ← mul_sum]
  ring

theorem fftshiftIdx_eq (w k : ℕ) (hk : k < w) : fftshiftIdx w k = if k < w / 2 then k + (w - w / 2) else k - w / 2 := by
  unfold fftshiftIdx
  split
  · rw [Nat.mod_eq_of_lt (by omega)]
  · rw [Nat.mod_eq_sub_mod (by omega), Nat.mod_eq_of_lt (by omega)]
    omega

theorem sum_fftshift (w : ℕ) (F : ℕ → ℝ) : ∑ k ∈ range w, F (fftshiftIdx w k) = ∑ k ∈ range w, F k := by
  refine sum_nbij' (fun k => fftshiftIdx w k) (fun k => if k < w - w / 2 then k + w / 2 else k - (w - w / 2)) ?_ ?_ ?_ ?_ ?_
  · intro k hk
    rw [mem_range] at hk ⊢
    rw [fftshiftIdx_eq w k hk]; split <;> omega
  · intro k hk
    rw [mem_range] at hk ⊢
    split <;> omega
  · intro k hk
    rw [mem_range] at hk
    rw [fftshiftIdx_eq w k hk]
    split <;> split <;> omega
  · intro k hk
    rw [mem_range] at hk
    split
    · rw [fftshiftIdx_eq w _ (by omega), if_neg (by omega)]; omega
    · rw [fftshiftIdx_eq w _ (by omega), if_pos (by omega)]; omega
  · intro k _; rfl

theorem psfTotal_eq (w rows cols : ℕ) (hw : 0 < w) (hr : rows ≤ w) (hc : cols ≤ w) (u : ℕ → ℕ → ℂ) :
    psfTotal w rows cols u = (w : ℝ) ^ 2 * ∑ i ∈ range rows, ∑ j ∈ range cols, Complex.normSq (u i j) := by
  unfold psfTotal psfRaw
  have h1 : ∀ k ∈ range w, ∑ l ∈ range w, Complex.normSq (fft2 w (padField w rows cols u) (fftshiftIdx w k) (fftshiftIdx w l)) =
      ∑ l ∈ range w, Complex.normSq (fft2 w (padField w rows cols u) (fftshiftIdx w k) l) := by
    intro k _
    exact sum_fftshift w fun l => Complex.normSq (fft2 w (padField w rows cols u) (fftshiftIdx w k) l)
  rw [sum_congr rfl h1, sum_fftshift w fun k => ∑ l ∈ range w, Complex.normSq (fft2 w (padField w rows cols u) k l), parseval2 w hw]
  congr 1
  rw [← sum_subset (range_subset_range.2 hr)]
  · apply sum_congr rfl
    intro i hi
    rw [mem_range] at hi
    rw [← sum_subset (range_subset_range.2 hc)]
    · apply sum_congr rfl
      intro j hj
      rw [mem_range] at hj
      unfold padField
      rw [if_pos ⟨hi, hj, by omega, by omega⟩]
    · intro j _ hj
      rw [mem_range] at hj
      unfold padField
      rw [if_neg (fun h => hj h.2.1)]; simp
  · intro i _ hi
    rw [mem_range] at hi
    apply sum_eq_zero
    intro j _
    unfold padField
    rw [if_neg (fun h => hi h.1)]; simp

/-- The central pixel of the PSF is the square modulus of the sum of the field. -/
theorem psfRaw_centre (w rows cols : ℕ) (hw : 0 < w) (hr : rows ≤ w) (hc : cols ≤ w) (u : ℕ → ℕ → ℂ) :
    psfRaw w rows cols u (w / 2) (w / 2) = Complex.normSq (∑ i ∈ range rows, ∑ j ∈ range cols, u i j) := by
  unfold psfRaw
  rw [fftshiftIdx_eq w (w / 2) (by omega), if_neg (lt_irrefl _), Nat.sub_self]
  congr 1
  unfold fft2
  rw [← sum_subset (range_subset_range.2 hr)]
  · apply sum_congr rfl
    intro i hi
    rw [mem_range] at hi
    rw [← sum_subset (range_subset_range.2 hc)]
    · apply sum_congr rfl
      intro j hj
      rw [mem_range] at hj
      unfold padField
      rw [if_pos ⟨hi, hj, by omega, by omega⟩]
      simp [twiddle_zero]
    · intro j _ hj
      rw [mem_range] at hj
      unfold padField
      rw [if_neg (fun h => hj h.2.1)]; simp
  · intro i _ hi
    rw [mem_range] at hi
    apply sum_eq_zero
    intro j _
    unfold padField
    rw [if_neg (fun h => hi h.1)]; simp

/-- The normalised PSF of any field that is not dark is not negative and has total one. -/
theorem C46_unit_flux (w rows cols : ℕ) (hr : rows ≤ w) (hc : cols ≤ w) (u : ℕ → ℕ → ℂ) (i j : ℕ) (hi : i < rows) (hj : j < cols)
    (hu : u i j ≠ 0) :
    ∃ p, calcPsf w rows cols u = some p ∧ (∀ k l, 0 ≤ p k l) ∧ ∑ k ∈ range w, ∑ l ∈ range w, p k l = 1 := by
  have hw : 0 < w := by omega
  unfold calcPsf
  rw [if_pos ⟨hr, hc⟩]
  have hpos : 0 < psfTotal w rows cols u := by
    rw [psfTotal_eq w rows cols hw hr hc]
    apply mul_pos (by positivity)
    apply sum_pos' (fun i _ => sum_nonneg fun j _ => Complex.normSq_nonneg _)
    refine ⟨i, mem_range.2 hi, sum_pos' (fun j _ => Complex.normSq_nonneg _) ⟨j, mem_range.2 hj, Complex.normSq_pos.2 hu⟩⟩
  refine ⟨_, rfl, fun k l => div_nonneg (Complex.normSq_nonneg _) hpos.le, ?_⟩
  simp only [← sum_div]
  exact div_self hpos.ne'

/-! ## Strehl ratio -/

theorem normSq_pupilField (A φ : ℕ → ℕ → ℝ) (wl : ℝ) (i j : ℕ) : Complex.normSq (pupilField A φ wl i j) = A i j ^ 2 := by
  unfold pupilField
  rw [map_mul, Complex.normSq_ofReal, Complex.normSq_eq_norm_sq, mul_comm Complex.I, Complex.norm_exp_ofReal_mul_I]
  ring

/-- With the amplitude unchanged since the reference was taken, the Strehl ratio is the square modulus of the sum of the field over
the square of the sum of the amplitudes; it is between 0 and 1. -/
theorem C46_strehl (w rows cols : ℕ) (hr : rows ≤ w) (hc : cols ≤ w) (A φ : ℕ → ℕ → ℝ) (wl : ℝ) (hA : ∀ i j, 0 ≤ A i j)
    (i j : ℕ) (hi : i < rows) (hj : j < cols) (hpos : 0 < A i j) :
    ∃ p r, calcPsf w rows cols (pupilField A φ wl) = some p ∧ calcPsf w rows cols (refField A) = some r ∧
      strehl w p r = Complex.normSq (∑ i ∈ range rows, ∑ j ∈ range cols, pupilField A φ wl i j) / (∑ i ∈ range rows, ∑ j ∈ range cols, A i j) ^ 2 ∧
      0 ≤ strehl w p r ∧ strehl w p r ≤ 1 := by
  have hw : 0 < w := by omega
  unfold calcPsf
  rw [if_pos ⟨hr, hc⟩, if_pos ⟨hr, hc⟩]
  have hT : psfTotal w rows cols (pupilField A φ wl) = psfTotal w rows cols (refField A) := by
    rw [psfTotal_eq w rows cols hw hr hc, psfTotal_eq w rows cols hw hr hc]
    simp only [normSq_pupilField, refField, Complex.normSq_ofReal, pow_two]
  have hsum : 0 < ∑ i ∈ range rows, ∑ j ∈ range cols, A i j := by
    apply sum_pos' (fun i _ => sum_nonneg fun j _ => hA i j)
    exact ⟨i, mem_range.2 hi, sum_pos' (fun j _ => hA i j) ⟨j, mem_range.2 hj, hpos⟩⟩
  have hT0 : psfTotal w rows cols (refField A) ≠ 0 := by
    rw [psfTotal_eq w rows cols hw hr hc]
    apply ne_of_gt
    apply mul_pos (by positivity)
    apply sum_pos' (fun i _ => sum_nonneg fun j _ => Complex.normSq_nonneg _)
    refine ⟨i, mem_range.2 hi, sum_pos' (fun j _ => Complex.normSq_nonneg _) ⟨j, mem_range.2 hj, Complex.normSq_pos.2 ?_⟩⟩
    unfold refField
    exact_mod_cast hpos.ne'
  have hval : strehl w (fun k l => psfRaw w rows cols (pupilField A φ wl) k l / psfTotal w rows cols (pupilField A φ wl))
      (fun k l => psfRaw w rows cols (refField A) k l / psfTotal w rows cols (refField A)) =
      Complex.normSq (∑ i ∈ range rows, ∑ j ∈ range cols, pupilField A φ wl i j) / (∑ i ∈ range rows, ∑ j ∈ range cols, A i j) ^ 2 := by
    unfold strehl
    dsimp only
    rw [psfRaw_centre w rows cols hw hr hc, psfRaw_centre w rows cols hw hr hc, hT, div_div_div_cancel_right₀ hT0]
    congr 1
    have : ∑ i ∈ range rows, ∑ j ∈ range cols, refField A i j = ((∑ i ∈ range rows, ∑ j ∈ range cols, A i j : ℝ) : ℂ) := by
      push_cast; rfl
    rw [this, Complex.normSq_ofReal, pow_two]
  refine ⟨_, _, rfl, rfl, hval, ?_, ?_⟩
  · rw [hval]
    exact div_nonneg (Complex.normSq_nonneg _) (by positivity)
  · rw [hval, div_le_one (by positivity), Complex.normSq_eq_norm_sq]
    apply pow_le_pow_left₀ (norm_nonneg _)
    apply (norm_sum_le _ _).trans
    apply sum_le_sum; intro i _
    apply (norm_sum_le _ _).trans
    apply sum_le_sum; intro j _
    have h2 : ‖pupilField A φ wl i j‖ ^ 2 = A i j ^ 2 := by rw [← Complex.normSq_eq_norm_sq, normSq_pupilField]
    have := abs_eq_abs.2 (sq_eq_sq_iff_eq_or_eq_neg.1 h2)
    rw [abs_of_nonneg (norm_nonneg _), abs_of_nonneg (hA i j)] at this
    exact this.le

/-- A constant phase (piston) leaves the Strehl ratio at 1. -/
theorem C46_piston (w rows cols : ℕ) (hr : rows ≤ w) (hc : cols ≤ w) (A φ : ℕ → ℕ → ℝ) (wl c : ℝ) (hA : ∀ i j, 0 ≤ A i j)
    (i j : ℕ) (hi : i < rows) (hj : j < cols) (hpos : 0 < A i j) (hφ : ∀ i j, 0 < A i j → φ i j = c) :
    ∃ p r, calcPsf w rows cols (pupilField A φ wl) = some p ∧ calcPsf w rows cols (refField A) = some r ∧ strehl w p r = 1 := by
  obtain ⟨p, r, h1, h2, h3, -, -⟩ := C46_strehl w rows cols hr hc A φ wl hA i j hi hj hpos
  refine ⟨p, r, h1, h2, ?_⟩
  have hsum : 0 < ∑ i ∈ range rows, ∑ j ∈ range cols, A i j := by
    apply sum_pos' (fun i _ => sum_nonneg fun j _ => hA i j)
    exact ⟨i, mem_range.2 hi, sum_pos' (fun j _ => hA i j) ⟨j, mem_range.2 hj, hpos⟩⟩
  have he : ∑ i ∈ range rows, ∑ j ∈ range cols, pupilField A φ wl i j =
      ((∑ i ∈ range rows, ∑ j ∈ range cols, A i j : ℝ) : ℂ) * Complex.exp (Complex.I * ((c * (2 * Real.pi / wl) : ℝ) : ℂ)) := by
    push_cast
    rw [sum_mul]
    apply sum_congr rfl; intro i _
    rw [sum_mul]
    apply sum_congr rfl; intro j _
    unfold pupilField
    rcases (hA i j).eq_or_lt with h | h
    · rw [← h]; simp
    · rw [hφ i j h]; push_cast; rfl
  rw [h3, he, map_mul, Complex.normSq_ofReal, Complex.normSq_eq_norm_sq, mul_comm Complex.I, Complex.norm_exp_ofReal_mul_I]
  field_simp

/-- Adding whole wavelengths to any pixels changes neither the field nor, therefore, the PSF. -/
theorem C46_whole_waves (A φ : ℕ → ℕ → ℝ) (n : ℕ → ℕ → ℤ) (wl : ℝ) (hwl : wl ≠ 0) (w rows cols : ℕ) :
    calcPsf w rows cols (pupilField A (fun i j => φ i j + n i j * wl) wl) = calcPsf w rows cols (pupilField A φ wl) := by
  congr 1
  funext i j
  unfold pupilField
  congr 1
  rw [Complex.exp_eq_exp_iff_exists_int]
  refine ⟨n i j, ?_⟩
  have : (wl : ℂ) ≠ 0 := by exact_mod_cast hwl
  push_cast
  field_simp

theorem fft2_add_period (w : ℕ) (hw : 0 < w) (u : ℕ → ℕ → ℂ) (k l a b : ℕ) : fft2 w u (k + w * a) (l + w * b) = fft2 w u k l := by
  unfold fft2
  apply sum_congr rfl; intro i _
  apply sum_congr rfl; intro j _
  have : (((k + w * a) * i + (l + w * b) * j : ℕ) : ℤ) = ((k * i + l * j : ℕ) : ℤ) + w * (a * i + b * j) := by push_cast; ring
  rw [this, twiddle_period w hw]

theorem fft2_mod (w : ℕ) (hw : 0 < w) (u : ℕ → ℕ → ℂ) (k l : ℕ) : fft2 w u (k % w) (l % w) = fft2 w u k l := by
  have := fft2_add_period w hw u (k % w) (l % w) (k / w) (l / w)
  rw [Nat.mod_add_div, Nat.mod_add_div] at this
  exact this.symm

/-- A tilt of the wavefront by `a` and `b` waves over the image width moves the PSF by `a` and `b` pixels (around the border), and does
nothing else. -/
theorem C46_tilt (w rows cols : ℕ) (hr : rows ≤ w) (hc : cols ≤ w) (hw : 0 < w) (A φ : ℕ → ℕ → ℝ) (wl : ℝ) (hwl : wl ≠ 0) (a b : ℕ) :
    ∃ p q, calcPsf w rows cols (pupilField A φ wl) = some p ∧
      calcPsf w rows cols (pupilField A (fun i j => φ i j + wl * (a * i + b * j) / w) wl) = some q ∧
      ∀ k l, k < w → l < w → q ((k + a) % w) ((l + b) % w) = p k l := by
  unfold calcPsf
  rw [if_pos ⟨hr, hc⟩, if_pos ⟨hr, hc⟩]
  refine ⟨_, _, rfl, rfl, ?_⟩
  intro k l hk hl
  have hT : psfTotal w rows cols (pupilField A (fun i j => φ i j + wl * (a * i + b * j) / w) wl) = psfTotal w rows cols (pupilField A φ wl) := by
    rw [psfTotal_eq w rows cols hw hr hc, psfTotal_eq w rows cols hw hr hc]
    simp only [normSq_pupilField]
  rw [hT]
  congr 1
  unfold psfRaw
  congr 1
  have hpad : ∀ i j, padField w rows cols (pupilField A (fun i j => φ i j + wl * (a * i + b * j) / w) wl) i j =
      padField w rows cols (pupilField A φ wl) i j * twiddle w (-((a * i + b * j : ℕ) : ℤ)) := by
    intro i j
    unfold padField
    split
    · unfold pupilField twiddle
      rw [mul_assoc, ← Complex.exp_add]
      congr 2
      have h1 : (wl : ℂ) ≠ 0 := by exact_mod_cast hwl
      have h2 : (w : ℂ) ≠ 0 := by exact_mod_cast hw.ne'
      push_cast
      field_simp
    · simp
  -- the index of the shifted pixel
  have hidx : ∀ x s, fftshiftIdx w ((x + s) % w) = (fftshiftIdx w x + s) % w := by
    intro x s
    unfold fftshiftIdx
    rw [Nat.mod_add_mod, Nat.mod_add_mod]
    congr 1
    omega
  rw [hidx, hidx, fft2_mod w hw]
  unfold fft2
  apply sum_congr rfl; intro i _
  apply sum_congr rfl; intro j _
  rw [hpad, mul_assoc, ← twiddle_add]
  congr 2
  push_cast
  ring

/-- The reference is taken once, at the first trigger: if the amplitude becomes more uniform later, the Strehl ratio exceeds 1.  Here
two pixels with amplitudes 1 and 1/2 at first, then 1 and 1, no phase at all. -/
theorem C46_strehl_above_one :
    ∃ (A₀ A : ℕ → ℕ → ℝ) (p r : ℕ → ℕ → ℝ), (∀ i j, 0 ≤ A₀ i j ∧ 0 ≤ A i j) ∧ calcPsf 2 1 2 (pupilField A (fun _ _ => 0) 500) = some p ∧
      calcPsf 2 1 2 (refField A₀) = some r ∧ 1 < strehl 2 p r := by
  refine ⟨fun _ j => if j = 0 then 1 else 1 / 2, fun _ _ => 1, fun k l => psfRaw 2 1 2 (pupilField (fun _ _ => 1) (fun _ _ => 0) 500) k l /
    psfTotal 2 1 2 (pupilField (fun _ _ => 1) (fun _ _ => 0) 500), fun k l => psfRaw 2 1 2 (refField fun _ j => if j = 0 then 1 else 1 / 2) k l /
    psfTotal 2 1 2 (refField fun _ j => if j = 0 then 1 else 1 / 2), ?_, ?_, ?_, ?_⟩
  · intro i j
    constructor
    · dsimp only; split <;> norm_num
    · norm_num
  · unfold calcPsf; rw [if_pos (by norm_num)]
  · unfold calcPsf; rw [if_pos (by norm_num)]
  · unfold strehl
    dsimp only
    rw [psfRaw_centre 2 1 2 (by norm_num) (by norm_num) (by norm_num), psfRaw_centre 2 1 2 (by norm_num) (by norm_num) (by norm_num),
      psfTotal_eq 2 1 2 (by norm_num) (by norm_num) (by norm_num), psfTotal_eq 2 1 2 (by norm_num) (by norm_num) (by norm_num)]
    simp only [normSq_pupilField]
    simp [pupilField, refField, sum_range_succ, Complex.normSq_apply]
    norm_num

-- Three triggers, the first before the start: means over the other two.
example : (psfFinalize ([⟨0, 1 / 2, fun _ => 7⟩, ⟨1, 1 / 4, fun _ => 1⟩, ⟨2, 3 / 4, fun _ => 3⟩].foldl (psfPost 1)
      (psfInit : PsfState Unit ℚ))).intSr = 1 / 2 ∧
    (psfFinalize ([⟨0, 1 / 2, fun _ => 7⟩, ⟨1, 1 / 4, fun _ => 1⟩, ⟨2, 3 / 4, fun _ => 3⟩].foldl (psfPost 1)
      (psfInit : PsfState Unit ℚ))).intPsf () = 2 ∧
    (psfFinalize ([⟨0, 1 / 2, fun _ => 7⟩, ⟨1, 1 / 4, fun _ => 1⟩, ⟨2, 3 / 4, fun _ => 3⟩].foldl (psfPost 1)
      (psfInit : PsfState Unit ℚ))).variance () = 1 := by decide +kernel

-- Two pixels half a wave apart cancel: Strehl ratio 0.
example : ∃ p r, calcPsf 4 1 2 (pupilField (fun _ _ => 1) (fun _ j => if j = 0 then 0 else 250) 500) = some p ∧
    calcPsf 4 1 2 (refField fun _ _ => 1) = some r ∧ strehl 4 p r = 0 := by
  obtain ⟨p, r, h1, h2, h3, -, -⟩ := C46_strehl 4 1 2 (by norm_num) (by norm_num) (fun _ _ => 1) (fun _ j => if j = 0 then 0 else 250) 500
    (fun _ _ => by norm_num) 0 0 (by norm_num) (by norm_num) (by norm_num)
  refine ⟨p, r, h1, h2, ?_⟩
  rw [h3]
  have e : Complex.exp (Complex.I * ((250 * (2 * Real.pi / 500) : ℝ) : ℂ)) = -1 := by
    have : ((250 * (2 * Real.pi / 500) : ℝ) : ℂ) = Real.pi := by push_cast; ring
    rw [this, mul_comm, Complex.exp_pi_mul_I]
  simp only [pupilField, sum_range_succ, range_zero, sum_empty, zero_add, if_true, one_ne_zero, if_false, e]
  simp

end Specula
