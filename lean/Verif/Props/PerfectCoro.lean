import Mathlib.Tactic.Ring
import Mathlib.Tactic.FieldSimp
import Mathlib.Tactic.Linarith
import Mathlib.Tactic.NormNum
import Mathlib.Tactic.Positivity
import Verif.Model.PerfectCoro
import Verif.Props.Psf

/-!
# C89: perfect coronagraph
-/

namespace Specula
open Finset

theorem sumPix_eq {M : Type} [AddCommMonoid M] (rows cols : ℕ) (f : ℕ → ℕ → M) :
    sumPix rows cols f = ∑ q ∈ range rows ×ˢ range cols, f q.1 q.2 := (sum_product' _ _ _).symm

theorem lit_of_pos {A : ℕ → ℕ → ℝ} {i j : ℕ} (h : 0 < A i j) : litMask A i j = 1 := by unfold litMask; rw [if_pos h]

theorem lit_cases (A : ℕ → ℕ → ℝ) (hA : ∀ i j, 0 ≤ A i j) (i j : ℕ) : (litMask A i j = 1 ∧ 0 < A i j) ∨ (litMask A i j = 0 ∧ A i j = 0) := by
  unfold litMask
  by_cases h : 0 < A i j
  · left; rw [if_pos h]; exact ⟨rfl, h⟩
  · right; rw [if_neg h]; exact ⟨rfl, le_antisymm (not_lt.1 h) (hA i j)⟩

theorem litSum_pos (rows cols : ℕ) (A : ℕ → ℕ → ℝ) (i j : ℕ) (hi : i < rows) (hj : j < cols) (h : 0 < A i j) : 0 < sumPix rows cols (litMask A) := by
  have nn : ∀ a b, 0 ≤ litMask A a b := by intro a b; unfold litMask; split <;> norm_num
  exact sum_pos' (fun a _ => sum_nonneg fun b _ => nn a b)
    ⟨i, mem_range.2 hi, sum_pos' (fun b _ => nn i b) ⟨j, mem_range.2 hj, by rw [lit_of_pos h]; norm_num⟩⟩

theorem ampField_mask (A ψ : ℕ → ℕ → ℝ) (hA : ∀ i j, 0 ≤ A i j) (i j : ℕ) : ampField A ψ i j * (litMask A i j : ℂ) = ampField A ψ i j := by
  rcases lit_cases A hA i j with h | h
  · rw [h.1]; simp
  · unfold ampField; rw [h.2]; simp

theorem normSq_ampField (A ψ : ℕ → ℕ → ℝ) (i j : ℕ) : Complex.normSq (ampField A ψ i j) = A i j ^ 2 := by
  unfold ampField
  rw [map_mul, Complex.normSq_ofReal, Complex.normSq_eq_norm_sq, mul_comm Complex.I, Complex.norm_exp_ofReal_mul_I]
  ring

/-- The field without its part along the mask: energy for any constant `c` taken off. -/
theorem energy_less (rows cols : ℕ) (A ψ : ℕ → ℕ → ℝ) (hA : ∀ i j, 0 ≤ A i j) (c : ℂ) :
    sumPix rows cols (fun i j => Complex.normSq (ampField A ψ i j - c * (litMask A i j : ℂ)))
      = sumPix rows cols (fun i j => A i j ^ 2) - 2 * ((starRingEnd ℂ) c * sumPix rows cols (ampField A ψ)).re
        + Complex.normSq c * sumPix rows cols (litMask A) := by
  rw [sumPix_eq, sumPix_eq, sumPix_eq rows cols (ampField A ψ), sumPix_eq, mul_sum, Complex.re_sum, mul_sum, mul_sum, ← sum_sub_distrib, ← sum_add_distrib]
  refine sum_congr rfl (fun q _ => ?_)
  rw [← normSq_ampField A ψ]
  rcases lit_cases A hA q.1 q.2 with h | h
  · rw [h.1]
    simp only [Complex.normSq_apply, Complex.sub_re, Complex.sub_im, Complex.mul_re, Complex.mul_im, Complex.conj_re, Complex.conj_im, Complex.ofReal_one,
      Complex.one_re, Complex.one_im]
    ring
  · have h0 : ampField A ψ q.1 q.2 = 0 := by unfold ampField; rw [h.2]; simp
    rw [h.1, h0]
    simp

theorem lessAverage_eq (rows cols : ℕ) (A ψ : ℕ → ℕ → ℝ) (hA : ∀ i j, 0 ≤ A i j) (i j : ℕ) :
    lessAverage rows cols A ψ i j = ampField A ψ i j - sumPix rows cols (ampField A ψ) / ((sumPix rows cols (litMask A) : ℝ) : ℂ) * (litMask A i j : ℂ) := by
  unfold lessAverage
  simp only [ampField_mask A ψ hA]

section
variable (w rows cols : ℕ) (hr : rows ≤ w) (hc : cols ≤ w) (A ψ : ℕ → ℕ → ℝ) (hA : ∀ i j, 0 ≤ A i j)
  (i j : ℕ) (hi : i < rows) (hj : j < cols) (hpos : 0 < A i j)
include hr hc hA hi hj hpos

theorem ampTotal_pos : 0 < psfTotal w rows cols (ampField A ψ) := by
  rw [psfTotal_eq w rows cols (by omega) hr hc]
  have hw : 0 < w := by omega
  apply mul_pos (by positivity)
  apply sum_pos' (fun i _ => sum_nonneg fun j _ => Complex.normSq_nonneg _)
  refine ⟨i, mem_range.2 hi, sum_pos' (fun j _ => Complex.normSq_nonneg _) ⟨j, mem_range.2 hj, ?_⟩⟩
  rw [normSq_ampField]
  positivity

/-- **C89** (axis): with the average field removed nothing is left on the axis. -/
theorem C89_axis : coroPsf true w rows cols A ψ (w / 2) (w / 2) = 0 := by
  have hN := litSum_pos rows cols A i j hi hj hpos
  have hNc : ((sumPix rows cols (litMask A) : ℝ) : ℂ) ≠ 0 := by exact_mod_cast hN.ne'
  unfold coroPsf coroField
  rw [if_pos hN, if_pos rfl, psfRaw_centre w rows cols (by omega) hr hc]
  have e : ∑ i ∈ range rows, ∑ j ∈ range cols, lessAverage rows cols A ψ i j = 0 := by
    simp only [lessAverage_eq rows cols A ψ hA]
    rw [← sum_product' (range rows) (range cols) (fun i j => ampField A ψ i j - sumPix rows cols (ampField A ψ) / ((sumPix rows cols (litMask A) : ℝ) : ℂ) * (litMask A i j : ℂ)),
      sum_sub_distrib, ← mul_sum, ← Complex.ofReal_sum]
    rw [← sumPix_eq rows cols (ampField A ψ), ← sumPix_eq rows cols (litMask A), div_mul_cancel₀ _ hNc, sub_self]
  rw [e]
  simp

/-- **C89** (leakage): what the average removal leaves in all of the image is one less the square modulus of the sum of the field over the number of
lit pixels times the sum of squares of the amplitude. -/
theorem C89_leakage :
    ∑ k ∈ range w, ∑ l ∈ range w, coroPsf true w rows cols A ψ k l
      = 1 - Complex.normSq (sumPix rows cols (ampField A ψ)) / (sumPix rows cols (litMask A) * sumPix rows cols (fun i j => A i j ^ 2)) := by
  have hw : 0 < w := by omega
  have hwr : (0 : ℝ) < w := by exact_mod_cast hw
  have hN := litSum_pos rows cols A i j hi hj hpos
  have hE := ampTotal_pos w rows cols hr hc A ψ hA i j hi hj hpos
  have hT := psfTotal_eq w rows cols hw hr hc (ampField A ψ)
  have hS : ∑ i ∈ range rows, ∑ j ∈ range cols, Complex.normSq (ampField A ψ i j) = sumPix rows cols (fun i j => A i j ^ 2) := by
    simp only [normSq_ampField]; rfl
  rw [hS] at hT
  have hE2 : 0 < sumPix rows cols (fun i j => A i j ^ 2) := by
    rw [hT] at hE
    exact pos_of_mul_pos_right hE (by positivity)
  unfold coroPsf
  simp only [← sum_div]
  have e : ∑ k ∈ range w, ∑ l ∈ range w, psfRaw w rows cols (coroField true rows cols A ψ) k l = psfTotal w rows cols (coroField true rows cols A ψ) := rfl
  rw [e, hT, psfTotal_eq w rows cols hw hr hc, mul_div_mul_left _ _ (by positivity)]
  have e2 : ∑ i ∈ range rows, ∑ j ∈ range cols, Complex.normSq (coroField true rows cols A ψ i j)
      = sumPix rows cols (fun i j => Complex.normSq (ampField A ψ i j - sumPix rows cols (ampField A ψ) / ((sumPix rows cols (litMask A) : ℝ) : ℂ) * (litMask A i j : ℂ))) := by
    unfold coroField
    rw [if_pos hN, if_pos rfl]
    simp only [lessAverage_eq rows cols A ψ hA]
    rfl
  rw [e2, energy_less rows cols A ψ hA]
  generalize sumPix rows cols (ampField A ψ) = S at *
  generalize sumPix rows cols (litMask A) = N at *
  generalize sumPix rows cols (fun i j => A i j ^ 2) = E at *
  have e3 : ((starRingEnd ℂ) (S / (N : ℂ)) * S).re = Complex.normSq S / N := by
    rw [map_div₀, Complex.conj_ofReal, div_mul_eq_mul_div, mul_comm, Complex.mul_conj, ← Complex.ofReal_div, Complex.ofReal_re]
  rw [e3, Complex.normSq_div, Complex.normSq_ofReal]
  field_simp
  ring

/-- **C89** (Strehl): with a uniform pupil the light left is exactly one less the Strehl ratio. -/
theorem C89_strehl (φ : ℕ → ℕ → ℝ) (wl : ℝ) (hψ : ∀ i j, ψ i j = φ i j * (2 * Real.pi / wl)) (h01 : ∀ i j, A i j = 0 ∨ A i j = 1) :
    ∃ p r, calcPsf w rows cols (pupilField A φ wl) = some p ∧ calcPsf w rows cols (refField A) = some r ∧
      ∑ k ∈ range w, ∑ l ∈ range w, coroPsf true w rows cols A ψ k l = 1 - strehl w p r := by
  obtain ⟨p, r, hp, hr', hs, -, -⟩ := C46_strehl w rows cols hr hc A φ wl hA i j hi hj hpos
  refine ⟨p, r, hp, hr', ?_⟩
  rw [C89_leakage w rows cols hr hc A ψ hA i j hi hj hpos, hs]
  have e1 : litMask A = A := by
    funext a b
    unfold litMask
    rcases h01 a b with h | h <;> rw [h] <;> norm_num
  have e2 : (fun i j => A i j ^ 2) = A := by
    funext a b
    rcases h01 a b with h | h <;> rw [h] <;> norm_num
  have e3 : ampField A ψ = pupilField A φ wl := by
    funext a b
    unfold ampField pupilField
    rw [hψ]
  rw [e1, e2, e3, ← pow_two]
  rfl

/-- **C89** (normalisation): both images are divided by the same total, so that at every pixel their quotient is that of the intensities; the image
with coronagraph is not negative. -/
theorem C89_contrast (avg : Bool) (k l : ℕ) :
    ∃ p, calcPsf w rows cols (ampField A ψ) = some p ∧ 0 ≤ coroPsf avg w rows cols A ψ k l
      ∧ coroPsf avg w rows cols A ψ k l * psfRaw w rows cols (ampField A ψ) k l = psfRaw w rows cols (coroField avg rows cols A ψ) k l * p k l := by
  have hE := ampTotal_pos w rows cols hr hc A ψ hA i j hi hj hpos
  unfold calcPsf
  rw [if_pos ⟨hr, hc⟩]
  refine ⟨_, rfl, div_nonneg (Complex.normSq_nonneg _) hE.le, ?_⟩
  unfold coroPsf
  ring

end

/-- **C89** (least): of all multiples of the pupil that could be removed, the average leaves least light; with a uniform pupil it leaves no more than
the formula with the coherent core. -/
theorem C89_least (rows cols : ℕ) (A ψ : ℕ → ℕ → ℝ) (hA : ∀ i j, 0 ≤ A i j) (hN : 0 < sumPix rows cols (litMask A)) (c : ℂ) :
    sumPix rows cols (fun i j => Complex.normSq (coroField true rows cols A ψ i j))
      ≤ sumPix rows cols (fun i j => Complex.normSq (ampField A ψ i j - c * (litMask A i j : ℂ))) := by
  have e2 : sumPix rows cols (fun i j => Complex.normSq (coroField true rows cols A ψ i j))
      = sumPix rows cols (fun i j => Complex.normSq (ampField A ψ i j - sumPix rows cols (ampField A ψ) / ((sumPix rows cols (litMask A) : ℝ) : ℂ) * (litMask A i j : ℂ))) := by
    unfold coroField
    rw [if_pos hN, if_pos rfl]
    simp only [lessAverage_eq rows cols A ψ hA]
  rw [e2, energy_less rows cols A ψ hA, energy_less rows cols A ψ hA]
  generalize sumPix rows cols (ampField A ψ) = S at *
  generalize sumPix rows cols (litMask A) = N at *
  generalize sumPix rows cols (fun i j => A i j ^ 2) = E at *
  have e3 : ((starRingEnd ℂ) (S / (N : ℂ)) * S).re = Complex.normSq S / N := by
    rw [map_div₀, Complex.conj_ofReal, div_mul_eq_mul_div, mul_comm, Complex.mul_conj, ← Complex.ofReal_div, Complex.ofReal_re]
  rw [e3, Complex.normSq_div, Complex.normSq_ofReal]
  simp only [Complex.normSq_apply, Complex.mul_re, Complex.conj_re, Complex.conj_im]
  have e4 : (S.re * S.re + S.im * S.im) / (N * N) * N = (S.re * S.re + S.im * S.im) / N := by field_simp
  rw [e4]
  have e5 : E - 2 * (c.re * S.re - -c.im * S.im) + (c.re * c.re + c.im * c.im) * N
      = E - (S.re * S.re + S.im * S.im) / N + N * ((c.re - S.re / N) ^ 2 + (c.im - S.im / N) ^ 2) := by
    field_simp
    ring
  rw [e5]
  have : 0 ≤ N * ((c.re - S.re / N) ^ 2 + (c.im - S.im / N) ^ 2) := by positivity
  linarith

theorem C89_least_core (rows cols : ℕ) (A ψ : ℕ → ℕ → ℝ) (h01 : ∀ i j, A i j = 0 ∨ A i j = 1) (hN : 0 < sumPix rows cols (litMask A)) :
    sumPix rows cols (fun i j => Complex.normSq (coroField true rows cols A ψ i j))
      ≤ sumPix rows cols (fun i j => Complex.normSq (coroField false rows cols A ψ i j)) := by
  have hA : ∀ i j, 0 ≤ A i j := fun i j => by rcases h01 i j with h | h <;> rw [h]; norm_num
  refine le_trans (C89_least rows cols A ψ hA hN ((Real.sqrt (Real.exp (-varPhase rows cols A ψ)) : ℂ) * Complex.exp (Complex.I * (meanPhase rows cols A ψ : ℂ)))) (le_of_eq ?_)
  unfold coroField
  rw [if_pos hN]
  simp only [Bool.false_eq_true, if_false]
  congr 1
  funext i j
  unfold lessCore
  simp only
  rcases h01 i j with h | h
  · have : litMask A i j = 0 := by unfold litMask; rw [h]; simp
    rw [this]; simp
  · rw [h]; simp

/-- The mean of a phase that is `c` on the lit pixels. -/
theorem meanPhase_const (rows cols : ℕ) (A ψ : ℕ → ℕ → ℝ) (c : ℝ) (hψ : ∀ i j, 0 < A i j → ψ i j = c) (hN : 0 < sumPix rows cols (litMask A)) :
    meanPhase rows cols A ψ = c := by
  unfold meanPhase
  rw [div_eq_iff hN.ne', sumPix_eq, sumPix_eq, mul_sum]
  refine sum_congr rfl (fun q _ => ?_)
  unfold litMask
  by_cases h : 0 < A q.1 q.2
  · rw [if_pos h, hψ _ _ h]
  · rw [if_neg h]; simp

/-- **C89** (flat, core): a flat wavefront is removed completely by the formula with the coherent core, whatever the amplitude. -/
theorem C89_flat_core (w rows cols : ℕ) (A ψ : ℕ → ℕ → ℝ) (hA : ∀ i j, 0 ≤ A i j) (c : ℝ) (hψ : ∀ i j, 0 < A i j → ψ i j = c)
    (hN : 0 < sumPix rows cols (litMask A)) (k l : ℕ) : coroPsf false w rows cols A ψ k l = 0 := by
  have hm := meanPhase_const rows cols A ψ c hψ hN
  have hv : varPhase rows cols A ψ = 0 := by
    unfold varPhase
    rw [hm, div_eq_zero_iff]
    left
    rw [sumPix_eq]
    refine sum_eq_zero (fun q _ => ?_)
    unfold litMask
    by_cases h : 0 < A q.1 q.2
    · rw [if_pos h, hψ _ _ h]; ring
    · rw [if_neg h]; ring
  have h0 : ∀ i j, coroField false rows cols A ψ i j = 0 := by
    intro i j
    unfold coroField
    rw [if_pos hN]
    simp only [Bool.false_eq_true, if_false]
    unfold lessCore
    simp only [hv, hm, neg_zero, Real.exp_zero, Real.sqrt_one]
    rcases lit_cases A hA i j with h | h
    · rw [h.1]
      unfold ampField
      rw [hψ i j h.2]
      push_cast
      ring
    · unfold ampField
      rw [h.2]
      simp
  unfold coroPsf psfRaw fft2 padField
  simp only [h0, ite_self, zero_mul, sum_const_zero, map_zero, zero_div]

/-- **C89** (flat, average): with uniform amplitude too the average removal leaves nothing; with amplitudes that differ it leaves the variance of the
amplitude over its mean square. -/
theorem C89_flat_average (w rows cols : ℕ) (hr : rows ≤ w) (hc : cols ≤ w) (A ψ : ℕ → ℕ → ℝ) (hA : ∀ i j, 0 ≤ A i j) (c : ℝ) (hψ : ∀ i j, 0 < A i j → ψ i j = c)
    (i j : ℕ) (hi : i < rows) (hj : j < cols) (hpos : 0 < A i j) :
    ∑ k ∈ range w, ∑ l ∈ range w, coroPsf true w rows cols A ψ k l
      = 1 - sumPix rows cols A ^ 2 / (sumPix rows cols (litMask A) * sumPix rows cols (fun i j => A i j ^ 2)) := by
  rw [C89_leakage w rows cols hr hc A ψ hA i j hi hj hpos]
  have e : sumPix rows cols (ampField A ψ) = ((sumPix rows cols A : ℝ) : ℂ) * Complex.exp (Complex.I * (c : ℂ)) := by
    rw [sumPix_eq, sumPix_eq, Complex.ofReal_sum, sum_mul]
    refine sum_congr rfl (fun q _ => ?_)
    unfold ampField
    rcases lit_cases A hA q.1 q.2 with h | h
    · rw [hψ _ _ h.2]
    · rw [h.2]; simp
  rw [e, Complex.normSq_mul, Complex.normSq_ofReal, Complex.normSq_eq_norm_sq (Complex.exp _), mul_comm Complex.I, Complex.norm_exp_ofReal_mul_I]
  ring

/-- **C89** (piston): the image does not depend on the mean phase. -/
theorem C89_piston (avg : Bool) (w rows cols : ℕ) (A ψ : ℕ → ℕ → ℝ) (c : ℝ) (k l : ℕ) :
    coroPsf avg w rows cols A (fun i j => ψ i j + c) k l = coroPsf avg w rows cols A ψ k l := by
  have hz : Complex.normSq (Complex.exp (Complex.I * (c : ℂ))) = 1 := by
    rw [Complex.normSq_eq_norm_sq, mul_comm Complex.I, Complex.norm_exp_ofReal_mul_I]; norm_num
  have ha : ∀ i j, ampField A (fun i j => ψ i j + c) i j = ampField A ψ i j * Complex.exp (Complex.I * (c : ℂ)) := by
    intro i j
    unfold ampField
    rw [mul_assoc, ← Complex.exp_add]
    congr 2
    push_cast
    ring
  have hf : ∀ i j, coroField avg rows cols A (fun i j => ψ i j + c) i j = coroField avg rows cols A ψ i j * Complex.exp (Complex.I * (c : ℂ)) := by
    intro i j
    unfold coroField
    by_cases hN : 0 < sumPix rows cols (litMask A)
    · rw [if_pos hN, if_pos hN]
      cases avg
      · simp only [Bool.false_eq_true, if_false]
        have hm : meanPhase rows cols A (fun i j => ψ i j + c) = meanPhase rows cols A ψ + c := by
          unfold meanPhase
          rw [div_add' _ _ _ hN.ne']
          congr 1
          rw [sumPix_eq, sumPix_eq, sumPix_eq, mul_sum, ← sum_add_distrib]
          refine sum_congr rfl (fun q _ => by ring)
        have hv : varPhase rows cols A (fun i j => ψ i j + c) = varPhase rows cols A ψ := by
          unfold varPhase
          rw [hm]
          congr 2
          funext a b
          ring
        unfold lessCore
        simp only
        rw [hm, hv, ha]
        have : Complex.exp (Complex.I * ((meanPhase rows cols A ψ + c : ℝ) : ℂ)) = Complex.exp (Complex.I * (meanPhase rows cols A ψ : ℂ)) * Complex.exp (Complex.I * (c : ℂ)) := by
          rw [← Complex.exp_add]; congr 1; push_cast; ring
        rw [this]
        ring
      · simp only [if_true]
        unfold lessAverage
        simp only [ha]
        have : sumPix rows cols (fun a b => ampField A ψ a b * Complex.exp (Complex.I * (c : ℂ)) * (litMask A a b : ℂ))
            = sumPix rows cols (fun a b => ampField A ψ a b * (litMask A a b : ℂ)) * Complex.exp (Complex.I * (c : ℂ)) := by
          rw [sumPix_eq, sumPix_eq, sum_mul]
          refine sum_congr rfl (fun q _ => by ring)
        rw [this]
        ring
    · rw [if_neg hN, if_neg hN]
      exact ha i j
  have key : ∀ (f g : ℕ → ℕ → ℂ), (∀ i j, f i j = g i j * Complex.exp (Complex.I * (c : ℂ))) → ∀ k l, psfRaw w rows cols f k l = psfRaw w rows cols g k l := by
    intro f g h k l
    unfold psfRaw
    have : fft2 w (padField w rows cols f) (fftshiftIdx w k) (fftshiftIdx w l)
        = fft2 w (padField w rows cols g) (fftshiftIdx w k) (fftshiftIdx w l) * Complex.exp (Complex.I * (c : ℂ)) := by
      unfold fft2
      rw [sum_mul]
      refine sum_congr rfl (fun i _ => ?_)
      rw [sum_mul]
      refine sum_congr rfl (fun j _ => ?_)
      unfold padField
      split_ifs
      · rw [h]; ring
      · simp
    rw [this, Complex.normSq_mul, hz, mul_one]
  unfold coroPsf psfTotal
  rw [key _ _ hf k l]
  congr 1
  exact sum_congr rfl (fun k _ => sum_congr rfl (fun l _ => key _ _ ha k l))

/-- **C89** (whole waves): the average removal sees the phase only modulo whole waves. -/
theorem C89_waves (w rows cols : ℕ) (A ψ : ℕ → ℕ → ℝ) (n : ℕ → ℕ → ℤ) (k l : ℕ) :
    coroPsf true w rows cols A (fun i j => ψ i j + 2 * Real.pi * n i j) k l = coroPsf true w rows cols A ψ k l := by
  have ha : ampField A (fun i j => ψ i j + 2 * Real.pi * n i j) = ampField A ψ := by
    funext i j
    unfold ampField
    congr 1
    rw [Complex.exp_eq_exp_iff_exists_int]
    refine ⟨n i j, ?_⟩
    push_cast
    ring
  unfold coroPsf coroField lessAverage
  simp only [ha, if_true]

/-- **C89** (whole waves, core): the formula with the coherent core does not: of two pixels in phase, one a whole wave further, the star is not
removed. So it needs the unwrapped phase, and a segment a whole wave off counts as an error. -/
theorem C89_waves_core : coroPsf false 2 1 2 (fun _ _ => 1) (fun _ _ => 0) 1 1 = 0
    ∧ 0 < coroPsf false 2 1 2 (fun _ _ => 1) (fun _ j => 0 + 2 * Real.pi * ((j : ℤ) : ℝ)) 1 1 := by
  have hN : ∀ A : ℕ → ℕ → ℝ, A = (fun _ _ => 1) → sumPix 1 2 (litMask A) = 2 := by
    intro A hA
    unfold sumPix litMask
    simp [hA]
  constructor
  · exact C89_flat_core 2 1 2 _ _ (fun _ _ => by norm_num) 0 (fun _ _ _ => rfl) (by rw [hN _ rfl]; norm_num) 1 1
  · set ψ : ℕ → ℕ → ℝ := fun _ j => 0 + 2 * Real.pi * ((j : ℤ) : ℝ) with hψ
    unfold coroPsf
    apply div_pos
    · have hc := psfRaw_centre 2 1 2 (by norm_num) (by norm_num) (by norm_num) (coroField false 1 2 (fun _ _ => 1) ψ)
      have e2 : 2 / 2 = 1 := rfl
      rw [e2] at hc
      rw [hc, Complex.normSq_pos]
      have hm : meanPhase 1 2 (fun _ _ => 1) ψ = Real.pi := by
        unfold meanPhase
        rw [hN _ rfl, hψ]
        unfold sumPix litMask
        simp [sum_range_succ]
      have hf : ∀ i j, coroField false 1 2 (fun _ _ => 1) ψ i j = 1 + ((Real.sqrt (Real.exp (-varPhase 1 2 (fun _ _ => 1) ψ)) : ℝ) : ℂ) := by
        intro i j
        unfold coroField
        rw [hN _ rfl]
        simp only [Bool.false_eq_true, if_false]
        rw [if_pos (by norm_num)]
        unfold lessCore
        simp only
        rw [hm]
        have hpi : Complex.exp (Complex.I * (Real.pi : ℂ)) = -1 := by rw [mul_comm]; exact Complex.exp_pi_mul_I
        have h1 : ampField (fun _ _ => 1) ψ i j = 1 := by
          unfold ampField
          rw [hψ]
          simp only
          have : Complex.I * ((0 + 2 * Real.pi * ((j : ℤ) : ℝ) : ℝ) : ℂ) = (j : ℤ) * (2 * Real.pi * Complex.I) := by push_cast; ring
          rw [this, Complex.exp_int_mul_two_pi_mul_I]
          simp
        rw [h1, hpi, lit_of_pos (by norm_num)]
        push_cast
        ring
      simp only [hf, sum_range_succ, range_zero, sum_empty, zero_add]
      have hs := Real.sqrt_nonneg (Real.exp (-varPhase 1 2 (fun _ _ => 1) ψ))
      generalize Real.sqrt (Real.exp (-varPhase 1 2 (fun _ _ => 1) ψ)) = x at *
      intro h0
      have := congrArg Complex.re h0
      simp at this
      linarith
    · exact ampTotal_pos 2 1 2 (by norm_num) (by norm_num) _ _ (fun _ _ => by norm_num) 0 0 (by norm_num) (by norm_num) (by norm_num)

/-- **C89** (companion): a field whose sum over the pupil is zero, so with nothing on the axis, is not changed by
the average removal; neither is a dark pupil. -/
theorem C89_off_axis (rows cols : ℕ) (A ψ : ℕ → ℕ → ℝ) (hA : ∀ i j, 0 ≤ A i j) (h : sumPix rows cols (ampField A ψ) = 0) (i j : ℕ) :
    coroField true rows cols A ψ i j = ampField A ψ i j := by
  unfold coroField
  simp only [if_true]
  split_ifs with h1
  · rw [lessAverage_eq rows cols A ψ hA, h]; simp
  · rfl

section
variable {K : Type} [Field K] [LinearOrder K] [IsStrictOrderedRing K] {P : Type}

/-- The image with coronagraph in place of that without. -/
def coroStep (x : PsfStep P K × (P → K)) : PsfStep P K := { x.1 with psf := x.2 }

omit [IsStrictOrderedRing K] in
theorem coro_sums (start : K) (xs : List (PsfStep P K × (P → K))) (s : CoroState P K) (s' : PsfState P K) (h1 : s'.count = s.base.count)
    (h2 : s'.intPsf = s.intCoro) (h3 : s'.sumSq = s.sumSqCoro) :
    ((xs.map coroStep).foldl (psfPost start) s').count = (xs.foldl (coroPost start) s).base.count
    ∧ ((xs.map coroStep).foldl (psfPost start) s').intPsf = (xs.foldl (coroPost start) s).intCoro
    ∧ ((xs.map coroStep).foldl (psfPost start) s').sumSq = (xs.foldl (coroPost start) s).sumSqCoro := by
  induction xs generalizing s s' with
  | nil => exact ⟨h1, h2, h3⟩
  | cons x xs ih =>
    simp only [List.map_cons, List.foldl_cons]
    apply ih
    · unfold psfPost coroPost psfPost coroStep
      by_cases h : x.1.time ≥ start
      · simp only [if_pos h, h1]
      · simp only [if_neg h, h1]
    · unfold psfPost coroPost psfPost coroStep
      by_cases h : x.1.time ≥ start
      · simp only [if_pos h, h2]
      · simp only [if_neg h, h2]
    · unfold psfPost coroPost psfPost coroStep
      by_cases h : x.1.time ≥ start
      · simp only [if_pos h, h3]
      · simp only [if_neg h, h3]

/-- **C89** (time): at the end mean and variance are those of the images with coronagraph of the triggers not before the start time; the image
without coronagraph is treated as in `PSF`. -/
theorem C89_long_exposure (start : K) (xs : List (PsfStep P K × (P → K))) (hne : exposed start (xs.map Prod.fst) ≠ []) (p : P) :
    let imgs := (xs.filter fun x => start ≤ x.1.time).map fun x => x.2 p
    (coroFinalize (xs.foldl (coroPost start) coroInit)).1 p = meanOf imgs
    ∧ (coroFinalize (xs.foldl (coroPost start) coroInit)).2 p = meanOf (imgs.map fun y => (y - meanOf imgs) ^ 2)
    ∧ (xs.foldl (coroPost start) coroInit).base = (xs.map Prod.fst).foldl (psfPost start) psfInit := by
  intro imgs
  have hb : ∀ s : CoroState P K, (xs.foldl (coroPost start) s).base = (xs.map Prod.fst).foldl (psfPost start) s.base := by
    clear hne imgs
    induction xs with
    | nil => intro s; rfl
    | cons x xs ih =>
      intro s
      simp only [List.map_cons, List.foldl_cons]
      rw [ih]
      congr 1
      unfold coroPost
      simp only
      split_ifs <;> rfl
  obtain ⟨c1, c2, c3⟩ := coro_sums start xs coroInit (psfInit : PsfState P K) rfl rfl rfl
  have hx : exposed start (xs.map coroStep) = (xs.filter fun x => start ≤ x.1.time).map coroStep := by
    unfold exposed
    rw [List.filter_map]
    rfl
  have hx1 : exposed start (xs.map Prod.fst) = (xs.filter fun x => start ≤ x.1.time).map Prod.fst := by
    unfold exposed
    rw [List.filter_map]
    rfl
  have hne' : exposed start (xs.map coroStep) ≠ [] := by
    rw [hx]
    rw [hx1] at hne
    intro hc
    apply hne
    rw [List.map_eq_nil_iff] at hc ⊢
    exact hc
  obtain ⟨-, h⟩ := C46_long_exposure start (xs.map coroStep) hne'
  have hp := h p
  have hf : ∀ s : CoroState P K, ∀ s' : PsfState P K, s'.count = s.base.count → s'.intPsf = s.intCoro → s'.sumSq = s.sumSqCoro →
      (psfFinalize s').intPsf = (coroFinalize s).1 ∧ (psfFinalize s').variance = (coroFinalize s).2 := by
    intro s s' e1 e2 e3
    unfold psfFinalize coroFinalize
    rw [e1, e2, e3]
    split_ifs <;> exact ⟨rfl, rfl⟩
  obtain ⟨f1, f2⟩ := hf _ _ c1 c2 c3
  rw [f1, f2, hx] at hp
  simp only [List.map_map, Function.comp_def, coroStep] at hp
  refine ⟨hp.1, ?_, hb coroInit⟩
  rw [hp.2]
  simp only [imgs, List.map_map, Function.comp_def]

end

/-! Examples. -/

/-- A pupil of two pixels with amplitudes 1 and 3: the average removal leaves a fifth of the light of a flat wavefront, the core nothing. -/
example : ∑ k ∈ range 4, ∑ l ∈ range 4, coroPsf true 4 1 2 (fun _ j => 1 + 2 * j) (fun _ _ => 0) k l = 1 / 5 := by
  have hN : sumPix 1 2 (litMask (fun _ j => 1 + 2 * (j : ℝ))) = 2 := by
    have h1 : ∀ i j : ℕ, litMask (fun _ j => 1 + 2 * (j : ℝ)) i j = 1 := fun i j => lit_of_pos (by positivity)
    unfold sumPix
    simp only [h1]
    simp
  rw [C89_flat_average 4 1 2 (by norm_num) (by norm_num) _ _ (fun _ j => by positivity) 0 (fun _ _ _ => rfl) 0 0 (by norm_num) (by norm_num) (by norm_num), hN]
  unfold sumPix
  simp [sum_range_succ]
  norm_num

end Specula
