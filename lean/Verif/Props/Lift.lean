import Mathlib.Tactic.Ring
import Mathlib.Tactic.Linarith
import Mathlib.Tactic.FieldSimp
import Mathlib.Tactic.Positivity
import Mathlib.Tactic.NormNum
import Mathlib.Analysis.Calculus.Deriv.Add
import Mathlib.Analysis.Calculus.Deriv.Mul
import Mathlib.Analysis.Calculus.Deriv.Pow
import Mathlib.Analysis.SpecialFunctions.ExpDeriv
import Mathlib.Analysis.Complex.Basic
import Verif.Model.Lift
import Verif.Props.Psf
import Verif.Props.Ccd
import Verif.Props.SubapCal
/-
C94: the LIFT estimator.
-/
namespace Specula
open Finset

/-! ### The frame -/

/-- A peak far enough from the borders: the frame is the surroundings of the peak, which goes to the index `w / 2`; if `w` is odd, the
last row is not filled. -/
theorem C94_frame (n w peak r : ℕ) (h1 : w / 2 ≤ peak) (h2 : peak + w / 2 ≤ n) (hr : r < w) :
    liftSrc n w peak r = if r < w / 2 * 2 then some (peak - w / 2 + r) else none := by
  unfold liftSrc
  dsimp only
  have hl : min n (peak + w / 2) - (peak - w / 2) = w / 2 * 2 := by omega
  rw [hl]
  have hp : (w - w / 2 * 2) / 2 = 0 := by omega
  rw [hp]
  simp

/-- A peak nearer to the border than half the size is not put in the centre: it is off by half of what is missing. -/
theorem C94_edge (n h peak r : ℕ) (h1 : peak < h) (h2 : peak + h ≤ n) :
    liftSrc n (2 * h) peak r = some peak ↔ r = h - (h - peak + 1) / 2 := by
  unfold liftSrc
  dsimp only
  have e1 : 2 * h / 2 = h := by omega
  rw [e1]
  have e2 : min n (peak + h) - (peak - h) = peak + h := by omega
  rw [e2]
  have e3 : (2 * h - (peak + h)) / 2 = (h - peak) / 2 := by congr 1; omega
  rw [e3]
  constructor
  · intro hs
    split_ifs at hs with hc
    · rw [Option.some_inj] at hs; omega
  · intro hr
    rw [if_pos (by omega)]
    congr 1; omega

theorem sum_shift_in (n a : ℕ) (ha : a ≤ n) (F : ℕ → ℝ) (h0 : ∀ i < a, F i = 0) (h1 : ∀ i, n ≤ i → i < n + a → F i = 0) :
    ∑ i ∈ range n, F i = ∑ i ∈ range n, F (i + a) := by
  have e1 : ∑ i ∈ range (n + a), F i = ∑ i ∈ range n, F i := by
    rw [Finset.sum_range_add]
    have : ∑ x ∈ range a, F (n + x) = 0 := sum_eq_zero fun x hx => h1 _ (by omega) (by have := mem_range.1 hx; omega)
    rw [this, add_zero]
  rw [← e1, add_comm n a, Finset.sum_range_add]
  have : ∑ x ∈ range a, F x = 0 := sum_eq_zero fun x hx => h0 _ (mem_range.1 hx)
  rw [this, zero_add]
  refine sum_congr rfl fun i _ => by rw [add_comm]

/-- An image moved by `a` rows and `b` columns. -/
noncomputable def imgMoved (a b : ℕ) (u : ℕ → ℕ → ℝ) (i j : ℕ) : ℝ := if a ≤ i ∧ b ≤ j then u (i - a) (j - b) else 0

/-- An image of `n` by `n` pixels, not negative nor zero everywhere, dark in the last `a` rows and `b` columns. -/
structure Movable (n a b : ℕ) (u : ℕ → ℕ → ℝ) : Prop where
  nonneg : ∀ i j, 0 ≤ u i j
  lit : ∃ i j, i < n ∧ j < n ∧ 0 < u i j
  rows : ∀ i j, n ≤ i + a → u i j = 0
  cols : ∀ i j, n ≤ j + b → u i j = 0

theorem imgMax_moved (n a b : ℕ) (u : ℕ → ℕ → ℝ) (h : Movable n a b u) : imgMax n (imgMoved a b u) = imgMax n u := by
  unfold imgMax
  congr 1
  obtain ⟨i0, j0, hi0, hj0, -⟩ := h.lit
  ext v
  constructor
  · rintro ⟨i, j, hi, hj, rfl⟩
    unfold imgMoved
    split_ifs with hc
    · exact ⟨i - a, j - b, by omega, by omega, rfl⟩
    · by_cases ha : a ≤ i
      · exact ⟨i0, n - 1, by omega, by omega, (h.cols _ _ (by omega)).symm⟩
      · exact ⟨n - 1, j0, by omega, by omega, (h.rows _ _ (by omega)).symm⟩
  · rintro ⟨i, j, hi, hj, rfl⟩
    by_cases h1 : i + a < n ∧ j + b < n
    · refine ⟨i + a, j + b, h1.1, h1.2, ?_⟩
      unfold imgMoved
      rw [if_pos ⟨by omega, by omega⟩]
      congr 1 <;> omega
    · refine ⟨0, 0, by omega, by omega, ?_⟩
      unfold imgMoved
      have hz : u i j = 0 := by
        by_cases h2 : i + a < n
        · exact h.cols _ _ (by omega)
        · exact h.rows _ _ (by omega)
      rw [hz, if_neg (by omega)]

theorem imgMax_spec (n : ℕ) (u : ℕ → ℕ → ℝ) (hn : ∃ i j, i < n ∧ j < n ∧ 0 < u i j) :
    ∃ i j, i < n ∧ j < n ∧ imgMax n u = u i j ∧ 0 < u i j := by
  obtain ⟨i0, j0, hi0, hj0, hp⟩ := hn
  obtain ⟨x, hx, hmax⟩ := Finset.exists_max_image (range n ×ˢ range n) (fun x : ℕ × ℕ => u x.1 x.2)
    ⟨(i0, j0), by simp [hi0, hj0]⟩
  simp only [mem_product, mem_range] at hx hmax
  refine ⟨x.1, x.2, hx.1, hx.2, ?_, hp.trans_le (hmax (i0, j0) ⟨hi0, hj0⟩)⟩
  unfold imgMax
  refine IsGreatest.csSup_eq ⟨⟨x.1, x.2, hx.1, hx.2, rfl⟩, ?_⟩
  rintro v ⟨i, j, hi, hj, rfl⟩
  exact hmax (i, j) ⟨hi, hj⟩

theorem liftThr_moved (n a b : ℕ) (u : ℕ → ℕ → ℝ) (h : Movable n a b u) (i j : ℕ) :
    liftThr n (imgMoved a b u) i j = imgMoved a b (liftThr n u) i j := by
  obtain ⟨i0, j0, -, -, hm, hp⟩ := imgMax_spec n u h.lit
  unfold liftThr
  dsimp only
  rw [imgMax_moved n a b u h]
  unfold imgMoved
  by_cases hc : a ≤ i ∧ b ≤ j
  · simp only [if_pos hc]
  · simp only [if_neg hc]
    rw [hm, if_pos (by linarith)]

theorem liftThr_nonneg (n : ℕ) (u : ℕ → ℕ → ℝ) (i j : ℕ) : 0 ≤ liftThr n u i j := by
  unfold liftThr
  dsimp only
  split_ifs with h
  · exact le_rfl
  · linarith

theorem liftThr_dark (n : ℕ) (u : ℕ → ℕ → ℝ) (hn : ∃ i j, i < n ∧ j < n ∧ 0 < u i j) (i j : ℕ) (h : u i j = 0) : liftThr n u i j = 0 := by
  obtain ⟨i0, j0, -, -, hm, hp⟩ := imgMax_spec n u hn
  unfold liftThr
  dsimp only
  rw [h, hm, if_pos (by linarith)]

theorem liftThr_total (n : ℕ) (u : ℕ → ℕ → ℝ) (hn : ∃ i j, i < n ∧ j < n ∧ 0 < u i j) :
    0 < ∑ i ∈ range n, ∑ j ∈ range n, liftThr n u i j := by
  obtain ⟨i0, j0, hi, hj, hm, hp⟩ := imgMax_spec n u hn
  have hpos : 0 < liftThr n u i0 j0 := by
    unfold liftThr
    dsimp only
    rw [hm, if_neg (by linarith)]
    linarith
  refine sum_pos' (fun i _ => sum_nonneg fun j _ => liftThr_nonneg n u i j) ⟨i0, mem_range.2 hi, ?_⟩
  exact sum_pos' (fun j _ => liftThr_nonneg n u i0 j) ⟨j0, mem_range.2 hj, hpos⟩

/-- Weighted sums of a moved image. -/
theorem sum_moved (n a b : ℕ) (u : ℕ → ℕ → ℝ) (h : Movable n a b u) (G : ℕ → ℕ → ℝ) :
    ∑ i ∈ range n, ∑ j ∈ range n, G i j * liftThr n (imgMoved a b u) i j =
      ∑ i ∈ range n, ∑ j ∈ range n, G (i + a) (j + b) * liftThr n u i j := by
  obtain ⟨i0, j0, hi0, hj0, hp0⟩ := h.lit
  have ha : a ≤ n := by
    by_contra hc
    exact hp0.ne' (h.rows i0 j0 (by omega))
  have hb : b ≤ n := by
    by_contra hc
    exact hp0.ne' (h.cols i0 j0 (by omega))
  simp only [liftThr_moved n a b u h]
  rw [sum_shift_in n a ha]
  · refine sum_congr rfl fun i _ => ?_
    rw [sum_shift_in n b hb]
    · refine sum_congr rfl fun j _ => ?_
      unfold imgMoved
      rw [if_pos ⟨by omega, by omega⟩, Nat.add_sub_cancel, Nat.add_sub_cancel]
    · intro j hj
      unfold imgMoved
      rw [if_neg (by omega), mul_zero]
    · intro j h1 h2
      unfold imgMoved
      split_ifs
      · rw [liftThr_dark n u h.lit _ _ (h.cols _ _ (by omega)), mul_zero]
      · rw [mul_zero]
  · intro i hi
    refine sum_eq_zero fun j _ => ?_
    unfold imgMoved
    rw [if_neg (by omega), mul_zero]
  · intro i h1 h2
    refine sum_eq_zero fun j _ => ?_
    unfold imgMoved
    split_ifs
    · rw [liftThr_dark n u h.lit _ _ (h.rows _ _ (by omega)), mul_zero]
    · rw [mul_zero]

theorem liftCog_moved (n a b : ℕ) (u : ℕ → ℕ → ℝ) (h : Movable n a b u) :
    liftCog n (imgMoved a b u) = ((liftCog n u).1 + a, (liftCog n u).2 + b) := by
  have ht := liftThr_total n u h.lit
  have hone := sum_moved n a b u h (fun _ _ => 1)
  simp only [one_mul] at hone
  unfold liftCog
  dsimp only
  rw [hone, sum_moved n a b u h (fun i _ => (i : ℝ)), sum_moved n a b u h (fun _ j => (j : ℝ))]
  set T := ∑ i ∈ range n, ∑ j ∈ range n, liftThr n u i j with hT
  have split : ∀ G : ℕ → ℕ → ℝ, ∀ k : ℝ, ∑ i ∈ range n, ∑ j ∈ range n, (G i j + k) * liftThr n u i j =
      (∑ i ∈ range n, ∑ j ∈ range n, G i j * liftThr n u i j) + k * T := by
    intro G k
    rw [hT, mul_sum, ← sum_add_distrib]
    refine sum_congr rfl fun i _ => ?_
    rw [mul_sum, ← sum_add_distrib]
    refine sum_congr rfl fun j _ => by ring
  push_cast
  rw [split (fun i _ => (i : ℝ)) a, split (fun _ j => (j : ℝ)) b, add_div, add_div, mul_div_assoc, mul_div_assoc, div_self ht.ne', mul_one, mul_one]

/-- Moving the image by whole pixels (inside the detector) does not change the frame that is analysed, and so not the estimate: tip and
tilt are measured from the pixel nearest to the barycentre of the image. -/
theorem C94_shift (c : LiftCfg) (n a b iters : ℕ) (u : ℕ → ℕ → ℝ) (h : Movable n a b u) (pr pc : ℕ)
    (hr : |(liftCog n u).1 - pr| < 1 / 2) (hc : |(liftCog n u).2 - pc| < 1 / 2) (r1 : c.gs / 2 ≤ pr) (r2 : pr + a + c.gs / 2 ≤ n)
    (c1 : c.gs / 2 ≤ pc) (c2 : pc + b + c.gs / 2 ≤ n) :
    (∀ r s, r < c.gs → s < c.gs → liftFrame n c.gs (imgMoved a b u) r s = liftFrame n c.gs u r s) ∧
      (c.gs % 2 = 0 → liftFrame n c.gs (imgMoved a b u) = liftFrame n c.gs u ∧
        liftEstimate c n iters (imgMoved a b u) = liftEstimate c n iters u) := by
  have rd : ∀ (x : ℝ) (m k : ℕ), |x - m| < 1 / 2 → (roundEvenF (x + k)).toNat = m + k := by
    intro x m k hx
    rw [roundEvenF_eq (x + k) ((m + k : ℕ) : ℤ) (by push_cast; rwa [add_sub_add_right_eq_sub])]
    exact Int.toNat_natCast _
  have e1 : liftFrame n c.gs (imgMoved a b u) = liftCropPeak n c.gs (pr + a) (pc + b) (imgMoved a b u) := by
    unfold liftFrame
    rw [liftCog_moved n a b u h]
    dsimp only
    rw [rd _ _ _ hr, rd _ _ _ hc]
  have e2 : liftFrame n c.gs u = liftCropPeak n c.gs pr pc u := by
    unfold liftFrame
    have h1 := rd _ _ 0 hr
    have h2 := rd _ _ 0 hc
    simp only [Nat.cast_zero, add_zero] at h1 h2
    rw [h1, h2]
  have pix : ∀ r s, r < c.gs → s < c.gs → liftFrame n c.gs (imgMoved a b u) r s = liftFrame n c.gs u r s := by
    intro r s hr hs
    rw [e1, e2]
    unfold liftCropPeak
    rw [C94_frame n c.gs (pr + a) r (by omega) (by omega) hr, C94_frame n c.gs (pc + b) s (by omega) (by omega) hs,
      C94_frame n c.gs pr r r1 (by omega) hr, C94_frame n c.gs pc s c1 (by omega) hs]
    split_ifs <;> try rfl
    dsimp only
    unfold imgMoved
    rw [if_pos ⟨by omega, by omega⟩]
    congr 1 <;> omega
  refine ⟨pix, ?_⟩
  intro heven
  have out : ∀ m peak r, c.gs / 2 ≤ peak → peak + c.gs / 2 ≤ m → c.gs ≤ r → liftSrc m c.gs peak r = none := by
    intro m peak r h1 h2 h3
    unfold liftSrc
    dsimp only
    rw [if_neg (by omega)]
  have full : liftFrame n c.gs (imgMoved a b u) = liftFrame n c.gs u := by
    funext r s
    by_cases hrs : r < c.gs ∧ s < c.gs
    · exact pix r s hrs.1 hrs.2
    · rw [e1, e2]
      unfold liftCropPeak
      by_cases hr' : r < c.gs
      · have hs' : c.gs ≤ s := by omega
        rw [out n (pc + b) s (by omega) (by omega) hs', out n pc s c1 (by omega) hs']
        cases liftSrc n c.gs (pr + a) r <;> cases liftSrc n c.gs pr r <;> rfl
      · have hr'' : c.gs ≤ r := by omega
        rw [out n (pr + a) r (by omega) (by omega) hr'', out n pr r r1 (by omega) hr'']
  refine ⟨full, ?_⟩
  unfold liftEstimate
  rw [full]

/-! ### Derivatives -/

/-- The derivative of the squared modulus. -/
theorem hasDerivAt_normSq {f : ℝ → ℂ} {f' : ℂ} {x : ℝ} (h : HasDerivAt f f' x) :
    HasDerivAt (fun a => Complex.normSq (f a)) (2 * ((starRingEnd ℂ) (f x) * f').re) x := by
  have hre : HasDerivAt (fun a => (f a).re) f'.re x := (Complex.reCLM.hasFDerivAt.comp_hasDerivAt x h)
  have him : HasDerivAt (fun a => (f a).im) f'.im x := (Complex.imCLM.hasFDerivAt.comp_hasDerivAt x h)
  have := (hre.fun_mul hre).fun_add (him.fun_mul him)
  simp only [Complex.normSq_apply]
  refine this.congr_deriv ?_
  simp only [Complex.mul_re, Complex.conj_re, Complex.conj_im]
  ring

theorem hasDerivAt_liftFt (c : LiftCfg) (f : ℝ → ℕ → ℕ → ℂ) (f' : ℕ → ℕ → ℂ) (x : ℝ) (h : ∀ i j, HasDerivAt (fun a => f a i j) (f' i j) x) (r s : ℕ) :
    HasDerivAt (fun a => liftFt c (f a) r s) (liftFt c f' r s) x := by
  unfold liftFt fft2
  refine HasDerivAt.mul_const ?_ _
  refine HasDerivAt.fun_sum fun i _ => HasDerivAt.fun_sum fun j _ => ?_
  refine HasDerivAt.mul_const ?_ _
  unfold liftPad
  split_ifs
  · exact h _ _
  · exact hasDerivAt_const _ _

theorem liftFt_smul (c : LiftCfg) (k : ℂ) (f : ℕ → ℕ → ℂ) (r s : ℕ) : liftFt c (fun i j => k * f i j) r s = k * liftFt c f r s := by
  unfold liftFt fft2
  rw [← mul_assoc]
  congr 1
  rw [mul_sum]
  refine sum_congr rfl fun i _ => ?_
  rw [mul_sum]
  refine sum_congr rfl fun j _ => ?_
  rw [← mul_assoc]
  congr 1
  unfold liftPad
  split_ifs
  · rfl
  · rw [mul_zero]

/-- The functions that the code calls derivatives are the derivatives of the image of the pupil with respect to the coefficients of the
modes (for fields multiplied by any factor). -/
theorem C94_derivative (c : LiftCfg) (norm : ℝ) (p : ℕ → ℕ → ℝ) (k r s : ℕ) :
    HasDerivAt (fun a : ℝ => norm ^ 2 * liftAbs2 c (fun i j => p i j + a * c.modes k i j) r s) (liftPrime c norm p k r s) 0 := by
  have hf : ∀ i j, HasDerivAt (fun a : ℝ => liftField c (fun i j => p i j + a * c.modes k i j) i j)
      (Complex.I * (liftField c p i j * (c.modes k i j : ℂ))) 0 := by
    intro i j
    unfold liftField
    have h1 : HasDerivAt (fun a : ℝ => Complex.I * ((p i j + a * c.modes k i j : ℝ) : ℂ)) (Complex.I * (c.modes k i j : ℂ)) 0 := by
      have h0 : HasDerivAt (fun a : ℝ => p i j + a * c.modes k i j) (c.modes k i j) 0 := by
        simpa using ((hasDerivAt_id (0 : ℝ)).mul_const (c.modes k i j)).const_add (p i j)
      exact (h0.ofReal_comp).const_mul Complex.I
    have h2 := (h1.cexp).const_mul (c.mask i j : ℂ)
    refine h2.congr_deriv ?_
    simp only [zero_mul, add_zero]
    ring
  have h3 := hasDerivAt_liftFt c _ _ 0 hf r s
  have h4 := (hasDerivAt_normSq h3).const_mul (norm ^ 2)
  refine h4.congr_deriv ?_
  unfold liftPrime
  simp only [zero_mul, add_zero]
  have e0 : (fun i j => p i j) = p := rfl
  rw [e0, liftFt_smul]
  have e1 : (fun i j => liftField c p i j * (norm : ℂ) * (c.modes k i j : ℂ)) = fun i j => (norm : ℂ) * (liftField c p i j * (c.modes k i j : ℂ)) := by
    funext i j; ring
  rw [e1, liftFt_smul, map_mul, Complex.conj_ofReal]
  have e2 : (starRingEnd ℂ) (liftFt c (liftField c p) r s) * (norm : ℂ) * Complex.I * ((norm : ℂ) * liftFt c (fun i j => liftField c p i j * (c.modes k i j : ℂ)) r s) =
      ((norm ^ 2 : ℝ) : ℂ) * ((starRingEnd ℂ) (liftFt c (liftField c p) r s) * (Complex.I * liftFt c (fun i j => liftField c p i j * (c.modes k i j : ℂ)) r s)) := by
    push_cast; ring
  rw [e2, Complex.re_ofReal_mul]
  ring

/-- If the image covers the whole transform, its total does not depend on the phase. -/
theorem gridSum_full (c : LiftCfg) (h : c.gs = c.fs) (h0 : 0 < c.fs) (p : ℕ → ℕ → ℝ) :
    gridSum c.gs (liftAbs2 c p) = ∑ i ∈ range c.gs, ∑ j ∈ range c.gs, c.mask i j ^ 2 := by
  have hpad : c.pad = 0 := by unfold LiftCfg.pad; omega
  have hfs : (c.fs : ℝ) ≠ 0 := by exact_mod_cast h0.ne'
  have e : ∀ r s, liftAbs2 c p r s = psfRaw c.fs c.fs c.fs (liftField c p) r s * (1 / (c.fs : ℝ) ^ 2) := by
    intro r s
    unfold liftAbs2 liftFt psfRaw
    rw [Complex.normSq_mul, hpad, add_zero, add_zero]
    congr 1
    · congr 1
      unfold fft2
      refine sum_congr rfl fun i hi => sum_congr rfl fun j hj => ?_
      rw [mem_range] at hi hj
      congr 1
      unfold liftPad padField
      rw [hpad, if_pos ⟨by omega, by omega, by omega, by omega⟩, if_pos ⟨by omega, by omega, by omega, by omega⟩]
      simp
    · rw [Complex.normSq_div, Complex.normSq_one, Complex.normSq_natCast]
      ring
  unfold gridSum
  simp only [e]
  simp only [← sum_mul]
  have := psfTotal_eq c.fs c.fs c.fs h0 le_rfl le_rfl (liftField c p)
  unfold psfTotal at this
  rw [h, this]
  have m : ∀ i j, Complex.normSq (liftField c p i j) = c.mask i j ^ 2 := by
    intro i j
    unfold liftField
    rw [Complex.normSq_mul, Complex.normSq_ofReal, Complex.normSq_eq_norm_sq, mul_comm Complex.I, Complex.norm_exp_ofReal_mul_I]
    ring
  simp only [m]
  field_simp

/-- Then they are also the derivatives of the image with a given flux. -/
theorem C94_derivative_image (c : LiftCfg) (h : c.gs = c.fs) (h0 : 0 < c.fs) (flux : ℝ) (hf : 0 ≤ flux) (p : ℕ → ℕ → ℝ) (k r s : ℕ) :
    HasDerivAt (fun a : ℝ => liftImage c flux (fun i j => p i j + a * c.modes k i j) r s)
      (liftPrime c (Real.sqrt flux / Real.sqrt (gridSum c.gs (liftAbs2 c p))) p k r s) 0 := by
  have h1 := C94_derivative c (Real.sqrt flux / Real.sqrt (gridSum c.gs (liftAbs2 c p))) p k r s
  have hs : 0 ≤ gridSum c.gs (liftAbs2 c p) := sum_nonneg fun i _ => sum_nonneg fun j _ => Complex.normSq_nonneg _
  rw [div_pow, Real.sq_sqrt hf, Real.sq_sqrt hs] at h1
  convert h1 using 1
  funext a
  unfold liftImage
  rw [gridSum_full c h h0, gridSum_full c h h0]
  ring

/-! ### The reconstructor -/

/-- The values used as noise are positive as soon as the largest one is. -/
theorem C94_noise {m : ℕ} (mx : ℝ) (hm : 0 < mx) (img : Fin m → ℝ) (i : Fin m) : 0 < liftNoise mx img i ∧ img i ≤ liftNoise mx img i := by
  unfold liftNoise
  split_ifs with h
  · exact ⟨by positivity, h.le⟩
  · exact ⟨lt_of_lt_of_le (by positivity) (not_lt.1 h), le_rfl⟩

theorem liftRec_mul {m n : ℕ} (H : Matrix (Fin m) (Fin n) ℝ) (R : Fin m → ℝ)
    (hu : IsUnit (H.transpose * Matrix.diagonal (fun i => 1 / R i) * H).det) : liftRec H R * H = 1 := by
  unfold liftRec
  rw [Matrix.mul_assoc]
  exact Matrix.nonsing_inv_mul _ hu

/-- The reconstructor gives the least squares solution, weighted with the inverses of the noise. -/
theorem C94_least_squares {m n : ℕ} (H : Matrix (Fin m) (Fin n) ℝ) (R : Fin m → ℝ) (hR : ∀ i, 0 < R i)
    (hu : IsUnit (H.transpose * Matrix.diagonal (fun i => 1 / R i) * H).det) (y : Fin m → ℝ) (z : Fin n → ℝ) :
    ∑ i, (y i - H.mulVec ((liftRec H R).mulVec y) i) ^ 2 / R i ≤ ∑ i, (y i - H.mulVec z i) ^ 2 / R i := by
  set w := (liftRec H R).mulVec y with hw
  have normal : ∀ d : Fin n → ℝ, ∑ i, H.mulVec d i * ((y i - H.mulVec w i) / R i) = 0 := by
    intro d
    have e1 : (H.transpose * Matrix.diagonal (fun i => 1 / R i)).mulVec (y - H.mulVec w) = 0 := by
      rw [Matrix.mulVec_sub, Matrix.mulVec_mulVec, hw]
      unfold liftRec
      rw [Matrix.mulVec_mulVec, ← Matrix.mul_assoc, Matrix.mul_nonsing_inv _ hu, Matrix.one_mul, sub_self]
    have e2 : d ⬝ᵥ (H.transpose * Matrix.diagonal (fun i => 1 / R i)).mulVec (y - H.mulVec w) = 0 := by rw [e1, dotProduct_zero]
    rw [← Matrix.mulVec_mulVec, Matrix.dotProduct_mulVec, Matrix.vecMul_transpose] at e2
    rw [← e2]
    unfold dotProduct
    refine sum_congr rfl fun i _ => ?_
    rw [Matrix.mulVec_diagonal, Pi.sub_apply]
    ring
  have key : ∀ i, (y i - H.mulVec z i) ^ 2 / R i = (y i - H.mulVec w i) ^ 2 / R i + 2 * (H.mulVec (w - z) i * ((y i - H.mulVec w i) / R i)) +
      (H.mulVec (w - z) i) ^ 2 / R i := by
    intro i
    rw [Matrix.mulVec_sub, Pi.sub_apply]
    ring
  simp only [key, sum_add_distrib, ← mul_sum]
  rw [normal (w - z), mul_zero, add_zero]
  have : 0 ≤ ∑ i, (H.mulVec (w - z) i) ^ 2 / R i := sum_nonneg fun i _ => div_nonneg (sq_nonneg _) (hR i).le
  linarith

/-- To first order an iteration gives back a mode that is added to the phase: with the reconstructor computed at a phase, the response to
the difference of the images changes by one in the coefficient of the mode, and by nothing in the others. -/
theorem C94_first_order (c : LiftCfg) (norm : ℝ) (p : ℕ → ℕ → ℝ) {m : ℕ} (px : Fin m → ℕ × ℕ) (R : Fin m → ℝ)
    (hu : IsUnit ((Matrix.of fun (i : Fin m) (k : Fin c.nmodes) => liftPrime c norm p k (px i).1 (px i).2).transpose *
      Matrix.diagonal (fun i => 1 / R i) * (Matrix.of fun (i : Fin m) (k : Fin c.nmodes) => liftPrime c norm p k (px i).1 (px i).2)).det)
    (k k' : Fin c.nmodes) :
    HasDerivAt (fun a : ℝ => (liftRec (Matrix.of fun (i : Fin m) (k : Fin c.nmodes) => liftPrime c norm p k (px i).1 (px i).2) R).mulVec
      (fun i => norm ^ 2 * liftAbs2 c (fun i j => p i j + a * c.modes k i j) (px i).1 (px i).2 - norm ^ 2 * liftAbs2 c p (px i).1 (px i).2) k')
      (if k' = k then 1 else 0) 0 := by
  set H : Matrix (Fin m) (Fin c.nmodes) ℝ := Matrix.of fun (i : Fin m) (k : Fin c.nmodes) => liftPrime c norm p k (px i).1 (px i).2 with hH
  have h1 : HasDerivAt (fun a : ℝ => (liftRec H R).mulVec
      (fun i => norm ^ 2 * liftAbs2 c (fun i j => p i j + a * c.modes k i j) (px i).1 (px i).2 - norm ^ 2 * liftAbs2 c p (px i).1 (px i).2) k')
      (∑ i, liftRec H R k' i * liftPrime c norm p k (px i).1 (px i).2) 0 := by
    unfold Matrix.mulVec dotProduct
    refine HasDerivAt.fun_sum fun i _ => ?_
    exact ((C94_derivative c norm p k (px i).1 (px i).2).sub_const _).const_mul _
  convert h1 using 1
  have h2 := congrFun (congrFun (liftRec_mul H R hu) k') k
  rw [Matrix.mul_apply, Matrix.one_apply] at h2
  rw [← h2]
  rfl

/-! ### Iterations -/

/-- The phase is at every iteration that of the coefficients found so far. -/
theorem C94_phase (c : LiftCfg) (psf : ℕ → ℕ → ℝ) (tt : ℝ × ℝ) (n : ℕ) (st st' : LiftSt)
    (h0 : ∀ i j, st.phase i j = liftPhase c st.total i j) (h : liftSteps c psf tt n st = some st') (i j : ℕ) :
    st'.phase i j = liftPhase c st'.total i j := by
  induction n generalizing st with
  | zero => simp only [liftSteps, Option.some_inj] at h; rw [← h]; exact h0 i j
  | succ n ih =>
    simp only [liftSteps, Option.bind_eq_some_iff] at h
    obtain ⟨s1, hs, h⟩ := h
    refine ih s1 ?_ h
    unfold liftStep at hs
    rw [Option.map_eq_some_iff] at hs
    obtain ⟨d, -, rfl⟩ := hs
    intro i j
    dsimp only
    rw [h0]
    unfold liftPhase
    rw [← sum_add_distrib]
    refine sum_congr rfl fun k _ => by ring

/-- What is returned: with these coefficients, in nm, added to the reference ones, the model gives the phase of the last iteration. -/
theorem C94_output (c : LiftCfg) (hz : 2 ≤ c.nZern) (hw : c.wavelength ≠ 0) (n iters : ℕ) (a : ℕ → ℕ → ℝ) (out : ℕ → ℝ)
    (h : liftEstimate c n iters a = some out) :
    ∃ st, liftSteps c (liftFrame n c.gs a) (liftRefTT c (liftCenter c (liftFrame n c.gs a))) iters (liftInit c (liftFrame n c.gs a)) = some st ∧
      ∀ i j, liftPhaseRef c (liftRefTT c (liftCenter c (liftFrame n c.gs a))).1 (liftRefTT c (liftCenter c (liftFrame n c.gs a))).2 st.phase i j =
        ∑ k ∈ range c.nmodes, (c.airef k + out k * (2 * Real.pi / c.wavelength)) * c.modes k i j := by
  unfold liftEstimate at h
  dsimp only at h
  rw [Option.map_eq_some_iff] at h
  obtain ⟨st, hs, rfl⟩ := h
  refine ⟨st, hs, ?_⟩
  intro i j
  set tt := liftRefTT c (liftCenter c (liftFrame n c.gs a)) with htt
  have hp := C94_phase c _ tt iters _ st (by
    intro i j
    unfold liftInit liftPhase
    simp) hs i j
  unfold liftPhaseRef
  rw [hp]
  have hpi : (Real.pi : ℝ) ≠ 0 := Real.pi_ne_zero
  have e : ∀ k, (c.airef k + liftOut c tt st.total k * (2 * Real.pi / c.wavelength)) * c.modes k i j =
      st.total k * c.modes k i j + c.airef k * c.modes k i j + (if k = c.nPistons then c.modes k i j * tt.1 else 0) +
        (if k = c.nPistons + 1 then c.modes k i j * tt.2 else 0) := by
    intro k
    unfold liftOut
    by_cases h1 : k = c.nPistons
    · have h2 : k ≠ c.nPistons + 1 := by omega
      simp only [if_pos h1, if_neg h2]
      field_simp
      ring
    · by_cases h2 : k = c.nPistons + 1
      · simp only [if_pos h2, if_neg h1]
        field_simp
        ring
      · simp only [if_neg h2, if_neg h1]
        field_simp
        ring
  simp only [e, sum_add_distrib]
  rw [sum_ite_eq' (range c.nmodes), sum_ite_eq' (range c.nmodes)]
  have hn : c.nPistons + 1 < c.nmodes := by unfold LiftCfg.nmodes; omega
  rw [if_pos (mem_range.2 (by omega)), if_pos (mem_range.2 hn)]
  rfl

/-- An image that is that of the current phase leaves coefficients, phase, flux and centre unchanged. -/
theorem C94_fixed_point (c : LiftCfg) (psf : ℕ → ℕ → ℝ) (tt : ℝ × ℝ) (st : LiftSt)
    (h : psf = liftImage c st.flux (liftPhaseRef c tt.1 tt.2 st.phase)) (hc : st.center = liftCenter c psf)
    (hs : (roiVals (liftRoi c st.center) psf).sum ≠ 0) (n : ℕ) : liftSteps c psf tt n st = some st := by
  have one : liftStep c psf tt st = some st := by
    unfold liftStep liftCorrection
    dsimp only
    rw [← h, ← hc, div_self hs, mul_one]
    rw [if_neg (by simp)]
    rw [Option.map_some]
    congr 1
    simp only [sub_self]
    have z : ∀ (k : ℕ) {m : ℕ} (M : Matrix (Fin c.nmodes) (Fin m) ℝ), (if h : k < c.nmodes then M.mulVec (fun _ => (0 : ℝ)) ⟨k, h⟩ else 0) = 0 := by
      intro k m M
      split_ifs
      · unfold Matrix.mulVec dotProduct
        simp
      · rfl
    simp only [z]
    unfold liftPhase
    simp
  induction n with
  | zero => rfl
  | succ n ih => simp only [liftSteps, one, Option.bind_some, ih]

theorem roiVals_range (g : ℕ) (a : ℕ → ℕ → ℝ) : (roiVals (List.range g, List.range g) a).sum = gridSum g a := by
  unfold roiVals gridSum
  dsimp only
  rw [List.flatMap_def, List.sum_flatten, List.map_map]
  have e : ∀ (n : ℕ) (f : ℕ → ℝ), ((List.range n).map f).sum = ∑ i ∈ range n, f i := by
    intro n f
    induction n with
    | zero => rfl
    | succ n ih => rw [List.range_succ, List.map_append, List.sum_append, ih, sum_range_succ]; simp
  rw [e]
  refine sum_congr rfl fun i _ => ?_
  exact e g _

/-- The region inside the frame: `side` rows on each side of the centre. -/
theorem C94_crop (c : LiftCfg) (center : ℝ × ℝ) (lo : ℕ) (side : ℕ) (hs : c.side = side) (h : ⌈center.2⌉ = (lo + side : ℕ))
    (h2 : lo + 2 * side ≤ c.gs) : (liftRoi c center).1 = (List.range (2 * side)).map fun u => lo + u := by
  unfold liftRoi
  dsimp only
  have e1 : ⌈center.2 - (c.side : ℝ)⌉ = ((lo : ℕ) : ℤ) := by rw [Int.ceil_sub_intCast, h, hs]; push_cast; ring
  have e2 : ⌈center.2 + (c.side : ℝ)⌉ = ((lo + 2 * side : ℕ) : ℤ) := by rw [Int.ceil_add_intCast, h, hs]; push_cast; ring
  rw [e1, e2]
  exact slicePos_block c.gs lo (2 * side) h2

/-- A centre nearer than `side` to the first rows: the region is empty, and the flux is zero. -/
theorem C94_crop_edge (c : LiftCfg) (center : ℝ × ℝ) (h1 : ⌈center.2⌉ < c.side) (h0 : 0 ≤ ⌈center.2⌉) (h2 : 2 * c.side ≤ c.gs) (a : ℕ → ℕ → ℝ) :
    (liftRoi c center).1 = [] ∧ (roiVals (liftRoi c center) a).sum = 0 := by
  have e : (liftRoi c center).1 = [] := by
    unfold liftRoi slicePos
    dsimp only
    rw [Int.ceil_sub_intCast, Int.ceil_add_intCast, if_pos (by omega), if_neg (by omega)]
    have : min (⌈center.2⌉ + c.side).toNat c.gs - (⌈center.2⌉ - c.side + c.gs).toNat = 0 := by omega
    rw [this]
    rfl
  refine ⟨e, ?_⟩
  unfold roiVals
  rw [e]
  rfl

/-- In particular for every phase, if the region is the whole of an even frame and of the transform. -/
theorem C94_fixed_point_full (c : LiftCfg) (h : ℕ) (hg : c.gs = 2 * h) (hf : c.gs = c.fs) (hs : c.side = h) (hx : c.fix = true) (tt : ℝ × ℝ)
    (hm : ∃ i j, i < c.gs ∧ j < c.gs ∧ c.mask i j ≠ 0) (st : LiftSt) (hfl : st.flux ≠ 0) (psf : ℕ → ℕ → ℝ)
    (hpsf : psf = liftImage c st.flux (liftPhaseRef c tt.1 tt.2 st.phase)) (hc : st.center = liftCenter c psf) (n : ℕ) :
    liftSteps c psf tt n st = some st := by
  obtain ⟨i, j, hi, hj, hij⟩ := hm
  refine C94_fixed_point c psf tt st hpsf hc ?_ n
  rw [hc]
  have hroi : ∀ a, liftRoi c (liftCenter c a) = (List.range c.gs, List.range c.gs) := by
    intro a
    unfold liftRoi liftCenter
    rw [if_pos hx]
    dsimp only
    have e0 : (0.5 * (c.gs : ℝ)) = (h : ℝ) := by rw [hg]; push_cast; ring
    have e1 : ⌈0.5 * (c.gs : ℝ) - (c.side : ℝ)⌉ = ((0 : ℕ) : ℤ) := by rw [e0, hs]; simp
    have e2 : ⌈0.5 * (c.gs : ℝ) + (c.side : ℝ)⌉ = ((0 + c.gs : ℕ) : ℤ) := by
      rw [e0, hs, hg]
      have : ((h : ℝ) + ((h : ℤ) : ℝ)) = ((0 + 2 * h : ℕ) : ℝ) := by push_cast; ring
      rw [this, Int.ceil_natCast]
    rw [e1, e2, slicePos_block c.gs 0 c.gs (by omega)]
    simp
  rw [hroi, roiVals_range, hpsf]
  have hpos : 0 < gridSum c.gs (liftAbs2 c (liftPhaseRef c tt.1 tt.2 st.phase)) := by
    rw [gridSum_full c hf (by omega)]
    refine sum_pos' (fun i _ => sum_nonneg fun j _ => sq_nonneg _) ⟨i, mem_range.2 hi, ?_⟩
    exact sum_pos' (fun j _ => sq_nonneg _) ⟨j, mem_range.2 hj, by positivity⟩
  unfold liftImage gridSum
  simp only [← sum_mul]
  change gridSum c.gs (liftAbs2 c (liftPhaseRef c tt.1 tt.2 st.phase)) * _ ≠ 0
  exact mul_ne_zero hpos.ne' (div_ne_zero hfl hpos.ne')

/-- What an iteration finds: the combination of the derivatives of the image that is the nearest to the difference between the image and
the model on the region, each pixel with the inverse of its value (or of a millionth of the largest one) as weight. -/
theorem C94_step (c : LiftCfg) (psf : ℕ → ℕ → ℝ) (tt : ℝ × ℝ) (st : LiftSt) (d : (ℕ → ℝ) × ℝ × (ℝ × ℝ)) (h : liftCorrection c psf tt st = some d)
    (p img : ℕ → ℕ → ℝ) (hp : p = liftPhaseRef c tt.1 tt.2 st.phase) (himg : img = liftImage c st.flux p) (v0 v : List ℝ)
    (hv0 : v0 = roiVals (liftRoi c st.center) psf) (hv : v = roiVals (liftRoi c (liftCenter c img)) img)
    (D : ℕ → ℕ → ℕ → ℝ) (hD : ∀ k r s, HasDerivAt (fun a : ℝ => (Real.sqrt (st.flux * ((roiVals (liftRoi c (liftCenter c img)) psf).sum / v.sum)) /
      Real.sqrt (gridSum c.gs (liftAbs2 c p))) ^ 2 * liftAbs2 c (fun i j => p i j + a * c.modes k i j) r s) (D k r s) 0)
    (H : Matrix (Fin v.length) (Fin c.nmodes) ℝ) (hH : ∀ i k, H i k = (roiVals (liftRoi c (liftCenter c img)) (D k)).getD i 0)
    (mx : ℝ) (hmx : mx = v.foldl max 0) (hpos : 0 < mx) (R : Fin v.length → ℝ) (hR : ∀ i, R i = max (v.getD i 0) (mx * 1e-6))
    (hu : IsUnit (H.transpose * Matrix.diagonal (fun i => 1 / R i) * H).det) (z : Fin c.nmodes → ℝ) :
    ∑ i : Fin v.length, (v0.getD i 0 - v.getD i 0 - ∑ k, H i k * d.1 k) ^ 2 / R i ≤ ∑ i : Fin v.length, (v0.getD i 0 - v.getD i 0 - ∑ k, H i k * z k) ^ 2 / R i := by
  subst hp himg hv0 hv hmx
  have eD : ∀ k, D k = liftPrime c (Real.sqrt (st.flux * ((roiVals (liftRoi c (liftCenter c (liftImage c st.flux (liftPhaseRef c tt.1 tt.2 st.phase)))) psf).sum /
      (roiVals (liftRoi c (liftCenter c (liftImage c st.flux (liftPhaseRef c tt.1 tt.2 st.phase)))) (liftImage c st.flux (liftPhaseRef c tt.1 tt.2 st.phase))).sum)) /
      Real.sqrt (gridSum c.gs (liftAbs2 c (liftPhaseRef c tt.1 tt.2 st.phase)))) (liftPhaseRef c tt.1 tt.2 st.phase) k := by
    intro k
    funext r s
    exact (hD k r s).unique (C94_derivative c _ _ k r s)
  have eR : R = liftNoise ((roiVals (liftRoi c (liftCenter c (liftImage c st.flux (liftPhaseRef c tt.1 tt.2 st.phase)))) (liftImage c st.flux (liftPhaseRef c tt.1 tt.2 st.phase))).foldl max 0)
      (fun i => (roiVals (liftRoi c (liftCenter c (liftImage c st.flux (liftPhaseRef c tt.1 tt.2 st.phase)))) (liftImage c st.flux (liftPhaseRef c tt.1 tt.2 st.phase))).getD i 0) := by
    funext i
    rw [hR]
    unfold liftNoise
    split_ifs with hc
    · exact max_eq_right hc.le
    · exact max_eq_left (not_lt.1 hc)
  unfold liftCorrection at h
  dsimp only at h
  split_ifs at h
  rw [Option.some_inj] at h
  have ls := C94_least_squares H R (fun i => by rw [hR]; exact lt_max_of_lt_right (by positivity)) hu
    (fun i => (roiVals (liftRoi c st.center) psf).getD i 0 -
      (roiVals (liftRoi c (liftCenter c (liftImage c st.flux (liftPhaseRef c tt.1 tt.2 st.phase)))) (liftImage c st.flux (liftPhaseRef c tt.1 tt.2 st.phase))).getD i 0) z
  have eH : H = Matrix.of fun (i : Fin _) (k : Fin c.nmodes) => (roiVals (liftRoi c (liftCenter c (liftImage c st.flux (liftPhaseRef c tt.1 tt.2 st.phase)))) (liftPrime c
      (Real.sqrt (st.flux * ((roiVals (liftRoi c (liftCenter c (liftImage c st.flux (liftPhaseRef c tt.1 tt.2 st.phase)))) psf).sum /
      (roiVals (liftRoi c (liftCenter c (liftImage c st.flux (liftPhaseRef c tt.1 tt.2 st.phase)))) (liftImage c st.flux (liftPhaseRef c tt.1 tt.2 st.phase))).sum)) /
      Real.sqrt (gridSum c.gs (liftAbs2 c (liftPhaseRef c tt.1 tt.2 st.phase)))) (liftPhaseRef c tt.1 tt.2 st.phase) k)).getD i 0 := by
    ext i k
    rw [hH, eD, Matrix.of_apply]
  have ed : ∀ k : Fin c.nmodes, d.1 k = (liftRec H R).mulVec (fun i => (roiVals (liftRoi c st.center) psf).getD i 0 -
      (roiVals (liftRoi c (liftCenter c (liftImage c st.flux (liftPhaseRef c tt.1 tt.2 st.phase)))) (liftImage c st.flux (liftPhaseRef c tt.1 tt.2 st.phase))).getD i 0) k := by
    intro k
    rw [← h, eH, eR]
    dsimp only
    rw [dif_pos k.2]
  have m1 : ∀ i, ∑ k, H i k * d.1 k = H.mulVec ((liftRec H R).mulVec (fun i => (roiVals (liftRoi c st.center) psf).getD i 0 -
      (roiVals (liftRoi c (liftCenter c (liftImage c st.flux (liftPhaseRef c tt.1 tt.2 st.phase)))) (liftImage c st.flux (liftPhaseRef c tt.1 tt.2 st.phase))).getD i 0)) i := by
    intro i
    unfold Matrix.mulVec dotProduct
    refine sum_congr rfl fun k _ => ?_
    rw [ed]
    rfl
  have m2 : ∀ i, ∑ k, H i k * z k = H.mulVec z i := fun i => rfl
  simp only [m1, m2]
  exact ls

/-! ### Tip and tilt in pixels -/

/-- With tip and tilt of 2 at the edge of the pupil, `radPerPix` radians of coefficient move the image by one pixel. -/
theorem C94_tilt (c : LiftCfg) (g : LiftGeom ℝ) (hg : g.fftRes = (c.fs : ℝ) / c.gs) (h0 : 0 < c.gs) (hf : 0 < c.fs) (kr kc a b : ℕ) (o : ℝ)
    (hr : ∀ i j, i < c.gs → j < c.gs → c.mask i j ≠ 0 → c.modes kr i j = 4 * (i - o) / c.gs)
    (hc : ∀ i j, i < c.gs → j < c.gs → c.mask i j ≠ 0 → c.modes kc i j = 4 * (j - o) / c.gs) (p : ℕ → ℕ → ℝ) (r s : ℕ) :
    liftAbs2 c (fun i j => p i j + a * liftRadPerPix g * c.modes kr i j + b * liftRadPerPix g * c.modes kc i j) (r + a) (s + b) =
      liftAbs2 c p r s := by
  have hgs : (c.gs : ℂ) ≠ 0 := by exact_mod_cast h0.ne'
  have hfs : (c.fs : ℂ) ≠ 0 := by exact_mod_cast hf.ne'
  set q : ℕ → ℕ → ℝ := fun i j => p i j + a * liftRadPerPix g * c.modes kr i j + b * liftRadPerPix g * c.modes kc i j with hq
  set K : ℂ := Complex.exp ((-(2 * Real.pi * (a + b) * (o + c.pad) / c.fs) : ℝ) * Complex.I) with hK
  have hKn : Complex.normSq K = 1 := by
    rw [Complex.normSq_eq_norm_sq, hK, Complex.norm_exp_ofReal_mul_I, one_pow]
  have hpad : ∀ I J, liftPad c (liftField c q) I J = K * (liftPad c (liftField c p) I J * twiddle c.fs (-((a * I + b * J : ℕ) : ℤ))) := by
    intro I J
    unfold liftPad
    split_ifs with hin
    · unfold liftField
      by_cases hm : c.mask (I - c.pad) (J - c.pad) = 0
      · rw [hm]; simp
      · rw [mul_assoc, mul_left_comm K]
        congr 1
        unfold twiddle
        rw [hK, ← Complex.exp_add, ← Complex.exp_add]
        congr 1
        rw [hq]
        dsimp only
        rw [hr _ _ (by omega) (by omega) hm, hc _ _ (by omega) (by omega) hm]
        unfold liftRadPerPix
        rw [hg]
        have e1 : ((I - c.pad : ℕ) : ℝ) = (I : ℝ) - c.pad := by rw [Nat.cast_sub (by omega)]
        have e2 : ((J - c.pad : ℕ) : ℝ) = (J : ℝ) - c.pad := by rw [Nat.cast_sub (by omega)]
        rw [e1, e2]
        push_cast
        field_simp
        ring
    · simp
  unfold liftAbs2
  have hft : liftFt c (liftField c q) (r + a) (s + b) = K * liftFt c (liftField c p) r s := by
    unfold liftFt
    rw [← mul_assoc]
    congr 1
    have hidx : ∀ x y, fftshiftIdx c.fs (x + y + c.pad) = (fftshiftIdx c.fs (x + c.pad) + y) % c.fs := by
      intro x y
      unfold fftshiftIdx
      rw [Nat.mod_add_mod]
      congr 1
      omega
    rw [hidx, hidx, fft2_mod c.fs hf]
    unfold fft2
    rw [mul_sum]
    refine sum_congr rfl fun i _ => ?_
    rw [mul_sum]
    refine sum_congr rfl fun j _ => ?_
    rw [hpad, mul_assoc, mul_assoc, ← twiddle_add]
    congr 3
    push_cast
    ring
  rw [hft, Complex.normSq_mul, hKn, one_mul]

/-- The starting point: with a barycentre `a` rows and `b` columns off the centre, the first model image is that of the reference without
its tip and tilt, moved by `a` rows and `b` columns. -/
theorem C94_start (c : LiftCfg) (g : LiftGeom ℝ) (hg : g.fftRes = (c.fs : ℝ) / c.gs) (hrp : c.radPerPix = liftRadPerPix g) (h0 : 0 < c.gs) (hf : 0 < c.fs)
    (hz : 2 ≤ c.nZern) (a b : ℕ) (o : ℝ) (center : ℝ × ℝ) (hc2 : center.2 = 0.5 * c.gs + a) (hc1 : center.1 = 0.5 * c.gs + b)
    (hr : ∀ i j, i < c.gs → j < c.gs → c.mask i j ≠ 0 → c.modes c.nPistons i j = 4 * (i - o) / c.gs)
    (hc : ∀ i j, i < c.gs → j < c.gs → c.mask i j ≠ 0 → c.modes (c.nPistons + 1) i j = 4 * (j - o) / c.gs) (psf : ℕ → ℕ → ℝ) (r s : ℕ) :
    liftAbs2 c (liftPhaseRef c (liftRefTT c center).1 (liftRefTT c center).2 (liftInit c psf).phase) (r + a) (s + b) =
      liftAbs2 c (fun i j => ∑ k ∈ (range c.nmodes).filter fun k => k ≠ c.nPistons ∧ k ≠ c.nPistons + 1, c.airef k * c.modes k i j) r s := by
  rw [← C94_tilt c g hg h0 hf c.nPistons (c.nPistons + 1) a b o hr hc _ r s]
  congr 1
  funext i j
  unfold liftPhaseRef liftRefTT liftInit liftPhase
  dsimp only
  have e : ∀ k, c.airef k * c.modes k i j = (if k ≠ c.nPistons ∧ k ≠ c.nPistons + 1 then c.airef k * c.modes k i j else 0) +
      (if k = c.nPistons then c.airef k * c.modes k i j else 0) + (if k = c.nPistons + 1 then c.airef k * c.modes k i j else 0) := by
    intro k
    by_cases h1 : k = c.nPistons
    · have h2 : k ≠ c.nPistons + 1 := by omega
      simp only [h1, ne_eq, not_true_eq_false, false_and, if_false, if_true, zero_add, left_eq_add, ite_eq_right_iff]
      omega
    · by_cases h2 : k = c.nPistons + 1
      · simp [h2]
      · simp [h1, h2]
  have hn : c.nPistons + 1 < c.nmodes := by unfold LiftCfg.nmodes; omega
  rw [sum_congr rfl fun k _ => e k, sum_add_distrib, sum_add_distrib, sum_ite_eq' (range c.nmodes), sum_ite_eq' (range c.nmodes),
    if_pos (mem_range.2 (by omega)), if_pos (mem_range.2 hn), ← sum_filter, hc1, hc2, hrp]
  ring

/-! ### Settings -/

/-- The relative tolerance never stops the loop: it compares with a number, 10^18, that is not updated. -/
theorem C94_tolerance (relTol absTol newError meanDz : ℚ) (h1 : relTol ≤ 1 / 2) (h2 : newError ≤ 10 ^ 17) :
    liftStops relTol absTol newError meanDz = decide (meanDz < absTol) := by
  unfold liftStops
  dsimp only
  have : ¬ |((10 : ℚ) ^ 18 - newError) / 10 ^ 18| < relTol := by
    rw [not_lt]
    refine le_trans ?_ (le_abs_self _)
    rw [le_div_iff₀ (by positivity)]
    linarith
  simp [this]

section
variable {K : Type} [Field K] [LinearOrder K] [IsStrictOrderedRing K] [FloorRing K]

/-- The size of the transform is even, and its sampling is that of the detector within one and a half pixels of the transform; the
argument `fft_res` is ignored. -/
theorem C94_geometry (n : ℕ) (ld px res res' : K) (h1 : 0 < ld) (h2 : 0 < px) :
    (liftGeometry n ld px res).fftSize % 2 = 0 ∧
      |((liftGeometry n ld px res).fftSize : K) * (px / ld) - (liftGeometry n ld px res).fftSampling| ≤ 3 / 2 * (px / ld) ∧
      (liftGeometry n ld px res).fftSize = (liftGeometry n ld px res).fftSampling + (liftGeometry n ld px res).padding ∧
      liftGeometry n ld px res = liftGeometry n ld px res' := by
  refine ⟨by unfold liftGeometry; dsimp only; omega, ?_, by unfold liftGeometry; dsimp only; omega, rfl⟩
  unfold liftGeometry
  dsimp only
  have hsr : 0 < px / ld := div_pos h2 h1
  set sr := px / ld
  set m := roundEvenF ((n : K) * sr)
  have hn := abs_le.1 (roundEvenF_near ((m : K) * (1 / sr)))
  set q := roundEvenF ((m : K) * (1 / sr))
  have hq : q - 1 ≤ q / 2 * 2 ∧ q / 2 * 2 ≤ q := by omega
  have hq1 : (q : K) - 1 ≤ ((q / 2 * 2 : ℤ) : K) := by exact_mod_cast hq.1
  have hq2 : ((q / 2 * 2 : ℤ) : K) ≤ (q : K) := by exact_mod_cast hq.2
  set e : K := ((q / 2 * 2 : ℤ) : K)
  have hm : (m : K) = (m : K) * (1 / sr) * sr := by field_simp
  have h3 : |e - (m : K) * (1 / sr)| ≤ 3 / 2 := by
    rw [abs_le]
    constructor <;> linarith [hn.1, hn.2]
  have h4 : e * sr - m = (e - (m : K) * (1 / sr)) * sr := by rw [sub_mul, ← hm]
  rw [h4, abs_mul, abs_of_pos hsr]
  exact mul_le_mul_of_nonneg_right h3 hsr.le

end

/-- The padding can be negative: an odd sampling with pixels of one `λ/D`, or pixels larger than `λ/D`. -/
theorem C94_padding : (liftGeometry 15 (1 : ℚ) 1 2).padding = -1 ∧ (liftGeometry 16 (1 : ℚ) 2 2).padding = -16 ∧
    (liftGeometry 32 (1 : ℚ) (1 / 2) 2).padding = 16 := by
  refine ⟨?_, ?_, ?_⟩ <;> decide +kernel

/-- The reference amplitudes: those that are given after the pistons, zeros for the rest; too many are refused. -/
theorem C94_reference (nPistons nZern : ℕ) (amp : List ℚ) :
    (amp.length ≤ nZern → ∃ l, liftAiref nPistons nZern amp = some l ∧ l.length = nZern + nPistons ∧
      (∀ k, k < amp.length → l[nPistons + k]? = amp[k]?) ∧ ∀ k, k < nPistons ∨ nPistons + amp.length ≤ k → l.getD k 0 = 0) ∧
      (nZern < amp.length → liftAiref nPistons nZern amp = none) := by
  unfold liftAiref
  constructor
  · intro h
    rw [if_neg (by omega)]
    refine ⟨_, rfl, ?_, ?_, ?_⟩
    · simp; omega
    · intro k hk
      rw [List.append_assoc, List.getElem?_append_right (by simp), List.getElem?_append_left (by simp; omega)]
      simp
    · intro k hk
      rw [List.getD_eq_getElem?_getD]
      rcases hk with hk | hk
      · rw [List.append_assoc, List.getElem?_append_left (by simp; omega), List.getElem?_replicate, if_pos hk]
        rfl
      · rw [List.getElem?_append_right (by simp; omega), List.getElem?_replicate]
        split_ifs <;> rfl
  · intro h
    rw [if_pos h]

/-! ### Cases -/

/-- A frame of 4 from 9 pixels around the pixel 5, one near the edge, and one with an odd size. -/
example : (List.range 4).map (liftSrc 9 4 5) = [some 3, some 4, some 5, some 6] ∧
    (List.range 6).map (liftSrc 9 6 1) = [none, some 0, some 1, some 2, some 3, none] ∧
    (List.range 5).map (liftSrc 9 5 4) = [some 2, some 3, some 4, some 5, none] := by decide

/-- An image that can be moved. -/
example : Movable 4 2 1 (fun i j => if i = 1 ∧ j = 1 then 3 else 0) :=
  ⟨fun i j => by split_ifs <;> norm_num, ⟨1, 1, by norm_num, by norm_num, by norm_num⟩, fun i j h => if_neg (by omega), fun i j h => if_neg (by omega)⟩

/-- A reconstructor that exists: two measurements of one coefficient with noises 1 and 2. -/
example : IsUnit ((Matrix.of ![![(1 : ℝ)], ![2]]).transpose * Matrix.diagonal (fun i => 1 / (![1, 2] : Fin 2 → ℝ) i) * Matrix.of ![![(1 : ℝ)], ![2]]).det := by
  rw [Matrix.det_fin_one, Matrix.mul_apply]
  simp [Matrix.mul_apply, Matrix.transpose_apply, Matrix.of_apply, Fin.sum_univ_two, Matrix.diagonal]
  norm_num

example : liftAiref 1 4 [3, 5] = some [0, 3, 5, 0, 0] ∧ liftAiref 0 1 [3, 5] = none := by decide +kernel

end Specula
