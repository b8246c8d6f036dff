import Mathlib.Tactic.Ring
import Mathlib.Tactic.Linarith
import Mathlib.Tactic.FieldSimp
import Mathlib.Tactic.Positivity
import Mathlib.Tactic.NormNum
import Mathlib.Analysis.SpecialFunctions.Trigonometric.Bounds
import Verif.Model.RoofSpot
import Verif.Props.PyrProp
/-
C98: the Zernike sensor and the double roof.
-/
namespace Specula
open Finset

/-! ### Linear phases in the focal plane -/

/-- The array of ones gives the field back. -/
theorem fpField_ident (A p : ℕ) (hp : 0 < p) (hpA : p ≤ 2 * A) (u : ℕ → ℕ → ℂ) (i j : ℕ) (hi : i < p) (hj : j < p) : fpField A p (fun _ _ => 1) u i j = u i j := by
  obtain ⟨c, hc⟩ : ∃ c, p + c = 2 * A := ⟨2 * A - p, by omega⟩
  have hm : ∀ i j, modExp p (0, 0) i j = 1 := by intro i j; unfold modExp; simp
  have hmod : modulated p u (0, 0) = u := by
    funext i j
    unfold modulated
    rw [hm, mul_one]
  have h2 := back_eq A p c hp hc (fun _ _ => 1) u (0, 0) i j
  rw [hmod] at h2
  have h3 : pyrBack p c (fun _ _ => 1) u (0, 0) i j = u i j * ph (-(((i : ℝ) + j) / (2 * (2 * A : ℕ)))) := by
    unfold pyrBack pyrFocal
    simp only [mul_one]
    have hNc : ((2 * A : ℕ) : ℂ) ≠ 0 := by exact_mod_cast (by omega : 2 * A ≠ 0)
    rw [hc, ifft2_fft2 (2 * A) (by omega) _ i j (by omega) (by omega), pow_two, mul_one_div, mul_div_cancel_left₀ _ (mul_ne_zero hNc hNc)]
    unfold pyrIn
    rw [hc]
    unfold padField
    rw [if_pos ⟨hi, hj, by omega, by omega⟩]
    dsimp only
    rw [hm, mul_one, tltF_eq p c hp, hc]
  rw [h3, mul_comm] at h2
  have hz : ph (-(((i : ℝ) + j) / (2 * (2 * A : ℕ)))) ≠ 0 := by
    intro h0
    have := ph_normSq (-(((i : ℝ) + j) / (2 * (2 * A : ℕ))))
    rw [h0] at this
    simp at this
  exact (mul_left_cancel₀ hz h2).symm

/-- A linear phase, the same wherever there is light, moves the field. -/
theorem fpField_linear (A p : ℕ) (T u : ℕ → ℕ → ℂ) (c α β : ℝ)
    (hT : ∀ k l, k < 2 * A → l < 2 * A → spectrum (2 * A) p u (freqOf A k) (freqOf A l) ≠ 0 → T k l = ph c * ph ((freqOf A k * α + freqOf A l * β) / (2 * A : ℕ))) (x y : ℝ) :
    fpField A p T u x y = ph c * fpField A p (fun _ _ => 1) u (x + α) (y + β) := by
  unfold fpField
  rw [mul_div_assoc']
  congr 1
  rw [mul_sum]
  refine sum_congr rfl fun k hk => ?_
  rw [mul_sum]
  refine sum_congr rfl fun l hl => ?_
  by_cases h : spectrum (2 * A) p u (freqOf A k) (freqOf A l) = 0
  · rw [h]; ring
  · rw [hT k l (mem_range.1 hk) (mem_range.1 hl) h,
      show (freqOf A k * (x + α) + freqOf A l * (y + β)) / (2 * A : ℕ) = (freqOf A k * α + freqOf A l * β) / (2 * A : ℕ) + (freqOf A k * x + freqOf A l * y) / (2 * A : ℕ) by ring, ph_add]
    ring

theorem fpField_swap (A p : ℕ) (T T' u u' : ℕ → ℕ → ℂ) (hT : ∀ k l, k < 2 * A → l < 2 * A → T' l k = T k l) (hu : ∀ i j, i < p → j < p → u' i j = u j i) (x y : ℝ) :
    fpField A p T' u' y x = fpField A p T u x y := by
  have hs : ∀ f g, spectrum (2 * A) p u' f g = spectrum (2 * A) p u g f := by
    intro f g
    unfold spectrum
    rw [sum_comm]
    refine sum_congr rfl fun i hi => sum_congr rfl fun j hj => ?_
    rw [hu _ _ (mem_range.1 hj) (mem_range.1 hi), add_comm]
  unfold fpField
  congr 1
  rw [sum_comm]
  refine sum_congr rfl fun k hk => sum_congr rfl fun l hl => ?_
  rw [hT k l (mem_range.1 hk) (mem_range.1 hl), hs, add_comm]

theorem modulated_swap (p : ℕ) (u : ℕ → ℕ → ℂ) (q : ℝ × ℝ) : modulated p (fun a b => u b a) (q.2, q.1) = fun a b => modulated p u q b a := by
  funext x y
  unfold modulated modExp
  dsimp only
  rw [add_comm]

/-! ### Zernike sensor -/

/-- **C98** (spot): the phase is shifted inside a disc of `radius` wavelengths over the diameter (`(p + c) / p` pixels each), centred on the axis. -/
theorem C98_spot (A p c : ℕ) (hp : 0 < p) (hN : p + c = 2 * A) (radius shift : ℝ) (hr : 0 ≤ radius) (k l : ℕ) :
    spotTlt p c radius shift k l = if (freqOf A k) ^ 2 + (freqOf A l) ^ 2 < (radius * ((2 * A : ℕ) / p)) ^ 2 then shift / 2 else 0 := by
  have hp' : (0 : ℝ) < p := by exact_mod_cast hp
  have hc : 1 + (c : ℝ) / p = (2 * A : ℕ) / p := by
    rw [← hN]; push_cast; field_simp
  have hpos : 0 ≤ radius * ((2 * A : ℕ) / (p : ℝ)) := by positivity
  unfold spotTlt
  dsimp only
  have hA : (p + c) / 2 = A := by omega
  rw [hA, hc]
  have hf : ∀ k : ℕ, (k : ℝ) - A + 0.5 = freqOf A k := by intro k; unfold freqOf; norm_num
  rw [hf, hf]
  have hiff : Real.sqrt ((freqOf A k) ^ 2 + (freqOf A l) ^ 2) < radius * ((2 * A : ℕ) / (p : ℝ)) ↔ (freqOf A k) ^ 2 + (freqOf A l) ^ 2 < (radius * ((2 * A : ℕ) / (p : ℝ))) ^ 2 := by
    rw [Real.sqrt_lt (by positivity) hpos]
  by_cases h : (freqOf A k) ^ 2 + (freqOf A l) ^ 2 < (radius * ((2 * A : ℕ) / (p : ℝ))) ^ 2
  · rw [if_pos (hiff.2 h), if_pos h]
  · rw [if_neg (fun hh => h (hiff.1 hh)), if_neg h]

open Classical in
/-- Specification: the field of the light that falls in a disc of radius `radius` λ/D. -/
noncomputable def spotField (A p : ℕ) (radius : ℝ) (u : ℕ → ℕ → ℂ) (x y : ℝ) : ℂ :=
  fpField A p (fun k l => if (freqOf A k) ^ 2 + (freqOf A l) ^ 2 < (radius * ((2 * A : ℕ) / p)) ^ 2 then 1 else 0) u x y

theorem spot_split (A p c : ℕ) (hp : 0 < p) (hN : p + c = 2 * A) (radius shift : ℝ) (hr : 0 ≤ radius) (u : ℕ → ℕ → ℂ) (x y : ℝ) :
    fpField A p (pyrExp (spotTlt p c radius shift) fun _ _ => 1) u x y = fpField A p (fun _ _ => 1) u x y + (ph (-(shift / 2)) - 1) * spotField A p radius u x y := by
  unfold spotField fpField
  rw [mul_div_assoc', ← add_div]
  congr 1
  rw [mul_sum, ← sum_add_distrib]
  refine sum_congr rfl fun k hk => ?_
  rw [mul_sum, ← sum_add_distrib]
  refine sum_congr rfl fun l hl => ?_
  have he : pyrExp (spotTlt p c radius shift) (fun _ _ => 1) k l = ph (-(spotTlt p c radius shift k l)) := by
    unfold pyrExp ph
    rw [Complex.ofReal_one, mul_one]
    congr 1
    push_cast; ring
  rw [he, C98_spot A p c hp hN radius shift hr]
  dsimp only
  split_ifs
  · ring
  · rw [neg_zero, ph_zero]; ring

theorem spot_pixel (A p e : ℕ) (hp : 0 < p) (hN : p + 2 * e = 2 * A) (radius shift : ℝ) (mask : ℕ → ℕ → ℝ) (u : ℕ → ℕ → ℂ) (i j : ℕ) :
    spotPupils p (2 * e) radius shift mask u i j =
      Complex.normSq (fpField A p (pyrExp (spotTlt p (2 * e) radius shift) mask) u ((i : ℝ) - e) ((j : ℝ) - e)) := by
  unfold spotPupils
  rw [pupils_eq A p e hp hN]
  have hmod : modulated p u (circlePoint 0 1 0) = u := by
    funext i j
    unfold modulated modExp circlePoint
    simp
  have hw : fluxFactor .circular 0 1 0 = 1 := by unfold fluxFactor; simp
  rw [sum_range_one, hmod, hw, mul_one]

/-- **C98** (interference): at each point of the pupil the wave interferes with the wave of the light in the spot, with the phase shift given. -/
theorem C98_interference (A p e : ℕ) (hN : p + 2 * e = 2 * A) (radius shift : ℝ) (hr : 0 ≤ radius) (u : ℕ → ℕ → ℂ) (i j : ℕ) (hi : i < p) (hj : j < p)
    (a φ b β : ℝ) (hu : u i j = a * Complex.exp (Complex.I * φ)) (hb : spotField A p radius u i j = b * Complex.exp (Complex.I * β)) :
    spotPupils p (2 * e) radius shift (fun _ _ => 1) u (i + e) (j + e) =
      a ^ 2 + 2 * b ^ 2 * (1 - Real.cos (Real.pi * shift)) -
        2 * a * b * ((1 - Real.cos (Real.pi * shift)) * Real.cos (φ - β) + Real.sin (Real.pi * shift) * Real.sin (φ - β)) := by
  have hp : 0 < p := by omega
  rw [spot_pixel A p e hp hN, show (((i + e : ℕ) : ℝ) - e) = i by push_cast; ring, show (((j + e : ℕ) : ℝ) - e) = j by push_cast; ring, spot_split A p (2 * e) hp hN radius shift hr,
    fpField_ident A p hp (by omega) u i j hi hj, hu, hb]
  have key : ∀ x : ℝ, Complex.exp (Complex.I * x) = (Real.cos x : ℂ) + (Real.sin x : ℂ) * Complex.I := by
    intro x
    rw [mul_comm, Complex.exp_mul_I, Complex.ofReal_cos, Complex.ofReal_sin]
  have hph : ph (-(shift / 2)) = (Real.cos (Real.pi * shift) : ℂ) - (Real.sin (Real.pi * shift) : ℂ) * Complex.I := by
    unfold ph
    rw [show 2 * (Real.pi : ℂ) * Complex.I * ((-(shift / 2) : ℝ) : ℂ) = Complex.I * ((-(Real.pi * shift) : ℝ) : ℂ) by push_cast; ring, key, Real.cos_neg, Real.sin_neg]
    push_cast; ring
  rw [key, key, hph, Real.cos_sub, Real.sin_sub]
  have h1 := Real.sin_sq_add_cos_sq φ
  have h2 := Real.sin_sq_add_cos_sq β
  have h3 := Real.sin_sq_add_cos_sq (Real.pi * shift)
  generalize Real.cos φ = cφ at *
  generalize Real.sin φ = sφ at *
  generalize Real.cos β = cβ at *
  generalize Real.sin β = sβ at *
  generalize Real.cos (Real.pi * shift) = ct at *
  generalize Real.sin (Real.pi * shift) = st at *
  rw [Complex.normSq_apply]
  simp only [Complex.add_re, Complex.add_im, Complex.mul_re, Complex.mul_im, Complex.sub_re, Complex.sub_im, Complex.ofReal_re, Complex.ofReal_im, Complex.I_re, Complex.I_im, Complex.one_re,
    Complex.one_im]
  linear_combination (a ^ 2) * h1 + (b ^ 2 * ((ct - 1) ^ 2 + st ^ 2)) * h2 + b ^ 2 * h3

/-- **C98** (quarter of a wave): with the default shift of half π the intensity decreases with the phase of the pupil, from `β - 3π/4` to `β + π/4`. -/
theorem C98_monotone (A p e : ℕ) (hN : p + 2 * e = 2 * A) (radius : ℝ) (hr : 0 ≤ radius) (u v : ℕ → ℕ → ℂ) (i j i' j' : ℕ) (hi : i < p) (hj : j < p) (hi' : i' < p) (hj' : j' < p)
    (a φ φ' b β : ℝ) (ha : 0 < a) (hb0 : 0 < b) (hu : u i j = a * Complex.exp (Complex.I * φ)) (hb : spotField A p radius u i j = b * Complex.exp (Complex.I * β))
    (hv : v i' j' = a * Complex.exp (Complex.I * φ')) (hb' : spotField A p radius v i' j' = b * Complex.exp (Complex.I * β))
    (hlo : β - 3 * Real.pi / 4 ≤ φ) (hlt : φ < φ') (hhi : φ' ≤ β + Real.pi / 4) :
    spotPupils p (2 * e) radius (1 / 2) (fun _ _ => 1) v (i' + e) (j' + e) < spotPupils p (2 * e) radius (1 / 2) (fun _ _ => 1) u (i + e) (j + e) := by
  rw [C98_interference A p e hN radius _ hr u i j hi hj a φ b β hu hb, C98_interference A p e hN radius _ hr v i' j' hi' hj' a φ' b β hv hb',
    show Real.pi * (1 / 2) = Real.pi / 2 by ring, Real.cos_pi_div_two, Real.sin_pi_div_two]
  have hsum : ∀ x : ℝ, Real.cos x + Real.sin x = Real.sqrt 2 * Real.cos (Real.pi / 4 - x) := by
    intro x
    rw [Real.cos_sub, Real.cos_pi_div_four, Real.sin_pi_div_four]
    have := Real.mul_self_sqrt (show (0 : ℝ) ≤ 2 by norm_num)
    linear_combination (-(Real.cos x + Real.sin x) / 2) * this
  have hc : Real.cos (Real.pi / 4 - (φ - β)) < Real.cos (Real.pi / 4 - (φ' - β)) :=
    Real.cos_lt_cos_of_nonneg_of_le_pi (by linarith) (by linarith) (by linarith)
  have h2 : 0 < Real.sqrt 2 := by positivity
  have hs : Real.cos (φ - β) + Real.sin (φ - β) < Real.cos (φ' - β) + Real.sin (φ' - β) := by
    rw [hsum, hsum]; exact mul_lt_mul_of_pos_left hc h2
  have hab : 0 < a * b := mul_pos ha hb0
  nlinarith

/-- **C98** (whole waves): a shift of an even number of π leaves the image of the pupil. -/
theorem C98_no_shift (A p e : ℕ) (hN : p + 2 * e = 2 * A) (radius : ℝ) (hr : 0 ≤ radius) (n : ℤ) (u : ℕ → ℕ → ℂ) (i j : ℕ) (hi : i < p) (hj : j < p) :
    spotPupils p (2 * e) radius (2 * n) (fun _ _ => 1) u (i + e) (j + e) = Complex.normSq (u i j) := by
  have hp : 0 < p := by omega
  rw [spot_pixel A p e hp hN, show (((i + e : ℕ) : ℝ) - e) = i by push_cast; ring, show (((j + e : ℕ) : ℝ) - e) = j by push_cast; ring, spot_split A p (2 * e) hp hN radius _ hr,
    fpField_ident A p hp (by omega) u i j hi hj, show -(2 * (n : ℝ) / 2) = ((-n : ℤ) : ℝ) by push_cast; ring, ph_int, sub_self, zero_mul, add_zero]

/-- **C98** (light): the light on the detector of the Zernike sensor is the light that passes the field stop. -/
theorem C98_spot_light (A p e : ℕ) (hp : 0 < p) (hN : p + 2 * e = 2 * A) (radius shift : ℝ) (mask : ℕ → ℕ → ℝ) (hmask : ∀ k l, mask k l = 0 ∨ mask k l = 1) (u : ℕ → ℕ → ℂ)
    (hu : ∑ i ∈ range p, ∑ j ∈ range p, Complex.normSq (u i j) ≠ 0) :
    ∑ i ∈ range (2 * A), ∑ j ∈ range (2 * A), spotPupils p (2 * e) radius shift mask u i j =
      pyrThrough p (2 * e) mask u 1 (fun _ => (0, 0)) (fun _ => 1) * ∑ i ∈ range p, ∑ j ∈ range p, Complex.normSq (u i j) := by
  have hpt : ∀ t ∈ range 1, circlePoint 0 1 t = (0, 0) := by intro t _; unfold circlePoint; simp
  have h := C97_energy A p e hp hN (spotTlt p (2 * e) radius shift) mask hmask u 1 (fun _ => (0, 0)) (fun _ => 1) (by simp) hu
  rw [sum_range_one, mul_one] at h
  rw [← h]
  refine sum_congr rfl fun i _ => sum_congr rfl fun j _ => ?_
  unfold spotPupils pyrPupils pyrImage
  rw [sum_range_one, sum_range_one, hpt 0 (by simp)]
  congr 1

/-- **C98** (symmetry): a wavefront reflected in the rows, or transposed, gives the image reflected or transposed. -/
theorem C98_spot_symmetry (A p e : ℕ) (hp : 2 ≤ p) (hN : p + 2 * e = 2 * A) (radius shift : ℝ) (hr : 0 ≤ radius) (mask : ℕ → ℕ → ℝ) (hm : SquareSym A mask) (u : ℕ → ℕ → ℂ) (i j : ℕ) :
    (i < 2 * A → spotPupils p (2 * e) radius shift mask (fun a b => u (revIdx p a) b) (revIdx (2 * A) i) j = spotPupils p (2 * e) radius shift mask u i j) ∧
      spotPupils p (2 * e) radius shift mask (fun a b => u b a) j i = spotPupils p (2 * e) radius shift mask u i j := by
  have hp0 : 0 < p := by omega
  have hmod : ∀ u : ℕ → ℕ → ℂ, modulated p u (0, 0) = u := by
    intro u
    funext i j
    unfold modulated modExp
    simp
  constructor
  · intro hi
    rw [spot_pixel A p e hp0 hN, spot_pixel A p e hp0 hN]
    have h := mirror_step A p e hp hN (pyrExp (spotTlt p (2 * e) radius shift) mask) u (fun a b => u (revIdx p a) b) (fun k l hk => by
      unfold pyrExp
      rw [C98_spot A p (2 * e) hp0 hN radius shift hr, C98_spot A p (2 * e) hp0 hN radius shift hr, freqOf_rev A k hk, neg_sq, hm.rows k l hk]) (fun _ _ _ _ => rfl) (0, 0) i j hi
    simp only [neg_zero] at h
    rw [hmod, hmod] at h
    rw [h]
  · rw [spot_pixel A p e hp0 hN, spot_pixel A p e hp0 hN]
    rw [fpField_transpose A p (pyrExp (spotTlt p (2 * e) radius shift) mask) u (fun a b => u b a) (fun k l => by
      unfold pyrExp
      rw [C98_spot A p (2 * e) hp0 hN radius shift hr, C98_spot A p (2 * e) hp0 hN radius shift hr, hm.diag k l, add_comm]) (fun _ _ _ _ => rfl)]

/-! ### Double roof -/

theorem roofBase_eq (A y x : ℕ) : roofBase A y x = -(faceSign (decide (x < A)) * freqOf A x) - 1 / 2 := by
  unfold roofBase faceSign freqOf
  by_cases h : x < A
  · simp only [h, if_true, decide_true]; ring
  · simp only [h, if_false, decide_false]; simp

theorem roofMemory_eq (A k l : ℕ) : roofMemory A k l = -(freqOf A k + faceSign (decide (l < A)) * freqOf A l) + ((A : ℝ) - 2) := by
  unfold roofMemory addThroughView
  dsimp only
  rw [roofBase_eq]
  unfold freqOf
  norm_num
  ring

theorem roof2_eq (A : ℕ) (scale : ℝ) (k l : ℕ) (hk : k < 2 * A) : roof2Tlt A scale k l = roof1Tlt A scale l k := by
  unfold roof2Tlt roof1Tlt rot90
  rw [roofMemory_eq, roofMemory_eq]
  have h : faceSign (decide (2 * A - 1 - k < A)) * freqOf A (2 * A - 1 - k) = faceSign (decide (k < A)) * freqOf A k := by
    have := freqOf_rev A k hk
    unfold revIdx at this
    rw [this]
    unfold faceSign
    by_cases h : k < A
    · have h' : ¬ (2 * A - 1 - k < A) := by omega
      simp [h, h']
    · have h' : 2 * A - 1 - k < A := by omega
      simp [h, h']
  rw [h]

theorem roofExp_eq (A : ℕ) (hA : 0 < A) (scale : ℝ) (hs : scale ≠ 0) (mask : ℕ → ℕ → ℝ) (k l : ℕ) : pyrExp (roof1Tlt A scale) mask k l =
    ph (-(((A : ℝ) - 2) / scale)) * ph ((freqOf A k * ((2 * A : ℕ) / scale) + freqOf A l * (faceSign (decide (l < A)) * ((2 * A : ℕ) / scale))) / (2 * A : ℕ)) * (mask k l : ℂ) := by
  have hN : ((2 * A : ℕ) : ℝ) ≠ 0 := by exact_mod_cast (by omega : 2 * A ≠ 0)
  unfold pyrExp roof1Tlt
  rw [roofMemory_eq, ← ph_add]
  congr 1
  unfold ph
  congr 1
  rw [show -(2 * (Real.pi : ℂ) * Complex.I * (((-(freqOf A k + faceSign (decide (l < A)) * freqOf A l) + ((A : ℝ) - 2)) / scale : ℝ) : ℂ)) =
    2 * (Real.pi : ℂ) * Complex.I * ((-((-(freqOf A k + faceSign (decide (l < A)) * freqOf A l) + ((A : ℝ) - 2)) / scale) : ℝ) : ℂ) by push_cast; ring]
  congr 2
  field_simp
  ring

/-- Specification: the field of the light on one side of the edge of the first roof. -/
noncomputable def halfField (A p : ℕ) (mask : ℕ → ℕ → ℝ) (u : ℕ → ℕ → ℂ) (left : Bool) (x y : ℝ) : ℂ :=
  fpField A p (fun k l => if decide (l < A) = left then (mask k l : ℂ) else 0) u x y

/-- **C98** (roof): the light on either side of the edge of the first roof makes an image of the pupil, moved up by `(p + c) / scale` and to its own side by as much. -/
theorem C98_roof (A p : ℕ) (hA : 0 < A) (scale : ℝ) (hs : scale ≠ 0) (mask : ℕ → ℕ → ℝ) (u : ℕ → ℕ → ℂ) (x y : ℝ) :
    Complex.normSq (fpField A p (pyrExp (roof1Tlt A scale) mask) u x y) =
      Complex.normSq (halfField A p mask u true (x + (2 * A : ℕ) / scale) (y + (2 * A : ℕ) / scale) + halfField A p mask u false (x + (2 * A : ℕ) / scale) (y - (2 * A : ℕ) / scale)) := by
  have key : fpField A p (pyrExp (roof1Tlt A scale) mask) u x y = ph (-(((A : ℝ) - 2) / scale)) *
      (halfField A p mask u true (x + (2 * A : ℕ) / scale) (y + (2 * A : ℕ) / scale) + halfField A p mask u false (x + (2 * A : ℕ) / scale) (y - (2 * A : ℕ) / scale)) := by
    unfold halfField fpField
    rw [← add_div, mul_div_assoc']
    congr 1
    rw [← sum_add_distrib, mul_sum]
    refine sum_congr rfl fun k hk => ?_
    rw [← sum_add_distrib, mul_sum]
    refine sum_congr rfl fun l hl => ?_
    dsimp only
    rw [roofExp_eq A hA scale hs]
    unfold faceSign
    by_cases h : l < A
    · simp only [h, decide_true, if_true]
      rw [show (freqOf A k * (x + (2 * A : ℕ) / scale) + freqOf A l * (y + (2 * A : ℕ) / scale)) / (2 * A : ℕ) =
        (freqOf A k * ((2 * A : ℕ) / scale) + freqOf A l * (1 * ((2 * A : ℕ) / scale))) / (2 * A : ℕ) + (freqOf A k * x + freqOf A l * y) / (2 * A : ℕ) by ring, ph_add]
      simp
      ring
    · simp only [h, decide_false]
      rw [show (freqOf A k * (x + (2 * A : ℕ) / scale) + freqOf A l * (y - (2 * A : ℕ) / scale)) / (2 * A : ℕ) =
        (freqOf A k * ((2 * A : ℕ) / scale) + freqOf A l * (-1 * ((2 * A : ℕ) / scale))) / (2 * A : ℕ) + (freqOf A k * x + freqOf A l * y) / (2 * A : ℕ) by ring, ph_add]
      simp
      ring
  rw [key, map_mul, ph_normSq, one_mul]

/-- **C98** (both roofs): the second image is that of the first roof for the transposed pupil, upside down; so the lower pupils are turned by a right angle. -/
theorem C98_combined (A p e : ℕ) (hp : 0 < p) (hN : p + 2 * e = 2 * A) (scale : ℝ) (mask : ℕ → ℕ → ℝ) (hm : ∀ k l, mask l k = mask k l) (u : ℕ → ℕ → ℂ) (m : ℕ) (pts : ℕ → ℝ × ℝ) (w : ℕ → ℝ)
    (i j : ℕ) :
    roofPupils p (2 * e) scale mask u m pts w i j =
      pyrPupils p (2 * e) (pyrExp (roof1Tlt A scale) mask) u m pts w i j +
        pyrPupils p (2 * e) (pyrExp (roof1Tlt A scale) mask) (fun a b => u b a) m (fun t => ((pts t).2, (pts t).1)) w (revIdx (2 * A) i) j := by
  unfold roofPupils
  dsimp only
  rw [show (p + 2 * e) / 2 = A by omega]
  refine congrArg (_ + ·) ?_
  unfold rot90
  rw [pupils_eq A p e hp hN, pupils_eq A p e hp hN, hN]
  refine sum_congr rfl fun t _ => ?_
  rw [modulated_swap, ← fpField_swap A p (pyrExp (roof2Tlt A scale) mask) (pyrExp (roof1Tlt A scale) mask) (modulated p u (pts t)) (fun a b => modulated p u (pts t) b a)]
  · unfold revIdx
    rfl
  · intro k l hk hl
    unfold pyrExp
    rw [roof2_eq A scale k l hk, hm k l]
  · intro a b ha hb
    rfl

/-- Image of the pupil on an array of side `n`, at an offset with wrap-around. -/
theorem roof_half (A p e d : ℕ) (hp : 0 < p) (hN : p + 2 * e = 2 * A) (scale : ℝ) (hs : scale ≠ 0) (hd : (d : ℝ) * scale = (2 * A : ℕ)) (u : ℕ → ℕ → ℂ) (left : Bool)
    (h : ∀ k l, k < 2 * A → l < 2 * A → ¬(decide (l < A) = left) → spectrum (2 * A) p u (freqOf A k) (freqOf A l) = 0) (a b i j : ℕ) (hi : i < 2 * A) (hj : j < 2 * A)
    (ha : ∃ t : ℤ, (a : ℤ) = e + i - d + (2 * A : ℕ) * t) (hb : ∃ t : ℤ, (b : ℤ) = e + j - (if left then (d : ℤ) else -d) + (2 * A : ℕ) * t) :
    Complex.normSq (fpField A p (pyrExp (roof1Tlt A scale) fun _ _ => 1) u ((a : ℝ) - e) ((b : ℝ) - e)) = Complex.normSq (padField (2 * A) p p u i j) := by
  have hA : 0 < A := by omega
  have hdd : ((2 * A : ℕ) : ℝ) / scale = d := by rw [← hd]; field_simp
  obtain ⟨s, hs'⟩ := ha
  obtain ⟨r, hr'⟩ := hb
  rw [fpField_linear A p _ u (-(((A : ℝ) - 2) / scale)) d (faceSign left * d) ?_]
  · rw [map_mul, ph_normSq, one_mul]
    have e1 : (a : ℝ) - e + d = i + (2 * A : ℕ) * s := by
      have := congrArg (fun z : ℤ => (z : ℝ)) hs'
      push_cast at this ⊢
      linarith
    have e2 : (b : ℝ) - e + faceSign left * d = j + (2 * A : ℕ) * r := by
      have := congrArg (fun z : ℤ => (z : ℝ)) hr'
      unfold faceSign
      cases left
      · simp at this ⊢; linarith
      · simp at this ⊢; linarith
    rw [e1, e2, fpField_period A p hA]
    exact fpField_one A p hp (by omega) (by omega) _ u (fun _ _ _ _ => mul_one _) i j hi hj
  · intro k l hk hl hne
    have hl' : decide (l < A) = left := by
      by_contra hh
      exact hne (h k l hk hl hh)
    rw [roofExp_eq A hA scale hs, hdd, hl', Complex.ofReal_one, mul_one]

/-- **C98** (quadrant): light in one quadrant of the focal plane lights two of the four pupils: one of the upper pair, on the side given by the columns, upright, and one
of the lower pair, on the side given by the rows, turned by a right angle. -/
theorem C98_quadrant (A p e d : ℕ) (hp : 0 < p) (hN : p + 2 * e = 2 * A) (scale : ℝ) (hs : scale ≠ 0) (hd : (d : ℝ) * scale = (2 * A : ℕ)) (u : ℕ → ℕ → ℂ) (pts : ℕ → ℝ × ℝ) (w : ℕ → ℝ)
    (top left : Bool)
    (h : ∀ k l, k < 2 * A → l < 2 * A → ¬(decide (k < A) = top ∧ decide (l < A) = left) → pyrFocal p (2 * e) u (pts 0) ((k + A) % (2 * A)) ((l + A) % (2 * A)) = 0)
    (a b i j i' j' : ℕ) (ha : a < 2 * A) (hi : i < 2 * A) (hj : j < 2 * A) (hi' : i' < 2 * A) (hj' : j' < 2 * A)
    (hai : ∃ t : ℤ, (a : ℤ) = e + i - d + (2 * A : ℕ) * t) (hbj : ∃ t : ℤ, (b : ℤ) = e + j - (if left then (d : ℤ) else -d) + (2 * A : ℕ) * t)
    (haj : ∃ t : ℤ, (a : ℤ) = e + ((p : ℤ) - 1 - j') + d + (2 * A : ℕ) * t) (hbi : ∃ t : ℤ, (b : ℤ) = e + i' - (if top then (d : ℤ) else -d) + (2 * A : ℕ) * t) :
    roofPupils p (2 * e) scale (fun _ _ => 1) u 1 pts w a b =
      (Complex.normSq (padField (2 * A) p p u i j) + Complex.normSq (padField (2 * A) p p u i' j')) * w 0 := by
  have hspec : ∀ k l, k < 2 * A → l < 2 * A → ¬(decide (k < A) = top ∧ decide (l < A) = left) → spectrum (2 * A) p (modulated p u (pts 0)) (freqOf A k) (freqOf A l) = 0 := by
    intro k l hk hl hh
    rw [← focal_eq A p (2 * e) hp hN]
    exact h k l hk hl hh
  rw [C98_combined A p e hp hN scale _ (fun _ _ => rfl) u 1 pts w a b, pupils_eq A p e hp hN, pupils_eq A p e hp hN, sum_range_one, sum_range_one, add_mul]
  congr 2
  · rw [roof_half A p e d hp hN scale hs hd _ left (fun k l hk hl hh => hspec k l hk hl (fun h2 => hh h2.2)) a b i j hi hj hai hbj, modulated_pad]
  · have hsw := modulated_swap p u (pts 0)
    have hsp : ∀ f g, spectrum (2 * A) p (fun a b => modulated p u (pts 0) b a) f g = spectrum (2 * A) p (modulated p u (pts 0)) g f := by
      intro f g
      unfold spectrum
      rw [sum_comm]
      refine sum_congr rfl fun x _ => sum_congr rfl fun y _ => ?_
      rw [add_comm]
    rw [hsw, roof_half A p e d hp hN scale hs hd _ top (fun k l hk hl hh => by rw [hsp]; exact hspec l k hl hk (fun h2 => hh h2.1)) (revIdx (2 * A) a) b j' i' hj' hi' ?_ hbi]
    · rw [← modulated_pad (2 * A) p u (pts 0) i' j']
      unfold padField
      congr 1
      by_cases h1 : i' < p ∧ j' < p ∧ i' < 2 * A ∧ j' < 2 * A
      · rw [if_pos h1, if_pos ⟨h1.2.1, h1.1, h1.2.2.2, h1.2.2.1⟩]
      · rw [if_neg h1, if_neg (fun hh => h1 ⟨hh.2.1, hh.1, hh.2.2.2, hh.2.2.1⟩)]
    · obtain ⟨t, ht⟩ := haj
      refine ⟨-t, ?_⟩
      unfold revIdx
      have hNz : (p : ℤ) + 2 * e = ((2 * A : ℕ) : ℤ) := by exact_mod_cast hN
      have hc : ((2 * A - 1 - a : ℕ) : ℤ) = ((2 * A : ℕ) : ℤ) - 1 - a := by omega
      rw [hc, ht]
      linear_combination -hNz

/-- **C98** (focal plane): the image of the focal plane of the double roof is twice that of the pyramid; the transmission is the same. -/
theorem C98_roof_psf (p c : ℕ) (mask : ℕ → ℕ → ℝ) (u : ℕ → ℕ → ℂ) (m : ℕ) (pts : ℕ → ℝ × ℝ) (w : ℕ → ℝ) :
    (∀ k l, (roofPsf p c u m pts w).px k l = 2 * (pyrPsf p c u m pts w).px k l) ∧ roofThrough p c mask u m pts w = pyrThrough p c mask u m pts w := by
  have h1 : ∀ k l, (roofPsf p c u m pts w).px k l = 2 * (pyrPsf p c u m pts w).px k l := by
    intro k l
    unfold roofPsf pyrPsf accumulate
    dsimp only
    rw [← mul_assoc, mul_sum]
    congr 1
    exact sum_congr rfl fun t _ => by ring
  refine ⟨h1, ?_⟩
  unfold roofThrough pyrThrough pyrTransmission Img.total
  simp only [h1, mul_assoc, ← mul_sum]
  exact mul_div_mul_left _ _ two_ne_zero

/-- **C98** (light of the roofs): the four pupils together hold twice the light that passes the field stop. -/
theorem C98_roof_light (A p e : ℕ) (hp : 0 < p) (hN : p + 2 * e = 2 * A) (scale : ℝ) (mask : ℕ → ℕ → ℝ) (hmask : ∀ k l, mask k l = 0 ∨ mask k l = 1) (u : ℕ → ℕ → ℂ) (m : ℕ) (pts : ℕ → ℝ × ℝ)
    (w : ℕ → ℝ) (hw : ∑ t ∈ range m, w t ≠ 0) (hu : ∑ i ∈ range p, ∑ j ∈ range p, Complex.normSq (u i j) ≠ 0) :
    ∑ i ∈ range (2 * A), ∑ j ∈ range (2 * A), roofPupils p (2 * e) scale mask u m pts w i j =
      2 * (roofThrough p (2 * e) mask u m pts w * (∑ i ∈ range p, ∑ j ∈ range p, Complex.normSq (u i j)) * ∑ t ∈ range m, w t) := by
  unfold roofPupils
  dsimp only
  simp only [sum_add_distrib]
  rw [C97_energy A p e hp hN _ mask hmask u m pts w hw hu, (C98_roof_psf p (2 * e) mask u m pts w).2, two_mul (_ * _)]
  congr 1
  rw [← C97_energy A p e hp hN (roof2Tlt ((p + 2 * e) / 2) scale) mask hmask u m pts w hw hu, hN, sum_comm]
  unfold rot90
  refine sum_congr rfl fun j _ => ?_
  exact sum_rev (2 * A) fun i => pyrPupils p (2 * e) (pyrExp (roof2Tlt (2 * A / 2) scale) mask) u m pts w j i

/-! ### Cases -/

theorem fpField_add (A p : ℕ) (T u v : ℕ → ℕ → ℂ) (z z' : ℂ) (x y : ℝ) : fpField A p T (fun i j => z * u i j + z' * v i j) x y = z * fpField A p T u x y + z' * fpField A p T v x y := by
  have hs : ∀ f g, spectrum (2 * A) p (fun i j => z * u i j + z' * v i j) f g = z * spectrum (2 * A) p u f g + z' * spectrum (2 * A) p v f g := by
    intro f g
    unfold spectrum
    simp only [add_mul, sum_add_distrib, mul_sum, mul_assoc]
  unfold fpField
  simp only [hs]
  rw [mul_div_assoc', mul_div_assoc', ← add_div]
  congr 1
  simp only [mul_sum, ← sum_add_distrib]
  exact sum_congr rfl fun k _ => sum_congr rfl fun l _ => by ring

theorem fpField_wave (A : ℕ) (hA : 0 < A) (T : ℕ → ℕ → ℂ) (a b : ℕ) (ha : a < 2 * A) (hb : b < 2 * A) (i j : ℕ) : fpField A (2 * A) T (tiltWave A a b) i j = T a b * tiltWave A a b i j := by
  have hN : ((2 * A : ℕ) : ℂ) ≠ 0 := by exact_mod_cast (by omega : 2 * A ≠ 0)
  unfold fpField
  rw [sum_eq_single_of_mem a (mem_range.2 ha), sum_eq_single_of_mem b (mem_range.2 hb)]
  · rw [tiltWave_spectrum A hA a b a b ha hb ha hb, if_pos ⟨rfl, rfl⟩]
    unfold tiltWave
    field_simp
  · intro l hl hne
    rw [tiltWave_spectrum A hA a b a l ha hb ha (mem_range.1 hl), if_neg (fun h => hne h.2)]; ring
  · intro k hk hne
    refine sum_eq_zero fun l hl => ?_
    rw [tiltWave_spectrum A hA a b k l ha hb (mem_range.1 hk) (mem_range.1 hl), if_neg (fun h => hne h.1)]; ring

/-- Two waves, one through the spot and one outside it: with the shift of half π the first is turned by a quarter of a wave.  In phase quadrature they cancel. -/
example : spotPupils 4 0 1 (1 / 2) (fun _ _ => 1) (fun i j => 1 * tiltWave 2 2 2 i j + Complex.I * tiltWave 2 3 3 i j) 0 0 = 0 := by
  have h := spot_pixel 2 4 0 (by norm_num) rfl 1 (1 / 2) (fun _ _ => 1) (fun i j => 1 * tiltWave 2 2 2 i j + Complex.I * tiltWave 2 3 3 i j) 0 0
  rw [show 2 * 0 = 0 from rfl] at h
  rw [h, show (((0 : ℕ) : ℝ) - ((0 : ℕ) : ℝ)) = ((0 : ℕ) : ℝ) by simp, fpField_add, show (4 : ℕ) = 2 * 2 from rfl, fpField_wave 2 (by norm_num) _ 2 2 (by norm_num) (by norm_num),
    fpField_wave 2 (by norm_num) _ 3 3 (by norm_num) (by norm_num)]
  have h1 : spotTlt (2 * 2) 0 1 (1 / 2) 2 2 = 1 / 4 := by
    rw [C98_spot 2 (2 * 2) 0 (by norm_num) rfl 1 _ (by norm_num), if_pos]
    · norm_num
    · unfold freqOf; norm_num
  have h2 : spotTlt (2 * 2) 0 1 (1 / 2) 3 3 = 0 := by
    rw [C98_spot 2 (2 * 2) 0 (by norm_num) rfl 1 _ (by norm_num), if_neg]
    unfold freqOf; norm_num
  unfold pyrExp
  rw [h1, h2]
  have h3 : Complex.exp (-(2 * Real.pi * Complex.I * ((1 / 4 : ℝ) : ℂ))) = -Complex.I := by
    rw [show -(2 * (Real.pi : ℂ) * Complex.I * ((1 / 4 : ℝ) : ℂ)) = -((Real.pi : ℂ) / 2 * Complex.I) by push_cast; ring, Complex.exp_neg, Complex.exp_pi_div_two_mul_I, Complex.inv_I]
  rw [h3]
  have h4 : ∀ a b, tiltWave 2 a b 0 0 = 1 := by intro a b; unfold tiltWave; simp [ph_zero]
  rw [h4, h4]
  simp

/-- The field of the light in the spot, in the case above: the wave inside the disc. -/
example (i j : ℕ) : spotField 2 4 1 (fun i j => 1 * tiltWave 2 2 2 i j + Complex.I * tiltWave 2 3 3 i j) i j = tiltWave 2 2 2 i j := by
  unfold spotField
  rw [fpField_add, show (4 : ℕ) = 2 * 2 from rfl, fpField_wave 2 (by norm_num) _ 2 2 (by norm_num) (by norm_num), fpField_wave 2 (by norm_num) _ 3 3 (by norm_num) (by norm_num)]
  rw [if_pos (by unfold freqOf; norm_num), if_neg (by unfold freqOf; norm_num)]
  ring

/-- A wave over the whole array falls in one quadrant, so two pupils, each with all of its light: the hypotheses of `C98_quadrant` hold. -/
theorem C98_wave (A d a b : ℕ) (scale : ℝ) (hd : (d : ℝ) * scale = (2 * A : ℕ)) (ha : a < 2 * A) (hb : b < 2 * A) (i j : ℕ) (hi : i < 2 * A) :
    roofPupils (2 * A) 0 scale (fun _ _ => 1) (tiltWave A a b) 1 (fun _ => (0, 0)) (fun _ => 1) i j = 2 := by
  have hA : 0 < A := by omega
  have hs : scale ≠ 0 := by
    intro h
    rw [h, mul_zero] at hd
    have : (2 * A : ℕ) = 0 := by exact_mod_cast hd.symm
    omega
  have hmod : modulated (2 * A) (tiltWave A a b) (0, 0) = tiltWave A a b := by
    funext i j
    unfold modulated modExp
    simp
  have rep : ∀ x : ℤ, ∃ n < 2 * A, ∃ t : ℤ, x = n + (2 * A : ℕ) * t := by
    intro x
    have hpos : (0 : ℤ) < ((2 * A : ℕ) : ℤ) := by exact_mod_cast (by omega : 0 < 2 * A)
    have h0 := Int.emod_nonneg x hpos.ne'
    have h1 := Int.emod_lt_of_pos x hpos
    refine ⟨(x % ((2 * A : ℕ) : ℤ)).toNat, by omega, x / ((2 * A : ℕ) : ℤ), ?_⟩
    rw [Int.toNat_of_nonneg h0]
    exact (Int.emod_add_mul_ediv x _).symm
  obtain ⟨x1, hx1, t1, ht1⟩ := rep (i + d)
  obtain ⟨y1, hy1, s1, hs1⟩ := rep (j + (if decide (b < A) then (d : ℤ) else -d))
  obtain ⟨y2, hy2, t2, ht2⟩ := rep (((2 * A : ℕ) : ℤ) - 1 + d - i)
  obtain ⟨x2, hx2, s2, hs2⟩ := rep (j + (if decide (a < A) then (d : ℤ) else -d))
  have := C98_quadrant A (2 * A) 0 d (by omega) (by omega) scale hs hd (tiltWave A a b) (fun _ => (0, 0)) (fun _ => 1) (decide (a < A)) (decide (b < A)) (by
    intro k l hk hl hkl
    rw [focal_eq A (2 * A) (2 * 0) (by omega) (by omega), hmod, tiltWave_spectrum A hA a b k l ha hb hk hl, if_neg]
    rintro ⟨rfl, rfl⟩
    exact hkl ⟨rfl, rfl⟩) i j x1 y1 x2 y2 hi hx1 hy1 hx2 hy2 ⟨t1, by push_cast at *; linarith⟩ ⟨s1, by push_cast at *; linarith⟩ ⟨-t2, by push_cast at *; linarith⟩ ⟨s2, by push_cast at *; linarith⟩
  rw [mul_zero] at this
  rw [this]
  unfold padField
  rw [if_pos ⟨hx1, hy1, hx1, hy1⟩, if_pos ⟨hx2, hy2, hx2, hy2⟩]
  unfold tiltWave
  rw [ph_normSq, ph_normSq]
  norm_num

end Specula
