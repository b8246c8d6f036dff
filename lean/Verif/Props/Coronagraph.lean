import Mathlib.Tactic.Ring
import Mathlib.Tactic.FieldSimp
import Mathlib.Tactic.Linarith
import Mathlib.Tactic.NormNum
import Mathlib.Tactic.Positivity
import Verif.Model.Coronagraph
import Verif.Props.Fresnel
import Verif.Props.Resample

/-!
# C88: coronagraphs and focal plane filters
-/

namespace Specula
open Finset

theorem twiddle_double (n : ℕ) (hn : 0 < n) (a : ℤ) : twiddle n a = twiddle (2 * n) (2 * a) := by
  have : (n : ℂ) ≠ 0 := by exact_mod_cast hn.ne'
  unfold twiddle
  congr 1
  push_cast
  field_simp

theorem coroShift_eq (n : ℕ) (hn : 0 < n) (i j : ℕ) : coroShift n false i j = twiddle (2 * n) ((i : ℤ) + j) := by
  have hr : (n : ℝ) ≠ 0 := by exact_mod_cast hn.ne'
  have hc : (n : ℂ) ≠ 0 := by exact_mod_cast hn.ne'
  unfold coroShift subpixelPhase twiddle quarterXY
  have e2 : (2 * n) / 2 = n := by omega
  have e3 : (2 * n) % 2 = 0 := by omega
  simp only [Bool.false_eq_true, if_false, e2, e3, if_true]
  congr 1
  push_cast
  field_simp
  ring

theorem twiddle_normSq (n : ℕ) (a : ℤ) : Complex.normSq (twiddle n a) = 1 := by
  have h : twiddle n a * (starRingEnd ℂ) (twiddle n a) = 1 := by
    rw [twiddle_conj, ← twiddle_add, add_neg_cancel, twiddle_zero]
  rw [Complex.mul_conj] at h
  exact_mod_cast h

theorem coroShift_normSq (n : ℕ) (hn : 0 < n) (b : Bool) (i j : ℕ) : Complex.normSq (coroShift n b i j) = 1 := by
  cases b
  · rw [coroShift_eq n hn, twiddle_normSq]
  · simp [coroShift]

theorem sum_at {M : Type} [AddCommMonoid M] (n s p : ℕ) (h : s + p ≤ n) (f : ℕ → M) :
    ∑ i ∈ range n, (if s ≤ i ∧ i < s + p then f i else 0) = ∑ i ∈ range p, f (s + i) := by
  rw [← sum_filter]
  symm
  refine sum_nbij' (fun i => s + i) (fun i => i - s) ?_ ?_ ?_ ?_ ?_
  · intro i hi
    simp only [mem_range, mem_filter] at hi ⊢
    omega
  · intro i hi
    simp only [mem_range, mem_filter] at hi ⊢
    omega
  · intro i hi; simp
  · intro i hi
    simp only [mem_range, mem_filter] at hi ⊢
    omega
  · intro i _; rfl

theorem sum_padAt {M : Type} [AddCommMonoid M] (n s p : ℕ) (h : s + p ≤ n) (u : ℕ → ℕ → ℂ) (g : ℂ → ℕ → ℕ → M) (g0 : ∀ i j, g 0 i j = 0) :
    ∑ i ∈ range n, ∑ j ∈ range n, g (padAt s p u i j) i j = ∑ i ∈ range p, ∑ j ∈ range p, g (u i j) (s + i) (s + j) := by
  have h1 : ∀ i, ∑ j ∈ range n, g (padAt s p u i j) i j = if s ≤ i ∧ i < s + p then ∑ j ∈ range p, g (u (i - s) j) i (s + j) else 0 := by
    intro i
    split_ifs with hi
    · have e : ∑ j ∈ range p, g (u (i - s) j) i (s + j) = ∑ j ∈ range p, (fun x => g (u (i - s) (x - s)) i x) (s + j) := by simp
      rw [e, ← sum_at n s p h (fun x => g (u (i - s) (x - s)) i x)]
      refine sum_congr rfl (fun j _ => ?_)
      unfold padAt
      simp only [hi.1, hi.2, true_and]
      split_ifs
      · rfl
      · exact g0 i j
    · refine sum_eq_zero (fun j _ => ?_)
      unfold padAt
      rw [if_neg (fun hc => hi ⟨hc.1, hc.2.1⟩), g0]
  simp only [h1]
  rw [sum_at n s p h (fun i => ∑ j ∈ range p, g (u (i - s) j) i (s + j))]
  simp

theorem focal_energy (n s p : ℕ) (hn : 0 < n) (h : s + p ≤ n) (b : Bool) (u : ℕ → ℕ → ℂ) :
    ∑ k ∈ range n, ∑ l ∈ range n, Complex.normSq (toFocal n s p b u k l) = (n : ℝ) ^ 2 * ∑ i ∈ range p, ∑ j ∈ range p, Complex.normSq (u i j) := by
  unfold toFocal
  rw [parseval2 n hn]
  simp only [Complex.normSq_mul, coroShift_normSq n hn, mul_one]
  rw [sum_padAt n s p h u (fun z _ _ => Complex.normSq z) (fun _ _ => by simp)]

/-- **C88** (transmission): the factor on the flux is the energy of the field after the coronagraph over that before. -/
theorem C88_transmission (n pad p : ℕ) (hn : 0 < n) (h : pad / 2 + p ≤ n) (b : Bool) (apod mask stop u : ℕ → ℕ → ℂ) :
    coroTransmission n pad p b apod mask stop u
      = (∑ i ∈ range p, ∑ j ∈ range p, Complex.normSq (coroOut n pad p b apod mask stop u i j)) / ∑ i ∈ range p, ∑ j ∈ range p, Complex.normSq (u i j) := by
  have hr : (n : ℝ) ^ 2 ≠ 0 := by positivity
  unfold coroTransmission
  simp only [← Complex.normSq_eq_norm_sq]
  rw [focal_energy n _ p hn h, focal_energy n _ p hn h, mul_div_mul_left _ _ hr]

theorem fftshift_lt (n k : ℕ) (hk : k < n) : fftshiftIdx n k < n := by
  rw [fftshiftIdx_eq n k hk]
  split <;> omega

theorem back_energy (n s p : ℕ) (hn : 0 < n) (h : s + p ≤ n) (b : Bool) (G : ℕ → ℕ → ℂ) :
    ∑ i ∈ range p, ∑ j ∈ range p, Complex.normSq (ifft2 n G (s + i) (s + j) / ((n : ℂ) * n) * (starRingEnd ℂ) (coroShift n b (s + i) (s + j)))
      ≤ (∑ k ∈ range n, ∑ l ∈ range n, Complex.normSq (G k l)) / (n : ℝ) ^ 2 := by
  have hr : (0 : ℝ) < n := by exact_mod_cast hn
  have e : ∀ x y, Complex.normSq (ifft2 n G x y / ((n : ℂ) * n) * (starRingEnd ℂ) (coroShift n b x y)) = Complex.normSq (ifft2 n G x y) / (n : ℝ) ^ 4 := by
    intro x y
    rw [Complex.normSq_mul, Complex.normSq_conj, coroShift_normSq n hn, mul_one, Complex.normSq_div, Complex.normSq_mul, Complex.normSq_natCast]
    congr 1
    ring
  simp only [e]
  have h2 := parseval2_inverse n hn G
  have h1 : ∑ i ∈ range p, ∑ j ∈ range p, Complex.normSq (ifft2 n G (s + i) (s + j)) / (n : ℝ) ^ 4
      ≤ ∑ i ∈ range n, ∑ j ∈ range n, Complex.normSq (ifft2 n G i j) / (n : ℝ) ^ 4 := by
    rw [← sum_at n s p h (fun i => ∑ j ∈ range p, Complex.normSq (ifft2 n G i (s + j)) / (n : ℝ) ^ 4)]
    refine sum_le_sum (fun i _ => ?_)
    split_ifs
    · rw [← sum_at n s p h (fun j => Complex.normSq (ifft2 n G i j) / (n : ℝ) ^ 4)]
      refine sum_le_sum (fun j _ => ?_)
      split_ifs
      · exact le_refl _
      · exact div_nonneg (Complex.normSq_nonneg _) (by positivity)
    · exact sum_nonneg (fun j _ => div_nonneg (Complex.normSq_nonneg _) (by positivity))
  refine le_trans h1 ?_
  simp only [← sum_div]
  rw [h2]
  apply le_of_eq
  field_simp

theorem coro_energy_le (n pad p : ℕ) (hn : 0 < n) (h : pad / 2 + p ≤ n) (b : Bool) (apod mask stop u : ℕ → ℕ → ℂ)
    (ha : ∀ i j, i < p → j < p → Complex.normSq (apod i j) ≤ 1) (hm : ∀ i j, i < n → j < n → Complex.normSq (mask i j) ≤ 1)
    (hs : ∀ i j, i < p → j < p → Complex.normSq (stop i j) ≤ 1) :
    ∑ i ∈ range p, ∑ j ∈ range p, Complex.normSq (coroOut n pad p b apod mask stop u i j) ≤ ∑ i ∈ range p, ∑ j ∈ range p, Complex.normSq (u i j) := by
  have hr : (0 : ℝ) < n := by exact_mod_cast hn
  have mono : ∀ x y : ℝ, 0 ≤ x → y ≤ 1 → x * y ≤ x := fun x y hx hy => by nlinarith
  unfold coroOut
  simp only
  set F := toFocal n (pad / 2) p b (fun a b => u a b * apod a b) with hF
  set G : ℕ → ℕ → ℂ := fun k l => F k l * mask (fftshiftIdx n k) (fftshiftIdx n l) with hG
  have h1 := back_energy n (pad / 2) p hn h b G
  have h2 : ∑ k ∈ range n, ∑ l ∈ range n, Complex.normSq (G k l) ≤ ∑ k ∈ range n, ∑ l ∈ range n, Complex.normSq (F k l) := by
    refine sum_le_sum (fun k hk => sum_le_sum (fun l hl => ?_))
    rw [hG]
    simp only
    rw [Complex.normSq_mul]
    exact mono _ _ (Complex.normSq_nonneg _) (hm _ _ (fftshift_lt n k (mem_range.1 hk)) (fftshift_lt n l (mem_range.1 hl)))
  have h3 := focal_energy n (pad / 2) p hn h b (fun a b => u a b * apod a b)
  have h4 : ∑ i ∈ range p, ∑ j ∈ range p, Complex.normSq (u i j * apod i j) ≤ ∑ i ∈ range p, ∑ j ∈ range p, Complex.normSq (u i j) := by
    refine sum_le_sum (fun i hi => sum_le_sum (fun j hj => ?_))
    rw [Complex.normSq_mul]
    exact mono _ _ (Complex.normSq_nonneg _) (ha i j (mem_range.1 hi) (mem_range.1 hj))
  refine le_trans (sum_le_sum (fun i hi => sum_le_sum (fun j hj => ?_))) (le_trans h1 (le_trans (div_le_div_of_nonneg_right h2 (by positivity)) ?_))
  · rw [Complex.normSq_mul]
    exact mono _ _ (Complex.normSq_nonneg _) (hs i j (mem_range.1 hi) (mem_range.1 hj))
  · rw [← hF] at h3
    rw [h3, mul_div_cancel_left₀ _ (by positivity)]
    exact h4

/-- **C88** (passive): with apodizer, mask and stop that do not amplify, the transmission is between zero and one. -/
theorem C88_passive (n pad p : ℕ) (hn : 0 < n) (h : pad / 2 + p ≤ n) (b : Bool) (apod mask stop u : ℕ → ℕ → ℂ)
    (ha : ∀ i j, i < p → j < p → ‖apod i j‖ ≤ 1) (hm : ∀ i j, i < n → j < n → ‖mask i j‖ ≤ 1) (hs : ∀ i j, i < p → j < p → ‖stop i j‖ ≤ 1) :
    0 ≤ coroTransmission n pad p b apod mask stop u ∧ coroTransmission n pad p b apod mask stop u ≤ 1 := by
  have sq : ∀ z : ℂ, ‖z‖ ≤ 1 → Complex.normSq z ≤ 1 := by
    intro z hz
    rw [Complex.normSq_eq_norm_sq]
    nlinarith [norm_nonneg z]
  rw [C88_transmission n pad p hn h]
  have h0 : ∀ v : ℕ → ℕ → ℂ, 0 ≤ ∑ i ∈ range p, ∑ j ∈ range p, Complex.normSq (v i j) := fun v =>
    sum_nonneg (fun i _ => sum_nonneg (fun j _ => Complex.normSq_nonneg _))
  refine ⟨div_nonneg (h0 _) (h0 _), div_le_one_of_le₀ ?_ (h0 _)⟩
  exact coro_energy_le n pad p hn h b apod mask stop u (fun i j hi hj => sq _ (ha i j hi hj)) (fun i j hi hj => sq _ (hm i j hi hj))
    (fun i j hi hj => sq _ (hs i j hi hj))

/-- **C88** (clear): without mask the field is the input times apodizer and stop. -/
theorem C88_clear (n pad p : ℕ) (hn : 0 < n) (h : pad / 2 + p ≤ n) (b : Bool) (apod mask stop u : ℕ → ℕ → ℂ)
    (hm : ∀ i j, i < n → j < n → mask i j = 1) (i j : ℕ) (hi : i < p) (hj : j < p) :
    coroOut n pad p b apod mask stop u i j = u i j * apod i j * stop i j := by
  have hc : (n : ℂ) ≠ 0 := by exact_mod_cast hn.ne'
  unfold coroOut
  simp only
  have e : ifft2 n (fun k l => toFocal n (pad / 2) p b (fun a b => u a b * apod a b) k l * mask (fftshiftIdx n k) (fftshiftIdx n l)) (pad / 2 + i) (pad / 2 + j)
      = ifft2 n (toFocal n (pad / 2) p b (fun a b => u a b * apod a b)) (pad / 2 + i) (pad / 2 + j) := by
    unfold ifft2
    refine sum_congr rfl (fun k hk => sum_congr rfl (fun l hl => ?_))
    simp only [hm _ _ (fftshift_lt n k (mem_range.1 hk)) (fftshift_lt n l (mem_range.1 hl)), mul_one]
  rw [e]
  have e2 : toFocal n (pad / 2) p b (fun a b => u a b * apod a b)
      = fft2 n (fun x y => padAt (pad / 2) p (fun a b => u a b * apod a b) x y * coroShift n b x y) := rfl
  rw [e2, ifft2_fft2 n hn _ _ _ (by omega) (by omega)]
  have e3 : padAt (pad / 2) p (fun a b => u a b * apod a b) (pad / 2 + i) (pad / 2 + j) = u i j * apod i j := by
    unfold padAt
    rw [if_pos ⟨by omega, by omega, by omega, by omega⟩]
    simp
  rw [e3]
  have h1 : coroShift n b (pad / 2 + i) (pad / 2 + j) * (starRingEnd ℂ) (coroShift n b (pad / 2 + i) (pad / 2 + j)) = 1 := by
    rw [Complex.mul_conj, coroShift_normSq n hn]
    simp
  generalize coroShift n b (pad / 2 + i) (pad / 2 + j) = z at *
  field_simp
  linear_combination u i j * apod i j * stop i j * h1

/-- **C88** (photons): a sensor behind the coronagraph counts the loss of energy and, on top, the loss of amplitude: with a mask without effect and
a stop of uniform transmission `t` in amplitude it gets `t ^ 3` of the photons, not `t ^ 2`. -/
theorem C88_photons (n pad p : ℕ) (hn : 0 < n) (h : pad / 2 + p ≤ n) (b : Bool) (s0 pitch : ℝ) (amp : ℕ → ℕ → ℝ) (hA : ∀ i j, 0 ≤ amp i j)
    (hpos : 0 < ∑ i ∈ range p, ∑ j ∈ range p, amp i j ^ 2) (t : ℝ) (ht : 0 ≤ t) :
    coroPhotons s0 pitch n pad p b (fun _ _ => 1) (fun _ _ => 1) (fun _ _ => (t : ℂ)) (fun i j => (amp i j : ℂ)) = t ^ 3 * fieldPhotons s0 pitch p amp := by
  have eo : ∀ i ∈ range p, ∀ j ∈ range p, coroOut n pad p b (fun _ _ => 1) (fun _ _ => 1) (fun _ _ => (t : ℂ)) (fun i j => (amp i j : ℂ)) i j
      = ((t * amp i j : ℝ) : ℂ) := by
    intro i hi j hj
    rw [C88_clear n pad p hn h b _ _ _ _ (fun _ _ _ _ => rfl) i j (mem_range.1 hi) (mem_range.1 hj)]
    push_cast
    ring
  unfold coroPhotons fieldPhotons
  rw [C88_transmission n pad p hn h]
  have e1 : ∑ i ∈ range p, ∑ j ∈ range p, Complex.normSq (coroOut n pad p b (fun _ _ => 1) (fun _ _ => 1) (fun _ _ => (t : ℂ)) (fun i j => (amp i j : ℂ)) i j)
      = t ^ 2 * ∑ i ∈ range p, ∑ j ∈ range p, amp i j ^ 2 := by
    simp only [mul_sum]
    refine sum_congr rfl (fun i hi => sum_congr rfl (fun j hj => ?_))
    rw [eo i hi j hj, Complex.normSq_ofReal]
    ring
  have e2 : ∑ i ∈ range p, ∑ j ∈ range p, ‖coroOut n pad p b (fun _ _ => 1) (fun _ _ => 1) (fun _ _ => (t : ℂ)) (fun i j => (amp i j : ℂ)) i j‖
      = t * ∑ i ∈ range p, ∑ j ∈ range p, amp i j := by
    simp only [mul_sum]
    refine sum_congr rfl (fun i hi => sum_congr rfl (fun j hj => ?_))
    rw [eo i hi j hj, Complex.norm_real, Real.norm_of_nonneg (mul_nonneg ht (hA i j))]
  have e3 : ∑ i ∈ range p, ∑ j ∈ range p, Complex.normSq ((amp i j : ℝ) : ℂ) = ∑ i ∈ range p, ∑ j ∈ range p, amp i j ^ 2 := by
    simp only [Complex.normSq_ofReal, pow_two]
  rw [e1, e2, e3, mul_div_cancel_right₀ _ hpos.ne']
  ring

/-! ### Masks -/

/-- Distance of the centre of pixel `i` from the middle of the array, in pixels. -/
noncomputable def fromMiddle (n i : ℕ) : ℝ := (i : ℝ) + 1 / 2 - n / 2

theorem makeXY_middle (n : ℕ) (hn : 0 < n) (i : ℕ) : (makeXY n (1 : ℝ) i) = 2 * fromMiddle n i / n := by
  have : (n : ℝ) ≠ 0 := by exact_mod_cast hn.ne'
  unfold makeXY fromMiddle
  field_simp
  ring

theorem plainMask_eq (n : ℕ) (hn : 2 ≤ n) (dia obs xc yc : ℝ) (sq : Bool) (i j : ℕ) :
    plainMask n dia obs xc yc sq i j = maskShape sq obs dia (2 * fromMiddle n j / n - xc) (2 * fromMiddle n i / n - yc) := by
  unfold plainMask baseMask maskCentreArg
  rw [if_neg (by omega)]
  simp only [Bool.false_eq_true, if_false, Option.map_some, Option.getD_some, maskX, maskY]
  rw [makeXY_middle n (by omega), makeXY_middle n (by omega)]

theorem roundMask (n : ℕ) (hn : 2 ≤ n) (dia obs : ℝ) (i j : ℕ) :
    plainMask n dia obs 0 0 false i j = true ↔
      (dia * obs * n / 2) ^ 2 ≤ fromMiddle n i ^ 2 + fromMiddle n j ^ 2 ∧ fromMiddle n i ^ 2 + fromMiddle n j ^ 2 < (dia * n / 2) ^ 2 := by
  have hr : (0 : ℝ) < n := by exact_mod_cast (show 0 < n by omega)
  have h4 : (0 : ℝ) < 4 / (n : ℝ) ^ 2 := by positivity
  rw [plainMask_eq n hn]
  unfold maskShape
  simp only [Bool.false_eq_true, if_false, sub_zero, Bool.and_eq_true, decide_eq_true_eq]
  have e : (2 * fromMiddle n j / n) ^ 2 + (2 * fromMiddle n i / n) ^ 2 = 4 / (n : ℝ) ^ 2 * (fromMiddle n i ^ 2 + fromMiddle n j ^ 2) := by
    field_simp
    ring
  have e1 : dia ^ 2 = 4 / (n : ℝ) ^ 2 * (dia * n / 2) ^ 2 := by field_simp; norm_num
  have e2 : (dia * obs) ^ 2 = 4 / (n : ℝ) ^ 2 * (dia * obs * n / 2) ^ 2 := by field_simp; norm_num
  rw [e, e2]
  conv_lhs => rw [e1]
  rw [mul_lt_mul_iff_right₀ h4, mul_le_mul_iff_right₀ h4]
  exact and_comm

/-- **C88** (Lyot): the mask stops what is within the inner working angle, a radius, and beyond half the outer one, which is taken as a diameter;
without outer working angle it stops what is beyond half the side of the array. Angles are in lambda over D, a pixel is `1 / res`. -/
theorem C88_lyot (n : ℕ) (hn : 2 ≤ n) (res iwa : ℝ) (hres : 0 < res) (owa : Option ℝ) (ho : ∀ o, owa = some o → 0 < o) (i j : ℕ) :
    lyotMask n res false iwa owa i j = true ↔
      iwa ^ 2 ≤ (fromMiddle n i / res) ^ 2 + (fromMiddle n j / res) ^ 2
      ∧ (fromMiddle n i / res) ^ 2 + (fromMiddle n j / res) ^ 2 < (match owa with | some o => o / 2 | none => (n : ℝ) / 2 / res) ^ 2 := by
  have hr : (0 : ℝ) < n := by exact_mod_cast (show 0 < n by omega)
  have hres2 : (0 : ℝ) < res ^ 2 := by positivity
  have e : (fromMiddle n i / res) ^ 2 + (fromMiddle n j / res) ^ 2 = (fromMiddle n i ^ 2 + fromMiddle n j ^ 2) / res ^ 2 := by
    rw [div_pow, div_pow, ← add_div]
  have fin : ∀ over : ℝ, 0 < over → (plainMask n (over / n) (iwa * res / over * 2) 0 0 false i j = true ↔
      iwa ^ 2 ≤ (fromMiddle n i / res) ^ 2 + (fromMiddle n j / res) ^ 2
      ∧ (fromMiddle n i / res) ^ 2 + (fromMiddle n j / res) ^ 2 < (over / 2 / res) ^ 2) := by
    intro over hov
    rw [roundMask n hn, e, le_div_iff₀ hres2, div_pow (over / 2), div_lt_div_iff_of_pos_right hres2]
    have e1 : over / n * (iwa * res / over * 2) * n / 2 = iwa * res := by field_simp
    have e2 : over / n * n / 2 = over / 2 := by field_simp
    rw [e1, e2, mul_pow]
  unfold lyotMask
  simp only [Bool.false_eq_true, if_false]
  cases owa with
  | none => exact fin n hr
  | some o =>
    have := fin (o * res) (mul_pos (ho o rfl) hres)
    simp only
    rw [this]
    have : o * res / 2 / res = o / 2 := by field_simp
    rw [this]

/-- **C88** (Lyot, empty): so an outer angle up to twice the inner one stops all light; and without outer angle the corners of the array are
stopped also when the inner one is zero. -/
theorem C88_lyot_empty (n : ℕ) (hn : 2 ≤ n) (res iwa owa : ℝ) (hres : 0 < res) (hi : 0 ≤ iwa) (ho : 0 < owa) (h : owa ≤ 2 * iwa) (i j : ℕ) :
    lyotMask n res false iwa (some owa) i j = false := by
  rw [Bool.eq_false_iff]
  intro hc
  rw [C88_lyot n hn res iwa hres (some owa) (fun o e => by cases e; exact ho)] at hc
  obtain ⟨h1, h2⟩ := hc
  simp only at h2
  nlinarith

theorem C88_lyot_corner (n : ℕ) (hn : 4 ≤ n) (res iwa : ℝ) (hres : 0 < res) : lyotMask n res false iwa none 0 0 = false := by
  have hr : (4 : ℝ) ≤ n := by exact_mod_cast hn
  rw [Bool.eq_false_iff]
  intro hc
  rw [C88_lyot n (by omega) res iwa hres none (fun o e => nomatch e)] at hc
  have h2 := hc.2
  simp only at h2
  rw [div_pow, div_pow, ← add_div, div_lt_div_iff_of_pos_right (by positivity)] at h2
  unfold fromMiddle at h2
  simp at h2
  nlinarith

/-- **C88** (knife): the knife edge is at the middle of the array whatever the angle asked for. -/
theorem C88_knife (n : ℕ) (hn : 2 ≤ n) (he : n % 2 = 0) (res iwa : ℝ) (i j : ℕ) (hi : i < n) (hj : j < n) :
    lyotMask n res true iwa none i j = decide (n / 2 ≤ j) := by
  have hr : (0 : ℝ) < n := by exact_mod_cast (show 0 < n by omega)
  obtain ⟨m, rfl⟩ : ∃ m, n = 2 * m := ⟨n / 2, by omega⟩
  have hm : (0 : ℝ) < m := by exact_mod_cast (show 0 < m by omega)
  have hir : (i : ℝ) + 1 ≤ 2 * m := by exact_mod_cast hi
  have hjr : (j : ℝ) + 1 ≤ 2 * m := by exact_mod_cast hj
  have hi0 : (0 : ℝ) ≤ i := by positivity
  have hj0 : (0 : ℝ) ≤ j := by positivity
  unfold lyotMask
  simp only [if_true]
  rw [plainMask_eq _ hn]
  unfold maskShape fromMiddle
  simp only [if_true, mul_zero, abs_nonneg, decide_true, Bool.or_true, Bool.and_true, sub_zero]
  have a : |2 * ((i : ℝ) + 1 / 2 - ((2 * m : ℕ) : ℝ) / 2) / ((2 * m : ℕ) : ℝ)| ≤ 1 := by
    push_cast
    rw [abs_le]
    constructor
    · rw [le_div_iff₀ (by positivity)]; linarith
    · rw [div_le_one (by positivity)]; linarith
  rw [decide_eq_true a, Bool.and_true]
  rw [decide_eq_decide]
  push_cast
  have e2 : 2 * m / 2 = m := by omega
  rw [e2, abs_le]
  constructor
  · rintro ⟨h1, -⟩
    have : (0 : ℝ) ≤ 2 * ((j : ℝ) + 1 / 2 - 2 * m / 2) / (2 * m) := by linarith
    by_contra hc
    have : (j : ℝ) + 1 ≤ m := by exact_mod_cast (show j + 1 ≤ m by omega)
    have : 2 * ((j : ℝ) + 1 / 2 - 2 * m / 2) / (2 * m) < 0 := div_neg_of_neg_of_pos (by linarith) (by positivity)
    linarith
  · intro h
    have hh : (m : ℝ) ≤ j := by exact_mod_cast h
    have h0 : (0 : ℝ) ≤ 2 * ((j : ℝ) + 1 / 2 - 2 * m / 2) / (2 * m) := div_nonneg (by linarith) (by positivity)
    have h1 : 2 * ((j : ℝ) + 1 / 2 - 2 * m / 2) / (2 * m) ≤ 2 := by
      rw [div_le_iff₀ (by positivity)]; linarith
    constructor <;> linarith

/-- **C88** (quadrants): the four-quadrant mask delays the two quadrants where exactly one of row and column is in the second half. -/
theorem C88_quadrants (n : ℕ) (hn : 2 ≤ n) (he : n % 2 = 0) (delay : ℝ) (i j : ℕ) (hi : i < n) (hj : j < n) :
    quadMask n delay i j = if (n / 2 ≤ i) = (n / 2 ≤ j) then 1 else Complex.exp (Complex.I * (delay : ℂ)) := by
  have hr : (0 : ℝ) < n := by exact_mod_cast (show 0 < n by omega)
  obtain ⟨m, rfl⟩ : ∃ m, n = 2 * m := ⟨n / 2, by omega⟩
  have hm : (1 : ℝ) ≤ m := by exact_mod_cast (show 1 ≤ m by omega)
  have e2 : 2 * m / 2 = m := by omega
  have near : ∀ x : ℕ, x < 2 * m → |2 * fromMiddle (2 * m) x / ((2 * m : ℕ) : ℝ) - 1 / ((2 * m : ℕ) : ℝ)| ≤ 1 := by
    intro x hx
    have hxr : (x : ℝ) + 1 ≤ 2 * m := by exact_mod_cast hx
    have hx0 : (0 : ℝ) ≤ x := by positivity
    unfold fromMiddle
    push_cast
    rw [← sub_div, abs_le]
    constructor
    · rw [le_div_iff₀ (by positivity)]; linarith
    · rw [div_le_one (by positivity)]; linarith
  have far : ∀ x : ℕ, x < 2 * m → (|2 * fromMiddle (2 * m) x / ((2 * m : ℕ) : ℝ) - (1 + 1 / ((2 * m : ℕ) : ℝ))| ≤ 1 ↔ m ≤ x) := by
    intro x hx
    have hxr : (x : ℝ) + 1 ≤ 2 * m := by exact_mod_cast hx
    have hx0 : (0 : ℝ) ≤ x := by positivity
    have e : 2 * fromMiddle (2 * m) x / ((2 * m : ℕ) : ℝ) - (1 + 1 / ((2 * m : ℕ) : ℝ)) = ((x : ℝ) - 2 * m) / m := by
      unfold fromMiddle
      push_cast
      field_simp
      ring
    rw [e, abs_le, le_div_iff₀ (by positivity), div_le_iff₀ (by positivity)]
    constructor
    · rintro ⟨h1, -⟩
      have : (m : ℝ) ≤ x := by linarith
      exact_mod_cast this
    · intro h
      have hh : (m : ℝ) ≤ x := by exact_mod_cast h
      constructor <;> linarith
  have hl : plainMask (2 * m) 1 0 (1 + 1 / ((2 * m : ℕ) : ℝ)) (1 / ((2 * m : ℕ) : ℝ)) true i j = decide (m ≤ j) := by
    rw [plainMask_eq _ hn]
    unfold maskShape
    simp only [if_true, mul_zero, abs_nonneg, decide_true, Bool.or_true, Bool.and_true]
    rw [decide_eq_true (near i hi), Bool.and_true, decide_eq_decide]
    exact far j hj
  have hb : plainMask (2 * m) 1 0 (1 / ((2 * m : ℕ) : ℝ)) (1 + 1 / ((2 * m : ℕ) : ℝ)) true i j = decide (m ≤ i) := by
    rw [plainMask_eq _ hn]
    unfold maskShape
    simp only [if_true, mul_zero, abs_nonneg, decide_true, Bool.or_true, Bool.and_true]
    rw [decide_eq_true (near j hj), Bool.true_and, decide_eq_decide]
    exact far i hi
  unfold quadMask
  simp only
  rw [hl, hb, e2]
  by_cases h1 : m ≤ i <;> by_cases h2 : m ≤ j <;> simp [h1, h2]

/-- Row and column of the pixel opposite with respect to the middle column. -/
theorem quad_flip (n : ℕ) (hn : 2 ≤ n) (he : n % 2 = 0) (i j : ℕ) (hi : i < n) (hj : j < n) : quadMask n Real.pi i (n - 1 - j) = -quadMask n Real.pi i j := by
  rw [C88_quadrants n hn he Real.pi i j hi hj, C88_quadrants n hn he Real.pi i (n - 1 - j) hi (by omega)]
  have hpi : Complex.exp (Complex.I * (Real.pi : ℂ)) = -1 := by rw [mul_comm]; exact Complex.exp_pi_mul_I
  rw [hpi]
  by_cases h1 : n / 2 ≤ i <;> by_cases h2 : n / 2 ≤ j
  · have : ¬ n / 2 ≤ n - 1 - j := by omega
    simp [h1, h2, this]
  · have : n / 2 ≤ n - 1 - j := by omega
    simp [h1, h2, this]
  · have : ¬ n / 2 ≤ n - 1 - j := by omega
    simp [h1, h2, this]
  · have : n / 2 ≤ n - 1 - j := by omega
    simp [h1, h2, this]

theorem focal_window (n s p : ℕ) (hn : 0 < n) (h : s + p ≤ n) (u : ℕ → ℕ → ℂ) (k l : ℕ) :
    toFocal n s p false u k l = ∑ i ∈ range p, ∑ j ∈ range p, u i j * twiddle (2 * n) ((2 * k + 1) * ((s + i : ℕ) : ℤ) + (2 * l + 1) * ((s + j : ℕ) : ℤ)) := by
  unfold toFocal fft2
  rw [← sum_padAt n s p h u (fun z i j => z * twiddle (2 * n) ((2 * k + 1) * (i : ℤ) + (2 * l + 1) * (j : ℤ))) (fun _ _ => by simp)]
  refine sum_congr rfl (fun i _ => sum_congr rfl (fun j _ => ?_))
  simp only
  rw [coroShift_eq n hn, twiddle_double n hn, mul_assoc, ← twiddle_add]
  congr 2
  push_cast
  ring

theorem fftshift_even (n : ℕ) (he : n % 2 = 0) (l : ℕ) (hl : l < n) : fftshiftIdx n (n - 1 - l) = n - 1 - fftshiftIdx n l := by
  rw [fftshiftIdx_eq n _ (by omega), fftshiftIdx_eq n l hl]
  split_ifs <;> omega

theorem twiddle_opposite (n : ℕ) (hn : 0 < n) (l : ℕ) (hl : l < n) (y : ℤ) :
    twiddle (2 * n) ((2 * ((n - 1 - l : ℕ) : ℤ) + 1) * y) = twiddle (2 * n) (-((2 * (l : ℤ) + 1) * y)) := by
  have : ((n - 1 - l : ℕ) : ℤ) = (n : ℤ) - 1 - l := by omega
  rw [this, ← twiddle_period (2 * n) (by omega) (-((2 * (l : ℤ) + 1) * y)) y]
  congr 1
  push_cast
  ring

/-- **C88** (null): behind a four-quadrant mask with delay pi, a field that is symmetric about the middle column of the pupil becomes antisymmetric. -/
theorem C88_null (n pad p : ℕ) (hn : 2 ≤ n) (he : n % 2 = 0) (h : pad / 2 + p ≤ n) (apod u : ℕ → ℕ → ℂ)
    (hsym : ∀ i j, i < p → j < p → u i (p - 1 - j) * apod i (p - 1 - j) = u i j * apod i j) (i j : ℕ) (hi : i < p) (hj : j < p) :
    coroOut n pad p false apod (quadMask n Real.pi) (fun _ _ => 1) u i (p - 1 - j) = -coroOut n pad p false apod (quadMask n Real.pi) (fun _ _ => 1) u i j := by
  have hn0 : 0 < n := by omega
  set s := pad / 2 with hs
  set F := toFocal n s p false (fun a b => u a b * apod a b) with hF
  -- the focal plane at the opposite column
  have hflip : ∀ k l, l < n → F k (n - 1 - l) = twiddle (2 * n) (-((2 * (l : ℤ) + 1) * ((2 * s + p - 1 : ℕ) : ℤ))) * F k l := by
    intro k l hl
    rw [hF, focal_window n s p hn0 h, focal_window n s p hn0 h, mul_sum]
    refine sum_congr rfl (fun a ha => ?_)
    rw [← sum_range_reflect, mul_sum]
    refine sum_congr rfl (fun b hb => ?_)
    have hb' := mem_range.1 hb
    have ha' := mem_range.1 ha
    rw [hsym a b ha' hb', mul_left_comm, ← twiddle_add, twiddle_add, twiddle_opposite n hn0 l hl, ← twiddle_add]
    congr 2
    have e1 : ((s + (p - 1 - b) : ℕ) : ℤ) = ((2 * s + p - 1 : ℕ) : ℤ) - ((s + b : ℕ) : ℤ) := by omega
    rw [e1]
    ring
  have hback : ∀ x y, ifft2 n (fun k l => F k l * quadMask n Real.pi (fftshiftIdx n k) (fftshiftIdx n l)) x y / ((n : ℂ) * n) * (starRingEnd ℂ) (coroShift n false x y)
      = (∑ k ∈ range n, ∑ l ∈ range n, F k l * quadMask n Real.pi (fftshiftIdx n k) (fftshiftIdx n l)
          * twiddle (2 * n) (-((2 * (k : ℤ) + 1) * x + (2 * (l : ℤ) + 1) * y))) / ((n : ℂ) * n) := by
    intro x y
    unfold ifft2
    rw [div_mul_eq_mul_div, sum_mul]
    congr 1
    refine sum_congr rfl (fun k _ => ?_)
    rw [sum_mul]
    refine sum_congr rfl (fun l _ => ?_)
    rw [coroShift_eq n hn0, twiddle_conj, twiddle_double n hn0, mul_assoc _ (twiddle _ _) (twiddle _ _), ← twiddle_add]
    congr 2
    push_cast
    ring
  unfold coroOut
  simp only [mul_one]
  rw [← hs, ← hF, hback, hback, ← neg_div]
  congr 1
  rw [← sum_neg_distrib]
  refine sum_congr rfl (fun k hk => ?_)
  rw [← sum_range_reflect, ← sum_neg_distrib]
  refine sum_congr rfl (fun l hl => ?_)
  have hk' := mem_range.1 hk
  have hl' := mem_range.1 hl
  rw [hflip k l hl', fftshift_even n he l hl', quad_flip n hn he _ _ (fftshift_lt n k hk') (fftshift_lt n l hl')]
  have e1 : ((s + (p - 1 - j) : ℕ) : ℤ) = ((2 * s + p - 1 : ℕ) : ℤ) - ((s + j : ℕ) : ℤ) := by omega
  have e2 : twiddle (2 * n) (-((2 * (k : ℤ) + 1) * ((s + i : ℕ) : ℤ) + (2 * ((n - 1 - l : ℕ) : ℤ) + 1) * ((s + (p - 1 - j) : ℕ) : ℤ)))
      = twiddle (2 * n) (-((2 * (k : ℤ) + 1) * ((s + i : ℕ) : ℤ))) * twiddle (2 * n) ((2 * (l : ℤ) + 1) * ((s + (p - 1 - j) : ℕ) : ℤ)) := by
    rw [neg_add, twiddle_add]
    congr 1
    rw [← mul_neg, twiddle_opposite n hn0 l hl']
    congr 1
    ring
  rw [e2]
  have e3 : twiddle (2 * n) (-((2 * (l : ℤ) + 1) * ((2 * s + p - 1 : ℕ) : ℤ))) * twiddle (2 * n) ((2 * (l : ℤ) + 1) * ((s + (p - 1 - j) : ℕ) : ℤ))
      = twiddle (2 * n) (-((2 * (l : ℤ) + 1) * ((s + j : ℕ) : ℤ))) := by
    rw [← twiddle_add, e1]
    congr 1
    ring
  have e4 : twiddle (2 * n) (-((2 * (k : ℤ) + 1) * ((s + i : ℕ) : ℤ) + (2 * (l : ℤ) + 1) * ((s + j : ℕ) : ℤ)))
      = twiddle (2 * n) (-((2 * (k : ℤ) + 1) * ((s + i : ℕ) : ℤ))) * twiddle (2 * n) (-((2 * (l : ℤ) + 1) * ((s + j : ℕ) : ℤ))) := by
    rw [neg_add, twiddle_add]
  rw [e4, ← e3]
  ring

/-- **C88** (null, axis): with a stop symmetric about the middle column nothing of it is left on the axis of the final image. -/
theorem C88_null_axis (n pad p : ℕ) (hn : 2 ≤ n) (he : n % 2 = 0) (h : pad / 2 + p ≤ n) (apod stop u : ℕ → ℕ → ℂ)
    (hsym : ∀ i j, i < p → j < p → u i (p - 1 - j) * apod i (p - 1 - j) = u i j * apod i j) (hst : ∀ i j, i < p → j < p → stop i (p - 1 - j) = stop i j) :
    ∑ i ∈ range p, ∑ j ∈ range p, coroOut n pad p false apod (quadMask n Real.pi) stop u i j = 0 := by
  have e : ∀ i j, coroOut n pad p false apod (quadMask n Real.pi) stop u i j
      = coroOut n pad p false apod (quadMask n Real.pi) (fun _ _ => 1) u i j * stop i j := by
    intro i j
    unfold coroOut
    simp
  refine sum_eq_zero (fun i hi => ?_)
  have hi' := mem_range.1 hi
  have h2 : ∑ j ∈ range p, coroOut n pad p false apod (quadMask n Real.pi) stop u i j = -∑ j ∈ range p, coroOut n pad p false apod (quadMask n Real.pi) stop u i j := by
    conv_lhs => rw [← sum_range_reflect]
    rw [← sum_neg_distrib]
    refine sum_congr rfl (fun j hj => ?_)
    have hj' := mem_range.1 hj
    rw [e, e, C88_null n pad p hn he h apod u hsym i j hi' hj', hst i j hi' hj']
    ring
  exact self_eq_neg.1 h2

/-- **C88** (vortex): with a whole charge the mask is the direction of the pixel to the power of the charge, and one in the middle. -/
theorem C88_vortex (n : ℕ) (m : ℤ) (i j : ℕ) :
    vortexMask n m none i j = Complex.exp (Complex.I * (m : ℂ) * (Complex.arg ⟨(j : ℝ) - ((n / 2 : ℕ) : ℝ), (i : ℝ) - ((n / 2 : ℕ) : ℝ)⟩ : ℂ)) := by
  unfold vortexMask vortexTheta
  simp only
  generalize Complex.arg _ = a
  generalize ⌊(a + 2 * Real.pi) / (2 * Real.pi)⌋ = q
  rw [Complex.exp_eq_exp_iff_exists_int]
  refine ⟨m * (1 - q), ?_⟩
  push_cast
  ring

theorem C88_vortex_middle (n : ℕ) (m : ℤ) : vortexMask n m none (n / 2) (n / 2) = 1 := by
  rw [C88_vortex]
  have : (⟨((n / 2 : ℕ) : ℝ) - ((n / 2 : ℕ) : ℝ), ((n / 2 : ℕ) : ℝ) - ((n / 2 : ℕ) : ℝ)⟩ : ℂ) = 0 := by
    apply Complex.ext <;> simp
  rw [this]
  simp

/-- **C88** (vortex, opposite): opposite pixels have the same value for an even charge and opposite ones for an odd charge. -/
theorem C88_vortex_opposite (n : ℕ) (m : ℤ) (i j i' j' : ℕ) (hi : i + i' = 2 * (n / 2)) (hj : j + j' = 2 * (n / 2)) (hne : i ≠ n / 2 ∨ j ≠ n / 2) :
    vortexMask n m none i' j' = (-1) ^ m * vortexMask n m none i j := by
  have key : ∀ z : ℂ, z ≠ 0 → ∀ k : ℤ, Complex.exp (Complex.I * (k : ℂ) * (Complex.arg z : ℂ)) * (‖z‖ : ℂ) ^ k = z ^ k := by
    intro z hz k
    have hn : (‖z‖ : ℂ) ≠ 0 := by exact_mod_cast (norm_ne_zero_iff.2 hz)
    conv_rhs => rw [← Complex.norm_mul_exp_arg_mul_I z]
    rw [mul_zpow, ← Complex.exp_int_mul, mul_comm]
    congr 2
    ring
  rw [C88_vortex, C88_vortex]
  set z : ℂ := ⟨(j : ℝ) - ((n / 2 : ℕ) : ℝ), (i : ℝ) - ((n / 2 : ℕ) : ℝ)⟩ with hz
  have hz' : (⟨(j' : ℝ) - ((n / 2 : ℕ) : ℝ), (i' : ℝ) - ((n / 2 : ℕ) : ℝ)⟩ : ℂ) = -z := by
    have h1 : (i : ℝ) + i' = 2 * ((n / 2 : ℕ) : ℝ) := by exact_mod_cast hi
    have h2 : (j : ℝ) + j' = 2 * ((n / 2 : ℕ) : ℝ) := by exact_mod_cast hj
    rw [hz]
    apply Complex.ext
    · simp only [Complex.neg_re]; linarith
    · simp only [Complex.neg_im]; linarith
  have hz0 : z ≠ 0 := by
    intro h0
    rw [hz] at h0
    have hre := congrArg Complex.re h0
    have him := congrArg Complex.im h0
    simp only [Complex.zero_re, Complex.zero_im] at hre him
    rcases hne with h | h
    · apply h
      have : (i : ℝ) = ((n / 2 : ℕ) : ℝ) := by linarith
      exact_mod_cast this
    · apply h
      have : (j : ℝ) = ((n / 2 : ℕ) : ℝ) := by linarith
      exact_mod_cast this
  rw [hz']
  have hn : (‖z‖ : ℂ) ^ m ≠ 0 := zpow_ne_zero _ (by exact_mod_cast (norm_ne_zero_iff.2 hz0))
  have h1 := key z hz0 m
  have h2 := key (-z) (neg_ne_zero.2 hz0) m
  rw [norm_neg] at h2
  have h3 : (-z) ^ m = (-1) ^ m * z ^ m := by rw [← mul_zpow, neg_one_mul]
  apply mul_right_cancel₀ hn
  rw [h2, h3, ← h1]
  ring

/-- **C88** (phases): four-quadrant and vortex masks, with or without inner vortex, only change the phase. -/
theorem C88_phases (n : ℕ) (delay charge : ℝ) (inner : Option (ℝ × ℝ × ℝ)) (i j : ℕ) : ‖quadMask n delay i j‖ = 1 ∧ ‖vortexMask n charge inner i j‖ = 1 := by
  have h : ∀ x : ℝ, ‖Complex.exp (Complex.I * (x : ℂ))‖ = 1 := fun x => by rw [mul_comm]; exact Complex.norm_exp_ofReal_mul_I x
  refine ⟨?_, ?_⟩
  swap
  · unfold vortexMask
    simp only
    cases inner with
    | none => exact_mod_cast h (charge * vortexTheta n i j)
    | some v =>
      obtain ⟨rad, c, shift⟩ := v
      simp only
      split_ifs
      · exact_mod_cast h (c * vortexTheta n i j + shift)
      · exact_mod_cast h (charge * vortexTheta n i j)
  unfold quadMask
  simp only
  rw [mul_assoc, ← Complex.ofReal_mul]
  exact h _

/-- **C88** (inner vortex): within its radius the inner vortex replaces the outer one. -/
theorem C88_inner (n : ℕ) (charge rad c shift : ℝ) (i j : ℕ) :
    (((i : ℝ) - ((n / 2 : ℕ) : ℝ)) ^ 2 + ((j : ℝ) - ((n / 2 : ℕ) : ℝ)) ^ 2 ≤ rad ^ 2 → 0 ≤ rad →
      vortexMask n charge (some (rad, c, shift)) i j = Complex.exp (Complex.I * (shift : ℂ)) * vortexMask n c none i j)
    ∧ (rad ^ 2 < ((i : ℝ) - ((n / 2 : ℕ) : ℝ)) ^ 2 + ((j : ℝ) - ((n / 2 : ℕ) : ℝ)) ^ 2 → 0 ≤ rad →
      vortexMask n charge (some (rad, c, shift)) i j = vortexMask n charge none i j) := by
  constructor
  · intro h hr
    unfold vortexMask
    simp only
    rw [if_pos (by rw [Real.sqrt_le_left hr]; exact h), ← Complex.exp_add]
    congr 1
    push_cast
    ring
  · intro h hr
    unfold vortexMask
    simp only
    rw [if_neg (by rw [not_le, Real.lt_sqrt hr]; exact h)]

/-- **C88** (filter): the focal plane filter passes what is within the field asked for; the obstruction has the radius asked for times the ratio
of the fields squared, in units of half the array. -/
theorem C88_filter (n : ℕ) (hn : 2 ≤ n) (ratio obs : ℝ) (i j : ℕ) :
    filterMask n ratio obs i j = true ↔
      (obs * ratio ^ 2 * (n / 2)) ^ 2 ≤ fromMiddle n i ^ 2 + fromMiddle n j ^ 2 ∧ fromMiddle n i ^ 2 + fromMiddle n j ^ 2 < (ratio * (n / 2)) ^ 2 := by
  unfold filterMask
  rw [roundMask n hn]
  have e1 : ratio * (if obs ≠ 0 then obs * ratio else 0) * n / 2 = obs * ratio ^ 2 * (n / 2) := by
    by_cases h : obs = 0
    · simp [h]
    · rw [if_pos h]; ring
  have e2 : ratio * n / 2 = ratio * (n / 2) := by ring
  rw [e1, e2]

/-- **C88** (filter, off centre): the filter is symmetric about the corner between four pixels, while the image is centred on a pixel: whole
frequencies `f` and `-1 - f` are treated alike. `f` is the frequency of a term of the transform, negative in the second half. -/
theorem C88_filter_off (n : ℕ) (hn : 2 ≤ n) (he : n % 2 = 0) (ratio obs : ℝ) (k l : ℕ) (hk : k < n) (hl : l < n) :
    signedFreq n (n - 1 - k) = -1 - signedFreq n k
    ∧ filterMask n ratio obs (fftshiftIdx n (n - 1 - k)) (fftshiftIdx n (n - 1 - l)) = filterMask n ratio obs (fftshiftIdx n k) (fftshiftIdx n l) := by
  constructor
  · unfold signedFreq
    split_ifs <;> omega
  · have e : ∀ x < n, fromMiddle n (n - 1 - x) = -fromMiddle n x := by
      intro x hx
      unfold fromMiddle
      have : ((n - 1 - x : ℕ) : ℝ) = (n : ℝ) - 1 - x := by
        rw [Nat.cast_sub (by omega), Nat.cast_sub (by omega)]
        simp
      rw [this]
      ring
    rw [fftshift_even n he k hk, fftshift_even n he l hl, Bool.eq_iff_iff, C88_filter n hn, C88_filter n hn, e _ (fftshift_lt n k hk), e _ (fftshift_lt n l hl)]
    simp only [neg_sq]

/-- **C88** (dark zone): the dark zone of the apodizing phase plate goes from `iwa` to `owa` times half the number of pixels per lambda over D:
right only for two pixels. -/
theorem C88_app_zone (n p : ℕ) (hn : 2 ≤ n) (hp : 0 < p) (iwa owa : ℝ) (ho : 0 < owa) (i j : ℕ) :
    let res : ℝ := n / p
    appZone n p res iwa owa true i j = true ↔
      (iwa * (res / 2)) ^ 2 ≤ (fromMiddle n i / res) ^ 2 + (fromMiddle n j / res) ^ 2
      ∧ (fromMiddle n i / res) ^ 2 + (fromMiddle n j / res) ^ 2 < (owa * (res / 2)) ^ 2 := by
  intro res
  have hr : (0 : ℝ) < n := by exact_mod_cast (show 0 < n by omega)
  have hpr : (0 : ℝ) < p := by exact_mod_cast hp
  have hres : 0 < res := div_pos hr hpr
  have hres2 : (0 : ℝ) < res ^ 2 := by positivity
  have e : (fromMiddle n i / res) ^ 2 + (fromMiddle n j / res) ^ 2 = (fromMiddle n i ^ 2 + fromMiddle n j ^ 2) / res ^ 2 := by
    rw [div_pow (fromMiddle n i) res, div_pow (fromMiddle n j) res, ← add_div]
  unfold appZone
  simp only [if_true]
  rw [roundMask n hn, e, le_div_iff₀ hres2, div_lt_iff₀ hres2]
  have hn' : (n : ℝ) = res * p := by rw [div_mul_cancel₀ _ hpr.ne']
  have e1 : owa * res / p * (iwa / owa) * n / 2 = iwa * (res / 2) * res := by rw [hn']; field_simp
  have e2 : owa * res / p * n / 2 = owa * (res / 2) * res := by rw [hn']; field_simp
  rw [e1, e2, mul_pow _ res, mul_pow _ res]

/-- **C88** (dark zone, one side): when it is not symmetric, only the part right of the inner angle is kept. -/
theorem C88_app_side (n p : ℕ) (hn : 2 ≤ n) (hp : 0 < p) (iwa owa : ℝ) (hi0 : 0 ≤ iwa) (i j : ℕ) (hi : i < n) (hj : j < n) :
    let res : ℝ := n / p
    appZone n p res iwa owa false i j = true ↔ appZone n p res iwa owa true i j = true ∧ iwa * (res / 2) ≤ fromMiddle n j / res := by
  intro res
  have hr : (0 : ℝ) < n := by exact_mod_cast (show 0 < n by omega)
  have hpr : (0 : ℝ) < p := by exact_mod_cast hp
  have hres : 0 < res := div_pos hr hpr
  have hn' : (n : ℝ) = res * p := by rw [div_mul_cancel₀ _ hpr.ne']
  have b : ∀ x : ℕ, x < n → -1 ≤ 2 * fromMiddle n x / n ∧ 2 * fromMiddle n x / n ≤ 1 := by
    intro x hx
    have hxr : (x : ℝ) + 1 ≤ n := by exact_mod_cast hx
    have hx0 : (0 : ℝ) ≤ x := by positivity
    unfold fromMiddle
    constructor
    · rw [le_div_iff₀ hr]; linarith
    · rw [div_le_one hr]; linarith
  unfold appZone
  simp only [Bool.false_eq_true, if_false, if_true, Bool.and_eq_true]
  refine and_congr_right (fun _ => ?_)
  rw [plainMask_eq n hn]
  unfold maskShape
  simp only [if_true, mul_zero, abs_nonneg, decide_true, Bool.or_true, Bool.and_true, sub_zero, Bool.and_eq_true, decide_eq_true_eq]
  have e : 2 * fromMiddle n j / n = fromMiddle n j / res * (2 / p) := by rw [hn']; field_simp
  have e2 : iwa * res / p = iwa * (res / 2) * (2 / p) := by field_simp
  have h2p : (0 : ℝ) < 2 / p := by positivity
  rw [abs_le, abs_le]
  constructor
  · rintro ⟨⟨h1, -⟩, -⟩
    have : iwa * res / p ≤ 2 * fromMiddle n j / n := by linarith
    rw [e, e2, mul_le_mul_iff_left₀ h2p] at this
    exact this
  · intro h
    have h3 : iwa * res / p ≤ 2 * fromMiddle n j / n := by rw [e, e2, mul_le_mul_iff_left₀ h2p]; exact h
    have h4 : 0 ≤ iwa * res / p := by positivity
    exact ⟨⟨by linarith, by linarith [(b j hj).2]⟩, b i hi⟩

/-- **C88** (arguments): stops must have sizes that are not negative, the outer one not smaller; a knife edge excludes an outer working angle. A
phase-apodized Lyot coronagraph with knife edge, the default, cannot be made: the outer angle of its dark zone is both forbidden and needed. -/
theorem C88_arguments (inner outer : ℚ) (knife : Bool) (owa : Option ℚ) :
    (lyotArgs inner outer knife owa = true ↔ 0 ≤ inner ∧ inner ≤ outer ∧ (knife = true → owa = none)) ∧ paplArgs inner outer true owa = false := by
  constructor
  · have tr : inner ≤ outer → 0 ≤ inner → 0 ≤ outer := fun a b => le_trans b a
    unfold lyotArgs
    cases knife <;> cases owa <;> simp only [Bool.and_eq_true, Bool.not_eq_true', Bool.or_eq_false_iff, decide_eq_false_iff_not, not_lt, le_min_iff,
        Option.isSome_none, Option.isSome_some, Bool.and_false, Bool.and_true, Bool.false_and, Bool.not_false, Bool.not_true]
    all_goals first
      | (constructor
         · rintro h; exact ⟨by tauto, by tauto, by simp⟩
         · rintro ⟨a, b, -⟩; exact ⟨⟨⟨a, le_trans a b⟩, b⟩, by trivial⟩)
      | (simp; try exact tr)
  · unfold paplArgs lyotArgs
    cases owa <;> simp

/-- **C88** (resampling): when the grid is `r` times finer than the pupil, amplitudes come out `r ^ 2` times too large, if the real part of the mean
field is positive; otherwise they are divided by the smallest number of the type. -/
theorem C88_resampling (r q : ℕ) (hr : 0 < r) (eps : ℝ) (f : ℕ → ℕ → ℂ) (i j : ℕ) :
    let block : ℂ := (∑ x ∈ range r, ∑ y ∈ range r, f (i * r + x) (j * r + y)) / ((r : ℂ) * r)
    let total : ℂ := ∑ a ∈ range (q * r), ∑ b ∈ range (q * r), f a b
    (eps * (r : ℝ) ^ 2 < total.re → 0 ≤ eps → toccdField r q eps f i j = (r : ℂ) ^ 2 * block)
    ∧ (total.re < eps * (r : ℝ) ^ 2 → toccdField r q eps f i j = block * total / eps) := by
  intro block total
  have hrc : (r : ℂ) ≠ 0 := by exact_mod_cast hr.ne'
  have hrr : (0 : ℝ) < r := by exact_mod_cast hr
  have hsum : ∑ a ∈ range q, ∑ b ∈ range q, (∑ x ∈ range r, ∑ y ∈ range r, f (a * r + x) (b * r + y)) / ((r : ℂ) * r) = total / (r : ℂ) ^ 2 := by
    simp only [← sum_div]
    rw [pow_two]
    congr 1
    have e : ∀ a, ∑ b ∈ range q, ∑ x ∈ range r, ∑ y ∈ range r, f (a * r + x) (b * r + y) = ∑ x ∈ range r, ∑ b ∈ range (q * r), f (a * r + x) b := by
      intro a
      rw [sum_comm]
      refine sum_congr rfl (fun x _ => ?_)
      exact sum_blocks (fun b => f (a * r + x) b) q r
    simp only [e]
    exact sum_blocks (fun a => ∑ b ∈ range (q * r), f a b) q r
  have hre : (total / (r : ℂ) ^ 2).re = total.re / (r : ℝ) ^ 2 := by
    have : ((r : ℂ) ^ 2) = (((r : ℝ) ^ 2 : ℝ) : ℂ) := by push_cast; rfl
    rw [this, Complex.div_ofReal_re]
  constructor
  · intro h h0
    have h1 : eps < total.re / (r : ℝ) ^ 2 := by rw [lt_div_iff₀ (by positivity)]; exact h
    have ht : total ≠ 0 := by
      intro hc
      rw [hc] at h
      simp only [Complex.zero_re] at h
      have : 0 ≤ eps * (r : ℝ) ^ 2 := by positivity
      linarith
    unfold toccdField complexMax
    simp only
    rw [hsum, hre, if_neg (by
      rintro (hc | hc)
      · simp only [Complex.ofReal_re] at hc; linarith
      · have := hc.1; simp only [Complex.ofReal_re] at this; linarith)]
    show block / (total / (r : ℂ) ^ 2) * total = _
    field_simp
  · intro h
    have h1 : total.re / (r : ℝ) ^ 2 < eps := by rw [div_lt_iff₀ (by positivity)]; exact h
    unfold toccdField complexMax
    simp only
    rw [hsum, hre, if_pos (Or.inl (by simp only [Complex.ofReal_re]; exact h1))]
    show block / (eps : ℂ) * total = _
    ring

/-! Examples. -/

/-- A uniform field on two by two pixels in an array of eight by eight is symmetric: nothing on the axis behind the four-quadrant mask. -/
example : ∑ i ∈ range 2, ∑ j ∈ range 2, coroOut 8 6 2 false (fun _ _ => 1) (quadMask 8 Real.pi) (fun _ _ => 1) (fun _ _ => 1) i j = 0 :=
  C88_null_axis 8 6 2 (by norm_num) (by norm_num) (by norm_num) _ _ _ (fun _ _ _ _ => rfl) (fun _ _ _ _ => rfl)

/-- Inner angle 2, outer angle 3: everything is stopped. -/
example (i j : ℕ) : lyotMask 48 3 false 2 (some 3) i j = false := C88_lyot_empty 48 (by norm_num) 3 2 3 (by norm_num) (by norm_num) (by norm_num) (by norm_num) i j

example : lyotArgs 0 1 false (some 20) = true ∧ lyotArgs 0 1 true (some 20) = false ∧ lyotArgs (1 / 2) (1 / 4) false none = false := by decide +kernel

end Specula
