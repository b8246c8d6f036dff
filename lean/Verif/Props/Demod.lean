import Verif.Model.Demod
import Mathlib.Analysis.SpecialFunctions.Trigonometric.Bounds
/-
C61: demodulated amplitudes.  C62: the optical gain.
-/
namespace Specula

open Complex in
/-- The two averages of a window are the parts of one complex sum turned back by the phase of the carriers. -/
theorem window_complex (n : ℕ) (w dt φ : ℝ) (cur : ℕ → ℝ) :
    ((avgOf n fun i => cur i * Real.cos (w * (i * dt) - φ) : ℝ) : ℂ) + (avgOf n fun i => cur i * Real.sin (w * (i * dt) - φ) : ℝ) * I
      = (∑ i ∈ Finset.range n, (cur i : ℂ) * exp (((w * (i * dt) : ℝ) : ℂ) * I)) * exp (-((φ : ℝ) : ℂ) * I) / n := by
  unfold avgOf
  push_cast
  rw [Finset.sum_mul, div_mul_eq_mul_div, ← add_div, Finset.sum_mul, ← Finset.sum_add_distrib]
  congr 1
  refine Finset.sum_congr rfl fun i _ => ?_
  rw [mul_assoc (cur i : ℂ) (exp _) (exp _), ← Complex.exp_add]
  have : (w : ℂ) * (i * dt) * I + -(φ : ℂ) * I = ((w : ℂ) * (i * dt) - φ) * I := by ring
  rw [this, Complex.exp_mul_I]
  ring

open Complex in
/-- The amplitude of a window does not depend on the phase of the carriers: it is the modulus of one complex sum. -/
theorem windowAmp_eq (n : ℕ) (w dt φ : ℝ) (cur : ℕ → ℝ) :
    windowAmp n w dt φ cur = 2 / n * ‖∑ i ∈ Finset.range n, (cur i : ℂ) * exp (((w * (i * dt) : ℝ) : ℂ) * I)‖ := by
  set S := ∑ i ∈ Finset.range n, (cur i : ℂ) * exp (((w * (i * dt) : ℝ) : ℂ) * I) with hS
  have hz := window_complex n w dt φ cur
  rw [← hS] at hz
  have hn := congrArg norm hz
  rw [norm_div, norm_mul, ← Complex.ofReal_neg, Complex.norm_exp_ofReal_mul_I, mul_one, Complex.norm_natCast,
    Complex.norm_add_mul_I] at hn
  unfold windowAmp
  simp only
  rw [add_comm, hn]; ring

/-- The detrended signal is linear in the signal. -/
theorem detrended_linear (n : ℕ) (d a b : ℝ) (x y : ℕ → ℝ) (i : ℕ) :
    detrended n d (fun k => a * x k + b * y k) i = a * detrended n d x i + b * detrended n d y i := by
  have : avgOf n (fun k => a * x k + b * y k) = a * avgOf n x + b * avgOf n y := by
    unfold avgOf
    rw [Finset.sum_add_distrib, ← Finset.mul_sum, ← Finset.mul_sum]; ring
  simp only [detrended, this]; ring

/-- The mean cancels. -/
theorem detrended_eq (n : ℕ) (d : ℝ) (x : ℕ → ℝ) (i : ℕ) :
    detrended n d x i = x i - x 0 - (x (n - 1) - x 0) / d * i := by
  simp only [detrended]; ring

theorem windowAmp_smul (n : ℕ) (w dt φ φ' c : ℝ) (cur : ℕ → ℝ) :
    windowAmp n w dt φ (fun i => c * cur i) = |c| * windowAmp n w dt φ' cur := by
  rw [windowAmp_eq, windowAmp_eq]
  have : ∑ i ∈ Finset.range n, ((c * cur i : ℝ) : ℂ) * Complex.exp (((w * (i * dt) : ℝ) : ℂ) * Complex.I)
      = c * ∑ i ∈ Finset.range n, (cur i : ℂ) * Complex.exp (((w * (i * dt) : ℝ) : ℂ) * Complex.I) := by
    rw [Finset.mul_sum]
    refine Finset.sum_congr rfl fun i _ => ?_
    push_cast; ring
  rw [this, norm_mul, Complex.norm_real, Real.norm_eq_abs]; ring

theorem windowAmp_add_le (n : ℕ) (w dt φ φ₁ φ₂ : ℝ) (x y : ℕ → ℝ) :
    windowAmp n w dt φ (fun i => x i + y i) ≤ windowAmp n w dt φ₁ x + windowAmp n w dt φ₂ y := by
  rw [windowAmp_eq, windowAmp_eq, windowAmp_eq, ← mul_add]
  refine mul_le_mul_of_nonneg_left ?_ (by positivity)
  refine le_trans (le_of_eq ?_) (norm_add_le _ _)
  rw [← Finset.sum_add_distrib]
  congr 1
  refine Finset.sum_congr rfl fun i _ => ?_
  push_cast; ring

theorem windowAmp_nonneg (n : ℕ) (w dt φ : ℝ) (x : ℕ → ℝ) : 0 ≤ windowAmp n w dt φ x := by
  unfold windowAmp; positivity

/-- The demodulated amplitudes scale with the signal, are never negative and obey the triangle inequality. -/
theorem C61_seminorm (nt n4 : ℕ) (w dt : ℝ) (x y : ℕ → ℝ) (c : ℝ) :
    (demodSimple nt w dt (fun i => c * x i) = |c| * demodSimple nt w dt x ∧
     demodCumulated nt n4 w dt (fun i => c * x i) = |c| * demodCumulated nt n4 w dt x) ∧
    (0 ≤ demodSimple nt w dt x ∧ 0 ≤ demodCumulated nt n4 w dt x) ∧
    (demodSimple nt w dt (fun i => x i + y i) ≤ demodSimple nt w dt x + demodSimple nt w dt y ∧
     demodCumulated nt n4 w dt (fun i => x i + y i) ≤ demodCumulated nt n4 w dt x + demodCumulated nt n4 w dt y) := by
  have hs : ∀ n (d : ℝ) (z : ℕ → ℝ), detrended n d (fun i => c * z i) = fun i => c * detrended n d z i := fun n d z => by
    funext i
    have := detrended_linear n d c 0 z z i
    simpa using this
  have ha : ∀ n (d : ℝ), detrended n d (fun i => x i + y i) = fun i => detrended n d x i + detrended n d y i := fun n d => by
    funext i
    have := detrended_linear n d 1 1 x y i
    simpa using this
  have cs : ∀ j, cumAmp nt w dt (fun i => c * x i) j = |c| * cumAmp nt w dt x j := fun j => by
    unfold cumAmp
    rw [hs, windowAmp_smul _ _ _ _ (demodPhase nt w dt x)]
  have ca : ∀ j, cumAmp nt w dt (fun i => x i + y i) j ≤ cumAmp nt w dt x j + cumAmp nt w dt y j := fun j => by
    unfold cumAmp
    rw [ha]; exact windowAmp_add_le _ _ _ _ _ _ _ _
  have cn : ∀ j, 0 ≤ cumAmp nt w dt x j := fun j => windowAmp_nonneg _ _ _ _ _
  refine ⟨⟨?_, ?_⟩, ⟨windowAmp_nonneg _ _ _ _ _, ?_⟩, ⟨?_, ?_⟩⟩
  · unfold demodSimple
    rw [hs, windowAmp_smul _ _ _ _ (demodPhase nt w dt x)]
  · unfold demodCumulated
    dsimp only
    split_ifs
    · simp only [cs]
      rw [← Finset.mul_sum, mul_div_assoc]
    · exact cs _
    · simp
  · unfold demodCumulated
    dsimp only
    split_ifs
    · exact div_nonneg (Finset.sum_nonneg fun k _ => cn _) (Nat.cast_nonneg _)
    · exact cn _
    · exact le_refl _
  · unfold demodSimple
    rw [ha]; exact windowAmp_add_le _ _ _ _ _ _ _ _
  · unfold demodCumulated
    dsimp only
    split_ifs
    · rw [← add_div, ← Finset.sum_add_distrib]
      exact div_le_div_of_nonneg_right (Finset.sum_le_sum fun k _ => ca _) (Nat.cast_nonneg _)
    · exact ca _
    · simp

/-- An offset never matters; with `cumulated=True` neither does a ramp. -/
theorem C61_trend (nt n4 : ℕ) (w dt : ℝ) (x : ℕ → ℝ) (a b : ℝ) :
    demodSimple nt w dt (fun i => x i + a) = demodSimple nt w dt x ∧
    demodCumulated nt n4 w dt (fun i => x i + a + b * i) = demodCumulated nt n4 w dt x := by
  constructor
  · have : ∀ n (d : ℝ), detrended n d (fun i => x i + a) = detrended n d x := fun n d => by
      funext i; simp only [detrended_eq]; ring
    unfold demodSimple
    rw [this, windowAmp_eq, windowAmp_eq]
  · have : ∀ j : ℕ, 0 < j → cumAmp nt w dt (fun i => x i + a + b * i) j = cumAmp nt w dt x j := fun j hj => by
      have hd : detrended (j + 1) j (fun i => x i + a + b * i) = detrended (j + 1) j x := by
        funext i
        have hj' : (j : ℝ) ≠ 0 := by exact_mod_cast hj.ne'
        simp only [detrended_eq, Nat.add_sub_cancel]
        push_cast
        field_simp
        ring
      unfold cumAmp
      rw [hd, windowAmp_eq, windowAmp_eq]
    unfold demodCumulated
    dsimp only
    split_ifs
    · congr 1
      exact Finset.sum_congr rfl fun k _ => this _ (by omega)
    · exact this _ (by omega)
    · rfl

/-- With `cumulated=False` a ramp is not removed: the tilt is divided by the number of samples instead of the number of steps, which
leaves one part in `nt` of it. -/
theorem C61_simple_keeps_ramp (nt : ℕ) (hnt : 0 < nt) (b : ℝ) (i : ℕ) :
    detrended nt nt (fun k => b * k) i = b * i / nt := by
  have : (nt : ℝ) ≠ 0 := by exact_mod_cast hnt.ne'
  rw [detrended_eq, Nat.cast_sub hnt]
  field_simp
  push_cast; ring

theorem C61_simple_ramp_amplitude : demodSimple 2 Real.pi 1 (fun k => 4 * k) = 2 := by
  have h : detrended 2 2 (fun k => 4 * (k : ℝ)) = fun i : ℕ => 2 * (i : ℝ) := by
    funext i
    have := C61_simple_keeps_ramp 2 (by norm_num) 4 i
    push_cast at this
    rw [this]; ring
  unfold demodSimple
  push_cast
  rw [h, windowAmp_eq]
  simp [Finset.sum_range_succ, Complex.exp_pi_mul_I]

open Complex in
/-- The complex sum of a sine wave sampled over whole periods: the wanted amplitude and phase, and what the tilt leaves. -/
theorem sine_sum (nt m : ℕ) (w dt A ψ : ℝ) (hnt : 0 < nt) (hper : nt * (w * dt) = m * (2 * Real.pi))
    (h1 : exp (((w * dt : ℝ) : ℂ) * I) ^ 2 ≠ 1) :
    let x : ℕ → ℝ := fun i => A * Real.cos (w * (i * dt) - ψ)
    ∑ i ∈ Finset.range nt, ((detrended nt nt x i : ℝ) : ℂ) * exp (((w * (i * dt) : ℝ) : ℂ) * I)
      = nt * (A / 2) * exp ((ψ : ℂ) * I)
        - ((x (nt - 1) - x 0) / nt : ℝ) * ∑ i ∈ Finset.range nt, (i : ℂ) * exp (((w * dt : ℝ) : ℂ) * I) ^ i := by
  intro x
  set z := exp (((w * dt : ℝ) : ℂ) * I) with hz
  have hx : x = fun i : ℕ => A * Real.cos (w * (i * dt) - ψ) := rfl
  have hpow : ∀ i : ℕ, exp (((w * (i * dt) : ℝ) : ℂ) * I) = z ^ i := fun i => by
    rw [hz, ← Complex.exp_nat_mul]; congr 1; push_cast; ring
  have hznt : z ^ nt = 1 := by
    rw [← hpow]
    have : ((w * (nt * dt) : ℝ) : ℂ) * I = m * (2 * Real.pi * I) := by
      have : w * (nt * dt) = m * (2 * Real.pi) := by rw [← hper]; ring
      rw [this]; push_cast; ring
    rw [this]
    exact Complex.exp_nat_mul_two_pi_mul_I m
  have hz1 : z ≠ 1 := fun h => h1 (by rw [h]; simp)
  have hn0 : (nt : ℝ) ≠ 0 := by exact_mod_cast hnt.ne'
  have hn0' : (nt : ℂ) ≠ 0 := by exact_mod_cast hnt.ne'
  have geo : ∑ i ∈ Finset.range nt, z ^ i = 0 := by
    rw [geom_sum_eq hz1, hznt, sub_self, zero_div]
  have geo2 : ∑ i ∈ Finset.range nt, (z ^ 2) ^ i = 0 := by
    rw [geom_sum_eq h1, ← pow_mul, mul_comm, pow_mul, hznt, one_pow, sub_self, zero_div]
  have hz0 : ‖z‖ = 1 := Complex.norm_exp_ofReal_mul_I _
  have hzne : z ≠ 0 := fun h => by rw [h] at hz0; simp at hz0
  set τ := (x (nt - 1) - x 0) / nt with hτ
  -- the sum of the signal times the carrier
  have hxz : ∑ i ∈ Finset.range nt, (x i : ℂ) * z ^ i = nt * (A / 2) * exp ((ψ : ℂ) * I) := by
    have hterm : ∀ i : ℕ, (x i : ℂ) * z ^ i = A / 2 * exp (-(ψ : ℂ) * I) * (z ^ 2) ^ i + A / 2 * exp ((ψ : ℂ) * I) := by
      intro i
      have hc : ((Real.cos (w * (i * dt) - ψ) : ℝ) : ℂ)
          = (z ^ i * exp (-(ψ : ℂ) * I) + (z ^ i)⁻¹ * exp ((ψ : ℂ) * I)) / 2 := by
        rw [Complex.ofReal_cos, Complex.cos, ← hpow, ← Complex.exp_neg, ← Complex.exp_add, ← Complex.exp_add]
        congr 2 <;> congr 1 <;> push_cast <;> ring
      have hzi : z ^ i ≠ 0 := pow_ne_zero _ hzne
      rw [hx]
      push_cast
      have hc' : Complex.cos ((w : ℂ) * (i * dt) - ψ) = ((Real.cos (w * (i * dt) - ψ) : ℝ) : ℂ) := by push_cast; rfl
      rw [hc', hc, ← pow_mul, mul_comm 2 i, pow_mul]
      field_simp
    rw [Finset.sum_congr rfl fun i _ => hterm i, Finset.sum_add_distrib, ← Finset.mul_sum, geo2]
    simp; ring
  have hterm : ∀ i : ℕ, ((detrended nt nt x i : ℝ) : ℂ) * exp (((w * (i * dt) : ℝ) : ℂ) * I)
      = (x i : ℂ) * z ^ i - x 0 * z ^ i - τ * ((i : ℂ) * z ^ i) := by
    intro i
    rw [hpow, detrended_eq, ← hτ]; push_cast; ring
  rw [Finset.sum_congr rfl fun i _ => hterm i, Finset.sum_sub_distrib, Finset.sum_sub_distrib, ← Finset.mul_sum, ← Finset.mul_sum,
    geo, hxz]
  ring

open Complex in
/-- A sine wave sampled over a whole number of periods: the amplitude found with `cumulated=False` is right up to the difference between
the last and the first sample, hence up to the phase of one step. -/
theorem C61_sine (nt m : ℕ) (w dt A ψ : ℝ) (hnt : 0 < nt) (hA : 0 ≤ A) (hper : nt * (w * dt) = m * (2 * Real.pi))
    (h1 : exp (((w * dt : ℝ) : ℂ) * I) ^ 2 ≠ 1) :
    |demodSimple nt w dt (fun i => A * Real.cos (w * (i * dt) - ψ)) - A|
      ≤ |A * Real.cos (w * ((nt - 1 : ℕ) * dt) - ψ) - A * Real.cos ψ| ∧
    |demodSimple nt w dt (fun i => A * Real.cos (w * (i * dt) - ψ)) - A| ≤ A * |w * dt| := by
  set z := exp (((w * dt : ℝ) : ℂ) * I) with hz
  have hS := sine_sum nt m w dt A ψ hnt hper h1
  simp only at hS
  set x : ℕ → ℝ := fun i => A * Real.cos (w * (i * dt) - ψ) with hx
  have hn0 : (nt : ℝ) ≠ 0 := by exact_mod_cast hnt.ne'
  have hz0 : ‖z‖ = 1 := Complex.norm_exp_ofReal_mul_I _
  set τ := (x (nt - 1) - x 0) / nt with hτ
  have hmain : |demodSimple nt w dt x - A| ≤ |x (nt - 1) - x 0| := by
    unfold demodSimple
    rw [windowAmp_eq, hS]
    set R := ∑ i ∈ Finset.range nt, (i : ℂ) * z ^ i with hR
    have hRn : ‖R‖ ≤ nt * (nt - 1) / 2 := by
      refine (norm_sum_le _ _).trans ?_
      have : ∀ i ∈ Finset.range nt, ‖(i : ℂ) * z ^ i‖ = (i : ℝ) := fun i _ => by
        rw [norm_mul, norm_pow, hz0, one_pow, mul_one, Complex.norm_natCast]
      rw [Finset.sum_congr rfl this, ← Nat.cast_sum, Finset.sum_range_id]
      have h2 : 2 ∣ nt * (nt - 1) := by
        have := Nat.even_mul_pred_self nt
        exact this.two_dvd
      rw [Nat.cast_div h2 (by norm_num), Nat.cast_mul, Nat.cast_sub hnt]
      simp
    have hA2 : ‖(nt : ℂ) * (A / 2) * exp ((ψ : ℂ) * I)‖ = nt * (A / 2) := by
      rw [norm_mul, Complex.norm_exp_ofReal_mul_I, mul_one]
      have : (nt : ℂ) * ((A : ℂ) / 2) = ((nt * (A / 2) : ℝ) : ℂ) := by push_cast; ring
      rw [this, Complex.norm_real, Real.norm_of_nonneg (by positivity)]
    have hdiff : |‖(nt : ℂ) * (A / 2) * exp ((ψ : ℂ) * I) - τ * R‖ - nt * (A / 2)| ≤ |τ| * (nt * (nt - 1) / 2) := by
      rw [← hA2]
      refine (abs_norm_sub_norm_le _ _).trans ?_
      rw [sub_sub_cancel_left, norm_neg, norm_mul, Complex.norm_real, Real.norm_eq_abs]
      exact mul_le_mul_of_nonneg_left hRn (abs_nonneg _)
    have e : 2 / (nt : ℝ) * ‖(nt : ℂ) * (A / 2) * exp ((ψ : ℂ) * I) - τ * R‖ - A
        = 2 / nt * (‖(nt : ℂ) * (A / 2) * exp ((ψ : ℂ) * I) - τ * R‖ - nt * (A / 2)) := by
      field_simp
    rw [e, abs_mul, abs_of_nonneg (by positivity : (0 : ℝ) ≤ 2 / nt)]
    refine (mul_le_mul_of_nonneg_left hdiff (by positivity)).trans ?_
    have hτa : |τ| = |x (nt - 1) - x 0| / nt := by rw [hτ, abs_div, abs_of_nonneg (a := (nt : ℝ)) (Nat.cast_nonneg nt)]
    rw [hτa]
    have hn1 : (1 : ℝ) ≤ nt := by exact_mod_cast hnt
    have : 2 / (nt : ℝ) * (|x (nt - 1) - x 0| / nt * (nt * (nt - 1) / 2)) = |x (nt - 1) - x 0| * ((nt - 1) / nt) := by
      field_simp
    rw [this]
    refine mul_le_of_le_one_right (abs_nonneg _) ?_
    rw [div_le_one (by positivity)]; linarith
  have hx0 : x 0 = A * Real.cos ψ := by
    simp only [hx, Nat.cast_zero, zero_mul, mul_zero, zero_sub, Real.cos_neg]
  refine ⟨by rw [← hx0]; exact hmain, hmain.trans ?_⟩
  have hlast : x (nt - 1) = A * Real.cos (-(w * dt) - ψ) := by
    have e : w * (((nt - 1 : ℕ) : ℝ) * dt) - ψ = -(w * dt) - ψ + m * (2 * Real.pi) := by
      rw [Nat.cast_sub hnt, ← hper]; push_cast; ring
    simp only [hx]
    rw [e, Real.cos_add_nat_mul_two_pi]
  rw [hlast, hx0, ← mul_sub, abs_mul, abs_of_nonneg hA]
  refine mul_le_mul_of_nonneg_left ?_ hA
  have := Real.abs_cos_sub_cos_le (-(w * dt) - ψ) (-ψ)
  rw [Real.cos_neg] at this
  refine this.trans (le_of_eq ?_)
  rw [← abs_neg]; congr 1; ring

open Complex in
/-- The second pass does not change the phase: it is the argument of the complex sum. -/
theorem C61_phase (nt : ℕ) (w dt : ℝ) (x : ℕ → ℝ) :
    demodSimplePhase nt w dt x = demodPhase nt w dt x ∧
    demodPhase nt w dt x = arg (∑ i ∈ Finset.range nt, ((detrended nt nt x i : ℝ) : ℂ) * exp (((w * (i * dt) : ℝ) : ℂ) * I)) := by
  set S := ∑ i ∈ Finset.range nt, ((detrended nt nt x i : ℝ) : ℂ) * exp (((w * (i * dt) : ℝ) : ℂ) * I) with hS
  have h0 := window_complex nt w dt 0 (detrended nt nt x)
  have hφ := window_complex nt w dt (demodPhase nt w dt x) (detrended nt nt x)
  rw [← hS] at h0 hφ
  have hmk : ∀ a b : ℝ, arctan2 b a = arg ((a : ℂ) + b * I) := fun a b => by
    unfold arctan2; congr 1; apply Complex.ext <;> simp
  have href : demodPhase nt w dt x = arg S := by
    unfold demodPhase
    simp only [sub_zero] at h0
    simp only [hmk, h0]
    rcases Nat.eq_zero_or_pos nt with hn | hn
    · subst hn; simp [hS]
    · have : S * exp (-((0 : ℝ) : ℂ) * I) / nt = ((1 / nt : ℝ) : ℂ) * S := by simp; ring
      rw [this, Complex.arg_real_mul _ (by positivity)]
  refine ⟨?_, href⟩
  unfold demodSimplePhase
  simp only [hmk, hφ]
  rw [add_eq_right, href]
  have : S * exp (-((arg S : ℝ) : ℂ) * I) / nt = ((‖S‖ / nt : ℝ) : ℂ) := by
    have h : S * exp (-((arg S : ℝ) : ℂ) * I) = ‖S‖ := by
      calc S * exp (-((arg S : ℝ) : ℂ) * I) = ‖S‖ * exp (arg S * I) * exp (-((arg S : ℝ) : ℂ) * I) := by
            rw [Complex.norm_mul_exp_arg_mul_I S]
        _ = ‖S‖ := by rw [mul_assoc, ← Complex.exp_add]; simp
    rw [h]; push_cast; rfl
  rw [this, Complex.arg_ofReal_of_nonneg (by positivity)]

open Complex in
/-- If moreover the last sample of the sine wave equals the first one, amplitude and phase are exact. -/
theorem C61_sine_exact (nt m : ℕ) (w dt A ψ : ℝ) (hnt : 0 < nt) (hA : 0 < A) (hψ : -Real.pi < ψ ∧ ψ ≤ Real.pi)
    (hper : nt * (w * dt) = m * (2 * Real.pi)) (h1 : exp (((w * dt : ℝ) : ℂ) * I) ^ 2 ≠ 1)
    (hends : Real.cos (w * ((nt - 1 : ℕ) * dt) - ψ) = Real.cos ψ) :
    demodSimple nt w dt (fun i => A * Real.cos (w * (i * dt) - ψ)) = A ∧
    demodSimplePhase nt w dt (fun i => A * Real.cos (w * (i * dt) - ψ)) = ψ := by
  constructor
  · have := (C61_sine nt m w dt A ψ hnt hA.le hper h1).1
    rw [hends, sub_self, abs_zero] at this
    linarith [abs_eq_zero.1 (le_antisymm this (abs_nonneg _))]
  · rw [(C61_phase _ _ _ _).1, (C61_phase _ _ _ _).2, sine_sum nt m w dt A ψ hnt hper h1]
    simp only [hends, Nat.cast_zero, zero_mul, mul_zero, zero_sub, Real.cos_neg, sub_self, zero_div, Complex.ofReal_zero, sub_zero]
    have : (nt : ℂ) * (A / 2) * exp ((ψ : ℂ) * I) = ((nt * (A / 2) : ℝ) : ℂ) * exp ((ψ : ℂ) * I) := by push_cast; ring
    have hp : (0 : ℝ) < nt * (A / 2) := by positivity
    rw [this, Complex.arg_real_mul _ hp, Complex.arg_exp_mul_I, toIocMod_eq_self]
    rw [Set.mem_Ioc]; constructor <;> linarith [hψ.1, hψ.2, Real.pi_pos]

-- Four samples per period, phase -π/4: first and last sample agree.
example : Real.cos (Real.pi / 2 * ((4 - 1 : ℕ) * 1) - -(Real.pi / 4)) = Real.cos (-(Real.pi / 4)) := by
  have : Real.pi / 2 * (((4 - 1 : ℕ) : ℝ) * 1) - -(Real.pi / 4) = -(Real.pi / 4) + 2 * Real.pi := by push_cast; ring
  rw [this, Real.cos_add_two_pi]

-- Four samples per period, one period: the hypotheses of C61_sine hold.
example : Complex.exp (((Real.pi / 2 * 1 : ℝ) : ℂ) * Complex.I) ^ 2 ≠ 1 ∧ ((4 : ℕ) : ℝ) * (Real.pi / 2 * 1) = ((1 : ℕ) : ℝ) * (2 * Real.pi) := by
  constructor
  · rw [← Complex.exp_nat_mul]
    have : ((2 : ℕ) : ℂ) * (((Real.pi / 2 * 1 : ℝ) : ℂ) * Complex.I) = Real.pi * Complex.I := by push_cast; ring
    rw [this, Complex.exp_pi_mul_I]; norm_num
  · push_cast; ring

/-! ### The Demodulator object -/

section
variable {V : Type} [Zero V]

/-- The object gives a new output exactly when the next time is a multiple of the demodulation interval. -/
theorem C61_fires (modes : List ℕ) (f : ℕ → List V → V) (loopDt demodDt : ℤ) (st : DemodSt V) (t : ℤ) (data : List V) :
    (demodTrigger modes f loopDt demodDt st t data).hist = [] ↔ demodDt ∣ t + loopDt := by
  unfold demodTrigger
  have : (t + loopDt - demodDt) % demodDt = 0 ↔ demodDt ∣ t + loopDt := by
    rw [← Int.dvd_iff_emod_eq_zero]
    exact dvd_sub_self_right
  rw [← this]
  simp only
  split_ifs with h
  · exact ⟨fun _ => h, fun _ => rfl⟩
  · exact ⟨fun hc => absurd hc (by simp), fun hc => absurd hc h⟩

/-- Over any run with an interval of `N` steps: every output is computed from the `N` inputs of one block, the blocks follow each other
without gap or overlap, and the output is marked with the time of the last input of the block. -/
theorem C61_blocks (modes : List ℕ) (f : ℕ → List V → V) (loopDt : ℤ) (hdt : 0 < loopDt) (N : ℕ) (hN : 0 < N) (data : ℕ → List V) (n : ℕ) :
    let st := demodRun modes f loopDt (N * loopDt) data n
    st.hist = (List.range (n % N)).map (fun k : ℕ => data (n / N * N + k)) ∧
    (n < N → st.out = List.replicate modes.length 0 ∧ st.genT = none) ∧
    (N ≤ n → st.genT = some (((n / N * N - 1 : ℕ) : ℤ) * loopDt) ∧
      st.out = (List.range modes.length).map fun i : ℕ => f i ((List.range N).map fun k : ℕ => (data ((n / N - 1) * N + k)).getD i 0)) := by
  intro st
  simp only [st]
  induction n with
  | zero => exact ⟨by simp [demodRun, demodInit], fun _ => ⟨rfl, rfl⟩, fun h => by omega⟩
  | succ n ih =>
    obtain ⟨i1, i2, i3⟩ := ih
    have hfire : ((n : ℤ) * loopDt + loopDt - N * loopDt) % (N * loopDt) = 0 ↔ (n + 1) % N = 0 := by
      have e : (n : ℤ) * loopDt + loopDt - N * loopDt = ((n : ℤ) + 1 - N) * loopDt := by ring
      rw [e, mul_comm _ loopDt, mul_comm (N : ℤ), Int.mul_emod_mul_of_pos _ _ hdt]
      have h2 : ((n : ℤ) + 1 - N) % N = ((n + 1 : ℕ) : ℤ) % (N : ℤ) := by
        rw [Int.sub_emod_right]; push_cast; rfl
      rw [h2, ← Int.natCast_mod]
      constructor
      · intro h
        rcases mul_eq_zero.1 h with h | h
        · omega
        · exact_mod_cast h
      · intro h; rw [h]; simp
    rw [demodRun]
    unfold demodTrigger
    simp only
    have hdm := Nat.div_add_mod n N
    by_cases hm : (n + 1) % N = 0
    · rw [if_pos (hfire.2 hm)]
      have hmod : n % N = N - 1 := by
        have := Nat.mod_lt n hN
        rcases Nat.lt_or_ge (n % N + 1) N with h | h
        · rw [Nat.add_mod, Nat.mod_eq_of_lt (show 1 < N by omega), Nat.mod_eq_of_lt h] at hm; omega
        · omega
      have hdiv : (n + 1) / N = n / N + 1 := by
        have : n + 1 = N * (n / N + 1) := by rw [Nat.mul_add]; omega
        rw [this, Nat.mul_div_cancel_left _ hN]
      refine ⟨by simp [hm], fun h => ?_, fun _ => ⟨?_, ?_⟩⟩
      · rw [Nat.mod_eq_of_lt h] at hm; omega
      · have : (n + 1) / N * N = n + 1 := Nat.div_mul_cancel (Nat.dvd_of_mod_eq_zero hm)
        rw [this]; simp
      · rw [hdiv, Nat.add_sub_cancel, i1, hmod]
        refine List.map_congr_left fun i _ => ?_
        congr 1
        have hsnoc : (List.range N).map (fun k : ℕ => (data (n / N * N + k)).getD i 0)
            = (List.range (N - 1)).map (fun k : ℕ => (data (n / N * N + k)).getD i 0) ++ [(data (n / N * N + (N - 1))).getD i 0] := by
          obtain ⟨M, rfl⟩ : ∃ M, N = M + 1 := ⟨N - 1, by omega⟩
          simp [List.range_succ]
        rw [hsnoc, List.map_append, List.map_map]
        have hn : n / N * N + (N - 1) = n := by rw [← hmod]; rw [mul_comm]; exact hdm
        rw [hn]; rfl
    · rw [if_neg fun h => hm (hfire.1 h)]
      have hmod : (n + 1) % N = n % N + 1 := by
        have := Nat.mod_lt n hN
        rcases Nat.lt_or_ge (n % N + 1) N with h | h
        · rw [Nat.add_mod, Nat.mod_eq_of_lt (show 1 < N by omega), Nat.mod_eq_of_lt h]
        · have h2 : n % N = N - 1 := by omega
          exfalso; apply hm
          have : n + 1 = N * (n / N + 1) := by rw [Nat.mul_add]; omega
          rw [this, Nat.mul_mod_right]
      have hdiv : (n + 1) / N = n / N := by
        have h1 := Nat.div_add_mod (n + 1) N
        rw [hmod] at h1
        have : N * ((n + 1) / N) = N * (n / N) := by omega
        exact Nat.eq_of_mul_eq_mul_left hN this
      refine ⟨?_, fun h => i2 (by omega), fun h => ?_⟩
      · dsimp only
        rw [i1, hmod, hdiv, List.range_succ, List.map_append]
        congr 1
        simp only [List.map_cons, List.map_nil]
        congr 2; rw [mul_comm]; exact hdm.symm
      · rw [hdiv]
        refine i3 ?_
        by_contra hc
        have : n + 1 = N := by omega
        rw [this, Nat.mod_self] at hm; exact hm rfl

example : (demodRun [0] (fun _ l => l.sum) 1000 (3 * 1000) (fun n => [n]) 7).out = [3 + 4 + 5] := by decide

/-- The mode numbers are not used with one-dimensional inputs: the first mode asked for is always the first element.  (So `mode_numbers`
must be `0, 1, …` to get what it says.) -/
theorem C61_modes_ignored (modes modes' : List ℕ) (h : modes.length = modes'.length) (f : ℕ → List V → V) (loopDt demodDt : ℤ)
    (data : ℕ → List V) (n : ℕ) :
    demodRun modes f loopDt demodDt data n = demodRun modes' f loopDt demodDt data n := by
  induction n with
  | zero => simp [demodRun, demodInit, h]
  | succ n ih => simp [demodRun, demodTrigger, ih, h]

theorem C61_wrong_mode : (demodRun [1] (fun _ l => l.sum) 1000 (2 * 1000) (fun _ => [5, 7]) 2).out = [10] := by decide

end

/-! ### The optical gain -/

/-- The estimate changes only with two new inputs and a command that is not negligible, and then by the documented formula; the output is
the estimate limited to one. -/
theorem C62_update (g : ℝ) (st : OgSt) (fresh : Bool) (delta cmd : ℝ) :
    (fresh = true ∧ 1e-12 < |cmd| → (ogTrigger g st fresh delta cmd).gain = st.gain - (1 - delta / cmd) * g * st.gain) ∧
    (fresh = false ∨ |cmd| ≤ 1e-12 → (ogTrigger g st fresh delta cmd).gain = st.gain) ∧
    ((ogTrigger g st fresh delta cmd).out ≤ 1 ∧ (ogTrigger g st fresh delta cmd).out ≤ (ogTrigger g st fresh delta cmd).gain ∧
      ((ogTrigger g st fresh delta cmd).gain ≤ 1 → (ogTrigger g st fresh delta cmd).out = (ogTrigger g st fresh delta cmd).gain)) := by
  refine ⟨fun ⟨h1, h2⟩ => ?_, fun h => ?_, ?_, ?_, fun h => ?_⟩
  · simp only [ogTrigger, h1, if_true]; rw [if_pos h2]
  · simp only [ogTrigger]
    rcases h with h | h
    · simp [h]
    · cases fresh
      · simp
      · simp only [if_true]; rw [if_neg (not_lt.2 h)]
  · exact min_le_right _ _
  · exact min_le_left _ _
  · exact min_eq_left h

/-- The estimates after `n` updates when the ratio of the two demodulated signals is the true gain divided by the current estimate (the
signal measured with the true gain and rescaled with the estimate). -/
noncomputable def ogLoop (g c : ℝ) (cmd : ℕ → ℝ) (og0 : ℝ) : ℕ → OgSt
  | 0 => ⟨og0, min og0 1⟩
  | n + 1 =>
    let st := ogLoop g c cmd og0 n
    ogTrigger g st true (c / st.gain * cmd n) (cmd n)

/-- In such a loop the error of the estimate shrinks by the factor `1 - g` at each update, so for `0 < g ≤ 1` it converges to the true
gain. -/
theorem C62_converges (g c og0 : ℝ) (hg : 0 < g ∧ g ≤ 1) (hc : 0 < c) (h0 : 0 < og0) (cmd : ℕ → ℝ) (hcmd : ∀ n, 1e-12 < |cmd n|) :
    (∀ n, (ogLoop g c cmd og0 n).gain - c = (1 - g) ^ n * (og0 - c)) ∧
    Filter.Tendsto (fun n => (ogLoop g c cmd og0 n).gain) Filter.atTop (nhds c) := by
  have key : ∀ n, (ogLoop g c cmd og0 n).gain - c = (1 - g) ^ n * (og0 - c) := by
    intro n
    induction n with
    | zero => simp [ogLoop]
    | succ n ih =>
      have hpos : 0 < (ogLoop g c cmd og0 n).gain := by
        have h1 : (ogLoop g c cmd og0 n).gain = c * (1 - (1 - g) ^ n) + (1 - g) ^ n * og0 := by linarith
        have h2 : 0 ≤ (1 - g) ^ n := pow_nonneg (by linarith [hg.2]) n
        have h3 : (1 - g) ^ n ≤ 1 := pow_le_one₀ (by linarith [hg.2]) (by linarith [hg.1])
        rw [h1]
        rcases h3.lt_or_eq with h | h
        · have := mul_pos hc (by linarith : 0 < 1 - (1 - g) ^ n)
          have := mul_nonneg h2 h0.le
          linarith
        · rw [h]; linarith
      have hne : cmd n ≠ 0 := fun h => by have := hcmd n; rw [h, abs_zero] at this; norm_num at this
      have hr : c / (ogLoop g c cmd og0 n).gain * cmd n / cmd n = c / (ogLoop g c cmd og0 n).gain := by field_simp
      rw [ogLoop, (C62_update g _ true _ _).1 ⟨rfl, hcmd n⟩, hr, pow_succ]
      have : (ogLoop g c cmd og0 n).gain - (1 - c / (ogLoop g c cmd og0 n).gain) * g * (ogLoop g c cmd og0 n).gain - c
          = (1 - g) * ((ogLoop g c cmd og0 n).gain - c) := by field_simp; ring
      rw [this, ih]; ring
  refine ⟨key, ?_⟩
  have h1 : Filter.Tendsto (fun n : ℕ => (1 - g) ^ n * (og0 - c) + c) Filter.atTop (nhds (0 * (og0 - c) + c)) :=
    ((tendsto_pow_atTop_nhds_zero_of_lt_one (by linarith [hg.2]) (by linarith [hg.1])).mul_const _).add_const _
  rw [zero_mul, zero_add] at h1
  refine h1.congr fun n => ?_
  rw [← key]; ring

example : (ogLoop (1/2) (1/2) (fun _ => 3) 1 2).gain = 5/8 := by
  have := (C62_converges (1/2) (1/2) 1 (by norm_num) (by norm_num) (by norm_num) (fun _ => 3) (fun _ => by norm_num)).1 2
  norm_num at this ⊢; linarith

end Specula
