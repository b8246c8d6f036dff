import Verif.Model.LowPass
import Verif.Props.Stability
import Mathlib.FieldTheory.KummerExtension
import Mathlib.RingTheory.RootsOfUnity.Complex
import Mathlib.Analysis.SpecialFunctions.Trigonometric.Deriv

/-!
# C100: the low pass filters
-/

namespace Specula

open Polynomial Filter Topology

noncomputable section

/-! ### Specification -/

/-- The filter `c` answers a sampled sinusoid of `θ` radians per step, whatever its amplitude and phase `A`, with the same sinusoid times `H`,
once the transient has died out. -/
def HasResponse (c : IirCoef ℝ) (θ : ℝ) (H : ℂ) : Prop :=
  ∀ A : ℂ, Tendsto (fun n : ℕ => iirOut c true (fun _ => 1) (fun k : ℕ => (A * Complex.exp (θ * k * Complex.I)).re) n -
    (A * H * Complex.exp (θ * n * Complex.I)).re) atTop (𝓝 0)

/-- Bounded inputs give bounded outputs. -/
def BoundedOut (c : IirCoef ℝ) : Prop :=
  ∀ u : ℕ → ℝ, (∃ M, ∀ n, |u n| ≤ M) → ∃ M, ∀ n, |iirOut c true (fun _ => 1) u n| ≤ M

/-! ### Filters with their poles inside the unit circle -/

structure PolesInside (c : IirCoef ℝ) : Prop where
  len : c.num.length = c.den.length
  last : c.den.getLastD 0 ≠ 0
  poles : ∀ z, (polyOf c.den).eval z = 0 → ‖z‖ < 1

theorem PolesInside.ne {c : IirCoef ℝ} (h : PolesInside c) : polyOf c.den ≠ 0 := by
  intro h0
  have := h.poles 1 (by rw [h0]; simp)
  simp at this

theorem PolesInside.roots {c : IirCoef ℝ} (h : PolesInside c) : ∀ z ∈ (polyOf c.den).roots, ‖z‖ < 1 := by
  intro z hz
  exact h.poles z ((mem_roots h.ne).1 hz)

theorem eval_polyOf (l : List ℝ) (z : ℂ) : (polyOf l).eval z = ∑ i ∈ Finset.range l.length, ((l.getD i 0 : ℝ) : ℂ) * z ^ i := by
  unfold polyOf
  rw [eval_finsetSum]
  exact Finset.sum_congr rfl fun i _ => by rw [eval_monomial]

/-- A polynomial in the shift acts on the real part of a geometric sequence by its value. -/
theorem aeval_re (l : List ℝ) (B z : ℂ) (n : ℕ) :
    aeval shiftE (polyOf l) (fun k : ℕ => (((B * z ^ k).re : ℝ) : ℂ)) n = (((B * (polyOf l).eval z * z ^ n).re : ℝ) : ℂ) := by
  rw [aeval_shiftE, eval_polyOf]
  have e : B * (∑ i ∈ Finset.range l.length, ((l.getD i 0 : ℝ) : ℂ) * z ^ i) * z ^ n =
      ∑ i ∈ Finset.range l.length, ((l.getD i 0 : ℝ) : ℂ) * (B * z ^ (n + i)) := by
    rw [Finset.mul_sum, Finset.sum_mul]
    exact Finset.sum_congr rfl fun i _ => by rw [pow_add]; ring
  rw [e, Complex.re_sum]
  push_cast
  exact Finset.sum_congr rfl fun i _ => by rw [Complex.re_ofReal_mul]; push_cast; ring

theorem exp_tone (θ : ℝ) (n : ℕ) : Complex.exp (θ * n * Complex.I) = Complex.exp (θ * Complex.I) ^ n := by
  rw [← Complex.exp_nat_mul]; congr 1; ring

theorem norm_tone (θ : ℝ) : ‖Complex.exp (θ * Complex.I)‖ = 1 := Complex.norm_exp_ofReal_mul_I θ

theorem PolesInside.response {c : IirCoef ℝ} (h : PolesInside c) (θ : ℝ) :
    HasResponse c θ ((polyOf c.num).eval (Complex.exp (θ * Complex.I)) / (polyOf c.den).eval (Complex.exp (θ * Complex.I))) := by
  intro A
  set z := Complex.exp (θ * Complex.I) with hz
  have hD : (polyOf c.den).eval z ≠ 0 := by
    intro h0
    have := h.poles z h0
    rw [hz, norm_tone] at this
    exact lt_irrefl _ this
  set N := (polyOf c.num).eval z with hN
  set D := (polyOf c.den).eval z with hDd
  have key : Tendsto (fun n : ℕ => ((iirOut c true (fun _ => 1) (fun k : ℕ => (A * Complex.exp (θ * k * Complex.I)).re) n : ℝ) : ℂ) -
      (((A * (N / D) * Complex.exp (θ * n * Complex.I)).re : ℝ) : ℂ)) atTop (𝓝 0) := by
    refine seq_of_poly (fun x => Tendsto x atTop (𝓝 0)) (fun a x hx => ?_) (fun r x y hr hx hy => tendsto_of_step hr hx hy) (polyOf c.den) h.ne
      h.roots _ ?_
    · have h2 := hx.const_mul a
      rw [mul_zero] at h2
      exact h2
    · have e : aeval shiftE (polyOf c.den) (fun n : ℕ => ((iirOut c true (fun _ => 1) (fun k : ℕ => (A * Complex.exp (θ * k * Complex.I)).re) n : ℝ) : ℂ) -
          (((A * (N / D) * Complex.exp (θ * n * Complex.I)).re : ℝ) : ℂ)) = 0 := by
        have h1 := iir_forward c h.len h.last (fun k : ℕ => (A * Complex.exp (θ * k * Complex.I)).re)
        have e2 : (fun n : ℕ => ((iirOut c true (fun _ => 1) (fun k : ℕ => (A * Complex.exp (θ * k * Complex.I)).re) n : ℝ) : ℂ) -
          (((A * (N / D) * Complex.exp (θ * n * Complex.I)).re : ℝ) : ℂ)) =
          (fun n : ℕ => ((iirOut c true (fun _ => 1) (fun k : ℕ => (A * Complex.exp (θ * k * Complex.I)).re) n : ℝ) : ℂ)) -
          fun n : ℕ => (((A * (N / D) * Complex.exp (θ * n * Complex.I)).re : ℝ) : ℂ) := rfl
        rw [e2, map_sub, h1]
        funext n
        rw [Pi.sub_apply]
        simp only [exp_tone, ← hz]
        rw [aeval_re, aeval_re, ← hDd, ← hN]
        have : A * (N / D) * D = A * N := by field_simp
        rw [this, sub_self]; rfl
      rw [e]; exact tendsto_const_nhds
  have := (Complex.continuous_re.tendsto _).comp key
  simpa [Function.comp_def] using this

theorem PolesInside.bounded {c : IirCoef ℝ} (h : PolesInside c) : BoundedOut c := by
  rintro u ⟨M, hM⟩
  have hu : BoundedSeq (fun n => (u n : ℂ)) := ⟨M, fun n => by rw [Complex.norm_real]; exact hM n⟩
  have hy : BoundedSeq (fun n => ((iirOut c true (fun _ => 1) u n : ℝ) : ℂ)) := by
    refine seq_of_poly BoundedSeq (fun a x hx => ?_) (fun r x y hr hx hy => bounded_of_step hr hx hy) (polyOf c.den) h.ne h.roots _ ?_
    · obtain ⟨B, hB⟩ := hx
      exact ⟨‖a‖ * B, fun n => by rw [Pi.smul_apply, norm_smul]; exact mul_le_mul_of_nonneg_left (hB n) (norm_nonneg _)⟩
    · rw [iir_forward c h.len h.last u]
      exact aeval_bounded _ _ hu
  obtain ⟨B, hB⟩ := hy
  exact ⟨B, fun n => by have := hB n; rwa [Complex.norm_real] at this⟩

/-- The response is unique. -/
theorem HasResponse.unique {c : IirCoef ℝ} {θ : ℝ} {H H' : ℂ} (h : HasResponse c θ H) (h' : HasResponse c θ H') : H = H' := by
  have key : ∀ A : ℂ, Tendsto (fun n : ℕ => (A * (H' - H) * Complex.exp (θ * n * Complex.I)).re) atTop (𝓝 0) := by
    intro A
    have := (h A).sub (h' A)
    rw [sub_zero] at this
    refine this.congr fun n => ?_
    rw [sub_sub_sub_cancel_left, ← Complex.sub_re]
    congr 1; ring
  have h1 := key 1
  have h2 := key (-Complex.I)
  have h3 := ((h1.mul h1).add (h2.mul h2))
  have e : ∀ n : ℕ, (1 * (H' - H) * Complex.exp (θ * n * Complex.I)).re * (1 * (H' - H) * Complex.exp (θ * n * Complex.I)).re +
      (-Complex.I * (H' - H) * Complex.exp (θ * n * Complex.I)).re * (-Complex.I * (H' - H) * Complex.exp (θ * n * Complex.I)).re =
      Complex.normSq (H' - H) := by
    intro n
    have e1 : (-Complex.I * (H' - H) * Complex.exp (θ * n * Complex.I)).re = ((H' - H) * Complex.exp (θ * n * Complex.I)).im := by
      rw [mul_assoc, neg_mul, Complex.neg_re, Complex.I_mul_re]; ring
    rw [e1, one_mul, ← Complex.normSq_apply, Complex.normSq_mul]
    have : Complex.normSq (Complex.exp (θ * n * Complex.I)) = 1 := by
      rw [exp_tone, map_pow, Complex.normSq_eq_norm_sq, norm_tone]; simp
    rw [this, mul_one]
  simp only [e] at h3
  have h4 := tendsto_nhds_unique h3 tendsto_const_nhds
  have : Complex.normSq (H' - H) = 0 := by simpa using h4.symm
  exact (sub_eq_zero.1 (Complex.normSq_eq_zero.1 this)).symm

/-- A filter of response one at zero frequency passes constants. -/
theorem HasResponse.const {c : IirCoef ℝ} (h : HasResponse c 0 1) (a : ℝ) : Tendsto (iirOut c true (fun _ => 1) fun _ => a) atTop (𝓝 a) := by
  have h1 := (h a).add_const a
  simp at h1
  exact h1

/-! ### Polynomials of the filters -/

theorem polyOf_frontPad (n : ℕ) (l : List ℝ) : polyOf (frontPad n l) = X ^ (n - l.length) * polyOf l := by
  ext k
  rw [polyOf_coeff, coeff_X_pow_mul', polyOf_coeff]
  unfold frontPad
  split
  · rename_i h
    rw [List.getD_append_right _ _ _ _ (by simpa using h)]
    simp
  · rename_i h
    have h2 : k < n - l.length := by omega
    rw [List.getD_append _ _ _ _ (by simpa only [List.length_replicate] using h2), List.getD_eq_getElem _ _ (by simpa only [List.length_replicate] using h2)]
    simp

theorem eval_two (a b z : ℂ) (x y : ℝ) (hx : (x : ℂ) = a) (hy : (y : ℂ) = b) : (polyOf [x, y]).eval z = a + b * z := by
  rw [eval_polyOf]; simp [Finset.sum_range_succ, hx, hy]

theorem eval_three (x y w : ℝ) (z : ℂ) : (polyOf [x, y, w]).eval z = x + y * z + w * z ^ 2 := by
  rw [eval_polyOf]; simp [Finset.sum_range_succ]

/-- The test of Jury for a real polynomial of degree two. -/
theorem jury_two (b c : ℝ) (hc1 : c < 1) (hb1 : b < 1 + c) (hb2 : -b < 1 + c) (z : ℂ) (hz : (c : ℂ) + b * z + z ^ 2 = 0) : ‖z‖ < 1 := by
  have hre := congrArg Complex.re hz
  have him := congrArg Complex.im hz
  simp [pow_two] at hre him
  have hn : Complex.normSq z < 1 := by
    rw [Complex.normSq_apply]
    by_cases hy : z.im = 0
    · rw [hy] at hre ⊢
      by_contra hcon
      push Not at hcon
      rcases le_or_gt 0 z.re with hx | hx
      · have hx1 : 1 ≤ z.re := by nlinarith
        nlinarith
      · have hx1 : z.re ≤ -1 := by nlinarith
        nlinarith
    · have hx : b = -2 * z.re := by
        have : z.im * (b + 2 * z.re) = 0 := by linarith
        rcases mul_eq_zero.1 this with h | h
        · exact absurd h hy
        · linarith
      subst hx
      nlinarith
  rw [Complex.normSq_eq_norm_sq] at hn
  nlinarith [norm_nonneg z]

theorem alignCoef_of_last (ord : ℕ) (l : List ℝ) (h : l.getLastD 0 ≠ 0) : alignCoef ord l = l := by
  unfold alignCoef
  rw [if_neg]
  rintro ⟨h1, h2⟩
  apply h
  rw [List.all_eq_true] at h2
  have hne : l ≠ [] := by rintro rfl; simp at h1
  have hm : l.getLast hne ∈ l.drop ord := by
    rw [List.getLast_eq_getElem]
    rw [List.mem_iff_getElem]
    refine ⟨l.length - 1 - ord, by simp; omega, ?_⟩
    rw [List.getElem_drop]
    congr 1; omega
  have := h2 _ hm
  rw [List.getLastD_eq_getLast?, List.getLast?_eq_some_getLast hne]
  simpa using this

theorem frontPad_last (n : ℕ) (l : List ℝ) (h : l ≠ []) : (frontPad n l).getLastD 0 = l.getLastD 0 := by
  unfold frontPad
  rw [List.getLastD_eq_getLast?, List.getLastD_eq_getLast?, List.getLast?_append_of_ne_nil _ h]

theorem frontPad_length (n : ℕ) (l : List ℝ) (h : l.length ≤ n) : (frontPad n l).length = n := by
  unfold frontPad; simp; omega

theorem convolve_length (a b : List ℝ) : (convolve a b).length = a.length + b.length - 1 := by simp [convolve]

theorem convolve_last (a b : List ℝ) (ha : a ≠ []) (hb : b ≠ []) : (convolve a b).getLastD 0 = a.getLastD 0 * b.getLastD 0 := by
  have h1 := List.length_pos_iff.2 ha
  have h2 := List.length_pos_iff.2 hb
  have e := coeff_mul_add_eq_of_natDegree_le (polyOf_natDegree a (a.length - 1) (by omega)) (polyOf_natDegree b (b.length - 1) (by omega))
  rw [← polyOf_convolve, polyOf_coeff, polyOf_coeff, polyOf_coeff] at e
  rw [getLastD_eq_getD, getLastD_eq_getD, getLastD_eq_getD, convolve_length]
  have : a.length + b.length - 1 - 1 = a.length - 1 + (b.length - 1) := by omega
  rw [this]
  exact_mod_cast e

/-- The loop on the poles up to `m`. -/
def lpfFold (n : ℕ) (ω : ℝ) (m : ℕ) : IirCoef ℝ := (List.range m).foldl (lpfTurn n ω) ⟨[1], [1]⟩

theorem lpfFold_succ (n : ℕ) (ω : ℝ) (m : ℕ) : lpfFold n ω (m + 1) = lpfTurn n ω (lpfFold n ω m) m := by
  unfold lpfFold; rw [List.range_succ, List.foldl_append]; rfl

theorem lpfFold_spec (n : ℕ) (ω : ℝ) (m : ℕ) :
    (lpfFold n ω m).num.length = 2 * m + 1 ∧ (lpfFold n ω m).den.length = 2 * m + 1 ∧
      polyOf (lpfFold n ω m).num = ∏ k ∈ Finset.range m, polyOf (lpfSection n k ω).num ∧
      polyOf (lpfFold n ω m).den = ∏ k ∈ Finset.range m, polyOf (lpfSection n k ω).den ∧
      (lpfFold n ω m).num.getLastD 0 = ∏ k ∈ Finset.range m, (lpfSection n k ω).num.getLastD 0 ∧
      (lpfFold n ω m).den.getLastD 0 = 1 := by
  induction m with
  | zero =>
    have e : polyOf [1] = 1 := by unfold polyOf; simp
    refine ⟨rfl, rfl, ?_, ?_, ?_, rfl⟩
    · simpa [lpfFold] using e
    · simpa [lpfFold] using e
    · simp [lpfFold]
  | succ m ih =>
    obtain ⟨h1, h2, h3, h4, h5, h6⟩ := ih
    have hn : (lpfFold n ω m).num ≠ [] := by intro h; rw [h] at h1; simp at h1
    have hd : (lpfFold n ω m).den ≠ [] := by intro h; rw [h] at h2; simp at h2
    rw [lpfFold_succ]
    unfold lpfTurn
    refine ⟨?_, ?_, ?_, ?_, ?_, ?_⟩
    · rw [convolve_length, h1]; simp [lpfSection]; omega
    · rw [convolve_length, h2]; simp [lpfSection]; omega
    · rw [polyOf_convolve, h3, Finset.prod_range_succ]
    · rw [polyOf_convolve, h4, Finset.prod_range_succ]
    · rw [convolve_last _ _ hn (by simp [lpfSection]), h5, Finset.prod_range_succ]
    · rw [convolve_last _ _ hd (by simp [lpfSection]), h6]; simp [lpfSection]

/-! ### The circle -/

theorem tone_half (θ : ℝ) : ∃ w : ℂ, ‖w‖ = 1 ∧ Complex.exp (θ * Complex.I) = w ^ 2 ∧
    Complex.exp (θ * Complex.I) + 1 = w * (2 * Real.cos (θ / 2) : ℝ) ∧
    Complex.exp (θ * Complex.I) - 1 = w * ((2 * Real.sin (θ / 2) : ℝ) * Complex.I) := by
  set w := Complex.exp ((θ / 2 : ℝ) * Complex.I) with hw
  have e : Complex.exp (θ * Complex.I) = w ^ 2 := by
    rw [hw, ← Complex.exp_nat_mul]; congr 1; push_cast; ring
  have hwe : w = Real.cos (θ / 2) + Real.sin (θ / 2) * Complex.I := by
    rw [hw, Complex.exp_mul_I, Complex.ofReal_cos, Complex.ofReal_sin]
  have h1 : ((Real.cos (θ / 2) : ℝ) : ℂ) ^ 2 + ((Real.sin (θ / 2) : ℝ) : ℂ) ^ 2 = 1 := by
    exact_mod_cast Real.cos_sq_add_sin_sq (θ / 2)
  refine ⟨w, norm_tone _, e, ?_, ?_⟩
  · rw [e, hwe]; push_cast [-Complex.ofReal_cos, -Complex.ofReal_sin]
    linear_combination (-1 : ℂ) * h1 + ((Real.sin (θ / 2) : ℝ) : ℂ) ^ 2 * Complex.I_sq
  · rw [e, hwe]; push_cast [-Complex.ofReal_cos, -Complex.ofReal_sin]
    linear_combination (1 : ℂ) * h1 - ((Real.sin (θ / 2) : ℝ) : ℂ) ^ 2 * Complex.I_sq

/-- `∏ (a² + 2 cos(π (2k + 1) / n) a b + b²) = a^n + b^n` for `n = 2 m`. -/
theorem prod_cos (m : ℕ) (hm : 0 < m) (a b : ℝ) :
    ∏ k ∈ Finset.range m, (a ^ 2 + 2 * Real.cos (Real.pi * (2 * k + 1) / ((2 * m : ℕ) : ℝ)) * (a * b) + b ^ 2) = a ^ (2 * m) + b ^ (2 * m) := by
  have hn : 0 < 2 * m := by omega
  have hnC : ((2 * m : ℕ) : ℂ) ≠ 0 := by exact_mod_cast hn.ne'
  set ζ := Complex.exp (2 * Real.pi * Complex.I / (2 * m : ℕ)) with hζd
  have hζ : IsPrimitiveRoot ζ (2 * m) := Complex.isPrimitiveRoot_exp _ hn.ne'
  set α : ℂ := Complex.exp (Real.pi * Complex.I / (2 * m : ℕ)) * b with hα
  have hαn : α ^ (2 * m) = -(b : ℂ) ^ (2 * m) := by
    rw [hα, mul_pow, ← Complex.exp_nat_mul, mul_div_cancel₀ _ hnC, Complex.exp_pi_mul_I]; ring
  have h := congrArg (eval (-(a : ℂ))) (X_pow_sub_C_eq_prod hζ hn hαn)
  rw [eval_prod] at h
  simp only [eval_sub, eval_pow, eval_X, eval_C] at h
  have hf : ∀ i : ℕ, ζ ^ i * α = Complex.exp ((Real.pi * (2 * i + 1) / (2 * m : ℕ)) * Complex.I) * b := by
    intro i
    rw [hζd, hα, ← Complex.exp_nat_mul, ← mul_assoc, ← Complex.exp_add]
    congr 2; ring
  have h2 : 2 * m = m + m := by ring
  rw [show Finset.range (2 * m) = Finset.range (m + m) by rw [h2], Finset.prod_range_add, ← Finset.prod_range_reflect (fun i => -(a : ℂ) - ζ ^ (m + i) * α),
    ← Finset.prod_mul_distrib] at h
  have hpair : ∀ k ∈ Finset.range m, (-(a : ℂ) - ζ ^ k * α) * (-(a : ℂ) - ζ ^ (m + (m - 1 - k)) * α) =
      ((a ^ 2 + 2 * Real.cos (Real.pi * (2 * k + 1) / ((2 * m : ℕ) : ℝ)) * (a * b) + b ^ 2 : ℝ) : ℂ) := by
    intro k hk
    have hk' := Finset.mem_range.1 hk
    set ψ : ℝ := Real.pi * (2 * k + 1) / ((2 * m : ℕ) : ℝ) with hψ
    have e1 : ζ ^ k * α = Complex.exp (ψ * Complex.I) * b := by
      rw [hf, hψ]; push_cast; rfl
    have e2 : ζ ^ (m + (m - 1 - k)) * α = Complex.exp (-(ψ * Complex.I)) * b := by
      rw [hf, hψ]
      have : (((m + (m - 1 - k) : ℕ)) : ℂ) = 2 * m - 1 - k := by
        have : m + (m - 1 - k) = 2 * m - 1 - k := by omega
        rw [this, Nat.cast_sub (by omega), Nat.cast_sub (by omega)]; push_cast; ring
      rw [this]
      have e3 : ((Real.pi : ℂ) * (2 * (2 * m - 1 - k) + 1) / (2 * m : ℕ)) * Complex.I =
          -(((Real.pi * (2 * k + 1) / ((2 * m : ℕ) : ℝ) : ℝ) : ℂ) * Complex.I) + 2 * Real.pi * Complex.I := by
        have hmC : (m : ℂ) ≠ 0 := by exact_mod_cast hm.ne'
        push_cast
        field_simp; ring
      rw [e3, Complex.exp_add, Complex.exp_two_pi_mul_I, mul_one]
    rw [e1, e2]
    have e4 : Complex.exp (ψ * Complex.I) * Complex.exp (-(ψ * Complex.I)) = 1 := by rw [← Complex.exp_add]; simp
    have e5 : ((Real.cos ψ : ℝ) : ℂ) * 2 = Complex.exp (ψ * Complex.I) + Complex.exp (-(ψ * Complex.I)) := by
      rw [Complex.ofReal_cos, mul_comm, Complex.two_cos, neg_mul]
    push_cast [-Complex.ofReal_cos]
    linear_combination (b : ℂ) ^ 2 * e4 - (a : ℂ) * b * e5
  rw [Finset.prod_congr rfl hpair, ← Complex.ofReal_prod, sub_neg_eq_add, Even.neg_pow ⟨m, by ring⟩] at h
  exact_mod_cast h.symm

/-! ### Sections -/

theorem lpfOmega_pos {fc fs : ℝ} (h0 : 0 < fc) (h1 : fc < fs / 2) : 0 < lpfOmega fc fs := by
  have hfs : 0 < fs := by linarith
  unfold lpfOmega
  have h2 : fc / fs < 1 / 2 := by rw [div_lt_iff₀ hfs]; linarith
  refine Real.tan_pos_of_pos_of_lt_pi_div_two (by positivity) ?_
  nlinarith [Real.pi_pos]

theorem section_cos_pos {n k : ℕ} (hk : k < n / 2) : 0 < Real.cos (Real.pi * (2 * k + 1) / (2 * n)) := by
  have hn : (0 : ℝ) < n := by exact_mod_cast (by omega : 0 < n)
  have hlt : ((2 * k + 1 : ℕ) : ℝ) < n := by exact_mod_cast (by omega : 2 * k + 1 < n)
  push_cast at hlt
  refine Real.cos_pos_of_mem_Ioo ⟨by have : 0 ≤ Real.pi * (2 * k + 1) / (2 * n) := by positivity
                                     linarith [Real.pi_pos], ?_⟩
  rw [div_lt_iff₀ (by positivity)]
  nlinarith [Real.pi_pos]

/-- A section with `c = 2 cos φ` has its poles inside the circle. -/
theorem section_pole {c ω : ℝ} (hc : 0 < c) (hω : 0 < ω) (z : ℂ)
    (hz : (((1 - c * ω + ω ^ 2) / (1 + c * ω + ω ^ 2) : ℝ) : ℂ) + ((2 * (ω ^ 2 - 1) / (1 + c * ω + ω ^ 2) : ℝ) : ℂ) * z + z ^ 2 = 0) : ‖z‖ < 1 := by
  have hck : 0 < 1 + c * ω + ω ^ 2 := by positivity
  have hcω : 0 < c * ω := by positivity
  refine jury_two _ _ ?_ ?_ ?_ z hz
  · rw [div_lt_one hck]; linarith
  · rw [div_lt_iff₀ hck, add_mul, div_mul_cancel₀ _ hck.ne']; linarith
  · rw [← neg_div, div_lt_iff₀ hck, add_mul, div_mul_cancel₀ _ hck.ne']; nlinarith

/-- The response of a section. -/
theorem section_response {c ω : ℝ} (hc : 0 < c) (hω : 0 < ω) (θ : ℝ) {a0 b1 b2 : ℝ} (ha : a0 = ω ^ 2 / (1 + c * ω + ω ^ 2))
    (h1 : b1 = 2 * (ω ^ 2 - 1) / (1 + c * ω + ω ^ 2)) (h2 : b2 = (1 - c * ω + ω ^ 2) / (1 + c * ω + ω ^ 2)) :
    (polyOf [a0, 2 * a0, a0]).eval (Complex.exp (θ * Complex.I)) / (polyOf [b2, b1, 1]).eval (Complex.exp (θ * Complex.I)) =
      ((ω ^ 2 * Real.cos (θ / 2) ^ 2 : ℝ) : ℂ) /
        (((ω ^ 2 * Real.cos (θ / 2) ^ 2 - Real.sin (θ / 2) ^ 2 : ℝ) : ℂ) + ((c * ω * Real.sin (θ / 2) * Real.cos (θ / 2) : ℝ) : ℂ) * Complex.I) := by
  obtain ⟨w, hw, hz, hp, hm⟩ := tone_half θ
  set z := Complex.exp (θ * Complex.I) with hzd
  set C := Real.cos (θ / 2)
  set S := Real.sin (θ / 2)
  have hck : 0 < 1 + c * ω + ω ^ 2 := by positivity
  have hckC : (1 + c * ω + ω ^ 2 : ℂ) ≠ 0 := by exact_mod_cast hck.ne'
  have hw0 : w ≠ 0 := by intro h; rw [h] at hw; simp at hw
  rw [eval_three, eval_three, ha, h1, h2]
  have e1 : ((ω ^ 2 / (1 + c * ω + ω ^ 2) : ℝ) : ℂ) + ((2 * (ω ^ 2 / (1 + c * ω + ω ^ 2)) : ℝ) : ℂ) * z + ((ω ^ 2 / (1 + c * ω + ω ^ 2) : ℝ) : ℂ) * z ^ 2 =
      4 * w ^ 2 / (1 + c * ω + ω ^ 2) * ((ω ^ 2 * C ^ 2 : ℝ) : ℂ) := by
    have : 1 + 2 * z + z ^ 2 = (w * (2 * C : ℝ)) ^ 2 := by rw [← hp]; ring
    push_cast at this ⊢
    linear_combination ((ω : ℂ) ^ 2 / (1 + c * ω + ω ^ 2)) * this
  have e2 : (((1 - c * ω + ω ^ 2) / (1 + c * ω + ω ^ 2) : ℝ) : ℂ) + ((2 * (ω ^ 2 - 1) / (1 + c * ω + ω ^ 2) : ℝ) : ℂ) * z + ((1 : ℝ) : ℂ) * z ^ 2 =
      4 * w ^ 2 / (1 + c * ω + ω ^ 2) * (((ω ^ 2 * C ^ 2 - S ^ 2 : ℝ) : ℂ) + ((c * ω * S * C : ℝ) : ℂ) * Complex.I) := by
    have t1 : (z - 1) ^ 2 = (w * ((2 * S : ℝ) * Complex.I)) ^ 2 := by rw [hm]
    have t2 : (z + 1) ^ 2 = (w * (2 * C : ℝ)) ^ 2 := by rw [hp]
    have t3 : (z - 1) * (z + 1) = (w * ((2 * S : ℝ) * Complex.I)) * (w * (2 * C : ℝ)) := by rw [hp, hm]
    push_cast at t1 t2 t3 ⊢
    field_simp
    linear_combination t1 + (ω : ℂ) ^ 2 * t2 + (c : ℂ) * ω * t3 + 4 * w ^ 2 * (S : ℂ) ^ 2 * Complex.I_sq
  rw [e1, e2]
  exact mul_div_mul_left _ _ (div_ne_zero (by simp [hw0]) hckC)

/-! ### The filters built -/

theorem lpfRow_eq {fs fc : ℝ} {n : ℕ} (hfc : fc < fs / 2) (t : IirCoef ℝ) (ht : lpfTotal n (lpfOmega fc fs) = t)
    (h1 : t.num.length ≤ lpfLen n) (hn : t.num ≠ []) (hd : t.den ≠ []) (hnl : t.num.getLastD 0 ≠ 0) (hdl : t.den.getLastD 0 ≠ 0) :
    lpfRow fs n fc = some ⟨frontPad (lpfLen n) t.num, frontPad (lpfLen n) t.den⟩ := by
  unfold lpfRow
  rw [if_neg (by linarith)]
  dsimp only
  rw [ht, if_neg (by omega)]
  unfold storedCoef
  dsimp only
  rw [alignCoef_of_last _ _ (by rwa [frontPad_last _ _ hn]), alignCoef_of_last _ _ (by rwa [frontPad_last _ _ hd])]

theorem section_num_last (n k : ℕ) (ω : ℝ) (hω : 0 < ω) (hk : k < n / 2) : (lpfSection n k ω).num.getLastD 0 ≠ 0 := by
  have := section_cos_pos hk
  have h2 : 0 < ω ^ 2 / (1 + 2 * Real.cos (Real.pi * (2 * k + 1) / (2 * n)) * ω + ω ^ 2) := by positivity
  simpa [lpfSection] using h2.ne'

/-- The filter of even order. -/
theorem lpfRow_even {fs fc : ℝ} {n : ℕ} (h0 : 0 < fc) (h1 : fc < fs / 2) (hn : n % 2 = 0) (hn0 : 0 < n) :
    ∃ c, lpfRow fs n fc = some c ∧ PolesInside c ∧ ∀ θ : ℝ,
      (polyOf c.num).eval (Complex.exp (θ * Complex.I)) / (polyOf c.den).eval (Complex.exp (θ * Complex.I)) =
        ∏ k ∈ Finset.range (n / 2), ((lpfOmega fc fs ^ 2 * Real.cos (θ / 2) ^ 2 : ℝ) : ℂ) /
          (((lpfOmega fc fs ^ 2 * Real.cos (θ / 2) ^ 2 - Real.sin (θ / 2) ^ 2 : ℝ) : ℂ) +
            ((2 * Real.cos (Real.pi * (2 * k + 1) / (2 * n)) * lpfOmega fc fs * Real.sin (θ / 2) * Real.cos (θ / 2) : ℝ) : ℂ) * Complex.I) := by
  have hω := lpfOmega_pos h0 h1
  set ω := lpfOmega fc fs with hωd
  obtain ⟨l1, l2, p1, p2, g1, g2⟩ := lpfFold_spec n ω (n / 2)
  have ht : lpfTotal n ω = lpfFold n ω (n / 2) := by
    unfold lpfTotal lpfFold; rw [if_neg (by omega)]
  have hlen : lpfLen n = 2 * n + 1 := by unfold lpfLen; rw [if_neg (by omega)]
  have hgn : (lpfFold n ω (n / 2)).num.getLastD 0 ≠ 0 := by
    rw [g1, Finset.prod_ne_zero_iff]
    intro k hk
    exact section_num_last n k ω hω (Finset.mem_range.1 hk)
  have hnn : (lpfFold n ω (n / 2)).num ≠ [] := by intro h; rw [h] at l1; simp at l1
  have hdn : (lpfFold n ω (n / 2)).den ≠ [] := by intro h; rw [h] at l2; simp at l2
  refine ⟨_, lpfRow_eq h1 _ ht (by rw [l1, hlen]; omega) hnn hdn hgn (by rw [g2]; exact one_ne_zero), ⟨?_, ?_, ?_⟩, ?_⟩
  · dsimp only
    rw [frontPad_length _ _ (by rw [l1, hlen]; omega), frontPad_length _ _ (by rw [l2, hlen]; omega)]
  · dsimp only
    rw [frontPad_last _ _ hdn, g2]; exact one_ne_zero
  · intro z hz
    dsimp only at hz
    rw [polyOf_frontPad, p2, eval_mul, eval_pow, eval_X, eval_prod] at hz
    rcases mul_eq_zero.1 hz with h | h
    · rw [eq_zero_of_pow_eq_zero h]; simp
    · obtain ⟨k, hk, hk2⟩ := Finset.prod_eq_zero_iff.1 h
      have hc := section_cos_pos (Finset.mem_range.1 hk)
      refine section_pole (c := 2 * Real.cos (Real.pi * (2 * k + 1) / (2 * n))) (by positivity) hω z ?_
      unfold lpfSection at hk2
      dsimp only at hk2
      rw [eval_three] at hk2
      rw [← hk2, Complex.ofReal_one, one_mul]
  · intro θ
    set z := Complex.exp (θ * Complex.I) with hz
    have hz0 : z ≠ 0 := Complex.exp_ne_zero _
    dsimp only
    rw [polyOf_frontPad, polyOf_frontPad, p1, p2, l1, l2, eval_mul, eval_mul, mul_div_mul_left _ _ (by simp [hz0]), eval_prod, eval_prod,
      ← Finset.prod_div_distrib]
    refine Finset.prod_congr rfl fun k hk => ?_
    have hc := section_cos_pos (Finset.mem_range.1 hk)
    unfold lpfSection
    dsimp only
    rw [hz]
    exact section_response (by positivity) hω θ rfl rfl rfl

theorem normSq_section {ω C S φ : ℝ} :
    Complex.normSq (((ω ^ 2 * C ^ 2 : ℝ) : ℂ) / (((ω ^ 2 * C ^ 2 - S ^ 2 : ℝ) : ℂ) + ((2 * Real.cos φ * ω * S * C : ℝ) : ℂ) * Complex.I)) =
      (ω ^ 2 * C ^ 2) ^ 2 / ((S ^ 2) ^ 2 + 2 * Real.cos (2 * φ) * (S ^ 2 * (ω ^ 2 * C ^ 2)) + (ω ^ 2 * C ^ 2) ^ 2) := by
  rw [Complex.normSq_div, Complex.normSq_ofReal, Complex.normSq_add_mul_I, Real.cos_two_mul]
  congr 1 <;> ring

/-- Power of the response of the filter of even order. -/
theorem butter_power {fs fc : ℝ} {n : ℕ} (hn : n % 2 = 0) (hn0 : 0 < n) (θ : ℝ) :
    ‖∏ k ∈ Finset.range (n / 2), ((lpfOmega fc fs ^ 2 * Real.cos (θ / 2) ^ 2 : ℝ) : ℂ) /
          (((lpfOmega fc fs ^ 2 * Real.cos (θ / 2) ^ 2 - Real.sin (θ / 2) ^ 2 : ℝ) : ℂ) +
            ((2 * Real.cos (Real.pi * (2 * k + 1) / (2 * n)) * lpfOmega fc fs * Real.sin (θ / 2) * Real.cos (θ / 2) : ℝ) : ℂ) * Complex.I)‖ ^ 2 =
      (lpfOmega fc fs ^ 2 * Real.cos (θ / 2) ^ 2) ^ n / ((Real.sin (θ / 2) ^ 2) ^ n + (lpfOmega fc fs ^ 2 * Real.cos (θ / 2) ^ 2) ^ n) := by
  obtain ⟨m, rfl⟩ : ∃ m, n = 2 * m := ⟨n / 2, by omega⟩
  have hm : 2 * m / 2 = m := by omega
  rw [← Complex.normSq_eq_norm_sq, map_prod, hm]
  simp only [normSq_section]
  rw [Finset.prod_div_distrib, ← prod_cos m (by omega), Finset.prod_const, Finset.card_range, ← pow_mul]
  congr 1
  refine Finset.prod_congr rfl fun k _ => ?_
  have : 2 * (Real.pi * (2 * (k : ℝ) + 1) / (2 * ((2 * m : ℕ) : ℝ))) = Real.pi * (2 * k + 1) / ((2 * m : ℕ) : ℝ) := by
    have hm' : ((2 * m : ℕ) : ℝ) ≠ 0 := by exact_mod_cast hn0.ne'
    field_simp
  rw [this]

theorem mapM_some {α β : Type} (r : α → Option β) (P : α → β → Prop) (l : List α) (h : ∀ a ∈ l, ∃ b, r a = some b ∧ P a b) :
    ∃ bs, l.mapM r = some bs ∧ List.Forall₂ P l bs := by
  induction l with
  | nil => exact ⟨[], rfl, .nil⟩
  | cons a l ih =>
    obtain ⟨b, hb, hP⟩ := h a (by simp)
    obtain ⟨bs, hbs, hF⟩ := ih fun x hx => h x (by simp [hx])
    exact ⟨b :: bs, by simp [List.mapM_cons, hb, hbs], .cons hP hF⟩

/-- **C100** (Butterworth): a low pass filter of even order `n`, built for any list of cut-off frequencies between zero and half of the sampling
frequency, is stable, passes constants, stops the sampling frequency halved, and its steady response to a sinusoid of frequency `f` has the power
`1 / (1 + (tan(π f T) / tan(π fc T))^(2n))`. -/
theorem C100_butterworth (T : ℝ) (hT : 0 < T) (fcs : List ℝ) (hfc : ∀ fc ∈ fcs, 0 < fc ∧ fc < 1 / T / 2) (n : ℕ) (hn : n % 2 = 0) (hn0 : 0 < n) :
    ∃ cs, lowPass T fcs none (some n) = some cs ∧ List.Forall₂ (fun fc c => BoundedOut c ∧ HasResponse c Real.pi 0 ∧
      (∀ a : ℝ, Tendsto (iirOut c true (fun _ => 1) fun _ => a) atTop (𝓝 a)) ∧ ∀ f : ℝ, |f| < 1 / T / 2 → ∃ H, HasResponse c (2 * Real.pi * f * T) H ∧
        ‖H‖ ^ 2 = 1 / (1 + (Real.tan (Real.pi * f * T) / Real.tan (Real.pi * fc * T)) ^ (2 * n))) fcs cs := by
  have e : lowPass T fcs none (some n) = fcs.mapM (lpfRow (1 / T) n) := by
    simp [lowPass, lpfFromFc, hn]
  rw [e]
  refine mapM_some _ _ _ fun fc hm => ?_
  obtain ⟨h0, h1⟩ := hfc fc hm
  obtain ⟨c, hc, hp, hr⟩ := lpfRow_even h0 h1 hn hn0
  have hωp := lpfOmega_pos h0 h1
  refine ⟨c, hc, hp.bounded, ?_, ?_, fun f hf => ⟨_, hp.response _, ?_⟩⟩
  · have := hp.response Real.pi
    rwa [hr, Real.cos_pi_div_two, Finset.prod_eq_zero (i := 0) (Finset.mem_range.2 (by omega)) (by simp)] at this
  · refine HasResponse.const ?_
    have := hp.response 0
    rw [hr, Finset.prod_eq_one] at this
    · exact this
    · intro k _
      have hωC : (lpfOmega fc (1 / T) : ℂ) ≠ 0 := by exact_mod_cast hωp.ne'
      simp only [zero_div, Real.cos_zero, Real.sin_zero]
      push_cast
      simp only [one_pow, mul_one, mul_zero, zero_mul, add_zero, ne_eq, OfNat.ofNat_ne_zero, not_false_eq_true, zero_pow, sub_zero]
      exact div_self (pow_ne_zero _ hωC)
  rw [hr, butter_power hn hn0]
  have hω : lpfOmega fc (1 / T) = Real.tan (Real.pi * fc * T) := by unfold lpfOmega; congr 1; rw [div_div_eq_mul_div]; ring
  rw [hω] at hωp ⊢
  have hθ : 2 * Real.pi * f * T / 2 = Real.pi * f * T := by ring
  rw [hθ]
  have hfT : |f * T| < 1 / 2 := by
    rw [abs_mul, abs_of_pos hT]
    calc |f| * T < 1 / T / 2 * T := mul_lt_mul_of_pos_right hf hT
      _ = 1 / 2 := by field_simp
  have hC : 0 < Real.cos (Real.pi * f * T) := by
    rw [abs_lt] at hfT
    refine Real.cos_pos_of_mem_Ioo ⟨?_, ?_⟩ <;> nlinarith [Real.pi_pos]
  set C := Real.cos (Real.pi * f * T)
  rw [Real.tan_eq_sin_div_cos (Real.pi * f * T)]
  set S := Real.sin (Real.pi * f * T)
  set ω := Real.tan (Real.pi * fc * T)
  have hb : 0 < (ω ^ 2 * C ^ 2) ^ n := by positivity
  have e2 : (S / C / ω) ^ (2 * n) = (S ^ 2) ^ n / (ω ^ 2 * C ^ 2) ^ n := by
    rw [pow_mul, ← div_pow]; congr 1; field_simp
  rw [e2]
  field_simp
  ring

/-- **C100** (cut-off): the frequencies with at least half of the power left are those up to the cut-off frequency, at which exactly half is left. -/
theorem C100_cutoff (T : ℝ) (hT : 0 < T) (fcs : List ℝ) (hfc : ∀ fc ∈ fcs, 0 < fc ∧ fc < 1 / T / 2) (n : ℕ) (hn : n % 2 = 0) (hn0 : 0 < n) :
    ∃ cs, lowPass T fcs none (some n) = some cs ∧ List.Forall₂ (fun fc c => ∀ f : ℝ, 0 ≤ f → f < 1 / T / 2 →
      ∀ H, HasResponse c (2 * Real.pi * f * T) H → (1 / 2 ≤ ‖H‖ ^ 2 ↔ f ≤ fc) ∧ (‖H‖ ^ 2 = 1 / 2 ↔ f = fc)) fcs cs := by
  obtain ⟨cs, hcs, hF⟩ := C100_butterworth T hT fcs hfc n hn hn0
  refine ⟨cs, hcs, ?_⟩
  have hF2 : List.Forall₂ (fun fc c => (0 < fc ∧ fc < 1 / T / 2) ∧ (BoundedOut c ∧ HasResponse c Real.pi 0 ∧
      (∀ a : ℝ, Tendsto (iirOut c true (fun _ => 1) fun _ => a) atTop (𝓝 a)) ∧ ∀ f : ℝ, |f| < 1 / T / 2 → ∃ H, HasResponse c (2 * Real.pi * f * T) H ∧
        ‖H‖ ^ 2 = 1 / (1 + (Real.tan (Real.pi * f * T) / Real.tan (Real.pi * fc * T)) ^ (2 * n)))) fcs cs := by
    clear hcs
    induction hF with
    | nil => exact .nil
    | cons h _ ih => exact .cons ⟨hfc _ (by simp), h⟩ (ih fun x hx => hfc x (by simp [hx]))
  refine hF2.imp fun fc c h => ?_
  obtain ⟨⟨h0, h1⟩, _, _, _, hr⟩ := h
  intro f hf0 hf1 H hH
  obtain ⟨H', hH', hpow⟩ := hr f (by rwa [abs_of_nonneg hf0])
  rw [hH.unique hH', hpow]
  have hTi : 1 / T / 2 * T = 1 / 2 := by field_simp
  have hb : ∀ x : ℝ, 0 ≤ x → x < 1 / T / 2 → 0 ≤ Real.pi * x * T ∧ Real.pi * x * T < Real.pi / 2 := by
    intro x hx0 hx1
    refine ⟨by positivity, ?_⟩
    have : x * T < 1 / 2 := by rw [← hTi]; exact mul_lt_mul_of_pos_right hx1 hT
    nlinarith [Real.pi_pos]
  have hmono : ∀ x y : ℝ, 0 ≤ x → x < y → y < 1 / T / 2 → Real.tan (Real.pi * x * T) < Real.tan (Real.pi * y * T) := by
    intro x y hx hxy hy
    refine Real.tan_lt_tan_of_nonneg_of_lt_pi_div_two (hb x hx (hxy.trans hy)).1 (hb y (hx.trans hxy.le) hy).2 ?_
    have := mul_lt_mul_of_pos_right hxy hT
    nlinarith [Real.pi_pos]
  have htc : 0 < Real.tan (Real.pi * fc * T) := by
    have := hmono 0 fc le_rfl h0 h1
    simpa using this
  have htf : 0 ≤ Real.tan (Real.pi * f * T) := Real.tan_nonneg_of_nonneg_of_le_pi_div_two (hb f hf0 hf1).1 (hb f hf0 hf1).2.le
  set x := Real.tan (Real.pi * f * T) / Real.tan (Real.pi * fc * T) with hx
  have hx0 : 0 ≤ x := by positivity
  have hpos : 0 < 1 + x ^ (2 * n) := by positivity
  have hiff : (x ≤ 1 ↔ f ≤ fc) ∧ (x = 1 ↔ f = fc) := by
    rw [hx, div_le_one htc, div_eq_one_iff_eq htc.ne']
    rcases lt_trichotomy f fc with h | h | h
    · have := hmono f fc hf0 h h1
      exact ⟨⟨fun _ => h.le, fun _ => this.le⟩, ⟨fun h2 => absurd h2 this.ne, fun h2 => absurd h2 h.ne⟩⟩
    · subst h; simp
    · have := hmono fc f h0.le h hf1
      exact ⟨⟨fun h2 => absurd h2 (not_le.2 this), fun h2 => absurd h2 (not_le.2 h)⟩, ⟨fun h2 => absurd h2 this.ne', fun h2 => absurd h2 h.ne'⟩⟩
  rw [← hiff.1, ← hiff.2]
  have h2n : 2 * n ≠ 0 := by omega
  constructor
  · rw [div_le_div_iff₀ (by norm_num) hpos, ← pow_le_one_iff_of_nonneg hx0 h2n]
    constructor <;> intro h <;> linarith
  · rw [div_eq_div_iff hpos.ne' (by norm_num), ← pow_eq_one_iff_of_nonneg hx0 h2n]
    constructor <;> intro h <;> linarith

/-! ### Order one -/

theorem lpfRow_one {fs fc : ℝ} (h0 : 0 < fc) (h1 : fc < fs / 2) : ∃ c, lpfRow fs 1 fc = some c ∧ PolesInside c ∧ ∀ θ : ℝ,
    (polyOf c.num).eval (Complex.exp (θ * Complex.I)) / (polyOf c.den).eval (Complex.exp (θ * Complex.I)) =
      lpfOmega fc fs * Complex.exp (θ * Complex.I) / ((1 + lpfOmega fc fs) * Complex.exp (θ * Complex.I) - 1) := by
  have hω := lpfOmega_pos h0 h1
  set ω := lpfOmega fc fs with hωd
  have h1ω : (1 + ω : ℂ) ≠ 0 := by exact_mod_cast (by positivity : 1 + ω ≠ 0)
  have ht : lpfTotal 1 ω = ⟨[0, ω / (1 + ω)], [-(1 - ω / (1 + ω)), 1]⟩ := by simp [lpfTotal, lpfFirst]
  have hd : ∀ z : ℂ, (polyOf [-(1 - ω / (1 + ω)), 1]).eval z = ((1 + ω) * z - 1) / (1 + ω) := by
    intro z
    rw [eval_two _ _ z _ _ rfl rfl]
    push_cast
    field_simp
    ring
  have hnum : ∀ z : ℂ, (polyOf [0, ω / (1 + ω)]).eval z = ω * z / (1 + ω) := by
    intro z
    rw [eval_two _ _ z _ _ rfl rfl]
    push_cast
    field_simp
    ring
  refine ⟨_, lpfRow_eq h1 _ ht (by simp [lpfLen]) (by simp) (by simp) ?_ (by simp), ⟨?_, ?_, ?_⟩, ?_⟩
  · have : ω / (1 + ω) ≠ 0 := by positivity
    simpa using this
  · simp [frontPad, lpfLen]
  · simp [frontPad, lpfLen]
  · intro z hz
    simp only [frontPad, lpfLen, if_true, List.length_cons, List.length_nil, Nat.sub_self, List.replicate_zero, List.nil_append] at hz
    rw [hd, div_eq_zero_iff] at hz
    have hz2 : (1 + ω : ℂ) * z = 1 := by
      rcases hz with h | h
      · exact sub_eq_zero.1 h
      · exact absurd h h1ω
    have hn := congrArg (‖·‖) hz2
    simp only [norm_mul, norm_one] at hn
    have e : ‖(1 + ω : ℂ)‖ = 1 + ω := by
      have : (1 + ω : ℂ) = ((1 + ω : ℝ) : ℂ) := by push_cast; rfl
      rw [this, Complex.norm_real, Real.norm_of_nonneg (by positivity)]
    rw [e] at hn
    by_contra hcon
    push Not at hcon
    nlinarith
  · intro θ
    simp only [frontPad, lpfLen, if_true, List.length_cons, List.length_nil, Nat.sub_self, List.replicate_zero, List.nil_append]
    rw [hd, hnum, div_div_div_cancel_right₀ h1ω]

/-- **C100** (order one): stable, passes constants; the power of the response at the cut-off frequency is `(1 + ω²) / (5 + 4 ω + ω²)` with
`ω = tan(π fc T)`: less than one half for all cut-off frequencies with `ω < 2 + √7`, and near `1/5` for those far below the sampling frequency. -/
theorem C100_first (T : ℝ) (fcs : List ℝ) (hfc : ∀ fc ∈ fcs, 0 < fc ∧ fc < 1 / T / 2) :
    ∃ cs, lowPass T fcs none (some 1) = some cs ∧ List.Forall₂ (fun fc c => BoundedOut c ∧
      (∀ a : ℝ, Tendsto (iirOut c true (fun _ => 1) fun _ => a) atTop (𝓝 a)) ∧
      ∃ H, HasResponse c (2 * Real.pi * fc * T) H ∧
        ‖H‖ ^ 2 = (1 + Real.tan (Real.pi * fc * T) ^ 2) / (5 + 4 * Real.tan (Real.pi * fc * T) + Real.tan (Real.pi * fc * T) ^ 2) ∧
        (‖H‖ ^ 2 < 1 / 2 ↔ Real.tan (Real.pi * fc * T) < 2 + √7)) fcs cs := by
  have e : lowPass T fcs none (some 1) = fcs.mapM (lpfRow (1 / T) 1) := by
    simp [lowPass, lpfFromFc]
  rw [e]
  refine mapM_some _ _ _ fun fc hm => ?_
  obtain ⟨h0, h1⟩ := hfc fc hm
  obtain ⟨c, hc, hp, hr⟩ := lpfRow_one h0 h1
  have hωp := lpfOmega_pos h0 h1
  have hω : lpfOmega fc (1 / T) = Real.tan (Real.pi * fc * T) := by unfold lpfOmega; congr 1; rw [div_div_eq_mul_div]; ring
  rw [hω] at hωp
  simp only [hω] at hr
  have hcos : Real.cos (Real.pi * fc * T) ≠ 0 := by
    intro h
    rw [Real.tan_eq_sin_div_cos, h, div_zero] at hωp
    exact lt_irrefl _ hωp
  have htan := Real.tan_eq_sin_div_cos (Real.pi * fc * T)
  set ω := Real.tan (Real.pi * fc * T) with hωd
  have hpow : ‖(ω : ℂ) * Complex.exp ((2 * Real.pi * fc * T : ℝ) * Complex.I) / ((1 + ω) * Complex.exp ((2 * Real.pi * fc * T : ℝ) * Complex.I) - 1)‖ ^ 2 =
      (1 + ω ^ 2) / (5 + 4 * ω + ω ^ 2) := by
    obtain ⟨w, hw, _, hplus, hminus⟩ := tone_half (2 * Real.pi * fc * T)
    have hhalf : 2 * Real.pi * fc * T / 2 = Real.pi * fc * T := by ring
    rw [hhalf] at hplus hminus
    set z := Complex.exp ((2 * Real.pi * fc * T : ℝ) * Complex.I) with hz
    set C := Real.cos (Real.pi * fc * T)
    set S := Real.sin (Real.pi * fc * T)
    have hS : S = ω * C := by rw [htan]; field_simp
    have hCS : C ^ 2 * (1 + ω ^ 2) = 1 := by
      have := Real.cos_sq_add_sin_sq (Real.pi * fc * T)
      change C ^ 2 + S ^ 2 = 1 at this
      rw [hS] at this; linarith
    have hden : (1 + ω) * z - 1 = w * ((ω * C : ℝ) + (((2 + ω) * S : ℝ) : ℂ) * Complex.I) := by
      push_cast at hplus hminus ⊢
      linear_combination (ω / 2 : ℂ) * hplus + (1 + ω / 2 : ℂ) * hminus
    rw [← Complex.normSq_eq_norm_sq, hden, Complex.normSq_div, Complex.normSq_mul, Complex.normSq_mul, Complex.normSq_add_mul_I,
      Complex.normSq_eq_norm_sq, Complex.normSq_eq_norm_sq, Complex.normSq_eq_norm_sq, hw, hz, norm_tone, Complex.norm_real, hS]
    have hd1 : 0 < 5 + 4 * ω + ω ^ 2 := by positivity
    have hC2 : 0 < C ^ 2 := by positivity
    have e3 : 1 ^ 2 * ((ω * C) ^ 2 + ((2 + ω) * (ω * C)) ^ 2) = ω ^ 2 * (C ^ 2 * (5 + 4 * ω + ω ^ 2)) := by ring
    rw [e3, Real.norm_of_nonneg hωp.le, one_pow, mul_one, div_eq_div_iff (by positivity) hd1.ne']
    linear_combination (-(ω ^ 2 * (5 + 4 * ω + ω ^ 2))) * hCS
  refine ⟨c, hc, hp.bounded, ?_, _, hp.response _, ?_⟩
  · refine HasResponse.const ?_
    have := hp.response 0
    rw [hr] at this
    have hωC : (ω : ℂ) ≠ 0 := by exact_mod_cast hωp.ne'
    simpa [hωC] using this
  · rw [hr]
    refine ⟨hpow, ?_⟩
    rw [hpow, div_lt_div_iff₀ (by positivity) (by norm_num)]
    have h7 : (√7 : ℝ) ^ 2 = 7 := Real.sq_sqrt (by norm_num)
    have h7p : (0 : ℝ) ≤ √7 := Real.sqrt_nonneg _
    constructor
    · intro h
      by_contra hcon
      push Not at hcon
      nlinarith
    · intro h
      have : (ω - 2) ^ 2 < 7 := by
        rw [← h7]
        have h27 : 2 < √7 := by rw [Real.lt_sqrt (by norm_num)]; norm_num
        apply sq_lt_sq'
        · linarith
        · linarith
      nlinarith

/-! ### Amplification at the cut-off -/

theorem lpfAmplRow_eq {fs fc ampl : ℝ} (h0 : 0 < fc) (h1 : fc < fs / 2) (ha : 0 < ampl) : ∃ c, lpfAmplRow fs fc ampl = some c ∧ PolesInside c ∧
    ∀ θ : ℝ, (polyOf c.num).eval (Complex.exp (θ * Complex.I)) / (polyOf c.den).eval (Complex.exp (θ * Complex.I)) =
      ((lpfOmega fc fs ^ 2 * Real.cos (θ / 2) ^ 2 : ℝ) : ℂ) /
        (((lpfOmega fc fs ^ 2 * Real.cos (θ / 2) ^ 2 - Real.sin (θ / 2) ^ 2 : ℝ) : ℂ) +
          ((1 / ampl * lpfOmega fc fs * Real.sin (θ / 2) * Real.cos (θ / 2) : ℝ) : ℂ) * Complex.I) := by
  have hfs : 0 < fs := by linarith
  have hω := lpfOmega_pos h0 h1
  have hx : 0 < Real.pi * (fc / fs) ∧ Real.pi * (fc / fs) < Real.pi / 2 := by
    have h2 : fc / fs < 1 / 2 := by rw [div_lt_iff₀ hfs]; linarith
    exact ⟨by positivity, by nlinarith [Real.pi_pos]⟩
  have hcos : 0 < Real.cos (Real.pi * (fc / fs)) := Real.cos_pos_of_mem_Ioo ⟨by linarith [hx.1, Real.pi_pos], hx.2⟩
  have htan : lpfOmega fc fs = Real.sin (Real.pi * (fc / fs)) / Real.cos (Real.pi * (fc / fs)) := by
    unfold lpfOmega; rw [Real.tan_eq_sin_div_cos]
  have hdbl : 2 * Real.pi * (fc / fs) = 2 * (Real.pi * (fc / fs)) := by ring
  have hcs := Real.cos_sq_add_sin_sq (Real.pi * (fc / fs))
  set ω := lpfOmega fc fs with hωd
  set Cc := Real.cos (Real.pi * (fc / fs)) with hCc
  have hS : Real.sin (Real.pi * (fc / fs)) = ω * Cc := by rw [htan]; field_simp
  have hCS : Cc ^ 2 * (1 + ω ^ 2) = 1 := by rw [hS] at hcs; linarith
  have hsin2 : Real.sin (2 * Real.pi * (fc / fs)) = 2 * ω / (1 + ω ^ 2) := by
    rw [hdbl, Real.sin_two_mul, hS, ← hCc, eq_div_iff (by positivity)]; linear_combination (2 * ω) * hCS
  have hcos2 : Real.cos (2 * Real.pi * (fc / fs)) = (1 - ω ^ 2) / (1 + ω ^ 2) := by
    rw [hdbl, Real.cos_two_mul, ← hCc, eq_div_iff (by positivity)]; linear_combination 2 * hCS
  have hck : 0 < 1 + 1 / ampl * ω + ω ^ 2 := by positivity
  have hb0 : 1 + 2 * ω / (1 + ω ^ 2) / (2 * ampl) = (1 + 1 / ampl * ω + ω ^ 2) / (1 + ω ^ 2) := by field_simp; ring
  have hb0p : 0 < (1 + 1 / ampl * ω + ω ^ 2) / (1 + ω ^ 2) := by positivity
  have ea0 : (1 - (1 - ω ^ 2) / (1 + ω ^ 2)) / 2 / ((1 + 1 / ampl * ω + ω ^ 2) / (1 + ω ^ 2)) = ω ^ 2 / (1 + 1 / ampl * ω + ω ^ 2) := by
    field_simp; ring
  have ea1 : (1 - (1 - ω ^ 2) / (1 + ω ^ 2)) / ((1 + 1 / ampl * ω + ω ^ 2) / (1 + ω ^ 2)) = 2 * (ω ^ 2 / (1 + 1 / ampl * ω + ω ^ 2)) := by
    field_simp; ring
  have eb1 : -2 * ((1 - ω ^ 2) / (1 + ω ^ 2)) / ((1 + 1 / ampl * ω + ω ^ 2) / (1 + ω ^ 2)) = 2 * (ω ^ 2 - 1) / (1 + 1 / ampl * ω + ω ^ 2) := by
    field_simp; ring
  have eb2 : (1 - 2 * ω / (1 + ω ^ 2) / (2 * ampl)) / ((1 + 1 / ampl * ω + ω ^ 2) / (1 + ω ^ 2)) = (1 - 1 / ampl * ω + ω ^ 2) / (1 + 1 / ampl * ω + ω ^ 2) := by
    field_simp; ring
  have hrow : lpfAmplRow fs fc ampl = some ⟨[ω ^ 2 / (1 + 1 / ampl * ω + ω ^ 2), 2 * (ω ^ 2 / (1 + 1 / ampl * ω + ω ^ 2)), ω ^ 2 / (1 + 1 / ampl * ω + ω ^ 2)],
      [(1 - 1 / ampl * ω + ω ^ 2) / (1 + 1 / ampl * ω + ω ^ 2), 2 * (ω ^ 2 - 1) / (1 + 1 / ampl * ω + ω ^ 2), 1]⟩ := by
    unfold lpfAmplRow
    rw [if_neg (by linarith)]
    dsimp only
    rw [hsin2, hcos2, hb0, ea0, ea1, eb1, eb2]
    unfold storedCoef
    simp [alignCoef]
  refine ⟨_, hrow, ⟨rfl, by simp, ?_⟩, ?_⟩
  · intro z hz
    dsimp only at hz
    rw [eval_three] at hz
    refine section_pole (c := 1 / ampl) (by positivity) hω z ?_
    rw [← hz, Complex.ofReal_one, one_mul]
  · intro θ
    dsimp only
    exact section_response (by positivity) hω θ rfl rfl rfl

/-- **C100** (amplification): the filter built from a cut-off frequency and an amplification is stable, passes constants and has the response
`1 / (1 - x² + i x / ampl)`, `x = tan(π f T) / tan(π fc T)`, of a resonant circuit: at the cut-off the modulus of the response is the amplification. -/
theorem C100_amplification (T : ℝ) (hT : 0 < T) (fcs : List ℝ) (hfc : ∀ fc ∈ fcs, 0 < fc ∧ fc < 1 / T / 2) (ampl : ℝ) (ha : 0 < ampl) :
    ∃ cs, lowPass T fcs (some [ampl]) none = some cs ∧ List.Forall₂ (fun fc c => BoundedOut c ∧ HasResponse c Real.pi 0 ∧
      (∀ a : ℝ, Tendsto (iirOut c true (fun _ => 1) fun _ => a) atTop (𝓝 a)) ∧
      (∀ f : ℝ, |f| < 1 / T / 2 → ∀ x : ℝ, x = Real.tan (Real.pi * f * T) / Real.tan (Real.pi * fc * T) →
        HasResponse c (2 * Real.pi * f * T) (1 / (1 - x ^ 2 + x / ampl * Complex.I))) ∧
      ∃ H, HasResponse c (2 * Real.pi * fc * T) H ∧ ‖H‖ = ampl) fcs cs := by
  have e : lowPass T fcs (some [ampl]) none = fcs.mapM fun fc => lpfAmplRow (1 / T) fc ampl := by
    have hv : lpfAmplVec fcs.length [ampl] = some (List.replicate fcs.length ampl) := by
      unfold lpfAmplVec
      by_cases h : fcs.length = 1
      · rw [h]; simp
      · rw [if_neg (by simpa using Ne.symm h)]; simp
    unfold lowPass lpfFromFcAmpl
    simp only [Option.isSome_none, Bool.false_eq_true, if_false, hv]
    change List.mapM _ _ = _
    clear hv hfc
    induction fcs with
    | nil => rfl
    | cons f l ih =>
      rw [List.length_cons, List.replicate_succ, List.zip_cons_cons, List.mapM_cons, List.mapM_cons, ih]
  rw [e]
  refine mapM_some _ _ _ fun fc hm => ?_
  obtain ⟨h0, h1⟩ := hfc fc hm
  obtain ⟨c, hc, hp, hr⟩ := lpfAmplRow_eq h0 h1 ha
  have hωp := lpfOmega_pos h0 h1
  have hω : lpfOmega fc (1 / T) = Real.tan (Real.pi * fc * T) := by unfold lpfOmega; congr 1; rw [div_div_eq_mul_div]; ring
  rw [hω] at hωp
  simp only [hω] at hr
  have hresp : ∀ f : ℝ, |f| < 1 / T / 2 → ∀ x : ℝ, x = Real.tan (Real.pi * f * T) / Real.tan (Real.pi * fc * T) →
        HasResponse c (2 * Real.pi * f * T) (1 / (1 - x ^ 2 + x / ampl * Complex.I)) := by
    intro f hf x hx
    have hfT : |f * T| < 1 / 2 := by
      rw [abs_mul, abs_of_pos hT]
      calc |f| * T < 1 / T / 2 * T := mul_lt_mul_of_pos_right hf hT
        _ = 1 / 2 := by field_simp
    have hC : 0 < Real.cos (Real.pi * f * T) := by
      rw [abs_lt] at hfT
      refine Real.cos_pos_of_mem_Ioo ⟨?_, ?_⟩ <;> nlinarith [Real.pi_pos]
    have hS : Real.sin (Real.pi * f * T) = x * Real.tan (Real.pi * fc * T) * Real.cos (Real.pi * f * T) := by
      rw [hx, div_mul_cancel₀ _ hωp.ne', Real.tan_mul_cos hC.ne']
    have := hp.response (2 * Real.pi * f * T)
    have hθ : 2 * Real.pi * f * T / 2 = Real.pi * f * T := by ring
    rw [hr, hθ, hS] at this
    convert this using 1
    set C := Real.cos (Real.pi * f * T)
    set ω := Real.tan (Real.pi * fc * T)
    have hωC : (ω : ℂ) ≠ 0 := by exact_mod_cast hωp.ne'
    have hCC : (C : ℂ) ≠ 0 := by exact_mod_cast hC.ne'
    have e2 : (((ω ^ 2 * C ^ 2 - (x * ω * C) ^ 2 : ℝ) : ℂ) + ((1 / ampl * ω * (x * ω * C) * C : ℝ) : ℂ) * Complex.I) =
        ((ω ^ 2 * C ^ 2 : ℝ) : ℂ) * (1 - x ^ 2 + x / ampl * Complex.I) := by
      push_cast; ring
    rw [e2, div_mul_eq_div_div, div_self]
    push_cast
    exact mul_ne_zero (pow_ne_zero _ hωC) (pow_ne_zero _ hCC)
  refine ⟨c, hc, hp.bounded, ?_, ?_, hresp, _, hresp fc ?_ 1 ?_, ?_⟩
  · have := hp.response Real.pi
    rwa [hr, Real.cos_pi_div_two, show (((Real.tan (Real.pi * fc * T)) ^ 2 * 0 ^ 2 : ℝ) : ℂ) = 0 by simp, zero_div] at this
  · refine HasResponse.const ?_
    have := hresp 0 (by simpa using h0.trans h1) 0 (by simp)
    simpa using this
  · rwa [abs_of_pos h0]
  · rw [div_self hωp.ne']
  · simp [abs_of_pos ha]

/-- **C100** (agreement): with the amplification `1 / √2` the two constructions give filters with the same outputs in the long run: the response of the
filter of order two is that of the filter with this amplification. -/
theorem C100_agreement (T : ℝ) (fc : ℝ) (h0 : 0 < fc) (h1 : fc < 1 / T / 2) :
    ∃ c c', lowPass T [fc] none (some 2) = some [c] ∧ lowPass T [fc] (some [1 / √2]) none = some [c'] ∧
      ∀ θ H, HasResponse c θ H ↔ HasResponse c' θ H := by
  obtain ⟨c, hc, hp, hr⟩ := lpfRow_even (n := 2) h0 h1 rfl (by norm_num)
  obtain ⟨c', hc', hp', hr'⟩ := lpfAmplRow_eq (ampl := 1 / √2) h0 h1 (by positivity)
  refine ⟨c, c', by simp only [lowPass, lpfFromFc, Option.bind_some]; rw [if_neg (by simp), List.mapM_cons, hc]; rfl,
    by simp only [lowPass, lpfFromFcAmpl, lpfAmplVec, List.length_singleton, if_true]; change List.mapM (m := Option) (fun p : ℝ × ℝ => lpfAmplRow (1 / T) p.1 p.2) [(fc, 1 / √2)] = _; rw [List.mapM_cons, hc']; rfl, fun θ H => ?_⟩
  have e : (polyOf c.num).eval (Complex.exp (θ * Complex.I)) / (polyOf c.den).eval (Complex.exp (θ * Complex.I)) =
      (polyOf c'.num).eval (Complex.exp (θ * Complex.I)) / (polyOf c'.den).eval (Complex.exp (θ * Complex.I)) := by
    rw [hr, hr']
    have : 2 * Real.cos (Real.pi * (2 * ((0 : ℕ) : ℝ) + 1) / (2 * ((2 : ℕ) : ℝ))) = 1 / (1 / √2) := by
      have e1 : Real.pi * (2 * ((0 : ℕ) : ℝ) + 1) / (2 * ((2 : ℕ) : ℝ)) = Real.pi / 4 := by norm_num
      rw [e1, Real.cos_pi_div_four]; simp; ring
    rw [show (2 / 2 : ℕ) = 1 from rfl, Finset.prod_range_one, this]
  have r1 := hp.response θ
  have r2 := hp'.response θ
  rw [← e] at r2
  constructor
  · intro h; rw [h.unique r1]; exact r2
  · intro h; rw [h.unique r2]; exact r1

/-- **C100** (rejections): an order that is odd and not one, a cut-off frequency from half of the sampling frequency on, both an order and an
amplification, or neither of the two. -/
theorem C100_rejections (T : ℝ) (fcs : List ℝ) :
    (∀ n, n % 2 = 1 → n ≠ 1 → lowPass T fcs none (some n) = none) ∧
    (∀ n fc, fc ∈ fcs → 1 / T / 2 ≤ fc → lowPass T fcs none (some n) = none) ∧
    (∀ ampl fc, ampl.length = fcs.length ∨ ampl.length = 1 → fc ∈ fcs → 1 / T / 2 ≤ fc → lowPass T fcs (some ampl) none = none) ∧
    (∀ ampl n, lowPass T fcs (some ampl) (some n) = none) ∧ lowPass T fcs none none = none := by
  have hM : ∀ {α β : Type} (r : α → Option β) (l : List α) (a : α), a ∈ l → r a = none → l.mapM r = none := by
    intro α β r l a hm ha
    induction l with
    | nil => simp at hm
    | cons b l ih =>
      rw [List.mapM_cons]
      rcases List.mem_cons.1 hm with h | h
      · rw [← h, ha]; rfl
      · rw [ih h]; cases r b <;> rfl
  refine ⟨?_, ?_, ?_, ?_, rfl⟩
  · intro n h1 h2; simp [lowPass, lpfFromFc, h1, h2]
  · intro n fc hm hle
    simp only [lowPass, Option.bind_some, lpfFromFc]
    split
    · rfl
    · exact hM _ _ fc hm (by unfold lpfRow; rw [if_pos hle])
  · intro ampl fc hl hm hle
    have hv : ∃ v, lpfAmplVec fcs.length ampl = some v ∧ v.length = fcs.length := by
      unfold lpfAmplVec
      by_cases h : ampl.length = fcs.length
      · exact ⟨ampl, by rw [if_pos h], h⟩
      · have h1 : ampl.length = 1 := hl.resolve_left h
        exact ⟨_, by rw [if_neg h, if_pos h1], by simp⟩
    obtain ⟨v, hv, hvl⟩ := hv
    unfold lowPass lpfFromFcAmpl
    simp only [Option.isSome_none, Bool.false_eq_true, if_false, hv]
    obtain ⟨i, hi, rfl⟩ := List.mem_iff_getElem.1 hm
    exact hM _ _ (fcs[i], v[i]'(by omega)) (List.mem_iff_getElem.2 ⟨i, by simp; omega, by simp⟩) (by unfold lpfAmplRow; rw [if_pos hle])
  · intro ampl n; rfl

/-- **C100** (negative frequency): a cut-off frequency below zero is accepted; the filter of order one is then unstable: its answer to a constant one
is `1 - q^(n + 1)` with `q > 1`. -/
theorem C100_negative (T : ℝ) (hT : 0 < T) (fc : ℝ) (h0 : fc < 0) (h1 : -(1 / T / 4) < fc) :
    ∃ c q, lowPass T [fc] none (some 1) = some [c] ∧ 1 < q ∧ (∀ n, iirOut c true (fun _ => 1) (fun _ => 1) n = 1 - q ^ (n + 1)) ∧ ¬ BoundedOut c := by
  have hω : lpfOmega fc (1 / T) = Real.tan (Real.pi * fc * T) := by unfold lpfOmega; congr 1; rw [div_div_eq_mul_div]; ring
  have hx1 : Real.pi * fc * T < 0 := by have := mul_neg_of_pos_of_neg Real.pi_pos h0; exact mul_neg_of_neg_of_pos this hT
  have hx2 : -(Real.pi / 4) < Real.pi * fc * T := by
    have h2 : -(1 / T / 4) * T < fc * T := mul_lt_mul_of_pos_right h1 hT
    have h3 : -(1 / T / 4) * T = -(1 / 4) := by field_simp
    rw [h3] at h2
    nlinarith [Real.pi_pos]
  have hneg : Real.tan (Real.pi * fc * T) < 0 := Real.tan_neg_of_neg_of_pi_div_two_lt hx1 (by linarith [Real.pi_pos])
  have hgt : -1 < Real.tan (Real.pi * fc * T) := by
    have := Real.tan_lt_tan_of_lt_of_lt_pi_div_two (x := -(Real.pi / 4)) (y := Real.pi * fc * T) (by linarith [Real.pi_pos]) (by linarith [Real.pi_pos]) hx2
    rwa [Real.tan_neg, Real.tan_pi_div_four] at this
  set ω := Real.tan (Real.pi * fc * T) with hωd
  have hpos : 0 < 1 + ω := by linarith
  set q := 1 / (1 + ω) with hq
  have hq1 : 1 < q := by rw [hq, lt_div_iff₀ hpos]; linarith
  have ea : ω / (1 + ω) = 1 - q := by rw [hq]; field_simp; ring
  have ht : lpfTotal 1 (lpfOmega fc (1 / T)) = ⟨[0, 1 - q], [-q, 1]⟩ := by
    rw [hω]; simp only [lpfTotal, if_true, lpfFirst]; rw [ea]; simp
  have hfc : fc < 1 / T / 2 := by have : 0 < 1 / T / 2 := by positivity
                                  linarith
  have hne : (1 : ℝ) - q ≠ 0 := by intro h; linarith
  have hrow : lpfRow (1 / T) 1 fc = some (integratorCoef (1 - q) q) := by
    rw [lpfRow_eq hfc _ ht (by simp [lpfLen]) (by simp) (by simp) (by simpa using hne) (by simp)]
    simp [frontPad, lpfLen, integratorCoef]
  have hout : ∀ n, iirOut (integratorCoef (1 - q) q) true (fun _ => 1) (fun _ => 1) n = 1 - q ^ (n + 1) := by
    intro n
    rw [C29_integrator]
    simp only [mul_one]
    have := Finset.sum_range_reflect (fun i => q ^ i) (n + 1)
    simp only [Nat.add_sub_cancel] at this
    rw [this, mul_neg_geom_sum]
  refine ⟨_, q, by simp only [lowPass, lpfFromFc, Option.bind_some]; rw [if_neg (by simp), List.mapM_cons, hrow]; rfl, hq1, hout, ?_⟩
  intro hB
  obtain ⟨M, hM⟩ := hB (fun _ => 1) ⟨1, fun n => by simp⟩
  have hM' : ∀ n, q ^ (n + 1) ≤ 1 + M := by
    intro n
    have := hM n
    rw [hout, abs_le] at this
    linarith [this.1]
  obtain ⟨n, hn⟩ := pow_unbounded_of_one_lt (1 + M) hq1
  have h2 : q ^ n ≤ q ^ (n + 1) := pow_le_pow_right₀ hq1.le (Nat.le_succ n)
  linarith [hM' n]

/-! ### Concrete cases -/

/-- Two filters of order 4, at a quarter and at an eighth of the sampling frequency. -/
example : ∃ cs, lowPass 1 [1 / 4, 1 / 8] none (some 4) = some cs ∧ cs.length = 2 := by
  obtain ⟨cs, h, hF⟩ := C100_butterworth 1 one_pos [1 / 4, 1 / 8] (by intro f hf; simp at hf; rcases hf with rfl | rfl <;> norm_num) 4 rfl (by norm_num)
  exact ⟨cs, h, hF.length_eq.symm⟩

/-- The filter of order one at a quarter of the sampling frequency leaves one fifth of the power, not one half. -/
example : ∃ c H, lowPass 1 [1 / 4] none (some 1) = some [c] ∧ HasResponse c (Real.pi / 2) H ∧ ‖H‖ ^ 2 = 1 / 5 := by
  obtain ⟨cs, h, hF⟩ := C100_first 1 [1 / 4] (by intro f hf; simp at hf; subst hf; norm_num)
  cases hF with
  | cons hc ht =>
    cases ht
    obtain ⟨_, _, H, hH, hp, _⟩ := hc
    refine ⟨_, H, h, by convert hH using 1; ring, ?_⟩
    have e : Real.pi * (1 / 4) * 1 = Real.pi / 4 := by ring
    rw [hp, e, Real.tan_pi_div_four]; norm_num

/-- An amplification of 3 at the cut-off. -/
example : ∃ c H, lowPass 1 [1 / 4] (some [3]) none = some [c] ∧ HasResponse c (Real.pi / 2) H ∧ ‖H‖ = 3 := by
  obtain ⟨cs, h, hF⟩ := C100_amplification 1 one_pos [1 / 4] (by intro f hf; simp at hf; subst hf; norm_num) 3 (by norm_num)
  cases hF with
  | cons hc ht =>
    cases ht
    obtain ⟨_, _, _, _, H, hH, hp⟩ := hc
    exact ⟨_, H, h, by convert hH using 1; ring, hp⟩

example : lowPass 1 [1 / 4] none (some 3) = none ∧ lowPass 1 [1 / 2] none (some 2) = none ∧ lowPass 1 [1 / 4] none none = none :=
  ⟨(C100_rejections 1 [1 / 4]).1 3 rfl (by norm_num), (C100_rejections 1 [1 / 2]).2.1 2 (1 / 2) (by simp) (by norm_num), rfl⟩

end

end Specula
