import Verif.Model.LoopTf
import Verif.Props.LowPass
/-!
# C123: rejection and noise transfer functions
-/
namespace Specula

open Polynomial Filter Topology

noncomputable section

/-! ### Specification -/

/-- The point of the unit circle of a frequency. -/
def unitPoint (fs freq : ℝ) : ℂ := Complex.exp ((2 * Real.pi * freq / fs : ℝ) * Complex.I)

/-- Value of the polynomial with the coefficients `l`, lowest order first. -/
def polyAt (l : List ℝ) (z : ℂ) : ℂ := ∑ i ∈ Finset.range l.length, ((l.getD i 0 : ℝ) : ℂ) * z ^ i

/-- Numerator and denominator of the plant at a point. -/
def plantNumAt (p : Option PlantTf) (z : ℂ) : ℂ := match p with
  | none => 1
  | some q => polyAt q.nw z
def plantDenAt (p : Option PlantTf) (z : ℂ) : ℂ := match p with
  | none => 1
  | some q => polyAt q.dm z * polyAt q.dw z

/-- Controller times plant. -/
def loopGain (c : IirCoef ℝ) (p : Option PlantTf) (z : ℂ) : ℂ := polyAt c.num z / polyAt c.den z * (plantNumAt p z / plantDenAt p z)

/-- The denominator at a point, which tells whether the response is finite. -/
def charAt (c : IirCoef ℝ) (p : Option PlantTf) (z : ℂ) : ℂ := polyAt c.den z * plantDenAt p z + polyAt c.num z * plantNumAt p z

/-! ### Lemmas -/

theorem polyAt_eq (l : List ℝ) (z : ℂ) : polyAt l z = (polyOf l).eval z := (eval_polyOf l z).symm

theorem polyAt_cons (a : ℝ) (l : List ℝ) (z : ℂ) : polyAt (a :: l) z = polyAt l z * z + a := by
  unfold polyAt
  rw [List.length_cons, Finset.sum_range_succ', Finset.sum_mul]
  congr 1
  · refine Finset.sum_congr rfl fun i _ => ?_
    rw [List.getD_cons_succ, pow_succ]; ring
  · simp

theorem polyval_eq (l : List ℝ) (z : ℂ) : polyval l z = polyAt l z := by
  induction l with
  | nil => simp [polyval, polyAt]
  | cons a l ih => rw [polyAt_cons, ← ih]; rfl

theorem stripZeros_spec (z : ℂ) : ∀ num den : List ℝ, ∃ k : ℕ,
    polyAt num z = polyAt (stripZeros num den).1 z * z ^ k ∧ polyAt den z = polyAt (stripZeros num den).2 z * z ^ k ∧
    ((stripZeros num den).2.length = 0 → den.length = 0) := by
  intro num den
  induction num, den using stripZeros.induct with
  | case1 a a' as b b' bs h ih =>
    obtain ⟨k, h1, h2, h3⟩ := ih
    refine ⟨k + 1, ?_, ?_, ?_⟩
    · rw [stripZeros, if_pos h, polyAt_cons, h.1, h1, pow_succ]; simp [mul_assoc]
    · rw [stripZeros, if_pos h, polyAt_cons, h.2, h2, pow_succ]; simp [mul_assoc]
    · rw [stripZeros, if_pos h]; intro h0; have := h3 h0; simp at this
  | case2 a a' as b b' bs h =>
    exact ⟨0, by rw [stripZeros, if_neg h]; simp, by rw [stripZeros, if_neg h]; simp, by rw [stripZeros, if_neg h]; exact id⟩
  | case3 num den h =>
    have e : stripZeros num den = (num, den) := by
      rw [stripZeros]
      exact h
    exact ⟨0, by rw [e]; simp, by rw [e]; simp, by rw [e]; exact id⟩

theorem unitPoint_norm (fs freq : ℝ) : ‖unitPoint fs freq‖ = 1 := norm_tone _

/-- The frequency response is the quotient of the two polynomials on the unit circle. -/
theorem freqResponse_eq (ε fs freq : ℝ) (num den : List ℝ) (hd : den.length ≠ 0) :
    freqResponse ε fs freq num den =
      open Classical in if ε < ‖polyAt den (unitPoint fs freq)‖ then some (polyAt num (unitPoint fs freq) / polyAt den (unitPoint fs freq)) else none := by
  have hz : Complex.exp (Complex.I * ((freq / (fs / 2) * Real.pi : ℝ) : ℂ)) = unitPoint fs freq := by
    unfold unitPoint
    rw [mul_comm]
    congr 3
    rw [div_div_eq_mul_div]; ring
  obtain ⟨k, h1, h2, h3⟩ := stripZeros_spec (unitPoint fs freq) num den
  have hz0 : unitPoint fs freq ≠ 0 := by
    intro h; have := unitPoint_norm fs freq; rw [h] at this; simp at this
  have hn : ‖polyAt den (unitPoint fs freq)‖ = ‖polyAt (stripZeros num den).2 (unitPoint fs freq)‖ := by
    rw [h2, norm_mul, norm_pow, unitPoint_norm, one_pow, mul_one]
  have hq : polyAt num (unitPoint fs freq) / polyAt den (unitPoint fs freq) =
      polyAt (stripZeros num den).1 (unitPoint fs freq) / polyAt (stripZeros num den).2 (unitPoint fs freq) := by
    rw [h1, h2, mul_div_mul_right _ _ (pow_ne_zero _ hz0)]
  have hnum : polyAt (if (stripZeros num den).1.length = 0 then [0] else (stripZeros num den).1) (unitPoint fs freq) =
      polyAt (stripZeros num den).1 (unitPoint fs freq) := by
    split
    · rename_i h; rw [List.length_eq_zero_iff.1 h]; simp [polyAt]
    · rfl
  unfold freqResponse
  dsimp only
  rw [if_neg (fun h => hd (h3 h)), hz, polyval_eq, polyval_eq, hnum, hn, hq]

theorem openLoop_num (c : IirCoef ℝ) (p : Option PlantTf) (z : ℂ) : polyAt (openLoop c p).1 z = polyAt c.num z * plantNumAt p z := by
  have e : polyOf (openLoop c p).1 = polyOf c.num * polyOf (plantCoef p).1 := by
    unfold openLoop
    dsimp only
    rw [polyOf_padTo, polyOf_convolve]
    split
    · rw [polyOf_padTo]
    · rfl
  rw [polyAt_eq, e, eval_mul, ← polyAt_eq, ← polyAt_eq]
  congr 1
  cases p with
  | none => simp [plantCoef, plantNumAt, polyAt]
  | some q => rfl

theorem openLoop_den (c : IirCoef ℝ) (p : Option PlantTf) (z : ℂ) : polyAt (openLoop c p).2 z = polyAt c.den z * plantDenAt p z := by
  have e : polyOf (openLoop c p).2 = polyOf c.den * polyOf (plantCoef p).2 := by
    unfold openLoop
    dsimp only
    rw [polyOf_padTo, polyOf_convolve]
  rw [polyAt_eq, e, eval_mul, ← polyAt_eq, ← polyAt_eq]
  congr 1
  cases p with
  | none => simp [plantCoef, plantDenAt, polyAt]
  | some q => simp only [plantCoef, plantDenAt, polyAt_eq, polyOf_convolve, eval_mul]

theorem openLoop_len (c : IirCoef ℝ) (p : Option PlantTf) : (openLoop c p).1.length = (openLoop c p).2.length := by
  unfold openLoop
  dsimp only
  rw [padTo_length _ _ (le_max_left ..), padTo_length _ _ (le_max_right ..)]

theorem openLoop_sum (c : IirCoef ℝ) (p : Option PlantTf) (z : ℂ) :
    polyAt (List.zipWith (· + ·) (openLoop c p).2 (openLoop c p).1) z = charAt c p z := by
  rw [polyAt_eq, polyOf_zipWith _ _ (openLoop_len c p).symm, eval_add, ← polyAt_eq, ← polyAt_eq, openLoop_num, openLoop_den]
  rfl

theorem openLoop_pos (c : IirCoef ℝ) (p : Option PlantTf) (z : ℂ) (h : charAt c p z ≠ 0) :
    (List.zipWith (· + ·) (openLoop c p).2 (openLoop c p).1).length ≠ 0 := by
  intro h0
  apply h
  rw [← openLoop_sum, List.length_eq_zero_iff.1 h0]
  simp [polyAt]

/-! ### Theorems -/

/-- C123: where the denominator does not vanish, the two responses are those of the closed loop and add up to one. -/
theorem C123_responses (ε fs freq : ℝ) (h0 : 0 ≤ ε) (c : IirCoef ℝ) (p : Option PlantTf) (h : ε < ‖charAt c p (unitPoint fs freq)‖) :
    ∃ R N : ℂ, rtfComplex ε fs freq c p = some R ∧ ntfComplex ε fs freq c p = some N ∧ R + N = 1 ∧
      R * charAt c p (unitPoint fs freq) = polyAt c.den (unitPoint fs freq) * plantDenAt p (unitPoint fs freq) ∧
      N * charAt c p (unitPoint fs freq) = polyAt c.num (unitPoint fs freq) * plantNumAt p (unitPoint fs freq) := by
  have hne : charAt c p (unitPoint fs freq) ≠ 0 := by
    intro h'; rw [h', norm_zero] at h; exact absurd h (not_lt.2 h0)
  have hl := openLoop_pos c p _ hne
  refine ⟨polyAt c.den (unitPoint fs freq) * plantDenAt p (unitPoint fs freq) / charAt c p (unitPoint fs freq),
    polyAt c.num (unitPoint fs freq) * plantNumAt p (unitPoint fs freq) / charAt c p (unitPoint fs freq), ?_, ?_, ?_, ?_, ?_⟩
  · unfold rtfComplex
    dsimp only
    rw [freqResponse_eq _ _ _ _ _ hl, openLoop_sum, if_pos h, openLoop_den]
  · unfold ntfComplex
    dsimp only
    rw [freqResponse_eq _ _ _ _ _ hl, openLoop_sum, if_pos h, openLoop_num]
  · rw [← add_div]; exact div_self hne
  · exact div_mul_cancel₀ _ hne
  · exact div_mul_cancel₀ _ hne

/-- C123: `RTF` is the modulus of 1 / (1 + CP) and `NTF` that of CP / (1 + CP). -/
theorem C123_rtf_ntf (ε fs freq : ℝ) (h0 : 0 ≤ ε) (c : IirCoef ℝ) (p : Option PlantTf) (h : ε < ‖charAt c p (unitPoint fs freq)‖)
    (hc : polyAt c.den (unitPoint fs freq) ≠ 0) (hp : plantDenAt p (unitPoint fs freq) ≠ 0) :
    rtf ε fs freq c p = some ‖1 / (1 + loopGain c p (unitPoint fs freq))‖ ∧
      ntf ε fs freq c p = some ‖loopGain c p (unitPoint fs freq) / (1 + loopGain c p (unitPoint fs freq))‖ := by
  obtain ⟨R, N, hR, hN, -, eR, eN⟩ := C123_responses ε fs freq h0 c p h
  have hne : charAt c p (unitPoint fs freq) ≠ 0 := by
    intro h'; rw [h', norm_zero] at h; exact absurd h (not_lt.2 h0)
  have e1 : 1 + loopGain c p (unitPoint fs freq) =
      charAt c p (unitPoint fs freq) / (polyAt c.den (unitPoint fs freq) * plantDenAt p (unitPoint fs freq)) := by
    unfold loopGain charAt; field_simp
  have e2 : loopGain c p (unitPoint fs freq) =
      polyAt c.num (unitPoint fs freq) * plantNumAt p (unitPoint fs freq) / (polyAt c.den (unitPoint fs freq) * plantDenAt p (unitPoint fs freq)) := by
    unfold loopGain; field_simp
  refine ⟨?_, ?_⟩
  · rw [rtf, hR, Option.map_some, e1, one_div_div, ← eR, mul_div_cancel_right₀ _ hne]
  · rw [ntf, hN, Option.map_some, e1, e2, div_div_div_cancel_right₀ (mul_ne_zero hc hp), ← eN, mul_div_cancel_right₀ _ hne]

/-- C123: at a pole of the controller (zero frequency for an integrator) nothing is left of the disturbance and the noise passes whole. -/
theorem C123_pole (ε fs freq : ℝ) (h0 : 0 ≤ ε) (c : IirCoef ℝ) (p : Option PlantTf) (h : ε < ‖charAt c p (unitPoint fs freq)‖)
    (hc : polyAt c.den (unitPoint fs freq) = 0) : rtf ε fs freq c p = some 0 ∧ ntf ε fs freq c p = some 1 := by
  obtain ⟨R, N, hR, hN, hs, eR, -⟩ := C123_responses ε fs freq h0 c p h
  have hne : charAt c p (unitPoint fs freq) ≠ 0 := by
    intro h'; rw [h', norm_zero] at h; exact absurd h (not_lt.2 h0)
  rw [hc, zero_mul] at eR
  have hR0 : R = 0 := (mul_eq_zero.1 eR).resolve_right hne
  rw [hR0, zero_add] at hs
  refine ⟨by rw [rtf, hR, hR0]; simp, by rw [ntf, hN, hs]; simp⟩

/-- C123: both are infinite exactly where the denominator is smaller than the threshold. -/
theorem C123_infinite (ε fs freq : ℝ) (h0 : 0 ≤ ε) (c : IirCoef ℝ) (p : Option PlantTf) (hn : c.num.length ≠ 0)
    (hp : (plantCoef p).1.length ≠ 0) :
    (rtf ε fs freq c p = none ↔ ‖charAt c p (unitPoint fs freq)‖ ≤ ε) ∧ (ntf ε fs freq c p = none ↔ ‖charAt c p (unitPoint fs freq)‖ ≤ ε) := by
  by_cases h : ε < ‖charAt c p (unitPoint fs freq)‖
  · obtain ⟨R, N, hR, hN, -⟩ := C123_responses ε fs freq h0 c p h
    simp [rtf, ntf, hR, hN, h]
  · have hl : (List.zipWith (· + ·) (openLoop c p).2 (openLoop c p).1).length ≠ 0 := by
      rw [List.length_zipWith, ← openLoop_len, min_self]
      unfold openLoop
      dsimp only
      rw [padTo_length _ _ (le_max_left ..)]
      have : (convolve c.num (if (plantCoef p).1.length < (plantCoef p).2.length then padTo (plantCoef p).2.length (plantCoef p).1 else (plantCoef p).1)).length ≠ 0 := by
        rw [convolve_length]
        split
        · rw [padTo_length _ _ (by omega)]; omega
        · omega
      omega
    have e1 : rtfComplex ε fs freq c p = none := by
      unfold rtfComplex; dsimp only
      rw [freqResponse_eq _ _ _ _ _ hl, openLoop_sum, if_neg h]
    have e2 : ntfComplex ε fs freq c p = none := by
      unfold ntfComplex; dsimp only
      rw [freqResponse_eq _ _ _ _ _ hl, openLoop_sum, if_neg h]
    simp [rtf, ntf, e1, e2, not_lt.1 h]

/-- The plant to be given for a loop with a delay of `d` frames in the controller. -/
def loopPlant (d : ℚ) : PlantTf := ⟨(delayTf (d + 1)).den, (delayTf (d + 1)).num, [1]⟩

/-- C123: the transfer functions tell what the simulated loop does.  In a stable loop a sinusoidal disturbance leaves, once the transient has died out,
a sinusoidal residual with the amplitude multiplied by `RTF`, and a sinusoidal command with the amplitude multiplied by `NTF`. -/
theorem C123_loop (ε fs freq : ℝ) (h0 : 0 ≤ ε) (c : IirCoef ℝ) (d : ℚ) (hlen : c.num.length = c.den.length) (hlast : c.den.getLastD 0 ≠ 0)
    (hd : 0 ≤ d) (hs : isStable c (delayTf (d + 1))) (h : ε < ‖charAt c (some (loopPlant d)) (unitPoint fs freq)‖) :
    ∃ R N : ℂ, rtf ε fs freq c (some (loopPlant d)) = some ‖R‖ ∧ ntf ε fs freq c (some (loopPlant d)) = some ‖N‖ ∧
      ∀ A : ℂ, let w := fun n : ℕ => (A * Complex.exp ((2 * Real.pi * freq / fs : ℝ) * n * Complex.I)).re
        Tendsto (fun n : ℕ => loopResidual c d w n - (A * R * Complex.exp ((2 * Real.pi * freq / fs : ℝ) * n * Complex.I)).re) atTop (𝓝 0) ∧
        Tendsto (fun n : ℕ => applied c d w n - (A * N * Complex.exp ((2 * Real.pi * freq / fs : ℝ) * n * Complex.I)).re) atTop (𝓝 0) := by
  obtain ⟨R, N, hR, hN, hsum, eR, -⟩ := C123_responses ε fs freq h0 c _ h
  refine ⟨R, N, by rw [rtf, hR]; rfl, by rw [ntf, hN]; rfl, ?_⟩
  intro A
  set θ : ℝ := 2 * Real.pi * freq / fs with hθ
  set z := Complex.exp (θ * Complex.I) with hz
  have hzu : unitPoint fs freq = z := rfl
  rw [hzu] at eR
  have eD : charAt c (some (loopPlant d)) z = (polyOf (closedLoopDen c.num c.den (delayTf (d + 1)).num (delayTf (d + 1)).den)).eval z := by
    rw [polyOf_closedLoopDen, eval_add, eval_mul, eval_mul]
    simp [charAt, plantNumAt, plantDenAt, loopPlant, polyAt_eq, eval_polyOf [(1 : ℝ)]]
  have eQ : polyAt c.den z * plantDenAt (some (loopPlant d)) z = (polyOf (convolve c.den (delayTf (d + 1)).den)).eval z := by
    rw [polyOf_convolve, eval_mul]
    simp [plantDenAt, loopPlant, polyAt_eq, eval_polyOf [(1 : ℝ)]]
  rw [eD, eQ] at eR
  intro w
  have key : Tendsto (fun n : ℕ => ((loopResidual c d w n : ℝ) : ℂ) - (((A * R * Complex.exp (θ * n * Complex.I)).re : ℝ) : ℂ)) atTop (𝓝 0) := by
    refine seq_of_poly (fun x => Tendsto x atTop (𝓝 0)) (fun a x hx => by rw [← smul_zero a]; exact hx.const_smul a)
      (fun r x y hr hx hy => tendsto_of_step hr hx hy) _ (loop_poly_ne_zero c d hlen hlast hd) hs.2 _ ?_
    have e : aeval shiftE (polyOf (closedLoopDen c.num c.den (delayTf (d + 1)).num (delayTf (d + 1)).den))
        (fun n : ℕ => ((loopResidual c d w n : ℝ) : ℂ) - (((A * R * Complex.exp (θ * n * Complex.I)).re : ℝ) : ℂ)) = 0 := by
      have e2 : (fun n : ℕ => ((loopResidual c d w n : ℝ) : ℂ) - (((A * R * Complex.exp (θ * n * Complex.I)).re : ℝ) : ℂ)) =
          (fun n : ℕ => ((loopResidual c d w n : ℝ) : ℂ)) - fun n : ℕ => (((A * R * Complex.exp (θ * n * Complex.I)).re : ℝ) : ℂ) := rfl
      rw [e2, map_sub, loop_poly c d w hlen hlast hd, ← polyOf_convolve]
      funext n
      rw [Pi.sub_apply]
      simp only [w, exp_tone, ← hz]
      rw [aeval_re, aeval_re, mul_assoc A R, eR, sub_self]; rfl
    rw [e]; exact tendsto_const_nhds
  have hr : Tendsto (fun n : ℕ => loopResidual c d w n - (A * R * Complex.exp (θ * n * Complex.I)).re) atTop (𝓝 0) := by
    have := (Complex.continuous_re.tendsto _).comp key
    simpa [Function.comp_def] using this
  refine ⟨hr, ?_⟩
  have hneg := hr.neg
  rw [neg_zero] at hneg
  refine hneg.congr fun n => ?_
  have hN' : N = 1 - R := by rw [← hsum]; ring
  have hw : loopResidual c d w n = w n - applied c d w n := rfl
  rw [hw, hN']
  have : A * (1 - R) * Complex.exp (θ * n * Complex.I) = A * Complex.exp (θ * n * Complex.I) - A * R * Complex.exp (θ * n * Complex.I) := by ring
  rw [this, Complex.sub_re]
  simp only [w]
  ring

/-! ### Concrete cases -/

/-- An integrator with gain one half. -/
def halfInt : IirCoef ℝ := ⟨[0, 1 / 2], [-1, 1]⟩

/-- No plant, half of the sampling frequency: the integrator gives 1/4, so four fifths of the disturbance are left and one fifth of the noise. -/
example : rtf 0 2 1 halfInt none = some (4 / 5) ∧ ntf 0 2 1 halfInt none = some (1 / 5) := by
  have hz : unitPoint 2 1 = -1 := by
    unfold unitPoint
    have : (2 * Real.pi * 1 / 2 : ℝ) = Real.pi := by ring
    rw [this, Complex.exp_pi_mul_I]
  have hd : polyAt halfInt.den (-1) = -2 := by simp [polyAt, halfInt, Finset.sum_range_succ]; norm_num
  have hn : polyAt halfInt.num (-1) = -(1 / 2) := by simp [polyAt, halfInt, Finset.sum_range_succ]
  have hc : charAt halfInt none (-1) = -(5 / 2) := by simp only [charAt, plantNumAt, plantDenAt, hd, hn]; norm_num
  have hg : loopGain halfInt none (-1) = 1 / 4 := by simp only [loopGain, plantNumAt, plantDenAt, hd, hn]; norm_num
  obtain ⟨h1, h2⟩ := C123_rtf_ntf 0 2 1 le_rfl halfInt none (by rw [hz, hc]; norm_num) (by rw [hz, hd]; norm_num) (by simp [plantDenAt])
  rw [hz, hg] at h1 h2
  rw [h1, h2]
  norm_num

/-- Hypotheses of `C123_loop` met: in the loop without further delay a disturbance that alternates at each frame is amplified by four thirds. -/
example : isStable halfInt (delayTf (0 + 1)) ∧ (0 : ℝ) < ‖charAt halfInt (some (loopPlant 0)) (unitPoint 2 1)‖ ∧
    rtf 0 2 1 halfInt (some (loopPlant 0)) = some (4 / 3) ∧ ntf 0 2 1 halfInt (some (loopPlant 0)) = some (1 / 3) := by
  have hpi : (2 * Real.pi * 1 / 2 : ℝ) = Real.pi := by ring
  have hz : unitPoint 2 1 = -1 := by unfold unitPoint; rw [hpi, Complex.exp_pi_mul_I]
  have hco : integratorCoef (1 / 2 : ℝ) 1 = halfInt := rfl
  have hd : polyAt halfInt.den (-1) = -2 := by simp [polyAt, halfInt, Finset.sum_range_succ]; norm_num
  have hn : polyAt halfInt.num (-1) = -(1 / 2) := by simp [polyAt, halfInt, Finset.sum_range_succ]
  have hpd : plantDenAt (some (loopPlant 0)) (-1) = -1 := by
    simp [plantDenAt, loopPlant, polyAt, delayTf, Finset.sum_range_succ]
  have hpn : plantNumAt (some (loopPlant 0)) (-1) = 1 := by
    simp [plantNumAt, loopPlant, polyAt, delayTf, Finset.sum_range_succ]
  have hc : charAt halfInt (some (loopPlant 0)) (-1) = 3 / 2 := by simp only [charAt, hd, hn, hpd, hpn]; norm_num
  have hs : isStable halfInt (delayTf (0 + 1)) := by
    rw [← hco, zero_add]; exact (C55_integrator_one_frame _ _).2 (by norm_num)
  have h : (0 : ℝ) < ‖charAt halfInt (some (loopPlant 0)) (unitPoint 2 1)‖ := by rw [hz, hc]; norm_num
  obtain ⟨R, N, h1, h2, -, e, e'⟩ := C123_responses 0 2 1 le_rfl halfInt _ h
  rw [hz, hc, hd, hpd] at e
  rw [hz, hc, hn, hpn] at e'
  have hR : R = 4 / 3 := by linear_combination (2 / 3 : ℂ) * e
  have hN : N = -(1 / 3) := by linear_combination (2 / 3 : ℂ) * e'
  refine ⟨hs, h, by rw [rtf, h1, hR]; norm_num, by rw [ntf, h2, hN]; norm_num⟩

/-- Zero frequency. -/
example : rtf 0 2 0 halfInt none = some 0 ∧ ntf 0 2 0 halfInt none = some 1 := by
  have hz : unitPoint 2 0 = 1 := by simp [unitPoint]
  have hd : polyAt halfInt.den 1 = 0 := by simp [polyAt, halfInt, Finset.sum_range_succ]
  have hn : polyAt halfInt.num 1 = 1 / 2 := by simp [polyAt, halfInt, Finset.sum_range_succ]
  refine C123_pole 0 2 0 le_rfl halfInt none ?_ (by rw [hz, hd])
  rw [hz]; simp only [charAt, plantNumAt, plantDenAt, hd, hn]; norm_num

end

end Specula
