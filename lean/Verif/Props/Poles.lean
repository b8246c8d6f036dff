import Verif.Model.Poles
import Verif.Props.LoopTf
import Mathlib.Algebra.Polynomial.Reverse
/-!
# C124: poles and resonances reported for a filter
-/
namespace Specula

open Polynomial

noncomputable section

/-! ### Specification -/

/-- The poles of a filter: the zeros of its denominator in `z`, with multiplicity. -/
def truePoles (den : List ℝ) : Multiset ℂ := (∑ i ∈ Finset.range den.length, C ((den.getD i 0 : ℝ) : ℂ) * X ^ i).roots

/-! ### Lemmas -/

theorem truePoles_eq (l : List ℝ) : truePoles l = (polyOf l).roots := by
  unfold truePoles polyOf
  simp only [C_mul_X_pow_eq_monomial]

theorem prod_inv_roots (m : Multiset ℂ) (h : ∀ w ∈ m, w ≠ 0) :
    ((m.map fun w => 1 - C w * X).prod).roots = m.map fun w => w⁻¹ := by
  have e : ∀ w : ℂ, w ≠ 0 → (1 - C w * X) = C (-w) * (X - C w⁻¹) := by
    intro w hw
    rw [mul_sub, ← C_mul, neg_mul, mul_inv_cancel₀ hw]
    simp; ring
  have e' : (m.map fun w => 1 - C w * X) = m.map fun w => C (-w) * (X - C w⁻¹) := Multiset.map_congr rfl fun w hw => e w (h w hw)
  rw [e', Multiset.prod_map_mul]
  have hc : (m.map fun w : ℂ => (C (-w) : ℂ[X])).prod = C ((m.map fun w => -w).prod) := by
    rw [map_multiset_prod, Multiset.map_map]; rfl
  have hne : (m.map fun w => -w).prod ≠ 0 := by
    refine Multiset.prod_ne_zero fun h0 => ?_
    obtain ⟨w, hw, h1⟩ := Multiset.mem_map.1 h0
    exact h w hw (neg_eq_zero.1 h1)
  have hm : (m.map fun w => X - C w⁻¹) = ((m.map fun w => w⁻¹).map fun a => X - C a) := by rw [Multiset.map_map]; rfl
  rw [hc, roots_C_mul _ hne, hm, roots_multiset_prod_X_sub_C]

theorem reverse_prod_linear (m : Multiset ℂ) (h : ∀ w ∈ m, w ≠ 0) :
    ((m.map fun w => X - C w).prod).reverse = (m.map fun w => 1 - C w * X).prod := by
  induction m using Multiset.induction_on with
  | empty => rw [Multiset.map_zero, Multiset.map_zero, Multiset.prod_zero, ← C_1, reverse_C]
  | cons w m ih =>
    rw [Multiset.map_cons, Multiset.map_cons, Multiset.prod_cons, Multiset.prod_cons, reverse_mul_of_domain, ih fun x hx => h x (Multiset.mem_cons_of_mem hx)]
    congr 1
    ext k
    rw [coeff_reverse, natDegree_X_sub_C]
    rcases k with _ | _ | k
    · rw [revAt_le (by omega)]; simp [coeff_one]
    · rw [revAt_le (by omega)]; simp [coeff_one, coeff_X]
    · rw [revAt_eq_self_of_lt (by omega)]; simp [coeff_one, coeff_X]

theorem polyOf_reverse (l : List ℝ) (hl : l.getLastD 0 ≠ 0) : polyOf l.reverse = (polyOf l).reverse := by
  have hpos : 0 < l.length := by
    rcases l with _ | ⟨a, l⟩
    · simp at hl
    · simp
  have hdeg : (polyOf l).natDegree = l.length - 1 := by
    refine natDegree_eq_of_le_of_coeff_ne_zero (polyOf_natDegree l _ (by omega)) ?_
    rw [polyOf_coeff, ← getLastD_eq_getD]
    exact_mod_cast hl
  ext k
  rw [coeff_reverse, hdeg, polyOf_coeff, polyOf_coeff]
  rcases Nat.lt_or_ge k l.length with h | h
  · rw [revAt_le (by omega), List.getD_eq_getElem _ _ (by simpa using h), List.getD_eq_getElem _ _ (by omega), List.getElem_reverse]
  · rw [revAt_eq_self_of_lt (by omega), List.getD_eq_default _ _ (by simpa using h), List.getD_eq_default _ _ h]

/-- The roots of the reversed polynomial are the reciprocals. -/
theorem npRootsHigh_eq (l : List ℝ) (hf : l.getD 0 0 ≠ 0) (hl : l.getLastD 0 ≠ 0) :
    npRootsHigh l = (truePoles l).map fun w => w⁻¹ := by
  unfold npRootsHigh npRoots
  rw [truePoles_eq, polyOf_reverse l hl]
  have hsp : polyOf l = C (polyOf l).leadingCoeff * ((polyOf l).roots.map (X - C ·)).prod := (IsAlgClosed.splits _).eq_prod_roots
  have h0 : ∀ w ∈ (polyOf l).roots, w ≠ 0 := by
    rintro w hw rfl
    have := (mem_roots'.1 hw).2
    rw [IsRoot, ← coeff_zero_eq_eval_zero, polyOf_coeff] at this
    exact hf (by exact_mod_cast this)
  have hne : polyOf l ≠ 0 := by
    intro h
    have := polyOf_coeff l 0
    rw [h, coeff_zero] at this
    exact hf (by exact_mod_cast this.symm)
  have e : (polyOf l).reverse = C (polyOf l).leadingCoeff * ((polyOf l).roots.map fun w => 1 - C w * X).prod := by
    conv_lhs => rw [hsp]
    rw [reverse_mul_of_domain, reverse_C, reverse_prod_linear _ h0]
  rw [e, roots_C_mul _ (leadingCoeff_ne_zero.2 hne), prod_inv_roots _ h0]

theorem truePoles_card (l : List ℝ) (hl : l.getLastD 0 ≠ 0) : (truePoles l).card = l.length - 1 := by
  rw [truePoles_eq, ← (IsAlgClosed.splits (polyOf l)).natDegree_eq_card_roots]
  have hpos : 0 < l.length := by
    rcases l with _ | ⟨a, l⟩
    · simp at hl
    · simp
  refine natDegree_eq_of_le_of_coeff_ne_zero (polyOf_natDegree l _ (by omega)) ?_
  rw [polyOf_coeff, ← getLastD_eq_getD]
  exact_mod_cast hl

theorem npPoly_spec (ps : List ℝ) : (npPoly ps).length = ps.length + 1 ∧ (npPoly ps).getD 0 0 = 1 ∧
    polyOf (npPoly ps) = ((ps : Multiset ℝ).map fun p : ℝ => 1 - C (p : ℂ) * X).prod ∧ ((∀ p ∈ ps, p ≠ 0) → (npPoly ps).getLastD 0 ≠ 0) := by
  induction ps using List.reverseRecOn with
  | nil =>
    refine ⟨rfl, rfl, ?_, fun _ => by simp [npPoly]⟩
    simp [npPoly, polyOf]
  | append_singleton ps p ih =>
    obtain ⟨h1, h2, h3, h4⟩ := ih
    have e : npPoly (ps ++ [p]) = convolve (npPoly ps) [1, -p] := by simp [npPoly, List.foldl_append]
    have hpoly : polyOf (npPoly (ps ++ [p])) = polyOf (npPoly ps) * (1 - C (p : ℂ) * X) := by
      rw [e, polyOf_convolve]
      congr 1
      ext k
      rw [polyOf_coeff]
      rcases k with _ | _ | k <;> simp [coeff_one, coeff_X]
    refine ⟨?_, ?_, ?_, ?_⟩
    · rw [e, convolve_length, h1]; simp
    · have := polyOf_coeff (npPoly (ps ++ [p])) 0
      rw [hpoly, mul_coeff_zero, polyOf_coeff, h2] at this
      simp at this
      exact_mod_cast this.symm
    · rw [hpoly, h3, ← Multiset.coe_add, Multiset.map_add, Multiset.prod_add]
      simp
    · intro h
      have hne : npPoly ps ≠ [] := by intro h'; rw [h'] at h1; simp at h1
      rw [e, convolve_last _ _ hne (by simp)]
      exact mul_ne_zero (h4 fun q hq => h q (by simp [hq])) (by simpa using h p (by simp))

/-! ### Theorems -/

/-- C124: for a denominator whose first and last coefficients are not zero, `get_poles` gives the real parts of the reciprocals of the poles. -/
theorem C124_get_poles (den : List ℝ) (hf : den.getD 0 0 ≠ 0) (hl : den.getLastD 0 ≠ 0) :
    getPoles den.length den = some ((truePoles den).map fun w => (w⁻¹).re) := by
  have hc := truePoles_card den hl
  unfold getPoles
  split
  · dsimp only
    rw [Nat.sub_self, List.drop_zero, npRootsHigh_eq den hf hl, Multiset.card_map, hc, if_pos rfl, Multiset.map_map]
    rfl
  · have : (truePoles den).card = 0 := by omega
    rw [Multiset.card_eq_zero.1 this]; rfl

/-- C124: for real poles these are all outside of the unit circle exactly if the filter is stable. -/
theorem C124_inside_out (den : List ℝ) (hf : den.getD 0 0 ≠ 0) (hl : den.getLastD 0 ≠ 0) (hre : ∀ w ∈ truePoles den, w.im = 0) :
    ∃ m, getPoles den.length den = some m ∧ ((∀ w ∈ truePoles den, ‖w‖ < 1) ↔ ∀ p ∈ m, 1 < |p|) := by
  refine ⟨_, C124_get_poles den hf hl, ?_⟩
  have h0 : ∀ w ∈ truePoles den, w ≠ 0 := by
    rintro w hw rfl
    rw [truePoles_eq] at hw
    have := (mem_roots'.1 hw).2
    rw [IsRoot, ← coeff_zero_eq_eval_zero, polyOf_coeff] at this
    exact hf (by exact_mod_cast this)
  have key : ∀ w ∈ truePoles den, (‖w‖ < 1 ↔ 1 < |(w⁻¹).re|) := by
    intro w hw
    have e : w = ((w.re : ℝ) : ℂ) := Complex.ext rfl (by simpa using hre w hw)
    have e2 : |(w⁻¹).re| = ‖w‖⁻¹ := by
      rw [e, ← Complex.ofReal_inv, Complex.ofReal_re, Complex.norm_real, abs_inv, Real.norm_eq_abs]
    rw [e2]
    exact (one_lt_inv₀ (norm_pos_iff.2 (h0 w hw))).symm
  constructor
  · intro h p hp
    obtain ⟨w, hw, rfl⟩ := Multiset.mem_map.1 hp
    exact (key w hw).1 (h w hw)
  · intro h w hw
    exact (key w hw).2 (h _ (Multiset.mem_map.2 ⟨w, hw, rfl⟩))

/-- C124: after `set_poles` the filter has the reciprocals as poles, and `get_poles` computed from its coefficients gives the values set. -/
theorem C124_set_poles (ps : List ℝ) (h : ∀ p ∈ ps, p ≠ 0) :
    truePoles (setPoles ps) = (ps : Multiset ℝ).map (fun p : ℝ => ((p⁻¹ : ℝ) : ℂ)) ∧ getPoles (ps.length + 1) (setPoles ps) = some (ps : Multiset ℝ) := by
  obtain ⟨h1, h2, h3, h4⟩ := npPoly_spec ps
  have hp : truePoles (setPoles ps) = (ps : Multiset ℝ).map (fun p : ℝ => ((p⁻¹ : ℝ) : ℂ)) := by
    have := prod_inv_roots ((ps : Multiset ℝ).map fun p : ℝ => (p : ℂ)) (by
      intro w hw
      obtain ⟨p, hp, rfl⟩ := Multiset.mem_map.1 hw
      exact_mod_cast h p (by simpa using hp))
    rw [Multiset.map_map, Multiset.map_map] at this
    rw [truePoles_eq, setPoles, h3]
    refine Eq.trans this (Multiset.map_congr rfl fun p _ => ?_)
    simp
  refine ⟨hp, ?_⟩
  have := C124_get_poles (setPoles ps) (by rw [setPoles, h2]; exact one_ne_zero) (h4 h)
  rw [hp, Multiset.map_map] at this
  rw [← h1]
  refine this.trans ?_
  congr 1
  conv_rhs => rw [← Multiset.map_id (ps : Multiset ℝ)]
  refine Multiset.map_congr rfl fun p _ => ?_
  simp only [Function.comp, id]
  rw [← Complex.ofReal_inv, Complex.ofReal_re, inv_inv]

theorem npRootsHigh_zeros (k : ℕ) (l : List ℝ) : npRootsHigh (List.replicate k 0 ++ l) = npRootsHigh l := by
  unfold npRootsHigh npRoots
  congr 1
  ext n
  rw [polyOf_coeff, polyOf_coeff, List.reverse_append, List.reverse_replicate]
  rcases Nat.lt_or_ge n l.length with h | h
  · rw [List.getD_append _ _ _ _ (by simpa using h)]
  · rw [List.getD_append_right _ _ _ _ (by simpa using h), List.getD_eq_default l.reverse _ (by simpa using h)]
    congr 1
    rcases Nat.lt_or_ge (n - l.reverse.length) k with h' | h'
    · rw [List.getD_eq_getElem _ _ (by simpa using h')]; simp
    · rw [List.getD_eq_default _ _ (by simpa using h')]

/-- C124: the poles of a filter with `k` poles in zero (a pure delay, an integrator without memory) cannot be read, unless one other pole is left. -/
theorem C124_pole_zero (k : ℕ) (hk : 0 < k) (l : List ℝ) (hf : l.getD 0 0 ≠ 0) (hl : l.getLastD 0 ≠ 0) (h2 : l.length ≠ 2) :
    getPoles (k + l.length) (List.replicate k 0 ++ l) = none := by
  have hpos : 0 < l.length := by
    rcases l with _ | ⟨a, l⟩
    · simp at hl
    · simp
  have hc : (npRootsHigh l).card = l.length - 1 := by
    rw [npRootsHigh_eq l hf hl, Multiset.card_map, truePoles_card l hl]
  unfold getPoles
  have hlen : (List.replicate k (0 : ℝ) ++ l).length = k + l.length := by simp
  rw [if_pos (by omega)]
  dsimp only
  rw [hlen, Nat.sub_self, List.drop_zero, npRootsHigh_zeros, hc, if_neg (by omega), if_neg (by omega)]

/-- C124: if one other pole is left, its reciprocal is reported in place of all poles. -/
theorem C124_pole_zero_one (k : ℕ) (hk : 0 < k) (a b : ℝ) (ha : a ≠ 0) (hb : b ≠ 0) :
    truePoles [a, b] = {((-a / b : ℝ) : ℂ)} ∧
      getPoles (k + 2) (List.replicate k 0 ++ [a, b]) = some (Multiset.replicate (k + 1) (-b / a)) := by
  have ht : truePoles [a, b] = {((-a / b : ℝ) : ℂ)} := by
    rw [truePoles_eq]
    have hbc : (b : ℂ) ≠ 0 := by exact_mod_cast hb
    have e : polyOf [a, b] = C (b : ℂ) * (X - C ((-a / b : ℝ) : ℂ)) := by
      ext n
      rw [polyOf_coeff, coeff_C_mul]
      rcases n with _ | _ | n
      · simp; field_simp
      · simp [coeff_X]
      · simp [coeff_X]
    rw [e, roots_C_mul _ hbc, roots_X_sub_C]
  refine ⟨ht, ?_⟩
  have hr : npRootsHigh [a, b] = {((-b / a : ℝ) : ℂ)} := by
    rw [npRootsHigh_eq [a, b] (by simpa using ha) (by simpa using hb), ht, Multiset.map_singleton, ← Complex.ofReal_inv]
    congr 2
    field_simp
  unfold getPoles
  have hlen : (List.replicate k (0 : ℝ) ++ [a, b]).length = k + 2 := by simp
  rw [if_pos (by omega)]
  dsimp only
  rw [hlen, Nat.sub_self, List.drop_zero, npRootsHigh_zeros, hr, Multiset.card_singleton, if_neg (by omega), if_pos rfl]
  congr 1
  have hj : ∀ n : ℕ, (Multiset.replicate n ({((-b / a : ℝ) : ℂ)} : Multiset ℂ)).join = Multiset.replicate n ((-b / a : ℝ) : ℂ) := by
    intro n
    induction n with
    | zero => rfl
    | succ n ih => rw [Multiset.replicate_succ, Multiset.join_cons, ih, Multiset.replicate_succ, Multiset.singleton_add]
  rw [hj, Multiset.map_replicate, Complex.ofReal_re]
  rfl

/-- C124: the resonance is, among the frequencies asked for, one where the closed loop denominator is smallest. -/
theorem C124_resonance (fs : ℝ) (freqs : List ℝ) (hne : freqs ≠ []) (c : IirCoef ℝ) (g : ℝ) (pn pd : List ℝ) :
    ∃ f a : ℝ, resonance fs freqs c g pn pd = some (f, a) ∧ f ∈ freqs ∧
      (∀ f' ∈ freqs, ‖polyAt (closedLoopDen (c.num.map fun x => x * g) c.den pn pd) (unitPoint fs f)‖ ≤
        ‖polyAt (closedLoopDen (c.num.map fun x => x * g) c.den pn pd) (unitPoint fs f')‖) ∧
      a = 1 / ‖polyAt (closedLoopDen (c.num.map fun x => x * g) c.den pn pd) (unitPoint fs f)‖ := by
  have hd : ∀ f, denResponse fs f c g pn pd = ‖polyAt (closedLoopDen (c.num.map fun x => x * g) c.den pn pd) (unitPoint fs f)‖ := by
    intro f
    unfold denResponse
    dsimp only
    rw [polyval_eq]
    congr 2
    unfold unitPoint
    rw [mul_comm]
    congr 3
    rw [div_div_eq_mul_div]; ring
  cases h : freqs.argmin (fun f => denResponse fs f c g pn pd) with
  | none => exact absurd (List.argmin_eq_none.1 h) hne
  | some f =>
    refine ⟨f, 1 / denResponse fs f c g pn pd, by unfold resonance; rw [h]; rfl, List.argmin_mem h, ?_, by rw [hd]⟩
    intro f' hf'
    rw [← hd, ← hd]
    exact List.le_of_mem_argmin hf' h

/-- C124: `stability_analysis` looks at the loop with 0.99 times the largest stable gain times the gain of the filter, instead of 0.99 times the
largest stable gain. -/
theorem C124_analysis (fs : ℝ) (freqs : List ℝ) (c : IirCoef ℝ) (delay : ℚ) (gmax : ℝ) (hg : c.num.getLastD 0 ≠ 0) (hpos : 0 < gmax) :
    analysisResonance fs freqs c delay gmax =
      resonance fs freqs (withGain c (99 / 100 * gmax * c.num.getLastD 0)) 1 (delayTf delay).num (delayTf delay).den := by
  unfold analysisResonance
  rw [if_pos hpos]
  have e : ∀ f, denResponse fs f c (gmax * (99 / 100)) (delayTf delay).num (delayTf delay).den =
      denResponse fs f (withGain c (99 / 100 * gmax * c.num.getLastD 0)) 1 (delayTf delay).num (delayTf delay).den := by
    intro f
    unfold denResponse withGain
    dsimp only
    rw [List.map_map]
    congr 3
    refine List.map_congr_left fun a _ => ?_
    simp only [Function.comp]
    field_simp
  unfold resonance
  simp only [e]

/-! ### Concrete cases -/

/-- A leaky integrator with forgetting factor one half: its pole is one half, `get_poles` gives two. -/
example : getPoles 2 [-(1 / 2), 1] = some {2} := by
  have h := C124_get_poles [-(1 / 2), 1] (by simp) (by simp)
  have e : truePoles [-(1 / 2), 1] = {((1 / 2 : ℝ) : ℂ)} := by
    rw [truePoles_eq]
    have : polyOf [-(1 / 2), 1] = X - C ((1 / 2 : ℝ) : ℂ) := by
      ext k
      rw [polyOf_coeff]
      rcases k with _ | _ | k <;> simp [coeff_X, coeff_C]
    rw [this, roots_X_sub_C]
  rw [e] at h
  simpa using h

/-- A pure delay. -/
example : getPoles 2 [0, 1] = none := C124_pole_zero 1 one_pos [1] (by simp) (by simp) (by simp)

/-- Hypotheses of `C124_analysis` met by an integrator of gain one half, looked at with half of the gain intended. -/
example : (integratorCoef (1 / 2 : ℝ) 1).num.getLastD 0 ≠ 0 ∧ (99 / 100 * 2 * (integratorCoef (1 / 2 : ℝ) 1).num.getLastD 0 : ℝ) = 99 / 100 := by
  simp [integratorCoef]

end

end Specula
