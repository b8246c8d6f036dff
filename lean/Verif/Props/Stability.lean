import Verif.Model.Stability
import Verif.Props.Filter
import Mathlib.Analysis.SpecificLimits.Basic
import Mathlib.Algebra.Polynomial.Splits

/-!
# C55: the stability test of the filters is about the simulated loop
-/

namespace Specula

open Polynomial Filter Topology

/-! ### Polynomials acting on sequences -/

/-- The shift of sequences, `(shiftE x) n = x (n + 1)`. -/
def shiftE : Module.End ℂ (ℕ → ℂ) where
  toFun x n := x (n + 1)
  map_add' _ _ := rfl
  map_smul' _ _ := rfl

theorem shiftE_pow (k : ℕ) (x : ℕ → ℂ) (n : ℕ) : (shiftE ^ k) x n = x (n + k) := by
  induction k generalizing x with
  | zero => simp
  | succ k ih => rw [pow_succ, Module.End.mul_apply, ih]; rfl

theorem aeval_shiftE (l : List ℝ) (x : ℕ → ℂ) (n : ℕ) :
    aeval shiftE (polyOf l) x n = ∑ i ∈ Finset.range l.length, ((l.getD i 0 : ℝ) : ℂ) * x (n + i) := by
  unfold polyOf
  rw [map_sum, LinearMap.sum_apply, Finset.sum_apply]
  refine Finset.sum_congr rfl fun i _ => ?_
  rw [aeval_monomial, Module.End.mul_apply, Module.algebraMap_end_apply]
  simp [shiftE_pow]

theorem polyOf_coeff (l : List ℝ) (k : ℕ) : (polyOf l).coeff k = ((l.getD k 0 : ℝ) : ℂ) := by
  unfold polyOf
  rw [finsetSum_coeff]
  simp only [coeff_monomial]
  rw [Finset.sum_ite_eq']
  split
  · rfl
  · rename_i h
    rw [Finset.mem_range, not_lt] at h
    rw [List.getD_eq_default _ _ h]; simp

theorem polyOf_convolve (a b : List ℝ) : polyOf (convolve a b) = polyOf a * polyOf b := by
  ext k
  rw [polyOf_coeff, coeff_mul, Finset.Nat.sum_antidiagonal_eq_sum_range_succ_mk]
  simp only [polyOf_coeff]
  unfold convolve
  rcases Nat.lt_or_ge k (a.length + b.length - 1) with h | h
  · rw [List.getD_eq_getElem _ _ (by simpa using h)]
    simp
  · rw [List.getD_eq_default _ _ (by simpa using h), Complex.ofReal_zero]
    symm
    refine Finset.sum_eq_zero fun i hi => ?_
    rw [Finset.mem_range] at hi
    rcases Nat.lt_or_ge i a.length with h1 | h1
    · rw [List.getD_eq_default b _ (by omega)]; simp
    · rw [List.getD_eq_default a _ h1]; simp

theorem polyOf_padTo (n : ℕ) (a : List ℝ) : polyOf (padTo n a) = polyOf a := by
  ext k
  rw [polyOf_coeff, polyOf_coeff]
  unfold padTo
  rcases Nat.lt_or_ge k a.length with h | h
  · rw [List.getD_append _ _ _ _ h]
  · rw [List.getD_append_right _ _ _ _ h, List.getD_eq_default a _ h]
    congr 1
    simp [List.getD, List.getElem?_replicate]
    split <;> rfl

theorem padTo_length (n : ℕ) (a : List ℝ) (h : a.length ≤ n) : (padTo n a).length = n := by
  unfold padTo; simp; omega

theorem polyOf_zipWith (a b : List ℝ) (h : a.length = b.length) : polyOf (List.zipWith (· + ·) a b) = polyOf a + polyOf b := by
  ext k
  rw [coeff_add, polyOf_coeff, polyOf_coeff, polyOf_coeff]
  rcases Nat.lt_or_ge k a.length with h1 | h1
  · rw [List.getD_eq_getElem _ _ (by simp; omega), List.getD_eq_getElem _ _ h1, List.getD_eq_getElem _ _ (by omega)]
    simp
  · rw [List.getD_eq_default _ _ (by simp; omega), List.getD_eq_default _ _ h1, List.getD_eq_default _ _ (by omega)]
    simp

theorem polyOf_closedLoopDen (cn cd pn pd : List ℝ) :
    polyOf (closedLoopDen cn cd pn pd) = polyOf cd * polyOf pd + polyOf cn * polyOf pn := by
  unfold closedLoopDen
  dsimp only
  rw [polyOf_zipWith _ _ (by rw [padTo_length _ _ (le_max_right ..), padTo_length _ _ (le_max_left ..)]), polyOf_padTo, polyOf_padTo,
    polyOf_convolve, polyOf_convolve]
  split
  · rw [polyOf_padTo]
  · rfl

/-! ### Sequences and polynomials with small roots -/

/-- Bounded sequences. -/
def BoundedSeq (x : ℕ → ℂ) : Prop := ∃ M, ∀ n, ‖x n‖ ≤ M

theorem bounded_of_step {r : ℂ} (hr : ‖r‖ < 1) {x y : ℕ → ℂ} (h : ∀ n, x (n + 1) = r * x n + y n) (hy : BoundedSeq y) : BoundedSeq x := by
  obtain ⟨M, hM⟩ := hy
  have hM0 : 0 ≤ M := (norm_nonneg _).trans (hM 0)
  have h1 : 0 < 1 - ‖r‖ := by linarith
  refine ⟨max ‖x 0‖ (M / (1 - ‖r‖)), fun n => ?_⟩
  induction n with
  | zero => exact le_max_left ..
  | succ n ih =>
    set B := max ‖x 0‖ (M / (1 - ‖r‖)) with hB
    have hle : M ≤ (1 - ‖r‖) * B := by
      have : M / (1 - ‖r‖) ≤ B := le_max_right ..
      rw [div_le_iff₀ h1] at this
      linarith
    calc ‖x (n + 1)‖ = ‖r * x n + y n‖ := by rw [h]
      _ ≤ ‖r‖ * ‖x n‖ + ‖y n‖ := (norm_add_le _ _).trans (by rw [norm_mul])
      _ ≤ ‖r‖ * B + M := add_le_add (mul_le_mul_of_nonneg_left ih (norm_nonneg _)) (hM n)
      _ ≤ B := by nlinarith

theorem tendsto_of_step {r : ℂ} (hr : ‖r‖ < 1) {x y : ℕ → ℂ} (h : ∀ n, x (n + 1) = r * x n + y n) (hy : Tendsto y atTop (𝓝 0)) :
    Tendsto x atTop (𝓝 0) := by
  have h1 : 0 < 1 - ‖r‖ := by linarith
  rw [Metric.tendsto_atTop] at hy ⊢
  intro ε hε
  obtain ⟨N, hN⟩ := hy (ε / 2 * (1 - ‖r‖)) (by positivity)
  have hb : ∀ m, ‖x (N + m)‖ ≤ ‖r‖ ^ m * ‖x N‖ + ε / 2 := by
    intro m
    induction m with
    | zero => simp; positivity
    | succ m ih =>
      have hym : ‖y (N + m)‖ ≤ ε / 2 * (1 - ‖r‖) := by
        have := hN (N + m) (by omega)
        rw [dist_zero_right] at this
        exact this.le
      calc ‖x (N + (m + 1))‖ = ‖r * x (N + m) + y (N + m)‖ := by rw [← add_assoc, h]
        _ ≤ ‖r‖ * ‖x (N + m)‖ + ‖y (N + m)‖ := (norm_add_le _ _).trans (by rw [norm_mul])
        _ ≤ ‖r‖ * (‖r‖ ^ m * ‖x N‖ + ε / 2) + ε / 2 * (1 - ‖r‖) := add_le_add (mul_le_mul_of_nonneg_left ih (norm_nonneg _)) hym
        _ = ‖r‖ ^ (m + 1) * ‖x N‖ + ε / 2 := by ring
  have hp : Tendsto (fun m : ℕ => ‖r‖ ^ m * ‖x N‖) atTop (𝓝 0) := by
    simpa using (tendsto_pow_atTop_nhds_zero_of_lt_one (norm_nonneg r) hr).mul_const ‖x N‖
  rw [Metric.tendsto_atTop] at hp
  obtain ⟨M, hM⟩ := hp (ε / 2) (by positivity)
  refine ⟨N + M, fun n hn => ?_⟩
  obtain ⟨m, rfl⟩ := Nat.exists_eq_add_of_le (show N ≤ n by omega)
  have hm := hM m (by omega)
  rw [Real.dist_0_eq_abs, abs_of_nonneg (by positivity)] at hm
  rw [dist_zero_right]
  linarith [hb m]

/-- A class of sequences closed under scaling and such that `x (n+1) - r x n` in the class, `‖r‖ < 1`, puts `x` in the class, contains `x` if it
contains `p(E) x` and the roots of `p ≠ 0` are in the open disc. -/
theorem seq_of_poly (S : (ℕ → ℂ) → Prop) (hs : ∀ (a : ℂ) x, S x → S (a • x))
    (hr : ∀ (r : ℂ) x y, ‖r‖ < 1 → (∀ n, x (n + 1) = r * x n + y n) → S y → S x)
    (p : ℂ[X]) (hp : p ≠ 0) (hroots : ∀ z ∈ p.roots, ‖z‖ < 1) (x : ℕ → ℂ) (h : S (aeval shiftE p x)) : S x := by
  have hsp : p = C p.leadingCoeff * (p.roots.map (X - C ·)).prod := (IsAlgClosed.splits p).eq_prod_roots
  have key : ∀ (m : Multiset ℂ), (∀ z ∈ m, ‖z‖ < 1) → ∀ x, S (aeval shiftE (m.map (X - C ·)).prod x) → S x := by
    intro m
    induction m using Multiset.induction_on with
    | empty => intro _ x hx; simpa using hx
    | cons r m ih =>
      intro hm x hx
      have h2 := ih (fun z hz => hm z (Multiset.mem_cons_of_mem hz)) (aeval shiftE (X - C r) x) ?_
      · refine hr r x _ (hm r (Multiset.mem_cons_self ..)) (fun n => ?_) h2
        have : aeval shiftE (X - C r) x n = x (n + 1) - r * x n := by
          simp [shiftE]
        rw [this]; ring
      · rw [Multiset.map_cons, Multiset.prod_cons, mul_comm, map_mul, Module.End.mul_apply] at hx
        exact hx
  refine key _ hroots x ?_
  have hl : p.leadingCoeff ≠ 0 := leadingCoeff_ne_zero.2 hp
  have h3 := hs p.leadingCoeff⁻¹ _ h
  rw [hsp, map_mul, Module.End.mul_apply, aeval_C, Module.algebraMap_end_apply, leadingCoeff_mul, leadingCoeff_C] at h3
  have hmon : ((p.roots.map (X - C ·)).prod).leadingCoeff = 1 := (monic_multisetProd_X_sub_C p.roots)
  rw [hmon, mul_one, smul_smul, inv_mul_cancel₀ hl, one_smul] at h3
  exact h3

/-! ### The simulated loop -/

section
variable (c : IirCoef ℝ) (d : ℚ) (w : ℕ → ℝ)

/-- The output of the controller before the delay. -/
noncomputable def loopCommand (n : ℕ) : ℝ := iirOut c true (fun _ => 1) (loopResidual c d w) n

theorem loopState_eq (n : ℕ) : (loopState c d w n).iir = iirState c true (fun _ => 1) (loopResidual c d w) n ∧
    (loopState c d w n).buf = delayBuf d (loopCommand c d w) n := by
  induction n with
  | zero => exact ⟨rfl, rfl⟩
  | succ n ih =>
    have e1 : (loopState c d w (n + 1)).iir = (iirStep c true 1 (loopResidual c d w n) (loopState c d w n).iir).1 := rfl
    have e2 : (loopState c d w (n + 1)).buf = delayStep d (iirStep c true 1 (loopResidual c d w n) (loopState c d w n).iir).2 (loopState c d w n).buf := rfl
    rw [e1, e2, ih.1, ih.2]
    exact ⟨rfl, rfl⟩

theorem applied_zero : applied c d w 0 = 0 := rfl

theorem applied_succ (n : ℕ) : applied c d w (n + 1) = delayedOut d (loopCommand c d w) n := by
  have e : applied c d w (n + 1) = delayOutput d (loopState c d w (n + 1)).buf := rfl
  rw [e, (loopState_eq c d w (n + 1)).2]
  rfl

theorem back_one (y : ℕ → ℝ) (n i : ℕ) : back y (n + 1) (i + 1) = back y n i := by
  unfold back
  by_cases h : i ≤ n
  · rw [if_pos h, if_pos (by omega)]; congr 1; omega
  · rw [if_neg h, if_neg (by omega)]

/-- One more frame of delay. -/
theorem delayedOut_succ (hd : 0 ≤ d) (y : ℕ → ℝ) (n : ℕ) :
    delayedOut (d + 1) y (n + 1) = delayedOut d y n ∧ delayedOut (d + 1) y 0 = 0 := by
  by_cases hf : d = ⌊d⌋
  · obtain ⟨k, rfl⟩ : ∃ k : ℕ, d = k := by
      refine ⟨⌊d⌋.toNat, ?_⟩
      have h0 : 0 ≤ ⌊d⌋ := Int.floor_nonneg.2 hd
      rw [hf]; simp only [Int.floor_intCast]
      have := Int.toNat_of_nonneg h0
      exact_mod_cast this.symm
    have e : ((k : ℚ) + 1) = ((k + 1 : ℕ) : ℚ) := by push_cast; ring
    rw [e, C28_integer_delay, C28_integer_delay, C28_integer_delay]
    refine ⟨back_one y n k, ?_⟩
    unfold back; rw [if_neg (by omega)]
  · have hpos : 0 < d := lt_of_le_of_ne hd (by rintro rfl; simp at hf)
    have hf1 : d + 1 ≠ ⌊d + 1⌋ := by
      rw [Int.floor_add_one]; push_cast; intro h; exact hf (by linarith)
    have e1 : d + 1 - ⌊d + 1⌋ = d - ⌊d⌋ := by rw [Int.floor_add_one]; push_cast; ring
    have e2 : ⌊d + 1⌋₊ = ⌊d⌋₊ + 1 := Nat.floor_add_one hd
    rw [C28_fractional_delay (d + 1) (by linarith) hf1, C28_fractional_delay (d + 1) (by linarith) hf1, C28_fractional_delay d hpos hf, e1, e2,
      back_one, back_one]
    refine ⟨rfl, ?_⟩
    unfold back
    rw [if_neg (by omega), if_neg (by omega)]; ring

/-- The command applied is the controller output delayed by one more frame. -/
theorem applied_eq (hd : 0 ≤ d) (n : ℕ) : applied c d w n = delayedOut (d + 1) (loopCommand c d w) n := by
  cases n with
  | zero => rw [applied_zero, (delayedOut_succ d hd _ 0).2]
  | succ n => rw [applied_succ, (delayedOut_succ d hd _ n).1]

/-- The difference equation of a filter with as many numerator as denominator coefficients, forward in time. -/
theorem iir_forward (c : IirCoef ℝ) (hlen : c.num.length = c.den.length) (hlast : c.den.getLastD 0 ≠ 0) (u : ℕ → ℝ) :
    aeval shiftE (polyOf c.den) (fun n => ((iirOut c true (fun _ => 1) u n : ℝ) : ℂ)) = aeval shiftE (polyOf c.num) (fun n => (u n : ℂ)) := by
  have hd : c.den ≠ [] := by rintro h; rw [h] at hlast; simp at hlast
  have hpos := List.length_pos_iff.2 hd
  have hn : c.num ≠ [] := by intro h; rw [h] at hlen; simp at hlen; omega
  funext n
  rw [aeval_shiftE, aeval_shiftE]
  have h := C29_difference_equation c hn hlast (fun _ => 1) u (n + (c.den.length - 1))
  have hb : ∀ (y : ℕ → ℝ) (i : ℕ), i < c.den.length → back y (n + (c.den.length - 1)) (c.den.length - 1 - i) = y (n + i) := by
    intro y i hi
    unfold back
    rw [if_pos (by omega)]; congr 1; omega
  have e1 : ∑ i ∈ Finset.range c.den.length, c.den.getD i 0 * back (iirOut c true (fun _ => 1) u) (n + (c.den.length - 1)) (c.den.length - 1 - i) =
      ∑ i ∈ Finset.range c.den.length, c.den.getD i 0 * iirOut c true (fun _ => 1) u (n + i) :=
    Finset.sum_congr rfl fun i hi => by rw [hb _ i (Finset.mem_range.1 hi)]
  have e2 : ∑ i ∈ Finset.range c.den.length, c.num.getD i 0 * back u (n + (c.den.length - 1)) (c.den.length - 1 - i) =
      ∑ i ∈ Finset.range c.den.length, c.num.getD i 0 * u (n + i) :=
    Finset.sum_congr rfl fun i hi => by rw [hb _ i (Finset.mem_range.1 hi)]
  rw [one_mul, hlen, e1, e2] at h
  rw [hlen]
  exact_mod_cast h

theorem delayTf_length (d : ℚ) : (delayTf (K := ℝ) d).num.length = (delayTf (K := ℝ) d).den.length := by
  unfold delayTf; dsimp only; split <;> simp

theorem loop_poly (hlen : c.num.length = c.den.length) (hlast : c.den.getLastD 0 ≠ 0) (hd : 0 ≤ d) :
    aeval shiftE (polyOf (closedLoopDen c.num c.den (delayTf (d + 1)).num (delayTf (d + 1)).den)) (fun n => ((loopResidual c d w n : ℝ) : ℂ)) =
      aeval shiftE (polyOf c.den * polyOf (delayTf (d + 1)).den) (fun n => (w n : ℂ)) := by
  have h1 := iir_forward c hlen hlast (loopResidual c d w)
  have h2 := iir_forward (delayTf (d + 1)) (delayTf_length _) (by rw [delayTf_den]; simp) (loopCommand c d w)
  have hq : (fun n => ((iirOut (delayTf (d + 1)) true (fun _ => 1) (loopCommand c d w) n : ℝ) : ℂ)) =
      (fun n => (w n : ℂ)) - fun n => ((loopResidual c d w n : ℝ) : ℂ) := by
    funext n
    rw [C32_delay_tf _ (by linarith), ← applied_eq c d w hd]
    rw [Pi.sub_apply, ← Complex.ofReal_sub]
    congr 1
    show applied c d w n = w n - (w n - applied c d w n)
    ring
  rw [hq, map_sub] at h2
  change aeval shiftE (polyOf c.den) (fun n => ((loopCommand c d w n : ℝ) : ℂ)) = _ at h1
  have h3 := congrArg (aeval shiftE (polyOf c.den)) h2
  rw [map_sub, ← Module.End.mul_apply, ← Module.End.mul_apply, ← Module.End.mul_apply, ← map_mul, ← map_mul,
    mul_comm (polyOf c.den) (polyOf (delayTf (d + 1)).num), map_mul _ (polyOf (delayTf (d + 1)).num), Module.End.mul_apply, h1,
    ← Module.End.mul_apply, ← map_mul, sub_eq_iff_eq_add] at h3
  rw [h3, polyOf_closedLoopDen, map_add, LinearMap.add_apply, mul_comm (polyOf c.num), add_comm]

theorem polyOf_natDegree (l : List ℝ) (n : ℕ) (h : l.length ≤ n + 1) : (polyOf l).natDegree ≤ n := by
  rw [natDegree_le_iff_coeff_eq_zero]
  intro k hk
  rw [polyOf_coeff, List.getD_eq_default _ _ (by omega)]; simp

theorem getLastD_eq_getD (l : List ℝ) : l.getLastD 0 = l.getD (l.length - 1) 0 := by
  rw [List.getLastD_eq_getLast?, List.getLast?_eq_getElem?, List.getD_eq_getElem?_getD]

theorem polyOf_delay (d : ℚ) : polyOf (delayTf (K := ℝ) d).den = X ^ ⌈d⌉₊ := by
  ext k
  rw [polyOf_coeff, delayTf_den, coeff_X_pow]
  rcases lt_trichotomy k ⌈d⌉₊ with h | h | h
  · rw [List.getD_append _ _ _ _ (by simpa using h), if_neg h.ne, List.getD_eq_getElem _ _ (by simpa using h)]; simp
  · subst h; rw [List.getD_append_right _ _ _ _ (by simp), if_pos rfl]; simp
  · rw [List.getD_eq_default _ _ (by simp; omega), if_neg h.ne']; simp

theorem sum_getD_range (l : List ℝ) : ∑ i ∈ Finset.range l.length, l.getD i 0 = l.sum := by
  induction l with
  | nil => simp
  | cons a l ih => rw [List.length_cons, Finset.sum_range_succ', List.sum_cons, ← ih, add_comm]; simp

/-- The last numerator coefficient of a delay of at least one frame is zero. -/
theorem delayTf_num_last (hd : 0 ≤ d) : (delayTf (K := ℝ) (d + 1)).num.getD ⌈d + 1⌉₊ 0 = 0 := by
  have h1 : 1 ≤ ⌈d + 1⌉₊ := Nat.one_le_ceil_iff.2 (by linarith)
  unfold delayTf
  dsimp only
  split
  · rename_i hf
    have h2 : 2 ≤ ⌈d + 1⌉₊ := by
      by_contra hlt
      have h3 : ⌈d + 1⌉₊ = 1 := by omega
      have h4 : d + 1 ≤ 1 := by simpa [h3] using Nat.le_ceil (d + 1)
      have : d = 0 := by linarith
      subst this
      simp at hf
    simp only [List.getD_eq_getElem?_getD]
    rw [List.getElem?_set_ne (by omega), List.getElem?_set_ne (by omega), List.getElem?_replicate]
    simp
  · simp only [List.getD_eq_getElem?_getD]
    rw [List.getElem?_set_ne (by omega), List.getElem?_replicate]
    simp

theorem loop_poly_ne_zero (hlen : c.num.length = c.den.length) (hlast : c.den.getLastD 0 ≠ 0) (hd : 0 ≤ d) :
    polyOf (closedLoopDen c.num c.den (delayTf (d + 1)).num (delayTf (d + 1)).den) ≠ 0 := by
  intro h0
  have hlen2 := delayTf_length (d + 1)
  have hdl : (delayTf (K := ℝ) (d + 1)).den.length = ⌈d + 1⌉₊ + 1 := by rw [delayTf_den]; simp
  have h := congrArg (fun p : ℂ[X] => p.coeff ((c.den.length - 1) + ⌈d + 1⌉₊)) h0
  simp only [polyOf_closedLoopDen, coeff_add, coeff_zero] at h
  rw [coeff_mul_add_eq_of_natDegree_le (polyOf_natDegree _ _ (by omega)) (polyOf_natDegree _ _ (by omega)),
    coeff_mul_add_eq_of_natDegree_le (polyOf_natDegree _ _ (by omega)) (polyOf_natDegree _ _ (by omega)), polyOf_coeff, polyOf_coeff, polyOf_coeff, polyOf_coeff,
    delayTf_num_last d hd, delayTf_den, ← getLastD_eq_getD] at h
  simp at h
  exact hlast (by rw [List.getLastD_eq_getLast?]; exact h)

/-! ### Properties -/

/-- A polynomial with given coefficients applied to a converging sequence. -/
theorem aeval_tendsto (p : ℂ[X]) (x : ℕ → ℂ) (L : ℂ) (hx : Tendsto x atTop (𝓝 L)) : Tendsto (aeval shiftE p x) atTop (𝓝 (p.eval 1 * L)) := by
  induction p using Polynomial.induction_on' with
  | add p q hp hq =>
    rw [map_add, LinearMap.add_apply, eval_add, add_mul]
    exact hp.add hq
  | monomial n a =>
    have e : aeval shiftE (monomial n a) x = fun k => a * x (k + n) := by
      funext k
      rw [aeval_monomial, Module.End.mul_apply, Module.algebraMap_end_apply]
      simp [shiftE_pow]
    rw [e, eval_monomial, one_pow, mul_one]
    exact ((tendsto_add_atTop_iff_nat n).2 hx).const_mul a

theorem aeval_bounded (p : ℂ[X]) (x : ℕ → ℂ) (hx : BoundedSeq x) : BoundedSeq (aeval shiftE p x) := by
  obtain ⟨M, hM⟩ := hx
  induction p using Polynomial.induction_on' with
  | add p q hp hq =>
    obtain ⟨A, hA⟩ := hp
    obtain ⟨B, hB⟩ := hq
    refine ⟨A + B, fun n => ?_⟩
    rw [map_add, LinearMap.add_apply]
    exact (norm_add_le _ _).trans (add_le_add (hA n) (hB n))
  | monomial n a =>
    refine ⟨‖a‖ * M, fun k => ?_⟩
    rw [aeval_monomial, Module.End.mul_apply, Module.algebraMap_end_apply]
    simp only [Pi.smul_apply, shiftE_pow, smul_eq_mul, norm_mul]
    exact mul_le_mul_of_nonneg_left (hM _) (norm_nonneg _)

/-- **C55** (equation of the loop): the residuals of the simulated loop obey the linear recurrence with the coefficients of
`closed_loop_denominator` for the plant `discrete_delay_tf(delay + 1)`, driven by the disturbance filtered with the controller's denominator. -/
theorem C55_loop_equation (hlen : c.num.length = c.den.length) (hlast : c.den.getLastD 0 ≠ 0) (hd : 0 ≤ d) (n : ℕ) :
    let cl := closedLoopDen c.num c.den (delayTf (d + 1)).num (delayTf (d + 1)).den
    ∑ i ∈ Finset.range cl.length, cl.getD i 0 * loopResidual c d w (n + i) =
      ∑ i ∈ Finset.range c.den.length, c.den.getD i 0 * w (n + ⌈d + 1⌉₊ + i) := by
  intro cl
  have h := congrFun (loop_poly c d w hlen hlast hd) n
  rw [aeval_shiftE, mul_comm, map_mul, Module.End.mul_apply, polyOf_delay, aeval_X_pow, shiftE_pow, aeval_shiftE] at h
  exact_mod_cast h

/-- **C55** (stable means settling): if `is_stable` holds for the plant `discrete_delay_tf(delay + 1)` and the disturbance vanishes with time, the
residuals and the commands vanish too. -/
theorem C55_settles (hlen : c.num.length = c.den.length) (hlast : c.den.getLastD 0 ≠ 0) (hd : 0 ≤ d) (hs : isStable c (delayTf (d + 1)))
    (hw : Tendsto w atTop (𝓝 0)) : Tendsto (loopResidual c d w) atTop (𝓝 0) ∧ Tendsto (applied c d w) atTop (𝓝 0) := by
  have hwc : Tendsto (fun n => (w n : ℂ)) atTop (𝓝 0) := by simpa [Function.comp_def] using (Complex.continuous_ofReal.tendsto 0).comp hw
  have h : Tendsto (fun n => ((loopResidual c d w n : ℝ) : ℂ)) atTop (𝓝 0) := by
    refine seq_of_poly (fun x => Tendsto x atTop (𝓝 0)) (fun a x hx => by rw [← smul_zero a]; exact hx.const_smul a) (fun r x y hr h hy => tendsto_of_step hr h hy) _
      (loop_poly_ne_zero c d hlen hlast hd) hs.2 _ ?_
    rw [loop_poly c d w hlen hlast hd]
    simpa using aeval_tendsto (polyOf c.den * polyOf (delayTf (d + 1)).den) _ 0 hwc
  have hr : Tendsto (loopResidual c d w) atTop (𝓝 0) := by
    have := (Complex.continuous_re.tendsto 0).comp h
    simpa [Function.comp_def] using this
  refine ⟨hr, ?_⟩
  have := hw.sub hr
  rw [sub_zero] at this
  refine this.congr fun n => ?_
  show w n - (w n - applied c d w n) = applied c d w n
  ring

/-- **C55** (stable means bounded): with a bounded disturbance the residuals and the commands stay bounded. -/
theorem C55_bounded (hlen : c.num.length = c.den.length) (hlast : c.den.getLastD 0 ≠ 0) (hd : 0 ≤ d) (hs : isStable c (delayTf (d + 1)))
    (M : ℝ) (hw : ∀ n, |w n| ≤ M) : ∃ B, ∀ n, |loopResidual c d w n| ≤ B ∧ |applied c d w n| ≤ B := by
  have h : BoundedSeq (fun n => ((loopResidual c d w n : ℝ) : ℂ)) := by
    refine seq_of_poly BoundedSeq ?_ (fun r x y hr h hy => bounded_of_step hr h hy) _
      (loop_poly_ne_zero c d hlen hlast hd) hs.2 _ ?_
    · rintro a x ⟨A, hA⟩
      exact ⟨‖a‖ * A, fun n => by rw [Pi.smul_apply, norm_smul]; exact mul_le_mul_of_nonneg_left (hA n) (norm_nonneg _)⟩
    · rw [loop_poly c d w hlen hlast hd]
      exact aeval_bounded _ _ ⟨M, fun n => by simpa using hw n⟩
  obtain ⟨A, hA⟩ := h
  refine ⟨M + A, fun n => ?_⟩
  have h1 : |loopResidual c d w n| ≤ A := by simpa using hA n
  have hM := (abs_nonneg _).trans (hw n)
  refine ⟨by linarith, ?_⟩
  have h2 : applied c d w n = w n - loopResidual c d w n := by
    show applied c d w n = w n - (w n - applied c d w n)
    ring
  rw [h2]
  exact (abs_sub _ _).trans (add_le_add (hw n) h1)

/-- **C55** (integrators remove constant disturbances): if the denominator has a zero sum (a pole in 1), a converging disturbance is
followed: the residual vanishes and the command tends to the limit. -/
theorem C55_rejects_constant (hlen : c.num.length = c.den.length) (hlast : c.den.getLastD 0 ≠ 0) (hd : 0 ≤ d) (hs : isStable c (delayTf (d + 1)))
    (hint : c.den.sum = 0) (L : ℝ) (hw : Tendsto w atTop (𝓝 L)) :
    Tendsto (loopResidual c d w) atTop (𝓝 0) ∧ Tendsto (applied c d w) atTop (𝓝 L) := by
  have hwc : Tendsto (fun n => (w n : ℂ)) atTop (𝓝 (L : ℂ)) := (Complex.continuous_ofReal.tendsto L).comp hw
  have hev : (polyOf c.den).eval 1 = 0 := by
    unfold polyOf
    rw [eval_finsetSum]
    simp only [eval_monomial, one_pow, mul_one]
    rw [← Complex.ofReal_sum, Complex.ofReal_eq_zero, sum_getD_range, hint]
  have h : Tendsto (fun n => ((loopResidual c d w n : ℝ) : ℂ)) atTop (𝓝 0) := by
    refine seq_of_poly (fun x => Tendsto x atTop (𝓝 0)) (fun a x hx => by rw [← smul_zero a]; exact hx.const_smul a) (fun r x y hr h hy => tendsto_of_step hr h hy) _
      (loop_poly_ne_zero c d hlen hlast hd) hs.2 _ ?_
    rw [loop_poly c d w hlen hlast hd]
    simpa [hev] using aeval_tendsto (polyOf c.den * polyOf (delayTf (d + 1)).den) _ _ hwc
  have hr : Tendsto (loopResidual c d w) atTop (𝓝 0) := by
    have := (Complex.continuous_re.tendsto 0).comp h
    simpa [Function.comp_def] using this
  refine ⟨hr, ?_⟩
  have := hw.sub hr
  rw [sub_zero] at this
  refine this.congr fun n => ?_
  show w n - (w n - applied c d w n) = applied c d w n
  ring

/-- Nothing happens before the disturbance starts. -/
theorem loopResidual_causal (hn : c.num ≠ []) (hdn : c.den ≠ []) (hd : 0 ≤ d) (N : ℕ) (hw : ∀ n < N, w n = 0) (n : ℕ) (h : n < N) :
    loopResidual c d w n = 0 := by
  have key : ∀ m, m ≤ N → (∀ k < m, loopResidual c d w k = 0) ∧ ∀ k < m, loopCommand c d w k = 0 := by
    intro m
    induction m with
    | zero => intro _; exact ⟨fun _ h => by omega, fun _ h => by omega⟩
    | succ m ih =>
      intro hm
      obtain ⟨h1, h2⟩ := ih (by omega)
      have hback : ∀ i, back (loopCommand c d w) m (i + 1) = 0 := by
        intro i
        unfold back
        split
        · exact h2 _ (by omega)
        · rfl
      have hr : loopResidual c d w m = 0 := by
        show w m - applied c d w m = 0
        rw [hw m (by omega)]
        have : applied c d w m = 0 := by
          cases m with
          | zero => rfl
          | succ m =>
            rw [applied_succ]
            have h0 : delayedOut d (loopCommand c d w) m = delayedOut d (fun _ => 0) m :=
              C28_memory d hd _ _ m fun i hi _ => h2 i (by omega)
            rw [h0, ← C32_delay_tf d hd]
            have := C29_linear (delayTf (K := ℝ) d) (by
              intro h; have := delayTf_length d; rw [h, delayTf_den] at this; simp at this) (by rw [delayTf_den]; simp) true (fun _ => 1) (fun _ => 0) (fun _ => 0) 0 0 m
            simpa using this
        rw [this, sub_zero]
      have hc : loopCommand c d w m = 0 := by
        unfold loopCommand
        rw [iirOut_eq c hn hdn]
        have e1 : ∀ i, back (loopResidual c d w) m i = 0 := by
          intro i
          unfold back
          split
          · rcases Nat.eq_zero_or_pos i with rfl | hi
            · simpa using hr
            · exact h1 _ (by omega)
          · rfl
        have e2 : ∀ i ∈ Finset.range (c.den.length - 1), c.den.getD i 0 * back (iirOut c true (fun _ => 1) (loopResidual c d w)) m (c.den.length - 1 - i) = 0 := by
          intro i hi
          rw [Finset.mem_range] at hi
          have := hback (c.den.length - 1 - i - 1)
          rw [show c.den.length - 1 - i - 1 + 1 = c.den.length - 1 - i by omega] at this
          change back (iirOut c true (fun _ => 1) (loopResidual c d w)) m _ = 0 at this
          rw [this, mul_zero]
        rw [Finset.sum_eq_zero e2]
        simp [e1]
      constructor
      · intro k hk
        rcases Nat.lt_succ_iff_lt_or_eq.1 hk with h | rfl
        · exact h1 k h
        · exact hr
      · intro k hk
        rcases Nat.lt_succ_iff_lt_or_eq.1 hk with h | rfl
        · exact h2 k h
        · exact hc
  exact (key N le_rfl).1 n h

/-- **C55** (unstable means not settling): if the closed loop denominator has a root outside the open unit disc that is not a pole of the controller, a
single kick is never forgotten: the residuals do not vanish. -/
theorem C55_unstable (hlen : c.num.length = c.den.length) (hlast : c.den.getLastD 0 ≠ 0) (hd : 0 ≤ d) (r : ℂ)
    (hr : r ∈ npRoots (closedLoopDen c.num c.den (delayTf (d + 1)).num (delayTf (d + 1)).den)) (h1 : 1 ≤ ‖r‖) (hpole : (polyOf c.den).eval r ≠ 0) :
    ∃ N, ¬ Tendsto (loopResidual c d fun n => if n = N then 1 else 0) atTop (𝓝 0) := by
  set p := polyOf (closedLoopDen c.num c.den (delayTf (d + 1)).num (delayTf (d + 1)).den) with hp
  set q := polyOf c.den * polyOf (delayTf (d + 1)).den with hq
  have hp0 := loop_poly_ne_zero c d hlen hlast hd
  rw [← hp] at hp0
  have hden : c.den ≠ [] := by rintro h; rw [h] at hlast; simp at hlast
  have hnum : c.num ≠ [] := by
    intro h; rw [h] at hlen
    have := List.length_pos_iff.2 hden
    simp at hlen; omega
  obtain ⟨s, hs⟩ : ∃ s, p = (X - C r) * s := dvd_iff_isRoot.2 ((mem_roots hp0).1 hr)
  set N := p.natDegree + q.natDegree + 1 with hN
  refine ⟨N, fun ht => ?_⟩
  set w : ℕ → ℝ := fun n => if n = N then 1 else 0 with hw
  set e : ℕ → ℂ := fun n => ((loopResidual c d w n : ℝ) : ℂ) with he
  have hte : Tendsto e atTop (𝓝 0) := by simpa [Function.comp_def, he] using (Complex.continuous_ofReal.tendsto 0).comp ht
  have heq : aeval shiftE p e = aeval shiftE q fun n => (w n : ℂ) := loop_poly c d w hlen hlast hd
  set g := aeval shiftE s e with hg
  have hstep : ∀ n, g (n + 1) = r * g n + aeval shiftE q (fun n => (w n : ℂ)) n := by
    intro n
    rw [← heq, hs, map_mul, Module.End.mul_apply, ← hg]
    simp [shiftE]
  have hpoly : ∀ (t : ℂ[X]) (x : ℕ → ℂ) (n : ℕ), aeval shiftE t x n = ∑ i ∈ Finset.range (t.natDegree + 1), t.coeff i * x (n + i) := by
    intro t x n
    rw [aeval_eq_sum_range, LinearMap.sum_apply, Finset.sum_apply]
    simp [shiftE_pow]
  -- the drive
  have hdrive : ∀ n, aeval shiftE q (fun n => (w n : ℂ)) n = if n ≤ N then q.coeff (N - n) else 0 := by
    intro n
    rw [hpoly]
    split
    · rename_i hn
      by_cases hin : N - n < q.natDegree + 1
      · rw [Finset.sum_eq_single_of_mem (N - n) (Finset.mem_range.2 hin) fun b _ hb => by simp only [hw]; rw [if_neg (by omega)]; simp]
        simp only [hw]; rw [if_pos (by omega)]; simp
      · rw [coeff_eq_zero_of_natDegree_lt (by omega)]
        refine Finset.sum_eq_zero fun b hb => ?_
        rw [Finset.mem_range] at hb
        simp only [hw]; rw [if_neg (by omega)]; simp
    · refine Finset.sum_eq_zero fun b hb => ?_
      simp only [hw]; rw [if_neg (by omega)]; simp
  have hg0 : g 0 = 0 := by
    rw [hg, hpoly]
    refine Finset.sum_eq_zero fun b hb => ?_
    rw [Finset.mem_range] at hb
    have hsd : s.natDegree ≤ p.natDegree := by
      rw [hs]
      by_cases hs0 : s = 0
      · rw [hs0]; simp
      · rw [natDegree_mul (X_sub_C_ne_zero r) hs0]; omega
    have : loopResidual c d w (0 + b) = 0 :=
      loopResidual_causal c d w hnum hden hd N (fun n hn => by simp only [hw]; rw [if_neg (by omega)]) _ (by omega)
    simp only [he]
    rw [this]; simp
  have hgN : ∀ n, n ≤ N + 1 → g n = ∑ k ∈ Finset.range n, r ^ (n - 1 - k) * q.coeff (N - k) := by
    intro n
    induction n with
    | zero => intro _; simpa using hg0
    | succ n ih =>
      intro hn
      rw [hstep, ih (by omega), hdrive, if_pos (by omega), Finset.sum_range_succ, Finset.mul_sum]
      congr 1
      · refine Finset.sum_congr rfl fun k hk => ?_
        rw [Finset.mem_range] at hk
        rw [← mul_assoc, ← pow_succ']
        congr 2; omega
      · simp
  have hval : g (N + 1) = q.eval r := by
    rw [hgN _ le_rfl, eval_eq_sum_range' (n := N + 1) (by omega), ← Finset.sum_range_reflect]
    refine Finset.sum_congr rfl fun k hk => ?_
    rw [Finset.mem_range] at hk
    rw [mul_comm]
    congr 1
    · congr 1; omega
    · congr 1
      omega
  have hfree : ∀ m, g (N + 1 + m) = r ^ m * q.eval r := by
    intro m
    induction m with
    | zero => simpa using hval
    | succ m ih =>
      rw [← add_assoc, hstep, ih, hdrive, if_neg (by omega), pow_succ]; ring
  have hqr : q.eval r ≠ 0 := by
    rw [hq, eval_mul, polyOf_delay, eval_pow, eval_X]
    have : r ≠ 0 := by rintro rfl; simp at h1; linarith
    exact mul_ne_zero hpole (pow_ne_zero _ this)
  have htg : Tendsto g atTop (𝓝 0) := by simpa using aeval_tendsto s e 0 hte
  have htg2 : Tendsto (fun m => ‖g (m + (N + 1))‖) atTop (𝓝 0) := by
    simpa using ((tendsto_add_atTop_iff_nat (N + 1)).2 htg).norm
  have : ‖q.eval r‖ ≤ 0 := by
    refine ge_of_tendsto' htg2 fun m => ?_
    rw [add_comm m, hfree, norm_mul, norm_pow]
    exact le_mul_of_one_le_left (norm_nonneg _) (one_le_pow₀ h1)
  exact hqr (norm_le_zero_iff.1 this)

end

/-! ### Maximum gain -/

theorem scanGains_spec (ok : ℝ → Bool) (l : List ℝ) (best : ℝ) :
    (scanGains ok l best = best ∧ ∀ g ∈ l.head?, ok g = false) ∨
      ∃ a g b, l = a ++ g :: b ∧ scanGains ok l best = g ∧ (∀ x ∈ a, ok x = true) ∧ ok g = true ∧ ∀ x ∈ b.head?, ok x = false := by
  induction l generalizing best with
  | nil => exact Or.inl ⟨rfl, by simp⟩
  | cons x l ih =>
    unfold scanGains
    by_cases hx : ok x = true
    · rw [if_pos hx]
      right
      rcases ih x with ⟨h1, h2⟩ | ⟨a, g, b, h1, h2, h3, h4, h5⟩
      · exact ⟨[], x, l, rfl, h1, by simp, hx, h2⟩
      · refine ⟨x :: a, g, b, by rw [h1]; rfl, h2, ?_, h4, h5⟩
        intro y hy
        rcases List.mem_cons.1 hy with rfl | hy
        · exact hx
        · exact h3 y hy
    · rw [if_neg hx]
      left
      exact ⟨rfl, by simpa using hx⟩

/-- Specification: the gains tested. -/
noncomputable def testedGain (tol maxG : ℝ) (n i : ℕ) : ℝ := tol + i * ((maxG - tol) / ((n - 1 : ℕ) : ℝ))

/-- **C55** (maximum gain): the result is 0, if the smallest gain tested is unstable already, or a gain tested that is stable, with all
smaller ones stable and the next one unstable. -/
theorem C55_max_gain (c : IirCoef ℝ) (delay : ℚ) (tol maxG : ℝ) (n : ℕ) (hn : 0 < n) :
    (maxStableGain c delay tol maxG n = 0 ∧ ¬ isStable (withGain c tol) (delayTf delay)) ∨
    ∃ k < n, maxStableGain c delay tol maxG n = testedGain tol maxG n k ∧
      (∀ i ≤ k, isStable (withGain c (testedGain tol maxG n i)) (delayTf delay)) ∧
      (k + 1 < n → ¬ isStable (withGain c (testedGain tol maxG n (k + 1))) (delayTf delay)) := by
  classical
  have hl : linspace tol maxG n = (List.range n).map (testedGain tol maxG n) := rfl
  rcases scanGains_spec (fun g => decide (isStable (withGain c g) (delayTf delay))) (linspace tol maxG n) 0 with ⟨h1, h2⟩ | ⟨a, g, b, h1, h2, h3, h4, h5⟩
  · left
    refine ⟨by unfold maxStableGain; convert h1, ?_⟩
    have := h2 tol ?_
    · simpa using this
    · rw [hl]
      obtain ⟨m, rfl⟩ : ∃ m, n = m + 1 := ⟨n - 1, by omega⟩
      rw [List.range_succ_eq_map]
      simp [testedGain]
  · right
    have hlen : a.length + (b.length + 1) = n := by
      have := congrArg List.length h1
      rw [hl] at this
      simp at this; omega
    have hget : ∀ i (hi : i < n), (a ++ g :: b)[i]'(by simp; omega) = testedGain tol maxG n i := by
      intro i hi
      have : (a ++ g :: b)[i]? = (linspace tol maxG n)[i]? := by rw [h1]
      rw [hl, List.getElem?_map, List.getElem?_range hi, List.getElem?_eq_getElem (by simp; omega)] at this
      simpa using this
    have hg : g = testedGain tol maxG n a.length := by
      rw [← hget a.length (by omega)]; simp
    refine ⟨a.length, by omega, ?_, ?_, ?_⟩
    · rw [← hg, ← h2]; unfold maxStableGain; congr
    · intro i hi
      rcases Nat.lt_or_ge i a.length with h | h
      · have := h3 (a[i]) (List.getElem_mem h)
        have e := hget i (by omega)
        rw [List.getElem_append_left h] at e
        rw [← e]; simpa using this
      · have : i = a.length := by omega
        rw [this, ← hg]; simpa using h4
    · intro hk
      have hb : 0 < b.length := by omega
      have e := hget (a.length + 1) (by omega)
      rw [List.getElem_append_right (by omega)] at e
      have hb0 : b[0] = testedGain tol maxG n (a.length + 1) := by rw [← e]; simp
      have := h5 b[0] (by rw [List.head?_eq_getElem?, List.getElem?_eq_getElem hb]; rfl)
      rw [← hb0]
      simpa using this

/-- **C55** (the maximum gain can be used): `set_gain` of the maximum stable gain for `delay + 1` frames, if it is not zero, gives a loop that forgets
the disturbances. -/
theorem C55_max_gain_settles (ord : ℕ) (num den : List ℝ) (hlen : num.length = den.length) (hlast : den.getLastD 0 ≠ 0) (hgain : (setNum ord num).gain ≠ 0)
    (d : ℚ) (hd : 0 ≤ d) (tol maxG : ℝ) (n : ℕ) (hn : 0 < n) (g : ℝ) (hg : maxStableGain ⟨(setNum ord num).num, den⟩ (d + 1) tol maxG n = g) (hg0 : g ≠ 0)
    (w : ℕ → ℝ) (hw : Tendsto w atTop (𝓝 0)) :
    Tendsto (loopResidual ⟨(setGain (some g) (setNum ord num)).num, den⟩ d w) atTop (𝓝 0) := by
  have hal : (alignCoef ord num).length = num.length := by
    unfold alignCoef
    split
    · rw [List.length_append]; simp; omega
    · rfl
  have e : (⟨(setGain (some g) (setNum ord num)).num, den⟩ : IirCoef ℝ) = withGain ⟨(setNum ord num).num, den⟩ g := by
    unfold withGain setGain setNum at *
    dsimp only at *
    rw [if_neg hgain]
    simp only [List.map_map, Option.getD_some]
    rfl
  rw [e]
  have hl2 : (withGain ⟨(setNum ord num).num, den⟩ g).num.length = (withGain ⟨(setNum ord num).num, den⟩ g).den.length := by
    unfold withGain setNum
    simp only [List.length_map]
    rw [hal, hlen]
  refine (C55_settles _ d w hl2 hlast hd ?_ hw).1
  rcases C55_max_gain ⟨(setNum ord num).num, den⟩ (d + 1) tol maxG n hn with ⟨h1, -⟩ | ⟨k, -, h1, h2, -⟩
  · exact absurd (hg.symm.trans h1) hg0
  · rw [← hg, h1]
    exact h2 k le_rfl

/-- The closed loop of an integrator with one frame of delay. -/
theorem integrator_poly (g ff : ℝ) : polyOf (closedLoopDen (integratorCoef g ff).num (integratorCoef g ff).den (delayTf 1).num (delayTf 1).den) =
    X * (X - C ((ff - g : ℝ) : ℂ)) := by
  rw [polyOf_closedLoopDen, polyOf_delay]
  have h1 : (delayTf (K := ℝ) 1).num = [1, 0] := by
    simp only [delayTf, Nat.ceil_one, Int.floor_one, Int.cast_one, sub_self, ne_eq, not_true_eq_false, if_false]
    rfl
  rw [h1]
  simp only [integratorCoef, polyOf, List.length_cons, List.length_nil, zero_add, Nat.reduceAdd, Finset.sum_range_succ, Finset.sum_range_zero,
    List.getD_cons_zero, List.getD_cons_succ, ← C_mul_X_pow_eq_monomial, Nat.ceil_one]
  simp only [Complex.ofReal_neg, map_neg, Complex.ofReal_one, map_one, Complex.ofReal_zero, map_zero, Complex.ofReal_sub, map_sub]
  ring

/-- **C55** (integrator): with one frame of delay in all, the integrator with gain `g` and forgetting factor `ff` is found stable exactly when `|ff - g| < 1`. -/
theorem C55_integrator_one_frame (g ff : ℝ) : isStable (integratorCoef g ff) (delayTf 1) ↔ |ff - g| < 1 := by
  unfold isStable stableDen npRoots
  rw [integrator_poly, roots_mul (mul_ne_zero X_ne_zero (X_sub_C_ne_zero _)), roots_X, roots_X_sub_C]
  have hlen : 1 < (closedLoopDen (integratorCoef g ff).num (integratorCoef g ff).den (delayTf 1).num (delayTf 1).den).length := by
    have hd : (delayTf (K := ℝ) 1).den.length = 2 := by rw [delayTf_den]; simp
    have hn : (delayTf (K := ℝ) 1).num.length = 2 := by rw [delayTf_length, hd]
    unfold closedLoopDen
    simp [padTo, convolve, integratorCoef, hd, hn]
  simp only [Multiset.mem_add, Multiset.mem_singleton]
  constructor
  · rintro ⟨-, h⟩
    have := h _ (Or.inr rfl)
    rwa [Complex.norm_real, Real.norm_eq_abs] at this
  · intro h
    refine ⟨hlen, ?_⟩
    rintro z (rfl | rfl)
    · simp
    · rwa [Complex.norm_real, Real.norm_eq_abs]

/-- **C55** is about filters with as many numerator as denominator coefficients: here the numerator is longer by a leading zero, which changes nothing in the
simulation; the test finds the loop stable, and a kick grows like `(-2)^n`. -/
theorem C55_length_mismatch : isStable ⟨[0, 0, 3], [-1, 1]⟩ (delayTf (0 + 1)) ∧
    ∀ n, loopResidual ⟨[0, 0, 3], [-1, 1]⟩ 0 (fun n => if n = 0 then 1 else 0) (n + 1) = -3 * (-2) ^ n := by
  have h1 : (delayTf (K := ℝ) 1).num = [1, 0] := by
    simp only [delayTf, Nat.ceil_one, Int.floor_one, Int.cast_one, sub_self, ne_eq, not_true_eq_false, if_false]
    rfl
  have h2 : (delayTf (K := ℝ) 1).den = [0, 1] := by rw [delayTf_den]; simp
  constructor
  · rw [zero_add]
    unfold isStable stableDen npRoots
    have hp : polyOf (closedLoopDen [0, 0, 3] [-1, 1] (delayTf 1).num (delayTf 1).den) = C 4 * (X * (X - C (1 / 4))) := by
      rw [polyOf_closedLoopDen, polyOf_delay, h1]
      simp only [polyOf, List.length_cons, List.length_nil, zero_add, Nat.reduceAdd, Finset.sum_range_succ, Finset.sum_range_zero,
        List.getD_cons_zero, List.getD_cons_succ, ← C_mul_X_pow_eq_monomial, Nat.ceil_one]
      simp only [Complex.ofReal_neg, map_neg, Complex.ofReal_one, map_one, Complex.ofReal_zero, map_zero, Complex.ofReal_ofNat]
      have h4 : (C (4 : ℂ)) * C (1 / 4) = 1 := by rw [← C_mul]; norm_num
      have h3 : (C (4 : ℂ)) = C 3 + 1 := by rw [← C_1, ← C_add]; norm_num
      linear_combination (-X ^ 2) * h3 + X * h4
    rw [hp, roots_C_mul _ (by norm_num), roots_mul (mul_ne_zero X_ne_zero (X_sub_C_ne_zero _)), roots_X, roots_X_sub_C, h1, h2]
    refine ⟨by simp [closedLoopDen, padTo, convolve], ?_⟩
    simp only [Multiset.mem_add, Multiset.mem_singleton]
    rintro z (rfl | rfl)
    · simp
    · norm_num
  · set w : ℕ → ℝ := fun n => if n = 0 then 1 else 0 with hw
    set c : IirCoef ℝ := ⟨[0, 0, 3], [-1, 1]⟩ with hc
    have happ : ∀ n, applied c 0 w (n + 1) = loopCommand c 0 w n := by
      intro n
      rw [applied_succ]
      have := C28_integer_delay 0 (loopCommand c 0 w) n
      simpa [back] using this
    have hy : ∀ n, loopCommand c 0 w n = 3 * (-2) ^ n := by
      intro n
      induction n with
      | zero =>
        have := iirOut_eq c (by simp [hc]) (by simp [hc]) true (fun _ => 1) (loopResidual c 0 w) 0
        unfold loopCommand
        rw [this]
        have hr : loopResidual c 0 w 0 = 1 := by show w 0 - applied c 0 w 0 = 1; rw [applied_zero]; simp [hw]
        simp [hc, Finset.sum_range_succ, back]
        rw [← hc, hr]
      | succ n ih =>
        have := iirOut_eq c (by simp [hc]) (by simp [hc]) true (fun _ => 1) (loopResidual c 0 w) (n + 1)
        have e : loopCommand c 0 w (n + 1) = 3 * loopResidual c 0 w (n + 1) + loopCommand c 0 w n := by
          unfold loopCommand
          rw [this]
          simp [hc, Finset.sum_range_succ, back]
        have hr : loopResidual c 0 w (n + 1) = - loopCommand c 0 w n := by
          show w (n + 1) - applied c 0 w (n + 1) = _
          rw [happ]; simp [hw]
        rw [e, hr, ih]; ring
    intro n
    show w (n + 1) - applied c 0 w (n + 1) = _
    rw [happ, hy]; simp [hw]

/-- Hypotheses met: an integrator of gain 1/2 with one frame of delay in all. -/
example : isStable (integratorCoef (1 / 2 : ℝ) 1) (delayTf (0 + 1)) ∧ (integratorCoef (1 / 2 : ℝ) 1).num.length = (integratorCoef (1 / 2 : ℝ) 1).den.length ∧
    (integratorCoef (1 / 2 : ℝ) 1).den.getLastD 0 ≠ 0 ∧ (integratorCoef (1 / 2 : ℝ) 1).den.sum = 0 := by
  refine ⟨?_, rfl, by simp [integratorCoef], by simp [integratorCoef]⟩
  rw [zero_add, C55_integrator_one_frame, abs_lt]
  constructor <;> norm_num

/-- and one of gain 3, with the root -2. -/
example : ((-2 : ℂ) ∈ npRoots (closedLoopDen (integratorCoef (3 : ℝ) 1).num (integratorCoef (3 : ℝ) 1).den (delayTf (0 + 1)).num (delayTf (0 + 1)).den)) ∧
    (1 : ℝ) ≤ ‖(-2 : ℂ)‖ ∧ (polyOf (integratorCoef (3 : ℝ) 1).den).eval (-2) ≠ 0 := by
  refine ⟨?_, by norm_num, ?_⟩
  · rw [zero_add]
    unfold npRoots
    rw [integrator_poly, roots_mul (mul_ne_zero X_ne_zero (X_sub_C_ne_zero _)), roots_X, roots_X_sub_C]
    norm_num
  · simp [integratorCoef, polyOf, Finset.sum_range_succ]
    norm_num

end Specula
