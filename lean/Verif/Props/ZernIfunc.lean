import Verif.Model.ZernIfunc
import Mathlib.Algebra.BigOperators.Ring.Finset
import Mathlib.Algebra.BigOperators.Fin
import Mathlib.Algebra.BigOperators.Field
import Mathlib.Algebra.Order.BigOperators.Group.Finset
import Mathlib.LinearAlgebra.Span.Basic
import Mathlib.Data.Fintype.BigOperators
import Mathlib.Tactic.Linarith
import Mathlib.Tactic.Positivity
import Mathlib.Tactic.FieldSimp
import Mathlib.Tactic.NormNum
import Mathlib.Tactic.Ring
import Mathlib.Tactic.FinCases
/-
C113: influence functions made of Zernike polynomials.
-/
namespace Specula

section
variable {P : Type} [Fintype P] [Nonempty P]

/-- The scalar product on the pixels of the mask. -/
def dotP (x y : P → ℝ) : ℝ := ∑ p, x p * y p

theorem cardP_pos : (0 : ℝ) < (Fintype.card P : ℝ) := by exact_mod_cast Fintype.card_pos

theorem sum_eq_meanP (x : P → ℝ) : ∑ p, x p = (Fintype.card P : ℝ) * meanP x := by
  rw [meanP, mul_div_cancel₀ _ cardP_pos.ne']

theorem meanP_noPiston (x : P → ℝ) : meanP (noPiston x) = 0 := by
  have h : ∑ p, noPiston x p = 0 := by
    simp only [noPiston, Finset.sum_sub_distrib, Finset.sum_const, Finset.card_univ, nsmul_eq_mul]
    rw [sum_eq_meanP]; ring
  rw [meanP, h, zero_div]

theorem meanP_div (x : P → ℝ) (c : ℝ) : meanP (fun p => x p / c) = meanP x / c := by
  rw [meanP, meanP, ← Finset.sum_div]; ring

theorem stdP_sq (x : P → ℝ) : stdP x ^ 2 = meanP fun p => (x p - meanP x) ^ 2 := by
  rw [stdP, Real.sq_sqrt]
  exact div_nonneg (Finset.sum_nonneg fun p _ => sq_nonneg _) cardP_pos.le

theorem stdP_noPiston_sq (x : P → ℝ) : stdP (noPiston x) ^ 2 = meanP fun p => noPiston x p ^ 2 := by
  rw [stdP_sq, meanP_noPiston]
  simp only [sub_zero]

/-- Every mode has mean zero on the mask. -/
theorem C113_mean (q : P → ℝ) : meanP (zernMode q) = 0 := by
  show meanP (fun p => noPiston q p / stdP (noPiston q)) = 0
  rw [meanP_div, meanP_noPiston, zero_div]

/-- Every mode that is not constant has root mean square one on the mask. -/
theorem C113_rms (q : P → ℝ) (hq : ∃ p p', q p ≠ q p') : dotP (zernMode q) (zernMode q) = (Fintype.card P : ℝ) ∧ stdP (zernMode q) = 1 := by
  have hs : stdP (noPiston q) ^ 2 ≠ 0 := by
    rw [stdP_noPiston_sq, meanP]
    intro h
    rw [div_eq_zero_iff, or_iff_left cardP_pos.ne', Finset.sum_eq_zero_iff_of_nonneg fun p _ => sq_nonneg _] at h
    obtain ⟨p, p', hp⟩ := hq
    have h1 := pow_eq_zero_iff (two_ne_zero) |>.1 (h p (Finset.mem_univ _))
    have h2 := pow_eq_zero_iff (two_ne_zero) |>.1 (h p' (Finset.mem_univ _))
    simp only [noPiston] at h1 h2
    exact hp (by linarith)
  have h1 : dotP (zernMode q) (zernMode q) = (Fintype.card P : ℝ) := by
    have e : dotP (zernMode q) (zernMode q) = (∑ p, noPiston q p ^ 2) / stdP (noPiston q) ^ 2 := by
      rw [dotP, Finset.sum_div]
      apply Finset.sum_congr rfl
      intro p _
      simp only [zernMode]
      rw [div_mul_div_comm, sq, sq]
    rw [e, sum_eq_meanP (fun p => noPiston q p ^ 2), ← stdP_noPiston_sq, mul_div_assoc, div_self hs, mul_one]
  refine ⟨h1, ?_⟩
  have e2 : (meanP fun p => (zernMode q p - meanP (zernMode q)) ^ 2) = 1 := by
    rw [C113_mean]
    simp only [sub_zero, sq]
    have : ∑ p, zernMode q p * zernMode q p = (Fintype.card P : ℝ) := h1
    rw [meanP, this, div_self cardP_pos.ne']
  rw [stdP, e2, Real.sqrt_one]

/-- The scalar product of two modes is the one of the vectors without their means: it comes from the means. -/
theorem C113_product (x y : P → ℝ) (h : dotP x y = 0) :
    dotP (zernMode x) (zernMode y) = -((Fintype.card P : ℝ) * meanP x * meanP y) / (stdP (noPiston x) * stdP (noPiston y)) := by
  have e : dotP (zernMode x) (zernMode y) = (∑ p, noPiston x p * noPiston y p) / (stdP (noPiston x) * stdP (noPiston y)) := by
    rw [dotP, Finset.sum_div]
    apply Finset.sum_congr rfl
    intro p _
    simp only [zernMode]
    rw [div_mul_div_comm]
  have h2 : ∑ p, noPiston x p * noPiston y p = -((Fintype.card P : ℝ) * meanP x * meanP y) := by
    have e1 : ∀ p, noPiston x p * noPiston y p = x p * y p - meanP y * x p - meanP x * y p + meanP x * meanP y := by
      intro p; simp only [noPiston]; ring
    simp only [e1, Finset.sum_add_distrib, Finset.sum_sub_distrib, ← Finset.mul_sum, Finset.sum_const, Finset.card_univ, nsmul_eq_mul]
    have h' : ∑ p, x p * y p = 0 := h
    rw [h', sum_eq_meanP x, sum_eq_meanP y]
    ring
  rw [e, h2]

/-- So two modes are orthogonal exactly when one of the two orthonormal vectors had mean zero before its mean was removed. -/
theorem C113_orthogonal_iff {m : ℕ} (a q : Fin m → P → ℝ) (r : Fin m → Fin m → ℝ) (hqr : IsQR a q r) (i j : Fin m) (hij : i ≠ j)
    (hi : ∃ p p', q i p ≠ q i p') (hj : ∃ p p', q j p ≠ q j p') :
    dotP (zernMode (q i)) (zernMode (q j)) = 0 ↔ meanP (q i) = 0 ∨ meanP (q j) = 0 := by
  have h0 : dotP (q i) (q j) = 0 := by
    have := hqr.1 i j
    rwa [if_neg hij] at this
  have hs : ∀ x : P → ℝ, (∃ p p', x p ≠ x p') → stdP (noPiston x) ≠ 0 := by
    intro x hx hz
    have h1 := (C113_rms x hx).1
    have : zernMode x = fun _ => 0 := by funext p; simp [zernMode, hz]
    rw [this] at h1
    simp only [dotP, mul_zero, Finset.sum_const_zero] at h1
    exact cardP_pos.ne' h1.symm
  rw [C113_product _ _ h0, div_eq_zero_iff, or_iff_left (mul_ne_zero (hs _ hi) (hs _ hj)), neg_eq_zero, mul_eq_zero, mul_eq_zero,
    or_iff_right cardP_pos.ne']

theorem meanP_qr {m : ℕ} (a q : Fin m → P → ℝ) (r : Fin m → Fin m → ℝ) (hqr : IsQR a q r) (hr : ∀ i, r i i ≠ 0) (ha : ∀ i, meanP (a i) = 0)
    (n : ℕ) : ∀ i : Fin m, i.val = n → meanP (q i) = 0 := by
  induction n using Nat.strong_induction_on with
  | _ n ih =>
    intro i hi
    have h1 : ∑ p, a i p = ∑ k, r k i * ∑ p, q k p := by
      rw [Finset.sum_congr rfl fun p _ => hqr.2.2 i p, Finset.sum_comm]
      apply Finset.sum_congr rfl
      intro k _
      rw [Finset.mul_sum]
      exact Finset.sum_congr rfl fun p _ => mul_comm _ _
    have h2 : ∑ k, r k i * ∑ p, q k p = r i i * ∑ p, q i p := by
      apply Finset.sum_eq_single i
      · intro k _ hk
        rcases lt_or_gt_of_ne hk with h | h
        · have := ih k.val (by omega) k rfl
          rw [sum_eq_meanP, this]; ring
        · rw [hqr.2.1 k i h, zero_mul]
      · intro h; exact absurd (Finset.mem_univ _) h
    rw [h2, sum_eq_meanP, ha, mul_zero, sum_eq_meanP] at h1
    have h3 := mul_eq_zero.1 h1.symm
    rcases h3 with h3 | h3
    · exact absurd h3 (hr i)
    · rcases mul_eq_zero.1 h3 with h4 | h4
      · exact absurd h4 cardP_pos.ne'
      · exact h4

/-- When the polynomials have mean zero on the mask (and are independent) the modes are orthogonal, with root mean square one. -/
theorem C113_orthogonal {m : ℕ} (a q : Fin m → P → ℝ) (r : Fin m → Fin m → ℝ) (hqr : IsQR a q r) (hr : ∀ i, r i i ≠ 0)
    (ha : ∀ i, meanP (a i) = 0) (i j : Fin m) :
    dotP (zernMode (q i)) (zernMode (q j)) = if i = j then (Fintype.card P : ℝ) else 0 := by
  have hm : ∀ i, meanP (q i) = 0 := fun i => meanP_qr a q r hqr hr ha i.val i rfl
  by_cases hij : i = j
  · subst hij
    rw [if_pos rfl]
    refine (C113_rms (q i) ?_).1
    by_contra hc
    have hall : ∀ p p', q i p = q i p' := fun p p' => by
      by_contra h
      exact hc ⟨p, p', h⟩
    obtain ⟨p0⟩ := ‹Nonempty P›
    have hz : ∀ p, q i p = 0 := by
      have hmean := hm i
      rw [meanP, Finset.sum_congr rfl fun p _ => hall p p0, Finset.sum_const, Finset.card_univ, nsmul_eq_mul] at hmean
      haveI : Nonempty P := ⟨p0⟩
      rw [mul_div_cancel_left₀ _ (cardP_pos (P := P)).ne'] at hmean
      intro p
      rw [hall p p0, hmean]
    have h1 := hqr.1 i i
    rw [if_pos rfl] at h1
    simp [hz] at h1
  · rw [if_neg hij]
    have h0 : dotP (q i) (q j) = 0 := by
      have := hqr.1 i j
      rwa [if_neg hij] at this
    rw [C113_product _ _ h0, hm i]
    simp

/-- Taking the means away before the orthogonalisation would give orthogonal modes on every mask. -/
theorem C113_repaired {m : ℕ} (a q : Fin m → P → ℝ) (r : Fin m → Fin m → ℝ) (hqr : IsQR (fun i => noPiston (a i)) q r) (hr : ∀ i, r i i ≠ 0)
    (i j : Fin m) : dotP (zernMode (q i)) (zernMode (q j)) = if i = j then (Fintype.card P : ℝ) else 0 :=
  C113_orthogonal _ q r hqr hr (fun i => meanP_noPiston (a i)) i j

theorem qr_span {m : ℕ} (a q : Fin m → P → ℝ) (r : Fin m → Fin m → ℝ) (hqr : IsQR a q r) (hr : ∀ i, r i i ≠ 0) (n : ℕ) :
    ∀ i : Fin m, i.val = n → q i ∈ Submodule.span ℝ (a '' Set.Iic i) := by
  induction n using Nat.strong_induction_on with
  | _ n ih =>
    intro i hi
    have h1 : q i = (r i i)⁻¹ • (a i - ∑ k ∈ Finset.univ.erase i, r k i • q k) := by
      funext p
      have h2 := hqr.2.2 i p
      rw [← Finset.add_sum_erase _ _ (Finset.mem_univ i)] at h2
      simp only [Pi.smul_apply, Pi.sub_apply, Finset.sum_apply, smul_eq_mul]
      rw [h2, Finset.sum_congr rfl fun k _ => mul_comm (q k p) (r k i)]
      have := hr i
      field_simp
      ring
    rw [h1]
    apply Submodule.smul_mem
    apply Submodule.sub_mem
    · exact Submodule.subset_span ⟨i, Set.mem_Iic.2 (le_refl _), rfl⟩
    · apply Submodule.sum_mem
      intro k hk
      rcases lt_or_gt_of_ne (Finset.ne_of_mem_erase hk) with h | h
      · apply Submodule.smul_mem
        refine Submodule.span_mono ?_ (ih k.val (by omega) k rfl)
        exact Set.image_mono (Set.Iic_subset_Iic.2 h.le)
      · rw [hqr.2.1 k i h, zero_smul]
        exact Submodule.zero_mem _

/-- The modes are in the order of the polynomials: the mode `i` is a combination of the polynomials up to `i` and of a piston. -/
theorem C113_span {m : ℕ} (a q : Fin m → P → ℝ) (r : Fin m → Fin m → ℝ) (hqr : IsQR a q r) (hr : ∀ i, r i i ≠ 0) (i : Fin m) :
    zernMode (q i) ∈ Submodule.span ℝ (insert (fun _ => (1 : ℝ)) (a '' Set.Iic i)) := by
  have h1 : zernMode (q i) = (stdP (noPiston (q i)))⁻¹ • (q i - meanP (q i) • fun _ => (1 : ℝ)) := by
    funext p
    simp only [zernMode, noPiston, Pi.smul_apply, Pi.sub_apply, smul_eq_mul, mul_one]
    rw [div_eq_inv_mul]
  rw [h1]
  apply Submodule.smul_mem
  apply Submodule.sub_mem
  · exact Submodule.span_mono (Set.subset_insert _ _) (qr_span a q r hqr hr i.val i rfl)
  · exact Submodule.smul_mem _ _ (Submodule.subset_span (Set.mem_insert _ _))

end

/-- The polynomials are the ones after piston, without the first `start_mode`. -/
theorem C113_numbers (nzern start i : ℕ) :
    (zernNumbers nzern start).length = nzern - start ∧ (zernNumbers nzern start)[i]? = if i + start < nzern then some (i + start + 2) else none := by
  constructor
  · simp [zernNumbers]
  · simp only [zernNumbers, List.getElem?_drop, List.getElem?_map, List.getElem?_range']
    by_cases h : i + start < nzern
    · rw [if_pos h, List.getElem?_range (by omega)]; simp [Nat.add_comm]
    · rw [if_neg h, List.getElem?_eq_none (by simp; omega)]; rfl

example : zernNumbers 4 1 = [3, 4, 5] := by decide

/-- Tip and tilt on a mask of three pixels: the centre, one to the right and one above. -/
def threeTilts : Fin 2 → Fin 3 → ℝ := fun i p => if i.val = p.val then 1 else 0

/-- The modes need not be orthogonal: on this mask tip and tilt have a correlation of minus one half. -/
theorem C113_not_orthogonal : IsQR threeTilts threeTilts (fun k i => if k = i then 1 else 0) ∧
    dotP (zernMode (threeTilts 0)) (zernMode (threeTilts 1)) = -(1 / 2) * dotP (zernMode (threeTilts 0)) (zernMode (threeTilts 0)) := by
  have hqr : IsQR threeTilts threeTilts (fun k i => if k = i then 1 else 0) := by
    refine ⟨?_, ?_, ?_⟩
    · intro i j; fin_cases i <;> fin_cases j <;> simp [threeTilts, Fin.sum_univ_three]
    · intro k i h; simp [(ne_of_lt h).symm]
    · intro i p; simp
  refine ⟨hqr, ?_⟩
  have m0 : meanP (threeTilts 0) = 1 / 3 := by
    rw [meanP, Fin.sum_univ_three]; norm_num [threeTilts]
  have m1 : meanP (threeTilts 1) = 1 / 3 := by
    rw [meanP, Fin.sum_univ_three]; norm_num [threeTilts]
  have s0 : stdP (noPiston (threeTilts 0)) ^ 2 = 2 / 9 := by
    rw [stdP_noPiston_sq, meanP]
    simp only [noPiston, m0, Fin.sum_univ_three, threeTilts]
    norm_num
  have s1 : stdP (noPiston (threeTilts 1)) ^ 2 = 2 / 9 := by
    rw [stdP_noPiston_sq, meanP]
    simp only [noPiston, m1, Fin.sum_univ_three, threeTilts]
    norm_num
  have hp : ∀ x : Fin 3 → ℝ, 0 ≤ stdP x := fun x => Real.sqrt_nonneg _
  have es : stdP (noPiston (threeTilts 0)) = stdP (noPiston (threeTilts 1)) := by
    rw [← Real.sqrt_sq (hp (noPiston (threeTilts 0))), ← Real.sqrt_sq (hp (noPiston (threeTilts 1))), s0, s1]
  rw [(C113_rms (threeTilts 0) ⟨0, 1, by simp [threeTilts]⟩).1, C113_product _ _ (by simp [dotP, threeTilts, Fin.sum_univ_three]), m0, m1, ← es,
    ← sq, s0]
  norm_num

/-- A case of `C113_orthogonal`: two vectors of mean zero. -/
example : dotP (P := Fin 2) (zernMode fun p => if p = 0 then Real.sqrt (1 / 2) else -Real.sqrt (1 / 2))
    (zernMode fun p => if p = 0 then Real.sqrt (1 / 2) else -Real.sqrt (1 / 2)) = 2 := by
  have h := C113_orthogonal (P := Fin 2) (m := 1) (fun _ p => if p = 0 then Real.sqrt (1 / 2) else -Real.sqrt (1 / 2))
    (fun _ p => if p = 0 then Real.sqrt (1 / 2) else -Real.sqrt (1 / 2)) (fun _ _ => 1) ⟨by
      intro i j
      rw [if_pos (Subsingleton.elim i j)]
      have : Real.sqrt (1 / 2) * Real.sqrt (1 / 2) = 1 / 2 := Real.mul_self_sqrt (by norm_num)
      simp only [Fin.sum_univ_two, if_true, one_ne_zero, if_false, neg_mul_neg, this]
      norm_num, fun k i h => absurd (Subsingleton.elim i k) (ne_of_lt h), by intro i p; simp⟩ (fun _ => one_ne_zero)
      (fun _ => by simp [meanP, Fin.sum_univ_two]) 0 0
  simpa using h

end Specula
