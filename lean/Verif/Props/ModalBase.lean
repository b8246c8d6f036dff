import Verif.Model.ModalBase
import Verif.Props.Psf
import Mathlib.LinearAlgebra.Matrix.NonsingularInverse
import Mathlib.Analysis.Matrix.Spectrum
import Mathlib.Data.Fin.Tuple.Sort
import Mathlib.Tactic.Linarith
import Mathlib.Tactic.Ring
import Mathlib.Tactic.FieldSimp
/-
C106: modes of the generator of modal bases.
-/
namespace Specula
open Finset Matrix

/-! ### Specification -/

/-- What `svd` promises: `A = U diag(S) Vᵀ` with `U` and `V` orthogonal, singular values not negative and in decreasing order. -/
def IsSvd {n : ℕ} (A U : Matrix (Fin n) (Fin n) ℝ) (S : Fin n → ℝ) : Prop :=
  ∃ V : Matrix (Fin n) (Fin n) ℝ, U.transpose * U = 1 ∧ V.transpose * V = 1 ∧ A = U * Matrix.diagonal S * V.transpose ∧
    (∀ i, 0 ≤ S i) ∧ ∀ i j, i ≤ j → S j ≤ S i

/-- Mean of the product of two functions on the pupil. -/
noncomputable def pupilDot (p : ℕ) (f g : ℕ → ℝ) : ℝ := (∑ k ∈ range p, f k * g k) / p

/-- Covariance of the turbulent phase at a distance of `d` rows and `e` columns: the spectrum summed over the plane waves of the
grid. -/
noncomputable def phaseCov (m : MaskPx) (ov : ℕ) (diam r0 L0 : ℝ) (d e : ℤ) : ℝ :=
  (∑ k ∈ range (m.side ov), ∑ l ∈ range (m.side ov),
    specAt m ov diam r0 L0 k l * Real.cos (2 * Real.pi * (k * d + l * e) / (m.side ov : ℕ))) / (ov * diam) ^ 2

/-! ### Singular vectors of a covariance matrix -/

theorem dot_self_zero {n : ℕ} (v : Fin n → ℝ) (h : v ⬝ᵥ v ≤ 0) : v = 0 := by
  have h1 : v ⬝ᵥ v = ∑ i, v i * v i := rfl
  have h2 : ∀ i ∈ univ, 0 ≤ v i * v i := fun i _ => mul_self_nonneg _
  have h3 : ∑ i, v i * v i = 0 := le_antisymm (h1 ▸ h) (sum_nonneg h2)
  have h4 := (sum_eq_zero_iff_of_nonneg h2).1 h3
  funext i
  exact mul_self_eq_zero.1 (h4 i (mem_univ i))

/-- The left singular vectors of a symmetric matrix that is not negative are its eigenvectors, with the singular values as eigenvalues. -/
theorem svd_eig {n : ℕ} (A U : Matrix (Fin n) (Fin n) ℝ) (S : Fin n → ℝ) (hs : A.transpose = A) (hp : ∀ v : Fin n → ℝ, 0 ≤ v ⬝ᵥ (A *ᵥ v))
    (h : IsSvd A U S) : A * U = U * Matrix.diagonal S := by
  obtain ⟨V, hU, hV, hA, h0, -⟩ := h
  have hAA : A * A * U = U * Matrix.diagonal (fun i => S i * S i) := by
    have h1 : A * A = A * A.transpose := by rw [hs]
    rw [h1, hA, Matrix.transpose_mul, Matrix.transpose_mul, Matrix.transpose_transpose, Matrix.diagonal_transpose]
    have h2 : U * Matrix.diagonal S * V.transpose * (V * (Matrix.diagonal S * U.transpose)) * U =
        U * Matrix.diagonal S * (V.transpose * V) * Matrix.diagonal S * (U.transpose * U) := by simp only [Matrix.mul_assoc]
    rw [h2, hU, hV, Matrix.mul_one, Matrix.mul_one, Matrix.mul_assoc, Matrix.diagonal_mul_diagonal]
  ext a k
  have hcol : (A * U - U * Matrix.diagonal S).col k = 0 := by
    set u : Fin n → ℝ := fun b => U b k with hu
    set w : Fin n → ℝ := A *ᵥ u - S k • u with hw
    have e1 : A *ᵥ (A *ᵥ u) = (S k * S k) • u := by
      funext b
      have := congrFun (congrFun hAA b) k
      rw [Matrix.mul_assoc, Matrix.mul_apply, Matrix.mul_diagonal] at this
      have e : ∑ j, A b j * (A * U) j k = (A *ᵥ (A *ᵥ u)) b := rfl
      rw [← e, this]
      simp [hu, mul_comm]
    have e2 : A *ᵥ w = -(S k) • w := by
      rw [hw, Matrix.mulVec_sub, e1, Matrix.mulVec_smul]
      funext b
      simp only [Pi.sub_apply, Pi.smul_apply, smul_eq_mul]
      ring
    have e3 : 0 ≤ -(S k) * (w ⬝ᵥ w) := by
      have := hp w
      rwa [e2, dotProduct_smul, smul_eq_mul] at this
    have e5 : w = 0 := by
      rcases eq_or_lt_of_le (h0 k) with hz | hpos
      · have hA2 : A *ᵥ (A *ᵥ u) = 0 := by rw [e1, ← hz]; simp
        have e6 : (A *ᵥ u) ⬝ᵥ (A *ᵥ u) = 0 := by
          rw [Matrix.dotProduct_mulVec, ← Matrix.mulVec_transpose, hs, hA2, zero_dotProduct]
        have e7 := dot_self_zero _ e6.le
        rw [hw, e7, ← hz]; simp
      · apply dot_self_zero
        by_contra hc
        have := mul_pos hpos (not_le.1 hc)
        linarith
    funext b
    have e8 := congrFun e5 b
    simp only [hw, Pi.sub_apply, Pi.smul_apply, smul_eq_mul, Pi.zero_apply] at e8
    show (A * U - U * Matrix.diagonal S) b k = 0
    rw [Matrix.sub_apply, Matrix.mul_diagonal]
    have e : (A * U) b k = (A *ᵥ u) b := rfl
    rw [e]
    have : u b = U b k := rfl
    rw [this] at e8
    linarith
  have h9 := congrFun hcol a
  have h10 : (A * U - U * Matrix.diagonal S) a k = 0 := h9
  rw [Matrix.sub_apply] at h10
  linarith

/-- The vectors kept in `M` are orthonormal for the covariance they come from. -/
theorem scaled_gram {n : ℕ} (G U : Matrix (Fin n) (Fin n) ℝ) (S : Fin n → ℝ) (r : ℕ) (hU : U.transpose * U = 1) (hG : G * U = U * Matrix.diagonal S)
    (hpos : ∀ i : Fin n, (i : ℕ) < n - r → 0 < S i) :
    (scaledVecs U S r).transpose * G * scaledVecs U S r = Matrix.diagonal fun i : Fin n => if (i : ℕ) < n - r then 1 else 0 := by
  set d : Fin n → ℝ := fun i => if (i : ℕ) < n - r then 1 / Real.sqrt (S i) else 0 with hd
  have hM : scaledVecs U S r = U * Matrix.diagonal d := by
    ext a i
    rw [Matrix.mul_diagonal]
    simp only [scaledVecs, Matrix.of_apply, hd]
    split_ifs <;> simp [div_eq_mul_inv]
  rw [hM, Matrix.transpose_mul, Matrix.diagonal_transpose]
  have : Matrix.diagonal d * U.transpose * G * (U * Matrix.diagonal d) = Matrix.diagonal d * (U.transpose * (G * U)) * Matrix.diagonal d := by
    simp only [Matrix.mul_assoc]
  rw [this, hG, ← Matrix.mul_assoc U.transpose, hU, Matrix.one_mul, Matrix.diagonal_mul_diagonal, Matrix.diagonal_mul_diagonal]
  congr 1
  funext i
  simp only [hd]
  split_ifs with hi
  · have h1 := Real.mul_self_sqrt (hpos i hi).le
    have h2 : Real.sqrt (S i) ≠ 0 := (Real.sqrt_pos.2 (hpos i hi)).ne'
    field_simp
    nlinarith
  · ring

theorem mul_transpose_one {n : ℕ} (U : Matrix (Fin n) (Fin n) ℝ) (hU : U.transpose * U = 1) : U * U.transpose = 1 := by
  exact mul_eq_one_comm.1 hU

/-- A vector seen through `M`: what it weighs in the covariance of the functions is what it weighs in its first entries. -/
theorem quad_form {n : ℕ} (A B : Matrix (Fin n) (Fin n) ℝ) (u : Fin n → ℝ) :
    u ⬝ᵥ ((B.transpose * A * B) *ᵥ u) = (B *ᵥ u) ⬝ᵥ (A *ᵥ (B *ᵥ u)) := by
  rw [Matrix.mul_assoc, ← Matrix.mulVec_mulVec, Matrix.dotProduct_mulVec, Matrix.vecMul_transpose, Matrix.mulVec_mulVec]

theorem quad_entry {n : ℕ} (A U : Matrix (Fin n) (Fin n) ℝ) (i : Fin n) : (U.transpose * A * U) i i = (fun a => U a i) ⬝ᵥ (A *ᵥ fun a => U a i) := by
  rw [Matrix.mul_assoc, Matrix.mul_apply]
  rfl

theorem scaled_zero {n : ℕ} (C U : Matrix (Fin n) (Fin n) ℝ) (S : Fin n → ℝ) (r : ℕ) (a b : Fin n) (ha : ¬ (a : ℕ) < n - r) :
    ((scaledVecs U S r).transpose * C * scaledVecs U S r) a b = 0 := by
  rw [Matrix.mul_assoc, Matrix.mul_apply]
  apply sum_eq_zero
  intro c _
  simp [scaledVecs, ha]

/-- The two steps together. -/
theorem kl_core {n : ℕ} (G C U1 U2 : Matrix (Fin n) (Fin n) ℝ) (S1 S2 : Fin n → ℝ) (r : ℕ)
    (hGs : G.transpose = G) (hGp : ∀ v : Fin n → ℝ, 0 ≤ v ⬝ᵥ (G *ᵥ v)) (hCs : C.transpose = C) (hCp : ∀ v : Fin n → ℝ, 0 ≤ v ⬝ᵥ (C *ᵥ v))
    (hker : ∀ v : Fin n → ℝ, v ⬝ᵥ (C *ᵥ v) = 0 → v ⬝ᵥ (G *ᵥ v) = 0)
    (h1 : IsSvd G U1 S1) (hpos : ∀ i : Fin n, (i : ℕ) < n - r → 0 < S1 i)
    (h2 : IsSvd ((scaledVecs U1 S1 r).transpose * C * scaledVecs U1 S1 r) U2 S2) :
    (∀ i j : Fin n, (i : ℕ) < n - r → (j : ℕ) < n - r →
      ((scaledVecs U1 S1 r * U2).transpose * G * (scaledVecs U1 S1 r * U2)) i j = if i = j then 1 else 0) ∧
    ((scaledVecs U1 S1 r * U2).transpose * C * (scaledVecs U1 S1 r * U2) = Matrix.diagonal S2) ∧
    (∀ i : Fin n, (i : ℕ) < n - r → 0 < S2 i) := by
  set M := scaledVecs U1 S1 r with hMdef
  have hgram := scaled_gram G U1 S1 r (by obtain ⟨V, hU, -⟩ := h1; exact hU) (svd_eig G U1 S1 hGs hGp h1) hpos
  rw [← hMdef] at hgram
  have hhs : (M.transpose * C * M).transpose = M.transpose * C * M := by
    rw [Matrix.transpose_mul, Matrix.transpose_mul, Matrix.transpose_transpose, hCs, Matrix.mul_assoc]
  have hhp : ∀ v : Fin n → ℝ, 0 ≤ v ⬝ᵥ ((M.transpose * C * M) *ᵥ v) := fun v => by rw [quad_form]; exact hCp _
  have hE := svd_eig _ U2 S2 hhs hhp h2
  obtain ⟨V, hU, -, -, h0, hanti⟩ := h2
  have hUU := mul_transpose_one U2 hU
  have htr : ∀ X : Matrix (Fin n) (Fin n) ℝ, (M * U2).transpose * X * (M * U2) = U2.transpose * (M.transpose * X * M) * U2 := by
    intro X; rw [Matrix.transpose_mul]; simp only [Matrix.mul_assoc]
  have hdiag : (M * U2).transpose * C * (M * U2) = Matrix.diagonal S2 := by
    rw [htr, Matrix.mul_assoc, hE, ← Matrix.mul_assoc, hU, Matrix.one_mul]
  -- weight of each vector in its first entries
  have hw0 : ∀ i : Fin n, (U2.transpose * (Matrix.diagonal fun i : Fin n => if (i : ℕ) < n - r then (1 : ℝ) else 0) * U2) i i =
      ∑ a : Fin n, if (a : ℕ) < n - r then U2 a i * U2 a i else 0 := by
    intro i
    rw [Matrix.mul_apply]
    apply sum_congr rfl
    intro a _
    rw [Matrix.mul_diagonal]
    split_ifs <;> simp
  have hS2 : ∀ i : Fin n, (i : ℕ) < n - r → 0 < S2 i := by
    intro j0 hj0
    by_contra hc
    have hz : ∀ i, j0 ≤ i → S2 i = 0 := fun i hi => le_antisymm ((hanti j0 i hi).trans (not_lt.1 hc)) (h0 i)
    have hweight : ∀ i, j0 ≤ i → ∑ a : Fin n, (if (a : ℕ) < n - r then U2 a i * U2 a i else 0) = 0 := by
      intro i hi
      rw [← hw0, ← hgram, quad_entry, quad_form]
      apply hker
      rw [← quad_form, ← quad_entry, ← htr, hdiag, Matrix.diagonal_apply_eq, hz i hi]
    have hle : ∀ i, ∑ a : Fin n, (if (a : ℕ) < n - r then U2 a i * U2 a i else 0) ≤ 1 := by
      intro i
      have e1 : ∑ a : Fin n, U2 a i * U2 a i = 1 := by
        have := congrFun (congrFun hU i) i
        rw [Matrix.mul_apply, Matrix.one_apply_eq] at this
        simpa [Matrix.transpose_apply] using this
      rw [← e1]
      apply sum_le_sum
      intro a _
      split_ifs
      · exact le_refl _
      · exact mul_self_nonneg _
    have hrow : ∀ a, ∑ i : Fin n, U2 a i * U2 a i = 1 := by
      intro a
      have := congrFun (congrFun hUU a) a
      rw [Matrix.mul_apply, Matrix.one_apply_eq] at this
      simpa [Matrix.transpose_apply] using this
    have hsum : ∑ i : Fin n, ∑ a : Fin n, (if (a : ℕ) < n - r then U2 a i * U2 a i else 0) = ((univ.filter fun a : Fin n => (a : ℕ) < n - r).card : ℝ) := by
      rw [sum_comm]
      have : ∀ a ∈ (univ : Finset (Fin n)), ∑ i : Fin n, (if (a : ℕ) < n - r then U2 a i * U2 a i else 0) = if (a : ℕ) < n - r then (1 : ℝ) else 0 := by
        intro a _
        split_ifs with ha
        · exact hrow a
        · simp
      rw [sum_congr rfl this, sum_boole]
    have hsum2 : ∑ i : Fin n, ∑ a : Fin n, (if (a : ℕ) < n - r then U2 a i * U2 a i else 0) ≤ ((univ.filter fun i : Fin n => i < j0).card : ℝ) := by
      rw [← sum_boole]
      apply sum_le_sum
      intro i _
      by_cases hi : i < j0
      · simpa [hi] using hle i
      · rw [if_neg hi, hweight i (not_lt.1 hi)]
    rw [hsum] at hsum2
    have hcard : (univ.filter fun i : Fin n => i < j0).card < (univ.filter fun a : Fin n => (a : ℕ) < n - r).card := by
      apply card_lt_card
      rw [Finset.ssubset_iff_of_subset]
      · exact ⟨j0, by simp [hj0], by simp⟩
      · intro i hi
        simp only [mem_filter, mem_univ, true_and] at hi ⊢
        exact lt_trans hi hj0
    exact absurd (Nat.cast_le.1 hsum2) (not_le.2 hcard)
  refine ⟨?_, hdiag, hS2⟩
  intro i j hi hj
  have htail : ∀ a : Fin n, ¬ (a : ℕ) < n - r → U2 a i = 0 := by
    intro a ha
    have h3 := congrFun (congrFun hE a) i
    rw [Matrix.mul_diagonal, Matrix.mul_apply] at h3
    have h4 : ∑ b, (M.transpose * C * M) a b * U2 b i = 0 := by
      apply sum_eq_zero
      intro b _
      rw [scaled_zero C U1 S1 r a b ha, zero_mul]
    rw [h4] at h3
    exact (mul_eq_zero.1 h3.symm).resolve_right (hS2 i hi).ne'
  rw [htr, hgram, Matrix.mul_apply]
  have h5 : ∀ a ∈ (univ : Finset (Fin n)), (U2.transpose * Matrix.diagonal fun i : Fin n => if (i : ℕ) < n - r then (1 : ℝ) else 0) i a * U2 a j =
      U2.transpose i a * U2 a j := by
    intro a _
    rw [Matrix.mul_diagonal]
    by_cases ha : (a : ℕ) < n - r
    · simp [ha]
    · simp [ha, Matrix.transpose_apply, htail a ha]
  rw [sum_congr rfl h5, ← Matrix.mul_apply, hU, Matrix.one_apply]

/-! ### Pixels of the mask -/

theorem sum_before (m : MaskPx) (e : ℕ → ℝ) (Q : ℕ) :
    ∑ q ∈ range Q, (if m.on (q / m.w) (q % m.w) = true then e (m.before q) else 0) = ∑ k ∈ range (m.before Q), e k := by
  induction Q with
  | zero => simp [MaskPx.before]
  | succ Q ih =>
    rw [sum_range_succ, ih]
    have hs : m.before (Q + 1) = m.before Q + if m.on (Q / m.w) (Q % m.w) = true then 1 else 0 := by
      unfold MaskPx.before
      rw [range_add_one, filter_insert]
      split_ifs with h
      · rw [card_insert_of_notMem (by simp)]
      · rfl
    rw [hs]
    split_ifs with h
    · rw [sum_range_succ]
    · simp

theorem sum_mask_rows (w : ℕ) (e : ℕ → ℝ) (h : ℕ) : ∑ i ∈ range h, ∑ j ∈ range w, e (i * w + j) = ∑ q ∈ range (h * w), e q := by
  induction h with
  | zero => simp
  | succ h ih => rw [sum_range_succ, ih, Nat.succ_mul, sum_range_add]

theorem sum_support (m : MaskPx) (N : ℕ) (hh : m.h ≤ N) (hw : m.w ≤ N) (f : ℕ → ℝ) (e : ℝ → ℝ) (he : e 0 = 0) :
    ∑ i ∈ range N, ∑ j ∈ range N, e (m.support f i j) = ∑ k ∈ range m.count, e (f k) := by
  unfold MaskPx.count
  rw [← sum_before m (fun k => e (f k)) (m.h * m.w), ← sum_mask_rows m.w _ m.h]
  have h1 : ∀ i ∈ range N, ∑ j ∈ range N, e (m.support f i j) = if i < m.h then ∑ j ∈ range m.w, e (m.support f i j) else 0 := by
    intro i _
    split_ifs with hi
    · symm
      apply sum_subset (range_subset_range.2 hw)
      intro j _ hj
      have : ¬ j < m.w := by simpa using hj
      simp [MaskPx.support, this, he]
    · apply sum_eq_zero
      intro j _
      simp [MaskPx.support, hi, he]
  rw [sum_congr rfl h1, ← sum_filter]
  have h2 : (range N).filter (fun i => i < m.h) = range m.h := by
    ext i; simp only [mem_filter, mem_range]; omega
  rw [h2]
  apply sum_congr rfl; intro i hi
  apply sum_congr rfl; intro j hj
  have hj' := mem_range.1 hj
  have hi' := mem_range.1 hi
  have e1 : (i * m.w + j) / m.w = i := by
    rw [mul_comm, Nat.mul_add_div (by omega), Nat.div_eq_of_lt hj', add_zero]
  have e2 : (i * m.w + j) % m.w = j := by rw [mul_comm, Nat.mul_add_mod, Nat.mod_eq_of_lt hj']
  rw [e1, e2]
  unfold MaskPx.support
  by_cases ho : m.on i j = true
  · simp [hi', hj', ho]
  · simp [ho, he]

/-! ### Turbulence covariance -/

theorem spectrum_pos (f r0 L0 : ℝ) (hr : 0 < r0) (hL : 0 < L0) : 0 < phaseSpectrum f r0 L0 := by
  unfold phaseSpectrum
  have h1 : 0 < Real.Gamma (11 / 6) := Real.Gamma_pos_of_pos (by norm_num)
  have h2 : 0 < Real.Gamma (6 / 5) := Real.Gamma_pos_of_pos (by norm_num)
  have h3 : 0 < Real.pi := Real.pi_pos
  have h4 : 0 < f ^ 2 + (1 / L0) ^ 2 := by positivity
  positivity

theorem ifsFt_shape {n : ℕ} (m : MaskPx) (ov : ℕ) (F : Fin n → ℕ → ℝ) (c : Fin n → ℝ) (k l : ℕ) :
    ifsFt m ov (shapeOf F c) k l = ∑ a, (c a : ℂ) * ifsFt m ov (F a) k l := by
  have h1 : ∀ i j, ((m.support (shapeOf F c) i j : ℝ) : ℂ) = ∑ a, (c a : ℂ) * ((m.support (F a) i j : ℝ) : ℂ) := by
    intro i j
    unfold MaskPx.support shapeOf
    split_ifs
    · push_cast; rfl
    · simp
  unfold ifsFt fft2
  simp only [h1, mul_sum, sum_mul]
  rw [sum_congr rfl fun i _ => sum_comm, sum_comm]
  apply sum_congr rfl; intro a _
  apply sum_congr rfl; intro i _
  apply sum_congr rfl; intro j _
  ring

theorem covEntry_shape {n : ℕ} (m : MaskPx) (ov : ℕ) (diam r0 L0 : ℝ) (F : Fin n → ℕ → ℝ) (c d : Fin n → ℝ) :
    covEntry m ov diam r0 L0 (shapeOf F c) (shapeOf F d) = ∑ a, ∑ b, c a * covEntry m ov diam r0 L0 (F a) (F b) * d b := by
  unfold covEntry
  simp only [ifsFt_shape]
  have h1 : ∀ k l, (∑ a, (c a : ℂ) * ifsFt m ov (F a) k l) * (specAt m ov diam r0 L0 k l : ℂ) * (starRingEnd ℂ) (∑ b, (d b : ℂ) * ifsFt m ov (F b) k l) =
      ∑ a, ∑ b, ((c a * d b : ℝ) : ℂ) * (ifsFt m ov (F a) k l * (specAt m ov diam r0 L0 k l : ℂ) * (starRingEnd ℂ) (ifsFt m ov (F b) k l)) := by
    intro k l
    rw [map_sum, sum_mul, sum_mul]
    apply sum_congr rfl; intro a _
    rw [mul_sum]
    apply sum_congr rfl; intro b _
    rw [map_mul, Complex.conj_ofReal]
    push_cast
    ring
  simp only [h1]
  have h2 : ∑ k ∈ range (m.side ov), ∑ l ∈ range (m.side ov), ∑ a, ∑ b, ((c a * d b : ℝ) : ℂ) * (ifsFt m ov (F a) k l * (specAt m ov diam r0 L0 k l : ℂ) * (starRingEnd ℂ) (ifsFt m ov (F b) k l)) =
      ∑ a, ∑ b, ((c a * d b : ℝ) : ℂ) * ∑ k ∈ range (m.side ov), ∑ l ∈ range (m.side ov), (ifsFt m ov (F a) k l * (specAt m ov diam r0 L0 k l : ℂ) * (starRingEnd ℂ) (ifsFt m ov (F b) k l)) := by
    simp only [mul_sum]
    rw [sum_congr rfl fun k _ => sum_comm, sum_comm]
    apply sum_congr rfl; intro a _
    rw [sum_congr rfl fun k _ => sum_comm, sum_comm]
  rw [h2, Complex.re_sum, sum_div]
  apply sum_congr rfl; intro a _
  rw [Complex.re_sum, sum_div]
  apply sum_congr rfl; intro b _
  rw [Complex.re_ofReal_mul]
  ring

theorem covEntry_self (m : MaskPx) (ov : ℕ) (diam r0 L0 : ℝ) (f : ℕ → ℝ) :
    covEntry m ov diam r0 L0 f f = (∑ k ∈ range (m.side ov), ∑ l ∈ range (m.side ov), specAt m ov diam r0 L0 k l * Complex.normSq (ifsFt m ov f k l)) /
      ((m.count : ℝ) ^ 2 * (ov * diam) ^ 2) := by
  unfold covEntry
  congr 1
  rw [Complex.re_sum]
  apply sum_congr rfl; intro k _
  rw [Complex.re_sum]
  apply sum_congr rfl; intro l _
  have : ifsFt m ov f k l * (specAt m ov diam r0 L0 k l : ℂ) * (starRingEnd ℂ) (ifsFt m ov f k l) =
      (specAt m ov diam r0 L0 k l : ℂ) * (ifsFt m ov f k l * (starRingEnd ℂ) (ifsFt m ov f k l)) := by ring
  rw [this, Complex.mul_conj, ← Complex.ofReal_mul, Complex.ofReal_re]

theorem covEntry_comm (m : MaskPx) (ov : ℕ) (diam r0 L0 : ℝ) (f g : ℕ → ℝ) : covEntry m ov diam r0 L0 f g = covEntry m ov diam r0 L0 g f := by
  unfold covEntry
  congr 1
  rw [Complex.re_sum, Complex.re_sum]
  apply sum_congr rfl; intro k _
  rw [Complex.re_sum, Complex.re_sum]
  apply sum_congr rfl; intro l _
  simp only [Complex.mul_re, Complex.mul_im, Complex.conj_re, Complex.conj_im, Complex.ofReal_re, Complex.ofReal_im]
  ring

theorem covEntry_nonneg (m : MaskPx) (ov : ℕ) (diam r0 L0 : ℝ) (hr : 0 < r0) (hL : 0 < L0) (f : ℕ → ℝ) : 0 ≤ covEntry m ov diam r0 L0 f f := by
  rw [covEntry_self]
  apply div_nonneg _ (by positivity)
  apply sum_nonneg; intro k _
  apply sum_nonneg; intro l _
  exact mul_nonneg (spectrum_pos _ _ _ hr hL).le (Complex.normSq_nonneg _)

/-- A shape on the pupil without any turbulent variance is zero on the pupil. -/
theorem covEntry_zero (m : MaskPx) (ov : ℕ) (hov : 0 < ov) (diam r0 L0 : ℝ) (hd : 0 < diam) (hr : 0 < r0) (hL : 0 < L0) (f : ℕ → ℝ)
    (h : covEntry m ov diam r0 L0 f f = 0) : ∀ k < m.count, f k = 0 := by
  intro t ht
  have hc : 0 < m.count := by omega
  have hN1 : m.h ≤ m.side ov := by unfold MaskPx.side; exact (le_max_left _ _).trans (Nat.le_mul_of_pos_left _ hov)
  have hN2 : m.w ≤ m.side ov := by unfold MaskPx.side; exact (le_max_right _ _).trans (Nat.le_mul_of_pos_left _ hov)
  have hN : 0 < m.side ov := by
    by_contra hn
    have : m.h = 0 := by omega
    unfold MaskPx.count MaskPx.before at hc
    rw [this] at hc
    simp at hc
  rw [covEntry_self] at h
  have hnz : ((m.count : ℝ) ^ 2 * (ov * diam) ^ 2) ≠ 0 := by
    have : (0 : ℝ) < ov := by exact_mod_cast hov
    have : (0 : ℝ) < m.count := by exact_mod_cast hc
    positivity
  have h0 := (div_eq_zero_iff.1 h).resolve_right hnz
  have hsp : ∀ k l, 0 < specAt m ov diam r0 L0 k l := fun k l => spectrum_pos _ _ _ hr hL
  have h1 : ∀ k ∈ range (m.side ov), ∀ l ∈ range (m.side ov), Complex.normSq (ifsFt m ov f k l) = 0 := by
    intro k hk l hl
    have a1 := (sum_eq_zero_iff_of_nonneg (fun k _ => sum_nonneg fun l _ => mul_nonneg (hsp k l).le (Complex.normSq_nonneg _))).1 h0 k hk
    have a2 := (sum_eq_zero_iff_of_nonneg (fun l _ => mul_nonneg (hsp k l).le (Complex.normSq_nonneg _))).1 a1 l hl
    exact (mul_eq_zero.1 a2).resolve_left (hsp k l).ne'
  have hP := parseval2 (m.side ov) hN fun i j => ((m.support f i j : ℝ) : ℂ)
  have h2 : ∑ k ∈ range (m.side ov), ∑ l ∈ range (m.side ov), Complex.normSq (fft2 (m.side ov) (fun i j => ((m.support f i j : ℝ) : ℂ)) k l) = 0 :=
    sum_eq_zero fun k hk => sum_eq_zero fun l hl => h1 k hk l hl
  rw [h2] at hP
  simp only [Complex.normSq_ofReal] at hP
  rw [sum_support m (m.side ov) hN1 hN2 f (fun x => x * x) (by simp)] at hP
  have hN' : ((m.side ov : ℕ) : ℝ) ^ 2 ≠ 0 := by positivity
  have h3 := (mul_eq_zero.1 hP.symm).resolve_left hN'
  have h4 := (sum_eq_zero_iff_of_nonneg (fun k _ => mul_self_nonneg (f k))).1 h3 t (mem_range.2 ht)
  exact mul_self_eq_zero.1 h4

/-- Matrix form of the turbulence covariance of shapes. -/
theorem covEntry_form {n : ℕ} (m : MaskPx) (ov : ℕ) (diam r0 L0 : ℝ) (F : Fin n → ℕ → ℝ) (B : Matrix (Fin n) (Fin n) ℝ) (i j : Fin n) :
    covEntry m ov diam r0 L0 (shapeOf F fun a => B a i) (shapeOf F fun a => B a j) =
      (B.transpose * (Matrix.of fun a b => covEntry m ov diam r0 L0 (F a) (F b)) * B) i j := by
  rw [covEntry_shape, Matrix.mul_apply, sum_comm]
  apply sum_congr rfl; intro b _
  rw [Matrix.mul_apply, sum_mul]
  rfl

theorem pupilDot_form {n : ℕ} (p : ℕ) (F : Fin n → ℕ → ℝ) (B : Matrix (Fin n) (Fin n) ℝ) (i j : Fin n) :
    pupilDot p (shapeOf F fun a => B a i) (shapeOf F fun a => B a j) = (B.transpose * geoCov p F * B) i j := by
  rw [Matrix.mul_apply]
  simp only [Matrix.mul_apply, geoCov, Matrix.of_apply, Matrix.transpose_apply, pupilDot, shapeOf]
  have h1 : ∀ k ∈ range p, (∑ a, B a i * F a k) * ∑ b, B b j * F b k = ∑ b, ∑ a, B a i * (F a k * F b k) * B b j := by
    intro k _
    rw [mul_sum]
    apply sum_congr rfl; intro b _
    rw [sum_mul]
    apply sum_congr rfl; intro a _
    ring
  rw [sum_congr rfl h1, sum_comm, sum_div]
  apply sum_congr rfl; intro b _
  rw [sum_comm, sum_div, sum_mul]
  apply sum_congr rfl; intro a _
  rw [← sum_mul, ← mul_sum]
  ring

theorem geoCov_symm {n : ℕ} (p : ℕ) (F : Fin n → ℕ → ℝ) : (geoCov p F).transpose = geoCov p F := by
  ext a b
  simp only [geoCov, Matrix.transpose_apply, Matrix.of_apply]
  congr 1
  exact sum_congr rfl fun k _ => mul_comm _ _

theorem quad_geoCov {n : ℕ} (p : ℕ) (F : Fin n → ℕ → ℝ) (v : Fin n → ℝ) : v ⬝ᵥ (geoCov p F *ᵥ v) = pupilDot p (shapeOf F v) (shapeOf F v) := by
  rcases Nat.eq_zero_or_pos n with h | h
  · subst h
    simp [dotProduct, pupilDot, shapeOf]
  · have := pupilDot_form p F (Matrix.of fun a _ => v a) ⟨0, h⟩ ⟨0, h⟩
    rw [quad_entry] at this
    exact this.symm

theorem quad_covEntry {n : ℕ} (m : MaskPx) (ov : ℕ) (diam r0 L0 : ℝ) (F : Fin n → ℕ → ℝ) (v : Fin n → ℝ) :
    v ⬝ᵥ ((Matrix.of fun a b => covEntry m ov diam r0 L0 (F a) (F b)) *ᵥ v) = covEntry m ov diam r0 L0 (shapeOf F v) (shapeOf F v) := by
  rcases Nat.eq_zero_or_pos n with h | h
  · subst h
    rw [covEntry_shape]; simp [dotProduct]
  · have := covEntry_form m ov diam r0 L0 F (Matrix.of fun a _ => v a) ⟨0, h⟩ ⟨0, h⟩
    rw [quad_entry] at this
    exact this.symm

theorem pupilDot_self_nonneg (p : ℕ) (f : ℕ → ℝ) : 0 ≤ pupilDot p f f :=
  div_nonneg (sum_nonneg fun _ _ => mul_self_nonneg _) (Nat.cast_nonneg p)

/-! ### Removal of modes -/

theorem removeMode_orth {n : ℕ} (p : ℕ) (mode : ℕ → ℝ) (F : Fin n → ℕ → ℝ) (a : Fin n) :
    ∑ k ∈ range p, (removeMode p mode F).2 a k * mode k = 0 := by
  unfold removeMode
  split_ifs with h
  · simp only [sub_mul, sum_sub_distrib]
    have h1 : ∀ c : ℝ, ∑ k ∈ range p, mode k * c * mode k = c * ∑ k ∈ range p, mode k * mode k := by
      intro c; rw [mul_sum]; exact sum_congr rfl fun k _ => by ring
    rw [h1, div_mul_cancel₀ _ h.ne', sub_self]
  · have h0 : ∑ k ∈ range p, mode k * mode k = 0 := le_antisymm (not_lt.1 h) (sum_nonneg fun _ _ => mul_self_nonneg _)
    have h2 := (sum_eq_zero_iff_of_nonneg (fun k _ => mul_self_nonneg (mode k))).1 h0
    apply sum_eq_zero
    intro k hk
    rw [mul_self_eq_zero.1 (h2 k hk), mul_zero]

theorem removeMode_keep {n : ℕ} (p : ℕ) (mode g : ℕ → ℝ) (F : Fin n → ℕ → ℝ) (a : Fin n) (hg : ∑ k ∈ range p, mode k * g k = 0) :
    ∑ k ∈ range p, (removeMode p mode F).2 a k * g k = ∑ k ∈ range p, F a k * g k := by
  unfold removeMode
  split_ifs
  · simp only [sub_mul, sum_sub_distrib]
    have h1 : ∀ c : ℝ, ∑ k ∈ range p, mode k * c * g k = c * ∑ k ∈ range p, mode k * g k := by
      intro c; rw [mul_sum]; exact sum_congr rfl fun k _ => by ring
    rw [h1, hg, mul_zero, sub_zero]
  · rfl

theorem removeMode_split {n : ℕ} (p : ℕ) (mode : ℕ → ℝ) (F : Fin n → ℕ → ℝ) (a : Fin n) (k : ℕ) :
    F a k = (removeMode p mode F).2 a k + (removeMode p mode F).1 a * mode k := by
  unfold removeMode
  split_ifs
  · dsimp only; ring
  · simp

theorem removeModes_keep {n : ℕ} (p : ℕ) (g : ℕ → ℝ) (a : Fin n) : ∀ (modes : List (ℕ → ℝ)) (F : Fin n → ℕ → ℝ),
    (∀ f ∈ modes, ∑ k ∈ range p, f k * g k = 0) → ∑ k ∈ range p, (removeModes p modes F).2 a k * g k = ∑ k ∈ range p, F a k * g k
  | [], _, _ => rfl
  | f :: l, F, h => by
    show ∑ k ∈ range p, (removeModes p l (removeMode p f F).2).2 a k * g k = _
    rw [removeModes_keep p g a l _ fun f' hf => h f' (List.mem_cons_of_mem _ hf), removeMode_keep p f g F a (h f List.mem_cons_self)]

/-- The influence functions are the filtered ones plus the modes with their coefficients. -/
theorem removeModes_split {n : ℕ} (p : ℕ) (a : Fin n) (k : ℕ) : ∀ (modes : List (ℕ → ℝ)) (F : Fin n → ℕ → ℝ),
    F a k = (removeModes p modes F).2 a k + (((removeModes p modes F).1.zip modes).map fun x => x.1 a * x.2 k).sum
  | [], _ => by simp [removeModes]
  | f :: l, F => by
    have h := removeModes_split p a k l (removeMode p f F).2
    rw [removeMode_split p f F a k]
    show _ = (removeModes p l (removeMode p f F).2).2 a k + (((removeMode p f F).1 a * f k) + (((removeModes p l (removeMode p f F).2).1.zip l).map fun x => x.1 a * x.2 k).sum)
    rw [h]; ring

theorem removeModes_zeros {n : ℕ} (p m : ℕ) (F : Fin n → ℕ → ℝ) : (removeModes p (List.replicate m fun _ => 0) F).2 = F := by
  induction m with
  | zero => rfl
  | succ m ih =>
    rw [List.replicate_succ]
    show (removeModes p (List.replicate m fun _ => 0) (removeMode p (fun _ => 0) F).2).2 = F
    have : (removeMode p (fun _ => 0) F).2 = F := by unfold removeMode; simp
    rw [this, ih]

theorem removeModes_length {n : ℕ} (p : ℕ) : ∀ (modes : List (ℕ → ℝ)) (F : Fin n → ℕ → ℝ), (removeModes p modes F).1.length = modes.length
  | [], _ => rfl
  | f :: l, F => by simp [removeModes, removeModes_length p l]

/-! ### Existence of the decomposition -/

/-- Every symmetric matrix that is not negative has such a decomposition. -/
theorem exists_svd {n : ℕ} (A : Matrix (Fin n) (Fin n) ℝ) (hs : A.transpose = A) (hp : ∀ v : Fin n → ℝ, 0 ≤ v ⬝ᵥ (A *ᵥ v)) :
    ∃ U S, IsSvd A U S := by
  have hA : A.IsHermitian := by
    rw [Matrix.IsHermitian, Matrix.conjTranspose_eq_transpose_of_trivial, hs]
  set U0 : Matrix (Fin n) (Fin n) ℝ := (hA.eigenvectorUnitary : Matrix (Fin n) (Fin n) ℝ) with hU0
  have h1 : U0.transpose * U0 = 1 := by
    have := Unitary.coe_star_mul_self hA.eigenvectorUnitary
    rwa [Matrix.star_eq_conjTranspose, Matrix.conjTranspose_eq_transpose_of_trivial] at this
  set e := hA.eigenvalues with he
  have h2 : ∀ a j, (A * U0) a j = e j * U0 a j := by
    intro a j
    have := congrFun (hA.mulVec_eigenvectorBasis j) a
    rw [Pi.smul_apply, smul_eq_mul] at this
    exact this
  set σ := Tuple.sort fun i => - e i with hσ
  have hmono := Tuple.monotone_sort fun i => - e i
  set U : Matrix (Fin n) (Fin n) ℝ := U0.submatrix id σ with hU
  have h3 : U.transpose * U = 1 := by
    ext i j
    have := congrFun (congrFun h1 (σ i)) (σ j)
    rw [Matrix.mul_apply] at this ⊢
    simp only [hU, Matrix.transpose_apply, Matrix.submatrix_apply, id_eq] at this ⊢
    rw [this]
    simp [Matrix.one_apply]
  have h4 : A * U = U * Matrix.diagonal (fun i => e (σ i)) := by
    ext a j
    rw [Matrix.mul_diagonal]
    have := h2 a (σ j)
    rw [Matrix.mul_apply] at this ⊢
    simp only [hU, Matrix.submatrix_apply, id_eq]
    rw [this, mul_comm]
  refine ⟨U, fun i => e (σ i), U, h3, h3, ?_, ?_, ?_⟩
  · rw [← h4, Matrix.mul_assoc, mul_transpose_one U h3, Matrix.mul_one]
  · intro i
    have h5 := quad_entry A U i
    rw [Matrix.mul_assoc, h4, ← Matrix.mul_assoc, h3, Matrix.one_mul, Matrix.diagonal_apply_eq] at h5
    show 0 ≤ e (σ i)
    rw [h5]
    exact hp _
  · intro i j hij
    have := hmono hij
    simp only [Function.comp_apply] at this
    linarith

/-- A decomposition of every symmetric matrix that is not negative, as `svd` computes it. -/
def SvdOk {n : ℕ} (svd : Matrix (Fin n) (Fin n) ℝ → Matrix (Fin n) (Fin n) ℝ × (Fin n → ℝ)) : Prop :=
  ∀ A : Matrix (Fin n) (Fin n) ℝ, A.transpose = A → (∀ v : Fin n → ℝ, 0 ≤ v ⬝ᵥ (A *ᵥ v)) → IsSvd A (svd A).1 (svd A).2

theorem exists_svdOk (n : ℕ) : ∃ svd : Matrix (Fin n) (Fin n) ℝ → Matrix (Fin n) (Fin n) ℝ × (Fin n → ℝ), SvdOk svd := by
  classical
  refine ⟨fun A => if h : A.transpose = A ∧ ∀ v : Fin n → ℝ, 0 ≤ v ⬝ᵥ (A *ᵥ v) then
    (Classical.choose (exists_svd A h.1 h.2), Classical.choose (Classical.choose_spec (exists_svd A h.1 h.2))) else (1, fun _ => 0), ?_⟩
  intro A hs hp
  dsimp only
  rw [dif_pos ⟨hs, hp⟩]
  exact Classical.choose_spec (Classical.choose_spec (exists_svd A hs hp))

/-! ### C106 -/

/-- Frequencies of the grid: the number of periods in the array, counted from the nearer end. -/
theorem C106_grid (N i j : ℕ) (hi : i < N) (hj : j < N) :
    distGrid N i j = Real.sqrt ((min i (N - i) : ℕ) ^ 2 + (min j (N - j) : ℕ) ^ 2) := by
  have hN0 : 0 < N := by omega
  have hN : (N : ℝ) ≠ 0 := by positivity
  have h1 : ∀ i : ℕ, i < N → |fftFreq N i * N| = ((min i (N - i) : ℕ) : ℝ) := by
    intro i hi
    unfold fftFreq
    split_ifs with h
    · rw [div_mul_cancel₀ _ hN, min_eq_left (by omega), abs_of_nonneg (Nat.cast_nonneg i)]
    · have hle : (i : ℝ) ≤ N := by exact_mod_cast hi.le
      rw [div_mul_cancel₀ _ hN, min_eq_right (by omega), Nat.cast_sub hi.le, abs_of_nonpos (by linarith)]
      ring
  unfold distGrid
  rw [h1 i hi, h1 j hj]
  congr 1; ring

/-- The spectrum is positive, grows as `r0` decreases and decreases with the frequency. -/
theorem C106_spectrum (r0 L0 : ℝ) (hr : 0 < r0) (hL : 0 < L0) :
    (∀ f, 0 < phaseSpectrum f r0 L0) ∧ (∀ f g, 0 ≤ f → f < g → phaseSpectrum g r0 L0 < phaseSpectrum f r0 L0) ∧
      ∀ f r1, 0 < r1 → r1 < r0 → phaseSpectrum f r0 L0 < phaseSpectrum f r1 L0 := by
  have h1 : 0 < Real.Gamma (11 / 6) := Real.Gamma_pos_of_pos (by norm_num)
  have h2 : 0 < Real.Gamma (6 / 5) := Real.Gamma_pos_of_pos (by norm_num)
  have h3 : 0 < Real.pi := Real.pi_pos
  refine ⟨fun f => spectrum_pos f r0 L0 hr hL, ?_, ?_⟩
  · intro f g hf hfg
    unfold phaseSpectrum
    have h4 : 0 < f ^ 2 + (1 / L0) ^ 2 := by positivity
    have h5 : f ^ 2 + (1 / L0) ^ 2 < g ^ 2 + (1 / L0) ^ 2 := by nlinarith
    have h6 := Real.rpow_lt_rpow_of_neg h4 h5 (show (-(11 / 6) : ℝ) < 0 by norm_num)
    apply mul_lt_mul_of_pos_left h6
    positivity
  · intro f r1 h0 hlt
    unfold phaseSpectrum
    have h4 : 0 < f ^ 2 + (1 / L0) ^ 2 := by positivity
    have h6 := Real.rpow_lt_rpow_of_neg h0 hlt (show (-(5 / 3) : ℝ) < 0 by norm_num)
    apply mul_lt_mul_of_pos_right _ (by positivity)
    apply mul_lt_mul_of_pos_left h6
    positivity

theorem sum_move (N : ℕ) (T : ℕ → ℕ → ℕ → ℝ) :
    ∑ k ∈ range N, ∑ l ∈ range N, ∑ i ∈ range N, T k l i = ∑ i ∈ range N, ∑ k ∈ range N, ∑ l ∈ range N, T k l i := by
  rw [sum_congr rfl fun k _ => sum_comm, sum_comm]

theorem sum_move4 (N : ℕ) (T : ℕ → ℕ → ℕ → ℕ → ℕ → ℕ → ℝ) :
    ∑ k ∈ range N, ∑ l ∈ range N, ∑ i ∈ range N, ∑ j ∈ range N, ∑ i' ∈ range N, ∑ j' ∈ range N, T k l i j i' j' =
      ∑ i ∈ range N, ∑ j ∈ range N, ∑ i' ∈ range N, ∑ j' ∈ range N, ∑ k ∈ range N, ∑ l ∈ range N, T k l i j i' j' :=
  (sum_move N fun k l i => ∑ j ∈ range N, ∑ i' ∈ range N, ∑ j' ∈ range N, T k l i j i' j').trans <| sum_congr rfl fun i _ =>
    (sum_move N fun k l j => ∑ i' ∈ range N, ∑ j' ∈ range N, T k l i j i' j').trans <| sum_congr rfl fun j _ =>
      (sum_move N fun k l i' => ∑ j' ∈ range N, T k l i j i' j').trans <| sum_congr rfl fun i' _ =>
        sum_move N fun k l j' => T k l i j i' j'

theorem twiddle_cos (N : ℕ) (a b : ℤ) : (twiddle N a * (starRingEnd ℂ) (twiddle N b)).re = Real.cos (2 * Real.pi * (a - b) / N) := by
  have h1 : twiddle N a * (starRingEnd ℂ) (twiddle N b) = Complex.exp (((-(2 * Real.pi * (a - b) / N) : ℝ) : ℂ) * Complex.I) := by
    unfold twiddle
    rw [← Complex.exp_conj, ← Complex.exp_add]
    congr 1
    simp only [map_neg, map_div₀, map_mul, Complex.conj_I, Complex.conj_ofReal, map_ofNat, map_intCast, map_natCast]
    push_cast
    ring
  rw [h1, Complex.exp_ofReal_mul_I_re, Real.cos_neg]

/-- Each entry of the covariance matrix is the covariance of the turbulent phase averaged over the two influence functions. -/
theorem C106_projected (m : MaskPx) (ov : ℕ) (diam r0 L0 : ℝ) (f g : ℕ → ℝ) :
    covEntry m ov diam r0 L0 f g = (∑ i ∈ range (m.side ov), ∑ j ∈ range (m.side ov), ∑ i' ∈ range (m.side ov), ∑ j' ∈ range (m.side ov),
      m.support f i j * m.support g i' j' * phaseCov m ov diam r0 L0 ((i : ℤ) - i') ((j : ℤ) - j')) / (m.count : ℝ) ^ 2 := by
  set N := m.side ov with hN
  have hre : ∀ k l, (ifsFt m ov f k l * (specAt m ov diam r0 L0 k l : ℂ) * (starRingEnd ℂ) (ifsFt m ov g k l)).re =
      ∑ i ∈ range N, ∑ j ∈ range N, ∑ i' ∈ range N, ∑ j' ∈ range N, m.support f i j * m.support g i' j' *
        (specAt m ov diam r0 L0 k l * Real.cos (2 * Real.pi * (k * ((i : ℤ) - i' : ℤ) + l * ((j : ℤ) - j' : ℤ)) / N)) := by
    intro k l
    unfold ifsFt fft2
    rw [← hN]
    simp only [map_sum, map_mul, Complex.conj_ofReal, sum_mul, Complex.re_sum]
    apply sum_congr rfl; intro i _
    apply sum_congr rfl; intro j _
    rw [mul_sum, Complex.re_sum]
    apply sum_congr rfl; intro i' _
    rw [mul_sum, Complex.re_sum]
    apply sum_congr rfl; intro j' _
    have h1 : ((m.support f i j : ℝ) : ℂ) * twiddle N ((k * i + l * j : ℕ) : ℤ) * (specAt m ov diam r0 L0 k l : ℂ) *
        (((m.support g i' j' : ℝ) : ℂ) * (starRingEnd ℂ) (twiddle N ((k * i' + l * j' : ℕ) : ℤ))) =
        ((m.support f i j * m.support g i' j' * specAt m ov diam r0 L0 k l : ℝ) : ℂ) *
          (twiddle N ((k * i + l * j : ℕ) : ℤ) * (starRingEnd ℂ) (twiddle N ((k * i' + l * j' : ℕ) : ℤ))) := by push_cast; ring
    rw [h1, Complex.re_ofReal_mul, twiddle_cos, mul_assoc]
    congr 3
    push_cast
    ring
  unfold covEntry phaseCov
  rw [← hN, Complex.re_sum, sum_congr rfl fun k _ => Complex.re_sum _ _]
  simp only [hre]
  have h2 : ∀ (x c : ℝ), x / ((m.count : ℝ) ^ 2 * c) = x / c / (m.count : ℝ) ^ 2 := fun x c => by rw [mul_comm, div_div]
  rw [h2]
  congr 1
  have h3 := sum_move4 N fun k l i j i' j' => m.support f i j * m.support g i' j' *
        (specAt m ov diam r0 L0 k l * Real.cos (2 * Real.pi * (k * ((i : ℤ) - i' : ℤ) + l * ((j : ℤ) - j' : ℤ)) / N))
  rw [h3]
  simp only [sum_div]
  apply sum_congr rfl; intro i _
  apply sum_congr rfl; intro j _
  apply sum_congr rfl; intro i' _
  apply sum_congr rfl; intro j' _
  simp only [← sum_div, mul_div_assoc', mul_sum]

/-- The covariance matrix is symmetric, not negative, and no shape on the pupil is without variance. -/
theorem C106_covmat {n : ℕ} (m : MaskPx) (ov : ℕ) (diam r0 L0 : ℝ) (hd : 0 < diam) (hr : 0 < r0) (hL : 0 < L0) (F : Fin n → ℕ → ℝ)
    (C : Matrix (Fin n) (Fin n) ℝ) (h : ifsCovmat m ov diam r0 L0 F = some C) :
    2 ≤ ov ∧ C.transpose = C ∧ (∀ v : Fin n → ℝ, 0 ≤ v ⬝ᵥ (C *ᵥ v)) ∧
      ∀ v : Fin n → ℝ, v ⬝ᵥ (C *ᵥ v) = 0 → ∀ k < m.count, ∑ a, v a * F a k = 0 := by
  unfold ifsCovmat at h
  split_ifs at h with hov
  obtain rfl := Option.some.inj h
  refine ⟨by omega, ?_, ?_, ?_⟩
  · ext a b
    exact covEntry_comm _ _ _ _ _ _ _
  · intro v
    rw [quad_covEntry]
    exact covEntry_nonneg _ _ _ _ _ hr hL _
  · intro v hv
    rw [quad_covEntry] at hv
    exact covEntry_zero m ov (by omega) diam r0 L0 hd hr hL _ hv

/-- With modes orthogonal to each other, nothing of any of them is left in the filtered influence functions. -/
theorem C106_filtered {n : ℕ} (p : ℕ) : ∀ (modes : List (ℕ → ℝ)) (F : Fin n → ℕ → ℝ),
    modes.Pairwise (fun f g => ∑ k ∈ range p, f k * g k = 0) → ∀ mode ∈ modes, ∀ a, ∑ k ∈ range p, (removeModes p modes F).2 a k * mode k = 0
  | [], _, _, mode, hm, _ => absurd hm List.not_mem_nil
  | f :: l, F, hpw, mode, hm, a => by
    rw [List.pairwise_cons] at hpw
    show ∑ k ∈ range p, (removeModes p l (removeMode p f F).2).2 a k * mode k = 0
    rcases List.mem_cons.1 hm with rfl | hm
    · rw [removeModes_keep p mode a l _ fun g hg => by
        rw [← hpw.1 g hg]; exact sum_congr rfl fun k _ => mul_comm _ _]
      exact removeMode_orth p mode F a
    · exact C106_filtered p l _ hpw.2 mode hm a

/-- Whatever the modes, nothing of the last one is left. -/
theorem C106_filtered_last {n : ℕ} (p : ℕ) (last : ℕ → ℝ) (a : Fin n) : ∀ (modes : List (ℕ → ℝ)) (F : Fin n → ℕ → ℝ),
    ∑ k ∈ range p, (removeModes p (modes ++ [last]) F).2 a k * last k = 0
  | [], F => removeMode_orth p last F a
  | _ :: l, _ => C106_filtered_last p last a l _

/-- Modes that are not orthogonal to each other: removing the second puts back some of the first. -/
theorem C106_filtered_witness : ∃ (f g : ℕ → ℝ) (F : Fin 1 → ℕ → ℝ), ∑ k ∈ range 2, (removeModes 2 [f, g] F).2 0 k * f k ≠ 0 := by
  refine ⟨fun k => if k = 0 then 1 else 0, fun _ => 1, fun _ k => if k = 1 then 1 else 0, ?_⟩
  simp [removeModes, removeMode]

/-- The rows of `filt_modes` change nothing in the filtered functions: only their number counts. -/
theorem C106_filt_unused {n : ℕ} (p m : ℕ) (F : Fin n → ℕ → ℝ) (a : Fin n) (k : ℕ) :
    (removeModes p ((fun _ => 1) :: List.replicate m fun _ => 0) F).2 a k = if p = 0 then F a k else F a k - (∑ t ∈ range p, F a t) / p := by
  show (removeModes p (List.replicate m fun _ => 0) (removeMode p (fun _ => 1) F).2).2 a k = _
  rw [removeModes_zeros]
  unfold removeMode
  by_cases hp : p = 0
  · simp [hp]
  · have : (0 : ℝ) < p := by exact_mod_cast Nat.pos_of_ne_zero hp
    simp [hp, this]

/-- Modes removed before the decomposition, as `make_modal_base_from_ifs_fft` assembles them. -/
def removedModes {n : ℕ} (F : Fin n → ℕ → ℝ) (cz : List (Fin n → ℝ)) (nfilt : ℕ) : List (ℕ → ℝ) :=
  if cz = [] then (fun _ => 1) :: List.replicate nfilt (fun _ => 0) else cz.map (shapeOf F)

theorem modalBase_eq {n : ℕ} (q : KlParams) (svd : Matrix (Fin n) (Fin n) ℝ → Matrix (Fin n) (Fin n) ℝ × (Fin n → ℝ))
    (F : Fin n → ℕ → ℝ) (cz : List (Fin n → ℝ)) (nfilt : ℕ) (b : ModalBase n) (h : modalBase q svd F cz nfilt = some b) :
    ∃ (r : ℕ) (C M : Matrix (Fin n) (Fin n) ℝ), condRemoved b.S1 (removedModes F cz nfilt).length q.maxCond = some r ∧
      ifsCovmat q.m q.ov q.diam q.r0 q.L0 (removeModes q.m.count (removedModes F cz nfilt) F).2 = some C ∧
      b.S1 = (svd (geoCov q.m.count (removeModes q.m.count (removedModes F cz nfilt) F).2)).2 ∧
      M = scaledVecs (svd (geoCov q.m.count (removeModes q.m.count (removedModes F cz nfilt) F).2)).1 b.S1 r ∧
      b.S2 = (svd (M.transpose * C * M)).2 ∧ b.kept = n - r ∧
      (∀ j, b.kl j = shapeOf (removeModes q.m.count (removedModes F cz nfilt) F).2 fun a => (M * (svd (M.transpose * C * M)).1) a j) ∧
      b.zern = (if cz = [] then [] else (cz.map (shapeOf F)).tail) ∧ b.zernCmd = cz.tail ∧
      b.klCmd = (if cz = [] then 1 - Matrix.vecMulVec ((removeModes q.m.count (removedModes F cz nfilt) F).1.headD 0) ((removeModes q.m.count (removedModes F cz nfilt) F).1.headD 0)
        else 1 - sumOuter (cz.tail.zip (removeModes q.m.count (removedModes F cz nfilt) F).1.tail)) * (M * (svd (M.transpose * C * M)).1) := by
  unfold modalBase at h
  dsimp only at h
  rw [Option.bind_eq_some_iff] at h
  obtain ⟨r, hr, h⟩ := h
  rw [Option.bind_eq_some_iff] at h
  obtain ⟨C, hC, h⟩ := h
  obtain rfl := Option.some.inj h
  refine ⟨r, C, _, hr, hC, rfl, rfl, rfl, rfl, fun j => rfl, ?_, rfl, rfl⟩
  dsimp only
  split_ifs <;> rfl

/-- The modes of the base are orthonormal on the pupil; `compute_ifs_covmat` of the base is diagonal, with the singular values `S2`, which
are positive and in decreasing order. -/
theorem C106_modes {n : ℕ} (q : KlParams) (hd : 0 < q.diam) (hr0 : 0 < q.r0) (hL0 : 0 < q.L0)
    (svd : Matrix (Fin n) (Fin n) ℝ → Matrix (Fin n) (Fin n) ℝ × (Fin n → ℝ)) (hsvd : SvdOk svd)
    (F : Fin n → ℕ → ℝ) (cz : List (Fin n → ℝ)) (nfilt : ℕ) (b : ModalBase n) (h : modalBase q svd F cz nfilt = some b)
    (hpos : ∀ i : Fin n, (i : ℕ) < b.kept → 0 < b.S1 i) :
    (∀ i j : Fin n, (i : ℕ) < b.kept → (j : ℕ) < b.kept → pupilDot q.m.count (b.kl i) (b.kl j) = if i = j then 1 else 0) ∧
    ifsCovmat q.m q.ov q.diam q.r0 q.L0 b.kl = some (Matrix.diagonal b.S2) ∧
    (∀ i : Fin n, (i : ℕ) < b.kept → 0 < b.S2 i) ∧ ∀ i j : Fin n, i ≤ j → b.S2 j ≤ b.S2 i := by
  obtain ⟨r, C, M, -, hC, hS1, hM, hS2, hk, hkl, -, -, -⟩ := modalBase_eq q svd F cz nfilt b h
  set F' := (removeModes q.m.count (removedModes F cz nfilt) F).2 with hF'
  obtain ⟨hov, hCs, hCp, hker⟩ := C106_covmat q.m q.ov q.diam q.r0 q.L0 hd hr0 hL0 F' C hC
  have hCe : C = Matrix.of fun a b => covEntry q.m q.ov q.diam q.r0 q.L0 (F' a) (F' b) := by
    unfold ifsCovmat at hC
    rw [if_neg (by omega)] at hC
    exact (Option.some.inj hC).symm
  have hGp : ∀ v : Fin n → ℝ, 0 ≤ v ⬝ᵥ (geoCov q.m.count F' *ᵥ v) := fun v => by rw [quad_geoCov]; exact pupilDot_self_nonneg _ _
  have hk1 := hsvd _ (geoCov_symm q.m.count F') hGp
  rw [← hS1] at hk1
  have hhs : (M.transpose * C * M).transpose = M.transpose * C * M := by
    rw [Matrix.transpose_mul, Matrix.transpose_mul, Matrix.transpose_transpose, hCs, Matrix.mul_assoc]
  have hk2 := hsvd (M.transpose * C * M) hhs fun v => by rw [quad_form]; exact hCp _
  rw [← hS2] at hk2
  have hanti : ∀ i j : Fin n, i ≤ j → b.S2 j ≤ b.S2 i := by obtain ⟨V, -, -, -, -, h5⟩ := hk2; exact h5
  have hzero : ∀ v : Fin n → ℝ, v ⬝ᵥ (C *ᵥ v) = 0 → v ⬝ᵥ (geoCov q.m.count F' *ᵥ v) = 0 := by
    intro v hv
    rw [quad_geoCov]
    unfold pupilDot
    rw [sum_eq_zero fun k hk => by
      have : shapeOf F' v k = 0 := hker v hv k (mem_range.1 hk)
      rw [this, zero_mul], zero_div]
  rw [hk] at hpos ⊢
  rw [hM] at hk2
  obtain ⟨ho, hdg, hps⟩ := kl_core _ C _ _ b.S1 b.S2 r (geoCov_symm q.m.count F') hGp hCs hCp hzero hk1 hpos hk2
  rw [← hM] at ho hdg
  refine ⟨?_, ?_, hps, hanti⟩
  · intro i j hi hj
    rw [hkl i, hkl j, pupilDot_form]
    exact ho i j hi hj
  · unfold ifsCovmat
    rw [if_neg (by omega)]
    congr 1
    rw [← hdg, hCe]
    ext i j
    rw [Matrix.of_apply, hkl i, hkl j, covEntry_form]
    rw [hCe]

/-- Without Zernike modes the modes have zero mean on the pupil. -/
theorem C106_zero_mean {n : ℕ} (q : KlParams) (svd : Matrix (Fin n) (Fin n) ℝ → Matrix (Fin n) (Fin n) ℝ × (Fin n → ℝ))
    (F : Fin n → ℕ → ℝ) (nfilt : ℕ) (b : ModalBase n) (h : modalBase q svd F [] nfilt = some b) (j : Fin n) :
    ∑ k ∈ range q.m.count, b.kl j k = 0 := by
  obtain ⟨r, C, M, -, -, -, -, -, -, hkl, -, -, -⟩ := modalBase_eq q svd F [] nfilt b h
  rw [hkl j]
  unfold shapeOf
  rw [sum_comm]
  apply sum_eq_zero
  intro a _
  rw [← mul_sum]
  have h1 := C106_filtered q.m.count (removedModes F [] nfilt) F (by
    unfold removedModes
    rw [if_pos rfl, List.pairwise_cons]
    refine ⟨fun g hg => ?_, ?_⟩
    · rw [List.eq_of_mem_replicate hg]; simp
    · rw [List.pairwise_replicate]
      right; simp) (fun _ => 1) (by simp [removedModes]) a
  simp only [mul_one] at h1
  rw [h1, mul_zero]

/-- Zernike modes: applied to the mirror, the commands of the Zernike part give the Zernike part of the base. -/
theorem C106_zern_commands {n : ℕ} (q : KlParams) (svd : Matrix (Fin n) (Fin n) ℝ → Matrix (Fin n) (Fin n) ℝ × (Fin n → ℝ))
    (F : Fin n → ℕ → ℝ) (cz : List (Fin n → ℝ)) (b : ModalBase n) (h : modalBase q svd F cz 0 = some b) (hcz : cz ≠ []) :
    b.zern = b.zernCmd.map (shapeOf F) := by
  obtain ⟨r, C, M, -, -, -, -, -, -, -, hz, hzc, -⟩ := modalBase_eq q svd F cz 0 b h
  rw [hz, hzc, if_neg hcz, List.map_tail]

theorem shapeOf_mul {n : ℕ} (F : Fin n → ℕ → ℝ) (K B : Matrix (Fin n) (Fin n) ℝ) (j : Fin n) (k : ℕ) :
    shapeOf F (fun a => (K * B) a j) k = ∑ c, (∑ a, K a c * F a k) * B c j := by
  unfold shapeOf
  simp only [Matrix.mul_apply, sum_mul]
  rw [sum_comm]
  exact sum_congr rfl fun c _ => sum_congr rfl fun a _ => by ring

theorem sumOuter_shape {n : ℕ} (F : Fin n → ℕ → ℝ) (c : Fin n) (k : ℕ) : ∀ l : List ((Fin n → ℝ) × (Fin n → ℝ)),
    ∑ a, sumOuter l a c * F a k = (l.map fun x => x.2 c * shapeOf F x.1 k).sum
  | [] => by simp [sumOuter]
  | x :: l => by
    have h := sumOuter_shape F c k l
    simp only [sumOuter, Matrix.add_apply, add_mul, sum_add_distrib, List.map_cons, List.sum_cons, Matrix.vecMulVec_apply]
    rw [h]
    congr 1
    unfold shapeOf
    rw [mul_sum]
    exact sum_congr rfl fun a _ => by ring

/-- Zernike modes: applied to the mirror, the commands of the other part give the modes of the base, up to a multiple of the shape that the
mirror gives to piston. -/
theorem C106_kl_commands {n : ℕ} (q : KlParams) (svd : Matrix (Fin n) (Fin n) ℝ → Matrix (Fin n) (Fin n) ℝ × (Fin n → ℝ))
    (F : Fin n → ℕ → ℝ) (c0 : Fin n → ℝ) (cz : List (Fin n → ℝ)) (b : ModalBase n) (h : modalBase q svd F (c0 :: cz) 0 = some b) (j : Fin n) :
    ∃ γ : ℝ, ∀ k, shapeOf F (fun a => b.klCmd a j) k = b.kl j k + γ * shapeOf F c0 k := by
  obtain ⟨r, C, M, -, -, -, -, -, -, hkl, -, -, hcmd⟩ := modalBase_eq q svd F (c0 :: cz) 0 b h
  set Bp := M * (svd (M.transpose * C * M)).1 with hBp
  have hmodes : removedModes F (c0 :: cz) 0 = shapeOf F c0 :: cz.map (shapeOf F) := by simp [removedModes]
  set s := removeMode q.m.count (shapeOf F c0) F with hs
  set R := removeModes q.m.count (cz.map (shapeOf F)) s.2 with hR
  have hcf : removeModes q.m.count (removedModes F (c0 :: cz) 0) F = (s.1 :: R.1, R.2) := by rw [hmodes]; rfl
  rw [hcf] at hkl hcmd
  refine ⟨∑ c, s.1 c * Bp c j, fun k => ?_⟩
  rw [hcmd, if_neg (by simp), hkl j, shapeOf_mul]
  simp only [List.tail_cons]
  have hzip : ∀ c, (((cz.zip R.1).map fun x => x.2 c * shapeOf F x.1 k)).sum = ((R.1.zip (cz.map (shapeOf F))).map fun x => x.1 c * x.2 k).sum := by
    intro c
    rw [List.zip_map_right, List.map_map, ← List.zip_swap, List.map_map]
    rfl
  have h1 : ∀ c, ∑ a, (1 - sumOuter (cz.zip R.1)) a c * F a k = R.2 c k + s.1 c * shapeOf F c0 k := by
    intro c
    have e1 : ∑ a, (1 - sumOuter (cz.zip R.1)) a c * F a k = F c k - ∑ a, sumOuter (cz.zip R.1) a c * F a k := by
      simp only [Matrix.sub_apply, sub_mul, sum_sub_distrib]
      congr 1
      simp [Matrix.one_apply]
    rw [e1, sumOuter_shape, hzip]
    have e2 := removeMode_split q.m.count (shapeOf F c0) F c k
    have e3 := removeModes_split q.m.count c k (cz.map (shapeOf F)) s.2
    rw [← hs] at e2
    rw [← hR] at e3
    linarith
  simp only [h1]
  unfold shapeOf
  rw [sum_mul, ← sum_add_distrib]
  exact sum_congr rfl fun c _ => by ring

/-- No Zernike modes: the commands give the modes of the base plus a multiple of what is missing to piston in the shape given by the means of the
influence functions. -/
theorem C106_plain_commands {n : ℕ} (q : KlParams) (svd : Matrix (Fin n) (Fin n) ℝ → Matrix (Fin n) (Fin n) ℝ × (Fin n → ℝ))
    (F : Fin n → ℕ → ℝ) (nfilt : ℕ) (b : ModalBase n) (hc : 0 < q.m.count) (h : modalBase q svd F [] nfilt = some b) (j : Fin n) :
    ∃ γ : ℝ, ∀ k, shapeOf F (fun a => b.klCmd a j) k =
      b.kl j k + γ * (1 - shapeOf F (fun a => (∑ t ∈ range q.m.count, F a t) / q.m.count) k) := by
  obtain ⟨r, C, M, -, -, -, -, -, -, hkl, -, -, hcmd⟩ := modalBase_eq q svd F [] nfilt b h
  set Bp := M * (svd (M.transpose * C * M)).1 with hBp
  have hp : (0 : ℝ) < q.m.count := by exact_mod_cast hc
  set μ : Fin n → ℝ := fun a => (∑ t ∈ range q.m.count, F a t) / q.m.count with hμ
  have hmodes : removedModes F [] nfilt = (fun _ => 1) :: List.replicate nfilt (fun _ => 0) := by simp [removedModes]
  have h1 : (removeModes q.m.count (removedModes F [] nfilt) F).1.headD 0 = μ := by
    rw [hmodes]
    show (removeMode q.m.count (fun _ => 1) F).1 = μ
    unfold removeMode
    simp [hc, hμ]
  have h2 : ∀ a k, (removeModes q.m.count (removedModes F [] nfilt) F).2 a k = F a k - μ a := by
    intro a k
    rw [hmodes, C106_filt_unused, if_neg hc.ne']
  rw [h1, if_pos rfl] at hcmd
  refine ⟨∑ c, μ c * Bp c j, fun k => ?_⟩
  rw [hcmd, hkl j, shapeOf_mul]
  have h3 : ∀ c, ∑ a, (1 - Matrix.vecMulVec μ μ) a c * F a k = F c k - μ c * shapeOf F μ k := by
    intro c
    simp only [Matrix.sub_apply, sub_mul, sum_sub_distrib, Matrix.vecMulVec_apply]
    congr 1
    · simp [Matrix.one_apply]
    · unfold shapeOf
      rw [mul_sum]
      exact sum_congr rfl fun a _ => by ring
  simp only [h3]
  rw [show shapeOf (removeModes q.m.count (removedModes F [] nfilt) F).2 (fun a => Bp a j) k = ∑ c, Bp c j * (F c k - μ c) from
    sum_congr rfl fun c _ => by rw [h2], sum_mul, ← sum_add_distrib]
  exact sum_congr rfl fun c _ => by ring

/-- The check of the condition number keeps exactly the vectors whose singular value is at least the first over the maximum. -/
theorem C106_condition {n : ℕ} (S : Fin n → ℝ) (r r' : ℕ) (mx : ℝ) (hn : 0 < n) (hr : r < n) (hmx : 0 < mx) (h0 : ∀ i, 0 ≤ S i)
    (hanti : ∀ i j : Fin n, i ≤ j → S j ≤ S i) (hS : 0 < S ⟨0, hn⟩) (h : condRemoved S r (some mx) = some r') :
    r ≤ r' ∧ ∀ i : Fin n, (i : ℕ) < n - r → ((i : ℕ) < n - r' ↔ S ⟨0, hn⟩ / mx ≤ S i) := by
  have hv0 : vecAt S 0 = some (S ⟨0, hn⟩) := by unfold vecAt; rw [dif_pos ⟨le_refl _, by exact_mod_cast hn⟩]; rfl
  have hvl : vecAt S ((n : ℤ) - r - 1) = some (S ⟨n - r - 1, by omega⟩) := by
    unfold vecAt
    rw [dif_pos (by omega)]
    congr 2
    apply Fin.ext
    show ((n : ℤ) - r - 1).toNat = n - r - 1
    omega
  unfold condRemoved at h
  rw [hv0, hvl] at h
  simp only [Option.bind_some, Option.elim_some] at h
  set s0 := S ⟨0, hn⟩ with hs0
  set L : Fin n := ⟨n - r - 1, by omega⟩ with hL
  have hall : (∀ i : Fin n, (i : ℕ) < n - r → s0 / mx ≤ S i) → r' = r → r ≤ r' ∧ ∀ i : Fin n, (i : ℕ) < n - r → ((i : ℕ) < n - r' ↔ s0 / mx ≤ S i) := by
    intro ha hr'
    rw [hr']
    exact ⟨le_refl _, fun i hi => ⟨fun _ => ha i hi, fun _ => hi⟩⟩
  split_ifs at h with h1 h2
  · -- some vectors are cut
    set c := countBelow S r (s0 / mx) with hc
    rw [Option.bind_eq_some_iff] at h
    obtain ⟨-, -, h⟩ := h
    obtain rfl := Option.some.inj h
    refine ⟨by omega, fun i hi => ⟨fun hlt => ?_, fun hge => ?_⟩⟩
    · by_contra hb
      have hb' := not_le.1 hb
      have hsub : (univ.filter fun t : Fin n => i ≤ t ∧ (t : ℕ) < n - r) ⊆ univ.filter fun t : Fin n => (t : ℕ) < n - r ∧ S t < s0 / mx := by
        intro t ht
        simp only [mem_filter, mem_univ, true_and] at ht ⊢
        exact ⟨ht.2, (hanti i t ht.1).trans_lt hb'⟩
      have hcard := card_le_card hsub
      have hcnt : (univ.filter fun t : Fin n => i ≤ t ∧ (t : ℕ) < n - r).card = n - r - i := by
        have : (univ.filter fun t : Fin n => i ≤ t ∧ (t : ℕ) < n - r).map Fin.valEmbedding = Finset.Ico (i : ℕ) (n - r) := by
          ext t
          simp only [mem_map, mem_filter, mem_univ, true_and, Fin.valEmbedding_apply, mem_Ico]
          constructor
          · rintro ⟨x, ⟨hx1, hx2⟩, rfl⟩; exact ⟨hx1, hx2⟩
          · rintro ⟨ht1, ht2⟩; exact ⟨⟨t, by omega⟩, ⟨ht1, ht2⟩, rfl⟩
        rw [← Finset.card_map Fin.valEmbedding, this, Nat.card_Ico]
      have : c = (univ.filter fun t : Fin n => (t : ℕ) < n - r ∧ S t < s0 / mx).card := rfl
      omega
    · have hsub : (univ.filter fun t : Fin n => (t : ℕ) < n - r ∧ S t < s0 / mx) ⊆ univ.filter fun t : Fin n => i < t ∧ (t : ℕ) < n - r := by
        intro t ht
        simp only [mem_filter, mem_univ, true_and] at ht ⊢
        refine ⟨?_, ht.1⟩
        by_contra hti
        exact absurd ((hge.trans (hanti t i (not_lt.1 hti)))) (not_le.2 ht.2)
      have hcard := card_le_card hsub
      have hcnt : (univ.filter fun t : Fin n => i < t ∧ (t : ℕ) < n - r).card = n - r - (i + 1) := by
        have : (univ.filter fun t : Fin n => i < t ∧ (t : ℕ) < n - r).map Fin.valEmbedding = Finset.Ico ((i : ℕ) + 1) (n - r) := by
          ext t
          simp only [mem_map, mem_filter, mem_univ, true_and, Fin.valEmbedding_apply, mem_Ico]
          constructor
          · rintro ⟨x, ⟨hx1, hx2⟩, rfl⟩; exact ⟨hx1, hx2⟩
          · rintro ⟨ht1, ht2⟩; exact ⟨⟨t, by omega⟩, ⟨ht1, ht2⟩, rfl⟩
        rw [← Finset.card_map Fin.valEmbedding, this, Nat.card_Ico]
      have : c = (univ.filter fun t : Fin n => (t : ℕ) < n - r ∧ S t < s0 / mx).card := rfl
      omega
  · apply hall _ (Option.some.inj h).symm
    intro i hi
    by_contra hb
    apply h2
    unfold countBelow
    rw [card_pos]
    exact ⟨i, by simp only [mem_filter, mem_univ, true_and]; exact ⟨hi, not_le.1 hb⟩⟩
  · apply hall _ (Option.some.inj h).symm
    intro i hi
    have hiL : i ≤ L := by show (i : ℕ) ≤ n - r - 1; omega
    have hSi := hanti i L hiL
    unfold ratioAbove at h1
    by_cases hz : S L = 0
    · rw [if_pos hz, decide_eq_true_eq] at h1; exact absurd hS h1
    · rw [if_neg hz, decide_eq_true_eq, not_lt] at h1
      have hpos : 0 < S L := lt_of_le_of_ne (h0 L) (Ne.symm hz)
      rw [div_le_iff₀ hpos] at h1
      rw [div_le_iff₀ hmx]
      nlinarith

/-- Without a maximum of the condition number the number of modes depends on `filt_modes` only through its number of rows. -/
theorem C106_kept {n : ℕ} (q : KlParams) (svd : Matrix (Fin n) (Fin n) ℝ → Matrix (Fin n) (Fin n) ℝ × (Fin n → ℝ))
    (F : Fin n → ℕ → ℝ) (cz : List (Fin n → ℝ)) (nfilt : ℕ) (b : ModalBase n) (hq : q.maxCond = none) (h : modalBase q svd F cz nfilt = some b) :
    b.kept = n - if cz = [] then 1 + nfilt else cz.length := by
  obtain ⟨r, C, M, hr, -, -, -, -, hk, -, -, -, -⟩ := modalBase_eq q svd F cz nfilt b h
  rw [hq] at hr
  unfold condRemoved at hr
  rw [Option.bind_eq_some_iff] at hr
  obtain ⟨_, _, hr⟩ := hr
  rw [Option.bind_eq_some_iff] at hr
  obtain ⟨_, _, hr⟩ := hr
  rw [hk, ← Option.some.inj hr]
  congr 1
  unfold removedModes
  split_ifs
  · simp [add_comm]
  · simp

/-! ### Two actuators on two pixels -/

/-- Influence functions (2, 0) and (0, 1). -/
def twoIfs : Fin 2 → ℕ → ℝ := fun a k => if a = 0 then (if k = 0 then 2 else 0) else if k = 1 then 1 else 0

noncomputable def twoParams : KlParams := { m := { h := 1, w := 2, on := fun _ _ => true }, ov := 2, diam := 8, r0 := 1 / 5, L0 := 25, maxCond := none }

theorem two_count : twoParams.m.count = 2 := by decide

theorem two_filtered (a : Fin 2) (k : ℕ) : (removeModes 2 (removedModes twoIfs [] 0) twoIfs).2 a k = twoIfs a k - if a = 0 then 1 else 1 / 2 := by
  have := C106_filt_unused 2 0 twoIfs a k
  rw [show removedModes twoIfs [] 0 = (fun _ => 1) :: List.replicate 0 fun _ => 0 by simp [removedModes], this, if_neg (by norm_num)]
  congr 1
  fin_cases a <;> norm_num [twoIfs, sum_range_succ]

theorem two_cov : geoCov 2 (removeModes 2 (removedModes twoIfs [] 0) twoIfs).2 = !![1, -(1 / 2); -(1 / 2), 1 / 4] := by
  ext a b
  fin_cases a <;> fin_cases b <;> norm_num [geoCov, two_filtered, twoIfs, sum_range_succ]

theorem two_base (svd : Matrix (Fin 2) (Fin 2) ℝ → Matrix (Fin 2) (Fin 2) ℝ × (Fin 2 → ℝ)) : ∃ b, modalBase twoParams svd twoIfs [] 0 = some b := by
  unfold modalBase
  simp only [if_pos, List.replicate_zero, List.length_cons, List.length_nil]
  simp [condRemoved, vecAt, twoParams, ifsCovmat]

theorem two_positive (svd : Matrix (Fin 2) (Fin 2) ℝ → Matrix (Fin 2) (Fin 2) ℝ × (Fin 2 → ℝ)) (hsvd : SvdOk svd) (b : ModalBase 2)
    (h : modalBase twoParams svd twoIfs [] 0 = some b) : b.kept = 1 ∧ 0 < b.S1 0 := by
  refine ⟨by simpa using C106_kept twoParams svd twoIfs [] 0 b rfl h, ?_⟩
  obtain ⟨r, C, M, -, -, hS1, -⟩ := modalBase_eq twoParams svd twoIfs [] 0 b h
  have hk := hsvd _ (geoCov_symm twoParams.m.count (removeModes twoParams.m.count (removedModes twoIfs [] 0) twoIfs).2) fun v => by
    rw [quad_geoCov]; exact pupilDot_self_nonneg _ _
  rw [← hS1] at hk
  rw [two_count, two_cov] at hk
  obtain ⟨V, -, -, hA, h0, hanti⟩ := hk
  by_contra hc
  have hz : b.S1 = fun _ => 0 := by
    funext i
    exact le_antisymm ((hanti 0 i (Fin.zero_le i)).trans (not_lt.1 hc)) (h0 i)
  rw [hz] at hA
  have := congrFun (congrFun hA 0) 0
  simp at this

/-- The hypotheses of `C106_modes` hold, and the commands do not give the mode of the base, not even up to piston. -/
theorem C106_commands_witness (svd : Matrix (Fin 2) (Fin 2) ℝ → Matrix (Fin 2) (Fin 2) ℝ × (Fin 2 → ℝ)) (hsvd : SvdOk svd) :
    ∃ b, modalBase twoParams svd twoIfs [] 0 = some b ∧ b.kept = 1 ∧ (∀ i : Fin 2, (i : ℕ) < b.kept → 0 < b.S1 i) ∧
      ¬ ∃ c : ℝ, ∀ k < 2, shapeOf twoIfs (fun a => b.klCmd a 0) k = b.kl 0 k + c := by
  obtain ⟨b, hb⟩ := two_base svd
  obtain ⟨hk, hp⟩ := two_positive svd hsvd b hb
  have hpos : ∀ i : Fin 2, (i : ℕ) < b.kept → 0 < b.S1 i := by
    intro i hi
    rw [hk] at hi
    have : i = 0 := by apply Fin.ext; simpa using hi
    rw [this]; exact hp
  refine ⟨b, hb, hk, hpos, ?_⟩
  rintro ⟨c, hc⟩
  have hone := (C106_modes twoParams (by norm_num [twoParams]) (by norm_num [twoParams]) (by norm_num [twoParams]) svd hsvd twoIfs [] 0 b hb hpos).1 0 0
    (by rw [hk]; simp) (by rw [hk]; simp)
  obtain ⟨r, C, M, -, -, hS1, hM, -, hkr, hkl, -, -, hcmd⟩ := modalBase_eq twoParams svd twoIfs [] 0 b hb
  rw [two_count] at hS1 hM hkl hcmd hone
  have hr : 2 - r = 1 := by omega
  have hG := svd_eig _ _ _ (geoCov_symm 2 (removeModes 2 (removedModes twoIfs [] 0) twoIfs).2) (fun v => by
    rw [quad_geoCov]; exact pupilDot_self_nonneg _ _) (hsvd _ (geoCov_symm 2 _) fun v => by rw [quad_geoCov]; exact pupilDot_self_nonneg _ _)
  rw [← hS1] at hG
  set U1 := (svd (geoCov 2 (removeModes 2 (removedModes twoIfs [] 0) twoIfs).2)).1 with hU1
  set U2 := (svd (M.transpose * C * M)).1 with hU2
  rw [two_cov] at hG
  set t := U2 0 0 / Real.sqrt (b.S1 0) with ht
  have hB : ∀ a, (M * U2) a 0 = U1 a 0 * t := by
    intro a
    rw [Matrix.mul_apply, Fin.sum_univ_two, hM]
    simp only [scaledVecs, Matrix.of_apply, hr]
    simp [ht]
    ring
  have g0 := congrFun (congrFun hG 0) 0
  have g1 := congrFun (congrFun hG 1) 0
  rw [Matrix.mul_diagonal, Matrix.mul_apply, Fin.sum_univ_two] at g0 g1
  simp at g0 g1
  set u0 := U1 0 0 with hu0
  set u1 := U1 1 0 with hu1
  set S := b.S1 0 with hS
  have hμ : (removeModes 2 (removedModes twoIfs [] 0) twoIfs).1.headD 0 = fun a => if a = 0 then 1 else 1 / 2 := by
    rw [show removedModes twoIfs [] 0 = [fun _ => 1] by simp [removedModes]]
    funext a
    show (removeMode 2 (fun _ => 1) twoIfs).1 a = _
    unfold removeMode
    fin_cases a <;> norm_num [twoIfs, sum_range_succ]
  rw [hμ, if_pos rfl] at hcmd
  have hkl0 : b.kl 0 0 = (u0 - u1 / 2) * t := by
    rw [hkl 0]; unfold shapeOf
    rw [Fin.sum_univ_two]
    dsimp only
    rw [hB 0, hB 1, two_filtered, two_filtered]
    norm_num [twoIfs]; ring
  have hkl1 : b.kl 0 1 = -((u0 - u1 / 2) * t) := by
    rw [hkl 0]; unfold shapeOf
    rw [Fin.sum_univ_two]
    dsimp only
    rw [hB 0, hB 1, two_filtered, two_filtered]
    norm_num [twoIfs]; ring
  have hs : ∀ k, shapeOf twoIfs (fun a => b.klCmd a 0) k = (∑ a, (1 - Matrix.vecMulVec (fun a : Fin 2 => if a = 0 then (1 : ℝ) else 1 / 2) (fun a : Fin 2 => if a = 0 then (1 : ℝ) else 1 / 2)) a 0 * twoIfs a k) * (u0 * t) +
      (∑ a, (1 - Matrix.vecMulVec (fun a : Fin 2 => if a = 0 then (1 : ℝ) else 1 / 2) (fun a : Fin 2 => if a = 0 then (1 : ℝ) else 1 / 2)) a 1 * twoIfs a k) * (u1 * t) := by
    intro k
    rw [hcmd, shapeOf_mul, Fin.sum_univ_two, hB 0, hB 1]
  have c0 := hc 0 (by norm_num)
  have c1 := hc 1 (by norm_num)
  rw [hs, hkl0] at c0
  rw [hs, hkl1] at c1
  simp [Fin.sum_univ_two, twoIfs, Matrix.vecMulVec_apply] at c0 c1
  rw [pupilDot, sum_range_succ, sum_range_one, hkl0, hkl1] at hone
  simp at hone
  have hg : (u0 + u1 / 2) * t = 0 := by linarith
  have hx : (u0 - u1 / 2) * t = 0 := by
    have e : (u0 - u1 / 2) * t = 4 / 3 * S * ((u0 + u1 / 2) * t) := by
      have e1 : S * u0 = u0 - u1 / 2 := by linarith
      have e2 : S * u1 = -(u0 - u1 / 2) / 2 := by linarith
      have e3 : S * (u0 + u1 / 2) = 3 / 4 * (u0 - u1 / 2) := by linarith
      calc (u0 - u1 / 2) * t = 4 / 3 * (3 / 4 * (u0 - u1 / 2)) * t := by ring
        _ = 4 / 3 * S * ((u0 + u1 / 2) * t) := by rw [← e3]; ring
    rw [e, hg, mul_zero]
  rw [hx] at hone
  simp at hone

/-- The hypotheses of `C106_modes` and `C106_plain_commands` can be met. -/
example : ∃ svd : Matrix (Fin 2) (Fin 2) ℝ → Matrix (Fin 2) (Fin 2) ℝ × (Fin 2 → ℝ), SvdOk svd ∧
    ∃ b, modalBase twoParams svd twoIfs [] 0 = some b ∧ (∀ i : Fin 2, (i : ℕ) < b.kept → 0 < b.S1 i) ∧ 0 < twoParams.m.count := by
  obtain ⟨svd, h⟩ := exists_svdOk 2
  obtain ⟨b, h1, -, h2, -⟩ := C106_commands_witness svd h
  exact ⟨svd, h, b, h1, h2, by rw [two_count]; norm_num⟩

/-- Piston and one more mode on three actuators. -/
example (svd : Matrix (Fin 3) (Fin 3) ℝ → Matrix (Fin 3) (Fin 3) ℝ × (Fin 3 → ℝ)) :
    ∃ b, modalBase { twoParams with m := { h := 1, w := 3, on := fun _ _ => true } } svd (fun a k => if (a : ℕ) = k then 1 else 0)
      [fun _ => 1, fun a => if a = 0 then 1 else if a = 1 then -1 else 0] 0 = some b := by
  unfold modalBase
  simp [condRemoved, vecAt, twoParams, ifsCovmat]

/-- Singular values 4, 2, 1, one mode removed and a maximum of 1: one more vector is cut. -/
example : condRemoved (fun i : Fin 3 => if i = 0 then (4 : ℝ) else if i = 1 then 2 else 1) 1 (some 1) = some 2 := by
  have hc : countBelow (fun i : Fin 3 => if i = 0 then (4 : ℝ) else if i = 1 then 2 else 1) 1 4 = 1 := by
    unfold countBelow
    rw [show (univ.filter fun i : Fin 3 => (i : ℕ) < 3 - 1 ∧ (if i = 0 then (4 : ℝ) else if i = 1 then 2 else 1) < 4) = {1} by
      ext i; fin_cases i <;> norm_num]
    rfl
  unfold condRemoved
  simp [vecAt, ratioAbove]
  norm_num [hc]

end Specula
