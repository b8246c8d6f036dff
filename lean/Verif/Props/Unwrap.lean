import Verif.Model.Unwrap
import Mathlib.LinearAlgebra.Matrix.NonsingularInverse
import Mathlib.Algebra.BigOperators.Field
import Mathlib.Tactic.LinearCombination
import Mathlib.Tactic.FieldSimp
import Mathlib.Analysis.Real.Pi.Bounds
import Mathlib.Tactic.Linarith
/-
C65: least squares phase unwrapping returns the true phase without its mean.
-/
namespace Specula
open Finset

/-! ### Cosine sums -/

/-- The cosine of the transform. -/
noncomputable def dcos (N k n : ℕ) : ℝ := Real.cos (Real.pi * k * (2 * n + 1) / (2 * N))

theorem dcos_zero (N n : ℕ) : dcos N 0 n = 1 := by simp [dcos]

/-- Telescoping form. -/
theorem sin_mul_sum_dcos (N j m : ℕ) :
    2 * Real.sin (Real.pi * j / (2 * N)) * ∑ n ∈ range m, dcos N j n = Real.sin (Real.pi * j * m / N) := by
  induction m with
  | zero => simp
  | succ m ih =>
    rw [sum_range_succ, mul_add, ih]
    unfold dcos
    have h1 : Real.pi * j * ((m + 1 : ℕ) : ℝ) / N = Real.pi * j * (2 * m + 1) / (2 * N) + Real.pi * j / (2 * N) := by
      by_cases hN : (N : ℝ) = 0
      · simp [hN]
      · push_cast; field_simp; ring
    have h2 : Real.pi * j * (m : ℝ) / N = Real.pi * j * (2 * m + 1) / (2 * N) - Real.pi * j / (2 * N) := by
      by_cases hN : (N : ℝ) = 0
      · simp [hN]
      · field_simp; ring
    rw [h1, h2, Real.sin_add, Real.sin_sub]
    ring

theorem sum_dcos (N j : ℕ) (hj : 0 < j) (hjN : j < 2 * N) : ∑ n ∈ range N, dcos N j n = 0 := by
  have h := sin_mul_sum_dcos N j N
  have hN : (N : ℝ) ≠ 0 := by
    have : N ≠ 0 := by omega
    exact_mod_cast this
  have hNp : (0 : ℝ) < N := by
    have : 0 < N := by omega
    exact_mod_cast this
  have h0 : Real.sin (Real.pi * j * N / N) = 0 := by
    rw [mul_div_cancel_right₀ _ hN, mul_comm]
    exact Real.sin_nat_mul_pi j
  rw [h0] at h
  have hs : 0 < Real.sin (Real.pi * j / (2 * N)) := by
    apply Real.sin_pos_of_pos_of_lt_pi
    · have : (0 : ℝ) < j := by exact_mod_cast hj
      have := Real.pi_pos
      positivity
    · rw [div_lt_iff₀ (by positivity)]
      have : (j : ℝ) < 2 * N := by exact_mod_cast hjN
      exact mul_lt_mul_of_pos_left this Real.pi_pos
  rcases mul_eq_zero.1 h with h | h
  · linarith
  · exact h

theorem dcos_mul (N k l n : ℕ) (h : l ≤ k) : 2 * (dcos N k n * dcos N l n) = dcos N (k + l) n + dcos N (k - l) n := by
  unfold dcos
  rw [show Real.pi * ((k + l : ℕ) : ℝ) * (2 * n + 1) / (2 * N) = Real.pi * k * (2 * n + 1) / (2 * N) + Real.pi * l * (2 * n + 1) / (2 * N) by
    push_cast; ring,
    show Real.pi * ((k - l : ℕ) : ℝ) * (2 * n + 1) / (2 * N) = Real.pi * k * (2 * n + 1) / (2 * N) - Real.pi * l * (2 * n + 1) / (2 * N) by
    rw [Nat.cast_sub h]; ring, Real.cos_add, Real.cos_sub]
  ring

theorem sum_dcos_mul_le (N k l : ℕ) (hk : k < N) (h : l ≤ k) :
    ∑ n ∈ range N, dcos N k n * dcos N l n = if k = l then (if k = 0 then (N : ℝ) else N / 2) else 0 := by
  have h2 : 2 * ∑ n ∈ range N, dcos N k n * dcos N l n = ∑ n ∈ range N, dcos N (k + l) n + ∑ n ∈ range N, dcos N (k - l) n := by
    rw [mul_sum, ← sum_add_distrib]
    exact sum_congr rfl fun n _ => dcos_mul N k l n h
  by_cases hkl : k = l
  · subst hkl
    rw [if_pos rfl]
    by_cases hk0 : k = 0
    · subst hk0
      simp [dcos_zero]
    · rw [if_neg hk0]
      rw [sum_dcos N (k + k) (by omega) (by omega)] at h2
      simp only [Nat.sub_self, dcos_zero, sum_const, card_range, nsmul_eq_mul, mul_one] at h2
      linarith
  · rw [if_neg hkl]
    rw [sum_dcos N (k + l) (by omega) (by omega), sum_dcos N (k - l) (by omega) (by omega)] at h2
    linarith

theorem sum_dcos_mul (N k l : ℕ) (hk : k < N) (hl : l < N) :
    ∑ n ∈ range N, dcos N k n * dcos N l n = if k = l then (if k = 0 then (N : ℝ) else N / 2) else 0 := by
  rcases le_total l k with h | h
  · exact sum_dcos_mul_le N k l hk h
  · have := sum_dcos_mul_le N l k hl h
    simp only [mul_comm (dcos N l _)] at this
    rw [this]
    by_cases hkl : k = l
    · subst hkl; simp
    · rw [if_neg hkl, if_neg (fun e => hkl e.symm)]

theorem dctScale_sq (N k : ℕ) : dctScale N k * dctScale N k = if k = 0 then 1 / (N : ℝ) else 2 / N := by
  unfold dctScale
  split_ifs <;> exact Real.mul_self_sqrt (by positivity)

/-- The rows of the transform are orthonormal. -/
theorem dct_orth (N k l : ℕ) (hk : k < N) (hl : l < N) :
    ∑ n ∈ range N, (dctScale N k * dcos N k n) * (dctScale N l * dcos N l n) = if k = l then 1 else 0 := by
  have : ∑ n ∈ range N, (dctScale N k * dcos N k n) * (dctScale N l * dcos N l n) =
      dctScale N k * dctScale N l * ∑ n ∈ range N, dcos N k n * dcos N l n := by
    rw [mul_sum]
    exact sum_congr rfl fun n _ => by ring
  rw [this, sum_dcos_mul N k l hk hl]
  have hN : (N : ℝ) ≠ 0 := by
    have : N ≠ 0 := by omega
    exact_mod_cast this
  by_cases hkl : k = l
  · subst hkl
    rw [if_pos rfl, if_pos rfl, dctScale_sq]
    split_ifs <;> field_simp
  · rw [if_neg hkl, if_neg hkl, mul_zero]

/-- And so are its columns. -/
theorem dct_orth' (N m n : ℕ) (hm : m < N) (hn : n < N) :
    ∑ k ∈ range N, (dctScale N k * dcos N k m) * (dctScale N k * dcos N k n) = if m = n then 1 else 0 := by
  let A : Matrix (Fin N) (Fin N) ℝ := Matrix.of fun k n : Fin N => dctScale N k * dcos N k n
  have h1 : A * A.transpose = 1 := by
    ext k l
    rw [Matrix.mul_apply, Matrix.one_apply]
    have := dct_orth N k l k.2 l.2
    rw [← Fin.sum_univ_eq_sum_range (fun n => (dctScale N k * dcos N k n) * (dctScale N l * dcos N l n))] at this
    simp only [Matrix.transpose_apply, A, Matrix.of_apply]
    rw [this]
    simp [Fin.ext_iff]
  have h2 : A.transpose * A = 1 := mul_eq_one_comm.1 h1
  have h3 := congrFun (congrFun h2 ⟨m, hm⟩) ⟨n, hn⟩
  rw [Matrix.mul_apply, Matrix.one_apply] at h3
  rw [← Fin.sum_univ_eq_sum_range (fun k => (dctScale N k * dcos N k m) * (dctScale N k * dcos N k n))]
  simpa [A, Fin.ext_iff] using h3

theorem dct1_eq (N : ℕ) (x : ℕ → ℝ) (k : ℕ) : dct1 N x k = dctScale N k * ∑ n ∈ range N, x n * dcos N k n := rfl
theorem idct1_eq (N : ℕ) (y : ℕ → ℝ) (n : ℕ) : idct1 N y n = ∑ k ∈ range N, dctScale N k * y k * dcos N k n := rfl

/-- The inverse transform undoes the transform. -/
theorem idct1_dct1 (N : ℕ) (x : ℕ → ℝ) (n : ℕ) (hn : n < N) : idct1 N (dct1 N x) n = x n := by
  rw [idct1_eq]
  have : ∀ k ∈ range N, dctScale N k * dct1 N x k * dcos N k n =
      ∑ m ∈ range N, x m * ((dctScale N k * dcos N k m) * (dctScale N k * dcos N k n)) := by
    intro k _
    rw [dct1_eq, mul_sum, mul_sum, sum_mul]
    exact sum_congr rfl fun m _ => by ring
  rw [sum_congr rfl this, sum_comm]
  have : ∀ m ∈ range N, ∑ k ∈ range N, x m * ((dctScale N k * dcos N k m) * (dctScale N k * dcos N k n)) = if m = n then x m else 0 := by
    intro m hm
    rw [← mul_sum, dct_orth' N m n (mem_range.1 hm) hn]
    split_ifs <;> simp
  rw [sum_congr rfl this, sum_ite_eq' (range N) n x, if_pos (mem_range.2 hn)]

theorem dct1_idct1 (N : ℕ) (y : ℕ → ℝ) (k : ℕ) (hk : k < N) : dct1 N (idct1 N y) k = y k := by
  rw [dct1_eq, mul_sum]
  have : ∀ n ∈ range N, dctScale N k * (idct1 N y n * dcos N k n) =
      ∑ l ∈ range N, y l * ((dctScale N l * dcos N l n) * (dctScale N k * dcos N k n)) := by
    intro n _
    rw [idct1_eq, sum_mul, mul_sum]
    exact sum_congr rfl fun m _ => by ring
  rw [sum_congr rfl this, sum_comm]
  have : ∀ l ∈ range N, ∑ n ∈ range N, y l * ((dctScale N l * dcos N l n) * (dctScale N k * dcos N k n)) = if l = k then y l else 0 := by
    intro l hl
    rw [← mul_sum, dct_orth N l k (mem_range.1 hl) hk]
    split_ifs <;> simp
  rw [sum_congr rfl this, sum_ite_eq' (range N) k y, if_pos (mem_range.2 hk)]

/-! ### The Laplacian with reflecting edges -/

/-- Second difference with no flux through the two ends. -/
noncomputable def lap1 (N : ℕ) (x : ℕ → ℝ) (n : ℕ) : ℝ :=
  (if n + 1 < N then x (n + 1) - x n else 0) - (if 0 < n then x n - x (n - 1) else 0)

theorem sum_lap1 (N : ℕ) (x y : ℕ → ℝ) :
    ∑ n ∈ range N, lap1 N x n * y n = -∑ n ∈ range (N - 1), (x (n + 1) - x n) * (y (n + 1) - y n) := by
  cases N with
  | zero => simp
  | succ m =>
    have e : ∀ n ∈ range (m + 1), lap1 (m + 1) x n * y n =
        (if n < m then (x (n + 1) - x n) * y n else 0) - (if 0 < n then (x n - x (n - 1)) * y n else 0) := by
      intro n _
      unfold lap1
      simp only [Nat.add_lt_add_iff_right]
      split_ifs <;> ring
    rw [sum_congr rfl e, sum_sub_distrib, sum_range_succ, sum_range_succ' (fun n => if 0 < n then (x n - x (n - 1)) * y n else 0)]
    simp only [lt_irrefl, if_false, add_zero, Nat.succ_pos, if_true, Nat.add_sub_cancel]
    rw [sum_congr rfl (fun n hn => if_pos (mem_range.1 hn)), ← sum_sub_distrib, ← sum_neg_distrib]
    exact sum_congr rfl fun n _ => by ring

theorem lap1_selfadjoint (N : ℕ) (x y : ℕ → ℝ) : ∑ n ∈ range N, lap1 N x n * y n = ∑ n ∈ range N, x n * lap1 N y n := by
  rw [sum_lap1]
  simp only [mul_comm (x _) (lap1 N y _)]
  rw [sum_lap1]
  congr 1
  exact sum_congr rfl fun n _ => by ring

/-- The eigenvalue. -/
noncomputable def lapEig (N k : ℕ) : ℝ := 2 * Real.cos (Real.pi * k / N) - 2

theorem dcos_step (N k : ℕ) (x : ℝ) (hN : (N : ℝ) ≠ 0) :
    Real.cos (Real.pi * k * (2 * (x + 1) + 1) / (2 * N)) + Real.cos (Real.pi * k * (2 * (x - 1) + 1) / (2 * N)) =
      2 * Real.cos (Real.pi * k / N) * Real.cos (Real.pi * k * (2 * x + 1) / (2 * N)) := by
  rw [show Real.pi * k * (2 * (x + 1) + 1) / (2 * N) = Real.pi * k * (2 * x + 1) / (2 * N) + Real.pi * k / N by field_simp; ring,
    show Real.pi * k * (2 * (x - 1) + 1) / (2 * N) = Real.pi * k * (2 * x + 1) / (2 * N) - Real.pi * k / N by field_simp; ring,
    Real.cos_add, Real.cos_sub]
  ring

theorem lap1_dcos (N k n : ℕ) (hn : n < N) : lap1 N (dcos N k) n = lapEig N k * dcos N k n := by
  have hN : (N : ℝ) ≠ 0 := by
    have : N ≠ 0 := by omega
    exact_mod_cast this
  have hs := dcos_step N k n hN
  have hup : (if n + 1 < N then dcos N k (n + 1) - dcos N k n else 0) =
      Real.cos (Real.pi * k * (2 * ((n : ℝ) + 1) + 1) / (2 * N)) - dcos N k n := by
    split_ifs with h
    · simp only [dcos]; push_cast; rfl
    · have hn' : (n : ℝ) = N - 1 := by
        have : n + 1 = N := by omega
        rw [← this]; push_cast; ring
      unfold dcos
      rw [hn', show Real.pi * k * (2 * ((N : ℝ) - 1 + 1) + 1) / (2 * N) = k * Real.pi + Real.pi * k / (2 * N) by field_simp; ring,
        show Real.pi * k * (2 * ((N : ℝ) - 1) + 1) / (2 * N) = k * Real.pi - Real.pi * k / (2 * N) by field_simp; ring,
        Real.cos_add, Real.cos_sub, Real.sin_nat_mul_pi]
      ring
  have hdn : (if 0 < n then dcos N k n - dcos N k (n - 1) else 0) =
      dcos N k n - Real.cos (Real.pi * k * (2 * ((n : ℝ) - 1) + 1) / (2 * N)) := by
    split_ifs with h
    · obtain ⟨m, rfl⟩ : ∃ m, n = m + 1 := ⟨n - 1, by omega⟩
      simp only [dcos, Nat.add_sub_cancel]; push_cast
      rw [show ((m : ℝ) + 1 - 1) = m by ring]
    · have hn' : n = 0 := by omega
      subst hn'
      unfold dcos
      rw [show Real.pi * k * (2 * (((0 : ℕ) : ℝ) - 1) + 1) / (2 * N) = -(Real.pi * k * (2 * ((0 : ℕ) : ℝ) + 1) / (2 * N)) by push_cast; ring,
        Real.cos_neg]
      ring
  unfold lap1 lapEig
  rw [hup, hdn]
  have : dcos N k n = Real.cos (Real.pi * k * (2 * (n : ℝ) + 1) / (2 * N)) := rfl
  rw [← this] at hs
  linear_combination hs

theorem dct1_lap1 (N : ℕ) (x : ℕ → ℝ) (k : ℕ) : dct1 N (lap1 N x) k = lapEig N k * dct1 N x k := by
  rw [dct1_eq, dct1_eq, lap1_selfadjoint N x (dcos N k), sum_congr rfl (fun n hn => by rw [lap1_dcos N k n (mem_range.1 hn)])]
  rw [mul_left_comm, mul_sum (range N) _ (lapEig N k)]
  congr 1
  exact sum_congr rfl fun n _ => by ring

/-! ### Two dimensions -/

theorem dct1_congr (N : ℕ) (x y : ℕ → ℝ) (k : ℕ) (h : ∀ n < N, x n = y n) : dct1 N x k = dct1 N y k := by
  rw [dct1_eq, dct1_eq]
  congr 1
  exact sum_congr rfl fun n hn => by rw [h n (mem_range.1 hn)]

theorem idct1_congr (N : ℕ) (x y : ℕ → ℝ) (n : ℕ) (h : ∀ k < N, x k = y k) : idct1 N x n = idct1 N y n := by
  rw [idct1_eq, idct1_eq]
  exact sum_congr rfl fun k hk => by rw [h k (mem_range.1 hk)]

theorem dct1_add (N : ℕ) (x y : ℕ → ℝ) (k : ℕ) : dct1 N (fun n => x n + y n) k = dct1 N x k + dct1 N y k := by
  simp only [dct1_eq]
  rw [← mul_add, ← sum_add_distrib]
  congr 1
  exact sum_congr rfl fun n _ => by ring

theorem dct1_smul (N : ℕ) (x : ℕ → ℝ) (c : ℝ) (k : ℕ) : dct1 N (fun n => c * x n) k = c * dct1 N x k := by
  simp only [dct1_eq]
  rw [mul_left_comm, mul_sum (range N) _ c]
  congr 1
  exact sum_congr rfl fun n _ => by ring

theorem dct1_lap_comm (N M : ℕ) (a : ℕ → ℕ → ℝ) (k j : ℕ) :
    dct1 N (fun i => lap1 M (a i) j) k = lap1 M (fun j => dct1 N (fun i => a i j) k) j := by
  simp only [dct1_eq, lap1]
  split_ifs <;> simp [sub_mul, sum_sub_distrib, mul_sub]

theorem dct1_idct_comm (N M : ℕ) (F : ℕ → ℕ → ℝ) (n l : ℕ) :
    idct1 N (fun k => dct1 M (fun j => F k j) l) n = dct1 M (fun j => idct1 N (fun k => F k j) n) l := by
  simp only [dct1_eq, idct1_eq]
  simp only [mul_sum, sum_mul]
  rw [sum_comm]
  exact sum_congr rfl fun _ _ => sum_congr rfl fun _ _ => by ring

theorem idct2_dct2 (N M : ℕ) (a : ℕ → ℕ → ℝ) (i j : ℕ) (hi : i < N) (hj : j < M) : idct2 N M (dct2 N M a) i j = a i j := by
  unfold idct2 dct2
  rw [idct1_congr M _ (dct1 M (fun j => a i j)) j (fun l _ => ?_), idct1_dct1 M _ j hj]
  rw [dct1_idct_comm]
  exact dct1_congr M _ _ l fun j _ => idct1_dct1 N _ i hi

/-- The two-dimensional Laplacian with reflecting edges. -/
noncomputable def lap2 (N M : ℕ) (a : ℕ → ℕ → ℝ) (i j : ℕ) : ℝ := lap1 M (a i) j + lap1 N (fun i => a i j) i

theorem dct2_lap2 (N M : ℕ) (a : ℕ → ℕ → ℝ) (k l : ℕ) : dct2 N M (lap2 N M a) k l = (lapEig N k + lapEig M l) * dct2 N M a k l := by
  unfold dct2 lap2
  simp only [dct1_add, dct1_lap_comm]
  rw [dct1_lap1, dct1_congr M (fun j => dct1 N (lap1 N fun i => a i j) k) (fun j => lapEig N k * dct1 N (fun i => a i j) k) l
    (fun j _ => dct1_lap1 N _ k), dct1_smul]
  ring

theorem lapEig_neg (N k : ℕ) (hk : 0 < k) (hN : k < N) : lapEig N k < 0 := by
  have hNp : (0 : ℝ) < N := by
    have : 0 < N := by omega
    exact_mod_cast this
  have h : Real.cos (Real.pi * k / N) < 1 := by
    rw [← Real.cos_zero]
    apply Real.cos_lt_cos_of_nonneg_of_le_pi le_rfl
    · rw [div_le_iff₀ hNp]
      have : (k : ℝ) ≤ N := by exact_mod_cast hN.le
      exact mul_le_mul_of_nonneg_left this Real.pi_pos.le
    · have : (0 : ℝ) < k := by exact_mod_cast hk
      have := Real.pi_pos
      positivity
  unfold lapEig
  linarith

theorem lapEig_le (N k : ℕ) : lapEig N k ≤ 0 := by
  have := Real.cos_le_one (Real.pi * k / N)
  unfold lapEig
  linarith

theorem lapEig_ne (N M k l : ℕ) (hk : k < N) (hl : l < M) (h : ¬ (k = 0 ∧ l = 0)) : lapEig N k + lapEig M l ≠ 0 := by
  rcases Nat.eq_zero_or_pos k with hk0 | hk0
  · have := lapEig_neg M l (by omega) hl
    have := lapEig_le N k
    linarith
  · have := lapEig_neg N k hk0 hk
    have := lapEig_le M l
    linarith

/-! ### Specification -/

/-- Mean of an array. -/
noncomputable def mean2 (N M : ℕ) (a : ℕ → ℕ → ℝ) : ℝ := (∑ i ∈ range N, ∑ j ∈ range M, a i j) / (N * M)

theorem dct2_zero (N M : ℕ) (a : ℕ → ℕ → ℝ) :
    dctScale N 0 * dctScale M 0 * dct2 N M a 0 0 = mean2 N M a := by
  unfold dct2 mean2
  simp only [dct1_eq, dcos_zero, mul_one, ← mul_sum]
  rw [sum_comm, show ∀ s t S : ℝ, s * t * (t * (s * S)) = (s * s) * (t * t) * S by intros; ring, dctScale_sq, dctScale_sq, if_pos rfl, if_pos rfl,
    div_mul_div_comm, one_mul]
  ring

/-- Solving in the transformed domain inverts the Laplacian up to the mean. -/
theorem solve_lap2 (N M : ℕ) (a : ℕ → ℕ → ℝ) (k l : ℕ) (hk : k < N) (hl : l < M) :
    unwrapSolve N M (dct2 N M (lap2 N M a)) k l = dct2 N M a k l - (if k = 0 ∧ l = 0 then dct2 N M a 0 0 else 0) := by
  unfold unwrapSolve
  dsimp only
  by_cases h : k = 0 ∧ l = 0
  · rw [if_pos h, if_pos h, h.1, h.2, sub_self]
  · simp only [if_neg h, sub_zero]
    rw [dct2_lap2]
    have e : 2 * (Real.cos (Real.pi * k / N) + Real.cos (Real.pi * l / M) - 2) = lapEig N k + lapEig M l := by
      unfold lapEig; ring
    rw [e, mul_div_assoc, mul_comm, div_mul_cancel₀]
    exact lapEig_ne N M k l hk hl h

/-- Removing the first coefficient removes the mean. -/
theorem idct2_noMean (N M : ℕ) (a P : ℕ → ℕ → ℝ) (i j : ℕ) (hi : i < N) (hj : j < M)
    (hP : ∀ k < N, ∀ l < M, P k l = dct2 N M a k l - (if k = 0 ∧ l = 0 then dct2 N M a 0 0 else 0)) :
    idct2 N M P i j = a i j - mean2 N M a := by
  have h0 : 0 < N := by omega
  have h0' : 0 < M := by omega
  have e1 : idct2 N M P i j =
      idct2 N M (dct2 N M a) i j - idct2 N M (fun k l => if k = 0 ∧ l = 0 then dct2 N M a 0 0 else 0) i j := by
    unfold idct2
    simp only [idct1_eq]
    rw [← sum_sub_distrib]
    refine sum_congr rfl fun l hl => ?_
    rw [← sub_mul, ← mul_sub, ← sum_sub_distrib]
    congr 2
    refine sum_congr rfl fun k hk => ?_
    rw [hP k (mem_range.1 hk) l (mem_range.1 hl)]
    ring
  rw [e1, idct2_dct2 N M a i j hi hj]
  congr 1
  unfold idct2
  simp only [idct1_eq]
  rw [sum_eq_single 0 _ (fun h => absurd (mem_range.2 h0') h)]
  · rw [sum_eq_single 0 _ (fun h => absurd (mem_range.2 h0) h)]
    · rw [if_pos ⟨rfl, rfl⟩, dcos_zero, dcos_zero, ← dct2_zero]
      ring
    · intro k _ hk
      rw [if_neg (fun h => hk h.1)]
      ring
  · intro l _ hl
    rw [sum_eq_zero]
    · ring
    · intro k _
      rw [if_neg (fun h => hl h.2)]
      ring

/-- Arrays are recovered from their Laplacian up to their mean. -/
theorem poisson (N M : ℕ) (a : ℕ → ℕ → ℝ) (i j : ℕ) (hi : i < N) (hj : j < M) :
    idct2 N M (unwrapSolve N M (dct2 N M (lap2 N M a))) i j = a i j - mean2 N M a :=
  idct2_noMean N M a _ i j hi hj fun k hk l hl => solve_lap2 N M a k l hk hl

theorem dct2_idct2 (N M : ℕ) (P : ℕ → ℕ → ℝ) (k l : ℕ) (hk : k < N) (hl : l < M) : dct2 N M (idct2 N M P) k l = P k l := by
  unfold idct2 dct2
  rw [dct1_congr M _ (idct1 M (fun l => P k l)) l (fun j _ => ?_), dct1_idct1 M _ l hl]
  rw [← dct1_idct_comm]
  exact idct1_congr M _ _ j fun l _ => dct1_idct1 N _ k hk

/-! ### Wrapping -/

theorem npMod_range (x m : ℝ) (hm : 0 < m) : 0 ≤ npMod x m ∧ npMod x m < m := by
  unfold npMod
  have h1 := Int.floor_le (x / m)
  have h2 := Int.lt_floor_add_one (x / m)
  rw [le_div_iff₀ hm] at h1
  rw [div_lt_iff₀ hm] at h2
  constructor <;> nlinarith

theorem wrapPi_range (d : ℝ) : -Real.pi ≤ wrapPi d ∧ wrapPi d < Real.pi := by
  have := npMod_range (d + Real.pi) (2 * Real.pi) (by have := Real.pi_pos; positivity)
  unfold wrapPi
  constructor <;> linarith [this.1, this.2]

/-- Wrapping only depends on the value modulo a turn, and is the representative in the half-open interval. -/
theorem wrapPi_eq (d e : ℝ) (k : ℤ) (h : d = e + 2 * Real.pi * k) (h1 : -Real.pi ≤ e) (h2 : e < Real.pi) : wrapPi d = e := by
  unfold wrapPi npMod
  have hp : 0 < 2 * Real.pi := by have := Real.pi_pos; positivity
  have : ⌊(d + Real.pi) / (2 * Real.pi)⌋ = k := by
    rw [Int.floor_eq_iff, le_div_iff₀ hp, div_lt_iff₀ hp]
    constructor <;> linarith
  rw [this, h]
  ring

/-! ### C65 -/

/-- `ψ` shows the phase `φ` modulo whole turns. -/
def Wraps (N M : ℕ) (φ ψ : ℕ → ℕ → ℝ) : Prop := ∀ i < N, ∀ j < M, ∃ k : ℤ, ψ i j = φ i j + 2 * Real.pi * k

/-- Neighbouring pixels differ by less than half a turn. -/
def Gentle (N M : ℕ) (φ : ℕ → ℕ → ℝ) : Prop :=
  (∀ i < N, ∀ j, j + 1 < M → -Real.pi ≤ φ i (j + 1) - φ i j ∧ φ i (j + 1) - φ i j < Real.pi) ∧
  (∀ i, i + 1 < N → ∀ j < M, -Real.pi ≤ φ (i + 1) j - φ i j ∧ φ (i + 1) j - φ i j < Real.pi)

theorem gradX_true (N M : ℕ) (φ ψ : ℕ → ℕ → ℝ) (hw : Wraps N M φ ψ) (hg : Gentle N M φ) (i j : ℕ) (hi : i < N) (hj : j + 1 < M) :
    gradX ψ i j = φ i (j + 1) - φ i j := by
  obtain ⟨k, hk⟩ := hw i hi (j + 1) hj
  obtain ⟨l, hl⟩ := hw i hi j (by omega)
  exact wrapPi_eq _ _ (k - l) (by rw [hk, hl]; push_cast; ring) (hg.1 i hi j hj).1 (hg.1 i hi j hj).2

theorem gradY_true (N M : ℕ) (φ ψ : ℕ → ℕ → ℝ) (hw : Wraps N M φ ψ) (hg : Gentle N M φ) (i j : ℕ) (hi : i + 1 < N) (hj : j < M) :
    gradY ψ i j = φ (i + 1) j - φ i j := by
  obtain ⟨k, hk⟩ := hw (i + 1) hi j hj
  obtain ⟨l, hl⟩ := hw i (by omega) j hj
  exact wrapPi_eq _ _ (k - l) (by rw [hk, hl]; push_cast; ring) (hg.2 i hi j hj).1 (hg.2 i hi j hj).2

/-- The right hand side of the Poisson equation: the Laplacian, but the vertical second difference is lost on the first and last column. -/
theorem C65_rhs (N M : ℕ) (hN : 2 ≤ N) (hM : 2 ≤ M) (φ ψ : ℕ → ℕ → ℝ) (hw : Wraps N M φ ψ) (hg : Gentle N M φ)
    (i j : ℕ) (hi : i < N) (hj : j < M) :
    unwrapRho N M ψ i j = lap2 N M φ i j -
      (if (j = 0 ∨ j = M - 1) ∧ 0 < i ∧ i < N - 1 then φ (i + 1) j - 2 * φ i j + φ (i - 1) j else 0) := by
  have gx := fun j hj => gradX_true N M φ ψ hw hg i j hi hj
  have gy := fun i hi => gradY_true N M φ ψ hw hg i j hi hj
  have gx0 := gx 0 (by omega)
  have gxl := gx (M - 2) (by omega)
  rw [show M - 2 + 1 = M - 1 by omega] at gxl
  have gy0 := gy 0 (by omega)
  have gyl := gy (N - 2) (by omega)
  rw [show N - 2 + 1 = N - 1 by omega] at gyl
  unfold unwrapRho lap2 lap1
  dsimp only
  rw [gx0, gxl, gy0, gyl]
  have hx : (if 1 ≤ j ∧ j < M - 1 then gradX ψ i j - gradX ψ i (j - 1) else 0) =
      if 1 ≤ j ∧ j < M - 1 then (φ i (j + 1) - φ i j) - (φ i j - φ i (j - 1)) else 0 := by
    split_ifs with h
    · rw [gx j (by omega), gx (j - 1) (by omega), show j - 1 + 1 = j by omega]
    · rfl
  have hy : ∀ r : ℝ, (if 1 ≤ i ∧ i < N - 1 then r + (gradY ψ i j - gradY ψ (i - 1) j) else r) =
      if 1 ≤ i ∧ i < N - 1 then r + ((φ (i + 1) j - φ i j) - (φ i j - φ (i - 1) j)) else r := by
    intro r
    split_ifs with h
    · rw [gy i (by omega), gy (i - 1) (by omega), show i - 1 + 1 = i by omega]
    · rfl
  rw [hx, hy]
  obtain ⟨n, rfl⟩ : ∃ n, N = n + 2 := ⟨N - 2, by omega⟩
  obtain ⟨m, rfl⟩ : ∃ m, M = m + 2 := ⟨M - 2, by omega⟩
  simp only [show n + 2 - 1 = n + 1 by omega, show m + 2 - 1 = m + 1 by omega, Nat.add_sub_cancel]
  obtain rfl | ⟨hj0, hj1⟩ | rfl : j = 0 ∨ (0 < j ∧ j < m + 1) ∨ j = m + 1 := by omega
  all_goals obtain rfl | ⟨hi0, hi1⟩ | rfl : i = 0 ∨ (0 < i ∧ i < n + 1) ∨ i = n + 1 := by omega
  all_goals simp (disch := omega) only [if_pos, if_neg, if_true, true_or, or_true, true_and, Nat.add_sub_cancel, zero_add]
  all_goals ring

/-- C65.  A gentle phase seen modulo whole turns is returned without its mean, when its second vertical differences vanish on the first
and last column. -/
theorem C65_unwrap (N M : ℕ) (hN : 2 ≤ N) (hM : 2 ≤ M) (φ ψ : ℕ → ℕ → ℝ) (hw : Wraps N M φ ψ) (hg : Gentle N M φ)
    (hc : ∀ i, 0 < i → i < N - 1 → ∀ j, j = 0 ∨ j = M - 1 → φ (i + 1) j - 2 * φ i j + φ (i - 1) j = 0)
    (i j : ℕ) (hi : i < N) (hj : j < M) : unwrapLs N M ψ i j = φ i j - mean2 N M φ := by
  rw [← poisson N M φ i j hi hj]
  unfold unwrapLs
  have e : ∀ i < N, ∀ j < M, unwrapRho N M ψ i j = lap2 N M φ i j := by
    intro i hi j hj
    rw [C65_rhs N M hN hM φ ψ hw hg i j hi hj]
    split_ifs with h
    · rw [hc i h.2.1 h.2.2 j h.1, sub_zero]
    · rw [sub_zero]
  have e2 : ∀ k l, dct2 N M (unwrapRho N M ψ) k l = dct2 N M (lap2 N M φ) k l := by
    intro k l
    unfold dct2
    exact dct1_congr M _ _ l fun j hj => dct1_congr N _ _ k fun i hi => e i hi j hj
  congr 2
  funext k l
  exact e2 k l

/-- C65.  Whatever the input, the result solves the discrete Poisson equation of its wrapped differences exactly, up to the mean. -/
theorem C65_poisson (N M : ℕ) (ψ : ℕ → ℕ → ℝ) (i j : ℕ) (hi : i < N) (hj : j < M) :
    lap2 N M (unwrapLs N M ψ) i j = unwrapRho N M ψ i j - mean2 N M (unwrapRho N M ψ) := by
  rw [← idct2_dct2 N M (lap2 N M (unwrapLs N M ψ)) i j hi hj]
  apply idct2_noMean N M _ _ i j hi hj
  intro k hk l hl
  rw [dct2_lap2, unwrapLs, dct2_idct2 N M _ k l hk hl]
  unfold unwrapSolve
  dsimp only
  by_cases h : k = 0 ∧ l = 0
  · rw [if_pos h, if_pos h, h.1, h.2, sub_self, mul_zero]
  · simp only [if_neg h, sub_zero]
    have e : 2 * (Real.cos (Real.pi * k / N) + Real.cos (Real.pi * l / M) - 2) = lapEig N k + lapEig M l := by
      unfold lapEig; ring
    rw [e, mul_div_assoc', mul_comm, mul_div_assoc, div_self (lapEig_ne N M k l hk hl h), mul_one]

/-- C65.  The result has no mean. -/
theorem C65_mean (N M : ℕ) (hN : 0 < N) (hM : 0 < M) (ψ : ℕ → ℕ → ℝ) : mean2 N M (unwrapLs N M ψ) = 0 := by
  rw [← dct2_zero, unwrapLs, dct2_idct2 N M _ 0 0 hN hM]
  simp [unwrapSolve]

/-- C65.  Whole turns added anywhere change nothing. -/
theorem C65_turns (N M : ℕ) (ψ : ℕ → ℕ → ℝ) (k : ℕ → ℕ → ℤ) :
    unwrapLs N M (fun i j => ψ i j + 2 * Real.pi * k i j) = unwrapLs N M ψ := by
  have hw : ∀ (d : ℝ) (k : ℤ), wrapPi (d + 2 * Real.pi * k) = wrapPi d := by
    intro d k
    have hp : 2 * Real.pi ≠ 0 := by have := Real.pi_pos; positivity
    unfold wrapPi npMod
    rw [show (d + 2 * Real.pi * k + Real.pi) / (2 * Real.pi) = (d + Real.pi) / (2 * Real.pi) + k by field_simp; ring, Int.floor_add_intCast]
    push_cast
    ring
  have hx : gradX (fun i j => ψ i j + 2 * Real.pi * k i j) = gradX ψ := by
    funext i j
    unfold gradX
    rw [← hw (ψ i (j + 1) - ψ i j) (k i (j + 1) - k i j)]
    congr 1
    push_cast
    ring
  have hy : gradY (fun i j => ψ i j + 2 * Real.pi * k i j) = gradY ψ := by
    funext i j
    unfold gradY
    rw [← hw (ψ (i + 1) j - ψ i j) (k (i + 1) j - k i j)]
    congr 1
    push_cast
    ring
  have hr : unwrapRho N M (fun i j => ψ i j + 2 * Real.pi * k i j) = unwrapRho N M ψ := by
    unfold unwrapRho
    rw [hx, hy]
  unfold unwrapLs
  rw [hr]

theorem lap1_shift (N : ℕ) (x y : ℕ → ℝ) (c : ℝ) (h : ∀ n < N, x n = y n - c) (n : ℕ) (hn : n < N) : lap1 N x n = lap1 N y n := by
  unfold lap1
  rw [h n hn]
  congr 1
  · split_ifs with h1
    · rw [h _ h1]; ring
    · rfl
  · split_ifs with h1
    · rw [h (n - 1) (by omega)]; ring
    · rfl

/-! ### Cases -/

/-- A ramp along the columns, seen modulo whole turns. -/
example : ∃ φ ψ : ℕ → ℕ → ℝ, Wraps 4 5 φ ψ ∧ Gentle 4 5 φ ∧ φ ≠ ψ ∧ φ 0 0 ≠ φ 0 4 ∧
    ∀ i, 0 < i → i < 4 - 1 → ∀ j, j = 0 ∨ j = 5 - 1 → φ (i + 1) j - 2 * φ i j + φ (i - 1) j = 0 := by
  refine ⟨fun _ j => 3 * j, fun _ j => 3 * j + 2 * Real.pi * (-(j : ℤ) : ℤ), ?_, ⟨?_, ?_⟩, ?_, ?_, ?_⟩
  · exact fun i _ j _ => ⟨-j, rfl⟩
  · intro i _ j _
    have := Real.pi_gt_three
    constructor <;> push_cast <;> linarith
  · intro i _ j _
    have := Real.pi_gt_three
    constructor <;> linarith
  · intro h
    have := congrFun (congrFun h 0) 1
    have hp := Real.pi_pos
    push_cast at this
    linarith
  · norm_num
  · intro i _ _ j _
    ring

/-- The phase of the counterexample: one pixel of the first column is raised. -/
noncomputable def bump (i j : ℕ) : ℝ := if i = 1 ∧ j = 0 then 1 else 0

/-- C65.  Without the condition on the first and last columns the phase is not recovered, even when nothing is wrapped. -/
theorem C65_columns : Wraps 3 2 bump bump ∧ Gentle 3 2 bump ∧
    ¬ ∃ c, ∀ i < 3, ∀ j < 2, unwrapLs 3 2 bump i j = bump i j - c := by
  have hw : Wraps 3 2 bump bump := fun i _ j _ => ⟨0, by simp⟩
  have hg : Gentle 3 2 bump := by
    have hb : ∀ i j, 0 ≤ bump i j ∧ bump i j ≤ 1 := by
      intro i j
      unfold bump
      split_ifs <;> norm_num
    have hp := Real.pi_gt_three
    constructor <;> intro i _ j _
    · have := hb i j
      have := hb i (j + 1)
      constructor <;> linarith
    · have := hb i j
      have := hb (i + 1) j
      constructor <;> linarith
  refine ⟨hw, hg, ?_⟩
  rintro ⟨c, hc⟩
  have hlap : ∀ i < 3, ∀ j < 2, lap2 3 2 (unwrapLs 3 2 bump) i j = lap2 3 2 bump i j := by
    intro i hi j hj
    unfold lap2
    rw [lap1_shift 2 _ (bump i) c (fun j hj => hc i hi j hj) j hj, lap1_shift 3 _ (fun i => bump i j) c (fun i hi => hc i hi j hj) i hi]
  have h1 := C65_poisson 3 2 bump 1 0 (by norm_num) (by norm_num)
  have h2 := C65_poisson 3 2 bump 0 1 (by norm_num) (by norm_num)
  rw [hlap 1 (by norm_num) 0 (by norm_num), C65_rhs 3 2 (by norm_num) (by norm_num) bump bump hw hg 1 0 (by norm_num) (by norm_num)] at h1
  rw [hlap 0 (by norm_num) 1 (by norm_num), C65_rhs 3 2 (by norm_num) (by norm_num) bump bump hw hg 0 1 (by norm_num) (by norm_num)] at h2
  norm_num [bump] at h1 h2
  linarith

end Specula
