import Verif.Model.Mmse
import Mathlib.LinearAlgebra.Matrix.Notation
import Mathlib.LinearAlgebra.Matrix.Trace
import Mathlib.Algebra.Order.BigOperators.Group.Finset
import Mathlib.Tactic.NormNum
import Mathlib.Tactic.Linarith
import Mathlib.Tactic.NoncommRing
import Mathlib.Tactic.Abel
import Mathlib.Tactic.FinCases
/-
C68: the minimum mean square error reconstructor.
-/
namespace Specula
open Matrix

section
variable {K : Type} [Field K] [LinearOrder K] [IsStrictOrderedRing K]

/-! ### Specification -/

/-- Symmetric and positive definite. -/
def PosDefK {k : Nat} (C : Matrix (Fin k) (Fin k) K) : Prop := C.transpose = C ∧ ∀ x : Fin k → K, x ≠ 0 → 0 < x ⬝ᵥ (C *ᵥ x)

/-- Covariance of `x - W (A x + e)` for `x` and `e` uncorrelated with covariances `Cx` and `Cz`. -/
def errCov {m n : Nat} (A : Matrix (Fin m) (Fin n) K) (Cx : Matrix (Fin n) (Fin n) K) (Cz : Matrix (Fin m) (Fin m) K)
    (W : Matrix (Fin n) (Fin m) K) : Matrix (Fin n) (Fin n) K :=
  (1 - W * A) * Cx * (1 - W * A).transpose + W * Cz * W.transpose

/-- Mean square of the estimation error of a combination `x` of the modes. -/
def meanSquare {m n : Nat} (A : Matrix (Fin m) (Fin n) K) (Cx : Matrix (Fin n) (Fin n) K) (Cz : Matrix (Fin m) (Fin m) K)
    (W : Matrix (Fin n) (Fin m) K) (x : Fin n → K) : K := x ⬝ᵥ (errCov A Cx Cz W *ᵥ x)

/-- A matrix which the code does not take wrongly for a diagonal one. -/
def Plain {k : Nat} (C : Matrix (Fin k) (Fin k) K) : Prop := (∀ i j, i ≠ j → C i j = 0) ∨ ∃ i j, i ≠ j ∧ 1 / 10000000000 ≤ |C i j|

/-! ### Positive definite matrices -/

omit [IsStrictOrderedRing K] in
theorem PosDefK.det {k : Nat} {C : Matrix (Fin k) (Fin k) K} (h : PosDefK C) : C.det ≠ 0 := by
  have hinj : Function.Injective C.mulVec := by
    intro x y hxy
    by_contra hne
    have h1 := h.2 (x - y) (sub_ne_zero.2 hne)
    rw [Matrix.mulVec_sub, show C *ᵥ x = C *ᵥ y from hxy, sub_self, dotProduct_zero] at h1
    exact lt_irrefl _ h1
  have := (Matrix.isUnit_iff_isUnit_det C).1 (Matrix.mulVec_injective_iff_isUnit.1 hinj)
  exact this.ne_zero

omit [IsStrictOrderedRing K] in
theorem PosDefK.mul_inv {k : Nat} {C : Matrix (Fin k) (Fin k) K} (h : PosDefK C) : C * C⁻¹ = 1 :=
  Matrix.mul_nonsing_inv _ (isUnit_iff_ne_zero.2 h.det)

omit [IsStrictOrderedRing K] in
theorem PosDefK.inv_mul {k : Nat} {C : Matrix (Fin k) (Fin k) K} (h : PosDefK C) : C⁻¹ * C = 1 :=
  Matrix.nonsing_inv_mul _ (isUnit_iff_ne_zero.2 h.det)

omit [IsStrictOrderedRing K] in
theorem PosDefK.inv {k : Nat} {C : Matrix (Fin k) (Fin k) K} (h : PosDefK C) : PosDefK C⁻¹ := by
  refine ⟨by rw [Matrix.transpose_nonsing_inv, h.1], fun x hx => ?_⟩
  have hy : C⁻¹ *ᵥ x ≠ 0 := by
    intro h0
    apply hx
    have : C *ᵥ (C⁻¹ *ᵥ x) = x := by rw [Matrix.mulVec_mulVec, h.mul_inv, Matrix.one_mulVec]
    rw [← this, h0, Matrix.mulVec_zero]
  have h1 := h.2 _ hy
  rw [Matrix.mulVec_mulVec, h.mul_inv, Matrix.one_mulVec, dotProduct_comm] at h1
  exact h1

omit [IsStrictOrderedRing K] in
theorem PosDefK.nonneg {k : Nat} {C : Matrix (Fin k) (Fin k) K} (h : PosDefK C) (x : Fin k → K) : 0 ≤ x ⬝ᵥ (C *ᵥ x) := by
  by_cases hx : x = 0
  · subst hx; simp
  · exact (h.2 x hx).le

omit [LinearOrder K] [IsStrictOrderedRing K] in
theorem quad_conj {m n : Nat} (B : Matrix (Fin n) (Fin m) K) (C : Matrix (Fin m) (Fin m) K) (x : Fin n → K) :
    x ⬝ᵥ ((B * C * B.transpose) *ᵥ x) = (B.transpose *ᵥ x) ⬝ᵥ (C *ᵥ (B.transpose *ᵥ x)) := by
  rw [← Matrix.mulVec_mulVec, ← Matrix.mulVec_mulVec, Matrix.dotProduct_mulVec, ← Matrix.mulVec_transpose]

theorem PosDefK.add_conj {m n : Nat} {P : Matrix (Fin n) (Fin n) K} {C : Matrix (Fin m) (Fin m) K} (hP : PosDefK P) (hC : PosDefK C)
    (B : Matrix (Fin n) (Fin m) K) : PosDefK (B * C * B.transpose + P) := by
  refine ⟨?_, fun x hx => ?_⟩
  · rw [Matrix.transpose_add, Matrix.transpose_mul, Matrix.transpose_mul, Matrix.transpose_transpose, hC.1, hP.1, Matrix.mul_assoc]
  · rw [Matrix.add_mulVec, dotProduct_add, quad_conj]
    exact add_pos_of_nonneg_of_pos (hC.nonneg _) (hP.2 x hx)

theorem PosDefK.diag_pos {k : Nat} {C : Matrix (Fin k) (Fin k) K} (h : PosDefK C) (i : Fin k) : 0 < C i i := by
  have := h.2 (Pi.single i 1) (by simp [Pi.single_eq_zero_iff])
  simpa [Matrix.mulVec_single, single_dotProduct] using this

/-- The code's inverse is the inverse. -/
theorem invCov_eq {k : Nat} (pinv : Matrix (Fin k) (Fin k) K → Matrix (Fin k) (Fin k) K) (C : Matrix (Fin k) (Fin k) K) (h : PosDefK C)
    (hp : Plain C) : invCov pinv C = some C⁻¹ := by
  unfold invCov
  rcases hp with hd | ⟨i, j, hij, hbig⟩
  · have e : C = Matrix.diagonal fun i => C i i := by
      ext i j
      by_cases hij : i = j
      · subst hij; simp
      · rw [hd i j hij, Matrix.diagonal_apply_ne _ hij]
    rw [if_pos, if_pos (fun i => (h.diag_pos i).ne')]
    · congr 1
      symm
      apply Matrix.inv_eq_right_inv
      conv_lhs => rw [e]
      rw [Matrix.diagonal_mul_diagonal]
      ext i j
      by_cases hij : i = j
      · subst hij
        simp [(h.diag_pos i).ne']
      · simp [hij]
    · intro i j
      rw [← e, sub_self, abs_zero]
      norm_num
  · rw [if_neg]
    · unfold invOr
      rw [if_pos h.det]
    · push Not
      refine ⟨i, j, ?_⟩
      rw [Matrix.diagonal_apply_ne _ hij, zero_sub, abs_neg]
      exact hbig

/-! ### The reconstructor -/

/-- With a given inverse noise covariance the code returns the textbook formula, also in the case of one slope. -/
theorem mmseSolve_full {m n : Nat} (pinv : ∀ k, Matrix (Fin k) (Fin k) K → Matrix (Fin k) (Fin k) K) (A : Matrix (Fin m) (Fin n) K)
    (w : Matrix (Fin m) (Fin m) K) (hw : PosDefK w) (P : Matrix (Fin n) (Fin n) K) (hP : PosDefK P) :
    mmseSolve pinv A (.full w) P = some ((A.transpose * w * A + P)⁻¹ * (A.transpose * w)) := by
  have hH : PosDefK (A.transpose * w * A + P) := by
    have := hP.add_conj hw A.transpose
    rwa [Matrix.transpose_transpose] at this
  unfold mmseSolve
  by_cases hm : m = 1
  · subst hm
    have hw1 : w = w 0 0 • (1 : Matrix (Fin 1) (Fin 1) K) := by
      ext i j
      obtain rfl : i = 0 := Subsingleton.elim _ _
      obtain rfl : j = 0 := Subsingleton.elim _ _
      simp
    have e : w 0 0 • (A.transpose * A) + P = A.transpose * w * A + P := by
      conv_rhs => rw [hw1]
      simp
    have hs : weightScalar 1 n (.full w) = some (w 0 0) := by simp [weightScalar]
    rw [hs]
    simp only
    rw [e]
    unfold invOr
    rw [if_pos hH.det]
    congr 1
    have e2 : A.transpose * w = w 0 0 • A.transpose := by
      conv_lhs => rw [hw1]
      simp
    rw [Matrix.mul_assoc, ← Matrix.mul_assoc A.transpose w A, e2, Matrix.mul_smul]
  · have hs : weightScalar m n (.full w) = none := by simp [weightScalar, hm]
    rw [hs]
    simp only [weightMatrix, Option.map_some]
    rw [← Matrix.mul_assoc A.transpose w A]
    unfold invOr
    rw [if_pos hH.det]

/-- The textbook formula satisfies the normal equations. -/
theorem wiener {m n : Nat} (A : Matrix (Fin m) (Fin n) K) (Cx : Matrix (Fin n) (Fin n) K) (Cz : Matrix (Fin m) (Fin m) K)
    (hx : PosDefK Cx) (hz : PosDefK Cz) :
    (A.transpose * Cz⁻¹ * A + Cx⁻¹)⁻¹ * (A.transpose * Cz⁻¹) * (A * Cx * A.transpose + Cz) = Cx * A.transpose := by
  have hH : PosDefK (A.transpose * Cz⁻¹ * A + Cx⁻¹) := by
    have := hx.inv.add_conj hz.inv A.transpose
    rwa [Matrix.transpose_transpose] at this
  have e : (A.transpose * Cz⁻¹) * (A * Cx * A.transpose + Cz) = (A.transpose * Cz⁻¹ * A + Cx⁻¹) * (Cx * A.transpose) := by
    rw [Matrix.mul_add, Matrix.add_mul, Matrix.mul_assoc A.transpose Cz⁻¹ Cz, hz.inv_mul, Matrix.mul_one,
      ← Matrix.mul_assoc Cx⁻¹, hx.inv_mul, Matrix.one_mul]
    simp only [Matrix.mul_assoc]
  rw [Matrix.mul_assoc, e, ← Matrix.mul_assoc, hH.inv_mul, Matrix.one_mul]

omit [LinearOrder K] [IsStrictOrderedRing K] in
/-- Any other reconstructor has a larger error covariance, by this much. -/
theorem errCov_diff {m n : Nat} (A : Matrix (Fin m) (Fin n) K) (Cx : Matrix (Fin n) (Fin n) K) (Cz : Matrix (Fin m) (Fin m) K)
    (hx : Cx.transpose = Cx) (hz : Cz.transpose = Cz) (W V : Matrix (Fin n) (Fin m) K)
    (hW : W * (A * Cx * A.transpose + Cz) = Cx * A.transpose) :
    errCov A Cx Cz V = errCov A Cx Cz W + (V - W) * (A * Cx * A.transpose + Cz) * (V - W).transpose := by
  have hS : (A * Cx * A.transpose + Cz).transpose = A * Cx * A.transpose + Cz := by
    rw [Matrix.transpose_add, Matrix.transpose_mul, Matrix.transpose_mul, Matrix.transpose_transpose, hx, hz, Matrix.mul_assoc]
  have hWt : (A * Cx * A.transpose + Cz) * W.transpose = A * Cx := by
    have := congrArg Matrix.transpose hW
    rwa [Matrix.transpose_mul, hS, Matrix.transpose_mul, Matrix.transpose_transpose, hx] at this
  have key : ∀ U : Matrix (Fin n) (Fin m) K, errCov A Cx Cz U =
      Cx - U * (A * Cx) - (Cx * A.transpose) * U.transpose + U * (A * Cx * A.transpose + Cz) * U.transpose := by
    intro U
    unfold errCov
    rw [Matrix.transpose_sub, Matrix.transpose_one, Matrix.transpose_mul]
    simp only [Matrix.sub_mul, Matrix.mul_sub, Matrix.one_mul, Matrix.mul_one, Matrix.mul_add, Matrix.add_mul, Matrix.mul_assoc]
    abel
  rw [key V, key W, Matrix.transpose_sub]
  simp only [Matrix.sub_mul, Matrix.mul_sub]
  rw [hW, Matrix.mul_assoc V _ W.transpose, hWt, ← hW, Matrix.mul_assoc W _ W.transpose, hWt]
  abel

/-- C68.  The reconstructor exists and no linear reconstructor has a smaller mean square error, for any mode or combination of modes. -/
theorem C68_optimal {m n : Nat} (pinv : ∀ k, Matrix (Fin k) (Fin k) K → Matrix (Fin k) (Fin k) K) (A : Matrix (Fin m) (Fin n) K)
    (Cx : Matrix (Fin n) (Fin n) K) (Cz : Matrix (Fin m) (Fin m) K) (hx : PosDefK Cx) (hz : PosDefK Cz) (px : Plain Cx) (pz : Plain Cz)
    (noiseVar : Option (List K)) :
    ∃ W, mmse pinv A Cx noiseVar (some Cz) false = some W ∧ W * (A * Cx * A.transpose + Cz) = Cx * A.transpose ∧
      ∀ V x, meanSquare A Cx Cz W x ≤ meanSquare A Cx Cz V x := by
  refine ⟨(A.transpose * Cz⁻¹ * A + Cx⁻¹)⁻¹ * (A.transpose * Cz⁻¹), ?_, wiener A Cx Cz hx hz, fun V x => ?_⟩
  · unfold mmse mmseNoise mmseWeight mmseAtm
    simp only [Option.bind_some, Bool.false_eq_true, if_false, invCov_eq (pinv m) Cz hz pz, invCov_eq (pinv n) Cx hx px, Option.map_some]
    exact mmseSolve_full pinv A _ hz.inv _ hx.inv
  · unfold meanSquare
    rw [errCov_diff A Cx Cz hx.1 hz.1 _ V (wiener A Cx Cz hx hz), Matrix.add_mulVec, dotProduct_add, quad_conj]
    exact le_add_of_nonneg_right ((hz.add_conj hx A).nonneg _)

/-- C68.  It is the only one. -/
theorem C68_unique {m n : Nat} (A : Matrix (Fin m) (Fin n) K) (Cx : Matrix (Fin n) (Fin n) K) (Cz : Matrix (Fin m) (Fin m) K)
    (hx : PosDefK Cx) (hz : PosDefK Cz) (W V : Matrix (Fin n) (Fin m) K) (hW : W * (A * Cx * A.transpose + Cz) = Cx * A.transpose)
    (h : ∀ x, meanSquare A Cx Cz V x ≤ meanSquare A Cx Cz W x) : V = W := by
  have hS := hz.add_conj hx A
  have hzero : ∀ x, (V - W).transpose *ᵥ x = 0 := by
    intro x
    by_contra hne
    have h1 := hS.2 _ hne
    have h2 := h x
    unfold meanSquare at h2
    rw [errCov_diff A Cx Cz hx.1 hz.1 W V hW, Matrix.add_mulVec, dotProduct_add, quad_conj] at h2
    linarith
  have h0 : (V - W).transpose = 0 := by
    ext i j
    have := congrFun (hzero (Pi.single j 1)) i
    simpa [Matrix.mulVec_single] using this
  have := congrArg Matrix.transpose h0
  rw [Matrix.transpose_transpose, Matrix.transpose_zero] at this
  exact sub_eq_zero.1 this

/-- C68.  Covariances given as inverses give the same reconstructor. -/
theorem C68_inverse {m n : Nat} (pinv : ∀ k, Matrix (Fin k) (Fin k) K → Matrix (Fin k) (Fin k) K) (A : Matrix (Fin m) (Fin n) K)
    (Cx : Matrix (Fin n) (Fin n) K) (Cz : Matrix (Fin m) (Fin m) K) (hx : PosDefK Cx) (hz : PosDefK Cz) (px : Plain Cx) (pz : Plain Cz)
    (noiseVar noiseVar' : Option (List K)) : mmse pinv A Cx⁻¹ noiseVar (some Cz⁻¹) true = mmse pinv A Cx noiseVar' (some Cz) false := by
  unfold mmse mmseNoise mmseWeight mmseAtm
  simp only [Option.bind_some, Bool.false_eq_true, if_false, if_true, invCov_eq (pinv m) Cz hz pz, invCov_eq (pinv n) Cx hx px, Option.map_some]

/-! ### Noise given by variances -/

omit [LinearOrder K] [IsStrictOrderedRing K] in
/-- Each sensor has its variance on the slopes of its own block; slopes that are left over have none. -/
theorem noiseFromVariance_eq (m : Nat) (v : List K) :
    noiseFromVariance m v = Matrix.diagonal fun i : Fin m =>
      if (i : Nat) < v.length * (m / v.length) then v.getD (i / (m / v.length)) 0 else 0 := by
  generalize hp : m / v.length = per
  have gen : ∀ c (a b : Fin m), ((List.range c).foldl (fun C i => fun (a b : Fin m) =>
      if (i * per ≤ a ∧ (a : Nat) < (i + 1) * per) ∧ (i * per ≤ b ∧ (b : Nat) < (i + 1) * per)
      then v.getD i 0 * (if (a : Nat) - i * per = (b : Nat) - i * per then 1 else 0) else C a b) (fun _ _ => (0 : K))) a b =
      if (a : Nat) < c * per ∧ a = b then v.getD (a / per) 0 else 0 := by
    intro c
    induction c with
    | zero => intro a b; simp
    | succ c ih =>
      intro a b
      rw [List.range_succ, List.foldl_append, List.foldl_cons, List.foldl_nil, ih a b]
      have hs : (c + 1) * per = c * per + per := by ring
      rw [hs]
      by_cases h1 : (c * per ≤ a ∧ (a : Nat) < c * per + per) ∧ (c * per ≤ b ∧ (b : Nat) < c * per + per)
      · rw [if_pos h1]
        have hper : 0 < per := by omega
        have hq : (a : Nat) / per = c := by
          rw [Nat.div_eq_iff hper]
          have := hs
          have h5 : per * c = c * per := Nat.mul_comm _ _
          constructor <;> omega
        by_cases hab : a = b
        · subst hab
          rw [if_pos rfl, if_pos ⟨by omega, rfl⟩, mul_one, hq]
        · rw [if_neg (c := a < c * per + per ∧ a = b) (fun h => hab h.2), if_neg, mul_zero]
          intro h
          apply hab
          apply Fin.ext
          omega
      · rw [if_neg h1]
        by_cases hab : a = b
        · subst hab
          by_cases h2 : (a : Nat) < c * per
          · rw [if_pos ⟨h2, rfl⟩, if_pos ⟨by omega, rfl⟩]
          · rw [if_neg (fun h => h2 h.1), if_neg]
            intro h
            apply h1
            have := h.1
            omega
        · rw [if_neg (fun h => hab h.2), if_neg (fun h => hab h.2)]
  ext a b
  unfold noiseFromVariance
  simp only [hp]
  refine (gen v.length a b).trans ?_
  by_cases hab : a = b
  · subst hab
    rw [Matrix.diagonal_apply_eq]
    simp
  · rw [if_neg (fun h => hab h.2), Matrix.diagonal_apply_ne _ hab]

theorem posDefK_diagonal {k : Nat} (d : Fin k → K) (hd : ∀ i, 0 < d i) : PosDefK (Matrix.diagonal d) := by
  refine ⟨Matrix.diagonal_transpose d, fun x hx => ?_⟩
  obtain ⟨i, hi⟩ := Function.ne_iff.1 hx
  simp only [Matrix.mulVec_diagonal, dotProduct]
  apply Finset.sum_pos'
  · intro j _
    nlinarith [mul_nonneg (hd j).le (mul_self_nonneg (x j))]
  · refine ⟨i, Finset.mem_univ _, ?_⟩
    have := mul_pos (hd i) (mul_self_pos.2 hi)
    nlinarith

omit [IsStrictOrderedRing K] in
theorem plain_diagonal {k : Nat} (d : Fin k → K) : Plain (Matrix.diagonal d) := Or.inl fun _ _ h => Matrix.diagonal_apply_ne _ h

/-- C68.  Variances of the sensors: the optimal reconstructor for independent slopes with the variance of their sensor, when the slopes
divide evenly among the sensors. -/
theorem C68_variance {m n : Nat} (pinv : ∀ k, Matrix (Fin k) (Fin k) K → Matrix (Fin k) (Fin k) K) (A : Matrix (Fin m) (Fin n) K)
    (Cx : Matrix (Fin n) (Fin n) K) (hx : PosDefK Cx) (px : Plain Cx) (v : List K) (per : Nat) (hm : m = v.length * per) (hper : 0 < per)
    (hv0 : v ≠ []) (hv : ∀ x ∈ v, 0 < x) :
    ∃ W, mmse pinv A Cx (some v) none false = some W ∧
      ∀ V x, meanSquare A Cx (Matrix.diagonal fun i : Fin m => v.getD (i / per) 0) W x ≤
        meanSquare A Cx (Matrix.diagonal fun i : Fin m => v.getD (i / per) 0) V x := by
  have hz : PosDefK (Matrix.diagonal fun i : Fin m => v.getD (i / per) 0) := by
    apply posDefK_diagonal
    intro i
    have hi : (i : Nat) / per < v.length := by
      rw [Nat.div_lt_iff_lt_mul hper, ← hm]
      exact i.2
    rw [List.getD_eq_getElem?_getD, List.getElem?_eq_getElem hi]
    exact hv _ (List.getElem_mem hi)
  obtain ⟨W, h1, h2, h3⟩ := C68_optimal pinv A Cx _ hx hz px (plain_diagonal _) none
  refine ⟨W, ?_, h3⟩
  rw [← h1]
  unfold mmse mmseNoise
  have : v.length ≠ 0 := by simpa using hv0
  have hdiv : m / v.length = per := by rw [hm, Nat.mul_div_cancel_left _ (by omega)]
  have hn : noiseFromVariance m v = Matrix.diagonal fun i : Fin m => v.getD (i / per) 0 := by
    rw [noiseFromVariance_eq, hdiv]
    congr 1
    funext i
    rw [if_pos (by rw [← hm]; exact i.2)]
  simp only [if_neg this, hn]

/-- C68.  When they do not divide evenly the last slopes get no variance and the result is not finite. -/
theorem C68_uneven {m n : Nat} (pinv : ∀ k, Matrix (Fin k) (Fin k) K → Matrix (Fin k) (Fin k) K) (A : Matrix (Fin m) (Fin n) K)
    (Cx : Matrix (Fin n) (Fin n) K) (v : List K) (h : v.length * (m / v.length) < m) : mmse pinv A Cx (some v) none false = none := by
  unfold mmse mmseNoise
  simp only
  split_ifs with h0
  · rfl
  · rw [Option.bind_some]
    have hw : mmseWeight m pinv false (some (noiseFromVariance m v)) = none := by
      unfold mmseWeight invCov
      rw [noiseFromVariance_eq]
      simp only [Bool.false_eq_true, if_false, Matrix.diagonal_apply_eq]
      rw [if_pos, if_neg]
      · rfl
      · intro hall
        apply hall ⟨v.length * (m / v.length), h⟩
        rw [if_neg (lt_irrefl _)]
      · intro i j
        rw [sub_self, abs_zero]
        norm_num
    rw [hw]
    rfl

omit [IsStrictOrderedRing K] in
/-- C68.  No noise given: the identity has the size of the modes, so the call fails unless there are as many slopes as modes, or one mode. -/
theorem C68_no_noise {m n : Nat} (pinv : ∀ k, Matrix (Fin k) (Fin k) K → Matrix (Fin k) (Fin k) K) (A : Matrix (Fin m) (Fin n) K)
    (Cx : Matrix (Fin n) (Fin n) K) (ci : Bool) (hmn : n ≠ m) (h1 : n ≠ 1) : mmse pinv A Cx none none ci = none := by
  unfold mmse mmseNoise mmseWeight
  simp only [Option.bind_some]
  cases mmseAtm n pinv ci Cx with
  | none => rfl
  | some P =>
    rw [Option.bind_some]
    unfold mmseSolve weightScalar weightMatrix
    simp only [if_neg h1, if_neg hmn]
    rfl

/-- C68.  In the other cases it is the reconstructor for slopes of unit variance. -/
theorem C68_unit_noise {m n : Nat} (pinv : ∀ k, Matrix (Fin k) (Fin k) K → Matrix (Fin k) (Fin k) K) (A : Matrix (Fin m) (Fin n) K)
    (Cx : Matrix (Fin n) (Fin n) K) (hx : PosDefK Cx) (px : Plain Cx) (h : n = m ∨ n = 1) :
    mmse pinv A Cx none none false = mmse pinv A Cx none (some 1) false := by
  have h1 : PosDefK (1 : Matrix (Fin m) (Fin m) K) := by
    rw [← Matrix.diagonal_one]
    exact posDefK_diagonal _ fun _ => one_pos
  have p1 : Plain (1 : Matrix (Fin m) (Fin m) K) := by
    rw [← Matrix.diagonal_one]
    exact plain_diagonal _
  unfold mmse mmseNoise mmseWeight mmseAtm
  simp only [Option.bind_some, Bool.false_eq_true, if_false, invCov_eq (pinv m) 1 h1 p1, invCov_eq (pinv n) Cx hx px, Option.map_some]
  rw [mmseSolve_full pinv A _ h1.inv _ hx.inv, inv_one, Matrix.mul_one]
  have hH : PosDefK (A.transpose * A + Cx⁻¹) := by
    have := hx.inv.add_conj h1 A.transpose
    rwa [Matrix.transpose_transpose, Matrix.mul_one] at this
  unfold mmseSolve weightScalar weightMatrix
  by_cases hn : n = 1
  · simp only [if_pos hn, one_smul]
    unfold invOr
    rw [if_pos hH.det]
  · simp only [if_neg hn, if_pos (h.resolve_right hn), Option.map_some, Matrix.one_mul, Matrix.mul_one]
    unfold invOr
    rw [if_pos hH.det]

end

/-! ### Cases -/

/-- Two modes measured directly, correlated, with small covariances. -/
def tinyCx : Matrix (Fin 2) (Fin 2) ℚ := fun i j => (if i = j then 2 else 1) / 100000000000
def tinyCz : Matrix (Fin 2) (Fin 2) ℚ := Matrix.diagonal fun _ => 1 / 100000000000

theorem tinyCx_pd : PosDefK tinyCx := by
  refine ⟨?_, fun x hx => ?_⟩
  · ext i j
    simp only [Matrix.transpose_apply, tinyCx]
    congr 1
    by_cases h : i = j
    · subst h; rfl
    · rw [if_neg h, if_neg (fun e => h e.symm)]
  · simp only [Matrix.mulVec, dotProduct, Fin.sum_univ_two, tinyCx]
    norm_num
    obtain ⟨i, hi⟩ := Function.ne_iff.1 hx
    have h0 : 0 < x 0 * x 0 + x 1 * x 1 := by
      fin_cases i
      · exact add_pos_of_pos_of_nonneg (mul_self_pos.2 hi) (mul_self_nonneg _)
      · exact add_pos_of_nonneg_of_pos (mul_self_nonneg _) (mul_self_pos.2 hi)
    nlinarith [mul_self_nonneg (x 0 + x 1)]

/-- C68.  Small correlations are ignored: the threshold of the test for diagonal matrices is absolute, so for small units the
reconstructor is not the optimal one. -/
theorem C68_small_units (pinv : ∀ k, Matrix (Fin k) (Fin k) ℚ → Matrix (Fin k) (Fin k) ℚ) :
    PosDefK tinyCx ∧ PosDefK tinyCz ∧ ∃ W V x, mmse pinv (1 : Matrix (Fin 2) (Fin 2) ℚ) tinyCx none (some tinyCz) false = some W ∧
      meanSquare 1 tinyCx tinyCz V x < meanSquare 1 tinyCx tinyCz W x := by
  have hz : PosDefK tinyCz := posDefK_diagonal _ fun _ => by norm_num
  have hD : PosDefK (Matrix.diagonal fun _ : Fin 2 => (1 : ℚ) / (2 / 100000000000)) := posDefK_diagonal _ fun _ => by norm_num
  refine ⟨tinyCx_pd, hz, Matrix.diagonal fun _ => 2 / 3, fun i j => if i = j then 5 / 8 else 1 / 8, ![1, 0], ?_, ?_⟩
  · have hx : invCov (pinv 2) tinyCx = some (Matrix.diagonal fun _ : Fin 2 => (1 : ℚ) / (2 / 100000000000)) := by
      unfold invCov
      rw [if_pos, if_pos]
      · simp [tinyCx]
      · intro i; simp [tinyCx]
      · intro i j
        by_cases h : i = j
        · subst h; simp
        · rw [Matrix.diagonal_apply_ne _ h]
          simp only [tinyCx, if_neg h]
          norm_num [abs_of_pos]
    unfold mmse mmseNoise mmseWeight mmseAtm
    simp only [Option.bind_some, Bool.false_eq_true, if_false, invCov_eq (pinv 2) tinyCz hz (plain_diagonal _), hx, Option.map_some]
    rw [mmseSolve_full pinv _ _ hz.inv _ hD]
    have hzi : tinyCz⁻¹ = Matrix.diagonal fun _ => (100000000000 : ℚ) := by
      apply Matrix.inv_eq_right_inv
      unfold tinyCz
      rw [Matrix.diagonal_mul_diagonal]
      norm_num
    rw [hzi, Matrix.transpose_one, Matrix.one_mul, Matrix.mul_one, Matrix.diagonal_add]
    congr 1
    have : (Matrix.diagonal fun _ : Fin 2 => (100000000000 : ℚ) + 1 / (2 / 100000000000))⁻¹ = Matrix.diagonal fun _ => (1 / 150000000000 : ℚ) := by
      apply Matrix.inv_eq_right_inv
      rw [Matrix.diagonal_mul_diagonal]
      norm_num
    rw [this, Matrix.diagonal_mul_diagonal]
    norm_num
  · simp only [meanSquare, errCov, tinyCz, Matrix.mul_one]
    decide +kernel

/-- The hypotheses of C68_optimal are met by correlated modes of ordinary size. -/
example : PosDefK ((100000000000 : ℚ) • tinyCx) ∧ Plain ((100000000000 : ℚ) • tinyCx) := by
  refine ⟨⟨by rw [Matrix.transpose_smul, tinyCx_pd.1], fun x hx => ?_⟩, Or.inr ⟨0, 1, by decide, ?_⟩⟩
  · rw [Matrix.smul_mulVec, dotProduct_smul]
    exact smul_pos (by norm_num) (tinyCx_pd.2 x hx)
  · rw [Matrix.smul_apply]
    norm_num [tinyCx, abs_of_pos]

/-- C68.  Variances together with `c_inverse` are used as their inverses: with one mode measured once, prior variance 1 and noise
variance 4, the gain is 4/5 instead of 1/5. -/
theorem C68_inverse_variance (pinv : ∀ k, Matrix (Fin k) (Fin k) ℚ → Matrix (Fin k) (Fin k) ℚ) :
    mmse pinv (1 : Matrix (Fin 1) (Fin 1) ℚ) 1 (some [4]) none true = some (Matrix.diagonal fun _ => 4 / 5) ∧
    mmse pinv (1 : Matrix (Fin 1) (Fin 1) ℚ) 1 (some [4]) none false = some (Matrix.diagonal fun _ => 1 / 5) := by
  have hone : PosDefK (1 : Matrix (Fin 1) (Fin 1) ℚ) := by
    rw [← Matrix.diagonal_one]
    exact posDefK_diagonal _ fun _ => one_pos
  have h4 : PosDefK (Matrix.diagonal fun _ : Fin 1 => (4 : ℚ)) := posDefK_diagonal _ fun _ => by norm_num
  have hn : noiseFromVariance 1 [(4 : ℚ)] = Matrix.diagonal fun _ => 4 := by
    rw [noiseFromVariance_eq]
    congr 1
    funext i
    obtain rfl : i = 0 := Subsingleton.elim _ _
    simp
  have h4i : (Matrix.diagonal fun _ : Fin 1 => (4 : ℚ))⁻¹ = Matrix.diagonal fun _ => 1 / 4 := by
    apply Matrix.inv_eq_right_inv
    rw [Matrix.diagonal_mul_diagonal]
    norm_num
  constructor
  · unfold mmse mmseNoise mmseWeight mmseAtm
    simp only [List.length_singleton, one_ne_zero, if_false, Option.bind_some, if_true, hn]
    rw [mmseSolve_full pinv _ _ h4 _ hone, Matrix.transpose_one, Matrix.one_mul, Matrix.mul_one, ← Matrix.diagonal_one, Matrix.diagonal_add]
    congr 1
    have : (Matrix.diagonal fun _ : Fin 1 => (4 : ℚ) + 1)⁻¹ = Matrix.diagonal fun _ => 1 / 5 := by
      apply Matrix.inv_eq_right_inv
      rw [Matrix.diagonal_mul_diagonal]
      norm_num
    rw [this, Matrix.diagonal_mul_diagonal]
    norm_num
  · unfold mmse mmseNoise mmseWeight mmseAtm
    simp only [List.length_singleton, one_ne_zero, if_false, Option.bind_some, Bool.false_eq_true, hn,
      invCov_eq (pinv 1) _ h4 (plain_diagonal _), invCov_eq (pinv 1) 1 hone (by rw [← Matrix.diagonal_one]; exact plain_diagonal _), Option.map_some]
    rw [mmseSolve_full pinv _ _ h4.inv _ hone.inv, inv_one, h4i, Matrix.transpose_one, Matrix.one_mul, Matrix.mul_one, ← Matrix.diagonal_one,
      Matrix.diagonal_add]
    congr 1
    have : (Matrix.diagonal fun _ : Fin 1 => (1 / 4 : ℚ) + 1)⁻¹ = Matrix.diagonal fun _ => 4 / 5 := by
      apply Matrix.inv_eq_right_inv
      rw [Matrix.diagonal_mul_diagonal]
      norm_num
    rw [this, Matrix.diagonal_mul_diagonal]
    norm_num

end Specula
