import Mathlib.Analysis.SpecialFunctions.Trigonometric.Basic
import Mathlib.Analysis.Real.Sqrt
/-
Phase unwrapping of ModalAnalysis: `unwrap_ls`, specula/processing_objects/modal_analysis.py 118-156.

Real numbers.  Arrays are functions of row and column with `N` rows and `M` columns.  The discrete cosine transforms of scipy are their
defining sums.
-/
namespace Specula

/-- `numpy.mod` by a positive number. -/
noncomputable def npMod (x m : ℝ) : ℝ := x - m * ⌊x / m⌋

/-- `np.mod(d + np.pi, 2 * np.pi) - np.pi`, modal_analysis.py 122, 125. -/
noncomputable def wrapPi (d : ℝ) : ℝ := npMod (d + Real.pi) (2 * Real.pi) - Real.pi

/-- Wrapped differences along the two axes, modal_analysis.py 121-125. -/
noncomputable def gradX (ψ : ℕ → ℕ → ℝ) (i j : ℕ) : ℝ := wrapPi (ψ i (j + 1) - ψ i j)
noncomputable def gradY (ψ : ℕ → ℕ → ℝ) (i j : ℕ) : ℝ := wrapPi (ψ (i + 1) j - ψ i j)

/-- The right hand side, modal_analysis.py 128-137: the assignments in their order. -/
noncomputable def unwrapRho (N M : ℕ) (ψ : ℕ → ℕ → ℝ) (i j : ℕ) : ℝ :=
  let r := if 1 ≤ j ∧ j < M - 1 then gradX ψ i j - gradX ψ i (j - 1) else 0
  let r := if 1 ≤ i ∧ i < N - 1 then r + (gradY ψ i j - gradY ψ (i - 1) j) else r
  let r := if j = 0 then gradX ψ i 0 else r
  let r := if j = M - 1 then -gradX ψ i (M - 2) else r
  let r := if i = 0 then r + gradY ψ 0 j else r
  if i = N - 1 then r + -gradY ψ (N - 2) j else r

/-- Weights of the orthonormal transforms. -/
noncomputable def dctScale (N k : ℕ) : ℝ := if k = 0 then Real.sqrt (1 / N) else Real.sqrt (2 / N)

/-- `scipy.fftpack.dct(x, norm='ortho')` (type 2). -/
noncomputable def dct1 (N : ℕ) (x : ℕ → ℝ) (k : ℕ) : ℝ :=
  dctScale N k * ∑ n ∈ Finset.range N, x n * Real.cos (Real.pi * k * (2 * n + 1) / (2 * N))

/-- `scipy.fftpack.idct(y, norm='ortho')` (type 2, that is the transform of type 3). -/
noncomputable def idct1 (N : ℕ) (y : ℕ → ℝ) (n : ℕ) : ℝ :=
  ∑ k ∈ Finset.range N, dctScale N k * y k * Real.cos (Real.pi * k * (2 * n + 1) / (2 * N))

/-- The transforms along axis 0 and then along axis 1, modal_analysis.py 140, 156. -/
noncomputable def dct2 (N M : ℕ) (a : ℕ → ℕ → ℝ) (k l : ℕ) : ℝ := dct1 M (fun j => dct1 N (fun i => a i j) k) l
noncomputable def idct2 (N M : ℕ) (a : ℕ → ℕ → ℝ) (i j : ℕ) : ℝ := idct1 M (fun l => idct1 N (fun k => a k l) i) j

/-- The solution in the transformed domain, modal_analysis.py 143-153. -/
noncomputable def unwrapSolve (N M : ℕ) (r : ℕ → ℕ → ℝ) (k l : ℕ) : ℝ :=
  let denom := 2 * (Real.cos (Real.pi * k / N) + Real.cos (Real.pi * l / M) - 2)
  let denom := if k = 0 ∧ l = 0 then 1 else denom
  if k = 0 ∧ l = 0 then 0 else r k l / denom

/-- `unwrap_ls`, modal_analysis.py 118-156. -/
noncomputable def unwrapLs (N M : ℕ) (ψ : ℕ → ℕ → ℝ) : ℕ → ℕ → ℝ :=
  idct2 N M (unwrapSolve N M (dct2 N M (unwrapRho N M ψ)))

end Specula
