import Mathlib.Analysis.Real.Sqrt
import Mathlib.Algebra.BigOperators.Group.Finset.Basic
import Mathlib.Data.Real.Basic
/-
Model of the influence functions made of Zernike polynomials, `specula/lib/compute_zern_ifunc.py`, with `make_orto_modes` of
`specula/lib/utils.py` 138-169.

Numbers are real.  The polynomials on the `P` pixels of the mask are arbitrary.  The decomposition QR is any function that gives one
(`IsQR`): `linalg.qr` is trusted to do so.  The sign of its vectors is not fixed.
-/
namespace Specula

/-- The numbers (Noll) of the polynomials used: `range(2, nzern + 2)` without the first `start_mode`, compute_zern_ifunc.py 17-19. -/
def zernNumbers (nzern start : ℕ) : List ℕ := ((List.range nzern).map (· + 2)).drop start

/-- `q` and `r` are a decomposition QR of the matrix whose columns are the `a i`: `q` has orthonormal columns, `r` is upper triangular, and
`a i = Σ_k q k * r k i`. -/
def IsQR {P : Type} [Fintype P] {m : ℕ} (a q : Fin m → P → ℝ) (r : Fin m → Fin m → ℝ) : Prop :=
  (∀ i j, ∑ p, q i p * q j p = if i = j then 1 else 0) ∧ (∀ k i, i < k → r k i = 0) ∧ ∀ i p, a i p = ∑ k, q k p * r k i

/-- `mean(axis=1)`. -/
noncomputable def meanP {P : Type} [Fintype P] (x : P → ℝ) : ℝ := (∑ p, x p) / (Fintype.card P : ℝ)

/-- `std(axis=1)`: the deviation of the population. -/
noncomputable def stdP {P : Type} [Fintype P] (x : P → ℝ) : ℝ := Real.sqrt (meanP fun p => (x p - meanP x) ^ 2)

/-- A mode without its mean, compute_zern_ifunc.py 29. -/
noncomputable def noPiston {P : Type} [Fintype P] (x : P → ℝ) : P → ℝ := fun p => x p - meanP x

/-- The mode that is given back for the orthonormal vector `q`, compute_zern_ifunc.py 29-30.  A deviation of zero gives NaN in the code; here
zero. -/
noncomputable def zernMode {P : Type} [Fintype P] (q : P → ℝ) : P → ℝ := fun p => noPiston q p / stdP (noPiston q)

end Specula
