import Mathlib.Analysis.Real.Sqrt
import Mathlib.Algebra.BigOperators.Group.Finset.Basic
import Mathlib.Data.Fintype.Prod
import Verif.Model.Ccd
/-
Model of the influence functions of the segments of the primary mirror of the ELT, `specula/lib/ELT_M1_ifunc_calculator.py`.

The map of the segments is an arbitrary square array of numbers (0 outside, `s + 1` on segment `s`).  Numbers are real (the code rounds them
to `dtype`); the coordinates of the resampling are rational.  NaN is `none`.  Saving (C48), the mask as a pupil stop (C79) and the plots are
not part of this file.
-/
namespace Specula

/-- `coord[a] = np.round(a * (size / dim))`, ELT_M1_ifunc_calculator.py 34-35. -/
def segCoord (n dim a : ℕ) : ℤ := roundEvenF ((a : ℚ) * ((n : ℚ) / (dim : ℚ)))

/-- `rsegmentation`, ELT_M1_ifunc_calculator.py 36-39; `none` is the `IndexError` of a coordinate outside the map of `n × n` pixels. -/
def segResample (n dim : ℕ) (seg : ℕ → ℕ → ℕ) : Option (Fin dim × Fin dim → ℕ) :=
  if ∀ a : Fin dim, segCoord n dim a < n then some fun p => seg (segCoord n dim p.1).toNat (segCoord n dim p.2).toNat else none

/-- `linspace(-1, 1, dim)[i]`. -/
noncomputable def lin11 (dim i : ℕ) : ℝ := -1 + 2 * (i : ℝ) / ((dim : ℝ) - 1)

/-- `tip` (follows the row) and `tilt` (follows the column), ELT_M1_ifunc_calculator.py 55-56. -/
noncomputable def gridTip (dim : ℕ) (p : Fin dim × Fin dim) : ℝ := lin11 dim p.1
noncomputable def gridTilt (dim : ℕ) (p : Fin dim × Fin dim) : ℝ := lin11 dim p.2

section
variable {P : Type} [DecidableEq P]

/-- `np.mean(x[idx_s])` -/
noncomputable def segMean (S : Finset P) (x : P → ℝ) : ℝ := (∑ p ∈ S, x p) / (S.card : ℝ)

/-- `np.std(x[idx_s])` -/
noncomputable def segStd (S : Finset P) (x : P → ℝ) : ℝ := Real.sqrt (segMean S fun p => (x p - segMean S x) ^ 2)

/-- `segm == s + 1` as numbers. -/
noncomputable def segInd (S : Finset P) (p : P) : ℝ := if p ∈ S then 1 else 0

/-- `pist_s`, ELT_M1_ifunc_calculator.py 61-64. -/
noncomputable def segPiston (S : Finset P) (p : P) : ℝ :=
  if p ∈ S then segInd S p / Real.sqrt (segMean S fun p => segInd S p ^ 2) else segInd S p

/-- `tip_s *= 1 / std` on the segment, ELT_M1_ifunc_calculator.py 68-69. -/
noncomputable def segScaled (S : Finset P) (g : P → ℝ) (p : P) : ℝ :=
  if p ∈ S then g p * segPiston S p * (1 / segStd S fun p => g p * segPiston S p) else g p * segPiston S p

/-- `tip_s` or `tilt_s`, ELT_M1_ifunc_calculator.py 67-77: on a segment of deviation zero the division by zero leaves NaN. -/
noncomputable def segSlope (S : Finset P) (g : P → ℝ) (p : P) : Option ℝ :=
  if p ∈ S then
    if (segStd S fun p => g p * segPiston S p) = 0 then none else some (segScaled S g p - segMean S (segScaled S g))
  else some (segScaled S g p)

variable [Fintype P]

/-- The pixels of segment `s`. -/
def segPix (rseg : P → ℕ) (s : ℕ) : Finset P := Finset.univ.filter fun p => rseg p = s + 1

/-- The three modes of a segment, before the pixels of the pupil are picked. -/
noncomputable def segModes (S : Finset P) (tip tilt : P → ℝ) : List (P → Option ℝ) :=
  [fun p => some (segPiston S p), segSlope S tip, segSlope S tilt]

/-- `M1_modal_base`, ELT_M1_ifunc_calculator.py 58-79: the rows of `ifs_cube`, on the pixels of the pupil. -/
noncomputable def m1Base (rseg : P → ℕ) (nseg : ℕ) (tip tilt : P → ℝ) : List ({p : P // 0 < rseg p} → Option ℝ) :=
  (List.range nseg).flatMap fun s => (segModes (segPix rseg s) tip tilt).map fun m => fun p => m p.1

end

end Specula
