import Mathlib.Data.List.Sort
import Verif.Model.Psf

/-!
# Physical propagation between layers

The Fresnel part of `specula/processing_objects/atmo_propagation.py` (lines 172-238, 265-275, 306-309). Exact arithmetic over the real and complex numbers;
the FFTs are the discrete Fourier transforms they compute, with norm "ortho". The padding factor is an integer. Exceptions are `none`.
-/

namespace Specula
open Finset

/-- `ifft2` of a square array without its factor. -/
noncomputable def ifft2 (w : ℕ) (u : ℕ → ℕ → ℂ) (i j : ℕ) : ℂ :=
  ∑ k ∈ range w, ∑ l ∈ range w, u k l * twiddle w (-((k * i + l * j : ℕ) : ℤ))

/-- `ifftshift`: index `k` of the result is index `k + w // 2` modulo `w`. -/
def ifftshiftIdx (w k : ℕ) : ℕ := (k + w / 2) % w

/-- Where the pupil is put in the padded array, lines 267-268. -/
def padStart (w p : ℕ) : ℕ := (w - p + 1) / 2

/-- The padded field, line 268: the border keeps the zeros of line 233. -/
def padCentre (w p : ℕ) (u : ℕ → ℕ → ℂ) (i j : ℕ) : ℂ :=
  let s := padStart w p
  if s ≤ i ∧ i < s + p ∧ s ≤ j ∧ j < s + p then u (i - s) (j - s) else 0

/-- Lines 270-271: spectrum, product with the propagator, and back. -/
noncomputable def propPadded (w : ℕ) (H : ℕ → ℕ → ℂ) (u : ℕ → ℕ → ℂ) (i j : ℕ) : ℂ :=
  let ft := fun k l => fft2 w u (fftshiftIdx w k) (fftshiftIdx w l) / w
  ifft2 w (fun k l => ft (ifftshiftIdx w k) (ifftshiftIdx w l) * H (ifftshiftIdx w k) (ifftshiftIdx w l)) i j / w

/-- `physical_propagation`, lines 265-274. -/
noncomputable def physProp (w p : ℕ) (H : ℕ → ℕ → ℂ) (u : ℕ → ℕ → ℂ) (i j : ℕ) : ℂ :=
  propPadded w H (padCentre w p u) (i + padStart w p) (j + padStart w p)

/-- Spatial frequency of index `a`, lines 176-178: `df * arange(-n // 2, n // 2)`; Python's division rounds down. -/
noncomputable def propFreq (w : ℕ) (size : ℝ) (a : ℕ) : ℝ := (((-(w : ℤ)) / 2 + a : ℤ) : ℝ) * (1 / size)

/-- Line 182: largest frequency that propagates. -/
noncomputable def freqLimit (size lam d : ℝ) : ℝ := size / (lam * Real.sqrt (size ^ 2 + 4 * d ^ 2))

/-- Lines 185-194: limit of frequency and distance after the reduction. -/
noncomputable def propLimit (w : ℕ) (size lam factor d : ℝ) : ℝ × ℝ :=
  let least := (w : ℝ) / 2 * (1 / size) * factor
  if freqLimit size lam d < least then (least, Real.sqrt ((size / least) ^ 2 / lam ^ 2 - size ^ 2) / 2)
  else (freqLimit size lam d, d)

open Classical in
/-- `field_propagator`, lines 172-205: the kernel at row `a` and column `b`; `size` is the side of the padded array in metres. -/
noncomputable def propKernel (w : ℕ) (size lam factor d : ℝ) (a b : ℕ) : ℂ :=
  let fx := propFreq w size b
  let fy := propFreq w size a
  let (lim, d') := propLimit w size lam factor d
  let h := Complex.exp (-(Complex.I * ((Real.pi * d' * lam * (fx ^ 2 + fy ^ 2) : ℝ) : ℂ)))
  if factor < 1 then
    h * (if (fx / lim) ^ 2 + (fy * lam) ^ 2 ≤ 1 ∧ (fy / lim) ^ 2 + (fx * lam) ^ 2 ≤ 1 then 1 else 0)
  else h

/-- `np.allclose(a, b)` on lists of the same length. -/
def allClose (a b : List ℚ) : Bool := (List.zipWith (fun x y => decide (|x - y| ≤ 1 / 10 ^ 8 + 1 / 10 ^ 5 * |y|)) a b).all id

/-- `np.sort` on numbers, line 217. -/
def sortHeights (h : List ℚ) : List ℚ := h.insertionSort (· ≤ ·)

/-- `np.diff(h, append=x)`. -/
def diffAppend : List ℚ → ℚ → List ℚ
  | [], _ => []
  | [a], x => [x - a]
  | a :: b :: l, x => (b - a) :: diffAppend (b :: l) x

/-- `doFresnel_setup`, lines 210-230: distance travelled after each layer in the order of the loop, `none` where there is no propagator. The
heights are those of the layers times the airmass, lowest first; `source` is the height of the first source, `none` when infinite. -/
def fresnelSteps (upwards : Bool) (heights : List ℚ) (source : Option ℚ) : Option (List (Option ℚ)) :=
  match source with
  | none => none
  | some z =>
    if allClose heights (sortHeights heights) = false then none
    else
      let props := (diffAppend heights z).map (fun d => if d ≠ 0 then some d else none)
      some (if upwards then props else props.reverse.drop 1 ++ [none])

end Specula
