import Mathlib.Algebra.Order.Field.Basic
import Mathlib.Algebra.Order.BigOperators.Group.Finset
import Mathlib.Data.Int.Notation
/-
Images on the screen: `specula/display/pixels_display.py`, `specula/display/pixels_pup_display.py` (image), `specula/display/psf_display.py`,
`specula/display/phase_display.py` and `specula/display/base_display.py` 94-98 (colour range).

An image is a list of rows, or the list of its values where only these matter.  Exceptions are `none`.  Of matplotlib only this is used:
`imshow` takes the smallest and largest value as colour range, `set_data` does not change the range.  Rounding is not modelled.
-/
namespace Specula

section
variable {α : Type}

/-- A bound of a slice `l[a:b]` of Python for a list of `n` elements: negative bounds count from the end. -/
def pyBound (n : ℕ) (a : ℤ) : ℕ := if a < 0 then (n + a).toNat else min a.toNat n

/-- `l[a:b]`. -/
def pySlice (l : List α) (a b : ℤ) : List α := (l.take (pyBound l.length b)).drop (pyBound l.length a)

/-- `image[y0:y1, x0:x1]`; this is `_apply_crop` with mode `slice` of pixels_pup_display.py 59-61. -/
def pySlice2 (img : List (List α)) (x0 x1 y0 y1 : ℤ) : List (List α) := (pySlice img y0 y1).map fun r => pySlice r x0 x1

/-- A bound in `_apply_crop`, pixels_display.py 93-107. -/
def cropBound (n : ℕ) (a : ℤ) : ℤ :=
  let a' := if a < 0 then n + a else a
  max 0 (min a' n)

/-- `_apply_crop` with mode `slice`, pixels_display.py 86-109; `w` is the number of columns. -/
def cropSlice (w : ℕ) (img : List (List α)) (x0 x1 y0 y1 : ℤ) : List (List α) :=
  pySlice2 img (cropBound w x0) (cropBound w x1) (cropBound img.length y0) (cropBound img.length y1)

/-- `_apply_crop` with mode `center`, pixels_display.py 111-123, pixels_pup_display.py 63-71. -/
def cropCenter (w : ℕ) (img : List (List α)) (cx cy hw hh : ℤ) : List (List α) :=
  pySlice2 img (max 0 (cx - hw)) (min w (cx + hw)) (max 0 (cy - hh)) (min img.length (cy + hh))

end

section
variable {K : Type} [Field K] [LinearOrder K]

/-- Range of the logarithmic scale, pixels_display.py 139-145, pixels_pup_display.py 164-170, psf_display.py 49-58. -/
def logLimits (r lo hi : K) : K × K :=
  let hi' := if hi ≤ 0 then 1 else hi
  (if hi' * r ≤ lo ∨ lo ≤ 0 then hi' * r else lo, hi')

/-- `np.clip`. -/
def clipTo (lim : K × K) (v : K) : K := min (max v lim.1) lim.2

/-- What is on the screen: values and colour range. -/
structure Shown (K : Type) where
  data : List K
  lo : K
  hi : K

/-- A frame in logarithmic scale, pixels_display.py 137-158. -/
def logView (r : K) (img : List K) : Option (Shown K) :=
  img.min?.bind fun lo => img.max?.map fun hi =>
    ⟨img.map (clipTo (logLimits r lo hi)), (logLimits r lo hi).1, (logLimits r lo hi).2⟩

/-- The threshold of `PsfDisplay`, psf_display.py 30-39. -/
def psfFloor (p2v : K) (img : List K) : Option (List K) :=
  if 0 < p2v then img.max?.map fun m => img.map fun v => max v (p2v⁻¹ * m) else some img

/-- `PsfDisplay` in logarithmic scale; `r₀` is 1e-6, psf_display.py 41-61. -/
def psfLog (r₀ p2v : K) (img : List K) : Option (Shown K) :=
  (psfFloor p2v img).bind (logView (if p2v = 0 then r₀ else 1 / p2v))

end

section
variable {K : Type} [LinearOrder K]

/-- A frame in linear scale: `PixelsDisplay` only replaces the data (pixels_display.py 150-158), the others also set the range
(`_update_image_data`, base_display.py 94-98, psf_display.py 63-69; pixels_pup_display.py 185-188). -/
def linView (rescale : Bool) (st : Option (Shown K)) (img : List K) : Option (Shown K) :=
  img.min?.bind fun lo => img.max?.map fun hi =>
    match st with
    | none => ⟨img, lo, hi⟩
    | some s => if rescale then ⟨img, lo, hi⟩ else ⟨img, s.lo, s.hi⟩

/-- Several frames. -/
def linRun (rescale : Bool) : Option (Shown K) → List (List K) → Option (Option (Shown K))
  | st, [] => some st
  | st, f :: fs => (linView rescale st f).bind fun s => linRun rescale (some s) fs

end

/-! ### Shack-Hartmann frames shown like those of a pyramid -/

section
variable {K : Type} [AddCommMonoid K]

/-- Sum over a quadrant of a subaperture with `2 * half` columns; `(a, b)` tells which. -/
def quadSum (half : ℕ) (v : ℕ → K) (a b : ℕ) : K :=
  ∑ i ∈ Finset.range half, ∑ j ∈ Finset.range half, v ((a * half + i) * (half * 2) + (b * half + j))

/-- Sums of the four quadrants of a subaperture of side `side`, `_reformat_as_pyramid`, pixels_display.py 167-173: `reshape` raises if the number of
values is another. -/
def asPyramid (side : ℕ) (v : ℕ → K) : Option (K × K × K × K) :=
  let half := side / 2
  if side * side = half * 2 * (half * 2) then some (quadSum half v 0 0, quadSum half v 0 1, quadSum half v 1 0, quadSum half v 1 1)
  else none

end

end Specula
