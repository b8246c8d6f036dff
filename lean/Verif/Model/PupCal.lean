import Mathlib.Algebra.BigOperators.Group.List.Basic
import Mathlib.Algebra.BigOperators.Group.Finset.Basic
import Verif.Model.Ccd
/-
Model of the calibration of the four pupils of a pyramid, `specula/processing_objects/pyr_pupdata_calibrator.py` 195-262 and 355-462, with the masks of
`specula/data_objects/pupdata.py` 84-112.

Values are in an ordered field.  Distances and radii are compared by their squares; the radius of a mask of `m` pixels is the square root of `m / π`, where `π` is any
positive number of the field.  The sums that give back pixel coordinates (409-410, 424-425) go through a rounding `rd`.  An exception is `none`.  The detection of the
obstruction is not modelled: the ratio is any number.
-/
namespace Specula

section
variable {K : Type} [Field K] [LinearOrder K]

/-- The four quadrants and their offsets (x, y), 212-224: top left, top right, bottom left, bottom right. -/
def quadrant (a : Img K) (q : Fin 4) : Img K × (Nat × Nat) :=
  let cy := a.rows / 2
  let cx := a.cols / 2
  let dim := min cx cy
  let y0 := if q.val < 2 then cy - dim else cy
  let x0 := if q.val % 2 = 0 then cx - dim else cx
  (⟨dim, dim, fun i j => a.px (y0 + i) (x0 + j)⟩, (x0, y0))

/-- The values of an image, row after row. -/
def Img.flat (a : Img K) : List K := (List.range (a.rows * a.cols)).map fun p => a.px (p / a.cols) (p % a.cols)

/-- The mask of a pupil, 252-261: `none` if the image is empty (`min` of nothing is an error).  If nothing is above zero the mean is NaN and the mask is empty. -/
def pupilMask (thr1 thr2 : K) (a : Img K) : Option (Nat → Nat → Bool) :=
  (a.flat.min?).bind fun lo => (a.flat.max?).bind fun hi =>
  let s1 := lo + (hi - lo) * thr1
  let t := fun i j => if a.px i j < s1 then 0 else a.px i j
  let pos := (a.flat.map fun v => if v < s1 then 0 else v).filter fun v => decide (0 < v)
  if pos = [] then some fun _ _ => false
  else
    let s2 := pos.sum / (pos.length : K) * thr2
    some fun i j => decide (s2 ≤ t i j)

/-- Number of pixels of a mask. -/
def maskCount (rows cols : Nat) (m : Nat → Nat → Bool) : Nat := ∑ i ∈ Finset.range rows, ∑ j ∈ Finset.range cols, if m i j then 1 else 0

/-- Centre (x, y) and number of pixels of a mask, 263-271; zero if it is empty. -/
def maskCentre (rows cols : Nat) (m : Nat → Nat → Bool) : (K × K) × Nat :=
  let n := maskCount rows cols m
  if n = 0 then ((0, 0), 0)
  else (((∑ i ∈ Finset.range rows, ∑ j ∈ Finset.range cols, if m i j then (j : K) else 0) / n,
    (∑ i ∈ Finset.range rows, ∑ j ∈ Finset.range cols, if m i j then (i : K) else 0) / n), n)

/-- `_analyze_pupils`, 195-236: centre and number of pixels of each pupil. -/
def analyzePupils (thr1 thr2 : K) (a : Img K) (q : Fin 4) : Option ((K × K) × Nat) :=
  let (img, off) := quadrant a q
  (pupilMask thr1 thr2 img).map fun m =>
    let c := maskCentre img.rows img.cols m
    (((off.1 : K) + c.1.1, (off.2 : K) + c.1.2), c.2)

/-- Pixels of a disc or annulus, 370-382, 396-404: flat indices in increasing order. -/
def discPixels (h w : Nat) (c : K × K) (r2 ratio : K) : List Nat :=
  (List.range (h * w)).filter fun p =>
    let d2 := ((p % w : Nat) - c.1) * ((p % w : Nat) - c.1) + ((p / w : Nat) - c.2) * ((p / w : Nat) - c.2)
    decide (d2 ≤ r2 ∧ (0 < ratio → r2 * (ratio * ratio) ≤ d2))

variable [FloorRing K]

/-- Translated coordinate, 409-410 and 424-425: difference from the centre, centre added back, integer translation added. -/
def movedBy (rd : K → K) (c t : K) (x : Nat) : K := rd (rd (rd ((x : K) - c) + c) + t)

/-- One column of `ind_pup` in geometric mode, 416-443, without the padding; `none` if no pixel is left. -/
def geoColumn (rd : K → K) (h w : Nat) (c0 c : K × K) (ref : List Nat) : Option (List Int) :=
  let tx : K := roundEvenF (rd (c.1 - c0.1))
  let ty : K := roundEvenF (rd (c.2 - c0.2))
  let pts := ref.map fun p => (movedBy rd c0.1 tx (p % w), movedBy rd c0.2 ty (p / w))
  let valid := pts.filter fun p => decide (0 ≤ p.1 ∧ p.1 < (w : K) ∧ 0 ≤ p.2 ∧ p.2 < (h : K))
  if valid = [] then none else some (valid.map fun p => ⌊p.2⌋ * w + ⌊p.1⌋)

/-- Padding of a column with -1, 413, 389. -/
def padColumn (n : Nat) (l : List Int) : List Int := l ++ List.replicate (n - l.length) (-1)

/-- Rows that are -1 in the four columns are removed, 454-460; `none` if no row is left. -/
def dropEmptyRows (n : Nat) (cols : Fin 4 → List Int) : Option (Fin 4 → List Int) :=
  let keep := (List.range n).filter fun k => decide (∃ q : Fin 4, (cols q).getD k (-1) ≠ -1)
  if keep = [] then none else some fun q => keep.map fun k => (cols q).getD k (-1)

/-- `_generate_indices`, 355-462: columns in the order of the quadrants.  `cs` are centres and numbers of pixels. -/
def pupilIndices (rd : K → K) (π ratio : K) (fromIntensity : Bool) (h w : Nat) (cs : Fin 4 → (K × K) × Nat) : Option (Fin 4 → List Int) :=
  if ∃ q, (cs q).2 = 0 then none
  else if fromIntensity then
    let l := fun q => (discPixels h w (cs q).1 (((cs q).2 : K) / π) ratio).map fun p : Nat => (p : Int)
    let n := max (max (l 0).length (l 1).length) (max (l 2).length (l 3).length)
    dropEmptyRows n fun q => padColumn n (l q)
  else
    let big := max (max (cs 0).2 (cs 1).2) (max (cs 2).2 (cs 3).2)
    let ref := discPixels h w (cs 0).1 ((big : K) / π) ratio
    (geoColumn rd h w (cs 0).1 (cs 0).1 ref).bind fun k0 => (geoColumn rd h w (cs 0).1 (cs 1).1 ref).bind fun k1 =>
    (geoColumn rd h w (cs 0).1 (cs 2).1 ref).bind fun k2 => (geoColumn rd h w (cs 0).1 (cs 3).1 ref).bind fun k3 =>
    dropEmptyRows ref.length fun q => padColumn ref.length (match q with | 0 => k0 | 1 => k1 | 2 => k2 | 3 => k3)

/-- Order of the columns in the result, 178-179. -/
def pupOrder : Fin 4 → Fin 4
  | 0 => 1
  | 1 => 0
  | 2 => 2
  | 3 => 3

/-- `trigger_code`, 148-189, for one image: columns of `ind_pup`. -/
def calibratePupils (rd : K → K) (π thr1 thr2 ratio : K) (fromIntensity : Bool) (a : Img K) : Option (Fin 4 → List Int) :=
  (analyzePupils thr1 thr2 a 0).bind fun c0 => (analyzePupils thr1 thr2 a 1).bind fun c1 =>
  (analyzePupils thr1 thr2 a 2).bind fun c2 => (analyzePupils thr1 thr2 a 3).bind fun c3 =>
  (pupilIndices rd π ratio fromIntensity a.rows a.cols fun q => match q with | 0 => c0 | 1 => c1 | 2 => c2 | 3 => c3).map fun ind q => ind (pupOrder q)

end

/-- `put(f, idx, 1)`, pupdata.py 103: a negative index counts from the end. -/
def putMask (size : Nat) (idx : List Int) (p : Nat) : Bool := decide ((p : Int) ∈ idx ∨ (p : Int) - size ∈ idx)

/-- `single_mask`, pupdata.py 101-105: the top right quarter of the frame, row `i`, column `j`. -/
def pupSingleMask (h w : Nat) (col0 : List Int) (i j : Nat) : Bool := putMask (h * w) col0 (i * w + (w / 2 + j))

/-- `display_map`, pupdata.py 97-99: flat indices of the mask, in increasing order. -/
def pupDisplayMap (h w : Nat) (col0 : List Int) : List Nat :=
  (List.range (h / 2 * (w - w / 2))).filter fun p => pupSingleMask h w col0 (p / (w - w / 2)) (p % (w - w / 2))

end Specula
