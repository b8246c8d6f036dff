import Verif.Model.EField
import Mathlib.Algebra.Order.Floor.Ring
/-
Model of the interpolation of layers: `specula/lib/make_xy.py` 139-175 (vector of coordinates without options),
`specula/lib/interp2d.py` 150-236 (`Interp2D.__init__` with precomputed coordinates) and 239-330 (`interpolate` on CPU), and
`specula/processing_objects/atmo_propagation.py` 394-472 (`setup_interpolators`, `layer_interpolator`).

Coordinates and values are elements of an ordered field with floor (exact arithmetic).  `RegularGridInterpolator(method='linear')` of
scipy is modelled by what it computes: in the cell that contains the point, the combination of the four corners with products of
distances.  Sine and cosine of the rotation are given numbers.  Exceptions are `none`.  Not modelled: GPU kernels, chromatic shifts
(added to the position by the caller of this model), `Interp2D.magnification` (1 here).
-/
namespace Specula

section
variable {K : Type} [Field K] [LinearOrder K] [IsStrictOrderedRing K] [FloorRing K]

/-- `make_xy(sampling, ratio)` along one axis, make_xy.py 157-161. -/
def makeXY (sampling : Nat) (ratio : K) (i : Nat) : K := ((i : K) - ((sampling : K) - 1) / 2) / ((sampling : K) / 2) * ratio

/-- Coordinates moved to the border when outside, interp2d.py 219-222. -/
def clampTo (n : Nat) (x : K) : K :=
  let x := if x < 0 then 0 else x
  if x > (n : K) - 1 then (n : K) - 1 else x

/-- First corner of the cell that contains a coordinate. -/
def cellIdx (n : Nat) (x : K) : Nat := min ⌊x⌋₊ (n - 2)

/-- Interpolation inside the image, interp2d.py 325-330. -/
def bilinear (rows cols : Nat) (px : Nat → Nat → K) (y x : K) : K :=
  let i := cellIdx rows y
  let j := cellIdx cols x
  let dy := y - i
  let dx := x - j
  (1 - dy) * ((1 - dx) * px i j + dx * px i (j + 1)) + dy * ((1 - dx) * px (i + 1) j + dx * px (i + 1) (j + 1))

/-- Rotation of the coordinates around the centre, interp2d.py 197-213, with cosine and sine; `none` when the angle is zero. -/
def rotateXY (rows cols : Nat) (rot : Option (K × K)) (x y : K) : K × K :=
  match rot with
  | none => (x, y)
  | some (c, s) =>
    let xc := (cols : K) / 2 - 1 / 2
    let yc := (rows : K) / 2 - 1 / 2
    ((x - xc) * c - (y - yc) * s + xc, (x - xc) * s + (y - yc) * c + yc)

/-- `Interp2D(...)` with coordinates given, then `interpolate`. -/
def interp2d (rows cols : Nat) (rot : Option (K × K)) (xx yy : Nat → Nat → K) (px : Nat → Nat → K) (i j : Nat) : K :=
  let (x, y) := rotateXY rows cols rot (xx i j) (yy i j)
  bilinear rows cols px (clampTo rows y) (clampTo cols x)

/-- What the propagation knows of a source: height (`none` for infinity), distance from the axis and direction. -/
structure SrcGeom (K : Type) where
  height : Option K
  r : K
  cosPhi : K
  sinPhi : K

/-- What the propagation knows of a layer; `magnification` is the value after `max(..., 1)`. -/
structure LayerGeom (K : Type) where
  rows : Nat
  cols : Nat
  pitch : K
  height : K
  shift : K × K
  rot : Option (K × K)
  mag : K

/-- Position of the centre of the beam on the layer, in pixels; atmo_propagation.py `layer_interpolator`. -/
def beamPos (airmass : K) (pupil : Nat) (pupilPos : Option (K × K)) (s : SrcGeom K) (l : LayerGeom K) : K × K :=
  match pupilPos, s.height with
  | some p, none =>
    if pupil < l.rows then
      let d := s.r * l.height * airmass / l.pitch
      (d * s.cosPhi + p.1 / l.pitch, d * s.sinPhi + p.2 / l.pitch)
    else
      let d := s.r * l.height * airmass / l.pitch
      (d * s.cosPhi, d * s.sinPhi)
  | some p, some h =>
    if pupil < l.rows then
      let d := s.r * h * airmass / l.pitch
      ((d * s.cosPhi - p.1 / l.pitch) * l.height / h + p.1 / l.pitch, (d * s.sinPhi - p.2 / l.pitch) * l.height / h + p.2 / l.pitch)
    else
      let d := s.r * l.height * airmass / l.pitch
      (d * s.cosPhi, d * s.sinPhi)
  | none, _ =>
    let d := s.r * l.height * airmass / l.pitch
    (d * s.cosPhi, d * s.sinPhi)

/-- Diameter of the beam on the layer, in pixels. -/
def beamSize (pupil : Nat) (s : SrcGeom K) (l : LayerGeom K) : K :=
  (match s.height with
    | none => (pupil : K)
    | some h => (pupil : K) * (abs (h - abs l.height) / h)) / (if l.mag = 1 then 1 else l.mag)

/-- Coordinates of the beam along columns (x) and rows (y), before rotation: the size along rows is used for both. -/
def beamX (pupil : Nat) (size pos : K) (l : LayerGeom K) (j : Nat) : K :=
  makeXY pupil (size / 2) j + (((l.rows : K) - 1) / 2 - l.shift.1) + pos
def beamY (pupil : Nat) (size pos : K) (l : LayerGeom K) (i : Nat) : K :=
  makeXY pupil (size / 2) i + (((l.rows : K) - 1) / 2 - l.shift.2) + pos

/-- `layer_interpolator`: `none` when the source is outside the field of view of the layer. -/
def layerInterp (airmass : K) (pupil : Nat) (pupilPos : Option (K × K)) (s : SrcGeom K) (l : LayerGeom K) :
    Option ((Nat → Nat → K) → Nat → Nat → K) :=
  let pos := beamPos airmass pupil pupilPos s l
  let size := beamSize pupil s l
  if |pos.1| ≤ ((l.rows : K) - pupil) / 2 ∧ |pos.2| ≤ ((l.cols : K) - pupil) / 2 then
    some (interp2d l.rows l.cols l.rot (fun _ j => beamX pupil size pos.1 l j) (fun i _ => beamY pupil size pos.2 l i))
  else none

/-- `diff_height > 0`. -/
def sourceAbove (airmass : K) (s : SrcGeom K) (l : LayerGeom K) : Bool :=
  match s.height with
  | none => true
  | some h => decide (0 < (h - l.height) * airmass)

/-- `setup_interpolators` for one source and one layer. -/
def setupView (airmass : K) (pupil : Nat) (pupilPos : Option (K × K)) (s : SrcGeom K) (l : LayerGeom K) : Option (View K) :=
  if (l.height = 0 ∨ (s.height = none ∧ s.r = 0)) ∧ l.shift = (0, 0) ∧ pupilPos.isNone ∧ l.rot.isNone ∧ l.mag = 1 then some View.cut
  else if sourceAbove airmass s l then (layerInterp airmass pupil pupilPos s l).map View.interp
  else none

end

end Specula
