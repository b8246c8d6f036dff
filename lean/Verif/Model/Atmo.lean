import Verif.Model.Interp
import Mathlib.Analysis.Real.Sqrt
/-
Model of `specula/processing_objects/atmo_evolution.py`: size of the layers in the constructor (106-118), cutting the square screens
into strips in `compute` (166-222, screens of equal outer scale), position along the wind and cut of the screens in `trigger_code` and
`_update_layer_list` (279-372).

All operations on layers are element by element, so the model follows one layer.  Numbers are elements of an ordered field with floor
(exact arithmetic; the code keeps positions in `dtype`).  Exceptions are `none`.  Not modelled: the content of the screens, the value
of the seeing scale, and the interpolating rotation of scipy, which is a given function of the fraction of the angle.
-/
namespace Specula

section
variable {K : Type} [Field K] [LinearOrder K] [IsStrictOrderedRing K] [FloorRing K]

/-- One layer: size in pixels (`pixel_layer`), screen, `extra_delta_time`. -/
structure AtmoLayer (K : Type) where
  size : Nat
  screen : Img K
  extra : K

/-- Inputs of one trigger: wind speed and direction of the layer, time since the last trigger, scale of the seeing. -/
structure AtmoIn (K : Type) where
  wind : K
  dir : K
  dt : K
  scale : K

/-- `extra_offset`, atmo_evolution.py 330. -/
def atmoOffset (l : AtmoLayer K) (pitch wind : K) : K := wind * l.extra / pitch

/-- `new_position`, atmo_evolution.py 333-341. -/
def atmoMove (l : AtmoLayer K) (pitch pos wind dt : K) : K :=
  let new := pos + wind * dt / pitch
  if new + atmoOffset l pitch wind + l.size ≥ l.screen.cols then 0 else new

/-- Length of two axes broadcast together. -/
def bcastLen (a b : Nat) : Option Nat := if a = b then some a else if a = 1 then some b else if b = 1 then some a else none

/-- Interpolation between two cuts of the screen, atmo_evolution.py 351-357. -/
def atmoCut (l : AtmoLayer K) (eff : K) : Option (Img K) :=
  let pos := ⌊eff⌋
  let rem := eff - pos
  (sliceIdx l.screen.rows ⟨some 0, some l.size, none⟩).bind fun rs =>
  (sliceIdx l.screen.cols ⟨some pos, some (pos + l.size), none⟩).bind fun c1 =>
  (sliceIdx l.screen.cols ⟨some (pos + 1), some (pos + l.size + 1), none⟩).bind fun c2 =>
  (bcastLen c1.length c2.length).map fun n =>
    ⟨rs.length, n, fun i j => (1 - rem) * l.screen.px (rs.getD i 0) (bcast c1 j) + rem * l.screen.px (rs.getD i 0) (bcast c2 j)⟩

/-- `numpy.rot90(m)`: one quarter of turn. -/
def Img.rot90 (m : Img K) : Img K := ⟨m.cols, m.rows, fun i j => m.px j (m.cols - 1 - i)⟩

/-- `numpy.rot90(m, k)`. -/
def Img.rot90k (m : Img K) (k : Int) : Img K := Img.rot90^[(k % 4).toNat] m

/-- Integer part of `modf`: truncation. -/
def truncPart (x : K) : Int := if x < 0 then ⌈x⌉ else ⌊x⌋

/-- `layer.phaseInNm[:] = x`: shapes must fit the layer. -/
def assignSquare (n : Nat) (m : Img K) : Option (Nat → Nat → K) :=
  if (m.rows = n ∨ m.rows = 1) ∧ (m.cols = n ∨ m.cols = 1) then
    some fun i j => m.px (if m.rows = 1 then 0 else i) (if m.cols = 1 then 0 else j)
  else none

/-- One trigger: new position and phase of the layer; `rotFn` is the interpolating rotation by an angle in degrees. -/
def atmoTrigger (rotFn : K → Img K → Img K) (l : AtmoLayer K) (pitch pos : K) (inp : AtmoIn K) : Option (K × (Nat → Nat → K)) :=
  let new := atmoMove l pitch pos inp.wind inp.dt
  let eff := new + atmoOffset l pitch inp.wind
  let wdi := truncPart (inp.dir / 90)
  let wdf := (inp.dir / 90 - wdi) * 90
  (atmoCut l eff).bind fun cut =>
  let turned := cut.rot90k wdi
  let turned := if wdf = 0 then turned else rotFn wdf turned
  (assignSquare l.size turned).map fun ph => (new, fun i j => ph i j * inp.scale)

/-- A history of triggers, starting from a position; the phase is that of the last one. -/
def atmoRun (rotFn : K → Img K → Img K) (l : AtmoLayer K) (pitch : K) (st : K × (Nat → Nat → K)) (inps : List (AtmoIn K)) :
    Option (K × (Nat → Nat → K)) := inps.foldlM (fun st i => atmoTrigger rotFn l pitch st.1 i) st

end

/-- The loop of `compute` that cuts the square screens, atmo_evolution.py 196-212: for each layer the index of the square screen and
the first row of its strip. -/
def stripLoop (perSquare px n : Nat) : List (Int × Nat) :=
  ((List.range n).foldl (fun (st : Int × Nat × List (Int × Nat)) i =>
    let (sq, ps) := if i % perSquare = 0 then (st.1 + 1, 0) else (st.1, st.2.1)
    (sq, ps + 1, st.2.2 ++ [(sq, px * ps)])) (-1, 0, [])).2.2

/-- Number of strips in one square screen and number of square screens, atmo_evolution.py 176-180. -/
def stripsPerSquare (square px : Nat) : Nat := square / px
def nSquares (n perSquare : Nat) : Nat := (n + perSquare - 1) / perSquare

/-- `pixel_layer`, atmo_evolution.py 108-113, for one layer at distance `dist` from the pupil and a field of view in radians. -/
noncomputable def pixelLayer (pupil : Nat) (pitch : ℝ) (pupilPos : ℝ × ℝ) (dist fov : ℝ) : ℤ :=
  ⌈((pupil : ℝ) + 2 * Real.sqrt (pupilPos.1 * 2 + pupilPos.2 * 2) / pitch + |dist| / pitch * fov) / 2⌉ * 2

end Specula
