import Verif.Model.Extrap
import Verif.Model.Generators
/-
Model of the cubes of phase screens.

* `specula/data_objects/spatio_temp_array.py` 47-90 (constructor, `set_value`), 122-149 (`restore`);
* `specula/processing_objects/phase_screen_cube.py` 73-91, 97-140, 152-163.

Times and phases are rational numbers (exact arithmetic).  Exceptions, and values that are not finite, are `none`.
-/
namespace Specula

/-! ### Arrays with time on one axis -/

/-- An array: lengths of the axes and elements. -/
structure NArr (V : Type) where
  shape : List Nat
  get : List Nat → V

/-- `moveaxis(a, -1, 0)`, spatio_temp_array.py 63 and 82. -/
def NArr.lastFirst {V : Type} (a : NArr V) : NArr V :=
  ⟨a.shape.getLastD 0 :: a.shape.dropLast, fun idx => a.get (idx.drop 1 ++ [idx.headD 0])⟩

/-- Constructor, spatio_temp_array.py 47-67, for a vector of `ntime` times. -/
def staInit {V : Type} (a : NArr V) (ntime : Nat) (axis : Int) : Option (NArr V) :=
  if axis ≠ 0 ∧ axis ≠ -1 then none
  else if a.shape = [] then none
  else if (if axis = 0 then a.shape.headD 0 else a.shape.getLastD 0) ≠ ntime then none
  else if axis = -1 ∧ 1 < a.shape.length then some a.lastFirst
  else some a

/-- `set_value`, spatio_temp_array.py 73-90: the new contents. -/
def staSet {V : Type} (cur a : NArr V) : Option (NArr V) :=
  if a.shape = cur.shape then some a
  else if a.shape.length = cur.shape.length ∧ 1 < a.shape.length ∧ a.shape.getLastD 0 = cur.shape.headD 0 ∧ a.lastFirst.shape = cur.shape then some a.lastFirst
  else none

/-! ### Phase screen at a time -/

/-- A cube: times, and screens of `rows` times `cols` pixels. -/
structure ScreenCube where
  times : List ℚ
  rows : Nat
  cols : Nat
  screen : Nat → Nat → Nat → ℚ

/-- `cur_screen`, phase_screen_cube.py 112-124, at `now` seconds.  Index -1 is the last element. -/
def cubeScreen (c : ScreenCube) (scale now : ℚ) : Option (Nat → Nat → ℚ) :=
  if c.times.all fun x => decide (x < now) then none
  else
    let n := c.times.length
    let dt : Nat → ℚ := fun k => c.times.getD k 0 - now
    let k0 := searchRight dt 0 0 n
    let k := if n ≤ k0 then n - 1 else k0
    let l := if k = 0 then n - 1 else k - 1
    let step := c.times.getD k 0 - c.times.getD l 0
    if step = 0 then none
    else some fun i j => scale / step * (dt k * c.screen l i j + |dt l| * c.screen k i j)

/-- `bin_fact`, phase_screen_cube.py 105-106: the first axis after time. -/
def cubeBin (c : ScreenCube) (pupil : Nat) (pixelScale pitch : ℚ) : ℚ := c.rows / pupil * pixelScale / pitch

/-- Parameters of the interpolator, phase_screen_cube.py 131-138. -/
def cubeParams (c : ScreenCube) (pupil : Nat) (pixelScale pitch : ℚ) : EFIParams ℚ :=
  ⟨c.rows, c.cols, pupil, pupil, none, 0, 0, cubeBin c pupil pixelScale pitch, 1 / 1000, false⟩

/-- Phase of the outputs, phase_screen_cube.py 126-140 and 153-155; the amplitude of `in_ef` is one.  The assignment of a screen that is
not square raises (129). -/
def cubePhase (c : ScreenCube) (pupil : Nat) (pixelScale pitch scale now : ℚ) : Option (Nat → Nat → ℚ) :=
  (cubeScreen c scale now).bind fun s =>
    if c.rows ≠ c.cols then none
    else
      let P := cubeParams c pupil pixelScale pitch
      P.init.map fun b => if b then efiPhase id P (efiPrepare P none fun _ _ => 1) (fun _ _ => 1) s else s

/-! ### Names of the outputs -/

/-- `name.replace('_layer', '_ef')`, phase_screen_cube.py 162. -/
def replaceLayer (s : List Char) : List Char :=
  match s with
  | [] => []
  | c :: cs =>
    if ['_', 'l', 'a', 'y', 'e', 'r'] <+: c :: cs then ['_', 'e', 'f'] ++ replaceLayer (cs.drop 5) else c :: replaceLayer cs
termination_by s.length
decreasing_by all_goals simp

/-- Names of the two outputs of a source, phase_screen_cube.py 76-77. -/
def layerName (name : List Char) : List Char := ['o', 'u', 't', '_'] ++ name ++ ['_', 'l', 'a', 'y', 'e', 'r']
def efName (name : List Char) : List Char := ['o', 'u', 't', '_'] ++ name ++ ['_', 'e', 'f']

/-- The field whose time is updated with the layer, phase_screen_cube.py 162-163: looked up by its name, KeyError if there is none. -/
def cubeStamps (names : List (List Char)) (name : List Char) : Option (List Char) :=
  if replaceLayer (layerName name) ∈ names.map efName then some (replaceLayer (layerName name)) else none

end Specula
