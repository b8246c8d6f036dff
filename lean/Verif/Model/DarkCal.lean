import Mathlib.Algebra.Order.Field.Basic
import Mathlib.Algebra.BigOperators.Group.List.Basic
/-
Model of `specula/processing_objects/dynamic_dark_calibrator.py` 92-208 (`DynamicDarkCalibrator`: `prepare_trigger`, `trigger_code`).

`P` indexes the pixels, values are in a field (exact arithmetic).  One step is one trigger of the object; it happens whenever any of the
inputs is refreshed, with the frame that is on `in_pixels` at that time.  Requests are present when their input is refreshed at the
step.  Exceptions that leave the object are `none`.  Not modelled: saving, files (a request to load carries the content of the file, or
`none` if it cannot be read), data types of the pixels.
-/
namespace Specula

section
variable {P K : Type} [Field K]

structure DarkState (P K : Type) where
  dark : P → K
  darkTime : ℤ
  subtracted : P → K
  integrated : P → K
  counter : ℕ
  nframes : ℕ

/-- Inputs at one trigger. -/
structure DarkStep (P K : Type) where
  time : ℤ
  frame : P → K
  trigger : Bool := false
  reset : Bool := false
  nframes : Option ℤ := none
  load : Option (Option (P → K)) := none

/-- Construction and `setup`, dynamic_dark_calibrator.py 94-101, 112-116, 139-154; `none`: number of frames not positive. -/
def darkInit (nframes : ℤ) : Option (DarkState P K) :=
  if nframes ≤ 0 then none
  else some { dark := fun _ => 0, darkTime := -1, subtracted := fun _ => 0, integrated := fun _ => 0, counter := 0, nframes := nframes.toNat }

/-- New number of frames, dynamic_dark_calibrator.py 188-196.  A bad value raises inside the `try`, but the handler raises again:
it asks for `e.__name__`, which exceptions do not have. -/
def darkNframes (s : DarkState P K) (r : Option ℤ) : Option (DarkState P K) :=
  match r with
  | none => some s
  | some n => if n ≤ 0 then none else some { s with nframes := n.toNat }

/-- Loading a dark, dynamic_dark_calibrator.py 198-208.  `self.darkframe.restore(path)` calls the static method `Pixels.restore`, which
returns a new object; that is dropped and only the generation time changes.  A file that cannot be read raises as above. -/
def darkLoad (s : DarkState P K) (t : ℤ) (r : Option (Option (P → K))) : Option (DarkState P K) :=
  match r with
  | none => some s
  | some none => none
  | some (some _) => some { s with darkTime := t }

/-- Requests for a new dark and for a reset, dynamic_dark_calibrator.py 178-185. -/
def darkRequests (s : DarkState P K) (trigger reset : Bool) : DarkState P K :=
  { s with counter := if trigger then s.nframes else s.counter, dark := if reset then fun p => s.dark p * 0 else s.dark }

/-- `prepare_trigger`, dynamic_dark_calibrator.py 175-208. -/
def darkPrepare (s : DarkState P K) (x : DarkStep P K) : Option (DarkState P K) :=
  (darkNframes (darkRequests s x.trigger x.reset) x.nframes).bind fun s => darkLoad s x.time x.load

/-- `trigger_code`, dynamic_dark_calibrator.py 156-173. -/
def darkTrigger (s : DarkState P K) (x : DarkStep P K) : DarkState P K :=
  let s := { s with subtracted := fun p => x.frame p - s.dark p }
  if s.counter = 0 then s
  else
    let integrated := fun p => s.integrated p + x.frame p
    if s.counter - 1 = 0 then
      { s with dark := fun p => integrated p / s.nframes, darkTime := x.time, integrated := fun p => integrated p * 0, counter := 0 }
    else { s with integrated := integrated, counter := s.counter - 1 }

/-- One trigger of the object. -/
def darkStep (s : DarkState P K) (x : DarkStep P K) : Option (DarkState P K) := (darkPrepare s x).map fun s => darkTrigger s x

/-- A history of triggers. -/
def darkRun (s : DarkState P K) (xs : List (DarkStep P K)) : Option (DarkState P K) := xs.foldlM darkStep s

end
end Specula
