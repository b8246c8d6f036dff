import Mathlib.Data.Real.Basic
/-
Model of `specula/display/modes_display.py`: the line and the limits of the axes over the life of the display.

Matplotlib is reduced to the values of the line and the two pairs of limits (`none`: its own choice).  Numbers are real.  Drawing, labels and the
reference line at zero are not modelled.
-/
namespace Specula

noncomputable section

/-- State of `ModesDisplay`, modes_display.py 21-23. -/
structure ModesDisp where
  xrange : Option (ℝ × ℝ)
  yrange : ℝ × ℝ
  line : Option (List ℝ)
  xlim : Option (ℝ × ℝ)
  ylim : Option (ℝ × ℝ)

/-- A new display, modes_display.py 10-23. -/
def newModes (xrange : Option (ℝ × ℝ)) (yrange : ℝ × ℝ) : ModesDisp := ⟨xrange, yrange, none, none, none⟩

/-- `y.min()` and `y.max()`; `none` is the exception for an empty vector. -/
def vecMin : List ℝ → Option ℝ
  | [] => none
  | a :: l => some (l.foldl min a)

def vecMax : List ℝ → Option ℝ
  | [] => none
  | a :: l => some (l.foldl max a)

/-- Limits from the data, modes_display.py 50, 72. -/
def autoLim (y : List ℝ) : Option (ℝ × ℝ) := (vecMin y).bind fun a => (vecMax y).map fun b => (a * (11 / 10), b * (11 / 10))

/-- Limits of the horizontal axis, modes_display.py 40-43, 65-68. -/
def setXlim (d : ModesDisp) (y : List ℝ) : Option (ℝ × ℝ) := match d.xrange with
  | some r => some r
  | none => if 0 < y.length then some (0, (y.length : ℝ) - 1) else d.xlim

/-- `_update_display`, modes_display.py 29-75, and whether it ends without an exception. -/
def updateModes (d : ModesDisp) (y : List ℝ) : ModesDisp × Bool :=
  match d.line with
  | none =>
    let d1 := { d with line := some y, xlim := setXlim d y }
    if 0 < |d.yrange.1| + |d.yrange.2| then ({ d1 with ylim := some d.yrange }, true)
    else match autoLim y with
      | some r => ({ d1 with ylim := some r }, true)
      | none => (d1, false)
  | some _ =>
    let d1 := { d with line := some y, xlim := setXlim d y }
    if |d.yrange.1| + |d.yrange.2| = 0 then
      match autoLim y with
      | some r => ({ d1 with ylim := some r }, true)
      | none => (d1, false)
    else (d1, true)

/-- `set_x_range`, modes_display.py 77-82. -/
def setXRange (d : ModesDisp) (r : ℝ × ℝ) : ModesDisp :=
  { d with xrange := some r, xlim := if d.line.isSome then some r else d.xlim }

/-- `set_y_range`, modes_display.py 84-89. -/
def setYRange (d : ModesDisp) (r : ℝ × ℝ) : ModesDisp :=
  { d with yrange := r, ylim := if d.line.isSome then some r else d.ylim }

/-- What happens to a display. -/
inductive ModesOp
  | frame (y : List ℝ)
  | setX (r : ℝ × ℝ)
  | setY (r : ℝ × ℝ)

/-- One of them. -/
def modesStep (d : ModesDisp) : ModesOp → ModesDisp
  | .frame y => (updateModes d y).1
  | .setX r => setXRange d r
  | .setY r => setYRange d r

/-- A sequence of them. -/
def modesRun (d : ModesDisp) (ops : List ModesOp) : ModesDisp := ops.foldl modesStep d

end

end Specula
