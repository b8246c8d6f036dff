import Verif.Model.LoopTf
import Verif.Model.LowPass
/-
Model of the exchange of filters with the library `control`: `to_control_tf` (990-1023), `to_control_tf_list` (1025-1042) and `from_control_tf` (1044-1093) of
`specula/data_objects/iir_filter_data.py`.

Of `control.TransferFunction` only the two lists of coefficients, highest order first, are modelled; its constructor removes leading zeros and
raises for a zero denominator.  Numbers are real.
-/
namespace Specula

noncomputable section

/-- A `control.TransferFunction`: coefficients highest order first. -/
structure CtrlTf where
  num : List ℝ
  den : List ℝ

open Classical in
/-- Leading zeros are removed; one coefficient remains. -/
def dropLead : List ℝ → List ℝ
  | a :: b :: l => if a = 0 then dropLead (b :: l) else a :: b :: l
  | l => l

open Classical in
/-- The constructor of `control.TransferFunction`. -/
def mkCtrlTf (num den : List ℝ) : Option CtrlTf :=
  if ∀ a ∈ den, a = 0 then none else some ⟨dropLead num, dropLead den⟩

/-- `to_control_tf`, iir_filter_data.py 1008-1023: common zeros of lowest order are removed. -/
def toControl (c : IirCoef ℝ) : Option CtrlTf :=
  let num := (stripZeros c.num c.den).1
  let den := (stripZeros c.num c.den).2
  mkCtrlTf num.reverse den.reverse

/-- `to_control_tf_list`, iir_filter_data.py 1025-1042. -/
def toControlList : List (IirCoef ℝ) → Option (List CtrlTf)
  | [] => some []
  | c :: cs => (toControl c).bind fun t => (toControlList cs).map fun ts => t :: ts

/-- The length of all the rows, iir_filter_data.py 1067-1072. -/
def ctrlLen (tfs : List CtrlTf) : ℕ :=
  max ((tfs.map fun t => t.num.length).foldl max 0) ((tfs.map fun t => t.den.length).foldl max 0)

/-- `from_control_tf`, iir_filter_data.py 1080-1093, with the alignment done by `IirFilterData` (105-132). -/
def fromControl (tfs : List CtrlTf) : List (IirCoef ℝ) :=
  tfs.map fun t => ⟨alignCoef t.num.length (frontPad (ctrlLen tfs) t.num.reverse), alignCoef t.den.length (frontPad (ctrlLen tfs) t.den.reverse)⟩

end

end Specula
