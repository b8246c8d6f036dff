import Verif.Model.Stability
import Mathlib.Analysis.SpecialFunctions.Trigonometric.Basic
/-
Model of the transfer functions of `specula/data_objects/iir_filter_data.py`: `RTF` (193-275), `NTF` (277-359) and `frequency_response`
(361-402), at one frequency.

Numbers are real or complex, without rounding; the infinite value given where the denominator is too small is `none`.  Not modelled: the
plots, the verbose output and the default vector of frequencies.
-/
namespace Specula

noncomputable section

/-- The plant of `RTF` and `NTF`, iir_filter_data.py 203-204: `nw / (dm * dw)`. -/
structure PlantTf where
  dm : List ℝ
  nw : List ℝ
  dw : List ℝ

/-- Numerator and denominator of the plant, 1 if not given, iir_filter_data.py 225-233. -/
def plantCoef : Option PlantTf → List ℝ × List ℝ
  | some p => (p.nw, convolve p.dm p.dw)
  | none => ([1], [1])

/-- Numerator and denominator of controller times plant, with the same length, iir_filter_data.py 235-246. -/
def openLoop (c : IirCoef ℝ) (p : Option PlantTf) : List ℝ × List ℝ :=
  let pNum := (plantCoef p).1
  let pDen := (plantCoef p).2
  let pNum := if pNum.length < pDen.length then padTo pDen.length pNum else pNum
  let cpNum := convolve c.num pNum
  let cpDen := convolve c.den pDen
  let n := max cpNum.length cpDen.length
  (padTo n cpNum, padTo n cpDen)

open Classical in
/-- Common initial zeros are removed, iir_filter_data.py 378-381. -/
def stripZeros : List ℝ → List ℝ → List ℝ × List ℝ
  | a :: a' :: as, b :: b' :: bs => if a = 0 ∧ b = 0 then stripZeros (a' :: as) (b' :: bs) else (a :: a' :: as, b :: b' :: bs)
  | num, den => (num, den)

/-- `np.polyval(l[::-1], z)`. -/
def polyval (l : List ℝ) (z : ℂ) : ℂ := l.foldr (fun a acc => acc * z + (a : ℂ)) 0

open Classical in
/-- `frequency_response` at one frequency, iir_filter_data.py 374-402; `ε` is 1e-15. -/
def freqResponse (ε fs freq : ℝ) (num den : List ℝ) : Option ℂ :=
  let num' := (stripZeros num den).1
  let den' := (stripZeros num den).2
  let num' := if num'.length = 0 then [0] else num'
  let den' := if den'.length = 0 then [1] else den'
  let x := freq / (fs / 2) * Real.pi
  let z := Complex.exp (Complex.I * x)
  if ε < ‖polyval den' z‖ then some (polyval num' z / polyval den' z) else none

/-- The complex value of which `RTF` returns the modulus, iir_filter_data.py 248-257. -/
def rtfComplex (ε fs freq : ℝ) (c : IirCoef ℝ) (p : Option PlantTf) : Option ℂ :=
  let o := openLoop c p
  freqResponse ε fs freq o.2 (List.zipWith (· + ·) o.2 o.1)

/-- The complex value of which `NTF` returns the modulus, iir_filter_data.py 332-341. -/
def ntfComplex (ε fs freq : ℝ) (c : IirCoef ℝ) (p : Option PlantTf) : Option ℂ :=
  let o := openLoop c p
  freqResponse ε fs freq o.1 (List.zipWith (· + ·) o.2 o.1)

/-- `RTF`. -/
def rtf (ε fs freq : ℝ) (c : IirCoef ℝ) (p : Option PlantTf) : Option ℝ := (rtfComplex ε fs freq c p).map fun h => ‖h‖

/-- `NTF`. -/
def ntf (ε fs freq : ℝ) (c : IirCoef ℝ) (p : Option PlantTf) : Option ℝ := (ntfComplex ε fs freq c p).map fun h => ‖h‖

end

end Specula
