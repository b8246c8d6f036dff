import Verif.Model.Stability
import Mathlib.Analysis.SpecialFunctions.Trigonometric.Basic
/-
Model of the low pass filters: `specula/data_objects/iir_filter_data.py` `lpf_from_fc` (853-921), `lpf_from_fc_and_ampl` (923-973), the
alignment of the coefficients by the constructor (105-132), and `specula/processing_objects/low_pass_filter.py` (8-40).  The filter itself is the
`IirFilter` of `Verif.Model.Filter`, with the integration on (the default).

Numbers are real.  Exceptions are `none`.  The order is a natural number (a negative even order fails in `np.zeros`).  Simplified: the
time step is positive, so `1 / time_step` is the sampling frequency.
-/
namespace Specula

noncomputable section

/-- `omega = np.tan(np.pi * fr)`, `fr = fc / fs`, iir_filter_data.py 880-881. -/
def lpfOmega (fc fs : ℝ) : ℝ := Real.tan (Real.pi * (fc / fs))

/-- The filter of order 1, iir_filter_data.py 883-889. -/
def lpfFirst (ω : ℝ) : IirCoef ℝ :=
  let a0 := ω / (1 + ω)
  let b1 := -(1 - a0)
  ⟨[0, a0], [b1, 1]⟩

/-- The second order section `k` of a filter of order `n`, iir_filter_data.py 896-907. -/
def lpfSection (n k : Nat) (ω : ℝ) : IirCoef ℝ :=
  let ck := 1 + 2 * Real.cos (Real.pi * (2 * k + 1) / (2 * n)) * ω + ω ^ 2
  let a0 := ω ^ 2 / ck
  let a1 := 2 * a0
  let a2 := a0
  let b1 := 2 * (ω ^ 2 - 1) / ck
  let b2 := (1 - 2 * Real.cos (Real.pi * (2 * k + 1) / (2 * n)) * ω + ω ^ 2) / ck
  ⟨[a2, a1, a0], [b2, b1, 1]⟩

/-- One turn of the loop on the poles, iir_filter_data.py 909-911. -/
def lpfTurn (n : Nat) (ω : ℝ) (c : IirCoef ℝ) (k : Nat) : IirCoef ℝ :=
  ⟨convolve c.num (lpfSection n k ω).num, convolve c.den (lpfSection n k ω).den⟩

/-- `num_total` and `den_total`, iir_filter_data.py 883-911. -/
def lpfTotal (n : Nat) (ω : ℝ) : IirCoef ℝ :=
  if n = 1 then lpfFirst ω
  else (List.range (n / 2)).foldl (lpfTurn n ω) ⟨[1], [1]⟩

/-- `num[i, n_coeff - len(num_total):] = num_total` in an array of zeros, iir_filter_data.py 918-919. -/
def frontPad (n : Nat) (l : List ℝ) : List ℝ := List.replicate (n - l.length) 0 ++ l

/-- `n_coeff`, iir_filter_data.py 864-867. -/
def lpfLen (n : Nat) : Nat := if n = 1 then 2 else 2 * n + 1

/-- The coefficients stored by the constructor of `IirFilterData` (`set_num` and `set_den`, 105-132) for the row with the given numbers of
coefficients. -/
def storedCoef (ordNum ordDen : Nat) (c : IirCoef ℝ) : IirCoef ℝ := ⟨alignCoef ordNum c.num, alignCoef ordDen c.den⟩

/-- The filter built by `lpf_from_fc` for one cut-off frequency, iir_filter_data.py 876-921. -/
def lpfRow (fs : ℝ) (n : Nat) (fc : ℝ) : Option (IirCoef ℝ) :=
  if fc ≥ fs / 2 then none
  else
    let t := lpfTotal n (lpfOmega fc fs)
    if t.num.length > lpfLen n then none
    else some (storedCoef t.num.length t.den.length ⟨frontPad (lpfLen n) t.num, frontPad (lpfLen n) t.den⟩)

/-- `lpf_from_fc`, iir_filter_data.py 853-921. -/
def lpfFromFc (fc : List ℝ) (fs : ℝ) (n : Nat) : Option (List (IirCoef ℝ)) :=
  if n ≠ 1 ∧ n % 2 ≠ 0 then none
  else fc.mapM (lpfRow fs n)

/-- The filter built by `lpf_from_fc_and_ampl` for one cut-off frequency and one amplification, iir_filter_data.py 945-971. -/
def lpfAmplRow (fs fc ampl : ℝ) : Option (IirCoef ℝ) :=
  if fc ≥ fs / 2 then none
  else
    let fr := fc / fs
    let ω := 2 * Real.pi * fr
    let α := Real.sin ω / (2 * ampl)
    let a0 := (1 - Real.cos ω) / 2
    let a1 := 1 - Real.cos ω
    let a2 := (1 - Real.cos ω) / 2
    let b0 := 1 + α
    let b1 := -2 * Real.cos ω
    let b2 := 1 - α
    some (storedCoef 3 3 ⟨[a2 / b0, a1 / b0, a0 / b0], [b2 / b0, b1 / b0, 1]⟩)

/-- `ampl` extended to the number of filters, iir_filter_data.py 928-935: `np.full(n, ampl)` accepts an array of one element only. -/
def lpfAmplVec (n : Nat) (ampl : List ℝ) : Option (List ℝ) :=
  if ampl.length = n then some ampl
  else if ampl.length = 1 then some (List.replicate n (ampl.getD 0 0))
  else none

/-- `lpf_from_fc_and_ampl`, iir_filter_data.py 923-973. -/
def lpfFromFcAmpl (fc ampl : List ℝ) (fs : ℝ) : Option (List (IirCoef ℝ)) := do
  let ampl ← lpfAmplVec fc.length ampl
  (fc.zip ampl).mapM fun p => lpfAmplRow fs p.1 p.2

/-- The filters of a `LowPassFilter`, low_pass_filter.py 22-33.  With neither parameter `n_ord % 2` is evaluated on `None`. -/
def lowPass (timeStep : ℝ) (fc : List ℝ) (amplifFact : Option (List ℝ)) (nOrd : Option Nat) : Option (List (IirCoef ℝ)) :=
  let fs := 1 / timeStep
  if let some a := amplifFact then
    if nOrd.isSome then none else lpfFromFcAmpl fc a fs
  else nOrd.bind fun n => lpfFromFc fc fs n

end

end Specula
