import Mathlib.Analysis.SpecialFunctions.Trigonometric.Basic
import Mathlib.Analysis.SpecialFunctions.Complex.Arg
import Mathlib.Analysis.Real.Sqrt
/-
Demodulation of a signal and estimation of the optical gain: `specula/lib/demodulate_signal.py`,
`specula/processing_objects/demodulator.py` and `specula/processing_objects/optical_gain_estimator.py`.

Signals are sequences of real numbers of which the first `nt` are used; rounding is not modelled.  The number of windows that are
averaged at the end (`n4mean`, demodulate_signal.py 79-91) depends only on the number of samples and the two frequencies: here it is a
parameter.
-/
namespace Specula

section

/-- `numpy.mean` of the first `n` elements. -/
noncomputable def avgOf (n : ℕ) (x : ℕ → ℝ) : ℝ := (∑ i ∈ Finset.range n, x i) / n

/-- Removal of the mean and of a tilt, demodulate_signal.py 94-100 (`d = nt`) and 123-126 (`n = j + 1`, `d = j`): the tilt is the
difference between the last and the first sample divided by `d`. -/
noncomputable def detrended (n : ℕ) (d : ℝ) (x : ℕ → ℝ) : ℕ → ℝ :=
  let c := fun i : ℕ => x i - avgOf n x
  let tilt := (c (n - 1) - c 0) / d
  fun i => c i - tilt * i - c 0

/-- `numpy.arctan2(y, x)`. -/
noncomputable def arctan2 (y x : ℝ) : ℝ := Complex.arg ⟨x, y⟩

/-- The phase of the reference carrier, demodulate_signal.py 103-108. -/
noncomputable def demodPhase (nt : ℕ) (w dt : ℝ) (x : ℕ → ℝ) : ℝ :=
  let cur := detrended nt nt x
  arctan2 (avgOf nt fun i => cur i * Real.sin (w * (i * dt))) (avgOf nt fun i => cur i * Real.cos (w * (i * dt)))

/-- Amplitude of a window of `n` samples with phased carriers, demodulate_signal.py 128-133 and 150-153. -/
noncomputable def windowAmp (n : ℕ) (w dt φ : ℝ) (cur : ℕ → ℝ) : ℝ :=
  let qa := avgOf n fun i => cur i * Real.sin (w * (i * dt) - φ)
  let pa := avgOf n fun i => cur i * Real.cos (w * (i * dt) - φ)
  2 * Real.sqrt (qa ^ 2 + pa ^ 2)

/-- `demodulate_signal` with `cumulated=False`: the amplitude, demodulate_signal.py 148-153. -/
noncomputable def demodSimple (nt : ℕ) (w dt : ℝ) (x : ℕ → ℝ) : ℝ :=
  windowAmp nt w dt (demodPhase nt w dt x) (detrended nt nt x)

/-- `demodulate_signal` with `cumulated=False`: the phase, demodulate_signal.py 150-156. -/
noncomputable def demodSimplePhase (nt : ℕ) (w dt : ℝ) (x : ℕ → ℝ) : ℝ :=
  let cur := detrended nt nt x
  let φ := demodPhase nt w dt x
  arctan2 (avgOf nt fun i => cur i * Real.sin (w * (i * dt) - φ)) (avgOf nt fun i => cur i * Real.cos (w * (i * dt) - φ)) + φ

/-- Amplitude of the window of the samples up to `j`, demodulate_signal.py 121-133. -/
noncomputable def cumAmp (nt : ℕ) (w dt : ℝ) (x : ℕ → ℝ) (j : ℕ) : ℝ :=
  windowAmp (j + 1) w dt (demodPhase nt w dt x) (detrended (j + 1) j x)

/-- `demodulate_signal` with `cumulated=True`: the amplitude, demodulate_signal.py 115-147. -/
noncomputable def demodCumulated (nt n4 : ℕ) (w dt : ℝ) (x : ℕ → ℝ) : ℝ :=
  let start := nt - 2 - n4
  if start < nt - 2 then
    (∑ k ∈ Finset.Ico start (nt - 2), cumAmp nt w dt x (k + 2)) / ((nt - 2 - start : ℕ) : ℝ)
  else if 2 < nt then cumAmp nt w dt x (nt - 1) else 0

/-! ### The Demodulator object -/

variable {V : Type}

/-- History of inputs, output and time of the output. -/
structure DemodSt (V : Type) where
  hist : List (List V)
  out : List V
  genT : Option ℤ

/-- `trigger_code`, demodulator.py 52-108, for one-dimensional inputs: `modes` are the mode numbers, `f i` demodulates a signal with
the carrier frequency `i`. -/
def demodTrigger [Zero V] (modes : List ℕ) (f : ℕ → List V → V) (loopDt demodDt : ℤ) (st : DemodSt V) (t : ℤ) (data : List V) : DemodSt V :=
  let hist := st.hist ++ [data]
  if (t + loopDt - demodDt) % demodDt = 0 then
    { hist := [], out := (List.range modes.length).map fun i : ℕ => f i (hist.map fun d : List V => d.getD i 0), genT := some t }
  else { st with hist := hist }

/-- The constructor, demodulator.py 14-40. -/
def demodInit [Zero V] (modes : List ℕ) : DemodSt V := ⟨[], List.replicate modes.length 0, none⟩

/-- Triggers at `t = 0, loopDt, 2 loopDt, …`. -/
def demodRun [Zero V] (modes : List ℕ) (f : ℕ → List V → V) (loopDt demodDt : ℤ) (data : ℕ → List V) : ℕ → DemodSt V
  | 0 => demodInit modes
  | n + 1 => demodTrigger modes f loopDt demodDt (demodRun modes f loopDt demodDt data n) (n * loopDt) (data n)

/-! ### The optical gain -/

/-- Internal gain and output of OpticalGainEstimator. -/
structure OgSt where
  gain : ℝ
  out : ℝ

/-- `trigger_code`, optical_gain_estimator.py 72-123, for one mode: `fresh` says that both inputs were generated now. -/
noncomputable def ogTrigger (g : ℝ) (st : OgSt) (fresh : Bool) (delta cmd : ℝ) : OgSt :=
  let gain := if fresh then (if |cmd| > 1e-12 then st.gain - (1 - delta / cmd) * g * st.gain else st.gain) else st.gain
  ⟨gain, min gain 1⟩

end

end Specula
