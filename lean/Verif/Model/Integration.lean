import Mathlib.Algebra.Field.Defs
/-
Model of the time integration of detectors and of the windowed integrator:
`specula/processing_objects/ccd.py` 123-131, 247-263 and `specula/processing_objects/windowed_integration.py` 23-33, 51-66.

One pixel (one element) is modelled: all operations are elementwise.  Numbers are the elements of a field instead of floating
point numbers.  Binning is 1 and there is no noise.
-/
namespace Specula

/-- Times of an integrating object, in ticks. -/
structure IntegPar where
  dt : Int
  loopDt : Int
  start : Int
deriving DecidableEq, Repr

/-- Check of the constructors: ccd.py 123-131, windowed_integration.py 29-33. -/
def IntegPar.valid (p : IntegPar) : Bool := decide (0 < p.dt) && decide (p.dt % p.loopDt = 0)

/-- The condition of ccd.py 254 and windowed_integration.py 57. -/
def IntegPar.fires (p : IntegPar) (t : Int) : Bool := decide ((t + p.loopDt - p.dt - p.start) % p.dt = 0)

section
variable {K : Type} [Field K]

/-- What a detector emits: the attribute `generation_time`, the integrated intensity and the pixel value. -/
structure Frame (K : Type) where
  time : Int
  integrated : K
  pixel : K

/-- `CCD.trigger_code`, ccd.py 247-263, for one pixel.  `factor` is `t_to_seconds(loop_dt) * bandw`, `qe` the quantum
efficiency.  The state is `_integrated_i`. -/
def ccdTrigger (p : IntegPar) (factor qe : K) (t : Int) (x : K) (acc : K) : K × Option (Frame K) :=
  if p.start > 0 ∧ t < p.start then (acc, none)
  else
    let acc := acc + x * factor
    if p.fires t then (0, some ⟨t, acc, acc * qe⟩) else (acc, none)

/-- A run: the integrated value at the end and all frames, in order. -/
def ccdRun (p : IntegPar) (factor qe : K) : List (Int × K) → K → K × List (Frame K)
  | [], acc => (acc, [])
  | (t, x) :: rest, acc =>
    let r := ccdTrigger p factor qe t x acc
    let q := ccdRun p factor qe rest r.1
    (q.1, r.2.toList ++ q.2)

/-- State of a windowed integrator: `integrated_value`, `output.value`, `output.generation_time`. -/
structure WinState (K : Type) where
  acc : K
  out : K
  time : Int

/-- `WindowedIntegration.trigger_code`, windowed_integration.py 51-66. -/
def winTrigger (p : IntegPar) (onDt : Bool) (t : Int) (x : K) (s : WinState K) : WinState K :=
  let s1 : WinState K :=
    if p.start ≤ 0 ∨ t ≥ p.start then
      let acc := s.acc + x * (p.loopDt : K) / (p.dt : K)
      if p.fires t then ⟨0, acc, if onDt then t else s.time⟩ else ⟨acc, 0, s.time⟩
    else s
  if onDt then s1 else { s1 with time := t }

/-- The states after each trigger. -/
def winRun (p : IntegPar) (onDt : Bool) : List (Int × K) → WinState K → List (WinState K)
  | [], _ => []
  | (t, x) :: rest, s => winTrigger p onDt t x s :: winRun p onDt rest (winTrigger p onDt t x s)

end
end Specula
