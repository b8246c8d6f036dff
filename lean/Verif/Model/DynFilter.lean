import Mathlib.Data.Rat.Floor
import Mathlib.Algebra.Order.Field.Rat
import Verif.Model.Filter
/-
Filters whose gain can be changed, and whose state can be cleared, while they run: dynamic_integrator.py 79-94 and dynamic_iir_filter.py 70-85 (C99).

The filter, its coefficients and the delay line are those of `Filter`.  Numbers are the elements of a field.  The sizes of `delta_comm` and `gain_mod`
(base_filter.py 70-82, 88-103) are right.  An input that is not connected is `none`; the other inputs carry the time at which they were generated.
-/
namespace Specula

section
variable {K : Type} [Field K]

/-- Value of the input `int_gain`: a number or a vector; entries that are not finite are `none`. -/
inductive GainVal (K : Type) where
  | scalar (x : Option K)
  | vector (l : List (Option K))

/-- What is given to `set_gain` for each filter, `none` if an exception is raised (its handler raises another: dynamic_integrator.py 93-94).
`integrator`: `float(gain_input.value)`, dynamic_integrator.py 91; otherwise dynamic_iir_filter.py 82 with iir_filter_data.py 160-161, 173-176. -/
def dynGain (integrator : Bool) : GainVal K → Option (Nat → Option K)
  | .scalar x => some fun _ => x
  | .vector l =>
    if integrator then
      match l with
      | [x] => some fun _ => x
      | _ => none
    else some fun i => (l[i]?).join

/-- Inputs of a step; the first components of `reset` and `gain` are generation times. -/
structure DynIn (K : Type) where
  delta : Nat → K
  gainMod : Nat → K
  reset : Option ℤ
  gain : Option (ℤ × GainVal K)

/-- State of one filter: coefficients, `_ist` and `_ost`, `output_buffer`. -/
structure DynMode (K : Type) where
  coef : GainState K
  den : List K
  st : IirState K
  buf : List K

/-- `reset_states`, iir_filter.py 104-108, base_filter.py 146-149. -/
def DynMode.reset (s : DynMode K) : DynMode K :=
  { s with st := ⟨s.st.ist.map fun _ => 0, s.st.ost.map fun _ => 0⟩, buf := s.buf.map fun _ => 0 }

/-- One step of filter `i`: base_filter.py 84-86, dynamic_integrator.py 82-92, iir_filter.py 73-102; `g` is what `set_gain` receives. -/
def dynModeStep (d : ℚ) (integ : Bool) (reset : Bool) (g : Option (Option K)) (m u : K) (s : DynMode K) : DynMode K :=
  let s := { s with buf := if d > 0 then shiftBuf s.buf else s.buf }
  let s := if reset then s.reset else s
  let s := match g with
    | none => s
    | some x => { s with coef := setGain x s.coef }
  let (st, y) := iirStep ⟨s.coef.num, s.den⟩ integ m u s.st
  { s with st := st, buf := y :: s.buf.tail }

/-- `prepare_trigger` and `trigger_code` at time `t`; `none` if an exception is raised. -/
def dynStep (integrator : Bool) (d : ℚ) (integ : Bool) (t : ℤ) (inp : DynIn K) (s : Nat → DynMode K) : Option (Nat → DynMode K) :=
  let reset := decide (inp.reset = some t)
  let fresh := inp.gain.bind fun v => if v.1 = t then some v.2 else none
  match fresh with
  | none => some fun i => dynModeStep d integ reset none (inp.gainMod i) (inp.delta i) (s i)
  | some v => (dynGain integrator v).map fun g i => dynModeStep d integ reset (some (g i)) (inp.gainMod i) (inp.delta i) (s i)

/-- A filter as built, base_filter.py 36-40, iir_filter.py 55-56. -/
def DynMode.fresh (d : ℚ) (coef : GainState K) (den : List K) : DynMode K :=
  ⟨coef, den, ⟨coef.num.map fun _ => 0, den.map fun _ => 0⟩, List.replicate (bufLen d) 0⟩

/-- The state before step `n`, at times `t 0, t 1, ...`. -/
def dynRun (integrator : Bool) (d : ℚ) (integ : Bool) (t : Nat → ℤ) (inp : Nat → DynIn K) (s : Nat → DynMode K) : Nat → Option (Nat → DynMode K)
  | 0 => some s
  | n + 1 => (dynRun integrator d integ t inp s n).bind fun s => dynStep integrator d integ (t n) (inp n) s

/-- `out_comm_no_delay` and `out_comm` after step `n`, base_filter.py 122-144. -/
def dynOut [CharZero K] (integrator : Bool) (d : ℚ) (integ : Bool) (t : Nat → ℤ) (inp : Nat → DynIn K) (s : Nat → DynMode K) (n : Nat) : Option (Nat → K × K) :=
  (dynRun integrator d integ t inp s (n + 1)).map fun s i => ((s i).buf.getD 0 0, delayOutput d (s i).buf)

/-- A `DynamicIntegrator` with the gains and forgetting factors given, integrator.py 55-60, iir_filter_data.py 818-851. -/
def dynIntegrator [DecidableEq K] (d : ℚ) (gain ff : Nat → K) (i : Nat) : DynMode K :=
  .fresh d (setNum 2 (integratorCoef (gain i) (ff i)).num) (integratorCoef (gain i) (ff i)).den

end
end Specula
