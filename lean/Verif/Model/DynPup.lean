import Mathlib.Data.Real.Basic
/-
Model of the calibrator of the pupils of a pyramid with interactive inputs, `specula/processing_objects/dynamic_pyr_pupdata_calibrator.py`,
and of the integration in `specula/processing_objects/pyr_pupdata_calibrator.py` 147-193.

Images are an arbitrary type with a sum, and the measurement is an arbitrary function that gives pupils or raises.  An exception
that leaves the object and stops the simulation is `none`.  Not modelled: the measurement itself (see `PupCal`), saving.
-/
namespace Specula

/-- An interactive input at a trigger: not connected, not refreshed, or refreshed with a number or with something `float` refuses. -/
inductive PupIn where
  | absent
  | stale
  | fresh (v : Option ℝ)

/-- What the measurement does: pupils, a ValueError or TypeError, another exception. -/
inductive Meas (Q : Type) where
  | pupils (q : Q)
  | refused
  | crash

/-- The state; `status` is true for "OK".  `pup` has the generation time. -/
structure DynSt (I Q : Type) where
  dt : Option ℤ
  thr1 : ℝ
  thr2 : ℝ
  acc : Option I
  status : Option Bool
  pup : Option (Q × ℤ)

/-- An interactive input, dynamic_pyr_pupdata_calibrator.py 126-146.  The handler of the exceptions of `float` uses `e.__name__`, which
exceptions do not have: it raises. -/
def pupDynInput {A : Type} (conv : ℝ → A) (i : PupIn) (old : A) : Option A :=
  match i with
  | .absent => some old
  | .stale => some old
  | .fresh none => none
  | .fresh (some v) => some (conv v)

section
variable {I Q : Type} [Add I] [Zero I]

/-- `prepare_trigger`, 122-146; `toT` is `seconds_to_t`. -/
def pupDynPrepare (toT : ℝ → ℤ) (idt i1 i2 : PupIn) (s : DynSt I Q) : Option (DynSt I Q) :=
  (pupDynInput (fun v => some (toT v)) idt s.dt).bind fun dt =>
  (pupDynInput id i1 s.thr1).bind fun t1 =>
  (pupDynInput id i2 s.thr2).map fun t2 => { s with dt := dt, thr1 := t1, thr2 := t2 }

/-- `trigger_code`, 148-155, with the one of the base class: `current_time % 0` raises ZeroDivisionError, which is not caught; a frame between two
measurements ends normally. -/
def pupDynTrigger (meas : ℝ → ℝ → I → Meas Q) (t : ℤ) (x : I) (s : DynSt I Q) : Option (DynSt I Q) :=
  let acc := s.acc.getD 0 + x
  let measure : Option (DynSt I Q) :=
    match meas s.thr1 s.thr2 acc with
    | .pupils q => some { s with acc := some 0, status := some true, pup := some (q, t) }
    | .refused => some { s with acc := some acc, status := some false }
    | .crash => none
  match s.dt with
  | none => measure
  | some d =>
    if d = 0 then none
    else if t % d ≠ 0 then some { s with acc := some acc, status := some true }
    else measure

/-- `post_trigger`, 157-174: `t_to_seconds(None)` raises. -/
def pupDynPost (s : DynSt I Q) : Option (DynSt I Q) := s.dt.bind fun _ => some s

/-- One iteration. -/
def pupDynStep (meas : ℝ → ℝ → I → Meas Q) (toT : ℝ → ℤ) (s : DynSt I Q) (f : ℤ × I × PupIn × PupIn × PupIn) : Option (DynSt I Q) :=
  (pupDynPrepare toT f.2.2.1 f.2.2.2.1 f.2.2.2.2 s).bind fun s1 => (pupDynTrigger meas f.1 f.2.1 s1).bind pupDynPost

end
end Specula
