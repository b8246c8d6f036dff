/-
Model of the time bookkeeping of `specula/loop_control.py`.
-/
namespace Specula

/-- Attributes of `LoopControl` that govern the iteration (loop_control.py 14-23); times in ticks, already converted
by `seconds_to_t` (start, 74-76). -/
structure LoopCtl where
  runTime : Int
  dt : Int
  t0 : Int
  t : Int
  iterCounter : Nat
deriving DecidableEq, Repr

/-- `LoopControl.start`, the part that sets the times: loop_control.py 74-76, 116.  `iter_counter` is *not* reset. -/
def LoopCtl.start (runTime dt t0 : Int) (counter : Nat) : LoopCtl := ⟨runTime, dt, t0, t0, counter⟩

/-- condition of the `while`, loop_control.py 56 -/
def LoopCtl.cond (s : LoopCtl) : Bool := decide (s.runTime < 0) || decide (s.t < s.t0 + s.runTime)

/-- the end of `iter`, loop_control.py 166-167 -/
def LoopCtl.advance (s : LoopCtl) : LoopCtl := { s with t := s.t + s.dt, iterCounter := s.iterCounter + 1 }

/-- `LoopControl.niters`, loop_control.py 35-42.  Python's `int(a/b)` truncates towards zero; the quotient is taken
exactly (the floating point division of Python is exact whenever the quotient is an integer below 2^53). -/
def LoopCtl.niters (s : LoopCtl) : Int := if s.dt ≠ 0 then Int.tdiv (s.runTime + s.t0) s.dt else 0

/-- `last_iter`, loop_control.py 124 -/
def LoopCtl.lastIter (s : LoopCtl) : Bool := decide ((s.iterCounter : Int) = s.niters - 1)

/-- The `while` of `LoopControl.run`, loop_control.py 56-67: the pairs (time passed to `check_ready`, `last_iter`) of
each call of `iter`, in order, and the final state.  `none`: still running after `fuel` iterations. -/
def LoopCtl.runFuel : Nat → LoopCtl → Option (List (Int × Bool) × LoopCtl)
  | 0, s => if s.cond then none else some ([], s)
  | fuel + 1, s =>
    if s.cond then (runFuel fuel s.advance).map fun r => ((s.t, s.lastIter) :: r.1, r.2) else some ([], s)

end Specula
