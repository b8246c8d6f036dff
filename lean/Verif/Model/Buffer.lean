/-
Model of `specula/processing_objects/data_buffer.py` (18-22, 39-62, 72-87).

The values of the inputs are of an arbitrary type.  Each trigger is given the time and, for each input, `some v` when the input
has been refreshed at that time with value `v`.  The ordered dictionaries indexed by the step counter are lists: within one
buffer the counter never repeats, so every insertion is at the end.
-/
namespace Specula

/-- One trigger: the current time and the refreshed inputs. -/
structure FreshStep (V : Type) where
  time : Int
  fresh : String → Option V

/-- `storage` and `step_counter`. -/
structure BufState (V : Type) where
  store : String → List V
  count : Nat

def BufState.init {V : Type} : BufState V := ⟨fun _ => [], 0⟩

/-- What is emitted at one time; an input with no samples emits nothing (data_buffer.py 52-54), here the empty list. -/
structure Emission (V : Type) where
  time : Int
  data : String → List V

/-- `DataBuffer.trigger_code`, data_buffer.py 39-51. -/
def bufTrigger {V : Type} (size : Nat) (x : FreshStep V) (s : BufState V) : BufState V × List (Emission V) :=
  let store := fun k => s.store k ++ (x.fresh k).toList
  let count := s.count + 1
  if count ≥ size then (BufState.init, [⟨x.time, store⟩]) else (⟨store, count⟩, [])

/-- `DataBuffer.finalize`, data_buffer.py 81-87, at time `t`. -/
def bufFinalize {V : Type} (t : Int) (s : BufState V) : List (Emission V) :=
  if s.count > 0 then [⟨t, s.store⟩] else []

/-- A run of triggers. -/
def bufRun {V : Type} (size : Nat) : List (FreshStep V) → BufState V → BufState V × List (Emission V)
  | [], s => (s, [])
  | x :: rest, s =>
    let r := bufTrigger size x s
    let q := bufRun size rest r.1
    (q.1, r.2 ++ q.2)

/-- The emissions of an input: those with at least one sample, data_buffer.py 52-60. -/
def emittedOn {V : Type} (k : String) (log : List (Emission V)) : List (Int × List V) :=
  log.filterMap fun e => if (e.data k).length = 0 then none else some (e.time, e.data k)

end Specula
