import Mathlib.Data.List.Basic
import Mathlib.Data.Int.Notation
import Mathlib.Data.Nat.Notation
/-
Model of values given while a simulation runs: `specula/processing_objects/specula_input.py` and `terminal_input.py`.

The task that reads the input runs in another process and puts pairs (name, value) into a queue at any time; `trigger_code` gets them
without waiting until the queue says that it is empty.  A queue of `multiprocessing` may say so although something has been put already:
each trigger takes an arbitrary number of the waiting pairs, in order.  The endless loop of a trigger during which pairs keep arriving is not
modelled, nor are the processes themselves.
-/
namespace Specula

abbrev LiveMsg (V : Type) : Type := String × V

/-- Outputs: value (`None` at first) and generation time (-1 at first); `none` is a name that is not an output. -/
abbrev LiveOuts (V : Type) : Type := String → Option (Option V × ℤ)

/-- The constructor, specula_input.py 36-37. -/
def liveInit {V : Type} (names : List String) : LiveOuts V := fun n => if n ∈ names then some (none, -1) else none

/-- One pair, specula_input.py 61-68: an unknown name is only reported. -/
def liveSet {V : Type} (t : ℤ) (outs : LiveOuts V) (m : LiveMsg V) : LiveOuts V :=
  if (outs m.1).isSome then fun n => if n = m.1 then some (some m.2, t) else outs n else outs

structure LiveState (V : Type) where
  queue : List (LiveMsg V)
  outs : LiveOuts V

inductive LiveEv (V : Type) where
  /-- `q.put((name, value))` in the other process -/
  | put (m : LiveMsg V)
  /-- `trigger_code` at time `t`, with `k` successful calls of `q.get(block=False)` -/
  | trigger (t : ℤ) (k : ℕ)

/-- `trigger_code`, specula_input.py 50-70, or an addition to the queue. -/
def liveStep {V : Type} (s : LiveState V) : LiveEv V → LiveState V
  | .put m => { s with queue := s.queue ++ [m] }
  | .trigger t k => ⟨s.queue.drop k, (s.queue.take k).foldl (liveSet t) s.outs⟩

def liveRun {V : Type} (s : LiveState V) (evs : List (LiveEv V)) : LiveState V := evs.foldl liveStep s

/-! ### the terminal -/

/-- `str.split()`: the words between blanks; `cur` is the word being read. -/
def splitBlankGo (cur : List Char) : List Char → List (List Char)
  | [] => if cur = [] then [] else [cur]
  | c :: cs => if c.isWhitespace then (if cur = [] then [] else [cur]) ++ splitBlankGo [] cs else splitBlankGo (cur ++ [c]) cs

def splitBlank (line : List Char) : List (List Char) := splitBlankGo [] line

/-- What is sent: `False` for a name alone, the text otherwise. -/
inductive TermVal where
  | flag
  | text (s : List Char)
deriving DecidableEq

/-- One line of the terminal, terminal_input.py 51-64. -/
def termLine (line : List Char) : Option (List Char × TermVal) :=
  match splitBlank line with
  | [w] => if w = "help".toList then none else some (w, .flag)
  | [w, v] => some (w, .text v)
  | _ => none

end Specula
