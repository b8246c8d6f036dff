import Verif.Model.Params
import Verif.Model.Protocol
import Verif.Model.TriggerOrder
/-
Model of one process running the simulation loop: `specula/loop_control.py`, the trigger protocol of
`specula/base_processing_obj.py` and the reading of inputs of `specula/connections.py`.
-/
namespace Specula

/-- Behaviour of a processing object: an arbitrary state machine.  `prepare`, `trigger`, `post` stand for
`prepare_trigger`, `trigger_code` and `post_trigger` of the object's class; each may read all the inputs and change the
object's state.  `out` is what the object's outputs hold in a given state: the list of items of each output (an
output that is a Python list has several).  `device` is `target_device_idx`. -/
structure Behaviour (σ ν : Type) where
  decls : List InDecl
  prepare : Int → (InDecl → Local ν) → σ → σ
  trigger : Int → (InDecl → Local ν) → σ → σ
  post : Int → (InDecl → Local ν) → σ → σ
  out : σ → Option String → List (Item ν)
  device : Int := -1

/-- A simulation: its parameter file, the behaviour of each object, and which objects are processing objects
(simul.py 1151; data objects are never triggered). -/
structure Sim (σ ν : Type) where
  params : Params
  beh : String → Behaviour σ ν
  isProc : String → Bool

/-- What an object stores between the phases: its state, the flag `inputs_changed`, and the copies of the values of
the inputs living on another device, taken by `get()` (connections.py 56-75). -/
structure Cell (σ ν : Type) where
  st : σ
  changed : Bool
  copy : OutRef → List (Item ν)

abbrev Mem (σ ν : Type) := String → Cell σ ν

def Mem.set {σ ν : Type} (m : Mem σ ν) (c : String) (x : Cell σ ν) : Mem σ ν := fun y => if y = c then x else m y

variable {σ ν : Type}

/-- parameters of an object -/
def Sim.pars (sim : Sim σ ν) (c : String) : ObjPars := (sim.params.lookup c).getD {}

/-- references configured for one declared input (simul.py 678-690) -/
def refsOf (p : ObjPars) (d : InDecl) : List OutRef := ((p.ins.lookup d.name).map Input.refs).getD []

/-- `InputList.get` / `InputValue.get` (connections.py 95-96, 138-150) given how each reference reads:
an `InputList` gives the concatenated list, an `InputValue` its only element or `None`.
Simplification: a single-value input with several items makes the code raise (already in `setup`); here the first is
taken. -/
def gather (p : ObjPars) (d : InDecl) (rd : OutRef → List (Item ν)) : Local ν :=
  if d.isList then .many ((refsOf p d).flatMap rd)
  else match (refsOf p d).flatMap rd with
    | [] => .none
    | x :: _ => .one x

/-- the current content of the output a reference points to -/
def readNow (sim : Sim σ ν) (m : Mem σ ν) (r : OutRef) : List (Item ν) := (sim.beh r.obj).out (m r.obj).st r.key

/-- What the code of object `c` sees through `self.local_inputs` after `check_ready`: outputs on the same device
are Python references to the producer's live output (connections.py 62-64), others are the copy made by `get()`. -/
def readLive (sim : Sim σ ν) (m : Mem σ ν) (c : String) (r : OutRef) : List (Item ν) :=
  if (sim.beh r.obj).device = (sim.beh c).device then readNow sim m r else (m c).copy r

/-- `check_ready(t)` of object `c`, base_processing_obj.py 233-244 (which calls `get_all_inputs`, `checkInputTimes`
and `prepare_trigger`). -/
def checkReady (sim : Sim σ ν) (t : Int) (m : Mem σ ν) (c : String) : Cell σ ν :=
  let ins := fun d => gather (sim.pars c) d (readNow sim m)
  if checkInputTimes (sim.beh c).decls ins t then
    { st := (sim.beh c).prepare t ins (m c).st, changed := true, copy := readNow sim m }
  else { st := (m c).st, changed := false, copy := readNow sim m }

/-- loop_control.py 137-140: `trigger()` if `inputs_changed`. -/
def triggerObj (sim : Sim σ ν) (t : Int) (m : Mem σ ν) (c : String) : Cell σ ν :=
  if (m c).changed then
    { m c with st := (sim.beh c).trigger t (fun d => gather (sim.pars c) d (readLive sim m c)) (m c).st }
  else m c

/-- loop_control.py 146-149 and base_processing_obj.py 138-148: `post_trigger()` if `inputs_changed`, which resets
the flag. -/
def postObj (sim : Sim σ ν) (t : Int) (m : Mem σ ν) (c : String) : Cell σ ν :=
  if (m c).changed then
    { m c with st := (sim.beh c).post t (fun d => gather (sim.pars c) d (readLive sim m c)) (m c).st, changed := false }
  else m c

/-- `for element in self.trigger_lists[i]: f(element)` -/
def phase (f : Mem σ ν → String → Cell σ ν) (m : Mem σ ν) (b : List String) : Mem σ ν :=
  b.foldl (fun m c => m.set c (f m c)) m

/-- The body of `for i in sorted(...)` in `LoopControl.iter`, loop_control.py 126-155 (MPI sends: see `Model/Mpi`). -/
def runBucket (sim : Sim σ ν) (t : Int) (m : Mem σ ν) (b : List String) : Mem σ ν :=
  phase (postObj sim t) (phase (triggerObj sim t) (phase (checkReady sim t) m b) b) b

/-- `self.trigger_lists`, a `defaultdict(list)` (loop_control.py 12), as an association list. -/
abbrev TriggerLists := List (Nat × List String)

/-- `LoopControl.add`, loop_control.py 25-33. -/
def addTrigger (tl : TriggerLists) (obj : String) (idx : Nat) : TriggerLists :=
  if (tl.lookup idx).isSome then tl.map fun e => if e.1 = idx then (e.1, e.2 ++ [obj]) else e
  else tl ++ [(idx, [obj])]

/-- The loop of `Simul.run` that fills the trigger lists, simul.py 1148-1152 (single process). -/
def fillTriggers (sim : Sim σ ν) (order : List (String × Nat)) : TriggerLists :=
  order.foldl (fun tl x => if sim.isProc x.1 then addTrigger tl x.1 x.2 else tl) []

/-- the trigger lists in the order of `sorted(self.trigger_lists.keys())` -/
def sortedBuckets (tl : TriggerLists) : List (List String) :=
  ((tl.map (·.1)).mergeSort (fun a b => decide (a ≤ b))).map fun i => (tl.lookup i).getD []

/-- `LoopControl.iter`, loop_control.py 121-167. -/
def iterOnce (sim : Sim σ ν) (tl : TriggerLists) (t : Int) (m : Mem σ ν) : Mem σ ν :=
  (sortedBuckets tl).foldl (runBucket sim t) m

/-- State after `k` calls of `iter`, the clock advancing by `dt` (loop_control.py 116, 166). -/
def runIters (sim : Sim σ ν) (tl : TriggerLists) (t0 dt : Int) (m0 : Mem σ ν) : Nat → Mem σ ν
  | 0 => m0
  | k + 1 => iterOnce sim tl (t0 + k * dt) (runIters sim tl t0 dt m0 k)

end Specula
