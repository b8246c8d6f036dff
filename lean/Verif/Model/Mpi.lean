import Verif.Model.LoopControl
/-
Model of the messages exchanged by a distributed run: `specula/loop_control.py` 70-167 (`start`, `iter`) and
`specula/base_processing_obj.py` 91-104, 176-206, 259-273 (`get_all_inputs`, `send_outputs`, `setup`).

A *channel* is a remote link (one output of one object connected to one input of another object on a different rank); MPI
delivers the messages of a channel in order.  Different links are taken to be different channels, i.e. their tags differ
(see C17), and an output is a single object, not a list (for a list the code sends several messages per link but receives one).
-/
namespace Specula

/-- When something happens or when a value was produced. -/
inductive Stamp where
  /-- before the setups -/
  | init
  /-- during / just after the setup of the object -/
  | setup
  /-- iteration number `k`, counted from 0 -/
  | iter (k : Nat)
deriving DecidableEq, Repr

/-- What a process does to the outside. -/
inductive Ev where
  /-- buffered send (`ibsend`) on a channel of the output as it is at that moment -/
  | send (c : Nat) (s : Stamp)
  /-- blocking receive on a channel -/
  | recv (c : Nat) (w : Stamp)
  /-- `process_comm.barrier()`: arrival, then waiting until every process has arrived as many times -/
  | arrive
  | wait (m : Nat)
deriving DecidableEq, Repr

/-- An object of the trigger lists: its rank, its trigger index, the channels of its remote inputs (in the order in which
`get_all_inputs` receives them) and its `remote_outputs` (channel and delay). -/
structure MElem where
  rank : Nat
  idx : Nat
  recvs : List Nat := []
  sends : List (Nat × Int) := []
deriving DecidableEq, Repr

/-- `send_outputs`, base_processing_obj.py 176-206. -/
def sendOutputs (skipDelayed delayedOnly : Bool) (s : Stamp) (e : MElem) : List (Nat × Ev) :=
  e.sends.filterMap fun cd =>
    if decide (cd.2 < 0) && skipDelayed then none
    else if decide (cd.2 ≥ 0) && delayedOnly then none
    else some (e.rank, .send cd.1 s)

/-- `get_all_inputs`, base_processing_obj.py 91-104, called once by `setup` (270) and once by `check_ready` (237, 71). -/
def recvInputs (w : Stamp) (e : MElem) : List (Nat × Ev) := e.recvs.map fun c => (e.rank, .recv c w)

/-- The objects of one trigger list. -/
def bucket (es : List MElem) (i : Nat) : List MElem := es.filter fun e => decide (e.idx = i)

/-- `LoopControl.start`, loop_control.py 78-114, for the objects `es` on the ranks `rs`; trigger indices are below `B`. -/
def startEvents (es : List MElem) (rs : List Nat) (B : Nat) : List (Nat × Ev) :=
  (List.range B).flatMap (fun i => (bucket es i).flatMap (sendOutputs false false .init)) ++
  (rs.map (fun r => (r, .arrive)) ++ rs.map (fun r => (r, .wait 1))) ++
  (List.range B).flatMap (fun i => (bucket es i).flatMap fun e => recvInputs .setup e ++ sendOutputs false true .setup e) ++
  (rs.map (fun r => (r, .arrive)) ++ rs.map (fun r => (r, .wait 2)))

/-- `LoopControl.iter`, loop_control.py 121-154: bucket by bucket, first all `check_ready` (which receive), then all
`post_trigger` with the sends. -/
def iterEvents (es : List MElem) (B : Nat) (k : Nat) (last : Bool) : List (Nat × Ev) :=
  (List.range B).flatMap fun i =>
    (bucket es i).flatMap (recvInputs (.iter k)) ++ (bucket es i).flatMap (sendOutputs last false (.iter k))

/-- The iterations, given the flags `last_iter` (from iteration number `k` on). -/
def loopEvents (es : List MElem) (B : Nat) : Nat → List Bool → List (Nat × Ev)
  | _, [] => []
  | k, last :: rest => iterEvents es B k last ++ loopEvents es B (k + 1) rest

/-- `LoopControl.run`, loop_control.py 44-68. -/
def runEvents (es : List MElem) (rs : List Nat) (B : Nat) (flags : List Bool) : List (Nat × Ev) :=
  startEvents es rs B ++ loopEvents es B 0 flags

/-- The program of the process of rank `r`: it holds exactly the objects of that rank (simul.py 1150-1155). -/
def program (es : List MElem) (B : Nat) (flags : List Bool) (r : Nat) : List Ev :=
  (runEvents (es.filter fun e => decide (e.rank = r)) [r] B flags).map (·.2)

/-- State of the distributed run. -/
structure Net where
  /-- what each process still has to do -/
  rem : Nat → List Ev
  /-- messages in transit on each channel, oldest first -/
  ch : Nat → List Stamp
  /-- number of barrier arrivals of each process -/
  arrived : Nat → Nat
  /-- receives done so far: channel, moment of the receive, stamp of the value received -/
  log : List (Nat × Stamp × Stamp)

def upd {α : Type} (f : Nat → α) (k : Nat) (v : α) : Nat → α := fun x => if x = k then v else f x

/-- One step of some process (`R` processes, ranks `0 … R-1`).  A send is buffered and never blocks; a receive blocks until
there is a message; a barrier blocks until all processes have arrived. -/
inductive Step (R : Nat) : Net → Net → Prop
  | send {n : Net} {r c : Nat} {s : Stamp} {t : List Ev} (hr : r < R) (h : n.rem r = .send c s :: t) :
      Step R n { n with rem := upd n.rem r t, ch := upd n.ch c (n.ch c ++ [s]) }
  | recv {n : Net} {r c : Nat} {w s : Stamp} {t : List Ev} {q : List Stamp} (hr : r < R) (h : n.rem r = .recv c w :: t)
      (hc : n.ch c = s :: q) :
      Step R n { n with rem := upd n.rem r t, ch := upd n.ch c q, log := n.log ++ [(c, w, s)] }
  | arrive {n : Net} {r : Nat} {t : List Ev} (hr : r < R) (h : n.rem r = .arrive :: t) :
      Step R n { n with rem := upd n.rem r t, arrived := upd n.arrived r (n.arrived r + 1) }
  | wait {n : Net} {r m : Nat} {t : List Ev} (hr : r < R) (h : n.rem r = .wait m :: t) (hall : ∀ r' < R, m ≤ n.arrived r') :
      Step R n { n with rem := upd n.rem r t }

/-- Initial state, with one process for each rank below `R`. -/
def Net.initial (es : List MElem) (R B : Nat) (flags : List Bool) : Net :=
  ⟨fun r => if r < R then program es B flags r else [], fun _ => [], fun _ => 0, []⟩

/-- States that can be reached. -/
inductive Reach (R : Nat) (n0 : Net) : Net → Prop
  | refl : Reach R n0 n0
  | step {n n' : Net} (h : Reach R n0 n) (hs : Step R n n') : Reach R n0 n'

end Specula
