import Mathlib.Data.Real.Basic
/-
Model of the display server: `specula/processing_objects/display_server.py` (the side of the simulation) and the two threads of
`specula/lib/display_server_api.py` that read the queue (the side of the web server).

Names, clients and data are of arbitrary types.  A data object is its outcome: not found, cannot be prepared (an exception), or
prepared.  The threads are modelled by their operations on the queue, each of them atomic, in any order (`SrvStep`).  Not modelled: the web
clients, time outs, failures of the queue itself.
-/
namespace Specula

/-! ### Requests, display_server.py -/

/-- What happens to an object asked for: `data_obj_getter` gives `None`, or the preparation raises, or it is prepared. -/
inductive DsObj (D : Type) where
  | missing
  | failing
  | ready (d : D)

/-- What the getter of inputs or outputs does with a name: gives an object, raises ValueError, raises something else. -/
inductive DsGet (O : Type) where
  | found (o : O)
  | valueError
  | otherError

/-- `data_obj_getter`, display_server.py 79-90: `isIn` is `'.in_' in name`. -/
def dsLookup {O : Type} (isIn : Bool) (getIn getOut : DsGet O) : Option O :=
  if isIn then (match getIn with | .found o => some o | _ => none)
  else match getOut with
    | .found o => some o
    | .valueError => (match getIn with | .found o => some o | _ => none)
    | .otherError => none

/-- What is put on the queue: an image, data (`none`: an error, or an empty value for a missing object), or the terminator. -/
inductive DsOut (C N D : Type) where
  | image (c : C) (n : N) (d : D)
  | data (c : C) (n : N) (d : Option D)
  | term (c : C)
deriving DecidableEq

section
variable {C N D : Type}

/-- The prepared data of an object, if any. -/
def dsReady {D : Type} : DsObj D → Option D
  | .missing => none
  | .failing => none
  | .ready d => some d

/-- `_trigger_image_mode`, display_server.py 105-144, for one request. -/
def dsImageOne (obj : N → DsObj D) (c : C) (names : List N) : List (DsOut C N D) :=
  (names.filterMap fun n => (dsReady (obj n)).map (DsOut.image c n)) ++ [.term c]

/-- `_trigger_image_mode` on the requests in the queue: a request that is not a pair (`none`) is skipped.  What is sent. -/
def dsImage (obj : N → DsObj D) : List (Option (C × List N)) → List (DsOut C N D)
  | [] => []
  | none :: rest => dsImage obj rest
  | some (c, names) :: rest => dsImageOne obj c names ++ dsImage obj rest

/-- `_trigger_data_mode`, display_server.py 166-228, for one request. -/
def dsDataOne (obj : N → DsObj D) (c : C) (names : List N) : List (DsOut C N D) :=
  (names.map fun n => DsOut.data c n (dsReady (obj n))) ++ [.term c]

/-- `_trigger_data_mode` on the requests in the queue: what is sent, and the requests left for the next trigger: it stops after a
request that is not a pair. -/
def dsData (obj : N → DsObj D) : List (Option (C × List N)) → List (DsOut C N D) × List (Option (C × List N))
  | [] => ([], [])
  | none :: rest => ([], rest)
  | some (c, names) :: rest => let r := dsData obj rest; (dsDataOne obj c names ++ r.1, r.2)

/-! ### Speed, display_server.py 146-159 -/

structure SpeedSt where
  counter : ℕ
  t0 : ℝ
  c0 : ℕ

/-- The report of the speed: iterations and seconds since the last report; the speed is their quotient. -/
noncomputable def speedTrigger (s : SpeedSt) (t1 : ℝ) : SpeedSt × Option (ℕ × ℝ) :=
  let counter := s.counter + 1
  if 1 ≤ t1 - s.t0 then (⟨counter, t1, counter⟩, some (counter - s.c0, t1 - s.t0)) else (⟨counter, s.t0, s.c0⟩, none)

noncomputable def speedRun (s : SpeedSt) : List ℝ → SpeedSt × List (ℕ × ℝ)
  | [] => (s, [])
  | t :: ts =>
    let r := speedTrigger s t
    let q := speedRun r.1 ts
    (q.1, r.2.toList ++ q.2)

/-! ### remove_xp_np, display_server.py 346-380 -/

/-- The attributes of the objects, by reference and name. -/
abbrev Attrs (V : Type) := ℕ → String → Option V

/-- `_remove` of one object: the attributes without `xp` and `np`, and the ones deleted. -/
def removeMods {V : Type} (h : Attrs V) (r : ℕ) : Attrs V × (String → Option V) :=
  (fun q a => if q = r ∧ (a = "xp" ∨ a = "np") then none else h q a, fun a => if a = "xp" ∨ a = "np" then h r a else none)

/-- `_remove` of a list. -/
def removeAll {V : Type} (h : Attrs V) : List ℕ → Attrs V × List (String → Option V)
  | [] => (h, [])
  | r :: rs =>
    let p := removeMods h r
    let q := removeAll p.1 rs
    (q.1, p.2 :: q.2)

/-- `_putback` of a list. -/
def putBack {V : Type} (h : Attrs V) : List ℕ → List (String → Option V) → Attrs V
  | r :: rs, d :: ds => putBack (fun q a => if q = r then ((d a).orElse fun _ => h q a) else h q a) rs ds
  | _, _ => h

/-- The body of the `with`: attributes afterwards.  The body (`pickle.dumps` and `put`) changes no attribute; when it raises the
generator is not resumed after `yield` and nothing is put back. -/
def withRemoved {V : Type} (h : Attrs V) (rs : List ℕ) (raises : Bool) : Attrs V :=
  let p := removeAll h rs
  if raises then p.1 else putBack p.1 rs p.2

/-- `copyTo(-1)`, base_data_obj.py 118-135: an object that is on the CPU already is not copied.  `fresh` is the reference of a copy. -/
def copyToCpu (onCpu : ℕ → Bool) (fresh : ℕ → ℕ) (r : ℕ) : ℕ := if onCpu r then r else fresh r

/-! ### The queue of the server, display_server_api.py -/

/-- An item of the queue: a pair (status of the simulation) or a 4-tuple (response to a client). -/
inductive SrvMsg (R S : Type) where
  | resp (r : R)
  | status (s : S)
deriving DecidableEq

/-- The queue, the item each thread is about to put back, what was handled by `response_handlers` and what was sent to the front end. -/
structure SrvSt (R S : Type) where
  queue : List (SrvMsg R S)
  heldS : Option R
  heldH : Option S
  delivered : List R
  sent : List S

/-- One operation, with what the simulation puts: the simulation puts an item; the thread `status_update` takes one (a response is kept to
be put back, 202-236) or puts one back (235); the thread `handle_responses` takes one (a status is kept to be put back, 250-279) or puts
one back (256). -/
inductive SrvStep {R S : Type} : SrvSt R S → List (SrvMsg R S) → SrvSt R S → Prop
  | put (m) (st) : SrvStep st [m] { st with queue := st.queue ++ [m] }
  | sTakeStatus (s q st) : st.queue = .status s :: q → st.heldS = none → SrvStep st [] { st with queue := q, sent := st.sent ++ [s] }
  | sTakeResp (r q st) : st.queue = .resp r :: q → st.heldS = none → SrvStep st [] { st with queue := q, heldS := some r }
  | sPut (r st) : st.heldS = some r → SrvStep st [] { st with queue := st.queue ++ [.resp r], heldS := none }
  | hTakeResp (r q st) : st.queue = .resp r :: q → st.heldH = none → SrvStep st [] { st with queue := q, delivered := st.delivered ++ [r] }
  | hTakeStatus (s q st) : st.queue = .status s :: q → st.heldH = none → SrvStep st [] { st with queue := q, heldH := some s }
  | hPut (s st) : st.heldH = some s → SrvStep st [] { st with queue := st.queue ++ [.status s], heldH := none }

/-- Any number of operations, and everything the simulation has put. -/
inductive SrvRun {R S : Type} : SrvSt R S → List (SrvMsg R S) → SrvSt R S → Prop
  | nil (st) : SrvRun st [] st
  | snoc {a b c ms ns} : SrvRun a ms b → SrvStep b ns c → SrvRun a (ms ++ ns) c

def srvInit {R S : Type} (queue : List (SrvMsg R S)) : SrvSt R S := ⟨queue, none, none, [], []⟩

end
end Specula
