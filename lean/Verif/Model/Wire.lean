/-
Model of the wire format of remote links: `specula/base_processing_obj.py` 155-173 (`send_remote_output`),
`specula/connections.py` 31-74 (`_InputItem.receive_new_value`, `get`) and `specula/base_data_obj.py` 35-110
(`transferDataTo`, `copyTo`).

A data object is reduced to what `get_value()` returns (`None` or an array of at least one dimension and constant shape) and its
`generation_time`.  Python scalars and zero-dimensional arrays are not modelled, nor are devices other than the CPU, nor the
other attributes of the object (a raw buffer does not carry them).
-/
namespace Specula

/-- A data object as seen by a link. -/
structure WObj (β : Type) where
  value : Option β
  time : Int
deriving DecidableEq

/-- A message with the tag of the link. -/
inductive Wire (β : Type) where
  /-- `ibsend(item)` -/
  | pickle (o : WObj β)
  /-- `Ibsend(buffer)` -/
  | buffer (b : β)

/-- Messages in transit: with the tag of the link and with that tag plus one (generation times). -/
structure Transit (β : Type) where
  data : List (Wire β)
  times : List Int

/-- `send_remote_output`, base_processing_obj.py 155-173; `valid` is `dest_tag in self.sent_valid`.  Result: the messages and
the new `valid`; `none`: the buffer of an unset value is sent, which is an exception. -/
def sendRemote {β : Type} (first valid : Bool) (o : WObj β) : Option (Transit β × Bool) :=
  let valid' := valid || o.value.isSome
  if first || !valid then some (⟨[.pickle o], []⟩, valid')
  else match o.value with
    | none => none
    | some b => some (⟨[.buffer b], [o.time]⟩, valid')

/-- All sends of a link: the first one is made before setup with `first_mpi_send=True`, the others with `False`
(loop_control.py 82, 107, 152). -/
def sendAll {β : Type} (first valid : Bool) : List (WObj β) → Option (Transit β)
  | [] => some ⟨[], []⟩
  | o :: os =>
    match sendRemote first valid o with
    | none => none
    | some (m, valid') =>
      match sendAll false valid' os with
      | none => none
      | some rest => some ⟨m.data ++ rest.data, m.times ++ rest.times⟩

/-- `transferDataTo`, base_data_obj.py 35-109: an array is copied, an unset value leaves the destination as it is; the
generation time is always copied. -/
def transferTo {β : Type} (src dest : WObj β) : WObj β :=
  ⟨match src.value with | none => dest.value | some b => some b, src.time⟩

/-- `_InputItem.get` of a remote input, connections.py 31-53 and 64-74; `clone` is `cloned_value`.  Result: the new clone and
the messages that remain.  `none`: the receive waits for ever or gets a message in the other format. -/
def recvRemote {β : Type} (clone : Option (WObj β)) (t : Transit β) : Option (WObj β × Transit β) :=
  match clone with
  | none =>
    match t.data with
    | .pickle o :: ds => some (o, ⟨ds, t.times⟩)
    | _ => none
  | some c =>
    match c.value with
    | none =>
      match t.data with
      | .pickle o :: ds => some (transferTo o c, ⟨ds, t.times⟩)
      | _ => none
    | some _ =>
      match t.data, t.times with
      | .buffer b :: ds, g :: gs => some (⟨some b, g⟩, ⟨ds, gs⟩)
      | _, _ => none

/-- `n` receives: the value of the input after each of them, and what remains in transit. -/
def recvAll {β : Type} (clone : Option (WObj β)) (t : Transit β) : Nat → Option (List (WObj β) × Transit β)
  | 0 => some ([], t)
  | n + 1 =>
    match recvRemote clone t with
    | none => none
    | some (c, t') => (recvAll (some c) t' n).map fun r => (c :: r.1, r.2)

end Specula
