import Verif.Model.Ranks
/-
Specification vocabulary for distributed runs (C14).
-/
namespace Specula

/-- A configured link: consumer, input name, reference. -/
structure Link where
  dest : PObj
  input : String
  ref : OutRef
deriving DecidableEq

/-- All links of a file, in file order. -/
def links (file : List PObj) : List Link :=
  file.flatMap fun d => d.inputs.flatMap fun e => e.2.map fun ref => ⟨d, e.1, ref⟩

/-- What a link between processing objects should cause on the process of rank `r`, given the rank of its producer: a shared
reference, a send, a receive, or nothing. -/
def expected (tag : String → String → Option String → String → Nat) (r rp : Nat) (l : Link) : List Act :=
  if rp = r ∧ l.dest.target = r then [.local l.ref.obj l.ref.key l.dest.name l.input]
  else if rp = r then [.send l.ref.obj l.ref.key l.dest.target (tag l.ref.obj l.dest.name l.ref.key l.input) l.ref.delay]
  else if l.dest.target = r then [.recv l.dest.name l.input rp (tag l.ref.obj l.dest.name l.ref.key l.input)]
  else []

/-- Tags of the messages a process has registered to send to rank `b`, in order. -/
def sentTags (b : Nat) (acts : List Act) : List Nat :=
  acts.filterMap fun a => match a with | .send _ _ q t _ => if q = b then some t else none | _ => none

/-- Tags of the messages a process has registered to receive from rank `a`, in order. -/
def recvTags (a : Nat) (acts : List Act) : List Nat :=
  acts.filterMap fun x => match x with | .recv _ _ q t => if q = a then some t else none | _ => none

/-- Every reference of the file names an object of the file that has the named output, and every input exists. -/
def LinksOk (file : List PObj) : Prop :=
  ∀ d ∈ file, ∀ e ∈ d.inputs, (e.1 = "input_list" ∨ e.1 ∈ d.ins) ∧
    ∀ ref ∈ e.2, ∃ p ∈ file, p.name = ref.obj ∧ ∀ k, ref.key = some k → k ∈ p.outs

/-- All inputs come from processing objects. -/
def FromProcessing (file : List PObj) : Prop :=
  ∀ l ∈ links file, ∀ p ∈ file, p.name = l.ref.obj → p.isData = false

end Specula
