import Verif.Model.Params
/-
Model of the distribution of objects over processes and of the connections between them:
`specula/simul.py` 361-387 (rank logic of `build_objects`), 616-650 (`connect`), 652-711 (`connect_objects`).
-/
namespace Specula

/-- What the rank logic sees of one object of the parameter file. -/
structure PObj where
  name : String
  /-- `issubclass(klass, BaseDataObj)`, simul.py 378 -/
  isData : Bool := false
  /-- the parameter `target_rank`, simul.py 365 -/
  rank : Option Nat := none
  /-- outputs and inputs created by the constructor of the class -/
  outs : List String := []
  ins : List String := []
  /-- the `inputs` dictionary: input name → references (a single text is a list of one) -/
  inputs : List (String × List OutRef) := []
deriving DecidableEq

/-- `target_rank`, simul.py 365-374: 0 by default. -/
def PObj.target (o : PObj) : Nat := o.rank.getD 0

/-- `build_this_object`, simul.py 380-383; `none` is a run without MPI (`process_rank == None`). -/
def builtOn (r : Option Nat) (o : PObj) : Bool :=
  (r == some o.target) || (o.isData && (o.rank == none)) || (o.isData && (o.rank == r)) || (r == none)

/-- Entry of a name in the file. -/
def findObj (file : List PObj) (n : String) : Option PObj := file.find? (·.name = n)

/-- What `connect` registers. -/
inductive Act where
  /-- `inputs[input].append(output.ref)`: producer, output key, consumer, input -/
  | local (p : String) (key : Option String) (d i : String)
  /-- `objs[p].addRemoteOutput(key, (rank, tag, delay))` -/
  | send (p : String) (key : Option String) (rank tag : Nat) (delay : Int)
  /-- `inputs[i].append(None, remote_rank=rank, tag=tag)` of object `d` -/
  | recv (d i : String) (rank tag : Nat)
deriving DecidableEq

/-- `split_output(…, get_ref=True)`, simul.py 152-165, on the process of rank `r`: outer `none` is ValueError, inner `none`
is `ref = None` (a remote object), otherwise the local object.  Outputs are assumed not to be `None` themselves. -/
def refOn (r : Option Nat) (file : List PObj) (ref : OutRef) : Option (Option PObj) :=
  match findObj file ref.obj with
  | none => none
  | some o =>
    if builtOn r o then
      match ref.key with
      | none => some (some o)
      | some k => if k ∈ o.outs then some (some o) else none
    else some none

/-- `connect_objects` / `connect` for one reference of one input, simul.py 690-707 and 616-650.  `tag` is `computeTag`.
The outer `none` is an exception: unknown object or output, or `addRemoteOutput` on a data object (which has no such
method).  Remote-to-remote links register nothing. -/
def connectLink (r : Option Nat) (file : List PObj) (tag : String → String → Option String → String → Nat)
    (d : PObj) (i : String) (ref : OutRef) : Option (List Act) :=
  match refOn r file ref with
  | none => none
  | some none =>
    if builtOn r d then
      match findObj file ref.obj with
      | none => none
      | some p => some [.recv d.name i p.target (tag ref.obj d.name ref.key i)]
    else some []
  | some (some p) =>
    if builtOn r d then some [.local ref.obj ref.key d.name i]
    else if p.isData then none
    else some [.send ref.obj ref.key d.target (tag ref.obj d.name ref.key i) ref.delay]

/-- The loop over the inputs of one object, simul.py 675-711, including the check that the input exists. -/
def connectObj (r : Option Nat) (file : List PObj) (tag : String → String → Option String → String → Nat)
    (d : PObj) : Option (List Act) :=
  (d.inputs.mapM fun e =>
    if builtOn r d && !decide (e.1 = "input_list") && !decide (e.1 ∈ d.ins) then none
    else (e.2.mapM fun ref => connectLink r file tag d e.1 ref).map List.flatten).map List.flatten

/-- `Simul.connect_objects`, simul.py 652-711, on the process of rank `r` (the check of declared `outputs`, 663-676, is left
out). -/
def connectOn (r : Option Nat) (file : List PObj) (tag : String → String → Option String → String → Nat) :
    Option (List Act) :=
  (file.mapM fun d => connectObj r file tag d).map List.flatten

end Specula
