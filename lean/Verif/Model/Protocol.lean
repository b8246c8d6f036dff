/-
Model of the readiness test of processing objects, `specula/base_processing_obj.py` 62-89, 233-257.
-/
namespace Specula

/-- A data object seen through an input: its `generation_time` (Python `None` is `none`) and its content. -/
structure Item (ν : Type) where
  gen : Option Int
  val : ν

/-- Value of `self.local_inputs[name]` after `get_all_inputs` (base_processing_obj.py 91-103): `None`, a single item
(`InputValue.get`, connections.py 138-150) or a list (`InputList.get`, connections.py 95-96).
`None` entries inside a list, which line 84 skips, are not represented. -/
inductive Local (ν : Type) where
  | none
  | one (x : Item ν)
  | many (xs : List (Item ν))

def Local.isNone {ν : Type} : Local ν → Bool
  | .none => true
  | _ => false

/-- base_processing_obj.py 81-84: the items whose generation time is examined. -/
def Local.items {ν : Type} : Local ν → List (Item ν)
  | .none => []
  | .one x => [x]
  | .many xs => xs

/-- One entry of `self.inputs`: its name, the `optional` flag, and whether it is an `InputList` or an `InputValue`. -/
structure InDecl where
  name : String
  optional : Bool := false
  isList : Bool := false
deriving DecidableEq, Repr

/-- `tt is not None and tt >= self.current_time`, base_processing_obj.py 86. -/
def refreshed (t : Int) : Option Int → Bool
  | some g => decide (t ≤ g)
  | none => false

/-- `BaseProcessingObj.checkInputTimes`, base_processing_obj.py 62-89, given the declared inputs and the values
obtained by `get_all_inputs`. -/
def checkInputTimes {ν : Type} (decls : List InDecl) (loc : InDecl → Local ν) (t : Int) : Bool :=
  if decls.length = 0 then true
  else if decls.all fun d => d.optional && (loc d).isNone then true
  else decls.any fun d => (loc d).items.any fun x => refreshed t x.gen

/-- The methods of a processing object as called by the outside, with the data they read: `check_ready(t)` with the
values found by `get_all_inputs`, `trigger()`, `post_trigger()`. -/
inductive Call (ν : Type) where
  | check (t : Int) (loc : InDecl → Local ν)
  | trigger
  | post

/-- What happened in one call: whether `prepare_trigger`, `trigger_code`, the body of `post_trigger` were executed, or
the call raised `RuntimeError`. -/
inductive Effect where
  | prepared | notReady | triggered | posted | raised
deriving DecidableEq, Repr

/-- One call on an object whose `inputs_changed` flag is `ch`: new flag and effect.
`check_ready` base_processing_obj.py 233-244, `trigger` 246-257, `post_trigger` 138-153. -/
def callStep {ν : Type} (decls : List InDecl) (ch : Bool) : Call ν → Bool × Effect
  | .check t loc => if checkInputTimes decls loc t then (true, .prepared) else (false, .notReady)
  | .trigger => if ch then (ch, .triggered) else (ch, .raised)
  | .post => if ch then (false, .posted) else (ch, .raised)

/-- A history of calls on an object, from flag `ch` (a new object has `inputs_changed = False`, line 36).
An exception does not end the history: the caller may catch it. -/
def callRun {ν : Type} (decls : List InDecl) (ch : Bool) : List (Call ν) → Bool × List Effect
  | [] => (ch, [])
  | c :: cs =>
    let r := callStep decls ch c
    let r' := callRun decls r.1 cs
    (r'.1, r.2 :: r'.2)

/-- What `LoopControl.iter` does with one object in one iteration (loop_control.py 129-149): `check_ready`, then
`trigger` if `inputs_changed`, then `post_trigger` if `inputs_changed`. -/
def iterObj {ν : Type} (decls : List InDecl) (ch : Bool) (t : Int) (loc : InDecl → Local ν) : Bool × List Effect :=
  let r1 := callStep decls ch (.check t loc)
  let r2 := if r1.1 then callStep decls r1.1 (Call.trigger (ν := ν)) else (r1.1, r1.2)
  let r3 := if r2.1 then callStep decls r2.1 (Call.post (ν := ν)) else (r2.1, r2.2)
  (r3.1, [r1.2] ++ (if r1.1 then [r2.2] else []) ++ (if r2.1 then [r3.2] else []))

/-- A run of `LoopControl.iter` over the iterations in which the object sees `hist` (time and input values of each
iteration): the effects of each iteration. -/
def iterObjs {ν : Type} (decls : List InDecl) (ch : Bool) : List (Int × (InDecl → Local ν)) → List (List Effect)
  | [] => []
  | (t, loc) :: hist =>
    let r := iterObj decls ch t loc
    r.2 :: iterObjs decls r.1 hist

end Specula
