import Verif.Model.Raw
/-
Model of the functions that edit a parameter file before the simulation is built: `remove_inputs` (on the text level),
`combine_params` and `apply_overrides`, `specula/simul.py` 861-934.
-/
namespace Specula

/-- `[x for x in output_name if self.output_owner(x) != obj_to_remove]`, simul.py 878. -/
def filterOwned (o : String) : List Value → Option (List Value)
  | [] => some []
  | v :: vs =>
    match ownerOf v with
    | none => none
    | some w =>
      match filterOwned o vs with
      | none => none
      | some r => some (if w = o then r else v :: r)

/-- One pass of the loop over the inputs of an object, simul.py 870-883: a text owned by the removed object is deleted,
a list is filtered, any other type is left alone. -/
def removeEntry (o : String) (i : String) (v : Value) : Option (Dict Value) :=
  match v with
  | .str s => (ownerOf (.str s)).map fun w => if w = o then [] else [(i, .str s)]
  | .list vs => (filterOwned o vs).map fun l => [(i, .list l)]
  | v => some [(i, v)]

/-- The new `inputs` dictionary of one object, simul.py 869-884. -/
def removeIns (o : String) (ins : Dict Value) : Option (Dict Value) :=
  (ins.mapM fun e => removeEntry o e.1 e.2).map List.flatten

/-- The body of the outer loop of `remove_inputs` for one object, simul.py 866-884.  An object that is not a dictionary, or
whose `inputs` entry is not one, is an exception.  (For an object that is a text or a list the code would skip it here and
raise later, in `build_objects`.) -/
def removeFromObj (o : String) : Value → Option Value
  | .dict pars =>
    match Dict.get? pars "inputs" with
    | none => some (.dict pars)
    | some (.dict ins) => (removeIns o ins).map fun ins' => .dict (Dict.set pars "inputs" (.dict ins'))
    | some _ => none
  | _ => none

/-- `Simul.remove_inputs`, simul.py 861-885. -/
def removeInputsRaw (ps : RawParams) (o : String) : Option RawParams :=
  ps.mapM fun np => (removeFromObj o np.2).map fun v => (np.1, v)

/-- The names over which `for objname in values` iterates, simul.py 906: a list of texts, the keys of a dictionary, the
characters of a text. -/
def iterNames : Value → Option (List String)
  | .list vs => vs.mapM fun v => match v with | .str s => some s | _ => none
  | .dict kvs => some (Dict.keys kvs)
  | .str s => some (s.toList.map fun c => String.ofList [c])
  | _ => none

/-- The `remove` branch of `combine_params`, simul.py 905-912. -/
def removeObjs : List String → RawParams → Option RawParams
  | [], ps => some ps
  | o :: os, ps =>
    if o ∈ ps.keys then
      match removeInputsRaw (ps.del o) o with
      | none => none
      | some ps' => removeObjs os ps'
    else none

/-- `re.search(r'^(.*)_(\d+)$', name)` with `int(match.group(2))`, simul.py 896-898: the name ends with an underscore and
digits.  ASCII digits, names without line breaks. -/
def indexSuffix (name : String) : Option (String × Nat) :=
  let r := name.toList.reverse
  let ds := r.takeWhile (·.isDigit)
  match r.dropWhile (·.isDigit) with
  | '_' :: base => if ds = [] then none else some (String.ofList base.reverse, Nat.ofDigitChars 10 ds.reverse 0)
  | _ => none

/-- The three branches of `combine_params` for a name without index, simul.py 905-920. -/
def combineNamed (ps : RawParams) (name : String) (values : Value) : Option RawParams :=
  if name = "remove" then
    match iterNames values with
    | none => none
    | some os => removeObjs os ps
  else if endsWith name "_override" then
    let objname := String.ofList (name.toList.take (name.toList.length - 9))
    match ps.get? objname with
    | some (.dict pars) =>
      match values with
      | .dict kvs => some (ps.set objname (.dict (Dict.update pars kvs)))
      | _ => none
    | _ => none
  else if name ∈ ps.keys then none
  else some (ps.set name values)

/-- One pass of the loop of `combine_params`, simul.py 891-920. -/
def combineEntry (simulIdx : Nat) (ps : RawParams) (e : String × Value) : Option RawParams :=
  match indexSuffix e.1 with
  | some (base, idx) => if idx ≠ simulIdx then some ps else combineNamed ps base e.2
  | none => combineNamed ps e.1 e.2

/-- `Simul.combine_params`, simul.py 887-920: `none` is an exception, otherwise the modified `params`. -/
def combineParams (simulIdx : Nat) (ps : RawParams) (adds : Dict Value) : Option RawParams :=
  adds.foldlM (combineEntry simulIdx) ps

/-- One pass of the loop of `apply_overrides`, simul.py 925-934. -/
def applyOverride (ps : RawParams) (e : String × Value) : Option RawParams :=
  match (pySplit '.' e.1.toList).map String.ofList with
  | [o, p] =>
    match ps.get? o with
    | some (.dict pars) => some (ps.set o (.dict (Dict.set pars p e.2)))
    | _ => none
  | [o, p, q] =>
    match ps.get? o with
    | some (.dict pars) =>
      match Dict.get? pars p with
      | some (.dict sub) => some (ps.set o (.dict (Dict.set pars p (.dict (Dict.set sub q e.2)))))
      | _ => none
    | _ => none
  | _ => none

/-- `Simul.apply_overrides`, simul.py 922-934 (after the YAML text of the overrides has been read as a dictionary). -/
def applyOverrides (ps : RawParams) (ovr : Dict Value) : Option RawParams := ovr.foldlM applyOverride ps

end Specula
