import Verif.Model.Combine
/-
Model of the replay builders, `specula/simul.py` 717-859.
-/
namespace Specula

/-- One entry of an `inputs` dictionary as iterated by `iterate_inputs`, simul.py 854-859. -/
def iterEntry (k : String) : Value → List (String × Value)
  | .list vs => vs.map fun v => (k, v)
  | v => [(k, v)]

/-- `Simul.iterate_inputs`, simul.py 841-859.  `none` is an exception (an `inputs` entry that is not a dictionary; also an
`input_list` that is not a list: the code would raise for a number and iterate over the characters of a text). -/
def iterateInputs (pars : Dict Value) : Option (List (String × Value)) :=
  match pars.get? "inputs" with
  | none => some []
  | some (.dict ins) =>
    match Dict.get? ins "input_list" with
    | some (.list vs) => some (vs.map fun v => ("input_list", v))
    | some _ => none
    | none => some (ins.flatMap fun e => iterEntry e.1 e.2)
  | some _ => none

/-- The loop of `data_store_to_data_source`, simul.py 736-741: output names (with `None` for a missing input name), object
names, and the dictionary `obj.key → input name`.  `none` is an exception: malformed reference, or reference without key. -/
def storeLoop : List (String × Value) → Option (List (Option String) × List String × Dict (Option String))
  | [] => some ([], [], [])
  | (_, .str s) :: rest =>
    match splitOutput s with
    | some { alias := a, obj := o, key := some k, delay := _ } =>
      match storeLoop rest with
      | none => none
      | some (outs, objs, m) => some (a :: outs, o :: objs, (o ++ "." ++ k, a) :: m)
    | _ => none
  | _ => none

/-- The dictionary built by the successive assignments of the loop. -/
def dictOf {α : Type} (l : List (String × α)) : Dict α := l.foldl (fun d e => Dict.set d e.1 e.2) []

/-- `Simul.data_store_to_data_source`, simul.py 717-743. -/
def dataStoreToDataSource (pars : Dict Value) (storeDir : Option Value) :
    Option (Dict Value × List String × Dict (Option String)) :=
  match iterateInputs pars with
  | none => none
  | some l =>
    match storeLoop l with
    | none => none
    | some (outs, objs, m) =>
      match (match storeDir with | some d => some d | none => pars.get? "store_dir") with
      | none => none
      | some dir =>
        let outVals := Value.list (outs.map fun o => match o with | some a => .str a | none => .null)
        some ([("class", .str "DataSource"), ("outputs", outVals)] ++
            (match pars.get? "data_format" with | some f => [("data_format", f)] | none => []) ++ [("store_dir", dir)],
          objs, dictOf m)

/-- `classname == 'DataStore'` and the like: the value is that text. -/
def isStr (c : String) : Value → Bool
  | .str s => s == c
  | _ => false

/-- The first loop of `build_replay`, simul.py 750-761: the data source parameters, the objects to remove and the stored
outputs; the ones of the last DataStore of the file win. -/
def replayScan : RawParams → Option (Dict Value × List String × Dict (Option String)) →
    Option (Option (Dict Value × List String × Dict (Option String)))
  | [], acc => some acc
  | (key, .dict pars) :: rest, acc =>
    match Dict.get? pars "class" with
    | none => none
    | some c =>
      if isStr "DataStore" c then
        match dataStoreToDataSource pars none with
        | none => none
        | some (dspars, objs, m) => replayScan rest (some (dspars, objs ++ [key], m))
      else replayScan rest acc
  | _ :: _, _ => none

/-- `for obj_name in set(obj_to_remove): del replay_params[obj_name]`, simul.py 763-764. -/
def delAll : List String → RawParams → Option RawParams
  | [], ps => some ps
  | o :: os, ps => if o ∈ ps.keys then delAll os (ps.del o) else none

/-- The inner loop of simul.py 769-774: a plain text that is a stored output is redirected to the data source.  Lists are
left alone (the code prints a TODO). -/
def redirect (m : Dict (Option String)) : Dict Value → Option (Dict Value)
  | [] => some []
  | (i, v) :: rest =>
    match redirect m rest with
    | none => none
    | some rest' =>
      match v with
      | .str s =>
        match m.get? s with
        | some (some a) => some ((i, .str ("data_source." ++ a)) :: rest')
        | some none => none
        | none => some ((i, v) :: rest')
      | .dict _ => none
      | _ => some ((i, v) :: rest')

/-- simul.py 766-774 for one object. -/
def redirectObj (m : Dict (Option String)) (key : String) : Value → Option Value
  | .dict pars =>
    if key = "data_source" then some (.dict pars)
    else
      match Dict.get? pars "inputs" with
      | none => some (.dict pars)
      | some (.dict ins) => (redirect m ins).map fun ins' => .dict (Dict.set pars "inputs" (.dict ins'))
      | some _ => none
  | _ => none

/-- `Simul.build_replay`, simul.py 745-776.  (`set(obj_to_remove)`: every name once; the order of deletions is irrelevant.) -/
def buildReplay (ps : RawParams) : Option RawParams :=
  match replayScan ps none with
  | none => none
  | some acc =>
    let start : RawParams × List String × Dict (Option String) := match acc with
      | none => (ps, [], [])
      | some (dspars, rm, m) => (ps.set "data_source" (.dict dspars), rm, m)
    match delAll start.2.1.eraseDups start.1 with
    | none => none
    | some rp => rp.mapM fun np => (redirectObj start.2.2 np.1 np.2).map fun v => (np.1, v)

/-- The loop over the inputs in `add_key`, simul.py 817-826: the `inputs` dictionary after the assignments (which go to the
entry shared with the original parameters), and the objects passed to the recursive calls. -/
def targetInputs (m : Dict (Option String)) : List (String × Value) → Dict Value → Option (Dict Value × List String)
  | [], ins => some (ins, [])
  | (k, .str s) :: rest, ins =>
    match splitOutput s with
    | none => none
    | some r =>
      match m.get? (r.obj ++ "." ++ r.key.getD "None") with
      | some (some a) => targetInputs m rest (ins.set k (.str ("data_source." ++ a)))
      | some none => none
      | none => (targetInputs m rest ins).map fun x => (x.1, r.obj :: x.2)
  | _ :: _, _ => none

/-- The names passed to `add_key` for one parameter, simul.py 828-836. -/
def targetRefs (k : String) (v : Value) : Option (List String) :=
  if endsWith k "_list_ref" || endsWith k "_dict_ref" then iterNames v
  else if endsWith k "_ref" then
    match v with
    | .str s => some [s]
    | _ => none
  else some []

/-- Everything `add_key` does for one object except the recursive calls: the copied parameters (with redirected inputs) and
the names of the recursive calls, in order. -/
def targetObj (m : Dict (Option String)) : Value → Option (Value × List String)
  | .dict pars =>
    match iterateInputs pars with
    | none => none
    | some l =>
      match targetInputs m l (match Dict.get? pars "inputs" with | some (.dict ins) => ins | _ => []) with
      | none => none
      | some (ins', deps) =>
        match Dict.get? pars "inputs" with
        | none =>
          ((pars.mapM fun kv => targetRefs kv.1 kv.2).map List.flatten).map fun refs => (.dict pars, deps ++ refs)
        | some _ =>
          ((pars.mapM fun kv => targetRefs kv.1 kv.2).map List.flatten).map fun refs =>
            (.dict (Dict.set pars "inputs" (.dict ins')), deps ++ refs)
  | _ => none

/-- The inner function `add_key` of `build_targeted_replay`, simul.py 809-836; the first argument is the recursion depth
still available.  The object is inserted before the recursive calls, which never touch it again. -/
def addKey (ps : RawParams) (m : Dict (Option String)) : Nat → String → RawParams → Option RawParams
  | 0, _, _ => none
  | fuel + 1, key, rp =>
    if key ∈ rp.keys then some rp
    else
      match ps.get? key with
      | none => none
      | some p =>
        match targetObj m p with
        | none => none
        | some (p', deps) => deps.foldlM (fun rp d => addKey ps m fuel d rp) (rp.set key p')

/-- The search for the SimulParams object, simul.py 791-797. -/
def findMain : RawParams → Option (String × Value)
  | [] => none
  | (key, .dict pars) :: rest =>
    match Dict.get? pars "class" with
    | none => none
    | some c => if isStr "SimulParams" c then some (key, .dict pars) else findMain rest
  | _ :: _ => none

/-- The loop over DataStores, simul.py 802-808: the data source entry of the last one, the merged stored outputs. -/
def targetScan (dir : Option Value) : RawParams → RawParams × Dict (Option String) → Option (RawParams × Dict (Option String))
  | [], acc => some acc
  | (_, .dict pars) :: rest, (rp, m) =>
    match Dict.get? pars "class" with
    | none => none
    | some c =>
      if isStr "DataStore" c then
        match dataStoreToDataSource pars dir with
        | none => none
        | some (dspars, _, m') => targetScan dir rest (rp.set "data_source" (.dict dspars), m.update m')
      else targetScan dir rest (rp, m)
  | _ :: _, _ => none

/-- `Simul.build_targeted_replay`, simul.py 778-839. -/
def buildTargetedReplay (limit : Nat) (ps : RawParams) (targets : List String) (dir : Option Value) : Option RawParams :=
  match findMain ps with
  | none => none
  | some (mk, mv) =>
    match targetScan dir ps ([(mk, mv)], []) with
    | none => none
    | some (rp, m) => targets.foldlM (fun rp t => addKey ps m limit t rp) rp

end Specula
