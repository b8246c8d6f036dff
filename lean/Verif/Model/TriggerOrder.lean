import Verif.Model.Params
/-
Model of the trigger-order computation, `specula/simul.py` 202-276 and 861-885.
-/
namespace Specula

/-- `maxdelay` of one input entry, simul.py 212-218: the delay of a text, the maximal delay of a list,
`-1` for an empty list. -/
def Input.maxDelay : Input → Int
  | .single r => r.delay
  | .list [] => -1
  | .list (r :: rs) => rs.foldl (fun m x => max m x.delay) r.delay

/-- `Simul.is_leaf`, simul.py 202-220. -/
def isLeaf (p : ObjPars) : Bool :=
  match p.inputs with
  | none => true
  | some ins => ins.all fun e => e.2.maxDelay != 0

/-- `Simul.has_delayed_output`, simul.py 222-245. -/
def hasDelayedOutput (objName : String) (ps : Params) : Bool :=
  ps.any fun np =>
    match np.2.inputs with
    | none => false
    | some ins => ins.any fun e => e.2.refs.any fun r => r.obj == objName && decide (r.delay < 0)

/-- The inner part of `Simul.remove_inputs` for one `inputs` dictionary, simul.py 869-884:
a text owned by the removed object is deleted, a list is filtered (and kept even when it becomes empty). -/
def removeFromIns (o : String) (ins : List (String × Input)) : List (String × Input) :=
  ins.filterMap fun e =>
    match e.2 with
    | .single r => if r.obj == o then none else some e
    | .list rs => some (e.1, .list (rs.filter fun x => x.obj != o))

/-- `Simul.remove_inputs`, simul.py 861-885. -/
def removeInputs (ps : Params) (o : String) : Params :=
  ps.map fun np => (np.1, { np.2 with inputs := np.2.inputs.map (removeFromIns o) })

/-- `del params[name]` on an insertion-ordered dictionary. -/
def delKey (ps : Params) (o : String) : Params := ps.filter fun np => np.1 != o

/-- The `for leaf in leaves` loop of `build_trigger_order`, simul.py 264-270.  Returns the shrunken dictionary and
the names appended to `order` (in order of appending). -/
def triggerPass : List String → Params → Params × List String
  | [], ps => (ps, [])
  | leaf :: leaves, ps =>
    if hasDelayedOutput leaf ps then triggerPass leaves ps
    else
      let r := triggerPass leaves (removeInputs (delKey ps leaf) leaf)
      (r.1, leaf :: r.2)

/-- `leaves = [name for name, pars in params.items() if self.is_leaf(pars)]`, simul.py 260. -/
def leavesOf (ps : Params) : List String := (ps.filter fun np => isLeaf np.2).map (·.1)

theorem triggerPass_length_le (leaves : List String) (ps : Params) :
    (triggerPass leaves ps).1.length ≤ ps.length := by
  induction leaves generalizing ps with
  | nil => simp [triggerPass]
  | cons l ls ih =>
    unfold triggerPass
    split
    · exact ih ps
    · refine Nat.le_trans (ih _) ?_
      simp only [removeInputs, List.length_map, delKey]
      exact List.length_filter_le _ _

/-- The `for index in itertools.count()` loop of `build_trigger_order`, simul.py 259-273, from a given `index` on.
`none` is the `ValueError` of line 273; otherwise the pairs appended to `order`/`order_index` and the dictionary
left over (whose keys are printed in the warning of lines 274-275). -/
def triggerLoop (index : Nat) (ps : Params) : Option (List (String × Nat) × Params) :=
  if (leavesOf ps).length = 0 then some ([], ps)
  else if ps.length = (triggerPass (leavesOf ps) ps).1.length then none
  else
    match triggerLoop (index + 1) (triggerPass (leavesOf ps) ps).1 with
    | none => none
    | some (o, left) => some ((triggerPass (leavesOf ps) ps).2.map (fun n => (n, index)) ++ o, left)
termination_by ps.length
decreasing_by
  have := triggerPass_length_le (leavesOf ps) ps
  omega

/-- `Simul.build_trigger_order`, simul.py 247-276.  The code returns the two parallel lists `order`, `order_index`;
here they are one list of pairs, together with the objects that are left out. -/
def buildTriggerOrder (ps : Params) : Option (List (String × Nat) × Params) := triggerLoop 0 ps

end Specula
