import Verif.Model.Raw
/-
Model of `Simul.build_order`, `specula/simul.py` 284-309.
-/
namespace Specula

/-- The owners named by one parameter, simul.py 295-298: nothing unless the parameter name ends with `_ref`; a list is
taken element by element, anything else is one reference. -/
def parRefs (name : String) (v : Value) : Option (List String) :=
  if endsWith name "_ref" then
    match v with
    | .list vs => vs.mapM ownerOf
    | v => (ownerOf v).map fun o => [o]
  else some []

/-- The owners named by all parameters of an object, in order, simul.py 294-298.  `none` is an exception.
(The code computes them one at a time between the recursive calls; as every object of the file is visited, an exception
in any of them makes the whole call raise, whenever it happens.) -/
def objRefs : Value → Option (List String)
  | .dict kvs => (kvs.mapM fun kv => parRefs kv.1 kv.2).map List.flatten
  | _ => none

/-- The inner function `add_to_build_order`, simul.py 289-302.  The first argument is the recursion depth still available
(`none` when it is exhausted: Python's RecursionError); `none` also stands for `params[key]` raising KeyError. -/
def addToBuildOrder (params : RawParams) : Nat → String → List String → Option (List String)
  | 0, _, _ => none
  | fuel + 1, key, acc =>
    if key ∈ acc then some acc
    else
      match params.get? key with
      | none => none
      | some pars =>
        match objRefs pars with
        | none => none
        | some owners =>
          (owners.foldlM (fun acc o => if o ∈ acc then some acc else addToBuildOrder params fuel o acc) acc).map
            fun acc => acc ++ [key]

/-- `Simul.build_order`, simul.py 284-309, with the interpreter's recursion limit as a parameter. -/
def buildOrder (limit : Nat) (params : RawParams) : Option (List String) :=
  params.keys.foldlM (fun acc key => addToBuildOrder params limit key acc) []

end Specula
