import Verif.Model.SplitOutput
/-
Parameter files as they are read from YAML: nested dictionaries whose leaves are still text.  This is the level at which
`combine_params`, `apply_overrides`, `build_order` and the replay builders of `specula/simul.py` work.

Scalars other than text, truth values and null are all represented by `Value.num` (none of the modelled functions looks
into them).
-/
namespace Specula

/-- A Python dictionary with text keys, in insertion order. -/
abbrev Dict (α : Type) := List (String × α)

namespace Dict
variable {α : Type}

/-- The keys. -/
def keys (d : Dict α) : List String := d.map (·.1)

/-- `d.get(k)`: the value, or `none` when `k` is not a key. -/
def get? : Dict α → String → Option α
  | [], _ => none
  | (k', v) :: d, k => if k' = k then some v else get? d k

/-- `d[k] = v`: replaces in place, or appends a new key. -/
def set : Dict α → String → α → Dict α
  | [], k, v => [(k, v)]
  | (k', v') :: d, k, v => if k' = k then (k', v) :: d else (k', v') :: set d k v

/-- `del d[k]` (`k` being a key). -/
def del (d : Dict α) (k : String) : Dict α := d.filter fun e => e.1 != k

/-- `d.update(e)`. -/
def update (d e : Dict α) : Dict α := e.foldl (fun d kv => d.set kv.1 kv.2) d

end Dict

/-- A YAML parameter file: object name → (usually) dictionary of parameters. -/
abbrev RawParams := Dict Value

/-- Python `name.endswith(suffix)` (simul.py 295, 829-833, 909). -/
def endsWith (name suffix : String) : Bool := suffix.toList.isSuffixOf name.toList

/-- `self.output_owner(text)`, simul.py 173-175; `none` when the argument is not a text (TypeError) or malformed. -/
def ownerOf : Value → Option String
  | .str s => (splitOutput s).map (·.obj)
  | _ => none

end Specula
