/-
Model of `specula/connections.py` (local part) and of `flatten`, `specula/lib/utils.py` 344-359.
-/
namespace Specula

/-- A Python value given to `append`/`set`: `None`, a data object, or a (nested) list. -/
inductive PyVal (α : Type) where
  | none
  | obj (a : α)
  | list (xs : List (PyVal α))

/-- `_InputItem`, connections.py 22-29: the reference to the output, or where it is received from. -/
structure InItem (α : Type) where
  ref : Option α
  remote : Option (Int × Nat) := none
deriving DecidableEq

/-- `InputList.append`, connections.py 105-124, together with the checks of `_InputItem.__init__`, 15-20.
`isInst` is `isinstance(·, self.output_ref_type)`.  Returns the new `input_values`, and an error if an exception was
raised (what was appended before it stays). -/
def appendItem {α : Type} (isInst : α → Bool) (remote : Option (Int × Nat)) :
    List (InItem α) → PyVal α → List (InItem α) × Option String
  | items, .list xs => go items xs
  | items, .none =>
    match remote with
    | none => (items, some "Item must be of type")
    | some rt => (items ++ [{ ref := none, remote := some rt }], none)
  | items, .obj a =>
    match remote with
    | none => if isInst a then (items ++ [{ ref := some a }], none) else (items, some "Item must be of type")
    | some _ => (items, some "non-None value used with remote input")
where
  /-- `for v in item: self.append(v, ...)`, connections.py 110-113 -/
  go : List (InItem α) → List (PyVal α) → List (InItem α) × Option String
  | items, [] => (items, none)
  | items, x :: xs =>
    match appendItem isInst remote items x with
    | (items', none) => go items' xs
    | (items', some e) => (items', some e)

/-- `InputList.set` / `InputValue.set`, connections.py 98-103, 131-136. -/
def setItems {α : Type} (isInst : α → Bool) (v : PyVal α) : List (InItem α) × Option String :=
  appendItem isInst none [] v

/-- `flatten` of a list of Python values as a generator, lib/utils.py 344-359 (data objects and `None` are not
iterable, so they are yielded as they are). -/
def flattenVal {α : Type} : PyVal α → List (Option α)
  | .none => [none]
  | .obj a => [some a]
  | .list xs => go xs
where
  go : List (PyVal α) → List (Option α)
  | [] => []
  | x :: xs => flattenVal x ++ go xs

/-- `_InputItem.get` of a local item on the same device, connections.py 56-64. -/
def InItem.get {α : Type} (x : InItem α) : PyVal α :=
  match x.ref with
  | none => .none
  | some a => .obj a

/-- `InputList.get` for local items, connections.py 95-96. -/
def getList {α : Type} (items : List (InItem α)) : List (Option α) := flattenVal (.list (items.map InItem.get))

/-- `InputValue.get`, connections.py 138-150. -/
def getValue {α : Type} (optional : Bool) (items : List (InItem α)) : Except String (Option α) :=
  if 1 < (getList items).length then .error "InputValue contains more than one item"
  else match getList items with
    | [] => if optional then .ok none else .error "is empty and not optional"
    | x :: _ => .ok x

end Specula
