import Mathlib.Data.Int.Notation
import Mathlib.Data.Nat.Notation
/-
Inputs that come from an object on another device: `specula/connections.py` 55-74 (`_InputItem.get`, local inputs),
`specula/base_data_obj.py` 36-116 (`transferDataTo`), 118-135 (`copyTo`).

A data object is the list of its attributes (properties are skipped by the code and left out here).  Exceptions are `none`.  Shapes are
numbers: equal shapes are equal numbers; the repetition of arrays of size one by numpy is not modelled, nor are attributes that contain
arrays inside other objects (the clone shares them), nor remote inputs (`Wire`).
-/
namespace Specula

/-- An attribute: an array with its side, shape and contents, or something else (a number, text, a list, None). -/
inductive Attr (V : Type)
  | arr (gpu : Bool) (shape : ℕ) (v : V)
  | other (v : V)
deriving DecidableEq

/-- A data object: `target_device_idx`, attributes, `generation_time`. -/
structure DevObj (V : Type) where
  dev : ℤ
  attrs : List (String × Attr V)
  time : ℤ
deriving DecidableEq

section
variable {V : Type}

/-- `setattr(destobj, attr, ...)` in the second half of `transferDataTo`, base_data_obj.py 90-107: nothing happens for negative indices
other than -1. -/
def reallocAttr (t : ℤ) (shape : ℕ) (v : V) (old : Attr V) : Attr V :=
  if 0 ≤ t then .arr true shape v else if t = -1 then .arr false shape v else old

/-- One array in `transferDataTo`, base_data_obj.py 50-107: side, shape and contents of the source, attribute of the destination, and the
flag `force_reallocation`.  Result: the flag, that stays set for the attributes that follow, and the attribute. -/
def transferOne (t : ℤ) (force : Bool) (gpu : Bool) (shape : ℕ) (v : V) : Attr V → Option (Bool × Attr V)
  | .other w => some (true, reallocAttr t shape v (.other w))
  | .arr gpu' shape' v' =>
    if force = true then some (true, reallocAttr t shape v (.arr gpu' shape' v'))
    -- DtD, DtH, HtD, HtH: the side of the destination agrees with its index
    else if (gpu' = true ∧ 0 ≤ t) ∨ (gpu' = false ∧ t = -1) then
      if shape = shape' then some (false, .arr gpu' shape' v)
      -- DtD: `except: dest_attr = self_attr` changes a local name only
      else if gpu = true ∧ gpu' = true then some (false, .arr gpu' shape' v')
      else none
    else some (true, reallocAttr t shape v (.arr gpu' shape' v'))

/-- Replacing an attribute. -/
def setAttr (k : String) (a : Attr V) (l : List (String × Attr V)) : List (String × Attr V) :=
  l.map fun p => if p.1 = k then (k, a) else p

/-- `getattr`. -/
def getAttr (k : String) (l : List (String × Attr V)) : Option (Attr V) := (l.find? fun p => p.1 == k).map (·.2)

/-- One attribute of the source. -/
def transferAttr (t : ℤ) (s : Bool × List (String × Attr V)) (k : String) : Attr V → Option (Bool × List (String × Attr V))
  | .other _ => some s
  | .arr gpu shape v =>
    (getAttr k s.2).bind fun d => (transferOne t s.1 gpu shape v d).map fun r => (r.1, setAttr k r.2 s.2)

/-- The loop of `transferDataTo`. -/
def transferLoop (t : ℤ) : Bool × List (String × Attr V) → List (String × Attr V) → Option (Bool × List (String × Attr V))
  | s, [] => some s
  | s, p :: ps => (transferAttr t s p.1 p.2).bind fun s' => transferLoop t s' ps

/-- `src.transferDataTo(dest, force)`, base_data_obj.py 36-116. -/
def transferData (src dest : DevObj V) (force : Bool) : Option (DevObj V) :=
  (transferLoop dest.dev (force, dest.attrs) src.attrs).map fun r => ⟨dest.dev, r.2, src.time⟩

/-- `copyTo`, base_data_obj.py 118-135. -/
def copyToDev (t : ℤ) (src : DevObj V) : Option (DevObj V) :=
  if t = src.dev then some src else transferData src ⟨t, src.attrs, src.time⟩ true

/-- `_InputItem.get` of a local input, connections.py 55-74: the clone before and after. -/
def devGet (t : ℤ) (clone : Option (DevObj V)) (src : DevObj V) : Option (DevObj V) :=
  if src.dev = t then some src
  else match clone with
    | none => copyToDev t src
    | some c => transferData src c false

/-- What the input is after it was read once for each state of the source. -/
def devRun (t : ℤ) : Option (DevObj V) → List (DevObj V) → Option (Option (DevObj V))
  | c, [] => some c
  | c, s :: ss => (devGet t c s).bind fun c' => devRun t (some c') ss

end

end Specula
