import Mathlib.Data.Int.Notation
import Mathlib.Data.Nat.Notation
/-
Device, precision, and arrays that are shared or copied: `specula/__init__.py` 42-114 (`init`), 116-149 (`cpuArray`, `to_xp`),
`specula/base_time_obj.py` 5-8 (names imported once), 12-48 (constructor), `specula/base_value.py` 7-37.

Exceptions are `none`.  Python copies the names of `from specula import ...` when `base_time_obj` is imported for the first time.  Arrays
are buffers with an address; the conversion of values to a type is a function given from outside.  Not modelled: streams, the
`Device.use()` of a thread, memory counters, objects that are neither arrays nor numbers nor lists of them.
-/
namespace Specula

/-! ### Device and precision -/

/-- Globals of the package, `__init__.py` 10-26: `cp is not None`, `gpuEnabled`, `global_precision`, `default_target_device_idx`. -/
structure SpecGlobals where
  cp : Bool
  gpuEnabled : Bool
  precision : Option ℕ
  devIdx : Option ℤ

/-- Before `init`. -/
def specFresh : SpecGlobals := ⟨false, false, none, none⟩

/-- The machine: whether cupy can be imported, number of GPUs, and the variable SPECULA_DISABLE_GPU. -/
structure Machine where
  cupy : Bool
  gpus : ℕ
  disable : Option String

/-- `systemDisable == 'FALSE'`, `__init__.py` 65-66. -/
def Machine.allowed (m : Machine) : Bool := m.disable.getD "FALSE" == "FALSE"

/-- `init`, `__init__.py` 42-110. -/
def specInit (m : Machine) (dev : ℤ) (prec : ℕ) (g : SpecGlobals) : Option SpecGlobals :=
  let gpu := m.allowed && m.cupy
  let idx := if gpu then dev else -1
  -- cp.cuda.Device(idx).use(), 88-89; float_dtype_list[precision], 108
  if 0 ≤ idx ∧ m.gpus ≤ idx.toNat then none
  else if 1 < prec then none
  else some ⟨gpu, if gpu then true else g.gpuEnabled, some prec, some idx⟩

/-- A session: the globals, and the names that `base_time_obj` has copied. -/
structure Session where
  now : SpecGlobals
  copied : Option SpecGlobals

/-- What a program does before it makes objects: `init`, or an import that brings in `base_time_obj`. -/
inductive SessOp
  | init (dev : ℤ) (prec : ℕ)
  | load

/-- One step; importing again has no effect. -/
def sessStep (m : Machine) (s : Session) : SessOp → Option Session
  | .init dev prec => (specInit m dev prec s.now).map fun g => ⟨g, s.copied⟩
  | .load => some ⟨s.now, some (s.copied.getD s.now)⟩

/-- A program. -/
def sessRun (m : Machine) : Session → List SessOp → Option Session
  | s, [] => some s
  | s, o :: ops => (sessStep m s o).bind fun s' => sessRun m s' ops

/-- What an object gets: index of the device, and whether its numbers are double. -/
structure ObjPlace where
  dev : ℤ
  double : Bool
deriving DecidableEq

/-- `BaseTimeObj.__init__`, base_time_obj.py 24-48. -/
def newObj (m : Machine) (s : Session) (target : Option ℤ) (prec : Option ℕ) : Option ObjPlace :=
  s.copied.bind fun g =>
  (prec.orElse fun _ => g.precision).bind fun p =>
  (target.orElse fun _ => g.devIdx).bind fun d =>
  if 1 < p then none
  else if 0 ≤ d then (if g.cp ∧ d.toNat < m.gpus then some ⟨d, p == 0⟩ else none)
  else some ⟨d, p == 0⟩

/-! ### Arrays -/

/-- Types of numbers. -/
inductive NumType | f64 | f32 | int
deriving DecidableEq

/-- A buffer: on the GPU or not, type, values. -/
structure Buf (V : Type) where
  gpu : Bool
  ty : NumType
  vals : List V

/-- Memory: buffers at addresses 0, 1, ... -/
abbrev Heap (V : Type) := List (Buf V)

/-- What a caller passes: an array, or numbers (a list or a number), that `np.array` makes an array of the given type. -/
inductive PyArg (V : Type)
  | arr (a : ℕ)
  | nums (ty : NumType) (vals : List V)

section
variable {V : Type} (cast : NumType → V → V)

/-- A new buffer. -/
def alloc (h : Heap V) (b : Buf V) : Heap V × ℕ := (h ++ [b], h.length)

/-- `astype(dtype, copy=...)`: numpy takes `None` for double. -/
def asType (h : Heap V) (a : ℕ) (ty : Option NumType) (copy : Bool) : Option (Heap V × ℕ) :=
  (h[a]?).map fun b =>
    let t := ty.getD .f64
    if b.ty = t ∧ copy = false then (h, a) else alloc h ⟨b.gpu, t, b.vals.map (cast t)⟩

/-- The array on the wanted side, `__init__.py` 132-145. -/
def onSide (h : Heap V) (gpu : Bool) (force : Bool) : PyArg V → Option (Heap V × ℕ)
  | .arr a => (h[a]?).map fun b => if b.gpu = gpu ∧ force = false then (h, a) else alloc h ⟨gpu, b.ty, b.vals⟩
  | .nums ty vals => some (alloc h ⟨gpu, ty, vals⟩)

/-- `to_xp`, `__init__.py` 121-149. -/
def toXp (h : Heap V) (gpu : Bool) (v : PyArg V) (ty : Option NumType) (force : Bool) : Option (Heap V × ℕ) :=
  (onSide h gpu force v).bind fun r => if ty = none ∧ force = false then some r else asType cast r.1 r.2 ty force

/-- Writing into an array, `a[...] = values`: the type of the array stays. -/
def writeBuf (h : Heap V) (a : ℕ) (vals : List V) : Heap V :=
  h.modify a fun b => ⟨b.gpu, b.ty, vals.map (cast b.ty)⟩

/-- A `BaseValue` that holds an array: the address, or none before the first value, base_value.py 8-25. -/
abbrev ValObj := Option ℕ

/-- `BaseValue(value=v)` for an array or a list, base_value.py 17-25. -/
def valNew (h : Heap V) (gpu : Bool) (ty : NumType) (v : PyArg V) : Option (Heap V × ValObj) :=
  (toXp cast h gpu v (some ty) true).map fun r => (r.1, some r.2)

/-- `BaseValue.set_value`, base_value.py 30-37: sizes that differ raise (repetition of a single number is not modelled). -/
def valSet (h : Heap V) (gpu : Bool) (ty : NumType) (o : ValObj) (v : PyArg V) : Option (Heap V × ValObj) :=
  match o with
  | none => valNew cast h gpu ty v
  | some a =>
    (toXp cast h gpu v none false).bind fun r =>
    (r.1[r.2]?).bind fun src =>
    (r.1[a]?).bind fun dst =>
    if src.vals.length = dst.vals.length then some (writeBuf cast r.1 a src.vals, some a) else none

/-- What a program does with a value: the owner sets it, anybody writes into an array of their own. -/
inductive ValOp (V : Type)
  | set (v : PyArg V)
  | write (a : ℕ) (vals : List V)

/-- One step. -/
def valStep (gpu : Bool) (ty : NumType) (s : Heap V × ValObj) : ValOp V → Option (Heap V × ValObj)
  | .set v => valSet cast s.1 gpu ty s.2 v
  | .write a vals => some (writeBuf cast s.1 a vals, s.2)

/-- A history. -/
def valRun (gpu : Bool) (ty : NumType) : Heap V × ValObj → List (ValOp V) → Option (Heap V × ValObj)
  | s, [] => some s
  | s, o :: ops => (valStep cast gpu ty s o).bind fun s' => valRun gpu ty s' ops

/-- Objects that keep what they are given, `TimeHistory(time_history)`, `Recmat(recmat)`: `to_xp` without copy, time_history.py 23,
recmat.py 25. -/
def keepNew (h : Heap V) (gpu : Bool) (v : PyArg V) : Option (Heap V × ℕ) := toXp cast h gpu v none false

end

end Specula
