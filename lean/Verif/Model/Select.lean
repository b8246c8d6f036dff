import Verif.Model.PushPull
/-
Selections of vector elements: `specula/processing_objects/base_slicer.py` and `specula/processing_objects/base_inserter.py`, with the
rules of Python and numpy for one-dimensional arrays:

* an integer index is taken from the end when negative and must exist (`pyIndex`, in Model/PushPull.lean);
* a slice is adjusted to the length of the vector as in CPython's `PySlice_AdjustIndices` (`sliceIdx`);
* an assignment needs as many values as positions, or a single value that is repeated.

Exceptions are `none`.  That an output selected by a slice shares memory with the input is not modelled.
-/
namespace Specula

section
variable {K : Type}

/-- `slice(start, stop, step)`. -/
structure PySlice where
  start : Option Int
  stop : Option Int
  step : Option Int

/-- `slice(*args)`, base_slicer.py 25. -/
def PySlice.ofArgs : List (Option Int) → Option PySlice
  | [b] => some ⟨none, b, none⟩
  | [a, b] => some ⟨a, b, none⟩
  | [a, b, s] => some ⟨a, b, s⟩
  | _ => none

/-- One bound of a slice, adjusted: `low` and `high` are the values for an index too small or too large. -/
def adjustBound (n : Nat) (low high : Int) (b : Int) : Int :=
  if b < 0 then (if b + n < 0 then low else b + n) else if b ≥ n then high else b

/-- Adjusted bounds and number of elements, CPython `PySlice_Unpack` and `PySlice_AdjustIndices`. -/
def sliceRange (n : Nat) (s : PySlice) : Option (Int × Int × Nat) :=
  let step := s.step.getD 1
  if step = 0 then none
  else if step < 0 then
    let start := (s.start.map (adjustBound n (-1) (n - 1))).getD (n - 1)
    let stop := (s.stop.map (adjustBound n (-1) (n - 1))).getD (-1)
    some (start, step, if stop < start then ((start - stop - 1) / (-step) + 1).toNat else 0)
  else
    let start := (s.start.map (adjustBound n 0 n)).getD 0
    let stop := (s.stop.map (adjustBound n 0 n)).getD n
    some (start, step, if start < stop then ((stop - start - 1) / step + 1).toNat else 0)

/-- Positions selected by a slice, in order. -/
def sliceIdx (n : Nat) (s : PySlice) : Option (List Nat) :=
  (sliceRange n s).map fun (start, step, len) => (List.range len).map fun (k : Nat) => (start + k * step).toNat

/-- How elements are selected. -/
inductive Selector where
  | indices (l : List Int)
  | slice (s : PySlice)

/-- Positions selected in a vector of length `n`. -/
def Selector.positions (n : Nat) : Selector → Option (List Nat)
  | .indices l => l.mapM (pyIndex n)
  | .slice s => sliceIdx n s

/-- `v[sel]`. -/
def selectFrom (v : List K) (sel : Selector) : Option (List K) :=
  (sel.positions v.length).bind fun pos => pos.mapM fun p => v[p]?

/-- Writing values at positions, one after the other. -/
def scatter (v : List K) (pos : List Nat) (vals : List K) : List K :=
  (pos.zip vals).foldl (fun (w : List K) (pv : Nat × K) => w.set pv.1 pv.2) v

/-- `v[sel] = vals`. -/
def assignTo (v : List K) (sel : Selector) (vals : List K) : Option (List K) :=
  (sel.positions v.length).bind fun pos =>
    if vals.length = pos.length then some (scatter v pos vals)
    else match vals with
      | [x] => some (scatter v pos (List.replicate pos.length x))
      | _ => none

/-- The parameters of the slicer: a single integer, a list of integers, arguments of a slice, or nothing, base_slicer.py 11-13. -/
inductive SlicerArg where
  | index (i : Int)
  | indices (l : List Int)
  | slice (args : List (Option Int))
  | all

/-- Number of elements allocated by the constructor (0 when unknown), base_slicer.py 30-39: `numpy.zeros` of a negative size raises,
and so does a division by a zero step. -/
def slicerInit : SlicerArg → Option Nat
  | .index _ => some 1
  | .indices l => some l.length
  | .slice args => (PySlice.ofArgs args).bind fun s =>
    match s.start, s.stop with
    | some a, some b =>
      let step := s.step.getD 1
      if step = 0 then none
      else
        let n := (b - a + step - 1).fdiv step
        if n < 0 then none else some n.toNat
    | _, _ => some 0
  | .all => some 0

/-- `BaseSlicer.trigger_code`, base_slicer.py 54-64.  A single index gives a scalar, here the list with that element. -/
def slicerTrigger (arg : SlicerArg) (v : List K) : Option (List K) :=
  match arg with
  | .index i => (pyIndex v.length i).bind fun p => (v[p]?).map fun x => [x]
  | .indices l => selectFrom v (.indices l)
  | .slice args => (PySlice.ofArgs args).bind fun s => selectFrom v (.slice s)
  | .all => some v

/-- `BaseInserter.trigger_code`, base_inserter.py 138-142: the output keeps its values between triggers. -/
def inserterTrigger (pairs : List (Selector × Selector)) (out small : List K) : Option (List K) :=
  pairs.foldlM (fun (w : List K) (p : Selector × Selector) => (selectFrom small p.1).bind fun vals => assignTo w p.2 vals) out

/-- The constructor allocates zeros, base_inserter.py 117. -/
def inserterInit [Zero K] (n : Nat) : List K := List.replicate n 0

end

end Specula
