import Mathlib.Algebra.BigOperators.Group.List.Basic
import Verif.Model.Ccd
import Verif.Model.Interp
/-
Model of the detection of the sub-apertures of a Shack-Hartmann sensor, `specula/processing_objects/sh_subap_calibrator.py` 76-123, with the
lenslets of `specula/data_objects/lenslet.py` 31-49 and the mask of `specula/data_objects/subap_data.py` 55-66.

Values are in an ordered field; the positions of the lenslets are arguments, so that the theorems cover the ones computed with rounding.
An exception is `none`.  Not modelled: files.
-/
namespace Specula

section
variable {K : Type} [Field K] [LinearOrder K]

/-- Coordinates of lenslet `i, j`, lenslet.py 34-49, without rounding: x varies with the second index. -/
def lensletXY (n i j : Nat) : K × K :=
  if 1 < n then (makeXY n 1 j, makeXY n 1 i) else (0, 0)

/-- Side of a lenslet, lenslet.py 40. -/
def lensletSize (n : Nat) : K := 2 / (n : K)

/-- Limits of a Python slice `lo:hi`, as positions in an axis of length `len`. -/
def slicePos (len : Nat) (lo hi : Int) : List Nat :=
  let b := fun v : Int => if v < 0 then (v + len).toNat else min v.toNat len
  List.range' (b lo) (b hi - b lo)

/-- Result: pixels of each sub-aperture, position on the map, side. -/
structure Subaps where
  npSub : Nat
  idxs : List (List Nat)
  map : List Nat
deriving DecidableEq

variable [FloorRing K]

/-- The pixels set in `mask_subap`, as flat indices in the order of `where`, 91-93, 102-105, 116. -/
def subapIdx (a : Img K) (sub : Nat) (x y : K) : List Nat :=
  (slicePos a.rows (roundEvenF (x - (sub : K) / 2)) (roundEvenF (x + (sub : K) / 2))).flatMap fun r =>
    (slicePos a.cols (roundEvenF (y - (sub : K) / 2)) (roundEvenF (y + (sub : K) / 2))).map fun c => r * a.cols + c

/-- `v[k] = ...`, 116: the row has `sub * sub` elements; one element is repeated. -/
def assignRow (len : Nat) (l : List Nat) : Option (List Nat) :=
  if l.length = len then some l else match l with
    | [p] => some (List.replicate len p)
    | _ => none

/-- `_detect_subaps`, 76-123. -/
def detectSubaps (n : Nat) (lens : Nat → Nat → K × K) (size th : K) (a : Img K) : Option Subaps :=
  let half := (a.rows : K) / 2
  let sub := (roundEvenF (half * size)).toNat
  let idx := fun p : Nat × Nat => subapIdx a sub (half * (1 + (lens p.1 p.2).1)) (half * (1 + (lens p.1 p.2).2))
  let spot := fun p : Nat × Nat => ((idx p).map fun q => a.px (q / a.cols) (q % a.cols)).sum
  let pairs := (List.range n).flatMap fun i => (List.range n).map fun j => (i, j)
  ((pairs.map spot).max?).bind fun m =>
  let sel := pairs.filter fun p => decide (th * m < spot p)
  if sel = [] then none else
    (sel.mapM fun p => assignRow (sub * sub) (idx p)).map fun ids => ⟨sub, ids, sel.map fun p => p.2 * n + p.1⟩

end

/-- `single_mask`, subap_data.py 63-66. -/
def subapMask (n : Nat) (s : Subaps) (i j : Nat) : Nat := if i * n + j ∈ s.map then 1 else 0

end Specula
