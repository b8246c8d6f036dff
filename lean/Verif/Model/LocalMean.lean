import Mathlib.Data.Rat.Defs
import Mathlib.Algebra.Order.Field.Basic
import Mathlib.Order.Interval.Finset.Nat
import Mathlib.Algebra.BigOperators.Group.Finset.Basic
/-
Model of `local_mean_rebin`, `specula/lib/utils.py` 227-271, and of its use in `specula/processing_objects/atmo_propagation.py`: size of the blocks (501-507) and
filling of the layers (248-263).

Numbers are elements of a field (exact arithmetic); the layers have no NaN when they come in.  `none` is NaN in the values, and an exception around them.
-/
namespace Specula

section
variable {K : Type} [Field K]

/-- Mean of some values; NaN when there is none. -/
def nanMeanOf (n : ℕ) (s : K) : Option K := if n = 0 then none else some (s / n)

/-- `xp.mean(arr[mask]) if xp.any(mask) else xp.nan`, utils.py 244. -/
def globalMean (h w : ℕ) (arr : ℕ → ℕ → K) (mask : ℕ → ℕ → Bool) : Option K :=
  let idx := (Finset.range h ×ˢ Finset.range w).filter fun p => mask p.1 p.2 = true
  nanMeanOf idx.card (∑ p ∈ idx, arr p.1 p.2)

/-- Number of rows or columns kept, utils.py 251-252. -/
def cropTo (h bs : ℕ) : ℕ := h - h % bs

/-- Element `[bi, bj, i, j]` of the blocks, utils.py 253-257: reshape of the array with `w` columns left after the crop, then transpose. -/
def blockPx {V : Type} (w bs : ℕ) (x : ℕ → ℕ → V) (bi bj i j : ℕ) : V :=
  let four := fun a i b j => let flat := ((a * bs + i) * (w / bs) + b) * bs + j; x (flat / w) (flat % w)
  four bi i bj j

/-- `nanmean` of one block, utils.py 259-262: pixels outside the mask have been made NaN. -/
def nanBlockMean (w bs : ℕ) (arr : ℕ → ℕ → K) (mask : ℕ → ℕ → Bool) (bi bj : ℕ) : Option K :=
  let idx := (Finset.range bs ×ˢ Finset.range bs).filter fun p => blockPx w bs mask bi bj p.1 p.2 = true
  nanMeanOf idx.card (∑ p ∈ idx, blockPx w bs arr bi bj p.1 p.2)

/-- `local_mean_rebin`, utils.py 244-271. -/
def localMeanRebin (h w bs : ℕ) (arr : ℕ → ℕ → K) (mask : ℕ → ℕ → Bool) (i j : ℕ) : Option K :=
  if i < cropTo h bs ∧ j < cropTo w bs then
    let m := nanBlockMean (cropTo w bs) bs arr mask (i / bs) (j / bs)
    if m = none then globalMean h w arr mask else m
  else none

/-- The blocks of a layer, atmo_propagation.py 501-507: `none` when no entry is made. -/
def blockSize (h : ℕ) : Option ℕ := [5, 4, 3, 2].find? fun d => h % d == 0

/-- A layer: shape, phase and amplitude. -/
structure PhaseLayer (K : Type) where
  h : ℕ
  w : ℕ
  amp : ℕ → ℕ → K
  mag : K

/-- `prepare_trigger` on one layer, atmo_propagation.py 253-263: `none` is KeyError; the phase of a pixel is `none` when it is NaN. -/
def fillLayer [LinearOrder K] (l : PhaseLayer K) (phase : ℕ → ℕ → K) : Option (ℕ → ℕ → Option K) :=
  if max l.mag 1 ≠ 1 then
    let mask := fun i j => decide (l.amp i j ≠ 0)
    (blockSize l.h).map fun bs i j => if mask i j then some (phase i j) else localMeanRebin l.h l.w bs phase mask i j
  else some fun i j => some (phase i j)

end

end Specula
