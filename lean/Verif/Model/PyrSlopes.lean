import Mathlib.Algebra.Order.Field.Basic
import Mathlib.Algebra.BigOperators.Group.List.Basic
/-
Model of the pyramid slope computer, `specula/processing_objects/pyr_slopec.py`.

Pixel values are in an ordered field (the conversion to single precision, 104-107, is not modelled).  A value that is not finite
(division by zero) is `none`, and so is every result computed from it.  Exceptions are `none` at the outer level.  Arrays with a
single valid pixel, that numpy would extend to any length, are not covered.
-/
namespace Specula

/-- Parameters: `ind_pup` by columns, 52-53 and 30-31. -/
structure PyrCfg (K : Type) where
  ind : Fin 4 → List Int
  thr : K
  normFactor : Option K
  shlike : Bool
  fromIntensity : Bool

section
variable {K : Type} [Field K] [LinearOrder K]

/-- The checks of the constructor, pyr_slopec.py 44-48: `None != 0` is true. -/
def pyrInit (c : PyrCfg K) : Option (PyrCfg K) :=
  if c.shlike ∧ c.fromIntensity then none
  else if c.shlike ∧ c.normFactor ≠ some 0 then none
  else some c

/-- `pupdata.n_subap`, pupdata.py 66-67: rows of the table, including those padded with -1. -/
def PyrCfg.nSub (c : PyrCfg K) : Nat := (c.ind 0).length

/-- Subtraction of the threshold and clamp at zero, pyr_slopec.py 101-103. -/
def pyrClamp (thr x : K) : K := if x - thr < 0 then 0 else x - thr

/-- The pixels of pupil `q`, pyr_slopec.py 61-64, 104-107: padding is left out, other indices must exist. -/
def pyrVals (c : PyrCfg K) (frame : List K) (q : Fin 4) : Option (List K) :=
  ((c.ind q).filter fun i => 0 ≤ i).mapM fun i => (frame[i.toNat]?).map (pyrClamp c.thr)

/-- Outputs of a trigger. -/
structure PyrOut (K : Type) where
  sx : List (Option K)
  sy : List (Option K)
  flux : List K
  total : K

/-- Product of values that may not be finite. -/
def fmul (x y : Option K) : Option K := x.bind fun a => y.map fun b => a * b

/-- `inv_factor`, pyr_slopec.py 121-135. -/
def pyrInv (c : PyrCfg K) (total : K) : K :=
  if c.fromIntensity then total / (4 * c.nSub)
  else match c.normFactor with
    | some f => f
    | none => if c.shlike then total else total / c.nSub

/-- `PyrSlopec.trigger_code`, pyr_slopec.py 99-144. -/
def pyrTrigger (c : PyrCfg K) (frame : List K) : Option (PyrOut K) :=
  (pyrVals c frame 0).bind fun A =>
  (pyrVals c frame 1).bind fun B =>
  (pyrVals c frame 2).bind fun C =>
  (pyrVals c frame 3).bind fun D =>
  -- shapes: A + B + C + D, and assignment to the vector of n_subap elements
  if A.length = B.length ∧ A.length = C.length ∧ A.length = D.length ∧ A.length = c.nSub then
    let flux := List.zipWith (· + ·) (List.zipWith (· + ·) (List.zipWith (· + ·) A B) C) D
    let total := flux.sum
    let inv := pyrInv c total
    let factor : Option K := if inv = 0 then none else some (1 / inv)
    let ux := if c.fromIntensity then A ++ B
      else List.zipWith (· - ·) (List.zipWith (· - ·) (List.zipWith (· + ·) A B) C) D
    let uy := if c.fromIntensity then C ++ D
      else List.zipWith (· - ·) (List.zipWith (· - ·) (List.zipWith (· + ·) B C) A) D
    let scale := if inv > 0 then 1 else inv
    some ⟨ux.map fun x => fmul (fmul (some x) factor) (some scale), uy.map fun x => fmul (fmul (some x) factor) (some scale), flux, total⟩
  else none

end

end Specula
