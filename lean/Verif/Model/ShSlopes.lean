import Verif.Model.Resample
import Mathlib.Algebra.BigOperators.Group.List.Basic
/-
Model of the Shack-Hartmann slope computer, `specula/processing_objects/sh_slopec.py` 182-303, with the coordinates of
`specula/lib/make_xy.py` 145-173 and the index conversion of `specula/lib/utils.py` 123-135.

Values are in an ordered field, without rounding.  The reciprocal of zero is `none` (infinite), and so is everything computed from
it.  An exception is `none` at the outer level.  Modelled: thresholds by `thr_value`, any weighting mask, `exp_weight = 1`.
Not modelled: `weight_int_pixel`, `thr_ratio_value`, `thr_pedestal` and `mult_factor` (not settable by parameters except the first),
quad-cell coordinates, other exponents.  Negative pixel indices are not covered.
-/
namespace Specula

/-- Parameters: pixel indices of each sub-aperture (subap_data.py 46), side of the sub-aperture, threshold, mask of weights
(one everywhere by default, sh_slopec.py 149-164). -/
structure ShCfg (K : Type) where
  idxs : List (List Nat)
  np : Nat
  thrValue : K
  mask : Nat → Nat → K

section
variable {K : Type} [Field K] [LinearOrder K]

/-- Coordinate of pixel `j` of `n`, make_xy.py 155-161 with ratio one. -/
def shCoord (n j : Nat) : K := ((j : K) - ((n : K) - 1) / 2) / ((n : K) / 2)

/-- Value at a linear index, utils.py 131-135 and sh_slopec.py 201-202. -/
def shPixel (a : Img K) (i : Nat) : Option K :=
  let row := i / a.cols
  let col := i - row * a.cols
  if row < a.rows ∧ col < a.cols then some (a.px row col) else none

/-- `mask_weighted_flat`, sh_slopec.py 118. -/
def shMaskFlat (c : ShCfg K) : List K := (List.range (c.np * c.np)).map fun p => c.mask (p / c.np) (p % c.np)

/-- `xweights_flat`, sh_slopec.py 116, 131, 161: x varies along columns. -/
def shXFlat (c : ShCfg K) : List K := (List.range (c.np * c.np)).map fun p => shCoord c.np (p % c.np) * c.mask (p / c.np) (p % c.np)

/-- `yweights_flat`, sh_slopec.py 117, 131, 162. -/
def shYFlat (c : ShCfg K) : List K := (List.range (c.np * c.np)).map fun p => shCoord c.np (p / c.np) * c.mask (p / c.np) (p % c.np)

/-- Threshold, sh_slopec.py 252-258. -/
def shThr (c : ShCfg K) : K := if c.thrValue > 0 then c.thrValue else 0

/-- Subtraction and clamp, sh_slopec.py 263-264. -/
def shClamp (thr x : K) : K := if x - thr < 0 then 0 else x - thr

/-- `clamp_generic_more(1 / (mean * 1e-3), 0, factor)`, sh_slopec.py 23-24, 272, 278: `none` is infinite. -/
def shFactor (tot mean : K) : Option K :=
  let factor : Option K := if tot = 0 then none else some (1 / tot)
  let lim : Option K := if mean * (1 / 1000) = 0 then none else some (1 / (mean * (1 / 1000)))
  let more : Bool := match factor, lim with
    | none, some _ => true
    | some f, some l => decide (f > l)
    | _, none => false
  if more then some 0 else factor

/-- Outputs. -/
structure ShOut (K : Type) where
  sx : List (Option K)
  sy : List (Option K)
  flux : List K
  total : K

/-- `calc_slopes_nofor`, sh_slopec.py 182-303. -/
def shTrigger (c : ShCfg K) (a : Img K) : Option (ShOut K) :=
  (c.idxs.mapM fun (l : List Nat) => l.mapM (shPixel a)).bind fun (raw : List (List K)) =>
  if ∀ l ∈ raw, l.length = c.np * c.np then
    let flux := raw.map List.sum
    let pixels := raw.map fun l => l.map (shClamp (shThr c))
    let tots := pixels.map fun l => (List.zipWith (· * ·) l (shMaskFlat c)).sum
    let mean := tots.sum / (tots.length : K)
    let slope (w : List K) (l : List K) (tot : K) : Option K :=
      (shFactor tot mean).map fun f => (List.zipWith (fun p v => p * v * f) l w).sum
    some ⟨List.zipWith (slope (shXFlat c)) pixels tots, List.zipWith (slope (shYFlat c)) pixels tots, flux, flux.sum⟩
  else none

end

end Specula
