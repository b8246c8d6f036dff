import Mathlib.Algebra.Order.Field.Basic
import Mathlib.Algebra.BigOperators.Group.Finset.Basic
import Verif.Model.Interp

/-!
# Sensors with several wavelengths

`specula/processing_objects/poly_chrom_wfs.py`. The sensors of the single wavelengths are a parameter: what is modelled is how their inputs are
made from the field and how their frames are put together. Arithmetic is exact. A frame is the function from its pixels, numbered in one row,
to intensity.
-/

namespace Specula

variable {K : Type} [Field K] [LinearOrder K] [IsStrictOrderedRing K]

/-- poly_chrom_wfs.py lines 26-37: flux factors and tilts of the wavelengths, `none` for ValueError. -/
def polyInit (n : Nat) (factor : List K) (tilts : Option (List (K × K))) : Option (List K × List (K × K)) :=
  if factor.length ≠ n then none
  else match tilts with
    | none => some (factor, List.replicate n (0, 0))
    | some ts => if ts.length ≠ n then none else some (factor, ts)

/-- poly_chrom_wfs.py lines 69-70: phase in nm of one arcsecond; `asec` is the number of arcseconds of a radian (`RAD2ASEC`). -/
def polyUnitNm (asec : K) (n : Nat) (pitch : K) : K := 1 / (4 / 10 ^ 9 / ((n : K) * pitch) * asec)

/-- poly_chrom_wfs.py lines 74-80: the tilt of one arcsecond at pixel j of the axis, `2 * x / max(abs(x.max()), abs(x.min()))`; the
coordinates increase, so their extremes are those of the first and last pixel. -/
def polyUnitTilt (asec : K) (n : Nat) (pitch : K) (j : Nat) : K :=
  polyUnitNm asec n pitch * (2 * makeXY n pitch j / max |makeXY n pitch (n - 1)| |makeXY n pitch 0|)

/-- poly_chrom_wfs.py lines 91-93, 138-144: the phase seen at one wavelength. `none` when make_xy refuses a side of one pixel, and when the
square tilts do not have the shape of the field. -/
def polyPhase (asec : K) (rows cols : Nat) (pitch : K) (tilt : K × K) (phase : Nat → Nat → K) : Option (Nat → Nat → K) :=
  if rows ≤ 1 then none
  else if rows ≠ cols then none
  else some (fun i j => phase i j + (tilt.1 * polyUnitTilt asec rows pitch j + tilt.2 * polyUnitTilt asec rows pitch i))

/-- poly_chrom_wfs.py lines 111-116: flux factors over their sum when it is positive. -/
def polyFactors (factor : List K) : List K :=
  if 0 < factor.sum then factor.map (fun f => f / factor.sum) else factor

/-- poly_chrom_wfs.py lines 152, 168-171: the frames of the single wavelengths weighted and added one after the other to zero. -/
def polyAccumulate (factor : List K) (frames : List (Nat → K)) : Nat → K :=
  ((polyFactors factor).zip frames).foldl (fun acc fi p => acc p + fi.2 p * fi.1) (fun _ => 0)

/-- electric_field.py lines 214-216. -/
def polyArea (pitch : K) (amp : List K) : K := pitch ^ 2 * amp.sum

/-- poly_chrom_wfs.py lines 168-182: the output frame of N pixels, scaled to the light of the field when it has any. -/
def polyOut (N : Nat) (flux : K) (factor : List K) (frames : List (Nat → K)) : Nat → K :=
  let acc := polyAccumulate factor frames
  let tot := ∑ p ∈ Finset.range N, acc p
  if 0 < tot then fun p => acc p * (flux / tot) else acc

/-- poly_chrom_wfs.py lines 184-191: one wavelength's weighted frame, `none` for IndexError. -/
def polyContribution (factor : List K) (frames : List (Nat → K)) (index : Int) : Option (Nat → K) :=
  if 0 ≤ index ∧ index < (frames.length : Int) then
    some (fun p => (frames.getD index.toNat (fun _ => 0)) p * (polyFactors factor).getD index.toNat 0)
  else none

end Specula
