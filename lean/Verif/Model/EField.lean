import Verif.Model.Select
import Verif.Model.Resample
import Mathlib.Analysis.SpecialFunctions.Exp
import Mathlib.Analysis.SpecialFunctions.Trigonometric.Basic
/-
Model of `specula/data_objects/electric_field.py` 53-58 (constructor), 95-122 (`reset`, `resize`), 135-188 (`ef_at_lambda`), 191-206
(`product`), of `specula/processing_objects/electric_field_combinator.py` 42-104, and of the geometric propagation of
`specula/processing_objects/atmo_propagation.py` `trigger_code`.

The values of the pixels are of any type with sums and products: a field, or `NanNum K` below, which has also a value for numbers
that are not finite.  Exceptions are `none`.  Not modelled here: the coordinates of the interpolators (Model/Interp), Fresnel
propagation (`doFresnel`), the pixel pitch.
-/
namespace Specula

/-- Floating point values: a number or not finite. -/
abbrev NanNum (K : Type) := Option K

/-- Sums and products with a value that is not finite are not finite; in particular zero times such a value (IEEE 754). -/
instance nanAdd {K : Type} [Add K] : Add (NanNum K) := ⟨fun a b => a.bind fun x => b.map (x + ·)⟩
instance nanMul {K : Type} [Mul K] : Mul (NanNum K) := ⟨fun a b => a.bind fun x => b.map (x * ·)⟩
instance nanZero {K : Type} [Zero K] : Zero (NanNum K) := ⟨some 0⟩
instance nanOne {K : Type} [One K] : One (NanNum K) := ⟨some 1⟩

section
variable {V : Type} [Zero V] [One V] [Add V] [Mul V]

/-- An electric field: amplitude and phase on a grid, and flux. -/
structure EF (V : Type) where
  rows : Nat
  cols : Nat
  A : Nat → Nat → V
  phase : Nat → Nat → V
  S0 : V

/-- `ElectricField.reset`, electric_field.py 95-103: in place, by multiplication with zero. -/
def efReset (e : EF V) : EF V := { e with A := fun i j => e.A i j * 0 + 1, phase := fun i j => e.phase i j * 0 }

/-- `ElectricField.resize(dimx, dimy)`, electric_field.py 105-116. -/
def efResize (e : EF V) (dimx dimy : Nat) : EF V := efReset ⟨dimy, dimx, fun _ _ => 0, fun _ _ => 0, e.S0⟩

/-- Position taken along an axis of `n` elements from a slice of positions `pos`; one element is repeated (numpy broadcasting). -/
def bcast (pos : List Nat) (i : Nat) : Nat := if pos.length = 1 then pos.getD 0 0 else pos.getD i 0

/-- `a op= b[r0:r0+rows, c0:c0+cols]`: rows and columns of `b` used, or an exception when shapes do not fit. -/
def subWindow (rows cols bRows bCols : Nat) (r0 c0 : Int) : Option (List Nat × List Nat) :=
  (sliceIdx bRows ⟨some r0, some (r0 + rows), none⟩).bind fun rs =>
  (sliceIdx bCols ⟨some c0, some (c0 + cols), none⟩).bind fun cs =>
  if (rs.length = rows ∨ rs.length = 1) ∧ (cs.length = cols ∨ cs.length = 1) then some (rs, cs) else none

/-- `ElectricField.product`, electric_field.py 191-206. -/
def efProduct (e b : EF V) (r0 c0 : Int) : Option (EF V) :=
  (subWindow e.rows e.cols b.rows b.cols r0 c0).map fun (rs, cs) =>
    { e with
      A := fun i j => e.A i j * b.A (bcast rs i) (bcast cs j)
      phase := fun i j => e.phase i j + b.phase (bcast rs i) (bcast cs j) }

/-- How a layer is seen from a source: cut at the centre, or interpolated (`Interp2D.interpolate` on the whole layer). -/
inductive View (V : Type) where
  | cut
  | interp (f : (Nat → Nat → V) → Nat → Nat → V)

/-- Contribution of one layer, atmo_propagation.py `trigger_code` (body of the loop on the layers). -/
def propLayer (out : EF V) (layer : EF V × View V) : Option (EF V) :=
  match layer.2 with
  | .cut => efProduct out layer.1 (((layer.1.rows : Int) - out.rows) / 2) (((layer.1.cols : Int) - out.rows) / 2)
  | .interp f => some { out with A := fun i j => out.A i j * f layer.1.A i j, phase := fun i j => out.phase i j + f layer.1.phase i j }

/-- Order of the layers: from the ground up, or reversed. -/
def propOrder {α : Type} (upwards : Bool) (common atmo : List α) : List α := if upwards then common ++ atmo else (common ++ atmo).reverse

/-- `trigger_code` for one source with `mergeLayersContrib`. -/
def propTrigger (upwards : Bool) (common atmo : List (EF V × View V)) (out : EF V) : Option (EF V) :=
  (propOrder upwards common atmo).foldlM propLayer (efReset out)

/-- `trigger_code` and `post_trigger` for one source without `mergeLayersContrib`: one output for each atmospheric layer (`setup`),
indexed with the position among all layers.  At the end `post_trigger` assigns `generation_time` to the list of the outputs, which
raises in any case: `List` of Python has no such attribute. -/
def propTriggerSplit (upwards : Bool) (common atmo : List (EF V × View V)) (outs : List (EF V)) : Option (List (EF V)) :=
  (List.zip (List.range (common.length + atmo.length)) (propOrder upwards common atmo)).foldlM (fun outs (li, layer) =>
    (outs[li]?).bind fun o => (propLayer (efReset o) layer).map fun o' => outs.set li o') outs

/-- `ElectricFieldCombinator.setup`, electric_field_combinator.py 42-82, for the chosen list of inputs. -/
def combSetup (out : EF V) (efs : List (EF V)) : Option (EF V) :=
  match efs with
  | [] => none
  | f :: rest => if rest.all (fun e => e.rows = f.rows ∧ e.cols = f.cols) then some (efResize out f.rows f.cols) else none

/-- `out[:] = x` with shapes that must be equal (broadcasting of single rows or columns is not modelled). -/
def combFirst (out f : EF V) : Option (EF V) :=
  if f.rows = out.rows ∧ f.cols = out.cols then some { out with A := f.A, phase := f.phase, S0 := f.S0 } else none

/-- `ElectricFieldCombinator.trigger`, electric_field_combinator.py 84-104. -/
def combTrigger (out : EF V) (efs : List (EF V)) : Option (EF V) :=
  match efs with
  | [] => none
  | f :: rest => (combFirst out f).bind fun o => rest.foldlM (fun o e =>
      if e.rows = o.rows ∧ e.cols = o.cols then
        some { o with
          A := fun i j => o.A i j * e.A i j
          phase := fun i j => o.phase i j + e.phase i j
          S0 := o.S0 + e.S0 }
      else none) o

end

/-- `phi_at_lambda` and `ef_at_lambda`, electric_field.py 135-188: complex field at a wavelength, in exact arithmetic. -/
noncomputable def efAtLambda (e : EF ℝ) (wavelength : ℝ) (i j : Nat) : ℂ :=
  Complex.exp (Complex.I * ((e.phase i j * (2 * Real.pi / wavelength) : ℝ) : ℂ)) * (e.A i j : ℂ)

/-- `square_modulus`, electric_field.py 220-234. -/
noncomputable def efIntensity (e : EF ℝ) (wavelength : ℝ) (i j : Nat) : ℝ :=
  (efAtLambda e wavelength i j * (starRingEnd ℂ) (efAtLambda e wavelength i j)).re

end Specula
