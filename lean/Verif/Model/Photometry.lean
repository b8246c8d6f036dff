import Mathlib.Analysis.SpecialFunctions.Pow.Real

/-!
# Photons of a source

`specula/lib/n_phot.py` and `phot_density` of `specula/data_objects/source.py`. Wavelengths, widths, brightnesses and magnitudes are rational
numbers (every float is one), arithmetic is exact and the power of ten is the real one. Printing is left out. Exceptions are `none`.
-/

namespace Specula

/-- Tables of a photometric model, in the units of the module: metres, metres, J/s/m²/µm, magnitudes. -/
structure PhotModel where
  bands : List String
  lambda : List ℚ
  width : List ℚ
  e0 : List ℚ
  back : List ℚ

/-- `DefaultModel`, n_phot.py lines 221-253. -/
def photDefault : PhotModel where
  bands := ["U", "B", "V", "R", "I", "J", "H", "K", "L", "M", "Na"]
  lambda := [0.36, 0.44, 0.55, 0.70, 0.90, 1.25, 1.65, 2.20, 3.40, 5.00, 0.589].map (· / 10 ^ 6)
  width := [0.068, 0.098, 0.089, 0.220, 0.240, 0.300, 0.350, 0.400, 0.550, 0.300, 0.010].map (· / 10 ^ 6)
  e0 := [435, 720, 392, 176, 83, 34, 7, 3.90, 0.81, 0.22, 392].map (· / 10 ^ 10)
  back := [23, 22, 21, 20, 19.5, 14, 13.5, 12.5, 3, 0, 23]

/-- `Maory1Model`, n_phot.py lines 256-269. -/
def photMaory : PhotModel where
  bands := ["V", "R", "I", " J", "H", "K"]
  lambda := [0.54, 0.65, 0.80, 1.25, 1.65, 2.20].map (· / 10 ^ 6)
  width := [0.090, 0.130, 0.200, 0.300, 0.350, 0.400].map (· / 10 ^ 6)
  e0 := [368, 177, 119, 28.6, 10.8, 3.79].map (· / 10 ^ 10)
  back := [21.4, 20.6, 19.7, 16.5, 14.4, 13]

/-- `get_model`, n_phot.py lines 277-287. -/
def photModel (name : String) : Option PhotModel :=
  if name = "default" then some photDefault
  else if name = "MAORY-1" then some photMaory
  else none

/-- `values.index(min(values))`, n_phot.py line 193: index of the first least value. -/
def firstMin : List ℚ → Option Nat
  | [] => none
  | [_] => some 0
  | x :: y :: l => match firstMin (y :: l) with
    | none => none
    | some k => if x ≤ (y :: l).getD k 0 then some 0 else some (k + 1)

/-- n_phot.py lines 155-193: index of the band and wavelength. -/
def photBand (model : String) (m : PhotModel) (band : Option String) (lambda : Option ℚ) : Option (Nat × ℚ) :=
  match band, lambda with
  | none, none => none
  | some b, l =>
    if b ∈ m.bands then
      let idx := m.bands.idxOf b
      some (idx, l.getD (m.lambda.getD idx 0))
    else none
  | none, some l =>
    let useNa := |l - 0.589 / 10 ^ 6| < 0.0001 / 10 ^ 6 ∧ model ≠ "MAORY-1"
    let values := if useNa then m.lambda else m.lambda.dropLast
    (firstMin (values.map (fun x => |x - l|))).map (fun k => (k, l))

/-- Arguments of `n_phot`; `none` is Python's `None`. -/
structure PhotArgs where
  mag : ℚ
  band : Option String := none
  surf : ℚ := 1
  deltaT : ℚ := 1
  lambda : Option ℚ := none
  width : Option ℚ := none
  e0 : Option ℚ := none
  back : Option ℚ := none
  model : String := "default"

/-- n_phot.py lines 209-216: photons for a magnitude; Planck's constant is 6.626e-34 and the velocity of light 3e8. -/
noncomputable def photCount (lambda deltaT surf width e0 mag : ℚ) : ℝ :=
  (lambda * deltaT * surf * (width * 10 ^ 6) * e0 / ((6.626 / 10 ^ 34) * (3 * 10 ^ 8)) : ℚ) * (10 : ℝ) ^ ((-mag / 2.5 : ℚ) : ℝ)

/-- `n_phot`, n_phot.py lines 153-218: photons of the source and of the background. -/
noncomputable def nPhot (a : PhotArgs) : Option (ℝ × ℝ) :=
  (photModel a.model).bind fun m =>
    (photBand a.model m a.band a.lambda).map fun r =>
      let width := a.width.getD (m.width.getD r.1 0)
      let back := a.back.getD (m.back.getD r.1 0)
      let e0 := a.e0.getD (m.e0.getD r.1 0)
      (photCount r.2 a.deltaT a.surf width e0 a.mag, photCount r.2 a.deltaT a.surf width e0 back)

/-- `Source.phot_density`, source.py lines 149-165: the band is '' when not given. -/
noncomputable def photDensity (mag wavelengthNm zeroPoint : ℚ) (band : String) : Option ℝ :=
  (nPhot { mag := mag, band := if band = "" then none else some band, lambda := some (wavelengthNm / 10 ^ 9), width := some (1 / 10 ^ 9),
           e0 := if 0 < zeroPoint then some zeroPoint else none }).map (·.1)

end Specula
