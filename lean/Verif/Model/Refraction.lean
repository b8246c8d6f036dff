import Mathlib.Analysis.SpecialFunctions.Pow.Real
import Mathlib.Analysis.SpecialFunctions.Trigonometric.Basic
import Verif.Model.Interp

/-!
# Refraction of air and chromatic shifts

`specula/lib/air_refraction.py` and the chromatic part of `specula/processing_objects/atmo_propagation.py`. Numbers are real and arithmetic is
exact; wavelengths of the refraction formulas are in micrometres (the code multiplies metres by 1e6). Exceptions are `none`.
-/

namespace Specula

/-- One of the tables of Mathar: range and centre in micrometres, and the coefficients, one row for each power of the wavenumber. -/
structure MatharBand where
  name : String
  lo : ℝ
  hi : ℝ
  centre : ℝ
  coeffs : List (List ℝ)

/-- air_refraction.py lines 32-43. -/
noncomputable def matharK : MatharBand where
  name := "K"
  lo := 1.3
  hi := 2.5
  centre := 2.25
  coeffs := [
      [0.200192e-3, 0.588625e-1, -3.01513, -0.103945e-7, 0.573256e-12, 0.267085e-8, 0.609186e-17, 0.497859e-4, 0.779176e-6, -0.206567e-15],
      [0.113474e-9, -0.385766e-7, 0.406167e-3, 0.136858e-11, 0.186367e-16, 0.135941e-14, 0.519024e-23, -0.661752e-8, 0.396499e-12, 0.106141e-20],
      [-0.424595e-14, 0.888019e-10, -0.514544e-6, -0.171039e-14, -0.228150e-19, 0.135295e-18, -0.419477e-27, 0.832034e-11, 0.395114e-16, -0.149982e-23],
      [0.100957e-16, -0.567650e-13, 0.343161e-9, 0.112908e-17, 0.150947e-22, 0.818218e-23, 0.434120e-30, -0.551793e-14, 0.233587e-20, 0.984046e-27],
      [-0.293315e-20, 0.166615e-16, -0.101189e-12, -0.329925e-21, -0.441214e-26, -0.222957e-26, -0.122445e-33, 0.161899e-17, -0.636441e-24, -0.288266e-30],
      [0.307228e-24, -0.174845e-20, 0.106749e-16, 0.344747e-25, 0.461209e-30, 0.249964e-30, 0.134816e-37, -0.169901e-21, 0.716868e-28, 0.299105e-34]]

/-- air_refraction.py lines 45-56. -/
noncomputable def matharL : MatharBand where
  name := "L"
  lo := 2.8
  hi := 4.2
  centre := 3.4
  coeffs := [
      [0.200049e-3, 0.588431e-1, -3.13579, -0.108142e-7, 0.586812e-12, 0.266900e-8, 0.608860e-17, 0.517962e-4, 0.778638e-6, -0.217243e-15],
      [0.145221e-9, -0.825182e-7, 0.694124e-3, 0.230102e-11, 0.312198e-16, 0.168162e-14, -0.112149e-21, 0.461560e-22, 0.446396e-12, 0.104747e-20],
      [0.250951e-12, 0.137982e-9, -0.500604e-6, -0.154652e-14, -0.197792e-19, 0.353075e-17, 0.184282e-24, 0.776507e-11, 0.784600e-15, -0.523689e-23],
      [-0.745834e-15, 0.352420e-13, -0.116668e-8, -0.323014e-17, -0.461945e-22, -0.963455e-20, -0.524471e-27, 0.172569e-13, -0.195151e-17, 0.817386e-26],
      [-0.161432e-17, -0.730651e-15, 0.209644e-11, 0.630616e-20, 0.788398e-25, -0.223079e-22, -0.121299e-29, -0.320582e-16, -0.542083e-20, 0.309913e-28],
      [0.352780e-20, -0.167911e-18, 0.591037e-14, 0.173880e-22, 0.245580e-27, 0.453166e-25, 0.246512e-32, -0.899435e-19, 0.103530e-22, -0.363491e-31]]

/-- air_refraction.py lines 58-69. -/
noncomputable def matharM : MatharBand where
  name := "M"
  lo := 4.35
  hi := 5.3
  centre := 4.8
  coeffs := [
      [0.200020e-3, 0.590035e-1, -4.09830, -0.140463e-7, 0.543605e-12, 0.266898e-8, 0.610706e-17, 0.674488e-4, 0.778627e-6, -0.211676e-15],
      [0.275346e-9, -0.375764e-6, 0.250037e-2, 0.839350e-11, 0.112802e-15, 0.273629e-14, 0.116620e-21, -0.406775e-7, 0.593296e-12, 0.487921e-20],
      [0.325702e-12, 0.134585e-9, 0.275187e-6, -0.190929e-14, -0.229979e-19, 0.463466e-17, 0.244736e-24, 0.289063e-11, 0.145042e-14, -0.682545e-23],
      [-0.693603e-14, 0.124316e-11, -0.653398e-8, -0.121399e-16, -0.191450e-21, -0.916894e-19, -0.497682e-26, 0.819898e-13, 0.489815e-17, 0.942802e-25],
      [0.285610e-17, 0.508510e-13, -0.310589e-9, -0.898863e-18, -0.120352e-22, 0.136685e-21, 0.742024e-29, 0.468386e-14, 0.327941e-19, -0.946422e-27],
      [0.338758e-18, -0.189245e-15, 0.127747e-11, 0.364662e-20, 0.500955e-25, 0.413687e-23, 0.224625e-30, -0.191182e-16, 0.128020e-21, -0.153682e-29]]

/-- air_refraction.py lines 71-82. -/
noncomputable def matharN : MatharBand where
  name := "N"
  lo := 7.5
  hi := 14.1
  centre := 10.1
  coeffs := [
      [0.199885e-3, 0.593900e-1, -6.50355, -0.221938e-7, 0.393524e-12, 0.266809e-8, 0.610508e-17, 0.106776e-3, 0.778368e-6, -0.206365e-15],
      [0.344739e-9, -0.172226e-5, 0.103830e-1, 0.347377e-10, 0.464083e-15, 0.3695247e-14, 0.227694e-22, -0.168516e-6, 0.216404e-12, 0.300234e-19],
      [-0.273714e-12, 0.237654e-8, -0.139464e-4, -0.465991e-13, -0.621764e-18, 0.159070e-17, 0.786323e-25, 0.226201e-9, 0.581805e-15, -0.426519e-22],
      [0.393383e-15, -0.381812e-11, 0.220077e-7, 0.735848e-16, 0.981126e-21, -0.303451e-20, -0.174448e-27, -0.356457e-12, -0.189618e-17, 0.684306e-25],
      [-0.569488e-17, 0.305050e-14, -0.272412e-10, -0.897119e-19, -0.121384e-23, -0.661489e-22, -0.359791e-29, 0.437980e-15, -0.198869e-19, -0.467320e-29],
      [0.164556e-19, -0.157464e-16, 0.126364e-12, 0.380817e-21, 0.515111e-26, 0.178226e-24, 0.978307e-32, -0.194545e-17, 0.589381e-22, 0.126117e-30]]

/-- air_refraction.py lines 84-95. -/
noncomputable def matharQ : MatharBand where
  name := "Q"
  lo := 16.0
  hi := 28.0
  centre := 20.0
  coeffs := [
      [0.199436e-3, 0.621723e-1, -23.2409, -0.772707e-7, -0.326604e-12, 0.266827e-8, 0.613675e-17, 0.375974e-3, 0.778436e-6, -0.272614e-15],
      [0.299123e-8, -0.177074e-4, 0.108557, 0.347237e-9, 0.463606e-14, 0.120788e-14, 0.585494e-22, -0.171849e-5, 0.461840e-12, 0.304662e-18],
      [-0.214862e-10, 0.152213e-6, -0.102439e-2, -0.272675e-11, -0.364272e-16, 0.522646e-17, 0.286055e-24, 0.146704e-7, 0.306229e-14, -0.239590e-20],
      [0.143338e-12, -0.954584e-9, 0.634072e-5, 0.170858e-13, 0.228756e-18, 0.783027e-19, 0.425193e-26, -0.917231e-10, -0.623183e-16, 0.149285e-22],
      [0.122398e-14, 0.921476e-13, -0.675587e-9, -0.150004e-17, -0.200547e-22, 0.753235e-21, 0.413455e-28, -0.955922e-12, -0.161119e-18, 0.136086e-24],
      [-0.114628e-16, -0.996706e-11, 0.762517e-7, 0.156889e-15, 0.209502e-20, -0.228819e-24, -0.812941e-32, 0.880502e-14, 0.800756e-20, -0.130999e-26]]

/-- Order of the dictionary `tables`. -/
noncomputable def matharTables : List MatharBand := [matharK, matharL, matharM, matharN, matharQ]

/-- air_refraction.py lines 191-196: first table whose range has the wavelength, else K. -/
noncomputable def matharBand (w : ℝ) : MatharBand :=
  (matharTables.find? (fun b => decide (b.lo ≤ w ∧ w ≤ b.hi))).getD matharK

/-- air_refraction.py lines 182-189: temperature in kelvin, pressure in pascal, humidity in percent. -/
noncomputable def matharState (tK p h : ℝ) : List ℝ :=
  let dT := 1 / tK - 1 / (273.15 + 17.5)
  let dP := p - 75000
  let dH := h - 10
  [1, dT, dT ^ 2, dH, dH ^ 2, dP, dP ^ 2, dT * dH, dT * dP, dH * dP]

/-- air_refraction.py lines 198-206: n - 1 beyond 1.3 um. -/
noncomputable def matharIndex (w tK p h : ℝ) : ℝ :=
  let b := matharBand w
  let c := b.coeffs.map (fun row => (List.zipWith (· * ·) row (matharState tK p h)).sum)
  let d := 10000 / w - 10000 / b.centre
  ((List.range 6).map (fun i => c.getD i 0 * d ^ i)).sum

/-- air_refraction.py lines 132-137: standard dry air. -/
noncomputable def dryStandard (w : ℝ) : ℝ :=
  let s := 1 / w
  (5792105 / (238.0185 - s ^ 2) + 167917 / (57.362 - s ^ 2)) * 1e-8

/-- air_refraction.py lines 145-150: standard water vapour. -/
noncomputable def wetStandard (w : ℝ) : ℝ :=
  let s := 1 / w
  1.022 * (295.235 + 2.6422 * s ^ 2 + -0.032380 * s ^ 4 + 0.004028 * s ^ 6) * 1e-8

/-- air_refraction.py lines 154-166: partial pressure of water vapour; the factor of enhancement uses the temperature in Celsius. -/
noncomputable def vapourPressure (tC p h : ℝ) : ℝ :=
  let tK := tC + 273.15
  let svp := Real.exp (1.2378847e-5 * tK ^ 2 + -1.9121316e-2 * tK + 33.93711047 + -6.3431645e3 / tK)
  let f := 1.00062 + 3.14e-8 * p + 5.6e-7 * tC ^ 2
  h / 100 * f * svp

/-- air_refraction.py lines 120-174: n - 1 below 1.3 um. -/
noncomputable def ciddorIndex (w tC p h : ℝ) : ℝ :=
  let tK := tC + 273.15
  let pw := vapourPressure tC p h
  let pa := p - pw
  pa / 101325 * (288.15 / tK) * dryStandard w + pw / 1333 * (293.15 / tK) * wetStandard w

/-- air_refraction.py lines 118-206: n - 1 at one wavelength. -/
noncomputable def airIndex (w tC p h : ℝ) : ℝ :=
  if w < 1.3 then ciddorIndex w tC p h else matharIndex w (tC + 273.15) p h

/-- `get_refractive_index`, air_refraction.py lines 97-208: a number for one wavelength, an array for several, IndexError for none. -/
noncomputable def refractiveIndex (ws : List ℝ) (tC p h : ℝ) : Option (ℝ ⊕ List ℝ) :=
  let out := ws.map (fun w => airIndex w tC p h)
  if 1 < out.length then some (.inr out) else (out.head?).map .inl

/-- `_pressure_nasa`, atmo_propagation.py lines 317-326: millibar at a height in metres above the sea. -/
noncomputable def pressureNasa (h : ℝ) : ℝ :=
  if h < 11000 then 1012.9 * ((288.08 - 0.00649 * h) / 288.08) ^ (5.256 : ℝ)
  else if h < 25000 then 226.5 * Real.exp (1.73 - 0.000157 * h)
  else 24.88 * ((141.94 + 0.00299 * h) / 216.6) ^ (-11.388 : ℝ)

/-- `compute_chromatic_shifts`, atmo_propagation.py lines 357-392, for one layer: metres, wavelengths in nanometres, zenith angle in radians. -/
noncomputable def chromaticShift (enabled : Bool) (zenith telescope refNm srcNm height : ℝ) : ℝ :=
  if enabled = false then 0
  else if srcNm = refNm then 0
  else
    let deltaN := airIndex (refNm * 1e-9 * 1e6) 15 101325 0 - airIndex (srcNm * 1e-9 * 1e6) 15 101325 0
    let p0 := pressureNasa telescope
    let b0 := deltaN * (1 / Real.cos zenith) * Real.tan zenith * (p0 * 100 / (9.8 * 1.225))
    b0 * (1 - pressureNasa (telescope + height) / p0)

section
variable {K : Type} [Field K] [LinearOrder K] [IsStrictOrderedRing K] [FloorRing K]

/-- `layer_interpolator` with a chromatic shift in metres, atmo_propagation.py lines 424-470: the beam is moved along the rows. -/
def layerInterpShifted (airmass : K) (pupil : Nat) (pupilPos : Option (K × K)) (s : SrcGeom K) (l : LayerGeom K) (shift : K) :
    Option ((Nat → Nat → K) → Nat → Nat → K) :=
  let pos := beamPos airmass pupil pupilPos s l
  let c := shift / l.pitch
  let y := if c ≠ 0 then pos.2 + c * 1 else pos.2
  let size := beamSize pupil s l
  if |pos.1| ≤ ((l.rows : K) - pupil) / 2 ∧ |y| ≤ ((l.cols : K) - pupil) / 2 then
    some (interp2d l.rows l.cols l.rot (fun _ j => beamX pupil size pos.1 l j) (fun i _ => beamY pupil size y l i))
  else none

/-- `setup_interpolators` with chromatic shifts, atmo_propagation.py lines 400-422. -/
def setupViewShifted (airmass : K) (pupil : Nat) (pupilPos : Option (K × K)) (s : SrcGeom K) (l : LayerGeom K) (shift : K) : Option (View K) :=
  if (l.height = 0 ∨ (s.height = none ∧ s.r = 0)) ∧ l.shift = (0, 0) ∧ pupilPos.isNone ∧ l.rot.isNone ∧ l.mag = 1 then some View.cut
  else if sourceAbove airmass s l then (layerInterpShifted airmass pupil pupilPos s l shift).map View.interp
  else none

end

end Specula
