import Verif.Model.Sh
import Mathlib.Analysis.Real.Pi.Bounds
import Mathlib.Analysis.SpecialFunctions.Trigonometric.Basic
/-
Model of the modulated pyramid.

* `specula/lib/calc_geometry.py` (sizes of the FFT);
* `specula/processing_objects/modulated_pyramid.py`: `calc_pyr_geometry` (306-366), sizes of the arrays (`get_pyr_tlt` 368-370),
  number of modulation steps (208-235), `cache_ttexp` (457-541), accumulation of the steps (548-591), `post_trigger` (593-632).

Geometry is computed in an ordered field with floor, without rounding other than that asked for; `fovInt` stands for the field of
view of the unpadded FFT, wavelength over pixel pitch, in arcsec.  Modulation is on the real numbers.  An exception, and a division
by zero, is `none`.  The propagation is in `PyrProp`; edge and tip defects and the shift of the pupils are not modelled.
-/
namespace Specula

section
variable {K : Type} [Field K] [LinearOrder K] [FloorRing K]

/-- Result of `calc_geometry`. -/
structure FftGeom (K : Type) where
  fovRes : Int
  masking : K
  fftRes : K
  sampling : Int
  padding : Int
  totsize : Int

/-- `calc_geometry`, calc_geometry.py 49-97. -/
def calcGeometry (d : Nat) (fovInt fov errinf errsup fftRes : K) : Option (FftGeom K) :=
  if fov * (1 + errsup) < fovInt then none
  else
    let minfov := fov * (1 - errinf)
    let fovRes := if fovInt < minfov then ⌈minfov / fovInt⌉ else 1
    let interp := fovInt * fovRes
    let masking := fov / interp
    if 1 < masking ∧ 1 < minfov / interp then none
    else
      let dp : Int := d * fovRes
      let tot := roundEvenF ((dp : K) * fftRes / 2) * 2
      let res := (tot : K) / dp
      let pad := roundEvenF (((dp : K) * res - dp) / 2) * 2
      some ⟨fovRes, if 1 < masking then 1 else masking, res, dp, pad, tot⟩

/-- Parameters of the pyramid; `dist` and `minDist` are `none` when not given. -/
structure PyrIn (K : Type) where
  pixelPupil : Nat
  fovInt : K
  fov : K
  errinf : K
  errsup : K
  diam : Nat
  dist : Option Nat
  minDist : Option Nat
  margin : Nat
  ccdSide : Nat
  fftRes : K

/-- Distance between pupils, modulated_pyramid.py 320-322. -/
def PyrIn.pupDist (p : PyrIn K) : Nat := p.dist.getD (p.diam + p.margin * 2)

/-- `internal_ccd_side`, modulated_pyramid.py 338. -/
def PyrIn.side (p : PyrIn K) : Int := truncInt (((roundEvenF (p.fftRes * p.diam / 2) : Int) : K) * 2)

/-- `fft_res_min`, modulated_pyramid.py 342. -/
def PyrIn.resMin (p : PyrIn K) : K := ((p.pupDist : K) + p.diam) / p.diam * (11 / 10)

/-- Geometry of the pyramid: that of the FFT, scale of the tilts of the faces, sides of the internal and of the final detector. -/
structure PyrGeom (K : Type) where
  fft : FftGeom K
  tiltScale : K
  toccd : Int
  final : Nat

/-- `calc_pyr_geometry`, modulated_pyramid.py 320-366. -/
def pyrGeometry (p : PyrIn K) : Option (PyrGeom K) :=
  if p.pupDist < p.minDist.getD (p.diam + p.margin * 2) then none
  else if p.ccdSide < p.pupDist + p.diam + p.margin * 2 then none
  else
    let res := (p.side : K) / p.diam
    let res := if res < p.resMin then p.resMin else res
    (calcGeometry p.pixelPupil p.fovInt p.fov p.errinf p.errsup res).map fun g =>
      ⟨g, g.fftRes / ((p.pupDist : K) / p.diam / 2), p.side, p.ccdSide⟩

/-- Side of the array returned by `get_pyr_tlt`, modulated_pyramid.py 368-370, which is multiplied by the focal plane mask of side
`totsize` (263-274). -/
def FftGeom.pyrSide (g : FftGeom K) : Int := (g.sampling + g.padding) / 2 * 2

end

/-! ### Modulation -/

/-- The modulation of the sensor. -/
inductive ModType where
  | circular
  | vertical
  | horizontal
  | alternating
deriving DecidableEq

/-- Number of modulation steps, modulated_pyramid.py 208-235, `given` being `mod_step`. -/
noncomputable def modSteps (t : ModType) (amp : ℝ) (given : Option ℝ) : Option Int :=
  match given with
  | none => if t = .circular then some (max 1 (roundEvenF (amp * 2) * 4)) else some (roundEvenF amp * 2 + 1)
  | some m => if m = 0 ∨ m < 0 ∨ (truncInt m : ℝ) ≠ m ∨ m < roundEvenF (2 * Real.pi * amp) then none else some (truncInt m)

/-- Tilt of a step of the circular modulation along the two axes (coefficients of `tilt_x` and `tilt_y`), modulated_pyramid.py
477-481. -/
noncomputable def circlePoint (amp : ℝ) (m : Nat) (k : Nat) : ℝ × ℝ :=
  (amp * Real.sin (2 * Real.pi * (k / m)), amp * Real.cos (2 * Real.pi * (k / m)))

/-- Tilt of a step of the linear modulation, modulated_pyramid.py 491: with one step the code divides zero by zero. -/
noncomputable def linearTilt (amp : ℝ) (m k : Nat) : Option ℝ :=
  if m = 1 then none else some (amp * (2 * k / ((m : ℝ) - 1) - 1))

/-- `avg_tilt`, modulated_pyramid.py 513-524. -/
noncomputable def avgTilt (amp : ℝ) (m k : Nat) : ℝ :=
  if k = 0 then (-amp + amp * (2 * (1 / 2) / ((m : ℝ) - 1) - 1)) / 2
  else if k = m - 1 then (amp * (2 * ((k : ℝ) - 1 / 2) / ((m : ℝ) - 1) - 1) + amp) / 2
  else amp * (2 * k / ((m : ℝ) - 1) - 1)

/-- Element of `flux_factor_vector`, modulated_pyramid.py 485 and 504-529. -/
noncomputable def fluxFactor (t : ModType) (amp : ℝ) (m k : Nat) : ℝ :=
  if t = .circular then 1
  else if m = 1 then 1
  else 1 / Real.cos (|avgTilt amp m k| * Real.pi / (2 * amp))

/-- Axes of the tilts of step `k` at the frame `iter` (number of frames so far): modulated_pyramid.py 493-500, 550-553, 630-632. -/
noncomputable def modPoint (t : ModType) (amp : ℝ) (m iter k : Nat) : Option (ℝ × ℝ) :=
  match t with
  | .circular => some (circlePoint amp m k)
  | .vertical => (linearTilt amp m k).map fun v => (0, v)
  | .horizontal => (linearTilt amp m k).map fun v => (v, 0)
  | .alternating => (linearTilt amp m k).map fun v => if iter % 2 = 1 then (v, 0) else (0, v)

section
variable {K : Type} [Field K] [LinearOrder K]

/-! ### Light -/

/-- Focal plane image accumulated over the steps, modulated_pyramid.py 18-21, 564-588: `psf i` is the intensity of the step, `w` its
weight, and the result is multiplied by `factor`. -/
def accumulate (m : Nat) (w : Nat → K) (psf : Nat → Nat → Nat → K) (y x : Nat) : K :=
  (∑ i ∈ Finset.range m, psf i y x * w i) * (1 / ∑ i ∈ Finset.range m, w i)

/-- `transmission`, modulated_pyramid.py 581, 591: fraction of the light inside the focal plane mask. -/
def pyrTransmission (bfm : Img K) (mask : Nat → Nat → K) : K :=
  (⟨bfm.rows, bfm.cols, fun y x => bfm.px y x * mask y x⟩ : Img K).total / bfm.total

/-- Placement of the internal detector in the final one, modulated_pyramid.py 614-622: image and fraction of the light inside. -/
def placeCcd (c : Img K) (final : Nat) : Img K × K :=
  if c.rows < final then
    let delta := (final - c.rows) / 2
    (⟨final, final, fun y x => if delta ≤ y ∧ y < delta + c.rows ∧ delta ≤ x ∧ x < delta + c.cols then c.px (y - delta) (x - delta) else 0⟩, 1)
  else if final < c.rows then
    let delta := (c.rows - final) / 2
    let r : Img K := ⟨final, final, fun y x => c.px (delta + y) (delta + x)⟩
    (r, r.total / c.total)
  else (c, 1)

/-- `post_trigger`, modulated_pyramid.py 593-622, without shift of the pupils. -/
def pyrPost (eps phot transmission : K) (pup : Img K) (toccdSide final : Nat) : Option (Img K × K) :=
  if pup.total = 0 then none
  else
    (toccd eps ⟨pup.rows, pup.cols, fun y x => pup.px y x * (phot / pup.total * transmission)⟩ toccdSide toccdSide none).map
      fun c => placeCcd c final

end

end Specula
