import Mathlib.Analysis.SpecialFunctions.Trigonometric.Basic
import Mathlib.Analysis.SpecialFunctions.Log.Basic
import Verif.Model.Ccd
import Verif.Model.Vibration

/-!
# Extended sources

* `specula/processing_objects/extended_source.py` (`ExtendedSource`): points, fluxes and coefficients of the sources that are not taken from an image;
* `specula/processing_objects/ext_source_pyramid.py` (`ExtSourcePyramid`): light of weak points (lines 300-360), sum over the points in batches
  (lines 403-455).

Exact arithmetic over the real numbers; exceptions are `none`. Sources from an image (`FROM_PSF`), plots and prints are not modelled; the image of one
point is a parameter. Angles are in arcsec.
-/

namespace Specula
open Finset

/-- A point of a source: position and flux. -/
structure SrcPoint where
  x : ℝ
  y : ℝ
  flux : ℝ

/-- `_angle_to_tip`, extended_source.py 657-664; `asec` is `ASEC2RAD`, the wavelength in nm. -/
noncomputable def angleToTip (asec dTel wl angle : ℝ) : ℝ := angle * asec * dTel * 2 * Real.pi / (wl * (1 / 10 ^ 9)) / 4

/-- `_compute_focus_coefficient`, extended_source.py 666-678; without height of focus (`np.inf`, line 91) the value is not finite. -/
noncomputable def focusCoeff (dTel wl h : ℝ) (focus : Option ℝ) : Option ℝ :=
  focus.map fun f => (h - f) / (2 * Real.sqrt 3 * 8 * (h / dTel) ^ 2) * (2 * Real.pi / (wl * (1 / 10 ^ 9)))

/-- `np.meshgrid` of one vector of coordinates, flattened. -/
noncomputable def gridPts (n : ℕ) (c : ℕ → ℝ) : List (ℝ × ℝ) := (List.range n).flatMap fun i => (List.range n).map fun j => (c j, c i)

/-- Points with equal flux, extended_source.py 240, 288, 347. -/
noncomputable def equalFlux (l : List (ℝ × ℝ)) : List SrcPoint := l.map fun p => ⟨p.1, p.2, 1 / l.length⟩

/-- `n_point_diam`, extended_source.py 219. -/
noncomputable def tophatSide (size samp : ℝ) : ℕ := (roundEvenF (size / samp / 2) * 2).toNat

open Classical in
/-- `_compute_tophat_cartesian`, extended_source.py 217-240. -/
noncomputable def tophatCart (size samp : ℝ) : List SrcPoint :=
  let n := tophatSide size samp
  equalFlux ((gridPts n (linBins (-(size / 2)) (size / 2) n)).filter fun p => Real.sqrt (p.1 ^ 2 + p.2 ^ 2) ≤ size / 2)

/-- A ring of `m` points of radius `r`, extended_source.py 269-277 and 329-337. -/
noncomputable def ringPts (r : ℝ) (m : ℕ) : List (ℝ × ℝ) :=
  (List.range m).map fun k : ℕ => (r * Real.cos (2 * Real.pi / m * k), r * Real.sin (2 * Real.pi / m * k))

/-- `_compute_tophat_polar`, extended_source.py 251-288. -/
noncomputable def tophatPolar (size samp : ℝ) : List SrcPoint :=
  let nr := (roundEvenF (size / samp / 2)).toNat
  let rr := linBins 0 (size / 2) nr
  equalFlux ((0, 0) :: (List.range' 1 (nr - 1)).flatMap fun j => ringPts (rr j) (roundEvenF (2 * Real.pi * rr j / samp)).toNat)

/-- Number of rings when none is given, extended_source.py 310-312 and 437-439. -/
noncomputable def defaultRings (outer wl dTel : ℝ) : ℕ := (roundEvenF (outer / (5 * (wl / 10 ^ 9) / dTel / (4848 / 10 ^ 9)))).toNat

/-- `n_rings`, extended_source.py 306-312 (zero when not given, line 97). -/
noncomputable def ringCount (given : ℕ) (outer wl dTel : ℝ) : ℕ := if 0 < given then given else defaultRings outer wl dTel

/-- `radius_rings`, extended_source.py 315-316 and 442-443. -/
noncomputable def ringRadius (outer : ℝ) (n j : ℕ) : ℝ := outer / n / 2 + j * (outer / n)

/-- `np_rings`, extended_source.py 319 and 449. -/
noncomputable def ringPoints (outer samp : ℝ) (n j : ℕ) : ℕ := ⌈2 * Real.pi * ringRadius outer n j / samp⌉.toNat

/-- `_compute_tophat_rings`, extended_source.py 300-347, for `n` rings; division by zero without rings. -/
noncomputable def tophatRings (size samp : ℝ) (n : ℕ) : Option (List SrcPoint) :=
  if n = 0 then none
  else
    let rings := (List.range n).flatMap fun j => ringPts (ringRadius (size / 2) n j) (ringPoints (size / 2) samp n j)
    some (equalFlux (if 1 < n then (0, 0) :: rings else rings))

/-- `sigma_arcsec`, extended_source.py 373 and 427. -/
noncomputable def gaussSigma (size : ℝ) : ℝ := size / (2 * Real.sqrt (2 * Real.log 2))

/-- Fluxes over their sum, extended_source.py 395-396 and 477. -/
noncomputable def normFlux (l : List SrcPoint) : List SrcPoint := l.map fun p => { p with flux := p.flux / (l.map (·.flux)).sum }

/-- The gaussian, extended_source.py 387. -/
noncomputable def gaussAt (sigma : ℝ) (p : ℝ × ℝ) : ℝ := Real.exp (-(p.1 ^ 2 + p.2 ^ 2) / (2 * sigma ^ 2))

open Classical in
/-- `_compute_gauss_cartesian`, extended_source.py 370-396; the maximum of an empty array raises. -/
noncomputable def gaussCart (size samp : ℝ) : Option (List SrcPoint) :=
  let sigma := gaussSigma size
  let n := (roundEvenF (2 * (3 * sigma / samp) / 2) * 2).toNat
  let pts := gridPts n fun j => ((j : ℝ) - n / 2 + 1 / 2) * samp
  if n = 0 then none
  else
    let top := (pts.map (gaussAt sigma)).foldr max 0
    some (normFlux ((pts.filter fun p => 1 / 10 * top ≤ gaussAt sigma p).map fun p => ⟨p.1, p.2, gaussAt sigma p⟩))

/-- `_compute_gauss_rings`, extended_source.py 420-477. Without rings only the centre is left. -/
noncomputable def gaussRings (size samp : ℝ) (n : ℕ) : List SrcPoint :=
  let sigma := gaussSigma size
  let outer := 3 * sigma
  normFlux (⟨0, 0, 1⟩ :: (List.range n).flatMap fun j =>
    (ringPts (ringRadius outer n j) (ringPoints outer samp n j)).map fun p => ⟨p.1, p.2, Real.exp (-ringRadius outer n j ^ 2 / (2 * sigma ^ 2))⟩)

/-- `_check_if_3d`, extended_source.py 143-147. -/
noncomputable def is3d (heights : List ℝ) (focus : Option ℝ) : Prop :=
  match heights with
  | [h] => focus ≠ some h
  | l => 1 < l.length

/-- A row of the output `coeff`: tilts, focus and flux. -/
structure SrcCoeff where
  tipx : ℝ
  tipy : ℝ
  focus : Option ℝ
  flux : ℝ

/-- Rows of a flat source, extended_source.py 237-240 and others. -/
noncomputable def coeff2d (asec dTel wl : ℝ) (pts : List SrcPoint) : List SrcCoeff :=
  pts.map fun p => ⟨angleToTip asec dTel wl p.x, angleToTip asec dTel wl p.y, some 0, p.flux⟩

/-- `_compute_3d`, extended_source.py 612-655, with height, intensity and tilt of each layer. -/
noncomputable def coeff3d (asec dTel wl : ℝ) (focus : Option ℝ) (layers : List (ℝ × ℝ × ℝ × ℝ)) (pts : List SrcPoint) : List SrcCoeff :=
  layers.flatMap fun l => pts.map fun p =>
    ⟨angleToTip asec dTel wl p.x + angleToTip asec dTel wl l.2.2.1, angleToTip asec dTel wl p.y + angleToTip asec dTel wl l.2.2.2,
      focusCoeff dTel wl l.1 focus, p.flux * l.2.1⟩

open Classical in
/-- `_apply_flux_threshold`, extended_source.py 680-693, when `flux_threshold` is positive (line 167). -/
noncomputable def fluxThreshold (thr : ℝ) (l : List SrcCoeff) : List SrcCoeff :=
  if 0 < thr then l.filter fun p => (l.map (·.flux)).sum / l.length * thr < p.flux else l

section
variable {K : Type} [Field K] [LinearOrder K]

/-- Fluxes not above the threshold set to zero, ext_source_pyramid.py 326-340. -/
def dropWeak (limit : K) (l : List K) : List K := l.map fun x => if x ≤ limit then 0 else x

/-- Sum of the fluxes not above the threshold, ext_source_pyramid.py 335. -/
def weakSum (limit : K) (l : List K) : K := (l.filter fun x => x ≤ limit).sum

/-- Four fluxes of the array replaced, ext_source_pyramid.py 311, 344 and 346. -/
def setFour (l : List K) (i : ℕ) (v : K) : List K := l.take i ++ [v, v, v, v] ++ l.drop (i + 4)

/-- The column of fluxes with room for the four points at the border of the field, ext_source_pyramid.py 292-313, and where that is. `none`: index out
of range. -/
def faceRoom (idx : Option ℕ) (flux : List K) : Option (ℕ × List K) :=
  match idx with
  | none => some (flux.length, flux ++ [0, 0, 0, 0])
  | some i => if flux.length ≤ i then some (flux.length, flux ++ [0, 0, 0, 0])
    else if i + 4 ≤ flux.length then some (i, setFour flux i 0) else none

/-- `cache_ttexp` without stream, ext_source_pyramid.py 288-349: where the four points are and the fluxes afterwards. The arrays share their memory, so
that setting a flux to zero changes the coefficients. -/
def cacheFlux (thr : K) (idx : Option ℕ) (flux : List K) : Option (ℕ × List K) :=
  match faceRoom idx flux with
  | none => none
  | some (i, l) =>
    let original := l.take i
    if original = [] then none
    else
      let limit := (original.map abs).foldr max 0 * thr
      let lost := weakSum limit original
      let kept := dropWeak limit original ++ l.drop i
      some (i, setFour kept i (if 0 < lost then lost / 4 else 0))

/-- The sum over the points in batches of `b`, ext_source_pyramid.py 409-455: `img k` is the image of point `k`, `w k` its flux, `pad` the image of the
coefficients of the padding. -/
def batchSum (b n : ℕ) (w img : ℕ → K) (pad : K) : K :=
  ∑ c ∈ range ((n + b - 1) / b), ∑ k ∈ range b, if c * b + k < n then img (c * b + k) * w (c * b + k) else pad * 0

end
end Specula
