import Mathlib.Analysis.SpecialFunctions.Complex.Arg
import Verif.Model.Fresnel
import Verif.Model.Masks

/-!
# Coronagraphs and focal plane filters

* `specula/processing_objects/abstract_coronagraph.py` (`Coronagraph`);
* the masks of `lyot_coronagraph.py`, `four_quadrant_coronagraph.py`, `vortex_coronagraph.py`, `focal_plane_filter.py` and
  `apodizer_coronagraph.py`;
* `make_subpixel_shift_phase` of `specula/lib/utils.py` (lines 274-338) with `quarter` and `zero_sampled`.

Exact arithmetic over the real and complex numbers; the FFTs are the discrete Fourier transforms they compute. The field on the grid of the
coronagraph (`ef_in`) is given: the interpolation before is not part of this model. Arrays are functions of row and column. The design of the
apodizing phase (`generate_app_keller`) is not modelled, only that its result is a phase.
-/

namespace Specula
open Finset

/-- `make_xy(sampling, ratio, quarter=True, zero_sampled=zero)` along one axis, make_xy.py 144-161. -/
noncomputable def quarterXY (sampling : ℕ) (ratio : ℝ) (zero : Bool) (i : ℕ) : ℝ :=
  let x0 : ℝ := if sampling % 2 = 0 then (if zero then 0 else -(1 / 2)) else 0
  ((i : ℝ) - x0) / ((sampling : ℝ) / 2) * ratio

/-- `make_subpixel_shift_phase` with `quarter` and `zero_sampled`, utils.py 315-336, at row `i` and column `j`. -/
noncomputable def subpixelPhase (size : ℕ) (shiftX shiftY : ℝ) (i j : ℕ) : ℂ :=
  let fx := quarterXY size ((size / 2 : ℕ) : ℝ) true j / size
  let fy := quarterXY size ((size / 2 : ℕ) : ℝ) true i / size
  Complex.exp (-(2 * Complex.I * Real.pi * ((fx * shiftX + fy * shiftY : ℝ) : ℂ)))

/-- `phase_shift`, abstract_coronagraph.py 210-222, for an array of side `n`. -/
noncomputable def coroShift (n : ℕ) (onPixel : Bool) (i j : ℕ) : ℂ :=
  if onPixel then 1 else subpixelPhase (2 * n) (2 * (1 / 2)) (2 * (1 / 2)) i j

/-- The pupil of side `p` put at `s` in the padded array, abstract_coronagraph.py 125-128. -/
noncomputable def padAt (s p : ℕ) (u : ℕ → ℕ → ℂ) (i j : ℕ) : ℂ := if s ≤ i ∧ i < s + p ∧ s ≤ j ∧ j < s + p then u (i - s) (j - s) else 0

/-- `_pupil_to_focal_plane`, abstract_coronagraph.py 124-134. -/
noncomputable def toFocal (n s p : ℕ) (onPixel : Bool) (u : ℕ → ℕ → ℂ) (k l : ℕ) : ℂ :=
  fft2 n (fun i j => padAt s p u i j * coroShift n onPixel i j) k l

/-- `trigger_code`, abstract_coronagraph.py 142-162: `ef_out` for the apodizer, the mask of the focal plane and the stop of the pupil; `pad` is
`fft_padding`. -/
noncomputable def coroOut (n pad p : ℕ) (onPixel : Bool) (apod mask stop : ℕ → ℕ → ℂ) (u : ℕ → ℕ → ℂ) (i j : ℕ) : ℂ :=
  let s := pad / 2
  let focal := toFocal n s p onPixel (fun a b => u a b * apod a b)
  let masked := fun k l => focal k l * mask (fftshiftIdx n k) (fftshiftIdx n l)
  let back := fun x y => ifft2 n masked x y / ((n : ℂ) * n) * (starRingEnd ℂ) (coroShift n onPixel x y)
  back (s + i) (s + j) * stop i j

/-- `transmission`, abstract_coronagraph.py 172-174. -/
noncomputable def coroTransmission (n pad p : ℕ) (onPixel : Bool) (apod mask stop : ℕ → ℕ → ℂ) (u : ℕ → ℕ → ℂ) : ℝ :=
  (∑ k ∈ range n, ∑ l ∈ range n, ‖toFocal n (pad / 2) p onPixel (coroOut n pad p onPixel apod mask stop u) k l‖ ^ 2)
    / ∑ k ∈ range n, ∑ l ∈ range n, ‖toFocal n (pad / 2) p onPixel u k l‖ ^ 2

/-- Photons a sensor gets from a field, `S0 * masked_area()` (sh.py 523, modulated_pyramid.py 598 and others; electric_field.py 214-216). -/
noncomputable def fieldPhotons (s0 pitch : ℝ) (p : ℕ) (amp : ℕ → ℕ → ℝ) : ℝ := s0 * (pitch ^ 2 * ∑ i ∈ range p, ∑ j ∈ range p, amp i j)

/-- Photons after the coronagraph, abstract_coronagraph.py 176-184, when the grid is that of the pupil. -/
noncomputable def coroPhotons (s0 pitch : ℝ) (n pad p : ℕ) (onPixel : Bool) (apod mask stop : ℕ → ℕ → ℂ) (u : ℕ → ℕ → ℂ) : ℝ :=
  fieldPhotons (s0 * coroTransmission n pad p onPixel apod mask stop u) pitch p (fun i j => ‖coroOut n pad p onPixel apod mask stop u i j‖)

/-- Call of `make_mask` with ratios and centre only. -/
noncomputable def plainMask (n : ℕ) (dia obs xc yc : ℝ) (square : Bool) : ℕ → ℕ → Bool := fun i j =>
  ((baseMask n ⟨some obs, some dia, xc, yc, square, false⟩).map (fun m => m i j)).getD false

/-- Checks of the arguments of `LyotCoronagraph`, lyot_coronagraph.py 28-35, and of the stops of the others. -/
def lyotArgs (inner outer : ℚ) (knife : Bool) (owa : Option ℚ) : Bool :=
  !(decide (min inner outer < 0) || decide (outer < inner)) && !(knife && owa.isSome)

/-- `LyotCoronagraph.make_focal_plane_mask`, lyot_coronagraph.py 63-75, for an array of side `n`; `res` is `fft_res * fov_res`. -/
noncomputable def lyotMask (n : ℕ) (res : ℝ) (knife : Bool) (iwa : ℝ) (owa : Option ℝ) : ℕ → ℕ → Bool :=
  if knife then plainMask n 1 0 1 0 true
  else
    let over := match owa with
      | some o => o * res
      | none => (n : ℝ)
    plainMask n (over / n) (iwa * res / over * 2) 0 0 false

/-- `FourQuadrantCoronagraph.make_focal_plane_mask`, four_quadrant_coronagraph.py 50-64. -/
noncomputable def quadMask (n : ℕ) (delay : ℝ) (i j : ℕ) : ℂ :=
  let left := plainMask n 1 0 (1 + 1 / n) (1 / n) true
  let bottom := plainMask n 1 0 (1 / n) (1 + 1 / n) true
  let q : ℝ := if Bool.xor (left i j) (bottom i j) then 1 else 0
  Complex.exp (Complex.I * (q : ℂ) * (delay : ℂ))

/-- `theta`, vortex_coronagraph.py 61-64. -/
noncomputable def vortexTheta (n i j : ℕ) : ℝ :=
  let t := Complex.arg ⟨(j : ℝ) - ((n / 2 : ℕ) : ℝ), (i : ℝ) - ((n / 2 : ℕ) : ℝ)⟩ + 2 * Real.pi
  t - 2 * Real.pi * ⌊t / (2 * Real.pi)⌋

open Classical in
/-- `VortexCoronagraph.make_focal_plane_mask`, vortex_coronagraph.py 57-72; the inner vortex is given by its radius in pixels, charge and shift. -/
noncomputable def vortexMask (n : ℕ) (charge : ℝ) (inner : Option (ℝ × ℝ × ℝ)) (i j : ℕ) : ℂ :=
  let t := vortexTheta n i j
  let rho := Real.sqrt (((i : ℝ) - ((n / 2 : ℕ) : ℝ)) ^ 2 + ((j : ℝ) - ((n / 2 : ℕ) : ℝ)) ^ 2)
  let v := match inner with
    | some (rad, c, shift) => if rho ≤ rad then c * t + shift else charge * t
    | none => charge * t
  Complex.exp (Complex.I * (v : ℂ))

/-- `FocalPlaneFilter.make_focal_plane_mask`, focal_plane_filter.py 47-52; `ratio` is the field asked for over that of the grid. -/
noncomputable def filterMask (n : ℕ) (ratio obs : ℝ) : ℕ → ℕ → Bool := plainMask n ratio (if obs ≠ 0 then obs * ratio else 0) 0 0 false

/-- Dark zone of `APPCoronagraph`, apodizer_coronagraph.py 56-64, for a pupil of `p` pixels in an array of side `n`. -/
noncomputable def appZone (n p : ℕ) (res iwa owa : ℝ) (symmetric : Bool) (i j : ℕ) : Bool :=
  let ring := plainMask n (owa * res / p) (iwa / owa) 0 0 false
  if symmetric then ring i j else ring i j && plainMask n 1 0 (iwa * res / p + 1) 0 true i j

/-- What `PAPLCoronagraph` does with its arguments before and in the constructor of the base class, apodizer_coronagraph.py 113-140 and 56: the
field of view of the dark zone `owa` is needed as a number. -/
def paplArgs (inner outer : ℚ) (knife : Bool) (owa : Option ℚ) : Bool := lyotArgs inner outer knife owa && owa.isSome

/-- Larger of two complex numbers as numpy compares them, real part first. -/
noncomputable def complexMax (a b : ℂ) : ℂ := if a.re < b.re ∨ (a.re = b.re ∧ a.im < b.im) then b else a

/-- `toccd` of a complex field by a whole factor `r` to side `q`, toccd.py 71-84: mean of the blocks, scaled to the total of the input. -/
noncomputable def toccdField (r q : ℕ) (eps : ℝ) (f : ℕ → ℕ → ℂ) (i j : ℕ) : ℂ :=
  let block := fun a b => (∑ x ∈ range r, ∑ y ∈ range r, f (a * r + x) (b * r + y)) / ((r : ℂ) * r)
  let total := ∑ a ∈ range (q * r), ∑ b ∈ range (q * r), f a b
  block i j / complexMax (∑ a ∈ range q, ∑ b ∈ range q, block a b) eps * total

end Specula
