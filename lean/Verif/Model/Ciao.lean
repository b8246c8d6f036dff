import Mathlib.Analysis.SpecialFunctions.Complex.Arg
import Verif.Model.Fresnel
import Verif.Model.Resample
import Verif.Model.EField
import Verif.Model.Extrap
import Verif.Model.Ccd
import Verif.Model.Demod
/-
The rotating shearing interferometer: ciao_ciao_sensor.py (C95) and the measurement of its fringes, ciao_ciao_slopec.py.

Fields and images are square.  Exact arithmetic.  Not modelled: phase unwrapping, the rotation and resizing of the mask of the slope
computer (the mask is given).
-/
namespace Specula
open Finset

/-! ### Sensor -/

/-- Checks of the constructor, ciao_ciao_sensor.py 90-91, 102-103, 111-114. -/
def ciaoCtor (numberPx : Int) (flux mag magDiff : ℚ) : Bool :=
  decide (¬ numberPx ≤ 0) && decide (¬ (flux < 0 ∨ flux > 1)) && decide (¬ mag < 1 / 1000000) && decide (¬ magDiff < 1 / 1000000)

/-- Amplitudes of the two branches, ciao_ciao_sensor.py 106-109. -/
noncomputable def ciaoAmp (flux : ℝ) : ℝ × ℝ := (Real.sqrt (2 * flux), Real.sqrt (2 * (1 - flux)))

/-- Coordinates with the origin on a pixel, make_xy.py 157-161, with the ratio of ciao_ciao_sensor.py 161. -/
noncomputable def ciaoAxis (n : ℕ) (pitch : ℝ) (i : ℕ) : ℝ :=
  let x0 : ℝ := ((n : ℝ) - 1) / 2 + (if n % 2 = 0 then 0.5 else 0)
  ((i : ℝ) - x0) / ((n : ℝ) / 2) * (0.5 * n * pitch)

/-- Phase of the tilt in radians, ciao_ciao_sensor.py 150-165, 204; tilts in radians of angle. -/
noncomputable def ciaoTilt (n : ℕ) (pitch wl thx thy : ℝ) (i j : ℕ) : ℝ :=
  (thx * ciaoAxis n pitch j + thy * ciaoAxis n pitch i) * 1e9 * (2 * Real.pi / wl)

/-- Intensity of the sum of the two branches, ciao_ciao_sensor.py 205, 207-223. -/
noncomputable def ciaoInterf (flux wl : ℝ) (e0 e1 : EF ℝ) (tilt : ℕ → ℕ → ℝ) (i j : ℕ) : ℝ :=
  let u0 := efAtLambda e0 wl i j * ((ciaoAmp flux).1 : ℂ)
  let u1 := efAtLambda e1 wl i j * ((ciaoAmp flux).2 : ℂ) * Complex.exp (Complex.I * (tilt i j : ℂ))
  Complex.normSq (u0 + u1)

open Classical in
/-- The output, ciao_ciao_sensor.py 225-242; `phot` is the number of photons of the input field. -/
noncomputable def ciaoOutput (eps : ℝ) (n number : ℕ) (normalize : Bool) (phot : ℝ) (img : ℕ → ℕ → ℝ) : Option (Img ℝ) :=
  (if number = n then some ⟨n, n, img⟩ else toccd eps ⟨n, n, img⟩ number number none).map fun r =>
    if normalize ∧ 0 < r.total then ⟨r.rows, r.cols, fun i j => r.px i j * (phot / r.total)⟩ else r

/-- Amplitude and phase of the second branch, ciao_ciao_sensor.py 173-196, 215-216, from those of the first: `shared` when the first branch
is also interpolated, since the two interpolators then have the same output field (extrapolation_2d.py 299-311), and the amplitude is
replaced (416-420) before the phase where the amplitude is below the threshold is set to zero (423-424). -/
def ciaoSecond {K : Type} [Field K] [LinearOrder K] [IsStrictOrderedRing K] [FloorRing K] (rd : K → K) (shared : Bool) (P : EFIParams K)
    (s : EFIState) (A ph : ℕ → ℕ → K) : (ℕ → ℕ → K) × (ℕ → ℕ → K) :=
  let amp := efiAmp P s A
  (amp, efiPhase rd P s (if shared then amp else A) ph)

/-! ### Slope computer -/

/-- The window, ciao_ciao_slopec.py 145-148, for the pixel of row `y` and column `x`. -/
noncomputable def ciaoWindow (wx wy sigma : ℝ) (y x : ℕ) : ℝ :=
  Real.exp (-((((x : ℝ) - wx) ^ 2 / (2 * sigma ^ 2) + ((y : ℝ) - wy) ^ 2 / (2 * sigma ^ 2)) ^ 2))

/-- `roll`: index `k` of the result is index `k - s` modulo `n`. -/
def rollIdx (n : ℕ) (s : ℤ) (k : ℕ) : ℕ := (((k : ℤ) - s) % n).toNat

/-- Displacement of the side band, ciao_ciao_slopec.py 164-165. -/
noncomputable def ciaoShift (n : ℕ) (w : ℝ) : ℤ := roundEvenF ((n : ℝ) / 2 - w)

/-- The demodulated image, ciao_ciao_slopec.py 157-169, for any window. -/
noncomputable def ciaoDemod (n : ℕ) (W : ℕ → ℕ → ℝ) (sy sx : ℤ) (px : ℕ → ℕ → ℝ) (i j : ℕ) : ℂ :=
  let ft := fun k l => fft2 n (fun i j => (px i j : ℂ)) (fftshiftIdx n k) (fftshiftIdx n l) / n
  let filt := fun k l => ft k l * (W k l : ℂ)
  let rolled := fun k l => filt (rollIdx n sy k) (rollIdx n sx l)
  ifft2 n (fun k l => rolled (fftshiftIdx n k) (fftshiftIdx n l)) i j / (n : ℂ) ^ 2

/-- Optical path difference, ciao_ciao_slopec.py 172-189, without unwrapping. -/
noncomputable def ciaoOpd (wl : ℝ) (mask : Option (ℕ → ℕ → Bool)) (z : ℕ → ℕ → ℂ) (i j : ℕ) : ℝ :=
  let opd := arctan2 (z i j).im (z i j).re * wl / (2 * Real.pi)
  match mask with
  | none => opd
  | some m => opd * (if m i j then 1 else 0)

/-- The slopes: the map by rows, ciao_ciao_slopec.py 192. -/
noncomputable def ciaoSlopes (n : ℕ) (wx wy sigma wl : ℝ) (mask : Option (ℕ → ℕ → Bool)) (px : ℕ → ℕ → ℝ) (k : ℕ) : ℝ :=
  ciaoOpd wl mask (ciaoDemod n (ciaoWindow wx wy sigma) (ciaoShift n wy) (ciaoShift n wx) px) (k / n) (k % n)

/-- The value given as total counts, ciao_ciao_slopec.py 195-201, without mask: the mean. -/
noncomputable def ciaoCounts (n : ℕ) (px : ℕ → ℕ → ℝ) : ℝ := (∑ i ∈ range n, ∑ j ∈ range n, px i j) / ((n : ℝ) * n)

end Specula
