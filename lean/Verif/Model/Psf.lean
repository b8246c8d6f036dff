import Verif.Model.EField
import Mathlib.Analysis.SpecialFunctions.Trigonometric.Basic
import Mathlib.Analysis.Real.Sqrt
/-
Model of `specula/lib/calc_psf.py` 15-69 (`calc_psf`) and of `specula/processing_objects/psf.py` 156-191, 261-297 (`PSF`: reference,
instantaneous PSF and Strehl ratio, sums after the start time, means and standard deviation at the end).

Exact arithmetic over the reals and complex numbers; the FFT is the discrete Fourier transform it computes.  Times are numbers in
seconds.  Exceptions are `none`.  Not modelled: profile metrics (see `Model/Radial.lean`), printing, GPU.
-/
namespace Specula
open Finset

/-- Field placed in the corner of an array of zeros of `w` by `w` pixels, calc_psf.py 46-50. -/
noncomputable def padField (w rows cols : ℕ) (u : ℕ → ℕ → ℂ) (i j : ℕ) : ℂ := if i < rows ∧ j < cols ∧ i < w ∧ j < w then u i j else 0

/-- `exp(-2πi k / w)`. -/
noncomputable def twiddle (w : ℕ) (k : ℤ) : ℂ := Complex.exp (-(2 * Real.pi * Complex.I * k / w))

/-- `fft2` of a square array, calc_psf.py 54. -/
noncomputable def fft2 (w : ℕ) (u : ℕ → ℕ → ℂ) (k l : ℕ) : ℂ :=
  ∑ i ∈ range w, ∑ j ∈ range w, u i j * twiddle w ((k * i + l * j : ℕ) : ℤ)

/-- `fftshift`, calc_psf.py 57: index `k` of the result is index `k - w // 2` modulo `w`. -/
def fftshiftIdx (w k : ℕ) : ℕ := (k + (w - w / 2)) % w

/-- The PSF before normalisation, calc_psf.py 46-59. -/
noncomputable def psfRaw (w rows cols : ℕ) (u : ℕ → ℕ → ℂ) (k l : ℕ) : ℝ :=
  Complex.normSq (fft2 w (padField w rows cols u) (fftshiftIdx w k) (fftshiftIdx w l))

/-- `total_psf`, calc_psf.py 62. -/
noncomputable def psfTotal (w rows cols : ℕ) (u : ℕ → ℕ → ℂ) : ℝ := ∑ k ∈ range w, ∑ l ∈ range w, psfRaw w rows cols u k l

/-- `calc_psf(phase, amp, imwidth=w, normalize=True)`, calc_psf.py 15-69; the field is `amp * exp(1j * phase)`.  `none`: the field is
larger than the image. -/
noncomputable def calcPsf (w rows cols : ℕ) (u : ℕ → ℕ → ℂ) : Option (ℕ → ℕ → ℝ) :=
  if rows ≤ w ∧ cols ≤ w then some fun k l => psfRaw w rows cols u k l / psfTotal w rows cols u else none

/-- Amplitude times phasor, calc_psf.py 48, with the phase of `phi_at_lambda` (psf.py 186, electric_field.py 137-160). -/
noncomputable def pupilField (A phaseNm : ℕ → ℕ → ℝ) (wavelength : ℝ) (i j : ℕ) : ℂ :=
  (A i j : ℂ) * Complex.exp (Complex.I * ((phaseNm i j * (2 * Real.pi / wavelength) : ℝ) : ℂ))

/-- Reference PSF: the phase set to zero, psf.py 175-182. -/
noncomputable def refField (A : ℕ → ℕ → ℝ) (i j : ℕ) : ℂ := (A i j : ℂ)

/-- `sr.value`, psf.py 190-192, from the PSF and the reference. -/
noncomputable def strehl (w : ℕ) (psf ref : ℕ → ℕ → ℝ) : ℝ := psf (w / 2) (w / 2) / ref (w / 2) (w / 2)

section
variable {K : Type} [Field K] [LinearOrder K]

/-- Sums of `PSF`, psf.py 114-117 and 160-163; `P` indexes the pixels. -/
structure PsfState (P K : Type) where
  count : ℕ
  intSr : K
  intPsf : P → K
  sumSq : P → K

/-- One trigger: time in seconds, Strehl ratio and PSF. -/
structure PsfStep (P K : Type) where
  time : K
  sr : K
  psf : P → K

/-- After `setup`, psf.py 156-163. -/
def psfInit {P : Type} : PsfState P K := { count := 0, intSr := 0, intPsf := fun _ => 0, sumSq := fun _ => 0 }

/-- `PSF.post_trigger`, psf.py 261-267. -/
def psfPost {P : Type} (start : K) (s : PsfState P K) (x : PsfStep P K) : PsfState P K :=
  if x.time ≥ start then
    { count := s.count + 1, intSr := s.intSr + x.sr, intPsf := fun p => s.intPsf p + x.psf p, sumSq := fun p => s.sumSq p + x.psf p ^ 2 }
  else s

/-- Outputs after `PSF.finalize`, psf.py 280-285: Strehl ratio, PSF and variance before the square root. -/
structure PsfFinal (P K : Type) where
  intSr : K
  intPsf : P → K
  variance : P → K

/-- `PSF.finalize`, psf.py 280-285.  Without frames the sums (zero) stay. -/
def psfFinalize {P : Type} (s : PsfState P K) : PsfFinal P K :=
  if s.count > 0 then
    { intSr := s.intSr / s.count
      intPsf := fun p => s.intPsf p / s.count
      variance := fun p => max (s.sumSq p / s.count - (s.intPsf p / s.count) ^ 2) 0 }
  else { intSr := s.intSr, intPsf := s.intPsf, variance := fun _ => 0 }

end
end Specula
