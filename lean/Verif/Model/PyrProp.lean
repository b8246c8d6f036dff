import Mathlib.Analysis.SpecialFunctions.Complex.Circle
import Verif.Model.Psf
import Verif.Model.Fresnel
import Verif.Model.Coronagraph
import Verif.Model.Ciao
import Verif.Model.ModPyr
import Verif.Model.Masks
/-
Propagation of light through the modulated pyramid, modulated_pyramid.py 262-288, 368-455, 543-591 (C97).  The geometry and the modulation are in `ModPyr` (C77).

Exact arithmetic over the real and complex numbers; the FFTs are the discrete Fourier transforms they compute.  The size of the FFT is `p + c`, with `p` the
sampling of the pupil and `c` the padding (`C77_sides`).  Without defects of edges and tip.
-/
namespace Specula
open Finset

/-- `get_pyr_tlt`, modulated_pyramid.py 369-371, 397-400, 425: `A` is half the side, `k` the row. -/
noncomputable def pyrTlt (A : ℕ) (scale : ℝ) (k l : ℕ) : ℝ :=
  let x : ℝ := if l < A then l else (A - 1 - (l - A) : ℕ)
  let y : ℝ := if k < A then k else (A - 1 - (k - A) : ℕ)
  (x + y) / scale

/-- Phase of the faces and field stop before `fftshift`, modulated_pyramid.py 271-274. -/
noncomputable def pyrExp (tlt mask : ℕ → ℕ → ℝ) (k l : ℕ) : ℂ := Complex.exp (-(2 * Real.pi * Complex.I * (tlt k l : ℂ))) * (mask k l : ℂ)

open Classical in
/-- `get_fp_mask`, modulated_pyramid.py 171, 269, 445-446: `masking` is the fraction of the field of the array, `obs` the obstruction if given. -/
noncomputable def pyrStop (N : ℕ) (masking fftRes : ℝ) (obs : Option ℝ) (k l : ℕ) : ℝ :=
  let ratio := (obs.map fun o => o / ((N : ℝ) / fftRes)).getD 0
  match baseMask N (⟨some ratio, some masking, 0, 0, false, false⟩ : MaskArgs ℝ) with
  | some m => if m k l then 1 else 0
  | none => 0

/-- `get_tlt_f`, modulated_pyramid.py 427-443. -/
noncomputable def pyrTltF (p c : ℕ) (i j : ℕ) : ℂ :=
  let s : ℝ := 2 * p / (2 * ((p : ℝ) + c))
  subpixelPhase (2 * p) s s i j

/-- `get_modulation_tilts`, modulated_pyramid.py 448-455, along one axis; the coordinates increase, so the extremes are the first and the last. -/
noncomputable def modTilt (p : ℕ) (i : ℕ) : ℝ :=
  let xx := fun a : ℕ => makeXY p (((p / 2 : ℕ) : ℕ) : ℝ) a
  xx i * Real.pi / ((xx (p - 1) - xx 0) / 2)

/-- `ttexp`, modulated_pyramid.py 479-482, 493-502: `pt` are the coefficients of `tilt_x` and `tilt_y`. -/
noncomputable def modExp (p : ℕ) (pt : ℝ × ℝ) (i j : ℕ) : ℂ := Complex.exp (-(Complex.I * ((pt.1 * modTilt p j + pt.2 * modTilt p i : ℝ) : ℂ)))

/-- `u_tlt[i]`, modulated_pyramid.py 556-559. -/
noncomputable def pyrIn (p c : ℕ) (u : ℕ → ℕ → ℂ) (pt : ℝ × ℝ) : ℕ → ℕ → ℂ :=
  padField (p + c) p p fun i j => u i j * pyrTltF p c i j * modExp p pt i j

/-- `u_fp`, modulated_pyramid.py 566. -/
noncomputable def pyrFocal (p c : ℕ) (u : ℕ → ℕ → ℂ) (pt : ℝ × ℝ) : ℕ → ℕ → ℂ := fft2 (p + c) (pyrIn p c u pt)

/-- The field after the faces, modulated_pyramid.py 21, 27, 274, 285, 570-574; `E` is the array of the faces before `fftshift`. -/
noncomputable def pyrBack (p c : ℕ) (E : ℕ → ℕ → ℂ) (u : ℕ → ℕ → ℂ) (pt : ℝ × ℝ) (i j : ℕ) : ℂ :=
  ifft2 (p + c) (fun k l => pyrFocal p c u pt k l * E (fftshiftIdx (p + c) k) (fftshiftIdx (p + c) l)) i j * (1 / (((p + c : ℕ) : ℂ) * ((p + c : ℕ) : ℂ)))

/-- `pyr_image`, modulated_pyramid.py 28, 561-577: `m` steps at `pts` with weights `w`. -/
noncomputable def pyrImage (p c : ℕ) (E : ℕ → ℕ → ℂ) (u : ℕ → ℕ → ℂ) (m : ℕ) (pts : ℕ → ℝ × ℝ) (w : ℕ → ℝ) (i j : ℕ) : ℝ :=
  ∑ t ∈ range m, Complex.normSq (pyrBack p c E u (pts t) i j) * w t

/-- `pup_pyr_tot`, modulated_pyramid.py 283-284, 584. -/
noncomputable def pyrPupils (p c : ℕ) (E : ℕ → ℕ → ℂ) (u : ℕ → ℕ → ℂ) (m : ℕ) (pts : ℕ → ℝ × ℝ) (w : ℕ → ℝ) (i j : ℕ) : ℝ :=
  pyrImage p c E u m pts w (rollIdx (p + c) ((c / 2 : ℕ) : ℤ) i) (rollIdx (p + c) ((c / 2 : ℕ) : ℤ) j)

/-- `psf_bfm`, modulated_pyramid.py 19-20, 539, 580, 588. -/
noncomputable def pyrPsf (p c : ℕ) (u : ℕ → ℕ → ℂ) (m : ℕ) (pts : ℕ → ℝ × ℝ) (w : ℕ → ℝ) : Img ℝ :=
  ⟨p + c, p + c, fun k l => accumulate m w (fun t k l => Complex.normSq (pyrFocal p c u (pts t) (fftshiftIdx (p + c) k) (fftshiftIdx (p + c) l))) k l⟩

/-- `transmission`, modulated_pyramid.py 581, 591. -/
noncomputable def pyrThrough (p c : ℕ) (mask : ℕ → ℕ → ℝ) (u : ℕ → ℕ → ℂ) (m : ℕ) (pts : ℕ → ℝ × ℝ) (w : ℕ → ℝ) : ℝ :=
  pyrTransmission (pyrPsf p c u m pts w) mask

end Specula
