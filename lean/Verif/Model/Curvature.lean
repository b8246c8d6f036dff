import Mathlib.Analysis.SpecialFunctions.Complex.Circle
import Verif.Model.Psf
import Verif.Model.Masks
import Verif.Model.Resample
import Verif.Model.EField
import Verif.Model.SubapCal
/-
The curvature sensor: curvature_sensor.py (C96).  Its slope computer is in `PixSlopes` (C81), the interpolation of the field in `Extrap` (C71, C72).

Exact arithmetic; angles in radians.
-/
namespace Specula
open Finset

/-- `internal_res`, curvature_sensor.py 63, 103-114: `pxs` is the pixel scale asked for, `pitch` the pixel pitch of the input field. -/
noncomputable def curvRes (lam pxs pitch ovs : ℝ) : ℤ :=
  let r := ⌈lam / (pxs * pitch) * max 1 ovs⌉
  r + r % 2

/-- `actual_internal_pxscale`, curvature_sensor.py 118. -/
noncomputable def curvScale (lam pitch : ℝ) (res : ℕ) : ℝ := lam / (res * pitch)

/-- Radius of the disk on which the focus is defined, curvature_sensor.py 143-149; `n` is the size of the input field. -/
noncomputable def curvRadius (n res : ℕ) (pitch : ℝ) : ℝ :=
  let newPitch := pitch * ((n : ℝ) / res)
  n * pitch / newPitch / 2

open Classical in
/-- Phase of the focus, curvature_sensor.py 147-155: Noll's polynomial 4 (zernike_generator.py 161-190 with the coordinates of 237-243), zero
outside the disk of mask.py 128-131. -/
noncomputable def curvFocus (n res : ℕ) (pitch rms wl : ℝ) (i j : ℕ) : ℝ :=
  let r := curvRadius n res pitch
  let y := ((i : ℝ) + 0.5 - (res : ℝ) / 2) / r
  let x := ((j : ℝ) + 0.5 - (res : ℝ) / 2) / r
  let rho := Real.sqrt (x ^ 2 + y ^ 2)
  let z4 := if circularMask res res (some r) (some ((res : ℝ) / 2, (res : ℝ) / 2)) i j then Real.sqrt 0.5 * Real.sqrt (2 * (2 + 1)) * (2 * rho ^ 2 - 1) else 0
  z4 * rms * (2 * Real.pi / wl)

open Classical in
/-- The field stop, curvature_sensor.py 161-164. -/
noncomputable def curvStop (fov scale : ℝ) (res : ℕ) (k l : ℕ) : ℝ :=
  match baseMask res (⟨none, some (fov / scale / res), 0, 0, false, false⟩ : MaskArgs ℝ) with
  | some m => if m k l then 1 else 0
  | none => 0

/-- Image with the phase `s * D`, `s = 1` or `-1`, curvature_sensor.py 157-158, 175-185. -/
noncomputable def curvImage (res : ℕ) (stop : ℕ → ℕ → ℝ) (s : ℝ) (D : ℕ → ℕ → ℝ) (u : ℕ → ℕ → ℂ) (k l : ℕ) : ℝ :=
  Complex.normSq (fft2 res (fun i j => u i j * Complex.exp (Complex.I * ((s * D i j : ℝ) : ℂ))) (fftshiftIdx res k) (fftshiftIdx res l)) * stop k l

/-- Rows (and columns) of the part that is cut, curvature_sensor.py 189-194. -/
noncomputable def curvCut (fov scale : ℝ) (res : ℕ) : List ℕ :=
  let w := ⌈fov / scale⌉
  let start := ((res : ℤ) - w) / 2
  slicePos res start (start + w)

/-- The part that is cut. -/
def curvCrop (cut : List ℕ) (img : ℕ → ℕ → ℝ) : Img ℝ := ⟨cut.length, cut.length, fun p q => img (cut.getD p 0) (cut.getD q 0)⟩

open Classical in
/-- Detector and normalisation, curvature_sensor.py 198-203, 209-218; `phot` is the number of photons of the input field. -/
noncomputable def curvOut (eps : ℝ) (number : ℕ) (phot : ℝ) (a : Img ℝ) : Option (Img ℝ) :=
  (toccd eps a number number none).map fun r => if 0 < r.total then ⟨r.rows, r.cols, fun i j => r.px i j * (phot / r.total)⟩ else r

/-- The two outputs; `e` is the field after the interpolation (curvature_sensor.py 169-171), `wl` the wavelength in nanometres. -/
noncomputable def curvSensor (eps : ℝ) (n res number : ℕ) (pitch rms wl fov phot : ℝ) (e : EF ℝ) : Option (Img ℝ) × Option (Img ℝ) :=
  let scale := curvScale (wl * 1e-9) pitch res
  let img := fun s => curvOut eps number phot (curvCrop (curvCut fov scale res)
    (curvImage res (curvStop fov scale res) s (curvFocus n res pitch rms wl) (efAtLambda e wl)))
  (img 1, img (-1))

end Specula
