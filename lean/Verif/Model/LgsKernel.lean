import Mathlib.Analysis.SpecialFunctions.Log.Basic
import Mathlib.Analysis.Real.Sqrt
import Verif.Model.Fresnel
import Verif.Model.Vibration

/-!
# Kernels of laser guide stars

`specula/data_objects/convolution_kernel.py`, `gaussian_convolution_kernel.py`, and their use in `specula/processing_objects/sh.py` (431-447, 472-482). Exact
arithmetic over the real and complex numbers. Resampling by a whole factor takes every so many-th value (C37). Names of files are an arbitrary function of
the list of items that the code hashes; the type of numbers, also hashed, is left out. Exceptions are `none` or a `false`.
-/

namespace Specula
open Finset

/-- What `build` puts into the hash, convolution_kernel.py 190-194: number of subapertures, diameter, launcher, focus, heights, profile, spot size, pixel scale,
pixels, oversampling, tilt in arcsec. -/
structure KernItems where
  n : ℕ
  diam : ℝ
  rl : ℝ × ℝ × ℝ
  zf : ℝ
  heights : List ℝ
  profile : List ℝ
  spot : ℝ
  ps : ℝ
  ssp : ℕ
  overs : ℕ
  tt : ℝ × ℝ

/-- Position of a subaperture in metres, line 51-52. -/
noncomputable def subPos (diam : ℝ) (n i : ℕ) : ℝ := linBins (-(diam / 2)) (diam / 2) n i

/-- Position in the field in arcsec of an oversampled pixel, lines 53-54. -/
noncomputable def fovPos (ssp overs : ℕ) (ps : ℝ) (k : ℕ) : ℝ := linBins (-(ssp * ps / 2)) (ssp * ps / 2) (ssp * overs) k

/-- `sigma`, line 56. -/
noncomputable def lgsSigma (asec fwhm zb : ℝ) : ℝ := fwhm * asec * zb / (2 * Real.sqrt (2 * Real.log 2))

/-- `el`, lines 61-62, one transverse component: `rb` and `rl` are those of beacon and launcher, `lz` the height of the launcher. -/
noncomputable def beamSlope (zb rb rl lz : ℝ) : ℝ := (rb - rl) / (zb - lz)

/-- One transverse component of the difference squared in `d2`, lines 70-71 and 89-90. -/
noncomputable def lgsDelta (zb dz rf rs rb rl lz : ℝ) : ℝ := rf + dz * ((rf - rs) / zb) - (rb + dz * beamSlope zb rb rl lz)

/-- The third component, line 91. -/
noncomputable def lgsDepth (zb dz lz : ℝ) : ℝ := 0 + dz * 1 - (0 + dz * ((zb - lz) / (zb - lz)))

/-- `d2`, lines 89-91. -/
noncomputable def lgsD2 (zb dz : ℝ) (rf rs rb : ℝ × ℝ) (rl : ℝ × ℝ × ℝ) : ℝ :=
  lgsDelta zb dz rf.1 rs.1 rb.1 rl.1 rl.2.2 ^ 2 + lgsDelta zb dz rf.2 rs.2 rb.2 rl.2.1 rl.2.2 ^ 2 + lgsDepth zb dz rl.2.2 ^ 2

/-- What a layer adds with gaussian profile, lines 79 and 93-94; nothing unless its intensity is positive, line 88. -/
noncomputable def lgsLayer (sigma prof d2 : ℝ) : ℝ := open Classical in
  if 0 < prof then 1 / (sigma * Real.pi * Real.sqrt 2) * prof * Real.exp (d2 * (-(1 / 2) * (1 / sigma ^ 2))) else 0

/-- `lgs_map_sh` (gaussian, without pupil mask) before `doCube`, lines 46-104: value in subaperture row `a`, column `b`, pixel row `p`, column `q`. -/
noncomputable def lgsMap (asec : ℝ) (k : KernItems) (a b p q : ℕ) : ℝ :=
  let rb := (k.tt.1 * asec * k.zf, k.tt.2 * asec * k.zf)
  let rs := (subPos k.diam k.n b, subPos k.diam k.n a)
  let rf := (fovPos k.ssp k.overs k.ps (q * k.overs) * asec * k.zf, fovPos k.ssp k.overs k.ps (p * k.overs) * asec * k.zf)
  ((k.heights.zip k.profile).map fun l => lgsLayer (lgsSigma asec k.spot k.zf) l.2 (lgsD2 k.zf (l.1 - k.zf) rf rs rb k.rl)).sum

/-- A cube of kernels: index, row and column. -/
abbrev Cube3 := ℕ → ℕ → ℕ → ℝ

/-- `doCube`, lines 106-109. -/
noncomputable def lgsCube (asec : ℝ) (k : KernItems) : Cube3 := fun m p q => lgsMap asec k (m % k.n) (m / k.n) p q

/-- Sum of a kernel. -/
noncomputable def kernTotal (s : ℕ) (f : ℕ → ℕ → ℝ) : ℝ := ∑ p ∈ range s, ∑ q ∈ range s, f p q

open Classical in
/-- Kernel over its sum, `process_kernels`, lines 292-294. -/
noncomputable def normKernel (s : ℕ) (f : ℕ → ℕ → ℝ) : ℕ → ℕ → ℝ :=
  if 0 < kernTotal s f then fun p q => f p q / kernTotal s f else f

/-- The real kernels after `process_kernels`, which divides in place. -/
noncomputable def normCube (s : ℕ) (c : Cube3) : Cube3 := fun m => normKernel s (c m)

/-- The order in which `process_kernels` puts the kernels, lines 289-299: `kernels[j * dimx + i]` is `real_kernels[i * dimx + j]`. -/
noncomputable def reorder (dimx : ℕ) (c : Cube3) : Cube3 := fun m => c (m % dimx * dimx + m / dimx)

/-- Whether the loop of `process_kernels` stays within arrays of `real` and `out` kernels. -/
def indicesOk (dimx dimy real out : ℕ) : Prop := ∀ i < dimx, ∀ j < dimy, i * dimx + j < real ∧ j * dimx + i < out

/-- `self.kernels` before the transform. -/
noncomputable def processCube (dimx s : ℕ) (c : Cube3) : Cube3 := reorder dimx (normCube s c)

/-- Parameters of the object that do not change. -/
structure LgsConf where
  n : ℕ
  diam : ℝ
  rl : ℝ × ℝ × ℝ
  seeing : ℝ
  launcher : ℝ
  zfocus : ℝ
  theta : ℝ × ℝ
  airmass : ℝ
  ps : ℝ
  ssp : ℕ
  overs : ℕ
  positive : Bool
  fft : Bool

/-- `calculate_focus`, lines 197-199. -/
noncomputable def meanHeight (alt inten : List ℝ) : ℝ := ((alt.zip inten).map fun l => l.1 * l.2).sum / inten.sum

open Classical in
/-- Lines 179-181. -/
noncomputable def focusOf (zfocus airmass : ℝ) (alt inten : List ℝ) : ℝ := (if zfocus ≠ -1 then zfocus else meanHeight alt inten) * airmass

/-- `spot_size`, line 183. -/
noncomputable def spotSize (c : LgsConf) : ℝ := Real.sqrt (c.seeing ^ 2 + c.launcher ^ 2)

/-- Lines 184-188, one component. -/
noncomputable def lgsTilt (positive : Bool) (ps theta : ℝ) : ℝ := (if positive then 1 / 2 else -(1 / 2)) * ps + theta

/-- `build`, lines 175-195. -/
noncomputable def buildItems (c : LgsConf) (alt inten : List ℝ) : Option KernItems :=
  if alt.length ≠ inten.length then none
  else some ⟨c.n, c.diam, c.rl, focusOf c.zfocus c.airmass alt inten, alt.map (· * c.airmass), inten, spotSize c, c.ps, c.ssp, c.overs,
    (lgsTilt c.positive c.ps c.theta.1, lgsTilt c.positive c.ps c.theta.2)⟩

/-- Name of the kernel, kernels (with whether they are transformed) and files. -/
structure KernState where
  name : Option String
  kern : Option (Bool × Cube3)
  disk : String → Option Cube3

open Classical in
/-- `prepare_for_sh`, lines 354-392, with the result `false` for exceptions. The object's kernels are those of `real_kernels` in the file, transformed whatever
`return_fft`, lines 378-380. -/
noncomputable def prepareKern (asec : ℝ) (nm : KernItems → String) (c : LgsConf) (s : KernState) (alt inten : List ℝ) : KernState × Bool :=
  match buildItems c alt inten with
  | none => (s, false)
  | some k =>
    if s.name = some (nm k) then (s, true)
    else
      match s.disk (nm k) with
      | some f => ({ s with name := some (nm k), kern := some (true, processCube c.n c.ssp f) }, true)
      | none =>
        if k.spot ≤ 0 then ({ s with name := some (nm k) }, false)
        else (⟨some (nm k), some (c.fft, processCube c.n c.ssp (lgsCube asec k)),
          fun x => if x = nm k then some (normCube c.ssp (lgsCube asec k)) else s.disk x⟩, true)

/-- Items of the gaussian kernel, gaussian_convolution_kernel.py 44-63: launcher at the origin, one layer at the focus of 90 km, no oversampling. -/
noncomputable def gaussItems (dimx : ℕ) (diam spot ps : ℝ) (ssp : ℕ) (positive : Bool) : KernItems :=
  ⟨max dimx 2, diam, (0, 0, 0), 90000, [90000], [1], spot, ps, ssp, 1, (lgsTilt positive ps 0, lgsTilt positive ps 0)⟩

/-- The image of a subaperture with kernel, sh.py 478-482: `psf` before the shift, `kern` real. The second transform is without factor. -/
noncomputable def kernImage (w : ℕ) (psf kern : ℕ → ℕ → ℝ) (i j : ℕ) : ℝ :=
  (ifft2 w (fun k l => fft2 w (fun a b => (psf a b : ℂ)) k l * (ifft2 w (fun a b => (kern a b : ℂ)) k l / (w : ℂ) ^ 2)) i j).re

/-- Rows of kernels used with row `i` of subapertures, sh.py 474-476: column `c`. -/
def rowKernel (dimy i c : ℕ) : ℕ := i * dimy + c

end Specula
