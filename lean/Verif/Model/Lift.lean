import Mathlib.LinearAlgebra.Matrix.NonsingularInverse
import Verif.Model.Psf
import Verif.Model.Ccd
import Verif.Model.SubapCal
/-
The LIFT estimator: `specula/processing_objects/lift.py`.

Images are functions of row and column; sizes are parameters.  Not modelled: the resampling of modes and mask to the grid (they are
given on the grid), the check that the first Zernike modes are tip and tilt, rounding.
-/
namespace Specula
open Finset

/-! ### Geometry -/

section
variable {K : Type} [Field K] [LinearOrder K] [FloorRing K]

/-- Result of `calc_geometry`. -/
structure LiftGeom (K : Type) where
  samplingRatio : K
  fftSampling : Int
  fftSize : Int
  padding : Int
  fftRes : K

/-- `calc_geometry`, lift.py 202-217; `ld` is the angle of wavelength over diameter in arc seconds.  `fft_res` is overwritten. -/
def liftGeometry (phaseSampling : ℕ) (ld pixScale _fftRes : K) : LiftGeom K :=
  let sr := pixScale / ld
  let res := 1 / sr
  let n := roundEvenF ((phaseSampling : K) * sr)
  let size := roundEvenF ((n : K) * res) / 2 * 2
  ⟨sr, n, size, size - n, (size : K) / n⟩

end

/-- `radians_per_pixel`, lift.py 232. -/
noncomputable def liftRadPerPix (g : LiftGeom ℝ) : ℝ := Real.pi / (2 * g.fftRes)

/-! ### The frame that is analysed -/

/-- One dimension of `crop_or_enlarge_around_peak`, lift.py 434-466: the index of the array that is put at the index `r` of the result
(of `w` elements), or nothing (zero). -/
def liftSrc (n w peak r : ℕ) : Option ℕ :=
  let half := w / 2
  let start := peak - half
  let stop := min n (peak + half)
  let len := stop - start
  let pad := (w - len) / 2
  if pad ≤ r ∧ r < pad + len then some (start + (r - pad)) else none

/-- `crop_or_enlarge_around_peak`. -/
noncomputable def liftCropPeak (n w pr pc : ℕ) (a : ℕ → ℕ → ℝ) (r c : ℕ) : ℝ :=
  match liftSrc n w pr r, liftSrc n w pc c with
  | some i, some j => a i j
  | _, _ => 0

/-- `numpy.max` of an image. -/
noncomputable def imgMax (n : ℕ) (a : ℕ → ℕ → ℝ) : ℝ := sSup {v | ∃ i j, i < n ∧ j < n ∧ v = a i j}

open Classical in
/-- The image above the threshold, lift.py 169-170. -/
noncomputable def liftThr (n : ℕ) (a : ℕ → ℕ → ℝ) (i j : ℕ) : ℝ :=
  let th := 0.05 * imgMax n a
  if a i j < th then 0 else a i j - th

/-- `computeCoG`, lift.py 168-171: row and column. -/
noncomputable def liftCog (n : ℕ) (a : ℕ → ℕ → ℝ) : ℝ × ℝ :=
  let t := ∑ i ∈ range n, ∑ j ∈ range n, liftThr n a i j
  ((∑ i ∈ range n, ∑ j ∈ range n, (i : ℝ) * liftThr n a i j) / t, (∑ i ∈ range n, ∑ j ∈ range n, (j : ℝ) * liftThr n a i j) / t)

/-- `setPsf`, lift.py 349-354. -/
noncomputable def liftFrame (n gs : ℕ) (a : ℕ → ℕ → ℝ) : ℕ → ℕ → ℝ :=
  liftCropPeak n gs (roundEvenF (liftCog n a).1).toNat (roundEvenF (liftCog n a).2).toNat a

/-! ### Images and derivatives -/

/-- Parameters of the estimator and modes on the grid. -/
structure LiftCfg where
  /-- `gridSize` -/
  gs : ℕ
  /-- `fftSize` -/
  fs : ℕ
  mask : ℕ → ℕ → ℝ
  modes : ℕ → ℕ → ℕ → ℝ
  nPistons : ℕ
  nZern : ℕ
  airef : ℕ → ℝ
  /-- `cropped_size` -/
  side : ℤ
  nIter : ℕ
  fix : Bool
  wavelength : ℝ
  radPerPix : ℝ

/-- `_build_reference_coeffs`, lift.py 147-158. -/
def liftAiref (nPistons nZern : ℕ) (amp : List ℚ) : Option (List ℚ) :=
  if amp.length > nZern then none else some (List.replicate nPistons 0 ++ amp ++ List.replicate (nZern - amp.length) 0)

section
variable (c : LiftCfg)

/-- `nmodes` -/
def LiftCfg.nmodes : ℕ := c.nZern + c.nPistons

/-- Border of the padded array, lift.py 161. -/
def LiftCfg.pad : ℕ := (c.fs - c.gs) / 2

/-- The padded array, lift.py 161-164. -/
noncomputable def liftPad (x : ℕ → ℕ → ℂ) (i j : ℕ) : ℂ :=
  if c.pad ≤ i ∧ i < c.pad + c.gs ∧ c.pad ≤ j ∧ j < c.pad + c.gs then x (i - c.pad) (j - c.pad) else 0

/-- `ft_ft2`, lift.py 160-166. -/
noncomputable def liftFt (x : ℕ → ℕ → ℂ) (r s : ℕ) : ℂ :=
  fft2 c.fs (liftPad c x) (fftshiftIdx c.fs (r + c.pad)) (fftshiftIdx c.fs (s + c.pad)) * (1 / (c.fs : ℂ))

/-- `phaseFromCoeffs`, lift.py 288-292. -/
noncomputable def liftPhase (z : ℕ → ℝ) (i j : ℕ) : ℝ := ∑ k ∈ range c.nmodes, z k * c.modes k i j

/-- `phaseLIFT`, lift.py 294-297. -/
noncomputable def liftPhaseRef (tip tilt : ℝ) (p : ℕ → ℕ → ℝ) (i j : ℕ) : ℝ :=
  p i j + liftPhase c c.airef i j + c.modes c.nPistons i j * tip + c.modes (c.nPistons + 1) i j * tilt

/-- The field in the pupil, lift.py 307-311. -/
noncomputable def liftField (p : ℕ → ℕ → ℝ) (i j : ℕ) : ℂ := (c.mask i j : ℂ) * Complex.exp (Complex.I * (p i j : ℂ))

/-- Image before normalisation, lift.py 299-300, 318. -/
noncomputable def liftAbs2 (p : ℕ → ℕ → ℝ) (r s : ℕ) : ℝ := Complex.normSq (liftFt c (liftField c p) r s)

/-- Sum over the grid. -/
noncomputable def gridSum (gs : ℕ) (a : ℕ → ℕ → ℝ) : ℝ := ∑ r ∈ range gs, ∑ s ∈ range gs, a r s

/-- `focalPlaneImageFromFFT` with a given flux, lift.py 313-319. -/
noncomputable def liftImage (flux : ℝ) (p : ℕ → ℕ → ℝ) (r s : ℕ) : ℝ := liftAbs2 c p r s * (flux / gridSum c.gs (liftAbs2 c p))

/-- `IK_prime` for fields multiplied by `norm`, lift.py 302-305, 324-331, 386-390. -/
noncomputable def liftPrime (norm : ℝ) (p : ℕ → ℕ → ℝ) (k : ℕ) (r s : ℕ) : ℝ :=
  2 * ((starRingEnd ℂ) (liftFt c (liftField c p) r s * (norm : ℂ)) * Complex.I *
    liftFt c (fun i j => liftField c p i j * (norm : ℂ) * (c.modes k i j : ℂ)) r s).re

/-- `calcCenter`, lift.py 183-187: column, row. -/
noncomputable def liftCenter (a : ℕ → ℕ → ℝ) : ℝ × ℝ :=
  if c.fix then (0.5 * c.gs, 0.5 * c.gs) else ((liftCog c.gs a).2, (liftCog c.gs a).1)

/-- Pixels of `crop`, lift.py 189-196, in the order of `ravel`, and numbers of rows and columns. -/
noncomputable def liftRoi (center : ℝ × ℝ) : List ℕ × List ℕ :=
  (slicePos c.gs ⌈center.2 - c.side⌉ ⌈center.2 + c.side⌉, slicePos c.gs ⌈center.1 - c.side⌉ ⌈center.1 + c.side⌉)

/-- Values of an image in a region. -/
noncomputable def roiVals (roi : List ℕ × List ℕ) (a : ℕ → ℕ → ℝ) : List ℝ := roi.1.flatMap fun r : ℕ => roi.2.map fun s : ℕ => a r s

/-! ### The reconstructor -/

open Classical in
/-- `computeNoiseCovarianceDiag`, lift.py 333-341; `mx` is the largest value. -/
noncomputable def liftNoise {m : ℕ} (mx : ℝ) (img : Fin m → ℝ) (i : Fin m) : ℝ := if img i < mx * 1e-6 then mx * 1e-6 else img i

/-- `computeReconstructor`, lift.py 173-176. -/
noncomputable def liftRec {m n : ℕ} (H : Matrix (Fin m) (Fin n) ℝ) (R : Fin m → ℝ) : Matrix (Fin n) (Fin m) ℝ :=
  (H.transpose * Matrix.diagonal (fun i => 1 / R i) * H)⁻¹ * (H.transpose * Matrix.diagonal (fun i => 1 / R i))

/-! ### Iterations -/

/-- What changes from one iteration to the next: phase, coefficients, flux, centre of the region. -/
structure LiftSt where
  phase : ℕ → ℕ → ℝ
  total : ℕ → ℝ
  flux : ℝ
  center : ℝ × ℝ

/-- Reference tip and tilt, lift.py 178-181. -/
noncomputable def liftRefTT (center : ℝ × ℝ) : ℝ × ℝ :=
  ((center.2 - 0.5 * c.gs) * c.radPerPix - c.airef c.nPistons, (center.1 - 0.5 * c.gs) * c.radPerPix - c.airef (c.nPistons + 1))

/-- Before the first iteration, lift.py 360-374. -/
noncomputable def liftInit (psf : ℕ → ℕ → ℝ) : LiftSt :=
  ⟨fun _ _ => 0, fun _ => 0, (roiVals (liftRoi c (liftCenter c psf)) psf).sum, liftCenter c psf⟩

/-- The correction of an iteration, lift.py 376-395, and the flux.  `none`: the two regions have different shapes (numpy raises, unless
one can be broadcast, which is not modelled). -/
noncomputable def liftCorrection (psf : ℕ → ℕ → ℝ) (tt : ℝ × ℝ) (st : LiftSt) : Option ((ℕ → ℝ) × ℝ × (ℝ × ℝ)) :=
  let p := liftPhaseRef c tt.1 tt.2 st.phase
  let img := liftImage c st.flux p
  let ctr := liftCenter c img
  let roi0 := liftRoi c st.center
  let roi := liftRoi c ctr
  let flux := st.flux * ((roiVals roi psf).sum / (roiVals roi img).sum)
  let norm := Real.sqrt flux / Real.sqrt (gridSum c.gs (liftAbs2 c p))
  let v0 := roiVals roi0 psf
  let v := roiVals roi img
  if roi0.1.length ≠ roi.1.length ∨ roi0.2.length ≠ roi.2.length then none
  else
    let H := Matrix.of fun (i : Fin v.length) (k : Fin c.nmodes) => (roiVals roi (liftPrime c norm p k)).getD i 0
    let R := liftNoise (v.foldl max 0) (fun i : Fin v.length => v.getD i 0)
    let dz := (liftRec H R).mulVec fun i : Fin v.length => v0.getD i 0 - v.getD i 0
    some (fun k => if h : k < c.nmodes then dz ⟨k, h⟩ else 0, flux, ctr)

/-- One iteration, lift.py 375-401. -/
noncomputable def liftStep (psf : ℕ → ℕ → ℝ) (tt : ℝ × ℝ) (st : LiftSt) : Option LiftSt :=
  (liftCorrection c psf tt st).map fun d =>
    ⟨fun i j => st.phase i j + liftPhase c d.1 i j, fun k => st.total k + d.1 k, d.2.1, d.2.2⟩

/-- The two conditions to stop, lift.py 403-404, 417: `olderror` is not updated in the loop. -/
def liftStops (relTol absTol newError meanDz : ℚ) : Bool :=
  let olderror : ℚ := 10 ^ 18
  let improvement := (olderror - newError) / olderror
  decide (|improvement| < relTol) || decide (meanDz < absTol)

/-- Any number of iterations. -/
noncomputable def liftSteps (psf : ℕ → ℕ → ℝ) (tt : ℝ × ℝ) : ℕ → LiftSt → Option LiftSt
  | 0, st => some st
  | n + 1, st => (liftStep c psf tt st).bind (liftSteps psf tt n)

/-- The coefficients that are returned, in nm, lift.py 421-424. -/
noncomputable def liftOut (tt : ℝ × ℝ) (total : ℕ → ℝ) (k : ℕ) : ℝ :=
  (total k + (if k = c.nPistons then tt.1 else 0) + (if k = c.nPistons + 1 then tt.2 else 0)) * c.wavelength / (2 * Real.pi)

/-- `phaseEstimation` of an image of `n` by `n` pixels with `iters` iterations, lift.py 356-424. -/
noncomputable def liftEstimate (n iters : ℕ) (a : ℕ → ℕ → ℝ) : Option (ℕ → ℝ) :=
  let psf := liftFrame n c.gs a
  let tt := liftRefTT c (liftCenter c psf)
  (liftSteps c psf tt iters (liftInit c psf)).map fun st => liftOut c tt st.total

end

end Specula
