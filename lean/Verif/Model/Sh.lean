import Mathlib.Algebra.Order.Floor.Ring
import Verif.Model.Ccd
/-
Model of the Shack-Hartmann sensor, `specula/processing_objects/sh.py`: `_set_in_ef` (176-330), `_calc_geometry` (340-380),
`trigger_code` (450-510), `post_trigger` (513-521), `setup` (534-575), with the lenslets of `data_objects/lenslet.py` (n by n, size
2/n); and of `specula/processing_objects/distributed_sh.py` (43-63, 114-137).

The geometry is computed in an ordered field with floor, without rounding other than that asked for by the code (`round`, `int`,
`ceil`); the size of the oversampled field, `int(size * fov_ovs)`, is also modelled with floating point rounding.  Angles are in
arcsec; `lam` stands for the wavelength in metres times the number of arcsec in a radian.  The internal resolution is the one
computed by the code (the attribute is zero until then).

Of the optical propagation only the data flow is modelled: `spot i j f` stands for what the code computes for the lenslet at row i,
column j from the field f in its sub-aperture (half pixel tilt, zero padding, FFT, kernel, focal plane mask).  Interpolation of the
input field is the subject of `Extrap`.  An exception is `none`, and so is a division by zero in `post_trigger`.
-/
namespace Specula

/-- Parameters of the sensor, and of the field at its input. -/
structure ShIn (K : Type) where
  efSize : Nat
  n : Nat
  npx : Nat
  pitch : K
  lam : K
  pxscale : K
  wantedFov : K
  coeff : K
  resToTurb : Bool

section
variable {K : Type} [Field K] [LinearOrder K]

/-- Pixels per sub-aperture before oversampling, sh.py 187. -/
def ShIn.npSub (p : ShIn K) : K := (p.efSize * (2 / (p.n : K))) / 2

/-- `turbulence_pxscale`, sh.py 190-191. -/
def ShIn.turb (p : ShIn K) : K := p.lam / (p.npSub * p.pitch)

/-- The `while` loop of sh.py 208-212: first `i` for which the trial resolution is finer than the pixel; `none` when the steps do
not suffice. -/
def resSearch (p : ShIn K) : Nat → Nat → Option Nat
  | 0, _ => none
  | fuel + 1, i => if p.pxscale ≤ p.turb / ((i : K) + 2) then resSearch p fuel (i + 1) else some i

variable [FloorRing K]

/-- One trial, sh.py 221-229: oversampling, angle of a pixel of the FFT, pixels in the field, common multiple. -/
structure ShTry (K : Type) where
  res : K
  scale : Int
  fftPx : K
  fovPix : Int
  mcm : Nat

/-- sh.py 222-229. -/
def shTry (p : ShIn K) (iMin k : Nat) : ShTry K :=
  let res := p.turb / ((iMin : K) + k + 2)
  let scale := roundEvenF (p.turb / res)
  let fftPx := p.lam * p.n / (p.efSize * p.pitch * scale)
  let fovPix := roundEvenF (p.wantedFov / fftPx / 2) * 2
  ⟨res, scale, fftPx, fovPix, Nat.lcm p.npx fovPix.toNat⟩

/-- `np.argmin`, in a list of indices, of a function: the first index with the least value. -/
def argminOn (f : Nat → K) : List Nat → Option Nat
  | [] => none
  | k :: l => match argminOn f l with
    | none => some k
    | some m => if f m < f k then some m else some k

/-- Choice among the ten trials, sh.py 231-246. -/
def chooseTry (p : ShIn K) (iMin : Nat) : Option Nat :=
  let t := shTry p iMin
  let good := (List.range 10).filter fun k => decide (|(t k).fovPix * (t k).fftPx - p.wantedFov| / p.wantedFov < 2 / 100)
  let idx := if good = [] then List.range 10 else good
  idx.head?.bind fun k0 => (argminOn (fun k => ((t k).mcm : K) / (t k).scale) idx).map fun km =>
    let better := if (t km).mcm = 0 then decide (0 < (t k0).mcm)
      else decide (((t km).scale : K) / (t k0).scale < ((t k0).mcm : K) / (t km).mcm)
    if km ≠ 0 ∧ better = true then km else k0

/-- `_fov_resolution_arcsec`, sh.py 195-246; `fuel` bounds the steps of the loop. -/
def shRes (p : ShIn K) (fuel : Nat) : Option K :=
  if p.resToTurb then if p.pxscale ≤ p.turb then none else some p.turb
  else if p.turb < p.pxscale ∧ 1 / 2 < p.pxscale / 2 then some (p.turb * (1 / 2))
  else (resSearch p fuel 0).bind fun iMin => (chooseTry p iMin).map fun k => (shTry p iMin k).res

/-- `int` of a Python number: truncation towards zero. -/
def truncInt (x : K) : Int := if 0 ≤ x then ⌊x⌋ else ⌈x⌉

/-- What `_set_in_ef` and `_calc_geometry` leave in the object. -/
structure ShGeom (K : Type) where
  scale : Int
  fftPx : K
  fovPix : Int
  finalSize : Int
  ovs : K
  pxscale : K
  np : Int
  fft : Int
  fp4 : K
  cut : Int
  cs : Int

/-- sh.py 253-330 and 352-366: from the internal resolution to the sizes of the FFT and of the cut. -/
def shGeom (p : ShIn K) (res : K) : Option (ShGeom K) :=
  let scale := roundEvenF (p.turb / res)
  let fftPx := p.lam / (p.efSize * p.pitch * scale / p.n)
  let fovPix := roundEvenF (p.pxscale * p.npx / fftPx / 2) * 2
  let turbPix := truncInt (scale * p.npSub)
  let ratio : K := if 0 < turbPix then (fovPix : K) / turbPix else 1
  let needed := max 1 (max ratio p.coeff)
  let finalSize := ⌈p.efSize * needed / (2 * (p.n : K))⌉ * (2 * (p.n : Int))
  let ovs := (finalSize : K) / p.efSize
  let pxscale := fovPix * fftPx / p.npx
  let np := roundEvenF (p.efSize * ovs * (2 / (p.n : K)) * (1 / 2))
  let fft := np * scale
  let perSub := p.efSize * ovs * (2 / (p.n : K))
  if 1 / 10000 < |perSub / 2 - roundEvenF (perSub / 2)| then none
  else
    let fp4 := p.lam / (p.pitch / ovs * fft)
    let fovCut := fft * fp4 - pxscale * p.npx
    let cut := truncInt ((roundEvenF (fovCut / fp4) : K) / 2 * 2)
    some ⟨scale, fftPx, fovPix, finalSize, ovs, pxscale, np, fft, fp4, cut, fft - cut⟩

end

/-- `int(in_ef.size[0] * self._fov_ovs)` with the rounding of double precision, sh.py 542 and 560: number of rows and columns of
the interpolated field. -/
def shOvsSize (efSize finalSize : Nat) : Int := ⌊fl 53 ((efSize : ℚ) * fl 53 ((finalSize : ℚ) / efSize))⌋

section
variable {K E : Type} [Field K] [LinearOrder K]

/-- Integer part of the geometry, as used by `trigger_code`. -/
structure ShDims where
  n : Nat
  np : Nat
  fft : Nat
  cut : Nat
  npx : Nat

/-- `_cutsize`, sh.py 366. -/
def ShDims.cs (d : ShDims) : Nat := d.fft - d.cut

/-- Element `[j, u, v]` of `ef_row.reshape(np, n, np).swapaxes(0, 1)`, sh.py 462, for a row of `w` columns. -/
def subapCube (d : ShDims) (w : Nat) (row : Nat → Nat → E) (j u v : Nat) : E :=
  let k := (u * d.n + j) * d.np + v
  row (k / w) (k % w)

/-- Rows (and columns) of the view `psf[:, cut//2 : -cut//2, ...]`, or of the whole frame when nothing is cut, sh.py 493-497. -/
def cutLen (d : ShDims) : Nat :=
  if 0 < d.cut then ((d.fft : Int) + (-(d.cut : Int)) / 2 - d.cut / 2).toNat else d.fft

/-- First row of the view. -/
def cutStart (d : ShDims) : Nat := if 0 < d.cut then d.cut / 2 else 0

/-- Element `[u, x]` of `psf_cut_view.swapaxes(0, 1).reshape(-1, n * cutsize)`, sh.py 502. -/
def rowOfSpots (d : ShDims) (view : Nat → Nat → Nat → K) (u x : Nat) : K :=
  let k := u * (d.n * d.cs) + x
  let l := cutLen d
  view (k / l % d.n) (k / (d.n * l)) (k % l)

/-- One iteration of the loop of sh.py 454-505: the rows of the image that hold the spots of the lenslets of row `i`. -/
def shRow (d : ShDims) (spot : Nat → Nat → (Nat → Nat → E) → Nat → Nat → K) (f : Img E) (i : Nat) : Nat → Nat → K :=
  let cube := subapCube d f.cols (fun u v => f.px (i * d.np + u) v)
  rowOfSpots d fun j u v => spot i j (cube j) (cutStart d + u) (cutStart d + v)

/-- `_psfimage` after the loop over the rows of lenslets from `a` to `b`, sh.py 454-505: `none` when the field has not the right
number of rows and columns for the slices and the reshapes. -/
def shImage (d : ShDims) (spot : Nat → Nat → (Nat → Nat → E) → Nat → Nat → K) (a b : Nat) (f : Img E) : Option (Img K) :=
  if (∀ i < b, a ≤ i → (i + 1) * d.np ≤ f.rows) ∧ (a < b → d.np * f.cols = d.np * d.n * d.np ∧
      cutLen d * d.n * cutLen d = d.cs * (d.n * d.cs)) then
    some ⟨d.cs * d.n, d.cs * d.n, fun y x => if a ≤ y / d.cs ∧ y / d.cs < b then shRow d spot f (y / d.cs) (y % d.cs) x else 0⟩
  else none

/-- `trigger_code`, sh.py 450-511: `out_i` before normalisation. -/
def shRaw (d : ShDims) (eps : K) (spot : Nat → Nat → (Nat → Nat → E) → Nat → Nat → K) (a b : Nat) (f : Img E) : Option (Img K) :=
  (shImage d spot a b f).bind fun im => toccd eps im (d.npx * d.n) (d.npx * d.n) none

/-- Normalisation to the number of photons, sh.py 516-519 and distributed_sh.py 133-136. -/
def toPhotons (phot : K) (im : Img K) : Option (Img K) :=
  if im.total = 0 then none else some ⟨im.rows, im.cols, fun i j => im.px i j * (phot / im.total)⟩

/-- Output of `SH`. -/
def shOut (d : ShDims) (eps phot : K) (spot : Nat → Nat → (Nat → Nat → E) → Nat → Nat → K) (f : Img E) : Option (Img K) :=
  (shRaw d eps spot 0 d.n f).bind (toPhotons phot)

/-- Rows of lenslets per device, distributed_sh.py 43. -/
def perSlice (d : ShDims) (slices : Nat) : Nat := d.n / slices

/-- Output of `DistributedSH`, distributed_sh.py 51-53 and 126-136: each hidden sensor computes its rows of lenslets, of which the
rows of pixels are copied. -/
def distributedOut (d : ShDims) (eps phot : K) (spot : Nat → Nat → (Nat → Nat → E) → Nat → Nat → K) (slices : Nat) (f : Img E) :
    Option (Img K) :=
  if ∀ k < slices, (shRaw d eps spot (k * perSlice d slices) ((k + 1) * perSlice d slices) f).isSome then
    toPhotons phot ⟨d.npx * d.n, d.npx * d.n, fun y x =>
      let k := y / (d.npx * perSlice d slices)
      if k < slices then
        match shRaw d eps spot (k * perSlice d slices) ((k + 1) * perSlice d slices) f with
        | some r => r.px y x
        | none => 0
      else 0⟩
  else none

end

end Specula
