import Verif.Model.PyrProp
/-
Sensors derived from the pyramid: the Zernike sensor, zernike_sensor.py, and the double roof, modulated_double_roof.py (C98).

Exact arithmetic, as in `PyrProp`.  `rot90` of numpy and cupy is a view: the second roof of the double roof shares the memory of the first.
-/
namespace Specula
open Finset

/-! ### Zernike sensor -/

open Classical in
/-- `get_pyr_tlt`, zernike_sensor.py 59-76: `radius` in wavelengths over the diameter, `shift` in units of π. -/
noncomputable def spotTlt (p c : ℕ) (radius shift : ℝ) (k l : ℕ) : ℝ :=
  let A := (p + c) / 2
  let xx : ℝ := (k : ℝ) - A
  let yy : ℝ := (l : ℝ) - A
  let r := radius * (1 + (c : ℝ) / p)
  let rr := Real.sqrt ((xx + 0.5) ^ 2 + (yy + 0.5) ^ 2)
  if rr < r then shift / 2 else 0

/-- The image, zernike_sensor.py 26-43: one step without modulation. -/
noncomputable def spotPupils (p c : ℕ) (radius shift : ℝ) (mask : ℕ → ℕ → ℝ) (u : ℕ → ℕ → ℂ) : ℕ → ℕ → ℝ :=
  pyrPupils p c (pyrExp (spotTlt p c radius shift) mask) u 1 (circlePoint 0 1) (fluxFactor .circular 0 1)

/-! ### Double roof -/

/-- `roof1_tlt` before the tilt, modulated_double_roof.py 115-119. -/
noncomputable def roofBase (A : ℕ) (_y x : ℕ) : ℝ := if x < A then (A : ℝ) - 1 - x else (x : ℝ) - A

/-- `rot90` of a square array of side `n`: element of the view. -/
def rot90 {K : Type} (n : ℕ) (m : ℕ → ℕ → K) (i j : ℕ) : K := m j (n - 1 - i)

/-- `v += b` where `v` is the view `rot90(m)`: the array `m` afterwards. -/
noncomputable def addThroughView (n : ℕ) (m b : ℕ → ℕ → ℝ) (y x : ℕ) : ℝ := m y x + b (n - 1 - x) y

/-- The memory of the two roofs, modulated_double_roof.py 117-128; without defects of edges and tip (130-151). -/
noncomputable def roofMemory (A : ℕ) : ℕ → ℕ → ℝ :=
  let r1 := fun y x => roofBase A y x + ((A : ℝ) - 1 - 0.5 * y)
  addThroughView (2 * A) r1 fun _ j => (A : ℝ) - 1 - 0.5 * j

/-- `self.roof1_tlt`, modulated_double_roof.py 154. -/
noncomputable def roof1Tlt (A : ℕ) (scale : ℝ) (k l : ℕ) : ℝ := roofMemory A k l / scale

/-- `self.roof2_tlt`, modulated_double_roof.py 122, 155. -/
noncomputable def roof2Tlt (A : ℕ) (scale : ℝ) (k l : ℕ) : ℝ := rot90 (2 * A) (roofMemory A) k l / scale

/-- `pup_pyr_tot`, modulated_double_roof.py 87-93, 161-189, 193, 198-228. -/
noncomputable def roofPupils (p c : ℕ) (scale : ℝ) (mask : ℕ → ℕ → ℝ) (u : ℕ → ℕ → ℂ) (m : ℕ) (pts : ℕ → ℝ × ℝ) (w : ℕ → ℝ) (i j : ℕ) : ℝ :=
  let A := (p + c) / 2
  let one := pyrPupils p c (pyrExp (roof1Tlt A scale) mask) u m pts w
  let two := pyrPupils p c (pyrExp (roof2Tlt A scale) mask) u m pts w
  one i j + rot90 (p + c) two i j

/-- `psf_bfm`, modulated_double_roof.py 13-15, 172-183, 191, 195: the intensity is added for both roofs. -/
noncomputable def roofPsf (p c : ℕ) (u : ℕ → ℕ → ℂ) (m : ℕ) (pts : ℕ → ℝ × ℝ) (w : ℕ → ℝ) : Img ℝ :=
  ⟨p + c, p + c, fun k l => accumulate m w (fun t k l =>
    Complex.normSq (pyrFocal p c u (pts t) (fftshiftIdx (p + c) k) (fftshiftIdx (p + c) l)) +
      Complex.normSq (pyrFocal p c u (pts t) (fftshiftIdx (p + c) k) (fftshiftIdx (p + c) l))) k l⟩

/-- `transmission`, modulated_double_roof.py 192, 196. -/
noncomputable def roofThrough (p c : ℕ) (mask : ℕ → ℕ → ℝ) (u : ℕ → ℕ → ℂ) (m : ℕ) (pts : ℕ → ℝ × ℝ) (w : ℕ → ℝ) : ℝ :=
  pyrTransmission (roofPsf p c u m pts w) mask

end Specula
