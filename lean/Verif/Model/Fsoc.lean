import Verif.Model.EField
import Mathlib.Analysis.SpecialFunctions.Trigonometric.Arctan
import Mathlib.Analysis.SpecialFunctions.Log.Base
/-
Model of `specula/lib/fsoc_lib.py` (point ahead angle, effective wind, delays of uplink and downlink), of
`specula/processing_objects/power_loss.py` and of `specula/processing_objects/electric_field_reflection.py`.

Exact arithmetic over the reals, one layer at a time (the code works on arrays of layers).  Exceptions are `none`.  Not modelled:
the generation times, NaN and infinities.
-/
namespace Specula

/-- `speed_light`, fsoc_lib.py 14. -/
noncomputable def speedLight : ℝ := 299792458

/-- `calc_paa`, fsoc_lib.py 13-16: in arcseconds. -/
noncomputable def calcPaa (v : ℝ) : ℝ := 2 * (v / speedLight) * (3600 * 180 / Real.pi)

/-- `speed_at_layer`, fsoc_lib.py 40-42. -/
noncomputable def layerSpeed (h H v : ℝ) : ℝ := Real.tan (calcPaa v * (Real.pi / (3600 * 180))) * h / (H / speedLight)

/-- `effective_wind_1`, fsoc_lib.py 36-37 and 44; angles in degrees. -/
noncomputable def effWind1 (h ws wd H v od : ℝ) : ℝ := ws * Real.sin (wd * Real.pi / 180) + layerSpeed h H v * Real.sin (od * Real.pi / 180)

/-- `effective_wind_2`, fsoc_lib.py 45. -/
noncomputable def effWind2 (h ws wd H v od : ℝ) : ℝ := ws * Real.cos (wd * Real.pi / 180) + layerSpeed h H v * Real.cos (od * Real.pi / 180)

/-- `calc_effective_wind_speed`, fsoc_lib.py 46-49: speed and direction in degrees.  The direction is
`xp.arctan(effective_wind_1, effective_wind_2)`: the second argument of `arctan` is the array for the result. -/
noncomputable def effWind (h ws wd H v od : ℝ) : ℝ × ℝ :=
  (Real.sqrt (effWind1 h ws wd H v od ^ 2 + effWind2 h ws wd H v od ^ 2), Real.arctan (effWind1 h ws wd H v od) * 180 / Real.pi)

/-- `calc_timing_uplink_downlink`, fsoc_lib.py 64-70. -/
noncomputable def linkDelays (zenith H h : ℝ) : ℝ × ℝ :=
  let airmass := 1 / Real.cos (zenith / 180 * Real.pi)
  ((2 * H - h) * airmass / speedLight, h * airmass / speedLight)

/-- `PowerLoss`, power_loss.py 13-38: `receiver_diam` and `dx_sat_sq`.  `none`: ValueError. -/
noncomputable def mkPowerLoss (pixelPupil : ℕ) (pitch wavelengthNm : ℝ) (nd : ℤ) (dist diam : ℝ) : Option (ℝ × ℝ) :=
  if wavelengthNm ≤ 0 then none else if nd ≤ 0 then none else if dist ≤ 0 then none else if diam ≤ 0 then none
  else some (diam, wavelengthNm * 1e-9 * dist / (pixelPupil * nd * pitch))

/-- `PowerLoss.trigger_code`, power_loss.py 48-52. -/
noncomputable def powerLoss (o : ℝ × ℝ) (sr : ℝ) : ℝ := 10 * Real.logb 10 (sr / o.2 * o.1)

/-- `ElectricFieldReflection.setup`, electric_field_reflection.py 28-35: the output takes the size of the input.  The new field has
`S0 = 1` (constructor). -/
def reflectSetup (e : EF ℝ) : EF ℝ := efResize ⟨1, 1, fun _ _ => 1, fun _ _ => 0, 1⟩ e.cols e.rows

/-- `ElectricFieldReflection.trigger`, electric_field_reflection.py 37-44.  `none`: the shapes differ (for shapes with one row or column
the code would repeat it: not modelled). -/
def reflectTrigger (out e : EF ℝ) : Option (EF ℝ) :=
  if e.rows = out.rows ∧ e.cols = out.cols then some { out with A := e.A, phase := fun i j => -e.phase i j, S0 := e.S0 } else none

end Specula
