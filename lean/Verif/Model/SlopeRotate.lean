import Mathlib.Analysis.SpecialFunctions.Complex.Arg
/-
Model of `Slopes.rotate`, `specula/data_objects/slopes.py` 181-205, for one pair of slopes (the method acts on all pairs).

Numbers are real.  `numpy.arctan2(y, x)` is the argument of `x + i y` (zero at the origin).
-/
namespace Specula

/-- `Slopes.rotate(angle, flipx, flipy)` on one pair (x, y); the angle is in degrees. -/
noncomputable def rotateSlope (angle : ℝ) (flipx flipy : Bool) (s : ℝ × ℝ) : ℝ × ℝ :=
  let alpha := Complex.arg ⟨s.1, s.2⟩ + angle * Real.pi / 180
  let modulus := Real.sqrt (s.1 ^ 2 + s.2 ^ 2)
  let signx : ℝ := if flipx then -1 else 1
  let signy : ℝ := if flipy then -1 else 1
  (Real.cos alpha * modulus * signx, Real.sin alpha * modulus * signy)

end Specula
