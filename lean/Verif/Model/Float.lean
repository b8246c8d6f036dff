import Mathlib.Data.Int.Log
import Mathlib.Data.Rat.Floor
import Mathlib.Algebra.Order.Field.Rat
/-
Model of binary floating point rounding and of the conversions between seconds and ticks, `specula/base_time_obj.py` 20, 72-76.

Floating point numbers are the rational numbers they stand for.  Rounding is to nearest, ties to even, with a significand of
`p` bits (53 for a Python float) and without bounds on the exponent: underflow and overflow are not modelled (durations between
10^-9 s and 10^7 s are far from both).  Only numbers that are not negative are covered.  The decimal rounding `round(x, 9)` of
Python is correctly rounded: the nearest multiple of 10^-9 to the exact value of `x`, ties to even, converted back to the nearest
floating point number.
-/
namespace Specula

/-- The nearest integer, ties to even. -/
def roundEven (x : ℚ) : Int :=
  let f := ⌊x⌋
  if x - f < 1 / 2 then f
  else if x - f > 1 / 2 then f + 1
  else if f % 2 = 0 then f else f + 1

/-- Unit in the last place of a positive number. -/
def ulp (p : Nat) (x : ℚ) : ℚ := (2 : ℚ) ^ (Int.log 2 x + 1 - (p : Int))

/-- The nearest floating point number with a significand of `p` bits. -/
def fl (p : Nat) (x : ℚ) : ℚ := if x = 0 then 0 else roundEven (x / ulp p x) * ulp p x

/-- `round(x, 9)`. -/
def round9 (x : ℚ) : ℚ := fl 53 (roundEven (x * 10 ^ 9) / 10 ^ 9)

/-- `BaseTimeObj.seconds_to_t`, base_time_obj.py 75-76; `int` is the floor on numbers that are not negative. -/
def secondsToT (s : ℚ) : Int := ⌊fl 53 (round9 s * 10 ^ 9)⌋

/-- `BaseTimeObj.t_to_seconds`, base_time_obj.py 72-73. -/
def tToSeconds (t : Nat) : ℚ := fl 53 (fl 53 t / 10 ^ 9)

end Specula
