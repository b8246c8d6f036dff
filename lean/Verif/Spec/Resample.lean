import Mathlib.Algebra.Order.Field.Basic
import Mathlib.Algebra.BigOperators.Intervals
/-
Resampling by area, stated without common multiples: the field of view is the interval [0, 1] along each axis, cut in equal
pixels; the light of a pixel of the input is shared between the pixels of the output in proportion to the overlap.
-/
namespace Specula

variable {K : Type} [Field K] [LinearOrder K]

/-- Fraction of the input pixel `y` (of `o`) covered by the output pixel `x` (of `n`): length of the intersection of
`[y/o, (y+1)/o]` and `[x/n, (x+1)/n]` divided by the length of the first. -/
def pixelShare (o n y x : Nat) : K := max 0 (min (((y : K) + 1) / o) (((x : K) + 1) / n) - max ((y : K) / o) ((x : K) / n)) * o

/-- Light received by the output pixel `(i, j)` of a grid of `n0` by `n1` from an input of `o0` by `o1` pixels. -/
def areaResample (o0 o1 n0 n1 : Nat) (px : Nat → Nat → K) (i j : Nat) : K :=
  ∑ y ∈ Finset.range o0, ∑ x ∈ Finset.range o1, pixelShare o0 n0 y i * pixelShare o1 n1 x j * px y x

end Specula
