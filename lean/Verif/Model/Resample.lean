import Verif.Model.Float
import Mathlib.Algebra.BigOperators.Intervals
import Mathlib.Algebra.Order.Field.Basic
import Mathlib.Algebra.Order.BigOperators.Group.Finset
/-
Model of image resampling.

* `specula/lib/rebin.py` 39-58 (`rebin2d`);
* `specula/lib/toccd.py` 16-30 (`gcd`, `lcm`), 57-85 (`toccd`, CPU branch).

Pixel values are in an ordered field, without rounding.  The coordinates computed by `numpy.mgrid` from a floating point step are
modelled with rounding (`fl 53`): a grid of slice `0:stop:step` has `ceil(stop / step)` elements, the i-th is `i * step`.
An exception is `none`.  The GPU branch is not modelled.  Images without pixels are not covered.
-/
namespace Specula

/-- A two dimensional array: shape and content (meaningful inside the shape). -/
structure Img (K : Type) where
  rows : Nat
  cols : Nat
  px : Nat → Nat → K

/-- Step of the sampling grid: `float(old)/new`, rebin.py 43. -/
def sampleStep (old new : Nat) : ℚ := fl 53 ((old : ℚ) / new)

/-- Number of elements of `mgrid[0:old:step]`, rebin.py 44. -/
def sampleSize (old new : Nat) : Nat := ⌈fl 53 ((old : ℚ) / sampleStep old new)⌉.toNat

/-- Element `i` of `mgrid[0:old:step].astype(int32)`, rebin.py 44. -/
def sampleIdx (old new i : Nat) : Nat := ⌊fl 53 ((i : ℚ) * sampleStep old new)⌋.toNat

/-- `toccd.gcd`, toccd.py 16-23. -/
def pyGcd (a b : Nat) : Nat := if _h : b = 0 then a else pyGcd b (a % b)
termination_by b
decreasing_by exact Nat.mod_lt _ (Nat.pos_of_ne_zero _h)

/-- `toccd.lcm`, toccd.py 26-30. -/
def pyLcm (a b : Nat) : Nat := (a * b) / pyGcd a b

section
variable {K : Type} [Field K]

/-- `rebin2d(..., sample=True)` once the shapes differ, rebin.py 42-45: divisions by zero and indices outside the array raise. -/
def rebinSample (a : Img K) (m n : Nat) : Option (Img K) :=
  if a.rows = 0 ∨ a.cols = 0 ∨ m = 0 ∨ n = 0 then none
  else if (∀ i < sampleSize a.rows m, sampleIdx a.rows m i < a.rows) ∧ (∀ j < sampleSize a.cols n, sampleIdx a.cols n j < a.cols) then
    some ⟨sampleSize a.rows m, sampleSize a.cols n, fun i j => a.px (sampleIdx a.rows m i) (sampleIdx a.cols n j)⟩
  else none

/-- The mean of blocks of `p` rows and `q` columns, rebin.py 54: `reshape((m, p, n, q)).mean(3).mean(1)`. -/
def blockMean (a : Img K) (p q i j : Nat) : K :=
  (∑ u ∈ Finset.range p, (∑ v ∈ Finset.range q, a.px (i * p + u) (j * q + v)) / q) / p

/-- `rebin2d(..., sample=False)` once the shapes differ, rebin.py 47-58. -/
def rebinMean (a : Img K) (m n : Nat) : Option (Img K) :=
  if m ≤ a.rows ∧ n ≤ a.rows then
    if m = 0 ∨ n = 0 then none
    else if a.rows % m ≠ 0 ∨ a.cols % n ≠ 0 then none
    else some ⟨m, n, blockMean a (a.rows / m) (a.cols / n)⟩
  else none

/-- `rebin2d`, rebin.py 39-58. -/
def rebin2d (a : Img K) (m n : Nat) (sample : Bool) : Option (Img K) :=
  if a.rows = m ∧ a.cols = n then some a
  else if sample then rebinSample a m n
  else rebinMean a m n

/-- Sum of all pixels. -/
def Img.total (a : Img K) : K := ∑ i ∈ Finset.range a.rows, ∑ j ∈ Finset.range a.cols, a.px i j

/-- `toccd`, toccd.py 57-85.  `eps` is the machine epsilon of the pixels. -/
def toccd [LinearOrder K] (eps : K) (a : Img K) (n0 n1 : Nat) (setTotal : Option K) : Option (Img K) :=
  if a.rows = n0 ∧ a.cols = n1 then some a
  else
    let total := setTotal.getD a.total
    let mcmx := pyLcm a.rows n0
    let mcmy := pyLcm a.cols n1
    (rebin2d a mcmx a.cols true).bind fun t1 =>
    (rebin2d t1 n0 a.cols false).bind fun t2 =>
    (rebin2d t2 n0 mcmy true).bind fun t3 =>
    (rebin2d t3 n0 n1 false).bind fun r =>
    let s := max r.total eps
    some ⟨r.rows, r.cols, fun i j => r.px i j / s * total⟩

end

end Specula
