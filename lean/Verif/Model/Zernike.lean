import Mathlib.Data.Nat.Sqrt
import Mathlib.Data.Rat.Floor

/-!
# Zernike indices (`specula/lib/zernike_generator.py`)

The library numbers Zernike polynomials with Noll's single index `j = 1, 2, …` and recovers
the radial degree with a double precision square root.  The square root is modelled with its
rounding, for any precision of `p` bits (numpy: `p = 53`).
-/

namespace Specula

/-- `np.sqrt(N)` for a positive integer `N` in binary floating point with `p` bits.
Correctly rounded (IEEE 754): with `4^e ≤ N < 4^(e+1)` the root lies in `[2^e, 2^(e+1))`
where consecutive values are `2^(e-p+1)` apart.  A root is never half way between two values,
so ties need no rule.  Used by `zernike_generator.py` line 420. -/
def flSqrt (p N : ℕ) : ℚ :=
  let e := Nat.log2 N / 2
  let s := p - 1 - e
  (((Nat.sqrt (4 * (N * 4 ^ s)) + 1) / 2 : ℕ) : ℚ) / 2 ^ s

/-- `ZernikeGenerator.radial_order` (zernike_generator.py lines 404-420):
`ceil(0.5 * (sqrt(8 j + 1) - 3))`.  The subtraction and the halving are exact in floating
point, because `3` is a multiple of the spacing of the root. -/
def radialOrder (p j : ℕ) : ℤ := ⌈(1 / 2 : ℚ) * (flSqrt p (8 * j + 1) - 3)⌉

/-- `ZernikeGenerator.degree` (zernike_generator.py lines 147-157).  `cn` is computed in
floating point from an integer; `n (n + 1) / 2` is exact. -/
def zernikeDegree (p j : ℕ) : ℤ × ℤ :=
  let n := radialOrder p j
  let cn := n * (n + 1) / 2 + 1
  let m := if n % 2 = 0 then ((j : ℤ) - cn + 1) / 2 * 2 else ((j : ℤ) - cn) / 2 * 2 + 1
  (n, m)

/-- The angular factor chosen by `ZernikeGenerator._polar` (zernike_generator.py lines
179-191). -/
inductive Angular where
  | constant
  | cosine (m : ℤ)
  | sine (m : ℤ)
deriving DecidableEq, Repr

/-- Radial degree and angular factor of mode `j` (zernike_generator.py lines 179-191): for
`m = 0` no angular factor, otherwise cosine for even and sine for odd `j`.  `none` is the
exception of `getZernike` for `index <= 0` (lines 257-258) and those of `_rnm_jacobi` for
invalid pairs (lines 162-166). -/
def zernikeMode (p j : ℕ) : Option (ℤ × Angular) :=
  let d := zernikeDegree p j
  if j = 0 then none
  else if (d.1 - d.2) % 2 ≠ 0 then none
  else if d.1 < |d.2| then none
  else if d.2 = 0 then some (d.1, .constant)
  else if j % 2 = 0 then some (d.1, .cosine d.2)
  else some (d.1, .sine d.2)

end Specula
