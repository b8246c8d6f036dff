import Mathlib.Analysis.SpecialFunctions.Pow.Real
import Mathlib.Analysis.SpecialFunctions.Log.Base
import Mathlib.Analysis.SpecialFunctions.Complex.Circle
/-
Model of the computation of a phase screen, `specula/lib/calc_phasescreen.py` and `specula/lib/calc_spatialfrequency.py`.

Numbers are real and complex.  Arrays are functions of the indexes; slices assigned one after the other are read from the last to the first.  The random
numbers are a parameter.  Not modelled: precision, the printed messages.  The dimension is a power of two from two on.
-/
namespace Specula

noncomputable section

open Finset

/-! ### Dimension and draws -/

/-- The dimension used, calc_phasescreen.py 11-15: `ceil(log2(dimension))`. -/
def screenDim (dimension : ℕ) : ℕ := 2 ^ ⌈Real.logb 2 dimension⌉₊

/-- Box and Muller, calc_phasescreen.py 36-40: not finite when the first number is zero. -/
def boxMuller (u v : ℝ) : Option ℝ := if u = 0 then none else some (√(-2 * Real.log u) * Real.cos (2 * Real.pi * v))

/-- The draws that are not finite are replaced with the mean of the others, calc_phasescreen.py 43-59; `none` if they are more than one in a hundred. -/
def patchDraws (rows cols : ℕ) (g : ℕ → ℕ → Option ℝ) : Option (ℕ → ℕ → ℝ) :=
  let bad := ((range rows ×ˢ range cols).filter fun p => (g p.1 p.2).isNone).card
  let fin := (range rows ×ˢ range cols).filter fun p => (g p.1 p.2).isSome
  if bad = 0 then some fun a b => (g a b).getD 0
  else if (bad : ℝ) > 0.01 * (rows * cols : ℕ) then none
  else some fun a b => (g a b).getD ((∑ p ∈ fin, (g p.1 p.2).getD 0) / fin.card)

/-! ### Spatial frequency -/

/-- `temp_matrix`, calc_spatialfrequency.py 22-27. -/
def quarterFreq (a b : ℕ) : ℝ := (a : ℝ) ^ 2 + (b : ℝ) ^ 2

/-- `np.rot90(m, k)` of a square of side `n`. -/
def rotOne (n : ℕ) (m : ℕ → ℕ → ℝ) (i j : ℕ) : ℝ := m j (n - 1 - i)
def rotTwo {K : Type} (rows cols : ℕ) (m : ℕ → ℕ → K) (i j : ℕ) : K := m (rows - 1 - i) (cols - 1 - j)
def rotThree (n : ℕ) (m : ℕ → ℕ → ℝ) (i j : ℕ) : ℝ := m (n - 1 - j) i

/-- `calc_spatialfrequency(2 h)`, calc_spatialfrequency.py 20-36. -/
def spatialFreq (h i j : ℕ) : ℝ :=
  if h - 1 ≤ i ∧ j < h then rotThree (h + 1) quarterFreq (i - (h - 1)) (j + 1)
  else if i < h ∧ h - 1 ≤ j then rotOne (h + 1) quarterFreq (i + 1) (j - (h - 1))
  else if i < h ∧ j < h then rotTwo (h + 1) (h + 1) quarterFreq (i + 1) (j + 1)
  else if h - 1 ≤ i ∧ h - 1 ≤ j then quarterFreq (i - (h - 1)) (j - (h - 1))
  else 0

/-! ### Noise -/

/-- The noise matrix, calc_phasescreen.py 69-79; `g` is `re_gauss + 1j * im_gauss`, of `h + 1` rows and `2 h + 1` columns. -/
def noiseMat (h : ℕ) (g : ℕ → ℕ → ℂ) (i j : ℕ) : ℂ :=
  if j = 2 * h - 1 then 0
  else if i = 2 * h - 1 then 0
  else if i = h ∧ h ≤ j then starRingEnd ℂ (g h (j - h))
  else if i = h then g 0 (j + 1)
  else if i < h - 1 then starRingEnd ℂ (rotTwo (h + 1) (2 * h + 1) g (i + 1) (j + 1))
  else if h ≤ i then g (i - h + 1) (j + 1)
  else 0

/-- The factor of the spectrum, calc_phasescreen.py 86-90; `s` is the square of the frequency in pixels. -/
def screenWeight (L0 pitch : ℝ) (dim : ℕ) (s : ℝ) : ℝ :=
  let m := dim * pitch
  (s / m ^ 2 + 1 / L0 ^ 2) ^ (-11 / 12 : ℝ) *
    (√(0.033 / 2 / m ^ 2) * (2 * Real.pi) ^ (2 / 3 : ℝ) * √0.06 * (1 / pitch) ^ (5 / 6 : ℝ))

/-! ### Transform -/

/-- `np.roll(x, (s, s), axis=(0, 1))` -/
def roll2 (dim : ℕ) (s : ℤ) (x : ℕ → ℕ → ℂ) (i j : ℕ) : ℂ := x (((i : ℤ) - s) % dim).toNat (((j : ℤ) - s) % dim).toNat

/-- `np.fft.ifft2(x, norm='forward')`: the sum without factor. -/
def ifft2Forward (dim : ℕ) (x : ℕ → ℕ → ℂ) (r c : ℕ) : ℂ :=
  ∑ k ∈ range dim, ∑ l ∈ range dim, x k l * Complex.exp (2 * Real.pi * Complex.I * (k * r + l * c) / dim)

/-- `calc_phasescreen` of dimension `2 h`, calc_phasescreen.py 61-98. -/
def phaseScreen (h : ℕ) (L0 pitch : ℝ) (g : ℕ → ℕ → ℂ) (r c : ℕ) : ℝ :=
  let x := fun i j => noiseMat h g i j * (screenWeight L0 pitch (2 * h) (spatialFreq h i j) : ℂ)
  let y := ifft2Forward (2 * h) (roll2 (2 * h) (-(h : ℤ) + 1) x)
  (roll2 (2 * h) ((h : ℤ) - 1) y r c).re

end

end Specula
