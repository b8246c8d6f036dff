import Verif.Model.Demod
import Mathlib.Analysis.Real.Sqrt
/-
Model of `specula/lib/calc_noise_cov_elong.py`: inverse of the covariance of the noise of elongated spots.

Numbers are real.  Modelled: geometry (65-84, 160-178), the diagonal matrix (195-241) and the full matrix (243-341).  The elongations and the fluxes found by
fitting the images of the spots (86-157) are given numbers.  `numpy.argsort` is any list of the indices in order of distance.  Not modelled: plots, conversions.
-/
namespace Specula

/-! ### Geometry -/

/-- Coordinates of a sub-aperture from the launcher, calc_noise_cov_elong.py 71-84. -/
noncomputable def elongCoord (diameter : ℝ) (n : ℕ) (launcher : ℝ × ℝ) (idx : ℕ) : ℝ × ℝ :=
  let y := ((idx / n : ℕ) : ℝ)
  let x := ((idx % n : ℕ) : ℝ)
  ((x - (n : ℝ) / 2) * (diameter / n) - launcher.1, (y - (n : ℝ) / 2) * (diameter / n) - launcher.2)

/-- Airmass, 66. -/
noncomputable def elongAirmass (zenith : ℝ) : ℝ := 1 / Real.cos (zenith / 180 * Real.pi)

/-- `rad2arcsec`, 65. -/
noncomputable def elongArcsec : ℝ := 3600 * 360 / (2 * Real.pi)

/-- `beta1` and `beta2` from the geometry, 163-168, for one coordinate; altitude and thickness along the line of sight. -/
noncomputable def elongBeta (h thick x : ℝ) : ℝ := (arctan2 (h - thick / 2) x - arctan2 (h + thick / 2) x) * elongArcsec

/-- Both elongations of a sub-aperture, 66-68 and 163-168. -/
noncomputable def elongGeom (diameter : ℝ) (n : ℕ) (launcher : ℝ × ℝ) (zenith h thick : ℝ) (idx : ℕ) : ℝ × ℝ :=
  let c := elongCoord diameter n launcher idx
  (elongBeta (h * elongAirmass zenith) (thick * elongAirmass zenith) c.1, elongBeta (h * elongAirmass zenith) (thick * elongAirmass zenith) c.2)

/-! ### Truncated sub-apertures -/

/-- `int(t_g_parameter * n)`, 203 and 250, when positive. -/
noncomputable def elongCount (tg : ℝ) (n : ℕ) : ℕ := if tg > 0 then ⌊tg * n⌋.toNat else 0

/-- The indices that are not truncated and those that are, 202-210 and 249-256, from the indices in order of distance. -/
noncomputable def elongSplit (tg : ℝ) (n : ℕ) (sorted : List ℕ) : List ℕ × List ℕ :=
  if tg > 0 then (sorted.take (n - elongCount tg n), (sorted.drop (n - elongCount tg n)).take (elongCount tg n)) else (List.range n, [])

/-- Distance used for the order: full matrix, 247, and diagonal matrix, 200. -/
noncomputable def elongDist (coord : ℕ → ℝ × ℝ) (k : ℕ) : ℝ := max |(coord k).1| |(coord k).2|
noncomputable def elongDistDiag (n : ℕ) (coord : ℕ → ℝ × ℝ) (k : ℕ) : ℝ := |if k < n then (coord k).1 else (coord (k - n)).2|

/-! ### Matrices -/

/-- `m[i, j] = v`. -/
def setAt (m : ℕ → ℕ → ℝ) (i j : ℕ) (v : ℝ) : ℕ → ℕ → ℝ := fun a b => if a = i ∧ b = j then v else m a b

/-- `beta_tot`, 245. -/
noncomputable def elongTot (b1 b2 : ℕ → ℝ) (k : ℕ) : ℝ := Real.sqrt (b1 k ^ 2 + b2 k ^ 2)

/-- One step of the loop on sub-apertures not truncated, 284-310. -/
noncomputable def elongPlain (n : ℕ) (sn s2 : ℝ) (eta b1 b2 : ℕ → ℝ) (m : ℕ → ℕ → ℝ) (k : ℕ) : ℕ → ℕ → ℝ :=
  let f := 1 / sn * eta k / (1 + elongTot b1 b2 k ^ 2 / s2)
  let m := setAt m k k (f * (1 + b2 k ^ 2 / s2))
  let m := setAt m (n + k) (n + k) (f * (1 + b1 k ^ 2 / s2))
  let m := setAt m k (n + k) (f * (-b1 k * b2 k / s2))
  setAt m (n + k) k (f * (-b1 k * b2 k / s2))

/-- One step of the loop on truncated sub-apertures, 313-339. -/
noncomputable def elongTrunc (n : ℕ) (sn : ℝ) (eta b1 b2 : ℕ → ℝ) (m : ℕ → ℕ → ℝ) (k : ℕ) : ℕ → ℕ → ℝ :=
  let f := eta k / (sn * elongTot b1 b2 k ^ 2)
  let m := setAt m k k (f * b2 k ^ 2)
  let m := setAt m (n + k) (n + k) (f * b1 k ^ 2)
  let m := setAt m k (n + k) (f * (-b1 k * b2 k))
  setAt m (n + k) k (f * (-b1 k * b2 k))

/-- The full matrix, 243-341. -/
noncomputable def elongFull (n : ℕ) (sn fwhm tg : ℝ) (eta b1 b2 : ℕ → ℝ) (sorted : List ℕ) : ℕ → ℕ → ℝ :=
  let sp := elongSplit tg n sorted
  sp.2.foldl (elongTrunc n sn eta b1 b2) (sp.1.foldl (elongPlain n sn (fwhm ^ 2) eta b1 b2) fun _ _ => 0)

/-- The diagonal matrix, 195-241. -/
noncomputable def elongDiag (n : ℕ) (sn fwhm tg : ℝ) (b1 b2 : ℕ → ℝ) (sorted : List ℕ) : ℕ → ℕ → ℝ :=
  let s2 := fwhm ^ 2
  let diag := fun k => if k < n then 1 / sn * s2 / (s2 + b1 k ^ 2) else 1 / sn * s2 / (s2 + b2 (k - n) ^ 2)
  let tr := (elongSplit tg (2 * n) sorted).2
  fun r c => if r = c then (if r ∈ tr then diag r * (1 / 4) else diag r) else 0

end Specula
