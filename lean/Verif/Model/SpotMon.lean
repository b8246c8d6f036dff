import Mathlib.Analysis.Real.Sqrt
import Mathlib.Data.List.Sort
import Mathlib.Analysis.SpecialFunctions.Pow.Real
import Mathlib.Algebra.BigOperators.Group.Finset.Basic
/-
Model of the monitor of the spots of a Shack-Hartmann sensor (`specula/processing_objects/spot_monitor.py`), of the calibrator of slope nulls
(`specula/processing_objects/sn_calibrator.py`) and of the times at which values are printed (`specula/processing_objects/data_print.py`).

The numbers are real.  The fit (astropy's Levenberg-Marquardt) is arbitrary: it raises, or gives parameters and says whether it converged.
Not modelled: the rounding to the type of the pixels, the text printed, the tag and the file of the slope null.
-/
namespace Specula

/-! ### SpotMonitor -/

/-- `in_pixels[idx2d]` summed over the subapertures, spot_monitor.py 163-172 with `unravel_index_2d` of lib/utils.py 123-135.  A subaperture is
the function from its pixel to the index in the frame; an index after the frame raises. -/
noncomputable def spotSum (nr nc np : ℕ) (img : ℕ → ℕ → ℝ) (idxs : List (ℕ → ℕ)) : Option (ℕ → ℕ → ℝ) :=
  if ∀ f ∈ idxs, ∀ p, p < np * np → f p / nc < nr then
    some fun u v => (idxs.map fun f => img (f (u * np + v) / nc) (f (u * np + v) - f (u * np + v) / nc * nc)).sum
  else none

/-- The border: first row, last row, and the first and last column without their ends, spot_monitor.py 129-132. -/
def spotBorder (n : ℕ) : List (ℕ × ℕ) :=
  (List.range n).map (fun v => (0, v)) ++ (List.range n).map (fun v => (n - 1, v)) ++
    (List.range' 1 (n - 2)).map (fun u => (u, 0)) ++ (List.range' 1 (n - 2)).map (fun u => (u, n - 1))

/-- `xp.median`: the mean of the one or two values in the middle. -/
noncomputable def medianOf (l : List ℝ) : ℝ :=
  let s := l.insertionSort (· ≤ ·)
  (s.getD ((l.length - 1) / 2) 0 + s.getD (l.length / 2) 0) / 2

/-- `xp.max` of an image of `n` by `n` pixels. -/
noncomputable def spotMax (n : ℕ) (img : ℕ → ℕ → ℝ) : ℝ :=
  ((List.range (n * n)).map fun p => img (p / n) (p % n)).foldl max (img 0 0)

/-- The parameters of the model. -/
structure SpotFit where
  amp : ℝ
  x0 : ℝ
  y0 : ℝ
  gamma : ℝ
  alpha : ℝ
  sky : ℝ

/-- `_estimate_initials`, spot_monitor.py 114-138. -/
noncomputable def spotInit (n : ℕ) (gamma alpha : ℝ) (img : ℕ → ℕ → ℝ) : SpotFit :=
  let sky := medianOf ((spotBorder n).map fun q => img q.1 q.2)
  { amp := max (spotMax n img - sky) (1 / 10 ^ 6), x0 := ((n : ℝ) - 1) / 2, y0 := ((n : ℝ) - 1) / 2, gamma := gamma, alpha := alpha, sky := sky }

/-- `_moffat_fwhm`, spot_monitor.py 140-158; `1.0 / alpha` raises for zero.  Meant for positive `alpha`. -/
noncomputable def moffatFwhm (gamma alpha : ℝ) : Option ℝ :=
  if alpha = 0 then none else some (2 * gamma * Real.sqrt ((2 : ℝ) ^ (1 / alpha) - 1))

/-- `Const2D + Moffat2D` of astropy at the row `u` and the column `v` (`yy, xx = mgrid`, spot_monitor.py 176-191). -/
noncomputable def spotModel (f : SpotFit) (u v : ℝ) : ℝ :=
  f.sky + f.amp * (1 + ((v - f.x0) ^ 2 + (u - f.y0) ^ 2) / f.gamma ^ 2) ^ (-f.alpha)

/-- What the fit does. -/
inductive FitOut where
  | raised
  | done (converged : Bool) (f : SpotFit)

/-- The outputs; a `chi2` which is NaN is `none`. -/
structure SpotOut where
  sum : ℕ → ℕ → ℝ
  model : ℕ → ℕ → ℝ
  residual : ℕ → ℕ → ℝ
  par : SpotFit
  fwhm : ℝ
  chi2 : Option ℝ
  success : ℝ

/-- `np.mean(res_img**2)`, spot_monitor.py 201. -/
noncomputable def spotChi2 (n : ℕ) (res : ℕ → ℕ → ℝ) : ℝ :=
  (∑ u ∈ Finset.range n, ∑ v ∈ Finset.range n, res u v ^ 2) / ((n : ℝ) * n)

/-- The outputs after an exception, spot_monitor.py 218-226: `chi2` and `success` have the values they had then. -/
noncomputable def spotFailed (img : ℕ → ℕ → ℝ) (init : SpotFit) (chi2 : Option ℝ) (success : ℝ) : Option SpotOut :=
  (moffatFwhm init.gamma init.alpha).map fun w =>
    { sum := img, model := fun _ _ => 0, residual := fun _ _ => 0, par := init, fwhm := w, chi2 := chi2, success := success }

/-- `trigger_code`, spot_monitor.py 174-238, after the sum of the subapertures. -/
noncomputable def spotTrigger (n : ℕ) (img : ℕ → ℕ → ℝ) (init : SpotFit) (fit : FitOut) : Option SpotOut :=
  match fit with
  | .raised => spotFailed img init none 0
  | .done _ f =>
    let model : ℕ → ℕ → ℝ := fun u v => spotModel f u v
    let res : ℕ → ℕ → ℝ := fun u v => img u v - model u v
    match moffatFwhm f.gamma f.alpha with
    | some w => some { sum := img, model := model, residual := res, par := f, fwhm := w, chi2 := some (spotChi2 n res), success := 1 }
    | none => spotFailed img init (some (spotChi2 n res)) 1

/-! ### SnCalibrator -/

/-- `trigger_code`, sn_calibrator.py 51-56: the sum of the slopes and their number. -/
def snTrigger {ι : Type} (s : Option (ι → ℝ) × ℕ) (x : ι → ℝ) : Option (ι → ℝ) × ℕ :=
  (match s.1 with
    | none => some x
    | some a => some fun i => a i + x i, s.2 + 1)

/-- `finalize`, sn_calibrator.py 58-66, after the frames given: without a frame `self.slopes` is `None` and raises. -/
noncomputable def snNull {ι : Type} (xs : List (ι → ℝ)) : Option (ι → ℝ) :=
  let s := xs.foldl snTrigger (none, 0)
  s.1.map fun a i => a i / (s.2 : ℝ)

/-! ### DataPrint -/

/-- `trigger`, data_print.py 48-102: the last time printed, and the times printed. -/
def prtTrigger (dt : ℤ) (s : ℤ × List ℤ) (t : ℤ) : ℤ × List ℤ :=
  if dt ≤ t - s.1 then (t, s.2 ++ [t]) else s

/-- The times printed, `last_print_time` being `-print_dt` at first (36). -/
def prtRun (dt : ℤ) (ts : List ℤ) : ℤ × List ℤ := ts.foldl (prtTrigger dt) (-dt, [])

end Specula
