import Mathlib.Analysis.SpecialFunctions.Sqrt
import Verif.Model.Psf

/-!
# Vibrations from spectra

`specula/processing_objects/vibration_generator.py` and `psd_to_signal` of `specula/lib/utils.py` (lines 188-224). Exact arithmetic over the real and
complex numbers; the inverse FFT is the discrete Fourier transform it computes. The random generator is a parameter: a function of the seed, the
number of values asked for and the index. Exceptions are `none`.
-/

namespace Specula
open Finset

/-- `xp.linspace(a, b, n)[i]`. -/
noncomputable def linBins (a b : ℝ) (n i : ℕ) : ℝ := if n = 1 then a else a + i * ((b - a) / ((n - 1 : ℕ) : ℝ))

open Classical in
/-- `xp.interp(x, xp, fp)` with increasing abscissae, given as pairs. -/
noncomputable def interp1 : List (ℝ × ℝ) → ℝ → ℝ
  | [], _ => 0
  | [(_, p)], _ => p
  | (a, p) :: (b, q) :: l, x =>
    if x < b then (if x ≤ a then p else p + (q - p) / (b - a) * (x - a)) else interp1 ((b, q) :: l) x

/-- Modulus of the spectrum, utils.py 209-216: nothing at zero, then the roots of the spectrum times the step, then the same backwards without the
last. -/
noncomputable def specAmp (n : ℕ) (psd : ℕ → ℝ) (df : ℝ) (k : ℕ) : ℝ :=
  if k = 0 then 0 else if k ≤ n then Real.sqrt (psd (k - 1) * df) else Real.sqrt (psd (2 * n - 1 - k) * df)

/-- `temp`, utils.py 217-221, for the step `fs / n / 2` and the phases `ph`. -/
noncomputable def psdTemp (n : ℕ) (psd : ℕ → ℝ) (fs : ℝ) (ph : ℕ → ℝ) (t : ℕ) : ℂ :=
  let df := fs / n / 2
  ∑ k ∈ range (2 * n), (specAmp n psd df k : ℂ) * Complex.exp (Complex.I * (ph k : ℂ)) * twiddle (2 * n) (-((k : ℤ) * t))

/-- The two results of `psd_to_signal`, utils.py 222-224. -/
noncomputable def psdToSignal (n : ℕ) (psd : ℕ → ℝ) (fs : ℝ) (ph : ℕ → ℝ) (t : ℕ) : ℝ × ℝ := ((psdTemp n psd fs ph t).re, (psdTemp n psd fs ph t).im)

/-- The argument `freq`: one vector, or one per mode. -/
inductive FreqArg
  | one (f : List ℝ)
  | perMode (f : List (List ℝ))

/-- vibration_generator.py 65: half the number of samples. -/
def halfSamples (niter : ℕ) : ℕ := (niter + 1) / 2

/-- `psd_interp` of lines 71-72. -/
noncomputable def psdInterp (n : ℕ) (freq psd : List ℝ) (i : ℕ) : ℝ :=
  interp1 (freq.zip psd) (linBins (freq.headD 0) (freq.getLastD 0) n i)

/-- Vectors of frequencies of the modes, lines 50-55. -/
def freqRows (nmodes : ℕ) : FreqArg → List (List ℝ)
  | .one f => List.replicate nmodes f
  | .perMode fs => fs.take nmodes

/-- Lines 76-77. -/
noncomputable def startFrom (fromZero : Bool) (temp : ℕ → ℝ) (t : ℕ) : ℝ := if fromZero then temp t - temp 0 else temp t

/-- `get_vibrations_time_hist`, lines 45-80: sample and mode. -/
noncomputable def vibHist (rng : ℕ → ℕ → ℕ → ℝ) (nmodes : ℕ) (psd : List (List ℝ)) (freq : FreqArg) (seed : ℕ) (fs : ℝ) (niter : ℕ) (fromZero : Bool) :
    Option (ℕ → ℕ → ℝ) :=
  let psds := psd.take nmodes
  let freqs := freqRows nmodes freq
  if psds.length < nmodes then none
  else if freqs.length < nmodes then none
  else
    let n := halfSamples niter
    if ((List.range nmodes).any (fun i => decide ((freqs.getD i []).length ≠ (psds.getD i []).length ∨ (freqs.getD i []) = [] ∨ n = 0))) then none
    else some (fun t i => startFrom fromZero (fun t => (psdToSignal n (psdInterp n (freqs.getD i []) (psds.getD i [])) fs (rng (seed + i) (2 * n)) t).1) t)

/-- `trigger_code`, lines 136-141: sample number `iter`, the last one beyond the end. -/
noncomputable def vibOutput (hist : ℕ → ℕ → ℝ) (niter iter i : ℕ) : ℝ :=
  if iter < 2 * halfSamples niter then hist iter i else hist (2 * halfSamples niter - 1) i

end Specula
