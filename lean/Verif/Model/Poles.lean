import Verif.Model.LoopTf
import Mathlib.Data.List.MinMax
/-
Model of `get_poles` (92-103), `set_poles` (147-157), `resonance_frequency` (607-675) and `stability_analysis` (677-742) of
`specula/data_objects/iir_filter_data.py`, for one filter.

Numbers are real, `np.roots` is exact.  `get_zeros` and `set_zeros` do the same with the numerator (except
that no roots, or only zeros, are not stored) and are not modelled.  Of the
array returned by `get_poles` only the entries that are filled are modelled, without their order.
-/
namespace Specula

noncomputable section

/-- `np.roots(l)`: the first coefficient is that of the highest order. -/
def npRootsHigh (l : List ℝ) : Multiset ℂ := npRoots l.reverse

open Classical in
/-- `get_poles` of a filter of order `ord`, iir_filter_data.py 96-102.  The array is real: imaginary parts are dropped.  An assignment of another
number of roots raises, but a single one is repeated. -/
def getPoles (ord : ℕ) (den : List ℝ) : Option (Multiset ℝ) :=
  if 1 < ord then
    let r := npRootsHigh (den.drop (den.length - ord))
    if r.card = ord - 1 then some (r.map fun x => x.re)
    else if r.card = 1 then some ((Multiset.replicate (ord - 1) r).join.map fun x => x.re)
    else none
  else some 0

/-- `np.poly(ps)`: highest order first. -/
def npPoly (ps : List ℝ) : List ℝ := ps.foldl (fun a p => convolve a [1, -p]) [1]

/-- `set_poles` of a filter of order one more than the number of poles, iir_filter_data.py 148-157: the new denominator. -/
def setPoles (ps : List ℝ) : List ℝ := npPoly ps

/-- The closed loop denominator at a frequency, iir_filter_data.py 630-666. -/
def denResponse (fs freq : ℝ) (c : IirCoef ℝ) (gainFactor : ℝ) (pNum pDen : List ℝ) : ℝ :=
  let x := freq / (fs / 2) * Real.pi
  ‖polyval (closedLoopDen (c.num.map fun a => a * gainFactor) c.den pNum pDen) (Complex.exp (Complex.I * x))‖

open Classical in
/-- `resonance_frequency`, iir_filter_data.py 668-675: frequency and amplitude. -/
def resonance (fs : ℝ) (freqs : List ℝ) (c : IirCoef ℝ) (gainFactor : ℝ) (pNum pDen : List ℝ) : Option (ℝ × ℝ) :=
  (freqs.argmin fun f => denResponse fs f c gainFactor pNum pDen).map fun f => (f, 1 / denResponse fs f c gainFactor pNum pDen)

/-- `stability_analysis` for a delay, iir_filter_data.py 695-707; `maxStable` is the result of `max_stable_gain`. -/
def analysisResonance (fs : ℝ) (freqs : List ℝ) (c : IirCoef ℝ) (delay : ℚ) (maxStable : ℝ) : Option (ℝ × ℝ) :=
  if 0 < maxStable then resonance fs freqs c (maxStable * (99 / 100)) (delayTf delay).num (delayTf delay).den else some (0, 0)

end

end Specula
