import Verif.Model.Filter
import Mathlib.Analysis.Complex.Polynomial.Basic
/-
Model of the stability analysis of `specula/data_objects/iir_filter_data.py`: `closed_loop_denominator` (404-424), `is_stable` (426-479),
`_compute_max_stable_gain_internal` (481-534), and of the closed loop that it is about.

`np.roots` is the exact multiset of the complex roots (of the zero polynomial: none, as in numpy).  Numbers are real.  Not modelled: the
caching, the verbose output, exceptions inside `np.roots` (they count as unstable), the plant given by `dm`, `nw`, `dw` in `max_stable_gain`
(it only changes the two lists of the plant).
-/
namespace Specula

noncomputable section

/-- `np.convolve(a, b)` (full). -/
def convolve (a b : List ℝ) : List ℝ :=
  (List.range (a.length + b.length - 1)).map fun k => ∑ i ∈ Finset.range (k + 1), a.getD i 0 * b.getD (k - i) 0

/-- `np.pad(a, (0, n - len(a)))`; nothing to add if `a` is not shorter. -/
def padTo (n : Nat) (a : List ℝ) : List ℝ := a ++ List.replicate (n - a.length) 0

/-- `closed_loop_denominator`, iir_filter_data.py 404-424. -/
def closedLoopDen (cNum cDen pNum pDen : List ℝ) : List ℝ :=
  let pNum := if pNum.length < pDen.length then padTo pDen.length pNum else pNum
  let cpNum := convolve cNum pNum
  let cpDen := convolve cDen pDen
  let n := max cpNum.length cpDen.length
  List.zipWith (· + ·) (padTo n cpDen) (padTo n cpNum)

/-- The polynomial with coefficients `l`, lowest order first. -/
def polyOf (l : List ℝ) : Polynomial ℂ := ∑ i ∈ Finset.range l.length, Polynomial.monomial i ((l.getD i 0 : ℝ) : ℂ)

/-- `np.roots(l[::-1])` -/
def npRoots (l : List ℝ) : Multiset ℂ := (polyOf l).roots

/-- `is_stable`, iir_filter_data.py 452-474, on the closed loop denominator. -/
def stableDen (l : List ℝ) : Prop := 1 < l.length ∧ ∀ z ∈ npRoots l, ‖z‖ < 1

/-- `is_stable` of one filter with the given plant. -/
def isStable (c p : IirCoef ℝ) : Prop := stableDen (closedLoopDen c.num c.den p.num p.den)

/-- `np.linspace(a, b, n)` -/
def linspace (a b : ℝ) (n : Nat) : List ℝ := (List.range n).map fun i : ℕ => a + i * ((b - a) / ((n - 1 : ℕ) : ℝ))

/-- The controller of the loop with a gain, iir_filter_data.py 512-513. -/
def withGain (c : IirCoef ℝ) (gain : ℝ) : IirCoef ℝ := ⟨c.num.map fun a => a / c.num.getLastD 0 * gain, c.den⟩

/-- The loop over the gains, iir_filter_data.py 510-532: it stops at the first unstable gain. -/
def scanGains (ok : ℝ → Bool) : List ℝ → ℝ → ℝ
  | [], best => best
  | g :: gs, best => if ok g then scanGains ok gs g else best

open Classical in
/-- `_compute_max_stable_gain_internal` with `delay` given, iir_filter_data.py 481-534. -/
def maxStableGain (c : IirCoef ℝ) (delay : ℚ) (tolerance maxGain : ℝ) (nGain : Nat) : ℝ :=
  scanGains (fun g => isStable (withGain c g) (delayTf delay)) (linspace tolerance maxGain nGain) 0

/-! ### The loop

One mode with a perfect sensor: the residual is the disturbance minus the command in `out_comm` of the iteration before (the mirror is read with
delay -1, as in the closed loop parameter files), the controller is an `IirFilter` (iir_filter.py 73-102) with the delay `d` of base_filter.py. -/

structure LoopState where
  iir : IirState ℝ
  buf : List ℝ
  held : ℝ

def LoopState.init (c : IirCoef ℝ) (d : ℚ) : LoopState := ⟨IirState.init c, List.replicate (bufLen d) 0, 0⟩

/-- The residual of the iteration. -/
def loopError (w : ℝ) (s : LoopState) : ℝ := w - s.held

/-- One iteration: `IirFilter.trigger_code` and `BaseFilter.post_trigger`. -/
def loopIter (c : IirCoef ℝ) (d : ℚ) (w : ℝ) (s : LoopState) : LoopState :=
  let r := iirStep c true 1 (loopError w s) s.iir
  let buf := delayStep d r.2 s.buf
  ⟨r.1, buf, delayOutput d buf⟩

def loopState (c : IirCoef ℝ) (d : ℚ) (w : ℕ → ℝ) : ℕ → LoopState
  | 0 => LoopState.init c d
  | n + 1 => loopIter c d (w n) (loopState c d w n)

/-- The residual at iteration `n`. -/
def loopResidual (c : IirCoef ℝ) (d : ℚ) (w : ℕ → ℝ) (n : ℕ) : ℝ := loopError (w n) (loopState c d w n)

/-- The command applied at iteration `n`. -/
def applied (c : IirCoef ℝ) (d : ℚ) (w : ℕ → ℝ) (n : ℕ) : ℝ := (loopState c d w n).held

end

end Specula
