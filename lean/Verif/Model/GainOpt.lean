import Mathlib.Algebra.Order.Field.Basic
import Mathlib.Algebra.Order.Group.Unbundled.Abs
/-
Model of the gain optimisation and of the optical gain estimate:
* `specula/processing_objects/gain_optimizer.py` 100-112 (`prepare_trigger`), 114-127 (`trigger_code`), 129-190 (`_optimize_gains`),
  192-206 (`_calculate_pseudo_open_loop`), 264-272 and 302-305 (candidate gains and choice), 394-399 (`post_trigger`);
* `specula/processing_objects/optical_gain_estimator.py` 70-128.

Numbers are the elements of a linearly ordered field.  The maximum gains (`max_stable_gain` times `max_gain_factor`) are a
parameter; they depend on the filter only through its numerator divided by its gain, which `set_gain` does not change.  The
residual variance predicted for a gain from the history (PSD and rejection transfer function, 255-272) is an arbitrary function of
the pseudo open loop sequence.
-/
namespace Specula

section
variable {K : Type} [Field K] [LinearOrder K]

/-- Parameters of `GainOptimizer` for filters with `n` modes. -/
structure GainOpt (K : Type) (n : Nat) where
  optDt : Nat
  maxInc : K
  limitInc : Bool
  safety : K
  ngains : Nat
  gmax : Fin n → K
  /-- the sum of the residual PSD for a mode, its pseudo open loop sequence and a gain -/
  residual : Fin n → List K → K → K

/-- What a triggered iteration reads. -/
structure OptEvent (K : Type) (n : Nat) where
  time : Nat
  delta : Fin n → K
  comm : Fin n → K
  opticalGain : Option K

structure OptState (K : Type) (n : Nat) where
  deltaHist : List (Fin n → K)
  commHist : List (Fin n → K)
  ogHist : List K
  /-- `prev_optimized_gain` -/
  prev : Fin n → K
  /-- `optimized_gain` and its generation time -/
  out : Fin n → K
  outTime : Option Nat
  /-- the gains of the filter -/
  filterGain : Fin n → K

variable {n : Nat}

/-- The constructor, 65-76: the output starts from ones, the previous gain from the gain of the filter. -/
def OptState.init (g : Fin n → K) : OptState K n := ⟨[], [], [], g, fun _ => 1, none, g⟩

/-- `_calculate_pseudo_open_loop`, 192-206, for one mode. -/
def pseudoOpenLoop (delta comm : List K) : List K :=
  match delta with
  | [] => []
  | d :: ds => d :: List.zipWith (· + ·) comm ds

/-- `linspace(gmax/ngains, gmax, ngains)[i]`, line 264. -/
def candidateGain (gmax : K) (ngains i : Nat) : K :=
  gmax / ngains + i * ((gmax - gmax / ngains) / ((ngains : K) - 1))

/-- `argmin(totals)`, line 302: the first index of the minimum of `f` over `0 .. m`. -/
def argminUpTo (f : Nat → K) : Nat → Nat
  | 0 => 0
  | m + 1 => if f (m + 1) < f (argminUpTo f m) then m + 1 else argminUpTo f m

/-- `_optimize_single_mode`. -/
def optimalGain (p : GainOpt K n) (i : Fin n) (pol : List K) : K :=
  candidateGain (p.gmax i) p.ngains (argminUpTo (fun k => p.residual i pol (candidateGain (p.gmax i) p.ngains k)) (p.ngains - 1))

/-- Last two elements of a list, `(l[-1], l[-2])`. -/
def lastTwo (l : List K) : Option (K × K) :=
  match l.reverse with
  | a :: b :: _ => some (a, b)
  | _ => none

/-- The gains computed in `_optimize_gains`, 148-182. -/
def newGain (p : GainOpt K n) (prev : Fin n → K) (ogHist : List K) (opt : Fin n → K) : Fin n → K := fun i =>
  let g := opt i
  let g := if p.limitInc then prev i + p.maxInc * (g - prev i) else g
  let g := match lastTwo ogHist with
    | some (a, b) => g * (a / b)
    | none => g
  let g := g * p.safety
  min g (p.gmax i)

/-- `_optimize_gains`. -/
def optimizeGains (p : GainOpt K n) (st : OptState K n) : OptState K n :=
  if st.deltaHist.length < 2 then st
  else
    let opt := fun i => optimalGain p i (pseudoOpenLoop (st.deltaHist.map (· i)) (st.commHist.map (· i)))
    let g := newGain p st.prev st.ogHist opt
    { st with prev := g, out := g }

/-- One triggered iteration: `prepare_trigger`, `trigger_code` and `post_trigger`. -/
def optStep (p : GainOpt K n) (st : OptState K n) (e : OptEvent K n) : OptState K n :=
  let st := match e.opticalGain with
    | some g => { st with ogHist := st.ogHist ++ [g] }
    | none => st
  let st := { st with deltaHist := st.deltaHist ++ [e.delta], commHist := st.commHist ++ [e.comm] }
  if p.optDt ≤ e.time ∧ e.time % p.optDt = 0 then
    let st := optimizeGains p st
    { st with outTime := some e.time, filterGain := st.out }
  else st

/-- The states of a run, after each iteration. -/
def optRun (p : GainOpt K n) (st : OptState K n) : List (OptEvent K n) → List (OptState K n)
  | [] => []
  | e :: es => optStep p st e :: optRun p (optStep p st e) es

/-! ### Optical gain -/

/-- What a triggered iteration of `OpticalGainEstimator` reads. -/
structure OgEvent (K : Type) where
  time : Nat
  delta : K
  deltaTime : Nat
  cmd : K
  cmdTime : Nat

/-- `optical_gain` and `output` with their generation times. -/
structure OgState (K : Type) where
  og : K
  ogTime : Option Nat
  out : K
  outTime : Option Nat

def OgState.init (g : K) : OgState K := ⟨g, none, g, none⟩

/-- `_update_optical_gain`, 88-109; `tiny` is `1e-12`. -/
def ogUpdate (gain tiny : K) (e : OgEvent K) (st : OgState K) : OgState K :=
  if |e.cmd| > tiny then
    let ratio := e.delta / e.cmd
    { st with og := st.og - (1 - ratio) * gain * st.og, ogTime := some e.time }
  else st

/-- `trigger_code`, 76-86, and `_calculate_output`, 111-128. -/
def ogStep (gain tiny : K) (st : OgState K) (e : OgEvent K) : OgState K :=
  let st := if e.deltaTime = e.time ∧ e.cmdTime = e.time then ogUpdate gain tiny e st else st
  { st with out := min st.og 1, outTime := some e.time }

def ogRun (gain tiny : K) (st : OgState K) : List (OgEvent K) → OgState K
  | [] => st
  | e :: es => ogRun gain tiny (ogStep gain tiny st e) es

end
end Specula
