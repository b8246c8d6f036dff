import Verif.Model.Float
import Verif.Model.Zernike
import Mathlib.Analysis.SpecialFunctions.Trigonometric.Inverse
/-
Signal generators: `specula/processing_objects/base_generator.py`, `schedule_generator.py`, `time_history_generator.py`,
`wave_generator.py` and the amplitudes of `random_generator.py`.

Times are rounded as the code does (`fl`); values are not.  The waveforms and amplitudes are modelled over the real numbers.  Random
numbers and vibrations are not modelled.  Exceptions are `none`.
-/
namespace Specula

section
variable {K : Type}

/-- `numpy.searchsorted(a, x, side='right')`: the binary search of numpy's `binsearch`, which keeps `lo ≤ hi`. -/
def searchRight (a : Nat → ℚ) (x : ℚ) (lo hi : Nat) : Nat :=
  if lo < hi then
    let mid := lo + (hi - lo) / 2
    if a mid ≤ x then searchRight a x (mid + 1) hi else searchRight a x lo mid
  else lo
termination_by hi - lo

/-- `numpy.repeat(values, counts)`. -/
def npRepeat (values : List K) (counts : List Nat) : List K :=
  (List.zipWith (fun (v : K) (n : Nat) => List.replicate n v) values counts).flatten

/-- The attributes of ScheduleGenerator. -/
structure Schedule (K : Type) where
  values : List (List K)
  times : List ℚ

/-- The constructor, schedule_generator.py 10-42, for a list of groups (a single integer is the list with it).  The times are converted
to floating point numbers with a significand of `p` bits. -/
def scheduleInit (p : Nat) (values : List (List K)) (times : List ℚ) (groups : List Nat) : Option (Schedule K) :=
  if values.length = times.length + 1 then
    if values.all fun v => groups.length == v.length then
      some ⟨values.map fun v => npRepeat v groups, times.map (fl p)⟩
    else none
  else none

/-- Current time as the generators see it: seconds as a double, then `p` bits, base_generator.py 29-31. -/
def genTime (p : Nat) (t : Nat) : ℚ := fl p (tToSeconds t)

/-- `trigger_code`, schedule_generator.py 44-55. -/
def scheduleTrigger (p : Nat) (s : Schedule K) (t : Nat) : Option (List K) :=
  let k := searchRight (fun i : Nat => s.times.getD i 0) (genTime p t) 0 s.times.length
  let k := min (max 0 k) (s.values.length - 1)
  s.values[k]?

/-- `TimeHistoryGenerator.trigger_code` (and that of VibrationGenerator), time_history_generator.py 26-32: one row of the history. -/
def historyTrigger (hist : List (List K)) (iter : Nat) : Option (List K) :=
  if iter < hist.length then hist[iter]? else hist.getLast?

/-- Triggers of a generator one after the other; `post_trigger` counts them, base_generator.py 46-49. -/
def genRun (trig : Nat → Option (List K)) (iter : Nat) : Nat → Option (List (List K))
  | 0 => some []
  | n + 1 => (trig iter).bind fun v => (genRun trig (iter + 1) n).map fun l => v :: l

end

/-- Waveforms, wave_generator.py 53-77. -/
inductive WaveType where
  | sin
  | square
  | triangle

noncomputable def waveShape : WaveType → ℝ → ℝ
  | .sin, φ => Real.sin φ
  | .square, φ => if 0 < Real.sin φ then 1 else if Real.sin φ < 0 then -1 else 0
  | .triangle, φ => 2 * Real.arcsin (Real.sin φ) / Real.pi

/-- One element of the output at time `t` seconds, wave_generator.py 53-77. -/
noncomputable def waveValue (w : WaveType) (amp freq offset slope const t : ℝ) : ℝ :=
  let phase := freq * 2 * Real.pi * t + offset
  slope * t + amp * waveShape w phase + const

/-- Options of `_generate_scaled_amps`. -/
inductive ScalingLaw where
  | constant
  | inverse
  | linear

/-- Radial order used for the amplitudes, random_generator.py 124: `ceil((-3 + sqrt(9 + 8 * (j - 1))) / 2)` with `j = i + 1`, in
floating point with `p` bits (see Model/Zernike.lean). -/
def ampOrder (p i : Nat) : ℤ := ⌈(-3 + flSqrt p (9 + 8 * i)) / 2⌉

/-- Amplitudes before the normalisation, random_generator.py 113-136. -/
noncomputable def rawAmp (p : Nat) (law : ScalingLaw) (forced i : Nat) : ℝ :=
  if i < forced then 0
  else
    let n := ampOrder p i
    match law with
    | .constant => 1
    | .inverse => if n = 0 then 1 else 1 / (n : ℝ)
    | .linear => if n = 0 then 1 else 1 * (n : ℝ)

/-- `_generate_scaled_amps`, random_generator.py 97-143. -/
noncomputable def scaledAmps (p : Nat) (rms : ℝ) (n forced : Nat) (law : ScalingLaw) : List ℝ :=
  let amps := (List.range n).map (rawAmp p law forced)
  let cur := Real.sqrt ((amps.map fun a => a ^ 2).sum)
  if cur > 0 then amps.map fun a => a * (rms / cur) else amps

end Specula
