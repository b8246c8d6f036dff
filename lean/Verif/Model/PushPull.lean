import Mathlib.Algebra.Field.Defs
/-
Model of the push-pull calibration:
* `specula/lib/modal_pushpull_signal.py` 87-126 with `vect_amplitude` given (`amplitude` only computes such a vector, 90-99);
* `specula/processing_objects/push_pull_generator.py` 70-71, which outputs row `iter_counter`;
* `specula/processing_objects/im_calibrator.py` 160-196 (`trigger_code`) and 198-202 (the normalisation of `finalize`).

Two dimensional arrays are functions of row and column.  Numbers are the elements of a field.  A run of the calibrator is given by
the list of the iterations that trigger it.  Not modelled: the file written by `finalize`, the masks copied to the outputs.
-/
namespace Specula

section
variable {K : Type} [Field K]

/-- Parameters of `modal_pushpull_signal`.  `amp` is `vect_amplitude` (one entry for each mode from `first`). -/
structure PushPull (K : Type) where
  nModes : Nat
  first : Nat
  amp : List K
  pattern : List K
  ncycles : Nat
  repeatNcycles : Bool
  nsamples : Nat
  repeatFull : Bool

namespace PushPull

/-- `vect_amplitude[mode]` after the zeros are prepended, lines 102-104. -/
def amplitude (p : PushPull K) (mode : Nat) : K := (List.replicate p.first 0 ++ p.amp).getD mode 0

def nPokes (p : PushPull K) : Nat := p.pattern.length

/-- line 108 -/
def localCycles (p : PushPull K) : Nat := if p.repeatFull then 1 else p.ncycles

/-- line 109 -/
def realModes (p : PushPull K) : Nat := p.nModes - p.first

/-- number of rows of `time_hist` at line 110 -/
def histRows (p : PushPull K) : Nat := p.nPokes * p.realModes * p.localCycles

end PushPull

/-- `a[lo:hi, col] = vals` -/
def assignCol (a : Nat → Nat → K) (lo hi col : Nat) (vals : List K) : Nat → Nat → K :=
  fun r c => if c = col ∧ lo ≤ r ∧ r < hi then vals.getD (r - lo) 0 else a r c

/-- `xp.repeat(l, k)` -/
def repeatEach {α : Type} (k : Nat) (l : List α) : List α := l.flatMap fun a => List.replicate k a

namespace PushPull

/-- The body of the loop over the modes, lines 112-121. -/
def pokeMode (p : PushPull K) (a : Nat → Nat → K) (mode : Nat) : Nat → Nat → K :=
  let h := mode - p.first
  let poke := p.pattern.map fun x => p.amplitude mode * x
  if p.repeatNcycles && !p.repeatFull then
    assignCol a (p.nPokes * h * p.localCycles) (p.nPokes * (h + 1) * p.localCycles) mode (repeatEach p.localCycles poke)
  else
    (List.range p.localCycles).foldl
      (fun a j => assignCol a (p.nPokes * (p.localCycles * h + j)) (p.nPokes * (p.localCycles * h + j + 1)) mode poke) a

/-- `time_hist` after the loop, lines 110-121. -/
def timeHist (p : PushPull K) : Nat → Nat → K :=
  (List.range' p.first (p.nModes - p.first)).foldl p.pokeMode fun _ _ => 0

/-- Number of rows returned, lines 123-126. -/
def length (p : PushPull K) : Nat := p.histRows * (if p.repeatFull then p.ncycles else 1) * p.nsamples

/-- Row `t` of the array returned (`xp.tile` and `xp.repeat`, lines 123-126). -/
def row (p : PushPull K) (t : Nat) : Nat → K := p.timeHist ((t / p.nsamples) % p.histRows)

end PushPull

/-- One triggered iteration of `ImCalibrator`: whether the slopes were generated in it, the commands and the slopes. -/
structure CalEvent (K : Type) where
  fresh : Bool
  commands : Nat → K
  slopes : Nat → K

/-- `intmat` (mode, slope) and `count_commands`. -/
structure CalState (K : Type) where
  im : Nat → Nat → K
  count : Nat → Nat

/-- Index of an array of `n` elements; a negative one counts from the end. -/
def pyIndex (n : Nat) (i : Int) : Option Nat :=
  if 0 ≤ i then (if i < n then some i.toNat else none)
  else if 0 ≤ n + i then some (n + i).toNat else none

/-- `ImCalibrator.trigger_code`, im_calibrator.py 160-184, for commands of `ncmd` elements.  `none` is an exception: an index
out of range, or the division of the slopes by several commands (the case of as many commands as slopes, which does not raise,
is not distinguished). -/
def calStep [DecidableEq K] (nmodes first ncmd : Nat) (st : CalState K) (e : CalEvent K) : Option (CalState K) :=
  if e.fresh then
    match (List.range ncmd).filter fun i => e.commands i ≠ 0 with
    | [] => some st
    | [i] =>
      let mode : Int := (i : Int) - first
      if mode < nmodes then
        (pyIndex nmodes mode).map fun k =>
          ⟨fun m s => if m = k then st.im m s + e.slopes s / e.commands i else st.im m s,
            fun m => if m = k then st.count m + 1 else st.count m⟩
      else some st
    | _ => none
  else some st

/-- All iterations of a run. -/
def calRun [DecidableEq K] (nmodes first ncmd : Nat) (es : List (CalEvent K)) : Option (CalState K) :=
  es.foldlM (calStep nmodes first ncmd) ⟨fun _ _ => 0, fun _ => 0⟩

/-- The normalisation in `finalize`, im_calibrator.py 198-202. -/
def calFinalize (nmodes : Nat) (st : CalState K) : Nat → Nat → K :=
  fun m s => if m < nmodes ∧ st.count m > 0 then st.im m s / st.count m else st.im m s

/-- Column `m` of `out_single_im[m]`, im_calibrator.py 189: a copy of the accumulator, not changed by `finalize`. -/
def calSingle (st : CalState K) (m : Nat) : Nat → K := st.im m

end
end Specula
