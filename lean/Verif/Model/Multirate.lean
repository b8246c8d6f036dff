import Verif.Model.Filter
import Verif.Model.Resample
/-
Model of the multirate control:
* `specula/processing_objects/modalrec_multirate.py` (`ModalrecMultirate`: constructor 41-83, `setup` 98-125, `trigger_code` 127-166);
* `specula/processing_objects/multirate_complementary_filter.py` (`MultirateComplementaryFilter`: constructor 49-95, synchronisation check 164-182,
  `trigger_code` 185-229).

Sensors are given by their slopes and generation time.  The complementary filter is modelled for one mode (all its operations act on each
mode separately), with separate inputs; the vector input only selects the same values by index.  Exceptions are `none`.
-/
namespace Specula

section
variable {K : Type} [Field K]

/-! ### Reconstructor -/

/-- `recmat_by_mask` as a list of pairs, `n_modes_total` and `n_sensors`. -/
structure MultirateRec (K : Type) where
  table : List (List Bool × Img K)
  nModes : Nat
  nSensors : Nat

/-- The constructor, modalrec_multirate.py 41-83. -/
def multirateBuild (mats : List (Img K)) (masks : List (List Bool)) (nModes : Nat) : Option (MultirateRec K) :=
  if mats = [] ∨ masks = [] then none
  else if mats.length ≠ masks.length then none
  else if ¬ masks.Nodup then none
  else if ¬ mats.all (fun m => m.rows = nModes) then none
  else
    let n := (masks.headD []).length
    if ¬ masks.all (fun m => m.length = n) then none
    else if n < 1 then none
    else some ⟨masks.zip mats, nModes, n⟩

/-- `setup`, modalrec_multirate.py 98-125: the column offsets of the sensors. -/
def multirateSetup (r : MultirateRec K) (sizes : List Nat) : Option (List Nat) :=
  if sizes.length ≠ r.nSensors then none
  else if ¬ r.table.all (fun p => p.2.cols = sizes.sum) then none
  else some (sizes.foldl (fun o n => o ++ [o.getLastD 0 + n]) [0])

/-- A sensor as read by the reconstructor. -/
structure SensorIn (K : Type) where
  slopes : List K
  time : Int

/-- `R_block @ s.slopes` with `R_block = current_recmat[:, start:end]` (the sizes must agree), 151-159. -/
def blockTimes (m : Img K) (start stop : Nat) (s : List K) : Option (List K) :=
  if s.length = stop - start then
    some ((List.range m.rows).map fun j => ∑ k ∈ Finset.range (stop - start), m.px j (start + k) * s.getD k 0)
  else none

/-- The outputs of the sensors from number `i` on, 150-166. -/
def multirateOutputs (m : Img K) (nModes : Nat) (offsets : List Nat) (now : Int) : Nat → List (SensorIn K) → Option (List (List K))
  | _, [] => some []
  | i, s :: rest =>
    (if s.time = now then blockTimes m (offsets.getD i 0) (offsets.getD (i + 1) 0) s.slopes else some (List.replicate nModes 0)).bind fun o =>
      (multirateOutputs m nModes offsets now (i + 1) rest).map fun os => o :: os

/-- `trigger_code`, modalrec_multirate.py 127-166. -/
def multirateTrigger (r : MultirateRec K) (offsets : List Nat) (now : Int) (sensors : List (SensorIn K)) : Option (List (List K)) :=
  let validity := sensors.map fun s => decide (s.time = now)
  if ¬ validity.any id then some (List.replicate r.nSensors (List.replicate r.nModes 0))
  else ((r.table.find? fun p => p.1 == validity).map fun p => p.2).bind fun m => multirateOutputs m r.nModes offsets now 0 sensors

/-! ### Complementary filter -/

/-- The coefficients of the constructor, multirate_complementary_filter.py 80-88; `none` if the number of weights is wrong, 51-53. -/
structure FusionCoef (K : Type) where
  c0 : K
  c1 : K
  slow : List (K × Nat)   -- coefficient and downsampling factor

def fusionBuild (gTrack : K) (weights : List K) (factors : List Nat) : Option (FusionCoef K) :=
  if weights.length ≠ factors.length + 1 then none
  else
    let w := weights.map fun x => x / weights.sum
    some ⟨1 + gTrack * w.headD 0, -1, List.zipWith (fun (x : K) (n : ℕ) => (gTrack * x * (n : K), n)) w.tail factors⟩

/-- `_yf_prev` and `_frame_counter`. -/
structure FusionState (K : Type) where
  prev : K
  counter : Nat

def FusionState.init : FusionState K := ⟨0, 0⟩

/-- `mixed_input` of `trigger_code`, 195-204, and the new state. -/
def fusionStep (f : FusionCoef K) (yf : K) (ys : List K) (s : FusionState K) : FusionState K × K :=
  let counter := s.counter + 1
  let mixed := f.c0 * yf + f.c1 * s.prev
  let mixed := (List.zipWith (fun p y => p.1 * (y * if counter % p.2 = 0 then 1 else 0)) f.slow ys).foldl (· + ·) mixed
  (⟨yf, counter⟩, mixed)

def fusionState (f : FusionCoef K) (yf : ℕ → K) (ys : ℕ → List K) : ℕ → FusionState K
  | 0 => FusionState.init
  | n + 1 => (fusionStep f (yf n) (ys n) (fusionState f yf ys n)).1

/-- The mixed input of step `n` (the first step is 0). -/
def fusionMixed (f : FusionCoef K) (yf : ℕ → K) (ys : ℕ → List K) (n : ℕ) : K := (fusionStep f (yf n) (ys n) (fusionState f yf ys n)).2

/-- The command before the delay: the IIR engine of 206-229 is the one of `IirFilter`. -/
def fusionCommand (f : FusionCoef K) (c : IirCoef K) (g : ℕ → K) (yf : ℕ → K) (ys : ℕ → List K) (n : ℕ) : K := iirOut c true g (fusionMixed f yf ys) n

/-- The synchronisation check at the step number `counter`, 164-182: `true` if it does not raise. -/
def syncOk (factors : List Nat) (counter : Nat) (tFast : Int) (tSlow : List Int) : Bool :=
  (List.zipWith (fun n t => if (counter + 1) % n = 0 then decide (t = tFast) else decide (t ≠ tFast)) factors tSlow).all id

end

end Specula
