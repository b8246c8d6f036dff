import Verif.Model.Buffer
/-
Model of `specula/processing_objects/data_store.py`: `_should_store_input` (102-106), `init_storage` (116-117),
`trigger_code` (211-232), `finalize` (250-261), and of what `save` writes (`save_pickle` 125-148, `save_fits` 167-193).

A saved chunk is the suffix of its directory and, for each input, the list of times and values; the conversion of the times to
the type of the file is in `Verif/Model/Playback.lean`.  An input without samples has no file, here the empty list.
-/
namespace Specula

/-- Parameters of a data store.  `every` is `_downsampling_for_input`, data_store.py 108-109; it is at least 1 (94-99). -/
structure StoreCfg where
  start : Int
  every : String → Nat
  split : Nat
  firstSuffix : Nat

/-- Insertion in an `OrderedDict`: a present key keeps its position. -/
def odSet {V : Type} (t : Int) (v : V) : List (Int × V) → List (Int × V)
  | [] => [(t, v)]
  | (t', v') :: rest => if t' = t then (t, v) :: rest else (t', v') :: odSet t v rest

/-- A directory written by `save`. -/
structure Chunk (V : Type) where
  suffix : Nat
  data : String → List (Int × V)

structure StoreState (V : Type) where
  counters : String → Nat
  storage : String → List (Int × V)
  iter : Nat
  chunks : List (Chunk V)

def StoreState.init {V : Type} : StoreState V := ⟨fun _ => 0, fun _ => [], 0, []⟩

/-- One pass of the loop over the inputs, data_store.py 216-221, on the storage of one input: nothing when the input is not
fresh; otherwise the sample is stored if the counter is a multiple of `every` (102-106). -/
def storeInput {V : Type} (t : Int) (every counter : Nat) : Option V → List (Int × V) → List (Int × V)
  | none, l => l
  | some v, l => if counter % every = 0 then odSet t v l else l

/-- The loop over the inputs of `trigger_code`, data_store.py 215-221, with `_should_store_input`. -/
def storeInputs {V : Type} (c : StoreCfg) (x : FreshStep V) (s : StoreState V) : StoreState V :=
  { s with
    counters := fun k => if (x.fresh k).isSome then s.counters k + 1 else s.counters k
    storage := fun k => storeInput x.time (c.every k) (s.counters k) (x.fresh k) (s.storage k) }

/-- `DataStore.trigger_code`, data_store.py 211-232. -/
def storeTrigger {V : Type} (c : StoreCfg) (x : FreshStep V) (s : StoreState V) : StoreState V :=
  if x.time < c.start then s
  else
    let s := storeInputs c x s
    let s := { s with iter := s.iter + 1 }
    if c.split > 0 then
      if s.iter % c.split = 0 then
        { s with chunks := s.chunks ++ [⟨s.iter - c.split + c.firstSuffix, s.storage⟩], storage := fun _ => [] }
      else s
    else s

/-- A run of triggers. -/
def storeRun {V : Type} (c : StoreCfg) (xs : List (FreshStep V)) (s : StoreState V) : StoreState V :=
  xs.foldl (fun s x => storeTrigger c x s) s

/-- `DataStore.finalize`, data_store.py 250-261: an additional trigger with what is fresh at that moment, then a save when there
is no splitting.  The result is all that has been saved. -/
def storeFinalize {V : Type} (c : StoreCfg) (x : FreshStep V) (s : StoreState V) : List (Chunk V) :=
  let s := storeTrigger c x s
  if c.split = 0 then s.chunks ++ [⟨0, s.storage⟩] else s.chunks

/-- Everything saved by a whole run. -/
def storeSaved {V : Type} (c : StoreCfg) (xs : List (FreshStep V)) (fin : FreshStep V) : List (Chunk V) :=
  storeFinalize c fin (storeRun c xs StoreState.init)

end Specula
