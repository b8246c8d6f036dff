/-
Model of how times are written to file and of the data source that reads them back:
`specula/processing_objects/data_store.py` `save_pickle` (125-127: `np.array(times, dtype=self.dtype)`) and `save_fits`
(167-169: `dtype=np.uint64`), `specula/processing_objects/data_source.py` `load_pickle`, `load_fits` (56-76) and `trigger_code`
(85-93).

Times are natural numbers of nanoseconds.  The values are of an arbitrary type, not changed by the file.  The pickle format
writes the times as binary floating point numbers with a significand of `p` bits (24 for single and 53 for double precision),
rounded to nearest, ties to even; the exponent range (up to 2^127) is not modelled.  A Python integer is found in a dictionary
with floating point keys exactly when it is equal to one of them.
-/
namespace Specula

/-- Conversion of an integer to a binary floating point number with a significand of `p` bits, as an integer (all such numbers
not less than 2^(p-1) are integers). -/
def toFloatBits (p n : Nat) : Nat :=
  if n < 2 ^ p then n
  else
    let u := 2 ^ (Nat.log2 n + 1 - p)
    let q := n / u
    let r := n % u
    if 2 * r < u then q * u
    else if 2 * r > u then (q + 1) * u
    else if q % 2 = 0 then q * u else (q + 1) * u

inductive FileFormat
  | fits
  | pickle (bits : Nat)
deriving DecidableEq, Repr

/-- The time as read back from a file; `none`: cannot be written (numpy raises for a value that does not fit in 64 bits). -/
def FileFormat.time : FileFormat → Nat → Option Nat
  | .fits, t => if t < 2 ^ 64 then some t else none
  | .pickle b, t => some (toFloatBits b t)

/-- The dictionary comprehension of data_source.py 67 and 76: a repeated time keeps the last value. -/
def sourceDict {V : Type} (f : FileFormat) (stored : List (Nat × V)) : List (Nat × V) :=
  stored.filterMap fun p => (f.time p.1).map fun t => (t, p.2)

/-- Value of the dictionary for a time: the last of its occurrences. -/
def sourceLookup {V : Type} (d : List (Nat × V)) (t : Nat) : Option V :=
  ((d.filter fun p => decide (p.1 = t)).getLast?).map (·.2)

/-- Value and generation time of an output. -/
structure SourceOut (V : Type) where
  value : Option V
  time : Int
deriving DecidableEq

/-- The outputs before the first trigger: no value, generation time -1 (base_data_obj.py 32). -/
def SourceOut.init {V : Type} : SourceOut V := ⟨none, -1⟩

/-- `DataSource.trigger_code` for one output, data_source.py 85-93. -/
def sourceTrigger {V : Type} (d : List (Nat × V)) (t : Nat) (o : SourceOut V) : SourceOut V :=
  match sourceLookup d t with
  | some v => ⟨some v, t⟩
  | none => o

/-- The outputs after each of a list of triggers. -/
def sourceRun {V : Type} (d : List (Nat × V)) : List Nat → SourceOut V → List (SourceOut V)
  | [], _ => []
  | t :: ts, o => sourceTrigger d t o :: sourceRun d ts (sourceTrigger d t o)

end Specula
