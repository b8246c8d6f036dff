import Mathlib.Algebra.Field.Defs
import Mathlib.Data.Rat.Floor
import Mathlib.Algebra.Order.Field.Rat
import Mathlib.LinearAlgebra.Matrix.Notation
import Mathlib.Data.Matrix.Block
/-
Model of the time-domain controllers:
* the delay line of `specula/processing_objects/base_filter.py` 36-40, 82-84, 122-146;
* `specula/processing_objects/iir_filter.py` 55-60, 73-102 and `integrator.py` 55-60;
* `specula/processing_objects/ssr_filter.py` 56-79;
* the coefficients built by `specula/data_objects/iir_filter_data.py` `from_gain_and_ff` (818-851), `discrete_delay_tf` (788-816),
  `set_num` (105-121), `set_gain` (159-191), and by `specula/data_objects/ssr_filter_data.py` `from_integrator` (396-441) and
  `_build_block_diagonal` (193-231).

Numbers are the elements of a field; each mode is a separate filter (all array operations act on each row separately).  The
delay is a rational number that is not negative.  A run is given by the sequences of the inputs at steps 0, 1, 2, ...
-/
namespace Specula

section
variable {K : Type} [Field K]

/-! ### Delay line -/

/-- `int(np.ceil(delay)) + 1`, base_filter.py 36-37. -/
def bufLen (d : ℚ) : Nat := ⌈d⌉₊ + 1

/-- `output_buffer[:, 1:] = output_buffer[:, :-1]`. -/
def shiftBuf (b : List K) : List K := b.take 1 ++ b.dropLast

/-- One iteration on the buffer: `prepare_trigger` (base_filter.py 83-84) and then `output_buffer[:, 0] = output`. -/
def delayStep (d : ℚ) (y : K) (b : List K) : List K :=
  let b := if d > 0 then shiftBuf b else b
  y :: b.tail

/-- `post_trigger`, base_filter.py 126-138. -/
def delayOutput [CharZero K] (d : ℚ) (b : List K) : K :=
  if d = 0 then b.getD 0 0
  else
    let r : ℚ := d - ⌊d⌋
    let idx := ⌈d⌉₊
    if r = 0 then b.getD idx 0
    else (r : K) * b.getD idx 0 + (1 - (r : K)) * b.getD (idx - 1) 0

/-- The buffer after `n` iterations with filter outputs `y`. -/
def delayBuf (d : ℚ) (y : Nat → K) : Nat → List K
  | 0 => List.replicate (bufLen d) 0
  | n + 1 => delayStep d (y n) (delayBuf d y n)

/-- `out_comm` at step `n`. -/
def delayedOut [CharZero K] (d : ℚ) (y : Nat → K) (n : Nat) : K := delayOutput d (delayBuf d y (n + 1))

/-! ### IIR filter -/

/-- Coefficients of one filter, lowest order first; the last ones multiply the current sample. -/
structure IirCoef (K : Type) where
  num : List K
  den : List K

/-- `_ist` and `_ost`. -/
structure IirState (K : Type) where
  ist : List K
  ost : List K

def IirState.init (c : IirCoef K) : IirState K := ⟨c.num.map fun _ => 0, c.den.map fun _ => 0⟩

/-- `np.sum(a * b)` -/
def dotSum (a b : List K) : K := (List.zipWith (· * ·) a b).sum

/-- Assignment to the last element of an array. -/
def setLast (l : List K) (x : K) : List K := l.dropLast ++ [x]

/-- `IirFilter.trigger_code`, iir_filter.py 73-102: the new state and the output.  `integ` is the parameter `integration`
(58-60: it masks all denominator coefficients but the last). -/
def iirStep (c : IirCoef K) (integ : Bool) (g u : K) (s : IirState K) : IirState K × K :=
  let ost := s.ost.tail ++ [0]
  let ist := s.ist.tail ++ [0]
  let ist := setLast ist u
  let factor := 1 / c.den.getLastD 0
  let numContrib := dotSum (c.num.map fun a => a * g) ist
  let denContrib := dotSum (c.den.dropLast.map fun a => a * if integ then 1 else 0) ost.dropLast
  let output := factor * (numContrib - denContrib)
  (⟨ist, setLast ost output⟩, output)

/-- The state after `n` iterations with inputs `u` and gain modulation `g`. -/
def iirState (c : IirCoef K) (integ : Bool) (g u : Nat → K) : Nat → IirState K
  | 0 => IirState.init c
  | n + 1 => (iirStep c integ (g n) (u n) (iirState c integ g u n)).1

/-- The output of step `n` (before the delay). -/
def iirOut (c : IirCoef K) (integ : Bool) (g u : Nat → K) (n : Nat) : K := (iirStep c integ (g n) (u n) (iirState c integ g u n)).2

/-- `from_gain_and_ff`, iir_filter_data.py 837-849, for one filter. -/
def integratorCoef (gain ff : K) : IirCoef K := ⟨[0, gain], [-ff, 1]⟩

/-- `discrete_delay_tf`, iir_filter_data.py 802-816. -/
def delayTf [CharZero K] (d : ℚ) : IirCoef K :=
  let n := ⌈d⌉₊ + 1
  let den : List K := (List.replicate n 0).set (n - 1) 1
  let zero : List K := List.replicate n 0
  if d - ⌊d⌋ ≠ 0 then
    let r : K := ((d - ⌊d⌋ : ℚ) : K)
    ⟨(zero.set 0 r).set 1 (1 - r), den⟩
  else ⟨zero.set 0 1, den⟩

/-! ### Gains -/

/-- The attributes `num`, `gain` and `_num_normalized` of one filter of an `IirFilterData`. -/
structure GainState (K : Type) where
  num : List K
  gain : K
  normalized : List K

/-- The alignment of the coefficients in `set_num`, iir_filter_data.py 109-112: `np.roll` by `snum1 - ord` when the
coefficients past the declared number `ord` are zero. -/
def alignCoef [DecidableEq K] (ord : Nat) (num : List K) : List K :=
  if ord < num.length ∧ (num.drop ord).all (· = 0) then num.drop ord ++ num.take ord else num

/-- `set_num`, iir_filter_data.py 105-121, for one filter with `ordnum = ord`. -/
def setNum [DecidableEq K] (ord : Nat) (num : List K) : GainState K :=
  let num := alignCoef ord num
  let gain := num.getLastD 0
  let safe := if gain = 0 then 1 else gain
  ⟨num, gain, num.map fun a => a / safe⟩

/-- `set_gain`, iir_filter_data.py 159-191, for one filter; the argument is `none` when the entry is missing (vector shorter
than the number of filters) or not finite. -/
def setGain (g : Option K) (s : GainState K) : GainState K :=
  let gain := g.getD s.gain
  { s with gain := gain, num := s.normalized.map fun a => a * gain }

/-! ### State space filter -/

/-- Matrices of a state space filter with states indexed by `S` and inputs and outputs by `I`. -/
structure Ssr (K S I : Type) where
  A : Matrix S S K
  B : Matrix S I K
  C : Matrix I S K
  D : Matrix I I K

variable {S I : Type} [Fintype S] [Fintype I]

/-- `SsrFilter.trigger_code`, ssr_filter.py 56-77: the new state and the output; `g` is the gain modulation. -/
def ssrStep (f : Ssr K S I) (newState : Bool) (g u : I → K) (x : S → K) : (S → K) × (I → K) :=
  let u := fun i => u i * g i
  let xNew := fun s => (∑ s', f.A s s' * x s') + ∑ i, f.B s i * u i
  let xOut := if newState then xNew else x
  let y := fun i => (∑ s, f.C i s * xOut s) + ∑ j, f.D i j * u j
  (xNew, y)

/-- The state before step `n`. -/
def ssrState (f : Ssr K S I) (newState : Bool) (g u : Nat → I → K) : Nat → S → K
  | 0 => fun _ => 0
  | n + 1 => (ssrStep f newState (g n) (u n) (ssrState f newState g u n)).1

/-- The output of step `n`. -/
def ssrOut (f : Ssr K S I) (newState : Bool) (g u : Nat → I → K) (n : Nat) : I → K :=
  (ssrStep f newState (g n) (u n) (ssrState f newState g u n)).2

/-- `_build_block_diagonal`, ssr_filter_data.py 193-231, from the matrices of `n` filters with one input and one output each.
State `state_offset + j` of filter `i` has index `(i, j)`. -/
def blockSsr {n : Nat} {m : Fin n → Nat} (f : (i : Fin n) → Ssr K (Fin (m i)) Unit) : Ssr K (Σ i, Fin (m i)) (Fin n) where
  A := Matrix.blockDiagonal' fun i => (f i).A
  B := fun s i => if s.1 = i then (f s.1).B s.2 () else 0
  C := fun i s => if s.1 = i then (f s.1).C () s.2 else 0
  D := fun i j => if i = j then (f i).D () () else 0

/-- `from_integrator`, ssr_filter_data.py 431-437, for one filter. -/
def integratorSsr (gain ff : K) : Ssr K (Fin 1) Unit := ⟨fun _ _ => ff, fun _ _ => gain, fun _ _ => 1, fun _ _ => 0⟩

end
end Specula
