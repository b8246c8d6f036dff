import Verif.Model.Filter
import Mathlib.Algebra.BigOperators.Intervals
import Mathlib.Algebra.BigOperators.Ring.Finset
import Mathlib.Algebra.BigOperators.Group.List.Basic
import Mathlib.Data.List.GetD
import Mathlib.Tactic.Ring
import Mathlib.Tactic.FieldSimp
import Mathlib.Tactic.Linarith
import Mathlib.Tactic.NormNum
import Mathlib.Data.Rat.Cast.CharZero
/-
C28-C32: delay line, IIR and state space controllers, gains.
-/
namespace Specula

section
variable {K : Type} [Field K]

/-- The value of a sequence `i` steps before step `n`: zero before the start. -/
def back (y : Nat → K) (n i : Nat) : K := if i ≤ n then y (n - i) else 0

/-! ### C28: delay -/

omit [Field K] in
theorem shiftBuf_tail (b : List K) : (shiftBuf b).tail = if b = [] then [] else b.dropLast := by
  unfold shiftBuf
  cases b with
  | nil => rfl
  | cons a l => simp

/-- After `n + 1` steps the buffer holds the last outputs, the newest first. -/
theorem delayBuf_eq (d : ℚ) (hd : 0 < d) (y : Nat → K) (n : Nat) :
    delayBuf d y (n + 1) = (List.range (bufLen d)).map (back y n) := by
  have hdrop : ∀ f : Nat → K, (if (List.range (bufLen d)).map f = [] then [] else ((List.range (bufLen d)).map f).dropLast) =
      (List.range (bufLen d - 1)).map f := by
    intro f
    unfold bufLen
    rw [List.range_succ]
    simp
  have hlen : bufLen d = (bufLen d - 1) + 1 := rfl
  induction n with
  | zero =>
    rw [delayBuf, delayBuf, delayStep, if_pos hd]
    simp only [shiftBuf_tail]
    have h0 : List.replicate (bufLen d) (0 : K) = (List.range (bufLen d)).map fun _ => 0 := by
      simp [List.map_const']
    rw [h0, hdrop, hlen, List.range_succ_eq_map]
    simp only [List.map_cons, List.map_map, Nat.add_sub_cancel]
    congr 1
  | succ n ih =>
    rw [delayBuf, delayStep, if_pos hd]
    simp only [shiftBuf_tail]
    rw [ih, hdrop, hlen, List.range_succ_eq_map]
    simp only [List.map_cons, List.map_map, Nat.add_sub_cancel]
    congr 1
    apply List.map_congr_left
    intro i _
    simp only [Function.comp, back]
    by_cases h : i ≤ n
    · rw [if_pos h, if_pos (by omega), show n + 1 - i.succ = n - i by omega]
    · rw [if_neg h, if_neg (by omega)]

theorem delayBuf_zero (y : Nat → K) (n : Nat) : delayBuf 0 y (n + 1) = [y n] := by
  induction n with
  | zero => simp [delayBuf, delayStep, bufLen]
  | succ n ih =>
    rw [delayBuf, ih]
    simp [delayStep]

variable [CharZero K]

/-- **C28** (integer delay): the output at step `n` is the filter output of step `n - d`, zero before. -/
theorem C28_integer_delay (d : Nat) (y : Nat → K) (n : Nat) : delayedOut (d : ℚ) y n = back y n d := by
  unfold delayedOut delayOutput
  rcases Nat.eq_zero_or_pos d with h | h
  · subst h
    rw [Nat.cast_zero, delayBuf_zero, if_pos rfl]
    simp [back]
  · have hq : (0 : ℚ) < d := by exact_mod_cast h
    rw [if_neg hq.ne', delayBuf_eq _ hq]
    simp only [Int.floor_natCast, Int.cast_natCast, sub_self, if_true, Nat.ceil_natCast]
    rw [List.getD_eq_getElem _ _ (by simp [bufLen])]
    simp

/-- **C28** (fractional delay): the output is the linear interpolation between the outputs of the two integer delays next to
the requested one. -/
theorem C28_fractional_delay (d : ℚ) (hd : 0 < d) (hf : d ≠ ⌊d⌋) (y : Nat → K) (n : Nat) :
    delayedOut d y n = (1 - ((d - ⌊d⌋ : ℚ) : K)) * back y n ⌊d⌋₊ + ((d - ⌊d⌋ : ℚ) : K) * back y n (⌊d⌋₊ + 1) := by
  have hceil : ⌈d⌉₊ = ⌊d⌋₊ + 1 := by
    rw [Nat.ceil_eq_iff (by omega)]
    have h1 := Nat.floor_le hd.le
    have h2 := Nat.lt_floor_add_one d
    have h3 : (⌊d⌋₊ : ℚ) = (⌊d⌋ : ℚ) := by
      have := Int.natCast_floor_eq_floor hd.le
      exact_mod_cast congrArg (fun x : Int => (x : ℚ)) this
    constructor
    · rw [Nat.add_sub_cancel]
      rcases lt_or_eq_of_le h1 with h | h
      · exact h
      · rw [h3] at h; exact absurd h.symm hf
    · push_cast; exact h2.le
  unfold delayedOut delayOutput
  rw [if_neg hd.ne', delayBuf_eq _ hd]
  simp only
  rw [if_neg (sub_ne_zero.2 hf), hceil]
  rw [List.getD_eq_getElem _ _ (by simp [bufLen, hceil]), List.getD_eq_getElem _ _ (by simp [bufLen, hceil])]
  simp only [List.getElem_map, List.getElem_range, Nat.add_sub_cancel]
  ring

/-- **C28** (memory): the output at step `n` depends only on the filter outputs of the steps between `n - ⌈d⌉` and `n`. -/
theorem C28_memory (d : ℚ) (hd : 0 ≤ d) (y y' : Nat → K) (n : Nat) (h : ∀ i, i ≤ n → n ≤ i + ⌈d⌉₊ → y i = y' i) :
    delayedOut d y n = delayedOut d y' n := by
  have hback : ∀ i, i ≤ ⌈d⌉₊ → back y n i = back y' n i := by
    intro i hi
    unfold back
    split
    · exact h _ (by omega) (by omega)
    · rfl
  rcases eq_or_lt_of_le hd with h0 | hpos
  · subst h0
    have h1 := C28_integer_delay (K := K) 0 y n
    have h2 := C28_integer_delay (K := K) 0 y' n
    rw [Nat.cast_zero] at h1 h2
    rw [h1, h2]
    exact hback 0 (by omega)
  · unfold delayedOut
    rw [delayBuf_eq d hpos, delayBuf_eq d hpos]
    congr 1
    apply List.map_congr_left
    intro i hi
    have := List.mem_range.1 hi
    exact hback i (by unfold bufLen at this; omega)

/-- With an integer delay the published array is a view of the buffer: as soon as the next iteration shifts the buffer, before
the filter is triggered, it already shows the output of that iteration. -/
theorem C28_early_view (d : Nat) (hd : 0 < d) (y : Nat → K) (n : Nat) :
    delayOutput (d : ℚ) (shiftBuf (delayBuf (d : ℚ) y (n + 1))) = delayedOut (d : ℚ) y (n + 1) := by
  have hq : (0 : ℚ) < d := by exact_mod_cast hd
  have hstep : delayedOut (d : ℚ) y (n + 1) = delayOutput (d : ℚ) (delayStep (d : ℚ) (y (n + 1)) (delayBuf (d : ℚ) y (n + 1))) := rfl
  rw [hstep]
  have hlen : (delayBuf (d : ℚ) y (n + 1)).length = d + 1 := by
    rw [delayBuf_eq _ hq]; simp [bufLen]
  unfold delayOutput
  rw [if_neg hq.ne', if_neg hq.ne']
  simp only [Int.floor_natCast, Int.cast_natCast, sub_self, if_true, Nat.ceil_natCast]
  generalize delayBuf (d : ℚ) y (n + 1) = b at hlen
  obtain ⟨e, rfl⟩ : ∃ e, d = e + 1 := ⟨d - 1, by omega⟩
  cases b with
  | nil => simp at hlen
  | cons a l =>
    have hst : delayStep ((e + 1 : Nat) : ℚ) (y (n + 1)) (a :: l) = y (n + 1) :: (shiftBuf (a :: l)).tail := by
      unfold delayStep; rw [if_pos hq]
    rw [hst]
    simp [shiftBuf]

/-- A delay of 1.5 steps. -/
example (y : Nat → ℚ) : delayedOut (3 / 2) y 5 = 1 / 2 * y 4 + 1 / 2 * y 3 := by
  have hfl : ⌊(3 / 2 : ℚ)⌋ = 1 := by rw [Int.floor_eq_iff]; norm_num
  have hfl' : ⌊(3 / 2 : ℚ)⌋₊ = 1 := by rw [Nat.floor_eq_iff (by norm_num)]; norm_num
  rw [C28_fractional_delay _ (by norm_num) (by rw [hfl]; norm_num), hfl, hfl']
  norm_num [back]

end

/-! ### C29: IIR filter -/

section
variable {K : Type} [Field K]

/-- the same for the steps before step `n` -/
def backPrev (y : Nat → K) (n i : Nat) : K := if i < n then y (n - 1 - i) else 0

theorem backPrev_succ (y : Nat → K) (n i : Nat) : backPrev y (n + 1) i = back y n i := by
  unfold backPrev back
  by_cases h : i ≤ n
  · rw [if_pos (by omega), if_pos h, Nat.add_sub_cancel]
  · rw [if_neg (by omega), if_neg h]

theorem back_succ (y : Nat → K) (n i : Nat) : back y n (i + 1) = backPrev y n i := by
  unfold backPrev back
  by_cases h : i < n
  · rw [if_pos (by omega), if_pos h, show n - (i + 1) = n - 1 - i by omega]
  · rw [if_neg (by omega), if_neg h]

/-- the last `m` samples before step `n`, oldest first -/
def window (y : Nat → K) (m n : Nat) : List K := (List.range m).map fun i => backPrev y n (m - 1 - i)

theorem window_length (y : Nat → K) (m n : Nat) : (window y m n).length = m := by simp [window]

theorem window_zero (y : Nat → K) (m : Nat) : window y m 0 = List.replicate m 0 := by
  unfold window backPrev
  simp [List.map_const']

/-- shifting in a new sample -/
theorem window_shift (y : Nat → K) (m n : Nat) (hm : 0 < m) : (window y m n).tail ++ [y n] = window y m (n + 1) := by
  obtain ⟨k, rfl⟩ : ∃ k, m = k + 1 := ⟨m - 1, by omega⟩
  apply List.ext_getElem
  · simp [window]
  · intro i h1 h2
    simp only [window_length] at h2
    by_cases hi : i < k
    · rw [List.getElem_append_left (by simp [window]; omega), List.getElem_tail]
      simp only [window, List.getElem_map, List.getElem_range]
      rw [backPrev_succ, show k + 1 - 1 - i = (k + 1 - 1 - (i + 1)) + 1 by omega, back_succ]
    · have : i = k := by omega
      subst this
      rw [List.getElem_append_right (by simp [window])]
      simp [window, backPrev]

theorem window_shift_dropLast (y : Nat → K) (m n : Nat) (hm : 0 < m) (a : K) :
    ((window y m n).tail ++ [a]).dropLast = (window y m (n + 1)).dropLast := by
  rw [← window_shift y m n hm]; simp

omit [Field K] in
theorem setLast_append (l : List K) (a x : K) : setLast (l ++ [a]) x = l ++ [x] := by
  unfold setLast; simp

theorem dotSum_eq (a : List K) (f : Nat → K) : dotSum a ((List.range a.length).map f) = ∑ i ∈ Finset.range a.length, a.getD i 0 * f i := by
  unfold dotSum
  rw [Finset.sum_eq_multiset_sum, Finset.range_val]
  change _ = ((List.range a.length : Multiset Nat).map _).sum
  rw [Multiset.map_coe, Multiset.sum_coe]
  congr 1
  apply List.ext_getElem
  · simp
  · intro i h1 h2
    simp at h1 h2
    simp [h1]

/-- The states of a run hold the last inputs and outputs. -/
theorem iirState_eq (c : IirCoef K) (hn : c.num ≠ []) (hd : c.den ≠ []) (integ : Bool) (g u : Nat → K) (n : Nat) :
    iirState c integ g u n = ⟨window u c.num.length n, window (iirOut c integ g u) c.den.length n⟩ := by
  induction n with
  | zero => simp [iirState, IirState.init, window_zero, List.map_const']
  | succ n ih =>
    have h : iirOut c integ g u n = (iirStep c integ (g n) (u n) (iirState c integ g u n)).2 := rfl
    rw [iirState]
    have hfst : (iirStep c integ (g n) (u n) (iirState c integ g u n)).1 =
        ⟨setLast ((iirState c integ g u n).ist.tail ++ [0]) (u n),
          setLast ((iirState c integ g u n).ost.tail ++ [0]) (iirOut c integ g u n)⟩ := rfl
    rw [hfst, ih, setLast_append, setLast_append,
      window_shift _ _ _ (List.length_pos_iff.2 hn), window_shift _ _ _ (List.length_pos_iff.2 hd)]

theorem getLastD_eq (l : List K) : l.getLastD 0 = l.getD (l.length - 1) 0 := by
  rw [List.getLastD_eq_getLast?, List.getD_eq_getElem?_getD, List.getLast?_eq_getElem?]

/-- The output of one step in terms of the sequences. -/
theorem iirOut_eq (c : IirCoef K) (hn : c.num ≠ []) (hd : c.den ≠ []) (integ : Bool) (g u : Nat → K) (n : Nat) :
    iirOut c integ g u n = 1 / c.den.getLastD 0 *
      (g n * (∑ i ∈ Finset.range c.num.length, c.num.getD i 0 * back u n (c.num.length - 1 - i)) -
        (if integ then 1 else 0) *
          ∑ i ∈ Finset.range (c.den.length - 1), c.den.getD i 0 * back (iirOut c integ g u) n (c.den.length - 1 - i)) := by
  have hnum : dotSum (c.num.map fun a => a * g n) (window u c.num.length (n + 1)) =
      g n * ∑ i ∈ Finset.range c.num.length, c.num.getD i 0 * back u n (c.num.length - 1 - i) := by
    have h := dotSum_eq (c.num.map fun a => a * g n) (fun i => backPrev u (n + 1) (c.num.length - 1 - i))
    rw [List.length_map] at h
    unfold window
    rw [h, Finset.mul_sum]
    apply Finset.sum_congr rfl
    intro i hi
    have hi := Finset.mem_range.1 hi
    rw [backPrev_succ, List.getD_eq_getElem _ _ (by simpa using hi), List.getD_eq_getElem _ _ hi, List.getElem_map]
    ring
  have hden : dotSum (c.den.dropLast.map fun a => a * if integ then 1 else 0)
        (window (iirOut c integ g u) c.den.length (n + 1)).dropLast =
      (if integ then 1 else 0) *
        ∑ i ∈ Finset.range (c.den.length - 1), c.den.getD i 0 * back (iirOut c integ g u) n (c.den.length - 1 - i) := by
    have h := dotSum_eq (c.den.dropLast.map fun a => a * if integ then (1 : K) else 0)
      (fun i => backPrev (iirOut c integ g u) (n + 1) (c.den.length - 1 - i))
    rw [List.length_map, List.length_dropLast] at h
    have hw : (window (iirOut c integ g u) c.den.length (n + 1)).dropLast =
        (List.range (c.den.length - 1)).map fun i => backPrev (iirOut c integ g u) (n + 1) (c.den.length - 1 - i) := by
      unfold window
      have hlen : c.den.length = (c.den.length - 1) + 1 := by
        have := List.length_pos_iff.2 hd; omega
      rw [hlen, List.range_succ]
      simp
    rw [hw, h, Finset.mul_sum]
    apply Finset.sum_congr rfl
    intro i hi
    have hi := Finset.mem_range.1 hi
    rw [backPrev_succ, List.getD_eq_getElem _ _ (by simpa using hi), List.getD_eq_getElem _ _ (by omega), List.getElem_map,
      List.getElem_dropLast]
    ring
  have h0 : iirOut c integ g u n = (iirStep c integ (g n) (u n) (iirState c integ g u n)).2 := rfl
  rw [h0, iirState_eq c hn hd]
  simp only [iirStep]
  rw [setLast_append, window_shift _ _ _ (List.length_pos_iff.2 hn), hnum,
    window_shift_dropLast _ _ _ (List.length_pos_iff.2 hd), hden]

/-- **C29** (difference equation): with the integration on and a leading denominator coefficient that is not zero, the output
of every step satisfies `∑ den_i y(n - (N - i)) = g(n) ∑ num_i u(n - (M - i))`, with zero initial conditions. -/
theorem C29_difference_equation (c : IirCoef K) (hn : c.num ≠ []) (hlast : c.den.getLastD 0 ≠ 0) (g u : Nat → K) (n : Nat) :
    ∑ i ∈ Finset.range c.den.length, c.den.getD i 0 * back (iirOut c true g u) n (c.den.length - 1 - i) =
      g n * ∑ i ∈ Finset.range c.num.length, c.num.getD i 0 * back u n (c.num.length - 1 - i) := by
  have hd : c.den ≠ [] := by
    rintro h; rw [h] at hlast; simp at hlast
  have h := iirOut_eq c hn hd true g u n
  have hlen : c.den.length = (c.den.length - 1) + 1 := by
    have := List.length_pos_iff.2 hd; omega
  rw [hlen, Finset.sum_range_succ]
  simp only [Nat.add_sub_cancel, Nat.sub_self]
  have hb : back (iirOut c true g u) n 0 = iirOut c true g u n := by simp [back]
  rw [hb, ← getLastD_eq]
  simp only [if_true, one_mul] at h
  generalize hS : ∑ i ∈ Finset.range (c.den.length - 1), c.den.getD i 0 * back (iirOut c true g u) n (c.den.length - 1 - i) = S at h
  rw [h]
  field_simp
  ring

/-- **C29** (no integration): without integration the filter is the finite filter given by the numerator. -/
theorem C29_fir (c : IirCoef K) (hn : c.num ≠ []) (hd : c.den ≠ []) (g u : Nat → K) (n : Nat) :
    iirOut c false g u n = 1 / c.den.getLastD 0 *
      (g n * ∑ i ∈ Finset.range c.num.length, c.num.getD i 0 * back u n (c.num.length - 1 - i)) := by
  rw [iirOut_eq c hn hd]
  simp

/-- **C29** (linearity): for a given gain modulation the output is a linear function of the input sequence. -/
theorem C29_linear (c : IirCoef K) (hn : c.num ≠ []) (hd : c.den ≠ []) (integ : Bool) (g u v : Nat → K) (a b : K) (n : Nat) :
    iirOut c integ g (fun k => a * u k + b * v k) n = a * iirOut c integ g u n + b * iirOut c integ g v n := by
  induction n using Nat.strong_induction_on with
  | _ n ih =>
    rw [iirOut_eq c hn hd integ g (fun k => a * u k + b * v k), iirOut_eq c hn hd integ g u, iirOut_eq c hn hd integ g v]
    have h1 : ∀ i, back (fun k => a * u k + b * v k) n i = a * back u n i + b * back v n i := by
      intro i; unfold back; split <;> simp
    have h2 : ∀ i ∈ Finset.range (c.den.length - 1),
        c.den.getD i 0 * back (iirOut c integ g fun k => a * u k + b * v k) n (c.den.length - 1 - i) =
        a * (c.den.getD i 0 * back (iirOut c integ g u) n (c.den.length - 1 - i)) +
          b * (c.den.getD i 0 * back (iirOut c integ g v) n (c.den.length - 1 - i)) := by
      intro i hi
      have hi := Finset.mem_range.1 hi
      unfold back
      split
      · rw [ih (n - (c.den.length - 1 - i)) (by omega)]; ring
      · ring
    rw [Finset.sum_congr rfl h2, Finset.sum_add_distrib, ← Finset.mul_sum, ← Finset.mul_sum]
    have h3 : ∑ i ∈ Finset.range c.num.length, c.num.getD i 0 * back (fun k => a * u k + b * v k) n (c.num.length - 1 - i) =
        a * (∑ i ∈ Finset.range c.num.length, c.num.getD i 0 * back u n (c.num.length - 1 - i)) +
        b * (∑ i ∈ Finset.range c.num.length, c.num.getD i 0 * back v n (c.num.length - 1 - i)) := by
      rw [Finset.mul_sum, Finset.mul_sum, ← Finset.sum_add_distrib]
      apply Finset.sum_congr rfl
      intro i _
      rw [h1]; ring
    rw [h3]
    ring

/-- **C29** (integrator): the integrator with gain `gain` and forgetting factor `ff` outputs the leaky integral of its input. -/
theorem C29_integrator (gain ff : K) (g u : Nat → K) (n : Nat) :
    iirOut (integratorCoef gain ff) true g u n = gain * ∑ i ∈ Finset.range (n + 1), ff ^ (n - i) * (g i * u i) := by
  have hrec : ∀ n, iirOut (integratorCoef gain ff) true g u n =
      ff * backPrev (iirOut (integratorCoef gain ff) true g u) n 0 + gain * (g n * u n) := by
    intro n
    have h := C29_difference_equation (integratorCoef gain ff) (by simp [integratorCoef]) (by simp [integratorCoef]) g u n
    simp only [integratorCoef, List.length_cons, List.length_nil, Finset.sum_range_succ, Finset.sum_range_zero] at h
    simp only [List.getD_cons_zero, List.getD_cons_succ] at h
    norm_num at h
    rw [show (1 : Nat) = 0 + 1 from rfl, back_succ] at h
    have hb : ∀ y : Nat → K, back y n 0 = y n := by intro y; simp [back]
    rw [hb, hb] at h
    have h' : iirOut (integratorCoef gain ff) true g u n = ff * backPrev (iirOut (integratorCoef gain ff) true g u) n 0 +
        (-(ff * backPrev (iirOut (integratorCoef gain ff) true g u) n 0) + iirOut (integratorCoef gain ff) true g u n) := by ring
    rw [h']
    unfold integratorCoef
    rw [h]; ring
  induction n with
  | zero => rw [hrec]; simp [backPrev]
  | succ n ih =>
    rw [hrec]
    have hb : backPrev (iirOut (integratorCoef gain ff) true g u) (n + 1) 0 = iirOut (integratorCoef gain ff) true g u n := by
      simp [backPrev]
    rw [hb, ih, Finset.sum_range_succ _ (n + 1), Nat.sub_self, pow_zero, one_mul, mul_add, ← mul_assoc, mul_comm ff gain, mul_assoc,
      Finset.mul_sum]
    congr 2
    apply Finset.sum_congr rfl
    intro i hi
    have := Finset.mem_range.1 hi
    rw [show n + 1 - i = (n - i) + 1 by omega, pow_succ]
    ring

/-- A second order filter: the coefficients of `1 / (z² - z/2 + 1/4)`. -/
example : let c : IirCoef ℚ := ⟨[1, 0, 0], [1/4, -1/2, 1]⟩
    c.num ≠ [] ∧ c.den.getLastD 0 ≠ 0 ∧
      ((List.range 5).map fun n => iirOut c true (fun _ => 1) (fun n => if n = 0 then 1 else 0) n) = [0, 0, 1, 1/2, 0] := by
  refine ⟨by simp, by norm_num, by decide +kernel⟩

example : ((List.range 4).map fun n => iirOut (integratorCoef (1/2 : ℚ) (9/10)) true (fun _ => 1) (fun _ => 1) n)
    = [1/2, 19/20, 271/200, 3439/2000] := by decide +kernel

/-! ### C30: state space filter -/

/-- **C30** (integrator): for every input and gain modulation the state space integrator and the IIR integrator with the same
parameters give the same outputs. -/
theorem C30_same_integrator (gain ff : K) (g u : Nat → K) (n : Nat) :
    ssrOut (integratorSsr gain ff) true (fun k _ => g k) (fun k _ => u k) n () = iirOut (integratorCoef gain ff) true g u n := by
  rw [C29_integrator]
  have hout : ∀ n, ssrOut (integratorSsr gain ff) true (fun k _ => g k) (fun k _ => u k) n () =
      ssrState (integratorSsr gain ff) true (fun k _ => g k) (fun k _ => u k) (n + 1) 0 := by
    intro n
    simp [ssrOut, ssrState, ssrStep, integratorSsr]
  rw [hout]
  have hrec : ∀ n, ssrState (integratorSsr gain ff) true (fun k _ => g k) (fun k _ => u k) (n + 1) 0 =
      ff * ssrState (integratorSsr gain ff) true (fun k _ => g k) (fun k _ => u k) n 0 + gain * (u n * g n) := by
    intro n
    rw [ssrState]
    simp [ssrStep, integratorSsr]
  induction n with
  | zero => rw [hrec]; simp [ssrState, mul_comm]
  | succ n ih =>
    rw [hrec, ih, Finset.sum_range_succ _ (n + 1), Nat.sub_self, pow_zero, one_mul, mul_add, ← mul_assoc, mul_comm ff gain, mul_assoc,
      Finset.mul_sum, mul_comm (u (n + 1))]
    congr 2
    apply Finset.sum_congr rfl
    intro i hi
    have := Finset.mem_range.1 hi
    rw [show n + 1 - i = (n - i) + 1 by omega, pow_succ]
    ring

theorem blockSsr_state {m : Nat} {k : Fin m → Nat} (f : (i : Fin m) → Ssr K (Fin (k i)) Unit) (ns : Bool) (g u : Nat → Fin m → K)
    (n : Nat) (i : Fin m) (j : Fin (k i)) :
    ssrState (blockSsr f) ns g u n ⟨i, j⟩ = ssrState (f i) ns (fun t _ => g t i) (fun t _ => u t i) n j := by
  induction n generalizing i j with
  | zero => rfl
  | succ n ih =>
    simp only [ssrState, ssrStep, blockSsr]
    congr 1
    · rw [Fintype.sum_sigma, Finset.sum_eq_single i]
      · apply Finset.sum_congr rfl
        intro s _
        rw [Matrix.blockDiagonal'_apply_eq, ← ih]
        rfl
      · intro b _ hb
        apply Finset.sum_eq_zero
        intro s _
        rw [Matrix.blockDiagonal'_apply_ne _ _ _ (Ne.symm hb), zero_mul]
      · intro h; exact absurd (Finset.mem_univ _) h
    · rw [Finset.sum_eq_single i]
      · simp
      · intro b _ hb
        rw [if_neg (Ne.symm hb), zero_mul]
      · intro h; exact absurd (Finset.mem_univ _) h

/-- **C30** (independence): in the block diagonal system every output is the output of its own filter run alone on its own
input, for both choices of the state used for the output. -/
theorem C30_independent {m : Nat} {k : Fin m → Nat} (f : (i : Fin m) → Ssr K (Fin (k i)) Unit) (ns : Bool) (g u : Nat → Fin m → K)
    (n : Nat) (i : Fin m) :
    ssrOut (blockSsr f) ns g u n i = ssrOut (f i) ns (fun t _ => g t i) (fun t _ => u t i) n () := by
  have hx : ∀ j : Fin (k i), (if ns then ssrState (blockSsr f) ns g u (n + 1) else ssrState (blockSsr f) ns g u n) ⟨i, j⟩ =
      (if ns then ssrState (f i) ns (fun t _ => g t i) (fun t _ => u t i) (n + 1)
        else ssrState (f i) ns (fun t _ => g t i) (fun t _ => u t i) n) j := by
    intro j
    cases ns
    · simpa using blockSsr_state f false g u n i j
    · simpa using blockSsr_state f true g u (n + 1) i j
  have hL : ssrOut (blockSsr f) ns g u n i = (∑ s, (blockSsr f).C i s *
      (if ns then ssrState (blockSsr f) ns g u (n + 1) else ssrState (blockSsr f) ns g u n) s) +
        ∑ j, (blockSsr f).D i j * (u n j * g n j) := rfl
  have hR : ssrOut (f i) ns (fun t _ => g t i) (fun t _ => u t i) n () = (∑ s, (f i).C () s *
      (if ns then ssrState (f i) ns (fun t _ => g t i) (fun t _ => u t i) (n + 1)
        else ssrState (f i) ns (fun t _ => g t i) (fun t _ => u t i) n) s) +
        ∑ j, (f i).D () j * (u n i * g n i) := rfl
  rw [hL, hR]
  congr 1
  · rw [Fintype.sum_sigma, Finset.sum_eq_single i]
    · apply Finset.sum_congr rfl
      intro s _
      rw [hx]
      simp [blockSsr]
    · intro b _ hb
      apply Finset.sum_eq_zero
      intro s _
      simp [blockSsr, hb]
    · intro h; exact absurd (Finset.mem_univ _) h
  · rw [Finset.sum_eq_single i]
    · simp [blockSsr]
    · intro b _ hb
      simp [blockSsr, Ne.symm hb]
    · intro h; exact absurd (Finset.mem_univ _) h

/-- **C30**: the vector integrators of the two kinds are the same controller, mode by mode. -/
theorem C30_vector {m : Nat} (gain ff : Fin m → K) (g u : Nat → Fin m → K) (n : Nat) (i : Fin m) :
    ssrOut (blockSsr fun i => integratorSsr (gain i) (ff i)) true g u n i =
      iirOut (integratorCoef (gain i) (ff i)) true (fun t => g t i) (fun t => u t i) n := by
  rw [C30_independent, C30_same_integrator]

/-- With the output taken from the old state the two differ: the state space integrator is one step late. -/
theorem C30_old_state_late (gain ff : K) (g u : Nat → K) (n : Nat) :
    ssrOut (integratorSsr gain ff) false (fun k _ => g k) (fun k _ => u k) n () =
      backPrev (iirOut (integratorCoef gain ff) true g u) n 0 := by
  have hst : ∀ n, ssrState (integratorSsr gain ff) false (fun k _ => g k) (fun k _ => u k) n =
      ssrState (integratorSsr gain ff) true (fun k _ => g k) (fun k _ => u k) n := by
    intro n
    induction n with
    | zero => rfl
    | succ n ih => simp only [ssrState, ssrStep, ih]
  cases n with
  | zero => simp [ssrOut, ssrStep, ssrState, integratorSsr, backPrev]
  | succ n =>
    have : backPrev (iirOut (integratorCoef gain ff) true g u) (n + 1) 0 = iirOut (integratorCoef gain ff) true g u n := by
      simp [backPrev]
    rw [this, ← C30_same_integrator]
    have h1 : ssrOut (integratorSsr gain ff) false (fun k _ => g k) (fun k _ => u k) (n + 1) () =
        ssrState (integratorSsr gain ff) false (fun k _ => g k) (fun k _ => u k) (n + 1) 0 := by
      simp [ssrOut, ssrStep, integratorSsr]
    rw [h1, hst]
    simp [ssrOut, ssrState, ssrStep, integratorSsr]

/-- Two modes with different parameters. -/
example : ((List.range 3).map fun n => ssrOut (blockSsr (n := 2) (m := fun _ => 1) fun i => integratorSsr ([1/2, 1/4].getD i (0 : ℚ)) 1) true
    (fun _ _ => 1) (fun t i => if i = 0 then t else 1) n 1) = [1/4, 1/2, 3/4] := by decide +kernel

/-! ### C31: gains -/

theorem iirOut_scale (num den : List K) (hn : num ≠ []) (hd : den ≠ []) (r : K) (integ : Bool) (g u : Nat → K) (n : Nat) :
    iirOut ⟨num.map (· * r), den⟩ integ g u n = r * iirOut ⟨num, den⟩ integ g u n := by
  induction n using Nat.strong_induction_on with
  | _ n ih =>
    rw [iirOut_eq ⟨num.map (· * r), den⟩ (by simpa using hn) hd, iirOut_eq ⟨num, den⟩ hn hd]
    simp only [List.length_map]
    have h1 : ∑ i ∈ Finset.range num.length, (num.map (· * r)).getD i 0 * back u n (num.length - 1 - i) =
        r * ∑ i ∈ Finset.range num.length, num.getD i 0 * back u n (num.length - 1 - i) := by
      rw [Finset.mul_sum]
      apply Finset.sum_congr rfl
      intro i hi
      have hi := Finset.mem_range.1 hi
      rw [List.getD_eq_getElem _ _ (by simpa using hi), List.getD_eq_getElem _ _ hi, List.getElem_map]
      ring
    have h2 : ∑ i ∈ Finset.range (den.length - 1), den.getD i 0 * back (iirOut ⟨num.map (· * r), den⟩ integ g u) n (den.length - 1 - i) =
        r * ∑ i ∈ Finset.range (den.length - 1), den.getD i 0 * back (iirOut ⟨num, den⟩ integ g u) n (den.length - 1 - i) := by
      rw [Finset.mul_sum]
      apply Finset.sum_congr rfl
      intro i hi
      have hi := Finset.mem_range.1 hi
      unfold back
      split
      · rw [ih _ (by omega)]; ring
      · ring
    rw [h1, h2]
    ring

variable [DecidableEq K]

/-- Any sequence of `set_gain` calls on a filter. -/
def setGains (gs : List (Option K)) (s : GainState K) : GainState K := gs.foldl (fun s g => setGain g s) s

/-- **C31** (alignment): storing `ord` coefficients in the first columns of a wider array puts them in the last columns, after
zeros. -/
theorem C31_alignment (coefs : List K) (pad : Nat) :
    (setNum coefs.length (coefs ++ List.replicate pad 0)).num = List.replicate pad 0 ++ coefs := by
  unfold setNum alignCoef
  simp only [List.length_append, List.length_replicate, List.drop_left, List.take_left]
  by_cases h : pad = 0
  · subst h; simp
  · rw [if_pos ⟨by omega, by simp⟩]

omit [DecidableEq K] in
theorem setGain_normalized (g : Option K) (s : GainState K) : (setGain g s).normalized = s.normalized := rfl

/-- After any sequence of calls the gain is the last one given, or the original one, and the numerator is the normalised one
times this gain. -/
theorem setGains_eq (ord : Nat) (num : List K) (gs : List (Option K)) (h0 : (setNum ord num).gain ≠ 0) :
    setGains gs (setNum ord num) =
      let g := (gs.filterMap id).getLastD (setNum ord num).gain
      ⟨(setNum ord num).num.map (· * (g / (setNum ord num).gain)), g, (setNum ord num).normalized⟩ := by
  induction gs using List.reverseRecOn with
  | nil =>
    simp only [setGains, List.foldl_nil, List.filterMap_nil, List.getLastD_nil, div_self h0, mul_one, List.map_id']
  | append_singleton l a ih =>
    rw [setGains, List.foldl_append]
    change setGain a (setGains l (setNum ord num)) = _
    rw [ih]
    have hnorm : (setNum ord num).normalized = (setNum ord num).num.map fun a => a / (setNum ord num).gain := by
      have : (setNum ord num).normalized = (setNum ord num).num.map fun a => a / (if (setNum ord num).gain = 0 then 1 else (setNum ord num).gain) := rfl
      rw [this, if_neg h0]
    cases a with
    | none =>
      simp only [setGain, Option.getD_none, List.filterMap_append, List.filterMap_cons, List.filterMap_nil, List.append_nil, id]
      rw [hnorm]
      simp only [List.map_map]
      congr 1
      apply List.map_congr_left
      intro x _
      simp only [Function.comp]
      ring
    | some g =>
      simp only [setGain, Option.getD_some, List.filterMap_append, List.filterMap_cons, List.filterMap_nil, id,
        List.getLastD_concat]
      rw [hnorm]
      simp only [List.map_map]
      congr 1
      apply List.map_congr_left
      intro x _
      simp only [Function.comp]
      ring

/-- **C31**: after any sequence of `set_gain` calls in which `g` is the last value given to the filter (missing and not finite
entries count as not given), the reported gain is `g`, and the filter outputs `g / gain₀` times what it would have output with
the original coefficients, for every input. -/
theorem C31_set_gain (ord : Nat) (num den : List K) (gs : List (Option K)) (g₀ g : K) (h0 : (setNum ord num).gain = g₀) (hne : g₀ ≠ 0)
    (hg : (gs.filterMap id).getLastD g₀ = g) (hd : den ≠ []) :
    (setGains gs (setNum ord num)).gain = g ∧
    ∀ (integ : Bool) (m u : Nat → K) (n : Nat),
      iirOut ⟨(setGains gs (setNum ord num)).num, den⟩ integ m u n = g / g₀ * iirOut ⟨(setNum ord num).num, den⟩ integ m u n := by
  subst h0
  rw [setGains_eq ord num gs hne]
  refine ⟨hg, fun integ m u n => ?_⟩
  have hn : (setNum ord num).num ≠ [] := by
    intro h
    apply hne
    have : (setNum ord num).gain = (setNum ord num).num.getLastD 0 := rfl
    rw [this, h]; rfl
  rw [← hg]
  exact iirOut_scale _ _ hn hd _ integ m u n

/-- The gain reported after `set_num` is the last coefficient; `set_gain` keeps this true. -/
theorem C31_gain_is_coefficient (ord : Nat) (num : List K) (gs : List (Option K)) (h0 : (setNum ord num).gain ≠ 0) :
    (setGains gs (setNum ord num)).gain = (setGains gs (setNum ord num)).num.getLastD 0 := by
  rw [setGains_eq ord num gs h0]
  have hn : (setNum ord num).num ≠ [] := by
    intro h
    apply h0
    have : (setNum ord num).gain = (setNum ord num).num.getLastD 0 := rfl
    rw [this, h]; rfl
  have hlast : (setNum ord num).num.getLast hn = (setNum ord num).gain := by
    have : (setNum ord num).gain = (setNum ord num).num.getLastD 0 := rfl
    rw [this, List.getLastD_eq_getLast?, List.getLast?_eq_some_getLast hn, Option.getD_some]
  simp only [List.getLastD_eq_getLast?, List.getLast?_map, List.getLast?_eq_some_getLast hn, Option.map_some, Option.getD_some, hlast]
  field_simp

/-- A filter whose last coefficient is zero (as `1/(z - 1/2)`, or any delay) does not keep its coefficients when its entry is
missing: its numerator becomes zero although the gain was not given. -/
theorem C31_zero_gain_lost :
    (setGain none (setNum 2 [(1 : ℚ), 0])).num = [0, 0] ∧ (setNum 2 [(1 : ℚ), 0]).num = [1, 0] := by
  constructor <;> decide +kernel

/-- and a given gain is not the last coefficient. -/
theorem C31_zero_gain_mismatch :
    (setGain (some 2) (setNum 2 [(1 : ℚ), 0])).num = [2, 0] ∧ (setGain (some 2) (setNum 2 [(1 : ℚ), 0])).gain = 2 := by
  constructor <;> decide +kernel

example : (setNum 2 [(1 : ℚ), 1/2, 0]).gain = 1/2 ∧ ([some 3, none, some (1 : ℚ), none].filterMap id).getLastD (1/2) = 1 ∧
    (setGains [some 3, none, some 1, none] (setNum 2 [(1 : ℚ), 1/2, 0])).num = [0, 2, 1] := by
  refine ⟨by decide +kernel, by decide +kernel, by decide +kernel⟩

end

/-! ### C32: delay transfer function -/

section
variable {K : Type} [Field K] [CharZero K]

theorem delayTf_den (d : ℚ) : (delayTf (K := K) d).den = List.replicate ⌈d⌉₊ 0 ++ [1] := by
  unfold delayTf
  have : ((List.replicate (⌈d⌉₊ + 1) (0 : K)).set (⌈d⌉₊ + 1 - 1) 1) = List.replicate ⌈d⌉₊ 0 ++ [1] := by
    rw [List.replicate_succ', Nat.add_sub_cancel, List.set_append_right _ _ (by simp)]
    simp
  simp only [this]
  split <;> rfl

/-- A filter with denominator `z^N` is a finite filter. -/
theorem iirOut_fir (num : List K) (hn : num ≠ []) (N : Nat) (u : Nat → K) (n : Nat) :
    iirOut ⟨num, List.replicate N 0 ++ [1]⟩ true (fun _ => 1) u n =
      ∑ i ∈ Finset.range num.length, num.getD i 0 * back u n (num.length - 1 - i) := by
  rw [iirOut_eq _ hn (by simp)]
  have : ∑ i ∈ Finset.range ((List.replicate N (0 : K) ++ [1]).length - 1), (List.replicate N (0 : K) ++ [1]).getD i 0 *
      back (iirOut ⟨num, List.replicate N 0 ++ [1]⟩ true (fun _ => 1) u) n ((List.replicate N (0 : K) ++ [1]).length - 1 - i) = 0 := by
    apply Finset.sum_eq_zero
    intro i hi
    have hi : i < N := by simpa using hi
    rw [List.getD_append _ _ _ _ (by simpa using hi)]
    simp
  simp only [this]
  simp

/-- **C32**: the delay transfer function, run as an IIR filter, delays every sequence as the delay line of the controllers. -/
theorem C32_delay_tf (d : ℚ) (hd : 0 ≤ d) (u : Nat → K) (n : Nat) :
    iirOut (delayTf d) true (fun _ => 1) u n = delayedOut d u n := by
  have hc : delayTf (K := K) d = ⟨(delayTf d).num, List.replicate ⌈d⌉₊ 0 ++ [1]⟩ := by
    rw [← delayTf_den]
  rw [hc]
  by_cases hf : d = ⌊d⌋
  · obtain ⟨e, rfl⟩ : ∃ e : Nat, d = e := by
      refine ⟨⌊d⌋.toNat, ?_⟩
      have h0 : 0 ≤ ⌊d⌋ := Int.floor_nonneg.2 hd
      have : ((⌊d⌋.toNat : Int) : ℚ) = (⌊d⌋ : ℚ) := by rw [Int.toNat_of_nonneg h0]
      rw [← Int.cast_natCast, this]; exact hf
    have hnum : (delayTf (K := K) (e : ℚ)).num = 1 :: List.replicate e 0 := by
      unfold delayTf
      simp [List.replicate_succ]
    rw [hnum, iirOut_fir _ (by simp), C28_integer_delay, List.length_cons, List.length_replicate, Finset.sum_range_succ']
    rw [Finset.sum_eq_zero]
    · simp
    · intro i hi
      have := Finset.mem_range.1 hi
      simp [this]
  · have hpos : 0 < d := by
      rcases eq_or_lt_of_le hd with h | h
      · exfalso; apply hf; rw [← h]; simp
      · exact h
    have hceil : ⌈d⌉₊ = ⌊d⌋₊ + 1 := by
      rw [Nat.ceil_eq_iff (by omega)]
      have h1 := Nat.floor_le hpos.le
      have h2 := Nat.lt_floor_add_one d
      have h3 : (⌊d⌋₊ : ℚ) = (⌊d⌋ : ℚ) := by
        have := Int.natCast_floor_eq_floor hpos.le
        exact_mod_cast congrArg (fun x : Int => (x : ℚ)) this
      constructor
      · rw [Nat.add_sub_cancel]
        rcases lt_or_eq_of_le h1 with h | h
        · exact h
        · exact absurd (h.symm.trans h3) hf
      · push_cast; exact h2.le
    have hnum : (delayTf (K := K) d).num = ((d - ⌊d⌋ : ℚ) : K) :: (1 - ((d - ⌊d⌋ : ℚ) : K)) :: List.replicate ⌊d⌋₊ 0 := by
      unfold delayTf
      have : d - ⌊d⌋ ≠ 0 := sub_ne_zero.2 hf
      simp only [hceil]
      rw [if_pos this]
      simp [List.replicate_succ]
    rw [hnum, iirOut_fir _ (by simp), C28_fractional_delay d hpos hf, List.length_cons, List.length_cons, List.length_replicate,
      Finset.sum_range_succ', Finset.sum_range_succ', Finset.sum_eq_zero]
    · simp only [List.getD_cons_succ, List.getD_cons_zero, Nat.add_sub_cancel, Nat.sub_zero, zero_add]
    · intro i hi
      have := Finset.mem_range.1 hi
      simp [this]

end

example : (delayTf (K := ℚ) (3/2)).num = [1/2, 1/2, 0] ∧ (delayTf (K := ℚ) (3/2)).den = [0, 0, 1] := by
  constructor <;> decide +kernel

end Specula
