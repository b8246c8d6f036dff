import Verif.Model.Buffer
import Mathlib.Data.List.Induction
import Mathlib.Data.List.GetD
import Mathlib.Tactic.Ring
/-
C24: buffered data is complete, ordered and without duplicates.
-/
namespace Specula

variable {V : Type}

/-- The fresh samples of an input in a list of triggers, in order. -/
def samplesOf (k : String) (xs : List (FreshStep V)) : List V := xs.filterMap (·.fresh k)

theorem bufRun_append (size : Nat) (xs ys : List (FreshStep V)) (s : BufState V) :
    bufRun size (xs ++ ys) s =
      ((bufRun size ys (bufRun size xs s).1).1, (bufRun size xs s).2 ++ (bufRun size ys (bufRun size xs s).1).2) := by
  induction xs generalizing s with
  | nil => simp [bufRun]
  | cons x xs ih => simp [bufRun, ih]

/-- After `n` triggers the state holds what came after the last complete block, and the emissions so far are the complete
blocks. -/
theorem bufRun_state (size : Nat) (hs : 0 < size) (xs : List (FreshStep V)) :
    (bufRun size xs BufState.init).1 = ⟨fun k => samplesOf k (xs.drop (xs.length / size * size)), xs.length % size⟩ ∧
    (bufRun size xs BufState.init).2.map (fun e => (e.time, e.data)) =
      (List.range (xs.length / size)).map fun j =>
        (((xs.map (·.time)).getD ((j + 1) * size - 1) 0), fun k => samplesOf k ((xs.drop (j * size)).take size)) := by
  induction xs using List.reverseRecOn with
  | nil => simp [bufRun, BufState.init, samplesOf]
  | append_singleton xs x ih =>
    obtain ⟨ih1, ih2⟩ := ih
    rw [bufRun_append, ih1]
    have hlt := Nat.mod_lt xs.length hs
    have hdm : xs.length / size * size + xs.length % size = xs.length := by
      rw [Nat.mul_comm]; exact Nat.div_add_mod _ _
    -- the old blocks do not change
    have hold : (List.range (xs.length / size)).map (fun j =>
          ((((xs ++ [x]).map (·.time)).getD ((j + 1) * size - 1) 0),
            fun k => samplesOf k (((xs ++ [x]).drop (j * size)).take size))) =
        (List.range (xs.length / size)).map fun j =>
          (((xs.map (·.time)).getD ((j + 1) * size - 1) 0), fun k => samplesOf k ((xs.drop (j * size)).take size)) := by
      apply List.map_congr_left
      intro j hj
      have hj := List.mem_range.1 hj
      have h1 : (j + 1) * size ≤ xs.length / size * size := Nat.mul_le_mul_right _ hj
      have h1' : (j + 1) * size = j * size + size := by ring
      congr 1
      · rw [List.map_append, List.getD_append _ _ _ _ (by simp; omega)]
      · funext k
        rw [List.drop_append_of_le_length (by omega), List.take_append_of_le_length (by simp; omega)]
    by_cases hfull : xs.length % size + 1 ≥ size
    · have hdvd : size ∣ xs.length + 1 := ⟨xs.length / size + 1, by
        rw [Nat.mul_add, Nat.mul_comm size]; omega⟩
      have hdiv : (xs.length + 1) / size = xs.length / size + 1 := by rw [Nat.succ_div, if_pos hdvd]
      have hmod : (xs.length + 1) % size = 0 := Nat.mod_eq_zero_of_dvd hdvd
      have hmul : (xs.length / size + 1) * size = xs.length + 1 := by
        rw [← hdiv]; exact Nat.div_mul_cancel hdvd
      constructor
      · simp [bufRun, bufTrigger, hfull, BufState.init, hdiv, hmul, hmod, samplesOf]
      · simp only [List.length_append, List.length_singleton, hdiv, List.range_succ, List.map_append, ih2]
        congr 1
        · rw [← List.map_append] at *
          simpa using hold.symm
        · simp only [bufRun, bufTrigger, hfull, ite_true, List.map_cons, List.map_nil, List.append_nil, List.cons.injEq,
            and_true, Prod.mk.injEq]
          constructor
          · rw [hmul, List.getD_append_right _ _ _ _ (by simp)]
            simp
          · funext k
            rw [List.drop_append_of_le_length (by omega), List.take_of_length_le (by simp; omega)]
            cases hx : x.fresh k <;> simp [samplesOf, hx]
    · have hnd : ¬ size ∣ xs.length + 1 := by
        intro hd
        have := Nat.mod_eq_zero_of_dvd hd
        rw [Nat.add_mod, Nat.mod_eq_of_lt (show 1 < size by omega), Nat.mod_eq_of_lt (by omega)] at this
        omega
      have hdiv : (xs.length + 1) / size = xs.length / size := by rw [Nat.succ_div, if_neg hnd, Nat.add_zero]
      have hmod : (xs.length + 1) % size = xs.length % size + 1 := by
        rw [Nat.add_mod, Nat.mod_eq_of_lt (show 1 < size by omega), Nat.mod_eq_of_lt (by omega)]
      constructor
      · simp only [bufRun, bufTrigger, hfull, if_false, List.length_append, List.length_singleton, hdiv, hmod,
          BufState.mk.injEq, and_true]
        funext k
        rw [List.drop_append_of_le_length (by omega)]
        cases hx : x.fresh k <;> simp [samplesOf, hx]
      · simp only [bufRun, bufTrigger, hfull, if_false, List.length_append, List.length_singleton, hdiv, List.append_nil, ih2]
        exact hold.symm

/-- **C24** (blocks): the emissions during the run are, for each complete block of `size` triggers, the fresh samples of each
input in that block, at the time of its last trigger. -/
theorem C24_blocks (size : Nat) (hs : 0 < size) (xs : List (FreshStep V)) :
    (bufRun size xs BufState.init).2.map (fun e => (e.time, e.data)) =
      (List.range (xs.length / size)).map fun j =>
        (((xs.map (·.time)).getD ((j + 1) * size - 1) 0), fun k => samplesOf k ((xs.drop (j * size)).take size)) :=
  (bufRun_state size hs xs).2

/-- **C24** (complete): what is emitted for an input, the final emission included, put one after the other, is exactly the
sequence of its fresh samples: none lost, none twice, in order. -/
theorem C24_complete (size : Nat) (xs : List (FreshStep V)) (tEnd : Int) (k : String) :
    let r := bufRun size xs BufState.init
    ((emittedOn k (r.2 ++ bufFinalize tEnd r.1)).map (·.2)).flatten = samplesOf k xs := by
  have hem : ∀ log : List (Emission V), ((emittedOn k log).map (·.2)).flatten = (log.map (·.data k)).flatten := by
    intro log
    induction log with
    | nil => rfl
    | cons e log ih =>
      unfold emittedOn at ih ⊢
      rw [List.filterMap_cons]
      by_cases h : (e.data k).length = 0
      · rw [if_pos h]
        simp only [List.map_cons, List.flatten_cons, List.length_eq_zero_iff.1 h, List.nil_append]
        exact ih
      · rw [if_neg h]
        simp only [List.map_cons, List.flatten_cons]
        rw [ih]
  have hgen : ∀ (xs : List (FreshStep V)) (s : BufState V), (s.count = 0 → s.store k = []) →
      (((bufRun size xs s).2 ++ bufFinalize tEnd (bufRun size xs s).1).map (·.data k)).flatten = s.store k ++ samplesOf k xs := by
    intro xs
    induction xs with
    | nil =>
      intro s h0
      simp only [bufRun, bufFinalize, List.nil_append, samplesOf, List.filterMap_nil, List.append_nil]
      by_cases hc : s.count > 0
      · simp [hc]
      · simp [hc, h0 (by omega)]
    | cons x xs ih =>
      intro s h0
      simp only [bufRun, List.append_assoc, List.map_append, List.flatten_append]
      have h1 : samplesOf k (x :: xs) = (x.fresh k).toList ++ samplesOf k xs := by
        unfold samplesOf
        rw [List.filterMap_cons]
        cases x.fresh k <;> rfl
      have ih := ih (bufTrigger size x s).1
      rw [List.map_append, List.flatten_append] at ih
      rw [ih, h1]
      · unfold bufTrigger
        by_cases h : s.count + 1 ≥ size <;> simp [h, BufState.init]
      · unfold bufTrigger
        by_cases h : s.count + 1 ≥ size <;> simp [h, BufState.init]
  intro r
  rw [hem, hgen xs BufState.init (fun _ => rfl)]
  simp [BufState.init]

/-- Two inputs, one refreshed at every trigger and the other every second one, blocks of two triggers: three emissions. -/
example :
    let xs : List (FreshStep Nat) := (List.range 5).map fun (n : Nat) =>
      ⟨(n : Int) * 10, fun k => if k = "a" then some n else if k = "b" ∧ n % 2 = 1 then some (100 + n) else none⟩
    let r := bufRun 2 xs BufState.init
    emittedOn "a" (r.2 ++ bufFinalize 40 r.1) = [(10, [0, 1]), (30, [2, 3]), (40, [4])] ∧
    emittedOn "b" (r.2 ++ bufFinalize 40 r.1) = [(10, [101]), (30, [103])] := by
  constructor <;> rfl

end Specula
