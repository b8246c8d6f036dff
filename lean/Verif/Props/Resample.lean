import Verif.Model.Resample
import Verif.Spec.Resample
import Verif.Props.Float
import Mathlib.Algebra.BigOperators.Field
import Mathlib.Algebra.BigOperators.Ring.Finset
import Mathlib.Algebra.Order.Ring.Cast
import Mathlib.Data.Nat.Cast.Order.Field
import Mathlib.Order.Interval.Finset.Nat
import Mathlib.Tactic.Ring
import Mathlib.Tactic.FieldSimp
import Mathlib.Tactic.Linarith
import Mathlib.Tactic.Positivity
import Mathlib.Tactic.NormNum
import Mathlib.Tactic.GCongr
import Mathlib.Tactic.LinearCombination
/-
C37: rebinning and detector resampling.
-/
namespace Specula

/-! ### The least common multiple -/

theorem pyGcd_eq (a b : Nat) : pyGcd a b = Nat.gcd a b := by
  induction b using Nat.strongRecOn generalizing a with
  | ind b ih =>
    unfold pyGcd
    split
    · next h => subst h; simp
    · next h =>
      rw [ih (a % b) (Nat.mod_lt _ (Nat.pos_of_ne_zero h)), Nat.gcd_comm b, ← Nat.gcd_rec, Nat.gcd_comm]

theorem pyLcm_eq (a b : Nat) : pyLcm a b = Nat.lcm a b := by unfold pyLcm; rw [pyGcd_eq]; rfl

/-! ### The sampling grid -/

/-- The grid computed in floating point is the intended one: `new` elements, the i-th is the integer part of `i * old / new`. -/
def StepOk (old new : Nat) : Prop := sampleSize old new = new ∧ ∀ i < new, sampleIdx old new i = i * old / new

/-- **C37** (grid): the grid is right whenever the step is rounded upwards or is exact. -/
theorem C37_step_up (old new : Nat) (h0 : 0 < old) (hle : old ≤ new) (hs : old * new < 2 ^ 50)
    (hup : (old : ℚ) / new ≤ fl 53 ((old : ℚ) / new)) : StepOk old new := by
  have hn0 : 0 < new := lt_of_lt_of_le h0 hle
  have hoq : (0 : ℚ) < old := by exact_mod_cast h0
  have hnq : (0 : ℚ) < new := by exact_mod_cast hn0
  have hsq : (old : ℚ) * new < 2 ^ 50 := by exact_mod_cast hs
  have ho1 : (1 : ℚ) ≤ old := by exact_mod_cast h0
  have hnew : (new : ℚ) < 2 ^ 50 := by nlinarith
  have hnewN : new < 2 ^ 50 := by exact_mod_cast hnew
  have hq : (0 : ℚ) ≤ (old : ℚ) / new := by positivity
  have herr := abs_le.1 (fl_error (p := 53) hq)
  set s := fl 53 ((old : ℚ) / new) with hsdef
  have hs_pos : 0 < s := lt_of_lt_of_le (by positivity) hup
  have hs_up : s ≤ (old : ℚ) / new * (1 + 1 / 2 ^ 53) := by
    have := herr.2
    calc s = (s - old / new) + old / new := by ring
      _ ≤ (old : ℚ) / new / 2 ^ 53 + old / new := by linarith
      _ = _ := by ring
  constructor
  · unfold sampleSize sampleStep
    rw [← hsdef]
    have hx0 : (0 : ℚ) ≤ (old : ℚ) / s := by positivity
    have hx1 : (old : ℚ) / s ≤ new := by
      rw [div_le_iff₀ hs_pos]
      have := (div_le_iff₀ hnq).1 hup
      linarith
    have hf1 : fl 53 ((old : ℚ) / s) ≤ new := fl_le_of_le hx0 (FloatNum.nat (by omega)) hx1
    have hx2 : (new : ℚ) * (1 - 1 / 2 ^ 53) ≤ (old : ℚ) / s := by
      rw [le_div_iff₀ hs_pos]
      calc (new : ℚ) * (1 - 1 / 2 ^ 53) * s ≤ (new : ℚ) * (1 - 1 / 2 ^ 53) * ((old : ℚ) / new * (1 + 1 / 2 ^ 53)) := by
            apply mul_le_mul_of_nonneg_left hs_up
            apply mul_nonneg hnq.le; norm_num
        _ = (old : ℚ) * ((1 - 1 / 2 ^ 53) * (1 + 1 / 2 ^ 53)) := by field_simp
        _ ≤ old * 1 := by
            apply mul_le_mul_of_nonneg_left _ hoq.le; norm_num
        _ = old := by ring
    have herr2 := (abs_le.1 (fl_error (p := 53) hx0)).1
    have hf2 : (new : ℚ) - 1 < fl 53 ((old : ℚ) / s) := by
      have : (old : ℚ) / s / 2 ^ 53 ≤ new / 2 ^ 53 := by gcongr
      have h3 : (new : ℚ) * (1 - 1 / 2 ^ 53) - new / 2 ^ 53 ≤ fl 53 ((old : ℚ) / s) := by linarith
      have h4 : (new : ℚ) * (1 - 1 / 2 ^ 53) - new / 2 ^ 53 = new - new * (2 / 2 ^ 53) := by ring
      have h5 : (new : ℚ) * (2 / 2 ^ 53) < 1 := by
        calc (new : ℚ) * (2 / 2 ^ 53) < 2 ^ 50 * (2 / 2 ^ 53) := by gcongr
          _ ≤ 1 := by norm_num
      linarith
    have : ⌈fl 53 ((old : ℚ) / s)⌉ = (new : Int) := by
      rw [Int.ceil_eq_iff]
      push_cast
      exact ⟨hf2, hf1⟩
    rw [this]; simp
  · intro i hi
    unfold sampleIdx sampleStep
    rw [← hsdef]
    have hiq : (i : ℚ) < new := by exact_mod_cast hi
    have hi0 : (0 : ℚ) ≤ i := by positivity
    have hx0 : (0 : ℚ) ≤ (i : ℚ) * s := by positivity
    set k := i * old / new with hk
    have hk1 : k * new ≤ i * old := Nat.div_mul_le_self _ _
    have hk2 : i * old + 1 ≤ (k + 1) * new := by
      have := Nat.lt_mul_div_succ (i * old) hn0
      rw [← hk] at this
      nlinarith
    have hk1q : (k : ℚ) * new ≤ i * old := by exact_mod_cast hk1
    have hk2q : (i : ℚ) * old + 1 ≤ (k + 1) * new := by exact_mod_cast hk2
    have hkold : k < old := by
      have : i * old < new * old := Nat.mul_lt_mul_of_pos_right hi h0
      rw [hk, Nat.div_lt_iff_lt_mul hn0]; linarith
    have hlow : (k : ℚ) ≤ (i : ℚ) * s := by
      calc (k : ℚ) ≤ i * old / new := by rw [le_div_iff₀ hnq]; exact hk1q
        _ = i * (old / new) := by ring
        _ ≤ i * s := by gcongr
    have hf1 : (k : ℚ) ≤ fl 53 ((i : ℚ) * s) := le_fl_of_le hx0 (by norm_num) (FloatNum.nat (by omega)) hlow
    have hf2 : fl 53 ((i : ℚ) * s) < k + 1 := by
      have herr2 := (abs_le.1 (fl_error (p := 53) hx0)).2
      have h1 : fl 53 ((i : ℚ) * s) ≤ i * s * (1 + 1 / 2 ^ 53) := by
        have : (i : ℚ) * s * (1 + 1 / 2 ^ 53) = i * s / 2 ^ 53 + i * s := by ring
        linarith
      have h2 : (i : ℚ) * s ≤ i * old / new * (1 + 1 / 2 ^ 53) := by
        calc (i : ℚ) * s ≤ i * ((old : ℚ) / new * (1 + 1 / 2 ^ 53)) := by gcongr
          _ = _ := by ring
      have h3 : fl 53 ((i : ℚ) * s) ≤ i * old / new * (1 + 3 / 2 ^ 53) := by
        calc fl 53 ((i : ℚ) * s) ≤ i * s * (1 + 1 / 2 ^ 53) := h1
          _ ≤ i * old / new * (1 + 1 / 2 ^ 53) * (1 + 1 / 2 ^ 53) := by gcongr
          _ = i * old / new * ((1 + 1 / 2 ^ 53) * (1 + 1 / 2 ^ 53)) := by ring
          _ ≤ i * old / new * (1 + 3 / 2 ^ 53) := by gcongr; norm_num
      have h4 : (i : ℚ) * old / new ≤ k + 1 - 1 / new := by
        rw [div_le_iff₀ hnq]
        have : ((k : ℚ) + 1 - 1 / new) * new = (k + 1) * new - 1 := by field_simp
        linarith
      have h5 : (i : ℚ) * old / new ≤ old := by
        rw [div_le_iff₀ hnq]; nlinarith
      have h6 : (old : ℚ) * (3 / 2 ^ 53) < 1 / new := by
        rw [lt_div_iff₀ hnq]
        calc (old : ℚ) * (3 / 2 ^ 53) * new = old * new * (3 / 2 ^ 53) := by ring
          _ ≤ 2 ^ 50 * (3 / 2 ^ 53) := by gcongr
          _ < 1 := by norm_num
      have h7 : (i : ℚ) * old / new * (3 / 2 ^ 53) ≤ old * (3 / 2 ^ 53) := by gcongr
      have h8 : (i : ℚ) * old / new * (1 + 3 / 2 ^ 53) = i * old / new + i * old / new * (3 / 2 ^ 53) := by ring
      linarith
    have : ⌊fl 53 ((i : ℚ) * s)⌋ = (k : Int) := by
      rw [Int.floor_eq_iff]
      push_cast
      exact ⟨hf1, hf2⟩
    rw [this]; simp

theorem stepOk_self (n : Nat) (h0 : 0 < n) (hs : n * n < 2 ^ 50) : StepOk n n := by
  refine C37_step_up n n h0 le_rfl hs ?_
  have hq : (n : ℚ) / n = 1 := div_self (by exact_mod_cast h0.ne')
  rw [hq, fl_exact (by norm_num) ⟨1, 0, by norm_num, by simp⟩]

/-- Upsampling by a power of two is exact. -/
theorem stepOk_pow_two (o k : Nat) (h0 : 0 < o) (hs : o * (o * 2 ^ k) < 2 ^ 50) : StepOk o (o * 2 ^ k) := by
  refine C37_step_up _ _ h0 (Nat.le_mul_of_pos_right _ (Nat.two_pow_pos k)) hs ?_
  have ho : (o : ℚ) ≠ 0 := by exact_mod_cast h0.ne'
  have hq : (o : ℚ) / (o * 2 ^ k : Nat) = ((1 : Nat) : ℚ) * (2 : ℚ) ^ (-(k : Int)) := by
    push_cast
    rw [zpow_neg, zpow_natCast]
    field_simp
  rw [fl_exact (by norm_num) ⟨1, -(k : Int), by norm_num, hq⟩]

/-- A number very close to a natural number is rounded to it. -/
theorem fl_near_nat {n : Nat} {x : ℚ} (hn : 0 < n) (hb : n < 2 ^ 50) (h1 : (n : ℚ) * (1 - 1 / 2 ^ 54) ≤ x)
    (h2 : x ≤ (n : ℚ) * (1 + 1 / 2 ^ 54 + 1 / 2 ^ 105)) : fl 53 x = n := by
  have hnq : (1 : ℚ) ≤ n := by exact_mod_cast hn
  have hbq : (n : ℚ) < 2 ^ 50 := by exact_mod_cast hb
  have hx0 : 0 < x := lt_of_lt_of_le (by apply mul_pos (by linarith); norm_num) h1
  -- the binade of n
  set e := Nat.log 2 n with he
  have e1 : (2 : ℚ) ^ (e : Int) ≤ n := by rw [zpow_natCast]; exact_mod_cast Nat.pow_log_le_self 2 hn.ne'
  have e2 : (n : ℚ) + 1 ≤ (2 : ℚ) ^ ((e : Int) + 1) := by
    have : n + 1 ≤ 2 ^ (e + 1) := Nat.lt_pow_succ_log_self (by norm_num) n
    have h : (e : Int) + 1 = ((e + 1 : Nat) : Int) := by push_cast; ring
    rw [h, zpow_natCast]; exact_mod_cast this
  have e3 : (2 : ℚ) ^ ((e : Int) + 1) = 2 * 2 ^ (e : Int) := by rw [zpow_add₀ (by norm_num)]; ring
  have hp : (0 : ℚ) < 2 ^ (e : Int) := two_zpow_pos _
  have hxup : x < (2 : ℚ) ^ ((e : Int) + 1) := by
    have : (n : ℚ) * (1 / 2 ^ 54 + 1 / 2 ^ 105) < 1 := by
      calc (n : ℚ) * (1 / 2 ^ 54 + 1 / 2 ^ 105) ≤ 2 ^ 50 * (1 / 2 ^ 54 + 1 / 2 ^ 105) := by gcongr
        _ < 1 := by norm_num
    have h3 : (n : ℚ) * (1 + 1 / 2 ^ 54 + 1 / 2 ^ 105) = n + n * (1 / 2 ^ 54 + 1 / 2 ^ 105) := by ring
    linarith
  by_cases hlow : (2 : ℚ) ^ (e : Int) ≤ x
  · have hu : (2 : ℚ) ^ ((e : Int) + 1 - ((53 : Nat) : Int)) = 2 ^ (e : Int) / 2 ^ 52 := by
      rw [show (e : Int) + 1 - ((53 : Nat) : Int) = (e : Int) - 52 by push_cast; ring, zpow_sub₀ (by norm_num)]
      norm_num
    have hepos : (e : Int) ≤ 49 := by
      have : e < 50 := Nat.log_lt_of_lt_pow hn.ne' hb
      omega
    -- n is a multiple of the unit
    have hmul : ((n * 2 ^ (52 - e) : Nat) : ℚ) * (2 ^ (e : Int) / 2 ^ 52) = n := by
      have : (2 : ℚ) ^ (52 - e) * 2 ^ e = 2 ^ 52 := by rw [← pow_add]; congr 1; omega
      push_cast
      rw [zpow_natCast]
      rw [mul_assoc, ← mul_div_assoc, this, div_self (by norm_num), mul_one]
    rw [fl_eval (e : Int) ((n * 2 ^ (52 - e) : Nat) : Int) hlow hxup ?_, hu]
    · push_cast at hmul ⊢; exact hmul
    · rw [hu]
      have hupos : (0 : ℚ) < 2 ^ (e : Int) / 2 ^ 52 := by positivity
      have : x / (2 ^ (e : Int) / 2 ^ 52) - (((n * 2 ^ (52 - e) : Nat) : Int) : ℚ) = (x - n) / (2 ^ (e : Int) / 2 ^ 52) := by
        rw [sub_div]
        congr 1
        rw [eq_div_iff hupos.ne']
        exact_mod_cast hmul
      rw [this, abs_div, abs_of_pos hupos, div_lt_iff₀ hupos, abs_lt]
      have hn2 : (n : ℚ) ≤ 2 * 2 ^ (e : Int) - 1 := by linarith
      have hP : (2 : ℚ) ^ (e : Int) < 2 ^ 50 := lt_of_le_of_lt e1 hbq
      generalize (2 : ℚ) ^ (e : Int) = P at *
      constructor <;> linarith
  · rw [not_le] at hlow
    -- then n is the power of two itself
    have hnp : (n : ℚ) = 2 ^ (e : Int) := by
      by_contra hne
      have hlt : (2 : ℚ) ^ (e : Int) < n := lt_of_le_of_ne e1 (Ne.symm hne)
      have : (2 : ℚ) ^ (e : Int) + 1 ≤ n := by
        rw [zpow_natCast] at hlt ⊢
        have : 2 ^ e < n := by exact_mod_cast hlt
        have : 2 ^ e + 1 ≤ n := this
        exact_mod_cast this
      have h3 : (n : ℚ) * (1 / 2 ^ 54) < 1 := by
        calc (n : ℚ) * (1 / 2 ^ 54) ≤ 2 ^ 50 * (1 / 2 ^ 54) := by gcongr
          _ < 1 := by norm_num
      linarith
    have hq : (2 : ℚ) ^ ((e : Int) - 1) = n / 2 := by rw [zpow_sub₀ (by norm_num), hnp]; norm_num
    have hl1 : (2 : ℚ) ^ ((e : Int) - 1) ≤ x := by rw [hq]; linarith
    have hl2 : x < (2 : ℚ) ^ ((e : Int) - 1 + 1) := by rw [sub_add_cancel]; exact hlow
    rw [fl_pos_eq hx0, ulp_eq hl1 hl2]
    have hu : (2 : ℚ) ^ ((e : Int) - 1 + 1 - ((53 : Nat) : Int)) = n / 2 ^ 53 := by
      rw [show (e : Int) - 1 + 1 - ((53 : Nat) : Int) = (e : Int) - 53 by push_cast; ring, zpow_sub₀ (by norm_num), hnp]
      norm_num
    rw [hu]
    have hn0 : (n : ℚ) ≠ 0 := by linarith
    have hy1 : (2 : ℚ) ^ 53 - 1 / 2 ≤ x / (n / 2 ^ 53) := by
      rw [le_div_iff₀ (by positivity)]
      calc ((2 : ℚ) ^ 53 - 1 / 2) * (n / 2 ^ 53) = n * (1 - 1 / 2 ^ 54) := by ring
        _ ≤ x := h1
    have hy2 : x / (n / 2 ^ 53) < 2 ^ 53 := by
      rw [div_lt_iff₀ (by positivity)]
      calc x < n := by rw [hnp]; exact hlow
        _ = 2 ^ 53 * (n / 2 ^ 53) := by field_simp
    have hr : roundEven (x / (n / 2 ^ 53)) = 2 ^ 53 := by
      have hfl : ⌊x / (n / 2 ^ 53)⌋ = 2 ^ 53 - 1 := by
        rw [Int.floor_eq_iff]
        push_cast
        constructor
        · linarith
        · linarith
      unfold roundEven
      simp only [hfl]
      push_cast
      rw [if_neg (by linarith)]
      split
      · norm_num
      · norm_num
    rw [hr]
    push_cast
    rw [mul_div_assoc', mul_comm, mul_div_assoc]
    norm_num

/-- **C37** (grid): the grid is right also when the step is rounded downwards by at most one part in 2^54. -/
theorem C37_step_near (old k : Nat) (h0 : 0 < old) (hk : 0 < k) (hs : old * (old * k) < 2 ^ 50)
    (hnear : (1 : ℚ) / k * (1 - 1 / 2 ^ 54) ≤ fl 53 ((1 : ℚ) / k)) (hdown : fl 53 ((1 : ℚ) / k) ≤ 1 / k) :
    StepOk old (old * k) := by
  have hoq : (0 : ℚ) < old := by exact_mod_cast h0
  have hkq : (0 : ℚ) < k := by exact_mod_cast hk
  have hn0 : 0 < old * k := Nat.mul_pos h0 hk
  have hb : old * k < 2 ^ 50 := lt_of_le_of_lt (Nat.le_mul_of_pos_left _ h0) hs
  have hstep : sampleStep old (old * k) = fl 53 ((1 : ℚ) / k) := by
    unfold sampleStep
    congr 1
    push_cast
    field_simp
  have hs0 : 0 < fl 53 ((1 : ℚ) / k) := lt_of_lt_of_le (by apply mul_pos (by positivity); norm_num) hnear
  constructor
  · unfold sampleSize
    rw [hstep, fl_near_nat (n := old * k) hn0 hb]
    · rw [Int.ceil_natCast, Int.toNat_natCast]
    · rw [le_div_iff₀ hs0]
      push_cast
      calc (old : ℚ) * k * (1 - 1 / 2 ^ 54) * fl 53 (1 / k) ≤ (old : ℚ) * k * (1 - 1 / 2 ^ 54) * (1 / k) := by
            apply mul_le_mul_of_nonneg_left hdown
            apply mul_nonneg (by positivity); norm_num
        _ = (old : ℚ) * (1 - 1 / 2 ^ 54) := by field_simp
        _ ≤ (old : ℚ) := by linarith
    · rw [div_le_iff₀ hs0]
      push_cast
      calc (old : ℚ) = old * k * (1 / k) := by field_simp
        _ ≤ old * k * ((1 + 1 / 2 ^ 54 + 1 / 2 ^ 105) * (1 / k * (1 - 1 / 2 ^ 54))) := by
            apply mul_le_mul_of_nonneg_left _ (by positivity)
            have h : (1 : ℚ) ≤ (1 + 1 / 2 ^ 54 + 1 / 2 ^ 105) * (1 - 1 / 2 ^ 54) := by norm_num
            calc (1 : ℚ) / k = 1 * (1 / k) := by ring
              _ ≤ ((1 + 1 / 2 ^ 54 + 1 / 2 ^ 105) * (1 - 1 / 2 ^ 54)) * (1 / k) := by gcongr
              _ = _ := by ring
        _ ≤ old * k * ((1 + 1 / 2 ^ 54 + 1 / 2 ^ 105) * fl 53 (1 / k)) := by gcongr
        _ = _ := by ring
  · intro i hi
    have hdiv : i * old / (old * k) = i / k := by rw [Nat.mul_comm i old, Nat.mul_div_mul_left _ _ h0]
    rw [hdiv]
    unfold sampleIdx
    rw [hstep]
    have hi0 : (0 : ℚ) ≤ i := by positivity
    have hx0 : (0 : ℚ) ≤ (i : ℚ) * fl 53 (1 / k) := by positivity
    set q := i / k with hq
    have hq1 : q * k ≤ i := Nat.div_mul_le_self _ _
    have hq2 : i + 1 ≤ (q + 1) * k := by
      have := Nat.lt_mul_div_succ i hk
      rw [← hq] at this
      nlinarith
    have hqb : q < old := by rw [hq, Nat.div_lt_iff_lt_mul hk]; exact hi
    have hob : old < 2 ^ 50 := lt_of_le_of_lt (Nat.le_mul_of_pos_right _ hk) hb
    have hq1q : (q : ℚ) * k ≤ i := by exact_mod_cast hq1
    have hq2q : (i : ℚ) + 1 ≤ (q + 1) * k := by exact_mod_cast hq2
    -- above: the next integer is not reached
    have hup : fl 53 ((i : ℚ) * fl 53 (1 / k)) < q + 1 := by
      have hbound : (i : ℚ) * fl 53 (1 / k) ≤ q + 1 - 1 / k := by
        calc (i : ℚ) * fl 53 (1 / k) ≤ i * (1 / k) := by gcongr
          _ ≤ ((q + 1) * k - 1) * (1 / k) := by gcongr; linarith
          _ = q + 1 - 1 / k := by field_simp
      have herr := (abs_le.1 (fl_error (p := 53) hx0)).2
      have hio : (i : ℚ) * fl 53 (1 / k) ≤ old := by
        have : (q : ℚ) + 1 ≤ old := by exact_mod_cast hqb
        have : (0 : ℚ) < 1 / k := by positivity
        linarith
      have hsm : (old : ℚ) / 2 ^ 53 < 1 / k := by
        rw [div_lt_div_iff₀ (by positivity) hkq]
        have : old * k < 2 ^ 53 := by omega
        have : (old : ℚ) * k < 2 ^ 53 := by exact_mod_cast this
        linarith
      have : (i : ℚ) * fl 53 (1 / k) / 2 ^ 53 ≤ old / 2 ^ 53 := by gcongr
      linarith
    -- below: the integer itself is reached
    have hlow : (q : ℚ) ≤ fl 53 ((i : ℚ) * fl 53 (1 / k)) := by
      rcases Nat.eq_zero_or_pos q with h | h
      · rw [h]; simpa using fl_nonneg (by norm_num) hx0
      · have hge : (q : ℚ) * (1 - 1 / 2 ^ 54) ≤ i * fl 53 (1 / k) := by
          calc (q : ℚ) * (1 - 1 / 2 ^ 54) = q * k * (1 / k * (1 - 1 / 2 ^ 54)) := by field_simp
            _ ≤ i * fl 53 (1 / k) := by
              apply mul_le_mul hq1q hnear _ hi0
              apply mul_nonneg (by positivity); norm_num
        by_cases hbig : (q : ℚ) ≤ i * fl 53 (1 / k)
        · exact le_fl_of_le hx0 (by norm_num) (FloatNum.nat (by omega)) hbig
        · rw [not_le] at hbig
          rw [fl_near_nat h (by omega) hge]
          have : (0 : ℚ) ≤ q := by positivity
          nlinarith
    have : ⌊fl 53 ((i : ℚ) * fl 53 (1 / k))⌋ = (q : Int) := by
      rw [Int.floor_eq_iff]
      push_cast
      exact ⟨hlow, hup⟩
    rw [this]; simp

/-! ### Rebinning -/

section
variable {K : Type} [Field K]

omit [Field K] in
theorem sum_blocks {M : Type} [AddCommMonoid M] (f : Nat → M) (m p : Nat) :
    ∑ i ∈ Finset.range m, ∑ u ∈ Finset.range p, f (i * p + u) = ∑ k ∈ Finset.range (m * p), f k := by
  induction m with
  | zero => simp
  | succ m ih => rw [Finset.sum_range_succ, ih, Nat.succ_mul, Finset.sum_range_add]

theorem rebinMean_ok (a : Img K) (m n : Nat) (hm : 0 < m) (hn : 0 < n) (hdm : m ∣ a.rows) (hdn : n ∣ a.cols) (hR : 0 < a.rows)
    (h : n ≤ a.rows ∨ (a.rows = m ∧ a.cols = n)) :
    ∃ t, rebin2d a m n false = some t ∧ t.rows = m ∧ t.cols = n ∧
      ∀ i j, t.px i j = blockMean a (a.rows / m) (a.cols / n) i j := by
  unfold rebin2d
  by_cases he : a.rows = m ∧ a.cols = n
  · rw [if_pos he]
    refine ⟨a, rfl, he.1, he.2, fun i j => ?_⟩
    have h1 : a.rows / m = 1 := by rw [he.1, Nat.div_self hm]
    have h2 : a.cols / n = 1 := by rw [he.2, Nat.div_self hn]
    rw [h1, h2]
    simp [blockMean]
  · have h' := h.resolve_right he
    rw [if_neg he]
    simp only [Bool.false_eq_true, if_false]
    unfold rebinMean
    rw [if_pos ⟨Nat.le_of_dvd hR hdm, h'⟩, if_neg (by omega), if_neg (by
      rw [not_or, not_not, not_not]
      exact ⟨Nat.mod_eq_zero_of_dvd hdm, Nat.mod_eq_zero_of_dvd hdn⟩)]
    exact ⟨_, rfl, rfl, rfl, fun _ _ => rfl⟩

/-- **C37** (which requests are accepted): a downsampling by integer factors is accepted exactly when the number of output
columns does not exceed the number of input *rows*. -/
theorem C37_rebin_accepts (a : Img K) (m n : Nat) (hR : 0 < a.rows) :
    rebin2d a m n false ≠ none ↔ (a.rows = m ∧ a.cols = n) ∨ (0 < m ∧ 0 < n ∧ m ∣ a.rows ∧ n ∣ a.cols ∧ n ≤ a.rows) := by
  constructor
  · intro h
    unfold rebin2d at h
    by_cases he : a.rows = m ∧ a.cols = n
    · exact .inl he
    · right
      rw [if_neg he] at h
      simp only [Bool.false_eq_true, if_false] at h
      unfold rebinMean at h
      split at h
      · next h1 =>
        split at h
        · exact absurd rfl h
        · next h2 =>
          split at h
          · exact absurd rfl h
          · next h3 =>
            rw [not_or, not_not, not_not] at h3
            exact ⟨by omega, by omega, Nat.dvd_of_mod_eq_zero h3.1, Nat.dvd_of_mod_eq_zero h3.2, h1.2⟩
      · exact absurd rfl h
  · rintro (⟨h1, h2⟩ | ⟨h1, h2, h3, h4, h5⟩)
    · unfold rebin2d; rw [if_pos ⟨h1, h2⟩]; simp
    · obtain ⟨t, ht, -⟩ := rebinMean_ok a m n h1 h2 h3 h4 hR (.inl h5)
      rw [ht]; simp

/-- A valid request is refused: halving a frame of two rows and eight columns. -/
theorem C37_rebin_rejects_wide (px : Nat → Nat → K) : rebin2d ⟨2, 8, px⟩ 1 4 false = none := by
  by_contra h
  rcases (C37_rebin_accepts ⟨2, 8, px⟩ 1 4 (by simp)).1 h with h | h
  · exact absurd h.1 (by simp)
  · exact absurd h.2.2.2.2 (by simp)

variable [CharZero K]

/-- **C37**: an accepted rebinning has the requested shape, every pixel is the mean of its block, and the mean of the image is
preserved. -/
theorem C37_rebin_mean (a r : Img K) (m n : Nat) (hR : 0 < a.rows) (hC : 0 < a.cols) (h : rebin2d a m n false = some r) :
    r.rows = m ∧ r.cols = n ∧ r.total / (m * n) = a.total / (a.rows * a.cols) ∧
    ∀ i j, r.px i j = (∑ u ∈ Finset.range (a.rows / m), ∑ v ∈ Finset.range (a.cols / n),
      a.px (i * (a.rows / m) + u) (j * (a.cols / n) + v)) / ((a.rows / m : Nat) * (a.cols / n : Nat)) := by
  have hacc := (C37_rebin_accepts a m n hR).1 (by rw [h]; simp)
  have hall : 0 < m ∧ 0 < n ∧ m ∣ a.rows ∧ n ∣ a.cols ∧ (n ≤ a.rows ∨ (a.rows = m ∧ a.cols = n)) := by
    rcases hacc with ⟨h1, h2⟩ | ⟨h1, h2, h3, h4, h5⟩
    · exact ⟨h1 ▸ hR, h2 ▸ hC, h1 ▸ dvd_rfl, h2 ▸ dvd_rfl, .inr ⟨h1, h2⟩⟩
    · exact ⟨h1, h2, h3, h4, .inl h5⟩
  obtain ⟨hm, hn, hdm, hdn, hor⟩ := hall
  obtain ⟨t, ht, hr, hc, hpx⟩ := rebinMean_ok a m n hm hn hdm hdn hR hor
  obtain rfl : t = r := by rw [h] at ht; exact (Option.some.inj ht).symm
  have hpx' : ∀ i j, t.px i j = (∑ u ∈ Finset.range (a.rows / m), ∑ v ∈ Finset.range (a.cols / n),
      a.px (i * (a.rows / m) + u) (j * (a.cols / n) + v)) / ((a.rows / m : Nat) * (a.cols / n : Nat)) := by
    intro i j
    rw [hpx]
    unfold blockMean
    rw [← Finset.sum_div, div_div]
    congr 1
    ring
  refine ⟨hr, hc, ?_, hpx'⟩
  obtain ⟨p, hp⟩ := hdm
  obtain ⟨q, hq⟩ := hdn
  have hp0 : 0 < p := Nat.pos_of_ne_zero (by rintro rfl; omega)
  have hq0 : 0 < q := Nat.pos_of_ne_zero (by rintro rfl; omega)
  have hpd : a.rows / m = p := by rw [hp, Nat.mul_div_cancel_left _ hm]
  have hqd : a.cols / n = q := by rw [hq, Nat.mul_div_cancel_left _ hn]
  have hpK : (p : K) ≠ 0 := Nat.cast_ne_zero.2 hp0.ne'
  have hqK : (q : K) ≠ 0 := Nat.cast_ne_zero.2 hq0.ne'
  have hmK : (m : K) ≠ 0 := Nat.cast_ne_zero.2 hm.ne'
  have hnK : (n : K) ≠ 0 := Nat.cast_ne_zero.2 hn.ne'
  have htot : t.total = a.total / (p * q) := by
    unfold Img.total
    rw [hr, hc]
    simp only [hpx', hpd, hqd]
    simp only [← Finset.sum_div]
    congr 1
    rw [hp, hq, ← sum_blocks _ m p]
    refine Finset.sum_congr rfl fun i _ => ?_
    rw [Finset.sum_comm]
    refine Finset.sum_congr rfl fun u _ => ?_
    rw [← sum_blocks _ n q]
  rw [htot, hp, hq]
  push_cast
  field_simp

end

/-! ### Detector resampling -/

section
variable {K : Type} [Field K] [LinearOrder K] [IsStrictOrderedRing K]

omit [LinearOrder K] [IsStrictOrderedRing K] in
theorem rebinSample_ok (a : Img K) (m n : Nat) (hm : StepOk a.rows m) (hn : StepOk a.cols n) (hR : 0 < a.rows) (hC : 0 < a.cols)
    (hm0 : 0 < m) (hn0 : 0 < n) :
    ∃ t, rebin2d a m n true = some t ∧ t.rows = m ∧ t.cols = n ∧
      ∀ i < m, ∀ j < n, t.px i j = a.px (i * a.rows / m) (j * a.cols / n) := by
  unfold rebin2d
  by_cases he : a.rows = m ∧ a.cols = n
  · rw [if_pos he]
    refine ⟨a, rfl, he.1, he.2, fun i _ j _ => ?_⟩
    rw [he.1, he.2, Nat.mul_div_cancel _ hm0, Nat.mul_div_cancel _ hn0]
  · rw [if_neg he]
    simp only [if_true]
    unfold rebinSample
    have hidx : ∀ {o k : Nat}, 0 < o → 0 < k → StepOk o k → ∀ i < sampleSize o k, sampleIdx o k i < o := by
      intro o k ho hk hs i hi
      rw [hs.1] at hi
      rw [hs.2 i hi, Nat.div_lt_iff_lt_mul hk, Nat.mul_comm o k]
      exact Nat.mul_lt_mul_of_pos_right hi ho
    rw [if_neg (by omega), if_pos ⟨hidx hR hm0 hm, hidx hC hn0 hn⟩]
    refine ⟨_, rfl, hm.1, hn.1, fun i hi j hj => ?_⟩
    simp only [hm.2 i hi, hn.2 j hj]

/-- Number of cells of the common grid in the input pixel `y` and in the output pixel `x`. -/
def cells (din dout y x : Nat) : Nat := min ((y + 1) * din) ((x + 1) * dout) - max (y * din) (x * dout)

omit [LinearOrder K] [IsStrictOrderedRing K] in
theorem sum_cells (o din dout x : Nat) (hdin : 0 < din) (f : Nat → K) (hx : (x + 1) * dout ≤ o * din) :
    ∑ u ∈ Finset.range dout, f ((x * dout + u) / din) = ∑ y ∈ Finset.range o, cells din dout y x * f y := by
  have h1 : ∑ u ∈ Finset.range dout, f ((x * dout + u) / din) = ∑ k ∈ Finset.Ico (x * dout) ((x + 1) * dout), f (k / din) := by
    rw [Finset.sum_Ico_eq_sum_range]
    congr 2
    rw [Nat.add_mul, Nat.one_mul, Nat.add_sub_cancel_left]
  rw [h1, ← Finset.sum_fiberwise_of_maps_to (s := Finset.Ico (x * dout) ((x + 1) * dout)) (t := Finset.range o)
    (g := fun k => k / din)]
  · refine Finset.sum_congr rfl fun y _ => ?_
    rw [Finset.sum_congr rfl (g := fun _ => f y) (by
      intro k hk
      rw [(Finset.mem_filter.1 hk).2])]
    rw [Finset.sum_const, nsmul_eq_mul]
    congr 2
    have : Finset.filter (fun k => k / din = y) (Finset.Ico (x * dout) ((x + 1) * dout)) =
        Finset.Ico (max (y * din) (x * dout)) (min ((y + 1) * din) ((x + 1) * dout)) := by
      ext k
      simp only [Finset.mem_filter, Finset.mem_Ico, max_le_iff, lt_min_iff]
      rw [Nat.div_eq_iff hdin]
      have : (y + 1) * din = y * din + din := by ring
      omega
    rw [this, Nat.card_Ico]
    rfl
  · intro k hk
    rw [Finset.mem_range, Nat.div_lt_iff_lt_mul hdin]
    exact lt_of_lt_of_le (Finset.mem_Ico.1 hk).2 hx

theorem pixelShare_cells (o n din dout y x : Nat) (ho : 0 < o) (hn : 0 < n) (hdin : 0 < din) (h : o * din = n * dout) :
    (pixelShare o n y x : K) = cells din dout y x / din := by
  have hdout : 0 < dout := Nat.pos_of_ne_zero (by rintro rfl; simp at h; omega)
  have hoK : (0 : K) < o := by exact_mod_cast ho
  have hnK : (0 : K) < n := by exact_mod_cast hn
  have hdK : (0 : K) < din := by exact_mod_cast hdin
  have hK : (o : K) * din = n * dout := by exact_mod_cast h
  have hM : (0 : K) < o * din := by positivity
  have e1 : ∀ v : K, v / o = v * din / (o * din) := fun v => by field_simp
  have e2 : ∀ v : K, v / n = v * dout / (o * din) := fun v => by rw [hK]; field_simp
  unfold pixelShare cells
  rw [e1, e2, e1, e2, min_div_div_right hM.le, max_div_div_right hM.le, ← sub_div]
  have hcast : (((min ((y + 1) * din) ((x + 1) * dout) - max (y * din) (x * dout) : Nat)) : K) =
      max 0 (min (((y : K) + 1) * din) (((x : K) + 1) * dout) - max ((y : K) * din) ((x : K) * dout)) := by
    rcases le_total (max (y * din) (x * dout)) (min ((y + 1) * din) ((x + 1) * dout)) with hle | hle
    · have : ((max (y * din) (x * dout) : Nat) : K) ≤ (min ((y + 1) * din) ((x + 1) * dout) : Nat) := by exact_mod_cast hle
      push_cast at this
      rw [Nat.cast_sub hle, max_eq_right (sub_nonneg.2 this)]
      push_cast; rfl
    · have : ((min ((y + 1) * din) ((x + 1) * dout) : Nat) : K) ≤ (max (y * din) (x * dout) : Nat) := by exact_mod_cast hle
      push_cast at this
      rw [Nat.sub_eq_zero_of_le hle, max_eq_left (sub_nonpos.2 this)]
      simp
  rw [hcast]
  have e3 : ∀ v : K, max 0 (v / (o * din)) = max 0 v / (o * din) := fun v => by
    rw [← max_div_div_right hM.le, zero_div]
  rw [e3]
  field_simp

/-- The shares of an input pixel add up to one: no light is lost or created. -/
theorem pixelShare_sum (o n y : Nat) (ho : 0 < o) (hn : 0 < n) (hy : y < o) :
    ∑ x ∈ Finset.range n, (pixelShare o n y x : K) = 1 := by
  simp only [pixelShare_cells o n n o y _ ho hn hn (Nat.mul_comm o n)]
  rw [← Finset.sum_div]
  have hnK : (n : K) ≠ 0 := Nat.cast_ne_zero.2 hn.ne'
  have hc : ∀ x, cells n o y x = cells o n x y := fun x => by unfold cells; rw [min_comm, max_comm]
  have h := sum_cells (K := ℚ) n o n y ho (fun _ => 1) (by
    rw [Nat.mul_comm n o]; exact Nat.mul_le_mul_right _ hy)
  simp only [mul_one, Finset.sum_const, Finset.card_range, nsmul_eq_mul] at h
  have h' : ∑ x ∈ Finset.range n, cells o n x y = n := by exact_mod_cast h.symm
  simp only [hc]
  rw [← Nat.cast_sum, h', div_self hnK]

/-- Resampling by area conserves the total. -/
theorem areaResample_total (o0 o1 n0 n1 : Nat) (px : Nat → Nat → K) (h0 : 0 < o0) (h1 : 0 < o1) (hn0 : 0 < n0) (hn1 : 0 < n1) :
    ∑ i ∈ Finset.range n0, ∑ j ∈ Finset.range n1, areaResample o0 o1 n0 n1 px i j =
      ∑ y ∈ Finset.range o0, ∑ x ∈ Finset.range o1, px y x := by
  unfold areaResample
  have e1 : ∀ i ∈ Finset.range n0, ∑ j ∈ Finset.range n1, ∑ y ∈ Finset.range o0, ∑ x ∈ Finset.range o1,
      (pixelShare o0 n0 y i * pixelShare o1 n1 x j * px y x : K) =
      ∑ y ∈ Finset.range o0, pixelShare o0 n0 y i * ∑ x ∈ Finset.range o1, px y x := by
    intro i _
    rw [Finset.sum_comm]
    refine Finset.sum_congr rfl fun y _ => ?_
    rw [Finset.sum_comm, Finset.mul_sum]
    refine Finset.sum_congr rfl fun x hx => ?_
    have : ∀ j, (pixelShare o0 n0 y i * pixelShare o1 n1 x j * px y x : K) = pixelShare o1 n1 x j * (pixelShare o0 n0 y i * px y x) :=
      fun j => by ring
    simp only [this]
    rw [← Finset.sum_mul, pixelShare_sum o1 n1 x h1 hn1 (Finset.mem_range.1 hx), one_mul]
  rw [Finset.sum_congr rfl e1, Finset.sum_comm]
  refine Finset.sum_congr rfl fun y hy => ?_
  rw [← Finset.sum_mul, pixelShare_sum o0 n0 y h0 hn0 (Finset.mem_range.1 hy), one_mul]

/-- One axis: mean of the samples of the common grid. -/
theorem axis_mean (o n m x : Nat) (ho : 0 < o) (hn : 0 < n) (hm : 0 < m) (hom : o ∣ m) (hnm : n ∣ m) (hx : x < n) (f : Nat → K) :
    (∑ u ∈ Finset.range (m / n), f ((x * (m / n) + u) * o / m)) / ((m / n : Nat) : K) =
      (∑ y ∈ Finset.range o, pixelShare o n y x * f y) * (n / o) := by
  obtain ⟨din, hdin⟩ := hom
  obtain ⟨dout, hdout⟩ := hnm
  have hd0 : 0 < din := Nat.pos_of_ne_zero (by rintro rfl; omega)
  have hd1 : 0 < dout := Nat.pos_of_ne_zero (by rintro rfl; omega)
  have e1 : m / n = dout := by rw [hdout, Nat.mul_div_cancel_left _ hn]
  have e2 : ∀ k, k * o / m = k / din := fun k => by rw [hdin, Nat.mul_comm k o, Nat.mul_div_mul_left _ _ ho]
  simp only [e1, e2]
  rw [sum_cells o din dout x hd0 f (by
    rw [← hdin, hdout]; exact Nat.mul_le_mul_right _ hx)]
  have hK : (o : K) * din = n * dout := by exact_mod_cast hdin.symm.trans hdout
  have hoK : (o : K) ≠ 0 := Nat.cast_ne_zero.2 ho.ne'
  have hnK : (n : K) ≠ 0 := Nat.cast_ne_zero.2 hn.ne'
  have hdK : (din : K) ≠ 0 := Nat.cast_ne_zero.2 hd0.ne'
  have hdK' : (dout : K) ≠ 0 := Nat.cast_ne_zero.2 hd1.ne'
  simp only [pixelShare_cells (K := K) o n din dout _ x ho hn hd0 (hdin.symm.trans hdout)]
  rw [Finset.sum_mul, Finset.sum_div]
  refine Finset.sum_congr rfl fun y _ => ?_
  field_simp
  linear_combination (cells din dout y x : K) * f y * hK

/-- Sizes for which `toccd` works: the sampling grids are computed right, and the checks of `rebin2d` on the number of columns
are passed (always true from a square to a square image). -/
structure ResampleOk (o0 o1 n0 n1 : Nat) : Prop where
  step0 : StepOk o0 (Nat.lcm o0 n0)
  step1 : StepOk o1 (Nat.lcm o1 n1)
  self1 : StepOk o1 o1
  self0 : StepOk n0 n0
  cols0 : o1 ≤ Nat.lcm o0 n0 ∨ Nat.lcm o0 n0 = n0
  cols1 : n1 ≤ n0 ∨ Nat.lcm o1 n1 = n1

/-- The image returned by `toccd`, whatever its total: the light of the input pixels in proportion to the overlap, divided by the
total of the rebinned image (at least `eps`) and multiplied by the requested total. -/
theorem toccd_raw (eps : K) (a : Img K) (n0 n1 : Nat) (setTotal : Option K) (hR : 0 < a.rows) (hC : 0 < a.cols) (hn0 : 0 < n0)
    (hn1 : 0 < n1) (hne : ¬ (a.rows = n0 ∧ a.cols = n1)) (hok : ResampleOk a.rows a.cols n0 n1) :
    ∃ r, toccd eps a n0 n1 setTotal = some r ∧ r.rows = n0 ∧ r.cols = n1 ∧
      ∀ i < n0, ∀ j < n1, r.px i j = areaResample a.rows a.cols n0 n1 a.px i j * ((n0 * n1) / (a.rows * a.cols)) /
        max (a.total * ((n0 * n1) / (a.rows * a.cols))) eps * setTotal.getD a.total := by
  have hm0 : 0 < Nat.lcm a.rows n0 := Nat.lcm_pos hR hn0
  have hm1 : 0 < Nat.lcm a.cols n1 := Nat.lcm_pos hC hn1
  obtain ⟨t1, h1, h1r, h1c, h1p⟩ := rebinSample_ok a (Nat.lcm a.rows n0) a.cols hok.step0 hok.self1 hR hC hm0 hC
  obtain ⟨t2, h2, h2r, h2c, h2p⟩ := rebinMean_ok t1 n0 a.cols hn0 hC (h1r ▸ Nat.dvd_lcm_right _ _) (h1c ▸ dvd_rfl) (h1r ▸ hm0)
    (by rw [h1r, h1c]; exact hok.cols0.imp id fun h => ⟨h, rfl⟩)
  obtain ⟨t3, h3, h3r, h3c, h3p⟩ := rebinSample_ok t2 n0 (Nat.lcm a.cols n1) (h2r ▸ hok.self0) (h2c ▸ hok.step1) (h2r ▸ hn0)
    (h2c ▸ hC) hn0 hm1
  obtain ⟨t4, h4, h4r, h4c, h4p⟩ := rebinMean_ok t3 n0 n1 hn0 hn1 (h3r ▸ dvd_rfl) (h3c ▸ Nat.dvd_lcm_right _ _) (h3r ▸ hn0)
    (by rw [h3r, h3c]; exact hok.cols1.imp id fun h => ⟨rfl, h⟩)
  -- the two halves
  have hp2 : ∀ i < n0, ∀ x < a.cols, t2.px i x = (∑ y ∈ Finset.range a.rows, pixelShare a.rows n0 y i * a.px y x) * (n0 / a.rows) := by
    intro i hi x hx
    rw [h2p, h1r, h1c, Nat.div_self hC]
    unfold blockMean
    simp only [Finset.range_one, Finset.sum_singleton, Nat.mul_one, Nat.add_zero, Nat.cast_one, div_one]
    rw [← axis_mean a.rows n0 (Nat.lcm a.rows n0) i hR hn0 hm0 (Nat.dvd_lcm_left _ _) (Nat.dvd_lcm_right _ _) hi (fun y => a.px y x)]
    congr 1
    refine Finset.sum_congr rfl fun u hu => ?_
    rw [h1p _ _ _ hx, Nat.mul_div_cancel _ hC]
    have hd : n0 * (Nat.lcm a.rows n0 / n0) = Nat.lcm a.rows n0 := Nat.mul_div_cancel' (Nat.dvd_lcm_right _ _)
    calc i * (Nat.lcm a.rows n0 / n0) + u < i * (Nat.lcm a.rows n0 / n0) + Nat.lcm a.rows n0 / n0 :=
          Nat.add_lt_add_left (Finset.mem_range.1 hu) _
      _ = (i + 1) * (Nat.lcm a.rows n0 / n0) := by ring
      _ ≤ n0 * (Nat.lcm a.rows n0 / n0) := Nat.mul_le_mul_right _ hi
      _ = _ := hd
  have hp4 : ∀ i < n0, ∀ j < n1, t4.px i j = areaResample a.rows a.cols n0 n1 a.px i j * ((n0 * n1) / (a.rows * a.cols)) := by
    intro i hi j hj
    rw [h4p, h3r, h3c, Nat.div_self hn0]
    unfold blockMean
    simp only [Finset.range_one, Finset.sum_singleton, Nat.mul_one, Nat.add_zero, Nat.cast_one, div_one]
    have hs : ∑ v ∈ Finset.range (Nat.lcm a.cols n1 / n1), t3.px i (j * (Nat.lcm a.cols n1 / n1) + v) =
        ∑ v ∈ Finset.range (Nat.lcm a.cols n1 / n1),
          (fun x => t2.px i x) ((j * (Nat.lcm a.cols n1 / n1) + v) * a.cols / Nat.lcm a.cols n1) := by
      refine Finset.sum_congr rfl fun v hv => ?_
      rw [h3p i hi _ ?_, h2r, h2c, Nat.mul_div_cancel _ hn0]
      have hd : n1 * (Nat.lcm a.cols n1 / n1) = Nat.lcm a.cols n1 := Nat.mul_div_cancel' (Nat.dvd_lcm_right _ _)
      calc j * (Nat.lcm a.cols n1 / n1) + v < j * (Nat.lcm a.cols n1 / n1) + Nat.lcm a.cols n1 / n1 :=
            Nat.add_lt_add_left (Finset.mem_range.1 hv) _
        _ = (j + 1) * (Nat.lcm a.cols n1 / n1) := by ring
        _ ≤ n1 * (Nat.lcm a.cols n1 / n1) := Nat.mul_le_mul_right _ hj
        _ = _ := hd
    rw [hs, axis_mean a.cols n1 (Nat.lcm a.cols n1) j hC hn1 hm1 (Nat.dvd_lcm_left _ _) (Nat.dvd_lcm_right _ _) hj]
    unfold areaResample
    rw [Finset.sum_congr rfl (g := fun x => ∑ y ∈ Finset.range a.rows,
      pixelShare a.rows n0 y i * pixelShare a.cols n1 x j * a.px y x * (n0 / a.rows)) (by
        intro x hx
        rw [hp2 i hi x (Finset.mem_range.1 hx), Finset.sum_mul, Finset.mul_sum]
        refine Finset.sum_congr rfl fun y _ => ?_
        ring)]
    rw [Finset.sum_comm, Finset.sum_mul, Finset.sum_mul]
    refine Finset.sum_congr rfl fun y _ => ?_
    rw [Finset.sum_mul, Finset.sum_mul]
    refine Finset.sum_congr rfl fun x _ => ?_
    have hRK : (a.rows : K) ≠ 0 := Nat.cast_ne_zero.2 hR.ne'
    have hCK : (a.cols : K) ≠ 0 := Nat.cast_ne_zero.2 hC.ne'
    field_simp
  have hRK : (0 : K) < a.rows := by exact_mod_cast hR
  have hCK : (0 : K) < a.cols := by exact_mod_cast hC
  have hnK0 : (0 : K) < n0 := by exact_mod_cast hn0
  have hnK1 : (0 : K) < n1 := by exact_mod_cast hn1
  set c : K := (n0 * n1) / (a.rows * a.cols) with hc
  have hcpos : 0 < c := by positivity
  have hsum4 : t4.total = a.total * c := by
    unfold Img.total
    rw [h4r, h4c]
    rw [Finset.sum_congr rfl (g := fun i => (∑ j ∈ Finset.range n1, areaResample a.rows a.cols n0 n1 a.px i j) * c) (by
      intro i hi
      rw [Finset.sum_mul]
      exact Finset.sum_congr rfl fun j hj => hp4 i (Finset.mem_range.1 hi) j (Finset.mem_range.1 hj))]
    rw [← Finset.sum_mul, areaResample_total a.rows a.cols n0 n1 a.px hR hC hn0 hn1]
  refine ⟨⟨t4.rows, t4.cols, fun i j => t4.px i j / max t4.total eps * setTotal.getD a.total⟩, ?_, h4r, h4c, ?_⟩
  · unfold toccd
    rw [if_neg hne]
    simp only [pyLcm_eq, h1, h2, h3, h4, Option.bind_some]
  · intro i hi j hj
    show t4.px i j / max t4.total eps * setTotal.getD a.total = _
    rw [hsum4, hp4 i hi j hj]

/-- **C37** (detector): the image returned by `toccd` has the requested shape; each pixel receives the light of the input pixels
in proportion to the overlap, rescaled to the requested total. -/
theorem C37_toccd (eps : K) (a : Img K) (n0 n1 : Nat) (setTotal : Option K) (hR : 0 < a.rows) (hC : 0 < a.cols) (hn0 : 0 < n0)
    (hn1 : 0 < n1) (hne : ¬ (a.rows = n0 ∧ a.cols = n1)) (hok : ResampleOk a.rows a.cols n0 n1)
    (hT : eps ≤ a.total * ((n0 * n1) / (a.rows * a.cols))) (hT0 : a.total ≠ 0) :
    ∃ r, toccd eps a n0 n1 setTotal = some r ∧ r.rows = n0 ∧ r.cols = n1 ∧ r.total = setTotal.getD a.total ∧
      ∀ i < n0, ∀ j < n1, r.px i j = areaResample a.rows a.cols n0 n1 a.px i j * (setTotal.getD a.total / a.total) := by
  obtain ⟨r, h1, h2, h3, h4⟩ := toccd_raw eps a n0 n1 setTotal hR hC hn0 hn1 hne hok
  have hRK : (0 : K) < a.rows := by exact_mod_cast hR
  have hCK : (0 : K) < a.cols := by exact_mod_cast hC
  have hnK0 : (0 : K) < n0 := by exact_mod_cast hn0
  have hnK1 : (0 : K) < n1 := by exact_mod_cast hn1
  have hval : ∀ i < n0, ∀ j < n1, r.px i j = areaResample a.rows a.cols n0 n1 a.px i j * (setTotal.getD a.total / a.total) := by
    intro i hi j hj
    rw [h4 i hi j hj, max_eq_left hT]
    field_simp
  refine ⟨r, h1, h2, h3, ?_, hval⟩
  unfold Img.total
  rw [h2, h3]
  have hT' : ∀ T : K, T = setTotal.getD a.total →
      (∑ i ∈ Finset.range n0, ∑ j ∈ Finset.range n1, r.px i j) = T := by
    rintro T rfl
    rw [Finset.sum_congr rfl (g := fun i => (∑ j ∈ Finset.range n1, areaResample a.rows a.cols n0 n1 a.px i j) *
        (setTotal.getD a.total / a.total)) (by
      intro i hi
      rw [Finset.sum_mul]
      exact Finset.sum_congr rfl fun j hj => hval i (Finset.mem_range.1 hi) j (Finset.mem_range.1 hj))]
    rw [← Finset.sum_mul, areaResample_total a.rows a.cols n0 n1 a.px hR hC hn0 hn1]
    change a.total * _ = _
    field_simp
  exact hT' _ rfl

/-- Square images: only the sampling grid matters. -/
theorem ResampleOk.square (o n : Nat) (ho : 0 < o) (hn : 0 < n) (hs : StepOk o (Nat.lcm o n)) (h1 : o * o < 2 ^ 50)
    (h2 : n * n < 2 ^ 50) : ResampleOk o o n n where
  step0 := hs
  step1 := hs
  self1 := stepOk_self o ho h1
  self0 := stepOk_self n hn h2
  cols0 := .inl (Nat.le_of_dvd (Nat.lcm_pos ho hn) (Nat.dvd_lcm_left _ _))
  cols1 := .inl le_rfl

omit [IsStrictOrderedRing K] in
/-- `set_total` is ignored when the shape does not change. -/
theorem C37_toccd_same_shape (eps : K) (a : Img K) (setTotal : Option K) : toccd eps a a.rows a.cols setTotal = some a := by
  unfold toccd; rw [if_pos ⟨rfl, rfl⟩]

/-! ### Requests that fail because of rounding -/

/-- The grid for 490 samples of 10 pixels has 491 elements. -/
theorem sampleSize_10_490 : sampleSize 10 490 = 491 := by
  unfold sampleSize sampleStep
  rw [fl_eval (x := ((10 : Nat) : ℚ) / (490 : Nat)) (-6) 5882252574524729 (by norm_num) (by norm_num) (by norm_num [abs_lt])]
  rw [fl_eval (x := ((10 : Nat) : ℚ) / _) 8 8620171161763841 (by norm_num) (by norm_num) (by norm_num [abs_lt])]
  have : ⌈((8620171161763841 : Int) : ℚ) * (2 : ℚ) ^ (8 + 1 - ((53 : Nat) : Int))⌉ = 491 := by
    rw [Int.ceil_eq_iff]; norm_num
  rw [this]; rfl

omit [IsStrictOrderedRing K] in
/-- Whatever the image, resampling 10 by 10 pixels to a detector of 49 by 49 raises an exception. -/
theorem C37_toccd_49_fails (eps : K) (px : Nat → Nat → K) (setTotal : Option K) :
    toccd eps ⟨10, 10, px⟩ 49 49 setTotal = none := by
  unfold toccd
  have hl : pyLcm 10 49 = 490 := by rw [pyLcm_eq]; rfl
  simp only [hl]
  rw [if_neg (by decide)]
  unfold rebin2d
  rw [if_neg (by simp)]
  simp only [if_true]
  unfold rebinSample
  rw [if_neg (by simp)]
  simp only [sampleSize_10_490]
  split
  · simp only [Option.bind_some]
    rw [if_neg (by decide)]
    simp [rebinMean]
  · rfl

/-! ### Concrete cases -/

/-- From 240 to 40 pixels no upsampling is needed, from 3 to 4 the step is a quarter. -/
example : ResampleOk 240 240 40 40 :=
  .square 240 40 (by norm_num) (by norm_num) (stepOk_self 240 (by norm_num) (by norm_num)) (by norm_num) (by norm_num)

/-- From 220 to 120 pixels the step is a sixth, rounded downwards. -/
example : ResampleOk 220 220 120 120 := by
  refine .square 220 120 (by norm_num) (by norm_num) ?_ (by norm_num) (by norm_num)
  have h : fl 53 ((1 : ℚ) / (6 : Nat)) = 6004799503160661 / 2 ^ 55 := by
    rw [fl_eval (-3) 6004799503160661 (by norm_num) (by norm_num) (by norm_num [abs_lt])]; norm_num
  exact C37_step_near 220 6 (by norm_num) (by norm_num) (by norm_num) (by rw [h]; norm_num) (by rw [h]; norm_num)

example : ResampleOk 3 3 4 4 :=
  .square 3 4 (by norm_num) (by norm_num) (stepOk_pow_two 3 2 (by norm_num) (by norm_num)) (by norm_num) (by norm_num)

example : (areaResample 3 1 2 1 (fun y _ => ([4, 6, 8] : List ℚ).getD y 0) 0 0, areaResample 3 1 2 1 (fun y _ => ([4, 6, 8] : List ℚ).getD y 0) 1 0) =
    (7, 11) := by decide +kernel

example (eps : ℚ) (h : eps ≤ 1) : ∃ r, toccd eps (⟨3, 3, fun i j => (i + 2 * j : ℚ)⟩ : Img ℚ) 4 4 (some 100) = some r ∧ r.total = 100 := by
  obtain ⟨r, h1, -, -, h2, -⟩ := C37_toccd eps (⟨3, 3, fun i j => (i + 2 * j : ℚ)⟩ : Img ℚ) 4 4 (some 100) (by norm_num) (by norm_num)
    (by norm_num) (by norm_num) (by norm_num)
    (.square 3 4 (by norm_num) (by norm_num) (stepOk_pow_two 3 2 (by norm_num) (by norm_num)) (by norm_num) (by norm_num))
    (by
      have : (⟨3, 3, fun i j => (i + 2 * j : ℚ)⟩ : Img ℚ).total = 27 := by decide +kernel
      rw [this]; norm_num; linarith)
    (by
      have : (⟨3, 3, fun i j => (i + 2 * j : ℚ)⟩ : Img ℚ).total = 27 := by decide +kernel
      rw [this]; norm_num)
  exact ⟨r, h1, h2⟩

example : (rebin2d (⟨4, 2, fun i j => (i + 4 * j : ℚ)⟩ : Img ℚ) 2 1 false).map (fun r => (r.rows, r.cols, r.px 0 0, r.px 1 0)) =
    some (2, 1, 5 / 2, 9 / 2) := by decide +kernel

end

end Specula
