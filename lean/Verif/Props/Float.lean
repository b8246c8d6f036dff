import Verif.Model.Float
import Mathlib.Tactic.Ring
import Mathlib.Tactic.NormNum
import Mathlib.Tactic.Linarith
import Mathlib.Tactic.FieldSimp
import Mathlib.Tactic.Positivity
/-
C27: conversion between seconds and ticks.
-/
namespace Specula

theorem roundEven_ge_floor (x : ℚ) : ⌊x⌋ ≤ roundEven x := by
  unfold roundEven; simp only; split_ifs <;> omega

theorem roundEven_le_floor_succ (x : ℚ) : roundEven x ≤ ⌊x⌋ + 1 := by
  unfold roundEven; simp only; split_ifs <;> omega

/-- rounding is to nearest -/
theorem roundEven_near (x : ℚ) : |(roundEven x : ℚ) - x| ≤ 1 / 2 := by
  have h1 := Int.floor_le x
  have h2 := Int.lt_floor_add_one x
  rw [abs_le]
  unfold roundEven
  simp only
  split_ifs <;> push_cast <;> constructor <;> linarith

theorem roundEven_ge_of_le {x : ℚ} {m : Int} (h : (m : ℚ) ≤ x) : m ≤ roundEven x :=
  le_trans (Int.le_floor.2 h) (roundEven_ge_floor x)

theorem roundEven_le_of_le {x : ℚ} {m : Int} (h : x ≤ (m : ℚ)) : roundEven x ≤ m := by
  rcases eq_or_lt_of_le h with h | h
  · have hf : ⌊x⌋ = m := by rw [h]; exact Int.floor_intCast m
    unfold roundEven
    simp only [hf]
    rw [h, sub_self]
    norm_num
  · have := Int.floor_lt.2 h
    have := roundEven_le_floor_succ x
    omega

theorem roundEven_int (m : Int) : roundEven (m : ℚ) = m :=
  le_antisymm (roundEven_le_of_le (le_refl _)) (roundEven_ge_of_le (le_refl _))

/-- An integer nearer than one half is the result. -/
theorem roundEven_eq {x : ℚ} {m : Int} (h : |x - m| < 1 / 2) : roundEven x = m := by
  have h1 := roundEven_near x
  rw [abs_le] at h1
  rw [abs_lt] at h
  have h2 : ((roundEven x : ℚ) - m) < 1 := by linarith [h1.1, h1.2, h.1, h.2]
  have h3 : (-1 : ℚ) < (roundEven x : ℚ) - m := by linarith [h1.1, h1.2, h.1, h.2]
  have h4 : roundEven x - m < 1 := by exact_mod_cast h2
  have h5 : -1 < roundEven x - m := by exact_mod_cast h3
  omega

theorem two_zpow_pos (e : Int) : (0 : ℚ) < (2 : ℚ) ^ e := zpow_pos (by norm_num) e

theorem ulp_pos (p : Nat) (x : ℚ) : 0 < ulp p x := two_zpow_pos _

/-- A positive number is between the powers of two of its binade. -/
theorem ulp_bounds (p : Nat) {x : ℚ} (hx : 0 < x) :
    (2 : ℚ) ^ ((p : Int) - 1) ≤ x / ulp p x ∧ x / ulp p x < (2 : ℚ) ^ (p : Int) := by
  have h1 := Int.zpow_log_le_self (b := 2) (by norm_num) hx
  have h2 := Int.lt_zpow_succ_log_self (b := 2) (by norm_num) x
  push_cast at h1 h2
  constructor
  · rw [le_div_iff₀ (ulp_pos p x), ulp, ← zpow_add₀ (by norm_num)]
    convert h1 using 2; ring
  · rw [div_lt_iff₀ (ulp_pos p x), ulp, ← zpow_add₀ (by norm_num)]
    convert h2 using 2; ring

/-- The numbers with at most `p` significant bits. -/
def FloatNum (p : Nat) (r : ℚ) : Prop := ∃ (m : Nat) (j : Int), m < 2 ^ p ∧ r = m * (2 : ℚ) ^ j

theorem FloatNum.nat {p n : Nat} (h : n < 2 ^ p) : FloatNum p (n : ℚ) := ⟨n, 0, h, by simp⟩

/-- A floating point number at least as large as the lower end of the binade of `x` is a multiple of the unit of `x`. -/
theorem FloatNum.multiple {p : Nat} {r x : ℚ} (hr : FloatNum p r) (h : (2 : ℚ) ^ ((p : Int) - 1) * ulp p x ≤ r) :
    ∃ m : Int, r = m * ulp p x := by
  obtain ⟨m, j, hm, rfl⟩ := hr
  have hmq : (m : ℚ) < (2 : ℚ) ^ (p : Int) := by rw [zpow_natCast]; exact_mod_cast hm
  unfold ulp at h ⊢
  set e := Int.log 2 x + 1 - (p : Int) with he
  have h1 : (2 : ℚ) ^ ((p : Int) - 1 + e) < (2 : ℚ) ^ ((p : Int) + j) := by
    rw [zpow_add₀ (by norm_num), zpow_add₀ (by norm_num)]
    exact lt_of_le_of_lt h (mul_lt_mul_of_pos_right hmq (two_zpow_pos j))
  have h2 := (zpow_lt_zpow_iff_right₀ (by norm_num : (1 : ℚ) < 2)).1 h1
  refine ⟨m * 2 ^ (j - e).toNat, ?_⟩
  have h3 : ((2 : ℚ) ^ (j - e).toNat) = (2 : ℚ) ^ (j - e) := by
    rw [← zpow_natCast, Int.toNat_of_nonneg (by omega)]
  push_cast
  rw [h3, mul_assoc, ← zpow_add₀ (by norm_num)]
  congr 2; ring

theorem fl_pos_eq {p : Nat} {x : ℚ} (hx : 0 < x) : fl p x = roundEven (x / ulp p x) * ulp p x := by
  rw [fl, if_neg hx.ne']

/-- Rounding does not pass a floating point number, from below. -/
theorem fl_le_of_le {p : Nat} {x r : ℚ} (hx : 0 ≤ x) (hr : FloatNum p r) (h : x ≤ r) : fl p x ≤ r := by
  rcases eq_or_lt_of_le hx with h0 | hx
  · rw [fl, if_pos h0.symm, ]; linarith
  · rw [fl_pos_eq hx]
    have hb := ulp_bounds p hx
    have hu := ulp_pos p x
    have hlow : (2 : ℚ) ^ ((p : Int) - 1) * ulp p x ≤ r := le_trans ((le_div_iff₀ hu).1 hb.1) h
    obtain ⟨m, rfl⟩ := hr.multiple hlow
    apply mul_le_mul_of_nonneg_right _ hu.le
    exact_mod_cast roundEven_le_of_le ((div_le_iff₀ hu).2 h)

/-- Rounding does not pass a floating point number, from above. -/
theorem le_fl_of_le {p : Nat} {x r : ℚ} (hx : 0 ≤ x) (hp : 0 < p) (hr : FloatNum p r) (h : r ≤ x) : r ≤ fl p x := by
  rcases eq_or_lt_of_le hx with h0 | hx
  · rw [fl, if_pos h0.symm]; linarith
  · rw [fl_pos_eq hx]
    have hb := ulp_bounds p hx
    have hu := ulp_pos p x
    by_cases hlow : (2 : ℚ) ^ ((p : Int) - 1) * ulp p x ≤ r
    · obtain ⟨m, rfl⟩ := hr.multiple hlow
      apply mul_le_mul_of_nonneg_right _ hu.le
      exact_mod_cast roundEven_ge_of_le ((le_div_iff₀ hu).2 h)
    · have h1 : ((2 ^ (p - 1) : Nat) : Int) ≤ roundEven (x / ulp p x) := by
        apply roundEven_ge_of_le
        push_cast
        rw [← zpow_natCast, Nat.cast_sub hp]
        exact_mod_cast hb.1
      have h2 : (2 : ℚ) ^ ((p : Int) - 1) ≤ (roundEven (x / ulp p x) : ℚ) := by
        have : (((2 ^ (p - 1) : Nat) : Int) : ℚ) ≤ (roundEven (x / ulp p x) : ℚ) := by exact_mod_cast h1
        refine le_trans (le_of_eq ?_) this
        push_cast
        rw [← zpow_natCast, Nat.cast_sub hp]
        rfl
      exact le_trans (not_le.1 hlow).le (mul_le_mul_of_nonneg_right h2 hu.le)

/-- Floating point numbers are not changed by rounding. -/
theorem fl_exact {p : Nat} (hp : 0 < p) {r : ℚ} (hr : FloatNum p r) : fl p r = r := by
  have h0 : 0 ≤ r := by
    obtain ⟨m, j, -, rfl⟩ := hr
    exact mul_nonneg (by positivity) (two_zpow_pos j).le
  exact le_antisymm (fl_le_of_le h0 hr (le_refl _)) (le_fl_of_le h0 hp hr (le_refl _))

/-- The relative error is at most 2^-p. -/
theorem fl_error {p : Nat} {x : ℚ} (hx : 0 ≤ x) : |fl p x - x| ≤ x / (2 : ℚ) ^ p := by
  rcases eq_or_lt_of_le hx with h0 | hx
  · rw [fl, if_pos h0.symm, ← h0]; simp
  · rw [fl_pos_eq hx]
    have hb := ulp_bounds p hx
    have hu := ulp_pos p x
    have h1 := roundEven_near (x / ulp p x)
    have h2 : (roundEven (x / ulp p x) : ℚ) * ulp p x - x = ((roundEven (x / ulp p x) : ℚ) - x / ulp p x) * ulp p x := by
      field_simp
    rw [h2, abs_mul, abs_of_pos hu]
    have h3 : ulp p x / 2 ≤ x / (2 : ℚ) ^ p := by
      have h4 := (le_div_iff₀ hu).1 hb.1
      rw [zpow_sub₀ (by norm_num), zpow_natCast, zpow_one] at h4
      rw [div_le_div_iff₀ (by norm_num) (by positivity)]
      have h5 : (2 : ℚ) ^ p / 2 * ulp p x * 2 = ulp p x * 2 ^ p := by ring
      linarith
    calc _ ≤ 1 / 2 * ulp p x := mul_le_mul_of_nonneg_right h1 hu.le
      _ = ulp p x / 2 := by ring
      _ ≤ _ := h3

theorem fl_nonneg {p : Nat} {x : ℚ} (hp : 0 < p) (hx : 0 ≤ x) : 0 ≤ fl p x :=
  le_fl_of_le hx hp ⟨0, 0, Nat.two_pow_pos p, by simp⟩ hx

/-- The nearest floating point number to `n` nanoseconds is not changed by `round(x, 9)`. -/
theorem round9_exact {n : Nat} (hn : n < 2 ^ 52) : round9 (fl 53 ((n : ℚ) / 10 ^ 9)) = fl 53 ((n : ℚ) / 10 ^ 9) := by
  have h0 : (0 : ℚ) ≤ (n : ℚ) / 10 ^ 9 := by positivity
  have herr := fl_error (p := 53) h0
  have hnq : (n : ℚ) < 2 ^ 52 := by exact_mod_cast hn
  have h1 : roundEven (fl 53 ((n : ℚ) / 10 ^ 9) * 10 ^ 9) = (n : Int) := by
    apply roundEven_eq
    have h2 : fl 53 ((n : ℚ) / 10 ^ 9) * 10 ^ 9 - ((n : Int) : ℚ) = (fl 53 ((n : ℚ) / 10 ^ 9) - (n : ℚ) / 10 ^ 9) * 10 ^ 9 := by
      push_cast; ring
    rw [h2, abs_mul, abs_of_pos (by norm_num : (0 : ℚ) < 10 ^ 9)]
    calc _ ≤ (n : ℚ) / 10 ^ 9 / 2 ^ 53 * 10 ^ 9 := mul_le_mul_of_nonneg_right herr (by norm_num)
      _ = (n : ℚ) / 2 ^ 53 := by field_simp
      _ < 1 / 2 := by rw [div_lt_iff₀ (by norm_num)]; norm_num at hnq ⊢; linarith
  unfold round9
  rw [h1]
  push_cast
  rfl

/-- **C27**: converting to ticks the floating point number nearest to `n` nanoseconds gives `n` or `n - 1` ticks, for all
durations below 2^52 ns (52 days). -/
theorem C27_within_one_tick (n : Nat) (hn : n < 2 ^ 52) :
    secondsToT (fl 53 ((n : ℚ) / 10 ^ 9)) = n ∨ secondsToT (fl 53 ((n : ℚ) / 10 ^ 9)) = (n : Int) - 1 := by
  unfold secondsToT
  rw [round9_exact hn]
  have h0 : (0 : ℚ) ≤ (n : ℚ) / 10 ^ 9 := by positivity
  have herr := fl_error (p := 53) h0
  have hs0 := fl_nonneg (p := 53) (by norm_num) h0
  have hnq : (n : ℚ) < 2 ^ 52 := by exact_mod_cast hn
  set s := fl 53 ((n : ℚ) / 10 ^ 9) with hs
  have hz : |s * 10 ^ 9 - n| ≤ (n : ℚ) / 2 ^ 53 := by
    have h2 : s * 10 ^ 9 - (n : ℚ) = (s - (n : ℚ) / 10 ^ 9) * 10 ^ 9 := by ring
    rw [h2, abs_mul, abs_of_pos (by norm_num : (0 : ℚ) < 10 ^ 9)]
    calc _ ≤ (n : ℚ) / 10 ^ 9 / 2 ^ 53 * 10 ^ 9 := mul_le_mul_of_nonneg_right herr (by norm_num)
      _ = (n : ℚ) / 2 ^ 53 := by field_simp
  have hsmall : (n : ℚ) / 2 ^ 53 < 1 / 2 := by
    rw [div_lt_iff₀ (by norm_num)]; norm_num at hnq ⊢; linarith
  rw [abs_le] at hz
  have hz0 : 0 ≤ s * 10 ^ 9 := by positivity
  -- above: n + 1/2 is a floating point number
  have hup : fl 53 (s * 10 ^ 9) ≤ (n : ℚ) + 1 / 2 := by
    apply fl_le_of_le hz0
    · refine ⟨2 * n + 1, -1, ?_, ?_⟩
      · have : (2 : Nat) ^ 53 = 2 * 2 ^ 52 := by norm_num
        omega
      · push_cast; rw [zpow_neg_one]; ring
    · linarith [hz.2]
  have hf1 : ⌊fl 53 (s * 10 ^ 9)⌋ < (n : Int) + 1 := by
    apply Int.floor_lt.2
    rw [Int.cast_add, Int.cast_natCast, Int.cast_one]
    exact lt_of_le_of_lt hup (by norm_num)
  have hf2 : (n : Int) - 1 ≤ ⌊fl 53 (s * 10 ^ 9)⌋ := by
    apply Int.le_floor.2
    rcases Nat.eq_zero_or_pos n with h | h
    · subst h
      have := fl_nonneg (p := 53) (by norm_num) hz0
      push_cast; linarith
    · have := le_fl_of_le (p := 53) (r := ((n - 1 : Nat) : ℚ)) hz0 (by norm_num)
        (FloatNum.nat (by have : (2 : Nat) ^ 53 = 2 * 2 ^ 52 := by norm_num
                          omega)) (by rw [Nat.cast_sub h]; push_cast; linarith [hz.1])
      rw [Nat.cast_sub h] at this
      push_cast at this ⊢; exact this
  omega

/-- **C27** (exact): when the floating point number nearest to `n` ns is not below it, in particular when `n` ns is exactly a
floating point number, the conversion is exact. -/
theorem C27_exact_from_above (n : Nat) (hn : n < 2 ^ 52) (h : (n : ℚ) / 10 ^ 9 ≤ fl 53 ((n : ℚ) / 10 ^ 9)) :
    secondsToT (fl 53 ((n : ℚ) / 10 ^ 9)) = n := by
  have h1 := C27_within_one_tick n hn
  have h0 : (0 : ℚ) ≤ (n : ℚ) / 10 ^ 9 := by positivity
  have h2 : (n : Int) ≤ secondsToT (fl 53 ((n : ℚ) / 10 ^ 9)) := by
    unfold secondsToT
    rw [round9_exact hn]
    apply Int.le_floor.2
    have hz : (n : ℚ) ≤ fl 53 ((n : ℚ) / 10 ^ 9) * 10 ^ 9 := by
      rwa [div_le_iff₀ (by norm_num)] at h
    have := le_fl_of_le (p := 53) (r := (n : ℚ)) (le_trans (Nat.cast_nonneg n) hz) (by norm_num)
      (FloatNum.nat (lt_trans hn (by norm_num))) hz
    exact_mod_cast this
  omega

/-- **C27** (exact): durations that are whole multiples of 1/512 s are converted exactly. -/
theorem C27_exact_binary (k : Nat) (hk : k * 5 ^ 9 < 2 ^ 52) : secondsToT (fl 53 (k / 512)) = k * 5 ^ 9 := by
  have e : ((k * 5 ^ 9 : Nat) : ℚ) / 10 ^ 9 = (k : ℚ) / 512 := by
    push_cast; rw [div_eq_div_iff (by norm_num) (by norm_num)]; ring
  have hfn : FloatNum 53 ((k : ℚ) / 512) := by
    refine ⟨k, -9, ?_, ?_⟩
    · have h5 : k ≤ k * 5 ^ 9 := Nat.le_mul_of_pos_right _ (by norm_num)
      exact lt_of_le_of_lt h5 (lt_trans hk (by norm_num))
    · rw [zpow_neg]; norm_num; ring
  have h := C27_exact_from_above (k * 5 ^ 9) hk (by rw [e, fl_exact (by norm_num) hfn])
  rw [e] at h
  exact_mod_cast h

/-- **C27** (round trip): converting ticks to seconds and back gives the same number of ticks or one less. -/
theorem C27_round_trip (n : Nat) (hn : n < 2 ^ 52) :
    secondsToT (tToSeconds n) = n ∨ secondsToT (tToSeconds n) = (n : Int) - 1 := by
  unfold tToSeconds
  rw [fl_exact (by norm_num) (FloatNum.nat (lt_trans hn (by norm_num)))]
  exact C27_within_one_tick n hn

/-! ### The conversion is not always exact -/

theorem ulp_eq {p : Nat} {x : ℚ} {k : Int} (h1 : (2 : ℚ) ^ k ≤ x) (h2 : x < (2 : ℚ) ^ (k + 1)) :
    ulp p x = (2 : ℚ) ^ (k + 1 - (p : Int)) := by
  have hx : 0 < x := lt_of_lt_of_le (two_zpow_pos k) h1
  have a : k ≤ Int.log 2 x := (Int.zpow_le_iff_le_log (by norm_num) hx).1 (by exact_mod_cast h1)
  have b : Int.log 2 x < k + 1 := (Int.lt_zpow_iff_log_lt (by norm_num) hx).1 (by exact_mod_cast h2)
  have : Int.log 2 x = k := by omega
  rw [ulp, this]

/-- Evaluation: the binade `k` and the significand `m` of the result. -/
theorem fl_eval {p : Nat} {x : ℚ} (k : Int) (m : Int) (h1 : (2 : ℚ) ^ k ≤ x) (h2 : x < (2 : ℚ) ^ (k + 1))
    (h3 : |x / (2 : ℚ) ^ (k + 1 - (p : Int)) - m| < 1 / 2) : fl p x = m * (2 : ℚ) ^ (k + 1 - (p : Int)) := by
  have hx : 0 < x := lt_of_lt_of_le (two_zpow_pos k) h1
  rw [fl_pos_eq hx, ulp_eq h1 h2, roundEven_eq h3]

/-- 65 microseconds are converted to 64999 ticks. -/
theorem C27_65us : secondsToT (fl 53 ((65000 : Nat) / 10 ^ 9)) = 64999 := by
  unfold secondsToT
  rw [round9_exact (by norm_num)]
  rw [fl_eval (x := ((65000 : Nat) : ℚ) / 10 ^ 9) (-14) 4796153459164483 (by norm_num) (by norm_num) (by norm_num [abs_lt])]
  rw [fl_eval 15 8933531975679999 (by norm_num) (by norm_num) (by norm_num [abs_lt])]
  rw [Int.floor_eq_iff]
  norm_num

/-- 130 microseconds are converted to 129999 ticks. -/
theorem C27_130us : secondsToT (fl 53 ((130000 : Nat) / 10 ^ 9)) = 129999 := by
  unfold secondsToT
  rw [round9_exact (by norm_num)]
  rw [fl_eval (x := ((130000 : Nat) : ℚ) / 10 ^ 9) (-13) 4796153459164483 (by norm_num) (by norm_num) (by norm_num [abs_lt])]
  rw [fl_eval 16 8933531975679999 (by norm_num) (by norm_num) (by norm_num [abs_lt])]
  rw [Int.floor_eq_iff]
  norm_num

/-- As a consequence a detector with an integration time of 130 microseconds is rejected in a simulation with a step of 65
microseconds, although it is a multiple of it: the check of ccd.py 131. -/
theorem C27_multiple_rejected :
    secondsToT (fl 53 ((130000 : Nat) / 10 ^ 9)) % secondsToT (fl 53 ((65000 : Nat) / 10 ^ 9)) ≠ 0 := by
  rw [C27_65us, C27_130us]; decide

/-- 1/512 s is 1953125 ns. -/
example : secondsToT (fl 53 ((1 : Nat) / 512)) = (1 : Nat) * 5 ^ 9 := C27_exact_binary 1 (by norm_num)

end Specula
