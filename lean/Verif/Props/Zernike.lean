import Mathlib.Tactic.Linarith
import Mathlib.Tactic.Ring
import Mathlib.Tactic.NormNum
import Mathlib.Tactic.Positivity
import Mathlib.Algebra.Order.Floor.Ring
import Verif.Model.Zernike

/-!
# C44: Zernike indices

The single index and the pairs (radial degree, angular factor) are in bijection, in Noll's
order, although the radial degree is computed with a rounded square root.
-/

namespace Specula

/-- Specification: the modes that exist.  A radial degree `n` has angular frequencies
`n, n-2, …` down to 0 or 1; each has a cosine and a sine except 0. -/
def ValidMode : ℤ × Angular → Prop
  | (n, .constant) => 0 ≤ n ∧ n % 2 = 0
  | (n, .cosine m) => 0 < m ∧ m ≤ n ∧ (n - m) % 2 = 0
  | (n, .sine m) => 0 < m ∧ m ≤ n ∧ (n - m) % 2 = 0

/-- Specification: the angular frequency of a mode. -/
def Angular.freq : Angular → ℤ
  | .constant => 0
  | .cosine m => m
  | .sine m => m

/-! ## The rounded square root -/

theorem flSqrt_le (p N r : ℕ) (h : N ≤ r ^ 2) : flSqrt p N ≤ r := by
  unfold flSqrt
  dsimp only
  generalize p - 1 - Nat.log2 N / 2 = s
  rw [div_le_iff₀ (by positivity)]
  have h1 : Nat.sqrt (4 * (N * 4 ^ s)) ≤ 2 * r * 2 ^ s := by
    have h2 : 4 * (N * 4 ^ s) ≤ (2 * r * 2 ^ s) ^ 2 := by
      have h3 : (2 * r * 2 ^ s) ^ 2 = 4 * (r ^ 2 * 4 ^ s) := by
        rw [mul_pow, mul_pow, ← pow_mul, mul_comm s 2, pow_mul]; norm_num; ring
      rw [h3]
      exact Nat.mul_le_mul_left _ (Nat.mul_le_mul_right _ h)
    exact (Nat.sqrt_le_sqrt h2).trans (by rw [Nat.sqrt_eq'])
  have h4 : (Nat.sqrt (4 * (N * 4 ^ s)) + 1) / 2 ≤ r * 2 ^ s := by
    have : 2 * r * 2 ^ s = 2 * (r * 2 ^ s) := by ring
    omega
  exact_mod_cast h4

theorem lt_flSqrt (p N r : ℕ) (hN : N ≤ 2 ^ p) (hp : 2 ≤ p) (hr : r ^ 2 + 8 ≤ N) :
    (r : ℚ) < flSqrt p N := by
  have hN0 : N ≠ 0 := by omega
  have hl1 : Nat.log2 N ≤ p := by
    have h1 : N < 2 ^ (p + 1) := by rw [pow_succ]; have := Nat.two_pow_pos p; omega
    have := (Nat.log2_lt hN0).2 h1
    omega
  have hl2 : N < 2 ^ (Nat.log2 N + 1) := Nat.lt_log2_self
  unfold flSqrt
  dsimp only
  obtain ⟨e, he⟩ : ∃ e, e = Nat.log2 N / 2 := ⟨_, rfl⟩
  obtain ⟨s, hs⟩ : ∃ s, s = p - 1 - e := ⟨_, rfl⟩
  rw [← he, ← hs]
  -- the root is below `2^(e+1)`
  have hr2 : r < 2 ^ (e + 1) := by
    have h1 : r ^ 2 < (2 ^ (e + 1)) ^ 2 := by
      calc r ^ 2 < N := by omega
        _ < 2 ^ (Nat.log2 N + 1) := hl2
        _ ≤ 2 ^ ((e + 1) * 2) := Nat.pow_le_pow_right (by norm_num) (by omega)
        _ = (2 ^ (e + 1)) ^ 2 := pow_mul _ _ _
    exact lt_of_pow_lt_pow_left₀ 2 (by positivity) h1
  have hr3 : r < 8 * 2 ^ s := by
    calc r < 2 ^ (e + 1) := hr2
      _ ≤ 2 ^ (s + 3) := Nat.pow_le_pow_right (by norm_num) (by omega)
      _ = 8 * 2 ^ s := by rw [pow_add]; norm_num; ring
  have h4 : (4 : ℕ) ^ s = 2 ^ s * 2 ^ s := by rw [← mul_pow]; norm_num
  have h5 : 0 < 2 ^ s := by positivity
  rw [lt_div_iff₀ (by positivity)]
  suffices h : r * 2 ^ s < (Nat.sqrt (4 * (N * 4 ^ s)) + 1) / 2 by exact_mod_cast h
  generalize 2 ^ s = q at *
  have h6 : 2 * (r * q) + 1 ≤ Nat.sqrt (4 * (N * 4 ^ s)) := by
    rw [Nat.le_sqrt', h4]
    nlinarith [Nat.mul_le_mul_right (q * q) hr, Nat.mul_le_mul_right q hr3]
  omega

/-- The radial order is exact: `n` for the indices above `n (n+1) / 2` and up to
`(n+1) (n+2) / 2`, as long as `8 j + 1` is an exact floating point integer. -/
theorem C44_radial_order (p j n : ℕ) (hp : 2 ≤ p) (hj : 8 * j + 1 ≤ 2 ^ p)
    (h1 : n * (n + 1) < 2 * j) (h2 : 2 * j ≤ (n + 1) * (n + 2)) : radialOrder p j = n := by
  have hev : n * (n + 1) % 2 = 0 := Nat.even_iff.1 (Nat.even_mul_succ_self n)
  have h3 : n * (n + 1) + 2 ≤ 2 * j := by omega
  have hu := flSqrt_le p (8 * j + 1) (2 * n + 3) (by nlinarith)
  have hl := lt_flSqrt p (8 * j + 1) (2 * n + 1) hj hp (by nlinarith)
  unfold radialOrder
  rw [Int.ceil_eq_iff]
  push_cast at hu hl ⊢
  constructor <;> linarith

/-- Every index has a radial order: the triangular block that contains it. -/
theorem exists_block (j : ℕ) (hj : 1 ≤ j) :
    ∃ n : ℕ, n * (n + 1) < 2 * j ∧ 2 * j ≤ (n + 1) * (n + 2) := by
  induction j with
  | zero => omega
  | succ j ih =>
    rcases Nat.eq_zero_or_pos j with rfl | h
    · exact ⟨0, by norm_num, by norm_num⟩
    · obtain ⟨n, h1, h2⟩ := ih h
      by_cases h3 : 2 * (j + 1) ≤ (n + 1) * (n + 2)
      · exact ⟨n, by omega, h3⟩
      · have hev : (n + 1) * (n + 2) % 2 = 0 := Nat.even_iff.1 (Nat.even_mul_succ_self (n + 1))
        refine ⟨n + 1, ?_, ?_⟩
        · have : (n + 1) * (n + 1 + 1) = (n + 1) * (n + 2) := by ring
          omega
        · have : (n + 1 + 1) * (n + 1 + 2) = (n + 1) * (n + 2) + 2 * (n + 2) := by ring
          omega

/-- Degree and frequency of an index of block `n`, with `k` the position in the block
(`0 ≤ k ≤ n`). -/
theorem zernikeDegree_eq (p j n k : ℕ) (hp : 2 ≤ p) (hj : 8 * j + 1 ≤ 2 ^ p)
    (hk : 2 * j = n * (n + 1) + 2 * (k + 1)) (hkn : k ≤ n) :
    zernikeDegree p j = ((n : ℤ), if n % 2 = 0 then ((k : ℤ) + 1) / 2 * 2 else (k : ℤ) / 2 * 2 + 1)
    := by
  have hr := C44_radial_order p j n hp hj (by omega)
    (by have : (n + 1) * (n + 2) = n * (n + 1) + 2 * (n + 1) := by ring
        omega)
  unfold zernikeDegree
  simp only [hr]
  have h1 : (2 * j : ℤ) = n * (n + 1) + 2 * (k + 1) := by exact_mod_cast hk
  have h2 : (j : ℤ) - ((n : ℤ) * (n + 1) / 2 + 1) = k := by
    generalize (n : ℤ) * (n + 1) = t at *
    omega
  have h3 : (n : ℤ) % 2 = 0 ↔ n % 2 = 0 := by omega
  simp only [h2, h3]

/-- Position of an index in its block. -/
theorem exists_pos (j : ℕ) (hj : 1 ≤ j) :
    ∃ n k : ℕ, 2 * j = n * (n + 1) + 2 * (k + 1) ∧ k ≤ n := by
  obtain ⟨n, h1, h2⟩ := exists_block j hj
  have hev : n * (n + 1) % 2 = 0 := Nat.even_iff.1 (Nat.even_mul_succ_self n)
  have h3 : (n + 1) * (n + 2) = n * (n + 1) + 2 * (n + 1) := by ring
  refine ⟨n, j - n * (n + 1) / 2 - 1, ?_, ?_⟩ <;> (generalize n * (n + 1) = t at *; omega)

/-- The mode of an index of block `n` at position `k`. -/
theorem zernikeMode_eq (p j n k : ℕ) (hp : 2 ≤ p) (hj : 8 * j + 1 ≤ 2 ^ p)
    (hk : 2 * j = n * (n + 1) + 2 * (k + 1)) (hkn : k ≤ n) (m : ℕ)
    (hm : m = if n % 2 = 0 then (k + 1) / 2 * 2 else k / 2 * 2 + 1) :
    zernikeMode p j = some ((n : ℤ), if m = 0 then .constant
      else if j % 2 = 0 then .cosine m else .sine m) := by
  have hd := zernikeDegree_eq p j n k hp hj hk hkn
  have hm' : (if n % 2 = 0 then ((k : ℤ) + 1) / 2 * 2 else (k : ℤ) / 2 * 2 + 1) = (m : ℤ) := by
    rw [hm]; split <;> push_cast <;> rfl
  rw [hm'] at hd
  have hj0 : j ≠ 0 := by rintro rfl; omega
  have hpar : ((n : ℤ) - m) % 2 = 0 := by
    split at hm <;> omega
  have hle : ¬ (n : ℤ) < |(m : ℤ)| := by
    rw [abs_of_nonneg (by positivity)]
    split at hm <;> omega
  have hm0 : (m : ℤ) = 0 ↔ m = 0 := by omega
  unfold zernikeMode
  simp only [hd, if_neg hj0, hpar, ne_eq, not_true_eq_false, if_false, if_neg hle, hm0]
  split
  · rfl
  · split <;> rfl

/-- Every index from 1 on denotes a mode that exists, none raises. -/
theorem C44_total (p j : ℕ) (hp : 2 ≤ p) (h1 : 1 ≤ j) (hj : 8 * j + 1 ≤ 2 ^ p) :
    ∃ md, zernikeMode p j = some md ∧ ValidMode md := by
  obtain ⟨n, k, hk, hkn⟩ := exists_pos j h1
  obtain ⟨m, hm⟩ : ∃ m, m = if n % 2 = 0 then (k + 1) / 2 * 2 else k / 2 * 2 + 1 := ⟨_, rfl⟩
  refine ⟨_, zernikeMode_eq p j n k hp hj hk hkn m hm, ?_⟩
  have h2 : m ≤ n ∧ (n - m) % 2 = 0 := by split at hm <;> omega
  by_cases h0 : m = 0
  · rw [if_pos h0]
    exact ⟨by positivity, by omega⟩
  · rw [if_neg h0]
    by_cases h3 : j % 2 = 0
    · rw [if_pos h3]
      exact ⟨by omega, by omega, by omega⟩
    · rw [if_neg h3]
      exact ⟨by omega, by omega, by omega⟩

/-- Different indices denote different modes. -/
theorem C44_injective (p j j' : ℕ) (hp : 2 ≤ p) (h1 : 1 ≤ j) (h1' : 1 ≤ j')
    (hj : 8 * j + 1 ≤ 2 ^ p) (hj' : 8 * j' + 1 ≤ 2 ^ p)
    (he : zernikeMode p j = zernikeMode p j') : j = j' := by
  obtain ⟨n, k, hk, hkn⟩ := exists_pos j h1
  obtain ⟨n', k', hk', hkn'⟩ := exists_pos j' h1'
  rw [zernikeMode_eq p j n k hp hj hk hkn _ rfl,
    zernikeMode_eq p j' n' k' hp hj' hk' hkn' _ rfl] at he
  have hn : n = n' := by
    have := congrArg (Option.map Prod.fst) he
    simpa using this
  subst hn
  simp only [Option.some.injEq, Prod.mk.injEq, true_and] at he
  generalize n * (n + 1) = t at *
  generalize hm : (if n % 2 = 0 then (k + 1) / 2 * 2 else k / 2 * 2 + 1) = m at *
  generalize hm' : (if n % 2 = 0 then (k' + 1) / 2 * 2 else k' / 2 * 2 + 1) = m' at *
  have hmm : m = m' ∧ (m ≠ 0 → j % 2 = j' % 2) := by
    by_cases c1 : m = 0 <;> by_cases c2 : m' = 0 <;> by_cases c3 : j % 2 = 0 <;>
      by_cases c4 : j' % 2 = 0 <;> simp [c1, c2, c3, c4] at he ⊢ <;> omega
  split at hm <;> split at hm' <;> omega

/-- Every mode that exists has an index, in the block of its radial degree. -/
theorem C44_surjective (p : ℕ) (hp : 2 ≤ p) (n : ℕ) (a : Angular) (hv : ValidMode (n, a))
    (hb : 4 * ((n + 1) * (n + 2)) + 1 ≤ 2 ^ p) :
    ∃ j, n * (n + 1) < 2 * j ∧ 2 * j ≤ (n + 1) * (n + 2) ∧ zernikeMode p j = some ((n : ℤ), a)
    := by
  have hev : n * (n + 1) % 2 = 0 := Nat.even_iff.1 (Nat.even_mul_succ_self n)
  have h3 : (n + 1) * (n + 2) = n * (n + 1) + 2 * (n + 1) := by ring
  -- it is enough to find the position in the block
  suffices h : ∃ k m : ℕ, k ≤ n ∧ m = (if n % 2 = 0 then (k + 1) / 2 * 2 else k / 2 * 2 + 1) ∧
      (if m = 0 then Angular.constant else if (n * (n + 1) / 2 + k + 1) % 2 = 0 then .cosine m
        else .sine m) = a by
    obtain ⟨k, m, hkn, hm, ha⟩ := h
    refine ⟨n * (n + 1) / 2 + k + 1, ?_, ?_, ?_⟩
    · omega
    · omega
    · rw [zernikeMode_eq p _ n k hp (by omega) (by omega) hkn m hm, ha]
  generalize n * (n + 1) / 2 = t at *
  cases a with
  | constant =>
    obtain ⟨-, h⟩ := hv
    refine ⟨0, 0, by omega, ?_, by simp⟩
    rw [if_pos (by omega)]
  | cosine m =>
    obtain ⟨h0, hm, hpar⟩ := hv
    lift m to ℕ using h0.le
    -- the two positions with frequency `m` have consecutive indices
    by_cases hc : (t + (m - 1) + 1) % 2 = 0
    · refine ⟨m - 1, m, by omega, by split <;> omega, ?_⟩
      rw [if_neg (by omega), if_pos hc]
    · refine ⟨m, m, by omega, by split <;> omega, ?_⟩
      rw [if_neg (by omega), if_pos (by omega)]
  | sine m =>
    obtain ⟨h0, hm, hpar⟩ := hv
    lift m to ℕ using h0.le
    by_cases hc : (t + (m - 1) + 1) % 2 = 0
    · refine ⟨m, m, by omega, by split <;> omega, ?_⟩
      rw [if_neg (by omega), if_neg (by omega)]
    · refine ⟨m - 1, m, by omega, by split <;> omega, ?_⟩
      rw [if_neg (by omega), if_neg hc]

/-- Noll's order: a larger index has a larger radial degree, or the same degree and not a
smaller angular frequency. -/
theorem C44_ordered (p j j' : ℕ) (hp : 2 ≤ p) (h1 : 1 ≤ j) (hlt : j ≤ j')
    (hj' : 8 * j' + 1 ≤ 2 ^ p) (md md' : ℤ × Angular) (h : zernikeMode p j = some md)
    (h' : zernikeMode p j' = some md') :
    md.1 < md'.1 ∨ md.1 = md'.1 ∧ md.2.freq ≤ md'.2.freq := by
  obtain ⟨n, k, hk, hkn⟩ := exists_pos j h1
  obtain ⟨n', k', hk', hkn'⟩ := exists_pos j' (by omega)
  rw [zernikeMode_eq p j n k hp (by omega) hk hkn _ rfl] at h
  rw [zernikeMode_eq p j' n' k' hp hj' hk' hkn' _ rfl] at h'
  cases h
  cases h'
  have hf : ∀ (m i : ℕ), Angular.freq (if m = 0 then .constant else if i % 2 = 0 then .cosine m
      else .sine m) = m := by
    intro m i
    split
    · rename_i h; rw [h]; rfl
    · split <;> rfl
  simp only [hf]
  rcases lt_trichotomy n n' with hn | hn | hn
  · left; exact_mod_cast hn
  · right
    subst hn
    refine ⟨rfl, ?_⟩
    have : k ≤ k' := by omega
    split <;> omega
  · exfalso
    have h2 : (n' + 1) * (n' + 2) ≤ n * (n + 1) := Nat.mul_le_mul (by omega) (by omega)
    have h3 : (n' + 1) * (n' + 2) = n' * (n' + 1) + 2 * (n' + 1) := by ring
    omega

/-- The number of modes up to a radial degree: the last index of degree `n` is
`(n+1)(n+2)/2`, and the next index has degree `n + 1`. -/
theorem C44_last_of_degree (p n j : ℕ) (hp : 2 ≤ p) (hj : 2 * j = (n + 1) * (n + 2))
    (hb : 8 * (j + 1) + 1 ≤ 2 ^ p) :
    radialOrder p j = n ∧ radialOrder p (j + 1) = n + 1 := by
  have h3 : (n + 1) * (n + 2) = n * (n + 1) + 2 * (n + 1) := by ring
  have h4 : (n + 1 + 1) * (n + 1 + 2) = (n + 1) * (n + 2) + 2 * (n + 2) := by ring
  constructor
  · exact C44_radial_order p j n hp (by omega) (by omega) (by omega)
  · have := C44_radial_order p (j + 1) (n + 1) hp hb
      (by have : (n + 1) * (n + 1 + 1) = (n + 1) * (n + 2) := by ring
          omega) (by omega)
    exact_mod_cast this

/-- With fewer bits the same formula does fail: in 6-bit arithmetic index 56, the first of
degree 10, is given degree 9.  The bound on the index cannot be dropped. -/
theorem C44_bound_needed : radialOrder 6 56 = 9 ∧ radialOrder 53 56 = 10 := by
  constructor <;> decide +kernel

-- Noll's table from piston to the first mode of degree 4, in double precision.
example : (List.range 11).map (fun i => zernikeMode 53 (i + 1)) =
    [some (0, .constant), some (1, .cosine 1), some (1, .sine 1), some (2, .constant),
     some (2, .sine 2), some (2, .cosine 2), some (3, .sine 1), some (3, .cosine 1),
     some (3, .sine 3), some (3, .cosine 3), some (4, .constant)] := by decide +kernel

-- A large index, inside the range where `8 j + 1` is exact.
example : radialOrder 53 1000000000 = 44720 := by
  have := C44_radial_order 53 1000000000 44720 (by norm_num) (by norm_num) (by norm_num)
    (by norm_num)
  exact this

end Specula
