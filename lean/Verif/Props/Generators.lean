import Verif.Model.Generators
import Verif.Props.Float
import Verif.Props.Zernike
/-
C60: signal generators.
-/
namespace Specula

theorem roundEven_mono {x y : ℚ} (h : x ≤ y) : roundEven x ≤ roundEven y := by
  by_cases hf : ⌊x⌋ = ⌊y⌋
  · unfold roundEven
    simp only [hf]
    have : x - ⌊y⌋ ≤ y - ⌊y⌋ := by linarith
    split_ifs <;> first | omega | (exfalso; linarith)
  · have h1 : ⌊x⌋ < ⌊y⌋ := lt_of_le_of_ne (Int.floor_mono h) hf
    have h2 := roundEven_le_floor_succ x
    have h3 := roundEven_ge_floor y
    omega

/-- Rounding to floating point keeps the order. -/
theorem fl_mono {p : Nat} (hp : 0 < p) {x y : ℚ} (hx : 0 ≤ x) (h : x ≤ y) : fl p x ≤ fl p y := by
  rcases eq_or_lt_of_le hx with h0 | hx
  · rw [← h0]
    have : fl p (0 : ℚ) = 0 := by simp [fl]
    rw [this]; exact fl_nonneg hp (by linarith)
  · have hy : 0 < y := lt_of_lt_of_le hx h
    have hlog : Int.log 2 x ≤ Int.log 2 y := Int.log_mono_right hx h
    rcases eq_or_lt_of_le hlog with he | hlt
    · have hu : ulp p x = ulp p y := by unfold ulp; rw [he]
      rw [fl_pos_eq hx, fl_pos_eq hy, hu]
      refine mul_le_mul_of_nonneg_right ?_ (ulp_pos p y).le
      exact_mod_cast roundEven_mono (div_le_div_of_nonneg_right h (ulp_pos p y).le)
    · have hF : FloatNum p ((2 : ℚ) ^ Int.log 2 y) := ⟨1, Int.log 2 y, Nat.one_lt_two_pow (by omega), by simp⟩
      have h1 : x ≤ (2 : ℚ) ^ Int.log 2 y := by
        have a := (Int.lt_zpow_succ_log_self (b := 2) (by norm_num) x).le
        push_cast at a
        exact a.trans (zpow_le_zpow_right₀ (by norm_num) (by omega))
      have h2 : (2 : ℚ) ^ Int.log 2 y ≤ y := by
        have a := Int.zpow_log_le_self (b := 2) (by norm_num) hy
        exact_mod_cast a
      exact (fl_le_of_le hx.le hF h1).trans (le_fl_of_le hy.le hp hF h2)

/-- The binary search splits a sorted range. -/
theorem searchRight_spec (a : Nat → ℚ) (x : ℚ) (lo hi : Nat) (hlh : lo ≤ hi) (hs : ∀ i j, lo ≤ i → i ≤ j → j < hi → a i ≤ a j) :
    lo ≤ searchRight a x lo hi ∧ searchRight a x lo hi ≤ hi ∧ (∀ i, lo ≤ i → i < searchRight a x lo hi → a i ≤ x) ∧
    (∀ i, searchRight a x lo hi ≤ i → i < hi → x < a i) := by
  fun_induction searchRight a x lo hi with
  | case1 lo hi h mid hle ih =>
    have hm : lo ≤ mid ∧ mid < hi := by omega
    obtain ⟨h1, h2, h3, h4⟩ := ih (by omega) fun i j hi' hij hj => hs i j (by omega) hij hj
    refine ⟨by omega, h2, fun i hi1 hi2 => ?_, h4⟩
    by_cases hc : mid + 1 ≤ i
    · exact h3 i hc hi2
    · exact (hs i mid hi1 (by omega) hm.2).trans hle
  | case2 lo hi h mid hle ih =>
    have hm : lo ≤ mid ∧ mid < hi := by omega
    obtain ⟨h1, h2, h3, h4⟩ := ih (by omega) fun i j hi' hij hj => hs i j hi' hij (by omega)
    refine ⟨h1, by omega, h3, fun i hi1 hi2 => ?_⟩
    by_cases hc : i < mid
    · exact h4 i hi1 hc
    · exact lt_of_lt_of_le (not_le.1 hle) (hs mid i (by omega) (by omega) hi2)
  | case3 lo hi h => exact ⟨le_refl _, hlh, fun i h1 h2 => by omega, fun i h1 h2 => by omega⟩

section
variable {K : Type}

/-- Which of the scheduled values is used at time `t` nanoseconds: the schedule is in increasing order and written in seconds, rounded to
double precision when read and to `p` bits by the object.  The entry `k` is never late (all scheduled times that have come are counted)
and early only by the rounding. -/
theorem C60_schedule (p : Nat) (hp : 0 < p) (values : List (List K)) (s : List ℚ) (groups : List Nat) (sch : Schedule K)
    (hinit : scheduleInit p values (s.map (fl 53)) groups = some sch) (hpos : ∀ x ∈ s, 0 ≤ x) (hsort : s.Pairwise (· ≤ ·))
    (t : Nat) (ht : t < 2 ^ 53) :
    ∃ k v, k ≤ s.length ∧ values[k]? = some v ∧ scheduleTrigger p sch t = some (npRepeat v groups) ∧
      (∀ (i : Nat) (x : ℚ), s[i]? = some x → x ≤ (t : ℚ) / 10 ^ 9 → i < k) ∧
      (∀ (i : Nat) (x : ℚ), s[i]? = some x → i < k →
        x * (1 - 1 / 2 ^ 53) * (1 - 1 / 2 ^ p) ≤ (t : ℚ) / 10 ^ 9 * (1 + 1 / 2 ^ 53) * (1 + 1 / 2 ^ p)) := by
  unfold scheduleInit at hinit
  split at hinit
  · rename_i hlen
    split at hinit
    · cases hinit
      rw [List.length_map] at hlen
      have hget : ∀ (i : Nat) (x : ℚ), s[i]? = some x → ((s.map (fl 53)).map (fl p)).getD i 0 = fl p (fl 53 x) := by
        intro i x hx
        simp [List.getD_eq_getElem?_getD, hx]
      have hmem : ∀ (i : Nat) (x : ℚ), s[i]? = some x → 0 ≤ x := fun i x hx => hpos x (List.mem_of_getElem? hx)
      have hT : genTime p t = fl p (fl 53 ((t : ℚ) / 10 ^ 9)) := by
        unfold genTime tToSeconds
        rw [fl_exact (by norm_num) (FloatNum.nat ht)]
      have hT0 : (0 : ℚ) ≤ (t : ℚ) / 10 ^ 9 := by positivity
      obtain ⟨-, h2, h3, h4⟩ := searchRight_spec (fun i : Nat => ((s.map (fl 53)).map (fl p)).getD i 0) (genTime p t) 0 s.length
        (Nat.zero_le _) (by
          intro i j _ hij hj
          have hj' := List.getElem?_eq_getElem hj
          have hi' := List.getElem?_eq_getElem (lt_of_le_of_lt hij hj)
          rw [hget i _ hi', hget j _ hj']
          have hle : s[i] ≤ s[j] := by
            rcases eq_or_lt_of_le hij with h | h
            · subst h; exact le_refl _
            · exact List.pairwise_iff_getElem.1 hsort i j _ _ h
          exact fl_mono hp (fl_nonneg (by norm_num) (hmem _ _ hi')) (fl_mono (by norm_num) (hmem _ _ hi') hle))
      set k := searchRight (fun i : Nat => ((s.map (fl 53)).map (fl p)).getD i 0) (genTime p t) 0 s.length with hk
      have hkv : k < values.length := by omega
      refine ⟨k, values[k], h2, List.getElem?_eq_getElem hkv, ?_, fun i x hx hle => ?_, fun i x hx hik => ?_⟩
      · unfold scheduleTrigger
        simp only [List.length_map, ← hk]
        have : min (max 0 k) (values.length - 1) = k := by omega
        rw [this, List.getElem?_map, List.getElem?_eq_getElem hkv]
        rfl
      · by_contra hc
        have hil : i < s.length := (List.getElem?_eq_some_iff.1 hx).1
        have := h4 i (by omega) hil
        rw [hget i x hx, hT] at this
        exact absurd (fl_mono hp (fl_nonneg (by norm_num) (hmem _ _ hx)) (fl_mono (by norm_num) (hmem _ _ hx) hle)) (not_le.2 this)
      · have := h3 i (Nat.zero_le _) hik
        rw [hget i x hx, hT] at this
        have hx0 := hmem _ _ hx
        have a1 := abs_le.1 (fl_error (p := 53) hx0)
        have a2 := abs_le.1 (fl_error (p := p) (fl_nonneg (p := 53) (by norm_num) hx0))
        have b1 := abs_le.1 (fl_error (p := 53) hT0)
        have b2 := abs_le.1 (fl_error (p := p) (fl_nonneg (p := 53) (by norm_num) hT0))
        have hq : (0 : ℚ) < 2 ^ p := by positivity
        have hq1 : (1 : ℚ) / 2 ^ p ≤ 1 := by
          rw [div_le_one hq]; exact one_le_pow₀ (by norm_num)
        have c1 : x * (1 - 1 / 2 ^ 53) ≤ fl 53 x := by
          have : x * (1 - 1 / 2 ^ 53) = x - x / 2 ^ 53 := by ring
          linarith
        have c2 : fl 53 x * (1 - 1 / 2 ^ p) ≤ fl p (fl 53 x) := by
          have : fl 53 x * (1 - 1 / 2 ^ p) = fl 53 x - fl 53 x / 2 ^ p := by ring
          linarith
        have d1 : fl 53 ((t : ℚ) / 10 ^ 9) ≤ (t : ℚ) / 10 ^ 9 * (1 + 1 / 2 ^ 53) := by
          have : (t : ℚ) / 10 ^ 9 * (1 + 1 / 2 ^ 53) = (t : ℚ) / 10 ^ 9 + (t : ℚ) / 10 ^ 9 / 2 ^ 53 := by ring
          linarith
        have d2 : fl p (fl 53 ((t : ℚ) / 10 ^ 9)) ≤ fl 53 ((t : ℚ) / 10 ^ 9) * (1 + 1 / 2 ^ p) := by
          have : fl 53 ((t : ℚ) / 10 ^ 9) * (1 + 1 / 2 ^ p) = fl 53 ((t : ℚ) / 10 ^ 9) + fl 53 ((t : ℚ) / 10 ^ 9) / 2 ^ p := by ring
          linarith
        calc x * (1 - 1 / 2 ^ 53) * (1 - 1 / 2 ^ p) ≤ fl 53 x * (1 - 1 / 2 ^ p) :=
              mul_le_mul_of_nonneg_right c1 (by linarith)
          _ ≤ fl p (fl 53 x) := c2
          _ ≤ fl p (fl 53 ((t : ℚ) / 10 ^ 9)) := this
          _ ≤ _ := d2.trans (mul_le_mul_of_nonneg_right d1 (by positivity))
    · cases hinit
  · cases hinit

-- Two values, switching at 0.5 s, in single precision: before, at and after the switch.
example : (scheduleInit 24 [[1, 2], [3, 4]] [1/2] [1, 2]).map (fun (s : Schedule Nat) =>
    [499999999, 500000000, 500000001].map (scheduleTrigger 24 s)) = some [some [3, 4, 4], some [3, 4, 4], some [3, 4, 4]] ∧
    (scheduleInit 53 [[1, 2], [3, 4]] [1/2] [1, 2]).map (fun (s : Schedule Nat) =>
    [499999999, 500000000].map (scheduleTrigger 53 s)) = some [some [1, 2, 2], some [3, 4, 4]] := by decide +kernel

/-- What the constructor refuses: a number of values other than one more than the times, or value sets that do not match the groups. -/
theorem C60_schedule_checked (p : Nat) (values : List (List K)) (times : List ℚ) (groups : List Nat) :
    (scheduleInit p values times groups).isSome ↔ values.length = times.length + 1 ∧ ∀ v ∈ values, v.length = groups.length := by
  unfold scheduleInit
  split
  · rename_i h
    split
    · rename_i h2
      simp only [List.all_eq_true, beq_iff_eq] at h2
      simp only [Option.isSome_some, true_iff]
      exact ⟨h, fun v hv => (h2 v hv).symm⟩
    · rename_i h2
      simp only [List.all_eq_true, beq_iff_eq] at h2
      simp only [Option.isSome_none, Bool.false_eq_true, false_iff, not_and]
      exact fun _ hc => h2 fun v hv => (hc v hv).symm
  · rename_i h
    simp [h]

/-- Modes of a group get the value of the group: group `g` follows the groups before it. -/
theorem C60_groups (v : List K) (groups : List Nat) (h : v.length = groups.length) :
    (npRepeat v groups).length = groups.sum ∧
    ∀ g m x, v[g]? = some x → (groups.take g).sum ≤ m → m < (groups.take (g + 1)).sum → (npRepeat v groups)[m]? = some x := by
  induction v generalizing groups with
  | nil =>
    cases groups with
    | nil => simp [npRepeat]
    | cons => simp at h
  | cons a v ih =>
    cases groups with
    | nil => simp at h
    | cons n groups =>
      have e : npRepeat (a :: v) (n :: groups) = List.replicate n a ++ npRepeat v groups := rfl
      obtain ⟨i1, i2⟩ := ih groups (by simpa using h)
      refine ⟨by rw [e, List.length_append, List.length_replicate, i1, List.sum_cons], fun g m x hx h1 h2 => ?_⟩
      rw [e]
      cases g with
      | zero =>
        simp only [List.getElem?_cons_zero, Option.some.injEq] at hx
        simp at h2
        rw [List.getElem?_append_left (by simpa using h2), List.getElem?_replicate, if_pos h2, hx]
      | succ g =>
        simp only [List.take_succ_cons, List.sum_cons] at h1 h2
        rw [List.getElem?_append_right (by simp; omega), List.length_replicate]
        exact i2 g (m - n) x (by simpa using hx) (by omega) (by omega)

example : npRepeat [7, 8, 9] [2, 0, 3] = [7, 7, 9, 9, 9] := rfl

/-- Any number of triggers of a time history: row after row, then the last row; an empty history raises. -/
theorem C60_history (hist : List (List K)) (n : Nat) :
    (hist ≠ [] → genRun (historyTrigger hist) 0 n = some ((List.range n).map fun i : Nat => hist.getD (min i (hist.length - 1)) [])) ∧
    (hist = [] → 0 < n → genRun (historyTrigger hist) 0 n = none) := by
  constructor
  · intro hne
    have hl : 0 < hist.length := List.length_pos_of_ne_nil hne
    have key : ∀ n k, genRun (historyTrigger hist) k n
        = some ((List.range n).map fun i : Nat => hist.getD (min (k + i) (hist.length - 1)) []) := by
      intro n
      induction n with
      | zero => intro k; rfl
      | succ n ih =>
        intro k
        have h1 : historyTrigger hist k = some (hist.getD (min k (hist.length - 1)) []) := by
          unfold historyTrigger
          split
          · rename_i hk
            rw [List.getElem?_eq_getElem hk, List.getD_eq_getElem?_getD, Nat.min_eq_left (by omega), List.getElem?_eq_getElem hk]; rfl
          · rename_i hk
            rw [List.getLast?_eq_getElem?, List.getD_eq_getElem?_getD, Nat.min_eq_right (by omega), List.getElem?_eq_getElem (by omega)]
            rfl
        rw [genRun, h1, Option.bind_some, ih, List.range_succ_eq_map]
        simp only [Option.map_some, List.map_cons, List.map_map, Nat.add_zero]
        congr 2
        refine List.map_congr_left fun i _ => ?_
        simp only [Function.comp_apply]
        congr 2; omega
    simpa using key n 0
  · rintro rfl hn
    obtain ⟨m, rfl⟩ : ∃ m, n = m + 1 := ⟨n - 1, by omega⟩
    rfl

example : genRun (historyTrigger [[1], [2], [3]]) 0 5 = some [[1], [2], [3], [3], [3]] := by decide

end

/-- Bounds of the waveforms and their period. -/
theorem C60_wave (w : WaveType) (amp freq offset slope const t : ℝ) (hf : freq ≠ 0) :
    |waveValue w amp freq offset slope const t - slope * t - const| ≤ |amp| ∧
    ∀ k : ℤ, waveValue w amp freq offset slope const (t + k / freq) - slope * (t + k / freq)
      = waveValue w amp freq offset slope const t - slope * t := by
  have hb : ∀ φ, |waveShape w φ| ≤ 1 := by
    intro φ
    cases w
    · exact abs_le.2 ⟨Real.neg_one_le_sin φ, Real.sin_le_one φ⟩
    · simp only [waveShape]; split_ifs <;> simp
    · simp only [waveShape]
      have h1 := Real.neg_pi_div_two_le_arcsin (Real.sin φ)
      have h2 := Real.arcsin_le_pi_div_two (Real.sin φ)
      have hp := Real.pi_pos
      rw [abs_le]
      constructor
      · rw [le_div_iff₀ hp]; linarith
      · rw [div_le_iff₀ hp]; linarith
  constructor
  · have : waveValue w amp freq offset slope const t - slope * t - const
        = amp * waveShape w (freq * 2 * Real.pi * t + offset) := by unfold waveValue; ring
    rw [this, abs_mul]
    exact (mul_le_mul_of_nonneg_left (hb _) (abs_nonneg _)).trans_eq (mul_one _)
  · intro k
    have hs : waveShape w (freq * 2 * Real.pi * (t + k / freq) + offset) = waveShape w (freq * 2 * Real.pi * t + offset) := by
      have e : freq * 2 * Real.pi * (t + k / freq) + offset = freq * 2 * Real.pi * t + offset + k * (2 * Real.pi) := by
        field_simp; ring
      have hsin := Real.sin_add_int_mul_two_pi (freq * 2 * Real.pi * t + offset) k
      rw [e]
      cases w <;> simp only [waveShape, hsin]
    simp only [waveValue, hs]; ring

/-- The triangle rises on a straight line from -1 to 1 in half a period and falls back in the other half; the square is one in the first
half of a period and minus one in the second. -/
theorem C60_shapes (x : ℝ) (hx : -1 ≤ x ∧ x ≤ 1) :
    waveShape .triangle (x * (Real.pi / 2)) = x ∧ waveShape .triangle (Real.pi - x * (Real.pi / 2)) = x ∧
    (0 < x → x < 1 → waveShape .square (x * Real.pi) = 1 ∧ waveShape .square (x * Real.pi + Real.pi) = -1) := by
  have hp := Real.pi_pos
  have h1 : -(Real.pi / 2) ≤ x * (Real.pi / 2) := by nlinarith [hx.1]
  have h2 : x * (Real.pi / 2) ≤ Real.pi / 2 := by nlinarith [hx.2]
  refine ⟨?_, ?_, fun h3 h4 => ?_⟩
  · simp only [waveShape, Real.arcsin_sin h1 h2]; field_simp
  · simp only [waveShape, Real.sin_pi_sub, Real.arcsin_sin h1 h2]; field_simp
  · have hs : 0 < Real.sin (x * Real.pi) := Real.sin_pos_of_pos_of_lt_pi (by positivity) (by nlinarith)
    simp only [waveShape, Real.sin_add_pi]
    refine ⟨if_pos hs, ?_⟩
    rw [if_neg (by linarith), if_pos (by linarith)]

example : waveValue .square 3 2 0 0 1 (1/8) = 4 := by
  have := (C60_shapes (1/2) (by norm_num)).2.2 (by norm_num) (by norm_num)
  have e : (2 : ℝ) * 2 * Real.pi * (1/8) + 0 = 1/2 * Real.pi := by ring
  unfold waveValue
  simp only [e, this.1]; norm_num

/-- The radial order used for the amplitudes is that of the Zernike polynomials: mode `i` (from zero) is Noll's index `i + 1`. -/
theorem C60_order (p i n : Nat) (hp : 2 ≤ p) (hi : 8 * (i + 1) + 1 ≤ 2 ^ p) :
    ampOrder p i = radialOrder p (i + 1) ∧
    (n * (n + 1) ≤ 2 * i → 2 * i < (n + 1) * (n + 2) → ampOrder p i = n) := by
  have e : ampOrder p i = radialOrder p (i + 1) := by
    unfold ampOrder radialOrder
    have : 9 + 8 * i = 8 * (i + 1) + 1 := by ring
    rw [this]; congr 1; ring
  refine ⟨e, fun h1 h2 => ?_⟩
  rw [e]
  have hev : n * (n + 1) % 2 = 0 := Nat.even_iff.1 (Nat.even_mul_succ_self n)
  have hev2 : (n + 1) * (n + 2) % 2 = 0 := Nat.even_iff.1 (Nat.even_mul_succ_self (n + 1))
  exact C44_radial_order p (i + 1) n hp hi (by omega) (by generalize (n + 1) * (n + 2) = q at *; omega)

/-- The amplitudes: zero for the forced modes, positive and in the proportions of the scaling law for the others, with the requested
root of the sum of the squares. -/
theorem C60_amplitudes (p : Nat) (hp : 2 ≤ p) (rms : ℝ) (n forced : Nat) (law : ScalingLaw) (hf : forced < n)
    (hn : 8 * n + 1 ≤ 2 ^ p) :
    ∃ c : ℝ, 0 < c ∧ (scaledAmps p rms n forced law).length = n ∧
      (∀ i, i < n → (scaledAmps p rms n forced law).getD i 0 = if i < forced then 0 else
        rms / c * (match law with
          | .constant => 1
          | .inverse => 1 / max 1 (radialOrder p (i + 1) : ℝ)
          | .linear => max 1 (radialOrder p (i + 1) : ℝ))) ∧
      ((scaledAmps p rms n forced law).map fun a => a ^ 2).sum = rms ^ 2 := by
  have hraw : ∀ i, i < n → rawAmp p law forced i = if i < forced then 0 else
        (match law with
          | .constant => 1
          | .inverse => 1 / max 1 (radialOrder p (i + 1) : ℝ)
          | .linear => max 1 (radialOrder p (i + 1) : ℝ)) := by
    intro i hi
    unfold rawAmp
    split
    · rfl
    · obtain ⟨m, h1, h2⟩ := exists_block (i + 1) (by omega)
      have hm := C44_radial_order p (i + 1) m hp (by omega) h1 h2
      have ho := (C60_order p i 0 hp (by omega)).1
      rw [ho, hm]
      cases law
      · rfl
      · dsimp only
        by_cases h0 : m = 0
        · subst h0; simp
        · have : (1 : ℝ) ≤ (m : ℝ) := by exact_mod_cast Nat.one_le_iff_ne_zero.2 h0
          simp [h0, this]
      · dsimp only
        by_cases h0 : m = 0
        · subst h0; simp
        · have : (1 : ℝ) ≤ (m : ℝ) := by exact_mod_cast Nat.one_le_iff_ne_zero.2 h0
          simp [h0, this]
  have hlast : 0 < rawAmp p law forced (n - 1) := by
    rw [hraw (n - 1) (by omega), if_neg (by omega)]
    cases law <;> dsimp only <;> positivity
  set amps := (List.range n).map (rawAmp p law forced) with hamps
  have hsum : 0 < (amps.map fun a => a ^ 2).sum := by
    have hmem : rawAmp p law forced (n - 1) ^ 2 ∈ amps.map fun a => a ^ 2 := by
      rw [hamps, List.map_map]
      exact List.mem_map.2 ⟨n - 1, List.mem_range.2 (by omega), rfl⟩
    have hnn : ∀ x ∈ amps.map fun a => a ^ 2, 0 ≤ x := by
      intro x hx
      obtain ⟨a, _, rfl⟩ := List.mem_map.1 hx
      positivity
    exact lt_of_lt_of_le (by positivity) (List.single_le_sum hnn _ hmem)
  have hc : 0 < Real.sqrt ((amps.map fun a => a ^ 2).sum) := Real.sqrt_pos.2 hsum
  have he : scaledAmps p rms n forced law = amps.map fun a => a * (rms / Real.sqrt ((amps.map fun a => a ^ 2).sum)) := by
    unfold scaledAmps
    simp only [← hamps]
    rw [if_pos hc]
  refine ⟨Real.sqrt ((amps.map fun a => a ^ 2).sum), hc, by rw [he]; simp [hamps], fun i hi => ?_, ?_⟩
  · rw [he, hamps]
    simp only [List.map_map]
    rw [List.getD_eq_getElem?_getD, List.getElem?_map, List.getElem?_range hi]
    simp only [Option.map_some, Option.getD_some, Function.comp_apply]
    rw [hraw i hi]
    split
    · simp
    · ring
  · rw [he, List.map_map]
    have : (fun a : ℝ => a ^ 2) ∘ (fun a => a * (rms / Real.sqrt ((amps.map fun a => a ^ 2).sum)))
        = fun a => a ^ 2 * (rms / Real.sqrt ((amps.map fun a => a ^ 2).sum)) ^ 2 := by
      funext a; simp only [Function.comp_apply]; ring
    rw [this, List.sum_map_mul_right, div_pow, Real.sq_sqrt hsum.le]
    field_simp

-- Three modes, the first forced to zero.
example : (scaledAmps 53 2 3 1 .inverse).getD 0 0 = 0 := by
  obtain ⟨c, _, _, h, _⟩ := C60_amplitudes 53 (by norm_num) 2 3 1 .inverse (by norm_num) (by norm_num)
  rw [h 0 (by norm_num), if_pos (by norm_num)]

end Specula
