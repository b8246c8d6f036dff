import Mathlib.Algebra.BigOperators.Field
import Mathlib.Algebra.Order.BigOperators.Ring.Finset
import Mathlib.Tactic.FieldSimp
import Verif.Model.EltM1
import Verif.Props.Ccd
/-
C115: influence functions of the segments of the primary mirror of the ELT.
-/
namespace Specula

/-! ### resampling of the map -/

theorem segCoord_near (n dim a : ℕ) : |(segCoord n dim a : ℚ) - (a : ℚ) * ((n : ℚ) / dim)| ≤ 1 / 2 := roundEvenF_near _

theorem segCoord_top (n dim : ℕ) (hd : 0 < dim) : (∀ a, a < dim → segCoord n dim a < n) ↔ dim < 2 * n ∨ (dim = 2 * n ∧ n % 2 = 1) := by
  have hdq : (0 : ℚ) < dim := by exact_mod_cast hd
  have hx : ∀ a : ℕ, a + 1 ≤ dim → (a : ℚ) * ((n : ℚ) / dim) ≤ n - (n : ℚ) / dim := by
    intro a ha
    have h1 : ((a : ℚ) + 1) ≤ dim := by exact_mod_cast ha
    have h2 : (0 : ℚ) ≤ (n : ℚ) / dim := by positivity
    have h3 : (dim : ℚ) * ((n : ℚ) / dim) = n := by field_simp
    nlinarith
  have hlast : ((dim - 1 : ℕ) : ℚ) * ((n : ℚ) / dim) = n - (n : ℚ) / dim := by
    rw [Nat.cast_sub hd]; field_simp; push_cast; ring
  rcases lt_trichotomy dim (2 * n) with h | h | h
  · refine ⟨fun _ => Or.inl h, fun _ a ha => ?_⟩
    have h1 := (abs_le.1 (segCoord_near n dim a)).2
    have h2 := hx a ha
    have h3 : (1 : ℚ) / 2 < (n : ℚ) / dim := by
      rw [div_lt_div_iff₀ (by norm_num) hdq]; have : (dim : ℚ) < 2 * n := by exact_mod_cast h
      linarith
    have h4 : (segCoord n dim a : ℚ) < (n : ℤ) := by push_cast; linarith
    exact_mod_cast h4
  · have hn : (n : ℚ) / dim = 1 / 2 := by
      have : (dim : ℚ) = 2 * n := by exact_mod_cast h
      rw [this] at hdq ⊢; have : (n : ℚ) ≠ 0 := by intro h0; rw [h0] at hdq; simp at hdq
      field_simp
    have hl : segCoord n dim (dim - 1) = if n % 2 = 1 then (n : ℤ) - 1 else n := by
      unfold segCoord
      rw [hlast, hn]
      have hf : ⌊(n : ℚ) - 1 / 2⌋ = (n : ℤ) - 1 := by
        rw [Int.floor_eq_iff]; push_cast; constructor <;> linarith
      unfold roundEvenF
      rw [hf]
      push_cast
      have e : (n : ℚ) - 1 / 2 - ((n : ℚ) - 1) = 1 / 2 := by ring
      simp only [e]
      split_ifs <;> first | omega | (exfalso; linarith) | skip
    constructor
    · intro ha
      have := ha (dim - 1) (by omega)
      rw [hl] at this
      split_ifs at this with ho
      · exact Or.inr ⟨h, ho⟩
      · omega
    · rintro (h' | ⟨-, ho⟩) a ha
      · omega
      · rcases Nat.lt_or_ge (a + 1) dim with hlt | hge
        · have h1 := (abs_le.1 (segCoord_near n dim a)).2
          have h2 : ((a : ℚ) + 2) ≤ dim := by exact_mod_cast hlt
          have h3 : (dim : ℚ) = 2 * n := by exact_mod_cast h
          rw [hn] at h1
          have h4 : (segCoord n dim a : ℚ) < (n : ℤ) := by push_cast; linarith
          exact_mod_cast h4
        · have : a = dim - 1 := by omega
          rw [this, hl, if_pos ho]; omega
  · constructor
    · intro ha
      exfalso
      have := ha (dim - 1) (by omega)
      have he : segCoord n dim (dim - 1) = n := by
        unfold segCoord
        rw [hlast]
        apply roundEvenF_eq
        have h3 : (n : ℚ) / dim < 1 / 2 := by
          rw [div_lt_div_iff₀ hdq (by norm_num)]; have : (2 * n : ℚ) < dim := by exact_mod_cast h
          linarith
        have h2 : (0 : ℚ) ≤ (n : ℚ) / dim := by positivity
        rw [abs_lt]; push_cast; constructor <;> linarith
      omega
    · rintro (h' | ⟨h', -⟩) <;> omega

/-- The map can be resampled up to twice its size: beyond that (and at exactly twice if the size is even) the last coordinate is outside the
map and `load_segmentation_map` raises. -/
theorem C115_resample_defined (n dim : ℕ) (hd : 0 < dim) (seg : ℕ → ℕ → ℕ) :
    (segResample n dim seg).isSome ↔ dim < 2 * n ∨ (dim = 2 * n ∧ n % 2 = 1) := by
  rw [← segCoord_top n dim hd]
  unfold segResample
  split_ifs with h
  · exact ⟨fun _ a ha => h ⟨a, ha⟩, fun _ => rfl⟩
  · exact ⟨fun h' => absurd h' (by simp), fun h' => absurd (fun a : Fin dim => h' a a.2) h⟩

theorem segCoord_nonneg (n dim a : ℕ) : 0 ≤ segCoord n dim a := by
  have h1 := (abs_le.1 (segCoord_near n dim a)).1
  have h2 : (0 : ℚ) ≤ (a : ℚ) * ((n : ℚ) / dim) := by positivity
  have h3 : ((-1 : ℤ) : ℚ) < segCoord n dim a := by push_cast; linarith
  have : (-1 : ℤ) < segCoord n dim a := by exact_mod_cast h3
  omega

/-- Every pixel of the resampled map is a pixel of the map not farther than half a pixel, in each direction, from the point `a n / dim`. -/
theorem C115_resample_near (n dim : ℕ) (seg : ℕ → ℕ → ℕ) (r : Fin dim × Fin dim → ℕ) (h : segResample n dim seg = some r)
    (p : Fin dim × Fin dim) : ∃ i j : ℕ, i < n ∧ j < n ∧ r p = seg i j ∧ |(i : ℚ) - (p.1 : ℕ) * n / dim| ≤ 1 / 2 ∧
      |(j : ℚ) - (p.2 : ℕ) * n / dim| ≤ 1 / 2 := by
  unfold segResample at h
  split_ifs at h with hc
  cases h
  have key : ∀ a : Fin dim, (((segCoord n dim a).toNat : ℕ) : ℤ) = segCoord n dim a := fun a => Int.toNat_of_nonneg (segCoord_nonneg n dim a)
  have near : ∀ a : Fin dim, |(((segCoord n dim a).toNat : ℕ) : ℚ) - (a : ℕ) * n / dim| ≤ 1 / 2 := by
    intro a
    have h1 := segCoord_near n dim a
    have h2 : (((segCoord n dim a).toNat : ℕ) : ℚ) = segCoord n dim a := by exact_mod_cast congrArg (Int.cast : ℤ → ℚ) (key a)
    rw [h2, mul_div_assoc]; exact h1
  refine ⟨_, _, ?_, ?_, rfl, near p.1, near p.2⟩
  · have := hc p.1; have := key p.1; omega
  · have := hc p.2; have := key p.2; omega

/-- A map that is an integer number of times larger is decimated: one pixel out of `k`, starting with the first one. -/
theorem C115_decimate (k dim : ℕ) (hd : 0 < dim) (hk : 0 < k) (seg : ℕ → ℕ → ℕ) :
    segResample (dim * k) dim seg = some fun p => seg (p.1 * k) (p.2 * k) := by
  have hc : ∀ a : ℕ, segCoord (dim * k) dim a = ((a * k : ℕ) : ℤ) := by
    intro a
    unfold segCoord
    apply roundEvenF_eq
    have hdq : (dim : ℚ) ≠ 0 := by exact_mod_cast hd.ne'
    have : (a : ℚ) * (((dim * k : ℕ) : ℚ) / dim) = (((a * k : ℕ) : ℤ) : ℚ) := by push_cast; field_simp
    rw [this]; simp
  unfold segResample
  rw [if_pos]
  · simp only [hc, Int.toNat_natCast]
  · intro a; rw [hc]; exact_mod_cast Nat.mul_lt_mul_of_pos_right a.2 hk

/-- So a symmetric map does not stay symmetric: the points that are picked are not centred. -/
theorem C115_not_centred : ∃ (n dim : ℕ) (seg : ℕ → ℕ → ℕ) (r : Fin dim × Fin dim → ℕ), segResample n dim seg = some r ∧
    (∀ i j, i < n → j < n → seg (n - 1 - i) j = seg i j ∧ seg i (n - 1 - j) = seg i j) ∧ ∃ p, r (p.1.rev, p.2) ≠ r p := by
  refine ⟨4, 2, fun i _ => if i = 0 ∨ i = 3 then 1 else 2, _, C115_decimate 2 2 (by norm_num) (by norm_num) _, ?_, (0, 0), ?_⟩
  · intro i j hi hj
    refine ⟨?_, rfl⟩
    rcases (by omega : i = 0 ∨ i = 1 ∨ i = 2 ∨ i = 3) with h | h | h | h <;> subst h <;> simp
  · simp

/-! ### the modes of one segment -/

section
variable {P : Type} [DecidableEq P]

theorem segMean_congr (S : Finset P) (x y : P → ℝ) (h : ∀ p ∈ S, x p = y p) : segMean S x = segMean S y := by
  unfold segMean; rw [Finset.sum_congr rfl h]

theorem sum_eq_segMean (S : Finset P) (hS : S.Nonempty) (x : P → ℝ) : ∑ p ∈ S, x p = S.card * segMean S x := by
  have : (S.card : ℝ) ≠ 0 := by exact_mod_cast hS.card_pos.ne'
  unfold segMean; field_simp

/-- The piston is one on the segment and zero elsewhere. -/
theorem C115_piston (S : Finset P) (p : P) : segPiston S p = if p ∈ S then 1 else 0 := by
  unfold segPiston
  by_cases hp : p ∈ S
  · have h1 : segMean S (fun p => segInd S p ^ 2) = 1 := by
      have hc : (S.card : ℝ) ≠ 0 := by exact_mod_cast (Finset.card_pos.2 ⟨p, hp⟩).ne'
      rw [segMean_congr S _ (fun _ => 1) (by intro q hq; simp [segInd, hq])]
      unfold segMean; simp [hc]
    rw [if_pos hp, if_pos hp, h1]; simp [segInd, hp]
  · rw [if_neg hp, if_neg hp]; simp [segInd, hp]

theorem segStd_eq (S : Finset P) (g : P → ℝ) : (segStd S fun p => g p * segPiston S p) = segStd S g := by
  have h : ∀ p ∈ S, g p * segPiston S p = g p := by intro p hp; rw [C115_piston, if_pos hp, mul_one]
  have hm : segMean S (fun p => g p * segPiston S p) = segMean S g := segMean_congr S _ _ h
  unfold segStd
  rw [hm]
  congr 1
  exact segMean_congr S _ _ (by intro p hp; show (g p * segPiston S p - _) ^ 2 = _; rw [h p hp])

theorem segStd_zero_iff (S : Finset P) (hS : S.Nonempty) (g : P → ℝ) : segStd S g = 0 ↔ ∀ p ∈ S, ∀ q ∈ S, g p = g q := by
  have hc : (0 : ℝ) < (S.card : ℝ) := by exact_mod_cast hS.card_pos
  have h0 : 0 ≤ ∑ p ∈ S, (g p - segMean S g) ^ 2 := Finset.sum_nonneg fun p _ => sq_nonneg _
  have h1 : segStd S g = 0 ↔ ∑ p ∈ S, (g p - segMean S g) ^ 2 = 0 := by
    unfold segStd
    rw [Real.sqrt_eq_zero (by unfold segMean at *; exact div_nonneg h0 hc.le)]
    conv_lhs => unfold segMean
    rw [div_eq_zero_iff]
    constructor
    · rintro (h | h)
      · exact h
      · exact absurd h hc.ne'
    · exact Or.inl
  rw [h1, Finset.sum_eq_zero_iff_of_nonneg fun p _ => sq_nonneg _]
  constructor
  · intro h p hp q hq
    have a := pow_eq_zero_iff (two_ne_zero) |>.1 (h p hp)
    have b := pow_eq_zero_iff (two_ne_zero) |>.1 (h q hq)
    linarith
  · intro h p hp
    have : segMean S g = g p := by
      rw [segMean_congr S g (fun _ => g p) fun q hq => h q hq p hp]
      unfold segMean; simp only [Finset.sum_const, nsmul_eq_mul]; field_simp
    rw [this]; ring

theorem segStd_sq (S : Finset P) (g : P → ℝ) : segStd S g ^ 2 = segMean S fun p => (g p - segMean S g) ^ 2 := by
  unfold segStd
  rw [Real.sq_sqrt]
  unfold segMean
  exact div_nonneg (Finset.sum_nonneg fun p _ => sq_nonneg _) (by positivity)

/-- On the pixels of a segment the mode is NaN exactly if the slope is the same on all of them, that is, if they are in one row (tip) or one
column (tilt): a segment of one pixel, for instance. -/
theorem C115_undefined (S : Finset P) (g : P → ℝ) (p : P) : segSlope S g p = none ↔ p ∈ S ∧ ∀ q ∈ S, ∀ q' ∈ S, g q = g q' := by
  unfold segSlope
  by_cases hp : p ∈ S
  · rw [if_pos hp, segStd_eq, ← segStd_zero_iff S ⟨p, hp⟩]
    split_ifs with h
    · simp [hp, h]
    · simp [h]
  · simp [hp]

/-- Otherwise the mode is the slope without its mean, scaled to rms 1 on the segment; it is zero outside the segment. -/
theorem C115_slope (S : Finset P) (g : P → ℝ) (hg : ∃ q ∈ S, ∃ q' ∈ S, g q ≠ g q') :
    ∃ v : P → ℝ, (∀ p, segSlope S g p = some (v p)) ∧ (∀ p, p ∉ S → v p = 0) ∧ ∑ p ∈ S, v p = 0 ∧ ∑ p ∈ S, v p ^ 2 = S.card ∧
      ∃ c, 0 < c ∧ ∀ p ∈ S, v p = c * (g p - segMean S g) := by
  obtain ⟨q, hq, q', hq', hne⟩ := hg
  have hS : S.Nonempty := ⟨q, hq⟩
  have hc : (0 : ℝ) < (S.card : ℝ) := by exact_mod_cast hS.card_pos
  have hs0 : segStd S g ≠ 0 := by
    intro h; exact hne ((segStd_zero_iff S hS g).1 h q hq q' hq')
  have hs : 0 < segStd S g := lt_of_le_of_ne (Real.sqrt_nonneg _) (Ne.symm hs0)
  have hsc : ∀ p ∈ S, segScaled S g p = g p / segStd S g := by
    intro p hp
    unfold segScaled
    rw [if_pos hp, segStd_eq, C115_piston, if_pos hp]; ring
  have hm : segMean S (segScaled S g) = segMean S g / segStd S g := by
    rw [segMean_congr S _ _ hsc]; unfold segMean; rw [← Finset.sum_div]; ring
  have hv : ∀ p ∈ S, segScaled S g p - segMean S (segScaled S g) = 1 / segStd S g * (g p - segMean S g) := by
    intro p hp; rw [hsc p hp, hm]; ring
  refine ⟨fun p => if p ∈ S then segScaled S g p - segMean S (segScaled S g) else 0, ?_, ?_, ?_, ?_, 1 / segStd S g, by positivity, ?_⟩
  · intro p
    unfold segSlope
    by_cases hp : p ∈ S
    · simp only [if_pos hp, segStd_eq, if_neg hs0]
    · simp only [if_neg hp]
      unfold segScaled
      rw [if_neg hp, C115_piston, if_neg hp, mul_zero]
  · intro p hp; simp [hp]
  · have : ∀ p ∈ S, (if p ∈ S then segScaled S g p - segMean S (segScaled S g) else 0) = 1 / segStd S g * (g p - segMean S g) := by
      intro p hp; rw [if_pos hp, hv p hp]
    rw [Finset.sum_congr rfl this, ← Finset.mul_sum, Finset.sum_sub_distrib, sum_eq_segMean S hS]
    simp
  · have : ∀ p ∈ S, (if p ∈ S then segScaled S g p - segMean S (segScaled S g) else 0) ^ 2 =
        (1 / segStd S g) ^ 2 * (g p - segMean S g) ^ 2 := by
      intro p hp; rw [if_pos hp, hv p hp]; ring
    rw [Finset.sum_congr rfl this, ← Finset.mul_sum, sum_eq_segMean S hS (fun p => (g p - segMean S g) ^ 2), ← segStd_sq]
    field_simp
  · intro p hp; simp only [if_pos hp]; exact hv p hp

/-- A segment without pixels (lost when the map is reduced) has three modes that are zero everywhere: no warning, no error. -/
theorem C115_lost_segment (g : P → ℝ) (p : P) : segPiston (∅ : Finset P) p = 0 ∧ segSlope (∅ : Finset P) g p = some 0 := by
  refine ⟨by simp [C115_piston], ?_⟩
  unfold segSlope segScaled
  simp [C115_piston]

/-- Tip and tilt of a segment are orthogonal only if its pixels are not correlated in the two directions. -/
theorem C115_tip_tilt (S : Finset P) (g h : P → ℝ) (v w : P → ℝ) (hv : ∀ p, segSlope S g p = some (v p)) (hw : ∀ p, segSlope S h p = some (w p)) :
    ∑ p ∈ S, v p * w p = 0 ↔ ∑ p ∈ S, (g p - segMean S g) * (h p - segMean S h) = 0 := by
  rcases S.eq_empty_or_nonempty with he | ⟨q, hq⟩
  · subst he; simp
  have ng : ∀ g' : P → ℝ, (∀ v' : P → ℝ, (∀ p, segSlope S g' p = some (v' p)) → ∃ q ∈ S, ∃ q' ∈ S, g' q ≠ g' q') := by
    intro g' v' hv'
    by_contra hcon
    push Not at hcon
    have := (C115_undefined S g' q).2 ⟨hq, hcon⟩
    rw [hv' q] at this; simp at this
  obtain ⟨v', a1, -, -, -, c, hc, a2⟩ := C115_slope S g (ng g v hv)
  obtain ⟨w', b1, -, -, -, d, hd, b2⟩ := C115_slope S h (ng h w hw)
  have ev : v = v' := funext fun p => by have := hv p; rw [a1 p] at this; exact (Option.some.inj this).symm
  have ew : w = w' := funext fun p => by have := hw p; rw [b1 p] at this; exact (Option.some.inj this).symm
  subst ev; subst ew
  have : ∀ p ∈ S, v p * w p = c * d * ((g p - segMean S g) * (h p - segMean S h)) := by
    intro p hp; rw [a2 p hp, b2 p hp]; ring
  rw [Finset.sum_congr rfl this, ← Finset.mul_sum]
  constructor
  · intro hz
    rcases mul_eq_zero.1 hz with h0 | h0
    · rcases mul_eq_zero.1 h0 with h0 | h0
      · exact absurd h0 hc.ne'
      · exact absurd h0 hd.ne'
    · exact h0
  · intro hz; rw [hz, mul_zero]

/-- Every motion of a segment as a rigid body (piston `a`, slopes `b` and `c`) is a combination of its three modes. -/
theorem C115_rigid (S : Finset P) (g h : P → ℝ) (v w : P → ℝ) (hv : ∀ p, segSlope S g p = some (v p)) (hw : ∀ p, segSlope S h p = some (w p))
    (a b c : ℝ) : ∃ x y z : ℝ, ∀ p, x * segPiston S p + y * v p + z * w p = if p ∈ S then a + b * g p + c * h p else 0 := by
  rcases S.eq_empty_or_nonempty with he | ⟨q, hq⟩
  · subst he
    refine ⟨0, 0, 0, fun p => by simp⟩
  have ng : ∀ g' : P → ℝ, (∀ v' : P → ℝ, (∀ p, segSlope S g' p = some (v' p)) → ∃ q ∈ S, ∃ q' ∈ S, g' q ≠ g' q') := by
    intro g' v' hv'
    by_contra hcon
    push Not at hcon
    have := (C115_undefined S g' q).2 ⟨hq, hcon⟩
    rw [hv' q] at this; simp at this
  obtain ⟨v', a1, a0, -, -, s, hs, a2⟩ := C115_slope S g (ng g v hv)
  obtain ⟨w', b1, b0, -, -, t, ht, b2⟩ := C115_slope S h (ng h w hw)
  have ev : v = v' := funext fun p => by have := hv p; rw [a1 p] at this; exact (Option.some.inj this).symm
  have ew : w = w' := funext fun p => by have := hw p; rw [b1 p] at this; exact (Option.some.inj this).symm
  subst ev; subst ew
  refine ⟨a + b * segMean S g + c * segMean S h, b / s, c / t, fun p => ?_⟩
  by_cases hp : p ∈ S
  · rw [C115_piston, if_pos hp, if_pos hp, a2 p hp, b2 p hp]; field_simp; ring
  · rw [C115_piston, if_neg hp, if_neg hp, a0 p hp, b0 p hp]; ring

end

/-! ### the base -/

section
variable {P : Type} [DecidableEq P] [Fintype P]

theorem flatMap_three_get {α : Type} (f : ℕ → List α) (hf : ∀ s, (f s).length = 3) (n s k : ℕ) (hs : s < n) (hk : k < 3) :
    ((List.range n).flatMap f)[3 * s + k]? = (f s)[k]? := by
  induction n with
  | zero => omega
  | succ n ih =>
    have hlen : ((List.range n).flatMap f).length = 3 * n := by
      rw [List.length_flatMap]; simp [hf, Nat.mul_comm]
    rw [List.range_succ, List.flatMap_append, List.flatMap_singleton]
    rcases Nat.lt_or_ge s n with h | h
    · rw [List.getElem?_append_left (by omega)]; exact ih h
    · have : s = n := by omega
      subst this
      rw [List.getElem?_append_right (by omega), hlen]
      congr 1; omega

/-- Three rows for each segment of the original map, in the order piston, tip, tilt. -/
theorem C115_rows (rseg : P → ℕ) (nseg : ℕ) (tip tilt : P → ℝ) : (m1Base rseg nseg tip tilt).length = 3 * nseg ∧
    ∀ s, s < nseg → (m1Base rseg nseg tip tilt)[3 * s]? = some (fun p => some (if rseg p.1 = s + 1 then 1 else 0)) ∧
      (m1Base rseg nseg tip tilt)[3 * s + 1]? = some (fun p => segSlope (segPix rseg s) tip p.1) ∧
      (m1Base rseg nseg tip tilt)[3 * s + 2]? = some (fun p => segSlope (segPix rseg s) tilt p.1) := by
  have h3 : ∀ s, (((segModes (segPix rseg s) tip tilt).map fun m => fun p : {p : P // 0 < rseg p} => m p.1)).length = 3 := by
    intro s; simp [segModes]
  refine ⟨?_, fun s hs => ⟨?_, ?_, ?_⟩⟩
  · unfold m1Base; rw [List.length_flatMap]; simp [segModes, Nat.mul_comm]
  · have := flatMap_three_get _ h3 nseg s 0 hs (by omega)
    unfold m1Base
    rw [Nat.add_zero] at this
    rw [this]
    simp [segModes, C115_piston, segPix]
  · unfold m1Base; rw [flatMap_three_get _ h3 nseg s 1 hs (by omega)]; rfl
  · unfold m1Base; rw [flatMap_three_get _ h3 nseg s 2 hs (by omega)]; rfl

/-- Outside its segment every row is zero. -/
theorem m1Base_support (rseg : P → ℕ) (nseg : ℕ) (tip tilt : P → ℝ) (i : ℕ) (m : {p : P // 0 < rseg p} → Option ℝ)
    (h : (m1Base rseg nseg tip tilt)[i]? = some m) (p : {p : P // 0 < rseg p}) (hp : rseg p.1 ≠ i / 3 + 1) : m p = some 0 := by
  have hi : i < 3 * nseg := by
    rw [← (C115_rows rseg nseg tip tilt).1]; exact (List.getElem?_eq_some_iff.1 h).1
  have hs : i / 3 < nseg := by omega
  obtain ⟨h0, h1, h2⟩ := (C115_rows rseg nseg tip tilt).2 (i / 3) hs
  have out : ∀ g : P → ℝ, segSlope (segPix rseg (i / 3)) g p.1 = some 0 := by
    intro g
    have hn : p.1 ∉ segPix rseg (i / 3) := by simp [segPix, hp]
    unfold segSlope segScaled
    rw [if_neg hn, if_neg hn, C115_piston, if_neg hn, mul_zero]
  have hk : i % 3 < 3 := Nat.mod_lt _ (by norm_num)
  have hik := Nat.div_add_mod i 3
  rcases (by omega : i % 3 = 0 ∨ i % 3 = 1 ∨ i % 3 = 2) with e | e | e
  · rw [show 3 * (i / 3) = i by omega, h] at h0; rw [Option.some.inj h0]; simp [hp]
  · rw [show 3 * (i / 3) + 1 = i by omega, h] at h1; rw [Option.some.inj h1]; exact out tip
  · rw [show 3 * (i / 3) + 2 = i by omega, h] at h2; rw [Option.some.inj h2]; exact out tilt

/-- Rows of different segments are orthogonal on the pupil. -/
theorem C115_orthogonal_segments (rseg : P → ℕ) (nseg : ℕ) (tip tilt : P → ℝ) (i j : ℕ) (v w : {p : P // 0 < rseg p} → ℝ)
    (hv : (m1Base rseg nseg tip tilt)[i]? = some fun p => some (v p)) (hw : (m1Base rseg nseg tip tilt)[j]? = some fun p => some (w p))
    (hij : i / 3 ≠ j / 3) : ∑ p, v p * w p = 0 := by
  apply Finset.sum_eq_zero
  intro p _
  by_cases hp : rseg p.1 = i / 3 + 1
  · have := m1Base_support rseg nseg tip tilt j _ hw p (by omega)
    rw [Option.some.inj this, mul_zero]
  · have := m1Base_support rseg nseg tip tilt i _ hv p hp
    rw [Option.some.inj this, zero_mul]

theorem sum_pupil (rseg : P → ℕ) (s : ℕ) (f : P → ℝ) (hf : ∀ p, rseg p ≠ s + 1 → f p = 0) :
    ∑ p : {p : P // 0 < rseg p}, f p.1 = ∑ p ∈ segPix rseg s, f p := by
  have h1 : ∑ p : {p : P // 0 < rseg p}, f p.1 = ∑ p ∈ Finset.univ.filter (fun p => 0 < rseg p), f p := by
    rw [Finset.sum_subtype (Finset.univ.filter fun p => 0 < rseg p) (p := fun p => 0 < rseg p) (by simp)]
  rw [h1]
  symm
  apply Finset.sum_subset
  · intro p hp; simp only [segPix, Finset.mem_filter, Finset.mem_univ, true_and] at hp ⊢; omega
  · intro p _ hp; apply hf; simpa [segPix] using hp

/-- On the pupil, the sum of the squares of a row is the number of pixels of its segment (rms 1 on the segment); tip and tilt have no piston. -/
theorem C115_normalised (rseg : P → ℕ) (nseg : ℕ) (tip tilt : P → ℝ) (i : ℕ) (v : {p : P // 0 < rseg p} → ℝ)
    (hv : (m1Base rseg nseg tip tilt)[i]? = some fun p => some (v p)) :
    ∑ p, v p ^ 2 = (segPix rseg (i / 3)).card ∧ (i % 3 ≠ 0 → ∑ p, v p = 0) := by
  have hi : i < 3 * nseg := by
    rw [← (C115_rows rseg nseg tip tilt).1]; exact (List.getElem?_eq_some_iff.1 hv).1
  have hs : i / 3 < nseg := by omega
  obtain ⟨h0, h1, h2⟩ := (C115_rows rseg nseg tip tilt).2 (i / 3) hs
  have slope : ∀ g : P → ℝ, (fun p : {p : P // 0 < rseg p} => segSlope (segPix rseg (i / 3)) g p.1) = (fun p => some (v p)) →
      ∑ p, v p ^ 2 = (segPix rseg (i / 3)).card ∧ ∑ p, v p = 0 := by
    intro g he
    by_cases hg : ∃ q ∈ segPix rseg (i / 3), ∃ q' ∈ segPix rseg (i / 3), g q ≠ g q'
    · obtain ⟨u, a1, a0, a2, a3, -⟩ := C115_slope _ g hg
      have e : ∀ p : {p : P // 0 < rseg p}, v p = u p.1 := by
        intro p; have := congrFun he p; simp only [a1] at this; exact (Option.some.inj this).symm
      have z : ∀ p, rseg p ≠ i / 3 + 1 → u p = 0 := fun p hp => a0 p (by simp [segPix, hp])
      simp only [e]
      rw [sum_pupil rseg (i / 3) (fun p => u p ^ 2) (fun p hp => by rw [z p hp]; norm_num), sum_pupil rseg (i / 3) u z]
      exact ⟨a3, a2⟩
    · push Not at hg
      have hemp : segPix rseg (i / 3) = ∅ := by
        rw [Finset.eq_empty_iff_forall_notMem]
        intro p hp
        have hp' : 0 < rseg p := by have := hp; simp only [segPix, Finset.mem_filter, Finset.mem_univ, true_and] at this; omega
        have := congrFun he ⟨p, hp'⟩
        have hn := (C115_undefined (segPix rseg (i / 3)) g p).2 ⟨hp, hg⟩
        simp [hn] at this
      have e : ∀ p : {p : P // 0 < rseg p}, v p = 0 := by
        intro p; have := congrFun he p; rw [hemp] at this
        simp only [(C115_lost_segment g p.1).2] at this; exact (Option.some.inj this).symm
      rw [hemp]; simp [e]
  rcases (by omega : i % 3 = 0 ∨ i % 3 = 1 ∨ i % 3 = 2) with e | e | e
  · rw [show 3 * (i / 3) = i by omega, hv] at h0
    have h0' : ∀ p : {p : P // 0 < rseg p}, v p = (fun p : P => if rseg p = i / 3 + 1 then (1 : ℝ) else 0) p.1 := fun p =>
      Option.some.inj (congrFun (Option.some.inj h0) p)
    refine ⟨?_, fun h => absurd e h⟩
    simp only [h0']
    rw [sum_pupil rseg (i / 3) (fun p => (if rseg p = i / 3 + 1 then (1 : ℝ) else 0) ^ 2) (fun p hp => by simp [hp])]
    have : ∀ p ∈ segPix rseg (i / 3), (if rseg p = i / 3 + 1 then (1 : ℝ) else 0) ^ 2 = 1 := by
      intro p hp; simp only [segPix, Finset.mem_filter, Finset.mem_univ, true_and] at hp; simp [hp]
    rw [Finset.sum_congr rfl this]; simp
  · rw [show 3 * (i / 3) + 1 = i by omega, hv] at h1
    have := slope tip (Option.some.inj h1).symm
    exact ⟨this.1, fun _ => this.2⟩
  · rw [show 3 * (i / 3) + 2 = i by omega, hv] at h2
    have := slope tilt (Option.some.inj h2).symm
    exact ⟨this.1, fun _ => this.2⟩

end

theorem lin11_inj (dim i j : ℕ) (hi : i < dim) (hj : j < dim) (h : lin11 dim i = lin11 dim j) : i = j := by
  unfold lin11 at h
  rcases Nat.lt_or_ge 1 dim with h1 | h1
  · have h3 : (1 : ℝ) < dim := by exact_mod_cast h1
    have h4 : ((dim : ℝ) - 1) ≠ 0 := by linarith
    have h2 : (i : ℝ) = j := by
      have := (div_left_inj' h4).1 (add_left_cancel h)
      linarith
    exact_mod_cast h2
  · omega

/-- The tip (tilt) of a segment is usable exactly if the segment has no pixel at all or pixels in two rows (columns) at least. -/
theorem C115_usable (dim : ℕ) (rseg : Fin dim × Fin dim → ℕ) (s : ℕ) :
    ((∀ p, segSlope (segPix rseg s) (gridTip dim) p ≠ none) ↔ (∀ p, rseg p ≠ s + 1) ∨ ∃ p q, rseg p = s + 1 ∧ rseg q = s + 1 ∧ p.1 ≠ q.1) ∧
    ((∀ p, segSlope (segPix rseg s) (gridTilt dim) p ≠ none) ↔ (∀ p, rseg p ≠ s + 1) ∨ ∃ p q, rseg p = s + 1 ∧ rseg q = s + 1 ∧ p.2 ≠ q.2) := by
  have hm : ∀ p, p ∈ segPix rseg s ↔ rseg p = s + 1 := by intro p; simp [segPix]
  have main : ∀ (g : Fin dim × Fin dim → ℝ) (c : Fin dim × Fin dim → Fin dim), (∀ p q, g p = g q ↔ c p = c q) →
      ((∀ p, segSlope (segPix rseg s) g p ≠ none) ↔ (∀ p, rseg p ≠ s + 1) ∨ ∃ p q, rseg p = s + 1 ∧ rseg q = s + 1 ∧ c p ≠ c q) := by
    intro g c hgc
    constructor
    · intro h
      by_contra hcon
      push Not at hcon
      obtain ⟨⟨p, hp⟩, hcon⟩ := hcon
      refine h p ((C115_undefined _ g p).2 ⟨(hm p).2 hp, fun q hq q' hq' => (hgc q q').2 (hcon q q' ((hm q).1 hq) ((hm q').1 hq'))⟩)
    · rintro (h | ⟨q, q', hq, hq', hne⟩) p hn
      · exact h p ((hm p).1 ((C115_undefined _ g p).1 hn).1)
      · exact hne ((hgc q q').1 (((C115_undefined _ g p).1 hn).2 q ((hm q).2 hq) q' ((hm q').2 hq')))
  refine ⟨main _ (fun p => p.1) ?_, main _ (fun p => p.2) ?_⟩
  · intro p q
    exact ⟨fun h => Fin.ext (lin11_inj dim _ _ p.1.2 q.1.2 h), fun h => by unfold gridTip; rw [h]⟩
  · intro p q
    exact ⟨fun h => Fin.ext (lin11_inj dim _ _ p.2.2 q.2.2 h), fun h => by unfold gridTilt; rw [h]⟩

/-- Three pixels at a corner: tip and tilt are defined but not orthogonal. -/
theorem C115_not_orthogonal : ∃ (rseg : Fin 2 × Fin 2 → ℕ) (v w : Fin 2 × Fin 2 → ℝ),
    (∀ p, segSlope (segPix rseg 0) (gridTip 2) p = some (v p)) ∧ (∀ p, segSlope (segPix rseg 0) (gridTilt 2) p = some (w p)) ∧
      ∑ p ∈ segPix rseg 0, v p * w p ≠ 0 := by
  let rseg : Fin 2 × Fin 2 → ℕ := fun p => if p = (1, 1) then 2 else 1
  have hpix : segPix rseg 0 = {(0, 0), (0, 1), (1, 0)} := by decide
  obtain ⟨v, a1, -⟩ := C115_slope (segPix rseg 0) (gridTip 2) ⟨(0, 0), by rw [hpix]; decide, (1, 0), by rw [hpix]; decide, by
    simp [gridTip, lin11]; norm_num⟩
  obtain ⟨w, b1, -⟩ := C115_slope (segPix rseg 0) (gridTilt 2) ⟨(0, 0), by rw [hpix]; decide, (0, 1), by rw [hpix]; decide, by
    simp [gridTilt, lin11]; norm_num⟩
  refine ⟨rseg, v, w, a1, b1, ?_⟩
  intro h
  have := (C115_tip_tilt _ _ _ v w a1 b1).1 h
  unfold segMean at this
  rw [hpix] at this
  have e : ({(0, 0), (0, 1), (1, 0)} : Finset (Fin 2 × Fin 2)).card = 3 := by decide
  rw [e] at this
  simp [gridTip, gridTilt, lin11] at this
  norm_num at this

/-- The map of the ELT has 1015 pixels: all sizes to 2030 can be made. -/
example (seg : ℕ → ℕ → ℕ) : (segResample 1015 512 seg).isSome ∧ (segResample 1015 2030 seg).isSome ∧ ¬(segResample 1015 2031 seg).isSome := by
  refine ⟨(C115_resample_defined _ _ (by norm_num) _).2 (by norm_num), (C115_resample_defined _ _ (by norm_num) _).2 (by norm_num), ?_⟩
  rw [C115_resample_defined _ _ (by norm_num)]; norm_num

/-- A segment of one pixel has no tip. -/
example : segSlope (segPix (fun _ : Fin 1 × Fin 1 => 1) 0) (gridTip 1) (0, 0) = none :=
  (C115_undefined _ _ _).2 ⟨by simp [segPix], fun q _ q' _ => by rw [Subsingleton.elim q q']⟩

end Specula
