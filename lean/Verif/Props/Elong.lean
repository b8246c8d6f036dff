import Verif.Model.Elong
import Mathlib.Analysis.SpecialFunctions.Trigonometric.Arctan
import Mathlib.Analysis.SpecialFunctions.Complex.Arg
import Mathlib.Algebra.BigOperators.Intervals
import Mathlib.Data.List.Perm.Basic
import Mathlib.Data.List.Sort
import Mathlib.Tactic.FieldSimp
import Mathlib.Tactic.Linarith
import Mathlib.Tactic.Ring
/-
C105: noise covariance of elongated spots.
-/
namespace Specula

open Finset

/-! ### Geometry -/

theorem arctan2_pos (y x : ℝ) (hy : 0 < y) : arctan2 y x = Real.pi / 2 - Real.arctan (x / y) := by
  unfold arctan2
  have hlo : -(Real.pi / 2) < Real.arctan (x / y) := Real.neg_pi_div_two_lt_arctan _
  have hhi := Real.arctan_lt_pi_div_two (x / y)
  have hs : 0 < Real.sqrt (1 + (x / y) ^ 2) := Real.sqrt_pos.2 (by positivity)
  have h1 : Real.cos (Real.pi / 2 - Real.arctan (x / y)) = x / y / Real.sqrt (1 + (x / y) ^ 2) := by
    rw [Real.cos_pi_div_two_sub, Real.sin_arctan]
  have h2 : Real.sin (Real.pi / 2 - Real.arctan (x / y)) = 1 / Real.sqrt (1 + (x / y) ^ 2) := by
    rw [Real.sin_pi_div_two_sub, Real.cos_arctan]
  have e : (⟨x, y⟩ : ℂ) = ((y * Real.sqrt (1 + (x / y) ^ 2) : ℝ) : ℂ) *
      (Complex.cos ((Real.pi / 2 - Real.arctan (x / y) : ℝ)) + Complex.sin ((Real.pi / 2 - Real.arctan (x / y) : ℝ)) * Complex.I) := by
    rw [← Complex.ofReal_cos, ← Complex.ofReal_sin, h1, h2]
    apply Complex.ext
    · simp only [Complex.mul_re, Complex.ofReal_re, Complex.ofReal_im, Complex.add_re, Complex.mul_im, Complex.I_re, Complex.I_im]
      field_simp
      ring
    · simp only [Complex.mul_im, Complex.ofReal_re, Complex.ofReal_im, Complex.add_im, Complex.mul_re, Complex.I_re, Complex.I_im]
      field_simp
      ring
  rw [e, Complex.arg_mul_cos_add_sin_mul_I (by positivity) ⟨by linarith [Real.pi_pos], by linarith [Real.pi_pos]⟩]

/-- **C105** (elongation): the elongation along an axis is the angle under which the layer of given thickness is seen from the sub-aperture, at distance `x` from the launcher along
that axis; it is zero only at the launcher and has the sign of `-x`. -/
theorem C105_elongation (h thick x : ℝ) (ht : 0 < thick) (hh : thick / 2 < h) :
    elongBeta h thick x = -(Real.arctan (x * thick / (h ^ 2 - thick ^ 2 / 4 + x ^ 2)) * elongArcsec) ∧ (elongBeta h thick x = 0 ↔ x = 0) ∧
      elongBeta h thick (-x) = -elongBeta h thick x := by
  have ha : 0 < h - thick / 2 := by linarith
  have hb : 0 < h + thick / 2 := by linarith
  have key : ∀ x : ℝ, elongBeta h thick x = -(Real.arctan (x * thick / (h ^ 2 - thick ^ 2 / 4 + x ^ 2)) * elongArcsec) := by
    intro x
    unfold elongBeta
    rw [arctan2_pos _ _ ha, arctan2_pos _ _ hb]
    have hprod : (x / (h - thick / 2)) * (-(x / (h + thick / 2))) < 1 := by
      have : (x / (h - thick / 2)) * (-(x / (h + thick / 2))) = -(x ^ 2 / ((h - thick / 2) * (h + thick / 2))) := by field_simp
      rw [this]
      have : 0 ≤ x ^ 2 / ((h - thick / 2) * (h + thick / 2)) := by positivity
      linarith
    have h1 := Real.arctan_add hprod
    rw [Real.arctan_neg] at h1
    have hden : 0 < h ^ 2 - thick ^ 2 / 4 + x ^ 2 := by nlinarith [mul_pos ha hb, sq_nonneg x]
    have e : (x / (h - thick / 2) + -(x / (h + thick / 2))) / (1 - x / (h - thick / 2) * -(x / (h + thick / 2))) =
        x * thick / (h ^ 2 - thick ^ 2 / 4 + x ^ 2) := by
      have hd' : (h - thick / 2) * (h + thick / 2) + x * x ≠ 0 := by nlinarith [mul_pos ha hb, sq_nonneg x]
      have : 1 - x / (h - thick / 2) * -(x / (h + thick / 2)) = ((h - thick / 2) * (h + thick / 2) + x * x) / ((h - thick / 2) * (h + thick / 2)) := by
        rw [eq_div_iff (by positivity), sub_mul, one_mul, show x / (h - thick / 2) * -(x / (h + thick / 2)) * ((h - thick / 2) * (h + thick / 2)) =
          -((x / (h - thick / 2) * (h - thick / 2)) * (x / (h + thick / 2) * (h + thick / 2))) by ring, div_mul_cancel₀ _ ha.ne', div_mul_cancel₀ _ hb.ne']
        ring
      rw [this]
      have h3 : x / (h - thick / 2) + -(x / (h + thick / 2)) = x * thick / ((h - thick / 2) * (h + thick / 2)) := by
        rw [eq_div_iff (by positivity), show (x / (h - thick / 2) + -(x / (h + thick / 2))) * ((h - thick / 2) * (h + thick / 2)) =
          (x / (h - thick / 2) * (h - thick / 2)) * (h + thick / 2) - (x / (h + thick / 2) * (h + thick / 2)) * (h - thick / 2) by ring,
          div_mul_cancel₀ _ ha.ne', div_mul_cancel₀ _ hb.ne']
        ring
      rw [h3, div_div_div_cancel_right₀ (by positivity)]
      congr 1
      ring
    rw [e] at h1
    rw [← h1]
    ring
  have hden : 0 < h ^ 2 - thick ^ 2 / 4 + x ^ 2 := by nlinarith [mul_pos ha hb, sq_nonneg x]
  have harc : elongArcsec ≠ 0 := by unfold elongArcsec; positivity
  refine ⟨key x, ?_, ?_⟩
  · rw [key x, neg_eq_zero, mul_eq_zero, or_iff_left harc, Real.arctan_eq_zero_iff, div_eq_zero_iff, or_iff_left hden.ne', mul_eq_zero, or_iff_left ht.ne']
  · rw [key x, key (-x)]
    rw [show (-x) * thick / (h ^ 2 - thick ^ 2 / 4 + (-x) ^ 2) = -(x * thick / (h ^ 2 - thick ^ 2 / 4 + x ^ 2)) by rw [neg_sq, neg_mul, neg_div], Real.arctan_neg]
    ring

/-- **C105** (zenith angle): for a sub-aperture of the row `i` and column `j`, away from the zenith the layer is farther and seen thicker by the airmass: the elongation is the
angle under which a layer of thickness `thick * cos z` is seen. -/
theorem C105_zenith (diameter : ℝ) (n : ℕ) (launcher : ℝ × ℝ) (zenith h thick : ℝ) (ht : 0 < thick) (hh : thick / 2 < h) (hz : 0 < Real.cos (zenith / 180 * Real.pi)) (i j : ℕ) (hj : j < n) :
    let c := Real.cos (zenith / 180 * Real.pi)
    let x := ((j : ℝ) / n - 1 / 2) * diameter - launcher.1
    let y := ((i : ℝ) / n - 1 / 2) * diameter - launcher.2
    elongGeom diameter n launcher zenith h thick (i * n + j) =
      (-(Real.arctan (x * (thick * c) / (h ^ 2 - thick ^ 2 / 4 + (x * c) ^ 2)) * elongArcsec),
       -(Real.arctan (y * (thick * c) / (h ^ 2 - thick ^ 2 / 4 + (y * c) ^ 2)) * elongArcsec)) := by
  intro c x y
  have hn : (0 : ℝ) < n := by exact_mod_cast (by omega : 0 < n)
  have hn' : 0 < n := by omega
  have key : ∀ x : ℝ, elongBeta (h * elongAirmass zenith) (thick * elongAirmass zenith) x = -(Real.arctan (x * (thick * c) / (h ^ 2 - thick ^ 2 / 4 + (x * c) ^ 2)) * elongArcsec) := by
    intro x
    have ham : 0 < elongAirmass zenith := by unfold elongAirmass; positivity
    rw [(C105_elongation _ _ x (mul_pos ht ham) (by nlinarith)).1]
    congr 3
    have hc : elongAirmass zenith = 1 / c := rfl
    have hc0 : c ≠ 0 := hz.ne'
    rw [hc]
    have hd : 0 < h ^ 2 - thick ^ 2 / 4 + (x * c) ^ 2 := by
      have h1 : 0 < (h - thick / 2) * (h + thick / 2) := mul_pos (by linarith) (by linarith)
      nlinarith [sq_nonneg (x * c)]
    have e : (h * (1 / c)) ^ 2 - (thick * (1 / c)) ^ 2 / 4 + x ^ 2 = (h ^ 2 - thick ^ 2 / 4 + (x * c) ^ 2) / c ^ 2 := by
      field_simp
    rw [e]
    field_simp
  have e1 : (elongCoord diameter n launcher (i * n + j)).1 = x := by
    unfold elongCoord
    dsimp only
    rw [Nat.add_comm, Nat.add_mul_mod_self_right, Nat.mod_eq_of_lt hj]
    simp only [x]
    field_simp
  have e2 : (elongCoord diameter n launcher (i * n + j)).2 = y := by
    unfold elongCoord
    dsimp only
    rw [Nat.add_comm, Nat.add_mul_div_right _ _ hn', Nat.div_eq_of_lt hj, Nat.zero_add]
    simp only [y]
    field_simp
  unfold elongGeom
  dsimp only
  rw [e1, e2, key, key]

/-- **C105** (farther is longer): up to distances of the order of the altitude, the elongation grows with the distance from the launcher. -/
theorem C105_farther (h thick x x' : ℝ) (ht : 0 < thick) (hh : thick / 2 < h) (hx : 0 ≤ x) (hxx : x < x') (hx' : x' ^ 2 ≤ h ^ 2 - thick ^ 2 / 4) :
    |elongBeta h thick x| < |elongBeta h thick x'| := by
  have ha : 0 < h - thick / 2 := by linarith
  have hb : 0 < h + thick / 2 := by linarith
  have hc : 0 < h ^ 2 - thick ^ 2 / 4 := by nlinarith [mul_pos ha hb]
  have harc : 0 < elongArcsec := by unfold elongArcsec; positivity
  have hnn : ∀ y : ℝ, 0 ≤ y → |elongBeta h thick y| = Real.arctan (y * thick / (h ^ 2 - thick ^ 2 / 4 + y ^ 2)) * elongArcsec := by
    intro y hy
    rw [(C105_elongation h thick y ht hh).1, abs_neg, abs_of_nonneg]
    exact mul_nonneg (Real.arctan_nonneg.2 (by positivity)) harc.le
  rw [hnn x hx, hnn x' (by linarith)]
  refine mul_lt_mul_of_pos_right (Real.arctan_strictMono ?_) harc
  rw [div_lt_div_iff₀ (by positivity) (by positivity)]
  have h1 : x * x' < h ^ 2 - thick ^ 2 / 4 := by nlinarith
  nlinarith [mul_pos ht (mul_pos (sub_pos.2 hxx) (sub_pos.2 h1))]

/-- **C105** (the code disagrees): the coordinates are those of a corner of the sub-apertures: two sub-apertures that mirror each other about the centre of the pupil are not at
opposite coordinates, but off by one sub-aperture; the mean over each row is half a sub-aperture from the centre. -/
theorem C105_corner (diameter : ℝ) (hd : 0 < diameter) (n : ℕ) (hn : 0 < n) (i j : ℕ) (hj : j < n) :
    (elongCoord diameter n (0, 0) (i * n + j)).1 + (elongCoord diameter n (0, 0) (i * n + (n - 1 - j))).1 = -(diameter / n) ∧ -(diameter / n) < 0 := by
  have e : ∀ j, j < n → (elongCoord diameter n (0, 0) (i * n + j)).1 = ((j : ℝ) - (n : ℝ) / 2) * (diameter / n) := by
    intro j hj
    unfold elongCoord
    dsimp only
    rw [Nat.add_comm, Nat.add_mul_mod_self_right, Nat.mod_eq_of_lt hj, sub_zero]
  have hnr : (0 : ℝ) < n := by exact_mod_cast hn
  refine ⟨?_, by rw [neg_lt_zero]; positivity⟩
  rw [e j hj, e (n - 1 - j) (by omega), Nat.cast_sub (by omega), Nat.cast_sub (by omega)]
  push_cast
  ring

/-! ### Truncated sub-apertures -/

/-- **C105** (truncated): with a parameter between 0 and 1, the truncated sub-apertures are the whole part of that fraction of all, and none of them is nearer to the launcher than
one that is not truncated; every sub-aperture is in exactly one of the two sets. -/
theorem C105_truncated (tg : ℝ) (h0 : 0 < tg) (h1 : tg ≤ 1) (n : ℕ) (dist : ℕ → ℝ) (sorted : List ℕ) (hp : sorted.Perm (List.range n)) (hs : sorted.Pairwise fun a b => dist a ≤ dist b) :
    ((elongSplit tg n sorted).2.length : ℤ) = ⌊tg * n⌋ ∧ (∀ a ∈ (elongSplit tg n sorted).1, ∀ b ∈ (elongSplit tg n sorted).2, dist a ≤ dist b) ∧
      ((elongSplit tg n sorted).1 ++ (elongSplit tg n sorted).2).Perm (List.range n) := by
  have hl : sorted.length = n := by rw [hp.length_eq, List.length_range]
  have hfl : 0 ≤ ⌊tg * n⌋ := Int.floor_nonneg.2 (by positivity)
  have hcn : elongCount tg n ≤ n := by
    unfold elongCount
    rw [if_pos h0]
    have : ⌊tg * n⌋ ≤ (n : ℤ) := by
      rw [Int.floor_le_iff]
      have : tg * n ≤ 1 * n := mul_le_mul_of_nonneg_right h1 (by positivity)
      push_cast
      linarith
    omega
  have e2 : (sorted.drop (n - elongCount tg n)).take (elongCount tg n) = sorted.drop (n - elongCount tg n) := by
    apply List.take_of_length_le
    rw [List.length_drop, hl]
    omega
  unfold elongSplit
  rw [if_pos h0]
  dsimp only
  rw [e2]
  refine ⟨?_, ?_, ?_⟩
  · rw [List.length_drop, hl]
    have : elongCount tg n = ⌊tg * n⌋.toNat := by unfold elongCount; rw [if_pos h0]
    omega
  · intro a ha b hb
    rw [← List.take_append_drop (n - elongCount tg n) sorted, List.pairwise_append] at hs
    exact hs.2.2 a ha b hb
  · rw [List.take_append_drop]
    exact hp

/-! ### Blocks -/

/-- Slope `a` (0 for x, 1 for y) of sub-aperture `k`. -/
def slot (n a k : ℕ) : ℕ := if a = 0 then k else n + k

/-- Vector of the elongation. -/
def elongVec (b1 b2 : ℕ → ℝ) (k a : ℕ) : ℝ := if a = 0 then b1 k else b2 k

/-- The direction across the elongation. -/
def acrossVec (b1 b2 : ℕ → ℝ) (k a : ℕ) : ℝ := if a = 0 then b2 k else -b1 k

theorem elongTot_sq (b1 b2 : ℕ → ℝ) (k : ℕ) : elongTot b1 b2 k ^ 2 = b1 k ^ 2 + b2 k ^ 2 := Real.sq_sqrt (by positivity)

/-- Entries for a sub-aperture not truncated. -/
noncomputable def plainEntry (sn s2 : ℝ) (eta b1 b2 : ℕ → ℝ) (k a b : ℕ) : ℝ :=
  eta k / sn / (1 + (b1 k ^ 2 + b2 k ^ 2) / s2) * ((if a = b then 1 else 0) + acrossVec b1 b2 k a * acrossVec b1 b2 k b / s2)

/-- Entries for a truncated sub-aperture. -/
noncomputable def truncEntry (sn : ℝ) (eta b1 b2 : ℕ → ℝ) (k a b : ℕ) : ℝ :=
  eta k / sn * (acrossVec b1 b2 k a * acrossVec b1 b2 k b / (b1 k ^ 2 + b2 k ^ 2))

theorem two_cases (a : ℕ) (h : a < 2) : a = 0 ∨ a = 1 := by omega

theorem elongPlain_at (n : ℕ) (sn s2 : ℝ) (eta b1 b2 : ℕ → ℝ) (m : ℕ → ℕ → ℝ) (k : ℕ) (hk : k < n) (x y a b : ℕ) (hx : x < n) (hy : y < n) (ha : a < 2) (hb : b < 2) :
    elongPlain n sn s2 eta b1 b2 m k (slot n a x) (slot n b y) = if x = k ∧ y = k then plainEntry sn s2 eta b1 b2 k a b else m (slot n a x) (slot n b y) := by
  have ef : 1 / sn * eta k = eta k / sn := by ring
  unfold elongPlain plainEntry
  rw [elongTot_sq, ef]
  rcases two_cases a ha with rfl | rfl <;> rcases two_cases b hb with rfl | rfl <;>
    simp only [setAt, slot, acrossVec, if_true, if_false, one_ne_zero, zero_ne_one, zero_add] <;> split_ifs <;> first | rfl | omega | ring

theorem elongTrunc_at (n : ℕ) (sn : ℝ) (eta b1 b2 : ℕ → ℝ) (m : ℕ → ℕ → ℝ) (k : ℕ) (hk : k < n) (x y a b : ℕ) (hx : x < n) (hy : y < n) (ha : a < 2) (hb : b < 2) :
    elongTrunc n sn eta b1 b2 m k (slot n a x) (slot n b y) = if x = k ∧ y = k then truncEntry sn eta b1 b2 k a b else m (slot n a x) (slot n b y) := by
  unfold elongTrunc truncEntry
  rw [elongTot_sq]
  have ef : ∀ z, eta k / (sn * (b1 k ^ 2 + b2 k ^ 2)) * z = eta k / sn * (z / (b1 k ^ 2 + b2 k ^ 2)) := by
    intro z
    rw [← div_div]
    ring
  rcases two_cases a ha with rfl | rfl <;> rcases two_cases b hb with rfl | rfl <;>
    simp only [setAt, slot, acrossVec, if_true, if_false, one_ne_zero, ef] <;> split_ifs <;> first | rfl | omega | ring

theorem fold_at (n : ℕ) (step : (ℕ → ℕ → ℝ) → ℕ → ℕ → ℕ → ℝ) (entry : ℕ → ℕ → ℕ → ℝ) (x y a b : ℕ)
    (hstep : ∀ m k, k < n → step m k (slot n a x) (slot n b y) = if x = k ∧ y = k then entry k a b else m (slot n a x) (slot n b y)) :
    ∀ (l : List ℕ) (_ : ∀ k ∈ l, k < n) (m : ℕ → ℕ → ℝ), l.foldl step m (slot n a x) (slot n b y) =
      if x = y ∧ x ∈ l then entry x a b else m (slot n a x) (slot n b y)
  | [], _, m => by simp
  | k :: l, hl, m => by
    rw [List.foldl_cons, fold_at n step entry x y a b hstep l (fun j hj => hl j (List.mem_cons_of_mem _ hj)), hstep m k (hl k List.mem_cons_self)]
    by_cases hxy : x = y
    · subst hxy
      by_cases h1 : x ∈ l
      · simp [h1]
      · by_cases h2 : x = k
        · subst h2; simp [h1]
        · simp [h1, h2]
    · have : ¬(x = k ∧ y = k) := fun h => hxy (h.1.trans h.2.symm)
      simp [hxy, this]

theorem elongFull_at (n : ℕ) (sn fwhm tg : ℝ) (eta b1 b2 : ℕ → ℝ) (sorted : List ℕ) (hl : ∀ k ∈ sorted, k < n) (x y a b : ℕ) (hx : x < n) (hy : y < n) (ha : a < 2) (hb : b < 2) :
    elongFull n sn fwhm tg eta b1 b2 sorted (slot n a x) (slot n b y) =
      if x = y ∧ x ∈ (elongSplit tg n sorted).2 then truncEntry sn eta b1 b2 x a b
      else if x = y ∧ x ∈ (elongSplit tg n sorted).1 then plainEntry sn (fwhm ^ 2) eta b1 b2 x a b else 0 := by
  have l1 : ∀ k ∈ (elongSplit tg n sorted).1, k < n := by
    intro k hk
    unfold elongSplit at hk
    split_ifs at hk
    · exact hl k (List.mem_of_mem_take hk)
    · exact List.mem_range.1 hk
  have l2 : ∀ k ∈ (elongSplit tg n sorted).2, k < n := by
    intro k hk
    unfold elongSplit at hk
    split_ifs at hk
    · exact hl k (List.mem_of_mem_drop (List.mem_of_mem_take hk))
    · simp at hk
  unfold elongFull
  rw [fold_at n _ (truncEntry sn eta b1 b2) x y a b (fun m k hk => elongTrunc_at n sn eta b1 b2 m k hk x y a b hx hy ha hb) _ l2,
    fold_at n _ (plainEntry sn (fwhm ^ 2) eta b1 b2) x y a b (fun m k hk => elongPlain_at n sn (fwhm ^ 2) eta b1 b2 m k hk x y a b hx hy ha hb) _ l1]

/-- **C105** (blocks): slopes of different sub-apertures have no noise in common; the matrix is symmetric. -/
theorem C105_blocks (n : ℕ) (sn fwhm tg : ℝ) (eta b1 b2 : ℕ → ℝ) (sorted : List ℕ) (hl : ∀ k ∈ sorted, k < n) (x y a b : ℕ) (hx : x < n) (hy : y < n) (ha : a < 2) (hb : b < 2) :
    (x ≠ y → elongFull n sn fwhm tg eta b1 b2 sorted (slot n a x) (slot n b y) = 0) ∧
      elongFull n sn fwhm tg eta b1 b2 sorted (slot n a x) (slot n b y) = elongFull n sn fwhm tg eta b1 b2 sorted (slot n b y) (slot n a x) := by
  rw [elongFull_at n sn fwhm tg eta b1 b2 sorted hl x y a b hx hy ha hb, elongFull_at n sn fwhm tg eta b1 b2 sorted hl y x b a hy hx hb ha]
  constructor
  · intro h
    simp [h]
  · by_cases h : x = y
    · subst h
      have e1 : truncEntry sn eta b1 b2 x a b = truncEntry sn eta b1 b2 x b a := by unfold truncEntry; ring
      have e2 : plainEntry sn (fwhm ^ 2) eta b1 b2 x a b = plainEntry sn (fwhm ^ 2) eta b1 b2 x b a := by
        unfold plainEntry
        rw [show (if a = b then (1 : ℝ) else 0) = if b = a then 1 else 0 by simp only [eq_comm]]
        ring
      rw [e1, e2]
    · have h' : ¬y = x := fun e => h e.symm
      simp [h, h']

/-- Covariance of the two slopes of an elongated spot (Béchet et al.): variance `sn / eta` for a round spot, plus that along the elongation. -/
noncomputable def spotCov (sn s2 : ℝ) (eta b1 b2 : ℕ → ℝ) (k a b : ℕ) : ℝ :=
  sn / eta k * ((if a = b then 1 else 0) + elongVec b1 b2 k a * elongVec b1 b2 k b / s2)

/-- **C105** (inverse): for a sub-aperture that is not truncated, the block is the inverse of the covariance of an elongated spot. -/
theorem C105_inverse (n : ℕ) (sn fwhm tg : ℝ) (eta b1 b2 : ℕ → ℝ) (sorted : List ℕ) (hl : ∀ k ∈ sorted, k < n) (hsn : sn ≠ 0) (hf : fwhm ≠ 0) (x : ℕ) (hx : x < n) (he : eta x ≠ 0)
    (h1 : x ∈ (elongSplit tg n sorted).1) (h2 : x ∉ (elongSplit tg n sorted).2) (a b : ℕ) (ha : a < 2) (hb : b < 2) :
    ∑ c ∈ range 2, elongFull n sn fwhm tg eta b1 b2 sorted (slot n a x) (slot n c x) * spotCov sn (fwhm ^ 2) eta b1 b2 x c b = if a = b then 1 else 0 := by
  have hs : (fwhm ^ 2 : ℝ) ≠ 0 := pow_ne_zero _ hf
  have hpos : 0 < fwhm ^ 2 := by positivity
  have hd : 1 + (b1 x ^ 2 + b2 x ^ 2) / fwhm ^ 2 ≠ 0 := by positivity
  have hd' : fwhm ^ 2 + b1 x ^ 2 + b2 x ^ 2 ≠ 0 := by positivity
  have hd'' : fwhm ^ 2 + (b1 x ^ 2 + b2 x ^ 2) ≠ 0 := by positivity
  rw [sum_range_succ, sum_range_one]
  rw [elongFull_at n sn fwhm tg eta b1 b2 sorted hl x x a 0 hx hx ha (by norm_num), elongFull_at n sn fwhm tg eta b1 b2 sorted hl x x a 1 hx hx ha (by norm_num)]
  have h2' : ¬(x = x ∧ x ∈ (elongSplit tg n sorted).2) := fun h => h2 h.2
  rw [if_neg h2', if_pos (show x = x ∧ x ∈ (elongSplit tg n sorted).1 from ⟨rfl, h1⟩), if_neg h2', if_pos (show x = x ∧ x ∈ (elongSplit tg n sorted).1 from ⟨rfl, h1⟩)]
  unfold plainEntry spotCov
  rcases two_cases a ha with rfl | rfl <;> rcases two_cases b hb with rfl | rfl <;>
    simp only [acrossVec, elongVec, if_true, if_false, one_ne_zero, zero_ne_one] <;> field_simp <;> ring

/-- **C105** (truncated spots): the block of a truncated sub-aperture takes nothing from the slope along the elongation and gives the slope across it the weight of a round spot. -/
theorem C105_across (n : ℕ) (sn fwhm tg : ℝ) (eta b1 b2 : ℕ → ℝ) (sorted : List ℕ) (hl : ∀ k ∈ sorted, k < n) (x : ℕ) (hx : x < n) (hb : b1 x ≠ 0 ∨ b2 x ≠ 0)
    (h2 : x ∈ (elongSplit tg n sorted).2) (a : ℕ) (ha : a < 2) :
    ∑ c ∈ range 2, elongFull n sn fwhm tg eta b1 b2 sorted (slot n a x) (slot n c x) * elongVec b1 b2 x c = 0 ∧
    ∑ c ∈ range 2, elongFull n sn fwhm tg eta b1 b2 sorted (slot n a x) (slot n c x) * acrossVec b1 b2 x c = eta x / sn * acrossVec b1 b2 x a := by
  have hn : b1 x ^ 2 + b2 x ^ 2 ≠ 0 := by
    rcases hb with h | h
    · have : 0 < b1 x ^ 2 := by positivity
      positivity
    · have : 0 < b2 x ^ 2 := by positivity
      positivity
  rw [sum_range_succ, sum_range_one, sum_range_succ, sum_range_one]
  rw [elongFull_at n sn fwhm tg eta b1 b2 sorted hl x x a 0 hx hx ha (by norm_num), elongFull_at n sn fwhm tg eta b1 b2 sorted hl x x a 1 hx hx ha (by norm_num)]
  rw [if_pos ⟨rfl, h2⟩, if_pos ⟨rfl, h2⟩]
  unfold truncEntry
  constructor
  · simp only [acrossVec, elongVec, if_true, if_false, one_ne_zero]
    ring
  · simp only [acrossVec, if_true, if_false, one_ne_zero]
    have e : ∀ A : ℝ, eta x / sn * (A * b2 x / (b1 x ^ 2 + b2 x ^ 2)) * b2 x + eta x / sn * (A * -b1 x / (b1 x ^ 2 + b2 x ^ 2)) * -b1 x = eta x / sn * A := by
      intro A
      have : eta x / sn * (A * b2 x / (b1 x ^ 2 + b2 x ^ 2)) * b2 x + eta x / sn * (A * -b1 x / (b1 x ^ 2 + b2 x ^ 2)) * -b1 x =
          eta x / sn * A * ((b1 x ^ 2 + b2 x ^ 2) / (b1 x ^ 2 + b2 x ^ 2)) := by ring
      rw [this, div_self hn, mul_one]
    exact e _

theorem sum_two_slots (n : ℕ) (f : ℕ → ℝ) : ∑ r ∈ range (n + n), f r = ∑ k ∈ range n, ∑ a ∈ range 2, f (slot n a k) := by
  rw [sum_range_add, ← sum_add_distrib]
  refine sum_congr rfl fun k _ => ?_
  rw [sum_range_succ, sum_range_one]
  rfl

/-- **C105** (positive): the matrix is positive semidefinite for all thresholds; with nothing truncated, fluxes and noise positive, it is positive definite. -/
theorem C105_positive (n : ℕ) (sn fwhm tg : ℝ) (eta b1 b2 : ℕ → ℝ) (sorted : List ℕ) (hl : ∀ k ∈ sorted, k < n) (hsn : 0 < sn) (he : ∀ k < n, 0 < eta k) (v : ℕ → ℝ) :
    0 ≤ ∑ r ∈ range (n + n), ∑ c ∈ range (n + n), v r * elongFull n sn fwhm tg eta b1 b2 sorted r c * v c ∧
    (tg ≤ 0 → (∃ r < n + n, v r ≠ 0) → 0 < ∑ r ∈ range (n + n), ∑ c ∈ range (n + n), v r * elongFull n sn fwhm tg eta b1 b2 sorted r c * v c) := by
  have hq : ∑ r ∈ range (n + n), ∑ c ∈ range (n + n), v r * elongFull n sn fwhm tg eta b1 b2 sorted r c * v c =
      ∑ k ∈ range n, ∑ a ∈ range 2, ∑ b ∈ range 2, v (slot n a k) * elongFull n sn fwhm tg eta b1 b2 sorted (slot n a k) (slot n b k) * v (slot n b k) := by
    rw [sum_two_slots]
    refine sum_congr rfl fun k hk => sum_congr rfl fun a ha => ?_
    rw [sum_two_slots]
    refine (sum_eq_single k (fun l hl' hne => ?_) (fun h => absurd hk h)).trans rfl
    refine sum_eq_zero fun b hb => ?_
    rw [(C105_blocks n sn fwhm tg eta b1 b2 sorted hl k l a b (mem_range.1 hk) (mem_range.1 hl') (mem_range.1 ha) (mem_range.1 hb)).1 hne.symm]
    ring
  rw [hq]
  have trunc : ∀ k, 0 < eta k → ∀ u w : ℝ, 0 ≤ u * truncEntry sn eta b1 b2 k 0 0 * u + u * truncEntry sn eta b1 b2 k 0 1 * w + (w * truncEntry sn eta b1 b2 k 1 0 * u +
      w * truncEntry sn eta b1 b2 k 1 1 * w) := by
    intro k hk u w
    have : u * truncEntry sn eta b1 b2 k 0 0 * u + u * truncEntry sn eta b1 b2 k 0 1 * w + (w * truncEntry sn eta b1 b2 k 1 0 * u + w * truncEntry sn eta b1 b2 k 1 1 * w) =
        eta k / sn * ((u * b2 k - w * b1 k) ^ 2 / (b1 k ^ 2 + b2 k ^ 2)) := by
      simp only [truncEntry, acrossVec, if_true, if_false, one_ne_zero]
      ring
    rw [this]
    positivity
  have plain : ∀ k, 0 < eta k → ∀ u w : ℝ, u * plainEntry sn (fwhm ^ 2) eta b1 b2 k 0 0 * u + u * plainEntry sn (fwhm ^ 2) eta b1 b2 k 0 1 * w +
      (w * plainEntry sn (fwhm ^ 2) eta b1 b2 k 1 0 * u + w * plainEntry sn (fwhm ^ 2) eta b1 b2 k 1 1 * w) =
        eta k / sn / (1 + (b1 k ^ 2 + b2 k ^ 2) / fwhm ^ 2) * (u ^ 2 + w ^ 2 + (u * b2 k - w * b1 k) ^ 2 / fwhm ^ 2) := by
    intro k hk u w
    simp only [plainEntry, acrossVec, if_true, if_false, one_ne_zero, zero_ne_one]
    ring
  have term : ∀ k ∈ range n, 0 ≤ ∑ a ∈ range 2, ∑ b ∈ range 2, v (slot n a k) * elongFull n sn fwhm tg eta b1 b2 sorted (slot n a k) (slot n b k) * v (slot n b k) := by
    intro k hk
    have hk' := mem_range.1 hk
    simp only [sum_range_succ, range_zero, sum_empty, zero_add]
    simp only [elongFull_at n sn fwhm tg eta b1 b2 sorted hl k k _ _ hk' hk' (by norm_num : 0 < 2) (by norm_num : 0 < 2),
      elongFull_at n sn fwhm tg eta b1 b2 sorted hl k k _ _ hk' hk' (by norm_num : 0 < 2) (by norm_num : 1 < 2),
      elongFull_at n sn fwhm tg eta b1 b2 sorted hl k k _ _ hk' hk' (by norm_num : 1 < 2) (by norm_num : 0 < 2),
      elongFull_at n sn fwhm tg eta b1 b2 sorted hl k k _ _ hk' hk' (by norm_num : 1 < 2) (by norm_num : 1 < 2), true_and]
    by_cases h2 : k ∈ (elongSplit tg n sorted).2
    · simp only [h2, if_true]
      exact trunc k (he k hk') _ _
    · by_cases h1 : k ∈ (elongSplit tg n sorted).1
      · simp only [h2, h1, if_true, if_false]
        rw [plain k (he k hk')]
        have := he k hk'
        positivity
      · simp [h1, h2]
  refine ⟨sum_nonneg term, ?_⟩
  rintro htg ⟨r, hr, hv⟩
  obtain ⟨k, hk, a, ha, hra⟩ : ∃ k < n, ∃ a < 2, r = slot n a k := by
    by_cases h : r < n
    · exact ⟨r, h, 0, by norm_num, rfl⟩
    · exact ⟨r - n, by omega, 1, by norm_num, by simp [slot]; omega⟩
  refine sum_pos' term ⟨k, mem_range.2 hk, ?_⟩
  have hsp : elongSplit tg n sorted = (List.range n, []) := by unfold elongSplit; rw [if_neg (by linarith)]
  simp only [sum_range_succ, range_zero, sum_empty, zero_add]
  simp only [elongFull_at n sn fwhm tg eta b1 b2 sorted hl k k _ _ hk hk (by norm_num : 0 < 2) (by norm_num : 0 < 2),
    elongFull_at n sn fwhm tg eta b1 b2 sorted hl k k _ _ hk hk (by norm_num : 0 < 2) (by norm_num : 1 < 2),
    elongFull_at n sn fwhm tg eta b1 b2 sorted hl k k _ _ hk hk (by norm_num : 1 < 2) (by norm_num : 0 < 2),
    elongFull_at n sn fwhm tg eta b1 b2 sorted hl k k _ _ hk hk (by norm_num : 1 < 2) (by norm_num : 1 < 2), hsp, List.not_mem_nil, and_false, if_false, List.mem_range, hk, true_and, if_true]
  rw [plain k (he k hk)]
  have h0 := he k hk
  have hne : 0 < v (slot n 0 k) ^ 2 + v (slot n 1 k) ^ 2 := by
    rcases two_cases a ha with rfl | rfl
    · rw [← hra]
      have : 0 < v r ^ 2 := by positivity
      positivity
    · rw [← hra]
      have : 0 < v r ^ 2 := by positivity
      positivity
  positivity

/-- **C105** (diagonal matrix): the entries are the inverses of the variances of the single slopes for a flux of one, a quarter of it when truncated; the flux of the sub-apertures is
not used. -/
theorem C105_diagonal (n : ℕ) (sn fwhm tg : ℝ) (b1 b2 : ℕ → ℝ) (sorted : List ℕ) (hsn : sn ≠ 0) (hf : fwhm ≠ 0) (x a : ℕ) (hx : x < n) (ha : a < 2) (c : ℕ) :
    elongDiag n sn fwhm tg b1 b2 sorted (slot n a x) c =
      if c = slot n a x then (if slot n a x ∈ (elongSplit tg (2 * n) sorted).2 then 1 / 4 else 1) * (1 / spotCov sn (fwhm ^ 2) (fun _ => 1) b1 b2 x a a) else 0 := by
  have hpos : 0 < fwhm ^ 2 := by positivity
  unfold elongDiag
  dsimp only
  by_cases hc : c = slot n a x
  · rw [if_pos hc.symm, if_pos hc]
    have e : (if slot n a x < n then 1 / sn * fwhm ^ 2 / (fwhm ^ 2 + b1 (slot n a x) ^ 2) else 1 / sn * fwhm ^ 2 / (fwhm ^ 2 + b2 (slot n a x - n) ^ 2)) =
        1 / spotCov sn (fwhm ^ 2) (fun _ => 1) b1 b2 x a a := by
      unfold spotCov
      rcases two_cases a ha with rfl | rfl
      · have h1 : fwhm ^ 2 + b1 x ^ 2 ≠ 0 := by positivity
        have h2 : 1 + b1 x * b1 x / fwhm ^ 2 ≠ 0 := by
          have : 0 ≤ b1 x * b1 x / fwhm ^ 2 := div_nonneg (mul_self_nonneg _) hpos.le
          linarith
        simp only [slot, elongVec, if_true, hx]
        field_simp
      · have h1 : fwhm ^ 2 + b2 x ^ 2 ≠ 0 := by positivity
        have h2 : 1 + b2 x * b2 x / fwhm ^ 2 ≠ 0 := by
          have : 0 ≤ b2 x * b2 x / fwhm ^ 2 := div_nonneg (mul_self_nonneg _) hpos.le
          linarith
        have h3 : ¬n + x < n := by omega
        simp only [slot, elongVec, if_true, if_false, one_ne_zero, h3, Nat.add_sub_cancel_left]
        field_simp
    rw [e]
    by_cases ht : slot n a x ∈ (elongSplit tg (2 * n) sorted).2
    · rw [if_pos ht, if_pos ht]; ring
    · rw [if_neg ht, if_neg ht, one_mul]
  · rw [if_neg (fun h => hc h.symm), if_neg hc]

/-! ### Examples -/

example : elongCount (1 / 2) 5 = 2 := by
  unfold elongCount
  rw [if_pos (by norm_num)]
  have : ⌊(1 / 2 : ℝ) * (5 : ℕ)⌋ = 2 := by rw [Int.floor_eq_iff]; norm_num
  rw [this]; rfl

/-- Two sub-apertures, the second truncated and elongated along x: no weight on its x slope. -/
example : elongFull 2 1 1 (1 / 2) (fun _ => 1) (fun k => k) (fun _ => 0) [0, 1] 1 1 = 0 ∧ elongFull 2 1 1 (1 / 2) (fun _ => 1) (fun k => k) (fun _ => 0) [0, 1] 3 3 = 1 := by
  have hc : elongCount (1 / 2) 2 = 1 := by
    unfold elongCount
    rw [if_pos (by norm_num)]
    have : ⌊(1 / 2 : ℝ) * (2 : ℕ)⌋ = 1 := by rw [Int.floor_eq_iff]; norm_num
    rw [this]; rfl
  have hs : elongSplit (1 / 2) 2 [0, 1] = ([0], [1]) := by
    unfold elongSplit
    rw [if_pos (by norm_num), hc]; rfl
  constructor <;> norm_num [elongFull, hs, elongTrunc, elongPlain, setAt, elongTot]

end Specula
