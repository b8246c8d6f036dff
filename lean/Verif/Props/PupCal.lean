import Mathlib.Tactic.Linarith
import Mathlib.Tactic.Ring
import Mathlib.Tactic.FieldSimp
import Mathlib.Tactic.NormNum
import Mathlib.Tactic.FinCases
import Mathlib.Data.Rat.Floor
import Mathlib.Data.List.Sort
import Verif.Model.PupCal
import Verif.Props.Ccd
import Verif.Props.PyrSlopes
import Verif.Props.SubapCal
/-
C75: the four pupils of a pyramid found in a calibration image.
-/
namespace Specula

section
variable {K : Type} [Field K] [LinearOrder K] [IsStrictOrderedRing K]

/-! ### The mask of one pupil -/

omit [Field K] [LinearOrder K] [IsStrictOrderedRing K] in
theorem mem_flat {a : Img K} {v : K} : v ∈ a.flat ↔ ∃ i < a.rows, ∃ j < a.cols, a.px i j = v := by
  unfold Img.flat
  rw [List.mem_map]
  constructor
  · rintro ⟨p, hp, rfl⟩
    have hp := List.mem_range.1 hp
    have hc : 0 < a.cols := by
      rcases Nat.eq_zero_or_pos a.cols with h | h
      · rw [h] at hp; simp at hp
      · exact h
    exact ⟨p / a.cols, Nat.div_lt_of_lt_mul (by rwa [Nat.mul_comm] at hp), p % a.cols, Nat.mod_lt _ hc, rfl⟩
  · rintro ⟨i, hi, j, hj, rfl⟩
    refine ⟨i * a.cols + j, List.mem_range.2 ?_, ?_⟩
    · have : (i + 1) * a.cols ≤ a.rows * a.cols := Nat.mul_le_mul_right _ hi
      rw [Nat.succ_mul] at this
      omega
    · rw [Nat.mul_comm, Nat.mul_add_div (by omega), Nat.div_eq_of_lt hj, Nat.mul_add_mod, Nat.mod_eq_of_lt hj, Nat.add_zero]

omit [LinearOrder K] [IsStrictOrderedRing K] in
theorem sum_const_list (l : List K) (v : K) (h : ∀ x ∈ l, x = v) : l.sum = l.length * v := by
  rw [List.eq_replicate_of_mem h, List.sum_replicate, List.length_replicate, nsmul_eq_mul]

theorem sum_le_list (l : List K) (v : K) (h : ∀ x ∈ l, x ≤ v) : l.sum ≤ l.length * v := by
  induction l with
  | nil => simp
  | cons a t ih =>
    have h1 := h a (List.mem_cons_self)
    have h2 := ih fun x hx => h x (List.mem_cons_of_mem _ hx)
    rw [List.sum_cons, List.length_cons]
    push_cast
    linarith

/-- C75.  In an image with one level of light on the pupil and none elsewhere, the mask is the pupil. -/
theorem C75_mask (thr1 thr2 : K) (h1 : thr1 ≤ 1) (h2 : 0 < thr2) (h3 : thr2 ≤ 1) (a : Img K) (v : K) (hv : 0 < v) (ha : ∀ i < a.rows, ∀ j < a.cols, a.px i j = 0 ∨ a.px i j = v)
    (hne : ∃ i < a.rows, ∃ j < a.cols, a.px i j = v) :
    ∃ m, pupilMask thr1 thr2 a = some m ∧ ∀ i < a.rows, ∀ j < a.cols, (m i j = true ↔ a.px i j = v) := by
  have hvf : v ∈ a.flat := mem_flat.2 hne
  have hval : ∀ x ∈ a.flat, x = 0 ∨ x = v := by
    intro x hx
    obtain ⟨i, hi, j, hj, rfl⟩ := mem_flat.1 hx
    exact ha i hi j hj
  have hnil : a.flat ≠ [] := fun h => by rw [h] at hvf; exact absurd hvf List.not_mem_nil
  obtain ⟨hi, hhi⟩ := Option.ne_none_iff_exists'.1 (fun h => hnil (List.max?_eq_none_iff.1 h))
  obtain ⟨lo, hlo⟩ := Option.ne_none_iff_exists'.1 (fun h => hnil (List.min?_eq_none_iff.1 h))
  obtain ⟨hm1, hm2⟩ := List.max?_eq_some_iff.1 hhi
  obtain ⟨hn1, hn2⟩ := List.min?_eq_some_iff.1 hlo
  have ehi : hi = v := by
    have := hm2 v hvf
    rcases hval _ hm1 with h | h
    · rw [h] at this; exact absurd this (not_le.2 hv)
    · exact h
  have hs1 : lo + (hi - lo) * thr1 ≤ v := by
    rw [ehi]
    have := hn2 v hvf
    nlinarith
  have ht : ∀ x, x = 0 ∨ x = v → (if x < lo + (hi - lo) * thr1 then 0 else x) = x := by
    rintro x (rfl | rfl)
    · split_ifs <;> rfl
    · rw [if_neg (not_lt.2 hs1)]
  unfold pupilMask
  rw [hlo, hhi]
  simp only [Option.bind_some]
  have hpos : ∀ x ∈ (a.flat.map fun w => if w < lo + (hi - lo) * thr1 then 0 else w).filter (fun w => decide (0 < w)), x = v := by
    intro x hx
    obtain ⟨h4, h5⟩ := List.mem_filter.1 hx
    obtain ⟨y, hy, rfl⟩ := List.mem_map.1 h4
    rw [ht y (hval y hy)] at h5 ⊢
    rcases hval y hy with h | h
    · rw [h] at h5; simp at h5
    · exact h
  have hin : v ∈ (a.flat.map fun w => if w < lo + (hi - lo) * thr1 then 0 else w).filter (fun w => decide (0 < w)) :=
    List.mem_filter.2 ⟨List.mem_map.2 ⟨v, hvf, ht v (Or.inr rfl)⟩, decide_eq_true hv⟩
  have hpn := List.ne_nil_of_mem hin
  rw [if_neg hpn]
  refine ⟨_, rfl, ?_⟩
  intro i hi' j hj
  have hlen : ((((a.flat.map fun w => if w < lo + (hi - lo) * thr1 then 0 else w).filter (fun w => decide (0 < w))).length : Nat) : K) ≠ 0 := by
    have := List.length_pos_of_ne_nil hpn
    exact_mod_cast this.ne'
  rw [decide_eq_true_eq, sum_const_list _ v hpos, mul_div_cancel_left₀ _ hlen]
  rw [ht _ (ha i hi' j hj)]
  constructor
  · intro h
    rcases ha i hi' j hj with h0 | h0
    · rw [h0] at h
      have := mul_pos hv h2
      linarith
    · exact h0
  · intro h
    rw [h]
    nlinarith

/-- C75.  Whatever the image, if it has some light the brightest pixel is in the mask. -/
theorem C75_mask_brightest (thr1 thr2 : K) (h1 : thr1 ≤ 1) (h3 : thr2 ≤ 1) (a : Img K) (i j : Nat) (hi : i < a.rows) (hj : j < a.cols) (hpos : 0 < a.px i j)
    (hmax : ∀ i' < a.rows, ∀ j' < a.cols, a.px i' j' ≤ a.px i j) : ∃ m, pupilMask thr1 thr2 a = some m ∧ m i j = true := by
  have hvf : a.px i j ∈ a.flat := mem_flat.2 ⟨i, hi, j, hj, rfl⟩
  have hall : ∀ x ∈ a.flat, x ≤ a.px i j := by
    intro x hx
    obtain ⟨i', hi', j', hj', rfl⟩ := mem_flat.1 hx
    exact hmax i' hi' j' hj'
  have hnil : a.flat ≠ [] := List.ne_nil_of_mem hvf
  obtain ⟨hi', hhi⟩ := Option.ne_none_iff_exists'.1 (fun h => hnil (List.max?_eq_none_iff.1 h))
  obtain ⟨lo, hlo⟩ := Option.ne_none_iff_exists'.1 (fun h => hnil (List.min?_eq_none_iff.1 h))
  obtain ⟨hm1, hm2⟩ := List.max?_eq_some_iff.1 hhi
  obtain ⟨hn1, hn2⟩ := List.min?_eq_some_iff.1 hlo
  have ehi : hi' = a.px i j := le_antisymm (hall _ hm1) (hm2 _ hvf)
  have hs1 : ¬ a.px i j < lo + (hi' - lo) * thr1 := by
    rw [ehi, not_lt]
    have := hn2 _ hvf
    nlinarith
  unfold pupilMask
  rw [hlo, hhi]
  simp only [Option.bind_some]
  set pos := (a.flat.map fun w => if w < lo + (hi' - lo) * thr1 then 0 else w).filter (fun w => decide (0 < w)) with hposdef
  have hin : a.px i j ∈ pos := List.mem_filter.2 ⟨List.mem_map.2 ⟨_, hvf, if_neg hs1⟩, decide_eq_true hpos⟩
  have hpn := List.ne_nil_of_mem hin
  rw [if_neg hpn]
  refine ⟨_, rfl, ?_⟩
  have hle : ∀ x ∈ pos, x ≤ a.px i j := by
    intro x hx
    obtain ⟨y, hy, rfl⟩ := List.mem_map.1 (List.mem_filter.1 hx).1
    split_ifs
    · exact hpos.le
    · exact hall y hy
  have hge : 0 ≤ pos.sum := List.sum_nonneg fun x hx => (of_decide_eq_true (List.mem_filter.1 hx).2).le
  have hlen : (0 : K) < (pos.length : K) := by exact_mod_cast List.length_pos_of_ne_nil hpn
  rw [decide_eq_true_eq, if_neg hs1]
  have h5 : pos.sum / (pos.length : K) ≤ a.px i j := by
    rw [div_le_iff₀ hlen, mul_comm]
    exact sum_le_list pos _ hle
  have h6 : 0 ≤ pos.sum / (pos.length : K) := div_nonneg hge hlen.le
  nlinarith

/-! ### Centre -/

/-- A pattern `b` of `R` by `C` pixels at row `oy`, column `ox`. -/
def placed (b : Nat → Nat → Bool) (R C oy ox i j : Nat) : Bool := decide (oy ≤ i ∧ i < oy + R ∧ ox ≤ j ∧ j < ox + C) && b (i - oy) (j - ox)

theorem sum_window {M : Type} [AddCommMonoid M] (f : Nat → M) (n o R : Nat) (h : o + R ≤ n) (hz : ∀ i, i < o ∨ o + R ≤ i → f i = 0) :
    ∑ i ∈ Finset.range n, f i = ∑ u ∈ Finset.range R, f (o + u) := by
  obtain ⟨k, rfl⟩ := Nat.exists_eq_add_of_le h
  rw [Finset.sum_range_add, Finset.sum_range_add]
  rw [Finset.sum_eq_zero fun i hi => hz i (Or.inl (Finset.mem_range.1 hi)), zero_add]
  rw [Finset.sum_eq_zero fun i _ => hz (o + R + i) (Or.inr (by omega)), add_zero]

theorem sum_placed {M : Type} [AddCommMonoid M] (b : Nat → Nat → Bool) (R C oy ox rows cols : Nat) (hr : oy + R ≤ rows) (hc : ox + C ≤ cols) (g : Nat → Nat → M) :
    (∑ i ∈ Finset.range rows, ∑ j ∈ Finset.range cols, if placed b R C oy ox i j then g i j else 0) =
      ∑ u ∈ Finset.range R, ∑ v ∈ Finset.range C, if b u v then g (oy + u) (ox + v) else 0 := by
  rw [sum_window _ rows oy R hr]
  · refine Finset.sum_congr rfl fun u hu => ?_
    have hu := Finset.mem_range.1 hu
    rw [sum_window _ cols ox C hc]
    · refine Finset.sum_congr rfl fun v hv => ?_
      have hv := Finset.mem_range.1 hv
      have : placed b R C oy ox (oy + u) (ox + v) = b u v := by
        unfold placed
        rw [decide_eq_true ⟨by omega, by omega, by omega, by omega⟩, Bool.true_and, Nat.add_sub_cancel_left, Nat.add_sub_cancel_left]
      rw [this]
    · intro j hj
      unfold placed
      rw [decide_eq_false (by omega), Bool.false_and]
      rfl
  · intro i hi
    refine Finset.sum_eq_zero fun j _ => ?_
    unfold placed
    rw [decide_eq_false (by omega), Bool.false_and]
    rfl

/-- C75.  Moving a pupil by whole pixels moves its centre by as much and keeps its number of pixels. -/
theorem C75_centre_moves (b : Nat → Nat → Bool) (R C oy ox rows cols : Nat) (hr : oy + R ≤ rows) (hc : ox + C ≤ cols) (hb : maskCount R C b ≠ 0) :
    (maskCentre rows cols (placed b R C oy ox) : (K × K) × Nat) =
      (((ox : K) + (maskCentre R C b : (K × K) × Nat).1.1, (oy : K) + (maskCentre R C b : (K × K) × Nat).1.2), maskCount R C b) := by
  have hcount : maskCount rows cols (placed b R C oy ox) = maskCount R C b := by
    unfold maskCount
    exact sum_placed b R C oy ox rows cols hr hc fun _ _ => 1
  have hK : ((maskCount R C b : Nat) : K) ≠ 0 := by exact_mod_cast hb
  have hn : ((maskCount R C b : Nat) : K) = ∑ u ∈ Finset.range R, ∑ v ∈ Finset.range C, if b u v then (1 : K) else 0 := by
    unfold maskCount
    push_cast
    rfl
  have split : ∀ (o : K) (g : Nat → Nat → K), (∑ u ∈ Finset.range R, ∑ v ∈ Finset.range C, if b u v then o + g u v else 0) =
      o * (maskCount R C b : Nat) + ∑ u ∈ Finset.range R, ∑ v ∈ Finset.range C, if b u v then g u v else 0 := by
    intro o g
    rw [hn, Finset.mul_sum, ← Finset.sum_add_distrib]
    refine Finset.sum_congr rfl fun u _ => ?_
    rw [Finset.mul_sum, ← Finset.sum_add_distrib]
    refine Finset.sum_congr rfl fun v _ => ?_
    split_ifs
    · ring
    · ring
  unfold maskCentre
  dsimp only
  rw [hcount, if_neg hb, if_neg hb]
  have ex := sum_placed b R C oy ox rows cols hr hc fun _ j => (j : K)
  have ey := sum_placed b R C oy ox rows cols hr hc fun i _ => (i : K)
  rw [ex, ey]
  push_cast
  rw [split (ox : K) fun _ v => (v : K), split (oy : K) fun u _ => (u : K), add_div, add_div, mul_div_cancel_right₀ _ hK, mul_div_cancel_right₀ _ hK]

/-! ### Translation of the reference pupil -/

variable [FloorRing K]

/-- Pixel `p` moved by `t` (x, y), as a flat index. -/
def movedPixel (w : Nat) (t : Int × Int) (p : Nat) : Int := ((p / w : Nat) + t.2) * w + ((p % w : Nat) + t.1)

/-- Pixel `p` moved by `t` is in the frame. -/
def staysIn (h w : Nat) (t : Int × Int) (p : Nat) : Prop :=
  0 ≤ ((p % w : Nat) : Int) + t.1 ∧ ((p % w : Nat) : Int) + t.1 < w ∧ 0 ≤ ((p / w : Nat) : Int) + t.2 ∧ ((p / w : Nat) : Int) + t.2 < h

instance (h w : Nat) (t : Int × Int) (p : Nat) : Decidable (staysIn h w t p) := by unfold staysIn; infer_instance

/-- The rounding gives back the coordinates of the pixels of `ref` after the translation `t`. -/
def Restores (rd : K → K) (w : Nat) (c : K × K) (t : Int × Int) (ref : List Nat) : Prop :=
  ∀ p ∈ ref, movedBy rd c.1 t.1 (p % w) = ((p % w : Nat) : K) + t.1 ∧ movedBy rd c.2 t.2 (p / w) = ((p / w : Nat) : K) + t.2

omit [FloorRing K] in
theorem cast_nonneg_iff (n : Nat) (t : Int) : (0 : K) ≤ (n : K) + t ↔ 0 ≤ (n : Int) + t := by
  rw [← Int.cast_natCast, ← Int.cast_add, Int.cast_nonneg_iff]

omit [FloorRing K] in
theorem cast_lt_iff (n m : Nat) (t : Int) : (n : K) + t < (m : K) ↔ (n : Int) + t < m := by
  rw [← Int.cast_natCast n, ← Int.cast_natCast m, ← Int.cast_add, Int.cast_lt]

theorem geoColumn_eq (rd : K → K) (h w : Nat) (c0 c : K × K) (ref : List Nat) (t : Int × Int) (hx : |rd (c.1 - c0.1) - t.1| < 1 / 2) (hy : |rd (c.2 - c0.2) - t.2| < 1 / 2)
    (hr : Restores rd w c0 t ref) :
    geoColumn rd h w c0 c ref = if ref.filter (fun p => decide (staysIn h w t p)) = [] then none
      else some ((ref.filter fun p => decide (staysIn h w t p)).map (movedPixel w t)) := by
  unfold geoColumn
  rw [roundEvenF_eq _ _ hx, roundEvenF_eq _ _ hy]
  dsimp only
  have hpts : (ref.map fun p => (movedBy rd c0.1 (t.1 : K) (p % w), movedBy rd c0.2 (t.2 : K) (p / w))) = ref.map fun p => (((p % w : Nat) : K) + t.1, ((p / w : Nat) : K) + t.2) := by
    refine List.map_congr_left fun p hp => ?_
    rw [(hr p hp).1, (hr p hp).2]
  rw [hpts, List.filter_map]
  have hfil : ref.filter ((fun p : K × K => decide (0 ≤ p.1 ∧ p.1 < (w : K) ∧ 0 ≤ p.2 ∧ p.2 < (h : K))) ∘ fun p => (((p % w : Nat) : K) + t.1, ((p / w : Nat) : K) + t.2)) =
      ref.filter fun p => decide (staysIn h w t p) := by
    refine List.filter_congr fun p _ => decide_eq_decide.2 ?_
    unfold staysIn
    dsimp only
    rw [cast_nonneg_iff, cast_nonneg_iff, cast_lt_iff, cast_lt_iff]
  rw [hfil]
  simp only [List.map_eq_nil_iff, List.map_map]
  congr 1
  congr 1
  refine List.map_congr_left fun p _ => ?_
  simp only [Function.comp]
  unfold movedPixel
  rw [Int.floor_add_intCast, Int.floor_add_intCast, Int.floor_natCast, Int.floor_natCast]

omit K [Field K] [LinearOrder K] [IsStrictOrderedRing K] [FloorRing K] in
theorem movedPixel_nonneg {h w : Nat} {t : Int × Int} {p : Nat} (hs : staysIn h w t p) : 0 ≤ movedPixel w t p := by
  obtain ⟨a1, a2, a3, a4⟩ := hs
  unfold movedPixel
  have : 0 ≤ (((p / w : Nat) : Int) + t.2) * w := mul_nonneg a3 (by omega)
  omega

theorem dropEmptyRows_full (n : Nat) (hn : 0 < n) (cols : Fin 4 → List Int) (hl : ∀ q, (cols q).length = n) (h0 : ∀ x ∈ cols 0, x ≠ -1) : dropEmptyRows n cols = some cols := by
  have hk : (List.range n).filter (fun k => decide (∃ q : Fin 4, (cols q).getD k (-1) ≠ -1)) = List.range n := by
    rw [List.filter_eq_self]
    intro k hk
    have hk := List.mem_range.1 hk
    refine decide_eq_true ⟨0, ?_⟩
    rw [List.getD_eq_getElem?_getD, List.getElem?_eq_getElem (by rw [hl]; exact hk)]
    exact h0 _ (List.getElem_mem _)
  unfold dropEmptyRows
  dsimp only
  rw [hk, if_neg (by rw [List.range_eq_nil]; omega)]
  congr 1
  funext q
  refine List.ext_getElem (by rw [List.length_map, List.length_range, hl]) fun k h1 h2 => ?_
  rw [List.getElem_map, List.getElem_range, List.getD_eq_getElem?_getD, List.getElem?_eq_getElem h2]
  rfl

/-- Four pupils whose centres differ by the translations `t` within half a pixel, and a rounding that gives back the pixels. -/
structure Translated (rd : K → K) (w : Nat) (cs : Fin 4 → (K × K) × Nat) (t : Fin 4 → Int × Int) (ref : List Nat) : Prop where
  lit : ∀ q, (cs q).2 ≠ 0
  zero : t 0 = (0, 0)
  x : ∀ q, |rd ((cs q).1.1 - (cs 0).1.1) - (t q).1| < 1 / 2
  y : ∀ q, |rd ((cs q).1.2 - (cs 0).1.2) - (t q).2| < 1 / 2
  restores : ∀ q, Restores rd w (cs 0).1 (t q) ref

/-- The reference pupil of the geometric mode: the disc of the largest pupil, around the first centre. -/
def refPupil (π ratio : K) (h w : Nat) (cs : Fin 4 → (K × K) × Nat) : List Nat :=
  discPixels h w (cs 0).1 (((max (max (cs 0).2 (cs 1).2) (max (cs 2).2 (cs 3).2) : Nat) : K) / π) ratio

omit [IsStrictOrderedRing K] [FloorRing K] in
theorem discPixels_lt {h w : Nat} {c : K × K} {r2 ratio : K} {p : Nat} (hp : p ∈ discPixels h w c r2 ratio) : p % w < w ∧ p / w < h := by
  have hp := List.mem_range.1 (List.mem_of_mem_filter hp)
  have hw : 0 < w := by
    rcases Nat.eq_zero_or_pos w with h | h
    · subst h; simp at hp
    · exact h
  exact ⟨Nat.mod_lt _ hw, Nat.div_lt_of_lt_mul (by rwa [Nat.mul_comm] at hp)⟩

omit [IsStrictOrderedRing K] [FloorRing K] in
/-- C75.  The pixels of a pupil are in increasing order, in the frame and within the radius; without obstruction, a pixel nearer to the centre than one of them is one of them. -/
theorem C75_disc (h w : Nat) (c : K × K) (r2 ratio : K) :
    (discPixels h w c r2 ratio).Pairwise (· < ·) ∧
      (∀ p ∈ discPixels h w c r2 ratio, p < h * w ∧ ((p % w : Nat) - c.1) * ((p % w : Nat) - c.1) + ((p / w : Nat) - c.2) * ((p / w : Nat) - c.2) ≤ r2) ∧
      (ratio ≤ 0 → ∀ p ∈ discPixels h w c r2 ratio, ∀ p' < h * w,
        ((p' % w : Nat) - c.1) * ((p' % w : Nat) - c.1) + ((p' / w : Nat) - c.2) * ((p' / w : Nat) - c.2) ≤
          ((p % w : Nat) - c.1) * ((p % w : Nat) - c.1) + ((p / w : Nat) - c.2) * ((p / w : Nat) - c.2) → p' ∈ discPixels h w c r2 ratio) := by
  refine ⟨List.Pairwise.filter _ List.pairwise_lt_range, ?_, ?_⟩
  · intro p hp
    obtain ⟨h1, h2⟩ := List.mem_filter.1 hp
    exact ⟨List.mem_range.1 h1, (of_decide_eq_true h2).1⟩
  · intro hr p hp p' hp' hle
    obtain ⟨h1, h2⟩ := List.mem_filter.1 hp
    exact List.mem_filter.2 ⟨List.mem_range.2 hp', decide_eq_true ⟨le_trans hle (of_decide_eq_true h2).1, fun h => absurd h (not_lt.2 hr)⟩⟩

/-- The result of the geometric mode: column `q` has the pixels of the reference that stay in the frame, then the padding. -/
theorem pupilIndices_geo (rd : K → K) (π ratio : K) (h w : Nat) (cs : Fin 4 → (K × K) × Nat) (t : Fin 4 → Int × Int) (ht : Translated rd w cs t (refPupil π ratio h w cs)) :
    pupilIndices rd π ratio false h w cs =
      if ∃ q, (refPupil π ratio h w cs).filter (fun p => decide (staysIn h w (t q) p)) = [] then none
      else some fun q => padColumn (refPupil π ratio h w cs).length (((refPupil π ratio h w cs).filter fun p => decide (staysIn h w (t q) p)).map (movedPixel w (t q))) := by
  unfold pupilIndices
  rw [if_neg (by push Not; exact ht.lit), if_neg (by simp)]
  dsimp only
  change (geoColumn rd h w (cs 0).1 (cs 0).1 (refPupil π ratio h w cs)).bind (fun k0 => (geoColumn rd h w (cs 0).1 (cs 1).1 (refPupil π ratio h w cs)).bind fun k1 =>
    (geoColumn rd h w (cs 0).1 (cs 2).1 (refPupil π ratio h w cs)).bind fun k2 => (geoColumn rd h w (cs 0).1 (cs 3).1 (refPupil π ratio h w cs)).bind fun k3 =>
    dropEmptyRows (refPupil π ratio h w cs).length fun q => padColumn (refPupil π ratio h w cs).length (match q with | 0 => k0 | 1 => k1 | 2 => k2 | 3 => k3)) = _
  have hg : ∀ q, geoColumn rd h w (cs 0).1 (cs q).1 (refPupil π ratio h w cs) = if (refPupil π ratio h w cs).filter (fun p => decide (staysIn h w (t q) p)) = [] then none
      else some (((refPupil π ratio h w cs).filter fun p => decide (staysIn h w (t q) p)).map (movedPixel w (t q))) := fun q =>
    geoColumn_eq rd h w _ _ _ _ (ht.x q) (ht.y q) (ht.restores q)
  rw [hg 0, hg 1, hg 2, hg 3]
  by_cases hex : ∃ q, (refPupil π ratio h w cs).filter (fun p => decide (staysIn h w (t q) p)) = []
  · rw [if_pos hex]
    obtain ⟨q, hq⟩ := hex
    match q, hq with
    | 0, hq => rw [if_pos hq]; rfl
    | 1, hq => split_ifs <;> rfl
    | 2, hq => split_ifs <;> rfl
    | 3, hq => split_ifs <;> rfl
  · rw [if_neg hex]
    push Not at hex
    rw [if_neg (hex 0), if_neg (hex 1), if_neg (hex 2), if_neg (hex 3)]
    simp only [Option.bind_some]
    have hstay : ∀ p ∈ refPupil π ratio h w cs, staysIn h w (t 0) p := by
      intro p hp
      obtain ⟨a1, a2⟩ := discPixels_lt hp
      rw [ht.zero]
      unfold staysIn
      dsimp only
      refine ⟨?_, ?_, ?_, ?_⟩
      · rw [add_zero]; exact Int.natCast_nonneg _
      · rw [add_zero]; exact_mod_cast a1
      · rw [add_zero]; exact Int.natCast_nonneg _
      · rw [add_zero]; exact_mod_cast a2
    have hall : (refPupil π ratio h w cs).filter (fun p => decide (staysIn h w (t 0) p)) = refPupil π ratio h w cs := by
      rw [List.filter_eq_self]
      intro p hp
      exact decide_eq_true (hstay p hp)
    have hpos : 0 < (refPupil π ratio h w cs).length := List.length_pos_of_ne_nil (by rw [← hall]; exact hex 0)
    have hmatch : (fun q : Fin 4 => padColumn (refPupil π ratio h w cs).length (match q with
        | 0 => ((refPupil π ratio h w cs).filter fun p => decide (staysIn h w (t 0) p)).map (movedPixel w (t 0))
        | 1 => ((refPupil π ratio h w cs).filter fun p => decide (staysIn h w (t 1) p)).map (movedPixel w (t 1))
        | 2 => ((refPupil π ratio h w cs).filter fun p => decide (staysIn h w (t 2) p)).map (movedPixel w (t 2))
        | 3 => ((refPupil π ratio h w cs).filter fun p => decide (staysIn h w (t 3) p)).map (movedPixel w (t 3)))) =
        fun q => padColumn (refPupil π ratio h w cs).length (((refPupil π ratio h w cs).filter fun p => decide (staysIn h w (t q) p)).map (movedPixel w (t q))) := by
      funext q
      match q with
      | 0 => rfl
      | 1 => rfl
      | 2 => rfl
      | 3 => rfl
    rw [hmatch]
    refine dropEmptyRows_full _ hpos _ ?_ ?_
    · intro q
      unfold padColumn
      rw [List.length_append, List.length_replicate, List.length_map]
      have := List.length_filter_le (fun p => decide (staysIn h w (t q) p)) (refPupil π ratio h w cs)
      omega
    · intro x hx
      unfold padColumn at hx
      rw [hall, List.length_map, Nat.sub_self, List.replicate_zero, List.append_nil] at hx
      obtain ⟨p, hp, rfl⟩ := List.mem_map.1 hx
      have := movedPixel_nonneg (hstay p hp)
      omega

/-- C75.  Geometric mode.  If the disc stays in the frame in the four positions, row `k` of the table is pixel `k` of the reference pupil in each of the four positions: four pixels that
see the same part of the pupil. -/
theorem C75_geometric (rd : K → K) (π ratio : K) (h w : Nat) (cs : Fin 4 → (K × K) × Nat) (t : Fin 4 → Int × Int) (ht : Translated rd w cs t (refPupil π ratio h w cs))
    (hne : refPupil π ratio h w cs ≠ []) (hin : ∀ q, ∀ p ∈ refPupil π ratio h w cs, staysIn h w (t q) p) :
    pupilIndices rd π ratio false h w cs = some fun q => (refPupil π ratio h w cs).map (movedPixel w (t q)) := by
  rw [pupilIndices_geo rd π ratio h w cs t ht]
  have hall : ∀ q, (refPupil π ratio h w cs).filter (fun p => decide (staysIn h w (t q) p)) = refPupil π ratio h w cs := by
    intro q
    rw [List.filter_eq_self]
    intro p hp
    exact decide_eq_true (hin q p hp)
  rw [if_neg (by rintro ⟨q, hq⟩; rw [hall q] at hq; exact hne hq)]
  congr 1
  funext q
  unfold padColumn
  rw [hall q, List.length_map, Nat.sub_self, List.replicate_zero, List.append_nil]

omit [IsStrictOrderedRing K] [FloorRing K] in
theorem pyrVals_length (c : PyrCfg K) (frame : List K) (q : Fin 4) (A : List K) (hA : pyrVals c frame q = some A) : A.length = ((c.ind q).filter fun i => 0 ≤ i).length := by
  unfold pyrVals at hA
  generalize ((c.ind q).filter fun i => 0 ≤ i) = l at hA
  induction l generalizing A with
  | nil => simp at hA; rw [hA]; rfl
  | cons a l ih =>
    rw [List.mapM_cons] at hA
    cases hx : (frame[a.toNat]?).map (pyrClamp c.thr) with
    | none => rw [hx] at hA; simp at hA
    | some x =>
      rw [hx] at hA
      cases hy : l.mapM (fun i => (frame[i.toNat]?).map (pyrClamp c.thr)) with
      | none => rw [hy] at hA; simp at hA
      | some y =>
        rw [hy] at hA
        simp at hA
        rw [← hA, List.length_cons, List.length_cons, ih y hy]

omit [IsStrictOrderedRing K] [FloorRing K] in
/-- The slope computer needs as many valid pixels in each column as there are rows. -/
theorem pyrTrigger_lengths (c : PyrCfg K) (frame : List K) (q : Fin 4) (h : ((c.ind q).filter fun i => 0 ≤ i).length ≠ (c.ind 0).length) : pyrTrigger c frame = none := by
  unfold pyrTrigger
  cases hA : pyrVals c frame 0 with
  | none => rfl
  | some A =>
    cases hB : pyrVals c frame 1 with
    | none => rfl
    | some B =>
      cases hC : pyrVals c frame 2 with
      | none => rfl
      | some C =>
        cases hD : pyrVals c frame 3 with
        | none => rfl
        | some D =>
          simp only [Option.bind_some]
          rw [if_neg]
          have lA := pyrVals_length c frame 0 A hA
          have lB := pyrVals_length c frame 1 B hB
          have lC := pyrVals_length c frame 2 C hC
          have lD := pyrVals_length c frame 3 D hD
          rintro ⟨h1, h2, h3, h4⟩
          unfold PyrCfg.nSub at h4
          apply h
          match q with
          | 0 => omega
          | 1 => omega
          | 2 => omega
          | 3 => omega

omit K [Field K] [LinearOrder K] [IsStrictOrderedRing K] [FloorRing K] in
theorem padColumn_valid (n : Nat) (l : List Int) (h : ∀ x ∈ l, 0 ≤ x) : (padColumn n l).filter (fun i => decide (0 ≤ i)) = l := by
  unfold padColumn
  rw [List.filter_append, List.filter_eq_self.2 fun x hx => decide_eq_true (h x hx), List.filter_eq_nil_iff.2, List.append_nil]
  intro x hx
  rw [List.eq_of_mem_replicate hx]
  simp

/-- C75.  If a pixel leaves the frame the rows are not aligned any more, but the slope computer does not accept the table (a column with a single pixel is left out, since numpy would
repeat it). -/
theorem C75_lost_pixels (rd : K → K) (π ratio : K) (h w : Nat) (cs : Fin 4 → (K × K) × Nat) (t : Fin 4 → Int × Int) (ht : Translated rd w cs t (refPupil π ratio h w cs))
    (ind : Fin 4 → List Int) (hi : pupilIndices rd π ratio false h w cs = some ind) (q : Fin 4) (p : Nat) (hp : p ∈ refPupil π ratio h w cs) (hout : ¬ staysIn h w (t q) p)
    (c : PyrCfg K) (hc : c.ind = fun q => ind (pupOrder q)) (_hone : ((ind q).filter fun i => 0 ≤ i).length ≠ 1) (frame : List K) : pyrTrigger c frame = none := by
  rw [pupilIndices_geo rd π ratio h w cs t ht] at hi
  split_ifs at hi
  have hi := Option.some.inj hi
  have hlen : ∀ q', (ind q').length = (refPupil π ratio h w cs).length := by
    intro q'
    rw [← hi]
    unfold padColumn
    rw [List.length_append, List.length_replicate, List.length_map]
    have := List.length_filter_le (fun p => decide (staysIn h w (t q') p)) (refPupil π ratio h w cs)
    omega
  have hval : ((ind q).filter fun i => decide (0 ≤ i)).length < (refPupil π ratio h w cs).length := by
    rw [← hi]
    dsimp only
    rw [padColumn_valid, List.length_map]
    · exact List.length_filter_lt_length_iff_exists.2 ⟨p, hp, by simpa using hout⟩
    · intro x hx
      obtain ⟨p', hp', rfl⟩ := List.mem_map.1 hx
      exact movedPixel_nonneg (of_decide_eq_true (List.mem_filter.1 hp').2)
  have hinv : ∀ q : Fin 4, pupOrder (pupOrder q) = q := by decide
  refine pyrTrigger_lengths c frame (pupOrder q) ?_
  rw [hc]
  dsimp only
  rw [hinv, hlen]
  exact hval.ne

omit [IsStrictOrderedRing K] in
/-- C75.  Intensity mode.  Each column has exactly the pixels of its own disc; the slope computer accepts the table only if the four discs have as many pixels. -/
theorem C75_intensity (rd : K → K) (π ratio : K) (h w : Nat) (cs : Fin 4 → (K × K) × Nat) (ind : Fin 4 → List Int) (hi : pupilIndices rd π ratio true h w cs = some ind) :
    (∀ q, ((ind q).filter fun i => 0 ≤ i) = (discPixels h w (cs q).1 (((cs q).2 : K) / π) ratio).map fun p : Nat => (p : Int)) ∧
      ∀ q q', (discPixels h w (cs q).1 (((cs q).2 : K) / π) ratio).length ≠ (discPixels h w (cs q').1 (((cs q').2 : K) / π) ratio).length →
        ∀ (c : PyrCfg K), c.ind = ind → ∀ frame, pyrTrigger c frame = none := by
  unfold pupilIndices at hi
  by_cases hz : ∃ q, (cs q).2 = 0
  · rw [if_pos hz] at hi
    exact absurd hi (by simp)
  rw [if_neg hz, if_pos rfl] at hi
  dsimp only at hi
  generalize hl : (fun q : Fin 4 => (discPixels h w (cs q).1 (((cs q).2 : K) / π) ratio).map fun p : Nat => (p : Int)) = l at hi
  have hl' : ∀ q, (discPixels h w (cs q).1 (((cs q).2 : K) / π) ratio).map (fun p : Nat => (p : Int)) = l q := fun q => by rw [← hl]
  have hll : ∀ q, (discPixels h w (cs q).1 (((cs q).2 : K) / π) ratio).length = (l q).length := fun q => by rw [← hl' q, List.length_map]
  simp only [hl'] at hi
  have hnn : ∀ q, ∀ x ∈ l q, 0 ≤ x := by
    intro q x hx
    rw [← hl' q] at hx
    obtain ⟨p, _, rfl⟩ := List.mem_map.1 hx
    omega
  generalize hn : max (max (l 0).length (l 1).length) (max (l 2).length (l 3).length) = n at hi
  have hle : ∀ q, (l q).length ≤ n := by
    intro q
    match q with
    | 0 => omega
    | 1 => omega
    | 2 => omega
    | 3 => omega
  have hattain : ∃ q, (l q).length = n := by
    by_contra hcon
    push Not at hcon
    have h0 := hcon 0
    have h1 := hcon 1
    have h2 := hcon 2
    have h3 := hcon 3
    omega
  unfold dropEmptyRows at hi
  dsimp only at hi
  have hplen : ∀ q, (padColumn n (l q)).length = n := by
    intro q
    unfold padColumn
    rw [List.length_append, List.length_replicate]
    have := hle q
    omega
  have hkeep : (List.range n).filter (fun k => decide (∃ q : Fin 4, (padColumn n (l q)).getD k (-1) ≠ -1)) = List.range n := by
    rw [List.filter_eq_self]
    intro k hk
    have hk := List.mem_range.1 hk
    obtain ⟨q, hq⟩ := hattain
    refine decide_eq_true ⟨q, ?_⟩
    have : padColumn n (l q) = l q := by
      unfold padColumn
      rw [hq, Nat.sub_self, List.replicate_zero, List.append_nil]
    rw [this, List.getD_eq_getElem?_getD, List.getElem?_eq_getElem (by rw [hq]; exact hk)]
    have := hnn q _ (List.getElem_mem (by rw [hq]; exact hk : k < (l q).length))
    rw [Option.getD_some]
    omega
  rw [hkeep] at hi
  split_ifs at hi
  have hi := Option.some.inj hi
  have hind : ∀ q, ind q = padColumn n (l q) := by
    intro q
    rw [← hi]
    dsimp only
    refine List.ext_getElem (by rw [List.length_map, List.length_range, hplen]) fun k h1 h2 => ?_
    rw [List.getElem_map, List.getElem_range, List.getD_eq_getElem?_getD, List.getElem?_eq_getElem h2]
    rfl
  refine ⟨fun q => ?_, fun q q' hne c hc frame => ?_⟩
  · rw [hind, padColumn_valid n (l q) (hnn q), hl']
  · rw [hll, hll] at hne
    have : ∃ r, (l r).length ≠ n := by
      by_contra hcon
      push Not at hcon
      exact hne ((hcon q).trans (hcon q').symm)
    obtain ⟨r, hr⟩ := this
    refine pyrTrigger_lengths c frame r ?_
    rw [hc, hind, hind, padColumn_valid n (l r) (hnn r), hplen]
    exact hr

/-! ### Rounding -/

/-- C75.  In floating point the coordinates are given back exactly, so that the conversion to integers does not lose one: `rd` is any rounding that keeps the numbers with a mantissa of up to
53 bits, and the centre is such a number, at least half the coordinate. -/
theorem C75_restores (rd : K → K) (hrd : ∀ (k : Int) (e : Nat), |k| ≤ 2 ^ 53 → rd ((k : K) / 2 ^ e) = (k : K) / 2 ^ e) (m : Int) (e : Nat) (hm : |m| ≤ 2 ^ 53) (x : Nat) (t : Int)
    (hx : (x : K) ≤ 2 * ((m : K) / 2 ^ e)) (hx2 : x ≤ 2 ^ 53) (hxt : |(x : Int) + t| ≤ 2 ^ 53) : movedBy rd ((m : K) / 2 ^ e) t x = (x : K) + t := by
  have h2 : (2 : K) ^ e ≠ 0 := by positivity
  have hp : (0 : K) < 2 ^ e := by positivity
  have e1 : (x : K) - (m : K) / 2 ^ e = (((x : Int) * 2 ^ e - m : Int) : K) / 2 ^ e := by
    push_cast
    field_simp
  have hb : |(x : Int) * 2 ^ e - m| ≤ 2 ^ 53 := by
    have h3 : (x : Int) * 2 ^ e ≤ 2 * m := by
      have : (x : K) * 2 ^ e ≤ 2 * m := by
        have := mul_le_mul_of_nonneg_right hx hp.le
        rwa [mul_assoc, div_mul_cancel₀ _ h2] at this
      exact_mod_cast this
    have h4 : (0 : Int) ≤ (x : Int) * 2 ^ e := by positivity
    rw [abs_le] at hm ⊢
    constructor <;> omega
  have i1 : rd ((x : K)) = x := by
    have := hrd (x : Int) 0 (by rw [abs_of_nonneg (by omega)]; exact_mod_cast hx2)
    simpa using this
  have i2 : rd ((x : K) + t) = (x : K) + t := by
    have := hrd ((x : Int) + t) 0 hxt
    simpa using this
  unfold movedBy
  rw [e1, hrd _ _ hb, ← e1, sub_add_cancel, i1, i2]

/-! ### From the image to the table -/

omit [Field K] [LinearOrder K] [IsStrictOrderedRing K] [FloorRing K] in
/-- The quadrants of a square frame of even side. -/
theorem quadrant_square (a : Img K) (d : Nat) (hr : a.rows = 2 * d) (hc : a.cols = 2 * d) (q : Fin 4) :
    (quadrant a q).1.rows = d ∧ (quadrant a q).1.cols = d ∧ (quadrant a q).2 = (if q.val % 2 = 0 then 0 else d, if q.val < 2 then 0 else d) := by
  unfold quadrant
  rw [hr, hc, Nat.mul_div_cancel_left _ (by norm_num)]
  simp

omit [FloorRing K] in
/-- Centre and number of pixels of a pupil that is a pattern with one level of light. -/
theorem analyzePupils_placed (thr1 thr2 : K) (h1 : thr1 ≤ 1) (h2 : 0 < thr2) (h3 : thr2 ≤ 1) (a : Img K) (d : Nat) (hr : a.rows = 2 * d) (hc : a.cols = 2 * d)
    (b : Nat → Nat → Bool) (R C : Nat) (hb : maskCount R C b ≠ 0) (q : Fin 4) (oy ox : Nat) (hy : oy + R ≤ d) (hx : ox + C ≤ d) (v : K) (hv : 0 < v)
    (ha : ∀ i < d, ∀ j < d, (quadrant a q).1.px i j = if placed b R C oy ox i j then v else 0) :
    analyzePupils thr1 thr2 a q = some (((((quadrant a q).2.1 : Nat) : K) + ((ox : K) + (maskCentre R C b : (K × K) × Nat).1.1),
      (((quadrant a q).2.2 : Nat) : K) + ((oy : K) + (maskCentre R C b : (K × K) × Nat).1.2)), maskCount R C b) := by
  obtain ⟨q1, q2, q3⟩ := quadrant_square a d hr hc q
  have hlit : ∃ i < (quadrant a q).1.rows, ∃ j < (quadrant a q).1.cols, (quadrant a q).1.px i j = v := by
    rw [q1, q2]
    by_contra hcon
    push Not at hcon
    apply hb
    have := sum_placed (M := Nat) b R C oy ox d d hy hx fun _ _ => 1
    unfold maskCount
    rw [← this]
    refine Finset.sum_eq_zero fun i hi => Finset.sum_eq_zero fun j hj => ?_
    have hi := Finset.mem_range.1 hi
    have hj := Finset.mem_range.1 hj
    have h4 := hcon i hi j hj
    rw [ha i hi j hj] at h4
    rw [if_neg]
    intro h5
    rw [if_pos h5] at h4
    exact h4 rfl
  obtain ⟨m, hm, hmi⟩ := C75_mask thr1 thr2 h1 h2 h3 (quadrant a q).1 v hv (by
    rw [q1, q2]
    intro i hi j hj
    rw [ha i hi j hj]
    split_ifs
    · exact Or.inr rfl
    · exact Or.inl rfl) hlit
  have hcongr : (maskCentre (quadrant a q).1.rows (quadrant a q).1.cols m : (K × K) × Nat) = maskCentre d d (placed b R C oy ox) := by
    rw [q1, q2]
    rw [q1, q2] at hmi
    have hpt : ∀ i < d, ∀ j < d, m i j = placed b R C oy ox i j := by
      intro i hi j hj
      have h4 := hmi i hi j hj
      rw [ha i hi j hj] at h4
      cases hpl : placed b R C oy ox i j with
      | true =>
        rw [hpl, if_pos rfl] at h4
        exact h4.2 rfl
      | false =>
        rw [hpl, if_neg (by simp)] at h4
        by_contra h5
        rw [Bool.not_eq_false] at h5
        exact absurd (h4.1 h5) hv.ne
    have hs : ∀ {M : Type} [AddCommMonoid M] (g : Nat → Nat → M), (∑ i ∈ Finset.range d, ∑ j ∈ Finset.range d, if m i j then g i j else 0) =
        ∑ i ∈ Finset.range d, ∑ j ∈ Finset.range d, if placed b R C oy ox i j then g i j else 0 := by
      intro M _ g
      refine Finset.sum_congr rfl fun i hi => Finset.sum_congr rfl fun j hj => ?_
      rw [hpt i (Finset.mem_range.1 hi) j (Finset.mem_range.1 hj)]
    unfold maskCentre maskCount
    dsimp only
    rw [hs fun _ _ => 1, hs fun _ j => (j : K), hs fun i _ => (i : K)]
  unfold analyzePupils
  dsimp only
  rw [hm, Option.map_some, hcongr, C75_centre_moves b R C oy ox d d hy hx hb]

/-- Translation of pupil `q` with respect to the first one. -/
def pupilShift (d : Nat) (oy ox : Fin 4 → Nat) (q : Fin 4) : Int × Int :=
  ((if q.val % 2 = 0 then 0 else (d : Int)) + ox q - ox 0, (if q.val < 2 then 0 else (d : Int)) + oy q - oy 0)

/-- C75.  From the image to the table: four copies of the same pupil, at any whole positions in their quadrants.  Column `q` of the table is the disc of the first pupil moved by exactly the
distance between the two copies; columns are top right, top left, bottom left, bottom right. -/
theorem C75_image (π thr1 thr2 ratio : K) (h1 : thr1 ≤ 1) (h2 : 0 < thr2) (h3 : thr2 ≤ 1) (a : Img K) (d : Nat) (hr : a.rows = 2 * d) (hc : a.cols = 2 * d)
    (b : Nat → Nat → Bool) (R C : Nat) (hb : maskCount R C b ≠ 0) (oy ox : Fin 4 → Nat) (hy : ∀ q, oy q + R ≤ d) (hx : ∀ q, ox q + C ≤ d) (v : Fin 4 → K) (hv : ∀ q, 0 < v q)
    (ha : ∀ q, ∀ i < d, ∀ j < d, (quadrant a q).1.px i j = if placed b R C (oy q) (ox q) i j then v q else 0)
    (ref : List Nat) (href : ref = discPixels (2 * d) (2 * d) ((ox 0 : K) + (maskCentre R C b : (K × K) × Nat).1.1, (oy 0 : K) + (maskCentre R C b : (K × K) × Nat).1.2)
      ((maskCount R C b : K) / π) ratio) (hne : ref ≠ []) (hin : ∀ q, ∀ p ∈ ref, staysIn (2 * d) (2 * d) (pupilShift d oy ox q) p) :
    calibratePupils id π thr1 thr2 ratio false a = some fun q => ref.map (movedPixel (2 * d) (pupilShift d oy ox (pupOrder q))) := by
  have han := fun q => analyzePupils_placed thr1 thr2 h1 h2 h3 a d hr hc b R C hb q (oy q) (ox q) (hy q) (hx q) (v q) (hv q) (ha q)
  unfold calibratePupils
  rw [han 0, han 1, han 2, han 3]
  simp only [Option.bind_some]
  set cs : Fin 4 → (K × K) × Nat := fun q => (((((quadrant a q).2.1 : Nat) : K) + ((ox q : K) + (maskCentre R C b : (K × K) × Nat).1.1),
      (((quadrant a q).2.2 : Nat) : K) + ((oy q : K) + (maskCentre R C b : (K × K) × Nat).1.2)), maskCount R C b) with hcs
  have hmatch : (fun q : Fin 4 => match q with | 0 => cs 0 | 1 => cs 1 | 2 => cs 2 | 3 => cs 3) = cs := by
    funext q
    match q with
    | 0 => rfl
    | 1 => rfl
    | 2 => rfl
    | 3 => rfl
  change (pupilIndices id π ratio false a.rows a.cols (fun q : Fin 4 => match q with | 0 => cs 0 | 1 => cs 1 | 2 => cs 2 | 3 => cs 3)).map (fun ind q => ind (pupOrder q)) = _
  rw [hmatch, hr, hc]
  have hq := fun q => (quadrant_square a d hr hc q).2.2
  have hrefp : refPupil π ratio (2 * d) (2 * d) cs = ref := by
    unfold refPupil
    rw [href, hcs]
    dsimp only
    rw [max_self, max_self, hq 0]
    simp
  have hT : Translated id (2 * d) cs (pupilShift d oy ox) (refPupil π ratio (2 * d) (2 * d) cs) := by
    refine ⟨fun q => hb, ?_, ?_, ?_, ?_⟩
    · unfold pupilShift; simp
    · intro q
      rw [hcs]
      dsimp only [id]
      rw [hq q, hq 0]
      unfold pupilShift
      dsimp only
      rw [if_pos (show (0 : Fin 4).val % 2 = 0 from rfl)]
      have : (((if q.val % 2 = 0 then 0 else d : Nat) : K) + ((ox q : K) + (maskCentre R C b : (K × K) × Nat).1.1) - (((0 : Nat) : K) + ((ox 0 : K) + (maskCentre R C b : (K × K) × Nat).1.1)) -
          (((if q.val % 2 = 0 then 0 else (d : Int)) + ox q - ox 0 : Int) : K)) = 0 := by
        split_ifs <;> push_cast <;> ring
      rw [this, abs_zero]
      norm_num
    · intro q
      rw [hcs]
      dsimp only [id]
      rw [hq q, hq 0]
      unfold pupilShift
      dsimp only
      rw [if_pos (show (0 : Fin 4).val < 2 from by decide)]
      have : (((if q.val < 2 then 0 else d : Nat) : K) + ((oy q : K) + (maskCentre R C b : (K × K) × Nat).1.2) - (((0 : Nat) : K) + ((oy 0 : K) + (maskCentre R C b : (K × K) × Nat).1.2)) -
          (((if q.val < 2 then 0 else (d : Int)) + oy q - oy 0 : Int) : K)) = 0 := by
        split_ifs <;> push_cast <;> ring
      rw [this, abs_zero]
      norm_num
    · intro q p _
      unfold movedBy
      simp only [id, sub_add_cancel, and_self]
  rw [C75_geometric id π ratio (2 * d) (2 * d) cs (pupilShift d oy ox) hT (by rw [hrefp]; exact hne) (by rw [hrefp]; exact hin), hrefp]
  rfl

end

/-! ### The map of the slopes -/

/-- C75.  If the first column of the table is in the top right quarter of the frame, the map of the slopes has the positions of its pixels in that quarter, in the same order: slope `k` is shown
where pixel `k` is. -/
theorem C75_display_map (h w : Nat) (ref : List Nat) (hs : ref.Pairwise (· < ·)) (t : Int × Int)
    (hin : ∀ p ∈ ref, 0 ≤ ((p / w : Nat) : Int) + t.2 ∧ ((p / w : Nat) : Int) + t.2 < (h / 2 : Nat) ∧ ((w / 2 : Nat) : Int) ≤ ((p % w : Nat) : Int) + t.1 ∧ ((p % w : Nat) : Int) + t.1 < w) :
    pupDisplayMap h w (ref.map (movedPixel w t)) =
      ref.map fun p => (((p / w : Nat) : Int) + t.2).toNat * (w - w / 2) + ((((p % w : Nat) : Int) + t.1).toNat - w / 2) := by
  refine List.Pairwise.eq_of_mem_iff (r := (· < ·)) ?_ ?_ ?_
  · unfold pupDisplayMap
    exact List.Pairwise.filter _ List.pairwise_lt_range
  · rw [List.pairwise_map]
    refine List.Pairwise.imp_of_mem ?_ hs
    intro p p' hp hp' hlt
    obtain ⟨a1, a2, a3, a4⟩ := hin p hp
    obtain ⟨b1, b2, b3, b4⟩ := hin p' hp'
    generalize hy : p / w = y at *
    generalize hx : p % w = x at *
    generalize hy' : p' / w = y' at *
    generalize hx' : p' % w = x' at *
    have e1 : p = w * y + x := by rw [← hy, ← hx, Nat.div_add_mod]
    have e2 : p' = w * y' + x' := by rw [← hy', ← hx', Nat.div_add_mod]
    have hwpos : 0 < w := by omega
    have hxw : x < w := by rw [← hx]; exact Nat.mod_lt _ hwpos
    have hxw' : x' < w := by rw [← hx']; exact Nat.mod_lt _ hwpos
    have hyy : y ≤ y' := by rw [← hy, ← hy']; exact Nat.div_le_div_right hlt.le
    rcases Nat.lt_or_eq_of_le hyy with hyl | hye
    · have h3 : (((y : Int) + t.2).toNat + 1) * (w - w / 2) ≤ ((y' : Int) + t.2).toNat * (w - w / 2) := Nat.mul_le_mul_right _ (by omega)
      rw [Nat.succ_mul] at h3
      omega
    · subst hye
      have : x < x' := by omega
      have h4 : ((x : Int) + t.1).toNat - w / 2 < ((x' : Int) + t.1).toNat - w / 2 := by omega
      omega
  · intro k
    unfold pupDisplayMap
    rw [List.mem_filter, List.mem_range, List.mem_map]
    unfold pupSingleMask putMask
    rw [decide_eq_true_eq]
    constructor
    · rintro ⟨hk, hm⟩
      have hcol : 0 < w - w / 2 := by
        rcases Nat.eq_zero_or_pos (w - w / 2) with h | h
        · rw [h] at hk; simp at hk
        · exact h
      have hkm := Nat.mod_lt k hcol
      have hkd : k / (w - w / 2) < h / 2 := Nat.div_lt_of_lt_mul (by rwa [Nat.mul_comm] at hk)
      generalize hK : k / (w - w / 2) = ky at *
      generalize hKx : k % (w - w / 2) = kx at *
      have ek : k = (w - w / 2) * ky + kx := by rw [← hK, ← hKx, Nat.div_add_mod]
      rcases hm with hm | hm
      · obtain ⟨p, hp, e⟩ := List.mem_map.1 hm
        refine ⟨p, hp, ?_⟩
        obtain ⟨a1, a2, a3, a4⟩ := hin p hp
        unfold movedPixel at e
        generalize hY : ((p / w : Nat) : Int) + t.2 = Y at *
        generalize hX : ((p % w : Nat) : Int) + t.1 = X at *
        have eY : Y = (Y.toNat : Int) := by omega
        have eX : X = (X.toNat : Int) := by omega
        generalize Y.toNat = Yn at *
        generalize X.toNat = Xn at *
        subst eY
        subst eX
        have e' : Yn * w + Xn = ky * w + (w / 2 + kx) := by exact_mod_cast e
        have hXw : Xn < w := by exact_mod_cast a4
        have eq1 : Yn = ky := by
          have := congrArg (· / w) e'
          simp only [Nat.mul_comm _ w, Nat.mul_add_div (show 0 < w by omega), Nat.div_eq_of_lt hXw, Nat.div_eq_of_lt (show w / 2 + kx < w by omega), Nat.add_zero] at this
          exact this
        subst eq1
        have eq2 : Xn = w / 2 + kx := by omega
        rw [ek, eq2, Nat.mul_comm]
        omega
      · exfalso
        obtain ⟨p, hp, e⟩ := List.mem_map.1 hm
        obtain ⟨a1, a2, a3, a4⟩ := hin p hp
        have hnn : 0 ≤ movedPixel w t p := by
          unfold movedPixel
          have : 0 ≤ (((p / w : Nat) : Int) + t.2) * w := mul_nonneg a1 (by omega)
          omega
        have hlt : ky * w + (w / 2 + kx) < h * w := by
          have h5 : (ky + 1) * w ≤ h * w := Nat.mul_le_mul_right _ (by omega)
          rw [Nat.succ_mul] at h5
          omega
        have : ((ky * w + (w / 2 + kx) : Nat) : Int) < ((h * w : Nat) : Int) := by exact_mod_cast hlt
        omega
    · rintro ⟨p, hp, rfl⟩
      obtain ⟨a1, a2, a3, a4⟩ := hin p hp
      have hmem : movedPixel w t p ∈ ref.map (movedPixel w t) := List.mem_map.2 ⟨p, hp, rfl⟩
      have hmp : movedPixel w t p = (((p / w : Nat) : Int) + t.2) * w + (((p % w : Nat) : Int) + t.1) := rfl
      generalize hY : ((p / w : Nat) : Int) + t.2 = Y at *
      generalize hX : ((p % w : Nat) : Int) + t.1 = X at *
      have eY : Y = (Y.toNat : Int) := by omega
      have eX : X = (X.toNat : Int) := by omega
      generalize Y.toNat = Yn at *
      generalize X.toNat = Xn at *
      subst eY
      subst eX
      have hcol : Xn - w / 2 < w - w / 2 := by omega
      have hYh : Yn < h / 2 := by exact_mod_cast a2
      refine ⟨?_, Or.inl ?_⟩
      · have h5 : (Yn + 1) * (w - w / 2) ≤ h / 2 * (w - w / 2) := Nat.mul_le_mul_right _ hYh
        rw [Nat.succ_mul] at h5
        omega
      · have e1 : (Yn * (w - w / 2) + (Xn - w / 2)) / (w - w / 2) = Yn := by rw [Nat.mul_comm, Nat.mul_add_div (by omega), Nat.div_eq_of_lt hcol, Nat.add_zero]
        have e2 : (Yn * (w - w / 2) + (Xn - w / 2)) % (w - w / 2) = Xn - w / 2 := by rw [Nat.mul_comm, Nat.mul_add_mod, Nat.mod_eq_of_lt hcol]
        rw [e1, e2]
        have : ((Yn * w + (w / 2 + (Xn - w / 2)) : Nat) : Int) = movedPixel w t p := by
          rw [hmp]
          push_cast
          omega
        rw [this]
        exact hmem

/-! ### Concrete cases -/

/-- A frame of 8 by 8 with four pupils of 2 by 2. -/
def exPupils : Img ℚ := ⟨8, 8, fun i j => if (1 ≤ i % 4 ∧ i % 4 < 3) ∧ (1 ≤ j % 4 ∧ j % 4 < 3) then 5 else 0⟩

/-- C75 on numbers: the table has the top right pupil first; both modes agree; the map is the middle of the quarter. -/
example : (calibratePupils id (22 / 7) (1 / 10) (1 / 4) 0 false exPupils).map (fun f => (f 0, f 1, f 2, f 3)) =
      some ([13, 14, 21, 22], [9, 10, 17, 18], [41, 42, 49, 50], [45, 46, 53, 54]) ∧
    (calibratePupils id (22 / 7) (1 / 10) (1 / 4) 0 true exPupils).map (fun f => (f 0, f 1, f 2, f 3)) =
      some ([13, 14, 21, 22], [9, 10, 17, 18], [41, 42, 49, 50], [45, 46, 53, 54]) ∧
    pupDisplayMap 8 8 [13, 14, 21, 22] = [5, 6, 9, 10] := by decide +kernel

/-- The hypotheses of C75_image on that frame. -/
example : calibratePupils id (22 / 7) (1 / 10) (1 / 4) 0 false exPupils = some fun q => [9, 10, 17, 18].map (movedPixel 8 (pupilShift 4 (fun _ => 1) (fun _ => 1) (pupOrder q))) :=
  C75_image (22 / 7) (1 / 10) (1 / 4) 0 (by norm_num) (by norm_num) (by norm_num) exPupils 4 rfl rfl (fun _ _ => true) 2 2 (by decide) (fun _ => 1) (fun _ => 1) (by decide) (by decide)
    (fun _ => 5) (by intro; norm_num) (by decide +kernel) [9, 10, 17, 18] (by decide +kernel) (by decide) (by decide)

/-- A frame with flat pupils, the top right one at the border. -/
def exBorder : Img ℚ := ⟨12, 12, fun i j => if (i < 6 ∧ j < 6 ∧ i = 1) ∨ (i < 6 ∧ 6 ≤ j ∧ i = 0) ∨ i = 8 then 5 else 0⟩

/-- C75: a disc that leaves the frame makes rows of pixels that do not correspond: the first row has a pixel of the top row of the first pupil and one
of the middle row of the second. -/
theorem C75_lost_misaligned : (calibratePupils id (22 / 7) (1 / 10) (1 / 4) 0 false exBorder).map (fun f => (f 0, f 1)) =
    some ([8, 9, 20, 21, -1, -1], [2, 3, 14, 15, 26, 27]) := by decide +kernel

/-- C75: a dark quadrant is an error. -/
example : (calibratePupils id (22 / 7) (1 / 10) (1 / 4) 0 false (⟨4, 4, fun i _ => if i < 2 then 1 else 0⟩ : Img ℚ)).isNone = true := by decide +kernel

end Specula
