import Verif.Model.PlateScale
import Mathlib.Algebra.BigOperators.Field
import Mathlib.Algebra.Order.BigOperators.Ring.Finset
import Mathlib.Algebra.BigOperators.Fin
import Mathlib.Tactic.Linarith
import Mathlib.Tactic.Ring
import Mathlib.Tactic.FieldSimp
import Mathlib.Tactic.NormNum
import Mathlib.Tactic.FinCases
import Mathlib.Tactic.IntervalCases
/-
C108: plate scale coefficients.
-/
namespace Specula
open Finset

/-! ### Specification -/

/-- What a pseudo inverse `P` of `A` satisfies: `A P A = A` and `A P` is symmetric. -/
def IsPinvOn (pup : Finset (ℕ × ℕ)) (A : ℕ × ℕ → Fin 3 → ℝ) (P : Fin 3 → ℕ × ℕ → ℝ) : Prop :=
  (∀ x ∈ pup, ∀ k, ∑ l, A x l * ∑ y ∈ pup, P l y * A y k = A x k) ∧
  ∀ x ∈ pup, ∀ y ∈ pup, ∑ l, A x l * P l y = ∑ l, A y l * P l x

/-- Commands of the actuators that make mode `k`: column `k` of the matrix, or actuator `k` alone. -/
def modeCommands (d : PsDm) (k a : ℕ) : ℝ := d.m2c.elim (if a = k then 1 else 0) fun M => M a k

/-- The number of pixels of the mask on the rows above and to the left on the same row. -/
def pixelNumber (m : MaskPx) (r c : ℕ) : ℕ := ((range (r * m.w + c)).filter fun t => m.on (t / m.w) (t % m.w) = true).card

/-- Shape of mode `k` of a mirror with at least `k + 1` actuators at row `x.1` and column `x.2` of the pupil of `p` pixels at the centre
of the mask: the sum of the influence functions times the commands. -/
def seenShape (p : ℕ) (d : PsDm) (k : ℕ) (x : ℕ × ℕ) : ℝ :=
  let r := d.m.h / 2 - p / 2 + x.1
  let c := d.m.w / 2 - p / 2 + x.2
  if r < d.m.h ∧ c < d.m.w ∧ d.m.on r c = true then
    ∑ a ∈ range (max d.acts (k + 1)), (if a < d.acts ∨ d.m2c = none then modeCommands d k a else 0) * d.ifunc a (pixelNumber d.m r c) else 0

/-- Mode `k` of a mirror on the pixels of the pupil of the ground mirror, without piston. -/
noncomputable def pistonless (p : ℕ) (ground d : PsDm) (k : ℕ) (x : ℕ × ℕ) : ℝ :=
  seenShape p d k x - (∑ y ∈ psPupil ground.m p, seenShape p d k y) / (psPupil ground.m p).card

/-- Focus and astigmatisms of the ground mirror on the pupil, without piston. -/
noncomputable def groundModes (p : ℕ) (ground : PsDm) (x : ℕ × ℕ) (k : Fin 3) : ℝ := pistonless p ground ground (2 + k) x

/-- The three modes of the ground mirror, without piston, are independent on the pupil. -/
def IndepOn (pup : Finset (ℕ × ℕ)) (A : ℕ × ℕ → Fin 3 → ℝ) : Prop := ∀ c : Fin 3 → ℝ, (∀ x ∈ pup, ∑ k, c k * A x k = 0) → ∀ k, c k = 0

theorem seenShape_eq (p : ℕ) (d : PsDm) (k : ℕ) (x : ℕ × ℕ) : seenShape p d k x = psCut d.m p (d.m.support (d.mode k)) x.1 x.2 := by
  unfold seenShape psCut MaskPx.support
  dsimp only
  split_ifs with h
  · unfold PsDm.mode modeCommands
    change _ = d.m2c.elim (d.ifunc k (pixelNumber d.m _ _)) fun M => ∑ a ∈ range d.acts, M a k * d.ifunc a (pixelNumber d.m _ _)
    cases hm : d.m2c with
    | none =>
      simp only [Option.elim_none, or_true, if_true, ite_mul, one_mul, zero_mul]
      rw [sum_ite_eq' (range (max d.acts (k + 1))) k, if_pos (mem_range.2 (by omega))]
    | some M =>
      simp only [Option.elim_some, reduceCtorEq, or_false]
      rw [← sum_subset (s₁ := range d.acts) (range_subset_range.2 (by omega))]
      · exact sum_congr rfl fun a ha => by rw [if_pos (mem_range.1 ha)]
      · intro a _ ha
        rw [if_neg (fun h => ha (mem_range.2 h)), zero_mul]
  · rfl

theorem pistonless_eq (p : ℕ) (ground d : PsDm) (k : ℕ) (x : ℕ × ℕ) : pistonless p ground d k x = psColumn (psPupil ground.m p) p d k x := by
  unfold pistonless psColumn
  simp only [seenShape_eq]

theorem groundModes_eq (p : ℕ) (ground : PsDm) : groundModes p ground = fun x (k : Fin 3) => psColumn (psPupil ground.m p) p ground (2 + k) x := by
  funext x k
  exact pistonless_eq _ _ _ _ _

/-! ### Pseudo inverse -/

theorem psPinv_left (pup : Finset (ℕ × ℕ)) (A : ℕ × ℕ → Fin 3 → ℝ) (P : Fin 3 → ℕ × ℕ → ℝ) (h : IsPinvOn pup A P) (hi : IndepOn pup A) (l k : Fin 3) :
    ∑ y ∈ pup, P l y * A y k = if l = k then 1 else 0 := by
  have h1 := hi (fun l => (∑ y ∈ pup, P l y * A y k) - if l = k then 1 else 0) (fun x hx => by
    have := h.1 x hx k
    simp only [sub_mul, sum_sub_distrib]
    rw [sum_congr rfl fun l _ => mul_comm (∑ y ∈ pup, P l y * A y k) (A x l), this]
    simp) l
  linarith

/-- The normal equations. -/
theorem psPinv_normal (pup : Finset (ℕ × ℕ)) (A : ℕ × ℕ → Fin 3 → ℝ) (P : Fin 3 → ℕ × ℕ → ℝ) (h : IsPinvOn pup A P) (B : ℕ × ℕ → ℝ) (k : Fin 3) :
    ∑ x ∈ pup, A x k * (∑ l, A x l * ∑ y ∈ pup, P l y * B y) = ∑ y ∈ pup, A y k * B y := by
  have h1 : ∀ x ∈ pup, A x k * (∑ l, A x l * ∑ y ∈ pup, P l y * B y) = ∑ y ∈ pup, A x k * (∑ l, A y l * P l x) * B y := by
    intro x hx
    have h2 : ∑ l, A x l * ∑ y ∈ pup, P l y * B y = ∑ y ∈ pup, (∑ l, A x l * P l y) * B y := by
      simp only [mul_sum, sum_mul]
      rw [sum_comm]
      exact sum_congr rfl fun y _ => sum_congr rfl fun l _ => by ring
    rw [h2, mul_sum]
    exact sum_congr rfl fun y hy => by rw [h.2 x hx y hy]; ring
  rw [sum_congr rfl h1, sum_comm]
  apply sum_congr rfl
  intro y hy
  rw [← h.1 y hy k]
  simp only [mul_sum, sum_mul]
  rw [sum_comm]
  exact sum_congr rfl fun l _ => sum_congr rfl fun x _ => by ring

/-! ### C108 -/

/-- A mode that through the pupil is `s` times the mode of the ground mirror, up to piston, has the coefficient `s`. -/
theorem C108_scale (pinv : Finset (ℕ × ℕ) → (ℕ × ℕ → Fin 3 → ℝ) → Fin 3 → ℕ × ℕ → ℝ) (p : ℕ) (ground d : PsDm)
    (hp : IsPinvOn (psPupil ground.m p) (groundModes p ground) (pinv (psPupil ground.m p) (groundModes p ground))) (start : ℤ)
    (hs : start ≤ 2) (c : Fin 3 → ℝ) (h : psOne pinv p ground d start = some c)
    (hi : IndepOn (psPupil ground.m p) (groundModes p ground))
    (k : Fin 3) (s t : ℝ) (hst : ∀ x ∈ psPupil ground.m p, seenShape p d (psFirst start + k) x = s * seenShape p ground (2 + k) x + t) :
    c k = s := by
  rw [groundModes_eq] at hp hi
  simp only [seenShape_eq] at hst
  unfold psOne at h
  rw [if_pos hs] at h
  split_ifs at h with hf
  obtain rfl := Option.some.inj h
  dsimp only
  set pup := psPupil ground.m p with hpup
  set A : ℕ × ℕ → Fin 3 → ℝ := fun x k => psColumn pup p ground (2 + k) x with hA
  have hB : ∀ x ∈ pup, psColumn pup p d (psFirst start + k) x = s * A x k := by
    intro x hx
    have hcard : (pup.card : ℝ) ≠ 0 := by
      have : 0 < pup.card := card_pos.2 ⟨x, hx⟩
      positivity
    have e1 : ∑ y ∈ pup, psCut d.m p (d.m.support (d.mode (psFirst start + k))) y.1 y.2 =
        s * (∑ y ∈ pup, psCut ground.m p (ground.m.support (ground.mode (2 + k))) y.1 y.2) + pup.card * t := by
      rw [mul_sum, ← nsmul_eq_mul, ← sum_const, ← sum_add_distrib]
      exact sum_congr rfl fun y hy => hst y hy
    have e2 := hst x hx
    simp only [hA]
    unfold psColumn
    rw [e1, e2]
    field_simp
    ring
  rw [sum_congr rfl fun x hx => by rw [hB x hx]]
  have h1 := psPinv_left pup A (pinv pup A) hp hi k k
  rw [if_pos rfl] at h1
  calc ∑ x ∈ pup, pinv pup A k x * (s * A x k) = s * ∑ x ∈ pup, pinv pup A k x * A x k := by
        rw [mul_sum]; exact sum_congr rfl fun x _ => by ring
    _ = s := by rw [h1, mul_one]

/-- In general the coefficient is the part of the ground mirror's mode in the best fit of the mode with the three modes of the ground mirror. -/
theorem C108_best_fit (pinv : Finset (ℕ × ℕ) → (ℕ × ℕ → Fin 3 → ℝ) → Fin 3 → ℕ × ℕ → ℝ) (p : ℕ) (ground d : PsDm)
    (hp : IsPinvOn (psPupil ground.m p) (groundModes p ground) (pinv (psPupil ground.m p) (groundModes p ground))) (start : ℤ)
    (hs : start ≤ 2) (c : Fin 3 → ℝ) (h : psOne pinv p ground d start = some c) (k : Fin 3) :
    ∃ q : Fin 3 → ℝ, q k = c k ∧ ∀ q' : Fin 3 → ℝ,
      ∑ x ∈ psPupil ground.m p, (pistonless p ground d (psFirst start + k) x - ∑ l, groundModes p ground x l * q l) ^ 2 ≤
      ∑ x ∈ psPupil ground.m p, (pistonless p ground d (psFirst start + k) x - ∑ l, groundModes p ground x l * q' l) ^ 2 := by
  simp only [pistonless_eq]
  rw [groundModes_eq] at hp ⊢
  unfold psOne at h
  rw [if_pos hs] at h
  split_ifs at h with hf
  obtain rfl := Option.some.inj h
  set pup := psPupil ground.m p with hpup
  set A : ℕ × ℕ → Fin 3 → ℝ := fun x k => psColumn pup p ground (2 + k) x with hA
  set B : ℕ × ℕ → ℝ := fun x => psColumn pup p d (psFirst start + k) x with hB
  set q : Fin 3 → ℝ := fun l => ∑ y ∈ pup, pinv pup A l y * B y with hq
  refine ⟨q, rfl, fun q' => ?_⟩
  have hn : ∀ l, ∑ x ∈ pup, A x l * (B x - ∑ l', A x l' * q l') = 0 := by
    intro l
    have := psPinv_normal pup A (pinv pup A) hp B l
    simp only [mul_sub, sum_sub_distrib]
    rw [← this]
    simp [hq]
  have hcross : ∑ x ∈ pup, (B x - ∑ l, A x l * q l) * (∑ l, A x l * (q l - q' l)) = 0 := by
    simp only [mul_sum]
    rw [sum_comm]
    apply sum_eq_zero
    intro l _
    have : ∑ x ∈ pup, (B x - ∑ l', A x l' * q l') * (A x l * (q l - q' l)) = (q l - q' l) * ∑ x ∈ pup, A x l * (B x - ∑ l', A x l' * q l') := by
      rw [mul_sum]; exact sum_congr rfl fun x _ => by ring
    simp only [mul_sum] at this ⊢
    rw [this]
    have h0 := hn l
    rw [← mul_sum, h0, mul_zero]
  have hsq : ∑ x ∈ pup, (B x - ∑ l, A x l * q' l) ^ 2 = ∑ x ∈ pup, (B x - ∑ l, A x l * q l) ^ 2 + ∑ x ∈ pup, (∑ l, A x l * (q l - q' l)) ^ 2 := by
    have : ∀ x ∈ pup, (B x - ∑ l, A x l * q' l) ^ 2 = (B x - ∑ l, A x l * q l) ^ 2 + (∑ l, A x l * (q l - q' l)) ^ 2 +
        2 * ((B x - ∑ l, A x l * q l) * ∑ l, A x l * (q l - q' l)) := by
      intro x _
      have : ∑ l, A x l * (q l - q' l) = ∑ l, A x l * q l - ∑ l, A x l * q' l := by
        rw [← sum_sub_distrib]; exact sum_congr rfl fun l _ => by ring
      rw [this]; ring
    rw [sum_congr rfl this, sum_add_distrib, sum_add_distrib, ← mul_sum, hcross]
    ring
  show ∑ x ∈ pup, (B x - ∑ l, A x l * q l) ^ 2 ≤ ∑ x ∈ pup, (B x - ∑ l, A x l * q' l) ^ 2
  rw [hsq]
  have : 0 ≤ ∑ x ∈ pup, (∑ l, A x l * (q l - q' l)) ^ 2 := sum_nonneg fun _ _ => sq_nonneg _
  linarith

/-- The pupil has the pixels of the first mirror's mask in the square of `p` pixels at the centre of the array. -/
theorem C108_pupil (m : MaskPx) (p : ℕ) (hp : p % 2 = 0) (x : ℕ × ℕ) :
    x ∈ psPupil m p ↔ x.1 < p ∧ x.2 < p ∧ m.on (m.h / 2 - p / 2 + x.1) (m.w / 2 - p / 2 + x.2) = true := by
  have : 2 * (p / 2) = p := by omega
  unfold psPupil
  rw [this, mem_filter, mem_product, mem_range, mem_range, and_assoc]

/-- Mirrors without focus and astigmatisms get zeros. -/
theorem C108_skipped (pinv : Finset (ℕ × ℕ) → (ℕ × ℕ → Fin 3 → ℝ) → Fin 3 → ℕ × ℕ → ℝ) (p : ℕ) (ground d : PsDm) (start : ℤ) (hs : 2 < start) :
    psOne pinv p ground d start = some fun _ => 0 := by
  unfold psOne
  rw [if_neg (not_le.2 hs)]

/-- The first mode used has number 2 (focus) counted with the modes skipped, except for a mirror that starts at mode 1. -/
theorem C108_first (start : ℤ) (h0 : 0 ≤ start) (h2 : start ≤ 2) : start + psFirst start = 2 ↔ start ≠ 1 := by
  unfold psFirst
  split_ifs <;> omega

theorem mapM_forall₂ {α β : Type} {f : α → Option β} {l : List α} {r : List β} (h : l.mapM f = some r) :
    r.length = l.length ∧ ∀ i (hi : i < l.length), f l[i] = r[i]? := by
  induction l generalizing r with
  | nil => simp only [List.mapM_nil, Option.pure_def, Option.some.injEq] at h; subst h; simp
  | cons a l ih =>
    rw [List.mapM_cons] at h
    simp only [Option.pure_def, Option.bind_eq_bind, Option.bind_eq_some_iff, Option.some.injEq] at h
    obtain ⟨b, hb, bs, hbs, rfl⟩ := h
    obtain ⟨h1, h2⟩ := ih hbs
    refine ⟨by simp [h1], fun i hi => ?_⟩
    cases i with
    | zero => simpa using hb
    | succ i => simpa using h2 i (by simpa using hi)

/-- A pupil with an odd number of pixels is refused as soon as a mirror has the modes. -/
theorem C108_odd (pinv : Finset (ℕ × ℕ) → (ℕ × ℕ → Fin 3 → ℝ) → Fin 3 → ℕ × ℕ → ℝ) (p : ℕ) (ground : PsDm) (dms : List (PsDm × ℤ))
    (hodd : p % 2 = 1) (h : ∃ x ∈ dms, x.2 ≤ 2) : plateScale pinv p ground dms = none := by
  unfold plateScale
  obtain ⟨x, hx, hx2⟩ := h
  have hnone : psOne pinv p ground x.1 x.2 = none := by
    unfold psOne
    rw [if_pos hx2, if_neg (by omega)]
  cases hm : dms.mapM fun x => psOne pinv p ground x.1 x.2 with
  | none => rfl
  | some l =>
    exfalso
    obtain ⟨i, hi, rfl⟩ := List.getElem_of_mem hx
    have hl := mapM_forall₂ hm
    have h2 := hl.2 i hi
    rw [hnone, List.getElem?_eq_getElem (by rw [hl.1]; exact hi)] at h2
    exact absurd h2 (by simp)

/-- One row for each mirror after the first. -/
theorem C108_rows (pinv : Finset (ℕ × ℕ) → (ℕ × ℕ → Fin 3 → ℝ) → Fin 3 → ℕ × ℕ → ℝ) (p : ℕ) (ground : PsDm) (dms : List (PsDm × ℤ)) (l : List (Fin 3 → ℝ))
    (h : plateScale pinv p ground dms = some l) : l.length = dms.length ∧ ∀ i (hi : i < dms.length), psOne pinv p ground dms[i].1 dms[i].2 = l[i]? := by
  exact mapM_forall₂ h

/-! ### With the combination of the commands -/

theorem linPlate_form (nf nl : Bool) (c0 c1 c2 l0 l1 l2 l3 l4 x0 x1 x2 n0 n1 p0 p1 p2 : ℝ) (mid tail : List ℝ) :
    linPlate { noFocus := nf, noLift := nl, psIdx := some (5 + mid.length), psCoeff := [c0, c1, c2] } (l0 :: l1 :: l2 :: l3 :: l4 :: (mid ++ x0 :: x1 :: x2 :: tail))
      [n0, n1, p0, p1, p2] = some (l0 :: l1 :: (l2 - p0 * c0) :: (l3 - p1 * c1) :: (l4 - p2 * c2) :: (mid ++ p0 :: p1 :: p2 :: tail)) := by
  have hk : 5 + mid.length = mid.length + 5 := by omega
  have hk3 : 5 + mid.length + 3 = (mid.length + 3) + 5 := by omega
  have h1 : ∀ a b c d e : ℝ, pySubSet (a :: b :: c :: d :: e :: (mid ++ x0 :: x1 :: x2 :: tail)) (5 + mid.length) (5 + mid.length + 3) [p0, p1, p2] =
      some (a :: b :: c :: d :: e :: (mid ++ p0 :: p1 :: p2 :: tail)) := by
    intro a b c d e
    have hlen : (pySub (a :: b :: c :: d :: e :: (mid ++ x0 :: x1 :: x2 :: tail)) (5 + mid.length) (5 + mid.length + 3)) = [x0, x1, x2] := by
      unfold pySub
      rw [hk3, hk]
      simp [List.take_append]
    unfold pySubSet
    rw [hlen]
    have hm : max (min (5 + mid.length) (a :: b :: c :: d :: e :: (mid ++ x0 :: x1 :: x2 :: tail)).length) (5 + mid.length + 3) = (mid.length + 3) + 5 := by
      simp only [List.length_cons, List.length_append]; omega
    rw [hm, hk]
    simp [fillAll, List.drop_append]
  simp only [linPlate]
  rw [show ([n0, n1, p0, p1, p2] : List ℝ).drop 2 = [p0, p1, p2] from rfl]
  have h2 : pySub (l0 :: l1 :: l2 :: l3 :: l4 :: (mid ++ x0 :: x1 :: x2 :: tail)) 2 5 = [l2, l3, l4] := by simp [pySub]
  rw [h2]
  have h3 : ∀ a b c : ℝ, pySubSet (l0 :: l1 :: l2 :: l3 :: l4 :: (mid ++ x0 :: x1 :: x2 :: tail)) 2 5 [a, b, c] =
      some (l0 :: l1 :: a :: b :: c :: (mid ++ x0 :: x1 :: x2 :: tail)) := by
    intro a b c
    unfold pySubSet
    rw [h2]
    have hm : max (min 2 (l0 :: l1 :: l2 :: l3 :: l4 :: (mid ++ x0 :: x1 :: x2 :: tail)).length) 5 = 5 := by
      simp only [List.length_cons, List.length_append]; omega
    rw [hm]
    simp [fillAll]
  simp [bcastOp, fillAll, h3, h1]

/-- The phase on axis of the ground mirror and of an upper mirror, given the focus and the astigmatisms commanded to each. -/
noncomputable def axisPhase (p : ℕ) (ground d : PsDm) (first : ℕ) (g u : Fin 3 → ℝ) (x : ℕ × ℕ) : ℝ :=
  (∑ k : Fin 3, g k * seenShape p ground (2 + k) x) + ∑ k : Fin 3, u k * seenShape p d (first + k) x

/-- The commands of the ground mirror (elements 2 to 4) and of the upper mirror (elements `n` to `n + 2`) of a vector. -/
noncomputable def commandsAt (v : List ℝ) (n : ℕ) (k : Fin 3) : ℝ := v.getD (n + k) 0

/-- With the coefficients computed for the mirrors, the plate scale measured by the natural stars is put on the upper mirror with no
effect on axis: whatever plate scale is measured, the phase on the pupil is the same up to piston. -/
theorem C108_neutral_on_axis (pinv : Finset (ℕ × ℕ) → (ℕ × ℕ → Fin 3 → ℝ) → Fin 3 → ℕ × ℕ → ℝ) (p : ℕ) (ground d : PsDm)
    (hp : IsPinvOn (psPupil ground.m p) (groundModes p ground) (pinv (psPupil ground.m p) (groundModes p ground))) (start : ℤ)
    (hs : start ≤ 2) (c : Fin 3 → ℝ) (h : psOne pinv p ground d start = some c)
    (hi : IndepOn (psPupil ground.m p) (groundModes p ground))
    (s t : Fin 3 → ℝ) (hst : ∀ k : Fin 3, ∀ x ∈ psPupil ground.m p, seenShape p d (psFirst start + k) x = s k * seenShape p ground (2 + k) x + t k)
    (nf nl : Bool) (l0 l1 l2 l3 l4 x0 x1 x2 n0 n1 p0 p1 p2 : ℝ) (mid tail v : List ℝ)
    (hv : linPlate { noFocus := nf, noLift := nl, psIdx := some (5 + mid.length), psCoeff := [c 0, c 1, c 2] }
      (l0 :: l1 :: l2 :: l3 :: l4 :: (mid ++ x0 :: x1 :: x2 :: tail)) [n0, n1, p0, p1, p2] = some v) :
    ∃ piston, ∀ x ∈ psPupil ground.m p,
      axisPhase p ground d (psFirst start) (commandsAt v 2) (commandsAt v (5 + mid.length)) x =
      l2 * seenShape p ground 2 x + l3 * seenShape p ground 3 x + l4 * seenShape p ground 4 x + piston := by
  rw [linPlate_form] at hv
  obtain rfl := Option.some.inj hv
  have hc : ∀ k, c k = s k := fun k => C108_scale pinv p ground d hp start hs c h hi k (s k) (t k) (hst k)
  refine ⟨p0 * t 0 + p1 * t 1 + p2 * t 2, fun x hx => ?_⟩
  have g0 : ∀ a b e f g : ℝ, ∀ j, j < 3 → (a :: b :: e :: f :: g :: (mid ++ p0 :: p1 :: p2 :: tail)).getD (5 + mid.length + j) 0 = [p0, p1, p2].getD j 0 := by
    intro a b e f g j hj
    rw [show 5 + mid.length + j = (mid.length + j) + 5 from by omega]
    simp only [List.getD_cons_succ]
    rw [List.getD_eq_getElem?_getD, List.getElem?_append_right (by omega), show mid.length + j - mid.length = j from by omega]
    interval_cases j <;> rfl
  unfold axisPhase commandsAt
  simp only [Fin.sum_univ_three, g0 _ _ _ _ _ _ (Fin.isLt _), hst _ x hx, hc]
  simp
  ring

/-! ### Examples -/

/-- Two by two pixels; mode `k` is `a` on pixel `k - o` and `b` on all pixels more. -/
def quadDm (o : ℕ) (a b : ℝ) : PsDm where
  m := ⟨2, 2, fun _ _ => true⟩
  acts := 5
  ifunc k px := (if px + o = k then a else 0) + b
  m2c := none

def quadPinv (l : Fin 3) (y : ℕ × ℕ) : ℝ := (if y.1 * 2 + y.2 = l then 1 else 0) - if y = (1, 1) then 1 else 0

theorem quad_pupil : psPupil (quadDm 2 1 0).m 2 = {(0, 0), (0, 1), (1, 0), (1, 1)} := by decide

theorem quad_seen (o : ℕ) (a b : ℝ) (k : ℕ) (x : ℕ × ℕ) (hx : x.1 < 2 ∧ x.2 < 2) :
    seenShape 2 (quadDm o a b) k x = (if x.1 * 2 + x.2 + o = k then a else 0) + b := by
  rw [seenShape_eq]
  unfold psCut MaskPx.support quadDm PsDm.mode MaskPx.before
  simp [hx.1, hx.2]

theorem quad_sum (f : ℕ × ℕ → ℝ) : ∑ y ∈ ({(0, 0), (0, 1), (1, 0), (1, 1)} : Finset (ℕ × ℕ)), f y = f (0, 0) + (f (0, 1) + (f (1, 0) + f (1, 1))) := by
  rw [sum_insert (by decide), sum_insert (by decide), sum_insert (by decide), sum_singleton]

theorem quad_modes (x : ℕ × ℕ) (hx : x.1 < 2 ∧ x.2 < 2) (k : Fin 3) :
    groundModes 2 (quadDm 2 1 0) x k = (if x.1 * 2 + x.2 = k then 1 else 0) - 1 / 4 := by
  unfold groundModes pistonless
  rw [quad_pupil]
  have : ∀ y ∈ ({(0, 0), (0, 1), (1, 0), (1, 1)} : Finset (ℕ × ℕ)), y.1 < 2 ∧ y.2 < 2 := by decide
  rw [sum_congr rfl fun y hy => quad_seen 2 1 0 (2 + k) y (this y hy), quad_seen 2 1 0 (2 + k) x hx, quad_sum]
  obtain ⟨i, j⟩ := x
  obtain ⟨hi, hj⟩ := hx
  dsimp only at hi hj
  interval_cases i <;> interval_cases j <;> fin_cases k <;> norm_num

theorem quad_isPinv : IsPinvOn (psPupil (quadDm 2 1 0).m 2) (groundModes 2 (quadDm 2 1 0)) quadPinv := by
  rw [quad_pupil]
  have hin : ∀ y ∈ ({(0, 0), (0, 1), (1, 0), (1, 1)} : Finset (ℕ × ℕ)), y.1 < 2 ∧ y.2 < 2 := by decide
  refine ⟨fun x hx k => ?_, fun x hx y hy => ?_⟩
  · have h1 : ∀ l : Fin 3, ∑ y ∈ ({(0, 0), (0, 1), (1, 0), (1, 1)} : Finset (ℕ × ℕ)), quadPinv l y * groundModes 2 (quadDm 2 1 0) y k = if l = k then 1 else 0 := by
      intro l
      rw [sum_congr rfl fun y hy => by rw [quad_modes y (hin y hy) k]]
      rw [quad_sum]
      fin_cases l <;> fin_cases k <;> simp [quadPinv]
    simp [h1]
  · simp only [quad_modes x (hin x hx), quad_modes y (hin y hy)]
    simp only [mem_insert, mem_singleton] at hx hy
    rcases hx with rfl | rfl | rfl | rfl <;> rcases hy with rfl | rfl | rfl | rfl <;> simp [Fin.sum_univ_three, quadPinv] <;> norm_num

theorem quad_indep : IndepOn (psPupil (quadDm 2 1 0).m 2) (groundModes 2 (quadDm 2 1 0)) := by
  rw [quad_pupil]
  intro c hc
  have e0 := hc (0, 0) (by decide)
  have e1 := hc (0, 1) (by decide)
  have e2 := hc (1, 0) (by decide)
  have e3 := hc (1, 1) (by decide)
  simp only [quad_modes (0, 0) (by decide), quad_modes (0, 1) (by decide), quad_modes (1, 0) (by decide), quad_modes (1, 1) (by decide),
    Fin.sum_univ_three] at e0 e1 e2 e3
  norm_num at e0 e1 e2 e3
  intro k
  fin_cases k <;> simp <;> linarith

/-- The upper mirror has modes three times those of the ground mirror, and piston: the coefficients are 3. -/
example (c : Fin 3 → ℝ) (h : psOne (fun _ _ => quadPinv) 2 (quadDm 2 1 0) (quadDm 0 3 7) 2 = some c) (k : Fin 3) : c k = 3 := by
  refine C108_scale _ 2 _ _ quad_isPinv 2 (by norm_num) c h quad_indep k 3 7 fun x hx => ?_
  rw [quad_pupil] at hx
  have hin : ∀ y ∈ ({(0, 0), (0, 1), (1, 0), (1, 1)} : Finset (ℕ × ℕ)), y.1 < 2 ∧ y.2 < 2 := by decide
  rw [quad_seen _ _ _ _ _ (hin x hx), quad_seen _ _ _ _ _ (hin x hx)]
  have hf : psFirst 2 = 0 := rfl
  rw [hf]
  have : x.1 * 2 + x.2 + 0 = 0 + (k : ℕ) ↔ x.1 * 2 + x.2 + 2 = 2 + (k : ℕ) := by omega
  simp only [this]
  split_ifs <;> ring

/-- The same for a mirror with tip and tilt, which starts at mode 0. -/
example (c : Fin 3 → ℝ) (h : psOne (fun _ _ => quadPinv) 2 (quadDm 2 1 0) (quadDm 2 3 7) 0 = some c) (k : Fin 3) : c k = 3 := by
  refine C108_scale _ 2 _ _ quad_isPinv 0 (by norm_num) c h quad_indep k 3 7 fun x hx => ?_
  rw [quad_pupil] at hx
  have hin : ∀ y ∈ ({(0, 0), (0, 1), (1, 0), (1, 1)} : Finset (ℕ × ℕ)), y.1 < 2 ∧ y.2 < 2 := by decide
  rw [quad_seen _ _ _ _ _ (hin x hx), quad_seen _ _ _ _ _ (hin x hx)]
  have hf : psFirst 0 = 2 := rfl
  rw [hf]
  split_ifs <;> ring

/-- The coefficients exist in both cases. -/
example (o : ℕ) (a b : ℝ) (s : ℤ) : ∃ c, psOne (fun _ _ => quadPinv) 2 (quadDm 2 1 0) (quadDm o a b) s = some c := by
  unfold psOne
  by_cases hs : s ≤ 2
  · rw [if_pos hs, if_pos ⟨rfl, by decide, by show psFits (quadDm 2 1 0).m 2; decide⟩]
    exact ⟨_, rfl⟩
  · rw [if_neg hs]
    exact ⟨_, rfl⟩

/-- A mirror that starts at mode 1 (tilt): its first three modes are compared with focus and astigmatisms, so that the coefficients are
not the scale of its focus and astigmatisms. -/
theorem C108_start_one : ∃ (pinv : Finset (ℕ × ℕ) → (ℕ × ℕ → Fin 3 → ℝ) → Fin 3 → ℕ × ℕ → ℝ) (ground d : PsDm) (c : Fin 3 → ℝ),
    IsPinvOn (psPupil ground.m 2) (groundModes 2 ground) (pinv (psPupil ground.m 2) (groundModes 2 ground)) ∧
    psOne pinv 2 ground d 1 = some c ∧
    (∀ k : Fin 3, ∀ x ∈ psPupil ground.m 2, seenShape 2 d (1 + k) x = 3 * seenShape 2 ground (2 + k) x) ∧ c 0 ≠ 3 := by
  refine ⟨fun _ _ => quadPinv, quadDm 2 1 0, quadDm 1 3 0, fun k => ∑ x ∈ psPupil (quadDm 2 1 0).m 2, quadPinv k x * psColumn (psPupil (quadDm 2 1 0).m 2) 2 (quadDm 1 3 0) (psFirst 1 + k) x, quad_isPinv, ?_, ?_, ?_⟩
  · unfold psOne
    rw [if_pos (by norm_num), if_pos ⟨rfl, by decide, by show psFits (quadDm 2 1 0).m 2; decide⟩]
  · intro k x hx
    rw [quad_pupil] at hx
    have hin : ∀ y ∈ ({(0, 0), (0, 1), (1, 0), (1, 1)} : Finset (ℕ × ℕ)), y.1 < 2 ∧ y.2 < 2 := by decide
    rw [quad_seen _ _ _ _ _ (hin x hx), quad_seen _ _ _ _ _ (hin x hx)]
    have : x.1 * 2 + x.2 + 1 = 1 + (k : ℕ) ↔ x.1 * 2 + x.2 + 2 = 2 + (k : ℕ) := by omega
    simp only [this]
    split_ifs <;> ring
  · have hin : ∀ y ∈ ({(0, 0), (0, 1), (1, 0), (1, 1)} : Finset (ℕ × ℕ)), y.1 < 2 ∧ y.2 < 2 := by decide
    have hz : ∀ x ∈ ({(0, 0), (0, 1), (1, 0), (1, 1)} : Finset (ℕ × ℕ)), psColumn {(0, 0), (0, 1), (1, 0), (1, 1)} 2 (quadDm 1 3 0) 0 x = 0 := by
      intro x hx
      have hs : ∀ y ∈ ({(0, 0), (0, 1), (1, 0), (1, 1)} : Finset (ℕ × ℕ)), seenShape 2 (quadDm 1 3 0) 0 y = 0 := by
        intro y hy
        rw [quad_seen _ _ _ _ _ (hin y hy)]
        simp
      unfold psColumn
      simp only [← seenShape_eq]
      rw [hs x hx, sum_eq_zero hs]
      simp
    show ∑ x ∈ psPupil (quadDm 2 1 0).m 2, quadPinv 0 x * psColumn (psPupil (quadDm 2 1 0).m 2) 2 (quadDm 1 3 0) 0 x ≠ 3
    rw [quad_pupil, sum_eq_zero fun x hx => by rw [hz x hx, mul_zero]]
    norm_num

/-- A vector of ten commands of which the last three are those of the upper mirror. -/
example : linPlate { noFocus := true, noLift := true, psIdx := some 7, psCoeff := [(3 : ℝ), 3, 3] } [1, 2, 3, 4, 5, 6, 7, 8, 9, 10] [0, 0, 1, 2, 3] =
    some [1, 2, (0 : ℝ), -2, -4, 6, 7, 1, 2, 3] := by
  have := linPlate_form true true 3 3 3 1 2 3 4 5 8 9 10 0 0 1 2 3 [6, 7] []
  norm_num at this ⊢
  exact this

example (pinv : Finset (ℕ × ℕ) → (ℕ × ℕ → Fin 3 → ℝ) → Fin 3 → ℕ × ℕ → ℝ) : plateScale pinv 3 (quadDm 2 1 0) [(quadDm 0 3 7, 2)] = none :=
  C108_odd pinv 3 _ _ rfl ⟨_, List.mem_singleton.2 rfl, by norm_num⟩

end Specula
