import Verif.Model.PixSlopes
import Verif.Props.Masks
import Verif.Props.SlopeVec
import Verif.Props.ShSlopes
import Verif.Props.PyrSlopes
/-
C81: slope computers with one signal per pixel, double roof, maps of slopes.
-/
namespace Specula

section
variable {K : Type} [Field K] [LinearOrder K] [IsStrictOrderedRing K]

omit [LinearOrder K] [IsStrictOrderedRing K] in
theorem gatherPix_eq (frame : List K) (idx : List Nat) (h : ∀ p ∈ idx, p < frame.length) :
    gatherPix frame idx = some (idx.map fun p => frame.getD p 0) :=
  mapM_all_some _ _ _ fun p hp => by rw [List.getD_eq_getElem?_getD, List.getElem?_eq_getElem (h p hp)]; rfl

/-- Curvature signal of a pixel with values `a` and `b` (specification). -/
def curvature (a b : K) : K := if 1 / 10 ^ 9 ≤ a + b then (a - b) / (a + b) else a - b

/-- Counts reported for a pixel (specification). -/
def reported (a b : K) : K := if 1 / 10 ^ 9 ≤ a + b then a + b else 1

omit [IsStrictOrderedRing K] in
/-- **C81** (curvature): slope `k` is the normalised difference of the two images at pixel `k` of the pupil, not normalised when the sum is
below the limit; the flux of such a pixel is reported as one. -/
theorem C81_curvature (idx : List Nat) (p1 p2 : List K) (h1 : ∀ p ∈ idx, p < p1.length) (h2 : ∀ p ∈ idx, p < p2.length) (hne : idx ≠ []) :
    ∃ o, curTrigger idx p1 p2 = some o ∧
      o.slopes = idx.map (fun p => some (curvature (p1.getD p 0) (p2.getD p 0))) ∧
      o.flux = idx.map (fun p => reported (p1.getD p 0) (p2.getD p 0)) ∧
      o.total = (idx.map fun p => reported (p1.getD p 0) (p2.getD p 0)).sum ∧ o.mean = some (o.total / idx.length) := by
  have hs : ∀ a b : K, curSum a b = reported a b := fun a b => by
    unfold curSum reported
    by_cases h : a + b < 1 / 10 ^ 9
    · rw [if_pos h, if_neg (not_le.2 h)]
    · rw [if_neg h, if_pos (not_lt.1 h)]
  have hd : ∀ a b : K, (a - b) / curSum a b = curvature a b := fun a b => by
    unfold curSum curvature
    by_cases h : a + b < 1 / 10 ^ 9
    · rw [if_pos h, if_neg (not_le.2 h), div_one]
    · rw [if_neg h, if_pos (not_lt.1 h)]
  have hl : idx.length ≠ 0 := fun h => hne (List.length_eq_zero_iff.1 h)
  unfold curTrigger
  rw [gatherPix_eq p1 idx h1, gatherPix_eq p2 idx h2]
  simp only [Option.bind_some, Option.map_some]
  refine ⟨_, rfl, ?_, ?_, ?_, ?_⟩
  · simp only [List.zipWith_map_left, List.zipWith_map_right, List.zipWith_self, hd]
  · simp only [List.zipWith_map_left, List.zipWith_map_right, List.zipWith_self, hs]
  · simp only [List.zipWith_map_left, List.zipWith_map_right, List.zipWith_self, hs]
  · simp only [if_neg hl]

/-- **C81** (bounds): with two images without negative values the signal is between -1 and 1. -/
theorem C81_curvature_bound (a b : K) (ha : 0 ≤ a) (hb : 0 ≤ b) : |curvature a b| ≤ 1 := by
  unfold curvature
  have h1 : a - b ≤ a + b := by linarith
  have h2 : -(a + b) ≤ a - b := by linarith
  split
  · next h =>
    have hp : 0 < a + b := lt_of_lt_of_le (by positivity) h
    rw [abs_le]
    constructor
    · rw [le_div_iff₀ hp]; linarith
    · rw [div_le_iff₀ hp]; linarith
  · next h =>
    have hlt := not_le.1 h
    have : (1 : K) / 10 ^ 9 ≤ 1 := by norm_num
    rw [abs_le]; constructor <;> linarith

omit [IsStrictOrderedRing K] in
/-- **C81** (exchange): exchanging the two images changes the sign of all slopes and keeps the counts. -/
theorem C81_curvature_exchange (idx : List Nat) (p1 p2 : List K) (h1 : ∀ p ∈ idx, p < p1.length) (h2 : ∀ p ∈ idx, p < p2.length)
    (hne : idx ≠ []) :
    ∃ o o', curTrigger idx p1 p2 = some o ∧ curTrigger idx p2 p1 = some o' ∧
      o'.slopes = o.slopes.map (Option.map fun x => -x) ∧ o'.flux = o.flux ∧ o'.total = o.total := by
  obtain ⟨o, e, a1, a2, a3, _⟩ := C81_curvature idx p1 p2 h1 h2 hne
  obtain ⟨o', e', b1, b2, b3, _⟩ := C81_curvature idx p2 p1 h2 h1 hne
  have hc : ∀ a b : K, curvature b a = -curvature a b := fun a b => by
    unfold curvature
    rw [add_comm b a]
    split
    · rw [← neg_div, neg_sub]
    · rw [neg_sub]
  have hr : ∀ a b : K, reported b a = reported a b := fun a b => by unfold reported; rw [add_comm b a]
  refine ⟨o, o', e, e', ?_, ?_, ?_⟩
  · rw [a1, b1, List.map_map]; exact List.map_congr_left fun p _ => by rw [hc]; rfl
  · rw [a2, b2]; exact List.map_congr_left fun p _ => hr _ _
  · rw [a3, b3]; congr 1; exact List.map_congr_left fun p _ => hr _ _

/-- **C81** (brightness): multiplying both images by `c ≥ 1` keeps the signal of every pixel above the limit; of a pixel whose sum is
below the limit after the multiplication too, and not otherwise normalised, the signal is multiplied by `c`. -/
theorem C81_curvature_brightness (a b c : K) (hc : 1 ≤ c) :
    (1 / 10 ^ 9 ≤ a + b → curvature (c * a) (c * b) = curvature a b) ∧
    (c * a + c * b < 1 / 10 ^ 9 → a + b < 1 / 10 ^ 9 → curvature (c * a) (c * b) = c * curvature a b) := by
  constructor
  · intro h
    have hp : 0 < a + b := lt_of_lt_of_le (by positivity) h
    have hc0 : 0 < c := by linarith
    have h' : 1 / 10 ^ 9 ≤ c * a + c * b := by
      have : a + b ≤ c * (a + b) := by nlinarith
      rw [← mul_add]; linarith
    unfold curvature
    rw [if_pos h, if_pos h', ← mul_sub, ← mul_add, mul_div_mul_left _ _ hc0.ne']
  · intro h h'
    unfold curvature
    rw [if_neg (not_le.2 h'), if_neg (not_le.2 h), mul_sub]

/-- **C81** (dark): two dark images of `n` pixels give zero slopes, and `n` counts in total. -/
theorem C81_curvature_dark (idx : List Nat) (p1 p2 : List K) (h1 : ∀ p ∈ idx, p < p1.length) (h2 : ∀ p ∈ idx, p < p2.length)
    (hne : idx ≠ []) (d1 : ∀ x ∈ p1, x = 0) (d2 : ∀ x ∈ p2, x = 0) :
    ∃ o, curTrigger idx p1 p2 = some o ∧ (∀ s ∈ o.slopes, s = some 0) ∧ o.total = idx.length ∧ o.mean = some 1 := by
  obtain ⟨o, e, a1, a2, a3, a4⟩ := C81_curvature idx p1 p2 h1 h2 hne
  have hz : ∀ (l : List K) (p : Nat), (∀ x ∈ l, x = 0) → l.getD p 0 = 0 := fun l p h => by
    rw [List.getD_eq_getElem?_getD]
    cases hp : l[p]? with
    | none => rfl
    | some x => exact h x (List.mem_of_getElem? hp)
  have hlim : ¬ (1 : K) / 10 ^ 9 ≤ 0 + 0 := by rw [add_zero, not_le]; positivity
  have ht : o.total = idx.length := by
    rw [a3]
    have : (idx.map fun p => reported (p1.getD p 0) (p2.getD p 0)) = idx.map fun _ => (1 : K) :=
      List.map_congr_left fun p _ => by rw [hz p1 p d1, hz p2 p d2]; unfold reported; rw [if_neg hlim]
    rw [this]; simp
  refine ⟨o, e, ?_, ht, ?_⟩
  · rw [a1]
    intro s hs
    obtain ⟨p, -, rfl⟩ := List.mem_map.1 hs
    rw [hz p1 p d1, hz p2 p d2]; unfold curvature; rw [if_neg hlim, sub_zero]
  · rw [a4, ht, div_self]
    have : idx.length ≠ 0 := fun h => hne (List.length_eq_zero_iff.1 h)
    exact_mod_cast this

omit [IsStrictOrderedRing K] in
/-- The statement that slopes lie between -1 and 1 is false with negative values: a sum below zero is not used as divisor. -/
theorem C81_curvature_negative (idx : List Nat) (p1 p2 : List K) (h1 : ∀ p ∈ idx, p < p1.length) (h2 : ∀ p ∈ idx, p < p2.length)
    (k p : Nat) (hk : idx[k]? = some p) (hneg : p1.getD p 0 + p2.getD p 0 < 1 / 10 ^ 9) :
    ∃ o, curTrigger idx p1 p2 = some o ∧ o.slopes[k]? = some (some (p1.getD p 0 - p2.getD p 0)) := by
  have hne : idx ≠ [] := by rintro rfl; simp at hk
  obtain ⟨o, e, a1, -⟩ := C81_curvature idx p1 p2 h1 h2 hne
  refine ⟨o, e, ?_⟩
  rw [a1, List.getElem?_map, hk, Option.map_some]
  unfold curvature
  rw [if_neg (not_le.2 hneg)]

/-- Two pixels: equal light; light only in the first image. -/
example : (curTrigger [0, 2] [3, 9, (5 : ℚ)] [3, 9, 0]).map (fun o => (o.slopes, o.flux, o.total, o.mean)) =
    some ([some 0, some 1], [6, 5], 11, some (11 / 2)) := by decide +kernel

/-- A background subtracted too much: the slope is 110. -/
example : (curTrigger [0] [(50 : ℚ)] [-60]).map (·.slopes) = some [some 110] := by decide +kernel

/-! ### Pixels of the sensors -/

/-- The pixel `(i, j)` of a square of `n` pixels is in the ring of outer diameter `dia` (pixels) and obstruction `obs`. -/
def InRing (n : Nat) (dia obs : K) (i j : Nat) : Prop :=
  (obs * dia) ^ 2 ≤ (2 * (j : K) + 1 - n) ^ 2 + (2 * (i : K) + 1 - n) ^ 2 ∧ (2 * (j : K) + 1 - n) ^ 2 + (2 * (i : K) + 1 - n) ^ 2 < dia ^ 2

theorem ring_mask (n : Nat) (hn : 1 < n) (dia : K) (obs : Option K) :
    ∃ m, baseMask n ⟨obs, some (dia / n), 0, 0, false, false⟩ = some m ∧ ∀ i j, m i j = true ↔ InRing n dia (obs.getD 0) i j := by
  obtain ⟨m, h, s⟩ := C79_round n hn ⟨obs, some (dia / (n : K)), 0, 0, false, false⟩ rfl rfl
  refine ⟨m, h, fun i j => ?_⟩
  rw [s]
  have hne : (n : K) ≠ 0 := by
    have : n ≠ 0 := by omega
    exact_mod_cast this
  unfold halfPix InRing
  simp only [Option.getD_some, div_mul_cancel₀ _ hne, mul_zero, sub_zero]

/-- **C81** (pixels of a square detector): the pixels used are those whose centre is in the ring, each once, in increasing order. -/
theorem C81_pixels (n : Nat) (hn : 1 < n) (dia : K) (obs : Option K) :
    ∃ idx, zwfsInit n dia obs = some idx ∧ (obs = none → curInit n n dia = some idx) ∧ idx.Pairwise (· < ·) ∧
      ∀ p, p ∈ idx ↔ p < n * n ∧ InRing n dia (obs.getD 0) (p / n) (p % n) := by
  obtain ⟨m, h, s⟩ := ring_mask n hn dia obs
  have hw := (C79_where n m).2.1
  have hmem : ∀ p, p ∈ (maskWhere n m).map (fun q => q.1 * n + q.2) ↔ p < n * n ∧ InRing n dia (obs.getD 0) (p / n) (p % n) := fun p => by
    rw [hw, List.mem_filter, List.mem_range, s]
  have hall : ((maskWhere n m).map fun q => q.1 * n + q.2).all (fun p => decide (p < n * n)) = true := by
    rw [List.all_eq_true]; intro p hp; exact decide_eq_true ((hmem p).1 hp).1
  refine ⟨(maskWhere n m).map fun q => q.1 * n + q.2, ?_, ?_, ?_, hmem⟩
  · unfold zwfsInit ringIndices; rw [h]; simp only [Option.map_some, Option.bind_some]; rw [if_pos hall]
  · rintro rfl; unfold curInit ringIndices; rw [h]; simp only [Option.map_some, Option.bind_some]; rw [if_pos hall]
  · rw [hw]; exact List.Pairwise.filter _ List.pairwise_lt_range

/-- **C81** (pixels of a wide detector): with more columns than rows the disc is that of the square at the left edge of the detector, not
that around its centre. -/
theorem C81_pixels_wide (rows cols : Nat) (hn : 1 < rows) (hw : rows ≤ cols) (dia : K) :
    ∃ idx, curInit rows cols dia = some idx ∧ ∀ i < rows, ∀ j < cols,
      (i * cols + j ∈ idx ↔ j < rows ∧ InRing rows dia 0 i j) := by
  obtain ⟨m, h, s⟩ := ring_mask rows hn dia none
  obtain ⟨w1, -, -⟩ := C79_where rows m
  have hmem : ∀ p, p ∈ (maskWhere rows m).map (fun q => q.1 * cols + q.2) ↔ ∃ i j, i < rows ∧ j < rows ∧ InRing rows dia 0 i j ∧ p = i * cols + j := fun p => by
    rw [List.mem_map]
    constructor
    · rintro ⟨q, hq, rfl⟩
      obtain ⟨a, b, c⟩ := (w1 q).1 hq
      exact ⟨q.1, q.2, a, b, (s _ _).1 c, rfl⟩
    · rintro ⟨i, j, a, b, c, rfl⟩
      exact ⟨(i, j), (w1 (i, j)).2 ⟨a, b, (s _ _).2 c⟩, rfl⟩
  have hlt : ∀ i j, i < rows → j < cols → i * cols + j < rows * cols := fun i j hi hj => by
    have : (i + 1) * cols ≤ rows * cols := Nat.mul_le_mul_right _ hi
    rw [add_mul] at this; omega
  refine ⟨(maskWhere rows m).map fun q => q.1 * cols + q.2, ?_, ?_⟩
  · unfold curInit ringIndices; rw [h]; simp only [Option.map_some, Option.bind_some]
    rw [if_pos]
    rw [List.all_eq_true]; intro p hp
    obtain ⟨i, j, hi, hj, -, rfl⟩ := (hmem p).1 hp
    exact decide_eq_true (hlt i j hi (by omega))
  · intro i hi j hj
    rw [hmem]
    constructor
    · rintro ⟨i', j', hi', hj', hr, e⟩
      have ei : i = i' := by
        have a := congrArg (· / cols) e
        rw [Nat.mul_comm i, Nat.mul_comm i', Nat.mul_add_div (by omega), Nat.mul_add_div (by omega), Nat.div_eq_of_lt hj,
          Nat.div_eq_of_lt (by omega)] at a
        omega
      subst ei
      have : j = j' := by omega
      subst this
      exact ⟨hj', hr⟩
    · rintro ⟨hj', hr⟩; exact ⟨i, j, hi, hj', hr, rfl⟩

/-- A wide detector, 2 × 6: the pixels used are the four at the left, while the centre of the detector is between columns 2 and 3. -/
example : curInit 2 6 (2 : ℚ) = some [0, 1, 6, 7] := by decide +kernel

/-- A tall detector, 4 × 3: the pixel 3 appears twice (row 0, column 3, which does not exist, is taken for row 1, column 0). -/
example : curInit 4 3 (5 : ℚ) = none ∧ ringIndices 4 3 (5 : ℚ) none = some [0, 1, 2, 3, 3, 4, 5, 6, 6, 7, 8, 9, 9, 10, 11, 12] := by
  decide +kernel

/-- A square one, 4 × 4. -/
example : curInit 4 4 (4 : ℚ) = some [1, 2, 4, 5, 6, 7, 8, 9, 10, 11, 13, 14] ∧ zwfsInit 4 (4 : ℚ) (some (1 / 2)) = some [1, 2, 4, 7, 8, 11, 13, 14] := by
  decide +kernel

/-! ### Zernike sensor -/

omit [LinearOrder K] [IsStrictOrderedRing K] in
theorem sum_div_list (l : List K) (c : K) : (l.map fun x => x / c).sum = l.sum / c := by
  induction l with
  | nil => simp
  | cons x l ih => rw [List.map_cons, List.sum_cons, ih, List.sum_cons, add_div]

theorem zwfs_eq (idx : List Nat) (thr : K) (frame : List K) (h : ∀ p ∈ idx, p < frame.length) (hne : idx ≠ []) :
    ∃ o, zwfsTrigger idx thr frame = some o ∧ o.flux = idx.map (fun p => frame.getD p 0 - thr) ∧
      o.total = (idx.map fun p => frame.getD p 0 - thr).sum ∧ o.mean = some (o.total / idx.length) ∧
      o.slopes = idx.map fun p => if o.total = 0 then none else some ((frame.getD p 0 - thr) / (o.total / idx.length)) := by
  have hl : (idx.length : K) ≠ 0 := by
    have : idx.length ≠ 0 := fun h => hne (List.length_eq_zero_iff.1 h)
    exact_mod_cast this
  have hg : gatherPix (frame.map fun x => x - thr) idx = some (idx.map fun p => frame.getD p 0 - thr) :=
    mapM_all_some _ _ _ fun p hp => by
      rw [List.getElem?_map, List.getD_eq_getElem?_getD, List.getElem?_eq_getElem (h p hp)]; rfl
  unfold zwfsTrigger
  rw [hg, Option.map_some]
  refine ⟨_, rfl, rfl, rfl, ?_, ?_⟩
  · simp only; rw [if_neg]; exact_mod_cast hl
  · simp only [List.map_map, div_eq_zero_iff, hl, or_false]
    rfl

/-- **C81** (Zernike sensor): when light is seen, slope `k` is the light of pixel `k` over the mean of the pupil; the mean of the slopes
is one. -/
theorem C81_zernike (idx : List Nat) (thr : K) (frame : List K) (h : ∀ p ∈ idx, p < frame.length) (hne : idx ≠ [])
    (hl : (idx.map fun p => frame.getD p 0 - thr).sum ≠ 0) :
    ∃ (o : PixOut K) (s : List K), zwfsTrigger idx thr frame = some o ∧ o.slopes = s.map some ∧
      (∀ (k p : Nat), idx[k]? = some p →
        s[k]? = some ((frame.getD p 0 - thr) * idx.length / (idx.map fun p => frame.getD p 0 - thr).sum)) ∧
      s.sum / idx.length = 1 := by
  obtain ⟨o, e, -, ht, -, hs⟩ := zwfs_eq idx thr frame h hne
  have hl0 : (idx.length : K) ≠ 0 := by
    have : idx.length ≠ 0 := fun h => hne (List.length_eq_zero_iff.1 h)
    exact_mod_cast this
  have ht0 : o.total ≠ 0 := by rw [ht]; exact hl
  refine ⟨o, (idx.map fun p => frame.getD p 0 - thr).map fun x => x / (o.total / idx.length), e, ?_, ?_, ?_⟩
  · rw [hs, List.map_map, List.map_map]
    exact List.map_congr_left fun p _ => by rw [if_neg ht0]; rfl
  · intro k p hk
    rw [List.getElem?_map, List.getElem?_map, hk, ← ht]
    simp only [Option.map_some, Option.some.injEq]
    rw [div_div_eq_mul_div]
  · rw [sum_div_list, ← ht, div_div_eq_mul_div, mul_div_cancel_left₀ _ ht0, div_self hl0]

/-- **C81** (Zernike sensor, brightness): without threshold the slopes do not change when the frame is multiplied by `c ≠ 0`. -/
theorem C81_zernike_brightness (idx : List Nat) (frame : List K) (c : K) (hc : c ≠ 0) (h : ∀ p ∈ idx, p < frame.length) (hne : idx ≠ []) :
    ∃ o o', zwfsTrigger idx 0 frame = some o ∧ zwfsTrigger idx 0 (frame.map fun x => c * x) = some o' ∧ o'.slopes = o.slopes ∧
      o'.total = c * o.total := by
  obtain ⟨o, e, -, ht, -, hs⟩ := zwfs_eq idx 0 frame h hne
  obtain ⟨o', e', -, ht', -, hs'⟩ := zwfs_eq idx 0 (frame.map fun x => c * x) (by simpa using h) hne
  have hv : ∀ p ∈ idx, (frame.map fun x => c * x).getD p 0 - 0 = c * (frame.getD p 0 - 0) := fun p hp => by
    rw [sub_zero, sub_zero, List.getD_eq_getElem?_getD, List.getD_eq_getElem?_getD, List.getElem?_map, List.getElem?_eq_getElem (h p hp)]
    rfl
  have ht2 : o'.total = c * o.total := by
    rw [ht, ht', List.map_congr_left hv, List.sum_map_mul_left]
  refine ⟨o, o', e, e', ?_, ht2⟩
  rw [hs, hs']
  apply List.map_congr_left
  intro p hp
  rw [hv p hp, ht2]
  simp only [mul_eq_zero, hc, false_or]
  split
  · rfl
  · congr 1
    rw [mul_div_assoc c o.total, mul_div_mul_left _ _ hc]

/-- The frame without light has no slopes at all. -/
theorem C81_zernike_dark (idx : List Nat) (thr : K) (frame : List K) (h : ∀ p ∈ idx, p < frame.length) (hne : idx ≠ [])
    (hl : (idx.map fun p => frame.getD p 0 - thr).sum = 0) : ∃ o, zwfsTrigger idx thr frame = some o ∧ ∀ s ∈ o.slopes, s = none := by
  obtain ⟨o, e, -, ht, -, hs⟩ := zwfs_eq idx thr frame h hne
  refine ⟨o, e, fun s hm => ?_⟩
  rw [hs] at hm
  obtain ⟨p, -, rfl⟩ := List.mem_map.1 hm
  rw [if_pos (ht.trans hl)]

example : (zwfsTrigger [0, 2] 1 [3, 100, (5 : ℚ)]).map (·.slopes) = some [some (2 / 3), some (4 / 3)] := by decide +kernel

/-! ### Double roof -/

/-- **C81** (double roof): slopes are the differences of the two pupils of each roof over the mean light, x from the first pair and y from
the second. -/
theorem C81_roof (c : PyrCfg K) (frame : List K) (h : c.WF frame.length) (hf : c.fromIntensity = false) (hs : c.shlike = false)
    (hnf : c.normFactor = none) (hpos : 0 < pyrTotal c frame) :
    ∃ o, roofTrigger c frame = some o ∧
      o.sx = (List.range c.nSub).map (fun i => some ((pyrLight c frame 0 i - pyrLight c frame 1 i) / (pyrTotal c frame / c.nSub))) ∧
      o.sy = (List.range c.nSub).map (fun i => some ((pyrLight c frame 3 i - pyrLight c frame 2 i) / (pyrTotal c frame / c.nSub))) ∧
      o.total = pyrTotal c frame := by
  have htot : ((List.range c.nSub).map fun i => pyrLight c frame 0 i + pyrLight c frame 1 i + pyrLight c frame 2 i +
      pyrLight c frame 3 i).sum = pyrTotal c frame := by
    rw [sum_range_map_list]; rfl
  have hinv : pyrInv c (pyrTotal c frame) = pyrTotal c frame / c.nSub := by
    unfold pyrInv; rw [hf, hnf, hs]; simp
  have hn : (0 : K) < c.nSub := by exact_mod_cast h.pos
  have hi : 0 < pyrTotal c frame / c.nSub := div_pos hpos hn
  unfold roofTrigger
  rw [if_neg (by simp [hf])]
  simp only [pyrVals_eq c frame h, Option.bind_some]
  rw [if_pos (by simp)]
  simp only [zipWith_range_map]
  rw [htot, hinv]
  refine ⟨_, rfl, ?_, ?_, rfl⟩
  · simp only [List.map_map]
    exact List.map_congr_left fun i _ => by simp only [Function.comp]; rw [fmul_fin _ _ hi]
  · simp only [List.map_map]
    exact List.map_congr_left fun i _ => by simp only [Function.comp]; rw [fmul_fin _ _ hi]

/-! ### Maps of slopes -/

omit [LinearOrder K] [IsStrictOrderedRing K] in
theorem putZeros_eq [DecidableEq K] (size : Nat) (idx : List Nat) (vals : List K) (hl : vals.length = idx.length) (hn : idx.Nodup)
    (hb : ∀ p ∈ idx, p < size) :
    ∃ f, putZeros size idx vals = some f ∧ f.length = size ∧ (∀ (k p : Nat), idx[k]? = some p → f[p]? = vals[k]?) ∧
      ∀ p < size, p ∉ idx → f[p]? = some 0 := by
  by_cases hv : vals = []
  · have hidx : idx = [] := by rw [hv] at hl; exact List.length_eq_zero_iff.1 hl.symm
    refine ⟨List.replicate size 0, by unfold putZeros; rw [if_pos hv], List.length_replicate, ?_, ?_⟩
    · intro k p hk; rw [hidx] at hk; simp at hk
    · intro p hp _; rw [List.getElem?_replicate, if_pos hp]
  · have hcyc : (List.range idx.length).map (fun k => vals.getD (k % vals.length) 0) = vals := by
      apply List.ext_getElem?
      intro k
      rw [List.getElem?_map]
      by_cases hk : k < idx.length
      · rw [List.getElem?_range hk, Option.map_some, Nat.mod_eq_of_lt (by omega), List.getD_eq_getElem?_getD,
          List.getElem?_eq_getElem (by omega)]
        rfl
      · rw [List.getElem?_eq_none (by simp; omega), List.getElem?_eq_none (by omega)]; rfl
    refine ⟨scatter (List.replicate size 0) idx vals, ?_, ?_, ?_, ?_⟩
    · unfold putZeros
      rw [if_neg hv, if_pos (by rw [List.all_eq_true]; intro p hp; exact decide_eq_true (hb p hp)), hcyc]
    · rw [scatter_length, List.length_replicate]
    · intro k p hk
      apply scatter_last _ _ _ hl (by simpa using hb) k p hk
      intro j hj he
      have h1 := List.getElem?_eq_some_iff.1 hk
      have h2 := List.getElem?_eq_some_iff.1 he
      obtain ⟨a, ea⟩ := h1
      obtain ⟨b, eb⟩ := h2
      have := (List.Nodup.getElem_inj_iff hn (hi := a) (hj := b)).1 (by rw [ea, eb])
      omega
    · intro p hp hm
      rw [scatter_other _ _ _ _ hm, List.getElem?_replicate, if_pos hp]

omit [IsStrictOrderedRing K] in
/-- **C81** (map of x and y): with two slopes per subaperture the maps hold, at the place of subaperture `k`, its slopes along x and y, and
zero at the places without subaperture. -/
theorem C81_map (size : Nat) (idx : List Nat) (s : SlopeVec K) (hv : s.v.length = 2 * idx.length) (hpos : idx ≠ []) (hn : idx.Nodup)
    (hb : ∀ p ∈ idx, p < size) :
    ∃ fx fy, slopesMap size idx s = some (.two fx fy) ∧ fx.length = size ∧ fy.length = size ∧
      (∀ (k p : Nat), idx[k]? = some p →
        fx[p]? = s.v[if s.interleave then 2 * k else k]? ∧ fy[p]? = s.v[if s.interleave then 2 * k + 1 else idx.length + k]?) ∧
      ∀ p < size, p ∉ idx → fx[p]? = some 0 ∧ fy[p]? = some 0 := by
  have hl0 : idx.length ≠ 0 := fun h => hpos (List.length_eq_zero_iff.1 h)
  have hhalf : s.v.length / 2 = idx.length := by omega
  have hsub : s.v.length - idx.length = idx.length := by omega
  have ex : s.getX.length = idx.length := by
    unfold SlopeVec.getX SlopeVec.idxX; split <;> simp [hhalf]
  have ey : s.getY.length = idx.length := by
    unfold SlopeVec.getY SlopeVec.idxY SlopeVec.idxX
    split
    · simp [hhalf]
    · split <;> simp [hhalf, hsub]
  have vx : ∀ k < idx.length, s.getX[k]? = s.v[if s.interleave then 2 * k else k]? := fun k hk => by
    unfold SlopeVec.getX SlopeVec.idxX
    rw [hhalf]
    split
    · rw [List.getElem?_map, List.getElem?_map, List.getElem?_range hk, Option.map_some, Option.map_some, List.getD_eq_getElem?_getD,
        Nat.mul_comm k 2, List.getElem?_eq_getElem (by omega)]; rfl
    · rw [List.getElem?_map, List.getElem?_range hk, Option.map_some, List.getD_eq_getElem?_getD, List.getElem?_eq_getElem (by omega)]; rfl
  have vy : ∀ k < idx.length, s.getY[k]? = s.v[if s.interleave then 2 * k + 1 else idx.length + k]? := fun k hk => by
    unfold SlopeVec.getY SlopeVec.idxY SlopeVec.idxX
    rw [hhalf, hsub]
    split
    · next hi =>
      simp only [List.getElem?_map, List.getElem?_range hk, Option.map_some, List.getD_eq_getElem?_getD]
      rw [Nat.mul_comm k 2, List.getElem?_eq_getElem (by omega)]; rfl
    · next hi =>
      have : s.v[k + idx.length]? = some (s.v[k + idx.length]'(by omega)) := List.getElem?_eq_getElem (by omega)
      split <;>
      · simp only [List.getElem?_map, List.getElem?_range hk, Option.map_some, List.getD_eq_getElem?_getD]
        rw [Nat.add_comm idx.length k, this]; rfl
  obtain ⟨fx, a1, a2, a3, a4⟩ := putZeros_eq size idx s.getX ex hn hb
  obtain ⟨fy, b1, b2, b3, b4⟩ := putZeros_eq size idx s.getY ey hn hb
  refine ⟨fx, fy, ?_, a2, b2, fun k p hk => ?_, fun p hp hm => ⟨a4 p hp hm, b4 p hp hm⟩⟩
  · unfold slopesMap
    rw [if_neg (by omega), a1, b1]; rfl
  · have hk' : k < idx.length := (List.getElem?_eq_some_iff.1 hk).1
    rw [a3 k p hk, b3 k p hk, vx k hk', vy k hk']
    exact ⟨rfl, rfl⟩

omit [IsStrictOrderedRing K] in
/-- **C81** (map of intensities): with one slope per entry of the display map the only map holds slope `k` at the place `k`. -/
theorem C81_map_one (size : Nat) (idx : List Nat) (s : SlopeVec K) (hv : s.v.length = idx.length) (hn : idx.Nodup) (hb : ∀ p ∈ idx, p < size) :
    ∃ f, slopesMap size idx s = some (.one f) ∧ f.length = size ∧ (∀ (k p : Nat), idx[k]? = some p → f[p]? = s.v[k]?) ∧
      ∀ p < size, p ∉ idx → f[p]? = some 0 := by
  obtain ⟨f, a1, a2, a3, a4⟩ := putZeros_eq size idx s.v hv hn hb
  exact ⟨f, by unfold slopesMap; rw [if_pos hv, a1]; rfl, a2, a3, a4⟩

/-- The map of the slopes of the curvature and of the Zernike sensors always raises: the display map has indices of the whole frame, the
mask is one quarter of it. -/
theorem C81_map_pixels_raises (n : Nat) (hn : 1 < n) (dia : K) (obs : Option K) (idx : List Nat) (h : zwfsInit n dia obs = some idx) (hne : idx ≠ [])
    (s : SlopeVec K) (hs : s.v.length = idx.length) : pixSensorMap n n idx s = none := by
  obtain ⟨idx', h', -, -, hmem⟩ := C81_pixels n hn dia obs
  obtain rfl : idx = idx' := by rw [h] at h'; exact Option.some.inj h'
  obtain ⟨p, hp⟩ := List.exists_mem_of_ne_nil idx hne
  obtain ⟨hp1, hp2⟩ := (hmem p).1 hp
  have hr : p / n < n := Nat.div_lt_of_lt_mul hp1
  -- a pixel in the lower half
  have hlow : ∃ i < n, n / 2 ≤ i ∧ InRing n dia (obs.getD 0) i (p % n) := by
    generalize p / n = r at hr hp2
    by_cases hh : n / 2 ≤ r
    · exact ⟨r, hr, hh, hp2⟩
    · refine ⟨n - 1 - r, by omega, by omega, ?_⟩
      have e : (2 * ((n - 1 - r : Nat) : K) + 1 - n) = -(2 * (r : K) + 1 - n) := by
        rw [Nat.cast_sub (by omega), Nat.cast_sub (by omega)]; push_cast; ring
      unfold InRing at hp2 ⊢
      rw [e, neg_sq]; exact hp2
  obtain ⟨i, hi, hi2, hring⟩ := hlow
  have hm : p % n < n := Nat.mod_lt _ (by omega)
  have hq : i * n + p % n ∈ idx := by
    rw [hmem]
    have e1 : (i * n + p % n) / n = i := by rw [Nat.mul_comm, Nat.mul_add_div (by omega), Nat.div_eq_of_lt hm]; rfl
    have e2 : (i * n + p % n) % n = p % n := by rw [Nat.mul_comm, Nat.mul_add_mod, Nat.mod_mod]
    rw [e1, e2]
    refine ⟨?_, hring⟩
    have : (i + 1) * n ≤ n * n := Nat.mul_le_mul_right _ hi
    rw [add_mul] at this; omega
  have hbig : n / 2 * (n - n / 2) ≤ i * n + p % n := by
    have h1 : n / 2 * (n - n / 2) ≤ i * n := Nat.mul_le_mul hi2 (Nat.sub_le _ _)
    omega
  unfold pixSensorMap slopesMap
  have hv : s.v ≠ [] := fun e => by rw [e] at hs; exact hne (List.length_eq_zero_iff.1 hs.symm)
  rw [if_pos hs]
  unfold putZeros
  rw [if_neg hv, if_neg]
  · rfl
  · rw [List.all_eq_true]
    intro hall
    have := of_decide_eq_true (hall _ hq)
    omega

end

/-- Two subapertures at places 1 and 2 of a map of four. -/
example : slopesMap 4 [1, 2] ⟨[10, 20, 30, (40 : ℚ)], false, false⟩ = some (.two [0, 10, 20, 0] [0, 30, 40, 0]) ∧
    slopesMap 4 [1, 2] ⟨[10, 20, 30, (40 : ℚ)], true, false⟩ = some (.two [0, 10, 30, 0] [0, 20, 40, 0]) ∧
    slopesMap 4 [1, 2] ⟨[10, (20 : ℚ)], false, false⟩ = some (.one [0, 10, 20, 0]) := by
  refine ⟨?_, ?_, ?_⟩ <;> rfl

/-- A double roof with one subaperture. -/
example : (roofTrigger ⟨fun q => [(q : Int)], 0, none, false, false⟩ [(4 : ℚ), 1, 2, 3]).map (fun o => (o.sx, o.sy, o.total)) =
    some ([some (3 / 10)], [some (1 / 10)], 10) := by decide +kernel

end Specula
