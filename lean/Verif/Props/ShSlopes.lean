import Verif.Model.ShSlopes
import Verif.Props.PyrSlopes
import Verif.Props.Resample
import Mathlib.Tactic.LinearCombination
/-
C39: Shack-Hartmann slopes.
-/
namespace Specula

section
variable {K : Type} [Field K] [LinearOrder K] [IsStrictOrderedRing K]

/-- Light on pixel `p` of sub-aperture `s` above the threshold, if any (specification). -/
def shLight (c : ShCfg K) (a : Img K) (s p : Nat) : K :=
  let i := (c.idxs.getD s []).getD p 0
  max (a.px (i / a.cols) (i % a.cols) - max c.thrValue 0) 0

/-- The same, weighted. -/
def shW (c : ShCfg K) (a : Img K) (s p : Nat) : K := shLight c a s p * c.mask (p / c.np) (p % c.np)

/-- Weighted light of a sub-aperture. -/
def shTot (c : ShCfg K) (a : Img K) (s : Nat) : K := ∑ p ∈ Finset.range (c.np * c.np), shW c a s p

/-- Mean over sub-apertures. -/
def shMean (c : ShCfg K) (a : Img K) : K := (∑ s ∈ Finset.range c.idxs.length, shTot c a s) / c.idxs.length

/-- Position of pixel `j` of `n` in units of half the side, from the centre (specification). -/
def shPos (n j : Nat) : K := (2 * (j : K) + 1) / n - 1

/-- Centre of light along columns and along rows. -/
def shCx (c : ShCfg K) (a : Img K) (s : Nat) : K :=
  (∑ p ∈ Finset.range (c.np * c.np), shW c a s p * shPos c.np (p % c.np)) / shTot c a s

def shCy (c : ShCfg K) (a : Img K) (s : Nat) : K :=
  (∑ p ∈ Finset.range (c.np * c.np), shW c a s p * shPos c.np (p / c.np)) / shTot c a s

/-- Square sub-apertures inside the frame, weights not negative. -/
structure ShCfg.WF (c : ShCfg K) (a : Img K) : Prop where
  pos : 0 < c.idxs.length
  npos : 0 < c.np
  len : ∀ l ∈ c.idxs, l.length = c.np * c.np
  bound : ∀ l ∈ c.idxs, ∀ i ∈ l, i < a.rows * a.cols
  mask : ∀ r q, 0 ≤ c.mask r q

omit [LinearOrder K] [IsStrictOrderedRing K] [Field K] in
theorem mapM_all_some {α β : Type} (f : α → Option β) (g : α → β) (l : List α) (h : ∀ x ∈ l, f x = some (g x)) :
    l.mapM f = some (l.map g) := by
  induction l with
  | nil => rfl
  | cons x l ih =>
    rw [List.mapM_cons, h x List.mem_cons_self, ih fun y hy => h y (List.mem_cons_of_mem _ hy)]
    rfl

omit [LinearOrder K] [IsStrictOrderedRing K] [Field K] in
theorem shPixel_ok (a : Img K) (i : Nat) (h : i < a.rows * a.cols) : shPixel a i = some (a.px (i / a.cols) (i % a.cols)) := by
  have hc : 0 < a.cols := by
    rcases Nat.eq_zero_or_pos a.cols with h0 | h0
    · rw [h0] at h; omega
    · exact h0
  have hm : i - i / a.cols * a.cols = i % a.cols := by
    have := Nat.div_add_mod i a.cols
    rw [Nat.mul_comm] at this
    omega
  have h1 : i / a.cols < a.rows := by rw [Nat.div_lt_iff_lt_mul hc]; exact h
  have h2 := Nat.mod_lt i hc
  simp only [shPixel, hm, h1, h2, and_self, if_true]

omit [LinearOrder K] [IsStrictOrderedRing K] [Field K] in
theorem map_eq_range {α β : Type} (l : List α) (d : α) (f : α → β) : l.map f = (List.range l.length).map fun i => f (l.getD i d) := by
  apply List.ext_getElem?
  intro i
  rw [List.getElem?_map, List.getElem?_map]
  by_cases hi : i < l.length
  · rw [List.getElem?_range hi, List.getElem?_eq_getElem hi]
    simp [List.getD_eq_getElem?_getD, List.getElem?_eq_getElem hi]
  · rw [List.getElem?_eq_none (by omega), List.getElem?_eq_none (by simp; omega)]
    rfl

omit [IsStrictOrderedRing K] in
theorem shClamp_eq (c : ShCfg K) (x : K) : shClamp (shThr c) x = max (x - max c.thrValue 0) 0 := by
  have ht : shThr c = max c.thrValue 0 := by
    unfold shThr
    split
    · next h => rw [max_eq_left h.le]
    · next h => rw [max_eq_right (not_lt.1 h)]
  rw [ht]
  unfold shClamp
  split
  · next h => rw [max_eq_right h.le]
  · next h => rw [max_eq_left (not_lt.1 h)]

theorem shCoord_eq (n j : Nat) (hn : 0 < n) : (shCoord n j : K) = shPos n j := by
  have : (n : K) ≠ 0 := Nat.cast_ne_zero.2 hn.ne'
  unfold shCoord shPos
  field_simp
  ring

theorem shTot_nonneg (c : ShCfg K) (a : Img K) (h : c.WF a) (s : Nat) : 0 ≤ shTot c a s :=
  Finset.sum_nonneg fun _ _ => mul_nonneg (le_max_right _ _) (h.mask _ _)

theorem shTrigger_eq (c : ShCfg K) (a : Img K) (h : c.WF a) :
    ∃ out, shTrigger c a = some out ∧
      out.sx = (List.range c.idxs.length).map (fun s => (shFactor (shTot c a s) (shMean c a)).map fun f =>
        (∑ p ∈ Finset.range (c.np * c.np), shW c a s p * shPos c.np (p % c.np)) * f) ∧
      out.sy = (List.range c.idxs.length).map (fun s => (shFactor (shTot c a s) (shMean c a)).map fun f =>
        (∑ p ∈ Finset.range (c.np * c.np), shW c a s p * shPos c.np (p / c.np)) * f) ∧
      out.flux = (List.range c.idxs.length).map fun s => ∑ p ∈ Finset.range (c.np * c.np),
        a.px ((c.idxs.getD s []).getD p 0 / a.cols) ((c.idxs.getD s []).getD p 0 % a.cols) := by
  set P : Nat → K := fun i => a.px (i / a.cols) (i % a.cols) with hP
  have hraw : (c.idxs.mapM fun (l : List Nat) => l.mapM (shPixel a)) = some (c.idxs.map fun l => l.map P) :=
    mapM_all_some _ _ _ fun l hl => mapM_all_some _ _ _ fun i hi => shPixel_ok a i (h.bound l hl i hi)
  have hlen : ∀ s < c.idxs.length, (c.idxs.getD s []).length = c.np * c.np := by
    intro s hs
    apply h.len
    rw [List.getD_eq_getElem?_getD, List.getElem?_eq_getElem hs]
    exact List.getElem_mem hs
  have hrow : ∀ (Q : Nat → K), c.idxs.map (fun l => l.map Q) =
      (List.range c.idxs.length).map fun s => (List.range (c.np * c.np)).map fun p => Q ((c.idxs.getD s []).getD p 0) := by
    intro Q
    rw [map_eq_range c.idxs [] fun l => l.map Q]
    refine List.map_congr_left fun s hs => ?_
    rw [map_eq_range (c.idxs.getD s []) 0 Q, hlen s (List.mem_range.1 hs)]
  have hpix : (c.idxs.map fun l => l.map P).map (fun l => l.map (shClamp (shThr c))) =
      (List.range c.idxs.length).map fun s => (List.range (c.np * c.np)).map (shLight c a s) := by
    have : (c.idxs.map fun l => l.map P).map (fun l => l.map (shClamp (shThr c))) =
        c.idxs.map fun l => l.map fun i => shClamp (shThr c) (P i) := by
      rw [List.map_map]
      refine List.map_congr_left fun l _ => ?_
      simp [Function.comp_def]
    rw [this, hrow]
    refine List.map_congr_left fun s _ => List.map_congr_left fun p _ => ?_
    rw [shClamp_eq]
    rfl
  have htots : ((List.range c.idxs.length).map fun s => (List.range (c.np * c.np)).map (shLight c a s)).map
      (fun l => (List.zipWith (· * ·) l (shMaskFlat c)).sum) = (List.range c.idxs.length).map (shTot c a) := by
    rw [List.map_map]
    refine List.map_congr_left fun s _ => ?_
    simp only [Function.comp, shMaskFlat, zipWith_range_map, sum_range_map_list]
    rfl
  have hmean : ((List.range c.idxs.length).map (shTot c a)).sum / (((List.range c.idxs.length).map (shTot c a)).length : K) =
      shMean c a := by
    rw [sum_range_map_list, List.length_map, List.length_range]
    rfl
  have hslope : ∀ (pos : Nat → K) (w : List K), (w = (List.range (c.np * c.np)).map fun p => pos p * c.mask (p / c.np) (p % c.np)) →
      ∀ s f, (List.zipWith (fun p v => p * v * f) ((List.range (c.np * c.np)).map (shLight c a s)) w).sum =
        (∑ p ∈ Finset.range (c.np * c.np), shW c a s p * pos p) * f := by
    intro pos w hw s f
    rw [hw, zipWith_range_map, sum_range_map_list, Finset.sum_mul]
    refine Finset.sum_congr rfl fun p _ => ?_
    unfold shW
    ring
  have hall : ∀ l ∈ c.idxs.map fun l => l.map P, l.length = c.np * c.np := by
    intro l hl
    obtain ⟨l', hl', rfl⟩ := List.mem_map.1 hl
    rw [List.length_map]
    exact h.len l' hl'
  unfold shTrigger
  rw [hraw, Option.bind_some, if_pos hall]
  refine ⟨_, rfl, ?_⟩
  dsimp only
  rw [hpix, htots, hmean]
  refine ⟨?_, ?_, ?_⟩
  · rw [zipWith_range_map]
    refine List.map_congr_left fun s _ => ?_
    congr 1
    funext f
    exact hslope (fun p => shPos c.np (p % c.np)) _ (by simp only [shXFlat, shCoord_eq c.np _ h.npos]) s f
  · rw [zipWith_range_map]
    refine List.map_congr_left fun s _ => ?_
    congr 1
    funext f
    exact hslope (fun p => shPos c.np (p / c.np)) _ (by simp only [shYFlat, shCoord_eq c.np _ h.npos]) s f
  · rw [hrow, List.map_map]
    refine List.map_congr_left fun s _ => ?_
    simp only [Function.comp, sum_range_map_list]
    rfl

theorem shFactor_bright (tot mean : K) (hm : 0 < mean) (h : mean / 1000 ≤ tot) : shFactor tot mean = some (1 / tot) := by
  have ht : 0 < tot := lt_of_lt_of_le (by positivity) h
  have hl : mean * (1 / 1000) ≠ 0 := by positivity
  have hle : ¬ 1 / tot > 1 / (mean * (1 / 1000)) := by
    rw [gt_iff_lt, not_lt]
    apply one_div_le_one_div_of_le (by positivity)
    linarith
  simp only [shFactor, if_neg ht.ne', if_neg hl, decide_eq_true_eq, if_neg hle]

theorem shFactor_dim (tot mean : K) (h0 : 0 ≤ tot) (h : tot < mean / 1000) : shFactor tot mean = some 0 := by
  have hm : 0 < mean := by
    have := lt_of_le_of_lt h0 h
    by_contra hc
    have : mean / 1000 ≤ 0 := div_nonpos_of_nonpos_of_nonneg (not_lt.1 hc) (by norm_num)
    linarith
  have hl : mean * (1 / 1000) ≠ 0 := by positivity
  rcases h0.eq_or_lt with h0 | h0
  · simp only [shFactor, if_pos h0.symm, if_neg hl, if_true]
  · have hlt : 1 / tot > 1 / (mean * (1 / 1000)) := by
      apply one_div_lt_one_div_of_lt h0
      linarith
    simp only [shFactor, if_neg h0.ne', if_neg hl, decide_eq_true_eq, if_pos hlt]

/-- **C39**: when there is some light, the slopes of every sub-aperture that has at least one thousandth of the mean light are the
coordinates of the centre of light, and the slopes of the others are zero. -/
theorem C39_centroid (c : ShCfg K) (a : Img K) (h : c.WF a) (hm : 0 < shMean c a) :
    ∃ out, shTrigger c a = some out ∧ out.sx.length = c.idxs.length ∧ out.sy.length = c.idxs.length ∧
      ∀ s < c.idxs.length,
        (shMean c a / 1000 ≤ shTot c a s → out.sx[s]? = some (some (shCx c a s)) ∧ out.sy[s]? = some (some (shCy c a s))) ∧
        (shTot c a s < shMean c a / 1000 → out.sx[s]? = some (some 0) ∧ out.sy[s]? = some (some 0)) := by
  obtain ⟨out, h1, h2, h3, -⟩ := shTrigger_eq c a h
  refine ⟨out, h1, by rw [h2]; simp, by rw [h3]; simp, fun s hs => ⟨fun hb => ?_, fun hd => ?_⟩⟩
  · rw [h2, h3, List.getElem?_map, List.getElem?_map, List.getElem?_range hs]
    simp only [Option.map_some, shFactor_bright _ _ hm hb]
    constructor
    · rw [shCx, mul_one_div]
    · rw [shCy, mul_one_div]
  · rw [h2, h3, List.getElem?_map, List.getElem?_map, List.getElem?_range hs]
    simp only [Option.map_some, shFactor_dim _ _ (shTot_nonneg c a h s) hd, mul_zero, and_self]

theorem shPos_abs (n j : Nat) (hj : j < n) : |(shPos n j : K)| ≤ 1 - 1 / n := by
  have hn : (0 : K) < n := by exact_mod_cast (by omega : 0 < n)
  have h1 : (j : K) + 1 ≤ n := by exact_mod_cast hj
  have h0 : (0 : K) ≤ j := Nat.cast_nonneg j
  unfold shPos
  rw [abs_le]
  constructor
  · have : (1 : K) / n ≤ (2 * (j : K) + 1) / n := div_le_div_of_nonneg_right (by linarith) hn.le
    linarith
  · have : (2 * (j : K) + 1) / n ≤ (2 * n - 1) / n := div_le_div_of_nonneg_right (by linarith) hn.le
    have h2 : (2 * (n : K) - 1) / n = 2 - 1 / n := by field_simp
    linarith

theorem sh_weighted_abs (c : ShCfg K) (a : Img K) (h : c.WF a) (s : Nat) (pos : Nat → K) (B : K)
    (hB : ∀ p < c.np * c.np, |pos p| ≤ B) (ht : 0 < shTot c a s) :
    |(∑ p ∈ Finset.range (c.np * c.np), shW c a s p * pos p) / shTot c a s| ≤ B := by
  rw [abs_div, abs_of_pos ht, div_le_iff₀ ht]
  refine (Finset.abs_sum_le_sum_abs _ _).trans ?_
  unfold shTot
  rw [Finset.mul_sum]
  refine Finset.sum_le_sum fun p hp => ?_
  have hw : 0 ≤ shW c a s p := mul_nonneg (le_max_right _ _) (h.mask _ _)
  rw [abs_mul, abs_of_nonneg hw, mul_comm B]
  exact mul_le_mul_of_nonneg_left (hB p (Finset.mem_range.1 hp)) hw

/-- **C39** (range): whenever there is some light, all slopes are numbers and none exceeds `1 - 1/n` in absolute value, the
coordinate of the outermost pixel. -/
theorem C39_bound (c : ShCfg K) (a : Img K) (h : c.WF a) (hm : 0 < shMean c a) (out : ShOut K) (ho : shTrigger c a = some out)
    (s : Nat) (hs : s < c.idxs.length) :
    ∃ x y, out.sx[s]? = some (some x) ∧ out.sy[s]? = some (some y) ∧ |x| ≤ 1 - 1 / c.np ∧ |y| ≤ 1 - 1 / c.np := by
  obtain ⟨o, h1, -, -, h4⟩ := C39_centroid c a h hm
  obtain rfl : o = out := Option.some.inj (h1.symm.trans ho)
  have hn : (1 : K) ≤ c.np := by exact_mod_cast h.npos
  have hB0 : (0 : K) ≤ 1 - 1 / c.np := by
    rw [sub_nonneg, div_le_one (by linarith)]
    exact hn
  rcases le_or_gt (shMean c a / 1000) (shTot c a s) with hb | hd
  · have ht : 0 < shTot c a s := lt_of_lt_of_le (by positivity) hb
    refine ⟨_, _, ((h4 s hs).1 hb).1, ((h4 s hs).1 hb).2, ?_, ?_⟩
    · exact sh_weighted_abs c a h s _ _ (fun p _ => shPos_abs _ _ (Nat.mod_lt _ h.npos)) ht
    · exact sh_weighted_abs c a h s _ _ (fun p hp => shPos_abs _ _ (by rw [Nat.div_lt_iff_lt_mul h.npos]; exact hp)) ht
  · exact ⟨0, 0, ((h4 s hs).2 hd).1, ((h4 s hs).2 hd).2, by rw [abs_zero]; exact hB0, by rw [abs_zero]; exact hB0⟩

/-- A frame with all pixels multiplied by `k`. -/
def Img.scale (k : K) (a : Img K) : Img K := ⟨a.rows, a.cols, fun i j => k * a.px i j⟩

theorem shLight_scale (c : ShCfg K) (a : Img K) (k : K) (hk : 0 < k) (ht : c.thrValue ≤ 0) (s p : Nat) :
    shLight c (a.scale k) s p = k * shLight c a s p := by
  simp only [shLight, Img.scale, max_eq_right ht, sub_zero]
  rw [mul_max_of_nonneg _ _ hk.le, mul_zero]

/-- **C39** (brightness): without threshold, a frame `k` times brighter gives exactly the same slopes, all of them. -/
theorem C39_brightness (c : ShCfg K) (a : Img K) (h : c.WF a) (hm : 0 < shMean c a) (ht : c.thrValue ≤ 0) (k : K) (hk : 0 < k) :
    ∃ o₁ o₂, shTrigger c a = some o₁ ∧ shTrigger c (a.scale k) = some o₂ ∧ o₁.sx = o₂.sx ∧ o₁.sy = o₂.sy := by
  have h' : c.WF (a.scale k) := ⟨h.pos, h.npos, h.len, h.bound, h.mask⟩
  have hW : ∀ s p, shW c (a.scale k) s p = k * shW c a s p := by
    intro s p
    unfold shW
    rw [shLight_scale c a k hk ht]
    ring
  have hT : ∀ s, shTot c (a.scale k) s = k * shTot c a s := by
    intro s
    unfold shTot
    rw [Finset.mul_sum]
    exact Finset.sum_congr rfl fun p _ => hW s p
  have hM : shMean c (a.scale k) = k * shMean c a := by
    unfold shMean
    simp only [hT, ← Finset.mul_sum]
    ring
  have hk0 : k ≠ 0 := hk.ne'
  obtain ⟨o₁, a1, a2, a3, -⟩ := shTrigger_eq c a h
  obtain ⟨o₂, b1, b2, b3, -⟩ := shTrigger_eq c _ h'
  have hfac : ∀ (s : Nat) (pos : Nat → K),
      ((shFactor (shTot c a s) (shMean c a)).map fun f => (∑ p ∈ Finset.range (c.np * c.np), shW c a s p * pos p) * f) =
      (shFactor (shTot c (a.scale k) s) (shMean c (a.scale k))).map fun f =>
        (∑ p ∈ Finset.range (c.np * c.np), shW c (a.scale k) s p * pos p) * f := by
    intro s pos
    have hsum : ∑ p ∈ Finset.range (c.np * c.np), shW c (a.scale k) s p * pos p =
        k * ∑ p ∈ Finset.range (c.np * c.np), shW c a s p * pos p := by
      rw [Finset.mul_sum]
      exact Finset.sum_congr rfl fun p _ => by rw [hW, mul_assoc]
    rw [hsum, hT, hM]
    rcases le_or_gt (shMean c a / 1000) (shTot c a s) with hb | hd
    · have hpos : 0 < shTot c a s := lt_of_lt_of_le (by positivity) hb
      rw [shFactor_bright _ _ hm hb, shFactor_bright _ _ (by positivity) (by rw [mul_div_assoc]; exact mul_le_mul_of_nonneg_left hb hk.le)]
      simp only [Option.map_some, Option.some.injEq]
      field_simp
    · have h0 := shTot_nonneg c a h s
      rw [shFactor_dim _ _ h0 hd, shFactor_dim _ _ (by positivity) (by rw [mul_div_assoc]; exact mul_lt_mul_of_pos_left hd hk)]
      simp
  exact ⟨o₁, o₂, a1, b1, by rw [a2, b2]; exact List.map_congr_left fun s _ => hfac s _,
    by rw [a3, b3]; exact List.map_congr_left fun s _ => hfac s _⟩

omit [LinearOrder K] [IsStrictOrderedRing K] in
/-- Sum over the pixels of a sub-aperture, by rows. -/
theorem sum_rows (n : Nat) (g : Nat → K) :
    ∑ p ∈ Finset.range (n * n), g p = ∑ r ∈ Finset.range n, ∑ j ∈ Finset.range n, g (r * n + j) :=
  (sum_blocks g n n).symm

/-- **C39** (symmetry): a spot equal to its mirror image (left to right) has x slope zero, with symmetric weights. -/
theorem C39_symmetric (c : ShCfg K) (a : Img K) (h : c.WF a) (hm : 0 < shMean c a) (out : ShOut K) (ho : shTrigger c a = some out)
    (s : Nat) (hs : s < c.idxs.length)
    (hsym : ∀ r < c.np, ∀ j < c.np, shW c a s (r * c.np + j) = shW c a s (r * c.np + (c.np - 1 - j))) :
    out.sx[s]? = some (some 0) := by
  obtain ⟨o, h1, -, -, h4⟩ := C39_centroid c a h hm
  obtain rfl : o = out := Option.some.inj (h1.symm.trans ho)
  rcases le_or_gt (shMean c a / 1000) (shTot c a s) with hb | hd
  · rw [((h4 s hs).1 hb).1, shCx, sum_rows]
    have hz : ∑ r ∈ Finset.range c.np, ∑ j ∈ Finset.range c.np,
        shW c a s (r * c.np + j) * (shPos c.np ((r * c.np + j) % c.np) : K) = 0 := by
      refine Finset.sum_eq_zero fun r hr => ?_
      have hr := Finset.mem_range.1 hr
      have hmod : ∀ j ∈ Finset.range c.np, shW c a s (r * c.np + j) * (shPos c.np ((r * c.np + j) % c.np) : K) =
          shW c a s (r * c.np + j) * shPos c.np j := by
        intro j hj
        rw [Nat.mul_comm r, Nat.mul_add_mod, Nat.mod_eq_of_lt (Finset.mem_range.1 hj)]
      rw [Finset.sum_congr rfl hmod]
      have hrefl := Finset.sum_range_reflect (fun j => shW c a s (r * c.np + j) * (shPos c.np j : K)) c.np
      have hneg : ∑ j ∈ Finset.range c.np, shW c a s (r * c.np + (c.np - 1 - j)) * (shPos c.np (c.np - 1 - j) : K) =
          - ∑ j ∈ Finset.range c.np, shW c a s (r * c.np + j) * (shPos c.np j : K) := by
        rw [← Finset.sum_neg_distrib]
        refine Finset.sum_congr rfl fun j hj => ?_
        have hj := Finset.mem_range.1 hj
        rw [← hsym r hr j hj]
        have hp : (shPos c.np (c.np - 1 - j) : K) = - shPos c.np j := by
          have hn : (c.np : K) ≠ 0 := Nat.cast_ne_zero.2 h.npos.ne'
          unfold shPos
          rw [Nat.cast_sub (by omega), Nat.cast_sub h.npos]
          push_cast
          field_simp
          ring
        rw [hp]
        ring
      have hrefl' : ∑ j ∈ Finset.range c.np, shW c a s (r * c.np + (c.np - 1 - j)) * (shPos c.np (c.np - 1 - j) : K) =
          ∑ j ∈ Finset.range c.np, shW c a s (r * c.np + j) * (shPos c.np j : K) := hrefl
      rw [hneg] at hrefl'
      linarith
    rw [hz, zero_div]
  · exact ((h4 s hs).2 hd).1

/-- **C39** (shift): moving a spot by one pixel to the right moves the x slope by the pitch of the pixels, `2/n`, and leaves the y
slope unchanged. -/
theorem C39_shift (c : ShCfg K) (a b : Img K) (ha : c.WF a) (hb : c.WF b) (hma : 0 < shMean c a) (hmb : 0 < shMean c b)
    (oa ob : ShOut K) (hoa : shTrigger c a = some oa) (hob : shTrigger c b = some ob) (s : Nat) (hs : s < c.idxs.length)
    (hone : ∀ r q, c.mask r q = 1)
    (hmove : ∀ r < c.np, ∀ j, j + 1 < c.np → shLight c b s (r * c.np + (j + 1)) = shLight c a s (r * c.np + j))
    (hfirst : ∀ r < c.np, shLight c b s (r * c.np) = 0) (hlast : ∀ r < c.np, shLight c a s (r * c.np + (c.np - 1)) = 0)
    (hba : shMean c a / 1000 ≤ shTot c a s) (hbb : shMean c b / 1000 ≤ shTot c b s) :
    ∃ x y, oa.sx[s]? = some (some x) ∧ oa.sy[s]? = some (some y) ∧ ob.sx[s]? = some (some (x + 2 / c.np)) ∧ ob.sy[s]? = some (some y) := by
  obtain ⟨o, h1, -, -, h4⟩ := C39_centroid c a ha hma
  obtain rfl : o = oa := Option.some.inj (h1.symm.trans hoa)
  obtain ⟨o', h1', -, -, h4'⟩ := C39_centroid c b hb hmb
  obtain rfl : o' = ob := Option.some.inj (h1'.symm.trans hob)
  obtain ⟨n, hn⟩ : ∃ n, c.np = n + 1 := ⟨c.np - 1, by have := ha.npos; omega⟩
  have hW : ∀ (z : Img K) p, shW c z s p = shLight c z s p := fun z p => by rw [shW, hone, mul_one]
  -- a weighted sum of the moved spot is the sum of the original with moved weights
  have hgen : ∀ u : Nat → Nat → K, ∑ p ∈ Finset.range (c.np * c.np), shW c b s p * u (p / c.np) (p % c.np) =
      ∑ p ∈ Finset.range (c.np * c.np), shW c a s p * u (p / c.np) (p % c.np + 1) := by
    intro u
    rw [sum_rows, sum_rows]
    refine Finset.sum_congr rfl fun r hr => ?_
    have hr := Finset.mem_range.1 hr
    have hmod : ∀ j < c.np, (r * c.np + j) % c.np = j ∧ (r * c.np + j) / c.np = r := by
      intro j hj
      rw [Nat.mul_comm r]
      exact ⟨by rw [Nat.mul_add_mod, Nat.mod_eq_of_lt hj], by rw [Nat.mul_add_div ha.npos, Nat.div_eq_of_lt hj, add_zero]⟩
    have e1 : ∑ j ∈ Finset.range c.np, shW c b s (r * c.np + j) * u ((r * c.np + j) / c.np) ((r * c.np + j) % c.np) =
        ∑ j ∈ Finset.range (n + 1), shLight c b s (r * c.np + j) * u r j := by
      rw [← hn]
      refine Finset.sum_congr rfl fun j hj => ?_
      rw [(hmod j (Finset.mem_range.1 hj)).1, (hmod j (Finset.mem_range.1 hj)).2, hW]
    have e2 : ∑ j ∈ Finset.range c.np, shW c a s (r * c.np + j) * u ((r * c.np + j) / c.np) ((r * c.np + j) % c.np + 1) =
        ∑ j ∈ Finset.range (n + 1), shLight c a s (r * c.np + j) * u r (j + 1) := by
      rw [← hn]
      refine Finset.sum_congr rfl fun j hj => ?_
      rw [(hmod j (Finset.mem_range.1 hj)).1, (hmod j (Finset.mem_range.1 hj)).2, hW]
    rw [e1, e2, Finset.sum_range_succ', Finset.sum_range_succ]
    have hl := hlast r hr
    rw [show c.np - 1 = n by omega] at hl
    rw [add_zero, hfirst r hr, hl, zero_mul, zero_mul]
    congr 1
    refine Finset.sum_congr rfl fun j hj => ?_
    rw [hmove r hr j (by have := Finset.mem_range.1 hj; omega)]
  have hT : shTot c b s = shTot c a s := by
    have := hgen fun _ _ => 1
    simpa [shTot] using this
  have hTa : shTot c a s ≠ 0 := (lt_of_lt_of_le (by positivity) hba).ne'
  have hnp : (c.np : K) ≠ 0 := Nat.cast_ne_zero.2 ha.npos.ne'
  refine ⟨_, _, ((h4 s hs).1 hba).1, ((h4 s hs).1 hba).2, ?_, ?_⟩
  · rw [((h4' s hs).1 hbb).1]
    have hx : shCx c b s = shCx c a s + 2 / c.np := by
      unfold shCx
      rw [hT, hgen fun _ j => shPos c.np j]
      have hpos : ∀ j, (shPos c.np (j + 1) : K) = shPos c.np j + 2 / c.np := by
        intro j
        unfold shPos
        push_cast
        field_simp
        ring
      simp only [hpos, mul_add, Finset.sum_add_distrib, ← Finset.sum_mul]
      change (_ + shTot c a s * (2 / (c.np : K))) / _ = _
      field_simp
    rw [hx]
  · rw [((h4' s hs).1 hbb).2]
    have hy : shCy c b s = shCy c a s := by
      unfold shCy
      rw [hT, hgen fun r _ => shPos c.np r]
    rw [hy]

/-- A frame without light in any sub-aperture gives slopes that are not numbers, in all sub-apertures, although a single dark
sub-aperture gives zero. -/
theorem C39_dark_not_finite (c : ShCfg K) (a : Img K) (h : c.WF a) (hz : ∀ s < c.idxs.length, shTot c a s = 0) :
    ∃ out, shTrigger c a = some out ∧ out.sx = List.replicate c.idxs.length none ∧ out.sy = List.replicate c.idxs.length none := by
  obtain ⟨out, h1, h2, h3, -⟩ := shTrigger_eq c a h
  have hm : shMean c a = 0 := by
    unfold shMean
    rw [Finset.sum_eq_zero fun s hs => hz s (Finset.mem_range.1 hs), zero_div]
  have hf : ∀ s < c.idxs.length, shFactor (shTot c a s) (shMean c a) = none := by
    intro s hs
    rw [hz s hs, hm]
    simp [shFactor]
  refine ⟨out, h1, ?_, ?_⟩
  · rw [h2, List.eq_replicate_iff]
    refine ⟨by simp, fun b hb => ?_⟩
    obtain ⟨s, hs, rfl⟩ := List.mem_map.1 hb
    rw [hf s (List.mem_range.1 hs)]
    rfl
  · rw [h3, List.eq_replicate_iff]
    refine ⟨by simp, fun b hb => ?_⟩
    obtain ⟨s, hs, rfl⟩ := List.mem_map.1 hb
    rw [hf s (List.mem_range.1 hs)]
    rfl

end

/-! ### Concrete cases -/

/-- Two sub-apertures of 2x2 pixels side by side on a frame of 2x4. -/
def shExample : ShCfg ℚ := ⟨[[0, 1, 4, 5], [2, 3, 6, 7]], 2, 1, fun _ _ => 1⟩

def shFrame : Img ℚ := ⟨2, 4, fun i j => if i = 0 then (if j = 0 then 4 else 2) else (if j = 0 then 1 else if j = 1 then 3 else 2)⟩

example : shExample.WF shFrame := ⟨by decide, by decide, by decide, by decide, fun _ _ => by norm_num [shExample]⟩

example : (shTrigger shExample shFrame).map (fun o => (o.sx, o.sy, o.flux, o.total)) =
    some ([some 0, some 0], [some (-1 / 6), some 0], [10, 8], 18) := by decide +kernel

example : 0 < shMean shExample shFrame := by decide +kernel

/-- A dark sub-aperture next to a bright one, and a dark frame. -/
example : (shTrigger shExample ⟨2, 4, fun _ j => if j = 1 then 4 else 0⟩).map (fun o => (o.sx, o.sy)) =
    some ([some (1 / 2), some 0], [some 0, some 0]) := by decide +kernel

example : (shTrigger shExample ⟨2, 4, fun _ _ => 1⟩).map (fun o => (o.sx, o.sy)) = some ([none, none], [none, none]) := by
  decide +kernel

/-- The hypotheses of the shift theorem: the spot in the left column of the first sub-aperture moved to the right column. -/
example : (shTrigger shExample ⟨2, 4, fun _ j => if j = 0 ∨ j = 2 then 4 else 0⟩).map (fun o => o.sx) = some [some (-1 / 2), some (-1 / 2)] ∧
    (shTrigger shExample ⟨2, 4, fun _ j => if j = 1 ∨ j = 2 then 4 else 0⟩).map (fun o => o.sx) = some [some (1 / 2), some (-1 / 2)] := by
  decide +kernel

end Specula
