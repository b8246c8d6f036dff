import Verif.Model.LocalMean
import Mathlib.Algebra.Order.BigOperators.Group.Finset
import Mathlib.Algebra.BigOperators.Ring.Finset
import Mathlib.Tactic.Linarith
import Mathlib.Tactic.FieldSimp
import Mathlib.Tactic.Ring
import Mathlib.Tactic.NormNum
/-
C104: filling the missing pixels of magnified layers.
-/
namespace Specula

open Finset

section
variable {K : Type} [Field K]

/-- Valid pixels of the layer, among those satisfying a condition. -/
def validPx (h w : ℕ) (mask : ℕ → ℕ → Bool) (c : ℕ × ℕ → Prop) [DecidablePred c] : Finset (ℕ × ℕ) :=
  (range h ×ˢ range w).filter fun p => mask p.1 p.2 = true ∧ c p

/-- Two pixels in the same block of `bs` by `bs`. -/
def SameBlock (bs : ℕ) (p q : ℕ × ℕ) : Prop := p.1 / bs = q.1 / bs ∧ p.2 / bs = q.2 / bs

instance (bs : ℕ) (p : ℕ × ℕ) : DecidablePred (SameBlock bs p) := fun q => by unfold SameBlock; infer_instance

theorem blockPx_eq {V : Type} (w bs : ℕ) (hb : 0 < bs) (hw : bs ∣ w) (x : ℕ → ℕ → V) (bi bj i j : ℕ) (hbj : bj < w / bs) (hj : j < bs) :
    blockPx w bs x bi bj i j = x (bi * bs + i) (bj * bs + j) := by
  obtain ⟨n, rfl⟩ := hw
  rw [Nat.mul_div_cancel_left _ hb] at hbj
  unfold blockPx
  dsimp only
  rw [Nat.mul_div_cancel_left _ hb]
  have f1 : ((bi * bs + i) * n + bj) * bs + j = (bj * bs + j) + (bi * bs + i) * (bs * n) := by ring
  have hlt : bj * bs + j < bs * n := by
    calc bj * bs + j < bj * bs + bs := by omega
      _ = bs * (bj + 1) := by ring
      _ ≤ bs * n := Nat.mul_le_mul_left _ hbj
  have hpos : 0 < bs * n := by omega
  rw [f1, Nat.add_mul_div_right _ _ hpos, Nat.div_eq_of_lt hlt, Nat.zero_add, Nat.add_mul_mod_self_right, Nat.mod_eq_of_lt hlt]

theorem cropTo_eq (h bs : ℕ) : cropTo h bs = bs * (h / bs) := by
  unfold cropTo
  have := Nat.div_add_mod h bs
  omega

theorem lt_cropTo (h bs i : ℕ) (hb : 0 < bs) : i < cropTo h bs ↔ i / bs < h / bs := by
  rw [cropTo_eq, Nat.div_lt_iff_lt_mul hb, Nat.mul_comm]

/-- Pixels of one block are `bs * bs` pixels of the layer. -/
theorem block_image (h w bs : ℕ) (hb : 0 < bs) (mask : ℕ → ℕ → Bool) (i j : ℕ) (hi : i < cropTo h bs) (hj : j < cropTo w bs) :
    validPx h w mask (SameBlock bs (i, j)) =
      ((range bs ×ˢ range bs).filter fun p => blockPx (cropTo w bs) bs mask (i / bs) (j / bs) p.1 p.2 = true).image
        fun p => (i / bs * bs + p.1, j / bs * bs + p.2) := by
  have hi' := (lt_cropTo h bs i hb).1 hi
  have hj' := (lt_cropTo w bs j hb).1 hj
  have hdw : bs ∣ cropTo w bs := ⟨_, cropTo_eq w bs⟩
  have hjw : j / bs < cropTo w bs / bs := by rw [cropTo_eq, Nat.mul_div_cancel_left _ hb]; exact hj'
  ext ⟨a, b⟩
  rw [mem_image]
  unfold validPx
  rw [mem_filter]
  simp only [SameBlock, mem_filter, mem_product, mem_range, Prod.mk.injEq, Prod.exists]
  constructor
  · rintro ⟨⟨ha, hbb⟩, hm, h1, h2⟩
    refine ⟨a % bs, b % bs, ⟨⟨Nat.mod_lt _ hb, Nat.mod_lt _ hb⟩, ?_⟩, ?_, ?_⟩
    · rw [blockPx_eq _ _ hb hdw _ _ _ _ _ hjw (Nat.mod_lt _ hb), h1, h2, Nat.mul_comm, Nat.div_add_mod, Nat.mul_comm, Nat.div_add_mod]
      exact hm
    · rw [h1, Nat.mul_comm, Nat.div_add_mod]
    · rw [h2, Nat.mul_comm, Nat.div_add_mod]
  · rintro ⟨x, y, ⟨⟨hx, hy⟩, hm⟩, rfl, rfl⟩
    rw [blockPx_eq _ _ hb hdw _ _ _ _ _ hjw hy] at hm
    have e1 : ∀ q x, x < bs → (q * bs + x) / bs = q := fun q x hx => by
      rw [Nat.add_comm, Nat.add_mul_div_right _ _ hb, Nat.div_eq_of_lt hx, Nat.zero_add]
    have e2 : ∀ q x n, x < bs → q < n / bs → q * bs + x < n := fun q x n hx hq => by
      have : (q * bs + x) / bs < n / bs := by rw [e1 q x hx]; exact hq
      by_contra hc
      exact absurd (Nat.div_le_div_right (c := bs) (Nat.le_of_not_lt hc)) (by omega)
    exact ⟨⟨e2 _ _ _ hx hi', e2 _ _ _ hy hj'⟩, hm, (e1 _ _ hx).symm, (e1 _ _ hy).symm⟩

theorem nanBlockMean_eq (h w bs : ℕ) (hb : 0 < bs) (arr : ℕ → ℕ → K) (mask : ℕ → ℕ → Bool) (i j : ℕ) (hi : i < cropTo h bs) (hj : j < cropTo w bs) :
    nanBlockMean (cropTo w bs) bs arr mask (i / bs) (j / bs) =
      nanMeanOf (validPx h w mask (SameBlock bs (i, j))).card (∑ p ∈ validPx h w mask (SameBlock bs (i, j)), arr p.1 p.2) := by
  have hj' := (lt_cropTo w bs j hb).1 hj
  have hdw : bs ∣ cropTo w bs := ⟨_, cropTo_eq w bs⟩
  have hjw : j / bs < cropTo w bs / bs := by rw [cropTo_eq, Nat.mul_div_cancel_left _ hb]; exact hj'
  have inj : Function.Injective (fun p : ℕ × ℕ => (i / bs * bs + p.1, j / bs * bs + p.2)) := by
    intro p q hpq
    obtain ⟨h1, h2⟩ := Prod.mk.inj hpq
    exact Prod.ext (by omega) (by omega)
  rw [block_image h w bs hb mask i j hi hj, card_image_of_injective _ inj, sum_image (fun p _ q _ hpq => inj hpq)]
  unfold nanBlockMean
  dsimp only
  congr 1
  refine sum_congr rfl fun p hp => ?_
  obtain ⟨hp, -⟩ := mem_filter.1 hp
  obtain ⟨-, hp2⟩ := mem_product.1 hp
  exact blockPx_eq _ _ hb hdw _ _ _ _ _ hjw (mem_range.1 hp2)

theorem nanMeanOf_none (n : ℕ) (s : K) : nanMeanOf n s = none ↔ n = 0 := by
  unfold nanMeanOf
  by_cases h : n = 0
  · simp [h]
  · simp [h]

theorem blockSize_spec (h bs : ℕ) (hb : blockSize h = some bs) : 0 < bs ∧ bs ∣ h := by
  have h1 := List.find?_some hb
  have h2 := List.mem_of_find?_eq_some hb
  simp only [beq_iff_eq] at h1
  refine ⟨?_, Nat.dvd_of_mod_eq_zero h1⟩
  rcases (by simpa using h2 : bs = 5 ∨ bs = 4 ∨ bs = 3 ∨ bs = 2) with h | h | h | h <;> omega

end

section
variable {K : Type} [Field K] [LinearOrder K] [IsStrictOrderedRing K]

/-- The amplitude is not zero. -/
def lit (l : PhaseLayer K) (i j : ℕ) : Bool := decide (l.amp i j ≠ 0)

omit [IsStrictOrderedRing K] in
/-- **C104** (valid pixels): whatever is done, the phase of the pixels with light does not change. -/
theorem C104_valid (l : PhaseLayer K) (phase : ℕ → ℕ → K) (out : ℕ → ℕ → Option K) (h : fillLayer l phase = some out) (i j : ℕ) (hv : l.amp i j ≠ 0) :
    out i j = some (phase i j) := by
  unfold fillLayer at h
  by_cases hm : max l.mag 1 ≠ 1
  · rw [if_pos hm] at h
    obtain ⟨bs, _, rfl⟩ := Option.map_eq_some_iff.1 h
    simp [hv]
  · rw [if_neg hm] at h
    cases h; rfl

omit [IsStrictOrderedRing K] in
/-- **C104** (only magnified layers): a layer whose magnification is not above one is left as it is. -/
theorem C104_same (l : PhaseLayer K) (phase : ℕ → ℕ → K) (hm : l.mag ≤ 1) : fillLayer l phase = some fun i j => some (phase i j) := by
  unfold fillLayer
  rw [if_neg (by rw [max_eq_right hm]; simp)]

omit [IsStrictOrderedRing K] in
/-- **C104** (sizes): a magnified layer can be filled when its number of rows can be divided by 2, 3 or 5, otherwise KeyError is raised; the side of the blocks
is the first of 5, 4, 3, 2 that divides it. -/
theorem C104_sizes (l : PhaseLayer K) (phase : ℕ → ℕ → K) (hm : 1 < l.mag) :
    (fillLayer l phase = none ↔ ¬(2 ∣ l.h) ∧ ¬(3 ∣ l.h) ∧ ¬(5 ∣ l.h)) ∧
    (∀ bs, blockSize l.h = some bs ↔ (bs = 5 ∧ 5 ∣ l.h) ∨ (bs = 4 ∧ 4 ∣ l.h ∧ ¬(5 ∣ l.h)) ∨ (bs = 3 ∧ 3 ∣ l.h ∧ ¬(5 ∣ l.h) ∧ ¬(4 ∣ l.h)) ∨
      (bs = 2 ∧ 2 ∣ l.h ∧ ¬(5 ∣ l.h) ∧ ¬(4 ∣ l.h) ∧ ¬(3 ∣ l.h))) := by
  have hmag : max l.mag 1 ≠ 1 := by rw [max_eq_left hm.le]; exact hm.ne'
  constructor
  · unfold fillLayer
    rw [if_pos hmag]
    simp only [Option.map_eq_none_iff, blockSize, List.find?_eq_none, List.mem_cons, List.not_mem_nil, or_false, beq_iff_eq, forall_eq_or_imp, forall_eq]
    omega
  · intro bs
    simp only [Nat.dvd_iff_mod_eq_zero]
    unfold blockSize
    by_cases h5 : l.h % 5 = 0
    · have b5 : (l.h % 5 == 0) = true := by simp [h5]
      simp [h5, List.find?, eq_comm]
    · have b5 : (l.h % 5 == 0) = false := by simp [h5]
      by_cases h4 : l.h % 4 = 0
      · simp [h5, h4, b5, List.find?, eq_comm]
      · have b4 : (l.h % 4 == 0) = false := by simp [h4]
        by_cases h3 : l.h % 3 = 0
        · simp [h5, h4, h3, b5, b4, List.find?, eq_comm]
        · have b3 : (l.h % 3 == 0) = false := by simp [h3]
          by_cases h2 : l.h % 2 = 0
          · simp [h5, h4, h3, h2, b5, b4, b3, List.find?, eq_comm]
          · have b2 : (l.h % 2 == 0) = false := by simp [h2]
            simp [h5, h4, h3, h2, b5, b4, b3, b2, List.find?]

omit [IsStrictOrderedRing K] in
/-- **C104** (missing pixels): a pixel with no light gets the mean of the pixels with light of its block; if there is none there, that of the whole layer. -/
theorem C104_fill (l : PhaseLayer K) (phase : ℕ → ℕ → K) (hm : 1 < l.mag) (bs : ℕ) (hb : blockSize l.h = some bs) (out : ℕ → ℕ → Option K)
    (h : fillLayer l phase = some out) (i j : ℕ) (hi : i < l.h) (hj : j / bs < l.w / bs) (hv : l.amp i j = 0) :
    ((validPx l.h l.w (lit l) (SameBlock bs (i, j))).Nonempty →
      out i j = some ((∑ p ∈ validPx l.h l.w (lit l) (SameBlock bs (i, j)), phase p.1 p.2) / (validPx l.h l.w (lit l) (SameBlock bs (i, j))).card)) ∧
    (¬(validPx l.h l.w (lit l) (SameBlock bs (i, j))).Nonempty → (validPx l.h l.w (lit l) fun _ => True).Nonempty →
      out i j = some ((∑ p ∈ validPx l.h l.w (lit l) (fun _ => True), phase p.1 p.2) / (validPx l.h l.w (lit l) fun _ => True).card)) := by
  obtain ⟨hpos, hdvd⟩ := blockSize_spec _ _ hb
  have hmag : max l.mag 1 ≠ 1 := by rw [max_eq_left hm.le]; exact hm.ne'
  unfold fillLayer at h
  rw [if_pos hmag, hb] at h
  cases h
  have hci : i < cropTo l.h bs := by rw [cropTo_eq, Nat.mul_div_cancel' hdvd]; exact hi
  have hcj : j < cropTo l.w bs := (lt_cropTo l.w bs j hpos).2 hj
  have hval : (if (decide (l.amp i j ≠ 0)) = true then some (phase i j) else localMeanRebin l.h l.w bs phase (fun i j => decide (l.amp i j ≠ 0)) i j) =
      localMeanRebin l.h l.w bs phase (lit l) i j := by
    rw [if_neg (by simp [hv])]; rfl
  have hall : (validPx l.h l.w (lit l) fun _ => True) = (range l.h ×ˢ range l.w).filter fun p => lit l p.1 p.2 = true := by
    unfold validPx
    simp
  dsimp only
  rw [hval]
  unfold localMeanRebin
  rw [if_pos ⟨hci, hcj⟩]
  dsimp only
  rw [nanBlockMean_eq l.h l.w bs hpos phase (lit l) i j hci hcj]
  constructor
  · intro hn
    have hc : (validPx l.h l.w (lit l) (SameBlock bs (i, j))).card ≠ 0 := by rw [Ne, card_eq_zero]; exact hn.ne_empty
    rw [if_neg (by rw [nanMeanOf_none]; exact hc)]
    unfold nanMeanOf
    rw [if_neg hc]
  · intro hn hg
    have hc : (validPx l.h l.w (lit l) (SameBlock bs (i, j))).card = 0 := by rw [card_eq_zero]; exact not_nonempty_iff_eq_empty.1 hn
    rw [if_pos (by rw [nanMeanOf_none]; exact hc)]
    have hg' : (validPx l.h l.w (lit l) fun _ => True).card ≠ 0 := by rw [Ne, card_eq_zero]; exact hg.ne_empty
    unfold globalMean
    dsimp only
    rw [← hall]
    unfold nanMeanOf
    rw [if_neg hg']

theorem mean_between (s : Finset (ℕ × ℕ)) (hs : s.Nonempty) (f : ℕ × ℕ → K) (lo hi : K) (h : ∀ p ∈ s, lo ≤ f p ∧ f p ≤ hi) :
    lo ≤ (∑ p ∈ s, f p) / s.card ∧ (∑ p ∈ s, f p) / s.card ≤ hi := by
  have hc : (0 : K) < s.card := by exact_mod_cast card_pos.2 hs
  constructor
  · rw [le_div_iff₀ hc, mul_comm, ← nsmul_eq_mul]
    exact card_nsmul_le_sum _ _ _ fun p hp => (h p hp).1
  · rw [div_le_iff₀ hc, mul_comm, ← nsmul_eq_mul]
    exact sum_le_card_nsmul _ _ _ fun p hp => (h p hp).2

/-- **C104** (range): when every pixel of the layer is in a block and some pixel has light, no pixel of the filled layer is NaN, and all are between the smallest and the largest
phase of the pixels with light. -/
theorem C104_range (l : PhaseLayer K) (phase : ℕ → ℕ → K) (hm : 1 < l.mag) (bs : ℕ) (hb : blockSize l.h = some bs) (hw : bs ∣ l.w) (out : ℕ → ℕ → Option K)
    (h : fillLayer l phase = some out) (hlight : ∃ i < l.h, ∃ j < l.w, l.amp i j ≠ 0) (lo hi : K)
    (hr : ∀ i < l.h, ∀ j < l.w, l.amp i j ≠ 0 → lo ≤ phase i j ∧ phase i j ≤ hi) (i j : ℕ) (hi' : i < l.h) (hj : j < l.w) :
    ∃ v, out i j = some v ∧ lo ≤ v ∧ v ≤ hi := by
  by_cases hv : l.amp i j = 0
  · obtain ⟨hpos, -⟩ := blockSize_spec _ _ hb
    have hjb : j / bs < l.w / bs := Nat.div_lt_div_of_lt_of_dvd hw hj
    obtain ⟨f1, f2⟩ := C104_fill l phase hm bs hb out h i j hi' hjb hv
    have hin : ∀ (c : ℕ × ℕ → Prop) [DecidablePred c], ∀ p ∈ validPx l.h l.w (lit l) c, lo ≤ phase p.1 p.2 ∧ phase p.1 p.2 ≤ hi := by
      intro c _ p hp
      simp only [validPx, lit, mem_filter, mem_product, mem_range, decide_eq_true_eq] at hp
      exact hr _ hp.1.1 _ hp.1.2 hp.2.1
    by_cases hn : (validPx l.h l.w (lit l) (SameBlock bs (i, j))).Nonempty
    · exact ⟨_, f1 hn, mean_between _ hn (fun p => phase p.1 p.2) lo hi (hin _)⟩
    · obtain ⟨a, ha, b, hb', hab⟩ := hlight
      have hg : (validPx l.h l.w (lit l) fun _ => True).Nonempty := ⟨(a, b), by simp [validPx, lit, ha, hb', hab]⟩
      exact ⟨_, f2 hn hg, mean_between _ hg (fun p => phase p.1 p.2) lo hi (hin _)⟩
  · exact ⟨_, C104_valid l phase out h i j hv, hr i hi' j hj hv⟩

omit [LinearOrder K] [IsStrictOrderedRing K] in
theorem localMean_congr (h w bs : ℕ) (hb : 0 < bs) (mask : ℕ → ℕ → Bool) (x y : ℕ → ℕ → K) (hxy : ∀ i < h, ∀ j < w, mask i j = true → x i j = y i j) (i j : ℕ) :
    localMeanRebin h w bs x mask i j = localMeanRebin h w bs y mask i j := by
  have hs : ∀ (c : ℕ × ℕ → Prop) [DecidablePred c], ∑ p ∈ validPx h w mask c, x p.1 p.2 = ∑ p ∈ validPx h w mask c, y p.1 p.2 := by
    intro c _
    refine sum_congr rfl fun p hp => ?_
    simp only [validPx, mem_filter, mem_product, mem_range] at hp
    exact hxy _ hp.1.1 _ hp.1.2 hp.2.1
  have hall : (validPx h w mask fun _ => True) = (range h ×ˢ range w).filter fun p => mask p.1 p.2 = true := by unfold validPx; simp
  unfold localMeanRebin
  by_cases hc : i < cropTo h bs ∧ j < cropTo w bs
  · rw [if_pos hc, if_pos hc]
    dsimp only
    rw [nanBlockMean_eq h w bs hb x mask i j hc.1 hc.2, nanBlockMean_eq h w bs hb y mask i j hc.1 hc.2, hs]
    unfold globalMean
    dsimp only
    rw [← hall, hs]
  · rw [if_neg hc, if_neg hc]

omit [IsStrictOrderedRing K] in
/-- **C104** (once is enough): the missing pixels are filled from the valid ones only, so whatever they held before, and however many times the layer is filled, the result is
the same. -/
theorem C104_once (l : PhaseLayer K) (phase phase' : ℕ → ℕ → K) (hm : 1 < l.mag) (hp : ∀ i < l.h, ∀ j < l.w, l.amp i j ≠ 0 → phase' i j = phase i j)
    (out out' : ℕ → ℕ → Option K) (h : fillLayer l phase = some out) (h' : fillLayer l phase' = some out') (i j : ℕ) (hi : i < l.h) (hj : j < l.w) : out' i j = out i j := by
  have hmag : max l.mag 1 ≠ 1 := by rw [max_eq_left hm.le]; exact hm.ne'
  unfold fillLayer at h h'
  rw [if_pos hmag] at h h'
  obtain ⟨bs, hb, rfl⟩ := Option.map_eq_some_iff.1 h
  obtain ⟨bs', hb', rfl⟩ := Option.map_eq_some_iff.1 h'
  rw [hb] at hb'
  cases hb'
  obtain ⟨hpos, -⟩ := blockSize_spec _ _ hb
  dsimp only
  by_cases hv : l.amp i j = 0
  · rw [if_neg (by simp [hv]), if_neg (by simp [hv])]
    exact localMean_congr _ _ _ hpos _ _ _ (fun a ha b hb hab => hp a ha b hb (by simpa using hab)) i j
  · rw [if_pos (by simp [hv]), if_pos (by simp [hv]), hp i hi j hj hv]

omit [IsStrictOrderedRing K] in
/-- **C104** (the code disagrees): the blocks are chosen from the number of rows only; in a layer whose number of columns is not a multiple of it, the pixels with no light in the columns
left over become NaN. -/
theorem C104_columns (l : PhaseLayer K) (phase : ℕ → ℕ → K) (hm : 1 < l.mag) (bs : ℕ) (hb : blockSize l.h = some bs) (out : ℕ → ℕ → Option K)
    (h : fillLayer l phase = some out) (i j : ℕ) (hj : l.w / bs ≤ j / bs) (hv : l.amp i j = 0) : out i j = none := by
  obtain ⟨hpos, -⟩ := blockSize_spec _ _ hb
  have hmag : max l.mag 1 ≠ 1 := by rw [max_eq_left hm.le]; exact hm.ne'
  unfold fillLayer at h
  rw [if_pos hmag, hb] at h
  cases h
  dsimp only
  rw [if_neg (by simp [hv])]
  unfold localMeanRebin
  rw [if_neg]
  intro hc
  exact absurd ((lt_cropTo _ _ _ hpos).1 hc.2) (by omega)

omit [IsStrictOrderedRing K] in
/-- **C104** (the code disagrees): a magnified layer with no light at all becomes NaN everywhere. -/
theorem C104_dark (l : PhaseLayer K) (phase : ℕ → ℕ → K) (hm : 1 < l.mag) (out : ℕ → ℕ → Option K) (h : fillLayer l phase = some out) (hdark : ∀ i j, l.amp i j = 0) (i j : ℕ) :
    out i j = none := by
  have hmag : max l.mag 1 ≠ 1 := by rw [max_eq_left hm.le]; exact hm.ne'
  unfold fillLayer at h
  rw [if_pos hmag] at h
  obtain ⟨bs, hb, rfl⟩ := Option.map_eq_some_iff.1 h
  dsimp only
  rw [if_neg (by simp [hdark])]
  unfold localMeanRebin
  by_cases hc : i < cropTo l.h bs ∧ j < cropTo l.w bs
  · rw [if_pos hc]
    dsimp only
    have e1 : ∀ a b c d : ℕ, blockPx (cropTo l.w bs) bs (fun i j => decide (l.amp i j ≠ 0)) a b c d = false := by intro a b c d; simp [blockPx, hdark]
    have e2 : nanBlockMean (cropTo l.w bs) bs phase (fun i j => decide (l.amp i j ≠ 0)) (i / bs) (j / bs) = none := by
      unfold nanBlockMean
      dsimp only
      rw [nanMeanOf_none, card_eq_zero, filter_eq_empty_iff]
      intro p _
      rw [e1]; simp
    rw [if_pos e2]
    unfold globalMean
    dsimp only
    rw [nanMeanOf_none, card_eq_zero, filter_eq_empty_iff]
    intro p _
    simp [hdark]
  · rw [if_neg hc]

end

/-! ### Examples -/

/-- Four by four, blocks of four: one dark pixel gets the mean of the other fifteen. -/
example : ((fillLayer (K := ℚ) ⟨4, 4, fun i j => if i = 1 ∧ j = 2 then 0 else 1, 2⟩ (fun i _ => i)).map fun o => (o 0 0, o 1 2)) = some (some 0, some (23 / 15)) := by decide +kernel

/-- Blocks of three with one dark block: it gets the mean of the layer; five columns leave the last two out. -/
example : ((fillLayer (K := ℚ) ⟨3, 6, fun _ j => if j < 3 then 0 else 1, 2⟩ (fun _ j => j)).map fun o => (o 0 0, o 1 4)) = some (some 4, some 4) := by decide +kernel
example : ((fillLayer (K := ℚ) ⟨3, 5, fun _ j => if j < 3 then 1 else 0, 2⟩ (fun _ j => j)).map fun o => (o 0 0, o 1 4)) = some (some 0, none) := by decide +kernel
example : (fillLayer (K := ℚ) ⟨7, 7, fun _ _ => 1, 2⟩ (fun _ j => j)).isNone = true := by decide +kernel

end Specula
