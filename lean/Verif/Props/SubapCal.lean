import Mathlib.Tactic.Linarith
import Mathlib.Tactic.Ring
import Mathlib.Tactic.FieldSimp
import Mathlib.Tactic.NormNum
import Mathlib.Data.Rat.Floor
import Mathlib.Data.Nat.Sqrt
import Mathlib.Data.List.Nodup
import Verif.Model.SubapCal
import Verif.Props.Ccd
import Verif.Props.Interp
import Verif.Props.ShSlopes
/-
C74: the sub-apertures found in a calibration image.
-/
namespace Specula

/-! ### Specification -/

/-- Flat indices of the block `bi, bj` of side `s`, row after row, in an image with `cols` columns. -/
def blockIdx (cols s bi bj : Nat) : List Nat := (List.range (s * s)).map fun p => (bi * s + p / s) * cols + (bj * s + p % s)

/-- Light in that block. -/
def blockSum {K : Type} [AddCommMonoid K] (a : Img K) (s bi bj : Nat) : K := ∑ u ∈ Finset.range s, ∑ v ∈ Finset.range s, a.px (bi * s + u) (bj * s + v)

/-- Blocks, column of blocks after column of blocks. -/
def blocks (n : Nat) : List (Nat × Nat) := (List.range n).flatMap fun bj => (List.range n).map fun bi => (bi, bj)

theorem mem_blocks {n : Nat} {b : Nat × Nat} : b ∈ blocks n ↔ b.1 < n ∧ b.2 < n := by
  unfold blocks
  simp only [List.mem_flatMap, List.mem_range, List.mem_map]
  constructor
  · rintro ⟨j, hj, i, hi, rfl⟩
    exact ⟨hi, hj⟩
  · rintro ⟨h1, h2⟩
    exact ⟨b.2, h2, b.1, h1, rfl⟩

theorem nodup_blocks (n : Nat) : (blocks n).Nodup := by
  unfold blocks
  rw [List.nodup_flatMap]
  constructor
  · intro j _
    refine List.Nodup.map ?_ List.nodup_range
    intro x y h
    exact (Prod.mk.inj h).1
  · refine List.Pairwise.imp_of_mem ?_ List.nodup_range
    intro x y _ _ hxy
    simp only [Function.onFun, List.disjoint_left, List.mem_map, not_exists, not_and]
    rintro _ ⟨i, _, rfl⟩ i' _ h
    exact hxy (Prod.mk.inj h).2.symm

/-! ### Lists -/

theorem flatMap_range_map {α : Type} (m n : Nat) (f : Nat → Nat → α) :
    ((List.range m).flatMap fun i => (List.range n).map fun j => f i j) = (List.range (m * n)).map fun p => f (p / n) (p % n) := by
  induction m with
  | zero => simp
  | succ m ih =>
    rw [List.range_succ, List.flatMap_append, ih, Nat.succ_mul, List.range_add, List.map_append]
    congr 1
    rw [List.flatMap_singleton, List.map_map]
    refine List.map_congr_left fun j hj => ?_
    have hj := List.mem_range.1 hj
    have hn : 0 < n := by omega
    simp only [Function.comp]
    rw [Nat.mul_comm m n, Nat.mul_add_div hn, Nat.div_eq_of_lt hj, Nat.mul_add_mod, Nat.mod_eq_of_lt hj, Nat.add_zero]

theorem slicePos_block (len lo s : Nat) (h : lo + s ≤ len) : slicePos len (lo : Int) ((lo + s : Nat) : Int) = (List.range s).map fun u => lo + u := by
  unfold slicePos
  dsimp only
  rw [if_neg (by omega), if_neg (by omega), Int.toNat_natCast, Int.toNat_natCast, Nat.min_eq_left (by omega), Nat.min_eq_left h, Nat.add_sub_cancel_left, List.range'_eq_map_range]

theorem length_blockIdx (cols s bi bj : Nat) : (blockIdx cols s bi bj).length = s * s := by
  unfold blockIdx
  rw [List.length_map, List.length_range]

section
variable {K : Type} [Field K] [LinearOrder K] [IsStrictOrderedRing K] [FloorRing K]

/-- The positions of the lenslets are those of a regular grid of `n` by `n` on an image of side `n * s`, within half a pixel. -/
structure LensNear (n s : Nat) (lens : Nat → Nat → K × K) (size : K) : Prop where
  x : ∀ i < n, ∀ j < n, |((n * s : Nat) : K) / 2 * (1 + (lens i j).1) - ((j : K) + 1 / 2) * s| < 1 / 2
  y : ∀ i < n, ∀ j < n, |((n * s : Nat) : K) / 2 * (1 + (lens i j).2) - ((i : K) + 1 / 2) * s| < 1 / 2
  size : |((n * s : Nat) : K) / 2 * size - s| < 1 / 2

theorem round_low (s q : Nat) (x : K) (h : |x - ((q : K) + 1 / 2) * s| < 1 / 2) : roundEvenF (x - (s : K) / 2) = ((q * s : Nat) : Int) := by
  refine roundEvenF_eq _ _ ?_
  push_cast
  rwa [show x - (s : K) / 2 - (q : K) * s = x - ((q : K) + 1 / 2) * s by ring]

theorem round_high (s q : Nat) (x : K) (h : |x - ((q : K) + 1 / 2) * s| < 1 / 2) : roundEvenF (x + (s : K) / 2) = ((q * s + s : Nat) : Int) := by
  refine roundEvenF_eq _ _ ?_
  push_cast
  rwa [show x + (s : K) / 2 - ((q : K) * s + s) = x - ((q : K) + 1 / 2) * s by ring]

theorem subapIdx_block (a : Img K) (n s i j : Nat) (hr : a.rows = n * s) (hc : a.cols = n * s) (hi : i < n) (hj : j < n) (x y : K)
    (hx : |x - ((j : K) + 1 / 2) * s| < 1 / 2) (hy : |y - ((i : K) + 1 / 2) * s| < 1 / 2) : subapIdx a s x y = blockIdx (n * s) s j i := by
  have hfit : ∀ q < n, q * s + s ≤ n * s := by
    intro q hq
    rw [← Nat.succ_mul]
    exact Nat.mul_le_mul_right s hq
  unfold subapIdx blockIdx
  rw [round_low s j x hx, round_high s j x hx, round_low s i y hy, round_high s i y hy, hr, hc, slicePos_block _ _ _ (hfit j hj), slicePos_block _ _ _ (hfit i hi), List.flatMap_map]
  simp only [List.map_map, Function.comp_def]
  exact flatMap_range_map s s fun u v => (j * s + u) * (n * s) + (i * s + v)

omit [LinearOrder K] [IsStrictOrderedRing K] [FloorRing K] in
theorem blockIdx_sum (a : Img K) (n s i j : Nat) (hc : a.cols = n * s) (hi : i < n) :
    ((blockIdx (n * s) s j i).map fun q => a.px (q / a.cols) (q % a.cols)).sum = blockSum a s j i := by
  have e : (blockIdx (n * s) s j i).map (fun q => a.px (q / a.cols) (q % a.cols)) = (List.range s).flatMap fun u => (List.range s).map fun v => a.px (j * s + u) (i * s + v) := by
    rw [flatMap_range_map s s fun u v => a.px (j * s + u) (i * s + v)]
    unfold blockIdx
    rw [List.map_map]
    refine List.map_congr_left fun p hp => ?_
    have hp := List.mem_range.1 hp
    have hs : 0 < s := by
      rcases Nat.eq_zero_or_pos s with h | h
      · subst h; simp at hp
      · exact h
    have hv := Nat.mod_lt p hs
    have hlt : i * s + p % s < n * s := by
      have : (i + 1) * s ≤ n * s := Nat.mul_le_mul_right s hi
      rw [Nat.succ_mul] at this
      omega
    simp only [Function.comp]
    rw [hc, Nat.mul_comm (j * s + p / s) (n * s), Nat.mul_add_div (by omega), Nat.div_eq_of_lt hlt, Nat.mul_add_mod, Nat.mod_eq_of_lt hlt, Nat.add_zero]
  rw [e, List.flatMap_def, List.sum_flatten, List.map_map]
  unfold blockSum
  rw [sum_range_map_list]
  refine Finset.sum_congr rfl fun u _ => ?_
  simp only [Function.comp]
  rw [sum_range_map_list]

omit [IsStrictOrderedRing K] [FloorRing K] in
/-- The blocks are the pairs of the loops, exchanged. -/
theorem pairs_blocks (n : Nat) : ((List.range n).flatMap fun i => (List.range n).map fun j => (i, j)) = (blocks n).map Prod.swap := by
  unfold blocks
  rw [List.map_flatMap]
  congr 1
  funext i
  rw [List.map_map]
  rfl

/-- C74.  On an image of side `n * s` the calibrator returns exactly the blocks of side `s` whose light exceeds the threshold times the light of the brightest one, each with
its pixels row after row and its place on the map, in the order of the columns; or an error if there are none.  Errors below half a pixel in the lenslets do not matter. -/
theorem C74_blocks (n s : Nat) (hn : 0 < n) (a : Img K) (hr : a.rows = n * s) (hc : a.cols = n * s) (lens : Nat → Nat → K × K) (size th : K) (hl : LensNear n s lens size) :
    ∃ M, (∃ bi < n, ∃ bj < n, blockSum a s bi bj = M) ∧ (∀ bi < n, ∀ bj < n, blockSum a s bi bj ≤ M) ∧
      let sel := (blocks n).filter fun b => decide (th * M < blockSum a s b.1 b.2)
      detectSubaps n lens size th a =
        if sel = [] then none else some ⟨s, sel.map fun b => blockIdx (n * s) s b.1 b.2, sel.map fun b => b.1 * n + b.2⟩ := by
  have hsub : roundEvenF ((a.rows : K) / 2 * size) = (s : Int) := by
    rw [hr]
    exact roundEvenF_eq _ _ (by exact_mod_cast hl.size)
  have hidx : ∀ b ∈ blocks n, subapIdx a s ((a.rows : K) / 2 * (1 + (lens b.2 b.1).1)) ((a.rows : K) / 2 * (1 + (lens b.2 b.1).2)) = blockIdx (n * s) s b.1 b.2 := by
    intro b hb
    obtain ⟨h1, h2⟩ := mem_blocks.1 hb
    rw [hr]
    exact subapIdx_block a n s b.2 b.1 hr hc h2 h1 _ _ (hl.x _ h2 _ h1) (hl.y _ h2 _ h1)
  unfold detectSubaps
  simp only [hsub, Int.toNat_natCast, pairs_blocks, List.map_map, List.filter_map]
  have hspot : (blocks n).map ((fun p : Nat × Nat => ((subapIdx a s ((a.rows : K) / 2 * (1 + (lens p.1 p.2).1)) ((a.rows : K) / 2 * (1 + (lens p.1 p.2).2))).map
      fun q => a.px (q / a.cols) (q % a.cols)).sum) ∘ Prod.swap) = (blocks n).map fun b => blockSum a s b.1 b.2 := by
    refine List.map_congr_left fun b hb => ?_
    simp only [Function.comp, Prod.fst_swap, Prod.snd_swap]
    rw [hidx b hb, blockIdx_sum a n s b.2 b.1 hc (mem_blocks.1 hb).2]
  rw [hspot]
  have hne : ((blocks n).map fun b => blockSum a s b.1 b.2) ≠ [] := by
    have : ((0, 0) : Nat × Nat) ∈ blocks n := mem_blocks.2 ⟨hn, hn⟩
    intro h
    rw [List.map_eq_nil_iff] at h
    rw [h] at this
    exact absurd this List.not_mem_nil
  obtain ⟨M, hM⟩ := Option.ne_none_iff_exists'.1 (fun h => hne (List.max?_eq_none_iff.1 h))
  obtain ⟨hm1, hm2⟩ := List.max?_eq_some_iff.1 hM
  refine ⟨M, ?_, ?_, ?_⟩
  · obtain ⟨b, hb, rfl⟩ := List.mem_map.1 hm1
    obtain ⟨h1, h2⟩ := mem_blocks.1 hb
    exact ⟨b.1, h1, b.2, h2, rfl⟩
  · intro bi h1 bj h2
    exact hm2 _ (List.mem_map.2 ⟨(bi, bj), mem_blocks.2 ⟨h1, h2⟩, rfl⟩)
  · rw [hM, Option.bind_some]
    have hfil : (blocks n).filter ((fun p : Nat × Nat => decide (th * M < ((subapIdx a s ((a.rows : K) / 2 * (1 + (lens p.1 p.2).1)) ((a.rows : K) / 2 * (1 + (lens p.1 p.2).2))).map
      fun q => a.px (q / a.cols) (q % a.cols)).sum)) ∘ Prod.swap) = (blocks n).filter fun b => decide (th * M < blockSum a s b.1 b.2) := by
      refine List.filter_congr fun b hb => decide_eq_decide.2 ?_
      simp only [Prod.fst_swap, Prod.snd_swap]
      rw [hidx b hb, blockIdx_sum a n s b.2 b.1 hc (mem_blocks.1 hb).2]
    rw [hfil]
    simp only [List.map_eq_nil_iff]
    congr 1
    have hmapM : (((blocks n).filter fun b => decide (th * M < blockSum a s b.1 b.2)).map Prod.swap).mapM
        (fun p : Nat × Nat => assignRow (s * s) (subapIdx a s ((a.rows : K) / 2 * (1 + (lens p.1 p.2).1)) ((a.rows : K) / 2 * (1 + (lens p.1 p.2).2)))) =
        some ((((blocks n).filter fun b => decide (th * M < blockSum a s b.1 b.2)).map Prod.swap).map fun p => blockIdx (n * s) s p.2 p.1) := by
      refine mapM_all_some _ _ _ fun p hp => ?_
      obtain ⟨b, hb, rfl⟩ := List.mem_map.1 hp
      simp only [Prod.fst_swap, Prod.snd_swap]
      rw [hidx b (List.mem_of_mem_filter hb)]
      unfold assignRow
      rw [if_pos (length_blockIdx _ _ _ _)]
    rw [hmapM]
    simp only [Option.map_some, List.map_map]
    rfl

/-- C74.  The lenslets of the code, without rounding, are on the grid. -/
theorem C74_lenslets (n s : Nat) (hn : 0 < n) : LensNear (K := K) n s (lensletXY n) (lensletSize n) := by
  have hK : (n : K) ≠ 0 := by exact_mod_cast hn.ne'
  have key : ∀ q : Nat, 1 < n → ((n * s : Nat) : K) / 2 * (1 + makeXY n 1 q) - ((q : K) + 1 / 2) * s = 0 := by
    intro q _
    unfold makeXY
    push_cast
    field_simp
    ring
  have one : ∀ q < n, ¬ 1 < n → ((n * s : Nat) : K) / 2 * (1 + 0) - ((q : K) + 1 / 2) * s = 0 := by
    intro q hq h1
    have h2 : n = 1 := by omega
    subst h2
    have h3 : q = 0 := by omega
    subst h3
    push_cast
    ring
  refine ⟨?_, ?_, ?_⟩
  · intro i hi j hj
    unfold lensletXY
    by_cases h : 1 < n
    · rw [if_pos h, key j h, abs_zero]; norm_num
    · rw [if_neg h, one j hj h, abs_zero]; norm_num
  · intro i hi j hj
    unfold lensletXY
    by_cases h : 1 < n
    · rw [if_pos h, key i h, abs_zero]; norm_num
    · rw [if_neg h, one i hi h, abs_zero]; norm_num
  · unfold lensletSize
    push_cast
    rw [show (n : K) * s / 2 * (2 / n) - s = 0 by field_simp; ring, abs_zero]
    norm_num

/-- C74.  What is needed of the result: positions on the map are distinct, and are those of the blocks bright enough; sub-aperture `k` has the pixels of the block at its position
on the map. -/
theorem C74_map (n s : Nat) (hn : 0 < n) (a : Img K) (hr : a.rows = n * s) (hc : a.cols = n * s) (lens : Nat → Nat → K × K) (size th : K) (hl : LensNear n s lens size)
    (r : Subaps) (h : detectSubaps n lens size th a = some r) :
    r.npSub = s ∧ r.idxs.length = r.map.length ∧ r.map.Nodup ∧
      (∀ k (hk : k < r.map.length), r.map[k] < n * n ∧ r.idxs.getD k [] = blockIdx (n * s) s (r.map[k] / n) (r.map[k] % n)) ∧
      ∀ bi < n, ∀ bj < n, (bi * n + bj ∈ r.map ↔ ∀ ci < n, ∀ cj < n, (∀ di < n, ∀ dj < n, blockSum a s di dj ≤ blockSum a s ci cj) → th * blockSum a s ci cj < blockSum a s bi bj) ∧
        subapMask n r bi bj = if bi * n + bj ∈ r.map then 1 else 0 := by
  obtain ⟨M, ⟨mi, hmi, mj, hmj, hM⟩, hmax, hd⟩ := C74_blocks n s hn a hr hc lens size th hl
  dsimp only at hd
  rw [hd] at h
  set sel := (blocks n).filter fun b => decide (th * M < blockSum a s b.1 b.2) with hsel
  split_ifs at h with hne
  have h := (Option.some.inj h).symm
  subst h
  have hmem : ∀ b ∈ sel, b.1 < n ∧ b.2 < n := fun b hb => mem_blocks.1 (List.mem_of_mem_filter hb)
  refine ⟨rfl, by simp, ?_, ?_, ?_⟩
  · dsimp only
    refine List.Nodup.map_on ?_ ((nodup_blocks n).filter _)
    intro x hx y hy hxy
    have h1 := hmem x hx
    have h2 := hmem y hy
    have e : ∀ p q : Nat, q < n → (p * n + q) / n = p ∧ (p * n + q) % n = q := by
      intro p q hq
      rw [Nat.mul_comm]
      exact ⟨by rw [Nat.mul_add_div hn, Nat.div_eq_of_lt hq, Nat.add_zero], by rw [Nat.mul_add_mod, Nat.mod_eq_of_lt hq]⟩
    have e1 := e x.1 x.2 h1.2
    have e2 := e y.1 y.2 h2.2
    rw [hxy] at e1
    exact Prod.ext (e1.1.symm.trans e2.1) (e1.2.symm.trans e2.2)
  · intro k hk
    dsimp only at hk ⊢
    rw [List.length_map] at hk
    have hb := hmem _ (List.getElem_mem hk)
    rw [List.getElem_map, List.getD_eq_getElem?_getD, List.getElem?_map, List.getElem?_eq_getElem hk, Option.map_some, Option.getD_some]
    have e1 : (sel[k].1 * n + sel[k].2) / n = sel[k].1 := by rw [Nat.mul_comm, Nat.mul_add_div hn, Nat.div_eq_of_lt hb.2, Nat.add_zero]
    have e2 : (sel[k].1 * n + sel[k].2) % n = sel[k].2 := by rw [Nat.mul_comm, Nat.mul_add_mod, Nat.mod_eq_of_lt hb.2]
    rw [e1, e2]
    refine ⟨?_, rfl⟩
    have : (sel[k].1 + 1) * n ≤ n * n := Nat.mul_le_mul_right n hb.1
    rw [Nat.succ_mul] at this
    omega
  · intro bi hi bj hj
    refine ⟨?_, rfl⟩
    dsimp only
    have hin : bi * n + bj ∈ sel.map (fun b => b.1 * n + b.2) ↔ th * M < blockSum a s bi bj := by
      rw [List.mem_map]
      constructor
      · rintro ⟨b, hb, e⟩
        have hb' := hmem b hb
        have e1 : b.1 = bi := by
          have := congrArg (· / n) e
          simpa only [Nat.mul_comm _ n, Nat.mul_add_div hn, Nat.div_eq_of_lt hb'.2, Nat.div_eq_of_lt hj, Nat.add_zero] using this
        have e2 : b.2 = bj := by
          have := congrArg (· % n) e
          simpa only [Nat.mul_comm _ n, Nat.mul_add_mod, Nat.mod_eq_of_lt hb'.2, Nat.mod_eq_of_lt hj] using this
        have := (List.mem_filter.1 hb).2
        rw [e1, e2] at this
        exact of_decide_eq_true this
      · intro h
        exact ⟨(bi, bj), List.mem_filter.2 ⟨mem_blocks.2 ⟨hi, hj⟩, decide_eq_true h⟩, rfl⟩
    rw [hin]
    constructor
    · intro h ci hci cj hcj hmx
      have : M = blockSum a s ci cj := le_antisymm (by rw [← hM]; exact hmx _ hmi _ hmj) (hmax _ hci _ hcj)
      rwa [← this]
    · intro h
      have := h mi hmi mj hmj (fun di hdi dj hdj => by rw [hM]; exact hmax di hdi dj hdj)
      rwa [hM] at this

/-- C74.  Each pixel of the image is in the block of its row and column only: sub-apertures share no pixel and miss none. -/
theorem C74_partition (n s : Nat) (r c bi bj : Nat) (hr : r < n * s) (hc : c < n * s) (hj : bj < n) :
    r * (n * s) + c ∈ blockIdx (n * s) s bi bj ↔ bi = r / s ∧ bj = c / s := by
  have hs : 0 < s := by
    rcases Nat.eq_zero_or_pos s with h | h
    · subst h; omega
    · exact h
  unfold blockIdx
  rw [List.mem_map]
  constructor
  · rintro ⟨p, hp, e⟩
    have hp := List.mem_range.1 hp
    have hv := Nat.mod_lt p hs
    have hu : p / s < s := Nat.div_lt_of_lt_mul hp
    have hlt : bj * s + p % s < n * s := by
      have : (bj + 1) * s ≤ n * s := Nat.mul_le_mul_right s hj
      rw [Nat.succ_mul] at this
      omega
    have hpos : 0 < n * s := by omega
    have e1 : bi * s + p / s = r := by
      have := congrArg (· / (n * s)) e
      simpa only [Nat.mul_comm _ (n * s), Nat.mul_add_div hpos, Nat.div_eq_of_lt hlt, Nat.div_eq_of_lt hc, Nat.add_zero] using this
    have e2 : bj * s + p % s = c := by
      have := congrArg (· % (n * s)) e
      simpa only [Nat.mul_comm _ (n * s), Nat.mul_add_mod, Nat.mod_eq_of_lt hlt, Nat.mod_eq_of_lt hc] using this
    rw [← e1, ← e2, Nat.mul_comm bi, Nat.mul_comm bj, Nat.mul_add_div hs, Nat.mul_add_div hs, Nat.div_eq_of_lt hu, Nat.div_eq_of_lt hv]
    exact ⟨rfl, rfl⟩
  · rintro ⟨rfl, rfl⟩
    have h1 := Nat.mod_lt r hs
    have h2 := Nat.mod_lt c hs
    refine ⟨(r % s) * s + c % s, List.mem_range.2 ?_, ?_⟩
    · have : (r % s + 1) * s ≤ s * s := Nat.mul_le_mul_right s h1
      rw [Nat.succ_mul] at this
      omega
    · rw [Nat.mul_comm (r % s) s, Nat.mul_add_div hs, Nat.mul_add_mod, Nat.div_eq_of_lt h2, Nat.mod_eq_of_lt h2, Nat.add_zero, Nat.div_add_mod', Nat.div_add_mod']

/-- C74.  Two sub-apertures share no pixel. -/
theorem C74_disjoint (n s : Nat) (hn : 0 < n) (a : Img K) (hr : a.rows = n * s) (hc : a.cols = n * s) (lens : Nat → Nat → K × K) (size th : K) (hl : LensNear n s lens size)
    (r : Subaps) (h : detectSubaps n lens size th a = some r) (k l : Nat) (hk : k < r.idxs.length) (hlt : l < r.idxs.length) (p : Nat) (h1 : p ∈ r.idxs.getD k []) (h2 : p ∈ r.idxs.getD l []) : k = l := by
  obtain ⟨-, hlen, hnd, hbl, -⟩ := C74_map n s hn a hr hc lens size th hl r h
  rw [hlen] at hk hlt
  obtain ⟨b1, e1⟩ := hbl k hk
  obtain ⟨b2, e2⟩ := hbl l hlt
  rw [e1] at h1
  rw [e2] at h2
  have m1 : r.map[k] % n < n := Nat.mod_lt _ hn
  have m2 : r.map[l] % n < n := Nat.mod_lt _ hn
  have d1 : r.map[k] / n < n := Nat.div_lt_of_lt_mul b1
  have hpix : ∃ r' < n * s, ∃ c' < n * s, p = r' * (n * s) + c' := by
    unfold blockIdx at h1
    obtain ⟨q, hq, rfl⟩ := List.mem_map.1 h1
    have hq := List.mem_range.1 hq
    have hs : 0 < s := by
      rcases Nat.eq_zero_or_pos s with h | h
      · subst h; simp at hq
      · exact h
    have hv := Nat.mod_lt q hs
    have hu : q / s < s := Nat.div_lt_of_lt_mul hq
    have f1 : (r.map[k] / n + 1) * s ≤ n * s := Nat.mul_le_mul_right s d1
    have f2 : (r.map[k] % n + 1) * s ≤ n * s := Nat.mul_le_mul_right s m1
    rw [Nat.succ_mul] at f1 f2
    exact ⟨_, by omega, _, by omega, rfl⟩
  obtain ⟨r', hr', c', hc', rfl⟩ := hpix
  obtain ⟨x1, x2⟩ := (C74_partition n s r' c' _ _ hr' hc' m1).1 h1
  obtain ⟨y1, y2⟩ := (C74_partition n s r' c' _ _ hr' hc' m2).1 h2
  have e : r.map[k] = r.map[l] := by
    rw [← Nat.div_add_mod r.map[k] n, ← Nat.div_add_mod r.map[l] n, x1, x2, y1, y2]
  exact (List.Nodup.getElem_inj_iff hnd).1 e

/-- C74.  With a threshold below one and some light the calibration succeeds and has the brightest block; with a threshold of one or more, or without light, it is an error. -/
theorem C74_succeeds (n s : Nat) (hn : 0 < n) (a : Img K) (hr : a.rows = n * s) (hc : a.cols = n * s) (lens : Nat → Nat → K × K) (size th : K) (hl : LensNear n s lens size) :
    (th < 1 → (∃ bi < n, ∃ bj < n, 0 < blockSum a s bi bj) → detectSubaps n lens size th a ≠ none) ∧
      (1 ≤ th → (∃ bi < n, ∃ bj < n, 0 ≤ blockSum a s bi bj) → detectSubaps n lens size th a = none) ∧
      ((∀ bi < n, ∀ bj < n, blockSum a s bi bj = 0) → detectSubaps n lens size th a = none) := by
  obtain ⟨M, ⟨mi, hmi, mj, hmj, hM⟩, hmax, hd⟩ := C74_blocks n s hn a hr hc lens size th hl
  dsimp only at hd
  rw [hd]
  refine ⟨?_, ?_, ?_⟩
  · rintro hth ⟨bi, h1, bj, h2, hpos⟩
    have hMp : 0 < M := lt_of_lt_of_le hpos (hmax bi h1 bj h2)
    have hin : (mi, mj) ∈ (blocks n).filter fun b => decide (th * M < blockSum a s b.1 b.2) := by
      refine List.mem_filter.2 ⟨mem_blocks.2 ⟨hmi, hmj⟩, decide_eq_true ?_⟩
      rw [hM]
      nlinarith
    rw [if_neg (fun h => by rw [h] at hin; exact absurd hin List.not_mem_nil)]
    simp
  · rintro hth ⟨bi, h1, bj, h2, hpos⟩
    have hMp : 0 ≤ M := le_trans hpos (hmax bi h1 bj h2)
    rw [if_pos]
    rw [List.filter_eq_nil_iff]
    intro b hb
    have := hmax b.1 (mem_blocks.1 hb).1 b.2 (mem_blocks.1 hb).2
    simp only [decide_eq_true_eq, not_lt]
    nlinarith
  · intro hz
    have hM0 : M = 0 := by rw [← hM]; exact hz mi hmi mj hmj
    rw [if_pos]
    rw [List.filter_eq_nil_iff]
    intro b hb
    rw [hM0, hz b.1 (mem_blocks.1 hb).1 b.2 (mem_blocks.1 hb).2]
    simp

/-- C74.  The result does not depend on the brightness of the source. -/
theorem C74_brightness (n s : Nat) (hn : 0 < n) (a : Img K) (hr : a.rows = n * s) (hc : a.cols = n * s) (lens : Nat → Nat → K × K) (size th : K) (hl : LensNear n s lens size) (k : K) (hk : 0 < k) :
    detectSubaps n lens size th ⟨a.rows, a.cols, fun i j => k * a.px i j⟩ = detectSubaps n lens size th a := by
  obtain ⟨M, ⟨mi, hmi, mj, hmj, hM⟩, hmax, hd⟩ := C74_blocks n s hn a hr hc lens size th hl
  obtain ⟨M', ⟨mi', hmi', mj', hmj', hM'⟩, hmax', hd'⟩ := C74_blocks n s hn ⟨a.rows, a.cols, fun i j => k * a.px i j⟩ hr hc lens size th hl
  have hb : ∀ bi bj, blockSum (⟨a.rows, a.cols, fun i j => k * a.px i j⟩ : Img K) s bi bj = k * blockSum a s bi bj := by
    intro bi bj
    unfold blockSum
    simp only [Finset.mul_sum]
  simp only [hb] at hM' hmax' hd'
  have hMM : M' = k * M := by
    refine le_antisymm ?_ ?_
    · rw [← hM']
      exact mul_le_mul_of_nonneg_left (hmax _ hmi' _ hmj') hk.le
    · rw [← hM]
      exact hmax' _ hmi _ hmj
  rw [hd, hd']
  have hf : ((blocks n).filter fun b => decide (th * M' < k * blockSum a s b.1 b.2)) = (blocks n).filter fun b => decide (th * M < blockSum a s b.1 b.2) := by
    refine List.filter_congr fun b _ => decide_eq_decide.2 ?_
    rw [hMM, show th * (k * M) = k * (th * M) by ring]
    exact ⟨fun h => lt_of_mul_lt_mul_left h hk.le, fun h => mul_lt_mul_of_pos_left h hk⟩
  rw [hf]

omit [Field K] [LinearOrder K] [IsStrictOrderedRing K] [FloorRing K] in
/-- C74.  The slope computer takes the pixels of the block, row after row. -/
theorem C74_slopes (n s : Nat) (a : Img K) (hr : a.rows = n * s) (hc : a.cols = n * s) (bi bj : Nat) (hi : bi < n) (hj : bj < n) :
    (blockIdx (n * s) s bi bj).mapM (shPixel a) = some ((List.range (s * s)).map fun p => a.px (bi * s + p / s) (bj * s + p % s)) := by
  unfold blockIdx
  have := mapM_all_some (shPixel a) (fun q => a.px (q / (n * s)) (q % (n * s))) ((List.range (s * s)).map fun p => (bi * s + p / s) * (n * s) + (bj * s + p % s)) ?_
  · rw [this, List.map_map]
    refine congrArg some (List.map_congr_left fun p hp => ?_)
    have hp := List.mem_range.1 hp
    have hs : 0 < s := by
      rcases Nat.eq_zero_or_pos s with h | h
      · subst h; simp at hp
      · exact h
    have hv := Nat.mod_lt p hs
    have f2 : (bj + 1) * s ≤ n * s := Nat.mul_le_mul_right s hj
    rw [Nat.succ_mul] at f2
    have hlt : bj * s + p % s < n * s := by omega
    simp only [Function.comp]
    rw [Nat.mul_comm _ (n * s), Nat.mul_add_div (by omega), Nat.div_eq_of_lt hlt, Nat.mul_add_mod, Nat.mod_eq_of_lt hlt, Nat.add_zero]
  · intro q hq
    obtain ⟨p, hp, rfl⟩ := List.mem_map.1 hq
    have hp := List.mem_range.1 hp
    have hs : 0 < s := by
      rcases Nat.eq_zero_or_pos s with h | h
      · subst h; simp at hp
      · exact h
    have hv := Nat.mod_lt p hs
    have hu : p / s < s := Nat.div_lt_of_lt_mul hp
    have f1 : (bi + 1) * s ≤ n * s := Nat.mul_le_mul_right s hi
    have f2 : (bj + 1) * s ≤ n * s := Nat.mul_le_mul_right s hj
    rw [Nat.succ_mul] at f1 f2
    have hlt : bj * s + p % s < n * s := by omega
    have e1 : ((bi * s + p / s) * (n * s) + (bj * s + p % s)) / (n * s) = bi * s + p / s := by
      rw [Nat.mul_comm _ (n * s), Nat.mul_add_div (by omega), Nat.div_eq_of_lt hlt, Nat.add_zero]
    have e2 : ((bi * s + p / s) * (n * s) + (bj * s + p % s)) % (n * s) = bj * s + p % s := by
      rw [Nat.mul_comm _ (n * s), Nat.mul_add_mod, Nat.mod_eq_of_lt hlt]
    unfold shPixel
    dsimp only
    rw [hr, hc, e1, e2, Nat.add_sub_cancel_left, if_pos ⟨by omega, hlt⟩]

end

/-! ### Sizes that are not a multiple -/

/-- C74: an image of 10 pixels with 3 sub-apertures, or of 8 with 3, is an error although the sub-apertures would fit; with 6 pixels and 4 sub-apertures, neighbours share pixels. -/
theorem C74_not_multiple :
    detectSubaps 3 (lensletXY 3) (lensletSize 3) (1 / 2) (⟨10, 10, fun _ _ => 1⟩ : Img ℚ) = none ∧
      detectSubaps 3 (lensletXY 3) (lensletSize 3) (1 / 2) (⟨8, 8, fun _ _ => 1⟩ : Img ℚ) = none ∧
      ((detectSubaps 4 (lensletXY 4) (lensletSize 4) (1 / 2) (⟨6, 6, fun _ _ => 1⟩ : Img ℚ)).map fun r => (r.npSub, r.idxs.length, r.idxs.getD 0 [], r.idxs.getD 1 [])) =
        some (2, 16, [0, 1, 6, 7], [6, 7, 12, 13]) := by
  decide +kernel

/-! ### Concrete cases -/

/-- C74 on numbers: three sub-apertures out of four, 2 by 2 pixels; the dark one is at the top right; the order is the one of the columns. -/
example : detectSubaps 2 (lensletXY 2) (lensletSize 2) (1 / 2) (⟨4, 4, fun i j => if i < 2 ∧ 2 ≤ j then 0 else 1⟩ : Img ℚ) =
    some ⟨2, [[0, 1, 4, 5], [8, 9, 12, 13], [10, 11, 14, 15]], [0, 2, 3]⟩ := by decide +kernel

example : blockIdx 4 2 1 0 = [8, 9, 12, 13] := by decide

example : LensNear (K := ℚ) 2 2 (lensletXY 2) (lensletSize 2) := C74_lenslets 2 2 (by norm_num)

end Specula
