import Mathlib.Tactic.Ring
import Mathlib.Tactic.FieldSimp
import Mathlib.Tactic.Linarith
import Mathlib.Tactic.NormNum
import Mathlib.Tactic.Positivity
import Verif.Model.ExtSource
import Verif.Props.ModPyr
import Verif.Props.Resample

/-!
# C90: extended sources
-/

namespace Specula
open Finset

/-! ### Sums over lists -/

theorem sum_filter_list {α : Type} (l : List α) (p : α → Bool) (g : α → ℝ) : ((l.filter p).map g).sum = (l.map fun x => if p x then g x else 0).sum := by
  induction l with
  | nil => rfl
  | cons a l ih =>
    rw [List.filter_cons]
    by_cases h : p a = true
    · simp [h, ih]
    · simp [h, ih]

theorem sum_flat_list {α β : Type} (l : List α) (f : α → List β) (g : β → ℝ) : ((l.flatMap f).map g).sum = (l.map fun i => ((f i).map g).sum).sum := by
  induction l with
  | nil => rfl
  | cons a l ih => simp [List.flatMap_cons, List.map_append, List.sum_append, ih]

theorem sum_range_list (n : ℕ) (f : ℕ → ℝ) : ((List.range n).map f).sum = ∑ i ∈ range n, f i := by
  induction n with
  | zero => rfl
  | succ n ih => rw [List.range_succ, List.map_append, List.sum_append, ih, sum_range_succ]; simp

theorem sum_grid (n : ℕ) (c : ℕ → ℝ) (p : ℝ × ℝ → Bool) (g : ℝ × ℝ → ℝ) :
    (((gridPts n c).filter p).map g).sum = ∑ i ∈ range n, ∑ j ∈ range n, if p (c j, c i) then g (c j, c i) else 0 := by
  rw [sum_filter_list, gridPts, sum_flat_list]
  simp only [List.map_map, Function.comp_def, sum_range_list]

/-- Total flux of a source. -/
noncomputable def srcTotal (l : List SrcPoint) : ℝ := (l.map (·.flux)).sum

/-- Specification: the centre of light is the middle. -/
def centred (l : List SrcPoint) : Prop := (l.map fun p => p.flux * p.x).sum = 0 ∧ (l.map fun p => p.flux * p.y).sum = 0

theorem srcSum_div {α : Type} (l : List α) (f : α → ℝ) (s : ℝ) : (l.map fun p => f p / s).sum = (l.map f).sum / s := by
  simp only [div_eq_mul_inv]
  rw [List.sum_map_mul_right]

theorem equalFlux_total (l : List (ℝ × ℝ)) (h : l ≠ []) : srcTotal (equalFlux l) = 1 := by
  have hl : (l.length : ℝ) ≠ 0 := by
    have := List.length_pos_iff.2 h
    exact_mod_cast this.ne'
  unfold srcTotal equalFlux
  simp only [List.map_map, Function.comp_def, List.map_const', List.sum_replicate, nsmul_eq_mul]
  field_simp

theorem normFlux_total (l : List SrcPoint) (h : (l.map (·.flux)).sum ≠ 0) : srcTotal (normFlux l) = 1 := by
  unfold srcTotal normFlux
  simp only [List.map_map, Function.comp_def]
  generalize hs : (l.map (·.flux)).sum = s at *
  rw [srcSum_div l (·.flux) s, hs, div_self h]

theorem equalFlux_centred (l : List (ℝ × ℝ)) (hx : (l.map (·.1)).sum = 0) (hy : (l.map (·.2)).sum = 0) : centred (equalFlux l) := by
  unfold centred equalFlux
  simp only [List.map_map, Function.comp_def]
  rw [List.sum_map_mul_left, List.sum_map_mul_left]
  constructor
  · rw [hx, mul_zero]
  · rw [hy, mul_zero]

theorem normFlux_centred (l : List SrcPoint) (h : centred l) : centred (normFlux l) := by
  unfold centred normFlux at *
  simp only [List.map_map, Function.comp_def]
  generalize (l.map (·.flux)).sum = s at *
  have e : ∀ a b : ℝ, a / s * b = a * b / s := fun a b => by ring
  simp only [e]
  constructor
  · rw [srcSum_div l (fun p => p.flux * p.x) s, h.1, zero_div]
  · rw [srcSum_div l (fun p => p.flux * p.y) s, h.2, zero_div]

/-! ### Disc sampled on a square grid -/

theorem linBins_reflect (h : ℝ) (n j : ℕ) (hj : j < n) (hn : 2 ≤ n) : linBins (-h) h n (n - 1 - j) = -linBins (-h) h n j := by
  have e : ((n - 1 - j : ℕ) : ℝ) = ((n - 1 : ℕ) : ℝ) - j := by rw [Nat.cast_sub (by omega)]
  have h1 : ((n - 1 : ℕ) : ℝ) ≠ 0 := by exact_mod_cast (show n - 1 ≠ 0 by omega)
  unfold linBins
  rw [if_neg (by omega), if_neg (by omega), e]
  field_simp
  ring

/-- A square grid symmetric in both directions, with a choice of points that is so too, is centred. -/
theorem grid_centred (n : ℕ) (c : ℕ → ℝ) (hc : ∀ j < n, c (n - 1 - j) = -c j) (p : ℝ × ℝ → Bool) (hp : ∀ a b, p (-a, b) = p (a, b) ∧ p (a, -b) = p (a, b))
    (g : ℝ × ℝ → ℝ) (hg : ∀ a b, g (-a, b) = g (a, b) ∧ g (a, -b) = g (a, b)) :
    (((gridPts n c).filter p).map fun q => g q * q.1).sum = 0 ∧ (((gridPts n c).filter p).map fun q => g q * q.2).sum = 0 := by
  rw [sum_grid, sum_grid]
  constructor
  · refine sum_eq_zero (fun i _ => ?_)
    apply self_eq_neg.1
    conv_lhs => rw [← sum_range_reflect]
    rw [← sum_neg_distrib]
    refine sum_congr rfl (fun j hj => ?_)
    rw [hc j (mem_range.1 hj)]
    simp only [(hp _ _).1, (hg _ _).1]
    split_ifs
    · ring
    · simp
  · rw [sum_comm]
    refine sum_eq_zero (fun j _ => ?_)
    apply self_eq_neg.1
    conv_lhs => rw [← sum_range_reflect]
    rw [← sum_neg_distrib]
    refine sum_congr rfl (fun i hi => ?_)
    rw [hc i (mem_range.1 hi)]
    simp only [(hp _ _).2, (hg _ _).2]
    split_ifs
    · ring
    · simp

theorem mem_gridPts (n : ℕ) (c : ℕ → ℝ) (q : ℝ × ℝ) : q ∈ gridPts n c ↔ ∃ i < n, ∃ j < n, q = (c j, c i) := by
  unfold gridPts
  simp only [List.mem_flatMap, List.mem_range, List.mem_map]
  constructor
  · rintro ⟨i, hi, j, hj, rfl⟩; exact ⟨i, hi, j, hj, rfl⟩
  · rintro ⟨i, hi, j, hj, rfl⟩; exact ⟨i, hi, j, hj, rfl⟩

/-- **C90** (disc): all points are within the disc, and the source is centred. -/
theorem C90_disc (size samp : ℝ) (hs : 0 ≤ size) :
    (∀ p ∈ tophatCart size samp, p.x ^ 2 + p.y ^ 2 ≤ (size / 2) ^ 2) ∧ centred (tophatCart size samp) := by
  have h2 : 0 ≤ size / 2 := by linarith
  constructor
  · intro p hp
    unfold tophatCart equalFlux at hp
    simp only [List.mem_map, List.mem_filter, decide_eq_true_eq] at hp
    obtain ⟨q, ⟨-, hq⟩, rfl⟩ := hp
    exact (Real.sqrt_le_left h2).1 hq
  · unfold tophatCart
    simp only
    have hpar : tophatSide size samp = 0 ∨ 2 ≤ tophatSide size samp := by unfold tophatSide; omega
    rcases hpar with h0 | hn
    · rw [h0]
      unfold gridPts equalFlux centred
      simp
    · have h := grid_centred (tophatSide size samp) (linBins (-(size / 2)) (size / 2) (tophatSide size samp))
        (fun j hj => linBins_reflect _ _ j hj hn) (fun p => decide (Real.sqrt (p.1 ^ 2 + p.2 ^ 2) ≤ size / 2))
        (fun a b => ⟨by simp only [neg_sq], by simp only [neg_sq]⟩) (fun _ => 1) (fun _ _ => ⟨rfl, rfl⟩)
      simp only [one_mul] at h
      exact equalFlux_centred _ h.1 h.2

theorem tophat_empty_iff (size samp : ℝ) (hs : 0 < size) : tophatCart size samp = [] ↔ tophatSide size samp ≤ 2 := by
  have hpar : tophatSide size samp % 2 = 0 := by unfold tophatSide; omega
  have h2 : 0 < size / 2 := by linarith
  unfold tophatCart equalFlux
  simp only [List.map_eq_nil_iff]
  generalize tophatSide size samp = n at *
  rw [List.filter_eq_nil_iff]
  simp only [decide_eq_true_eq]
  constructor
  · intro h
    by_contra hc
    have hn : 4 ≤ n := by omega
    have hk : linBins (-(size / 2)) (size / 2) n (n / 2) = size / 2 / ((n - 1 : ℕ) : ℝ) := by
      have e1 : ((n - 1 : ℕ) : ℝ) = 2 * ((n / 2 : ℕ) : ℝ) - 1 := by
        have : n - 1 + 1 = 2 * (n / 2) := by omega
        have h' : (((n - 1 + 1 : ℕ)) : ℝ) = ((2 * (n / 2) : ℕ) : ℝ) := by rw [this]
        push_cast at h'
        linarith
      have e2 : (2 * ((n / 2 : ℕ) : ℝ) - 1) ≠ 0 := by
        have : (2 : ℝ) ≤ ((n / 2 : ℕ) : ℝ) := by exact_mod_cast (show 2 ≤ n / 2 by omega)
        linarith
      unfold linBins
      rw [if_neg (by omega), e1]
      field_simp
      ring
    have hmem : (size / 2 / ((n - 1 : ℕ) : ℝ), size / 2 / ((n - 1 : ℕ) : ℝ)) ∈ gridPts n (linBins (-(size / 2)) (size / 2) n) :=
      (mem_gridPts _ _ _).2 ⟨n / 2, by omega, n / 2, by omega, by rw [hk]⟩
    apply h _ hmem
    rw [Real.sqrt_le_left h2.le]
    have h3 : (3 : ℝ) ≤ ((n - 1 : ℕ) : ℝ) := by exact_mod_cast (show 3 ≤ n - 1 by omega)
    have h4 : size / 2 / ((n - 1 : ℕ) : ℝ) ≤ size / 2 / 3 := div_le_div_of_nonneg_left h2.le (by norm_num) h3
    have h5 : 0 ≤ size / 2 / ((n - 1 : ℕ) : ℝ) := by positivity
    nlinarith
  · intro hn q hq
    obtain ⟨i, hi, j, hj, rfl⟩ := (mem_gridPts _ _ _).1 hq
    have hn2 : n = 2 := by omega
    subst hn2
    rw [Real.sqrt_le_left h2.le]
    have hv : ∀ k, k < 2 → linBins (-(size / 2)) (size / 2) 2 k ^ 2 = (size / 2) ^ 2 := by
      intro k hk
      unfold linBins
      have : k = 0 ∨ k = 1 := by omega
      rcases this with rfl | rfl
      · simp
      · simp; ring
    simp only
    rw [hv i hi, hv j hj]
    have : 0 < (size / 2) ^ 2 := by positivity
    linarith

/-- **C90** (small discs): a disc with fewer than three steps of the sampling across has no points at all. -/
theorem C90_small_disc (size samp : ℝ) (hs : 0 < size) (hp : 0 < samp) : tophatCart size samp = [] ↔ size < 3 * samp := by
  rw [tophat_empty_iff size samp hs]
  have near := roundEvenF_near (size / samp / 2)
  rw [abs_le] at near
  constructor
  · intro h
    by_contra hc
    have h3 : 3 ≤ size / samp := by rw [le_div_iff₀ hp]; linarith
    have hr : (2 : ℤ) ≤ roundEvenF (size / samp / 2) := by
      rcases eq_or_lt_of_le h3 with h3 | h3
      · rw [← h3]
        have : (3 : ℝ) / 2 = ((3 / 2 : ℝ)) := rfl
        unfold roundEvenF
        have hf : ⌊(3 : ℝ) / 2⌋ = 1 := by rw [Int.floor_eq_iff]; norm_num
        rw [hf]
        norm_num
      · have : (1 : ℝ) < (roundEvenF (size / samp / 2) : ℝ) := by linarith
        have : (1 : ℤ) < roundEvenF (size / samp / 2) := by exact_mod_cast this
        omega
    unfold tophatSide at h
    omega
  · intro h
    have h3 : size / samp < 3 := by rw [div_lt_iff₀ hp]; exact h
    have : (roundEvenF (size / samp / 2) : ℝ) < 2 := by linarith
    have : roundEvenF (size / samp / 2) < 2 := by exact_mod_cast this
    unfold tophatSide
    omega

/-- **C90** (total): the fluxes of a flat source add up to one. -/
theorem C90_total (size samp : ℝ) (n : ℕ) :
    (tophatCart size samp ≠ [] → srcTotal (tophatCart size samp) = 1) ∧ srcTotal (tophatPolar size samp) = 1 ∧ srcTotal (gaussRings size samp n) = 1
    ∧ (∀ l, gaussCart size samp = some l → l ≠ [] → srcTotal l = 1)
    ∧ ∀ l, tophatRings size samp n = some l → l ≠ [] → srcTotal l = 1 := by
  refine ⟨?_, ?_, ?_, ?_, ?_⟩
  · intro h
    unfold tophatCart at *
    apply equalFlux_total
    intro hc
    apply h
    simp only [hc]
    rfl
  · exact equalFlux_total _ (by simp)
  · unfold gaussRings
    apply normFlux_total
    rw [List.map_cons, List.sum_cons]
    apply ne_of_gt
    apply add_pos_of_pos_of_nonneg (by norm_num)
    apply List.sum_nonneg
    intro x hx
    simp only [List.mem_map, List.mem_flatMap, List.map_flatMap] at hx
    obtain ⟨a, -, b, ⟨q, -, rfl⟩, rfl⟩ := hx
    exact (Real.exp_pos _).le
  · intro l hl hne
    unfold gaussCart at hl
    simp only at hl
    split_ifs at hl with h0
    simp only [Option.some.injEq] at hl
    subst hl
    apply normFlux_total
    apply ne_of_gt
    apply List.sum_pos
    · intro x hx
      simp only [List.mem_map] at hx
      obtain ⟨a, ⟨q, -, rfl⟩, rfl⟩ := hx
      exact Real.exp_pos _
    · intro hc
      apply hne
      unfold normFlux
      rw [List.map_eq_nil_iff] at hc ⊢
      exact hc
  · intro l hl hne
    unfold tophatRings at hl
    simp only at hl
    split_ifs at hl with h0
    all_goals
      simp only [Option.some.injEq] at hl
      subst hl
      apply equalFlux_total
      intro hc
      apply hne
      rw [hc]
      rfl

/-! ### Rings -/

theorem ring_sums (r : ℝ) (m : ℕ) (hm : m ≠ 1) : ((ringPts r m).map (·.1)).sum = 0 ∧ ((ringPts r m).map (·.2)).sum = 0 := by
  rcases Nat.lt_or_ge m 2 with h | h
  · have : m = 0 := by omega
    subst this
    simp [ringPts]
  · obtain ⟨h1, h2⟩ := C77_circle_centred r m h
    unfold circlePoint at h1 h2
    simp only at h1 h2
    have e : ∀ k : ℕ, 2 * Real.pi / m * k = 2 * Real.pi * ((k : ℝ) / m) := fun k => by ring
    have e1 : (ringPts r m).map (·.1) = (List.range m).map fun k : ℕ => r * Real.cos (2 * Real.pi * ((k : ℝ) / m)) := by
      unfold ringPts
      rw [List.map_map]
      exact List.map_congr_left fun k _ => by rw [← e]; rfl
    have e2 : (ringPts r m).map (·.2) = (List.range m).map fun k : ℕ => r * Real.sin (2 * Real.pi * ((k : ℝ) / m)) := by
      unfold ringPts
      rw [List.map_map]
      exact List.map_congr_left fun k _ => by rw [← e]; rfl
    rw [e1, e2, sum_range_list, sum_range_list]
    exact ⟨h2, h1⟩

theorem rings_sums (l : List ℕ) (r : ℕ → ℝ) (m : ℕ → ℕ) (h : ∀ j ∈ l, m j ≠ 1) (g : ℕ → ℝ) :
    ((l.flatMap fun j => (ringPts (r j) (m j)).map fun p => (g j * p.1 : ℝ)).sum = 0) ∧ ((l.flatMap fun j => (ringPts (r j) (m j)).map fun p => (g j * p.2 : ℝ)).sum = 0) := by
  induction l with
  | nil => simp
  | cons a l ih =>
    obtain ⟨i1, i2⟩ := ih (fun j hj => h j (List.mem_cons_of_mem _ hj))
    obtain ⟨r1, r2⟩ := ring_sums (r a) (m a) (h a (List.mem_cons_self ..))
    simp only [List.flatMap_cons, List.sum_append, i1, i2, add_zero]
    rw [List.sum_map_mul_left, List.sum_map_mul_left, r1, r2]
    simp

/-- **C90** (polar): a disc sampled in rings about a central point is centred. -/
theorem C90_polar (size samp : ℝ) (hp : 0 < samp) : centred (tophatPolar size samp) := by
  have near := roundEvenF_near (size / samp / 2)
  rw [abs_le] at near
  unfold tophatPolar
  simp only
  set nr := (roundEvenF (size / samp / 2)).toNat with hnr
  have hm : ∀ j ∈ List.range' 1 (nr - 1), (roundEvenF (2 * Real.pi * linBins 0 (size / 2) nr j / samp)).toNat ≠ 1 := by
    intro j hj
    rw [List.mem_range'_1] at hj
    have hn2 : 2 ≤ nr := by omega
    have hj1 : (1 : ℝ) ≤ j := by exact_mod_cast hj.1
    have hnr' : ((nr : ℕ) : ℝ) = (roundEvenF (size / samp / 2) : ℝ) := by
      have : ((nr : ℕ) : ℤ) = roundEvenF (size / samp / 2) := by omega
      exact_mod_cast this
    have hn1 : ((nr - 1 : ℕ) : ℝ) = (nr : ℝ) - 1 := by rw [Nat.cast_sub (by omega)]; simp
    have hn1' : (1 : ℝ) ≤ (nr : ℝ) - 1 := by
      have : (2 : ℝ) ≤ nr := by exact_mod_cast hn2
      linarith
    have hq : (nr : ℝ) - 1 ≤ size / samp / 2 := by linarith
    have hval : 2 * Real.pi * linBins 0 (size / 2) nr j / samp = 2 * Real.pi * j * (size / samp / 2 / ((nr : ℝ) - 1)) := by
      unfold linBins
      rw [if_neg (by omega), hn1]
      field_simp
      ring
    have h1 : 1 ≤ size / samp / 2 / ((nr : ℝ) - 1) := by rw [le_div_iff₀ (by linarith)]; linarith
    have h6 : (6 : ℝ) ≤ 2 * Real.pi * linBins 0 (size / 2) nr j / samp := by
      rw [hval]
      have hpi := Real.pi_gt_three
      have : 6 ≤ 2 * Real.pi * j := by nlinarith
      nlinarith
    have near2 := roundEvenF_near (2 * Real.pi * linBins 0 (size / 2) nr j / samp)
    rw [abs_le] at near2
    have : (5 : ℝ) < (roundEvenF (2 * Real.pi * linBins 0 (size / 2) nr j / samp) : ℝ) := by linarith
    have : (5 : ℤ) < roundEvenF (2 * Real.pi * linBins 0 (size / 2) nr j / samp) := by exact_mod_cast this
    omega
  obtain ⟨h1, h2⟩ := rings_sums _ (linBins 0 (size / 2) nr) _ hm (fun _ => 1)
  simp only [one_mul] at h1 h2
  apply equalFlux_centred
  · rw [List.map_cons, List.sum_cons, List.map_flatMap, h1]; simp
  · rw [List.map_cons, List.sum_cons, List.map_flatMap, h2]; simp

theorem ringPoints_ne_one (outer samp : ℝ) (n j : ℕ) (hn : 0 < n) (ho : 0 < outer) (hp : 0 < samp) (h : samp < Real.pi * (outer / n)) : ringPoints outer samp n j ≠ 1 := by
  have hnr : (0 : ℝ) < n := by exact_mod_cast hn
  have hq : 0 < outer / n := by positivity
  have hj : (0 : ℝ) ≤ j := by positivity
  have hpi := Real.pi_pos
  have : (1 : ℝ) < 2 * Real.pi * ringRadius outer n j / samp := by
    rw [lt_div_iff₀ hp]
    unfold ringRadius
    have : 0 ≤ 2 * Real.pi * (j * (outer / n)) := by positivity
    nlinarith
  have h1 : (1 : ℤ) < ⌈2 * Real.pi * ringRadius outer n j / samp⌉ := by rw [Int.lt_ceil]; exact_mod_cast this
  unfold ringPoints
  omega

/-- **C90** (rings): sources sampled in rings are centred if the first ring is longer than the sampling. -/
theorem C90_rings (size samp : ℝ) (hs : 0 < size) (hp : 0 < samp) (n : ℕ) (hn : 0 < n) :
    (samp < Real.pi * (size / 2 / n) → ∃ l, tophatRings size samp n = some l ∧ centred l)
    ∧ (samp < Real.pi * (3 * gaussSigma size / n) → centred (gaussRings size samp n)) := by
  have hsig : 0 < gaussSigma size := by
    unfold gaussSigma
    have : 0 < Real.log 2 := Real.log_pos (by norm_num)
    positivity
  constructor
  · intro h
    refine ⟨_, by unfold tophatRings; rw [if_neg hn.ne'], ?_⟩
    obtain ⟨h1, h2⟩ := rings_sums (List.range n) (ringRadius (size / 2) n) (ringPoints (size / 2) samp n)
      (fun j _ => ringPoints_ne_one _ samp n j hn (by linarith) hp h) (fun _ => 1)
    simp only [one_mul] at h1 h2
    apply equalFlux_centred
    · split_ifs
      · rw [List.map_cons, List.sum_cons, List.map_flatMap, h1]; simp
      · rw [List.map_flatMap, h1]
    · split_ifs
      · rw [List.map_cons, List.sum_cons, List.map_flatMap, h2]; simp
      · rw [List.map_flatMap, h2]
  · intro h
    unfold gaussRings
    apply normFlux_centred
    obtain ⟨h1, h2⟩ := rings_sums (List.range n) (ringRadius (3 * gaussSigma size) n) (ringPoints (3 * gaussSigma size) samp n)
      (fun j _ => ringPoints_ne_one _ samp n j hn (by linarith) hp h) (fun j => Real.exp (-ringRadius (3 * gaussSigma size) n j ^ 2 / (2 * gaussSigma size ^ 2)))
    unfold centred
    simp only [List.map_cons, List.sum_cons, List.map_flatMap, List.map_map, Function.comp_def, h1, h2]
    simp

/-- **C90** (one point rings): otherwise not: one ring with coarse sampling is one point, half the radius of the disc off the middle. -/
theorem C90_one_ring (size samp : ℝ) (hs : 0 < size) (hp : Real.pi * (size / 2) ≤ samp) : tophatRings size samp 1 = some [⟨size / 4, 0, 1⟩] := by
  have hpi := Real.pi_pos
  have hsp : 0 < samp := lt_of_lt_of_le (by positivity) hp
  have h1 : ringRadius (size / 2) 1 0 = size / 4 := by unfold ringRadius; push_cast; ring
  have h2 : ringPoints (size / 2) samp 1 0 = 1 := by
    unfold ringPoints
    rw [h1]
    have : ⌈2 * Real.pi * (size / 4) / samp⌉ = 1 := by
      rw [Int.ceil_eq_iff]
      constructor
      · have : 0 < 2 * Real.pi * (size / 4) / samp := by positivity
        push_cast
        linarith
      · rw [div_le_iff₀ hsp]; push_cast; linarith
    rw [this]
    rfl
  unfold tophatRings
  rw [if_neg (by norm_num)]
  simp only [List.range_one, List.flatMap_cons, List.flatMap_nil, List.append_nil, lt_irrefl, if_false]
  rw [h1, h2]
  simp [equalFlux, ringPts]

/-- **C90** (no rings): without number of rings, a disc smaller than five resolution elements cannot be made. -/
theorem C90_no_rings (size samp wl dTel : ℝ) (hs : 0 < size) (hw : 0 < wl) (hd : 0 < dTel) (h : size < 5 * (wl / 10 ^ 9) / dTel / (4848 / 10 ^ 9)) :
    tophatRings size samp (ringCount 0 (size / 2) wl dTel) = none := by
  set u := 5 * (wl / 10 ^ 9) / dTel / (4848 / 10 ^ 9) with hu
  have hu0 : 0 < u := by positivity
  have : ringCount 0 (size / 2) wl dTel = 0 := by
    unfold ringCount defaultRings
    rw [if_neg (by norm_num), ← hu]
    have : roundEvenF (size / 2 / u) = 0 := by
      apply roundEvenF_eq
      rw [Int.cast_zero, sub_zero, abs_of_pos (by positivity), div_lt_iff₀ hu0]
      linarith
    rw [this]
    rfl
  rw [this]
  unfold tophatRings
  rw [if_pos rfl]

/-- **C90** (given rings): a number of rings that is given is used, and the rings are evenly spaced between the middle and the border. -/
theorem C90_given_rings (given : ℕ) (outer wl dTel : ℝ) (h : 0 < given) :
    ringCount given outer wl dTel = given ∧ ringRadius outer given 0 - 0 = outer / given / 2
    ∧ outer - ringRadius outer given (given - 1) = outer / given / 2 ∧ ∀ j, ringRadius outer given (j + 1) - ringRadius outer given j = outer / given := by
  have hg : (0 : ℝ) < given := by exact_mod_cast h
  refine ⟨if_pos h, ?_, ?_, ?_⟩
  · unfold ringRadius; simp
  · unfold ringRadius
    rw [Nat.cast_sub (by omega)]
    field_simp
    push_cast
    ring
  · intro j
    unfold ringRadius
    push_cast
    ring

/-! ### Gaussian -/

/-- **C90** (width): the size of a gaussian is its full width at half maximum. -/
theorem C90_fwhm (size : ℝ) (hs : 0 < size) : gaussAt (gaussSigma size) (size / 2, 0) = 1 / 2 * gaussAt (gaussSigma size) (0, 0) := by
  have hl : 0 < Real.log 2 := Real.log_pos (by norm_num)
  have hsq : Real.sqrt (2 * Real.log 2) ^ 2 = 2 * Real.log 2 := Real.sq_sqrt (by positivity)
  have e : -((size / 2) ^ 2 + 0 ^ 2) / (2 * gaussSigma size ^ 2) = -Real.log 2 := by
    unfold gaussSigma
    rw [div_pow, div_pow size (2 * _), mul_pow, hsq]
    field_simp
    ring
  unfold gaussAt
  simp only
  rw [e, Real.exp_neg, Real.exp_log (by norm_num)]
  norm_num

theorem ring_radius (r : ℝ) (m : ℕ) (p : ℝ × ℝ) (hp : p ∈ ringPts r m) : p.1 ^ 2 + p.2 ^ 2 = r ^ 2 := by
  unfold ringPts at hp
  rw [List.mem_map] at hp
  obtain ⟨k, -, rfl⟩ := hp
  have := Real.sin_sq_add_cos_sq (2 * Real.pi / m * k)
  simp only
  linear_combination r ^ 2 * this

/-- **C90** (gaussian in rings): the fluxes are in the ratio of the gaussian of that width. -/
theorem C90_gauss_rings (size samp : ℝ) (n : ℕ) :
    ∀ p ∈ gaussRings size samp n, ∀ q ∈ gaussRings size samp n, p.flux * gaussAt (gaussSigma size) (q.x, q.y) = q.flux * gaussAt (gaussSigma size) (p.x, p.y) := by
  have key : ∃ s, ∀ p ∈ gaussRings size samp n, p.flux = gaussAt (gaussSigma size) (p.x, p.y) / s := by
    have hn : ∀ l : List SrcPoint, (∀ p ∈ l, p.flux = gaussAt (gaussSigma size) (p.x, p.y)) →
        ∃ s, ∀ p ∈ normFlux l, p.flux = gaussAt (gaussSigma size) (p.x, p.y) / s := by
      intro l hl
      refine ⟨(l.map (·.flux)).sum, fun p hp => ?_⟩
      unfold normFlux at hp
      rw [List.mem_map] at hp
      obtain ⟨a, ha, rfl⟩ := hp
      simp only
      rw [hl a ha]
    apply hn
    intro a ha
    rcases List.mem_cons.1 ha with rfl | ha
    · simp [gaussAt]
    · rw [List.mem_flatMap] at ha
      obtain ⟨j, -, hj⟩ := ha
      rw [List.mem_map] at hj
      obtain ⟨q, hq, rfl⟩ := hj
      have := ring_radius _ _ q hq
      simp only [gaussAt]
      rw [this]
  obtain ⟨s, h⟩ := key
  intro p hp q hq
  rw [h p hp, h q hq]
  ring

/-- The grid of the gaussian. -/
theorem gauss_grid_reflect (samp : ℝ) (n j : ℕ) (hj : j < n) : (((n - 1 - j : ℕ) : ℝ) - n / 2 + 1 / 2) * samp = -(((j : ℝ) - n / 2 + 1 / 2) * samp) := by
  have : ((n - 1 - j : ℕ) : ℝ) = (n : ℝ) - 1 - j := by rw [Nat.cast_sub (by omega), Nat.cast_sub (by omega)]; simp
  rw [this]
  ring

theorem foldr_max_eq (l : List ℝ) (m : ℝ) (hm : m ∈ l) (h0 : 0 ≤ m) (hle : ∀ x ∈ l, x ≤ m) : l.foldr max 0 = m := by
  have h1 : l.foldr max 0 ≤ m := by
    clear hm
    induction l with
    | nil => exact h0
    | cons a l ih => exact max_le (hle a (List.mem_cons_self ..)) (ih fun x hx => hle x (List.mem_cons_of_mem _ hx))
  have h2 : m ≤ l.foldr max 0 := by
    clear h1 hle
    induction l with
    | nil => cases hm
    | cons a l ih =>
      rcases List.mem_cons.1 hm with rfl | h
      · exact le_max_left _ _
      · exact le_trans (ih h) (le_max_right _ _)
  exact le_antisymm h1 h2

/-- **C90** (gaussian): the source is centred, fluxes are in the ratio of the gaussian of the width asked for, and the points of the grid kept are those
where it is a tenth of its largest value: within about two standard deviations, not three. -/
theorem C90_gauss (size samp : ℝ) (hs : 0 < size) (hp : 0 < samp) (l : List SrcPoint) (hl : gaussCart size samp = some l) :
    centred l
    ∧ (∀ p ∈ l, ∀ q ∈ l, p.flux * Real.exp (-(q.x ^ 2 + q.y ^ 2) / (2 * gaussSigma size ^ 2)) = q.flux * Real.exp (-(p.x ^ 2 + p.y ^ 2) / (2 * gaussSigma size ^ 2)))
    ∧ ∀ i j : ℕ, i < (roundEvenF (2 * (3 * gaussSigma size / samp) / 2) * 2).toNat → j < (roundEvenF (2 * (3 * gaussSigma size / samp) / 2) * 2).toNat →
      let n := (roundEvenF (2 * (3 * gaussSigma size / samp) / 2) * 2).toNat
      let x := ((j : ℝ) - n / 2 + 1 / 2) * samp
      let y := ((i : ℝ) - n / 2 + 1 / 2) * samp
      (∃ p ∈ l, p.x = x ∧ p.y = y) ↔ x ^ 2 + y ^ 2 ≤ samp ^ 2 / 2 + 2 * Real.log 10 * gaussSigma size ^ 2 := by
  have hsig : 0 < gaussSigma size := by
    unfold gaussSigma
    have : 0 < Real.log 2 := Real.log_pos (by norm_num)
    positivity
  unfold gaussCart at hl
  simp only at hl
  have hpar : (roundEvenF (2 * (3 * gaussSigma size / samp) / 2) * 2).toNat % 2 = 0 := by omega
  generalize (roundEvenF (2 * (3 * gaussSigma size / samp) / 2) * 2).toNat = n at *
  generalize gaussSigma size = sg at *
  split_ifs at hl with h0
  simp only [Option.some.injEq] at hl
  set c : ℕ → ℝ := fun j => ((j : ℝ) - n / 2 + 1 / 2) * samp with hc
  set top := ((gridPts n c).map (gaussAt sg)).foldr max 0 with htop
  -- largest value
  have hn2 : ((n : ℕ) : ℝ) = 2 * ((n / 2 : ℕ) : ℝ) := by exact_mod_cast (show n = 2 * (n / 2) by omega)
  have hfar : ∀ j : ℕ, samp ^ 2 / 4 ≤ c j ^ 2 := by
    intro j
    rw [hc]
    simp only
    rw [mul_pow]
    have : (1 : ℝ) / 4 ≤ ((j : ℝ) - n / 2 + 1 / 2) ^ 2 := by
      rw [hn2]
      rcases Nat.lt_or_ge j (n / 2) with h | h
      · have : (j : ℝ) + 1 ≤ ((n / 2 : ℕ) : ℝ) := by exact_mod_cast h
        nlinarith
      · have : ((n / 2 : ℕ) : ℝ) ≤ j := by exact_mod_cast h
        nlinarith
    have hs2 : 0 < samp ^ 2 := by positivity
    nlinarith
  have hcen : c (n / 2) = samp / 2 := by
    rw [hc]
    simp only
    rw [hn2]
    ring
  have htopv : top = Real.exp (-(samp ^ 2 / 2) / (2 * sg ^ 2)) := by
    rw [htop]
    apply foldr_max_eq
    · rw [List.mem_map]
      refine ⟨(c (n / 2), c (n / 2)), (mem_gridPts _ _ _).2 ⟨n / 2, by omega, n / 2, by omega, rfl⟩, ?_⟩
      unfold gaussAt
      simp only
      rw [hcen]
      congr 2
      ring
    · exact (Real.exp_pos _).le
    · intro x hx
      rw [List.mem_map] at hx
      obtain ⟨q, hq, rfl⟩ := hx
      obtain ⟨i, -, j, -, rfl⟩ := (mem_gridPts _ _ _).1 hq
      unfold gaussAt
      simp only
      rw [Real.exp_le_exp]
      apply div_le_div_of_nonneg_right _ (by positivity)
      have := hfar i
      have := hfar j
      linarith
  have hkeep : ∀ a b : ℝ, (1 / 10 * top ≤ gaussAt sg (a, b)) ↔ a ^ 2 + b ^ 2 ≤ samp ^ 2 / 2 + 2 * Real.log 10 * sg ^ 2 := by
    intro a b
    have e10 : (1 / 10 : ℝ) = Real.exp (-Real.log 10) := by rw [Real.exp_neg, Real.exp_log (by norm_num)]; norm_num
    rw [htopv, e10, ← Real.exp_add]
    unfold gaussAt
    simp only
    rw [Real.exp_le_exp]
    have h2 : (0 : ℝ) < 2 * sg ^ 2 := by positivity
    rw [← mul_le_mul_iff_left₀ h2]
    have e1 : (-Real.log 10 + -(samp ^ 2 / 2) / (2 * sg ^ 2)) * (2 * sg ^ 2) = -(2 * Real.log 10 * sg ^ 2) - samp ^ 2 / 2 := by field_simp; ring
    have e2 : -(a ^ 2 + b ^ 2) / (2 * sg ^ 2) * (2 * sg ^ 2) = -(a ^ 2 + b ^ 2) := by field_simp
    rw [e1, e2]
    constructor <;> intro h <;> linarith
  have hev : ∀ a b : ℝ, gaussAt sg (-a, b) = gaussAt sg (a, b) ∧ gaussAt sg (a, -b) = gaussAt sg (a, b) := by
    intro a b
    unfold gaussAt
    simp only [neg_sq]
    exact ⟨trivial, trivial⟩
  subst hl
  refine ⟨?_, ?_, ?_⟩
  · apply normFlux_centred
    have h := grid_centred n c (fun j hj => gauss_grid_reflect samp n j hj) (fun p => decide (1 / 10 * top ≤ gaussAt sg p))
      (fun a b => by rw [(hev a b).1, (hev a b).2]; exact ⟨rfl, rfl⟩) (gaussAt sg) hev
    unfold centred
    simp only [List.map_map, Function.comp_def]
    exact h
  · intro p hp' q hq'
    unfold normFlux at hp' hq'
    simp only [List.mem_map] at hp' hq'
    obtain ⟨a, ⟨a', -, rfl⟩, rfl⟩ := hp'
    obtain ⟨b, ⟨b', -, rfl⟩, rfl⟩ := hq'
    simp only [gaussAt]
    ring
  · intro i j hi hj
    simp only
    rw [← hkeep]
    constructor
    · rintro ⟨p, hp', hx, hy⟩
      unfold normFlux at hp'
      simp only [List.mem_map, List.mem_filter, decide_eq_true_eq] at hp'
      obtain ⟨a, ⟨a', ⟨-, ha⟩, rfl⟩, rfl⟩ := hp'
      simp only at hx hy
      rw [← hx, ← hy]
      exact ha
    · intro h
      have hm : (⟨c j, c i, gaussAt sg (c j, c i)⟩ : SrcPoint) ∈ ((gridPts n c).filter fun p => decide (1 / 10 * top ≤ gaussAt sg p)).map
          fun p => (⟨p.1, p.2, gaussAt sg p⟩ : SrcPoint) := by
        rw [List.mem_map]
        refine ⟨(c j, c i), ?_, rfl⟩
        rw [List.mem_filter]
        exact ⟨(mem_gridPts _ _ _).2 ⟨i, hi, j, hj, rfl⟩, decide_eq_true h⟩
      exact ⟨_, List.mem_map_of_mem hm, rfl, rfl⟩

/-! ### Coefficients -/

/-- **C90** (tilt): the coefficient of a point is that of the tilt whose phase at position `x` of the unit pupil, with the Zernike tilt `2 x`, is that of a wave
from its direction. -/
theorem C90_tilt (asec dTel wl angle x : ℝ) (hw : wl ≠ 0) :
    angleToTip asec dTel wl angle * (2 * x) = 2 * Real.pi / (wl / 10 ^ 9) * ((angle * asec) * (x * (dTel / 2))) := by
  unfold angleToTip
  field_simp
  ring

/-- **C90** (focus): the coefficient of a layer is that of the focus, with the Zernike focus `√3 (2 ρ² - 1)`, of a wave from its height as seen by a
sensor focused at `f`, with opposite sign and times `f / h`. -/
theorem C90_focus (dTel wl h f : ℝ) (hw : wl ≠ 0) (hh : h ≠ 0) (hf : f ≠ 0) (hd : dTel ≠ 0) (ρ : ℝ) :
    ∃ c, focusCoeff dTel wl h (some f) = some c
      ∧ -c * (h / f) * (Real.sqrt 3 * (2 * ρ ^ 2 - 1) - Real.sqrt 3 * (2 * 0 ^ 2 - 1)) = 2 * Real.pi / (wl / 10 ^ 9) * ((ρ * (dTel / 2)) ^ 2 / 2 * (1 / h - 1 / f)) := by
  have h3 : Real.sqrt 3 ≠ 0 := by positivity
  refine ⟨_, rfl, ?_⟩
  field_simp
  ring

/-- **C90** (focus, absent): a single layer without height of focus is treated as out of focus, by an amount that is not finite. -/
theorem C90_no_focus (dTel wl h : ℝ) : is3d [h] none ∧ focusCoeff dTel wl h none = none ∧ ¬ is3d [h] (some h) ∧ focusCoeff dTel wl h (some h) = some 0 := by
  refine ⟨by simp [is3d], rfl, by simp [is3d], by simp [focusCoeff]⟩

/-- **C90** (layers): the flux of a source with layers is that of the flat source times the sum of the intensities; each layer is the flat source, tilted. -/
theorem C90_layers (asec dTel wl : ℝ) (focus : Option ℝ) (layers : List (ℝ × ℝ × ℝ × ℝ)) (pts : List SrcPoint) :
    ((coeff3d asec dTel wl focus layers pts).map (·.flux)).sum = srcTotal pts * (layers.map (·.2.1)).sum
    ∧ ∀ q, q ∈ coeff3d asec dTel wl focus layers pts ↔ ∃ l ∈ layers, ∃ p ∈ pts,
        q = ⟨angleToTip asec dTel wl (p.x + l.2.2.1), angleToTip asec dTel wl (p.y + l.2.2.2), focusCoeff dTel wl l.1 focus, p.flux * l.2.1⟩ := by
  constructor
  · unfold coeff3d srcTotal
    induction layers with
    | nil => simp
    | cons a l ih =>
      simp only [List.flatMap_cons, List.map_append, List.sum_append, List.map_cons, List.sum_cons, List.map_map, Function.comp_def, mul_add]
      rw [ih, List.sum_map_mul_right]
  · intro q
    have e : ∀ a b, angleToTip asec dTel wl a + angleToTip asec dTel wl b = angleToTip asec dTel wl (a + b) := by
      intro a b
      unfold angleToTip
      ring
    unfold coeff3d
    simp only [List.mem_flatMap, List.mem_map, e]
    constructor
    · rintro ⟨l, hl, p, hp, rfl⟩; exact ⟨l, hl, p, hp, rfl⟩
    · rintro ⟨l, hl, p, hp, rfl⟩; exact ⟨l, hl, p, hp, rfl⟩

/-- **C90** (threshold): a positive threshold keeps the points with more than that part of the mean flux, without changing them, so that fluxes no longer add up
to one; with equal fluxes a threshold of one or more leaves none. -/
theorem C90_threshold (thr : ℝ) (l : List SrcCoeff) :
    (∀ q, 0 < thr → (q ∈ fluxThreshold thr l ↔ q ∈ l ∧ (l.map (·.flux)).sum / l.length * thr < q.flux))
    ∧ (thr ≤ 0 → fluxThreshold thr l = l)
    ∧ (1 ≤ thr → ∀ f, 0 ≤ f → (∀ q ∈ l, q.flux = f) → fluxThreshold thr l = []) := by
  refine ⟨?_, ?_, ?_⟩
  · intro q h
    unfold fluxThreshold
    rw [if_pos h]
    simp
  · intro h
    unfold fluxThreshold
    rw [if_neg (by linarith)]
  · intro h f hf hq
    unfold fluxThreshold
    rw [if_pos (by linarith), List.filter_eq_nil_iff]
    intro q hql
    have hlen : (0 : ℝ) < l.length := by exact_mod_cast List.length_pos_of_mem hql
    have hsum : (l.map (·.flux)).sum = l.length * f := by
      have : l.map (·.flux) = List.replicate l.length f := by
        rw [List.eq_replicate_iff]
        refine ⟨by simp, ?_⟩
        intro b hb
        obtain ⟨a, ha, rfl⟩ := List.mem_map.1 hb
        exact hq a ha
      rw [this]
      simp
    rw [hsum, mul_div_cancel_left₀ _ hlen.ne', hq q hql]
    simp only [decide_eq_true_eq, not_lt]
    nlinarith

/-! ### Pyramid -/

section
variable {K : Type} [Field K] [LinearOrder K] [IsStrictOrderedRing K]

omit [LinearOrder K] [IsStrictOrderedRing K] in
theorem setFour_end (l : List K) (v : K) : setFour (l ++ [0, 0, 0, 0]) l.length v = l ++ [v, v, v, v] := by
  unfold setFour
  simp

omit [IsStrictOrderedRing K] in
theorem weak_split (limit : K) (l : List K) : (dropWeak limit l).sum + weakSum limit l = l.sum := by
  induction l with
  | nil => simp [dropWeak, weakSum]
  | cons a l ih =>
    unfold dropWeak weakSum at *
    rw [List.map_cons, List.sum_cons, List.filter_cons, List.sum_cons, ← ih]
    by_cases h : a ≤ limit
    · simp [h]; ring
    · simp [h]; ring

/-- **C90** (weak points): the light of points not above the threshold goes, in equal parts, to four points; the others stay as they are, and the total is kept. -/
theorem C90_weak (thr : K) (flux : List K) (hne : flux ≠ []) (hpos : ∀ x ∈ flux, 0 ≤ x) (idx : Option ℕ) (hidx : ∀ i, idx = some i → flux.length ≤ i) :
    ∃ kept face, cacheFlux thr idx flux = some (flux.length, kept ++ [face, face, face, face])
      ∧ kept = flux.map (fun x => if x ≤ flux.foldr max 0 * thr then 0 else x) ∧ (kept ++ [face, face, face, face]).sum = flux.sum := by
  have hroom : faceRoom idx flux = some (flux.length, flux ++ [0, 0, 0, 0]) := by
    unfold faceRoom
    cases idx with
    | none => rfl
    | some i => simp only; rw [if_pos (hidx i rfl)]
  have habs : flux.map abs = flux := by
    conv_rhs => rw [← List.map_id flux]
    apply List.map_congr_left
    intro x hx
    rw [abs_of_nonneg (hpos x hx)]
    rfl
  set limit := flux.foldr max 0 * thr with hlim
  have hlost : 0 ≤ weakSum limit flux := by
    unfold weakSum
    apply List.sum_nonneg
    intro x hx
    exact hpos x (List.mem_of_mem_filter hx)
  have hlen : (dropWeak limit flux).length = flux.length := by unfold dropWeak; simp
  refine ⟨dropWeak limit flux, (if 0 < weakSum limit flux then weakSum limit flux / 4 else 0), ?_, rfl, ?_⟩
  · unfold cacheFlux
    rw [hroom]
    simp only [List.take_left, List.drop_left, habs]
    rw [if_neg hne, ← hlim, ← hlen, setFour_end]
  · rw [List.sum_append, ← weak_split limit flux]
    congr 1
    split_ifs with h
    · simp only [List.sum_cons, List.sum_nil]
      field_simp
      ring
    · have : weakSum limit flux = 0 := le_antisymm (not_lt.1 h) hlost
      rw [this]
      simp

/-- **C90** (growing source): when the source is replaced by one with more points than before, the four points are taken to be among those of the source: their
light is lost or the update fails. -/
theorem C90_growing (thr : K) (i : ℕ) (flux : List K) (hi : 0 < i) (h : i < flux.length) :
    (flux.length < i + 4 → cacheFlux thr (some i) flux = none)
    ∧ (i + 4 ≤ flux.length → ∃ l, cacheFlux thr (some i) flux = some (i, l) ∧ l.length = flux.length ∧ l.drop (i + 4) = flux.drop (i + 4)
        ∧ (l.take (i + 4)).sum = if 0 < weakSum (((flux.take i).map abs).foldr max 0 * thr) (flux.take i) then (flux.take i).sum
            else (dropWeak (((flux.take i).map abs).foldr max 0 * thr) (flux.take i)).sum) := by
  constructor
  · intro h4
    unfold cacheFlux faceRoom
    simp only
    rw [if_neg (by omega), if_neg (by omega)]
  · intro h4
    have htake : (setFour flux i 0).take i = flux.take i := by
      unfold setFour
      rw [List.append_assoc, List.take_left' (by simp; omega)]
    have hdrop : (setFour flux i 0).drop i = [0, 0, 0, 0] ++ flux.drop (i + 4) := by
      unfold setFour
      rw [List.append_assoc, List.drop_left' (by simp; omega)]
    unfold cacheFlux faceRoom
    simp only
    rw [if_neg (by omega), if_pos h4]
    simp only
    rw [htake, hdrop]
    have hne : flux.take i ≠ [] := by
      intro hc
      have := congrArg List.length hc
      rw [List.length_take, List.length_nil] at this
      omega
    rw [if_neg hne]
    set limit := ((flux.take i).map abs).foldr max 0 * thr with hlim
    have hdl : (dropWeak limit (flux.take i)).length = i := by unfold dropWeak; simp; omega
    set v : K := if 0 < weakSum limit (flux.take i) then weakSum limit (flux.take i) / 4 else 0 with hv
    have hset : setFour (dropWeak limit (flux.take i) ++ ([0, 0, 0, 0] ++ flux.drop (i + 4))) i v
        = (dropWeak limit (flux.take i) ++ [v, v, v, v]) ++ flux.drop (i + 4) := by
      unfold setFour
      rw [List.take_left' hdl]
      congr 1
      rw [← List.append_assoc, List.drop_left' (by simp [hdl])]
    refine ⟨_, by rw [hset], ?_, ?_, ?_⟩
    · simp only [List.length_append, List.length_drop, hdl, List.length_cons, List.length_nil]; omega
    · rw [List.drop_left' (by simp [hdl])]
    · rw [List.take_left' (by simp [hdl]), List.sum_append, ← weak_split limit (flux.take i), hv]
      split_ifs with h0
      · congr 1
        simp only [List.sum_cons, List.sum_nil]
        field_simp
        ring
      · simp

omit [LinearOrder K] [IsStrictOrderedRing K] in
/-- **C90** (batches): the sum over the points does not depend on the size of the batches. -/
theorem C90_batches (b n : ℕ) (hb : 0 < b) (w img : ℕ → K) (pad : K) : batchSum b n w img pad = ∑ k ∈ range n, img k * w k := by
  have hle : n ≤ (n + b - 1) / b * b := by
    have h1 := Nat.div_add_mod (n + b - 1) b
    have h2 := Nat.mod_lt (n + b - 1) hb
    rw [mul_comm] at h1
    omega
  unfold batchSum
  rw [sum_blocks (fun k => if k < n then img k * w k else pad * 0) ((n + b - 1) / b) b, ← sum_subset (range_subset_range.2 hle)]
  · refine sum_congr rfl (fun k hk => ?_)
    rw [if_pos (mem_range.1 hk)]
  · intro k _ hk
    rw [if_neg (fun h => hk (mem_range.2 h)), mul_zero]

end

/-! Examples. -/

/-- Ten, one and two points: with a threshold of a tenth the light of the second goes to the four points. -/
example : cacheFlux (1 / 10 : ℚ) none [10, 1, 2] = some (3, [10, 0, 2, 1 / 4, 1 / 4, 1 / 4, 1 / 4]) := by decide +kernel

/-- After a source of two points one of six: the light of four of them is lost. -/
example : cacheFlux (1 / 10 : ℚ) (some 2) [1, 1, 1, 1, 1, 1] = some (2, [1, 1, 0, 0, 0, 0]) ∧ cacheFlux (1 / 10 : ℚ) (some 2) [1, 1, 1, 1, 1] = none := by
  decide +kernel

/-- A disc of one arcsec sampled in steps of half an arcsec has no points; in steps of a fifth it has. -/
example : tophatCart 1 (1 / 2) = [] ∧ tophatCart 1 (1 / 5) ≠ [] :=
  ⟨(C90_small_disc 1 (1 / 2) (by norm_num) (by norm_num)).2 (by norm_num), fun h => by
    have := (C90_small_disc 1 (1 / 5) (by norm_num) (by norm_num)).1 h
    norm_num at this⟩

end Specula
