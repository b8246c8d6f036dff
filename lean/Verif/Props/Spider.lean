import Verif.Props.Masks
import Mathlib.MeasureTheory.Measure.Lebesgue.VolumeOfBalls
import Mathlib.Tactic.NormNum.RealSqrt

/-!
C79, continued: spiders, and area of the masks.
-/

namespace Specula

section
open Real

theorem spiderMask_iff (n petals : Nat) (width offset : ℝ) (i j : Nat) :
    spiderMask n petals width offset i j = true ↔ ∃ a < petals, armSets n width (armAngle petals offset a) i j := by
  unfold spiderMask; simp

theorem cos_sin_quarter (t : ℝ) (a b : ℝ) (ha : |a| ≤ 1 / 4) (hb : |b| ≤ 1 / 4) : |a * cos t + b * sin t| < 1 / 2 := by
  have h1 := sin_sq_add_cos_sq t
  have ha2 : a ^ 2 ≤ 1 / 16 := by rw [← sq_abs]; nlinarith [abs_nonneg a]
  have hb2 : b ^ 2 ≤ 1 / 16 := by rw [← sq_abs]; nlinarith [abs_nonneg b]
  have : (a * cos t + b * sin t) ^ 2 ≤ 1 / 8 := by nlinarith [sq_nonneg (a * sin t - b * cos t)]
  rw [abs_lt]
  constructor <;> nlinarith

theorem truncInt_of_mem (x : ℝ) (j : Nat) (h1 : (j : ℝ) ≤ x) (h2 : x < j + 1) : truncInt x = (j : Int) := by
  unfold truncInt
  rw [if_pos (le_trans (Nat.cast_nonneg j) h1), Int.floor_eq_iff]
  exact ⟨by exact_mod_cast h1, by exact_mod_cast h2⟩

theorem nearest_half (x : ℝ) (hx : 0 ≤ x) : ∃ k : Nat, |(k : ℝ) / 2 - x| ≤ 1 / 4 := by
  refine ⟨⌊2 * x + 1 / 2⌋₊, ?_⟩
  have h1 := Nat.floor_le (show (0 : ℝ) ≤ 2 * x + 1 / 2 by linarith)
  have h2 := Nat.lt_floor_add_one (2 * x + 1 / 2)
  rw [abs_le]; constructor <;> linarith

theorem reach_ge (n : Nat) (hn : 1 < n) : (n : ℝ) / 2 ≤ spiderReach n := by
  have hs : (1.4 : ℝ) ≤ √2 := by
    rw [show (1.4 : ℝ) = √(1.4 ^ 2) by rw [sqrt_sq (by norm_num)]]
    exact sqrt_le_sqrt (by norm_num)
  have hN : (0 : ℝ) ≤ n := Nat.cast_nonneg n
  have key : ∀ m : Nat, (m : ℝ) ≤ 0.7 * n → (m : ℝ) ≤ spiderReach n := fun m hm => by
    unfold spiderReach
    have : m ≤ ⌊√2 * n / 2⌋₊ := Nat.le_floor (by nlinarith)
    exact_mod_cast this
  rcases Nat.even_or_odd' n with ⟨c, rfl | rfl⟩
  · have := key c (by push_cast; have : (0 : ℝ) ≤ c := Nat.cast_nonneg c; linarith)
    push_cast; linarith
  · have h1 : 1 ≤ c := by omega
    have h1' : (1 : ℝ) ≤ c := by exact_mod_cast h1
    have := key (c + 1) (by push_cast; linarith)
    push_cast at this ⊢; linarith

/-- **C79** (spider): a pixel whose centre is at most half of the width (enlarged by a fifth) away from an arm, measured across it, lets no
light through, as long as it is a quarter of a pixel inside the circle that fits in the frame. -/
theorem C79_spider_blocks (n : Nat) (hn : 1 < n) (a : MaskArgs ℝ) (width offset : ℝ) (petals p : Nat) (hw : 0 < width) (hp : p < petals)
    (m : Nat → Nat → Bool) (hm : makeMask n a false true width petals offset = some m) (i j : Nat) (d w : ℝ)
    (hx : (j : ℝ) + 1 / 2 - n / 2 = d * cos (armDirection petals offset p) - w * sin (armDirection petals offset p))
    (hy : (i : ℝ) + 1 / 2 - n / 2 = d * sin (armDirection petals offset p) + w * cos (armDirection petals offset p))
    (hd : 0 ≤ d) (hdn : d + 1 / 4 < n / 2) (hwd : |w| ≤ 1.2 * width / 2) : m i j = false := by
  simp only [← armAngle_eq] at *
  set t := armAngle petals offset p with ht
  have hs : spiderMask n petals width offset i j = true := by
    rw [spiderMask_iff]
    refine ⟨p, hp, ?_⟩
    rw [← ht]
    set h := spiderHalf width with hh
    have hh' : h = 1.2 * width / 2 := by rw [hh]; unfold spiderHalf; ring
    obtain ⟨k, hk⟩ := nearest_half d hd
    have hwl := abs_le.mp hwd
    obtain ⟨l, hl⟩ := nearest_half (w + h) (by rw [hh']; linarith)
    have hkd := abs_le.mp hk
    have hll := abs_le.mp hl
    have hN := reach_ge n hn
    have hk2 : k < 2 * spiderReach n := by
      have : (k : ℝ) < 2 * spiderReach n := by linarith
      exact_mod_cast this
    refine ⟨k, hk2, ?_⟩
    dsimp only
    have hdc : |(k : ℝ) / 2 * cos t| < n / 2 := by
      rw [abs_mul, abs_of_nonneg (by positivity)]
      have := abs_cos_le_one t
      have hk0 : (0 : ℝ) ≤ (k : ℝ) / 2 := by positivity
      nlinarith [abs_nonneg (cos t)]
    have hds : |(k : ℝ) / 2 * sin t| < n / 2 := by
      rw [abs_mul, abs_of_nonneg (by positivity)]
      have := abs_sin_le_one t
      have hk0 : (0 : ℝ) ≤ (k : ℝ) / 2 := by positivity
      nlinarith [abs_nonneg (sin t)]
    have hdc' := abs_lt.mp hdc
    have hds' := abs_lt.mp hds
    refine ⟨⟨by linarith, by linarith, by linarith, by linarith⟩, l, ?_, ?_, ?_⟩
    · unfold spiderAcross
      rw [← Nat.cast_lt (α := ℝ)]
      refine lt_of_lt_of_le ?_ (Nat.le_ceil _)
      rw [← hh]
      rw [hh'] at hll ⊢
      linarith
    · have e := abs_lt.mp (cos_sin_quarter t ((k : ℝ) / 2 - d) (-((l : ℝ) / 2 - (w + h))) hk (by rw [abs_neg]; exact hl))
      apply truncInt_of_mem <;> nlinarith
    · have e := abs_lt.mp (cos_sin_quarter t ((l : ℝ) / 2 - (w + h)) ((k : ℝ) / 2 - d) hl hk)
      apply truncInt_of_mem <;> nlinarith
  unfold makeMask at hm
  rw [if_pos ⟨rfl, by omega, hw⟩] at hm
  obtain ⟨m0, h0, rfl⟩ := Option.map_eq_some_iff.mp hm
  unfold finishMask
  simp [hs]

theorem truncInt_near (x : ℝ) (j : Nat) (hj : 1 ≤ j) (h : truncInt x = (j : Int)) : (j : ℝ) ≤ x ∧ x < j + 1 := by
  unfold truncInt at h
  split_ifs at h with h0
  · rw [Int.floor_eq_iff] at h
    exact ⟨by exact_mod_cast h.1, by exact_mod_cast h.2⟩
  · have : ⌈x⌉ ≤ 0 := Int.ceil_le.mpr (by push_cast; exact (not_le.mp h0).le)
    omega

theorem half_pixel_proj (t a b : ℝ) (ha : |a| ≤ 1 / 2) (hb : |b| ≤ 1 / 2) : |a * cos t + b * sin t| ≤ √2 / 2 := by
  have h1 := sin_sq_add_cos_sq t
  have ha2 : a ^ 2 ≤ 1 / 4 := by rw [← sq_abs]; nlinarith [abs_nonneg a]
  have hb2 : b ^ 2 ≤ 1 / 4 := by rw [← sq_abs]; nlinarith [abs_nonneg b]
  have h2 : (a * cos t + b * sin t) ^ 2 ≤ 1 / 2 := by nlinarith [sq_nonneg (a * sin t - b * cos t)]
  have h3 : (√2 / 2) ^ 2 = 1 / 2 := by rw [div_pow, sq_sqrt (by norm_num)]; norm_num
  exact abs_le_of_sq_le_sq (by rw [h3]; exact h2) (by positivity)

/-- **C79** (spider, converse): a pixel taken away by the spider (not in the first row or column) is close to one of the arms: across it,
its centre is less than half of the enlarged width plus half a pixel plus half a diagonal away; along it, not behind the centre by
more than half a diagonal. -/
theorem C79_spider_only (n : Nat) (a : MaskArgs ℝ) (width offset : ℝ) (petals : Nat) (m m0 : Nat → Nat → Bool)
    (hm : makeMask n a false true width petals offset = some m) (h0 : baseMask n a = some m0) (i j : Nat) (hi : 1 ≤ i) (hj : 1 ≤ j)
    (hb : m0 i j = true) (hoff : m i j = false) :
    ∃ p < petals, ∃ d w : ℝ,
      (j : ℝ) + 1 / 2 - n / 2 = d * cos (armDirection petals offset p) - w * sin (armDirection petals offset p) ∧
      (i : ℝ) + 1 / 2 - n / 2 = d * sin (armDirection petals offset p) + w * cos (armDirection petals offset p) ∧
      |w| < 1.2 * width / 2 + 1 / 2 + √2 / 2 ∧ -(√2 / 2) ≤ d := by
  simp only [← armAngle_eq] at *
  unfold makeMask at hm
  rw [h0, Option.map_some, Option.some.injEq] at hm
  have hs : ∃ p < petals, armSets n width (armAngle petals offset p) i j := by
    split_ifs at hm with hc
    · rw [← hm] at hoff
      unfold finishMask at hoff
      simp only [hb, Bool.true_and, Bool.false_eq_true, if_false, Bool.not_eq_false'] at hoff
      exact (spiderMask_iff _ _ _ _ _ _).mp hoff
    · rw [← hm] at hoff
      unfold finishMask at hoff
      simp [hb] at hoff
  obtain ⟨p, hp, k, hk, -, l, hl, hx, hy⟩ := hs
  set t := armAngle petals offset p with ht
  set h := spiderHalf width with hh
  have hh' : h = 1.2 * width / 2 := by rw [hh]; unfold spiderHalf; ring
  obtain ⟨x1, x2⟩ := truncInt_near _ j hj hx
  obtain ⟨y1, y2⟩ := truncInt_near _ i hi hy
  set X := (j : ℝ) + 1 / 2 - n / 2 with hX
  set Y := (i : ℝ) + 1 / 2 - n / 2 with hY
  set D := (k : ℝ) / 2 with hD
  set W := -h + (l : ℝ) / 2 with hW
  have h1 := sin_sq_add_cos_sq t
  have ex : |X - (D * cos t - W * sin t)| ≤ 1 / 2 := by rw [abs_le, hX]; constructor <;> linarith
  have ey : |Y - (D * sin t + W * cos t)| ≤ 1 / 2 := by rw [abs_le, hY]; constructor <;> linarith
  have hl' : (l : ℝ) < 4 * h + 1 := by
    unfold spiderAcross at hl
    have := Nat.lt_ceil.mp hl
    linarith
  refine ⟨p, hp, X * cos t + Y * sin t, -X * sin t + Y * cos t, ?_, ?_, ?_, ?_⟩
  · linear_combination (-X) * h1
  · linear_combination (-Y) * h1
  · have e := half_pixel_proj t _ _ ey (by rw [abs_neg]; exact ex : |-(X - (D * cos t - W * sin t))| ≤ 1 / 2)
    have e' : (Y - (D * sin t + W * cos t)) * cos t + -(X - (D * cos t - W * sin t)) * sin t = (-X * sin t + Y * cos t) - W := by
      linear_combination (-W) * h1
    rw [e'] at e
    have e := abs_le.mp e
    have hl0 : (0 : ℝ) ≤ l := Nat.cast_nonneg l
    rw [← hh', abs_lt]
    constructor
    · have : -h ≤ W := by rw [hW]; linarith
      linarith
    · have : W < h + 1 / 2 := by rw [hW]; linarith
      linarith
  · have e := half_pixel_proj t _ _ ex ey
    have e' : (X - (D * cos t - W * sin t)) * cos t + (Y - (D * sin t + W * cos t)) * sin t = (X * cos t + Y * sin t) - D := by
      linear_combination (-D) * h1
    rw [e'] at e
    have e := abs_le.mp e
    have : (0 : ℝ) ≤ D := by rw [hD]; positivity
    linarith

/-- **C79** (inversion): the inverted mask is the complement, spider included; a spider only takes pixels away. -/
theorem C79_inverse (n : Nat) (a : MaskArgs ℝ) (spider : Bool) (width offset : ℝ) (petals : Nat) (m : Nat → Nat → Bool)
    (hm : makeMask n a false spider width petals offset = some m) :
    (∃ m', makeMask n a true spider width petals offset = some m' ∧ ∀ i j, m' i j = !m i j) ∧
    ∃ m0, makeMask n a false false width petals offset = some m0 ∧ ∀ i j, m i j = true → m0 i j = true := by
  unfold makeMask at hm ⊢
  obtain ⟨b, hb, rfl⟩ := Option.map_eq_some_iff.mp hm
  rw [hb]
  refine ⟨⟨_, rfl, fun i j => ?_⟩, _, rfl, fun i j => ?_⟩
  · unfold finishMask; simp
  · unfold finishMask
    split_ifs <;> simp_all

/-- The part of the plane covered by pixel `q` (row, column), with the origin at the centre of the frame. -/
def pixelCell (n : Nat) (q : Nat × Nat) : Set ℂ :=
  {z | ((q.2 : ℝ) - n / 2 ≤ z.re ∧ z.re < q.2 + 1 - n / 2) ∧ ((q.1 : ℝ) - n / 2 ≤ z.im ∧ z.im < q.1 + 1 - n / 2)}

theorem pixelCell_eq (n : Nat) (q : Nat × Nat) : pixelCell n q =
    Complex.measurableEquivRealProd ⁻¹' (Set.Ico ((q.2 : ℝ) - n / 2) (q.2 + 1 - n / 2) ×ˢ Set.Ico ((q.1 : ℝ) - n / 2) (q.1 + 1 - n / 2)) := by
  ext z; simp [pixelCell, Complex.measurableEquivRealProd_apply]

theorem pixelCell_measurable (n : Nat) (q : Nat × Nat) : MeasurableSet (pixelCell n q) := by
  rw [pixelCell_eq]
  exact Complex.measurableEquivRealProd.measurable (measurableSet_Ico.prod measurableSet_Ico)

open MeasureTheory in
theorem pixelCell_volume (n : Nat) (q : Nat × Nat) : volume (pixelCell n q) = 1 := by
  rw [pixelCell_eq, Complex.volume_preserving_equiv_real_prod.measure_preimage_equiv, Measure.volume_eq_prod, Measure.prod_prod,
    Real.volume_Ico, Real.volume_Ico]
  rw [show ((q.2 : ℝ) + 1 - n / 2 - (q.2 - n / 2)) = 1 by ring, show ((q.1 : ℝ) + 1 - n / 2 - (q.1 - n / 2)) = 1 by ring]
  simp

theorem pixelCell_disjoint (n : Nat) (q q' : Nat × Nat) (h : q ≠ q') : Disjoint (pixelCell n q) (pixelCell n q') := by
  rw [Set.disjoint_left]
  rintro z ⟨⟨a1, a2⟩, b1, b2⟩ ⟨⟨c1, c2⟩, d1, d2⟩
  apply h
  have key : ∀ s t : Nat, ∀ x : ℝ, (s : ℝ) - n / 2 ≤ x → x < s + 1 - n / 2 → (t : ℝ) - n / 2 ≤ x → x < t + 1 - n / 2 → s = t :=
    fun s t x h1 h2 h3 h4 => by
      have h5 : (s : ℝ) < t + 1 := by linarith
      have h6 : (t : ℝ) < s + 1 := by linarith
      have h7 : s < t + 1 := by exact_mod_cast h5
      have h8 : t < s + 1 := by exact_mod_cast h6
      omega
  exact Prod.ext (key _ _ _ b1 b2 d1 d2) (key _ _ _ a1 a2 c1 c2)

open MeasureTheory in
theorem mask_volume (n : Nat) (m : Nat → Nat → Bool) :
    volume (⋃ q ∈ (maskWhere n m).toFinset, pixelCell n q) = ((maskWhere n m).length : ENNReal) := by
  rw [measure_biUnion_finset (fun q _ q' _ h => pixelCell_disjoint n q q' h) (fun q _ => pixelCell_measurable n q)]
  simp only [pixelCell_volume, Finset.sum_const, nsmul_eq_mul, mul_one]
  rw [List.toFinset_card_of_nodup (C79_where n m).2.2]

theorem cell_near (n : Nat) (q : Nat × Nat) (z : ℂ) (hz : z ∈ pixelCell n q) :
    ‖z - ⟨q.2 + 1 / 2 - n / 2, q.1 + 1 / 2 - n / 2⟩‖ ≤ √2 / 2 := by
  obtain ⟨⟨a1, a2⟩, b1, b2⟩ := hz
  rw [Complex.norm_def]
  have h3 : √2 / 2 = √(1 / 2) := by
    rw [eq_comm, sqrt_eq_iff_eq_sq (by norm_num) (by positivity), div_pow, sq_sqrt (by norm_num)]; norm_num
  rw [h3]
  apply sqrt_le_sqrt
  rw [Complex.normSq_apply]
  simp only [Complex.sub_re, Complex.sub_im]
  nlinarith

/-- **C79** (area): the number of pixels of a centred disc of diameter `D` pixels, that fits in the frame, is between the areas of the discs
half a diagonal of a pixel smaller and larger in radius. -/
theorem C79_area (n : Nat) (hn : 1 < n) (a : MaskArgs ℝ) (hp : a.onPixel = false) (hs : a.square = false) (hx : a.xc = 0) (hy : a.yc = 0)
    (ho : a.obs.getD 0 = 0) (D : ℝ) (hd : a.dia.getD 1 = D / n) (h1 : √2 ≤ D) (h2 : D ≤ n) :
    ∃ m, baseMask n a = some m ∧ π * (D / 2 - √2 / 2) ^ 2 ≤ (maskWhere n m).length ∧
      ((maskWhere n m).length : ℝ) ≤ π * (D / 2 + √2 / 2) ^ 2 := by
  obtain ⟨m, h, s⟩ := C79_round n hn a hp hs
  have hn0 : (n : ℝ) ≠ 0 := by
    have : n ≠ 0 := by omega
    exact_mod_cast this
  have hs0 : 0 < √2 := by positivity
  have key : ∀ q : Nat × Nat, m q.1 q.2 = true ↔ ‖(⟨q.2 + 1 / 2 - n / 2, q.1 + 1 / 2 - n / 2⟩ : ℂ)‖ < D / 2 := fun q => by
    rw [s, ho, hd, hx, hy, Complex.norm_def, Real.sqrt_lt' (by linarith), Complex.normSq_apply]
    unfold halfPix
    simp only
    rw [div_mul_cancel₀ _ hn0]
    constructor
    · intro h'; have := h'.2; nlinarith
    · intro h'; exact ⟨by rw [zero_mul, zero_pow two_ne_zero]; positivity, by nlinarith⟩
  have hvol := mask_volume n m
  refine ⟨m, h, ?_, ?_⟩
  · have sub : Metric.ball (0 : ℂ) (D / 2 - √2 / 2) ⊆ ⋃ q ∈ (maskWhere n m).toFinset, pixelCell n q := fun z hz => by
      rw [mem_ball_zero_iff] at hz
      have bd : ∀ x : ℝ, |x| ≤ ‖z‖ → ∃ k : Nat, k < n ∧ (k : ℝ) - n / 2 ≤ x ∧ x < k + 1 - n / 2 := fun x hx' => by
        have := abs_le.mp hx'
        have p1 : 0 ≤ x + n / 2 := by linarith
        refine ⟨⌊x + n / 2⌋₊, ?_, ?_, ?_⟩
        · rw [Nat.floor_lt p1]; linarith
        · have := Nat.floor_le p1; linarith
        · have := Nat.lt_floor_add_one (x + n / 2); linarith
      obtain ⟨j, hj, j1, j2⟩ := bd z.re (Complex.abs_re_le_norm z)
      obtain ⟨i, hi, i1, i2⟩ := bd z.im (Complex.abs_im_le_norm z)
      have hcell : z ∈ pixelCell n (i, j) := ⟨⟨j1, j2⟩, i1, i2⟩
      simp only [Set.mem_iUnion, List.mem_toFinset]
      refine ⟨(i, j), (C79_where n m).1 (i, j) |>.mpr ⟨hi, hj, ?_⟩, hcell⟩
      rw [key (i, j)]
      have := cell_near n (i, j) z hcell
      have tri := norm_sub_norm_le (⟨((i, j) : Nat × Nat).2 + 1 / 2 - n / 2, ((i, j) : Nat × Nat).1 + 1 / 2 - n / 2⟩ : ℂ) z
      rw [norm_sub_rev] at tri
      linarith
    have hle := MeasureTheory.measure_mono (μ := MeasureTheory.volume) sub
    rw [hvol, Complex.volume_ball] at hle
    have := ENNReal.toReal_mono (by simp) hle
    rw [ENNReal.toReal_mul, ENNReal.toReal_pow, ENNReal.toReal_ofReal (by linarith)] at this
    simp only [ENNReal.coe_toReal, NNReal.coe_real_pi, ENNReal.toReal_natCast] at this
    linarith
  · have sub : (⋃ q ∈ (maskWhere n m).toFinset, pixelCell n q) ⊆ Metric.ball (0 : ℂ) (D / 2 + √2 / 2) := fun z hz => by
      simp only [Set.mem_iUnion, List.mem_toFinset] at hz
      obtain ⟨q, hq, hcell⟩ := hz
      have hm := ((C79_where n m).1 q).mp hq
      rw [mem_ball_zero_iff]
      have := cell_near n q z hcell
      have := (key q).mp hm.2.2
      have tri := norm_sub_norm_le z (⟨q.2 + 1 / 2 - n / 2, q.1 + 1 / 2 - n / 2⟩ : ℂ)
      linarith
    have hle := MeasureTheory.measure_mono (μ := MeasureTheory.volume) sub
    rw [hvol, Complex.volume_ball] at hle
    have := ENNReal.toReal_mono (by simp [ENNReal.mul_eq_top]) hle
    rw [ENNReal.toReal_mul, ENNReal.toReal_pow, ENNReal.toReal_ofReal (by linarith)] at this
    simp only [ENNReal.coe_toReal, NNReal.coe_real_pi, ENNReal.toReal_natCast] at this
    linarith

/-- **C79** (area of an annulus): it is what is left of the disc after the disc of the obstruction. -/
theorem C79_ring_area (n : Nat) (hn : 1 < n) (a : MaskArgs ℝ) (hp : a.onPixel = false) (hs : a.square = false) (d o : ℝ) (hd : 0 ≤ d)
    (ho : 0 ≤ o) (ho1 : o ≤ 1) :
    ∃ disc ring hole, baseMask n { a with obs := none, dia := some d } = some disc ∧
      baseMask n { a with obs := some o, dia := some d } = some ring ∧
      baseMask n { a with obs := none, dia := some (o * d) } = some hole ∧
      (maskWhere n ring).length + (maskWhere n hole).length = (maskWhere n disc).length := by
  obtain ⟨disc, ring, hole, h1, h2, h3, hsplit⟩ := C79_hole n hn a hp hs d o hd ho ho1
  refine ⟨disc, ring, hole, h1, h2, h3, ?_⟩
  rw [← List.toFinset_card_of_nodup (C79_where n disc).2.2, ← List.toFinset_card_of_nodup (C79_where n ring).2.2,
    ← List.toFinset_card_of_nodup (C79_where n hole).2.2, ← Finset.card_union_of_disjoint]
  · congr 1
    ext q
    rw [Finset.mem_union, List.mem_toFinset, List.mem_toFinset, List.mem_toFinset, (C79_where n _).1, (C79_where n _).1, (C79_where n _).1,
      (hsplit q.1 q.2).1]
    tauto
  · rw [Finset.disjoint_left]
    intro q hq hq'
    rw [List.mem_toFinset, (C79_where n _).1] at hq hq'
    exact (hsplit q.1 q.2).2 ⟨hq.2.2, hq'.2.2⟩

/-- An arm two pixels wide along the columns to the right of the centre of a frame of ten: pixel (5, 7) is dark although the disc
contains it, and pixel (8, 5) is not near any of the arms. -/
example : ∃ m m0, makeMask 10 ⟨none, none, 0, 0, false, false⟩ false true 2 1 0 = some m ∧ baseMask 10 (⟨none, none, 0, 0, false, false⟩ : MaskArgs ℝ) = some m0 ∧
    m0 5 7 = true ∧ m 5 7 = false ∧ m 8 5 = true := by
  obtain ⟨m0, h0, s0⟩ := C79_round 10 (by norm_num) (⟨none, none, 0, 0, false, false⟩ : MaskArgs ℝ) rfl rfl
  obtain ⟨m, hm⟩ : ∃ m, makeMask 10 (⟨none, none, 0, 0, false, false⟩ : MaskArgs ℝ) false true 2 1 0 = some m := by
    unfold makeMask; rw [h0]; exact ⟨_, rfl⟩
  refine ⟨m, m0, hm, h0, ?_, ?_, ?_⟩
  · rw [s0]; unfold halfPix; norm_num
  · refine C79_spider_blocks 10 (by norm_num) _ 2 0 1 0 (by norm_num) (by norm_num) _ hm 5 7 (5 / 2) (1 / 2) ?_ ?_ (by norm_num) (by norm_num) (by
      rw [abs_of_pos] <;> norm_num) <;> unfold armDirection <;> norm_num
  · by_contra hc
    obtain ⟨p, hp, d, w, e1, e2, hw, -⟩ := C79_spider_only 10 _ 2 0 1 _ m0 hm h0 8 5 (by norm_num) (by norm_num)
      (by rw [s0]; unfold halfPix; norm_num) (by simpa using hc)
    have hp0 : p = 0 := by omega
    have ha : armDirection 1 0 p = 0 := by rw [hp0]; unfold armDirection; simp
    rw [ha, sin_zero, cos_zero] at e2
    have hw' := (abs_lt.mp hw).2
    have : √2 ≤ 1.5 := by rw [Real.sqrt_le_left (by norm_num)]; norm_num
    norm_num at e2
    linarith

end

end Specula
