import Verif.Model.Masks
import Verif.Props.Interp
import Verif.Props.Sh
import Mathlib.Tactic.Linarith
import Mathlib.Tactic.Ring
import Mathlib.Tactic.FieldSimp
import Mathlib.Tactic.NormNum
import Mathlib.Tactic.Positivity

/-!
C79: pupil masks.

Positions are given in half pixels from the centre of the frame: the centre of pixel `k` is at `2k + 1 - n`.
-/

namespace Specula

section
variable {K : Type} [Field K] [LinearOrder K] [IsStrictOrderedRing K]

/-- Twice the distance in pixels, along one axis, from the centre of the mask to the centre of pixel `k`. -/
def halfPix (n : Nat) (c : K) (k : Nat) : K := 2 * k + 1 - n - n * c

theorem makeXY_halfPix (n : Nat) (hn : 1 < n) (c : K) (k : Nat) : makeXY n 1 k - c = halfPix n c k / n := by
  have : (n : K) ≠ 0 := by
    have : n ≠ 0 := by omega
    exact_mod_cast this
  unfold makeXY halfPix
  field_simp
  ring

theorem baseMask_plain (n : Nat) (hn : 1 < n) (a : MaskArgs K) (hp : a.onPixel = false) :
    baseMask n a = some fun i j => maskShape a.square (a.obs.getD 0) (a.dia.getD 1) (halfPix n a.xc j / n) (halfPix n a.yc i / n) := by
  unfold baseMask maskCentreArg
  rw [if_neg (by omega), hp]
  simp only [Bool.false_eq_true, if_false, Option.map_some, maskX, maskY, makeXY_halfPix n hn]

theorem shape_round (n : Nat) (hn : 1 < n) (ir dia u v : K) :
    maskShape false ir dia (u / n) (v / n) = true ↔ (ir * (dia * n)) ^ 2 ≤ u ^ 2 + v ^ 2 ∧ u ^ 2 + v ^ 2 < (dia * n) ^ 2 := by
  have hn0 : (0 : K) < (n : K) ^ 2 := by
    have : 0 < n := by omega
    have : (0 : K) < n := by exact_mod_cast this
    positivity
  have hne : (n : K) ≠ 0 := fun h => by rw [h] at hn0; simp at hn0
  have e : (u / n) ^ 2 + (v / n) ^ 2 = (u ^ 2 + v ^ 2) / (n : K) ^ 2 := by field_simp
  unfold maskShape
  simp only [Bool.false_eq_true, if_false, Bool.and_eq_true, decide_eq_true_eq]
  rw [e, div_lt_iff₀ hn0, le_div_iff₀ hn0, and_comm]
  have e1 : (dia * ir) ^ 2 * (n : K) ^ 2 = (ir * (dia * n)) ^ 2 := by ring
  have e2 : dia ^ 2 * (n : K) ^ 2 = (dia * n) ^ 2 := by ring
  rw [e1, e2]

/-- **C79** (disc): a pixel of a round mask is one exactly when its centre is inside the circle of diameter `dia * n` pixels around the
requested centre, and not inside the obstruction, `obs` times as wide. -/
theorem C79_round (n : Nat) (hn : 1 < n) (a : MaskArgs K) (hp : a.onPixel = false) (hs : a.square = false) :
    ∃ m, baseMask n a = some m ∧ ∀ i j, m i j = true ↔
      (a.obs.getD 0 * (a.dia.getD 1 * n)) ^ 2 ≤ halfPix n a.xc j ^ 2 + halfPix n a.yc i ^ 2 ∧
        halfPix n a.xc j ^ 2 + halfPix n a.yc i ^ 2 < (a.dia.getD 1 * n) ^ 2 := by
  refine ⟨_, baseMask_plain n hn a hp, fun i j => ?_⟩
  rw [hs]
  exact shape_round n hn _ _ _ _

/-- **C79** (square): a pixel of a square mask is one exactly when its centre is in the closed square of side `dia * n` pixels and not
in the open square of the obstruction. -/
theorem C79_square (n : Nat) (hn : 1 < n) (a : MaskArgs K) (hp : a.onPixel = false) (hs : a.square = true) :
    ∃ m, baseMask n a = some m ∧ ∀ i j, m i j = true ↔
      max |halfPix n a.xc j| |halfPix n a.yc i| ≤ a.dia.getD 1 * n ∧
        a.obs.getD 0 * (a.dia.getD 1 * n) ≤ max |halfPix n a.xc j| |halfPix n a.yc i| := by
  refine ⟨_, baseMask_plain n hn a hp, fun i j => ?_⟩
  have hn0 : (0 : K) < (n : K) := by
    have : 0 < n := by omega
    exact_mod_cast this
  unfold maskShape
  simp only [hs, if_true, Bool.and_eq_true, Bool.or_eq_true, decide_eq_true_eq, abs_div, abs_of_pos hn0]
  rw [div_le_iff₀ hn0, div_le_iff₀ hn0, le_div_iff₀ hn0, le_div_iff₀ hn0, max_le_iff, le_max_iff]
  have e1 : a.dia.getD 1 * a.obs.getD 0 * (n : K) = a.obs.getD 0 * (a.dia.getD 1 * n) := by ring
  rw [e1]

omit [IsStrictOrderedRing K] in
theorem maskShape_abs (sq : Bool) (ir dia x y x' y' : K) (hx : |x'| = |x|) (hy : |y'| = |y|) :
    maskShape sq ir dia x' y' = maskShape sq ir dia x y := by
  unfold maskShape
  rw [hx, hy, ← sq_abs x', ← sq_abs y', hx, hy, sq_abs, sq_abs]

omit [IsStrictOrderedRing K] in
theorem maskShape_swap (sq : Bool) (ir dia x y : K) : maskShape sq ir dia y x = maskShape sq ir dia x y := by
  unfold maskShape
  rw [add_comm (y ^ 2), Bool.and_comm (decide (|y| ≤ dia)), Bool.or_comm (decide (dia * ir ≤ |y|))]

omit [LinearOrder K] [IsStrictOrderedRing K] in
theorem halfPix_flip (n k : Nat) (hk : k < n) : halfPix n (0 : K) (n - 1 - k) = -halfPix n 0 k := by
  unfold halfPix
  rw [Nat.cast_sub (by omega), Nat.cast_sub (by omega)]
  push_cast; ring

/-- **C79** (symmetry): a centred mask, round or square, is the same upside down, mirrored and transposed. -/
theorem C79_symmetric (n : Nat) (hn : 1 < n) (a : MaskArgs K) (hp : a.onPixel = false) (hx : a.xc = 0) (hy : a.yc = 0) :
    ∃ m, baseMask n a = some m ∧ ∀ i < n, ∀ j < n, m (n - 1 - i) j = m i j ∧ m i (n - 1 - j) = m i j ∧ m j i = m i j := by
  refine ⟨_, baseMask_plain n hn a hp, fun i hi j hj => ⟨?_, ?_, ?_⟩⟩
  · apply maskShape_abs _ _ _ _ _ _ _ rfl
    rw [hy, halfPix_flip n i hi, neg_div, abs_neg]
  · apply maskShape_abs _ _ _ _ _ _ _ _ rfl
    rw [hx, halfPix_flip n j hj, neg_div, abs_neg]
  · rw [hx, hy]; exact maskShape_swap _ _ _ _ _

/-- **C79** (centre): adding `2k/n` to a coordinate of the centre moves the mask by `k` pixels, columns for `xc` and rows for `yc`. -/
theorem C79_moved (n : Nat) (hn : 1 < n) (a : MaskArgs K) (hp : a.onPixel = false) (k l : Nat) :
    ∃ m m', baseMask n a = some m ∧ baseMask n { a with xc := a.xc + 2 * k / n, yc := a.yc + 2 * l / n } = some m' ∧
      ∀ i j, m' (i + l) (j + k) = m i j := by
  refine ⟨_, _, baseMask_plain n hn a hp, baseMask_plain n hn _ hp, fun i j => ?_⟩
  have hne : (n : K) ≠ 0 := by
    have : n ≠ 0 := by omega
    exact_mod_cast this
  have e : ∀ (c : K) (s t : Nat), halfPix n (c + 2 * (t : K) / n) (s + t) = halfPix n c s := fun c s t => by
    unfold halfPix; push_cast; field_simp; ring
  dsimp only
  rw [e, e]

/-- **C79** (obstruction): disc of the obstruction and annulus divide the disc: every pixel of the disc is in one of them, and no pixel in
both. -/
theorem C79_hole (n : Nat) (hn : 1 < n) (a : MaskArgs K) (hp : a.onPixel = false) (hs : a.square = false) (d o : K) (hd : 0 ≤ d)
    (ho : 0 ≤ o) (ho1 : o ≤ 1) :
    ∃ disc ring hole, baseMask n { a with obs := none, dia := some d } = some disc ∧
      baseMask n { a with obs := some o, dia := some d } = some ring ∧
      baseMask n { a with obs := none, dia := some (o * d) } = some hole ∧
      ∀ i j, (disc i j = true ↔ ring i j = true ∨ hole i j = true) ∧ ¬ (ring i j = true ∧ hole i j = true) := by
  obtain ⟨m1, h1, s1⟩ := C79_round n hn { a with obs := none, dia := some d } hp hs
  obtain ⟨m2, h2, s2⟩ := C79_round n hn { a with obs := some o, dia := some d } hp hs
  obtain ⟨m3, h3, s3⟩ := C79_round n hn { a with obs := none, dia := some (o * d) } hp hs
  refine ⟨m1, m2, m3, h1, h2, h3, fun i j => ?_⟩
  rw [s1, s2, s3]
  simp only [Option.getD_some, Option.getD_none]
  generalize halfPix n a.xc j ^ 2 + halfPix n a.yc i ^ 2 = q at *
  have hq : (o * d * n) ^ 2 ≤ (d * n) ^ 2 := by
    have hN : (0 : K) ≤ n := Nat.cast_nonneg n
    apply pow_le_pow_left₀ (by positivity)
    have : o * (d * n) ≤ 1 * (d * n) := mul_le_mul_of_nonneg_right ho1 (by positivity)
    linarith
  rw [show o * (d * (n : K)) = o * d * n by ring]
  refine ⟨⟨fun h => ?_, fun h => ?_⟩, fun h => absurd h.1.1 (not_le.mpr h.2.2)⟩
  · rcases le_or_gt ((o * d * n) ^ 2) q with h' | h'
    · exact Or.inl ⟨h', h.2⟩
    · exact Or.inr ⟨by simpa using h.1, h'⟩
  · rcases h with h | h
    · exact ⟨le_trans (by rw [zero_mul]; simp only [ne_eq, OfNat.ofNat_ne_zero, not_false_eq_true, zero_pow]; positivity) h.1, h.2⟩
    · exact ⟨by simpa using h.1, lt_of_lt_of_le h.2 hq⟩

/-- **C79** (sizes): a larger diameter keeps every pixel, a larger obstruction adds none. -/
theorem C79_nested (n : Nat) (hn : 1 < n) (a : MaskArgs K) (hp : a.onPixel = false) (hs : a.square = false) (d d' o o' : K) (hd : 0 ≤ d)
    (hdd : d ≤ d') (ho : 0 ≤ o) (hoo : o * d ≤ o' * d') :
    ∃ m m' m'', baseMask n { a with obs := some o, dia := some d } = some m ∧
      baseMask n { a with obs := some (o * d / d'), dia := some d' } = some m' ∧ baseMask n { a with obs := some o', dia := some d' } = some m'' ∧
      ∀ i j, (m i j = true → m' i j = true) ∧ (m'' i j = true → m' i j = true) := by
  obtain ⟨m1, h1, s1⟩ := C79_round n hn { a with obs := some o, dia := some d } hp hs
  obtain ⟨m2, h2, s2⟩ := C79_round n hn { a with obs := some (o * d / d'), dia := some d' } hp hs
  obtain ⟨m3, h3, s3⟩ := C79_round n hn { a with obs := some o', dia := some d' } hp hs
  refine ⟨m1, m2, m3, h1, h2, h3, fun i j => ?_⟩
  rw [s1, s2, s3]
  simp only [Option.getD_some]
  have hN : (0 : K) ≤ n := Nat.cast_nonneg n
  have hd' : 0 ≤ d' := hd.trans hdd
  have e : (o * d / d' * (d' * n)) = o * d * n := by
    rcases hd'.eq_or_lt with h | h
    · have : d = 0 := le_antisymm (by rw [h]; exact hdd) hd
      rw [← h, this]; simp
    · field_simp
  rw [e]
  refine ⟨fun h => ⟨by rw [show o * d * (n : K) = o * (d * n) by ring]; exact h.1, h.2.trans_le ?_⟩, fun h => ⟨le_trans ?_ h.1, h.2⟩⟩
  · exact pow_le_pow_left₀ (by positivity) (mul_le_mul_of_nonneg_right hdd hN) 2
  · apply pow_le_pow_left₀ (by positivity)
    rw [show o' * (d' * (n : K)) = o' * d' * n by ring]
    exact mul_le_mul_of_nonneg_right hoo hN

/-- **C79** (default pupil): the default disc covers the whole frame only up to three pixels; the corners are dark above. -/
theorem C79_default (n : Nat) (hn : 1 < n) (a : MaskArgs K) (hp : a.onPixel = false) (hs : a.square = false) (hx : a.xc = 0) (hy : a.yc = 0)
    (ho : a.obs.getD 0 = 0) (hd : a.dia.getD 1 = 1) :
    ∃ m, baseMask n a = some m ∧ ((∀ i < n, ∀ j < n, m i j = true) ↔ n ≤ 3) ∧ (3 < n → m 0 0 = false) := by
  obtain ⟨m, h, s⟩ := C79_round n hn a hp hs
  have key : ∀ i j, m i j = true ↔ (2 * (j : Int) + 1 - n) ^ 2 + (2 * (i : Int) + 1 - n) ^ 2 < (n : Int) ^ 2 := fun i j => by
    rw [s, ho, hd, hx, hy]
    unfold halfPix
    have e : ∀ k : Nat, (2 * (k : K) + 1 - n - n * 0) = ((2 * (k : Int) + 1 - n : Int) : K) := fun k => by push_cast; ring
    rw [e, e, one_mul, zero_mul]
    have e2 : ((n : K)) ^ 2 = (((n : Int) ^ 2 : Int) : K) := by push_cast; ring
    rw [e2]
    constructor
    · intro h; exact_mod_cast h.2
    · intro h; exact ⟨by rw [zero_pow two_ne_zero]; exact add_nonneg (sq_nonneg _) (sq_nonneg _), by exact_mod_cast h⟩
  have corner : 3 < n → m 0 0 = false := fun h3 => by
    rw [← Bool.not_eq_true, key]
    push_cast
    have : (4 : Int) ≤ n := by exact_mod_cast h3
    nlinarith
  refine ⟨m, h, ⟨fun h' => ?_, fun h3 i hi j hj => ?_⟩, corner⟩
  · by_contra h3
    have := corner (by omega)
    rw [h' 0 (by omega) 0 (by omega)] at this
    exact absurd this (by decide)
  · rw [key]
    have b : ∀ k : Nat, k < n → (2 * (k : Int) + 1 - n) ^ 2 ≤ ((n : Int) - 1) ^ 2 := fun k hk => by
      have : (k : Int) + 1 ≤ n := by exact_mod_cast hk
      have : (0 : Int) ≤ k := Int.natCast_nonneg k
      nlinarith
    have := b i hi
    have := b j hj
    have : (n : Int) ≤ 3 := by exact_mod_cast h3
    have : (1 : Int) < n := by exact_mod_cast hn
    nlinarith

omit [Field K] [IsStrictOrderedRing K] in
theorem argminOn_const (f : Nat → K) (c : K) (hf : ∀ k, f k = c) (k : Nat) (l : List Nat) : argminOn f (k :: l) = some k := by
  induction l generalizing k with
  | nil => rfl
  | cons k' l ih =>
    have := ih k'
    rw [argminOn, this]
    simp [hf]

omit [IsStrictOrderedRing K] in
theorem onPixelCentre_const (n : Nat) (hn : 1 < n) (v c : K) : onPixelCentre n (fun _ => v) c = some v := by
  unfold onPixelCentre
  obtain ⟨m, rfl⟩ : ∃ m, n = m + 1 := ⟨n - 1, by omega⟩
  rw [List.range_succ_eq_map, argminOn_const _ |v - c| (fun _ => rfl)]
  simp only [Option.bind_some]
  rw [if_pos (by omega)]
  simp

/-- **C79** (centre on pixel): with `centeronpixel` the requested centre is forgotten and the mask is centred on the first pixel, the corner
of the frame. -/
theorem C79_on_pixel (n : Nat) (hn : 1 < n) (a : MaskArgs K) (hp : a.onPixel = true) (hs : a.square = false) :
    ∃ m, baseMask n a = some m ∧ ∀ i j, m i j = true ↔
      (a.obs.getD 0 * (a.dia.getD 1 * n / 2)) ^ 2 ≤ (j : K) ^ 2 + (i : K) ^ 2 ∧ (j : K) ^ 2 + (i : K) ^ 2 < (a.dia.getD 1 * n / 2) ^ 2 := by
  have e : baseMask n a = baseMask n { a with xc := makeXY n 1 0, yc := makeXY n 1 0, onPixel := false } := by
    unfold baseMask maskCentreArg
    simp only [hp, if_true, maskX, maskY, Bool.false_eq_true, if_false]
    rw [onPixelCentre_const n hn, Option.bind_some, onPixelCentre_const n hn]
    rfl
  rw [e]
  obtain ⟨m, h, s⟩ := C79_round n hn { a with xc := makeXY n 1 0, yc := makeXY n 1 0, onPixel := false } rfl hs
  refine ⟨m, h, fun i j => ?_⟩
  have hne : (n : K) ≠ 0 := by
    have : n ≠ 0 := by omega
    exact_mod_cast this
  have e2 : ∀ k : Nat, halfPix n (makeXY n 1 0 : K) k = 2 * k := fun k => by
    unfold halfPix makeXY; push_cast; field_simp; ring
  rw [s]
  dsimp only
  rw [e2, e2]
  constructor <;> rintro ⟨h1, h2⟩ <;> constructor <;> nlinarith

/-- **C79** (agreement): the default masks of `make_mask` and of `CircularMask` are the same on any square frame, although one leaves out
the circle and the other includes it. -/
theorem C79_circular (n : Nat) (hn : 1 < n) (a : MaskArgs K) (hp : a.onPixel = false) (hs : a.square = false) (hx : a.xc = 0) (hy : a.yc = 0)
    (ho : a.obs.getD 0 = 0) (hd : a.dia.getD 1 = 1) :
    ∃ m, baseMask n a = some m ∧ ∀ i j, circularMask n n (none : Option K) none i j = m i j := by
  obtain ⟨m, h, s⟩ := C79_round n hn a hp hs
  refine ⟨m, h, fun i j => ?_⟩
  rw [Bool.eq_iff_iff, s, ho, hd, hx, hy]
  unfold circularMask halfPix
  simp only [Option.getD_none, Nat.min_self, decide_eq_true_eq]
  set u : Int := 2 * (j : Int) + 1 - n with hu
  set v : Int := 2 * (i : Int) + 1 - n with hv
  have e : ∀ k : Nat, (2 * (k : K) + 1 - n - n * 0) = ((2 * (k : Int) + 1 - n : Int) : K) := fun k => by push_cast; ring
  rw [e, e, ← hu, ← hv]
  have e1 : ((j : K) + 1 / 2 - (n : K) / 2) = (u : K) / 2 := by rw [hu]; push_cast; ring
  have e2 : ((i : K) + 1 / 2 - (n : K) / 2) = (v : K) / 2 := by rw [hv]; push_cast; ring
  rw [e1, e2]
  have hne : u ^ 2 + v ^ 2 ≠ (n : Int) ^ 2 := fun hc => by
    have h4 : (u ^ 2 + v ^ 2) % 4 = (n : Int) ^ 2 % 4 := by rw [hc]
    rcases Nat.even_or_odd' n with ⟨c, rfl | rfl⟩
    · have : u ^ 2 + v ^ 2 = 4 * ((j - c) * (j - c + 1) + (i - c) * (i - c + 1)) + 2 := by rw [hu, hv]; push_cast; ring
      rw [this] at h4
      have : (((2 * c : Nat) : Int)) ^ 2 = 4 * (c : Int) ^ 2 := by push_cast; ring
      rw [this] at h4
      omega
    · have : u ^ 2 + v ^ 2 = 4 * ((j - c) * (j - c) + (i - c) * (i - c)) := by rw [hu, hv]; push_cast; ring
      rw [this] at h4
      have : (((2 * c + 1 : Nat) : Int)) ^ 2 = 4 * ((c : Int) ^ 2 + c) + 1 := by push_cast; ring
      rw [this] at h4
      omega
  constructor
  · intro h'
    have h2 : ((u : K)) ^ 2 + (v : K) ^ 2 ≤ (n : K) ^ 2 := by nlinarith
    have h3 : u ^ 2 + v ^ 2 ≤ (n : Int) ^ 2 := by exact_mod_cast h2
    have h4 : u ^ 2 + v ^ 2 < (n : Int) ^ 2 := lt_of_le_of_ne h3 hne
    have h5 : ((u : K)) ^ 2 + (v : K) ^ 2 < (n : K) ^ 2 := by exact_mod_cast h4
    exact ⟨by rw [zero_mul, zero_pow two_ne_zero]; exact add_nonneg (sq_nonneg _) (sq_nonneg _), by linarith⟩
  · intro h'
    have := h'.2
    nlinarith

/-- **C79** (annular mask): without a centre it fails; with one, a pixel is inside exactly when its centre is at most the radius and, unless
the inner radius is zero, more than the inner radius away from it. -/
theorem C79_annular (rows cols : Nat) (r inner : K) (cy cx : K) :
    annularMask rows cols (some r) none inner = none ∧
    ∃ m, annularMask rows cols (some r) (some (cy, cx)) inner = some m ∧ ∀ i j, m i j = true ↔
      (((j : K) + 1 / 2 - cx) ^ 2 + ((i : K) + 1 / 2 - cy) ^ 2 ≤ r ^ 2 ∧
        (inner = 0 ∨ inner ^ 2 < ((j : K) + 1 / 2 - cx) ^ 2 + ((i : K) + 1 / 2 - cy) ^ 2)) := by
  refine ⟨rfl, _, rfl, fun i j => ?_⟩
  unfold circularMask
  simp

end

/-- Directions of the arms: evenly spaced on the turn, rotated by `offset` degrees. -/
noncomputable def armDirection (petals : Nat) (offset : ℝ) (p : Nat) : ℝ := 2 * Real.pi * p / petals + offset * (Real.pi / 180)

theorem armAngle_eq (petals : Nat) (offset : ℝ) (p : Nat) : armAngle petals offset p = armDirection petals offset p := by
  unfold armAngle armDirection; ring

/-- **C79** (indices): the indices returned are the pixels at one, each once, row by row. -/
theorem C79_where (n : Nat) (m : Nat → Nat → Bool) :
    (∀ q, q ∈ maskWhere n m ↔ q.1 < n ∧ q.2 < n ∧ m q.1 q.2 = true) ∧
    (maskWhere n m).map (fun q => q.1 * n + q.2) = (List.range (n * n)).filter (fun p => m (p / n) (p % n)) ∧
    (maskWhere n m).Nodup := by
  have hmem : ∀ q, q ∈ maskWhere n m ↔ q.1 < n ∧ q.2 < n ∧ m q.1 q.2 = true := fun q => by
    unfold maskWhere
    simp only [List.mem_flatMap, List.mem_map, List.mem_filter, List.mem_range]
    constructor
    · rintro ⟨i, hi, j, ⟨hj, hm⟩, rfl⟩; exact ⟨hi, hj, hm⟩
    · rintro ⟨h1, h2, h3⟩; exact ⟨q.1, h1, q.2, ⟨h2, h3⟩, rfl⟩
  have hmap : (maskWhere n m).map (fun q => q.1 * n + q.2) = (List.range (n * n)).filter (fun p => m (p / n) (p % n)) := by
    have : ∀ k, ((List.range k).flatMap fun i => ((List.range n).filter fun j => m i j).map fun j => (i, j)).map (fun q => q.1 * n + q.2) =
        (List.range (k * n)).filter (fun p => m (p / n) (p % n)) := fun k => by
      induction k with
      | zero => simp
      | succ k ih =>
        rw [List.range_succ, List.flatMap_append, List.map_append, ih, Nat.succ_mul, List.range_add, List.filter_append]
        congr 1
        simp only [List.flatMap_cons, List.flatMap_nil, List.append_nil, List.map_map, List.filter_map, Function.comp_def]
        congr 1
        apply List.filter_congr
        intro j hj
        have hj := List.mem_range.mp hj
        have h1 : (k * n + j) / n = k := by
          rw [Nat.mul_comm, Nat.mul_add_div (by omega), Nat.div_eq_of_lt hj, Nat.add_zero]
        have h2 : (k * n + j) % n = j := by rw [Nat.mul_comm, Nat.mul_add_mod, Nat.mod_eq_of_lt hj]
        rw [h1, h2]
    exact this n
  refine ⟨hmem, hmap, List.Nodup.of_map (fun q => q.1 * n + q.2) ?_⟩
  rw [hmap]
  exact List.nodup_range.filter _

/-- A disc with an obstruction of a third on six pixels, the same moved by one column, and the one "on a pixel", in the corner. -/
example : (baseMask 6 (⟨some (1 / 3), none, 0, 0, false, false⟩ : MaskArgs ℚ)).map (maskWhere 6) =
    some [(0, 1), (0, 2), (0, 3), (0, 4), (1, 0), (1, 1), (1, 2), (1, 3), (1, 4), (1, 5), (2, 0), (2, 1), (2, 4), (2, 5), (3, 0), (3, 1), (3, 4),
      (3, 5), (4, 0), (4, 1), (4, 2), (4, 3), (4, 4), (4, 5), (5, 1), (5, 2), (5, 3), (5, 4)] ∧
    (baseMask 6 (⟨none, some (1 / 2), 1 / 3, 0, false, false⟩ : MaskArgs ℚ)).map (maskWhere 6) = some [(2, 3), (2, 4), (3, 3), (3, 4)] ∧
    (baseMask 6 (⟨none, some (1 / 2), 1 / 3, 0, false, true⟩ : MaskArgs ℚ)).map (maskWhere 6) = some [(0, 0), (0, 1), (1, 0), (1, 1)] ∧
    (baseMask 4 (⟨some (1 / 2), some 1, 0, 0, true, false⟩ : MaskArgs ℚ)).map (maskWhere 4) =
      some [(0, 0), (0, 1), (0, 2), (0, 3), (1, 0), (1, 3), (2, 0), (2, 3), (3, 0), (3, 1), (3, 2), (3, 3)] := by
  decide +kernel

end Specula
