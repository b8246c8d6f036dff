import Verif.Model.Interp
import Verif.Props.EField
import Mathlib.Tactic.FieldSimp
import Mathlib.Tactic.Positivity
import Mathlib.Tactic.NormNum
/-
C53: interpolation of layers.
-/
namespace Specula

section
variable {K : Type} [Field K] [LinearOrder K] [IsStrictOrderedRing K] [FloorRing K]

omit [FloorRing K] in
theorem clampTo_range (n : Nat) (h : 1 ≤ n) (x : K) : 0 ≤ clampTo n x ∧ clampTo n x ≤ (n : K) - 1 := by
  have h1 : (1 : K) ≤ n := by exact_mod_cast h
  unfold clampTo
  dsimp only
  split <;> split <;> constructor <;> linarith

omit [FloorRing K] [IsStrictOrderedRing K] in
theorem clampTo_id (n : Nat) (x : K) (h0 : 0 ≤ x) (h1 : x ≤ (n : K) - 1) : clampTo n x = x := by
  unfold clampTo
  dsimp only
  rw [if_neg (not_lt.2 h0), if_neg (not_lt.2 h1)]

theorem cellIdx_spec (n : Nat) (hn : 2 ≤ n) (x : K) (h0 : 0 ≤ x) (h1 : x ≤ (n : K) - 1) :
    cellIdx n x + 1 < n ∧ ((cellIdx n x : Nat) : K) ≤ x ∧ x ≤ ((cellIdx n x : Nat) : K) + 1 := by
  unfold cellIdx
  have hfl := Nat.floor_le h0
  have hlt := Nat.lt_floor_add_one x
  rcases le_total ⌊x⌋₊ (n - 2) with h | h
  · rw [min_eq_left h]
    exact ⟨by omega, hfl, hlt.le⟩
  · rw [min_eq_right h]
    have hc : ((n - 2 : Nat) : K) = (n : K) - 2 := by rw [Nat.cast_sub hn]; norm_num
    refine ⟨by omega, ?_, ?_⟩
    · exact le_trans (by exact_mod_cast h) hfl
    · rw [hc]
      linarith

/-- The pixels that a point uses are inside the image, with weights between zero and one. -/
theorem bilinear_cell (rows cols : Nat) (hr : 2 ≤ rows) (hc : 2 ≤ cols) (px : Nat → Nat → K) (y x : K) (hy0 : 0 ≤ y) (hy1 : y ≤ (rows : K) - 1)
    (hx0 : 0 ≤ x) (hx1 : x ≤ (cols : K) - 1) :
    ∃ i j : Nat, ∃ dy dx : K, i + 1 < rows ∧ j + 1 < cols ∧ 0 ≤ dy ∧ dy ≤ 1 ∧ 0 ≤ dx ∧ dx ≤ 1 ∧ y = i + dy ∧ x = j + dx ∧
      bilinear rows cols px y x =
        (1 - dy) * ((1 - dx) * px i j + dx * px i (j + 1)) + dy * ((1 - dx) * px (i + 1) j + dx * px (i + 1) (j + 1)) := by
  obtain ⟨a1, a2, a3⟩ := cellIdx_spec rows hr y hy0 hy1
  obtain ⟨b1, b2, b3⟩ := cellIdx_spec cols hc x hx0 hx1
  exact ⟨cellIdx rows y, cellIdx cols x, y - (cellIdx rows y : Nat), x - (cellIdx cols x : Nat), a1, b1, by linarith, by linarith, by linarith, by linarith,
    by ring, by ring, rfl⟩

omit [FloorRing K] in
theorem mix_bounds (d a b lo hi : K) (h0 : 0 ≤ d) (h1 : d ≤ 1) (ha : lo ≤ a ∧ a ≤ hi) (hb : lo ≤ b ∧ b ≤ hi) :
    lo ≤ (1 - d) * a + d * b ∧ (1 - d) * a + d * b ≤ hi := by
  constructor
  · nlinarith [mul_nonneg (sub_nonneg.2 h1) (sub_nonneg.2 ha.1), mul_nonneg h0 (sub_nonneg.2 hb.1)]
  · nlinarith [mul_nonneg (sub_nonneg.2 h1) (sub_nonneg.2 ha.2), mul_nonneg h0 (sub_nonneg.2 hb.2)]

/-- **C53** (bounds): whatever the coordinates, rotated or not, every interpolated value lies between the smallest and the largest
value of the layer; the interpolation never reads outside it. -/
theorem C53_bounds (rows cols : Nat) (hr : 2 ≤ rows) (hc : 2 ≤ cols) (rot : Option (K × K)) (xx yy : Nat → Nat → K) (px : Nat → Nat → K)
    (lo hi : K) (h : ∀ i < rows, ∀ j < cols, lo ≤ px i j ∧ px i j ≤ hi) (i j : Nat) :
    lo ≤ interp2d rows cols rot xx yy px i j ∧ interp2d rows cols rot xx yy px i j ≤ hi := by
  unfold interp2d
  dsimp only
  obtain ⟨ya, yb⟩ := clampTo_range rows (by omega) (rotateXY rows cols rot (xx i j) (yy i j)).2
  obtain ⟨xa, xb⟩ := clampTo_range cols (by omega) (rotateXY rows cols rot (xx i j) (yy i j)).1
  obtain ⟨a, b, dy, dx, h1, h2, h3, h4, h5, h6, -, -, h7⟩ := bilinear_cell rows cols hr hc px _ _ ya yb xa xb
  rw [h7]
  exact mix_bounds _ _ _ _ _ h3 h4
    (mix_bounds _ _ _ _ _ h5 h6 (h a (by omega) b (by omega)) (h a (by omega) (b + 1) h2))
    (mix_bounds _ _ _ _ _ h5 h6 (h (a + 1) h1 b (by omega)) (h (a + 1) h1 (b + 1) h2))

/-- **C53** (only the layer matters): layers that are equal on their pixels give equal values. -/
theorem C53_local (rows cols : Nat) (hr : 2 ≤ rows) (hc : 2 ≤ cols) (rot : Option (K × K)) (xx yy : Nat → Nat → K) (px qx : Nat → Nat → K)
    (h : ∀ i < rows, ∀ j < cols, px i j = qx i j) (i j : Nat) :
    interp2d rows cols rot xx yy px i j = interp2d rows cols rot xx yy qx i j := by
  unfold interp2d
  dsimp only
  obtain ⟨ya, yb⟩ := clampTo_range rows (by omega) (rotateXY rows cols rot (xx i j) (yy i j)).2
  obtain ⟨xa, xb⟩ := clampTo_range cols (by omega) (rotateXY rows cols rot (xx i j) (yy i j)).1
  obtain ⟨a1, -, -⟩ := cellIdx_spec rows hr _ ya yb
  obtain ⟨b1, -, -⟩ := cellIdx_spec cols hc _ xa xb
  unfold bilinear
  dsimp only
  rw [h _ (by omega) _ (by omega), h _ (by omega) _ b1, h _ a1 _ (by omega), h _ a1 _ b1]

omit [IsStrictOrderedRing K] in
/-- **C53** (linearity): the interpolation of a combination of layers is the combination of the interpolations. -/
theorem C53_linear (rows cols : Nat) (rot : Option (K × K)) (xx yy : Nat → Nat → K) (px qx : Nat → Nat → K) (al be : K) (i j : Nat) :
    interp2d rows cols rot xx yy (fun a b => al * px a b + be * qx a b) i j =
      al * interp2d rows cols rot xx yy px i j + be * interp2d rows cols rot xx yy qx i j := by
  unfold interp2d bilinear
  dsimp only
  ring

/-- **C53** (planes): a layer that is a plane is interpolated exactly. -/
theorem C53_plane (rows cols : Nat) (hr : 2 ≤ rows) (hc : 2 ≤ cols) (xx yy : Nat → Nat → K) (px : Nat → Nat → K) (p q r : K)
    (h : ∀ i < rows, ∀ j < cols, px i j = p + q * i + r * j) (i j : Nat) (hy0 : 0 ≤ yy i j) (hy1 : yy i j ≤ (rows : K) - 1)
    (hx0 : 0 ≤ xx i j) (hx1 : xx i j ≤ (cols : K) - 1) :
    interp2d rows cols none xx yy px i j = p + q * yy i j + r * xx i j := by
  unfold interp2d
  dsimp only [rotateXY]
  rw [clampTo_id rows _ hy0 hy1, clampTo_id cols _ hx0 hx1]
  obtain ⟨a, b, dy, dx, h1, h2, -, -, -, -, h5, h6, h7⟩ := bilinear_cell rows cols hr hc px _ _ hy0 hy1 hx0 hx1
  rw [h7, h5, h6, h a (by omega) b (by omega), h a (by omega) (b + 1) h2, h (a + 1) h1 b (by omega), h (a + 1) h1 (b + 1) h2]
  push_cast
  ring

/-- **C53** (grid points): at a pixel of the layer the value is that of the pixel. -/
theorem C53_grid (rows cols : Nat) (hr : 2 ≤ rows) (hc : 2 ≤ cols) (xx yy : Nat → Nat → K) (px : Nat → Nat → K) (i j a b : Nat)
    (ha : a < rows) (hb : b < cols) (hy : yy i j = a) (hx : xx i j = b) : interp2d rows cols none xx yy px i j = px a b := by
  have ha' : (a : K) ≤ (rows : K) - 1 := by
    have : ((a + 1 : Nat) : K) ≤ rows := by exact_mod_cast ha
    push_cast at this
    linarith
  have hb' : (b : K) ≤ (cols : K) - 1 := by
    have : ((b + 1 : Nat) : K) ≤ cols := by exact_mod_cast hb
    push_cast at this
    linarith
  have ha0 : (0 : K) ≤ a := Nat.cast_nonneg a
  have hb0 : (0 : K) ≤ b := Nat.cast_nonneg b
  unfold interp2d
  dsimp only [rotateXY]
  rw [hy, hx, clampTo_id rows _ ha0 ha', clampTo_id cols _ hb0 hb']
  unfold bilinear cellIdx
  dsimp only
  rw [Nat.floor_natCast, Nat.floor_natCast]
  have key : ∀ (n m : Nat), 2 ≤ n → m < n → (min m (n - 2) = m ∧ (m : K) - (min m (n - 2) : Nat) = 0) ∨
      (min m (n - 2) + 1 = m ∧ (m : K) - (min m (n - 2) : Nat) = 1) := by
    intro n m hn hm
    rcases Nat.lt_or_ge m (n - 1) with h | h
    · left
      rw [min_eq_left (by omega)]
      simp
    · right
      have e : min m (n - 2) + 1 = m := by omega
      refine ⟨e, ?_⟩
      have : (m : K) = ((min m (n - 2) + 1 : Nat) : K) := by rw [e]
      rw [this]
      push_cast
      ring
  rcases key rows a hr ha with ⟨e1, d1⟩ | ⟨e1, d1⟩ <;> rcases key cols b hc hb with ⟨e2, d2⟩ | ⟨e2, d2⟩ <;> rw [d1, d2] <;> simp only [e1, e2] <;> ring

/-! ### Geometry of the beam -/

omit [FloorRing K] in
theorem makeXY_eq (pupil : Nat) (hp : 1 ≤ pupil) (size : K) (i : Nat) :
    makeXY pupil (size / 2) i = ((i : K) - ((pupil : K) - 1) / 2) * (size / pupil) := by
  have : (pupil : K) ≠ 0 := by
    have : 0 < pupil := hp
    exact_mod_cast this.ne'
  unfold makeXY
  field_simp

omit [FloorRing K] in
/-- The diameter of the beam never exceeds the pupil, for sources at infinity or above the layer. -/
theorem beamSize_range (pupil : Nat) (s : SrcGeom K) (l : LayerGeom K) (hm : 1 ≤ l.mag) (hh : 0 ≤ l.height)
    (hs : ∀ h, s.height = some h → 0 < h ∧ l.height ≤ h) : 0 ≤ beamSize pupil s l ∧ beamSize pupil s l ≤ pupil := by
  have hp : (0 : K) ≤ pupil := Nat.cast_nonneg _
  have hmag : (1 : K) ≤ if l.mag = 1 then 1 else l.mag := by split <;> [exact le_refl _; exact hm]
  have key : ∀ x : K, 0 ≤ x → x ≤ pupil → 0 ≤ x / (if l.mag = 1 then 1 else l.mag) ∧ x / (if l.mag = 1 then 1 else l.mag) ≤ pupil := by
    intro x h0 h1
    exact ⟨div_nonneg h0 (by linarith), le_trans (div_le_self h0 hmag) h1⟩
  unfold beamSize
  cases hh' : s.height with
  | none => exact key _ hp (le_refl _)
  | some h =>
    obtain ⟨h0, h1⟩ := hs h hh'
    have e : abs (h - abs l.height) / h = (h - l.height) / h := by rw [abs_of_nonneg hh, abs_of_nonneg (by linarith)]
    dsimp only
    rw [e]
    have c0 : 0 ≤ (h - l.height) / h := div_nonneg (by linarith) h0.le
    have c1 : (h - l.height) / h ≤ 1 := by rw [div_le_one h0]; linarith
    exact key _ (mul_nonneg hp c0) (mul_le_of_le_one_right hp c1)

omit [FloorRing K] in
theorem beam_inside (L pupil : Nat) (hp : 1 ≤ pupil) (size pos : K) (h0 : 0 ≤ size) (h1 : size ≤ pupil) (hin : |pos| ≤ ((L : K) - pupil) / 2)
    (i : Nat) (hi : i < pupil) :
    0 ≤ makeXY pupil (size / 2) i + (((L : K) - 1) / 2 - 0) + pos ∧ makeXY pupil (size / 2) i + (((L : K) - 1) / 2 - 0) + pos ≤ (L : K) - 1 := by
  rw [makeXY_eq pupil hp]
  have hpp : (0 : K) < pupil := by exact_mod_cast hp
  have c0 : 0 ≤ size / pupil := div_nonneg h0 hpp.le
  have c1 : size / pupil ≤ 1 := by rw [div_le_one hpp]; exact h1
  have hi0 : (0 : K) ≤ i := Nat.cast_nonneg _
  have hi1 : (i : K) ≤ (pupil : K) - 1 := by
    have : ((i + 1 : Nat) : K) ≤ pupil := by exact_mod_cast hi
    push_cast at this
    linarith
  obtain ⟨p1, p2⟩ := abs_le.1 hin
  have hp1 : (1 : K) ≤ pupil := by exact_mod_cast hp
  have m1 : -(((pupil : K) - 1) / 2) ≤ ((i : K) - ((pupil : K) - 1) / 2) * (size / pupil) := by
    nlinarith [mul_nonneg hi0 c0]
  have m2 : ((i : K) - ((pupil : K) - 1) / 2) * (size / pupil) ≤ ((pupil : K) - 1) / 2 := by
    nlinarith [mul_nonneg (sub_nonneg.2 hi1) c0]
  constructor <;> linarith

/-- **C53** (inside the field of view): a source that is accepted, at infinity or above a square layer that is neither shifted nor
rotated, sees only points inside the layer: no coordinate is moved to the border.  So a plane on the layer is seen as a plane:
sampled with the size of the beam (cone effect and magnification) around the position of the beam. -/
theorem C53_accepted_sees_inside (airmass : K) (pupil : Nat) (hp : 1 ≤ pupil) (pupilPos : Option (K × K)) (s : SrcGeom K) (l : LayerGeom K)
    (hsq : l.cols = l.rows) (hrows : 2 ≤ l.rows) (hsh : l.shift = (0, 0)) (hrot : l.rot = none) (hm : 1 ≤ l.mag) (hh : 0 ≤ l.height)
    (hs : ∀ h, s.height = some h → 0 < h ∧ l.height ≤ h) (f : (Nat → Nat → K) → Nat → Nat → K)
    (hf : layerInterp airmass pupil pupilPos s l = some f) (px : Nat → Nat → K) (p q r : K)
    (hpx : ∀ i < l.rows, ∀ j < l.rows, px i j = p + q * i + r * j) (i j : Nat) (hi : i < pupil) (hj : j < pupil) :
    f px i j = p + q * (((l.rows : K) - 1) / 2 + (beamPos airmass pupil pupilPos s l).2 + ((i : K) - ((pupil : K) - 1) / 2) * (beamSize pupil s l / pupil))
      + r * (((l.rows : K) - 1) / 2 + (beamPos airmass pupil pupilPos s l).1 + ((j : K) - ((pupil : K) - 1) / 2) * (beamSize pupil s l / pupil)) := by
  unfold layerInterp at hf
  dsimp only at hf
  split at hf
  · next hin =>
    rw [Option.some.injEq] at hf
    subst hf
    obtain ⟨s0, s1⟩ := beamSize_range pupil s l hm hh hs
    rw [hsq] at hin
    have bx := beam_inside l.rows pupil hp _ _ s0 s1 hin.1 j hj
    have by' := beam_inside l.rows pupil hp _ _ s0 s1 hin.2 i hi
    have ex : beamX pupil (beamSize pupil s l) (beamPos airmass pupil pupilPos s l).1 l j =
        makeXY pupil (beamSize pupil s l / 2) j + (((l.rows : K) - 1) / 2 - 0) + (beamPos airmass pupil pupilPos s l).1 := by
      unfold beamX; rw [hsh]
    have ey : beamY pupil (beamSize pupil s l) (beamPos airmass pupil pupilPos s l).2 l i =
        makeXY pupil (beamSize pupil s l / 2) i + (((l.rows : K) - 1) / 2 - 0) + (beamPos airmass pupil pupilPos s l).2 := by
      unfold beamY; rw [hsh]
    rw [hsq, hrot, C53_plane l.rows l.rows hrows hrows _ _ px p q r hpx i j (by rw [ey]; exact by'.1) (by rw [ey]; exact by'.2)
      (by rw [ex]; exact bx.1) (by rw [ex]; exact bx.2)]
    rw [ex, ey, makeXY_eq pupil hp, makeXY_eq pupil hp]
    ring
  · cases hf

/-- **C53** (refusals): a layer at or above a source of finite height, and a source outside the field of view of the layer, are refused. -/
theorem C53_refused (airmass : K) (ha : 0 < airmass) (pupil : Nat) (pupilPos : Option (K × K)) (s : SrcGeom K) (l : LayerGeom K)
    (hl : l.height ≠ 0) (hr : s.height = none → s.r ≠ 0)
    (h : (∃ h, s.height = some h ∧ h ≤ l.height) ∨
      ((l.rows : K) - pupil) / 2 < |(beamPos airmass pupil pupilPos s l).1| ∨ ((l.cols : K) - pupil) / 2 < |(beamPos airmass pupil pupilPos s l).2|) :
    setupView airmass pupil pupilPos s l = none := by
  unfold setupView
  rw [if_neg (by rintro ⟨h1 | ⟨h1, h2⟩, -⟩ <;> [exact hl h1; exact hr h1 h2])]
  split
  · next hpos =>
    rcases h with ⟨h, h1, h2⟩ | h
    · simp only [sourceAbove, h1, decide_eq_true_eq] at hpos
      nlinarith
    · unfold layerInterp
      dsimp only
      rw [if_neg]
      · rfl
      · rintro ⟨a, b⟩
        rcases h with h | h <;> linarith
  · rfl

/-- **C53** (direct cut): when layer and pupil have the same parity the direct cut used on axis is the interpolation on axis. -/
theorem C53_cut_same_parity (L pupil : Nat) (hp : 1 ≤ pupil) (hL : 2 ≤ L) (hle : pupil ≤ L) (hpar : (L - pupil) % 2 = 0) (l : LayerGeom K)
    (hr : l.rows = L) (hc : l.cols = L) (hsh : l.shift = (0, 0)) (px : Nat → Nat → K) (i j : Nat) (hi : i < pupil) (hj : j < pupil) :
    interp2d L L none (fun _ j => beamX pupil (pupil : K) 0 l j) (fun i _ => beamY pupil (pupil : K) 0 l i) px i j =
      px ((L - pupil) / 2 + i) ((L - pupil) / 2 + j) := by
  have hpp : (pupil : K) ≠ 0 := by
    have : 0 < pupil := hp
    exact_mod_cast this.ne'
  have hcoord : ∀ k : Nat, makeXY pupil ((pupil : K) / 2) k + (((L : K) - 1) / 2 - 0) + 0 = (((L - pupil) / 2 + k : Nat) : K) := by
    intro k
    have e : (L : K) = ((2 * ((L - pupil) / 2) + pupil : Nat) : K) := by congr 1; omega
    rw [makeXY_eq pupil hp, div_self hpp, e]
    push_cast
    ring
  refine C53_grid L L hL hL _ _ px i j _ _ (by omega) (by omega) ?_ ?_
  · simp only [beamY, hr, hsh, hcoord]
  · simp only [beamX, hr, hsh, hcoord]

/-- With different parity the direct cut is half a pixel away in both directions: the interpolation on axis is at the corner between
four pixels, of which the cut takes the first. -/
theorem C53_cut_half_pixel (L pupil : Nat) (hp : 1 ≤ pupil) (hle : pupil ≤ L) (hpar : (L - pupil) % 2 = 1) (l : LayerGeom K)
    (hr : l.rows = L) (hsh : l.shift = (0, 0)) (i : Nat) :
    beamX pupil (pupil : K) 0 l i = (((L - pupil) / 2 + i : Nat) : K) + 1 / 2 ∧ beamY pupil (pupil : K) 0 l i = (((L - pupil) / 2 + i : Nat) : K) + 1 / 2 := by
  have hpp : (pupil : K) ≠ 0 := by
    have : 0 < pupil := hp
    exact_mod_cast this.ne'
  have hcoord : makeXY pupil ((pupil : K) / 2) i + (((L : K) - 1) / 2 - 0) + 0 = (((L - pupil) / 2 + i : Nat) : K) + 1 / 2 := by
    have e : (L : K) = ((2 * ((L - pupil) / 2) + 1 + pupil : Nat) : K) := by congr 1; omega
    rw [makeXY_eq pupil hp, div_self hpp, e]
    push_cast
    ring
  constructor
  · simp only [beamX, hr, hsh, hcoord]
  · simp only [beamY, hr, hsh, hcoord]

omit [IsStrictOrderedRing K] in
/-- The shift of the layer is not part of the check of the field of view: whatever the shift, the source is accepted or not as
without, so coordinates may fall outside the layer and be moved to its border. -/
theorem C53_shift_not_checked (airmass : K) (pupil : Nat) (pupilPos : Option (K × K)) (s : SrcGeom K) (l : LayerGeom K) (sh : K × K) :
    (layerInterp airmass pupil pupilPos s { l with shift := sh }).isSome = (layerInterp airmass pupil pupilPos s l).isSome := by
  have e : beamPos airmass pupil pupilPos s { l with shift := sh } = beamPos airmass pupil pupilPos s l := rfl
  unfold layerInterp
  dsimp only
  rw [e]
  split <;> rfl

end

/-! ### Concrete cases -/

/-- A sodium beacon at 90 km sees a layer of 20 pixels at 30 km through a pupil of 12: the beam is 8 pixels wide. -/
def srcExample : SrcGeom ℚ := ⟨some 90, 1 / 10, 1, 0⟩
def layerExample : LayerGeom ℚ := ⟨20, 20, 1, 30, (0, 0), none, 1⟩

example : beamSize 12 srcExample layerExample = 8 ∧ beamPos 1 12 none srcExample layerExample = (3, 0) := by decide +kernel

example : (layerInterp 1 12 none srcExample layerExample).isSome ∧ (∀ h, srcExample.height = some h → 0 < h ∧ layerExample.height ≤ h) := by
  refine ⟨by decide +kernel, fun h hh => ?_⟩
  cases hh
  decide +kernel

example : (layerInterp 1 12 none srcExample layerExample).map (fun f => f (fun i j => 10 * i + j) 0 11) =
    some (10 * (19 / 2 - 11 / 3) + (19 / 2 + 3 + 11 / 3)) := by decide +kernel

/-- Outside the field of view. -/
example : ((layerInterp 1 12 none { srcExample with r := 1 } layerExample).isSome) = false := by decide +kernel

/-- A layer shifted by more than its size is accepted and seen as constant along x. -/
example : (layerInterp 1 12 none srcExample { layerExample with shift := (40, 0) }).map (fun f => (f (fun _ j => j) 0 0, f (fun _ j => j) 0 11)) =
    some (0, 0) := by decide +kernel

end Specula
