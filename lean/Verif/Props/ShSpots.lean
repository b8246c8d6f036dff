import Verif.Props.Sh
/-
C76, continued: spots, light and distribution on several devices.
-/
namespace Specula

section
variable {K E : Type} [Field K] [LinearOrder K] [IsStrictOrderedRing K]

/-! ### Specification -/

/-- The field in the sub-aperture of the lenslet at row `I`, column `J`. -/
def subapField (d : ShDims) (f : Img E) (I J : Nat) : Nat → Nat → E := fun a b => f.px (I * d.np + a) (J * d.np + b)

/-- The part of the focal plane of a lenslet that falls on the detector: the central `fft - cut` pixels. -/
def lensletImage (d : ShDims) (spot : Nat → Nat → (Nat → Nat → E) → Nat → Nat → K) (f : Img E) (I J y x : Nat) : K :=
  spot I J (subapField d f I J) (d.cut / 2 + y) (d.cut / 2 + x)

/-- The image of a lenslet on the pixels of the detector. -/
def lensletSpot (d : ShDims) (spot : Nat → Nat → (Nat → Nat → E) → Nat → Nat → K) (f : Img E) (I J u v : Nat) : K :=
  areaResample d.cs d.cs d.npx d.npx (lensletImage d spot f I J) u v

/-- Light of the lenslets of rows `a` to `b`. -/
def lensletLight (d : ShDims) (spot : Nat → Nat → (Nat → Nat → E) → Nat → Nat → K) (f : Img E) (a b : Nat) : K :=
  ∑ I ∈ Finset.range d.n, if a ≤ I ∧ I < b then
    ∑ J ∈ Finset.range d.n, ∑ y ∈ Finset.range d.cs, ∑ x ∈ Finset.range d.cs, lensletImage d spot f I J y x else 0

/-- The computation of a spot uses the pixels of the sub-aperture only. -/
def SpotLocal (d : ShDims) (spot : Nat → Nat → (Nat → Nat → E) → Nat → Nat → K) : Prop :=
  ∀ i j g g', (∀ a < d.np, ∀ b < d.np, g a b = g' a b) → spot i j g = spot i j g'

/-- Sizes for which the sensor works: those of `C76_geometry`, a field of the right size, and a resampling not spoiled by
rounding (see C37). -/
structure ShOk (d : ShDims) (f : Img E) : Prop where
  n : 0 < d.n
  np : 0 < d.np
  npx : 0 < d.npx
  cut : d.cut < d.fft
  rows : f.rows = d.np * d.n
  cols : f.cols = d.np * d.n
  grid : d.cs = d.npx ∨ ResampleOk (d.cs * d.n) (d.cs * d.n) (d.npx * d.n) (d.npx * d.n)

/-- The lenslets of rows `a` to `b` give either no light at all or more than the machine epsilon. -/
def LightOk (d : ShDims) (eps : K) (spot : Nat → Nat → (Nat → Nat → E) → Nat → Nat → K) (f : Img E) (a b : Nat) : Prop :=
  d.cs = d.npx ∨ lensletLight d spot f a b = 0 ∨ eps * (d.cs * d.cs) ≤ lensletLight d spot f a b * (d.npx * d.npx)

/-! ### Reshapes -/

theorem block_div_mod (a b m : Nat) (hb : b < m) : (a * m + b) / m = a ∧ (a * m + b) % m = b := by
  have hm : 0 < m := by omega
  constructor
  · rw [Nat.add_comm, Nat.add_mul_div_right _ _ hm, Nat.div_eq_of_lt hb, Nat.zero_add]
  · rw [Nat.add_comm, Nat.add_mul_mod_self_right, Nat.mod_eq_of_lt hb]

theorem block_lt (a b m n : Nat) (ha : a < n) (hb : b < m) : a * m + b < n * m := by
  calc a * m + b < a * m + m := by omega
    _ = (a + 1) * m := by ring
    _ ≤ n * m := Nat.mul_le_mul_right _ ha

theorem cutLen_eq (d : ShDims) (h : d.cut ≤ d.fft) : cutLen d = d.cs := by
  unfold cutLen ShDims.cs
  split_ifs <;> omega

theorem cutStart_eq (d : ShDims) : cutStart d = d.cut / 2 := by
  unfold cutStart
  split_ifs <;> omega

theorem subapCube_eq (d : ShDims) (row : Nat → Nat → E) (j u v : Nat) (hj : j < d.n) (hv : v < d.np) :
    subapCube d (d.np * d.n) row j u v = row u (j * d.np + v) := by
  unfold subapCube
  have h := block_lt j v d.np d.n hj hv
  rw [Nat.mul_comm d.n] at h
  have e : (u * d.n + j) * d.np + v = u * (d.np * d.n) + (j * d.np + v) := by ring
  dsimp only
  rw [e, (block_div_mod u _ _ h).1, (block_div_mod u _ _ h).2]

omit [Field K] [LinearOrder K] [IsStrictOrderedRing K] in
theorem rowOfSpots_eq (d : ShDims) (h : d.cut ≤ d.fft) (view : Nat → Nat → Nat → K) (j u v : Nat) (hj : j < d.n) (hv : v < d.cs) :
    rowOfSpots d view u (j * d.cs + v) = view j u v := by
  unfold rowOfSpots
  dsimp only
  rw [cutLen_eq d h]
  have h1 := block_lt j v d.cs d.n hj hv
  have e : u * (d.n * d.cs) + (j * d.cs + v) = (u * d.n + j) * d.cs + v := by ring
  rw [(block_div_mod u _ _ h1).1, e, (block_div_mod _ v _ hv).1, (block_div_mod _ v _ hv).2, (block_div_mod u j _ hj).2]

omit [LinearOrder K] [IsStrictOrderedRing K] in
/-- The image before resampling: each lenslet has its square, whose content is computed from its sub-aperture. -/
theorem shImage_eq (d : ShDims) (spot : Nat → Nat → (Nat → Nat → E) → Nat → Nat → K) (hl : SpotLocal d spot) (f : Img E) (hf : ShOk d f)
    (a b : Nat) (hb : b ≤ d.n) :
    ∃ im, shImage d spot a b f = some im ∧ im.rows = d.cs * d.n ∧ im.cols = d.cs * d.n ∧
      ∀ I < d.n, ∀ J < d.n, ∀ y < d.cs, ∀ x < d.cs, im.px (I * d.cs + y) (J * d.cs + x) =
        if a ≤ I ∧ I < b then lensletImage d spot f I J y x else 0 := by
  unfold shImage
  have hcl := cutLen_eq d hf.cut.le
  rw [if_pos]
  · refine ⟨_, rfl, rfl, rfl, ?_⟩
    intro I hI J hJ y hy x hx
    dsimp only
    rw [(block_div_mod I y _ hy).1, (block_div_mod I y _ hy).2]
    congr 1
    unfold shRow
    rw [rowOfSpots_eq d hf.cut.le _ J y x hJ hx, cutStart_eq]
    unfold lensletImage
    rw [hl I J _ (subapField d f I J)]
    intro u hu v hv
    rw [hf.cols, subapCube_eq d _ J u v hJ hv]
    rfl
  · refine ⟨fun i hi _ => ?_, fun _ => ⟨?_, ?_⟩⟩
    · rw [hf.rows, Nat.mul_comm d.np]
      exact Nat.mul_le_mul_right _ (by omega)
    · rw [hf.cols]; ring
    · rw [hcl]; ring

omit [LinearOrder K] [IsStrictOrderedRing K] in
theorem total_blocks (im : Img K) (n c : Nat) (hr : im.rows = c * n) (hc : im.cols = c * n) :
    im.total = ∑ I ∈ Finset.range n, ∑ J ∈ Finset.range n, ∑ y ∈ Finset.range c, ∑ x ∈ Finset.range c, im.px (I * c + y) (J * c + x) := by
  unfold Img.total
  rw [hr, hc, Nat.mul_comm c n]
  rw [← sum_blocks (fun i : Nat => ∑ j ∈ Finset.range (n * c), im.px i j) n c]
  refine Finset.sum_congr rfl fun I _ => ?_
  conv_rhs => rw [Finset.sum_comm]
  refine Finset.sum_congr rfl fun y _ => ?_
  rw [← sum_blocks]

/-! ### Resampling by blocks -/

theorem cells_block (c m I I' y u : Nat) (hy : y < c) (hu : u < m) :
    cells m c (I' * c + y) (I * m + u) = if I' = I then cells m c y u else 0 := by
  unfold cells
  split_ifs with h
  · subst h
    have e1 : (I' * c + y + 1) * m = I' * c * m + (y + 1) * m := by ring
    have e2 : (I' * m + u + 1) * c = I' * c * m + (u + 1) * c := by ring
    have e3 : (I' * c + y) * m = I' * c * m + y * m := by ring
    have e4 : (I' * m + u) * c = I' * c * m + u * c := by ring
    rw [e1, e2, e3, e4]
    omega
  · rcases Nat.lt_or_gt_of_ne h with h | h
    · have h1 : (I' * c + y + 1) * m ≤ (I * m + u) * c := by
        calc (I' * c + y + 1) * m ≤ (I' * c + c) * m := Nat.mul_le_mul_right _ (by omega)
          _ = (I' + 1) * (c * m) := by ring
          _ ≤ I * (c * m) := Nat.mul_le_mul_right _ h
          _ = I * m * c := by ring
          _ ≤ (I * m + u) * c := Nat.mul_le_mul_right _ (by omega)
      omega
    · have h1 : (I * m + u + 1) * c ≤ (I' * c + y) * m := by
        calc (I * m + u + 1) * c ≤ (I * m + m) * c := Nat.mul_le_mul_right _ (by omega)
          _ = (I + 1) * (c * m) := by ring
          _ ≤ I' * (c * m) := Nat.mul_le_mul_right _ h
          _ = I' * c * m := by ring
          _ ≤ (I' * c + y) * m := Nat.mul_le_mul_right _ (by omega)
      omega

theorem pixelShare_block (n c m I I' y u : Nat) (hn : 0 < n) (hy : y < c) (hu : u < m) :
    (pixelShare (c * n) (m * n) (I' * c + y) (I * m + u) : K) = if I' = I then pixelShare c m y u else 0 := by
  have hc : 0 < c := by omega
  have hm : 0 < m := by omega
  rw [pixelShare_cells (c * n) (m * n) m c _ _ (by positivity) (by positivity) hm (by ring),
    pixelShare_cells c m m c _ _ hc hm hm (by ring), cells_block c m I I' y u hy hu]
  split_ifs <;> simp

/-- Resampling blocks of `c` by `c` pixels into blocks of `m` by `m` treats each block on its own. -/
theorem areaResample_block (n c m : Nat) (hn : 0 < n) (px : Nat → Nat → K) (I J u v : Nat) (hI : I < n) (hJ : J < n) (hu : u < m)
    (hv : v < m) : areaResample (c * n) (c * n) (m * n) (m * n) px (I * m + u) (J * m + v) =
      areaResample c c m m (fun y x => px (I * c + y) (J * c + x)) u v := by
  unfold areaResample
  rw [Nat.mul_comm c n, ← sum_blocks, Finset.sum_eq_single I]
  · refine Finset.sum_congr rfl fun y hy => ?_
    rw [← sum_blocks, Finset.sum_eq_single J]
    · refine Finset.sum_congr rfl fun x hx => ?_
      rw [Nat.mul_comm n c, pixelShare_block n c m I I y u hn (Finset.mem_range.1 hy) hu,
        pixelShare_block n c m J J x v hn (Finset.mem_range.1 hx) hv, if_pos rfl, if_pos rfl]
    · intro J' _ hne
      refine Finset.sum_eq_zero fun x hx => ?_
      rw [Nat.mul_comm n c, pixelShare_block n c m J J' x v hn (Finset.mem_range.1 hx) hv, if_neg hne, mul_zero, zero_mul]
    · intro h; exact absurd (Finset.mem_range.2 hJ) h
  · intro I' _ hne
    refine Finset.sum_eq_zero fun y hy => Finset.sum_eq_zero fun x _ => ?_
    rw [Nat.mul_comm n c, pixelShare_block n c m I I' y u hn (Finset.mem_range.1 hy) hu, if_neg hne, zero_mul, zero_mul]
  · intro h; exact absurd (Finset.mem_range.2 hI) h

/-- Resampling to the same number of pixels changes nothing. -/
theorem areaResample_same (c : Nat) (px : Nat → Nat → K) (u v : Nat) (hu : u < c) (hv : v < c) : areaResample c c c c px u v = px u v := by
  have h : ∀ y x : Nat, (pixelShare c c y x : K) = if y = x then 1 else 0 := by
    intro y x
    rw [pixelShare_cells c c 1 1 y x (by omega) (by omega) one_pos rfl]
    unfold cells
    split_ifs with e
    · subst e; simp
    · have : min ((y + 1) * 1) ((x + 1) * 1) - max (y * 1) (x * 1) = 0 := by omega
      rw [this]; simp
  unfold areaResample
  simp only [h]
  rw [Finset.sum_eq_single u, Finset.sum_eq_single v]
  · simp
  · intro x _ hne; simp [hne]
  · intro h; exact absurd (Finset.mem_range.2 hv) h
  · intro y _ hne; simp [hne]
  · intro h; exact absurd (Finset.mem_range.2 hu) h

/-! ### Theorems -/

/-- The central pixels of every focal plane hold no negative intensity. -/
def SpotNonneg (spot : Nat → Nat → (Nat → Nat → E) → Nat → Nat → K) : Prop :=
  ∀ i j g y x, 0 ≤ spot i j g y x

omit [LinearOrder K] [IsStrictOrderedRing K] in
theorem areaResample_zero [LinearOrder K] (o0 o1 n0 n1 : Nat) (px : Nat → Nat → K) (h : ∀ y < o0, ∀ x < o1, px y x = 0) (i j : Nat) :
    areaResample o0 o1 n0 n1 px i j = 0 := by
  unfold areaResample
  refine Finset.sum_eq_zero fun y hy => Finset.sum_eq_zero fun x hx => ?_
  rw [h y (Finset.mem_range.1 hy) x (Finset.mem_range.1 hx), mul_zero]

omit [LinearOrder K] [IsStrictOrderedRing K] in
theorem areaResample_congr [LinearOrder K] (o0 o1 n0 n1 : Nat) (px px' : Nat → Nat → K) (h : ∀ y < o0, ∀ x < o1, px y x = px' y x)
    (i j : Nat) : areaResample o0 o1 n0 n1 px i j = areaResample o0 o1 n0 n1 px' i j := by
  unfold areaResample
  refine Finset.sum_congr rfl fun y hy => Finset.sum_congr rfl fun x hx => ?_
  rw [h y (Finset.mem_range.1 hy) x (Finset.mem_range.1 hx)]

/-- **C76** (spots): before normalisation, the pixels of the lenslet at row `I`, column `J` hold the image of the field in its
sub-aperture, and nothing else: no light comes from, or goes to, other lenslets.  Rows of lenslets outside the slice are dark. -/
theorem C76_spots (d : ShDims) (eps : K) (spot : Nat → Nat → (Nat → Nat → E) → Nat → Nat → K) (hl : SpotLocal d spot)
    (h0 : SpotNonneg spot) (f : Img E) (hf : ShOk d f) (a b : Nat) (hb : b ≤ d.n) (hlight : LightOk d eps spot f a b) :
    ∃ r, shRaw d eps spot a b f = some r ∧ r.rows = d.npx * d.n ∧ r.cols = d.npx * d.n ∧
      ∀ I < d.n, ∀ J < d.n, ∀ u < d.npx, ∀ v < d.npx, r.px (I * d.npx + u) (J * d.npx + v) =
        if a ≤ I ∧ I < b then lensletSpot d spot f I J u v else 0 := by
  obtain ⟨im, h1, h2, h3, h4⟩ := shImage_eq d spot hl f hf a b hb
  have hcs : 0 < d.cs := by have := hf.cut; unfold ShDims.cs; omega
  have hn := hf.n
  have hx := hf.npx
  -- the blocks of the resampled image
  have hblk : ∀ I < d.n, ∀ J < d.n, ∀ u < d.npx, ∀ v < d.npx,
      areaResample im.rows im.cols (d.npx * d.n) (d.npx * d.n) im.px (I * d.npx + u) (J * d.npx + v) =
        if a ≤ I ∧ I < b then lensletSpot d spot f I J u v else 0 := by
    intro I hI J hJ u hu v hv
    rw [h2, h3, areaResample_block d.n d.cs d.npx hn im.px I J u v hI hJ hu hv]
    split_ifs with hab
    · unfold lensletSpot
      refine areaResample_congr _ _ _ _ _ _ (fun y hy x hx => ?_) u v
      rw [h4 I hI J hJ y hy x hx, if_pos hab]
    · refine areaResample_zero _ _ _ _ _ (fun y hy x hx => ?_) u v
      rw [h4 I hI J hJ y hy x hx, if_neg hab]
  have htot : im.total = lensletLight d spot f a b := by
    rw [total_blocks im d.n d.cs h2 h3]
    unfold lensletLight
    refine Finset.sum_congr rfl fun I hI => ?_
    split_ifs with hab
    · refine Finset.sum_congr rfl fun J hJ => Finset.sum_congr rfl fun y hy => Finset.sum_congr rfl fun x hx => ?_
      rw [h4 I (Finset.mem_range.1 hI) J (Finset.mem_range.1 hJ) y (Finset.mem_range.1 hy) x (Finset.mem_range.1 hx), if_pos hab]
    · refine Finset.sum_eq_zero fun J hJ => Finset.sum_eq_zero fun y hy => Finset.sum_eq_zero fun x hx => ?_
      rw [h4 I (Finset.mem_range.1 hI) J (Finset.mem_range.1 hJ) y (Finset.mem_range.1 hy) x (Finset.mem_range.1 hx), if_neg hab]
  unfold shRaw
  rw [h1, Option.bind_some]
  by_cases hsame : d.cs = d.npx
  · refine ⟨im, ?_, by rw [h2, hsame], by rw [h3, hsame], ?_⟩
    · have := C37_toccd_same_shape eps im none
      rwa [h2, h3, hsame] at this
    · intro I hI J hJ u hu v hv
      rw [← hblk I hI J hJ u hu v hv, h2, h3, hsame, areaResample_same]
      · rw [Nat.mul_comm d.npx]; exact block_lt _ _ _ _ hI hu
      · rw [Nat.mul_comm d.npx]; exact block_lt _ _ _ _ hJ hv
  · have hok := hf.grid.resolve_left hsame
    have hR : 0 < im.rows := by rw [h2]; positivity
    have hC : 0 < im.cols := by rw [h3]; positivity
    have hN : 0 < d.npx * d.n := by positivity
    have hne : ¬ (im.rows = d.npx * d.n ∧ im.cols = d.npx * d.n) := by
      rintro ⟨e, -⟩
      rw [h2] at e
      exact hsame (Nat.eq_of_mul_eq_mul_right hn e)
    by_cases hz : lensletLight d spot f a b = 0
    · -- no light
      obtain ⟨r, r1, r2, r3, r4⟩ := toccd_raw eps im _ _ none hR hC hN hN hne (by rw [h2, h3]; exact hok)
      refine ⟨r, r1, r2, r3, fun I hI J hJ u hu v hv => ?_⟩
      rw [r4 _ (by rw [Nat.mul_comm d.npx]; exact block_lt _ _ _ _ hI hu) _ (by rw [Nat.mul_comm d.npx]; exact block_lt _ _ _ _ hJ hv)]
      simp only [Option.getD_none, htot, hz, mul_zero]
      split_ifs with hab
      · unfold lensletSpot
        rw [areaResample_zero]
        intro y hy x hx
        have hnn : ∀ I J y x, 0 ≤ lensletImage d spot f I J y x := fun I J y x => h0 _ _ _ _ _
        unfold lensletLight at hz
        have z1 := (Finset.sum_eq_zero_iff_of_nonneg (by
          intro I _
          split_ifs
          · exact Finset.sum_nonneg fun J _ => Finset.sum_nonneg fun y _ => Finset.sum_nonneg fun x _ => hnn _ _ _ _
          · exact le_rfl)).1 hz I (Finset.mem_range.2 hI)
        rw [if_pos hab] at z1
        have z2 := (Finset.sum_eq_zero_iff_of_nonneg fun J _ => Finset.sum_nonneg fun y _ => Finset.sum_nonneg fun x _ =>
          hnn _ _ _ _).1 z1 J (Finset.mem_range.2 hJ)
        have z3 := (Finset.sum_eq_zero_iff_of_nonneg fun y _ => Finset.sum_nonneg fun x _ => hnn _ _ _ _).1 z2 y (Finset.mem_range.2 hy)
        exact (Finset.sum_eq_zero_iff_of_nonneg fun x _ => hnn _ _ _ _).1 z3 x (Finset.mem_range.2 hx)
      · rfl
    · obtain ⟨r, r1, r2, r3, -, r4⟩ := C37_toccd eps im _ _ none hR hC hN hN hne (by rw [h2, h3]; exact hok) (by
        rw [htot, h2, h3]
        have c1 : (0 : K) < d.cs := Nat.cast_pos.2 hcs
        have c2 : (0 : K) < d.n := Nat.cast_pos.2 hn
        have e : lensletLight d spot f a b * ((((d.npx * d.n : Nat) : K) * ((d.npx * d.n : Nat) : K)) /
            (((d.cs * d.n : Nat) : K) * ((d.cs * d.n : Nat) : K))) =
            lensletLight d spot f a b * (d.npx * d.npx) / (d.cs * d.cs) := by push_cast; field_simp
        rw [e, le_div_iff₀ (by positivity)]
        exact (hlight.resolve_left hsame).resolve_left hz) (by rw [htot]; exact hz)
      refine ⟨r, r1, r2, r3, fun I hI J hJ u hu v hv => ?_⟩
      rw [r4 _ (by rw [Nat.mul_comm d.npx]; exact block_lt _ _ _ _ hI hu) _ (by rw [Nat.mul_comm d.npx]; exact block_lt _ _ _ _ hJ hv)]
      rw [hblk I hI J hJ u hu v hv, Option.getD_none, htot, div_self hz, mul_one]

/-- The light of the detector is that of the lenslets. -/
theorem spots_total (d : ShDims) (spot : Nat → Nat → (Nat → Nat → E) → Nat → Nat → K) (f : Img E) (hf : ShOk d f) (a b : Nat)
    (r : Img K) (hr : r.rows = d.npx * d.n) (hc : r.cols = d.npx * d.n)
    (h : ∀ I < d.n, ∀ J < d.n, ∀ u < d.npx, ∀ v < d.npx, r.px (I * d.npx + u) (J * d.npx + v) =
        if a ≤ I ∧ I < b then lensletSpot d spot f I J u v else 0) : r.total = lensletLight d spot f a b := by
  have hcs : 0 < d.cs := by have := hf.cut; unfold ShDims.cs; omega
  rw [total_blocks r d.n d.npx hr hc]
  unfold lensletLight
  refine Finset.sum_congr rfl fun I hI => ?_
  split_ifs with hab
  · refine Finset.sum_congr rfl fun J hJ => ?_
    rw [← areaResample_total d.cs d.cs d.npx d.npx _ hcs hcs hf.npx hf.npx]
    refine Finset.sum_congr rfl fun u hu => Finset.sum_congr rfl fun v hv => ?_
    rw [h I (Finset.mem_range.1 hI) J (Finset.mem_range.1 hJ) u (Finset.mem_range.1 hu) v (Finset.mem_range.1 hv), if_pos hab]
    rfl
  · refine Finset.sum_eq_zero fun J hJ => Finset.sum_eq_zero fun u hu => Finset.sum_eq_zero fun v hv => ?_
    rw [h I (Finset.mem_range.1 hI) J (Finset.mem_range.1 hJ) u (Finset.mem_range.1 hu) v (Finset.mem_range.1 hv), if_neg hab]

omit [IsStrictOrderedRing K] in
theorem toPhotons_eq (phot : K) (im : Img K) (h : im.total ≠ 0) :
    ∃ r, toPhotons phot im = some r ∧ r.rows = im.rows ∧ r.cols = im.cols ∧ r.total = phot ∧
      ∀ i j, r.px i j = im.px i j * (phot / im.total) := by
  unfold toPhotons
  rw [if_neg h]
  refine ⟨_, rfl, rfl, rfl, ?_, fun _ _ => rfl⟩
  have e : ∀ c : K, (∑ i ∈ Finset.range im.rows, ∑ j ∈ Finset.range im.cols, im.px i j * c) = im.total * c := by
    intro c
    unfold Img.total
    rw [Finset.sum_mul]
    exact Finset.sum_congr rfl fun i _ => (Finset.sum_mul _ _ _).symm
  exact (e _).trans (by field_simp)

/-- **C76** (light): the frame holds exactly the photons collected by the pupil, shared among the pixels in proportion to the
images of the lenslets, whatever is lost outside the field of view of the lenslets. -/
theorem C76_flux (d : ShDims) (eps phot : K) (spot : Nat → Nat → (Nat → Nat → E) → Nat → Nat → K) (hl : SpotLocal d spot)
    (h0 : SpotNonneg spot) (f : Img E) (hf : ShOk d f) (hlight : LightOk d eps spot f 0 d.n) (hpos : lensletLight d spot f 0 d.n ≠ 0) :
    ∃ r, shOut d eps phot spot f = some r ∧ r.rows = d.npx * d.n ∧ r.cols = d.npx * d.n ∧ r.total = phot ∧
      ∀ I < d.n, ∀ J < d.n, ∀ u < d.npx, ∀ v < d.npx, r.px (I * d.npx + u) (J * d.npx + v) =
        lensletSpot d spot f I J u v * (phot / lensletLight d spot f 0 d.n) := by
  obtain ⟨q, q1, q2, q3, q4⟩ := C76_spots d eps spot hl h0 f hf 0 d.n le_rfl hlight
  have ht := spots_total d spot f hf 0 d.n q q2 q3 q4
  obtain ⟨r, r1, r2, r3, r4, r5⟩ := toPhotons_eq phot q (by rw [ht]; exact hpos)
  refine ⟨r, by unfold shOut; rw [q1, Option.bind_some, r1], by rw [r2, q2], by rw [r3, q3], r4, ?_⟩
  intro I hI J hJ u hu v hv
  rw [r5, q4 I hI J hJ u hu v hv, if_pos ⟨Nat.zero_le _, hI⟩, ht]

/-- Without light there is no valid frame: the code divides by zero. -/
theorem C76_dark (d : ShDims) (eps phot : K) (spot : Nat → Nat → (Nat → Nat → E) → Nat → Nat → K) (hl : SpotLocal d spot)
    (h0 : SpotNonneg spot) (f : Img E) (hf : ShOk d f) (hdark : lensletLight d spot f 0 d.n = 0) :
    shOut d eps phot spot f = none := by
  obtain ⟨q, q1, q2, q3, q4⟩ := C76_spots d eps spot hl h0 f hf 0 d.n le_rfl (.inr (.inl hdark))
  have ht := spots_total d spot f hf 0 d.n q q2 q3 q4
  unfold shOut
  rw [q1, Option.bind_some]
  unfold toPhotons
  rw [if_pos (ht.trans hdark)]

/-- **C76** (separation): before normalisation the pixels of a lenslet are the same for two fields that agree in its
sub-aperture. -/
theorem C76_no_crosstalk (d : ShDims) (eps : K) (spot : Nat → Nat → (Nat → Nat → E) → Nat → Nat → K) (hl : SpotLocal d spot)
    (h0 : SpotNonneg spot) (f g : Img E) (hf : ShOk d f) (hg : ShOk d g) (hlf : LightOk d eps spot f 0 d.n)
    (hlg : LightOk d eps spot g 0 d.n) (I J : Nat) (hI : I < d.n) (hJ : J < d.n)
    (h : ∀ a < d.np, ∀ b < d.np, f.px (I * d.np + a) (J * d.np + b) = g.px (I * d.np + a) (J * d.np + b)) :
    ∃ r r', shRaw d eps spot 0 d.n f = some r ∧ shRaw d eps spot 0 d.n g = some r' ∧
      ∀ u < d.npx, ∀ v < d.npx, r.px (I * d.npx + u) (J * d.npx + v) = r'.px (I * d.npx + u) (J * d.npx + v) := by
  obtain ⟨q, q1, -, -, q4⟩ := C76_spots d eps spot hl h0 f hf 0 d.n le_rfl hlf
  obtain ⟨q', q1', -, -, q4'⟩ := C76_spots d eps spot hl h0 g hg 0 d.n le_rfl hlg
  refine ⟨q, q', q1, q1', fun u hu v hv => ?_⟩
  rw [q4 I hI J hJ u hu v hv, q4' I hI J hJ u hu v hv]
  unfold lensletSpot lensletImage
  rw [hl I J (subapField d f I J) (subapField d g I J) h]

/-- **C76** (devices): what `DistributedSH` computes.  The rows of lenslets left over by the integer division are dark. -/
theorem C76_distributed (d : ShDims) (eps phot : K) (spot : Nat → Nat → (Nat → Nat → E) → Nat → Nat → K) (hl : SpotLocal d spot)
    (h0 : SpotNonneg spot) (f : Img E) (hf : ShOk d f) (slices : Nat) (hs : 0 < slices) (hsn : slices ≤ d.n)
    (hlight : ∀ k < slices, LightOk d eps spot f (k * (d.n / slices)) ((k + 1) * (d.n / slices)))
    (hpos : lensletLight d spot f 0 (slices * (d.n / slices)) ≠ 0) :
    ∃ r, distributedOut d eps phot spot slices f = some r ∧ r.rows = d.npx * d.n ∧ r.cols = d.npx * d.n ∧ r.total = phot ∧
      ∀ I < d.n, ∀ J < d.n, ∀ u < d.npx, ∀ v < d.npx, r.px (I * d.npx + u) (J * d.npx + v) =
        if I < slices * (d.n / slices) then
          lensletSpot d spot f I J u v * (phot / lensletLight d spot f 0 (slices * (d.n / slices))) else 0 := by
  set m := d.n / slices with hm
  have hmn : slices * m ≤ d.n := Nat.mul_div_le _ _
  have hm0 : 0 < m := Nat.div_pos hsn hs
  have hraw : ∀ k < slices, ∃ r, shRaw d eps spot (k * m) ((k + 1) * m) f = some r ∧ r.rows = d.npx * d.n ∧ r.cols = d.npx * d.n ∧
      ∀ I < d.n, ∀ J < d.n, ∀ u < d.npx, ∀ v < d.npx, r.px (I * d.npx + u) (J * d.npx + v) =
        if k * m ≤ I ∧ I < (k + 1) * m then lensletSpot d spot f I J u v else 0 := fun k hk =>
    C76_spots d eps spot hl h0 f hf _ _ (le_trans (Nat.mul_le_mul_right _ hk) hmn) (hlight k hk)
  set g : Img K := ⟨d.npx * d.n, d.npx * d.n, fun y x =>
      let k := y / (d.npx * perSlice d slices)
      if k < slices then
        match shRaw d eps spot (k * perSlice d slices) ((k + 1) * perSlice d slices) f with
        | some r => r.px y x
        | none => 0
      else 0⟩ with hg
  have hgpx : ∀ I < d.n, ∀ J < d.n, ∀ u < d.npx, ∀ v < d.npx, g.px (I * d.npx + u) (J * d.npx + v) =
      if 0 ≤ I ∧ I < slices * m then lensletSpot d spot f I J u v else 0 := by
    intro I hI J hJ u hu v hv
    have hk : (I * d.npx + u) / (d.npx * perSlice d slices) = I / m := by
      rw [← Nat.div_div_eq_div_mul, (block_div_mod I u _ hu).1]; rfl
    show (let k := (I * d.npx + u) / (d.npx * perSlice d slices)
      if k < slices then
        match shRaw d eps spot (k * perSlice d slices) ((k + 1) * perSlice d slices) f with
        | some r => r.px (I * d.npx + u) (J * d.npx + v)
        | none => 0
      else 0) = _
    rw [hk]
    have hp : perSlice d slices = m := rfl
    dsimp only
    rw [hp]
    by_cases hI' : I / m < slices
    · obtain ⟨r, r1, -, -, r4⟩ := hraw (I / m) hI'
      rw [if_pos hI', r1]
      dsimp only
      rw [r4 I hI J hJ u hu v hv, if_pos ⟨Nat.div_mul_le_self _ _, by rw [← Nat.div_lt_iff_lt_mul hm0]; omega⟩,
        if_pos ⟨Nat.zero_le _, (Nat.div_lt_iff_lt_mul hm0).1 hI'⟩]
    · rw [if_neg hI', if_neg]
      rintro ⟨-, h⟩
      exact hI' ((Nat.div_lt_iff_lt_mul hm0).2 h)
  have ht := spots_total d spot f hf 0 (slices * m) g rfl rfl hgpx
  obtain ⟨r, r1, r2, r3, r4, r5⟩ := toPhotons_eq phot g (by rw [ht]; exact hpos)
  refine ⟨r, ?_, r2, r3, r4, ?_⟩
  · unfold distributedOut
    rw [if_pos]
    · exact r1
    · intro k hk
      obtain ⟨q, q1, -⟩ := hraw k hk
      have hp : perSlice d slices = m := rfl
      rw [hp, q1]; rfl
  · intro I hI J hJ u hu v hv
    rw [r5, hgpx I hI J hJ u hu v hv, ht]
    by_cases hI' : I < slices * m
    · rw [if_pos ⟨Nat.zero_le _, hI'⟩, if_pos hI']
    · rw [if_neg (fun h => hI' h.2), if_neg hI', zero_mul]

/-- **C76** (devices): when the number of devices divides the number of rows of lenslets, the result is that of a single sensor. -/
theorem C76_distributed_same (d : ShDims) (eps phot : K) (spot : Nat → Nat → (Nat → Nat → E) → Nat → Nat → K) (hl : SpotLocal d spot)
    (h0 : SpotNonneg spot) (f : Img E) (hf : ShOk d f) (slices : Nat) (hs : slices ∣ d.n)
    (hlight : ∀ k < slices, LightOk d eps spot f (k * (d.n / slices)) ((k + 1) * (d.n / slices)))
    (hlight1 : LightOk d eps spot f 0 d.n) (hpos : lensletLight d spot f 0 d.n ≠ 0) :
    ∃ r r', shOut d eps phot spot f = some r ∧ distributedOut d eps phot spot slices f = some r' ∧
      ∀ i < d.npx * d.n, ∀ j < d.npx * d.n, r.px i j = r'.px i j := by
  have hs0 : 0 < slices := Nat.pos_of_dvd_of_pos hs hf.n
  have e : slices * (d.n / slices) = d.n := Nat.mul_div_cancel' hs
  obtain ⟨r, r1, -, -, -, r4⟩ := C76_flux d eps phot spot hl h0 f hf hlight1 hpos
  obtain ⟨q, q1, -, -, -, q4⟩ := C76_distributed d eps phot spot hl h0 f hf slices hs0 (Nat.le_of_dvd hf.n hs) hlight (by rw [e]; exact hpos)
  refine ⟨r, q, r1, q1, fun i hi j hj => ?_⟩
  have hx := hf.npx
  have hi' : i / d.npx < d.n := (Nat.div_lt_iff_lt_mul hx).2 (by rwa [Nat.mul_comm])
  have hj' : j / d.npx < d.n := (Nat.div_lt_iff_lt_mul hx).2 (by rwa [Nat.mul_comm])
  have ei : i = i / d.npx * d.npx + i % d.npx := by rw [Nat.mul_comm, Nat.div_add_mod]
  have ej : j = j / d.npx * d.npx + j % d.npx := by rw [Nat.mul_comm, Nat.div_add_mod]
  rw [ei, ej, r4 _ hi' _ hj' _ (Nat.mod_lt _ hx) _ (Nat.mod_lt _ hx), q4 _ hi' _ hj' _ (Nat.mod_lt _ hx) _ (Nat.mod_lt _ hx), e, if_pos hi']

omit [LinearOrder K] [IsStrictOrderedRing K] in
/-- A field one pixel too small cannot be cut into sub-apertures: the first frame fails. -/
theorem C76_short_fails (d : ShDims) (hn : 0 < d.n) (hp : 0 < d.np) (spot : Nat → Nat → (Nat → Nat → E) → Nat → Nat → K) (f : Img E)
    (h : f.cols ≠ d.n * d.np) : shImage d spot 0 d.n f = none := by
  unfold shImage
  rw [if_neg]
  rintro ⟨-, h2⟩
  have := (h2 hn).1
  rw [Nat.mul_assoc] at this
  exact h (Nat.eq_of_mul_eq_mul_left hp this)

/-! ### Concrete cases -/

/-- Ten lenslets of 24 by 24 pixels (out of an FFT of 30) seen by 4 by 4 pixels each, on two devices. -/
example (eps : ℚ) (he : eps ≤ 1) : ∃ r r', shOut ⟨10, 5, 30, 6, 4⟩ eps 1000 (fun _ _ g _ _ => g 0 0 ^ 2) (⟨50, 50, fun i j => i + j + 1⟩ : Img ℚ) = some r ∧
    distributedOut ⟨10, 5, 30, 6, 4⟩ eps 1000 (fun _ _ g _ _ => g 0 0 ^ 2) 2 (⟨50, 50, fun i j => i + j + 1⟩ : Img ℚ) = some r' ∧
      ∀ i < 4 * 10, ∀ j < 4 * 10, r.px i j = r'.px i j := by
  have hcs : (⟨10, 5, 30, 6, 4⟩ : ShDims).cs = 24 := rfl
  have l : ∀ a b : Nat, (∃ I < 10, a ≤ I ∧ I < b) →
      (1 : ℚ) ≤ lensletLight ⟨10, 5, 30, 6, 4⟩ (fun _ _ g _ _ => g 0 0 ^ 2) (⟨50, 50, fun i j => i + j + 1⟩ : Img ℚ) a b * (1 / 576) := by
    rintro a b ⟨I, hI, hab⟩
    unfold lensletLight
    have hnn : ∀ I J y x : Nat, (1 : ℚ) ≤
        lensletImage ⟨10, 5, 30, 6, 4⟩ (fun _ _ g _ _ => g 0 0 ^ 2) (⟨50, 50, fun i j => i + j + 1⟩ : Img ℚ) I J y x := by
      intro I J y x
      unfold lensletImage subapField
      dsimp only
      have : (1 : ℚ) ≤ ((I * 5 + 0 : Nat) : ℚ) + ((J * 5 + 0 : Nat) : ℚ) + 1 := by
        have h1 := Nat.cast_nonneg (α := ℚ) (I * 5 + 0)
        have h2 := Nat.cast_nonneg (α := ℚ) (J * 5 + 0)
        linarith
      nlinarith
    have hone : ∀ I J : Nat, (576 : ℚ) ≤ ∑ y ∈ Finset.range 24, ∑ x ∈ Finset.range 24,
        lensletImage ⟨10, 5, 30, 6, 4⟩ (fun _ _ g _ _ => g 0 0 ^ 2) (⟨50, 50, fun i j => i + j + 1⟩ : Img ℚ) I J y x := by
      intro I J
      calc (576 : ℚ) = ∑ y ∈ Finset.range 24, ∑ x ∈ Finset.range 24, (1 : ℚ) := by simp; norm_num
        _ ≤ _ := Finset.sum_le_sum fun y _ => Finset.sum_le_sum fun x _ => hnn _ _ _ _
    have hge := Finset.single_le_sum (s := Finset.range 10) (a := I) (f := fun I => if a ≤ I ∧ I < b then
      ∑ J ∈ Finset.range 10, ∑ y ∈ Finset.range 24, ∑ x ∈ Finset.range 24,
        lensletImage ⟨10, 5, 30, 6, 4⟩ (fun _ _ g _ _ => g 0 0 ^ 2) (⟨50, 50, fun i j => i + j + 1⟩ : Img ℚ) I J y x else 0) (by
        intro I _
        split_ifs
        · exact Finset.sum_nonneg fun J _ => le_trans (by norm_num) (hone I J)
        · exact le_rfl) (Finset.mem_range.2 hI)
    rw [if_pos hab] at hge
    have h2 := Finset.single_le_sum (s := Finset.range 10) (a := 0) (f := fun J => ∑ y ∈ Finset.range 24, ∑ x ∈ Finset.range 24,
        lensletImage ⟨10, 5, 30, 6, 4⟩ (fun _ _ g _ _ => g 0 0 ^ 2) (⟨50, 50, fun i j => i + j + 1⟩ : Img ℚ) I J y x)
        (fun J _ => le_trans (by norm_num) (hone I J)) (by simp)
    have h3 := hone I 0
    have h4 := le_trans h3 (le_trans h2 hge)
    rw [hcs]
    linarith
  have lok : ∀ a b : Nat, (∃ I < 10, a ≤ I ∧ I < b) →
      LightOk ⟨10, 5, 30, 6, 4⟩ eps (fun _ _ g _ _ => g 0 0 ^ 2) (⟨50, 50, fun i j => i + j + 1⟩ : Img ℚ) a b := by
    intro a b h
    right; right
    have := l a b h
    rw [hcs]
    push_cast
    nlinarith
  refine C76_distributed_same ⟨10, 5, 30, 6, 4⟩ eps 1000 _ ?_ ?_ _ ?_ 2 (by decide) ?_ ?_ ?_
  · intro i j g g' h
    funext y x
    dsimp only
    rw [h 0 (by decide) 0 (by decide)]
  · intro i j g y x; exact sq_nonneg _
  · exact ⟨by decide, by decide, by decide, by decide, rfl, rfl, .inr (.square 240 40 (by norm_num) (by norm_num)
      (stepOk_self 240 (by norm_num) (by norm_num)) (by norm_num) (by norm_num))⟩
  · intro k hk
    refine lok _ _ ⟨k * 5, ?_, le_rfl, ?_⟩
    · omega
    · show k * 5 < (k + 1) * 5
      omega
  · exact lok 0 10 ⟨0, by decide, by decide, by decide⟩
  · have := l 0 10 ⟨0, by decide, by decide, by decide⟩
    intro h
    have h' : lensletLight ⟨10, 5, 30, 6, 4⟩ (fun _ _ g _ _ => g 0 0 ^ 2) (⟨50, 50, fun i j => i + j + 1⟩ : Img ℚ) 0 10 = 0 := h
    rw [h'] at this
    norm_num at this

end

end Specula
