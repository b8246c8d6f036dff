import Mathlib.Tactic.Ring
import Mathlib.Tactic.FieldSimp
import Mathlib.Tactic.Linarith
import Mathlib.Tactic.NormNum
import Mathlib.Tactic.Positivity
import Verif.Model.LgsKernel
import Verif.Props.Fresnel

/-!
# C91: kernels of laser guide stars
-/

namespace Specula
open Finset

/-! ### Geometry -/

/-- Specification: where the beam from a launcher at `rl`, height `lz`, through the beacon at `rb`, height `zb`, is at height `z`. -/
noncomputable def beamAt (zb rb rl lz z : ℝ) : ℝ := rl + (z - lz) / (zb - lz) * (rb - rl)

/-- Specification: where the straight line from a subaperture at `rs` to the point `x` at height `z` crosses the plane at height `zb`. -/
noncomputable def seenAt (zb rs x z : ℝ) : ℝ := rs + zb / z * (x - rs)

/-- **C91** (geometry): a layer at height `z` is seen by a subaperture along the straight line to the beam at that height, with distances in the layer. -/
theorem C91_geometry (zb z : ℝ) (rf rs rb : ℝ × ℝ) (rl : ℝ × ℝ × ℝ) (hb : zb ≠ 0) (hz : z ≠ 0) (hl : zb ≠ rl.2.2) :
    lgsD2 zb (z - zb) rf rs rb rl = (z / zb) ^ 2 * ((rf.1 - seenAt zb rs.1 (beamAt zb rb.1 rl.1 rl.2.2 z) z) ^ 2
      + (rf.2 - seenAt zb rs.2 (beamAt zb rb.2 rl.2.1 rl.2.2 z) z) ^ 2) := by
  have h1 : zb - rl.2.2 ≠ 0 := sub_ne_zero.2 hl
  have key : ∀ f s b l : ℝ, lgsDelta zb (z - zb) f s b l rl.2.2 = z / zb * (f - seenAt zb s (beamAt zb b l rl.2.2 z) z) := by
    intro f s b l
    unfold lgsDelta beamSlope seenAt beamAt
    field_simp
    ring
  have h3 : lgsDepth zb (z - zb) rl.2.2 = 0 := by
    unfold lgsDepth
    rw [div_self h1]
    ring
  unfold lgsD2
  rw [key, key, h3]
  ring

/-- **C91** (elongation): with the launcher at the height of the pupil, two layers are seen apart by the distance from the launcher times the difference of the
inverse heights (times the height of the plane): not at all next to the launcher. -/
theorem C91_elongation (zb rb rl rs z z' : ℝ) (hb : zb ≠ 0) (hz : z ≠ 0) (hz' : z' ≠ 0) :
    seenAt zb rs (beamAt zb rb rl 0 z) z - seenAt zb rs (beamAt zb rb rl 0 z') z' = zb * (rs - rl) * (1 / z' - 1 / z)
    ∧ seenAt zb rs (beamAt zb rb rl 0 zb) zb = rb ∧ seenAt zb rl (beamAt zb rb rl 0 z) z = rb := by
  unfold seenAt beamAt
  refine ⟨?_, ?_, ?_⟩
  · field_simp
    ring
  · field_simp
    ring
  · field_simp
    ring

/-- **C91** (spot): at the focus the spot has, at half its full width from the middle, half its largest value. -/
theorem C91_spot (asec fwhm zb prof : ℝ) (ha : 0 < asec) (hf : 0 < fwhm) (hb : 0 < zb) :
    lgsLayer (lgsSigma asec fwhm zb) prof ((fwhm * asec * zb / 2) ^ 2) = 1 / 2 * lgsLayer (lgsSigma asec fwhm zb) prof 0 := by
  have hl : 0 < Real.log 2 := Real.log_pos (by norm_num)
  have hsq : Real.sqrt (2 * Real.log 2) ^ 2 = 2 * Real.log 2 := Real.sq_sqrt (by positivity)
  have e : (fwhm * asec * zb / 2) ^ 2 * (-(1 / 2) * (1 / lgsSigma asec fwhm zb ^ 2)) = -Real.log 2 := by
    unfold lgsSigma
    rw [div_pow _ (2 * _), mul_pow 2, hsq]
    field_simp
  unfold lgsLayer
  split_ifs
  · rw [e, Real.exp_neg, Real.exp_log (by norm_num), zero_mul, Real.exp_zero]
    ring
  · ring

/-- **C91** (subapertures): positions of subapertures are those of their centres times `n / (n - 1)`: the outer ones are put at the border of the pupil; a single
one is put at the corner instead of the middle. -/
theorem C91_subapertures (diam : ℝ) (n i : ℕ) :
    (2 ≤ n → subPos diam n i = ((i + 1 / 2) * (diam / n) - diam / 2) * (n / (n - 1))) ∧ subPos diam 1 i = -(diam / 2) := by
  constructor
  · intro hn
    have h1 : (n : ℝ) - 1 ≠ 0 := by
      have : (2 : ℝ) ≤ n := by exact_mod_cast hn
      linarith
    have h0 : (n : ℝ) ≠ 0 := by exact_mod_cast (show n ≠ 0 by omega)
    unfold subPos linBins
    rw [if_neg (by omega), Nat.cast_sub (by omega)]
    push_cast
    field_simp
    ring
  · unfold subPos linBins
    rw [if_pos rfl]

/-- **C91** (pixels): the pixel `k` is at half a pixel from the middle, where the code puts the star, for `k` equal to `(s + 1) / 2 * (1 - 1 / (s * o))` with `s`
pixels and oversampling `o`: short of the middle pixel `s / 2` by `1 / (2 s)` without oversampling, and half a pixel beyond for much oversampling. -/
theorem C91_pixels (s o k : ℕ) (ps : ℝ) (hs : 2 ≤ s) (ho : 0 < o) :
    fovPos s o ps (k * o) - ps / 2 = ((k : ℝ) - (s + 1) / 2 * (1 - 1 / (s * o))) * (ps * (s * o) / (s * o - 1))
    ∧ ((s : ℝ) + 1) / 2 * (1 - 1 / (s * (1 : ℕ))) = s / 2 - 1 / (2 * s) := by
  have h2 : 2 ≤ s * o := le_trans hs (Nat.le_mul_of_pos_right s ho)
  have hsr : (s : ℝ) ≠ 0 := by exact_mod_cast (show s ≠ 0 by omega)
  have hor : (o : ℝ) ≠ 0 := by exact_mod_cast ho.ne'
  have h1 : (s : ℝ) * o - 1 ≠ 0 := by
    have : (2 : ℝ) ≤ (s : ℝ) * o := by exact_mod_cast h2
    linarith
  constructor
  · unfold fovPos linBins
    rw [if_neg (by omega), Nat.cast_sub (by omega)]
    push_cast
    field_simp
    ring
  · push_cast
    field_simp
    ring

open Classical in
/-- **C91** (map): columns of subapertures and pixels go with the first coordinate, rows with the second; each layer with light is a gaussian about where the
beam at its height is seen, in proportion to its intensity. -/
theorem C91_map (asec : ℝ) (k : KernItems) (hz : k.zf ≠ 0) (hl : k.zf ≠ k.rl.2.2) (hh : ∀ h ∈ k.heights, h ≠ 0) (hs : 0 < lgsSigma asec k.spot k.zf) :
    ∃ c > 0, ∀ a b p q, lgsMap asec k a b p q = c * ((k.heights.zip k.profile).map fun l =>
      let x := seenAt k.zf (subPos k.diam k.n b) (beamAt k.zf (k.tt.1 * asec * k.zf) k.rl.1 k.rl.2.2 l.1) l.1
      let y := seenAt k.zf (subPos k.diam k.n a) (beamAt k.zf (k.tt.2 * asec * k.zf) k.rl.2.1 k.rl.2.2 l.1) l.1
      if 0 < l.2 then l.2 * Real.exp (-((l.1 / k.zf) ^ 2 * ((fovPos k.ssp k.overs k.ps (q * k.overs) * asec * k.zf - x) ^ 2
        + (fovPos k.ssp k.overs k.ps (p * k.overs) * asec * k.zf - y) ^ 2)) / (2 * lgsSigma asec k.spot k.zf ^ 2)) else 0).sum := by
  have hpi := Real.pi_pos
  refine ⟨1 / (lgsSigma asec k.spot k.zf * Real.pi * Real.sqrt 2), by positivity, ?_⟩
  intro a b p q
  unfold lgsMap
  simp only
  rw [← List.sum_map_mul_left]
  refine congrArg List.sum (List.map_congr_left fun l hm => ?_)
  rw [C91_geometry k.zf l.1 _ _ _ k.rl hz (hh l.1 (List.of_mem_zip hm).1) hl]
  unfold lgsLayer
  split_ifs
  · rw [mul_assoc]
    congr 2
    congr 1
    ring
  · ring

/-- **C91** (aim): the star is put half a pixel, up or down, from the direction asked for; heights and focus are along the line of sight. -/
theorem C91_aim (c : LgsConf) (alt inten : List ℝ) (k : KernItems) (hk : buildItems c alt inten = some k) :
    k.tt = (c.theta.1 + (if c.positive then c.ps / 2 else -(c.ps / 2)), c.theta.2 + (if c.positive then c.ps / 2 else -(c.ps / 2)))
    ∧ k.heights = alt.map (c.airmass * ·) ∧ k.profile = inten ∧ k.spot ^ 2 = c.seeing ^ 2 + c.launcher ^ 2 := by
  unfold buildItems at hk
  split_ifs at hk with h
  simp only [Option.some.injEq] at hk
  subst hk
  refine ⟨?_, ?_, rfl, ?_⟩
  · unfold lgsTilt
    split_ifs
    · simp only [Prod.mk.injEq]; constructor <;> ring
    · simp only [Prod.mk.injEq]; constructor <;> ring
  · simp only [mul_comm]
  · unfold spotSize
    exact Real.sq_sqrt (by positivity)

/-! ### Normalisation and order -/

theorem lgsLayer_pos (sigma prof d2 : ℝ) (hs : 0 < sigma) (hp : 0 < prof) : 0 < lgsLayer sigma prof d2 := by
  have h2 : (0 : ℝ) < Real.sqrt 2 := by positivity
  have := Real.pi_pos
  unfold lgsLayer
  rw [if_pos hp]
  have := Real.exp_pos (d2 * (-(1 / 2) * (1 / sigma ^ 2)))
  positivity

theorem lgsLayer_nonneg (sigma prof d2 : ℝ) (hs : 0 < sigma) : 0 ≤ lgsLayer sigma prof d2 := by
  by_cases hp : 0 < prof
  · exact (lgsLayer_pos sigma prof d2 hs hp).le
  · unfold lgsLayer; rw [if_neg hp]

theorem lgsSigma_pos (asec fwhm zb : ℝ) (ha : 0 < asec) (hf : 0 < fwhm) (hb : 0 < zb) : 0 < lgsSigma asec fwhm zb := by
  have hl : 0 < Real.log 2 := Real.log_pos (by norm_num)
  unfold lgsSigma
  have : 0 < Real.sqrt (2 * Real.log 2) := Real.sqrt_pos.2 (by positivity)
  positivity

theorem lgsMap_pos (asec : ℝ) (k : KernItems) (hs : 0 < lgsSigma asec k.spot k.zf) (l : ℝ × ℝ) (hl : l ∈ k.heights.zip k.profile) (hp : 0 < l.2) (a b p q : ℕ) :
    0 < lgsMap asec k a b p q := by
  unfold lgsMap
  simp only
  have key : ∀ (L : List (ℝ × ℝ)) (g : ℝ × ℝ → ℝ), (∀ x, 0 ≤ g x) → ∀ x ∈ L, 0 < g x → 0 < (L.map g).sum := by
    intro L g hg x hx h0
    refine lt_of_lt_of_le h0 (List.single_le_sum ?_ _ (List.mem_map_of_mem hx))
    intro y hy
    obtain ⟨z, -, rfl⟩ := List.mem_map.1 hy
    exact hg z
  exact key _ _ (fun x => lgsLayer_nonneg _ _ _ hs) l hl (lgsLayer_pos _ _ _ hs hp)

theorem kernTotal_norm (s : ℕ) (f : ℕ → ℕ → ℝ) (h : 0 < kernTotal s f) : kernTotal s (normKernel s f) = 1 := by
  unfold normKernel
  rw [if_pos h]
  conv_lhs => unfold kernTotal
  simp only [← sum_div]
  rw [← kernTotal]
  exact div_self h.ne'

theorem normKernel_idem (s : ℕ) (f : ℕ → ℕ → ℝ) : normKernel s (normKernel s f) = normKernel s f := by
  by_cases h : 0 < kernTotal s f
  · have h1 := kernTotal_norm s f h
    generalize normKernel s f = g at *
    unfold normKernel
    rw [if_pos (by rw [h1]; norm_num), h1]
    simp
  · have e : normKernel s f = f := by unfold normKernel; rw [if_neg h]
    rw [e, e]

/-- **C91** (unit sum): every kernel adds up to one if some layer has light, and is zero otherwise. -/
theorem C91_unit_sum (asec : ℝ) (ha : 0 < asec) (k : KernItems) (hsp : 0 < k.spot) (hz : 0 < k.zf) (hs : 0 < k.ssp) (m : ℕ) :
    ((∃ l ∈ k.heights.zip k.profile, 0 < l.2) → kernTotal k.ssp (normCube k.ssp (lgsCube asec k) m) = 1 ∧ ∀ p q, 0 < normCube k.ssp (lgsCube asec k) m p q)
    ∧ ((∀ l ∈ k.heights.zip k.profile, l.2 ≤ 0) → ∀ p q, normCube k.ssp (lgsCube asec k) m p q = 0) := by
  have hsg := lgsSigma_pos asec k.spot k.zf ha hsp hz
  constructor
  · rintro ⟨l, hl, hp⟩
    have hpos : ∀ p q, 0 < lgsCube asec k m p q := fun p q => lgsMap_pos asec k hsg l hl hp _ _ p q
    have ht : 0 < kernTotal k.ssp (lgsCube asec k m) := by
      unfold kernTotal
      refine sum_pos (fun p _ => sum_pos (fun q _ => hpos p q) ⟨0, mem_range.2 hs⟩) ⟨0, mem_range.2 hs⟩
    refine ⟨kernTotal_norm _ _ ht, fun p q => ?_⟩
    unfold normCube normKernel
    rw [if_pos ht]
    exact div_pos (hpos p q) ht
  · intro h p q
    have h0 : ∀ p q, lgsCube asec k m p q = 0 := by
      intro p q
      unfold lgsCube lgsMap
      simp only
      apply List.sum_eq_zero
      intro x hx
      obtain ⟨l, hl, rfl⟩ := List.mem_map.1 hx
      unfold lgsLayer
      rw [if_neg (not_lt.2 (h l hl))]
    unfold normCube normKernel
    split_ifs
    · simp only [h0]; simp
    · exact h0 p q

/-- **C91** (order): the kernel that the sensor uses for row `a` and column `b` is the one of the subaperture at that row and column. -/
theorem C91_order (asec : ℝ) (k : KernItems) (s a b : ℕ) (ha : a < k.n) (hb : b < k.n) :
    processCube k.n s (lgsCube asec k) (rowKernel k.n a b) = normKernel s (lgsMap asec k a b) := by
  have hn : 0 < k.n := by omega
  have e1 : ∀ x y, y < k.n → (x * k.n + y) % k.n = y := by
    intro x y hy
    rw [mul_comm, Nat.mul_add_mod, Nat.mod_eq_of_lt hy]
  have e2 : ∀ x y, y < k.n → (x * k.n + y) / k.n = x := by
    intro x y hy
    rw [mul_comm, Nat.mul_add_div hn, Nat.div_eq_of_lt hy, add_zero]
  unfold processCube reorder rowKernel normCube lgsCube
  rw [e1 a b hb, e2 a b hb, e1 b a ha, e2 b a ha]

/-- **C91** (indices): the loop over the kernels stays within its arrays exactly if there are not more rows than columns; the gaussian kernel of a single
subaperture does not, since `build` changes the number of columns. -/
theorem C91_indices (dimx dimy : ℕ) (hx : 0 < dimx) :
    (indicesOk dimx dimy (dimx * dimx) (dimx * dimy) ↔ dimy ≤ dimx) ∧ ¬ indicesOk (max 1 2) 1 (max 1 2 * max 1 2) (1 * 1) := by
  constructor
  · unfold indicesOk
    constructor
    · intro h
      by_contra hc
      have h1 := (h (dimx - 1) (by omega) dimx (by omega)).1
      have : (dimx - 1) * dimx + dimx = dimx * dimx := by
        have : (dimx - 1) + 1 = dimx := by omega
        calc (dimx - 1) * dimx + dimx = ((dimx - 1) + 1) * dimx := by ring
          _ = dimx * dimx := by rw [this]
      omega
    · intro h i hi j hj
      constructor
      · calc i * dimx + j < i * dimx + dimx := by omega
          _ = (i + 1) * dimx := by ring
          _ ≤ dimx * dimx := Nat.mul_le_mul_right _ hi
      · calc j * dimx + i < j * dimx + dimx := by omega
          _ = (j + 1) * dimx := by ring
          _ ≤ dimy * dimx := Nat.mul_le_mul_right _ hj
          _ = dimx * dimy := by ring
  · intro h
    have := (h 1 (by norm_num) 0 (by norm_num)).2
    norm_num at this

/-- **C91** (gaussian): without launcher all subapertures have the same kernel. -/
theorem C91_gaussian (asec : ℝ) (dimx : ℕ) (diam spot ps : ℝ) (ssp : ℕ) (positive : Bool) (a b a' b' : ℕ) :
    lgsMap asec (gaussItems dimx diam spot ps ssp positive) a b = lgsMap asec (gaussItems dimx diam spot ps ssp positive) a' b' := by
  funext p q
  unfold lgsMap gaussItems lgsD2 lgsDelta
  simp

/-- **C91** (scale): only the shape of the profile matters. -/
theorem C91_scale (asec : ℝ) (ha : 0 < asec) (k : KernItems) (hsp : 0 < k.spot) (hz : 0 < k.zf) (c : ℝ) (hc : 0 < c) (m p q : ℕ) (hp : p < k.ssp)
    (hq : q < k.ssp) : normCube k.ssp (lgsCube asec { k with profile := k.profile.map (c * ·) }) m p q = normCube k.ssp (lgsCube asec k) m p q := by
  have hmap : ∀ m p q, lgsCube asec { k with profile := k.profile.map (c * ·) } m p q = c * lgsCube asec k m p q := by
    intro m p q
    unfold lgsCube lgsMap
    simp only
    rw [List.zip_map_right, List.map_map, ← List.sum_map_mul_left]
    congr 1
    apply List.map_congr_left
    intro l _
    simp only [Function.comp, Prod.map, id]
    unfold lgsLayer
    by_cases h : 0 < l.2
    · rw [if_pos h, if_pos (mul_pos hc h)]; ring
    · rw [if_neg h, if_neg (by intro h'; exact h ((mul_pos_iff_of_pos_left hc).1 h'))]; ring
  have ht : kernTotal k.ssp (lgsCube asec { k with profile := k.profile.map (c * ·) } m) = c * kernTotal k.ssp (lgsCube asec k m) := by
    unfold kernTotal
    simp only [hmap, mul_sum]
  have hn1 : ∀ p q, 0 ≤ lgsCube asec k m p q := by
    intro p q
    unfold lgsCube lgsMap
    simp only
    apply List.sum_nonneg
    intro x hx
    obtain ⟨l, -, rfl⟩ := List.mem_map.1 hx
    exact lgsLayer_nonneg _ _ _ (lgsSigma_pos asec k.spot k.zf ha hsp hz)
  have hnn : 0 ≤ kernTotal k.ssp (lgsCube asec k m) := sum_nonneg fun p _ => sum_nonneg fun q _ => hn1 p q
  unfold normCube normKernel
  rw [ht]
  by_cases h : 0 < kernTotal k.ssp (lgsCube asec k m)
  · rw [if_pos h, if_pos (mul_pos hc h), hmap]
    field_simp
  · have h0 : kernTotal k.ssp (lgsCube asec k m) = 0 := le_antisymm (not_lt.1 h) hnn
    rw [if_neg h, if_neg (by rw [h0]; simp), hmap]
    have hz0 : lgsCube asec k m p q = 0 := by
      unfold kernTotal at h0
      have h1 := (sum_eq_zero_iff_of_nonneg (fun p _ => sum_nonneg fun q _ => hn1 p q)).1 h0 p (mem_range.2 hp)
      exact (sum_eq_zero_iff_of_nonneg (fun q _ => hn1 p q)).1 h1 q (mem_range.2 hq)
    rw [hz0, mul_zero]

/-! ### Image -/

theorem sum_cyclic {M : Type} [AddCommMonoid M] (w u : ℕ) (hw : 0 < w) (g : ℕ → M) : ∑ i ∈ range w, g ((i + u) % w) = ∑ i ∈ range w, g i := by
  have hu : u % w < w := Nat.mod_lt _ hw
  refine sum_bij' (fun i _ => (i + u) % w) (fun i _ => (i + (w - u % w)) % w) ?_ ?_ ?_ ?_ ?_
  · intro i _; exact mem_range.2 (Nat.mod_lt _ hw)
  · intro i _; exact mem_range.2 (Nat.mod_lt _ hw)
  · intro i hi
    have hi := mem_range.1 hi
    rw [Nat.mod_add_mod]
    have h := Nat.div_add_mod u w
    have : i + u + (w - u % w) = i + w * (u / w + 1) := by
      rw [Nat.mul_add, mul_one]
      omega
    rw [this, Nat.add_mul_mod_self_left, Nat.mod_eq_of_lt hi]
  · intro i hi
    have hi := mem_range.1 hi
    rw [Nat.mod_add_mod]
    have h := Nat.div_add_mod u w
    have : i + (w - u % w) + u = i + w * (u / w + 1) := by
      rw [Nat.mul_add, mul_one]
      omega
    rw [this, Nat.add_mul_mod_self_left, Nat.mod_eq_of_lt hi]
  · intro i _; rfl

theorem twiddle_mod (w : ℕ) (hw : 0 < w) (k i u : ℕ) (c : ℤ) : twiddle w ((k : ℤ) * ((i + u : ℕ) : ℤ) + c) = twiddle w ((k : ℤ) * (((i + u) % w : ℕ) : ℤ) + c) := by
  have h : ((i + u : ℕ) : ℤ) = (((i + u) % w : ℕ) : ℤ) + w * (((i + u) / w : ℕ) : ℤ) := by
    have := Nat.mod_add_div (i + u) w
    exact_mod_cast this.symm
  rw [h]
  have : (k : ℤ) * ((((i + u) % w : ℕ) : ℤ) + w * (((i + u) / w : ℕ) : ℤ)) + c = ((k : ℤ) * (((i + u) % w : ℕ) : ℤ) + c) + w * (k * (((i + u) / w : ℕ) : ℤ)) := by ring
  rw [this, twiddle_period w hw]

/-- Transform of a shifted array. -/
theorem fft2_cyclic (w : ℕ) (hw : 0 < w) (f : ℕ → ℕ → ℂ) (u v k l : ℕ) :
    fft2 w (fun i j => f ((i + u) % w) ((j + v) % w)) k l = fft2 w f k l * twiddle w (-((u * k + v * l : ℕ) : ℤ)) := by
  unfold fft2
  rw [← sum_cyclic w u hw (fun i => ∑ j ∈ range w, f i j * twiddle w ((k * i + l * j : ℕ) : ℤ)), sum_mul]
  refine sum_congr rfl fun i _ => ?_
  rw [← sum_cyclic w v hw (fun j => f ((i + u) % w) j * twiddle w ((k * ((i + u) % w) + l * j : ℕ) : ℤ)), sum_mul]
  refine sum_congr rfl fun j _ => ?_
  rw [mul_assoc, ← twiddle_add]
  congr 1
  have e1 : (((k * ((i + u) % w) + l * ((j + v) % w) : ℕ) : ℤ) + -((u * k + v * l : ℕ) : ℤ))
      = (k : ℤ) * (((i + u) % w : ℕ) : ℤ) + ((l : ℤ) * (((j + v) % w : ℕ) : ℤ) - ((u * k + v * l : ℕ) : ℤ)) := by push_cast; ring
  rw [e1, ← twiddle_mod w hw]
  have e2 : (k : ℤ) * ((i + u : ℕ) : ℤ) + ((l : ℤ) * (((j + v) % w : ℕ) : ℤ) - ((u * k + v * l : ℕ) : ℤ))
      = (l : ℤ) * (((j + v) % w : ℕ) : ℤ) + ((k : ℤ) * ((i + u : ℕ) : ℤ) - ((u * k + v * l : ℕ) : ℤ)) := by ring
  rw [e2, ← twiddle_mod w hw]
  congr 1
  push_cast
  ring

/-- **C91** (image): with a kernel, the image is the sum over the kernel of the image without it moved against the position in the kernel (periodically): its
correlation with the kernel. -/
theorem C91_image (w : ℕ) (psf kern : ℕ → ℕ → ℝ) (i j : ℕ) (hi : i < w) (hj : j < w) :
    kernImage w psf kern i j = ∑ u ∈ range w, ∑ v ∈ range w, kern u v * psf ((i + u) % w) ((j + v) % w) := by
  have hw : 0 < w := by omega
  have hwc : (w : ℂ) ≠ 0 := by exact_mod_cast hw.ne'
  set corr : ℕ → ℕ → ℂ := fun a b => ∑ u ∈ range w, ∑ v ∈ range w, (kern u v : ℂ) * (psf ((a + u) % w) ((b + v) % w) : ℂ) with hcorr
  have hspec : ∀ k l, fft2 w (fun a b => (psf a b : ℂ)) k l * (ifft2 w (fun a b => (kern a b : ℂ)) k l / (w : ℂ) ^ 2) = fft2 w corr k l * (1 / (w : ℂ) ^ 2) := by
    intro k l
    have h1 : fft2 w corr k l = ∑ u ∈ range w, ∑ v ∈ range w, (kern u v : ℂ) * (fft2 w (fun a b => (psf a b : ℂ)) k l * twiddle w (-((u * k + v * l : ℕ) : ℤ))) := by
      rw [hcorr]
      rw [fft2_sum w (fun u v => (kern u v : ℂ)) (fun u v a b => (psf ((a + u) % w) ((b + v) % w) : ℂ)) k l]
      refine sum_congr rfl fun u _ => sum_congr rfl fun v _ => ?_
      rw [fft2_cyclic w hw (fun a b => (psf a b : ℂ)) u v k l]
    rw [h1]
    unfold ifft2
    rw [mul_div_assoc', mul_one_div, mul_sum]
    congr 1
    refine sum_congr rfl fun u _ => ?_
    rw [mul_sum]
    refine sum_congr rfl fun v _ => ?_
    ring
  unfold kernImage
  simp only [hspec]
  have h2 : ifft2 w (fun k l => fft2 w corr k l * (1 / (w : ℂ) ^ 2)) i j = ifft2 w (fft2 w corr) i j * (1 / (w : ℂ) ^ 2) := by
    unfold ifft2
    rw [sum_mul]
    refine sum_congr rfl fun k _ => ?_
    rw [sum_mul]
    refine sum_congr rfl fun l _ => ?_
    ring
  rw [h2, ifft2_fft2 w hw corr i j hi hj]
  have h3 : (w : ℂ) ^ 2 * corr i j * (1 / (w : ℂ) ^ 2) = corr i j := by field_simp
  rw [h3, hcorr]
  simp only
  have h4 : (∑ u ∈ range w, ∑ v ∈ range w, (kern u v : ℂ) * (psf ((i + u) % w) ((j + v) % w) : ℂ))
      = ((∑ u ∈ range w, ∑ v ∈ range w, kern u v * psf ((i + u) % w) ((j + v) % w) : ℝ) : ℂ) := by push_cast; rfl
  rw [h4, Complex.ofReal_re]

/-- **C91** (light): the light in the image is that without kernel times the sum of the kernel. -/
theorem C91_light (w : ℕ) (psf kern : ℕ → ℕ → ℝ) : kernTotal w (kernImage w psf kern) = kernTotal w psf * kernTotal w kern := by
  rcases Nat.eq_zero_or_pos w with rfl | hw
  · simp [kernTotal]
  have h : kernTotal w (kernImage w psf kern) = ∑ i ∈ range w, ∑ j ∈ range w, ∑ u ∈ range w, ∑ v ∈ range w, kern u v * psf ((i + u) % w) ((j + v) % w) := by
    unfold kernTotal
    refine sum_congr rfl fun i hi => sum_congr rfl fun j hj => ?_
    exact C91_image w psf kern i j (mem_range.1 hi) (mem_range.1 hj)
  have e1 : ∀ u v, ∑ i ∈ range w, ∑ j ∈ range w, kern u v * psf ((i + u) % w) ((j + v) % w) = kern u v * kernTotal w psf := by
    intro u v
    unfold kernTotal
    rw [← sum_cyclic w u hw (fun i => ∑ j ∈ range w, psf i j), mul_sum]
    refine sum_congr rfl fun i _ => ?_
    rw [← sum_cyclic w v hw (fun j => psf ((i + u) % w) j), mul_sum]
  rw [h]
  have e2 : ∑ i ∈ range w, ∑ j ∈ range w, ∑ u ∈ range w, ∑ v ∈ range w, kern u v * psf ((i + u) % w) ((j + v) % w)
      = ∑ u ∈ range w, ∑ v ∈ range w, ∑ i ∈ range w, ∑ j ∈ range w, kern u v * psf ((i + u) % w) ((j + v) % w) := by
    have s1 : ∀ i, ∑ j ∈ range w, ∑ u ∈ range w, ∑ v ∈ range w, kern u v * psf ((i + u) % w) ((j + v) % w)
        = ∑ u ∈ range w, ∑ v ∈ range w, ∑ j ∈ range w, kern u v * psf ((i + u) % w) ((j + v) % w) := by
      intro i
      rw [sum_comm]
      refine sum_congr rfl fun u _ => ?_
      rw [sum_comm]
    simp only [s1]
    rw [sum_comm]
    refine sum_congr rfl fun u _ => ?_
    rw [sum_comm]
  rw [e2]
  simp only [e1]
  generalize kernTotal w psf = t
  unfold kernTotal
  rw [mul_sum]
  refine sum_congr rfl fun u _ => ?_
  rw [mul_sum]
  refine sum_congr rfl fun v _ => ?_
  ring

/-- **C91** (mirror): a perfect spot, all in the first pixel before the shift, becomes the kernel seen in a mirror: reversed along rows and columns. -/
theorem C91_mirror (w : ℕ) (kern : ℕ → ℕ → ℝ) (i j : ℕ) (hi : i < w) (hj : j < w) :
    kernImage w (fun a b => if a = 0 ∧ b = 0 then 1 else 0) kern i j = kern ((w - i) % w) ((w - j) % w) := by
  have hw : 0 < w := by omega
  have key : ∀ a u, a < w → u < w → ((a + u) % w = 0 ↔ u = (w - a) % w) := by
    intro a u ha hu
    rcases Nat.eq_zero_or_pos a with rfl | h
    · rw [zero_add, Nat.mod_eq_of_lt hu, Nat.sub_zero, Nat.mod_self]
    · rw [Nat.mod_eq_of_lt (show w - a < w by omega)]
      constructor
      · intro h0
        rcases Nat.lt_or_ge (a + u) w with h1 | h1
        · rw [Nat.mod_eq_of_lt h1] at h0; omega
        · rw [Nat.mod_eq_sub_mod h1, Nat.mod_eq_of_lt (by omega)] at h0; omega
      · intro h0
        rw [show a + u = w by omega, Nat.mod_self]
  rw [C91_image w _ kern i j hi hj]
  rw [sum_eq_single ((w - i) % w)]
  · rw [sum_eq_single ((w - j) % w)]
    · rw [if_pos ⟨(key i _ hi (Nat.mod_lt _ hw)).2 rfl, (key j _ hj (Nat.mod_lt _ hw)).2 rfl⟩, mul_one]
    · intro v hv hne
      rw [if_neg, mul_zero]
      rintro ⟨-, h⟩
      exact hne ((key j v hj (mem_range.1 hv)).1 h)
    · intro h; exact absurd (mem_range.2 (Nat.mod_lt _ hw)) h
  · intro u hu hne
    refine sum_eq_zero fun v _ => ?_
    rw [if_neg, mul_zero]
    rintro ⟨h, -⟩
    exact hne ((key i u hi (mem_range.1 hu)).1 h)
  · intro h; exact absurd (mem_range.2 (Nat.mod_lt _ hw)) h

/-! ### Focus -/

/-- **C91** (focus): with focus `-1` the heights have, weighted with the profile, the focus as their mean; any other number, and so `-1` times an air mass that is
not one, as the launch telescope makes of it, is a height. -/
theorem C91_focus (airmass : ℝ) (alt inten : List ℝ) (hl : alt.length = inten.length) (hs : inten.sum ≠ 0) :
    (((alt.map (· * airmass)).zip inten).map fun l => (l.1 - focusOf (-1) airmass alt inten) * l.2).sum = 0
    ∧ ∀ z a, z ≠ -1 → focusOf z a alt inten = z * a := by
  constructor
  · unfold focusOf
    rw [if_neg (by simp), List.zip_map_left, List.map_map]
    simp only [Function.comp_def, Prod.map, id]
    have hsum : ∀ (c : ℝ) (A I : List ℝ), A.length = I.length →
        ((A.zip I).map fun l => (l.1 * airmass - c) * l.2).sum = ((A.zip I).map fun l => l.1 * l.2).sum * airmass - c * I.sum := by
      intro c A
      induction A with
      | nil => intro I h; cases I with
        | nil => simp
        | cons _ _ => simp at h
      | cons a A ih =>
        intro I h
        cases I with
        | nil => simp at h
        | cons b I =>
          simp only [List.zip_cons_cons, List.map_cons, List.sum_cons]
          rw [ih I (by simpa using h)]
          ring
    rw [hsum _ alt inten hl]
    unfold meanHeight
    field_simp
    ring
  · intro z a hz
    unfold focusOf
    rw [if_pos hz]

/-! ### Files -/

/-- The files are those of the kernels they are named after. -/
def diskSound (asec : ℝ) (nm : KernItems → String) (s : ℕ) (disk : String → Option Cube3) : Prop :=
  ∀ k f, disk (nm k) = some f → f = normCube s (lgsCube asec k)

/-- The kernels in memory are those of their name. -/
def memSound (asec : ℝ) (nm : KernItems → String) (c : LgsConf) (st : KernState) : Prop :=
  ∀ k, st.name = some (nm k) → st.kern = some (true, processCube c.n c.ssp (lgsCube asec k))

theorem processCube_norm (n s : ℕ) (c : Cube3) : processCube n s (normCube s c) = processCube n s c := by
  unfold processCube reorder normCube
  funext m
  rw [normKernel_idem]

/-- **C91** (files): if different items have different names and the spot has a size, then after any call, with kernels from memory, file or calculated, the kernels are
those of the profile given, and files stay right. -/
theorem C91_files (asec : ℝ) (nm : KernItems → String) (hnm : Function.Injective nm) (c : LgsConf) (hf : c.fft = true) (hsp : 0 < spotSize c) (st : KernState)
    (hd : diskSound asec nm c.ssp st.disk) (hm : memSound asec nm c st) (alt inten : List ℝ) :
    diskSound asec nm c.ssp (prepareKern asec nm c st alt inten).1.disk ∧ memSound asec nm c (prepareKern asec nm c st alt inten).1
    ∧ (prepareKern asec nm c st alt inten).2 = decide (alt.length = inten.length)
    ∧ ∀ k, buildItems c alt inten = some k → (prepareKern asec nm c st alt inten).1.kern = some (true, processCube c.n c.ssp (lgsCube asec k)) := by
  unfold prepareKern
  by_cases hlen : alt.length = inten.length
  swap
  · have : buildItems c alt inten = none := by unfold buildItems; rw [if_pos hlen]
    rw [this]
    refine ⟨hd, hm, by simp [hlen], fun k hk => by simp at hk⟩
  obtain ⟨k, hk⟩ : ∃ k, buildItems c alt inten = some k := by
    unfold buildItems
    rw [if_neg (by simpa using hlen)]
    exact ⟨_, rfl⟩
  have hks : k.spot = spotSize c := by
    unfold buildItems at hk
    rw [if_neg (by simpa using hlen)] at hk
    simp only [Option.some.injEq] at hk
    rw [← hk]
  rw [hk]
  simp only [hlen, decide_true]
  by_cases hn : st.name = some (nm k)
  · rw [if_pos hn]
    refine ⟨hd, hm, rfl, fun k' hk' => ?_⟩
    simp only [Option.some.injEq] at hk'
    rw [← hk']
    exact hm k hn
  · rw [if_neg hn]
    cases hdk : st.disk (nm k) with
    | some f =>
      simp only
      have hfe := hd k f hdk
      have hker : processCube c.n c.ssp f = processCube c.n c.ssp (lgsCube asec k) := by rw [hfe, processCube_norm]
      refine ⟨hd, ?_, trivial, fun k' hk' => ?_⟩
      · intro k' hk'
        simp only [Option.some.injEq] at hk'
        rw [← hnm hk']
        simp only [hker]
      · simp only [Option.some.injEq] at hk'
        rw [← hk', hker]
    | none =>
      simp only
      rw [if_neg (by rw [hks]; exact not_le.2 hsp)]
      refine ⟨?_, ?_, rfl, fun k' hk' => ?_⟩
      · intro k' f' hf'
        simp only at hf'
        by_cases he : nm k' = nm k
        · rw [if_pos he] at hf'
          simp only [Option.some.injEq] at hf'
          rw [← hf', hnm he]
        · rw [if_neg he] at hf'
          exact hd k' f' hf'
      · intro k' hk'
        simp only [Option.some.injEq] at hk'
        rw [← hnm hk']
        simp only [hf]
      · simp only [Option.some.injEq] at hk'
        rw [← hk', hf]

/-- **C91** (sequence): so after any sequence of profiles. -/
theorem C91_sequence (asec : ℝ) (nm : KernItems → String) (hnm : Function.Injective nm) (c : LgsConf) (hf : c.fft = true) (hsp : 0 < spotSize c)
    (disk : String → Option Cube3) (hd : diskSound asec nm c.ssp disk) (calls : List (List ℝ × List ℝ)) (alt inten : List ℝ) (k : KernItems)
    (hk : buildItems c alt inten = some k) :
    (prepareKern asec nm c (calls.foldl (fun s x => (prepareKern asec nm c s x.1 x.2).1) ⟨none, none, disk⟩) alt inten).1.kern
      = some (true, processCube c.n c.ssp (lgsCube asec k)) := by
  have inv : ∀ (l : List (List ℝ × List ℝ)) (s : KernState), diskSound asec nm c.ssp s.disk → memSound asec nm c s →
      diskSound asec nm c.ssp (l.foldl (fun s x => (prepareKern asec nm c s x.1 x.2).1) s).disk
      ∧ memSound asec nm c (l.foldl (fun s x => (prepareKern asec nm c s x.1 x.2).1) s) := by
    intro l
    induction l with
    | nil => intro s h1 h2; exact ⟨h1, h2⟩
    | cons x l ih =>
      intro s h1 h2
      obtain ⟨g1, g2, -, -⟩ := C91_files asec nm hnm c hf hsp s h1 h2 x.1 x.2
      exact ih _ g1 g2
  obtain ⟨h1, h2⟩ := inv calls ⟨none, none, disk⟩ hd (fun k hk => by simp at hk)
  exact (C91_files asec nm hnm c hf hsp _ h1 h2 alt inten).2.2.2 k hk

/-- **C91** (not transformed): an object asked for kernels without transform has them when they are calculated, but not when they come from a file. -/
theorem C91_not_transformed (asec : ℝ) (nm : KernItems → String) (c : LgsConf) (hf : c.fft = false) (hsp : 0 < spotSize c) (disk : String → Option Cube3)
    (alt inten : List ℝ) (k : KernItems) (hk : buildItems c alt inten = some k) (hnone : disk (nm k) = none) :
    let first := prepareKern asec nm c ⟨none, none, disk⟩ alt inten
    let again := prepareKern asec nm c ⟨none, none, first.1.disk⟩ alt inten
    first.1.kern = some (false, processCube c.n c.ssp (lgsCube asec k)) ∧ again.1.kern = some (true, processCube c.n c.ssp (lgsCube asec k)) := by
  have hks : ¬ k.spot ≤ 0 := by
    unfold buildItems at hk
    split_ifs at hk with h
    simp only [Option.some.injEq] at hk
    rw [← hk]
    exact not_le.2 hsp
  simp only
  have h1 : prepareKern asec nm c ⟨none, none, disk⟩ alt inten = (⟨some (nm k), some (c.fft, processCube c.n c.ssp (lgsCube asec k)),
      fun x => if x = nm k then some (normCube c.ssp (lgsCube asec k)) else disk x⟩, true) := by
    unfold prepareKern
    rw [hk]
    simp only [reduceCtorEq, if_false, hnone, if_neg hks]
  constructor
  · rw [h1, hf]
  · rw [h1]
    unfold prepareKern
    rw [hk]
    simp only [reduceCtorEq, if_false, if_true]
    rw [processCube_norm]

/-- **C91** (failure forgotten): with a spot of no size the first call fails and the second, with nothing calculated, does not. -/
theorem C91_failure_forgotten (asec : ℝ) (nm : KernItems → String) (c : LgsConf) (h1 : c.seeing = 0) (h2 : c.launcher = 0) (alt inten : List ℝ)
    (hl : alt.length = inten.length) :
    let first := prepareKern asec nm c ⟨none, none, fun _ => none⟩ alt inten
    first.2 = false ∧ (prepareKern asec nm c first.1 alt inten).2 = true ∧ (prepareKern asec nm c first.1 alt inten).1.kern = none := by
  obtain ⟨k, hk⟩ : ∃ k, buildItems c alt inten = some k := by
    unfold buildItems
    rw [if_neg (by simpa using hl)]
    exact ⟨_, rfl⟩
  have hks : k.spot ≤ 0 := by
    unfold buildItems at hk
    rw [if_neg (by simpa using hl)] at hk
    simp only [Option.some.injEq] at hk
    rw [← hk]
    simp [spotSize, h1, h2]
  simp only
  have e1 : prepareKern asec nm c ⟨none, none, fun _ => none⟩ alt inten = (⟨some (nm k), none, fun _ => none⟩, false) := by
    unfold prepareKern
    rw [hk]
    simp only [reduceCtorEq, if_false, if_pos hks]
  have e2 : prepareKern asec nm c ⟨some (nm k), none, fun _ => none⟩ alt inten = (⟨some (nm k), none, fun _ => none⟩, true) := by
    unfold prepareKern
    rw [hk]
    simp only [if_true]
  rw [e1]
  simp only
  rw [e2]
  exact ⟨trivial, rfl, rfl⟩

/-! Examples. -/

/-- A subaperture five metres from the launcher sees layers at 80 and 100 km apart by twelve and a half millionths of a radian, times the distance of the focus. -/
example : seenAt 90000 5 (beamAt 90000 0 0 0 80000) 80000 - seenAt 90000 5 (beamAt 90000 0 0 0 100000) 100000 = 90000 * (-125 / 10 ^ 7) := by
  rw [(C91_elongation 90000 0 0 5 80000 100000 (by norm_num) (by norm_num) (by norm_num)).1]
  norm_num

/-- The kernel's second pixel is, in a field of four, the last of the image of a perfect spot. -/
example (kern : ℕ → ℕ → ℝ) : kernImage 4 (fun a b => if a = 0 ∧ b = 0 then 1 else 0) kern 3 2 = kern 1 2 :=
  C91_mirror 4 kern 3 2 (by norm_num) (by norm_num)

end Specula
