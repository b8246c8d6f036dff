import Mathlib.Algebra.BigOperators.Ring.Finset
import Mathlib.Algebra.BigOperators.Field
import Mathlib.Algebra.BigOperators.Ring.List
import Mathlib.Algebra.Order.BigOperators.Group.Finset
import Mathlib.Tactic.Ring
import Mathlib.Tactic.FieldSimp
import Mathlib.Tactic.Linarith
import Mathlib.Tactic.NormNum
import Verif.Model.PolyChrom

/-!
# C83: sensors with several wavelengths
-/

namespace Specula

open Finset

variable {K : Type} [Field K] [LinearOrder K] [IsStrictOrderedRing K]

/-- Light of a frame of N pixels. -/
def frameLight (N : Nat) (f : Nat → K) : K := ∑ p ∈ range N, f p

/-- Weighted sum of the frames, wavelength by wavelength. -/
def mixOf (factor : List K) (frames : List (Nat → K)) (p : Nat) : K :=
  ∑ w ∈ range frames.length, factor.getD w 0 * frames.getD w (fun _ => 0) p

theorem foldl_mix (fs : List (K × (Nat → K))) (a : Nat → K) (p : Nat) :
    fs.foldl (fun acc fi q => acc q + fi.2 q * fi.1) a p = a p + (fs.map (fun fi => fi.1 * fi.2 p)).sum := by
  induction fs generalizing a with
  | nil => simp
  | cons x xs ih =>
    rw [List.foldl_cons, ih, List.map_cons, List.sum_cons]
    ring

theorem zip_mix (factor : List K) (frames : List (Nat → K)) (h : factor.length = frames.length) (p : Nat) :
    ((factor.zip frames).map (fun fi => fi.1 * fi.2 p)).sum = mixOf factor frames p := by
  unfold mixOf
  induction frames generalizing factor with
  | nil => simp
  | cons x xs ih =>
    cases factor with
    | nil => simp at h
    | cons f fs =>
      simp only [List.length_cons, Nat.add_right_cancel_iff] at h
      rw [List.zip_cons_cons, List.map_cons, List.sum_cons, ih fs h, List.length_cons, sum_range_succ']
      simp only [List.getD_cons_succ, List.getD_cons_zero]
      ring

theorem polyFactors_length (factor : List K) : (polyFactors factor).length = factor.length := by
  unfold polyFactors
  split_ifs <;> simp

theorem accumulate_mix (factor : List K) (frames : List (Nat → K)) (h : factor.length = frames.length) (p : Nat) :
    polyAccumulate factor frames p = mixOf (polyFactors factor) frames p := by
  unfold polyAccumulate
  rw [foldl_mix, zip_mix _ _ (by rw [polyFactors_length, h])]
  ring

theorem getD_polyFactors (factor : List K) (hp : 0 < factor.sum) (w : Nat) : (polyFactors factor).getD w 0 = factor.getD w 0 / factor.sum := by
  unfold polyFactors
  rw [if_pos hp]
  by_cases hw : w < factor.length
  · simp [List.getD_eq_getElem?_getD, hw]
  · simp [List.getD_eq_getElem?_getD, not_lt.1 hw]

theorem mix_factors (factor : List K) (hp : 0 < factor.sum) (frames : List (Nat → K)) (p : Nat) :
    mixOf (polyFactors factor) frames p = mixOf factor frames p / factor.sum := by
  unfold mixOf
  rw [sum_div]
  exact sum_congr rfl (fun w _ => by rw [getD_polyFactors factor hp]; ring)

/-- **C83** (light): whenever the weighted frames have light, the output has exactly the light of the input field, whatever the flux factors. -/
theorem C83_light (N : Nat) (flux : K) (factor : List K) (frames : List (Nat → K)) (hl : factor.length = frames.length)
    (ht : 0 < frameLight N (mixOf (polyFactors factor) frames)) : frameLight N (polyOut N flux factor frames) = flux := by
  have e : ∀ p, polyAccumulate factor frames p = mixOf (polyFactors factor) frames p := accumulate_mix factor frames hl
  unfold frameLight at *
  unfold polyOut
  simp only [e]
  rw [if_pos ht, ← sum_mul]
  field_simp

/-- **C83** (mixture): with flux factors of positive sum, each pixel is the sum of the frames weighted with the factors as given, scaled to the
light of the field. -/
theorem C83_mixture (N : Nat) (flux : K) (factor : List K) (frames : List (Nat → K)) (hl : factor.length = frames.length)
    (hp : 0 < factor.sum) (ht : 0 < frameLight N (mixOf factor frames)) (p : Nat) :
    polyOut N flux factor frames p = flux / frameLight N (mixOf factor frames) * mixOf factor frames p := by
  have e : ∀ p, polyAccumulate factor frames p = mixOf factor frames p / factor.sum := fun p => by
    rw [accumulate_mix factor frames hl, mix_factors factor hp]
  unfold frameLight at *
  unfold polyOut
  simp only [e, ← sum_div]
  rw [if_pos (div_pos ht hp)]
  have h1 := ne_of_gt hp
  have h2 := ne_of_gt ht
  field_simp

/-- **C83** (factors): multiplying all flux factors by a positive number does not change the output. -/
theorem C83_factors (N : Nat) (flux : K) (factor : List K) (frames : List (Nat → K)) (hl : factor.length = frames.length)
    (hp : 0 < factor.sum) (ht : 0 < frameLight N (mixOf factor frames)) (a : K) (ha : 0 < a) :
    polyOut N flux (factor.map (a * ·)) frames = polyOut N flux factor frames := by
  have em : ∀ p, mixOf (factor.map (a * ·)) frames p = a * mixOf factor frames p := by
    intro p
    unfold mixOf
    rw [mul_sum]
    refine sum_congr rfl (fun w _ => ?_)
    by_cases hw : w < factor.length
    · simp [List.getD_eq_getElem?_getD, hw, mul_assoc]
    · simp [List.getD_eq_getElem?_getD, not_lt.1 hw]
  have el : frameLight N (mixOf (factor.map (a * ·)) frames) = a * frameLight N (mixOf factor frames) := by
    unfold frameLight
    simp only [em, ← mul_sum]
  have es : (factor.map (a * ·)).sum = a * factor.sum := by
    rw [List.sum_map_mul_left, List.map_id']
  funext p
  rw [C83_mixture N flux factor frames hl hp ht, C83_mixture N flux _ frames (by simpa using hl) (by rw [es]; exact mul_pos ha hp)
    (by rw [el]; exact mul_pos ha ht), el, em]
  have := ne_of_gt ha
  field_simp

/-- **C83** (balanced): when every sensor gives the light of the field, as a Shack-Hartmann does, the output is the mean of the frames weighted
with the flux factors, and the final scaling does nothing. -/
theorem C83_balanced (N : Nat) (flux : K) (hf : 0 < flux) (factor : List K) (frames : List (Nat → K)) (hl : factor.length = frames.length)
    (hp : 0 < factor.sum) (hb : ∀ w, w < frames.length → frameLight N (frames.getD w (fun _ => 0)) = flux) (p : Nat) :
    polyOut N flux factor frames p = mixOf factor frames p / factor.sum := by
  have hs : frameLight N (mixOf factor frames) = factor.sum * flux := by
    unfold frameLight mixOf
    rw [sum_comm]
    have : ∀ w ∈ range frames.length, ∑ q ∈ range N, factor.getD w 0 * frames.getD w (fun _ => 0) q = factor.getD w 0 * flux := by
      intro w hw
      rw [← mul_sum]
      have := hb w (mem_range.1 hw)
      unfold frameLight at this
      rw [this]
    rw [sum_congr rfl this, ← sum_mul, ← hl]
    congr 1
    rw [← Fin.sum_univ_eq_sum_range, ← List.sum_ofFn]
    congr 1
    apply List.ext_getElem <;> simp
  rw [C83_mixture N flux factor frames hl hp (by rw [hs]; exact mul_pos hp hf), hs]
  have h1 := ne_of_gt hp
  have h2 := ne_of_gt hf
  field_simp

/-- **C83** (one wavelength): with one wavelength and any positive flux factor the output is the frame of its sensor, scaled to the light of
the field. -/
theorem C83_one (N : Nat) (flux : K) (f : K) (hf : 0 < f) (frame : Nat → K) (ht : 0 < frameLight N frame) (p : Nat) :
    polyOut N flux [f] [frame] p = flux / frameLight N frame * frame p := by
  have em : ∀ p, mixOf [f] [frame] p = f * frame p := fun p => by simp [mixOf]
  have el : frameLight N (mixOf [f] [frame]) = f * frameLight N frame := by unfold frameLight; simp only [em, ← mul_sum]
  rw [C83_mixture N flux [f] [frame] rfl (by simpa using hf) (by rw [el]; exact mul_pos hf ht), el, em]
  have h1 := ne_of_gt hf
  field_simp

/-- **C83** (dark): weighted frames without light, or with negative light, are given as they are. -/
theorem C83_dark (N : Nat) (flux : K) (factor : List K) (frames : List (Nat → K)) (hl : factor.length = frames.length)
    (ht : frameLight N (mixOf (polyFactors factor) frames) ≤ 0) (p : Nat) :
    polyOut N flux factor frames p = mixOf (polyFactors factor) frames p := by
  have e : ∀ p, polyAccumulate factor frames p = mixOf (polyFactors factor) frames p := accumulate_mix factor frames hl
  unfold frameLight at *
  unfold polyOut
  simp only [e]
  rw [if_neg (not_lt.2 ht), e]

/-- **C83** (contributions): the contributions of the wavelengths add up to the output when every sensor gives the light of the field; in
general they add up to the output without its final scaling. -/
theorem C83_contributions (N : Nat) (flux : K) (factor : List K) (frames : List (Nat → K)) (hl : factor.length = frames.length)
    (hp : 0 < factor.sum) (ht : 0 < frameLight N (mixOf factor frames)) :
    (∀ i : Int, (polyContribution factor frames i).isSome ↔ 0 ≤ i ∧ i < frames.length)
    ∧ ∀ c : Nat → Nat → K, (∀ w, w < frames.length → polyContribution factor frames (w : Int) = some (c w)) →
      ∀ p, polyOut N flux factor frames p
        = flux / (frameLight N (mixOf factor frames) / factor.sum) * ∑ w ∈ range frames.length, c w p := by
  constructor
  · intro i
    unfold polyContribution
    split_ifs with h <;> simp [h]
  · intro c hc p
    have e : ∀ w ∈ range frames.length, c w p = factor.getD w 0 * frames.getD w (fun _ => 0) p / factor.sum := by
      intro w hw
      have := hc w (mem_range.1 hw)
      unfold polyContribution at this
      rw [if_pos ⟨by omega, by have := mem_range.1 hw; omega⟩, Option.some.injEq] at this
      rw [← this, Int.toNat_natCast, getD_polyFactors factor hp]
      ring
    rw [sum_congr rfl e, ← sum_div, C83_mixture N flux factor frames hl hp ht]
    have h1 := ne_of_gt hp
    have h2 := ne_of_gt ht
    unfold mixOf
    field_simp

/-- **C83** (tilts): the phase at a wavelength with tilts (tx, ty) is that of the field plus a plane without mean, whose step between neighbouring
pixels is the one of the requested angles multiplied by n/(n-1). -/
theorem C83_tilt (asec : K) (ha : 0 < asec) (n : Nat) (hn : 2 ≤ n) (pitch : K) (hp : 0 < pitch) (t : K × K) (phase : Nat → Nat → K) :
    ∃ out, polyPhase asec n n pitch t phase = some out ∧ ∀ i j, out i j - phase i j
      = (n : K) / ((n : K) - 1) * (10 ^ 9 * (t.1 / asec * (((j : K) - ((n : K) - 1) / 2) * pitch) + t.2 / asec * (((i : K) - ((n : K) - 1) / 2) * pitch))) := by
  have hn1 : (0 : K) < (n : K) - 1 := by
    have : (2 : K) ≤ (n : K) := by exact_mod_cast hn
    linarith
  have hn0 : (0 : K) < (n : K) := by linarith
  have hlast : makeXY n pitch (n - 1) = ((n : K) - 1) / n * pitch := by
    unfold makeXY
    rw [Nat.cast_sub (by omega), Nat.cast_one]
    field_simp
    ring
  have hfirst : makeXY n pitch 0 = -(((n : K) - 1) / n * pitch) := by
    unfold makeXY
    rw [Nat.cast_zero]
    field_simp
    ring
  have hpos : 0 < ((n : K) - 1) / n * pitch := mul_pos (div_pos hn1 hn0) hp
  have hu : ∀ j, polyUnitTilt asec n pitch j = (n : K) / ((n : K) - 1) * (10 ^ 9 * (1 / asec * (((j : K) - ((n : K) - 1) / 2) * pitch))) := by
    intro j
    unfold polyUnitTilt polyUnitNm
    rw [hlast, hfirst, abs_neg, max_self, abs_of_pos hpos]
    unfold makeXY
    have h1 := ne_of_gt ha
    have h2 := ne_of_gt hp
    have h3 := ne_of_gt hn1
    have h4 := ne_of_gt hn0
    field_simp
    ring
  refine ⟨_, by unfold polyPhase; rw [if_neg (by omega), if_neg (by simp)], fun i j => ?_⟩
  simp only [hu]
  ring

/-- **C83** (no tilts): without tilts every wavelength sees the phase of the field. -/
theorem C83_no_tilt (asec : K) (n : Nat) (hn : 2 ≤ n) (pitch : K) (phase : Nat → Nat → K) (nw : Nat) (factor : List K) (hf : factor.length = nw) :
    ∃ ts, polyInit nw factor none = some (factor, ts) ∧ ts.length = nw ∧ ∀ t ∈ ts, polyPhase asec n n pitch t phase = some phase := by
  refine ⟨List.replicate nw (0, 0), by simp [polyInit, hf], by simp, fun t ht => ?_⟩
  rw [List.eq_of_mem_replicate ht]
  unfold polyPhase
  rw [if_neg (by omega), if_neg (by simp)]
  congr 1
  funext i j
  ring

/-- **C83** (refused): fields that are not square, or one pixel wide, are refused even without tilts; so are lists of different lengths. -/
theorem C83_refused (asec : K) (rows cols : Nat) (pitch : K) (t : K × K) (phase : Nat → Nat → K) :
    ((polyPhase asec rows cols pitch t phase).isSome ↔ rows = cols ∧ 2 ≤ rows)
    ∧ ∀ (n : Nat) (factor : List K) (ts : List (K × K)), (polyInit n factor (some ts)).isSome ↔ factor.length = n ∧ ts.length = n := by
  constructor
  · unfold polyPhase
    split_ifs with h1 h2
    · simp; omega
    · simp [h2]
    · simp; omega
  · intro n factor ts
    unfold polyInit
    split_ifs with h1 h2 <;> simp_all

/-! Examples. -/

/-- Two wavelengths, the second three times as bright, whose frames of two pixels have the light of the field. -/
example : polyOut (K := ℚ) 2 8 [1, 3] [fun p => if p = 0 then 8 else 0, fun p => if p = 0 then 0 else 8] 0 = 2 := by
  rw [C83_balanced 2 8 (by norm_num) [1, 3] _ rfl (by norm_num)]
  · norm_num [mixOf, sum_range_succ]
  · intro w hw
    have : w = 0 ∨ w = 1 := by simp at hw; omega
    rcases this with rfl | rfl <;> norm_num [frameLight, sum_range_succ]

/-- The sensor of the second wavelength loses half of the light: its contribution is smaller, and the whole is scaled up again. -/
example : polyOut (K := ℚ) 2 8 [1, 3] [fun p => if p = 0 then 8 else 0, fun p => if p = 0 then 0 else 4] 0 = 16 / 5 := by
  rw [C83_mixture 2 8 [1, 3] _ rfl (by norm_num) (by norm_num [frameLight, mixOf, sum_range_succ])]
  norm_num [mixOf, frameLight, sum_range_succ]

/-- A tilt of one arcsecond on four pixels: the step is 4/3 of the one requested. -/
example : ∃ out, polyPhase (K := ℚ) 200000 4 4 (1/2) (1, 0) (fun _ _ => 0) = some out ∧ out 0 1 - out 0 0 = 4 / 3 * (10 ^ 9 * (1 / 200000 * (1 / 2))) := by
  obtain ⟨out, h, e⟩ := C83_tilt (K := ℚ) 200000 (by norm_num) 4 (by norm_num) (1/2) (by norm_num) (1, 0) (fun _ _ => 0)
  refine ⟨out, h, ?_⟩
  have h1 := e 0 1
  have h0 := e 0 0
  norm_num at h1 h0 ⊢
  rw [h1, h0]
  norm_num

end Specula
