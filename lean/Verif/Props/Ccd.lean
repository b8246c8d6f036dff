import Mathlib.Tactic.Linarith
import Mathlib.Tactic.Ring
import Mathlib.Tactic.FieldSimp
import Mathlib.Tactic.NormNum
import Mathlib.Data.Rat.Floor
import Mathlib.Algebra.Module.LinearMap.Defs
import Mathlib.Algebra.Module.Pi
import Verif.Model.Ccd
import Verif.Props.Resample
/-
C73: what a CCD reads out: photons, binning, conversion to ADU and back.
-/
namespace Specula

section
variable {K : Type} [Field K] [LinearOrder K] [IsStrictOrderedRing K] [FloorRing K]

theorem roundEvenF_near (x : K) : |(roundEvenF x : K) - x| ≤ 1 / 2 := by
  have h1 := Int.floor_le x
  have h2 := Int.lt_floor_add_one x
  unfold roundEvenF
  dsimp only
  split_ifs with a b c
  · rw [abs_le]; constructor <;> linarith
  · push_cast; rw [abs_le]; constructor <;> linarith
  · have : x - ⌊x⌋ = 1 / 2 := le_antisymm (not_lt.1 b) (not_lt.1 a)
    rw [abs_le]; constructor <;> linarith
  · have : x - ⌊x⌋ = 1 / 2 := le_antisymm (not_lt.1 b) (not_lt.1 a)
    push_cast; rw [abs_le]; constructor <;> linarith

/-- The only integer closer than a half. -/
theorem roundEvenF_eq (x : K) (m : Int) (h : |x - m| < 1 / 2) : roundEvenF x = m := by
  have h1 := roundEvenF_near x
  rw [abs_le] at h1
  rw [abs_lt] at h
  have a : ((roundEvenF x - m : Int) : K) < 1 := by push_cast; linarith
  have b : ((m - roundEvenF x : Int) : K) < 1 := by push_cast; linarith
  have a' : roundEvenF x - m < 1 := by exact_mod_cast a
  have b' : m - roundEvenF x < 1 := by exact_mod_cast b
  omega

/-! ### Conversion to ADU and back -/

/-- What the conversion takes out of the dark level and the gain. -/
def darkRemoved (c : CcdCfg K) : K := if c.dark then c.darkLevel else 0

/-- EM gain that the signal has. -/
def gainUsed (c : CcdCfg K) : K := if c.excess then c.emGain else 1

omit [IsStrictOrderedRing K] in
theorem ccdConvert_eq (c : CcdCfg K) (hp : c.photon = true) (e : K) :
    ccdConvert c e = (max ((roundEvenF (e * c.aduGain) : K) + c.aduBias) 0 - c.aduBias) / (c.aduGain * gainUsed c) - darkRemoved c := by
  unfold ccdConvert gainUsed darkRemoved
  rw [if_pos hp]
  dsimp only
  have hm : ∀ a : K, (if a < 0 then 0 else a) = max a 0 := by
    intro a
    split_ifs with h
    · rw [max_eq_right h.le]
    · rw [max_eq_left (not_lt.1 h)]
  rw [hm]
  split_ifs
  · rw [div_div]
  · rw [mul_one]
  · rw [div_div, sub_zero]
  · rw [mul_one, sub_zero]

/-- C73.  With photon noise the signal comes back within half an ADU, without the gain and without the dark level, unless it is clipped at zero ADU. -/
theorem C73_adu (c : CcdCfg K) (hp : c.photon = true) (hg : 0 < c.aduGain) (hem : 0 < gainUsed c) (e : K) (hclip : -(c.aduBias : K) ≤ e * c.aduGain) :
    |ccdConvert c e - (e / gainUsed c - darkRemoved c)| ≤ 1 / (2 * c.aduGain * gainUsed c) := by
  have hn := roundEvenF_near (e * c.aduGain)
  have hr : 0 ≤ (roundEvenF (e * c.aduGain) : K) + c.aduBias := by
    have h1 : ((-c.aduBias - 1 : Int) : K) < roundEvenF (e * c.aduGain) := by
      rw [abs_le] at hn
      push_cast
      linarith
    have h2 : -c.aduBias - 1 < roundEvenF (e * c.aduGain) := by exact_mod_cast h1
    have h3 : 0 ≤ roundEvenF (e * c.aduGain) + c.aduBias := by omega
    exact_mod_cast h3
  rw [ccdConvert_eq c hp, max_eq_left hr]
  have key : ((roundEvenF (e * c.aduGain) : K) + c.aduBias - c.aduBias) / (c.aduGain * gainUsed c) - darkRemoved c - (e / gainUsed c - darkRemoved c) =
      ((roundEvenF (e * c.aduGain) : K) - e * c.aduGain) / (c.aduGain * gainUsed c) := by
    field_simp
    ring
  rw [key, abs_div, abs_of_pos (mul_pos hg hem), div_le_div_iff₀ (mul_pos hg hem) (by positivity)]
  have : 0 < c.aduGain * gainUsed c := mul_pos hg hem
  nlinarith

/-- C73.  What is read out is a whole number of ADU; never below minus the bias; the bias has no other effect. -/
theorem C73_grid (c : CcdCfg K) (hp : c.photon = true) (hg : 0 < c.aduGain) (hem : 0 < gainUsed c) (e : K) :
    ∃ n : Int, -c.aduBias ≤ n ∧ (ccdConvert c e + darkRemoved c) * (c.aduGain * gainUsed c) = n ∧ n = max (roundEvenF (e * c.aduGain)) (-c.aduBias) := by
  refine ⟨_, le_max_right _ _, ?_, rfl⟩
  rw [ccdConvert_eq c hp, sub_add_cancel, div_mul_cancel₀ _ (mul_pos hg hem).ne']
  push_cast
  rw [sub_eq_iff_eq_add, ← max_add_add_right, neg_add_cancel]

omit [IsStrictOrderedRing K] in
/-- C73.  Without photon noise there is no conversion: neither the EM gain nor the dark level is removed. -/
theorem C73_no_photon_noise (c : CcdCfg K) (hp : c.photon = false) (e : K) : ccdConvert c e = e := by
  unfold ccdConvert
  rw [hp]
  rfl

omit [IsStrictOrderedRing K] in
/-- C73.  Without noise a pixel is the integrated light times the quantum efficiency. -/
theorem C73_noiseless (c : CcdCfg K) (d : CcdDraw K) (h : c.photon = false ∧ c.readout = false ∧ c.excess = false ∧ c.dark = false ∧ c.background = false ∧ c.cic = false)
    (hg : c.pixelGain = none) (x : K) : ccdPixel c d x = x * c.qe := by
  obtain ⟨h1, h2, h3, h4, h5, h6⟩ := h
  unfold ccdPixel
  rw [C73_no_photon_noise c h1]
  unfold ccdSignal
  rw [h1, h2, h3, h4, h5, h6, hg]
  simp only [Bool.or_self, Bool.false_eq_true, if_false]
  split_ifs with hq
  · rfl
  · rw [not_not.1 hq, mul_one]

/-- C73.  Levels: for a light level and counts without fluctuation, background and dark level are both added as soon as one of the two is asked for, and only the
dark level is removed again, and only if it is asked for and there is photon noise. -/
theorem C73_levels (c : CcdCfg K) (d : CcdDraw K) (hd : ∀ l, d.poisson l = l) (h : c.readout = false ∧ c.excess = false ∧ c.cic = false) (hg : c.pixelGain = none)
    (hgain : 0 < c.aduGain) (hb : 0 ≤ c.aduBias) (x : K) (hx : 0 ≤ x * c.qe + (c.backgroundLevel + c.darkLevel)) (hon : c.background = true ∨ c.dark = true) :
    |ccdPixel c d x - (x * c.qe + c.backgroundLevel + (if c.photon && c.dark then 0 else c.darkLevel))| ≤ if c.photon then 1 / (2 * c.aduGain) else 0 := by
  obtain ⟨h1, h2, h3⟩ := h
  have hor : (c.background || c.dark) = true := by rcases hon with h | h <;> rw [h] <;> simp
  have hq : (if c.qe ≠ 1 then x * c.qe else x) = x * c.qe := by
    split_ifs with hq
    · rfl
    · rw [not_not.1 hq, mul_one]
  have hs : ccdSignal c d (if c.qe ≠ 1 then x * c.qe else x) = x * c.qe + (c.backgroundLevel + c.darkLevel) := by
    rw [hq]
    unfold ccdSignal
    rw [hor, h1, h2, h3, hg]
    simp only [if_true, Bool.false_eq_true, if_false]
    split_ifs
    · exact hd _
    · rfl
  unfold ccdPixel
  rw [hs]
  cases hp : c.photon with
  | false =>
    rw [C73_no_photon_noise c hp, Bool.false_and, if_neg (by simp), if_neg (by simp)]
    rw [show x * c.qe + (c.backgroundLevel + c.darkLevel) - (x * c.qe + c.backgroundLevel + c.darkLevel) = 0 by ring, abs_zero]
  | true =>
    have hu : gainUsed c = 1 := by unfold gainUsed; rw [h2]; rfl
    have hcl : -(c.aduBias : K) ≤ (x * c.qe + (c.backgroundLevel + c.darkLevel)) * c.aduGain := by
      have : (0 : K) ≤ c.aduBias := by exact_mod_cast hb
      have h5 := mul_nonneg hx hgain.le
      linarith
    have := C73_adu c hp hgain (by rw [hu]; exact one_pos) _ hcl
    rw [hu, mul_one, div_one] at this
    rw [if_pos rfl, Bool.true_and]
    refine le_trans (le_of_eq ?_) this
    congr 1
    unfold darkRemoved
    split_ifs <;> ring

/-- C73.  The electron multiplication cancels: with counts and multiplication without fluctuation, the frame has the light within half an ADU divided by the gain, and a
readout fluctuation of `z` deviations moves it by `z` times the level that was asked for, not multiplied by the gain. -/
theorem C73_emccd (c : CcdCfg K) (d : CcdDraw K) (level : K) (hp : c.photon = true) (hx : c.excess = true) (hr : c.readout = true) (hc : c.cic = false) (hb : c.background = false)
    (hdk : c.dark = false) (hg : c.pixelGain = none) (hl : c.readoutLevel = ccdReadoutLevel c.excess level c.emGain) (hd : ∀ l, d.poisson l = l) (hgam : ∀ k t, d.gamma k t = k * t)
    (hgain : 0 < c.aduGain) (hem : 0 < c.emGain) (hdel : 0 < c.excessDelta) (x : K) (hlo : 1 / 10000000000 ≤ c.excessDelta * (x * c.qe))
    (hclip : -(c.aduBias : K) ≤ (x * c.qe + d.normal * level) * c.emGain * c.aduGain) :
    |ccdPixel c d x - (x * c.qe + d.normal * level)| ≤ 1 / (2 * c.aduGain * c.emGain) := by
  have hq : (if c.qe ≠ 1 then x * c.qe else x) = x * c.qe := by
    split_ifs with hq
    · rfl
    · rw [not_not.1 hq, mul_one]
  have hs : ccdSignal c d (if c.qe ≠ 1 then x * c.qe else x) = (x * c.qe + d.normal * level) * c.emGain := by
    rw [hq]
    unfold ccdSignal
    unfold ccdReadoutLevel at hl
    rw [if_pos hx] at hl
    rw [hb, hdk, hc, hp, hx, hr, hg, hl]
    simp only [if_true, Bool.false_eq_true, if_false, Bool.or_self]
    rw [hd, if_neg (not_lt.2 hlo), hgam]
    field_simp
  have hu : gainUsed c = c.emGain := by unfold gainUsed; rw [if_pos hx]
  have hdr : darkRemoved c = 0 := by unfold darkRemoved; rw [hdk]; rfl
  have := C73_adu c hp hgain (by rw [hu]; exact hem) _ hclip
  rw [hu, hdr, sub_zero, mul_div_cancel_right₀ _ hem.ne'] at this
  unfold ccdPixel
  rw [hs]
  exact this

/-! ### Mean over the random numbers -/

/-- C73.  The mean of what is read out, over random signals of mean `μ`, is the mean signal divided by the gain, without the dark level, within half an ADU: `E` is any
mean (linear, positive, one for the constant one). -/
theorem C73_unbiased {Ω : Type} (E : (Ω → K) →ₗ[K] K) (hpos : ∀ f : Ω → K, (∀ w, 0 ≤ f w) → 0 ≤ E f) (h1 : E (fun _ => 1) = 1) (c : CcdCfg K) (hp : c.photon = true)
    (hg : 0 < c.aduGain) (hem : 0 < gainUsed c) (e : Ω → K) (hclip : ∀ w, -(c.aduBias : K) ≤ e w * c.aduGain) :
    |E (fun w => ccdConvert c (e w)) - (E e / gainUsed c - darkRemoved c)| ≤ 1 / (2 * c.aduGain * gainUsed c) := by
  have hc : ∀ k : K, E (fun _ => k) = k := by
    intro k
    have : (fun _ : Ω => k) = k • fun _ : Ω => (1 : K) := by funext w; simp
    rw [this, map_smul, h1, smul_eq_mul, mul_one]
  set b := 1 / (2 * c.aduGain * gainUsed c)
  have hdiff : E (fun w => ccdConvert c (e w)) - (E e / gainUsed c - darkRemoved c) = E (fun w => ccdConvert c (e w) - (e w / gainUsed c - darkRemoved c)) := by
    have e1 : (fun w => ccdConvert c (e w) - (e w / gainUsed c - darkRemoved c)) =
        (fun w => ccdConvert c (e w)) - ((1 / gainUsed c) • e - fun _ => darkRemoved c) := by
      funext w
      simp only [Pi.sub_apply, Pi.smul_apply, smul_eq_mul]
      ring
    rw [e1, map_sub, map_sub, map_smul, hc, smul_eq_mul]
    ring
  rw [hdiff, abs_le]
  constructor
  · have := hpos (fun w => (ccdConvert c (e w) - (e w / gainUsed c - darkRemoved c)) + b) (fun w => by
      have := C73_adu c hp hg hem (e w) (hclip w)
      rw [abs_le] at this
      linarith)
    have e2 : (fun w => (ccdConvert c (e w) - (e w / gainUsed c - darkRemoved c)) + b) = (fun w => ccdConvert c (e w) - (e w / gainUsed c - darkRemoved c)) + fun _ => b := rfl
    rw [e2, map_add, hc] at this
    linarith
  · have := hpos (fun w => b - (ccdConvert c (e w) - (e w / gainUsed c - darkRemoved c))) (fun w => by
      have := C73_adu c hp hg hem (e w) (hclip w)
      rw [abs_le] at this
      linarith)
    have e2 : (fun w => b - (ccdConvert c (e w) - (e w / gainUsed c - darkRemoved c))) = (fun _ => b) - (fun w => ccdConvert c (e w) - (e w / gainUsed c - darkRemoved c)) := rfl
    rw [e2, map_sub, hc] at this
    linarith

/-! ### Binning -/

/-- C73.  A binned pixel without noise is the *mean* of its block times the quantum efficiency: the frame has the light of the exposure divided by the square of the binning. -/
theorem C73_binning (b : Nat) (hb : 1 < b) (c : Nat → Nat → CcdCfg K) (d : Nat → Nat → CcdDraw K) (q : K)
    (hc : ∀ i j, (c i j).photon = false ∧ (c i j).readout = false ∧ (c i j).excess = false ∧ (c i j).dark = false ∧ (c i j).background = false ∧ (c i j).cic = false)
    (hg : ∀ i j, (c i j).pixelGain = none) (hq : ∀ i j, (c i j).qe = q) (a : Img K) (m n : Nat) (hm : 0 < m) (hn : 0 < n) (hr : a.rows = m * b) (hcol : a.cols = n * b)
    (hsq : n ≤ a.rows) :
    ∃ r, ccdFrame b c d a = some r ∧ r.rows = m ∧ r.cols = n ∧ r.total * (b * b) = q * a.total ∧
      ∀ i j, r.px i j = q * ((∑ u ∈ Finset.range b, ∑ v ∈ Finset.range b, a.px (i * b + u) (j * b + v)) / (b * b)) := by
  have hR : 0 < a.rows := by rw [hr]; exact Nat.mul_pos hm (by omega)
  have hC : 0 < a.cols := by rw [hcol]; exact Nat.mul_pos hn (by omega)
  have hrb : a.rows / b = m := by rw [hr]; exact Nat.mul_div_cancel _ (by omega)
  have hcb : a.cols / b = n := by rw [hcol]; exact Nat.mul_div_cancel _ (by omega)
  have hne := (C37_rebin_accepts a m n hR).2 (Or.inr ⟨hm, hn, ⟨b, hr⟩, ⟨b, hcol⟩, hsq⟩)
  obtain ⟨t, ht⟩ := Option.ne_none_iff_exists'.1 hne
  obtain ⟨t1, t2, t3, t4⟩ := C37_rebin_mean a t m n hR hC ht
  have hrm : a.rows / m = b := by rw [hr]; exact Nat.mul_div_cancel_left _ hm
  have hcn : a.cols / n = b := by rw [hcol]; exact Nat.mul_div_cancel_left _ hn
  rw [hrm, hcn] at t4
  have hpx : ∀ i j, ccdPixel (c i j) (d i j) (t.px i j) = q * t.px i j := by
    intro i j
    rw [C73_noiseless _ _ (hc i j) (hg i j), hq, mul_comm]
  refine ⟨⟨t.rows, t.cols, fun i j => ccdPixel (c i j) (d i j) (t.px i j)⟩, ?_, t1, t2, ?_, ?_⟩
  · unfold ccdFrame ccdBin
    rw [if_pos hb, hrb, hcb, ht]
    rfl
  · have htot : (⟨t.rows, t.cols, fun i j => ccdPixel (c i j) (d i j) (t.px i j)⟩ : Img K).total = q * t.total := by
      unfold Img.total
      dsimp only
      rw [Finset.mul_sum]
      refine Finset.sum_congr rfl fun i _ => ?_
      rw [Finset.mul_sum]
      exact Finset.sum_congr rfl fun j _ => hpx i j
    have hmK : (m : K) ≠ 0 := by exact_mod_cast hm.ne'
    have hnK : (n : K) ≠ 0 := by exact_mod_cast hn.ne'
    have hbK : (b : K) ≠ 0 := by exact_mod_cast (by omega : b ≠ 0)
    rw [htot]
    rw [hr, hcol] at t3
    push_cast at t3
    have : t.total = a.total / (b * b) := by
      field_simp at t3
      field_simp
      linarith
    rw [this]
    field_simp
  · intro i j
    dsimp only
    rw [hpx, t4]

end

/-- C73: a size that is not a multiple of the binning can be accepted, and then other blocks are used: 10 pixels with a binning of 4 are read as two blocks of 5. -/
theorem C73_binning_other : ∃ a : Img ℚ, a.rows = 10 ∧ a.cols = 10 ∧ ∃ r, ccdBin 4 a = some r ∧ r.rows = 2 ∧ r.cols = 2 ∧
    r.px 0 0 = (∑ u ∈ Finset.range 5, ∑ v ∈ Finset.range 5, a.px u v) / 25 := by
  have hne := (C37_rebin_accepts (⟨10, 10, fun i j => if i = 4 ∧ j = 4 then 25 else 0⟩ : Img ℚ) 2 2 (by simp)).2
    (Or.inr ⟨by simp, by simp, by simp, by simp, by simp⟩)
  obtain ⟨t, ht⟩ := Option.ne_none_iff_exists'.1 hne
  obtain ⟨t1, t2, -, t4⟩ := C37_rebin_mean _ t 2 2 (by simp) (by simp) ht
  refine ⟨⟨10, 10, fun i j => if i = 4 ∧ j = 4 then 25 else 0⟩, rfl, rfl, t, ?_, t1, t2, ?_⟩
  · unfold ccdBin
    rw [if_pos (by norm_num)]
    exact ht
  · rw [t4]
    norm_num

/-! ### Concrete cases -/

/-- An EMCCD with the default gains: 7 electrons, amplified to 2809, come back as 7.05. -/
def exCcd : CcdCfg ℚ := ⟨true, true, true, true, false, false, 0, 1 / 2, 3, 1, none, 1, 1 / 20, 400, 400⟩

example : ccdGains true (none : Option ℚ) none = (400, 1 / 20) ∧ ccdGains false (some 5 : Option ℚ) none = (1, 8) := by decide +kernel

example : (ccdConvert exCcd 2809, ccdConvert exCcd (-10000000)) = (7 - 1 / 2, -20 - 1 / 2) := by decide +kernel

/-- C73 on numbers: the hypotheses of the electron multiplication: 10 electrons and two deviations of half an electron. -/
example : |ccdPixel (⟨true, true, true, false, false, false, 200, 0, 0, 1, none, 1, 1 / 20, 400, 400⟩ : CcdCfg ℚ) ⟨id, fun k t => k * t, 2, 0⟩ 10 - (10 * 1 + 2 * (1 / 2))| ≤
    1 / (2 * (1 / 20) * 400) :=
  C73_emccd ⟨true, true, true, false, false, false, 200, 0, 0, 1, none, 1, 1 / 20, 400, 400⟩ ⟨id, fun k t => k * t, 2, 0⟩ (1 / 2) rfl rfl rfl rfl rfl rfl rfl
    (by norm_num [ccdReadoutLevel]) (fun _ => rfl) (fun _ _ => rfl) (by norm_num) (by norm_num) (by norm_num) 10 (by norm_num) (by norm_num)

/-- C73 on numbers: background asked for without dark current: the dark level stays in the frame. -/
example : ccdPixel (⟨true, false, false, false, true, false, 0, 1 / 2, 3, 1, none, 1, 8, 400, 1⟩ : CcdCfg ℚ) ⟨id, fun _ _ => 0, 0, 0⟩ 10 = 10 + 3 + 1 / 2 := by decide +kernel

/-- C73 on numbers: excess noise without photon noise: the EM gain stays in the frame. -/
example : ccdPixel (⟨false, false, true, false, false, false, 0, 0, 0, 1, none, 1, 1 / 20, 400, 400⟩ : CcdCfg ℚ) ⟨id, fun k s => k * s, 0, 0⟩ 10 = 4000 := by decide +kernel

/-- C73 on numbers: the hypotheses of the mean: two equally likely signals, 3 and 4 electrons. -/
example : ∃ E : (Bool → ℚ) →ₗ[ℚ] ℚ, (∀ f : Bool → ℚ, (∀ w, 0 ≤ f w) → 0 ≤ E f) ∧ E (fun _ => 1) = 1 ∧ E (fun w => if w then 3 else 4) = 7 / 2 :=
  ⟨{ toFun := fun f => (f true + f false) / 2
     map_add' := fun f g => by simp only [Pi.add_apply]; ring
     map_smul' := fun k f => by simp only [Pi.smul_apply, smul_eq_mul, RingHom.id_apply]; ring },
   fun f h => by
     have h1 := h true
     have h2 := h false
     show 0 ≤ (f true + f false) / 2
     linarith,
   by show ((1 : ℚ) + 1) / 2 = 1; norm_num, by show ((3 : ℚ) + 4) / 2 = 7 / 2; norm_num⟩

end Specula
