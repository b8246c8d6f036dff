import Mathlib.Tactic.Ring
import Mathlib.Tactic.FieldSimp
import Mathlib.Tactic.Linarith
import Mathlib.Tactic.NormNum
import Mathlib.Tactic.Positivity
import Verif.Model.Refraction
import Verif.Props.Interp

/-!
# C85: refraction of air and chromatic shifts
-/

namespace Specula

/-! ### Refraction -/

theorem matharBand_eq (w : ℝ) : matharBand w =
    if 1.3 ≤ w ∧ w ≤ 2.5 then matharK else if 2.8 ≤ w ∧ w ≤ 4.2 then matharL else if 4.35 ≤ w ∧ w ≤ 5.3 then matharM
    else if 7.5 ≤ w ∧ w ≤ 14.1 then matharN else if 16.0 ≤ w ∧ w ≤ 28.0 then matharQ else matharK := by
  unfold matharBand matharTables
  have hK : matharK.lo = 1.3 ∧ matharK.hi = 2.5 := ⟨rfl, rfl⟩
  have hL : matharL.lo = 2.8 ∧ matharL.hi = 4.2 := ⟨rfl, rfl⟩
  have hM : matharM.lo = 4.35 ∧ matharM.hi = 5.3 := ⟨rfl, rfl⟩
  have hN : matharN.lo = 7.5 ∧ matharN.hi = 14.1 := ⟨rfl, rfl⟩
  have hQ : matharQ.lo = 16.0 ∧ matharQ.hi = 28.0 := ⟨rfl, rfl⟩
  simp only [List.find?_cons, List.find?_nil, hK, hL, hM, hN, hQ]
  split_ifs with h1 h2 h3 h4 h5
  · simp only [decide_eq_true h1, Option.getD_some]
  · simp only [decide_eq_false h1, decide_eq_true h2, Option.getD_some]
  · simp only [decide_eq_false h1, decide_eq_false h2, decide_eq_true h3, Option.getD_some]
  · simp only [decide_eq_false h1, decide_eq_false h2, decide_eq_false h3, decide_eq_true h4, Option.getD_some]
  · simp only [decide_eq_false h1, decide_eq_false h2, decide_eq_false h3, decide_eq_false h4, decide_eq_true h5, Option.getD_some]
  · simp only [decide_eq_false h1, decide_eq_false h2, decide_eq_false h3, decide_eq_false h4, decide_eq_false h5, Option.getD_none]

/-- **C85** (bands): beyond 1.3 um each of the tables L, M, N and Q serves its own range; all other wavelengths, between the ranges and beyond
the last, are computed with the table of K. -/
theorem C85_bands (w : ℝ) :
    ((matharBand w).name = "L" ↔ 2.8 ≤ w ∧ w ≤ 4.2) ∧ ((matharBand w).name = "M" ↔ 4.35 ≤ w ∧ w ≤ 5.3)
    ∧ ((matharBand w).name = "N" ↔ 7.5 ≤ w ∧ w ≤ 14.1) ∧ ((matharBand w).name = "Q" ↔ 16 ≤ w ∧ w ≤ 28)
    ∧ ((matharBand w).name = "K" ↔ w < 2.8 ∨ (4.2 < w ∧ w < 4.35) ∨ (5.3 < w ∧ w < 7.5) ∨ (14.1 < w ∧ w < 16) ∨ 28 < w) := by
  rw [matharBand_eq]
  have nK : matharK.name = "K" := rfl
  have nL : matharL.name = "L" := rfl
  have nM : matharM.name = "M" := rfl
  have nN : matharN.name = "N" := rfl
  have nQ : matharQ.name = "Q" := rfl
  split_ifs with h1 h2 h3 h4 h5
  · rw [nK]
    refine ⟨iff_of_false (by decide) ?_, iff_of_false (by decide) ?_, iff_of_false (by decide) ?_, iff_of_false (by decide) ?_, iff_of_true rfl (Or.inl ?_)⟩
    · rintro ⟨a, b⟩; norm_num at *; linarith
    · rintro ⟨a, b⟩; norm_num at *; linarith
    · rintro ⟨a, b⟩; norm_num at *; linarith
    · rintro ⟨a, b⟩; norm_num at *; linarith
    · norm_num at *; linarith
  · rw [nL]
    refine ⟨iff_of_true rfl h2, iff_of_false (by decide) ?_, iff_of_false (by decide) ?_, iff_of_false (by decide) ?_, iff_of_false (by decide) ?_⟩
    · rintro ⟨a, b⟩; norm_num at *; linarith
    · rintro ⟨a, b⟩; norm_num at *; linarith
    · rintro ⟨a, b⟩; norm_num at *; linarith
    · rintro (a | ⟨a, b⟩ | ⟨a, b⟩ | ⟨a, b⟩ | a) <;> norm_num at * <;> linarith
  · rw [nM]
    refine ⟨iff_of_false (by decide) h2, iff_of_true rfl h3, iff_of_false (by decide) ?_, iff_of_false (by decide) ?_, iff_of_false (by decide) ?_⟩
    · rintro ⟨a, b⟩; norm_num at h3 a b; linarith
    · rintro ⟨a, b⟩; norm_num at h3 a b; linarith
    · rintro (a | ⟨a, b⟩ | ⟨a, b⟩ | ⟨a, b⟩ | a) <;> norm_num at h3 <;> norm_num at a <;> try norm_num at b
      all_goals linarith
  · rw [nN]
    refine ⟨iff_of_false (by decide) h2, iff_of_false (by decide) h3, iff_of_true rfl h4, iff_of_false (by decide) ?_, iff_of_false (by decide) ?_⟩
    · rintro ⟨a, b⟩; norm_num at h4 a b; linarith
    · rintro (a | ⟨a, b⟩ | ⟨a, b⟩ | ⟨a, b⟩ | a) <;> norm_num at h4 <;> norm_num at a <;> try norm_num at b
      all_goals linarith
  · rw [nQ]
    refine ⟨iff_of_false (by decide) h2, iff_of_false (by decide) h3, iff_of_false (by decide) h4, iff_of_true rfl (by norm_num at h5 ⊢; exact h5), iff_of_false (by decide) ?_⟩
    rintro (a | ⟨a, b⟩ | ⟨a, b⟩ | ⟨a, b⟩ | a) <;> norm_num at h5 <;> norm_num at a <;> try norm_num at b
    all_goals linarith
  · rw [nK]
    refine ⟨iff_of_false (by decide) h2, iff_of_false (by decide) h3, iff_of_false (by decide) h4, iff_of_false (by decide) (by norm_num at h5 ⊢; exact h5), iff_of_true rfl ?_⟩
    by_contra hc
    simp only [not_or, not_and, not_lt] at hc h2 h3 h4 h5
    obtain ⟨c1, c2, c3, c4, c5⟩ := hc
    rcases lt_or_ge (4.2 : ℝ) w with a | a
    · have := c2 a
      rcases lt_or_ge (5.3 : ℝ) w with b | b
      · have := c3 b
        rcases lt_or_ge (14.1 : ℝ) w with c | c
        · have := c4 c
          exact h5 (by norm_num at this ⊢; exact this) (by norm_num at c5 ⊢; exact c5)
        · exact h4 this c
      · exact h3 this b
    · exact h2 c1 a

/-- **C85** (reference): at the centre of each band and in the reference state of its author, n - 1 is the leading coefficient of the table. -/
theorem C85_reference :
    matharIndex 2.25 (273.15 + 17.5) 75000 10 = 0.200192e-3 ∧ matharIndex 3.4 (273.15 + 17.5) 75000 10 = 0.200049e-3
    ∧ matharIndex 4.8 (273.15 + 17.5) 75000 10 = 0.200020e-3 ∧ matharIndex 10.1 (273.15 + 17.5) 75000 10 = 0.199885e-3
    ∧ matharIndex 20 (273.15 + 17.5) 75000 10 = 0.199436e-3 := by
  refine ⟨?_, ?_, ?_, ?_, ?_⟩
  all_goals
    unfold matharIndex
    rw [matharBand_eq]
    norm_num [matharState, matharK, matharL, matharM, matharN, matharQ, List.range_succ]

/-- **C85** (elements): several wavelengths give the array of the values each has alone; one gives a number; none raises. -/
theorem C85_elements (tC p h : ℝ) :
    (∀ w, refractiveIndex [w] tC p h = some (.inl (airIndex w tC p h)))
    ∧ (∀ ws : List ℝ, 2 ≤ ws.length → ∃ out, refractiveIndex ws tC p h = some (.inr out) ∧ out.length = ws.length
        ∧ ∀ (k : Nat) (w : ℝ), ws[k]? = some w → ∃ x, refractiveIndex [w] tC p h = some (.inl x) ∧ out[k]? = some x)
    ∧ refractiveIndex [] tC p h = none := by
  have h1 : ∀ w, refractiveIndex [w] tC p h = some (.inl (airIndex w tC p h)) := fun w => by simp [refractiveIndex]
  refine ⟨h1, fun ws hw => ⟨ws.map (fun w => airIndex w tC p h), ?_, by simp, fun k w hk => ⟨_, h1 w, by simp [hk]⟩⟩, by simp [refractiveIndex]⟩
  unfold refractiveIndex
  rw [if_pos (by rw [List.length_map]; omega)]

/-- **C85** (dry air): below 1.3 um the refraction of dry air is proportional to pressure over absolute temperature, it is that of the standard
at 15 degrees and 101325 Pa, and there is none without air. -/
theorem C85_dry (w tC p : ℝ) (hw : w < 1.3) :
    airIndex w tC p 0 = p / 101325 * (288.15 / (tC + 273.15)) * airIndex w 15 101325 0 ∧ airIndex w tC 0 0 = 0 := by
  have e : ∀ tC p, airIndex w tC p 0 = p / 101325 * (288.15 / (tC + 273.15)) * dryStandard w := by
    intro tC p
    unfold airIndex ciddorIndex vapourPressure
    rw [if_pos hw]
    ring
  refine ⟨?_, ?_⟩
  · rw [e, e]
    norm_num
  · rw [e]
    simp

theorem invSq_le (w q : ℝ) (hw : 0 < w) (h : 1 ≤ q * w ^ 2) : (1 / w) ^ 2 ≤ q := by
  rw [div_pow, one_pow, div_le_iff₀ (by positivity)]
  exact h

theorem dryStandard_lt (w1 w2 : ℝ) (h1 : 0.2 ≤ w1) (h : w1 < w2) : dryStandard w2 < dryStandard w1 := by
  have p1 : 0 < w1 := lt_of_lt_of_le (by norm_num) h1
  have p2 : 0 < w2 := lt_trans p1 h
  have hs : (1 / w2) ^ 2 < (1 / w1) ^ 2 := by
    have := one_div_lt_one_div_of_lt p1 h
    have hpos : 0 < 1 / w2 := by positivity
    nlinarith
  have hb : (1 / w1) ^ 2 ≤ 25 := invSq_le w1 25 p1 (by norm_num at h1; nlinarith)
  unfold dryStandard
  simp only
  refine mul_lt_mul_of_pos_right (add_lt_add ?_ ?_) (by norm_num)
  · exact div_lt_div_of_pos_left (by norm_num) (by linarith) (by linarith)
  · exact div_lt_div_of_pos_left (by norm_num) (by linarith) (by linarith)

theorem dryStandard_ge (w : ℝ) (h : 0.2 ≤ w) : 27261e-8 ≤ dryStandard w := by
  have p1 : 0 < w := lt_of_lt_of_le (by norm_num) h
  have hb : (1 / w) ^ 2 ≤ 25 := invSq_le w 25 p1 (by norm_num at h; nlinarith)
  have h0 : 0 ≤ (1 / w) ^ 2 := by positivity
  unfold dryStandard
  simp only
  have a : (5792105 : ℝ) / 238.0185 ≤ 5792105 / (238.0185 - (1 / w) ^ 2) := div_le_div_of_nonneg_left (by norm_num) (by linarith) (by linarith)
  have b : (167917 : ℝ) / 57.362 ≤ 167917 / (57.362 - (1 / w) ^ 2) := div_le_div_of_nonneg_left (by norm_num) (by linarith) (by linarith)
  have c : (27261 : ℝ) ≤ 5792105 / 238.0185 + 167917 / 57.362 := by norm_num
  calc (27261e-8 : ℝ) = 27261 * 1e-8 := by norm_num
    _ ≤ _ := mul_le_mul_of_nonneg_right (by linarith) (by norm_num)

/-- **C85** (dispersion): in dry air blue light is refracted more than red. -/
theorem C85_dispersion (tC p w1 w2 : ℝ) (ht : -273.15 < tC) (hp : 0 < p) (h1 : 0.2 ≤ w1) (h : w1 < w2) (h2 : w2 < 1.3) :
    0 < airIndex w2 tC p 0 ∧ airIndex w2 tC p 0 < airIndex w1 tC p 0 := by
  have e : ∀ w, w < 1.3 → airIndex w tC p 0 = p / 101325 * (288.15 / (tC + 273.15)) * dryStandard w := by
    intro w hw
    unfold airIndex ciddorIndex vapourPressure
    rw [if_pos hw]
    ring
  have ht' : 0 < tC + 273.15 := by linarith
  have hc : 0 < p / 101325 * (288.15 / (tC + 273.15)) := by positivity
  rw [e w2 h2, e w1 (lt_trans h h2)]
  refine ⟨mul_pos hc (lt_of_lt_of_le (by norm_num) (dryStandard_ge w2 (by linarith))), mul_lt_mul_of_pos_left (dryStandard_lt w1 w2 h1 h) hc⟩

theorem wetStandard_le (w : ℝ) (h : 0.3 ≤ w) : wetStandard w ≤ 338e-8 := by
  have p1 : 0 < w := lt_of_lt_of_le (by norm_num) h
  have hb : (1 / w) ^ 2 ≤ 11.2 := invSq_le w 11.2 p1 (by norm_num at h ⊢; nlinarith)
  have h0 : 0 ≤ (1 / w) ^ 2 := by positivity
  unfold wetStandard
  simp only
  have e4 : (1 / w) ^ 4 = (1 / w) ^ 2 * (1 / w) ^ 2 := by ring
  have e6 : (1 / w) ^ 6 = (1 / w) ^ 2 * (1 / w) ^ 2 * (1 / w) ^ 2 := by ring
  rw [e4, e6]
  generalize (1 / w) ^ 2 = q at hb h0
  norm_num at hb ⊢
  have q2 : 0 ≤ q * q := by positivity
  have q3 : q * q * q ≤ 56 / 5 * (56 / 5) * (56 / 5) := by
    have : q * q ≤ 56 / 5 * (56 / 5) := mul_le_mul hb hb h0 (by norm_num)
    exact mul_le_mul this hb h0 (by norm_num)
  nlinarith

/-- **C85** (humidity): at the same temperature and pressure, between 0.3 and 1.3 um, humid air refracts less than dry air, the less the more
humid. -/
theorem C85_humidity (w tC p h1 h2 : ℝ) (hw : 0.3 ≤ w) (hw' : w < 1.3) (ht : -273.15 < tC) (hp : 0 ≤ p) (h : h1 < h2) :
    airIndex w tC p h2 < airIndex w tC p h1 := by
  have ht' : 0 < tC + 273.15 := by linarith
  have hpw : vapourPressure tC p h1 < vapourPressure tC p h2 := by
    unfold vapourPressure
    simp only
    refine mul_lt_mul_of_pos_right (mul_lt_mul_of_pos_right (by linarith) ?_) (Real.exp_pos _)
    positivity
  have hd := dryStandard_ge w (by norm_num at hw ⊢; linarith)
  have hv := wetStandard_le w hw
  have hc : 293.15 / 1333 * wetStandard w < 288.15 / 101325 * dryStandard w := by
    norm_num at hd hv ⊢
    linarith
  have e : ∀ x, airIndex w tC p x = p / 101325 * (288.15 / (tC + 273.15)) * dryStandard w
      - vapourPressure tC p x * ((288.15 / 101325 * dryStandard w - 293.15 / 1333 * wetStandard w) / (tC + 273.15)) := by
    intro x
    unfold airIndex ciddorIndex
    rw [if_pos hw']
    simp only
    generalize vapourPressure tC p x = v
    field_simp
    ring
  rw [e, e]
  have : 0 < (288.15 / 101325 * dryStandard w - 293.15 / 1333 * wetStandard w) / (tC + 273.15) := div_pos (by linarith) ht'
  nlinarith

/-! ### Pressure and shifts -/

theorem pressure_low (h : ℝ) (hh : h < 11000) : pressureNasa h = 1012.9 * ((288.08 - 0.00649 * h) / 288.08) ^ (5.256 : ℝ) := by
  unfold pressureNasa
  rw [if_pos hh]

/-- **C85** (pressure): the pressure is positive, and decreases with height inside each of its three ranges. -/
theorem C85_pressure (h : ℝ) :
    (-2000000 < h → 0 < pressureNasa h)
    ∧ ∀ h', h < h' → (h' < 11000 ∨ (11000 ≤ h ∧ h' < 25000) ∨ 25000 ≤ h) → pressureNasa h' < pressureNasa h := by
  constructor
  · intro _
    unfold pressureNasa
    split_ifs with h1 h2
    · exact mul_pos (by norm_num) (Real.rpow_pos_of_pos (div_pos (by norm_num at *; linarith) (by norm_num)) _)
    · exact mul_pos (by norm_num) (Real.exp_pos _)
    · exact mul_pos (by norm_num) (Real.rpow_pos_of_pos (div_pos (by norm_num at *; linarith) (by norm_num)) _)
  · rintro h' hlt (a | ⟨a, b⟩ | a)
    · rw [pressure_low h' a, pressure_low h (lt_trans hlt a)]
      refine mul_lt_mul_of_pos_left (Real.rpow_lt_rpow ?_ ?_ (by norm_num)) (by norm_num)
      · exact div_nonneg (by norm_num at *; linarith) (by norm_num)
      · exact div_lt_div_of_pos_right (by linarith) (by norm_num)
    · unfold pressureNasa
      rw [if_neg (by linarith), if_pos b, if_neg (by linarith), if_pos (by linarith)]
      exact mul_lt_mul_of_pos_left (Real.exp_lt_exp.2 (by linarith)) (by norm_num)
    · unfold pressureNasa
      rw [if_neg (by linarith), if_neg (by linarith), if_neg (by linarith), if_neg (by linarith)]
      refine mul_lt_mul_of_pos_left (Real.rpow_lt_rpow_of_neg ?_ ?_ (by norm_num)) (by norm_num)
      · exact div_pos (by norm_num at *; linarith) (by norm_num)
      · exact div_lt_div_of_pos_right (by linarith) (by norm_num)

/-- **C85** (jump): at 11000 m the pressure increases with height: the last metre below is at a lower pressure than 11000 m. -/
theorem C85_pressure_jump : pressureNasa 10999 < pressureNasa 11000 := by
  rw [pressure_low 10999 (by norm_num)]
  unfold pressureNasa
  rw [if_neg (by norm_num), if_pos (by norm_num)]
  have he : (1.003 : ℝ) ≤ Real.exp (1.73 - 0.000157 * 11000) := by
    have := Real.add_one_le_exp (1.73 - 0.000157 * 11000 : ℝ)
    norm_num at this ⊢
    linarith
  have hr : (((288.08 - 0.00649 * 10999) / 288.08 : ℝ)) ^ (5.256 : ℝ) < 0.2242 := by
    have hb : (0 : ℝ) ≤ (288.08 - 0.00649 * 10999) / 288.08 := by norm_num
    have key : ((((288.08 - 0.00649 * 10999) / 288.08 : ℝ)) ^ (5.256 : ℝ)) ^ (125 : ℕ) < (0.2242 : ℝ) ^ (125 : ℕ) := by
      rw [← Real.rpow_natCast, ← Real.rpow_mul hb, show (5.256 : ℝ) * ((125 : ℕ) : ℝ) = ((657 : ℕ) : ℝ) by norm_num, Real.rpow_natCast]
      have h219 : ((288.08 - 0.00649 * 10999) / 288.08 : ℝ) ^ 219 < 8.6e-28 := by norm_num
      rw [show 657 = 219 * 3 by norm_num, pow_mul]
      exact lt_trans (pow_lt_pow_left₀ h219 (pow_nonneg hb _) (by norm_num)) (by norm_num)
    exact lt_of_pow_lt_pow_left₀ 125 (by norm_num) key
  norm_num at he hr ⊢
  linarith

/-- What the shift of a layer is, apart from the choice of wavelengths. -/
noncomputable def shiftFactor (zenith telescope height : ℝ) : ℝ :=
  1 / Real.cos zenith * Real.tan zenith * (pressureNasa telescope * 100 / (9.8 * 1.225)) * (1 - pressureNasa (telescope + height) / pressureNasa telescope)

/-- Refraction of standard air at a wavelength in nanometres. -/
noncomputable def standardIndex (nm : ℝ) : ℝ := airIndex (nm / 1000) 15 101325 0

theorem shift_eq (zenith telescope refNm srcNm height : ℝ) :
    chromaticShift true zenith telescope refNm srcNm height = (standardIndex refNm - standardIndex srcNm) * shiftFactor zenith telescope height := by
  have hm : ∀ x : ℝ, x * 1e-9 * 1e6 = x / 1000 := fun x => by norm_num; ring
  unfold chromaticShift standardIndex shiftFactor
  simp only [hm, Bool.true_eq_false, if_false]
  split_ifs with h
  · rw [h]; ring
  · ring

/-- **C85** (shifts): the shifts of a layer between three wavelengths add up; so exchanging reference and source changes the sign, and equal
wavelengths have none. Nothing is shifted when the effect is off, at the zenith, and at the height of the telescope. -/
theorem C85_shifts (z t : ℝ) (ht : -2000000 < t) (a b c h : ℝ) :
    chromaticShift true z t a b h + chromaticShift true z t b c h = chromaticShift true z t a c h
    ∧ chromaticShift true z t b a h = -chromaticShift true z t a b h
    ∧ chromaticShift true z t a a h = 0 ∧ chromaticShift false z t a b h = 0 ∧ chromaticShift true 0 t a b h = 0
    ∧ chromaticShift true z t a b 0 = 0 := by
  refine ⟨?_, ?_, ?_, ?_, ?_, ?_⟩
  · simp only [shift_eq]; ring
  · simp only [shift_eq]; ring
  · simp only [shift_eq]; ring
  · simp [chromaticShift]
  · simp [shift_eq, shiftFactor]
  · have := ne_of_gt ((C85_pressure t).1 ht)
    rw [shift_eq, shiftFactor, add_zero, div_self this]
    ring

/-- **C85** (direction): below 1.3 um, away from the zenith and inside one range of the pressure, the beam of a source bluer than the reference
is moved towards lower rows, and the more the higher the layer. -/
theorem C85_direction (z : ℝ) (hz : 0 < z) (hz' : z < Real.pi / 2) (t h h' ref src : ℝ) (hs : 200 ≤ src) (hr : src < ref) (hr' : ref < 1300)
    (hh : 0 ≤ h) (hlt : h < h') (htop : -2000000 < t) (hrange : t + h' < 11000 ∨ (11000 ≤ t ∧ t + h' < 25000) ∨ 25000 ≤ t) :
    chromaticShift true z t ref src h' < chromaticShift true z t ref src h ∧ chromaticShift true z t ref src h ≤ 0 := by
  have hp0 := (C85_pressure t).1 htop
  have hn : standardIndex ref - standardIndex src < 0 := by
    unfold standardIndex
    have := (C85_dispersion 15 101325 (src / 1000) (ref / 1000) (by norm_num) (by norm_num) (by norm_num; linarith) (by linarith) (by norm_num; linarith)).2
    linarith
  have hc : 0 < Real.cos z := Real.cos_pos_of_mem_Ioo ⟨by linarith, hz'⟩
  have htan : 0 < Real.tan z := Real.tan_pos_of_pos_of_lt_pi_div_two hz hz'
  have hk : 0 < 1 / Real.cos z * Real.tan z * (pressureNasa t * 100 / (9.8 * 1.225)) := by positivity
  have hP : pressureNasa (t + h') < pressureNasa (t + h) := by
    refine (C85_pressure (t + h)).2 _ (by linarith) ?_
    rcases hrange with a | ⟨a, b⟩ | a
    · exact Or.inl a
    · exact Or.inr (Or.inl ⟨by linarith, b⟩)
    · exact Or.inr (Or.inr (by linarith))
  have hPh : pressureNasa (t + h) ≤ pressureNasa t := by
    rcases eq_or_lt_of_le hh with e | e
    · rw [← e, add_zero]
    · refine le_of_lt ((C85_pressure t).2 _ (by linarith) ?_)
      rcases hrange with a | ⟨a, b⟩ | a
      · exact Or.inl (by linarith)
      · exact Or.inr (Or.inl ⟨a, by linarith⟩)
      · exact Or.inr (Or.inr a)
  have f : ∀ x, 1 - pressureNasa x / pressureNasa t = (pressureNasa t - pressureNasa x) / pressureNasa t := fun x => by field_simp
  rw [shift_eq, shift_eq]
  have g1 : 0 ≤ shiftFactor z t h := by
    unfold shiftFactor
    rw [f]
    exact mul_nonneg (le_of_lt hk) (div_nonneg (by linarith) (le_of_lt hp0))
  have g2 : shiftFactor z t h < shiftFactor z t h' := by
    unfold shiftFactor
    rw [f, f]
    exact mul_lt_mul_of_pos_left (div_lt_div_of_pos_right (by linarith) hp0) hk
  constructor
  · exact mul_lt_mul_of_neg_left g2 hn
  · exact mul_nonpos_of_nonpos_of_nonneg (le_of_lt hn) g1

/-! ### Use in the propagation -/

section
variable {K : Type} [Field K] [LinearOrder K] [IsStrictOrderedRing K] [FloorRing K]

/-- **C85** (no shift): without a shift the propagation is the one without chromatic effects. -/
theorem C85_no_shift (airmass : K) (pupil : Nat) (pp : Option (K × K)) (s : SrcGeom K) (l : LayerGeom K) :
    setupViewShifted airmass pupil pp s l 0 = setupView airmass pupil pp s l := by
  unfold setupViewShifted setupView layerInterpShifted layerInterp
  simp

/-- **C85** (on axis): for a star on the axis and a layer that is neither shifted, rotated nor magnified the chromatic shift is ignored. -/
theorem C85_on_axis (airmass : K) (pupil : Nat) (s : SrcGeom K) (hs : s.height = none) (hr : s.r = 0) (l : LayerGeom K) (hsh : l.shift = (0, 0))
    (hrot : l.rot = none) (hm : l.mag = 1) (shift : K) : ∃ v, setupViewShifted airmass pupil none s l shift = some v ∧ v = View.cut := by
  refine ⟨View.cut, ?_, rfl⟩
  unfold setupViewShifted
  rw [if_pos ⟨Or.inr ⟨hs, hr⟩, hsh, rfl, by rw [hrot]; rfl, hm⟩]

/-- **C85** (off axis): for other sources a shift moves the beam along the rows: the phase of a plane changes by its slope times the shift in
pixels. -/
theorem C85_off_axis (airmass : K) (pupil : Nat) (pp : Option (K × K)) (s : SrcGeom K) (l : LayerGeom K) (hrot : l.rot = none) (h2 : 2 ≤ l.rows) (h2' : 2 ≤ l.cols)
    (shift : K) (f g : (Nat → Nat → K) → Nat → Nat → K) (hf : layerInterpShifted airmass pupil pp s l 0 = some f)
    (hg : layerInterpShifted airmass pupil pp s l shift = some g) (px : Nat → Nat → K) (p q r : K)
    (hpx : ∀ i < l.rows, ∀ j < l.cols, px i j = p + q * i + r * j) (i j : Nat)
    (hx : 0 ≤ beamX pupil (beamSize pupil s l) (beamPos airmass pupil pp s l).1 l j ∧ beamX pupil (beamSize pupil s l) (beamPos airmass pupil pp s l).1 l j ≤ (l.cols : K) - 1)
    (hy : 0 ≤ beamY pupil (beamSize pupil s l) (beamPos airmass pupil pp s l).2 l i ∧ beamY pupil (beamSize pupil s l) (beamPos airmass pupil pp s l).2 l i ≤ (l.rows : K) - 1)
    (hy' : 0 ≤ beamY pupil (beamSize pupil s l) (beamPos airmass pupil pp s l).2 l i + shift / l.pitch
      ∧ beamY pupil (beamSize pupil s l) (beamPos airmass pupil pp s l).2 l i + shift / l.pitch ≤ (l.rows : K) - 1) :
    g px i j - f px i j = q * (shift / l.pitch) := by
  have eq : ∀ (c : K), (if c ≠ 0 then (beamPos airmass pupil pp s l).2 + c * 1 else (beamPos airmass pupil pp s l).2) = (beamPos airmass pupil pp s l).2 + c := by
    intro c
    split_ifs with h
    · ring
    · rw [not_not.1 h, add_zero]
  have by' : ∀ pos c : K, beamY pupil (beamSize pupil s l) (pos + c) l i = beamY pupil (beamSize pupil s l) pos l i + c := by
    intro pos c
    unfold beamY
    ring
  unfold layerInterpShifted at hf hg
  simp only [eq, hrot] at hf hg
  split_ifs at hf hg with h1 h3 <;> simp only [Option.some.injEq, reduceCtorEq] at hf hg
  rw [← hf, ← hg, C53_plane l.rows l.cols h2 h2' _ _ px p q r hpx i j, C53_plane l.rows l.cols h2 h2' _ _ px p q r hpx i j]
  · rw [by', by']
    ring
  all_goals first
    | exact hx.1
    | exact hx.2
    | (simp only [by', zero_div, add_zero]; exact hy.1)
    | (simp only [by', zero_div, add_zero]; exact hy.2)
    | (simp only [by']; exact hy'.1)
    | (simp only [by']; exact hy'.2)

end

/-! Examples. -/

/-- Reference 600 nm, source 500 nm, telescope at 3000 m, layers at 1000 and 5000 m. -/
example : chromaticShift true (Real.pi / 4) 3000 600 500 5000 < chromaticShift true (Real.pi / 4) 3000 600 500 1000 :=
  (C85_direction (Real.pi / 4) (by positivity) (by linarith [Real.pi_pos]) 3000 1000 5000 600 500 (by norm_num) (by norm_num) (by norm_num)
    (by norm_num) (by norm_num) (by norm_num) (Or.inl (by norm_num))).1

/-- 15 um is computed with the table of K, made for 1.3 to 2.5 um. -/
example : (matharBand 15).name = "K" := (C85_bands 15).2.2.2.2.2 (Or.inr (Or.inr (Or.inr (Or.inl ⟨by norm_num, by norm_num⟩))))

end Specula
