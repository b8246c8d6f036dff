import Verif.Model.Fsoc
import Verif.Model.Psf
import Mathlib.Analysis.SpecialFunctions.Trigonometric.Bounds
import Mathlib.Tactic.Linarith
import Mathlib.Tactic.Ring
import Mathlib.Tactic.FieldSimp
/-
C107: free space optical communication.
-/
namespace Specula

/-! ### Specification -/

/-- `θ`, in degrees, is the direction of a wind with components `e1` (sine) and `e2` (cosine). -/
def IsDirection (e1 e2 θ : ℝ) : Prop :=
  Real.sqrt (e1 ^ 2 + e2 ^ 2) * Real.sin (θ * Real.pi / 180) = e1 ∧ Real.sqrt (e1 ^ 2 + e2 ^ 2) * Real.cos (θ * Real.pi / 180) = e2

/-- Speed at which the line of sight to an object at height `H` and speed `v` crosses a layer at height `h`. -/
noncomputable def sweepSpeed (h H v : ℝ) : ℝ := v * h / H

/-! ### Angles and speeds -/

theorem speedLight_pos : 0 < speedLight := by unfold speedLight; norm_num

theorem paa_rad (v : ℝ) : calcPaa v * (Real.pi / (3600 * 180)) = 2 * v / speedLight := by
  unfold calcPaa
  have := Real.pi_pos.ne'
  field_simp

/-- The point ahead angle is twice the speed over the speed of light. -/
theorem C107_paa (v : ℝ) : calcPaa v * (Real.pi / (3600 * 180)) = 2 * v / speedLight := paa_rad v

/-- The speed added at a layer is more than twice the one at which the line of sight crosses it. -/
theorem C107_layer_speed (h H v : ℝ) (hh : 0 < h) (hH : 0 < H) (hv : 0 < v) (hc : 2 * v / speedLight < Real.pi / 2) :
    2 * sweepSpeed h H v < layerSpeed h H v := by
  unfold layerSpeed sweepSpeed
  rw [paa_rad]
  have hl := speedLight_pos
  have h1 : 2 * v / speedLight < Real.tan (2 * v / speedLight) := Real.lt_tan (by positivity) hc
  have h2 : 2 * (v * h / H) = 2 * v / speedLight * h / (H / speedLight) := by field_simp
  rw [h2]
  have h3 : 0 < H / speedLight := by positivity
  exact div_lt_div_of_pos_right (mul_lt_mul_of_pos_right h1 hh) h3

/-- An object that does not move leaves the layers as they are; the speed added is proportional to the height of the layer. -/
theorem C107_layer_speed_linear (h H v k : ℝ) : layerSpeed h H 0 = 0 ∧ layerSpeed (k * h) H v = k * layerSpeed h H v := by
  constructor
  · unfold layerSpeed calcPaa; simp
  · unfold layerSpeed; ring

/-- The effective speed is the length of the sum of the two vectors. -/
theorem C107_wind_speed (h ws wd H v od : ℝ) :
    (effWind h ws wd H v od).1 ^ 2 = ws ^ 2 + layerSpeed h H v ^ 2 + 2 * ws * layerSpeed h H v * Real.cos ((wd - od) * Real.pi / 180) := by
  unfold effWind
  dsimp only
  rw [Real.sq_sqrt (by positivity), show (wd - od) * Real.pi / 180 = wd * Real.pi / 180 - od * Real.pi / 180 by ring, Real.cos_sub]
  unfold effWind1 effWind2
  have h1 := Real.sin_sq_add_cos_sq (wd * Real.pi / 180)
  have h2 := Real.sin_sq_add_cos_sq (od * Real.pi / 180)
  linear_combination ws ^ 2 * h1 + layerSpeed h H v ^ 2 * h2

theorem wind_speed_nonneg (h ws wd H v od : ℝ) : 0 ≤ (effWind h ws wd H v od).1 := Real.sqrt_nonneg _

/-- It is between the difference and the sum of the two speeds. -/
theorem C107_wind_bounds (h ws wd H v od : ℝ) (hw : 0 ≤ ws) (hl : 0 ≤ layerSpeed h H v) :
    |ws - layerSpeed h H v| ≤ (effWind h ws wd H v od).1 ∧ (effWind h ws wd H v od).1 ≤ ws + layerSpeed h H v := by
  have h1 := C107_wind_speed h ws wd H v od
  have h2 := Real.cos_le_one ((wd - od) * Real.pi / 180)
  have h3 := Real.neg_one_le_cos ((wd - od) * Real.pi / 180)
  have h4 : 0 ≤ ws * layerSpeed h H v := mul_nonneg hw hl
  have h0 := wind_speed_nonneg h ws wd H v od
  constructor
  · apply abs_le_of_sq_le_sq _ h0
    rw [h1]; nlinarith
  · apply le_of_sq_le_sq _ (by linarith)
    rw [h1]; nlinarith

/-- Same direction: the speeds add up.  Object still: the wind is left. -/
theorem C107_wind_same (h ws H v od : ℝ) (hw : 0 ≤ ws) (hl : 0 ≤ layerSpeed h H v) :
    (effWind h ws od H v od).1 = ws + layerSpeed h H v ∧ ∀ wd, (effWind h ws wd H 0 od).1 = ws := by
  constructor
  · apply (sq_eq_sq₀ (wind_speed_nonneg _ _ _ _ _ _) (by linarith)).1
    rw [C107_wind_speed]
    simp
    ring
  · intro wd
    apply (sq_eq_sq₀ (wind_speed_nonneg _ _ _ _ _ _) hw).1
    rw [C107_wind_speed, (C107_layer_speed_linear h H v 1).1]
    simp

/-- The direction returned is right only when the wind blows along the positive second axis, or when the second component is exactly 1. -/
theorem C107_direction (h ws wd H v od : ℝ) :
    IsDirection (effWind1 h ws wd H v od) (effWind2 h ws wd H v od) (effWind h ws wd H v od).2 ↔
      (effWind1 h ws wd H v od = 0 ∧ 0 ≤ effWind2 h ws wd H v od) ∨ effWind2 h ws wd H v od = 1 := by
  unfold IsDirection effWind
  dsimp only
  generalize effWind1 h ws wd H v od = x
  generalize effWind2 h ws wd H v od = y
  have e : Real.arctan x * 180 / Real.pi * Real.pi / 180 = Real.arctan x := by
    have := Real.pi_pos.ne'
    field_simp
  rw [e, Real.sin_arctan, Real.cos_arctan]
  have hs : 0 < Real.sqrt (1 + x ^ 2) := Real.sqrt_pos.2 (by positivity)
  have hs2 : Real.sqrt (1 + x ^ 2) ^ 2 = 1 + x ^ 2 := Real.sq_sqrt (by positivity)
  have hr2 : Real.sqrt (x ^ 2 + y ^ 2) ^ 2 = x ^ 2 + y ^ 2 := Real.sq_sqrt (by positivity)
  have hr : 0 ≤ Real.sqrt (x ^ 2 + y ^ 2) := Real.sqrt_nonneg _
  constructor
  · rintro ⟨-, h2⟩
    have hy : 0 ≤ y := by rw [← h2]; positivity
    have h3 : Real.sqrt (x ^ 2 + y ^ 2) = y * Real.sqrt (1 + x ^ 2) := by
      rw [mul_one_div, div_eq_iff hs.ne'] at h2
      exact h2
    have h4 : x ^ 2 * (y ^ 2 - 1) = 0 := by
      have : Real.sqrt (x ^ 2 + y ^ 2) ^ 2 = y ^ 2 * Real.sqrt (1 + x ^ 2) ^ 2 := by rw [h3]; ring
      rw [hr2, hs2] at this
      linarith
    rcases mul_eq_zero.1 h4 with h5 | h5
    · left; exact ⟨pow_eq_zero_iff (two_ne_zero) |>.1 h5, hy⟩
    · right; nlinarith
  · rintro (⟨hx, hy⟩ | hy)
    · subst hx
      have : Real.sqrt (0 ^ 2 + y ^ 2) = y := by simp [Real.sqrt_sq hy]
      rw [this]; simp
    · subst hy
      have : Real.sqrt (x ^ 2 + 1 ^ 2) = Real.sqrt (1 + x ^ 2) := by congr 1; ring
      rw [this]
      constructor <;> field_simp

/-- A wind of 10 m/s from 90 degrees and an object that does not move: the direction returned is not that of the wind. -/
theorem C107_direction_witness : ¬ IsDirection (effWind1 1000 10 90 400000 0 0) (effWind2 1000 10 90 400000 0 0) (effWind 1000 10 90 400000 0 0).2 := by
  rw [C107_direction]
  have h0 : layerSpeed 1000 400000 0 = 0 := (C107_layer_speed_linear 1000 400000 0 1).1
  have h1 : (90 : ℝ) * Real.pi / 180 = Real.pi / 2 := by ring
  have e1 : effWind1 1000 10 90 400000 0 0 = 10 := by unfold effWind1; rw [h0, h1, Real.sin_pi_div_two]; ring
  have e2 : effWind2 1000 10 90 400000 0 0 = 0 := by unfold effWind2; rw [h0, h1, Real.cos_pi_div_two]; ring
  rw [e1, e2]
  norm_num

/-! ### Delays -/

/-- Light goes through the layer at the downlink delay before arriving, and at the uplink delay counted over the way up and down to it:
together they make the way to the object and back; the uplink meets the layer later than the downlink. -/
theorem C107_delays (z H h : ℝ) (hz : |z| < 90) (h0 : 0 ≤ h) (hH : h ≤ H) :
    (linkDelays z H h).1 + (linkDelays z H h).2 = 2 * (H / Real.cos (z / 180 * Real.pi)) / speedLight ∧
    0 ≤ (linkDelays z H h).2 ∧ (linkDelays z H h).2 ≤ (linkDelays z H h).1 ∧
      (linkDelays z H h).1 - (linkDelays z H h).2 = 2 * ((H - h) / Real.cos (z / 180 * Real.pi)) / speedLight := by
  have hp := Real.pi_pos
  have hcos : 0 < Real.cos (z / 180 * Real.pi) := by
    apply Real.cos_pos_of_mem_Ioo
    rw [abs_lt] at hz
    constructor <;> nlinarith
  have hl := speedLight_pos
  unfold linkDelays
  dsimp only
  refine ⟨by field_simp; ring, by positivity, ?_, by field_simp; ring⟩
  apply div_le_div_of_nonneg_right _ hl.le
  apply mul_le_mul_of_nonneg_right (by linarith)
  positivity

/-- Farther from the zenith the delays are longer. -/
theorem C107_delays_zenith (z z' H h : ℝ) (hz : 0 ≤ z) (hzz : z < z') (hz' : z' < 90) (h0 : 0 < h) (hH : h ≤ H) :
    (linkDelays z H h).2 < (linkDelays z' H h).2 ∧ (linkDelays z H h).1 < (linkDelays z' H h).1 := by
  have hp := Real.pi_pos
  have hl := speedLight_pos
  have hcos : 0 < Real.cos (z' / 180 * Real.pi) := by
    apply Real.cos_pos_of_mem_Ioo
    constructor <;> nlinarith
  have hlt : Real.cos (z' / 180 * Real.pi) < Real.cos (z / 180 * Real.pi) := by
    apply Real.cos_lt_cos_of_nonneg_of_le_pi (by positivity) (by nlinarith)
    nlinarith
  have hinv : 1 / Real.cos (z / 180 * Real.pi) < 1 / Real.cos (z' / 180 * Real.pi) := one_div_lt_one_div_of_lt hcos hlt
  unfold linkDelays
  dsimp only
  constructor
  · exact div_lt_div_of_pos_right (mul_lt_mul_of_pos_left hinv h0) hl
  · exact div_lt_div_of_pos_right (mul_lt_mul_of_pos_left hinv (by linarith)) hl

/-! ### Power loss -/

theorem powerLoss_shift (o o' : ℝ × ℝ) (sr sr' k : ℝ) (hk : 0 < k) (hx : 0 < sr / o.2 * o.1) (h : sr' / o'.2 * o'.1 = k * (sr / o.2 * o.1)) :
    powerLoss o' sr' = powerLoss o sr + 10 * Real.logb 10 k := by
  unfold powerLoss
  rw [h, Real.logb_mul hk.ne' hx.ne']
  ring

theorem mkPowerLoss_some (pp : ℕ) (pitch wl : ℝ) (nd : ℤ) (dist diam : ℝ) (o : ℝ × ℝ) (h : mkPowerLoss pp pitch wl nd dist diam = some o) :
    0 < wl ∧ 0 < nd ∧ 0 < dist ∧ 0 < diam ∧ o = (diam, wl * 1e-9 * dist / (pp * nd * pitch)) := by
  unfold mkPowerLoss at h
  split_ifs at h with h1 h2 h3 h4
  exact ⟨not_le.1 h1, not_le.1 h2, not_le.1 h3, not_le.1 h4, (Option.some.inj h).symm⟩

theorem power_pos (pp : ℕ) (pitch wl : ℝ) (nd : ℤ) (dist diam : ℝ) (o : ℝ × ℝ) (sr : ℝ) (hpp : 0 < pp) (hpitch : 0 < pitch) (hsr : 0 < sr)
    (h : mkPowerLoss pp pitch wl nd dist diam = some o) : 0 < sr / o.2 * o.1 := by
  obtain ⟨h1, h2, h3, h4, rfl⟩ := mkPowerLoss_some _ _ _ _ _ _ _ h
  have : (0 : ℝ) < nd := by exact_mod_cast h2
  have : (0 : ℝ) < pp := by exact_mod_cast hpp
  dsimp only
  positivity

/-- Parameters that are not positive are refused, the others accepted. -/
theorem C107_power_accepts (pp : ℕ) (pitch wl : ℝ) (nd : ℤ) (dist diam : ℝ) :
    (mkPowerLoss pp pitch wl nd dist diam).isSome ↔ 0 < wl ∧ 0 < nd ∧ 0 < dist ∧ 0 < diam := by
  constructor
  · intro h
    obtain ⟨o, ho⟩ := Option.isSome_iff_exists.1 h
    obtain ⟨h1, h2, h3, h4, -⟩ := mkPowerLoss_some _ _ _ _ _ _ _ ho
    exact ⟨h1, h2, h3, h4⟩
  · rintro ⟨h1, h2, h3, h4⟩
    unfold mkPowerLoss
    rw [if_neg (not_le.2 h1), if_neg (not_le.2 h2), if_neg (not_le.2 h3), if_neg (not_le.2 h4)]
    rfl

/-- Ten times the Strehl ratio is ten decibel more; a larger ratio is always more. -/
theorem C107_power_flux (pp : ℕ) (pitch wl : ℝ) (nd : ℤ) (dist diam : ℝ) (o : ℝ × ℝ) (sr : ℝ) (hpp : 0 < pp) (hpitch : 0 < pitch) (hsr : 0 < sr)
    (h : mkPowerLoss pp pitch wl nd dist diam = some o) :
    powerLoss o (10 * sr) = powerLoss o sr + 10 ∧ ∀ sr', sr < sr' → powerLoss o sr < powerLoss o sr' := by
  have hp := power_pos pp pitch wl nd dist diam o sr hpp hpitch hsr h
  constructor
  · rw [powerLoss_shift o o sr (10 * sr) 10 (by norm_num) hp (by ring), Real.logb_self_eq_one (by norm_num)]
    ring
  · intro sr' hlt
    unfold powerLoss
    apply mul_lt_mul_of_pos_left _ (by norm_num)
    apply Real.logb_lt_logb (by norm_num) hp
    have h1 : 0 < o.1 / o.2 := by
      have : sr / o.2 * o.1 = sr * (o.1 / o.2) := by ring
      rw [this] at hp
      exact (mul_pos_iff_of_pos_left hsr).1 hp
    have e : ∀ s, s / o.2 * o.1 = s * (o.1 / o.2) := fun s => by ring
    rw [e, e]
    exact mul_lt_mul_of_pos_right hlt h1

/-- Twice the distance costs one factor of two, not four; twice the diameter of the receiver gains one factor of two, not four. -/
theorem C107_power_scaling (pp : ℕ) (pitch wl : ℝ) (nd : ℤ) (dist diam : ℝ) (o : ℝ × ℝ) (sr : ℝ) (hpp : 0 < pp) (hpitch : 0 < pitch) (hsr : 0 < sr)
    (h : mkPowerLoss pp pitch wl nd dist diam = some o) :
    (∀ o', mkPowerLoss pp pitch wl nd (2 * dist) diam = some o' → powerLoss o' sr = powerLoss o sr - 10 * Real.logb 10 2) ∧
      ∀ o', mkPowerLoss pp pitch wl nd dist (2 * diam) = some o' → powerLoss o' sr = powerLoss o sr + 10 * Real.logb 10 2 := by
  have hp := power_pos pp pitch wl nd dist diam o sr hpp hpitch hsr h
  obtain ⟨h1, h2, h3, h4, rfl⟩ := mkPowerLoss_some _ _ _ _ _ _ _ h
  have hnd : (0 : ℝ) < nd := by exact_mod_cast h2
  have hppR : (0 : ℝ) < pp := by exact_mod_cast hpp
  constructor
  · intro o' h'
    obtain ⟨-, -, -, -, rfl⟩ := mkPowerLoss_some _ _ _ _ _ _ _ h'
    rw [powerLoss_shift _ _ sr sr (1 / 2) (by norm_num) hp (by field_simp), one_div, Real.logb_inv]
    ring
  · intro o' h'
    obtain ⟨-, -, -, -, rfl⟩ := mkPowerLoss_some _ _ _ _ _ _ _ h'
    rw [powerLoss_shift _ _ sr sr 2 (by norm_num) hp (by ring)]

/-! ### Reflection -/

/-- A field is reflected into its conjugate, with the same flux; a second reflection gives it back. -/
theorem C107_reflection (e : EF ℝ) : ∃ r, reflectTrigger (reflectSetup e) e = some r ∧ r.rows = e.rows ∧ r.cols = e.cols ∧ r.S0 = e.S0 ∧
    (∀ wl i j, pupilField r.A r.phase wl i j = (starRingEnd ℂ) (pupilField e.A e.phase wl i j)) ∧
      reflectTrigger (reflectSetup r) r = some e := by
  refine ⟨{ reflectSetup e with A := e.A, phase := fun i j => -e.phase i j, S0 := e.S0 }, ?_, rfl, rfl, rfl, ?_, ?_⟩
  · unfold reflectTrigger
    rw [if_pos ⟨rfl, rfl⟩]
  · intro wl i j
    unfold pupilField
    rw [map_mul, Complex.conj_ofReal, ← Complex.exp_conj, map_mul, Complex.conj_I, Complex.conj_ofReal]
    congr 2
    push_cast
    ring
  · unfold reflectTrigger
    rw [if_pos ⟨rfl, rfl⟩]
    congr 1
    cases e
    simp [reflectSetup, efResize, efReset]

/-! ### Examples -/

/-- A satellite at 400 km and 7.6 km/s. -/
example : 2 * (7600 : ℝ) / speedLight < Real.pi / 2 := by
  have := Real.two_le_pi
  unfold speedLight
  norm_num
  linarith

/-- A link to it is accepted. -/
example : (mkPowerLoss 160 0.05 1550 4 400000 0.1).isSome := by
  rw [C107_power_accepts]; norm_num

end Specula
