import Verif.Props.Masks
import Mathlib.Tactic.NormNum.RealSqrt

/-!
C80: petals of a segmented mirror (`compute_petal_ifunc`).
-/

namespace Specula

section
open Real

/-- The angle of the code is the direction of the pixel plus the offset, up to whole turns, in the first turn. -/
theorem petalTheta_spec (n : Nat) (offset : ℝ) (i j : Nat) :
    (0 ≤ petalTheta n offset i j ∧ petalTheta n offset i j < 2 * π) ∧
    ∃ z : Int, petalTheta n offset i j = Complex.arg ⟨(j : ℝ) - n / 2, (i : ℝ) - n / 2⟩ + offset * π / 180 + 2 * π * z := by
  unfold petalTheta
  dsimp only
  set t := Complex.arg ⟨(j : ℝ) - n / 2, (i : ℝ) - n / 2⟩ + offset * π / 180 + 2 * π with ht
  have hpi : 0 < 2 * π := by positivity
  have h1 := Int.floor_le (t / (2 * π))
  have h2 := Int.lt_floor_add_one (t / (2 * π))
  rw [le_div_iff₀ hpi] at h1
  rw [div_lt_iff₀ hpi] at h2
  refine ⟨⟨by linarith, by linarith⟩, 1 - ⌊t / (2 * π)⌋, ?_⟩
  rw [ht]; push_cast; ring

theorem petalMask_plain (n petals : Nat) (offset : ℝ) (mask : Nat → Nat → Bool) (p i j : Nat) :
    petalMask n petals offset false mask p i j = true ↔
      mask i j = true ∧ p * (2 * π / petals) ≤ petalTheta n offset i j ∧ petalTheta n offset i j < (p + 1) * (2 * π / petals) := by
  unfold petalMask
  simp only [Bool.false_eq_true, and_false, if_false, Bool.and_eq_true, decide_eq_true_eq]
  tauto

theorem petal_index (petals : Nat) (hp : 0 < petals) (t : ℝ) (h0 : 0 ≤ t) (p : Nat) :
    (p * (2 * π / petals) ≤ t ∧ t < (p + 1) * (2 * π / petals)) ↔ p = ⌊t / (2 * π / petals)⌋₊ := by
  have hpp : (0 : ℝ) < petals := by exact_mod_cast hp
  have hpi : 0 < 2 * π / petals := by positivity
  rw [← le_div_iff₀ hpi, ← div_lt_iff₀ hpi, eq_comm, Nat.floor_eq_iff (by positivity)]

/-- **C80** (partition): without the special last petal, every pixel of the mask is in exactly one petal, and no other pixel is in any. -/
theorem C80_partition (n petals : Nat) (hp : 0 < petals) (offset : ℝ) (mask : Nat → Nat → Bool) (i j : Nat) :
    (mask i j = true → ∃! p, p < petals ∧ petalMask n petals offset false mask p i j = true) ∧
    (mask i j = false → ∀ p, petalMask n petals offset false mask p i j = false) := by
  have hpp : (0 : ℝ) < petals := by exact_mod_cast hp
  have hpi : 0 < 2 * π / petals := by positivity
  obtain ⟨⟨h0, h1⟩, -⟩ := petalTheta_spec n offset i j
  refine ⟨fun hm => ⟨⌊petalTheta n offset i j / (2 * π / petals)⌋₊, ⟨?_, ?_⟩, ?_⟩, fun hm p => ?_⟩
  · rw [Nat.floor_lt (by positivity), div_lt_iff₀ hpi]
    have : (petals : ℝ) * (2 * π / petals) = 2 * π := by field_simp
    linarith
  · rw [petalMask_plain]
    exact ⟨hm, (petal_index petals hp _ h0 _).mpr rfl⟩
  · rintro p ⟨-, h⟩
    rw [petalMask_plain] at h
    exact (petal_index petals hp _ h0 _).mp h.2
  · rw [← Bool.not_eq_true, petalMask_plain]
    simp [hm]

/-- **C80** (pistons): moving all petals together is a piston of the whole pupil: at each point the first `petals` modes add to one. -/
theorem C80_pistons (n petals : Nat) (hp : 0 < petals) (offset : ℝ) (mask : Nat → Nat → Bool) (k : Nat) (hk : k < (maskWhere n mask).length) :
    ((petalIfunc n petals offset false false mask).map fun r => r.getD k 0).sum = 1 := by
  unfold petalIfunc
  simp only [Bool.false_eq_true, if_false, List.map_map, Function.comp_def]
  set q := (maskWhere n mask)[k] with hq
  have hm : mask q.1 q.2 = true := (((C79_where n mask).1 q).mp (List.getElem_mem hk)).2.2
  have e : ∀ p, ((maskWhere n mask).map fun q => if petalMask n petals offset false mask p q.1 q.2 then (1 : ℝ) else 0).getD k 0 =
      if petalMask n petals offset false mask p q.1 q.2 then 1 else 0 := fun p => by
    rw [List.getD_eq_getElem?_getD, List.getElem?_map, List.getElem?_eq_getElem hk]
    simp [hq]
  simp only [e]
  obtain ⟨p, ⟨hp1, hp2⟩, hu⟩ := (C80_partition n petals hp offset mask q.1 q.2).1 hm
  have : ((List.range petals).map fun p => if petalMask n petals offset false mask p q.1 q.2 then (1 : ℝ) else 0).sum =
      ∑ p ∈ Finset.range petals, if petalMask n petals offset false mask p q.1 q.2 then (1 : ℝ) else 0 := by
    rfl
  rw [this, Finset.sum_eq_single p]
  · rw [if_pos hp2]
  · intro p' h1 h2
    rw [if_neg]
    intro hc
    exact h2 (hu p' ⟨Finset.mem_range.mp h1, hc⟩)
  · intro h; exact absurd (Finset.mem_range.mpr hp1) h

/-- **C80** (special last petal): the option makes the last petal the whole pupil, so the petals overlap. -/
theorem C80_special (n petals : Nat) (hp : 0 < petals) (offset : ℝ) (mask : Nat → Nat → Bool) (i j : Nat) :
    petalMask n petals offset true mask (petals - 1) i j = mask i j := by
  have hpp : (0 : ℝ) < petals := by exact_mod_cast hp
  obtain ⟨⟨h0, h1⟩, -⟩ := petalTheta_spec n offset i j
  unfold petalMask
  rw [if_pos ⟨by omega, rfl⟩]
  have : petalTheta n offset i j < (((petals - 1 : Nat) : ℝ) + 1) * (2 * π / petals) := by
    rw [Nat.cast_sub hp]
    have : ((petals : ℝ) - (1 : Nat) + 1) * (2 * π / petals) = 2 * π := by push_cast; field_simp; ring
    rw [this]; exact h1
  simp [this]

/-- The angle is determined by its class modulo whole turns. -/
theorem petalTheta_unique (n : Nat) (offset : ℝ) (i j : Nat) (t : ℝ) (h0 : 0 ≤ t) (h1 : t < 2 * π) (z : Int)
    (h : t = Complex.arg ⟨(j : ℝ) - n / 2, (i : ℝ) - n / 2⟩ + offset * π / 180 + 2 * π * z) : petalTheta n offset i j = t := by
  obtain ⟨⟨a0, a1⟩, w, hw⟩ := petalTheta_spec n offset i j
  have e : petalTheta n offset i j - t = 2 * π * ((w - z : Int) : ℝ) := by rw [hw, h]; push_cast; ring
  have hpi : 0 < 2 * π := by positivity
  have b1 : 2 * π * ((w - z : Int) : ℝ) < 2 * π * 1 := by rw [← e]; linarith
  have b2 : 2 * π * (-1) < 2 * π * ((w - z : Int) : ℝ) := by rw [← e]; linarith
  have c1 := lt_of_mul_lt_mul_left b1 hpi.le
  have c2 := lt_of_mul_lt_mul_left b2 hpi.le
  have c1 : w - z < 1 := by exact_mod_cast c1
  have c2 : -1 < w - z := by exact_mod_cast c2
  have : w - z = 0 := by omega
  rw [this] at e
  simp at e
  linarith

/-- **C80** (sectors): petal `p` holds the pixels of the mask in directions from `p` to `p + 1` times a turn over the number of petals, minus
the offset. -/
theorem C80_sector (n petals : Nat) (hp : 0 < petals) (offset : ℝ) (mask : Nat → Nat → Bool) (p : Nat) (hpp : p < petals) (i j : Nat)
    (hm : mask i j = true) (d b : ℝ) (hd : 0 < d) (hx : (j : ℝ) - n / 2 = d * cos b) (hy : (i : ℝ) - n / 2 = d * sin b)
    (h1 : p * (2 * π / petals) - offset * π / 180 ≤ b) (h2 : b < (p + 1) * (2 * π / petals) - offset * π / 180) :
    petalMask n petals offset false mask p i j = true := by
  have hr : (0 : ℝ) < petals := by exact_mod_cast hp
  have hs : 0 < 2 * π / petals := by positivity
  have hps : ((p : ℝ) + 1) * (2 * π / petals) ≤ 2 * π := by
    have h3 : (p : ℝ) + 1 ≤ petals := by exact_mod_cast hpp
    have : ((p : ℝ) + 1) * (2 * π / petals) ≤ petals * (2 * π / petals) := mul_le_mul_of_nonneg_right h3 hs.le
    have e : (petals : ℝ) * (2 * π / petals) = 2 * π := by field_simp
    linarith
  have harg : ∃ z : Int, b = Complex.arg ⟨(j : ℝ) - n / 2, (i : ℝ) - n / 2⟩ + 2 * π * z := by
    have e : (⟨(j : ℝ) - n / 2, (i : ℝ) - n / 2⟩ : ℂ) = (d : ℂ) * (Complex.cos b + Complex.sin b * Complex.I) := by
      rw [← Complex.ofReal_cos, ← Complex.ofReal_sin]
      apply Complex.ext
      · simp [hx, Complex.cos_ofReal_re]
      · simp [hy, Complex.sin_ofReal_re]
    have h3 := Complex.arg_mul_cos_add_sin_mul_I_coe_angle hd (b : Real.Angle)
    rw [Real.Angle.cos_coe, Real.Angle.sin_coe, Complex.ofReal_cos, Complex.ofReal_sin, ← e, eq_comm, Real.Angle.angle_eq_iff_two_pi_dvd_sub] at h3
    obtain ⟨z, hz⟩ := h3
    exact ⟨z, by linarith⟩
  obtain ⟨z, hz⟩ := harg
  have h0 : 0 ≤ b + offset * π / 180 := by
    have : (0 : ℝ) ≤ p * (2 * π / petals) := by positivity
    linarith
  have ht := petalTheta_unique n offset i j (b + offset * π / 180) h0 (by linarith) z (by rw [hz]; ring)
  rw [petalMask_plain, ht]
  exact ⟨hm, by linarith, by linarith⟩

/-- **C80** (spider off the gaps): with an offset between zero and half a petal, the arm `p` of the spider lies inside petal `p`: pixels on
both sides of it, up to twice the offset away, belong to that petal. -/
theorem C80_spider_inside (n petals : Nat) (hp : 0 < petals) (offset : ℝ) (mask : Nat → Nat → Bool) (p : Nat) (hpp : p < petals)
    (h0 : 0 < offset) (h1 : offset < 180 / petals) (i j : Nat) (hm : mask i j = true) (d e : ℝ) (hd : 0 < d)
    (hx : (j : ℝ) - n / 2 = d * cos (armDirection petals offset p + e)) (hy : (i : ℝ) - n / 2 = d * sin (armDirection petals offset p + e))
    (he : |e| < 2 * (offset * π / 180)) (he2 : |e| < 2 * π / petals - 2 * (offset * π / 180)) :
    petalMask n petals offset false mask p i j = true ∧ 0 < 2 * (offset * π / 180) ∧ 0 < 2 * π / petals - 2 * (offset * π / 180) := by
  simp only [← armAngle_eq] at *
  have a1 := abs_lt.mp he
  have a2 := abs_lt.mp he2
  have hpi : 0 < π := pi_pos
  have hr : (0 : ℝ) < petals := by exact_mod_cast hp
  refine ⟨C80_sector n petals hp offset mask p hpp i j hm d _ hd hx hy ?_ ?_, by positivity, ?_⟩
  · unfold armAngle; linarith
  · unfold armAngle
    have : ((p : ℝ) + 1) * (2 * π / petals) = p * (2 * π / petals) + 2 * π / petals := by ring
    rw [this]; linarith
  · rw [lt_div_iff₀ hr] at h1
    have : 2 * π / petals - 2 * (offset * π / 180) = 2 * π / petals * (1 - offset * petals / 180) := by field_simp
    rw [this]
    have : 0 < 1 - offset * petals / 180 := by linarith
    positivity

/-- **C80** (rotation): one petal more of offset renames the petals in turn. -/
theorem C80_rotation (n petals : Nat) (hp : 0 < petals) (offset : ℝ) (mask : Nat → Nat → Bool) (p : Nat) (hpp : p < petals) (i j : Nat) :
    petalMask n petals (offset + 360 / petals) false mask ((p + 1) % petals) i j = petalMask n petals offset false mask p i j := by
  have hr : (0 : ℝ) < petals := by exact_mod_cast hp
  have hs : 0 < 2 * π / petals := by positivity
  have hpi : 0 < 2 * π := by positivity
  have key : ∀ q < petals, petalMask n petals offset false mask q i j = true →
      petalMask n petals (offset + 360 / petals) false mask ((q + 1) % petals) i j = true := fun q hq h => by
    rw [petalMask_plain] at h ⊢
    obtain ⟨hm, b1, b2⟩ := h
    obtain ⟨⟨h0, h1⟩, z, hz⟩ := petalTheta_spec n offset i j
    have eo : (offset + 360 / petals) * π / 180 = offset * π / 180 + 2 * π / petals := by field_simp; ring
    have e1 : ((q : ℝ) + 1 + 1) * (2 * π / petals) = (q + 1) * (2 * π / petals) + 2 * π / petals := by ring
    have e2 : ((q : ℝ) + 1) * (2 * π / petals) = q * (2 * π / petals) + 2 * π / petals := by ring
    rcases Nat.lt_or_ge (q + 1) petals with hlt | hge
    · rw [Nat.mod_eq_of_lt hlt]
      have hb : ((q : ℝ) + 1 + 1) * (2 * π / petals) ≤ 2 * π := by
        have h3 : (q : ℝ) + 1 + 1 ≤ petals := by exact_mod_cast hlt
        have := mul_le_mul_of_nonneg_right h3 hs.le
        have e : (petals : ℝ) * (2 * π / petals) = 2 * π := by field_simp
        linarith
      have ht := petalTheta_unique n (offset + 360 / petals) i j (petalTheta n offset i j + 2 * π / petals) (by linarith) (by linarith) z
        (by rw [hz, eo]; ring)
      rw [ht]
      push_cast
      exact ⟨hm, by linarith, by linarith⟩
    · have hq1 : q + 1 = petals := by omega
      rw [hq1, Nat.mod_self]
      have hq2 : (q : ℝ) + 1 = petals := by exact_mod_cast hq1
      have e : (petals : ℝ) * (2 * π / petals) = 2 * π := by field_simp
      rw [hq2, e] at e2
      have hq0 : (0 : ℝ) ≤ q * (2 * π / petals) := by positivity
      have ht := petalTheta_unique n (offset + 360 / petals) i j (petalTheta n offset i j + 2 * π / petals - 2 * π) (by linarith)
        (by linarith) (z - 1) (by rw [hz, eo]; push_cast; ring)
      rw [ht]
      push_cast
      exact ⟨hm, by linarith, by linarith⟩
  rcases Bool.eq_false_or_eq_true (petalMask n petals offset false mask p i j) with h | h
  · rw [h]; exact key p hpp h
  · rw [h]
    by_contra hc
    have hc : petalMask n petals (offset + 360 / petals) false mask ((p + 1) % petals) i j = true := by simpa using hc
    have hm := ((petalMask_plain ..).mp hc).1
    obtain ⟨q, ⟨hq, hqt⟩, -⟩ := (C80_partition n petals hp offset mask i j).1 hm
    have h2 := key q hq hqt
    obtain ⟨u, -, hu⟩ := (C80_partition n petals hp (offset + 360 / petals) mask i j).1 hm
    have e := (hu _ ⟨Nat.mod_lt _ hp, h2⟩).trans (hu _ ⟨Nat.mod_lt _ hp, hc⟩).symm
    have : q = p := by
      rcases Nat.lt_or_ge (q + 1) petals with h3 | h3 <;> rcases Nat.lt_or_ge (p + 1) petals with h4 | h4
      · rw [Nat.mod_eq_of_lt h3, Nat.mod_eq_of_lt h4] at e; omega
      · rw [Nat.mod_eq_of_lt h3, show p + 1 = petals by omega, Nat.mod_self] at e; omega
      · rw [Nat.mod_eq_of_lt h4, show q + 1 = petals by omega, Nat.mod_self] at e; omega
      · omega
    rw [this, h] at hqt
    exact absurd hqt (by decide)

/-- **C80** (half a pixel): the petals meet half a pixel off the centre of the mask: with two petals on an even frame, half of the pixels
of the middle row and their mirror images about the centre are in the same petal. -/
theorem C80_half_pixel (c : Nat) (mask : Nat → Nat → Bool) (j : Nat) (hj : j < c) (h1 : mask c j = true) (h2 : mask (c - 1) (2 * c - 1 - j) = true) :
    petalMask (2 * c) 2 0 false mask 1 c j = true ∧ petalMask (2 * c) 2 0 false mask 1 (c - 1) (2 * c - 1 - j) = true := by
  have hpi : 0 < π := pi_pos
  have hj' : (j : ℝ) < c := by exact_mod_cast hj
  constructor
  · have ea : Complex.arg ⟨(j : ℝ) - ((2 * c : Nat) : ℝ) / 2, (c : ℝ) - ((2 * c : Nat) : ℝ) / 2⟩ = π := by
      rw [Complex.arg_eq_pi_iff]
      push_cast
      exact ⟨by linarith, by ring⟩
    have ht := petalTheta_unique (2 * c) 0 c j π hpi.le (by linarith) 0 (by rw [ea]; simp)
    rw [petalMask_plain, ht]
    exact ⟨h1, by push_cast; linarith, by push_cast; linarith⟩
  · set A := Complex.arg ⟨((2 * c - 1 - j : Nat) : ℝ) - ((2 * c : Nat) : ℝ) / 2, ((c - 1 : Nat) : ℝ) - ((2 * c : Nat) : ℝ) / 2⟩ with hA
    have hlt : A < 0 := by
      rw [hA, Complex.arg_neg_iff]
      simp only
      rw [Nat.cast_sub (by omega)]
      push_cast; linarith
    have hgt := Complex.neg_pi_lt_arg ⟨((2 * c - 1 - j : Nat) : ℝ) - ((2 * c : Nat) : ℝ) / 2, ((c - 1 : Nat) : ℝ) - ((2 * c : Nat) : ℝ) / 2⟩
    rw [← hA] at hgt
    have ht := petalTheta_unique (2 * c) 0 (c - 1) (2 * c - 1 - j) (A + 2 * π) (by linarith) (by linarith) 1 (by rw [← hA]; simp)
    rw [petalMask_plain, ht]
    exact ⟨h2, by push_cast; linarith, by push_cast; linarith⟩

theorem sum_map_sub_div (l : List ℝ) (c s : ℝ) : (l.map fun x => (x - c) / s).sum = (l.sum - l.length * c) / s := by
  induction l with
  | nil => simp
  | cons x l ih => simp only [List.map_cons, List.sum_cons, ih, List.length_cons]; push_cast; ring

theorem sum_map_div (l : List ℝ) (s : ℝ) : (l.map fun x => x / s).sum = l.sum / s := by
  induction l with
  | nil => simp
  | cons x l ih => simp only [List.map_cons, List.sum_cons, ih]; ring

/-- **C80** (tilts): tip and tilt of a petal vanish outside it, have mean zero on it, and root mean square one unless the coordinate is the
same on the whole petal (then they are zero). -/
theorem C80_tilts (n : Nat) (f : Nat → Nat → ℝ) (m : Nat → Nat → Bool) (hne : maskWhere n m ≠ []) :
    (∀ i j, m i j = false → petalTilt n f m i j = 0) ∧
    listMean ((maskWhere n m).map fun q => petalTilt n f m q.1 q.2) = 0 ∧
    ((∃ q ∈ maskWhere n m, ∃ q' ∈ maskWhere n m, f q.1 q.2 ≠ f q'.1 q'.2) →
      listMean ((maskWhere n m).map fun q => petalTilt n f m q.1 q.2 ^ 2) = 1) ∧
    ((∀ q ∈ maskWhere n m, ∀ q' ∈ maskWhere n m, f q.1 q.2 = f q'.1 q'.2) → ∀ q ∈ maskWhere n m, petalTilt n f m q.1 q.2 = 0) := by
  set vals := (maskWhere n m).map fun q => f q.1 q.2 with hv
  set s : ℝ := if listStd vals = 0 then 1 else listStd vals with hs
  have hlen : vals.length = (maskWhere n m).length := by rw [hv, List.length_map]
  have hpos : 0 < (maskWhere n m).length := List.length_pos_iff.mpr hne
  have hposr : (0 : ℝ) < (maskWhere n m).length := by exact_mod_cast hpos
  have hval : ∀ q ∈ maskWhere n m, petalTilt n f m q.1 q.2 = (f q.1 q.2 - listMean vals) / s := fun q hq => by
    unfold petalTilt
    rw [if_pos (((C79_where n m).1 q).mp hq).2.2]
  have hmean : (vals.length : ℝ) * listMean vals = vals.sum := by
    unfold listMean
    rw [hlen]; field_simp
  have hsq0 : ∀ x ∈ vals.map fun x => (x - listMean vals) ^ 2, 0 ≤ x := fun x hx => by
    obtain ⟨y, -, rfl⟩ := List.mem_map.mp hx; positivity
  have hvar : 0 ≤ listMean (vals.map fun x => (x - listMean vals) ^ 2) := by
    unfold listMean
    exact div_nonneg (List.sum_nonneg hsq0) (Nat.cast_nonneg _)
  refine ⟨fun i j h => by unfold petalTilt; simp [h], ?_, fun hd => ?_, fun hall q hq => ?_⟩
  · rw [List.map_congr_left hval]
    have e : ((maskWhere n m).map fun q => (f q.1 q.2 - listMean vals) / s) = vals.map fun x => (x - listMean vals) / s := by
      rw [hv, List.map_map]; rfl
    rw [e]
    show List.sum _ / _ = (0 : ℝ)
    rw [sum_map_sub_div, hmean, sub_self, zero_div, zero_div]
  · have hstd : listStd vals ≠ 0 := fun h0 => by
      unfold listStd at h0
      rw [sqrt_eq_zero hvar] at h0
      have hsum : (vals.map fun x => (x - listMean vals) ^ 2).sum = 0 := by
        unfold listMean at h0
        rw [div_eq_zero_iff] at h0
        rcases h0 with h0 | h0
        · exact h0
        · rw [List.length_map, hlen] at h0
          exact absurd h0 hposr.ne'
      obtain ⟨q, hq, q', hq', hne'⟩ := hd
      have hz : ∀ q ∈ maskWhere n m, f q.1 q.2 = listMean vals := fun q hq => by
        have hmem : (f q.1 q.2 - listMean vals) ^ 2 ∈ vals.map fun x => (x - listMean vals) ^ 2 :=
          List.mem_map.mpr ⟨f q.1 q.2, List.mem_map.mpr ⟨q, hq, rfl⟩, rfl⟩
        have hle := List.single_le_sum hsq0 _ hmem
        rw [hsum] at hle
        have : f q.1 q.2 - listMean vals = 0 := by
          have := sq_nonneg (f q.1 q.2 - listMean vals)
          exact pow_eq_zero_iff two_ne_zero |>.mp (le_antisymm hle this)
        linarith
      exact hne' (by rw [hz q hq, hz q' hq'])
    have hs' : s = listStd vals := by rw [hs, if_neg hstd]
    have e : ((maskWhere n m).map fun q => petalTilt n f m q.1 q.2 ^ 2) = (vals.map fun x => (x - listMean vals) ^ 2).map fun y => y / s ^ 2 := by
      rw [hv, List.map_map, List.map_map]
      apply List.map_congr_left
      intro q hq
      rw [hval q hq]
      simp only [Function.comp_apply, div_pow, ← hv]
    rw [e]
    show List.sum _ / _ = (1 : ℝ)
    rw [sum_map_div, List.length_map, div_right_comm]
    have hs2 : s ^ 2 = listMean (vals.map fun x => (x - listMean vals) ^ 2) := by
      rw [hs']; unfold listStd; rw [sq_sqrt hvar]
    have e3 : (vals.map fun x => (x - listMean vals) ^ 2).sum / ((vals.map fun x => (x - listMean vals) ^ 2).length : ℝ) = s ^ 2 := by
      rw [hs2]; rfl
    rw [e3, div_self]
    rw [hs']; exact pow_ne_zero 2 hstd
  · rw [hval q hq]
    have hm : listMean vals = f q.1 q.2 := by
      have : vals = List.replicate (maskWhere n m).length (f q.1 q.2) := by
        rw [List.eq_replicate_iff]
        refine ⟨hlen, fun x hx => ?_⟩
        obtain ⟨q', hq', rfl⟩ := List.mem_map.mp hx
        exact hall q' hq' q hq
      rw [this]
      unfold listMean
      rw [List.sum_replicate, List.length_replicate, nsmul_eq_mul]
      field_simp
    rw [hm, sub_self, zero_div]

/-- **C80** (order): tilts come after the pistons, tips of all petals before the tilts; every mode has one value per pixel of the mask. -/
theorem C80_layout (n petals : Nat) (offset : ℝ) (special : Bool) (mask : Nat → Nat → Bool) :
    (petalIfunc n petals offset true special mask).length = 3 * petals ∧
    (petalIfunc n petals offset true special mask).take petals = petalIfunc n petals offset false special mask ∧
    (∀ r ∈ petalIfunc n petals offset true special mask, r.length = (maskWhere n mask).length) ∧
    ∀ p < petals, ∀ k (hk : k < (maskWhere n mask).length),
      ((petalIfunc n petals offset true special mask).getD (petals + p) []).getD k 0 =
        petalTilt n (fun _ j => (j : ℝ) - n / 2) (petalMask n petals offset special mask p) (maskWhere n mask)[k].1 (maskWhere n mask)[k].2 ∧
      ((petalIfunc n petals offset true special mask).getD (2 * petals + p) []).getD k 0 =
        petalTilt n (fun i _ => (i : ℝ) - n / 2) (petalMask n petals offset special mask p) (maskWhere n mask)[k].1 (maskWhere n mask)[k].2 := by
  unfold petalIfunc
  simp only [if_true, Bool.false_eq_true, if_false]
  refine ⟨by simp; omega, by rw [List.append_assoc]; simp, fun r hr => ?_, fun p hp k hk => ⟨?_, ?_⟩⟩
  · simp only [List.mem_append, List.mem_map] at hr
    rcases hr with (⟨p, -, rfl⟩ | ⟨p, -, rfl⟩) | ⟨p, -, rfl⟩ <;> simp
  · rw [List.append_assoc, List.getD_eq_getElem?_getD, List.getD_eq_getElem?_getD, List.getElem?_append_right (by simp), List.getElem?_append_left (by simp; omega)]
    simp [hp, hk]
  · rw [List.getD_eq_getElem?_getD, List.getD_eq_getElem?_getD, List.getElem?_append_right (by simp; omega)]
    have : 2 * petals + p - (petals + petals) = p := by omega
    simp [this, hp, hk]

/-- Two petals on four pixels, all used: pixel (3, 3) is in the first petal and pixel (0, 3) in the second; they are together the pupil. -/
example : petalMask 4 2 0 false (fun _ _ => true) 0 3 3 = true ∧ petalMask 4 2 0 false (fun _ _ => true) 1 2 0 = true ∧
    petalMask 4 2 0 true (fun _ _ => true) 1 3 3 = true := by
  refine ⟨?_, (C80_half_pixel 2 (fun _ _ => true) 0 (by decide) rfl rfl).1, C80_special 4 2 (by decide) 0 _ 3 3⟩
  have h2 : √2 * (√2 / 2) = 1 := by rw [← mul_div_assoc, mul_self_sqrt (by norm_num)]; norm_num
  refine C80_sector 4 2 (by decide) 0 _ 0 (by decide) 3 3 rfl √2 (π / 4) (by positivity) ?_ ?_ ?_ ?_
  · rw [cos_pi_div_four, h2]; norm_num
  · rw [sin_pi_div_four, h2]; norm_num
  · have := pi_pos; push_cast; linarith
  · have := pi_pos; push_cast; linarith

end

end Specula
