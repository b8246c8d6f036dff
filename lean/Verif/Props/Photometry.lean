import Mathlib.Tactic.Ring
import Mathlib.Tactic.FieldSimp
import Mathlib.Tactic.Linarith
import Mathlib.Tactic.NormNum
import Mathlib.Tactic.IntervalCases
import Verif.Model.Photometry

/-!
# C84: photons of a source
-/

namespace Specula

/-- `k` is the first index of the least value. -/
def IsFirstMin (v : List ℚ) (k : Nat) : Prop :=
  k < v.length ∧ (∀ j, j < k → v.getD k 0 < v.getD j 0) ∧ ∀ j, j < v.length → v.getD k 0 ≤ v.getD j 0

theorem isFirstMin_unique (v : List ℚ) (a b : Nat) (ha : IsFirstMin v a) (hb : IsFirstMin v b) : a = b := by
  rcases Nat.lt_trichotomy a b with h | h | h
  · exact absurd (hb.2.1 a h) (not_lt.2 (ha.2.2 b hb.1))
  · exact h
  · exact absurd (ha.2.1 b h) (not_lt.2 (hb.2.2 a ha.1))

theorem firstMin_spec (v : List ℚ) (h : v ≠ []) : ∃ k, firstMin v = some k ∧ IsFirstMin v k := by
  induction v with
  | nil => exact absurd rfl h
  | cons x l ih =>
    cases l with
    | nil =>
      refine ⟨0, rfl, by simp, fun j hj => absurd hj (by omega), fun j hj => ?_⟩
      have : j = 0 := by simp at hj; omega
      rw [this]
    | cons y l =>
      obtain ⟨k, hk, h1, h2, h3⟩ := ih (by simp)
      simp only [firstMin, hk]
      by_cases hx : x ≤ (y :: l).getD k 0
      · refine ⟨0, by rw [if_pos hx], by simp, fun j hj => absurd hj (by omega), fun j hj => ?_⟩
        cases j with
        | zero => exact le_refl _
        | succ j =>
          rw [List.getD_cons_zero, List.getD_cons_succ]
          exact le_trans hx (h3 j (by simpa using hj))
      · refine ⟨k + 1, by rw [if_neg hx], by simpa using h1, fun j hj => ?_, fun j hj => ?_⟩
        · cases j with
          | zero => simpa using hx
          | succ j =>
            rw [List.getD_cons_succ, List.getD_cons_succ]
            exact h2 j (by omega)
        · cases j with
          | zero => simpa using le_of_lt (not_le.1 hx)
          | succ j =>
            rw [List.getD_cons_succ, List.getD_cons_succ]
            exact h3 j (by simpa using hj)

theorem firstMin_iff (v : List ℚ) (k : Nat) : firstMin v = some k ↔ IsFirstMin v k := by
  constructor
  · intro h
    have : v ≠ [] := by rintro rfl; simp [firstMin] at h
    obtain ⟨k', h1, h2⟩ := firstMin_spec v this
    rw [h1, Option.some.injEq] at h
    rwa [← h]
  · intro h
    have : v ≠ [] := by rintro rfl; simp [IsFirstMin] at h
    obtain ⟨k', h1, h2⟩ := firstMin_spec v this
    rw [h1, isFirstMin_unique v k k' h h2]

theorem getD_absDiff (x : List ℚ) (l : ℚ) (j : Nat) (hj : j < x.length) :
    (x.map (fun y => |y - l|)).getD j 0 = |x.getD j 0 - l| := by
  simp [List.getD_eq_getElem?_getD, hj]

/-- In an increasing table the nearest entry is the one whose wavelength is between the midpoints with its neighbours; at a midpoint it is the
shorter of the two. -/
theorem nearest_midpoints (x : List ℚ) (hx : ∀ i j, i < j → j < x.length → x.getD i 0 < x.getD j 0) (l : ℚ) (k : Nat) :
    firstMin (x.map (fun y => |y - l|)) = some k ↔
      k < x.length ∧ (∀ j, j + 1 = k → (x.getD j 0 + x.getD k 0) / 2 < l) ∧ (k + 1 < x.length → l ≤ (x.getD k 0 + x.getD (k + 1) 0) / 2) := by
  rw [firstMin_iff]
  unfold IsFirstMin
  rw [List.length_map]
  constructor
  · rintro ⟨h1, h2, h3⟩
    refine ⟨h1, fun j hj => ?_, fun hk => ?_⟩
    · have := h2 j (by omega)
      rw [getD_absDiff x l k h1, getD_absDiff x l j (by omega)] at this
      have hlt := hx j k (by omega) h1
      rcases abs_cases (x.getD k 0 - l) with ⟨e1, _⟩ | ⟨e1, _⟩ <;> rcases abs_cases (x.getD j 0 - l) with ⟨e2, _⟩ | ⟨e2, _⟩ <;> rw [e1, e2] at this <;> linarith
    · have := h3 (k + 1) hk
      rw [getD_absDiff x l k h1, getD_absDiff x l (k + 1) hk] at this
      have hlt := hx k (k + 1) (by omega) hk
      rcases abs_cases (x.getD k 0 - l) with ⟨e1, _⟩ | ⟨e1, _⟩ <;> rcases abs_cases (x.getD (k + 1) 0 - l) with ⟨e2, _⟩ | ⟨e2, _⟩ <;> rw [e1, e2] at this <;> linarith
  · rintro ⟨h1, h2, h3⟩
    have below : ∀ j, j < k → |x.getD k 0 - l| < |x.getD j 0 - l| := by
      intro j hj
      have hm := h2 (k - 1) (by omega)
      have hle : x.getD j 0 ≤ x.getD (k - 1) 0 := by
        rcases Nat.lt_or_ge j (k - 1) with h | h
        · exact le_of_lt (hx j (k - 1) h (by omega))
        · rw [show j = k - 1 by omega]
      have hlt := hx j k hj h1
      rcases abs_cases (x.getD k 0 - l) with ⟨e1, _⟩ | ⟨e1, _⟩ <;> rcases abs_cases (x.getD j 0 - l) with ⟨e2, _⟩ | ⟨e2, _⟩ <;> rw [e1, e2] <;> linarith
    refine ⟨h1, fun j hj => ?_, fun j hj => ?_⟩
    · rw [getD_absDiff x l k h1, getD_absDiff x l j (by omega)]
      exact below j hj
    · rw [getD_absDiff x l k h1, getD_absDiff x l j hj]
      rcases Nat.lt_trichotomy j k with h | h | h
      · exact le_of_lt (below j h)
      · rw [h]
      · have hm := h3 (by omega)
        have hle : x.getD (k + 1) 0 ≤ x.getD j 0 := by
          rcases Nat.lt_or_ge (k + 1) j with h' | h'
          · exact le_of_lt (hx (k + 1) j h' hj)
          · rw [show j = k + 1 by omega]
        have hlt := hx k j h hj
        rcases abs_cases (x.getD k 0 - l) with ⟨e1, _⟩ | ⟨e1, _⟩ <;> rcases abs_cases (x.getD j 0 - l) with ⟨e2, _⟩ | ⟨e2, _⟩ <;> rw [e1, e2] <;> linarith

theorem lamSorted_getD (x : List ℚ) (h : x.Pairwise (· < ·)) (i j : Nat) (hij : i < j) (hj : j < x.length) : x.getD i 0 < x.getD j 0 := by
  have := (List.pairwise_iff_getElem.1 h) i j (by omega) hj hij
  rw [List.getD_eq_getElem?_getD, List.getD_eq_getElem?_getD, List.getElem?_eq_getElem hj, List.getElem?_eq_getElem (by omega : i < x.length)]
  simpa using this

/-- Limits in metres between the bands U, B, V, R, I, J, H, K, L and M of the default model. -/
def bandLimits : List ℚ := [0.40, 0.495, 0.625, 0.80, 1.075, 1.45, 1.925, 2.80, 4.20].map (· / 10 ^ 6)

/-- **C84** (band from wavelength): outside 0.1 nm around the sodium line the band of the default model is the one in whose limits the wavelength
lies, limits belonging to the shorter band; the first and the last band have no limit below and above. -/
theorem C84_nearest (l : ℚ) (hna : ¬ |l - 0.589 / 10 ^ 6| < 0.0001 / 10 ^ 6) (k : Nat) :
    photBand "default" photDefault none (some l) = some (k, l) ↔
      k < 10 ∧ (∀ j, j + 1 = k → bandLimits.getD j 0 < l) ∧ (k < 9 → l ≤ bandLimits.getD k 0) := by
  have e : photBand "default" photDefault none (some l) = some (k, l) ↔
      firstMin ((photDefault.lambda.dropLast).map (fun x => |x - l|)) = some k := by
    unfold photBand
    simp only [hna, false_and, if_false]
    cases firstMin ((photDefault.lambda.dropLast).map (fun x => |x - l|)) <;> simp
  rw [e, nearest_midpoints _ (fun i j => lamSorted_getD _ (by decide +kernel) i j)]
  have hlen : photDefault.lambda.dropLast.length = 10 := by decide
  have hmid : ∀ j, j < 9 → (photDefault.lambda.dropLast.getD j 0 + photDefault.lambda.dropLast.getD (j + 1) 0) / 2 = bandLimits.getD j 0 := by
    intro j hj
    interval_cases j <;> norm_num [photDefault, bandLimits]
  rw [hlen]
  refine and_congr_right (fun hk => and_congr ⟨fun h j hj => ?_, fun h j hj => ?_⟩ ⟨fun h h9 => ?_, fun h h9 => ?_⟩)
  · have := h j hj
    rwa [← hj, hmid j (by omega)] at this
  · have := h j hj
    rwa [← hj, hmid j (by omega)]
  · have := h (by omega)
    rwa [hmid k h9] at this
  · rw [hmid k (by omega)]
    exact h (by omega)

/-- **C84** (sodium): within 0.1 nm of 589 nm the default model uses its sodium band. -/
theorem C84_sodium (l : ℚ) (hna : |l - 0.589 / 10 ^ 6| < 0.0001 / 10 ^ 6) :
    photBand "default" photDefault none (some l) = some (10, l) ∧ photDefault.bands.getD 10 "" = "Na" := by
  refine ⟨?_, rfl⟩
  have hb := abs_lt.1 hna
  have : firstMin ((photDefault.lambda).map (fun x => |x - l|)) = some 10 := by
    rw [firstMin_iff]
    have hlen : photDefault.lambda.length = 11 := by decide
    have h10 : photDefault.lambda.getD 10 0 = 0.589 / 10 ^ 6 := by norm_num [photDefault]
    have far : ∀ j, j < 10 → (photDefault.lambda.map (fun x => |x - l|)).getD 10 0 < (photDefault.lambda.map (fun x => |x - l|)).getD j 0 := by
      intro j hj
      rw [getD_absDiff _ _ _ (by omega), getD_absDiff _ _ _ (by omega), h10, abs_sub_comm]
      refine lt_of_lt_of_le hna ?_
      interval_cases j <;> norm_num [photDefault] <;> norm_num at hb <;>
        first
        | (rw [le_abs]; left; linarith)
        | (rw [le_abs]; right; linarith)
    refine ⟨by simp [hlen], fun j hj => far j hj, fun j hj => ?_⟩
    rw [List.length_map, hlen] at hj
    rcases Nat.lt_or_ge j 10 with h | h
    · exact le_of_lt (far j h)
    · rw [show j = 10 by omega]
  unfold photBand
  simp only [hna, true_and]
  rw [if_pos (by decide), this]
  rfl

/-- **C84** (MAORY): in the other model every wavelength from 1.45 µm on gets band H: K is never chosen. -/
theorem C84_maory (l : ℚ) (hl : 1.45 / 10 ^ 6 < l) :
    photBand "MAORY-1" photMaory none (some l) = some (4, l) ∧ photMaory.bands.getD 4 "" = "H"
    ∧ ∀ l' : ℚ, photBand "MAORY-1" photMaory none (some l') ≠ some (photMaory.bands.idxOf "K", l') := by
  have e : ∀ (l : ℚ) (k : Nat), photBand "MAORY-1" photMaory none (some l) = some (k, l) ↔
      firstMin ((photMaory.lambda.dropLast).map (fun x => |x - l|)) = some k := by
    intro l k
    unfold photBand
    simp only [ne_eq, not_true_eq_false, and_false, if_false]
    cases firstMin ((photMaory.lambda.dropLast).map (fun x => |x - l|)) <;> simp
  have hlen : photMaory.lambda.dropLast.length = 5 := by decide
  have hs : ∀ i j, i < j → j < photMaory.lambda.dropLast.length → photMaory.lambda.dropLast.getD i 0 < photMaory.lambda.dropLast.getD j 0 :=
    fun i j => lamSorted_getD _ (by decide +kernel) i j
  refine ⟨?_, rfl, ?_⟩
  · rw [e, nearest_midpoints _ hs, hlen]
    refine ⟨by omega, fun j hj => ?_, fun h => absurd h (by omega)⟩
    have : j = 3 := by omega
    subst this
    norm_num [photMaory]
    norm_num at hl
    linarith
  · intro l' h
    have hk : photMaory.bands.idxOf "K" = 5 := by decide
    rw [hk, e, nearest_midpoints _ hs, hlen] at h
    omega

/-- **C84** (band by name): the table entry of that name is used, with the given wavelength if there is one; other names raise. In the MAORY
model "J" raises. -/
theorem C84_named (model : String) (m : PhotModel) (b : String) (l : Option ℚ) :
    (b ∉ m.bands → photBand model m (some b) l = none)
    ∧ (b ∈ m.bands → ∃ k lam, photBand model m (some b) l = some (k, lam) ∧ m.bands[k]? = some b ∧ (∀ j, j < k → m.bands[j]? ≠ some b)
        ∧ (∀ x, l = some x → lam = x) ∧ (l = none → lam = m.lambda.getD k 0))
    ∧ "J" ∉ photMaory.bands ∧ "J" ∈ photDefault.bands := by
  refine ⟨fun h => by simp [photBand, h], fun h => ?_, by decide, by decide⟩
  refine ⟨m.bands.idxOf b, l.getD (m.lambda.getD (m.bands.idxOf b) 0), by simp [photBand, h], ?_, ?_, ?_, ?_⟩
  · rw [List.getElem?_eq_getElem (List.idxOf_lt_length_iff.2 h), List.getElem_idxOf]
  · intro j hj hc
    have := List.idxOf_lt_length_iff.2 h
    rw [List.getElem?_eq_getElem (by omega : j < m.bands.length), Option.some.injEq] at hc
    have := List.not_of_lt_findIdx (p := (· == b)) (xs := m.bands) (i := j) hj
    simp [hc] at this
  · rintro x rfl; rfl
  · rintro rfl; rfl

/-- **C84** (surface and time): photons of source and background grow in proportion to the surface and to the integration time. -/
theorem C84_linear (a : PhotArgs) (s t : ℚ) :
    nPhot { a with surf := s * a.surf, deltaT := t * a.deltaT } = (nPhot a).map (fun r => (((s * t : ℚ) : ℝ) * r.1, ((s * t : ℚ) : ℝ) * r.2)) := by
  unfold nPhot
  cases photModel a.model with
  | none => rfl
  | some m =>
    cases h : photBand a.model m a.band a.lambda with
    | none => simp [h]
    | some r =>
      simp only [Option.bind_some, h, Option.map_some, Option.some.injEq, Prod.mk.injEq, photCount]
      push_cast
      constructor <;> ring

theorem photCount_mag (l t s w e m d : ℚ) : photCount l t s w e (m + d) = photCount l t s w e m * (10 : ℝ) ^ ((-d / 2.5 : ℚ) : ℝ) := by
  unfold photCount
  rw [mul_assoc (Rat.cast _ : ℝ), ← Real.rpow_add (by norm_num)]
  congr 2
  push_cast
  ring

/-- **C84** (magnitudes): five magnitudes more are a hundredth of the photons; the background does not change. -/
theorem C84_magnitudes (a : PhotArgs) :
    nPhot { a with mag := a.mag + 5 } = (nPhot a).map (fun r => (r.1 / 100, r.2)) := by
  unfold nPhot
  cases photModel a.model with
  | none => rfl
  | some m =>
    cases h : photBand a.model m a.band a.lambda with
    | none => simp [h]
    | some r =>
      simp only [Option.bind_some, h, Option.map_some, Option.some.injEq, Prod.mk.injEq, and_true, photCount_mag]
      rw [show ((-5 / 2.5 : ℚ) : ℝ) = -(2 : ℕ) by norm_num, Real.rpow_neg (by norm_num), Real.rpow_natCast]
      norm_num
      ring

/-- **C84** (fainter): a larger magnitude gives fewer photons, whenever the source gives any. -/
theorem C84_fainter (a : PhotArgs) (mag : ℚ) (hm : a.mag < mag) (n b n' b' : ℝ) (h : nPhot a = some (n, b))
    (h' : nPhot { a with mag := mag } = some (n', b')) (hn : 0 < n) : 0 < n' ∧ n' < n := by
  unfold nPhot at h h'
  cases hmod : photModel a.model with
  | none => simp [hmod] at h
  | some m =>
    cases hb : photBand a.model m a.band a.lambda with
    | none => simp [hmod, hb] at h
    | some r =>
      simp only [hmod, Option.bind_some, hb, Option.map_some, Option.some.injEq, Prod.mk.injEq] at h h'
      rw [← h'.1, show mag = a.mag + (mag - a.mag) by ring, photCount_mag, h.1]
      have hneg : ((-(mag - a.mag) / 2.5 : ℚ) : ℝ) < 0 := by
        have : (-(mag - a.mag) / 2.5 : ℚ) < 0 := div_neg_of_neg_of_pos (by linarith) (by norm_num)
        exact_mod_cast this
      have h1 : (10 : ℝ) ^ ((-(mag - a.mag) / 2.5 : ℚ) : ℝ) < 1 := Real.rpow_lt_one_of_one_lt_of_neg (by norm_num) hneg
      have h2 : 0 < (10 : ℝ) ^ ((-(mag - a.mag) / 2.5 : ℚ) : ℝ) := Real.rpow_pos_of_pos (by norm_num) _
      exact ⟨mul_pos hn h2, by nlinarith⟩

/-- **C84** (background): the photons of the background are those of a source with its magnitude. -/
theorem C84_background (a : PhotArgs) (bm : ℚ) (hb : a.back = some bm) :
    (nPhot a).map (·.2) = (nPhot { a with mag := bm }).map (·.1) := by
  unfold nPhot
  cases photModel a.model with
  | none => rfl
  | some m =>
    cases h : photBand a.model m a.band a.lambda with
    | none => simp [h]
    | some r => simp [h, hb]

/-- **C84** (density): the flux of a source exists exactly when its band is empty or known; it is that of n_phot for one square metre, one second
and one nanometre, so it is proportional to the zero point when this is positive, and a zero point that is zero or negative is ignored. -/
theorem C84_density (mag wl zp : ℚ) (band : String) :
    ((photDensity mag wl zp band).isSome ↔ band = "" ∨ band ∈ photDefault.bands)
    ∧ (∀ c : ℚ, 0 < c → 0 < zp → photDensity mag wl (c * zp) band = (photDensity mag wl zp band).map (fun x => (c : ℝ) * x))
    ∧ (zp ≤ 0 → photDensity mag wl zp band = photDensity mag wl 0 band) := by
  have hm : photModel "default" = some photDefault := rfl
  refine ⟨?_, ?_, ?_⟩
  · unfold photDensity nPhot
    simp only [hm, Option.bind_some, Option.isSome_map]
    by_cases hb : band = ""
    · simp only [hb, if_true, true_or, iff_true]
      unfold photBand
      simp only
      have hne : ∀ x : ℚ, (if |x - 0.589 / 10 ^ 6| < 0.0001 / 10 ^ 6 ∧ "default" ≠ "MAORY-1" then photDefault.lambda else photDefault.lambda.dropLast).map
          (fun y => |y - x|) ≠ [] := by
        intro x
        split_ifs <;> simp [photDefault]
      obtain ⟨k, hk, _⟩ := firstMin_spec _ (hne (wl / 10 ^ 9))
      rw [hk]
      rfl
    · rw [if_neg hb]
      by_cases hmem : band ∈ photDefault.bands
      · simp [photBand, hmem]
      · simp [photBand, hmem, hb]
  · intro c hc hz
    unfold photDensity nPhot
    simp only [hm, Option.bind_some, if_pos hz, if_pos (mul_pos hc hz)]
    cases photBand "default" photDefault (if band = "" then none else some band) (some (wl / 10 ^ 9)) with
    | none => rfl
    | some r =>
      simp only [Option.map_some, Option.some.injEq, photCount, Option.getD_some]
      push_cast
      ring
  · intro hz
    unfold photDensity
    rw [if_neg (not_lt.2 hz), if_neg (lt_irrefl _)]

/-- **C84** (table): in the default model naming a band is the same as giving its wavelength; in the MAORY model this fails for band K. -/
theorem C84_table :
    (∀ k, k < 11 → photBand "default" photDefault (some (photDefault.bands.getD k "")) none
        = photBand "default" photDefault none (some (photDefault.lambda.getD k 0)))
    ∧ photBand "MAORY-1" photMaory (some "K") none ≠ photBand "MAORY-1" photMaory none (some (photMaory.lambda.getD 5 0)) := by
  constructor
  · decide +kernel
  · decide +kernel

/-! Examples. -/

/-- 750 nm is taken as R, 900 nm as I. -/
example : photBand "default" photDefault none (some (750 / 10 ^ 9)) = some (3, 750 / 10 ^ 9) := by decide +kernel
example : photBand "default" photDefault none (some (589.05 / 10 ^ 9)) = some (10, 589.05 / 10 ^ 9) := by decide +kernel
/-- 2.2 µm, the centre of K, is taken as H in the MAORY model. -/
example : photBand "MAORY-1" photMaory none (some (2.2 / 10 ^ 6)) = some (4, 2.2 / 10 ^ 6) := by decide +kernel

/-- Source of magnitude 10 in band R at 750 nm. -/
example : ∃ n b, nPhot { mag := 10, band := some "R", lambda := some (750 / 10 ^ 9), width := some (1 / 10 ^ 9) } = some (n, b) ∧ 0 < n := by
  refine ⟨_, _, by simp only [nPhot, photModel, if_true, Option.bind_some]; rw [photBand, if_pos (by decide)]; rfl, ?_⟩
  refine mul_pos ?_ (Real.rpow_pos_of_pos (by norm_num) _)
  have : photDefault.e0.getD (photDefault.bands.idxOf "R") 0 = 176 / 10 ^ 10 := by decide +kernel
  simp only [Option.getD_none, Option.getD_some, this]
  norm_num

end Specula
