import Verif.Model.ImageView
import Mathlib.Algebra.Order.Field.Rat
import Mathlib.Algebra.BigOperators.Intervals
import Mathlib.Tactic.Ring
import Mathlib.Tactic.Linarith
import Mathlib.Tactic.NormNum
import Mathlib.Tactic.FieldSimp
import Mathlib.Tactic.Positivity
/-
C122: what the image displays put on the screen.
-/
namespace Specula

/-! ### Specification -/

section
variable {α : Type}

/-- `out` shows the pixels of `img` with `X0 ≤ x < X1` and `Y0 ≤ y < Y1`, in order. -/
def ShowsWindow (img out : List (List α)) (X0 X1 Y0 Y1 : ℕ) : Prop :=
  out.length = Y1 - Y0 ∧ (∀ r ∈ out, r.length = X1 - X0) ∧
    ∀ i j : ℕ, i < Y1 - Y0 → j < X1 - X0 →
      ((out[i]?).bind fun r => r[j]?) = ((img[Y0 + i]?).bind fun r => r[X0 + j]?)

/-- Position meant by a bound: counted from the end if negative, then moved to the nearest position in the image. -/
def IsBound (n : ℕ) (a : ℤ) (b : ℕ) : Prop :=
  b ≤ n ∧ ((0 ≤ a → a ≤ n → (b : ℤ) = a) ∧ (n < a → b = n) ∧ (a < 0 → -n ≤ a → (b : ℤ) = n + a) ∧ (a < -n → b = 0))

end

/-! ### Lemmas -/

section
variable {α : Type}

theorem pyBound_isBound (n : ℕ) (a : ℤ) : IsBound n a (pyBound n a) := by
  unfold IsBound pyBound
  split <;> refine ⟨by omega, ?_, ?_, ?_, ?_⟩ <;> intros <;> omega

theorem IsBound.unique {n : ℕ} {a : ℤ} {b c : ℕ} (h : IsBound n a b) (h' : IsBound n a c) : b = c := by
  unfold IsBound at h h'
  omega

theorem pyBound_crop (n : ℕ) (a : ℤ) : pyBound n (cropBound n a) = pyBound n a := by
  unfold pyBound cropBound
  dsimp only
  split <;> split <;> omega

theorem pySlice_length (l : List α) (a b : ℤ) : (pySlice l a b).length = pyBound l.length b - pyBound l.length a := by
  have := (pyBound_isBound l.length b).1
  simp only [pySlice, List.length_drop, List.length_take]
  omega

theorem pySlice_get (l : List α) (a b : ℤ) (i : ℕ) (h : i < pyBound l.length b - pyBound l.length a) :
    (pySlice l a b)[i]? = l[pyBound l.length a + i]? := by
  simp only [pySlice, List.getElem?_drop, List.getElem?_take]
  rw [if_pos (by omega)]

theorem pySlice_subset (l : List α) (a b : ℤ) : ∀ x ∈ pySlice l a b, x ∈ l :=
  fun _ hx => List.mem_of_mem_take (List.mem_of_mem_drop hx)

theorem pySlice2_window (w : ℕ) (img : List (List α)) (hw : ∀ r ∈ img, r.length = w) (x0 x1 y0 y1 : ℤ) :
    ShowsWindow img (pySlice2 img x0 x1 y0 y1) (pyBound w x0) (pyBound w x1) (pyBound img.length y0) (pyBound img.length y1) := by
  refine ⟨by simp [pySlice2, pySlice_length], ?_, ?_⟩
  · intro r hr
    obtain ⟨q, hq, rfl⟩ := List.mem_map.1 hr
    rw [pySlice_length, hw q (pySlice_subset _ _ _ q hq)]
  · intro i j hi hj
    simp only [pySlice2, List.getElem?_map]
    rw [pySlice_get img y0 y1 i hi]
    cases hq : img[pyBound img.length y0 + i]? with
    | none => rfl
    | some q =>
      have hl := hw q (List.mem_of_getElem? hq)
      simp only [Option.map_some, Option.bind_some]
      rw [pySlice_get q x0 x1 j (by rw [hl]; exact hj), hl]

end

/-! ### Crop -/

section
variable {α : Type}

/-- C122, mode `slice`: the crop shows exactly the window of the bounds given, whichever way these are written. -/
theorem C122_crop_slice (w : ℕ) (img : List (List α)) (hw : ∀ r ∈ img, r.length = w) (x0 x1 y0 y1 : ℤ) (X0 X1 Y0 Y1 : ℕ)
    (hx0 : IsBound w x0 X0) (hx1 : IsBound w x1 X1) (hy0 : IsBound img.length y0 Y0) (hy1 : IsBound img.length y1 Y1) :
    ShowsWindow img (cropSlice w img x0 x1 y0 y1) X0 X1 Y0 Y1 := by
  have h := pySlice2_window w img hw (cropBound w x0) (cropBound w x1) (cropBound img.length y0) (cropBound img.length y1)
  simp only [pyBound_crop] at h
  rw [hx0.unique (pyBound_isBound _ _), hx1.unique (pyBound_isBound _ _), hy0.unique (pyBound_isBound _ _), hy1.unique (pyBound_isBound _ _)]
  exact h

/-- C122: the two displays with a crop agree in mode `slice`. -/
theorem C122_crop_agree (w : ℕ) (img : List (List α)) (hw : ∀ r ∈ img, r.length = w) (x0 x1 y0 y1 : ℤ) :
    cropSlice w img x0 x1 y0 y1 = pySlice2 img x0 x1 y0 y1 := by
  unfold cropSlice pySlice2
  have e : pySlice img (cropBound img.length y0) (cropBound img.length y1) = pySlice img y0 y1 := by
    simp only [pySlice, pyBound_crop]
  rw [e]
  refine List.map_congr_left fun r hr => ?_
  have hl := hw r (pySlice_subset _ _ _ r hr)
  simp only [pySlice, hl, pyBound_crop]

/-- C122, mode `center`: if the window does not end before the image begins, exactly its pixels inside the image are shown. -/
theorem C122_crop_center (w : ℕ) (img : List (List α)) (hw : ∀ r ∈ img, r.length = w) (cx cy dx dy : ℤ)
    (hx : 0 ≤ cx + dx) (hy : 0 ≤ cy + dy) (X0 X1 Y0 Y1 : ℕ)
    (hX0 : ∀ x : ℕ, x < w → (X0 ≤ x ↔ cx - dx ≤ x)) (hX0w : X0 ≤ w)
    (hX1 : ∀ x : ℕ, x < w → (x < X1 ↔ (x : ℤ) < cx + dx)) (hX1w : X1 ≤ w)
    (hY0 : ∀ y : ℕ, y < img.length → (Y0 ≤ y ↔ cy - dy ≤ y)) (hY0h : Y0 ≤ img.length)
    (hY1 : ∀ y : ℕ, y < img.length → (y < Y1 ↔ (y : ℤ) < cy + dy)) (hY1h : Y1 ≤ img.length) :
    ShowsWindow img (cropCenter w img cx cy dx dy) X0 X1 Y0 Y1 := by
  have lowB : ∀ (n : ℕ) (a : ℤ) (X : ℕ), (∀ x : ℕ, x < n → (X ≤ x ↔ a ≤ x)) → X ≤ n → pyBound n (max 0 a) = X := by
    intro n a X h hX
    have e : pyBound n (max 0 a) = min (max 0 a).toNat n := by
      unfold pyBound; rw [if_neg (by omega)]
    rw [e]
    by_contra hne
    rcases Nat.lt_or_gt_of_ne hne with hlt | hgt
    · have := (h (min (max 0 a).toNat n) (by omega)).2 (by omega)
      omega
    · have := (h X (by omega)).1 le_rfl
      omega
  have upB : ∀ (n : ℕ) (a : ℤ) (X : ℕ), 0 ≤ a → (∀ x : ℕ, x < n → (x < X ↔ (x : ℤ) < a)) → X ≤ n → pyBound n (min n a) = X := by
    intro n a X ha h hX
    have e : pyBound n (min n a) = min (min (n : ℤ) a).toNat n := by
      unfold pyBound; rw [if_neg (by omega)]
    rw [e]
    by_contra hne
    rcases Nat.lt_or_gt_of_ne hne with hlt | hgt
    · have := (h (min (min (n : ℤ) a).toNat n) (by omega)).1 (by omega)
      omega
    · have := (h X (by omega)).2 (by omega)
      omega
  have h := pySlice2_window w img hw (max 0 (cx - dx)) (min w (cx + dx)) (max 0 (cy - dy)) (min img.length (cy + dy))
  rw [lowB w _ X0 hX0 hX0w, upB w _ X1 hx hX1 hX1w, lowB _ _ Y0 hY0 hY0h, upB _ _ Y1 hy hY1 hY1h] at h
  exact h

/-- C122: a window that ends `k` pixels left of the image does not give an empty picture: all columns but the last `k` are shown. -/
theorem C122_crop_center_left (w : ℕ) (img : List (List α)) (hw : ∀ r ∈ img, r.length = w) (cx cy dx dy : ℤ) (k : ℕ)
    (hd : 0 ≤ dx) (hk : cx + dx = -k) (hk0 : 0 < k) :
    ∀ r ∈ cropCenter w img cx cy dx dy, r.length = w - k := by
  intro r hr
  obtain ⟨q, hq, rfl⟩ := List.mem_map.1 hr
  rw [pySlice_length, hw q (pySlice_subset _ _ _ q hq)]
  unfold pyBound
  rw [if_pos (by omega), if_neg (by omega)]
  omega

end

/-! ### Scales -/

section
variable {K : Type} [Field K] [LinearOrder K] [IsStrictOrderedRing K]

theorem logLimits_pos (r lo hi : K) (h0 : 0 < r) (h1 : r < 1) :
    0 < (logLimits r lo hi).1 ∧ (logLimits r lo hi).1 ≤ (logLimits r lo hi).2 * r ∧ (logLimits r lo hi).1 < (logLimits r lo hi).2 := by
  have hp : 0 < (logLimits r lo hi).2 := by
    unfold logLimits; dsimp only; split
    · exact one_pos
    · rename_i h; exact not_le.1 h
  have hle : 0 < (logLimits r lo hi).1 ∧ (logLimits r lo hi).1 ≤ (logLimits r lo hi).2 * r := by
    change 0 < (if (logLimits r lo hi).2 * r ≤ lo ∨ lo ≤ 0 then (logLimits r lo hi).2 * r else lo) ∧
      (if (logLimits r lo hi).2 * r ≤ lo ∨ lo ≤ 0 then (logLimits r lo hi).2 * r else lo) ≤ _
    by_cases h : (logLimits r lo hi).2 * r ≤ lo ∨ lo ≤ 0
    · rw [if_pos h]; exact ⟨mul_pos hp h0, le_rfl⟩
    · rw [if_neg h]; push Not at h; exact ⟨h.2, h.1.le⟩
  exact ⟨hle.1, hle.2, lt_of_le_of_lt hle.2 (mul_lt_of_lt_one_right hp h1)⟩

/-- C122, logarithmic scale: every frame that is not empty is shown; the range is positive and not empty and spans at least the ratio; the values
shown are in it; those of the frame not below the lower end are shown as they are, the others as the lower end; the upper end is the largest value if positive. -/
theorem C122_log (r : K) (h0 : 0 < r) (h1 : r < 1) (img : List K) (hne : img ≠ []) :
    ∃ s : Shown K, logView r img = some s ∧ 0 < s.lo ∧ s.lo ≤ s.hi * r ∧ s.lo < s.hi ∧ s.data.length = img.length ∧
      (∀ v ∈ s.data, s.lo ≤ v ∧ v ≤ s.hi) ∧
      (∀ i (hi : i < img.length), s.data[i]? = some (if s.lo ≤ img[i] then img[i] else s.lo)) ∧
      ((∃ v ∈ img, 0 < v) → s.hi ∈ img ∧ ∀ v ∈ img, v ≤ s.hi) ∧
      ((∀ v ∈ img, v ≤ 0) → s.hi = 1 ∧ ∀ v ∈ s.data, v = s.lo) := by
  obtain ⟨lo, hlo⟩ : ∃ a, img.min? = some a := by
    cases h : img.min? with
    | none => exact absurd (List.min?_eq_none_iff.1 h) hne
    | some a => exact ⟨a, rfl⟩
  obtain ⟨hi, hhi⟩ : ∃ a, img.max? = some a := by
    cases h : img.max? with
    | none => exact absurd (List.max?_eq_none_iff.1 h) hne
    | some a => exact ⟨a, rfl⟩
  obtain ⟨p0, p1, p2⟩ := logLimits_pos r lo hi h0 h1
  have hmax := List.max?_eq_some_iff.1 hhi
  have hhi' : ∀ v ∈ img, v ≤ (logLimits r lo hi).2 := by
    intro v hv
    have := hmax.2 v hv
    unfold logLimits; dsimp only; split
    · rename_i h; exact this.trans (h.trans zero_le_one)
    · exact this
  have hclip : ∀ v ∈ img, clipTo (logLimits r lo hi) v = if (logLimits r lo hi).1 ≤ v then v else (logLimits r lo hi).1 := by
    intro v hv
    unfold clipTo
    split
    · rename_i h; rw [max_eq_left h, min_eq_left (hhi' v hv)]
    · rename_i h; rw [max_eq_right (not_le.1 h).le, min_eq_left p2.le]
  refine ⟨⟨img.map (clipTo (logLimits r lo hi)), (logLimits r lo hi).1, (logLimits r lo hi).2⟩, by simp only [logView, hlo, hhi]; rfl, p0, p1, p2, by simp, ?_, ?_, ?_, ?_⟩
  · intro v hv
    obtain ⟨q, hq, rfl⟩ := List.mem_map.1 hv
    exact ⟨le_min (le_max_right _ _) p2.le, min_le_right _ _⟩
  · intro i hi'
    simp only [List.getElem?_map, List.getElem?_eq_getElem hi', Option.map_some]
    rw [hclip _ (List.getElem_mem hi')]
  · rintro ⟨v, hv, hv0⟩
    have hp : 0 < hi := lt_of_lt_of_le hv0 (hmax.2 v hv)
    have e : (logLimits r lo hi).2 = hi := by
      unfold logLimits; dsimp only; rw [if_neg (not_le.2 hp)]
    exact ⟨by rw [e]; exact hmax.1, fun v hv => by rw [e]; exact hmax.2 v hv⟩
  · intro hall
    have hp : hi ≤ 0 := hall hi hmax.1
    refine ⟨by unfold logLimits; dsimp only; rw [if_pos hp], ?_⟩
    intro v hv
    obtain ⟨q, hq, rfl⟩ := List.mem_map.1 hv
    rw [hclip q hq, if_neg (not_le.2 (lt_of_le_of_lt (hall q hq) p0))]

omit [IsStrictOrderedRing K] in
/-- C122: a positive smallest value below the ratio is kept as lower end, so there is no lower bound to the range. -/
theorem C122_log_deep (r : K) (img : List K) (lo hi : K) (hlo : lo ∈ img) (hlo' : ∀ v ∈ img, lo ≤ v) (hhi : hi ∈ img) (hhi' : ∀ v ∈ img, v ≤ hi)
    (h0 : 0 < lo) (h1 : lo < hi * r) : ∃ s : Shown K, logView r img = some s ∧ s.lo = lo ∧ s.hi = hi := by
  have e1 : img.min? = some lo := List.min?_eq_some_iff.2 ⟨hlo, hlo'⟩
  have e2 : img.max? = some hi := List.max?_eq_some_iff.2 ⟨hhi, hhi'⟩
  have hp : ¬ hi ≤ 0 := not_le.2 (lt_of_lt_of_le h0 (hlo' hi hhi))
  refine ⟨_, by simp only [logView, e1, e2]; rfl, ?_, ?_⟩
  · simp only [logLimits, if_neg hp]
    rw [if_neg]
    push Not
    exact ⟨h1, h0⟩
  · simp only [logLimits, if_neg hp]

/-- C122, `PsfDisplay` with a ratio of peak to valley: the range is exactly from the peak divided by the ratio to the peak, and what is darker is
shown as the lower end. -/
theorem C122_psf (r₀ p2v : K) (hp : 1 ≤ p2v) (img : List K) (m : K) (hm : m ∈ img) (hmax : ∀ v ∈ img, v ≤ m) (hm0 : 0 < m) :
    ∃ s : Shown K, psfLog r₀ p2v img = some s ∧ s.lo = m / p2v ∧ s.hi = m ∧ s.data = img.map fun v => if m / p2v ≤ v then v else m / p2v := by
  have hp0 : 0 < p2v := lt_of_lt_of_le one_pos hp
  have hmm : img.max? = some m := List.max?_eq_some_iff.2 ⟨hm, hmax⟩
  have hle : p2v⁻¹ * m ≤ m := mul_le_of_le_one_left hm0.le (inv_le_one_of_one_le₀ hp)
  have ef : psfFloor p2v img = some (img.map fun v => max v (p2v⁻¹ * m)) := by
    unfold psfFloor; rw [if_pos hp0, hmm]; rfl
  have emax : (img.map fun v => max v (p2v⁻¹ * m)).max? = some m := by
    refine List.max?_eq_some_iff.2 ⟨List.mem_map.2 ⟨m, hm, max_eq_left hle⟩, ?_⟩
    intro v hv
    obtain ⟨q, hq, rfl⟩ := List.mem_map.1 hv
    exact max_le (hmax q hq) hle
  obtain ⟨lo, hlo⟩ : ∃ a, (img.map fun v => max v (p2v⁻¹ * m)).min? = some a := by
    cases h : (img.map fun v => max v (p2v⁻¹ * m)).min? with
    | none =>
      have := List.min?_eq_none_iff.1 h
      rw [List.map_eq_nil_iff] at this
      rw [this] at hm
      exact absurd hm (List.not_mem_nil)
    | some a => exact ⟨a, rfl⟩
  have hlo' : p2v⁻¹ * m ≤ lo := by
    obtain ⟨q, -, hq⟩ := List.mem_map.1 (List.min?_eq_some_iff.1 hlo).1
    rw [← hq]; exact le_max_right _ _
  have ed : p2v⁻¹ * m = m / p2v := by rw [div_eq_mul_inv, mul_comm]
  have el : logLimits (1 / p2v) lo m = (m / p2v, m) := by
    have e1 : m * (1 / p2v) = m / p2v := by rw [mul_one_div]
    simp only [logLimits, if_neg (not_le.2 hm0), e1]
    rw [if_pos (Or.inl (ed ▸ hlo'))]
  have es : psfLog r₀ p2v img = some ⟨(img.map fun v => max v (p2v⁻¹ * m)).map (clipTo (m / p2v, m)), m / p2v, m⟩ := by
    simp only [psfLog, ef, if_neg hp0.ne', Option.bind_some, logView, hlo, emax, Option.map_some, el]
  refine ⟨_, es, rfl, rfl, ?_⟩
  dsimp only
  rw [List.map_map]
  refine List.map_congr_left fun v hv => ?_
  simp only [Function.comp, clipTo, ed]
  rw [ed] at hle
  split
  · rename_i h; rw [max_eq_left h, max_eq_left h, min_eq_left (hmax v hv)]
  · rename_i h; rw [max_eq_right (not_le.1 h).le, max_eq_left le_rfl, min_eq_left hle]

end

section
variable {K : Type} [LinearOrder K]

/-- `lo` and `hi` are the smallest and largest value of the frame. -/
def IsRange (img : List K) (lo hi : K) : Prop := (lo ∈ img ∧ ∀ v ∈ img, lo ≤ v) ∧ hi ∈ img ∧ ∀ v ∈ img, v ≤ hi

theorem linView_spec (b : Bool) (st : Option (Shown K)) (img : List K) (hne : img ≠ []) : ∃ s : Shown K, linView b st img = some s ∧ s.data = img ∧
    (st = none ∨ b = true → IsRange img s.lo s.hi) ∧ (∀ t, st = some t → b = false → s.lo = t.lo ∧ s.hi = t.hi) := by
  obtain ⟨lo, hlo⟩ : ∃ a, img.min? = some a := by
    cases h : img.min? with
    | none => exact absurd (List.min?_eq_none_iff.1 h) hne
    | some a => exact ⟨a, rfl⟩
  obtain ⟨hi, hhi⟩ : ∃ a, img.max? = some a := by
    cases h : img.max? with
    | none => exact absurd (List.max?_eq_none_iff.1 h) hne
    | some a => exact ⟨a, rfl⟩
  have hr : IsRange img lo hi := ⟨List.min?_eq_some_iff.1 hlo, List.max?_eq_some_iff.1 hhi⟩
  cases st with
  | none => exact ⟨⟨img, lo, hi⟩, by simp [linView, hlo, hhi], rfl, fun _ => hr, by simp⟩
  | some t =>
    cases b with
    | true => exact ⟨⟨img, lo, hi⟩, by simp [linView, hlo, hhi], rfl, fun _ => hr, by simp⟩
    | false => exact ⟨⟨img, t.lo, t.hi⟩, by simp [linView, hlo, hhi], rfl, by simp, by
        intro u hu _; cases hu; exact ⟨rfl, rfl⟩⟩

theorem linRun_snoc (b : Bool) (fs : List (List K)) (f : List K) : ∀ st : Option (Shown K),
    linRun b st (fs ++ [f]) = (linRun b st fs).bind fun st' => (linView b st' f).map some := by
  induction fs with
  | nil => intro st; simp only [List.nil_append, linRun, Option.bind_some]; cases linView b st f <;> rfl
  | cons g gs ih =>
    intro st
    simp only [List.cons_append, linRun]
    cases linView b st g with
    | none => rfl
    | some s => simpa using ih (some s)

theorem linRun_some (b : Bool) : ∀ (fs : List (List K)), (∀ g ∈ fs, g ≠ []) → ∀ st : Option (Shown K), ∃ st', linRun b st fs = some st' := by
  intro fs
  induction fs with
  | nil => intro _ st; exact ⟨st, rfl⟩
  | cons g gs ih =>
    intro h st
    obtain ⟨s, hs, -⟩ := linView_spec b st g (h g (by simp))
    obtain ⟨st', h'⟩ := ih (fun x hx => h x (by simp [hx])) (some s)
    exact ⟨st', by simp only [linRun, hs, Option.bind_some, h']⟩

/-- C122, linear scale of `PsfDisplay`, `PhaseDisplay` and `PixelsPupDisplay`: after any frames the last is shown, over its own range. -/
theorem C122_linear (fs : List (List K)) (f : List K) (hfs : ∀ g ∈ fs, g ≠ []) (hf : f ≠ []) :
    ∃ s : Shown K, linRun true none (fs ++ [f]) = some (some s) ∧ s.data = f ∧ IsRange f s.lo s.hi := by
  obtain ⟨st', h'⟩ := linRun_some true fs hfs none
  obtain ⟨s, hs, hd, hr, -⟩ := linView_spec true st' f hf
  exact ⟨s, by simp [linRun_snoc, h', hs], hd, hr (Or.inr rfl)⟩

/-- C122, linear scale of `PixelsDisplay`: the last frame is shown over the range of the first. -/
theorem C122_linear_pixels (f₀ : List K) (fs : List (List K)) (f : List K) (h₀ : f₀ ≠ []) (hfs : ∀ g ∈ fs, g ≠ []) (hf : f ≠ []) :
    ∃ s : Shown K, linRun false none (f₀ :: (fs ++ [f])) = some (some s) ∧ s.data = f ∧ IsRange f₀ s.lo s.hi := by
  obtain ⟨s₀, hs₀, -, hr₀, -⟩ := linView_spec false none f₀ h₀
  have key : ∀ (gs : List (List K)), (∀ g ∈ gs, g ≠ []) → ∀ t : Shown K,
      ∃ s : Shown K, linRun false (some t) gs = some (some s) ∧ s.lo = t.lo ∧ s.hi = t.hi := by
    intro gs
    induction gs with
    | nil => intro _ t; exact ⟨t, rfl, rfl, rfl⟩
    | cons g gs ih =>
      intro h t
      obtain ⟨u, hu, -, -, hk⟩ := linView_spec false (some t) g (h g (by simp))
      obtain ⟨s, hs, a, b⟩ := ih (fun x hx => h x (by simp [hx])) u
      exact ⟨s, by simp only [linRun, hu, Option.bind_some, hs], a.trans (hk t rfl rfl).1, b.trans (hk t rfl rfl).2⟩
  obtain ⟨t, ht, a, b⟩ := key fs hfs s₀
  obtain ⟨s, hs, hd, -, hk⟩ := linView_spec false (some t) f hf
  refine ⟨s, ?_, hd, ?_⟩
  · simp only [linRun, hs₀, Option.bind_some, linRun_snoc, ht, hs, Option.map_some]
  · rw [(hk t rfl rfl).1, (hk t rfl rfl).2, a, b]
    exact hr₀ (Or.inl rfl)

end

/-! ### Shack-Hartmann frame as pyramid -/

section
variable {K : Type} [AddCommMonoid K]

/-- C122: with subapertures of even side the four values of a subaperture add up to all its light, and each is the light of its quadrant. -/
theorem C122_quadrants (half : ℕ) (v : ℕ → K) :
    ∃ a b c d : K, asPyramid (2 * half) v = some (a, b, c, d) ∧ a + b + c + d = ∑ k ∈ Finset.range (2 * half * (2 * half)), v k ∧
      a = ∑ y ∈ Finset.range half, ∑ x ∈ Finset.range half, v (y * (2 * half) + x) ∧
      b = ∑ y ∈ Finset.range half, ∑ x ∈ Finset.Ico half (2 * half), v (y * (2 * half) + x) ∧
      c = ∑ y ∈ Finset.Ico half (2 * half), ∑ x ∈ Finset.range half, v (y * (2 * half) + x) ∧
      d = ∑ y ∈ Finset.Ico half (2 * half), ∑ x ∈ Finset.Ico half (2 * half), v (y * (2 * half) + x) := by
  have e : 2 * half / 2 = half := by omega
  have hI : ∀ g : ℕ → K, ∑ x ∈ Finset.Ico half (2 * half), g x = ∑ j ∈ Finset.range half, g (half + j) := by
    intro g
    rw [Finset.sum_Ico_eq_sum_range]
    congr 2; omega
  have hs : ∀ g : ℕ → K, ∑ x ∈ Finset.range (2 * half), g x = ∑ x ∈ Finset.range half, g x + ∑ x ∈ Finset.Ico half (2 * half), g x := by
    intro g
    rw [hI, two_mul, Finset.sum_range_add]
  have hflat : ∀ n m : ℕ, ∑ k ∈ Finset.range (n * m), v k = ∑ y ∈ Finset.range n, ∑ x ∈ Finset.range m, v (y * m + x) := by
    intro n m
    induction n with
    | zero => simp
    | succ n ih => rw [Nat.succ_mul, Finset.sum_range_add, ih, Finset.sum_range_succ]
  have hq : asPyramid (2 * half) v = some (quadSum half v 0 0, quadSum half v 0 1, quadSum half v 1 0, quadSum half v 1 1) := by
    unfold asPyramid
    dsimp only
    rw [e, if_pos (by ring)]
  have qa : quadSum half v 0 0 = ∑ y ∈ Finset.range half, ∑ x ∈ Finset.range half, v (y * (2 * half) + x) := by
    simp [quadSum, Nat.mul_comm half 2]
  have qb : quadSum half v 0 1 = ∑ y ∈ Finset.range half, ∑ x ∈ Finset.Ico half (2 * half), v (y * (2 * half) + x) := by
    simp only [hI]; simp [quadSum, Nat.mul_comm half 2]
  have qc : quadSum half v 1 0 = ∑ y ∈ Finset.Ico half (2 * half), ∑ x ∈ Finset.range half, v (y * (2 * half) + x) := by
    rw [hI]; simp [quadSum, Nat.mul_comm half 2]
  have qd : quadSum half v 1 1 = ∑ y ∈ Finset.Ico half (2 * half), ∑ x ∈ Finset.Ico half (2 * half), v (y * (2 * half) + x) := by
    simp only [hI]; simp [quadSum, Nat.mul_comm half 2]
  refine ⟨_, _, _, _, hq, ?_, qa, qb, qc, qd⟩
  rw [qa, qb, qc, qd, hflat, hs]
  simp only [hs, Finset.sum_add_distrib]
  rw [add_assoc (_ + _)]

/-- C122: with subapertures of odd side the display fails. -/
theorem C122_quadrants_odd (side : ℕ) (ho : side % 2 = 1) (v : ℕ → K) : asPyramid side v = none := by
  unfold asPyramid
  dsimp only
  rw [if_neg]
  intro h
  have : side = side / 2 * 2 := Nat.mul_self_inj.1 h
  omega

end

/-! ### Concrete cases -/

/-- A frame of three rows and four columns. -/
def frame34 : List (List ℕ) := [[0, 1, 2, 3], [10, 11, 12, 13], [20, 21, 22, 23]]

example : cropSlice 4 frame34 1 (-1) (-2) 7 = [[11, 12], [21, 22]] := by decide
example : cropCenter 4 frame34 3 1 2 1 = [[1, 2, 3], [11, 12, 13]] := by decide
/-- A window left of the image shows three columns. -/
example : cropCenter 4 frame34 (-3) 1 2 1 = [[0, 1, 2], [10, 11, 12]] := by decide
example : (logView (1 / 100 : ℚ) [-1, 0, 5, 200]).map (fun s => (s.data, s.lo, s.hi)) = some ([2, 2, 5, 200], 2, 200) := by decide +kernel
example : (logView (1 / 100 : ℚ) [1 / 10, 5, 200]).map (fun s => (s.data, s.lo, s.hi)) = some ([1 / 10, 5, 200], 1 / 10, 200) := by decide +kernel
example : (logView (1 / 100 : ℚ) [-1, 0]).map (fun s => (s.data, s.lo, s.hi)) = some ([1 / 100, 1 / 100], 1 / 100, 1) := by decide +kernel
example : (psfLog (1 / 100 : ℚ) 10 [0, 30, 200]).map (fun s => (s.data, s.lo, s.hi)) = some ([20, 30, 200], 20, 200) := by decide +kernel
/-- The second frame is ten times brighter: shown saturated by `PixelsDisplay`. -/
example : (linRun false none [[1, 2], [10, (20 : ℚ)]]).map (Option.map fun s => (s.data, s.lo, s.hi)) = some (some ([10, 20], 1, 2)) := by decide +kernel
example : (linRun true none [[1, 2], [10, (20 : ℚ)]]).map (Option.map fun s => (s.data, s.lo, s.hi)) = some (some ([10, 20], 10, 20)) := by decide +kernel
example : asPyramid 4 (fun k : ℕ => k) = some (10, 18, 42, 50) := by decide
example : asPyramid 3 (fun k : ℕ => k) = none := by decide

end Specula
