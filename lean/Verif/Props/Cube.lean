import Verif.Model.Cube
import Verif.Props.Extrap
import Verif.Props.Generators
import Mathlib.Tactic.IntervalCases
/-
C82: cubes of phase screens.
-/
namespace Specula

/-! ### Layout of the array -/

/-- **C82** (layout): with time on the last axis the stored array has time first, element by element; with time on the first axis it is
the array given; a number of times that differs from the length of the axis, and other axes, are refused. -/
theorem C82_layout {V : Type} (s : List Nat) (n : Nat) (hs : s ≠ []) (g : List Nat → V) :
    (∃ b, staInit ⟨s ++ [n], g⟩ n (-1) = some b ∧ b.shape = n :: s ∧ ∀ t idx, b.get (t :: idx) = g (idx ++ [t])) ∧
    staInit ⟨n :: s, g⟩ n 0 = some ⟨n :: s, g⟩ ∧
    (∀ m, m ≠ n → staInit ⟨s ++ [n], g⟩ m (-1) = none ∧ staInit ⟨n :: s, g⟩ m 0 = none) ∧
    ∀ axis, axis ≠ 0 → axis ≠ -1 → staInit ⟨s ++ [n], g⟩ n axis = none := by
  refine ⟨?_, ?_, ?_, ?_⟩
  · have hl : 1 < (s ++ [n]).length := by
      have := List.length_pos_iff.2 hs
      simp; omega
    refine ⟨NArr.lastFirst ⟨s ++ [n], g⟩, ?_, ?_, ?_⟩
    · unfold staInit
      rw [if_neg (by simp), if_neg (by simp), if_neg (by simp), if_pos ⟨rfl, hl⟩]
    · simp [NArr.lastFirst]
    · intro t idx; simp [NArr.lastFirst]
  · unfold staInit
    rw [if_neg (by simp), if_neg (by simp), if_neg (by simp), if_neg (by simp)]
  · intro m hm
    constructor
    · unfold staInit
      rw [if_neg (by simp), if_neg (by simp), if_pos (by simpa using hm.symm)]
    · unfold staInit
      rw [if_neg (by simp), if_neg (by simp), if_pos (by simpa using hm.symm)]
  · intro axis h0 h1
    unfold staInit
    rw [if_pos ⟨h0, h1⟩]

theorem rotate_same (s : List Nat) (n : Nat) : s ++ [n] = n :: s ↔ ∀ x ∈ s, x = n := by
  induction s with
  | nil => simp
  | cons a s ih =>
    simp only [List.cons_append, List.cons.injEq, List.mem_cons, forall_eq_or_imp]
    constructor
    · rintro ⟨rfl, h⟩; exact ⟨rfl, ih.1 h⟩
    · rintro ⟨rfl, h⟩; exact ⟨rfl, ih.2 h⟩

/-- **C82** (new values): an array with time last replaces the contents as in the constructor, unless all axes have the same length; then it
is stored as if time came first. -/
theorem C82_set {V : Type} (s : List Nat) (n : Nat) (hs : s ≠ []) (cur : List Nat → V) (g : List Nat → V) :
    (∃ b, staSet ⟨n :: s, cur⟩ ⟨s ++ [n], g⟩ = some b ∧ b.shape = n :: s ∧
      ((∃ x ∈ s, x ≠ n) → ∀ t idx, b.get (t :: idx) = g (idx ++ [t])) ∧
      ((∀ x ∈ s, x = n) → ∀ t idx, b.get (t :: idx) = g (t :: idx))) ∧
    staSet ⟨n :: s, cur⟩ ⟨n :: s, g⟩ = some ⟨n :: s, g⟩ ∧
    ∀ r, r ≠ n :: s → ¬ (∃ q m, r = q ++ [m] ∧ m :: q = n :: s) → staSet ⟨n :: s, cur⟩ ⟨r, g⟩ = none := by
  refine ⟨?_, ?_, ?_⟩
  · by_cases h : s ++ [n] = n :: s
    · refine ⟨⟨s ++ [n], g⟩, by unfold staSet; rw [if_pos h], h, ?_, fun _ _ _ => rfl⟩
      rintro ⟨x, hx, hne⟩
      exact absurd ((rotate_same s n).1 h x hx) hne
    · refine ⟨NArr.lastFirst ⟨s ++ [n], g⟩, ?_, by simp [NArr.lastFirst], fun _ t idx => by simp [NArr.lastFirst], fun ha => absurd ((rotate_same s n).2 ha) h⟩
      unfold staSet
      rw [if_neg h, if_pos]
      refine ⟨by simp, ?_, by simp, by simp [NArr.lastFirst]⟩
      have := List.length_pos_iff.2 hs
      simp; omega
  · unfold staSet; rw [if_pos rfl]
  · intro r h1 h2
    unfold staSet
    rw [if_neg h1, if_neg]
    rintro ⟨hl, hl1, -, he⟩
    apply h2
    have hne : r ≠ [] := by
      intro e
      have hl1' : 1 < r.length := hl1
      rw [e] at hl1'
      simp at hl1'
    refine ⟨r.dropLast, r.getLast hne, (List.dropLast_append_getLast hne).symm, ?_⟩
    have he' : r.getLastD 0 :: r.dropLast = n :: s := he
    rw [← he']
    congr 1
    rw [List.getLastD_eq_getLast?, List.getLast?_eq_getLast_of_ne_nil hne]
    rfl

/-! ### Time -/

/-- Times of a cube in strictly increasing order. -/
def ScreenCube.Ordered (c : ScreenCube) : Prop := ∀ i j, i < j → j < c.times.length → c.times.getD i 0 < c.times.getD j 0

theorem cube_not_late (c : ScreenCube) (now : ℚ) (k : Nat) (hk : k < c.times.length) (h : now ≤ c.times.getD k 0) :
    c.times.all (fun x => decide (x < now)) = false := by
  rw [Bool.eq_false_iff]
  intro ha
  rw [List.all_eq_true] at ha
  have hm : c.times.getD k 0 ∈ c.times := by
    rw [List.getD_eq_getElem?_getD, List.getElem?_eq_getElem hk]; exact List.getElem_mem _
  have := of_decide_eq_true (ha _ hm)
  linarith

/-- **C82** (time): between its first and last time the screen is the linear interpolation of the two screens around the current time,
multiplied by the factor. -/
theorem C82_time (c : ScreenCube) (scale now : ℚ) (ho : c.Ordered) (h2 : 2 ≤ c.times.length) (h0 : c.times.getD 0 0 ≤ now)
    (h1 : now ≤ c.times.getD (c.times.length - 1) 0) :
    ∃ s k, cubeScreen c scale now = some s ∧ k + 1 < c.times.length ∧ c.times.getD k 0 ≤ now ∧ now ≤ c.times.getD (k + 1) 0 ∧
      ∀ i j, s i j = scale * (c.screen k i j +
        (now - c.times.getD k 0) / (c.times.getD (k + 1) 0 - c.times.getD k 0) * (c.screen (k + 1) i j - c.screen k i j)) := by
  have hle : ∀ i j, 0 ≤ i → i ≤ j → j < c.times.length → c.times.getD i 0 - now ≤ c.times.getD j 0 - now := fun i j _ hij hj => by
    rcases Nat.lt_or_eq_of_le hij with h | rfl
    · have := ho i j h hj; linarith
    · exact le_refl _
  obtain ⟨-, b2, b3, b4⟩ := searchRight_spec (fun k => c.times.getD k 0 - now) 0 0 c.times.length (Nat.zero_le _) hle
  set k0 := searchRight (fun k => c.times.getD k 0 - now) 0 0 c.times.length with hk0
  have hpos : 0 < k0 := by
    by_contra hc
    have := b4 0 (by omega) (by omega)
    linarith
  obtain ⟨k, hk⟩ : ∃ k, (if c.times.length ≤ k0 then c.times.length - 1 else k0) = k + 1 := ⟨(if c.times.length ≤ k0 then c.times.length - 1 else k0) - 1, by split <;> omega⟩
  have hkn : k + 1 < c.times.length := by rw [← hk]; split <;> omega
  have hlo : c.times.getD k 0 ≤ now := by
    have := b3 k (Nat.zero_le _) (by have := hk; split at this <;> omega)
    linarith
  have hhi : now ≤ c.times.getD (k + 1) 0 := by
    by_cases hc : c.times.length ≤ k0
    · rw [if_pos hc] at hk; rw [← hk]; exact h1
    · rw [if_neg hc] at hk
      have := b4 (k + 1) (by omega) hkn
      linarith
  have hstep := ho k (k + 1) (Nat.lt_succ_self k) hkn
  refine ⟨fun i j => scale / (c.times.getD (k + 1) 0 - c.times.getD k 0) * ((c.times.getD (k + 1) 0 - now) * c.screen k i j +
    |c.times.getD k 0 - now| * c.screen (k + 1) i j), k, ?_, hkn, hlo, hhi, ?_⟩
  · unfold cubeScreen
    rw [if_neg (by rw [cube_not_late c now (k + 1) hkn hhi]; simp)]
    simp only
    rw [← hk0, hk]
    simp only [Nat.add_one_ne_zero, if_false, Nat.add_sub_cancel]
    rw [if_neg (by linarith)]
  · intro i j
    have e : |c.times.getD k 0 - now| = now - c.times.getD k 0 := by rw [abs_of_nonpos (by linarith)]; ring
    simp only
    rw [e]
    have : c.times.getD (k + 1) 0 - c.times.getD k 0 ≠ 0 := by linarith
    field_simp
    ring

/-- **C82** (samples): at each time of the cube its own screen is used, also at the last. -/
theorem C82_samples (c : ScreenCube) (scale : ℚ) (ho : c.Ordered) (h2 : 2 ≤ c.times.length) (m : Nat) (hm : m < c.times.length) :
    ∃ s, cubeScreen c scale (c.times.getD m 0) = some s ∧ ∀ i j, s i j = scale * c.screen m i j := by
  have hmono : ∀ i j, i ≤ j → j < c.times.length → c.times.getD i 0 ≤ c.times.getD j 0 := fun i j hij hj => by
    rcases Nat.lt_or_eq_of_le hij with h | rfl
    · exact (ho i j h hj).le
    · exact le_refl _
  obtain ⟨s, k, hs, hk, hlo, hhi, hv⟩ := C82_time c scale (c.times.getD m 0) ho h2 (hmono 0 m (Nat.zero_le _) hm) (hmono m _ (by omega) (by omega))
  refine ⟨s, hs, fun i j => ?_⟩
  have hmk : m = k ∨ m = k + 1 := by
    by_contra hc
    push Not at hc
    rcases Nat.lt_or_ge m k with h | h
    · have := ho m k h (by omega); linarith
    · have := ho (k + 1) m (by omega) hm; linarith
  have hstep := ho k (k + 1) (Nat.lt_succ_self k) hk
  rw [hv]
  rcases hmk with rfl | rfl
  · rw [sub_self, zero_div, zero_mul, add_zero]
  · rw [div_self (by linarith), one_mul]; ring_nf

/-- **C82** (range): with a factor that is not negative, each pixel is between its values in the two screens around the current time. -/
theorem C82_range (c : ScreenCube) (scale now : ℚ) (ho : c.Ordered) (h2 : 2 ≤ c.times.length) (h0 : c.times.getD 0 0 ≤ now)
    (h1 : now ≤ c.times.getD (c.times.length - 1) 0) (hsc : 0 ≤ scale) (lo hi : ℚ) (i j : Nat)
    (hb : ∀ k < c.times.length, lo ≤ c.screen k i j ∧ c.screen k i j ≤ hi) :
    ∃ s, cubeScreen c scale now = some s ∧ scale * lo ≤ s i j ∧ s i j ≤ scale * hi := by
  obtain ⟨s, k, hs, hk, hlo, hhi, hv⟩ := C82_time c scale now ho h2 h0 h1
  have hstep := ho k (k + 1) (Nat.lt_succ_self k) hk
  refine ⟨s, hs, ?_⟩
  rw [hv]
  set w := (now - c.times.getD k 0) / (c.times.getD (k + 1) 0 - c.times.getD k 0) with hw
  have w0 : 0 ≤ w := div_nonneg (by linarith) (by linarith)
  have w1 : w ≤ 1 := by rw [hw, div_le_one (by linarith)]; linarith
  obtain ⟨a1, a2⟩ := hb k (by omega)
  obtain ⟨b1, b2⟩ := hb (k + 1) hk
  constructor
  · apply mul_le_mul_of_nonneg_left _ hsc; nlinarith
  · apply mul_le_mul_of_nonneg_left _ hsc; nlinarith

/-- **C82** (end): after the last time nothing is produced, whatever the order. -/
theorem C82_late (c : ScreenCube) (scale now : ℚ) (h : ∀ x ∈ c.times, x < now) : cubeScreen c scale now = none := by
  unfold cubeScreen
  rw [if_pos (by rw [List.all_eq_true]; intro x hx; exact decide_eq_true (h x hx))]

/-- Before the first time the first and last screens are combined, with a negative factor: a screen that does not change with time comes out
with the opposite sign, and larger. -/
theorem C82_early (c : ScreenCube) (scale now : ℚ) (ho : c.Ordered) (h2 : 2 ≤ c.times.length) (h0 : now < c.times.getD 0 0)
    (S : Nat → Nat → ℚ) (hc : ∀ k < c.times.length, ∀ i j, c.screen k i j = S i j) :
    ∃ s f, cubeScreen c scale now = some s ∧ f < -1 ∧ ∀ i j, s i j = scale * f * S i j := by
  have hle : ∀ i j, 0 ≤ i → i ≤ j → j < c.times.length → c.times.getD i 0 - now ≤ c.times.getD j 0 - now := fun i j _ hij hj => by
    rcases Nat.lt_or_eq_of_le hij with h | rfl
    · have := ho i j h hj; linarith
    · exact le_refl _
  obtain ⟨-, b2, b3, -⟩ := searchRight_spec (fun k => c.times.getD k 0 - now) 0 0 c.times.length (Nat.zero_le _) hle
  have hk0 : searchRight (fun k => c.times.getD k 0 - now) 0 0 c.times.length = 0 := by
    by_contra hne
    have := b3 0 (Nat.zero_le _) (Nat.pos_of_ne_zero hne)
    linarith
  have hlast := ho 0 (c.times.length - 1) (by omega) (by omega)
  refine ⟨fun i j => scale / (c.times.getD 0 0 - c.times.getD (c.times.length - 1) 0) * ((c.times.getD 0 0 - now) * c.screen (c.times.length - 1) i j +
    |c.times.getD (c.times.length - 1) 0 - now| * c.screen 0 i j), (c.times.getD 0 0 - now + (c.times.getD (c.times.length - 1) 0 - now)) / (c.times.getD 0 0 - c.times.getD (c.times.length - 1) 0), ?_, ?_, ?_⟩
  · unfold cubeScreen
    rw [if_neg (by rw [cube_not_late c now 0 (by omega) h0.le]; simp)]
    simp only
    rw [hk0, if_neg (show ¬ c.times.length ≤ 0 by omega)]
    simp only [if_true]
    rw [if_neg (by linarith)]
  · rw [div_lt_iff_of_neg (by linarith)]; linarith
  · intro i j
    have e : |c.times.getD (c.times.length - 1) 0 - now| = c.times.getD (c.times.length - 1) 0 - now := abs_of_pos (by linarith)
    simp only
    rw [e, hc _ (by omega), hc 0 (by omega)]
    have : c.times.getD 0 0 - c.times.getD (c.times.length - 1) 0 ≠ 0 := by linarith
    field_simp

/-- A cube of one screen is never usable: the interpolation divides by zero. -/
theorem C82_single (x : ℚ) (rows cols : Nat) (S : Nat → Nat → Nat → ℚ) (scale now : ℚ) : cubeScreen ⟨[x], rows, cols, S⟩ scale now = none := by
  unfold cubeScreen
  split
  · rfl
  · have hk : ∀ k0 : Nat, (if [x].length ≤ k0 then [x].length - 1 else k0) = 0 := fun k0 => by
      simp only [List.length_cons, List.length_nil]; split <;> omega
    simp only [hk]
    rw [if_pos]
    simp

/-! ### Space -/

/-- **C82** (same grid): a cube with the pixels of the pupil is applied as it is. -/
theorem C82_same_grid (c : ScreenCube) (pupil : Nat) (hp : 0 < pupil) (hr : c.rows = pupil) (hc : c.cols = pupil) (pitch : ℚ) (hpi : 0 < pitch)
    (scale now : ℚ) : cubePhase c pupil pitch pitch scale now = cubeScreen c scale now := by
  have hp0 : (pupil : ℚ) ≠ 0 := by exact_mod_cast hp.ne'
  have hbin : cubeBin c pupil pitch pitch = 1 := by unfold cubeBin; rw [hr]; field_simp
  have hsame : (cubeParams c pupil pitch pitch).same := ⟨⟨hr, hc⟩, rfl, rfl, rfl, hbin⟩
  have hinit := (C71_forced id (cubeParams c pupil pitch pitch) hsame ⟨by show 0 < c.rows; omega, by show 0 < c.cols; omega⟩ (fun _ _ => 0) (fun _ _ => 0) 0 0).1
  unfold cubePhase
  cases cubeScreen c scale now with
  | none => rfl
  | some s =>
    rw [Option.bind_some, if_neg (by simp [hr, hc])]
    simp only
    rw [hinit]
    rfl

/-- A cube that is not square is refused. -/
theorem C82_not_square (c : ScreenCube) (h : c.rows ≠ c.cols) (pupil : Nat) (pixelScale pitch scale now : ℚ) :
    cubePhase c pupil pixelScale pitch scale now = none := by
  unfold cubePhase
  cases cubeScreen c scale now with
  | none => rfl
  | some s => rw [Option.bind_some, if_pos h]

/-- **C82** (scale): for a cube at least as large as the pupil whose screen is a plane, two neighbouring pixels of the pupil differ by
the plane over `pitch / pixelScale * (1 - 1 / n)` pixels of the cube, `n` pixels wide: the distance on sky, smaller by one part in `n`. -/
theorem C82_scale (c : ScreenCube) (pupil : Nat) (hp : 2 ≤ pupil) (n : Nat) (hn : 2 ≤ n) (hr : c.rows = n) (hc : c.cols = n) (pixelScale pitch : ℚ)
    (hps : 0 < pixelScale) (hpi : 0 < pitch) (hbig : (pupil : ℚ) * pitch ≤ n * pixelScale) (hne : n ≠ pupil ∨ pixelScale ≠ pitch)
    (scale now : ℚ) (s : Nat → Nat → ℚ) (hs : cubeScreen c scale now = some s) (p q r : ℚ) (hpl : ∀ i < n, ∀ j < n, s i j = p + q * i + r * j) :
    ∃ f, cubePhase c pupil pixelScale pitch scale now = some f ∧ ∀ i j, i + 1 < pupil → j + 1 < pupil →
      f (i + 1) j - f i j = q * (pitch / pixelScale * (1 - 1 / n)) ∧ f i (j + 1) - f i j = r * (pitch / pixelScale * (1 - 1 / n)) := by
  have hp0 : (0 : ℚ) < pupil := by exact_mod_cast (by omega : 0 < pupil)
  have hn0 : (0 : ℚ) < n := by exact_mod_cast (by omega : 0 < n)
  have hn2 : (2 : ℚ) ≤ n := by exact_mod_cast hn
  set P := cubeParams c pupil pixelScale pitch with hP
  have hbin : P.mag = n * pixelScale / (pupil * pitch) := by
    show cubeBin c pupil pixelScale pitch = _
    unfold cubeBin; rw [hr]; field_simp
  have hmag1 : 1 ≤ P.mag := by rw [hbin, le_div_iff₀ (by positivity)]; linarith
  have hPr : P.rows = n := hr
  have hPc : P.cols = n := hc
  have hPor : P.outRows = pupil := rfl
  have hPoc : P.outCols = pupil := rfl
  have hnot : ¬ P.same := by
    rintro ⟨⟨e1, -⟩, -, -, -, e5⟩
    have e1' : n = pupil := by rw [← hPr, ← hPor]; exact e1
    rcases hne with h | h
    · exact h e1'
    · rw [hbin, e1', div_eq_one_iff_eq (by positivity)] at e5
      exact h (mul_left_cancel₀ hp0.ne' e5)
  have hinit : P.init = some true := by
    unfold EFIParams.init
    rw [hPr, hPc, hPor, hPoc, if_neg (by simp), if_neg (by linarith), if_neg (fun h => hnot h.1)]
  refine ⟨efiPhase id P (efiPrepare P none fun _ _ => 1) (fun _ _ => 1) s, ?_, ?_⟩
  · unfold cubePhase
    rw [hs, Option.bind_some, if_neg (by simp [hr, hc])]
    simp only
    rw [← hP, hinit]
    rfl
  -- value at a pixel
  have hval : ∀ i j, i < pupil → j < pupil → efiPhase id P (efiPrepare P none fun _ _ => 1) (fun _ _ => 1) s i j =
      p + q * (((n : ℚ) - 1) / 2 + (i * (((n : ℚ) - 1) / pupil) - ((n : ℚ) - 1) / 2) / P.mag) +
        r * (((n : ℚ) - 1) / 2 + (j * (((n : ℚ) - 1) / pupil) - ((n : ℚ) - 1) / 2) / P.mag) := fun i j hi hj => by
    have hcoord : ∀ k : Nat, k < pupil → 0 ≤ ((n : ℚ) - 1) / 2 + (k * (((n : ℚ) - 1) / pupil) - ((n : ℚ) - 1) / 2) / P.mag ∧
        ((n : ℚ) - 1) / 2 + (k * (((n : ℚ) - 1) / pupil) - ((n : ℚ) - 1) / 2) / P.mag ≤ (n : ℚ) - 1 := fun k hk => by
      have hkq : (k : ℚ) ≤ pupil := by exact_mod_cast hk.le
      have hk0 : (0 : ℚ) ≤ k := by positivity
      have b : 0 ≤ (k : ℚ) * (((n : ℚ) - 1) / pupil) := mul_nonneg hk0 (div_nonneg (by linarith) hp0.le)
      have b' : (k : ℚ) * (((n : ℚ) - 1) / pupil) ≤ (n : ℚ) - 1 := by
        rw [← mul_div_assoc, div_le_iff₀ hp0]; nlinarith
      have h1 : -(((n : ℚ) - 1) / 2) ≤ (k * (((n : ℚ) - 1) / pupil) - ((n : ℚ) - 1) / 2) / P.mag := by
        rw [le_div_iff₀ (by linarith)]; nlinarith
      have h2 : (k * (((n : ℚ) - 1) / pupil) - ((n : ℚ) - 1) / 2) / P.mag ≤ ((n : ℚ) - 1) / 2 := by
        rw [div_le_iff₀ (by linarith)]; nlinarith
      constructor <;> linarith
    have := C72_position P (by rw [hPr]; exact hn) (by rw [hPc]; exact hn) (fun _ _ => 1) s p q r 1 0 (Or.inr ⟨rfl, rfl, rfl⟩) (by linarith) hnot
      (fun a b _ _ => by show (1 : ℚ) / 1000 ≤ 1; norm_num) (fun a b ha hb => hpl a (by rw [← hPr]; exact ha) b (by rw [← hPc]; exact hb)) i j hi hj
      (((n : ℚ) - 1) / 2 + (i * (((n : ℚ) - 1) / pupil) - ((n : ℚ) - 1) / 2) / P.mag)
      (((n : ℚ) - 1) / 2 + (j * (((n : ℚ) - 1) / pupil) - ((n : ℚ) - 1) / 2) / P.mag)
      (i * (((n : ℚ) - 1) / pupil) - ((n : ℚ) - 1) / 2) (j * (((n : ℚ) - 1) / pupil) - ((n : ℚ) - 1) / 2)
      (by rw [hPr, hPor]) (by rw [hPc, hPoc])
      (by rw [hPr, show P.xShift = 0 from rfl]; ring) (by rw [hPc, show P.yShift = 0 from rfl]; ring)
      (hcoord i hi).1 (by rw [hPr]; exact (hcoord i hi).2) (hcoord j hj).1 (by rw [hPc]; exact (hcoord j hj).2)
    exact this
  intro i j hi hj
  have hstep : ((n : ℚ) - 1) / pupil / P.mag = pitch / pixelScale * (1 - 1 / n) := by
    rw [hbin]; field_simp
  have e : ∀ k : Nat, ((n : ℚ) - 1) / 2 + (((k + 1 : Nat) : ℚ) * (((n : ℚ) - 1) / pupil) - ((n : ℚ) - 1) / 2) / P.mag -
      (((n : ℚ) - 1) / 2 + (k * (((n : ℚ) - 1) / pupil) - ((n : ℚ) - 1) / 2) / P.mag) = ((n : ℚ) - 1) / pupil / P.mag := fun k => by
    push_cast; ring
  constructor
  · rw [hval (i + 1) j hi (by omega), hval i j (by omega) (by omega), ← hstep, ← e i]; ring
  · rw [hval i (j + 1) (by omega) hj, hval i j (by omega) (by omega), ← hstep, ← e j]; ring

/-! ### Names -/

theorem replaceLayer_length (q : List Char) : (replaceLayer (q ++ ['_', 'l', 'a', 'y', 'e', 'r'])).length ≤ q.length + 3 := by
  induction hl : q.length using Nat.strong_induction_on generalizing q with
  | _ m ih =>
    cases q with
    | nil => subst hl; simp [replaceLayer]
    | cons c p =>
      rw [List.cons_append, replaceLayer]
      split
      · next h =>
        -- the pattern: its length is that of the prefix, or it overlaps the end
        by_cases h5 : 5 ≤ p.length
        · rw [List.drop_append_of_le_length h5, List.length_append]
          have := ih (p.drop 5).length (by simp at hl ⊢; omega) (p.drop 5) rfl
          simp at hl this ⊢; omega
        · exfalso
          obtain ⟨t, ht⟩ := h
          match p, h5 with
          | [], _ => simp at ht
          | [a], _ => simp at ht
          | [a, b], _ => simp at ht
          | [a, b, d], _ => simp at ht
          | [a, b, d, e], _ => simp at ht
          | a :: b :: d :: e :: f :: g, h5 => simp at h5
      · have := ih p.length (by simp at hl; omega) p rfl
        simp at hl ⊢; omega

/-- **C82** (names): the field of a source gets its time exactly when `_layer` does not occur in the beginning of the name of the output, that
is in `out_` and the name of the source. -/
theorem replace_iff (pre : List Char) : replaceLayer (pre ++ ['_', 'l', 'a', 'y', 'e', 'r']) = pre ++ ['_', 'e', 'f'] ↔ ¬ ['_', 'l', 'a', 'y', 'e', 'r'] <:+: pre := by
  induction pre with
  | nil => simp [replaceLayer]
  | cons c p ih =>
    rw [List.cons_append, replaceLayer]
    split
    · next h =>
      obtain ⟨t, ht⟩ := h
      by_cases h5 : 5 ≤ p.length
      · have hin : ['_', 'l', 'a', 'y', 'e', 'r'] <+: c :: p := by
          rw [← List.cons_append] at ht
          exact List.prefix_of_prefix_length_le ⟨t, ht⟩ (List.prefix_append _ _) (by simp; omega)
        constructor
        · intro e
          exfalso
          have hl := congrArg List.length e
          rw [List.drop_append_of_le_length h5, List.length_append] at hl
          have := replaceLayer_length (p.drop 5)
          simp at hl this; omega
        · intro hno; exact absurd hin.isInfix hno
      · exfalso
        match p, h5 with
        | [], _ => simp at ht
        | [a], _ => simp at ht
        | [a, b], _ => simp at ht
        | [a, b, d], _ => simp at ht
        | [a, b, d, e], _ => simp at ht
        | a :: b :: d :: e :: f :: g, h5 => simp at h5
    · next h =>
      rw [List.cons_append, List.cons.injEq, ih, List.infix_cons_iff]
      constructor
      · rintro ⟨-, hno⟩
        rintro (hp | hi)
        · apply h
          rw [← List.cons_append]
          exact hp.trans (List.prefix_append _ _)
        · exact hno hi
      · intro hno
        exact ⟨rfl, fun hi => hno (Or.inr hi)⟩

/-- **C82** (names): the field of a source is stamped with its layer exactly when `_layer` does not occur in `out_` followed by the name of
the source; else another field is stamped, or a KeyError is raised. -/
theorem C82_names (names : List (List Char)) (name : List Char) (hm : name ∈ names) :
    cubeStamps names name = some (efName name) ↔ ¬ ['_', 'l', 'a', 'y', 'e', 'r'] <:+: ['o', 'u', 't', '_'] ++ name := by
  have hrep := replace_iff (['o', 'u', 't', '_'] ++ name)
  unfold cubeStamps
  constructor
  · intro h
    split at h
    · exact hrep.1 (Option.some.inj h)
    · cases h
  · intro h
    have e : replaceLayer (layerName name) = efName name := hrep.2 h
    rw [if_pos (by rw [e]; exact List.mem_map.2 ⟨name, hm, rfl⟩), e]

/-- A source called `x_layer`, alone: KeyError; with another called `x`, nothing better. -/
example : cubeStamps ["x_layer".toList] "x_layer".toList = none ∧ cubeStamps ["ngs1".toList] "ngs1".toList = some "out_ngs1_ef".toList := by
  refine ⟨?_, ?_⟩
  · have : replaceLayer (layerName "x_layer".toList) = "out_x_ef_ef".toList := by
      rw [show layerName "x_layer".toList = ['o', 'u', 't', '_', 'x', '_', 'l', 'a', 'y', 'e', 'r', '_', 'l', 'a', 'y', 'e', 'r'] from by decide]
      simp [replaceLayer]
    unfold cubeStamps
    rw [this, if_neg (by decide)]
  · exact (C82_names _ _ (by simp)).2 (by decide)

/-- Three screens of one pixel at times 0, 1 and 3: values between, at the end, and before the start. -/
def sampleCube : ScreenCube := ⟨[0, 1, 3], 1, 1, fun k _ _ => [10, 20, 40].getD k 0⟩

example : sampleCube.Ordered := by
  intro i j hij hj
  have hj' : j < 3 := hj
  unfold sampleCube
  interval_cases j <;> interval_cases i <;> simp

example : ∃ s, cubeScreen sampleCube 2 2 = some s ∧ 2 * 10 ≤ s 0 0 ∧ s 0 0 ≤ 2 * 40 :=
  C82_range sampleCube 2 2 (by
    intro i j hij hj
    have hj' : j < 3 := hj
    unfold sampleCube
    interval_cases j <;> interval_cases i <;> simp) (by decide) (by simp [sampleCube]) (by simp [sampleCube]; norm_num) (by norm_num) 10 40 0 0
    (by intro k hk; have hk' : k < 3 := hk; unfold sampleCube; interval_cases k <;> norm_num)

end Specula
