import Verif.Model.PsfGeom
import Verif.Model.Psf
import Verif.Props.Float
import Mathlib.Tactic.Linarith
import Mathlib.Tactic.Ring
import Mathlib.Tactic.FieldSimp
import Mathlib.Tactic.NormNum
import Mathlib.Tactic.Positivity

/-!
# C54: sampling of PSF images
-/

namespace Specula

/-- Specification: the pixel size of an image of `size` pixels obtained by a Fourier transform of a pupil of `pupil` pixels. -/
def imagePixel (pupil : ℕ) (lamD : ℚ) (size : ℤ) : ℚ := lamD * pupil / size

theorem sampling_fold (pupil : ℕ) (lamD q : ℚ) (l : List ℤ) (best : Option (ℚ × ℤ))
    (hb : ∀ e s, best = some (e, s) → e = |lamD / (s / pupil) - q| ∧ 0 < s) (hne : best ≠ none ∨ ∃ s ∈ l, 0 < s) :
    ∃ e s, l.foldl (samplingStep pupil lamD q) best = some (e, s) ∧ e = |lamD / (s / pupil) - q| ∧ 0 < s ∧
      (∀ e' s', best = some (e', s') → e ≤ e') ∧ ∀ t ∈ l, 0 < t → e ≤ |lamD / (t / pupil) - q| := by
  induction l generalizing best with
  | nil =>
    rcases hne with h | ⟨s, hs, -⟩
    · cases hbest : best with
      | none => exact absurd hbest h
      | some p =>
        obtain ⟨e, s⟩ := p
        obtain ⟨h1, h2⟩ := hb e s hbest
        exact ⟨e, s, rfl, h1, h2, by rintro _ _ ⟨⟩; exact le_rfl, by simp⟩
    · simp at hs
  | cons t l ih =>
    rw [List.foldl_cons]
    -- the state after one element
    have hstep : (∀ e s, samplingStep pupil lamD q best t = some (e, s) → e = |lamD / (s / pupil) - q| ∧ 0 < s) ∧
        (best ≠ none ∨ 0 < t → samplingStep pupil lamD q best t ≠ none) ∧
        (∀ e s e' s', samplingStep pupil lamD q best t = some (e, s) → best = some (e', s') → e ≤ e') ∧
        (∀ e s, samplingStep pupil lamD q best t = some (e, s) → 0 < t → e ≤ |lamD / (t / pupil) - q|) := by
      unfold samplingStep
      by_cases ht : t > 0
      · rw [if_pos ht]
        dsimp only
        cases hbest : best with
        | none =>
          refine ⟨?_, by simp, by simp, ?_⟩
          · rintro e s ⟨⟩; exact ⟨rfl, ht⟩
          · rintro e s ⟨⟩ _; exact le_rfl
        | some p =>
          obtain ⟨e0, s0⟩ := p
          dsimp only
          by_cases hlt : |lamD / (t / pupil) - q| < e0
          · rw [if_pos hlt]
            refine ⟨?_, by simp, ?_, ?_⟩
            · rintro e s ⟨⟩; exact ⟨rfl, ht⟩
            · rintro e s e' s' ⟨⟩ ⟨⟩; exact hlt.le
            · rintro e s ⟨⟩ _; exact le_rfl
          · rw [if_neg hlt]
            refine ⟨?_, by simp, ?_, ?_⟩
            · rintro _ _ ⟨⟩; exact hb _ _ hbest
            · rintro e s e' s' ⟨⟩ ⟨⟩; exact le_rfl
            · rintro e s ⟨⟩ _; exact not_lt.1 hlt
      · rw [if_neg ht]
        refine ⟨hb, ?_, ?_, ?_⟩
        · rintro (h | h)
          · exact h
          · exact absurd h ht
        · intro e s e' s' h1 h2; rw [h1] at h2; cases h2; exact le_rfl
        · intro e s _ h; exact absurd h ht
    obtain ⟨s1, s2, s3, s4⟩ := hstep
    have hne' : samplingStep pupil lamD q best t ≠ none ∨ ∃ s ∈ l, 0 < s := by
      rcases hne with h | ⟨s, hs, hs0⟩
      · exact Or.inl (s2 (Or.inl h))
      · rcases List.mem_cons.1 hs with rfl | hs
        · exact Or.inl (s2 (Or.inr hs0))
        · exact Or.inr ⟨s, hs, hs0⟩
    obtain ⟨e, s, r1, r2, r3, r4, r5⟩ := ih _ s1 hne'
    have hnext : ∀ (hn : samplingStep pupil lamD q best t ≠ none), ∃ p, samplingStep pupil lamD q best t = some p :=
      fun hn => Option.ne_none_iff_exists'.1 hn
    refine ⟨e, s, r1, r2, r3, ?_, ?_⟩
    · intro e' s' h
      obtain ⟨⟨e1, t1⟩, h1⟩ := hnext (s2 (Or.inl (by rw [h]; simp)))
      exact (r4 e1 t1 h1).trans (s3 e1 t1 e' s' h1 h)
    · intro t' ht' h0
      rcases List.mem_cons.1 ht' with rfl | ht'
      · obtain ⟨⟨e1, t1⟩, h1⟩ := hnext (s2 (Or.inr h0))
        exact (r4 e1 t1 h1).trans (s4 e1 t1 h1 h0)
      · exact r5 t' ht' h0

/-- The pixel size that an image of a whole number of pixels has is nearest to the one asked for: no other whole size would be closer. -/
theorem C54_nearest (pupil : ℕ) (lamD q : ℚ) (hp : 0 < pupil) (hq : 0 < q) (hle : q ≤ lamD) :
    ∃ (size : ℤ) (nd : ℚ), calcPsfSampling pupil lamD q = some nd ∧ 0 < size ∧ pupil * nd = size ∧
      ∀ n : ℤ, 0 < n → |imagePixel pupil lamD size - q| ≤ |imagePixel pupil lamD n - q| := by
  have hpq : (0 : ℚ) < pupil := by exact_mod_cast hp
  have hlam : 0 < lamD := lt_of_lt_of_le hq hle
  obtain ⟨X, hX⟩ : ∃ X : ℚ, X = pupil * (lamD / q) := ⟨_, rfl⟩
  have hX1 : 1 ≤ X := by
    rw [hX]
    have h1 : 1 ≤ lamD / q := (one_le_div hq).2 hle
    have h2 : (1 : ℚ) ≤ pupil := by exact_mod_cast hp
    nlinarith
  have hlq : lamD * pupil = X * q := by rw [hX]; field_simp
  have herr : ∀ s : ℤ, lamD / ((s : ℚ) / pupil) = imagePixel pupil lamD s := by
    intro s
    unfold imagePixel
    rw [div_div_eq_mul_div]
  have hfl : 1 ≤ ⌊X⌋ := Int.le_floor.2 (by exact_mod_cast hX1)
  have hmem : ⌊X⌋ ∈ samplingSizes X ∧ ⌊X⌋ + 1 ∈ samplingSizes X := by
    unfold samplingSizes
    constructor
    · exact List.mem_map.2 ⟨5, by simp, by push_cast; ring⟩
    · exact List.mem_map.2 ⟨6, by simp, by push_cast; ring⟩
  obtain ⟨e, s, r1, r2, r3, -, r5⟩ := sampling_fold pupil lamD q (samplingSizes X) none (by simp) (Or.inr ⟨⌊X⌋, hmem.1, by omega⟩)
  unfold calcPsfSampling
  rw [if_neg (not_lt.2 hle)]
  dsimp only
  rw [← hX, r1]
  refine ⟨s, s / pupil, rfl, r3, by field_simp, ?_⟩
  intro n hn
  have hf := r5 ⌊X⌋ hmem.1 (by omega)
  have hc := r5 (⌊X⌋ + 1) hmem.2 (by omega)
  rw [r2] at hf hc
  rw [herr s, herr ⌊X⌋] at hf
  rw [herr s, herr (⌊X⌋ + 1)] at hc
  have hnq : (0 : ℚ) < n := by exact_mod_cast hn
  have hXf : (⌊X⌋ : ℚ) ≤ X := Int.floor_le X
  have hXc : X < ⌊X⌋ + 1 := Int.lt_floor_add_one X
  rcases le_or_gt n ⌊X⌋ with h | h
  · -- smaller images have larger pixels than the one of the size below
    refine hf.trans ?_
    have hn' : (n : ℚ) ≤ ⌊X⌋ := by exact_mod_cast h
    have hf0 : (0 : ℚ) < ⌊X⌋ := by exact_mod_cast (by omega : (0 : ℤ) < ⌊X⌋)
    unfold imagePixel
    rw [hlq]
    have h1 : q ≤ X * q / ⌊X⌋ := by rw [le_div_iff₀ hf0]; nlinarith
    have h2 : X * q / ⌊X⌋ ≤ X * q / n := div_le_div_of_nonneg_left (by positivity) hnq hn'
    rw [abs_of_nonneg (by linarith), abs_of_nonneg (by linarith)]
    linarith
  · refine hc.trans ?_
    have hn' : ((⌊X⌋ + 1 : ℤ) : ℚ) ≤ n := by exact_mod_cast h
    have hc0 : (0 : ℚ) < ((⌊X⌋ + 1 : ℤ) : ℚ) := by exact_mod_cast (by omega : (0 : ℤ) < ⌊X⌋ + 1)
    unfold imagePixel
    rw [hlq]
    have h1 : X * q / ((⌊X⌋ + 1 : ℤ) : ℚ) ≤ q := by
      rw [div_le_iff₀ hc0]; push_cast; nlinarith
    have h2 : X * q / n ≤ X * q / ((⌊X⌋ + 1 : ℤ) : ℚ) := div_le_div_of_nonneg_left (by positivity) hc0 hn'
    rw [abs_of_nonpos (by linarith), abs_of_nonpos (by linarith)]
    linarith

/-- Larger pixels than lambda/D are refused. -/
theorem C54_too_large (pupil : ℕ) (lamD q : ℚ) (h : lamD < q) : calcPsfGeometry pupil lamD none (some q) = none := by
  simp [calcPsfGeometry, calcPsfSampling, h]

/-- The image size is always even, so the pixel size reported is the one of the image exactly when the sampling asks for an even number
of pixels. -/
theorem C54_reported (pupil : ℕ) (lamD nd : ℚ) (hp : 0 < pupil) (hl : 0 < lamD) (hn : 0 < nd) (h0 : psfImageSize pupil nd ≠ 0) :
    psfImageSize pupil nd % 2 = 0 ∧
    (imagePixel pupil lamD (psfImageSize pupil nd) = lamD / nd ↔ ∃ k : ℤ, pupil * nd = 2 * k) := by
  have hpq : (0 : ℚ) < pupil := by exact_mod_cast hp
  refine ⟨by unfold psfImageSize; omega, ?_⟩
  have h0' : (psfImageSize pupil nd : ℚ) ≠ 0 := by exact_mod_cast h0
  have e : imagePixel pupil lamD (psfImageSize pupil nd) = lamD / nd ↔ (psfImageSize pupil nd : ℚ) = pupil * nd := by
    unfold imagePixel
    rw [div_eq_div_iff h0' hn.ne']
    constructor
    · intro h
      apply mul_left_cancel₀ hl.ne'
      linarith
    · intro h; rw [h]; ring
  rw [e]
  unfold psfImageSize
  constructor
  · intro h
    refine ⟨roundEven (pupil * nd / 2), ?_⟩
    rw [Int.cast_mul, Int.cast_ofNat] at h
    linarith
  · rintro ⟨k, hk⟩
    have : (pupil : ℚ) * nd / 2 = (k : ℤ) := by rw [hk]; ring
    rw [this, roundEven_int, hk]
    push_cast; ring

/-- A sampling that asks for an odd number of pixels: pupil of 10 pixels, pixels of 10/11 lambda/D.  The pixel size reported is exactly
the one asked for, but the image has 12 pixels of 10/12 lambda/D. -/
theorem C54_odd_size : calcPsfGeometry 10 11 none (some 10) = some (11 / 10, 10) ∧ psfImageSize 10 (11 / 10) = 12 ∧
    imagePixel 10 11 12 = 55 / 6 := by
  refine ⟨by decide +kernel, by decide +kernel, by unfold imagePixel; norm_num⟩

/-- With the default sampling a pupil of `4 k + 1` pixels does not fit the image, and the PSF raises at the first trigger. -/
theorem C54_odd_pupil_raises (k : ℕ) (lamD : ℚ) :
    ∃ nd pix, calcPsfGeometry (4 * k + 1) lamD none none = some (nd, pix) ∧ psfImageSize (4 * k + 1) nd = 4 * k ∧
      ∀ u, calcPsf (psfImageSize (4 * k + 1) nd).toNat (4 * k + 1) (4 * k + 1) u = none := by
  refine ⟨1, lamD / 1, rfl, ?_⟩
  have h : psfImageSize (4 * k + 1) 1 = 4 * k := by
    unfold psfImageSize roundEven
    have h1 : (((4 * k + 1 : ℕ) : ℚ) * 1 / 2) = ((2 * k : ℤ) : ℚ) + 1 / 2 := by push_cast; ring
    have h2 : ⌊((2 * k : ℤ) : ℚ) + 1 / 2⌋ = 2 * k := by
      rw [Int.floor_eq_iff]; constructor <;> linarith
    rw [h1, h2]
    have h3 : ((2 * k : ℤ) : ℚ) + 1 / 2 - ((2 * (k : ℤ) : ℤ) : ℚ) = 1 / 2 := by push_cast; ring
    simp only [h3, lt_irrefl, if_false]
    rw [if_pos (by omega)]
    ring
  refine ⟨h, ?_⟩
  intro u
  rw [h]
  unfold calcPsf
  rw [if_neg]
  intro hc
  have : (4 * (k : ℤ)).toNat = 4 * k := by omega
  omega

-- Pupil of 160 pixels, lambda/D of 10.3 mas, pixels of 2.5 mas asked for: 659 pixels, 2.5008 mas.
example : calcPsfGeometry 160 (103 / 10) none (some (5 / 2)) = some (659 / 160, 1648 / 659) := by decide +kernel

-- An even number of pixels: reported and actual size agree.
example : imagePixel 10 12 (psfImageSize 10 (12 / 10)) = 12 / (12 / 10) := by
  exact ((C54_reported 10 12 (12 / 10) (by norm_num) (by norm_num) (by norm_num) (by decide +kernel)).2).2 ⟨6, by norm_num⟩

end Specula
