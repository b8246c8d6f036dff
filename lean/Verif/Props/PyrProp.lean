import Mathlib.Tactic.Ring
import Mathlib.Tactic.Linarith
import Mathlib.Tactic.FieldSimp
import Mathlib.Tactic.Positivity
import Mathlib.Tactic.NormNum
import Verif.Model.PyrProp
import Verif.Props.Psf
import Verif.Props.Fresnel
import Verif.Props.LgsKernel
import Verif.Props.ModPyr
/-
C97: propagation through the pyramid.
-/
namespace Specula
open Finset

/-! ### Specification: Fourier optics with real frequencies -/

/-- `exp(2πi x)`. -/
noncomputable def ph (x : ℝ) : ℂ := Complex.exp (2 * Real.pi * Complex.I * (x : ℂ))

theorem ph_add (x y : ℝ) : ph (x + y) = ph x * ph y := by
  unfold ph
  rw [← Complex.exp_add]
  congr 1
  push_cast; ring

theorem ph_zero : ph 0 = 1 := by simp [ph]

theorem ph_int (n : ℤ) : ph n = 1 := by
  unfold ph
  rw [Complex.exp_eq_one_iff]
  exact ⟨n, by push_cast; ring⟩

theorem ph_normSq (x : ℝ) : Complex.normSq (ph x) = 1 := by
  unfold ph
  rw [show 2 * Real.pi * Complex.I * (x : ℂ) = ((2 * Real.pi * x : ℝ) : ℂ) * Complex.I by push_cast; ring, Complex.normSq_eq_norm_sq, Complex.norm_exp_ofReal_mul_I]
  norm_num

theorem twiddle_ph (w : ℕ) (k : ℤ) : twiddle w k = ph (-(k / w)) := by
  unfold twiddle ph
  congr 1
  push_cast; ring

/-- Frequency of index `k` of an array of side `2 A`, in units of its side: the zero is between the two central pixels. -/
noncomputable def freqOf (A k : ℕ) : ℝ := (k : ℝ) - A + 1 / 2

/-- Fourier transform of a field on `p` by `p` points, at any frequency. -/
noncomputable def spectrum (N p : ℕ) (u : ℕ → ℕ → ℂ) (f g : ℝ) : ℂ := ∑ i ∈ range p, ∑ j ∈ range p, u i j * ph (-((f * i + g * j) / N))

/-- The field at any point `(x, y)` after the array `T` in the focal plane. -/
noncomputable def fpField (A p : ℕ) (T : ℕ → ℕ → ℂ) (u : ℕ → ℕ → ℂ) (x y : ℝ) : ℂ :=
  (∑ k ∈ range (2 * A), ∑ l ∈ range (2 * A),
    spectrum (2 * A) p u (freqOf A k) (freqOf A l) * T k l * ph ((freqOf A k * x + freqOf A l * y) / (2 * A : ℕ))) / ((2 * A : ℕ) : ℂ) ^ 2

/-- The field of a step of the modulation. -/
noncomputable def modulated (p : ℕ) (u : ℕ → ℕ → ℂ) (pt : ℝ × ℝ) (i j : ℕ) : ℂ := u i j * modExp p pt i j

/-! ### The code computes it -/

theorem fft2_pad (N p : ℕ) (h : p ≤ N) (u : ℕ → ℕ → ℂ) (k l : ℕ) :
    fft2 N (padField N p p u) k l = ∑ i ∈ range p, ∑ j ∈ range p, u i j * twiddle N ((k * i + l * j : ℕ) : ℤ) := by
  unfold fft2
  have hs : range p ⊆ range N := range_subset_range.2 h
  rw [← sum_subset hs]
  · refine sum_congr rfl fun i hi => ?_
    rw [← sum_subset hs]
    · refine sum_congr rfl fun j hj => ?_
      have hi := mem_range.1 hi
      have hj := mem_range.1 hj
      unfold padField
      rw [if_pos ⟨hi, hj, by omega, by omega⟩]
    · intro j _ hj
      rw [mem_range] at hj
      unfold padField
      rw [if_neg (fun h => hj h.2.1), zero_mul]
  · intro i _ hi
    rw [mem_range] at hi
    refine sum_eq_zero fun j _ => ?_
    unfold padField
    rw [if_neg (fun h => hi h.1), zero_mul]

theorem tltF_eq (p c : ℕ) (hp : 0 < p) (i j : ℕ) : pyrTltF p c i j = ph (-(((i : ℝ) + j) / (2 * (p + c : ℕ)))) := by
  have hp' : (p : ℂ) ≠ 0 := by exact_mod_cast hp.ne'
  have hpc : ((p : ℂ) + c) ≠ 0 := by exact_mod_cast (by omega : p + c ≠ 0)
  unfold pyrTltF subpixelPhase quarterXY ph
  dsimp only
  rw [if_pos (by omega), Nat.mul_div_cancel_left p (by norm_num)]
  congr 1
  push_cast
  simp only [if_true]
  push_cast
  field_simp
  ring

/-- Half a turn of the indices. -/
theorem sum_centred (A : ℕ) (hA : 0 < A) (F G : ℕ → ℕ → ℂ) :
    ∑ k ∈ range (2 * A), ∑ l ∈ range (2 * A), F k l * G (fftshiftIdx (2 * A) k) (fftshiftIdx (2 * A) l) =
      ∑ k ∈ range (2 * A), ∑ l ∈ range (2 * A), F ((k + A) % (2 * A)) ((l + A) % (2 * A)) * G k l := by
  have sh : ∀ k < 2 * A, fftshiftIdx (2 * A) ((k + A) % (2 * A)) = k := by
    intro k hk
    unfold fftshiftIdx
    rw [Nat.mod_add_mod, show k + A + (2 * A - 2 * A / 2) = k + 2 * A by omega, Nat.add_mod_right, Nat.mod_eq_of_lt hk]
  rw [← sum_cyclic (2 * A) A (by omega) (fun k => ∑ l ∈ range (2 * A), F k l * G (fftshiftIdx (2 * A) k) (fftshiftIdx (2 * A) l))]
  refine sum_congr rfl fun k hk => ?_
  rw [← sum_cyclic (2 * A) A (by omega) (fun l => F ((k + A) % (2 * A)) l * G (fftshiftIdx (2 * A) ((k + A) % (2 * A))) (fftshiftIdx (2 * A) l))]
  refine sum_congr rfl fun l hl => ?_
  rw [sh k (mem_range.1 hk), sh l (mem_range.1 hl)]

theorem twiddle_centred (A : ℕ) (hA : 0 < A) (k l i j : ℕ) (s : ℤ) :
    twiddle (2 * A) (s * (((k + A) % (2 * A) * i + (l + A) % (2 * A) * j : ℕ) : ℤ)) = ph (-(s * (((k : ℝ) - A) * i + ((l : ℝ) - A) * j) / (2 * A : ℕ))) := by
  have e : ∀ k, ∃ t : ℤ, (((k + A) % (2 * A) : ℕ) : ℤ) = (k : ℤ) - A + (2 * A : ℕ) * t := by
    intro k
    refine ⟨1 - (((k + A) / (2 * A) : ℕ) : ℤ), ?_⟩
    have := Nat.mod_add_div (k + A) (2 * A)
    have h2 : (((k + A) % (2 * A) : ℕ) : ℤ) + ((2 * A : ℕ) : ℤ) * (((k + A) / (2 * A) : ℕ) : ℤ) = (k : ℤ) + A := by exact_mod_cast this
    push_cast at h2 ⊢
    linarith
  obtain ⟨t, ht⟩ := e k
  obtain ⟨r, hr⟩ := e l
  rw [Nat.cast_add, Nat.cast_mul, Nat.cast_mul, ht, hr,
    show s * (((k : ℤ) - A + (2 * A : ℕ) * t) * i + ((l : ℤ) - A + (2 * A : ℕ) * r) * j) =
      s * (((k : ℤ) - A) * i + ((l : ℤ) - A) * j) + (2 * A : ℕ) * (s * (t * i + r * j)) by ring, twiddle_period (2 * A) (by omega), twiddle_ph]
  congr 1
  push_cast
  ring

/-- Representation of the focal plane. -/
theorem focal_eq (A p c : ℕ) (hp : 0 < p) (hN : p + c = 2 * A) (u : ℕ → ℕ → ℂ) (pt : ℝ × ℝ) (k l : ℕ) :
    pyrFocal p c u pt ((k + A) % (2 * A)) ((l + A) % (2 * A)) = spectrum (2 * A) p (modulated p u pt) (freqOf A k) (freqOf A l) := by
  have hA : 0 < A := by omega
  have hA' : (A : ℝ) ≠ 0 := by exact_mod_cast hA.ne'
  unfold pyrFocal pyrIn
  rw [hN, fft2_pad _ _ (by omega)]
  unfold spectrum
  refine sum_congr rfl fun i _ => sum_congr rfl fun j _ => ?_
  have := twiddle_centred A hA k l i j 1
  rw [one_mul] at this
  rw [this, tltF_eq p c hp, hN]
  unfold modulated
  rw [mul_right_comm (u i j), mul_assoc, ← ph_add]
  congr 2
  unfold freqOf
  push_cast
  field_simp
  ring

/-- Representation of the field after the faces. -/
theorem back_eq (A p c : ℕ) (hp : 0 < p) (hN : p + c = 2 * A) (E : ℕ → ℕ → ℂ) (u : ℕ → ℕ → ℂ) (pt : ℝ × ℝ) (i j : ℕ) :
    pyrBack p c E u pt i j = ph (-(((i : ℝ) + j) / (2 * (2 * A : ℕ)))) * fpField A p E (modulated p u pt) i j := by
  have hA : 0 < A := by omega
  have hA' : (A : ℝ) ≠ 0 := by exact_mod_cast hA.ne'
  unfold pyrBack ifft2
  rw [hN]
  have h1 : ∀ k l, pyrFocal p c u pt k l * E (fftshiftIdx (2 * A) k) (fftshiftIdx (2 * A) l) * twiddle (2 * A) (-((k * i + l * j : ℕ) : ℤ)) =
      (pyrFocal p c u pt k l * twiddle (2 * A) ((-1) * ((k * i + l * j : ℕ) : ℤ))) * E (fftshiftIdx (2 * A) k) (fftshiftIdx (2 * A) l) := by
    intro k l
    rw [mul_right_comm, neg_one_mul]
  simp only [h1]
  rw [sum_centred A hA (fun k l => pyrFocal p c u pt k l * twiddle (2 * A) ((-1) * ((k * i + l * j : ℕ) : ℤ))) E]
  unfold fpField
  rw [← pow_two, mul_one_div, mul_div_assoc', mul_sum]
  congr 1
  refine sum_congr rfl fun k _ => ?_
  rw [mul_sum]
  refine sum_congr rfl fun l _ => ?_
  rw [focal_eq A p c hp hN, twiddle_centred A hA k l i j (-1), mul_right_comm, mul_left_comm, ← ph_add]
  congr 2
  unfold freqOf
  push_cast
  field_simp
  ring

theorem back_normSq (A p c : ℕ) (hp : 0 < p) (hN : p + c = 2 * A) (E : ℕ → ℕ → ℂ) (u : ℕ → ℕ → ℂ) (pt : ℝ × ℝ) (i j : ℕ) :
    Complex.normSq (pyrBack p c E u pt i j) = Complex.normSq (fpField A p E (modulated p u pt) i j) := by
  rw [back_eq A p c hp hN, map_mul, ph_normSq, one_mul]

/-- The field has the period of the array, up to the sign. -/
theorem fpField_period (A p : ℕ) (hA : 0 < A) (T u : ℕ → ℕ → ℂ) (x y : ℝ) (s t : ℤ) :
    Complex.normSq (fpField A p T u (x + (2 * A : ℕ) * s) (y + (2 * A : ℕ) * t)) = Complex.normSq (fpField A p T u x y) := by
  have hA' : ((2 * A : ℕ) : ℝ) ≠ 0 := by exact_mod_cast (by omega : 2 * A ≠ 0)
  have key : fpField A p T u (x + (2 * A : ℕ) * s) (y + (2 * A : ℕ) * t) = ph (((s : ℝ) + t) / 2) * fpField A p T u x y := by
    unfold fpField
    rw [mul_div_assoc', mul_sum]
    congr 1
    refine sum_congr rfl fun k _ => ?_
    rw [mul_sum]
    refine sum_congr rfl fun l _ => ?_
    rw [mul_left_comm (ph _)]
    congr 1
    have e : (freqOf A k * (x + (2 * A : ℕ) * s) + freqOf A l * (y + (2 * A : ℕ) * t)) / (2 * A : ℕ) =
        ((((k : ℤ) - A) * s + ((l : ℤ) - A) * t : ℤ) : ℝ) + (((s : ℝ) + t) / 2 + (freqOf A k * x + freqOf A l * y) / (2 * A : ℕ)) := by
      rw [show freqOf A k * (x + (2 * A : ℕ) * s) + freqOf A l * (y + (2 * A : ℕ) * t) = (freqOf A k * x + freqOf A l * y) + (2 * A : ℕ) * (freqOf A k * s + freqOf A l * t) by ring, add_div,
        mul_div_cancel_left₀ _ hA']
      unfold freqOf
      push_cast
      ring
    rw [e, ph_add, ph_int, one_mul, ph_add]
  rw [key, map_mul, ph_normSq, one_mul]

/-- `pup_pyr_tot` at any pixel. -/
theorem pupils_eq (A p e : ℕ) (hp : 0 < p) (hN : p + 2 * e = 2 * A) (E : ℕ → ℕ → ℂ) (u : ℕ → ℕ → ℂ) (m : ℕ) (pts : ℕ → ℝ × ℝ) (w : ℕ → ℝ) (i j : ℕ) :
    pyrPupils p (2 * e) E u m pts w i j = ∑ t ∈ range m, Complex.normSq (fpField A p E (modulated p u (pts t)) ((i : ℝ) - e) ((j : ℝ) - e)) * w t := by
  have hA : 0 < A := by omega
  unfold pyrPupils pyrImage
  refine sum_congr rfl fun t _ => ?_
  rw [back_normSq A p (2 * e) hp hN, hN, Nat.mul_div_cancel_left e (by norm_num)]
  congr 1
  have r : ∀ i : ℕ, ∃ s : ℤ, ((rollIdx (2 * A) (e : ℤ) i : ℕ) : ℝ) = (i : ℝ) - e + (2 * A : ℕ) * s := by
    intro i
    refine ⟨-(((i : ℤ) - e) / (2 * A : ℕ)), ?_⟩
    unfold rollIdx
    have h0 : 0 ≤ ((i : ℤ) - e) % (2 * A : ℕ) := Int.emod_nonneg _ (by omega)
    have h1 := Int.emod_add_mul_ediv ((i : ℤ) - e) ((2 * A : ℕ) : ℤ)
    have h2 : (((((i : ℤ) - e) % (2 * A : ℕ)).toNat : ℕ) : ℤ) = ((i : ℤ) - e) % (2 * A : ℕ) := Int.toNat_of_nonneg h0
    have h3 : ((((((i : ℤ) - e) % (2 * A : ℕ)).toNat : ℕ) : ℤ) : ℝ) + ((2 * A : ℕ) : ℝ) * ((((i : ℤ) - e) / (2 * A : ℕ) : ℤ) : ℝ) = (i : ℝ) - e := by
      rw [h2]
      exact_mod_cast h1
    push_cast at h3 ⊢
    linarith
  obtain ⟨s, hs⟩ := r i
  obtain ⟨t', ht⟩ := r j
  rw [hs, ht, fpField_period A p hA]

/-! ### Symmetries -/

/-- Index counted from the other end. -/
def revIdx (n i : ℕ) : ℕ := n - 1 - i

theorem revIdx_cast (n i : ℕ) (h : i < n) : ((revIdx n i : ℕ) : ℝ) = (n : ℝ) - 1 - i := by
  unfold revIdx
  rw [Nat.cast_sub (by omega), Nat.cast_sub (by omega)]; push_cast; ring

theorem freqOf_rev (A k : ℕ) (h : k < 2 * A) : freqOf A (revIdx (2 * A) k) = -freqOf A k := by
  unfold freqOf
  rw [revIdx_cast _ _ h]
  push_cast; ring

theorem sum_rev {M : Type} [AddCommMonoid M] (n : ℕ) (f : ℕ → M) : ∑ i ∈ range n, f (revIdx n i) = ∑ i ∈ range n, f i := sum_range_reflect f n

theorem modTilt_eq (p : ℕ) (hp : 2 ≤ p) (i : ℕ) : modTilt p i = 2 * Real.pi * ((i : ℝ) - ((p : ℝ) - 1) / 2) / ((p : ℝ) - 1) := by
  have h1 : (2 : ℝ) ≤ p := by exact_mod_cast hp
  have h2 : (p : ℝ) - 1 ≠ 0 := by linarith
  have h3 : (((p / 2 : ℕ) : ℕ) : ℝ) ≠ 0 := by exact_mod_cast (by omega : p / 2 ≠ 0)
  unfold modTilt makeXY
  dsimp only
  rw [Nat.cast_sub (by omega)]
  push_cast
  have h4 : ((p : ℝ) - 1 - ((p : ℝ) - 1) / 2) / ((p : ℝ) / 2) * ((p / 2 : ℕ) : ℝ) - (0 - ((p : ℝ) - 1) / 2) / ((p : ℝ) / 2) * ((p / 2 : ℕ) : ℝ) = ((p : ℝ) - 1) / ((p : ℝ) / 2) * ((p / 2 : ℕ) : ℝ) := by
    ring
  rw [h4]
  field_simp

theorem modTilt_rev (p : ℕ) (hp : 2 ≤ p) (i : ℕ) (hi : i < p) : modTilt p (revIdx p i) = -modTilt p i := by
  rw [modTilt_eq p hp, modTilt_eq p hp, revIdx_cast p i hi]
  ring

/-- Reflection of the rows of the input. -/
theorem fpField_mirror (A p : ℕ) (T u u' : ℕ → ℕ → ℂ) (hT : ∀ k l, k < 2 * A → T (revIdx (2 * A) k) l = T k l)
    (hu : ∀ i j, i < p → j < p → u' i j = u (revIdx p i) j) (x y : ℝ) : fpField A p T u' ((p : ℝ) - 1 - x) y = fpField A p T u x y := by
  have hs : ∀ f g, spectrum (2 * A) p u' f g = ph (-(f * ((p : ℝ) - 1) / (2 * A : ℕ))) * spectrum (2 * A) p u (-f) g := by
    intro f g
    unfold spectrum
    rw [mul_sum, ← sum_rev p]
    refine sum_congr rfl fun i hi => ?_
    rw [mul_sum]
    refine sum_congr rfl fun j hj => ?_
    have hi := mem_range.1 hi
    have hr : revIdx p (revIdx p i) = i := by unfold revIdx; omega
    rw [hu _ j (by unfold revIdx; omega) (mem_range.1 hj), hr, revIdx_cast p i hi, mul_left_comm, ← ph_add]
    congr 2
    ring
  unfold fpField
  congr 1
  rw [← sum_rev (2 * A)]
  refine sum_congr rfl fun k hk => sum_congr rfl fun l hl => ?_
  have hk := mem_range.1 hk
  rw [hT k l hk, freqOf_rev A k hk, hs, neg_neg, mul_right_comm, mul_right_comm (ph _), ← ph_add, mul_comm (ph _), mul_right_comm]
  congr 2
  ring

/-- Exchange of rows and columns of the input. -/
theorem fpField_transpose (A p : ℕ) (T u u' : ℕ → ℕ → ℂ) (hT : ∀ k l, T l k = T k l) (hu : ∀ i j, i < p → j < p → u' i j = u j i) (x y : ℝ) :
    fpField A p T u' y x = fpField A p T u x y := by
  have hs : ∀ f g, spectrum (2 * A) p u' f g = spectrum (2 * A) p u g f := by
    intro f g
    unfold spectrum
    rw [sum_comm]
    refine sum_congr rfl fun i hi => sum_congr rfl fun j hj => ?_
    rw [hu _ _ (mem_range.1 hj) (mem_range.1 hi), add_comm]
  unfold fpField
  congr 1
  rw [sum_comm]
  refine sum_congr rfl fun k hk => sum_congr rfl fun l hl => ?_
  rw [hT k l, hs, add_comm]

theorem pyrTlt_rev (A : ℕ) (scale : ℝ) (k l : ℕ) (h : k < 2 * A) : pyrTlt A scale (revIdx (2 * A) k) l = pyrTlt A scale k l := by
  unfold pyrTlt
  dsimp only
  congr 2
  unfold revIdx
  by_cases hk : k < A
  · rw [if_pos hk, if_neg (by omega)]
    congr 1
    omega
  · rw [if_neg hk, if_pos (by omega)]
    congr 1
    omega

theorem pyrTlt_symm (A : ℕ) (scale : ℝ) (k l : ℕ) : pyrTlt A scale l k = pyrTlt A scale k l := by
  unfold pyrTlt
  dsimp only
  rw [add_comm]

/-- Specification: a field stop that has the symmetries of the square. -/
structure SquareSym (A : ℕ) (mask : ℕ → ℕ → ℝ) : Prop where
  rows : ∀ k l, k < 2 * A → mask (revIdx (2 * A) k) l = mask k l
  diag : ∀ k l, mask l k = mask k l

theorem pyrExp_rev (A : ℕ) (scale : ℝ) (mask : ℕ → ℕ → ℝ) (hm : SquareSym A mask) (k l : ℕ) (h : k < 2 * A) :
    pyrExp (pyrTlt A scale) mask (revIdx (2 * A) k) l = pyrExp (pyrTlt A scale) mask k l := by
  unfold pyrExp
  rw [pyrTlt_rev A scale k l h, hm.rows k l h]

theorem pyrExp_symm (A : ℕ) (scale : ℝ) (mask : ℕ → ℕ → ℝ) (hm : SquareSym A mask) (k l : ℕ) :
    pyrExp (pyrTlt A scale) mask l k = pyrExp (pyrTlt A scale) mask k l := by
  unfold pyrExp
  rw [pyrTlt_symm, hm.diag]

/-- **C97** (stop): the field stop lets through a ring of the focal plane, centred on the tip; the inner diameter is `obs` wavelengths over the diameter only if the
stop has the size of the array. -/
theorem C97_stop (A : ℕ) (hA : 0 < A) (masking fftRes : ℝ) (obs : Option ℝ) (k l : ℕ) :
    pyrStop (2 * A) masking fftRes obs k l =
      if (freqOf A k) ^ 2 + (freqOf A l) ^ 2 < (masking * A) ^ 2 ∧ (masking * (obs.getD 0 * fftRes / 2)) ^ 2 ≤ (freqOf A k) ^ 2 + (freqOf A l) ^ 2 then 1 else 0 := by
  have hA' : (0 : ℝ) < A := by exact_mod_cast hA
  unfold pyrStop baseMask maskCentreArg
  dsimp only
  rw [if_neg (by omega)]
  simp only [Bool.false_eq_true, if_false, Option.map_some]
  unfold maskShape maskX maskY makeXY freqOf
  simp only [Bool.false_eq_true, if_false, Option.getD_some, mul_one, sub_zero, Bool.and_eq_true, decide_eq_true_eq]
  have e : ((l : ℝ) - (((2 * A : ℕ) : ℝ) - 1) / 2) / (((2 * A : ℕ) : ℝ) / 2) = ((l : ℝ) - A + 1 / 2) / A := by push_cast; field_simp; ring
  have e' : ((k : ℝ) - (((2 * A : ℕ) : ℝ) - 1) / 2) / (((2 * A : ℕ) : ℝ) / 2) = ((k : ℝ) - A + 1 / 2) / A := by push_cast; field_simp; ring
  have e2 : (((l : ℝ) - A + 1 / 2) / A) ^ 2 + (((k : ℝ) - A + 1 / 2) / A) ^ 2 = (((k : ℝ) - A + 1 / 2) ^ 2 + ((l : ℝ) - A + 1 / 2) ^ 2) / (A : ℝ) ^ 2 := by
    field_simp; ring
  have e3 : (obs.map fun o => o / (((2 * A : ℕ) : ℝ) / fftRes)).getD 0 = obs.getD 0 * fftRes / 2 / A := by
    cases obs with
    | none => simp
    | some o =>
      simp only [Option.map_some, Option.getD_some]
      push_cast
      rw [div_div_eq_mul_div, div_div]
  have hAA : (0 : ℝ) < (A : ℝ) ^ 2 := by positivity
  rw [e3, e, e', e2, show (masking * (obs.getD 0 * fftRes / 2 / A)) ^ 2 = (masking * (obs.getD 0 * fftRes / 2)) ^ 2 / (A : ℝ) ^ 2 by field_simp,
    show masking ^ 2 = (masking * A) ^ 2 / (A : ℝ) ^ 2 by field_simp]
  simp only [div_lt_div_iff_of_pos_right hAA, div_le_div_iff_of_pos_right hAA]

/-- The stop of the code has the symmetries of the pyramid. -/
theorem C97_stop_symmetric (A : ℕ) (hA : 0 < A) (masking fftRes : ℝ) (obs : Option ℝ) : SquareSym A (pyrStop (2 * A) masking fftRes obs) := by
  constructor
  · intro k l hk
    rw [C97_stop A hA, C97_stop A hA, freqOf_rev A k hk, neg_sq]
  · intro k l
    rw [C97_stop A hA, C97_stop A hA, add_comm ((freqOf A l) ^ 2)]

/-- Reflecting the rows of the field, and of the modulation, reflects the rows of the image. -/
theorem mirror_step (A p e : ℕ) (hp : 2 ≤ p) (hN : p + 2 * e = 2 * A) (T u u' : ℕ → ℕ → ℂ) (hT : ∀ k l, k < 2 * A → T (revIdx (2 * A) k) l = T k l)
    (hu : ∀ i j, i < p → j < p → u' i j = u (revIdx p i) j) (pt : ℝ × ℝ) (i j : ℕ) (hi : i < 2 * A) :
    fpField A p T (modulated p u' pt) (((revIdx (2 * A) i : ℕ) : ℝ) - e) ((j : ℝ) - e) = fpField A p T (modulated p u (pt.1, -pt.2)) ((i : ℝ) - e) ((j : ℝ) - e) := by
  have hx : ((revIdx (2 * A) i : ℕ) : ℝ) - e = (p : ℝ) - 1 - ((i : ℝ) - e) := by
    rw [revIdx_cast _ _ hi]
    have : ((2 * A : ℕ) : ℝ) = p + 2 * e := by rw [← hN]; push_cast; ring
    rw [this]; ring
  rw [hx]
  apply fpField_mirror A p T _ _ hT
  intro a b ha hb
  unfold modulated modExp
  dsimp only
  rw [hu a b ha hb, modTilt_rev p hp a ha]
  congr 5
  ring

theorem transpose_step (A p e : ℕ) (T u u' : ℕ → ℕ → ℂ) (hT : ∀ k l, T l k = T k l)
    (hu : ∀ i j, i < p → j < p → u' i j = u j i) (pt : ℝ × ℝ) (i j : ℕ) :
    fpField A p T (modulated p u' pt) ((j : ℝ) - e) ((i : ℝ) - e) = fpField A p T (modulated p u (pt.2, pt.1)) ((i : ℝ) - e) ((j : ℝ) - e) := by
  apply fpField_transpose A p T _ _ hT
  intro a b ha hb
  unfold modulated modExp
  dsimp only
  rw [hu a b ha hb, add_comm]

/-- Specification: the steps are the same after the map `g` of the plane. -/
def StepsInvariant (m : ℕ) (pts : ℕ → ℝ × ℝ) (w : ℕ → ℝ) (g : ℝ × ℝ → ℝ × ℝ) : Prop :=
  ∃ σ : ℕ → ℕ, (∀ t < m, σ t < m) ∧ (∀ t < m, σ (σ t) = t) ∧ ∀ t < m, pts (σ t) = g (pts t) ∧ w (σ t) = w t

theorem StepsInvariant.sum {m : ℕ} {pts : ℕ → ℝ × ℝ} {w : ℕ → ℝ} {g : ℝ × ℝ → ℝ × ℝ} (h : StepsInvariant m pts w g) (f : ℝ × ℝ → ℝ) :
    ∑ t ∈ range m, f (g (pts t)) * w t = ∑ t ∈ range m, f (pts t) * w t := by
  obtain ⟨σ, h1, h2, h3⟩ := h
  refine sum_bij' (fun t _ => σ t) (fun t _ => σ t) ?_ ?_ ?_ ?_ ?_
  · intro t ht; exact mem_range.2 (h1 t (mem_range.1 ht))
  · intro t ht; exact mem_range.2 (h1 t (mem_range.1 ht))
  · intro t ht; exact h2 t (mem_range.1 ht)
  · intro t ht; exact h2 t (mem_range.1 ht)
  · intro t ht
    obtain ⟨a, b⟩ := h3 t (mem_range.1 ht)
    rw [a, b]

/-- **C97** (reflection): the reflected field gives the reflected image, if the modulation is symmetric. -/
theorem C97_mirror (A p e : ℕ) (hp : 2 ≤ p) (hN : p + 2 * e = 2 * A) (scale : ℝ) (mask : ℕ → ℕ → ℝ) (hm : SquareSym A mask) (u u' : ℕ → ℕ → ℂ)
    (hu : ∀ i j, i < p → j < p → u' i j = u (revIdx p i) j) (m : ℕ) (pts : ℕ → ℝ × ℝ) (w : ℕ → ℝ) (hs : StepsInvariant m pts w fun q => (q.1, -q.2))
    (i j : ℕ) (hi : i < 2 * A) :
    pyrPupils p (2 * e) (pyrExp (pyrTlt A scale) mask) u' m pts w (revIdx (2 * A) i) j = pyrPupils p (2 * e) (pyrExp (pyrTlt A scale) mask) u m pts w i j := by
  rw [pupils_eq A p e (by omega) hN, pupils_eq A p e (by omega) hN,
    ← hs.sum (fun q => Complex.normSq (fpField A p (pyrExp (pyrTlt A scale) mask) (modulated p u q) ((i : ℝ) - e) ((j : ℝ) - e)))]
  refine sum_congr rfl fun t _ => ?_
  rw [mirror_step A p e hp hN _ u u' (pyrExp_rev A scale mask hm) hu (pts t) i j hi]

/-- **C97** (exchange of the axes): the transposed field gives the transposed image. -/
theorem C97_transpose (A p e : ℕ) (hp : 2 ≤ p) (hN : p + 2 * e = 2 * A) (scale : ℝ) (mask : ℕ → ℕ → ℝ) (hm : SquareSym A mask) (u u' : ℕ → ℕ → ℂ)
    (hu : ∀ i j, i < p → j < p → u' i j = u j i) (m : ℕ) (pts : ℕ → ℝ × ℝ) (w : ℕ → ℝ) (hs : StepsInvariant m pts w fun q => (q.2, q.1)) (i j : ℕ) :
    pyrPupils p (2 * e) (pyrExp (pyrTlt A scale) mask) u' m pts w j i = pyrPupils p (2 * e) (pyrExp (pyrTlt A scale) mask) u m pts w i j := by
  rw [pupils_eq A p e (by omega) hN, pupils_eq A p e (by omega) hN,
    ← hs.sum (fun q => Complex.normSq (fpField A p (pyrExp (pyrTlt A scale) mask) (modulated p u q) ((i : ℝ) - e) ((j : ℝ) - e)))]
  refine sum_congr rfl fun t _ => ?_
  rw [transpose_step A p e _ u u' (pyrExp_symm A scale mask hm) hu (pts t) i j]

/-- **C97** (reflection of the columns). -/
theorem C97_mirror_cols (A p e : ℕ) (hp : 2 ≤ p) (hN : p + 2 * e = 2 * A) (scale : ℝ) (mask : ℕ → ℕ → ℝ) (hm : SquareSym A mask) (u u' : ℕ → ℕ → ℂ)
    (hu : ∀ i j, i < p → j < p → u' i j = u i (revIdx p j)) (m : ℕ) (pts : ℕ → ℝ × ℝ) (w : ℕ → ℝ) (hs : StepsInvariant m pts w fun q => (-q.1, q.2))
    (i j : ℕ) (hj : j < 2 * A) :
    pyrPupils p (2 * e) (pyrExp (pyrTlt A scale) mask) u' m pts w i (revIdx (2 * A) j) = pyrPupils p (2 * e) (pyrExp (pyrTlt A scale) mask) u m pts w i j := by
  rw [pupils_eq A p e (by omega) hN, pupils_eq A p e (by omega) hN,
    ← hs.sum (fun q => Complex.normSq (fpField A p (pyrExp (pyrTlt A scale) mask) (modulated p u q) ((i : ℝ) - e) ((j : ℝ) - e)))]
  refine sum_congr rfl fun t _ => ?_
  have h1 := transpose_step A p e _ u (fun a b => u b a) (pyrExp_symm A scale mask hm) (fun _ _ _ _ => rfl) ((pts t).2, -(pts t).1) i j
  have h2 := transpose_step A p e _ u' (fun a b => u' b a) (pyrExp_symm A scale mask hm) (fun _ _ _ _ => rfl) ((pts t).2, (pts t).1) i (revIdx (2 * A) j)
  have h3 := mirror_step A p e hp hN _ (fun a b => u b a) (fun a b => u' b a) (pyrExp_rev A scale mask hm) (fun a b ha hb => hu b a hb ha) ((pts t).2, (pts t).1) j i hj
  dsimp only at h1 h2 h3
  rw [← h1, ← h3, h2]

/-! ### The modulations of the sensor are symmetric -/

theorem circle_angle (m a b : ℕ) (hm : 0 < m) (h : a + b = m) : circlePoint 1 m a = (-(circlePoint 1 m b).1, (circlePoint 1 m b).2) := by
  have hm' : (m : ℝ) ≠ 0 := by exact_mod_cast hm.ne'
  have e : 2 * Real.pi * ((a : ℝ) / m) = 2 * Real.pi - 2 * Real.pi * ((b : ℝ) / m) := by
    have : (a : ℝ) = m - b := by rw [← h]; push_cast; ring
    rw [this]; field_simp
  unfold circlePoint
  dsimp only
  rw [e, Real.sin_two_pi_sub, Real.cos_two_pi_sub]
  ext <;> simp

theorem circlePoint_scale (amp : ℝ) (m k : ℕ) : circlePoint amp m k = (amp * (circlePoint 1 m k).1, amp * (circlePoint 1 m k).2) := by
  unfold circlePoint
  simp

/-- Circular modulation: columns, for any number of steps. -/
theorem circle_cols (amp : ℝ) (m : ℕ) : StepsInvariant m (circlePoint amp m) (fluxFactor .circular amp m) fun q => (-q.1, q.2) := by
  refine ⟨fun t => if t = 0 then 0 else m - t, ?_, ?_, ?_⟩
  · intro t ht; dsimp only; split_ifs <;> omega
  · intro t ht; dsimp only; split_ifs <;> omega
  · intro t ht
    refine ⟨?_, by simp [fluxFactor]⟩
    dsimp only
    rw [circlePoint_scale, circlePoint_scale amp m t]
    split_ifs with h
    · subst h
      simp [circlePoint]
    · rw [circle_angle m (m - t) t (by omega) (by omega)]
      simp

/-- Rows, for an even number of steps. -/
theorem circle_rows (amp : ℝ) (h : ℕ) : StepsInvariant (2 * h) (circlePoint amp (2 * h)) (fluxFactor .circular amp (2 * h)) fun q => (q.1, -q.2) := by
  refine ⟨fun t => if t ≤ h then h - t else 3 * h - t, ?_, ?_, ?_⟩
  · intro t ht; dsimp only; split_ifs <;> omega
  · intro t ht; dsimp only; split_ifs <;> omega
  · intro t ht
    refine ⟨?_, by simp [fluxFactor]⟩
    have hh : (h : ℝ) ≠ 0 := by exact_mod_cast (by omega : h ≠ 0)
    have key : ∀ s : ℕ, ∀ n : ℤ, (s : ℝ) = h - t + 2 * h * n → circlePoint amp (2 * h) s = ((circlePoint amp (2 * h) t).1, -(circlePoint amp (2 * h) t).2) := by
      intro s n hs
      have e : 2 * Real.pi * ((s : ℝ) / (2 * h : ℕ)) = Real.pi - 2 * Real.pi * ((t : ℝ) / (2 * h : ℕ)) + n * (2 * Real.pi) := by
        rw [hs]; push_cast; field_simp
      unfold circlePoint
      dsimp only
      rw [e, Real.sin_add_int_mul_two_pi, Real.cos_add_int_mul_two_pi, Real.sin_pi_sub, Real.cos_pi_sub]
      ext <;> simp
    dsimp only
    split_ifs with hle
    · refine key _ 0 ?_
      rw [Nat.cast_sub hle]; push_cast; ring
    · refine key _ 1 ?_
      rw [Nat.cast_sub (by omega)]; push_cast; ring

/-- Exchange of the axes, for a multiple of four. -/
theorem circle_diag (amp : ℝ) (q : ℕ) : StepsInvariant (4 * q) (circlePoint amp (4 * q)) (fluxFactor .circular amp (4 * q)) fun r => (r.2, r.1) := by
  refine ⟨fun t => if t ≤ q then q - t else 5 * q - t, ?_, ?_, ?_⟩
  · intro t ht; dsimp only; split_ifs <;> omega
  · intro t ht; dsimp only; split_ifs <;> omega
  · intro t ht
    refine ⟨?_, by simp [fluxFactor]⟩
    have hh : (q : ℝ) ≠ 0 := by exact_mod_cast (by omega : q ≠ 0)
    have key : ∀ s : ℕ, ∀ n : ℤ, (s : ℝ) = q - t + 4 * q * n → circlePoint amp (4 * q) s = ((circlePoint amp (4 * q) t).2, (circlePoint amp (4 * q) t).1) := by
      intro s n hs
      have e : 2 * Real.pi * ((s : ℝ) / (4 * q : ℕ)) = Real.pi / 2 - 2 * Real.pi * ((t : ℝ) / (4 * q : ℕ)) + n * (2 * Real.pi) := by
        rw [hs]; push_cast; field_simp; ring
      unfold circlePoint
      dsimp only
      rw [e, Real.sin_add_int_mul_two_pi, Real.cos_add_int_mul_two_pi, Real.sin_pi_div_two_sub, Real.cos_pi_div_two_sub]
    dsimp only
    split_ifs with hle
    · refine key _ 0 ?_
      rw [Nat.cast_sub hle]; push_cast; ring
    · refine key _ 1 ?_
      rw [Nat.cast_sub (by omega)]; push_cast; ring

/-- Linear modulation: reflection of the axis that moves, with its weights. -/
theorem line_symm (t : ModType) (ht : t ≠ .circular) (amp : ℝ) (m : ℕ) (hm : 2 ≤ m) (f : ℝ → ℝ × ℝ) (v : ℕ → ℝ) (hv : ∀ k < m, linearTilt amp m k = some (v k)) (g : ℝ × ℝ → ℝ × ℝ)
    (hg : ∀ x, f (-x) = g (f x)) : StepsInvariant m (fun k => f (v k)) (fluxFactor t amp m) g := by
  have hm1 : (m : ℝ) - 1 ≠ 0 := by
    have : (2 : ℝ) ≤ m := by exact_mod_cast hm
    linarith
  refine ⟨revIdx m, ?_, ?_, ?_⟩
  · intro k hk; unfold revIdx; omega
  · intro k hk; unfold revIdx; omega
  · intro k hk
    have hr : revIdx m k < m := by unfold revIdx; omega
    have h1 := hv k hk
    have h2 := hv _ hr
    unfold linearTilt at h1 h2
    rw [if_neg (by omega), Option.some_inj] at h1 h2
    constructor
    · dsimp only
      rw [← hg, ← h1, ← h2, revIdx_cast m k hk]
      congr 1
      field_simp
      ring
    · unfold fluxFactor
      rw [if_neg ht, if_neg (by omega), if_neg ht, if_neg (by omega)]
      unfold revIdx
      rw [avgTilt_symm amp m k hm hk, abs_neg]

/-! ### Flat wavefronts -/

/-- Total of a part of the image. -/
noncomputable def quarterLight (A : ℕ) (img : ℕ → ℕ → ℝ) (a b : Bool) : ℝ :=
  ∑ i ∈ range A, ∑ j ∈ range A, img (if a then A + i else i) (if b then A + j else j)

/-- A reflection exchanges the halves. -/
theorem quarterLight_rows (A : ℕ) (img : ℕ → ℕ → ℝ) (h : ∀ i j, i < 2 * A → img (revIdx (2 * A) i) j = img i j) (b : Bool) : quarterLight A img true b = quarterLight A img false b := by
  unfold quarterLight
  rw [← sum_rev A]
  refine sum_congr rfl fun i hi => sum_congr rfl fun j _ => ?_
  have hi := mem_range.1 hi
  simp only [if_true, Bool.false_eq_true, if_false]
  rw [← h i _ (by omega)]
  congr 1
  unfold revIdx
  omega

theorem quarterLight_cols (A : ℕ) (img : ℕ → ℕ → ℝ) (h : ∀ i j, j < 2 * A → img i (revIdx (2 * A) j) = img i j) (a : Bool) : quarterLight A img a true = quarterLight A img a false := by
  unfold quarterLight
  refine sum_congr rfl fun i _ => ?_
  rw [← sum_rev A]
  refine sum_congr rfl fun j hj => ?_
  have hj := mem_range.1 hj
  simp only [if_true, Bool.false_eq_true, if_false]
  rw [← h _ j (by omega)]
  congr 1
  unfold revIdx
  omega

/-- **C97** (balance): a field with the symmetries of the pyramid puts the same light in the four pupils, pixel by reflected pixel. -/
theorem C97_balance (A p e : ℕ) (hp : 2 ≤ p) (hN : p + 2 * e = 2 * A) (scale : ℝ) (mask : ℕ → ℕ → ℝ) (hm : SquareSym A mask) (u : ℕ → ℕ → ℂ)
    (hr : ∀ i j, i < p → j < p → u (revIdx p i) j = u i j) (hc : ∀ i j, i < p → j < p → u i (revIdx p j) = u i j) (amp : ℝ) (h : ℕ) (img : ℕ → ℕ → ℝ)
    (himg : img = pyrPupils p (2 * e) (pyrExp (pyrTlt A scale) mask) u (2 * h) (circlePoint amp (2 * h)) (fluxFactor .circular amp (2 * h))) :
    (∀ i j, i < 2 * A → img (revIdx (2 * A) i) j = img i j) ∧ (∀ i j, j < 2 * A → img i (revIdx (2 * A) j) = img i j) ∧
      ∀ a b a' b', quarterLight A img a b = quarterLight A img a' b' := by
  have h1 : ∀ i j, i < 2 * A → img (revIdx (2 * A) i) j = img i j := by
    intro i j hi
    rw [himg]
    exact C97_mirror A p e hp hN scale mask hm u u (fun i j hi hj => (hr i j hi hj).symm) _ _ _ (circle_rows amp h) i j hi
  have h2 : ∀ i j, j < 2 * A → img i (revIdx (2 * A) j) = img i j := by
    intro i j hj
    rw [himg]
    exact C97_mirror_cols A p e hp hN scale mask hm u u (fun i j hi hj => (hc i j hi hj).symm) _ _ _ (circle_cols amp (2 * h)) i j hj
  refine ⟨h1, h2, ?_⟩
  have q1 := quarterLight_rows A img h1
  have q2 := quarterLight_cols A img h2
  have all : ∀ a b, quarterLight A img a b = quarterLight A img false false := by
    intro a b
    cases a <;> cases b
    · rfl
    · rw [q2]
    · rw [q1]
    · rw [q1, q2]
  intro a b a' b'
  rw [all, all a' b']

/-! ### The four images -/

/-- Specification: the light of one face, displaced: `top` and `left` choose the face. -/
noncomputable def faceField (A p : ℕ) (mask : ℕ → ℕ → ℝ) (u : ℕ → ℕ → ℂ) (top left : Bool) (x y : ℝ) : ℂ :=
  fpField A p (fun k l => if (decide (k < A) = top) ∧ (decide (l < A) = left) then (mask k l : ℂ) else 0) u x y

/-- The side to which a face sends its light. -/
def faceSign (b : Bool) : ℝ := if b then 1 else -1

/-- **C97** (faces): the field is the sum of four, each made by the light on one face and displaced by `2 A / scale` pixels along both axes. -/
theorem C97_faces (A p : ℕ) (hA : 0 < A) (scale : ℝ) (hs : scale ≠ 0) (mask : ℕ → ℕ → ℝ) (u : ℕ → ℕ → ℂ) (x y : ℝ) :
    Complex.normSq (fpField A p (pyrExp (pyrTlt A scale) mask) u x y) =
      Complex.normSq (∑ top : Bool, ∑ left : Bool, faceField A p mask u top left (x - faceSign top * ((2 * A : ℕ) / scale)) (y - faceSign left * ((2 * A : ℕ) / scale))) := by
  have hN : ((2 * A : ℕ) : ℝ) ≠ 0 := by exact_mod_cast (by omega : 2 * A ≠ 0)
  have key : fpField A p (pyrExp (pyrTlt A scale) mask) u x y = ph (-((2 * A - 1) / scale)) *
      ∑ top : Bool, ∑ left : Bool, faceField A p mask u top left (x - faceSign top * ((2 * A : ℕ) / scale)) (y - faceSign left * ((2 * A : ℕ) / scale)) := by
    have hT : ∀ k l, k < 2 * A → l < 2 * A → pyrExp (pyrTlt A scale) mask k l =
        ph (-((2 * A - 1) / scale)) * ph (-(faceSign (decide (k < A)) * freqOf A k + faceSign (decide (l < A)) * freqOf A l) / scale) * (mask k l : ℂ) := by
      intro k l hk hl
      have hc : ∀ k < 2 * A, (if k < A then (k : ℝ) else ((A - 1 - (k - A) : ℕ) : ℝ)) = faceSign (decide (k < A)) * freqOf A k + ((A : ℝ) - 1 / 2) := by
        intro k hk
        unfold faceSign freqOf
        by_cases h : k < A
        · simp only [h, if_true, decide_true]; ring
        · have : ((A - 1 - (k - A) : ℕ) : ℝ) = 2 * A - 1 - k := by
            rw [show A - 1 - (k - A) = 2 * A - 1 - k by omega, Nat.cast_sub (by omega), Nat.cast_sub (by omega)]; push_cast; ring
          simp only [h, if_false, decide_false, this]
          simp; ring
      unfold pyrExp pyrTlt
      dsimp only
      rw [hc k hk, hc l hl, ← ph_add]
      congr 1
      unfold ph
      congr 1
      push_cast
      ring
    unfold faceField fpField
    simp only [Fintype.sum_bool, ← add_div]
    rw [mul_div_assoc']
    congr 1
    simp only [← sum_add_distrib, mul_sum]
    refine sum_congr rfl fun k hk => sum_congr rfl fun l hl => ?_
    rw [hT k l (mem_range.1 hk) (mem_range.1 hl)]
    have hph : ∀ a b : ℝ, ph ((freqOf A k * (x - a * ((2 * A : ℕ) / scale)) + freqOf A l * (y - b * ((2 * A : ℕ) / scale))) / (2 * A : ℕ)) =
        ph (-(a * freqOf A k + b * freqOf A l) / scale) * ph ((freqOf A k * x + freqOf A l * y) / (2 * A : ℕ)) := by
      intro a b
      rw [← ph_add]
      congr 1
      field_simp
      ring
    simp only [hph]
    by_cases h1 : k < A <;> by_cases h2 : l < A <;> simp [h1, h2] <;> ring
  rw [key, map_mul, ph_normSq, one_mul]

/-- Without faces and without stop the field comes back. -/
theorem fpField_one (A p : ℕ) (hp : 0 < p) (hpA : p ≤ 2 * A) (he : p % 2 = 0) (T u : ℕ → ℕ → ℂ)
    (hT : ∀ k l, k < 2 * A → l < 2 * A → spectrum (2 * A) p u (freqOf A k) (freqOf A l) * T k l = spectrum (2 * A) p u (freqOf A k) (freqOf A l)) (i j : ℕ) (hi : i < 2 * A) (hj : j < 2 * A) :
    Complex.normSq (fpField A p T u i j) = Complex.normSq (padField (2 * A) p p u i j) := by
  have hA : 0 < A := by omega
  obtain ⟨c, hc⟩ : ∃ c, p + c = 2 * A := ⟨2 * A - p, by omega⟩
  have hmod : modulated p u (0, 0) = u := by
    funext i j
    unfold modulated modExp
    simp
  have h1 : fpField A p T u i j = fpField A p (fun _ _ => 1) u i j := by
    unfold fpField
    congr 1
    refine sum_congr rfl fun k hk => sum_congr rfl fun l hl => ?_
    rw [hT k l (mem_range.1 hk) (mem_range.1 hl), mul_one]
  have h2 := back_normSq A p c hp hc (fun _ _ => 1) u (0, 0) i j
  rw [hmod] at h2
  rw [h1, ← h2]
  unfold pyrBack pyrFocal
  simp only [mul_one]
  have hNc : ((2 * A : ℕ) : ℂ) ≠ 0 := by exact_mod_cast (by omega : 2 * A ≠ 0)
  rw [hc, ifft2_fft2 (2 * A) (by omega) _ i j hi hj, pow_two, mul_one_div, mul_div_cancel_left₀ _ (mul_ne_zero hNc hNc)]
  unfold pyrIn
  rw [hc]
  unfold padField
  split_ifs
  · have hm : modExp p (0, 0) i j = 1 := by unfold modExp; simp
    dsimp only
    rw [hm, mul_one, tltF_eq p c hp, map_mul, ph_normSq, mul_one]
  · rfl

/-- Light on one face only. -/
theorem one_face (A p d : ℕ) (hp : 0 < p) (hpA : p ≤ 2 * A) (he : p % 2 = 0) (scale : ℝ) (hs : scale ≠ 0) (hd : (d : ℝ) * scale = (2 * A : ℕ)) (u : ℕ → ℕ → ℂ) (top left : Bool)
    (h : ∀ k l, k < 2 * A → l < 2 * A → ¬(decide (k < A) = top ∧ decide (l < A) = left) → spectrum (2 * A) p u (freqOf A k) (freqOf A l) = 0) (i j : ℕ) (i' j' : ℤ) (hi : i < 2 * A) (hj : j < 2 * A)
    (hi' : ∃ t : ℤ, i' = i + (if top then (d : ℤ) else -d) + (2 * A : ℕ) * t) (hj' : ∃ t : ℤ, j' = j + (if left then (d : ℤ) else -d) + (2 * A : ℕ) * t) :
    Complex.normSq (fpField A p (pyrExp (pyrTlt A scale) (fun _ _ => 1)) u i' j') = Complex.normSq (padField (2 * A) p p u i j) := by
  have hA : 0 < A := by omega
  obtain ⟨s, hs'⟩ := hi'
  obtain ⟨r, hr'⟩ := hj'
  have hdd : ((2 * A : ℕ) : ℝ) / scale = d := by rw [← hd]; field_simp
  have zero : ∀ a b : Bool, ¬(a = top ∧ b = left) → ∀ x y, faceField A p (fun _ _ => 1) u a b x y = 0 := by
    intro a b hab x y
    unfold faceField fpField
    rw [sum_eq_zero, zero_div]
    intro k hk
    refine sum_eq_zero fun l hl => ?_
    dsimp only
    split_ifs with hkl
    · rw [h k l (mem_range.1 hk) (mem_range.1 hl) (fun hh => hab ⟨hkl.1.symm.trans hh.1, hkl.2.symm.trans hh.2⟩), zero_mul, zero_mul]
    · rw [mul_zero, zero_mul]
  rw [C97_faces A p hA scale hs]
  have hsum : (∑ a : Bool, ∑ b : Bool, faceField A p (fun _ _ => 1) u a b ((i' : ℝ) - faceSign a * ((2 * A : ℕ) / scale)) ((j' : ℝ) - faceSign b * ((2 * A : ℕ) / scale))) =
      faceField A p (fun _ _ => 1) u top left ((i' : ℝ) - faceSign top * ((2 * A : ℕ) / scale)) ((j' : ℝ) - faceSign left * ((2 * A : ℕ) / scale)) := by
    rw [sum_eq_single top, sum_eq_single left]
    · intro b _ hb; exact zero _ _ (fun hh => hb hh.2) _ _
    · intro hh; exact absurd (mem_univ _) hh
    · intro a _ ha; exact sum_eq_zero fun b _ => zero _ _ (fun hh => ha hh.1) _ _
    · intro hh; exact absurd (mem_univ _) hh
  have e1 : (i' : ℝ) - faceSign top * ((2 * A : ℕ) / scale) = (i : ℝ) + (2 * A : ℕ) * s := by
    have : (i' : ℝ) = i + (if top then (d : ℝ) else -d) + (2 * A : ℕ) * s := by
      have := congrArg (fun z : ℤ => (z : ℝ)) hs'
      push_cast at this ⊢
      cases top <;> simpa using this
    rw [this, hdd]
    unfold faceSign
    cases top <;> simp <;> ring
  have e2 : (j' : ℝ) - faceSign left * ((2 * A : ℕ) / scale) = (j : ℝ) + (2 * A : ℕ) * r := by
    have : (j' : ℝ) = j + (if left then (d : ℝ) else -d) + (2 * A : ℕ) * r := by
      have := congrArg (fun z : ℤ => (z : ℝ)) hr'
      push_cast at this ⊢
      cases left <;> simpa using this
    rw [this, hdd]
    unfold faceSign
    cases left <;> simp <;> ring
  rw [hsum, e1, e2]
  unfold faceField
  rw [fpField_period A p hA]
  refine fpField_one A p hp hpA he _ u ?_ i j hi hj
  intro k l hk hl
  by_cases hkl : decide (k < A) = top ∧ decide (l < A) = left
  · rw [if_pos hkl]; simp
  · rw [if_neg hkl, h k l hk hl hkl, zero_mul]

theorem modExp_normSq (p : ℕ) (pt : ℝ × ℝ) (i j : ℕ) : Complex.normSq (modExp p pt i j) = 1 := by
  unfold modExp
  rw [show -(Complex.I * ((pt.1 * modTilt p j + pt.2 * modTilt p i : ℝ) : ℂ)) = ((-(pt.1 * modTilt p j + pt.2 * modTilt p i) : ℝ) : ℂ) * Complex.I by push_cast; ring,
    Complex.normSq_eq_norm_sq, Complex.norm_exp_ofReal_mul_I]
  norm_num

theorem modulated_pad (N p : ℕ) (u : ℕ → ℕ → ℂ) (pt : ℝ × ℝ) (i j : ℕ) : Complex.normSq (padField N p p (modulated p u pt) i j) = Complex.normSq (padField N p p u i j) := by
  unfold padField
  split_ifs
  · unfold modulated
    rw [map_mul, modExp_normSq, mul_one]
  · rfl

/-- **C97** (one face): when the light of a step falls on one face only, it makes one image of the pupil, displaced by `d` pixels along both axes from the centre of the array. -/
theorem C97_one_face (A p e d : ℕ) (hp : 0 < p) (hN : p + 2 * e = 2 * A) (scale : ℝ) (hs : scale ≠ 0) (hd : (d : ℝ) * scale = (2 * A : ℕ)) (u : ℕ → ℕ → ℂ) (pts : ℕ → ℝ × ℝ) (w : ℕ → ℝ) (top left : Bool)
    (h : ∀ k l, k < 2 * A → l < 2 * A → ¬(decide (k < A) = top ∧ decide (l < A) = left) → pyrFocal p (2 * e) u (pts 0) ((k + A) % (2 * A)) ((l + A) % (2 * A)) = 0)
    (i j a b : ℕ) (hi : i < p) (hj : j < p)
    (ha : ∃ t : ℤ, (a : ℤ) = e + i + (if top then (d : ℤ) else -d) + (2 * A : ℕ) * t) (hb : ∃ t : ℤ, (b : ℤ) = e + j + (if left then (d : ℤ) else -d) + (2 * A : ℕ) * t) :
    pyrPupils p (2 * e) (pyrExp (pyrTlt A scale) (fun _ _ => 1)) u 1 pts w a b = Complex.normSq (u i j) * w 0 := by
  rw [pupils_eq A p e hp hN, sum_range_one]
  congr 1
  have := one_face A p d hp (by omega) (by omega) scale hs hd (modulated p u (pts 0)) top left
    (fun k l hk hl hkl => by rw [← focal_eq A p (2 * e) hp hN]; exact h k l hk hl hkl) i j ((a : ℤ) - e) ((b : ℤ) - e) (by omega) (by omega)
    (by obtain ⟨t, ht⟩ := ha; exact ⟨t, by rw [ht]; ring⟩) (by obtain ⟨t, ht⟩ := hb; exact ⟨t, by rw [ht]; ring⟩)
  push_cast at this
  rw [this, show (2 * A : ℕ) = 2 * A from rfl, modulated_pad]
  unfold padField
  rw [if_pos ⟨hi, hj, by omega, by omega⟩]

/-- **C97** (no faces): without faces and stop the image is the intensity of the pupil, in the centre of the array, dark around. -/
theorem C97_plain (A p e : ℕ) (hp : 0 < p) (hN : p + 2 * e = 2 * A) (u : ℕ → ℕ → ℂ) (m : ℕ) (pts : ℕ → ℝ × ℝ) (w : ℕ → ℝ) (a b : ℕ) (ha : a < 2 * A) (hb : b < 2 * A) :
    pyrPupils p (2 * e) (pyrExp (fun _ _ => 0) (fun _ _ => 1)) u m pts w a b =
      (if e ≤ a ∧ a < e + p ∧ e ≤ b ∧ b < e + p then Complex.normSq (u (a - e) (b - e)) else 0) * ∑ t ∈ range m, w t := by
  have hA : 0 < A := by omega
  rw [pupils_eq A p e hp hN, mul_sum]
  refine sum_congr rfl fun t _ => ?_
  congr 1
  have idx : ∀ a, a < 2 * A → ∃ i < 2 * A, ∃ s : ℤ, (a : ℝ) - e = i + (2 * A : ℕ) * s ∧ (i < p ↔ e ≤ a ∧ a < e + p) ∧ (i < p → i = a - e) := by
    intro a ha
    by_cases h : e ≤ a
    · exact ⟨a - e, by omega, 0, by rw [Nat.cast_sub h]; push_cast; ring, by omega, by omega⟩
    · refine ⟨a + 2 * A - e, by omega, -1, ?_, by omega, by omega⟩
      rw [Nat.cast_sub (by omega)]; push_cast; ring
  obtain ⟨i, hi, s, h1, h2, h3⟩ := idx a ha
  obtain ⟨j, hj, r, h4, h5, h6⟩ := idx b hb
  rw [h1, h4, fpField_period A p hA, fpField_one A p hp (by omega) (by omega) _ _ (fun k l _ _ => by simp [pyrExp]) i j hi hj, modulated_pad]
  unfold padField
  by_cases hc : i < p ∧ j < p
  · rw [if_pos ⟨hc.1, hc.2, hi, hj⟩, if_pos ⟨(h2.1 hc.1).1, (h2.1 hc.1).2, h5.1 hc.2⟩, h3 hc.1, h6 hc.2]
  · rw [if_neg (fun h => hc ⟨h.1, h.2.1⟩), if_neg (fun h => hc ⟨h2.2 ⟨h.1, h.2.1⟩, h5.2 h.2.2⟩), map_zero]

/-! ### Light -/

theorem focal_total (p c : ℕ) (hp : 0 < p) (u : ℕ → ℕ → ℂ) (pt : ℝ × ℝ) :
    ∑ k ∈ range (p + c), ∑ l ∈ range (p + c), Complex.normSq (pyrFocal p c u pt k l) = ((p + c : ℕ) : ℝ) ^ 2 * ∑ i ∈ range p, ∑ j ∈ range p, Complex.normSq (u i j) := by
  unfold pyrFocal
  rw [parseval2 (p + c) (by omega)]
  congr 1
  have hs : range p ⊆ range (p + c) := range_subset_range.2 (by omega)
  rw [← sum_subset hs]
  · refine sum_congr rfl fun i hi => ?_
    rw [← sum_subset hs]
    · refine sum_congr rfl fun j hj => ?_
      have hi := mem_range.1 hi
      have hj := mem_range.1 hj
      unfold pyrIn padField
      rw [if_pos ⟨hi, hj, by omega, by omega⟩, map_mul, map_mul, modExp_normSq, tltF_eq p c hp, ph_normSq, mul_one, mul_one]
    · intro j _ hj
      rw [mem_range] at hj
      unfold pyrIn padField
      rw [if_neg (fun h => hj h.2.1), map_zero]
  · intro i _ hi
    rw [mem_range] at hi
    refine sum_eq_zero fun j _ => ?_
    unfold pyrIn padField
    rw [if_neg (fun h => hi h.1), map_zero]

theorem accumulate_total (n m : ℕ) (w : ℕ → ℝ) (psf : ℕ → ℕ → ℕ → ℝ) (g : ℕ → ℕ → ℝ) :
    ∑ k ∈ range n, ∑ l ∈ range n, accumulate m w psf k l * g k l = (∑ t ∈ range m, (∑ k ∈ range n, ∑ l ∈ range n, psf t k l * g k l) * w t) * (1 / ∑ t ∈ range m, w t) := by
  have h : ∀ k l, accumulate m w psf k l * g k l = ∑ t ∈ range m, psf t k l * g k l * (w t * (1 / ∑ t ∈ range m, w t)) := by
    intro k l
    unfold accumulate
    rw [sum_mul, sum_mul]
    refine sum_congr rfl fun t _ => ?_
    ring
  simp only [h]
  have h2 : ∀ k, ∑ l ∈ range n, ∑ t ∈ range m, psf t k l * g k l * (w t * (1 / ∑ t ∈ range m, w t)) = ∑ t ∈ range m, ∑ l ∈ range n, psf t k l * g k l * (w t * (1 / ∑ t ∈ range m, w t)) :=
    fun k => sum_comm
  simp only [h2]
  rw [sum_comm, sum_mul]
  refine sum_congr rfl fun t _ => ?_
  simp only [← sum_mul]
  ring

theorem shift_shift (A k : ℕ) (hk : k < 2 * A) : fftshiftIdx (2 * A) (fftshiftIdx (2 * A) k) = k := by
  unfold fftshiftIdx
  rw [Nat.mod_add_mod, show k + (2 * A - 2 * A / 2) + (2 * A - 2 * A / 2) = k + 2 * A by omega, Nat.add_mod_right, Nat.mod_eq_of_lt hk]

/-- Half a turn of the indices, on the other factor. -/
theorem sum_shift_swap (A : ℕ) (F G : ℕ → ℕ → ℝ) :
    ∑ k ∈ range (2 * A), ∑ l ∈ range (2 * A), F (fftshiftIdx (2 * A) k) (fftshiftIdx (2 * A) l) * G k l =
      ∑ k ∈ range (2 * A), ∑ l ∈ range (2 * A), F k l * G (fftshiftIdx (2 * A) k) (fftshiftIdx (2 * A) l) := by
  rw [← sum_fftshift (2 * A) (fun k => ∑ l ∈ range (2 * A), F k l * G (fftshiftIdx (2 * A) k) (fftshiftIdx (2 * A) l))]
  refine sum_congr rfl fun k hk => ?_
  rw [← sum_fftshift (2 * A) (fun l => F (fftshiftIdx (2 * A) k) l * G (fftshiftIdx (2 * A) (fftshiftIdx (2 * A) k)) (fftshiftIdx (2 * A) l))]
  refine sum_congr rfl fun l hl => ?_
  rw [shift_shift A k (mem_range.1 hk), shift_shift A l (mem_range.1 hl)]

theorem sum_roll (N : ℕ) (hN : 0 < N) (s : ℤ) (f : ℕ → ℝ) : ∑ i ∈ range N, f (rollIdx N s i) = ∑ i ∈ range N, f i := by
  have hz : (0 : ℤ) < N := by exact_mod_cast hN
  have h : ∀ i, rollIdx N s i = (i + ((-s) % N).toNat) % N := by
    intro i
    unfold rollIdx
    have h0 : 0 ≤ (-s) % N := Int.emod_nonneg _ hz.ne'
    have h1 : ((((i : ℤ) - s) % N).toNat : ℤ) = ((i : ℤ) - s) % N := Int.toNat_of_nonneg (Int.emod_nonneg _ hz.ne')
    have h2 : (((i + ((-s) % N).toNat) % N : ℕ) : ℤ) = ((i : ℤ) - s) % N := by
      push_cast
      rw [Int.toNat_of_nonneg h0, Int.add_emod_emod, sub_eq_add_neg]
    omega
  simp only [h]
  exact sum_cyclic N _ hN f

/-- **C97** (light): the total of the pupils is the light of the field times the transmission of the stop. -/
theorem C97_energy (A p e : ℕ) (hp : 0 < p) (hN : p + 2 * e = 2 * A) (tlt mask : ℕ → ℕ → ℝ) (hmask : ∀ k l, mask k l = 0 ∨ mask k l = 1) (u : ℕ → ℕ → ℂ) (m : ℕ) (pts : ℕ → ℝ × ℝ) (w : ℕ → ℝ)
    (hw : ∑ t ∈ range m, w t ≠ 0) (hu : ∑ i ∈ range p, ∑ j ∈ range p, Complex.normSq (u i j) ≠ 0) :
    ∑ i ∈ range (2 * A), ∑ j ∈ range (2 * A), pyrPupils p (2 * e) (pyrExp tlt mask) u m pts w i j =
      pyrThrough p (2 * e) mask u m pts w * (∑ i ∈ range p, ∑ j ∈ range p, Complex.normSq (u i j)) * ∑ t ∈ range m, w t := by
  have hA : 0 < A := by omega
  have hNr : ((2 * A : ℕ) : ℝ) ≠ 0 := by exact_mod_cast (by omega : 2 * A ≠ 0)
  set L := ∑ i ∈ range p, ∑ j ∈ range p, Complex.normSq (u i j) with hL
  set W := ∑ t ∈ range m, w t with hW
  set M : ℕ → ℝ := fun t => ∑ k ∈ range (2 * A), ∑ l ∈ range (2 * A), Complex.normSq (pyrFocal p (2 * e) u (pts t) (fftshiftIdx (2 * A) k) (fftshiftIdx (2 * A) l)) * mask k l with hM
  -- psf
  have hbfm : (pyrPsf p (2 * e) u m pts w).total = ((2 * A : ℕ) : ℝ) ^ 2 * L := by
    unfold Img.total pyrPsf
    rw [hN]
    dsimp only
    have := accumulate_total (2 * A) m w (fun t k l => Complex.normSq (pyrFocal p (2 * e) u (pts t) (fftshiftIdx (2 * A) k) (fftshiftIdx (2 * A) l))) (fun _ _ => 1)
    simp only [mul_one] at this
    rw [this]
    have h1 : ∀ t, ∑ k ∈ range (2 * A), ∑ l ∈ range (2 * A), Complex.normSq (pyrFocal p (2 * e) u (pts t) (fftshiftIdx (2 * A) k) (fftshiftIdx (2 * A) l)) = ((2 * A : ℕ) : ℝ) ^ 2 * L := by
      intro t
      have h2 := sum_shift_swap A (fun k l => Complex.normSq (pyrFocal p (2 * e) u (pts t) k l)) (fun _ _ => 1)
      simp only [mul_one] at h2
      have h3 := focal_total p (2 * e) hp u (pts t)
      rw [hN] at h3
      rw [h2, h3]
    simp only [h1]
    rw [← mul_sum, ← hW]
    field_simp
  have hfpm : (⟨(pyrPsf p (2 * e) u m pts w).rows, (pyrPsf p (2 * e) u m pts w).cols, fun y x => (pyrPsf p (2 * e) u m pts w).px y x * mask y x⟩ : Img ℝ).total = (∑ t ∈ range m, M t * w t) * (1 / W) := by
    unfold Img.total pyrPsf
    rw [hN]
    dsimp only
    exact accumulate_total (2 * A) m w (fun t k l => Complex.normSq (pyrFocal p (2 * e) u (pts t) (fftshiftIdx (2 * A) k) (fftshiftIdx (2 * A) l))) mask
  have hth : pyrThrough p (2 * e) mask u m pts w = (∑ t ∈ range m, M t * w t) * (1 / W) / (((2 * A : ℕ) : ℝ) ^ 2 * L) := by
    unfold pyrThrough pyrTransmission
    rw [hfpm, hbfm]
  -- image
  have hback : ∀ t, ∑ i ∈ range (2 * A), ∑ j ∈ range (2 * A), Complex.normSq (pyrBack p (2 * e) (pyrExp tlt mask) u (pts t) i j) = M t / ((2 * A : ℕ) : ℝ) ^ 2 := by
    intro t
    unfold pyrBack
    rw [hN]
    simp only [map_mul]
    have hc : Complex.normSq (1 / (((2 * A : ℕ) : ℂ) * ((2 * A : ℕ) : ℂ))) = 1 / ((2 * A : ℕ) : ℝ) ^ 4 := by
      rw [map_div₀, map_mul, Complex.normSq_natCast, map_one]
      ring
    rw [hc]
    simp only [← sum_mul]
    rw [parseval2_inverse (2 * A) (by omega), hM]
    dsimp only
    rw [sum_shift_swap A (fun k l => Complex.normSq (pyrFocal p (2 * e) u (pts t) k l)) mask]
    have hE : ∀ k l, Complex.normSq (pyrExp tlt mask k l) = mask k l := by
      intro k l
      unfold pyrExp
      rw [map_mul, Complex.normSq_ofReal, show -(2 * Real.pi * Complex.I * (tlt k l : ℂ)) = ((-(2 * Real.pi * tlt k l) : ℝ) : ℂ) * Complex.I by push_cast; ring,
        Complex.normSq_eq_norm_sq, Complex.norm_exp_ofReal_mul_I]
      rcases hmask k l with h | h <;> rw [h] <;> norm_num
    simp only [map_mul, hE]
    field_simp
  have himg : ∑ i ∈ range (2 * A), ∑ j ∈ range (2 * A), pyrPupils p (2 * e) (pyrExp tlt mask) u m pts w i j = (∑ t ∈ range m, M t * w t) / ((2 * A : ℕ) : ℝ) ^ 2 := by
    unfold pyrPupils
    rw [hN, sum_roll (2 * A) (by omega) _ (fun i => ∑ j ∈ range (2 * A), pyrImage p (2 * e) (pyrExp tlt mask) u m pts w i (rollIdx (2 * A) ((2 * e / 2 : ℕ) : ℤ) j)),
      sum_congr rfl fun i _ => sum_roll (2 * A) (by omega) _ (fun j => pyrImage p (2 * e) (pyrExp tlt mask) u m pts w i j)]
    unfold pyrImage
    have h2 : ∀ i, ∑ j ∈ range (2 * A), ∑ t ∈ range m, Complex.normSq (pyrBack p (2 * e) (pyrExp tlt mask) u (pts t) i j) * w t =
        ∑ t ∈ range m, ∑ j ∈ range (2 * A), Complex.normSq (pyrBack p (2 * e) (pyrExp tlt mask) u (pts t) i j) * w t := fun i => sum_comm
    simp only [h2]
    rw [sum_comm, sum_div]
    refine sum_congr rfl fun t _ => ?_
    simp only [← sum_mul]
    rw [hback t]
    ring
  rw [himg, hth]
  field_simp

/-! ### Wavefronts -/

/-- **C97** (scale and piston): a constant factor multiplies the image by its square; a piston does nothing. -/
theorem C97_piston (p c : ℕ) (E u : ℕ → ℕ → ℂ) (z : ℂ) (m : ℕ) (pts : ℕ → ℝ × ℝ) (w : ℕ → ℝ) (i j : ℕ) :
    pyrPupils p c E (fun a b => z * u a b) m pts w i j = Complex.normSq z * pyrPupils p c E u m pts w i j := by
  have hin : ∀ pt a b, pyrIn p c (fun a b => z * u a b) pt a b = z * pyrIn p c u pt a b := by
    intro pt a b
    unfold pyrIn padField
    split_ifs
    · ring
    · rw [mul_zero]
  have hf : ∀ pt k l, pyrFocal p c (fun a b => z * u a b) pt k l = z * pyrFocal p c u pt k l := by
    intro pt k l
    unfold pyrFocal fft2
    rw [mul_sum]
    refine sum_congr rfl fun a _ => ?_
    rw [mul_sum]
    refine sum_congr rfl fun b _ => ?_
    rw [hin, mul_assoc]
  have hb : ∀ pt a b, pyrBack p c E (fun a b => z * u a b) pt a b = z * pyrBack p c E u pt a b := by
    intro pt a b
    unfold pyrBack ifft2
    rw [← mul_assoc, mul_sum]
    congr 1
    refine sum_congr rfl fun k _ => ?_
    rw [mul_sum]
    refine sum_congr rfl fun l _ => ?_
    dsimp only
    rw [hf]
    ring
  unfold pyrPupils pyrImage
  rw [mul_sum]
  refine sum_congr rfl fun t _ => ?_
  rw [hb, map_mul, mul_assoc]

/-- **C97** (tilt): a tilt of the field moves all the steps of the modulation. -/
theorem C97_tilt (p c : ℕ) (E u : ℕ → ℕ → ℂ) (q : ℝ × ℝ) (m : ℕ) (pts : ℕ → ℝ × ℝ) (w : ℕ → ℝ) :
    pyrPupils p c E (fun a b => u a b * modExp p q a b) m pts w = pyrPupils p c E u m (fun t => pts t + q) w := by
  have hin : ∀ pt, pyrIn p c (fun a b => u a b * modExp p q a b) pt = pyrIn p c u (pt + q) := by
    intro pt
    unfold pyrIn
    congr 1
    funext a b
    rw [mul_right_comm (u a b), mul_assoc]
    congr 1
    unfold modExp
    rw [← Complex.exp_add]
    congr 1
    simp only [Prod.fst_add, Prod.snd_add]
    push_cast
    ring
  funext i j
  unfold pyrPupils pyrImage pyrBack pyrFocal
  simp only [hin]

/-- **C97** (size of the modulation): a coefficient `a` moves the spectrum by `a N / (p - 1)` pixels, that is `a p / (p - 1)` times the wavelength over the diameter. -/
theorem C97_modulation (N p : ℕ) (hN : 0 < N) (hp : 2 ≤ p) (u : ℕ → ℕ → ℂ) (pt : ℝ × ℝ) (f g : ℝ) :
    Complex.normSq (spectrum N p (modulated p u pt) f g) = Complex.normSq (spectrum N p u (f + pt.2 * (N / ((p : ℝ) - 1))) (g + pt.1 * (N / ((p : ℝ) - 1)))) ∧
      (N : ℝ) / ((p : ℝ) - 1) = (N : ℝ) / p * (p / ((p : ℝ) - 1)) := by
  have h1 : (2 : ℝ) ≤ p := by exact_mod_cast hp
  have h2 : (p : ℝ) - 1 ≠ 0 := by linarith
  have h2c : (p : ℂ) - 1 ≠ 0 := by exact_mod_cast h2
  have h3 : (N : ℝ) ≠ 0 := by exact_mod_cast hN.ne'
  have h3c : (N : ℂ) ≠ 0 := by exact_mod_cast hN.ne'
  have h4 : (p : ℝ) ≠ 0 := by linarith
  constructor
  · have key : spectrum N p (modulated p u pt) f g = ph ((pt.1 + pt.2) / 2) * spectrum N p u (f + pt.2 * (N / ((p : ℝ) - 1))) (g + pt.1 * (N / ((p : ℝ) - 1))) := by
      unfold spectrum
      rw [mul_sum]
      refine sum_congr rfl fun i _ => ?_
      rw [mul_sum]
      refine sum_congr rfl fun j _ => ?_
      unfold modulated
      have hm : modExp p pt i j = ph (-(pt.1 * ((j : ℝ) - ((p : ℝ) - 1) / 2) + pt.2 * ((i : ℝ) - ((p : ℝ) - 1) / 2)) / ((p : ℝ) - 1)) := by
        unfold modExp ph
        rw [modTilt_eq p hp, modTilt_eq p hp]
        congr 1
        push_cast
        field_simp
      rw [hm, mul_left_comm, mul_assoc, ← ph_add, ← ph_add]
      congr 2
      field_simp
      ring
    rw [key, map_mul, ph_normSq, one_mul]
  · field_simp

/-! ### Cases -/

/-- A tilted wave over the whole array, with a frequency between pixels. -/
noncomputable def tiltWave (A a b : ℕ) (i j : ℕ) : ℂ := ph ((freqOf A a * i + freqOf A b * j) / (2 * A : ℕ))

theorem tiltWave_spectrum (A : ℕ) (hA : 0 < A) (a b k l : ℕ) (ha : a < 2 * A) (hb : b < 2 * A) (hk : k < 2 * A) (hl : l < 2 * A) :
    spectrum (2 * A) (2 * A) (tiltWave A a b) (freqOf A k) (freqOf A l) = if k = a ∧ l = b then ((2 * A : ℕ) : ℂ) ^ 2 else 0 := by
  have e : ∀ i j : ℕ, tiltWave A a b i j * ph (-((freqOf A k * i + freqOf A l * j) / (2 * A : ℕ))) = twiddle (2 * A) (i * ((k : ℤ) - a)) * twiddle (2 * A) (j * ((l : ℤ) - b)) := by
    intro i j
    unfold tiltWave
    rw [twiddle_ph, twiddle_ph, ← ph_add, ← ph_add]
    congr 1
    unfold freqOf
    push_cast
    ring
  unfold spectrum
  simp only [e, ← mul_sum, ← sum_mul]
  rw [twiddle_orthogonal (2 * A) (by omega) k a hk ha, twiddle_orthogonal (2 * A) (by omega) l b hl hb]
  by_cases h1 : k = a <;> by_cases h2 : l = b <;> simp [h1, h2]
  ring

/-- A wave that rises along rows and columns, over the whole array, falls on the last face: the hypotheses of `C97_one_face` hold. -/
theorem C97_wave (A d a b : ℕ) (hd0 : 0 < d) (scale : ℝ) (hd : (d : ℝ) * scale = (2 * A : ℕ)) (ha : A ≤ a) (ha' : a < 2 * A) (hb : A ≤ b) (hb' : b < 2 * A) (i j : ℕ) (hi : i < 2 * A) (hj : j < 2 * A) :
    pyrPupils (2 * A) 0 (pyrExp (pyrTlt A scale) (fun _ _ => 1)) (tiltWave A a b) 1 (fun _ => (0, 0)) (fun _ => 1) i j = 1 := by
  have hA : 0 < A := by omega
  have hs : scale ≠ 0 := by
    intro h
    rw [h, mul_zero] at hd
    have : (2 * A : ℕ) = 0 := by exact_mod_cast hd.symm
    omega
  have hmod : modulated (2 * A) (tiltWave A a b) (0, 0) = tiltWave A a b := by
    funext i j
    unfold modulated modExp
    simp
  obtain ⟨i0, h1, h2⟩ : ∃ i0 < 2 * A, ∃ t : ℤ, (i : ℤ) = (0 : ℕ) + i0 + (if false then (d : ℤ) else -d) + (2 * A : ℕ) * t := by
    refine ⟨(i + d) % (2 * A), Nat.mod_lt _ (by omega), (((i + d) / (2 * A) : ℕ) : ℤ), ?_⟩
    have := Nat.mod_add_div (i + d) (2 * A)
    have h3 : (((i + d) % (2 * A) : ℕ) : ℤ) + ((2 * A : ℕ) : ℤ) * (((i + d) / (2 * A) : ℕ) : ℤ) = i + d := by exact_mod_cast this
    simp only [Bool.false_eq_true, if_false]
    push_cast at h3 ⊢
    linarith
  obtain ⟨j0, h3, h4⟩ : ∃ j0 < 2 * A, ∃ t : ℤ, (j : ℤ) = (0 : ℕ) + j0 + (if false then (d : ℤ) else -d) + (2 * A : ℕ) * t := by
    refine ⟨(j + d) % (2 * A), Nat.mod_lt _ (by omega), (((j + d) / (2 * A) : ℕ) : ℤ), ?_⟩
    have := Nat.mod_add_div (j + d) (2 * A)
    have h3 : (((j + d) % (2 * A) : ℕ) : ℤ) + ((2 * A : ℕ) : ℤ) * (((j + d) / (2 * A) : ℕ) : ℤ) = j + d := by exact_mod_cast this
    simp only [Bool.false_eq_true, if_false]
    push_cast at h3 ⊢
    linarith
  have := C97_one_face A (2 * A) 0 d (by omega) (by omega) scale hs hd (tiltWave A a b) (fun _ => (0, 0)) (fun _ => 1) false false (by
    intro k l hk hl hkl
    rw [focal_eq A (2 * A) (2 * 0) (by omega) (by omega), hmod, tiltWave_spectrum A hA a b k l ha' hb' hk hl, if_neg]
    rintro ⟨rfl, rfl⟩
    apply hkl
    simp [not_lt.2 ha, not_lt.2 hb]) i0 j0 i j h1 h3 h2 h4
  rw [mul_zero] at this
  rw [this]
  unfold tiltWave
  rw [ph_normSq, mul_one]

end Specula
