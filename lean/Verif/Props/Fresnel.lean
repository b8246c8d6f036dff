import Mathlib.Tactic.Ring
import Mathlib.Tactic.FieldSimp
import Mathlib.Tactic.Linarith
import Mathlib.Tactic.NormNum
import Mathlib.Tactic.Positivity
import Verif.Model.Fresnel
import Verif.Props.Psf

/-!
# C86: physical propagation between layers
-/

namespace Specula
open Finset

/-- Wave of `a` periods along the rows and `b` along the columns. -/
noncomputable def planeWave (w a b i j : ℕ) : ℂ := Complex.exp (2 * Real.pi * Complex.I * ((a * i + b * j : ℕ) : ℂ) / w)

theorem planeWave_eq (w a b i j : ℕ) : planeWave w a b i j = twiddle w (-((a * i + b * j : ℕ) : ℤ)) := by
  unfold planeWave twiddle
  congr 1
  push_cast
  ring

theorem orth (w : ℕ) (hw : 0 < w) (k a : ℕ) (hk : k < w) (ha : a < w) :
    ∑ i ∈ range w, twiddle w (((i * k : ℕ) : ℤ) - ((i * a : ℕ) : ℤ)) = if k = a then (w : ℂ) else 0 := by
  rw [← twiddle_orthogonal w hw k a hk ha]
  refine sum_congr rfl (fun i _ => ?_)
  congr 1
  push_cast
  ring

theorem fft2_wave (w : ℕ) (hw : 0 < w) (a b k l : ℕ) (ha : a < w) (hb : b < w) (hk : k < w) (hl : l < w) :
    fft2 w (planeWave w a b) k l = if k = a ∧ l = b then (w : ℂ) ^ 2 else 0 := by
  unfold fft2
  have e : ∀ i j, planeWave w a b i j * twiddle w ((k * i + l * j : ℕ) : ℤ)
      = twiddle w (((i * k : ℕ) : ℤ) - ((i * a : ℕ) : ℤ)) * twiddle w (((j * l : ℕ) : ℤ) - ((j * b : ℕ) : ℤ)) := by
    intro i j
    rw [planeWave_eq, ← twiddle_add, ← twiddle_add]
    congr 1
    push_cast
    ring
  simp only [e, ← mul_sum, ← sum_mul]
  rw [orth w hw k a hk ha, orth w hw l b hl hb]
  by_cases h1 : k = a <;> by_cases h2 : l = b <;> simp [h1, h2, pow_two]

theorem fft2_sum (w : ℕ) (c : ℕ → ℕ → ℂ) (v : ℕ → ℕ → ℕ → ℕ → ℂ) (k l : ℕ) :
    fft2 w (fun i j => ∑ a ∈ range w, ∑ b ∈ range w, c a b * v a b i j) k l
      = ∑ a ∈ range w, ∑ b ∈ range w, c a b * fft2 w (v a b) k l := by
  unfold fft2
  simp only [sum_mul, mul_sum]
  rw [sum_congr rfl (fun i _ => sum_comm), sum_comm]
  refine sum_congr rfl (fun a _ => ?_)
  rw [sum_congr rfl (fun i _ => sum_comm), sum_comm]
  refine sum_congr rfl (fun b _ => sum_congr rfl (fun i _ => sum_congr rfl (fun j _ => by ring)))

theorem ifft2_waves (w : ℕ) (G : ℕ → ℕ → ℂ) (i j : ℕ) :
    ifft2 w G i j = ∑ a ∈ range w, ∑ b ∈ range w, G a b * planeWave w a b i j := by
  unfold ifft2
  simp only [planeWave_eq]

theorem fft2_ifft2 (w : ℕ) (hw : 0 < w) (G : ℕ → ℕ → ℂ) (k l : ℕ) (hk : k < w) (hl : l < w) : fft2 w (ifft2 w G) k l = (w : ℂ) ^ 2 * G k l := by
  have e : ifft2 w G = fun i j => ∑ a ∈ range w, ∑ b ∈ range w, G a b * planeWave w a b i j := by
    funext i j
    exact ifft2_waves w G i j
  rw [e, fft2_sum]
  have h : ∀ a ∈ range w, ∑ b ∈ range w, G a b * fft2 w (planeWave w a b) k l = if k = a then (w : ℂ) ^ 2 * G k l else 0 := by
    intro a ha
    have h' : ∀ b ∈ range w, G a b * fft2 w (planeWave w a b) k l = if l = b then (if k = a then (w : ℂ) ^ 2 * G k l else 0) else 0 := by
      intro b hb
      rw [fft2_wave w hw a b k l (mem_range.1 ha) (mem_range.1 hb) hk hl]
      by_cases h1 : k = a
      · by_cases h2 : l = b
        · subst h1 h2; simp; ring
        · simp [h2]
      · simp [h1]
    rw [sum_congr rfl h', sum_ite_eq, if_pos (mem_range.2 hl)]
  rw [sum_congr rfl h, sum_ite_eq, if_pos (mem_range.2 hk)]

theorem fft2_conj' (w : ℕ) (u : ℕ → ℕ → ℂ) (k l : ℕ) : (starRingEnd ℂ) (fft2 w u k l) = ifft2 w (fun i j => (starRingEnd ℂ) (u i j)) k l := by
  unfold fft2 ifft2
  rw [map_sum]
  refine sum_congr rfl (fun i _ => ?_)
  rw [map_sum]
  refine sum_congr rfl (fun j _ => ?_)
  rw [map_mul, twiddle_conj]
  congr 3
  rw [Nat.mul_comm k i, Nat.mul_comm l j]

theorem ifft2_fft2 (w : ℕ) (hw : 0 < w) (u : ℕ → ℕ → ℂ) (i j : ℕ) (hi : i < w) (hj : j < w) : ifft2 w (fft2 w u) i j = (w : ℂ) ^ 2 * u i j := by
  have e : ifft2 w (fft2 w u) i j = (starRingEnd ℂ) (fft2 w (fun k l => (starRingEnd ℂ) (fft2 w u k l)) i j) := by
    rw [fft2_conj']
    simp only [Complex.conj_conj]
  rw [e]
  have e2 : (fun k l => (starRingEnd ℂ) (fft2 w u k l)) = ifft2 w (fun i j => (starRingEnd ℂ) (u i j)) := by
    funext k l
    exact fft2_conj' w u k l
  rw [e2, fft2_ifft2 w hw _ i j hi hj, map_mul, Complex.conj_conj, map_pow, map_natCast]

theorem parseval2_inverse (w : ℕ) (hw : 0 < w) (G : ℕ → ℕ → ℂ) :
    ∑ i ∈ range w, ∑ j ∈ range w, Complex.normSq (ifft2 w G i j) = (w : ℝ) ^ 2 * ∑ k ∈ range w, ∑ l ∈ range w, Complex.normSq (G k l) := by
  have e : ∀ i j, Complex.normSq (ifft2 w G i j) = Complex.normSq (fft2 w (fun k l => (starRingEnd ℂ) (G k l)) i j) := by
    intro i j
    rw [← Complex.normSq_conj (fft2 w (fun k l => (starRingEnd ℂ) (G k l)) i j), fft2_conj']
    simp only [Complex.conj_conj]
  simp only [e]
  rw [parseval2 w hw]
  simp only [Complex.normSq_conj]

theorem shift_back (w k : ℕ) (hk : k < w) : fftshiftIdx w (ifftshiftIdx w k) = k := by
  have hlt : ifftshiftIdx w k < w := Nat.mod_lt _ (by omega)
  rw [fftshiftIdx_eq w _ hlt]
  unfold ifftshiftIdx
  by_cases h : k + w / 2 < w
  · rw [Nat.mod_eq_of_lt h]
    split <;> omega
  · rw [Nat.mod_eq_sub_mod (by omega), Nat.mod_eq_of_lt (by omega)]
    split <;> omega

theorem propPadded_eq (w : ℕ) (H : ℕ → ℕ → ℂ) (u : ℕ → ℕ → ℂ) (i j : ℕ) :
    propPadded w H u i j = ifft2 w (fun k l => fft2 w u k l / w * H (ifftshiftIdx w k) (ifftshiftIdx w l)) i j / w := by
  unfold propPadded ifft2
  simp only
  refine congrArg (· / (w : ℂ)) (sum_congr rfl (fun k hk => sum_congr rfl (fun l hl => ?_)))
  rw [shift_back w k (mem_range.1 hk), shift_back w l (mem_range.1 hl)]

/-- **C86** (waves): a wave of whole periods comes out multiplied by the propagator at its frequency. -/
theorem C86_waves (w : ℕ) (H : ℕ → ℕ → ℂ) (a b : ℕ) (ha : a < w) (hb : b < w) (i j : ℕ) :
    propPadded w H (planeWave w a b) i j = H (ifftshiftIdx w a) (ifftshiftIdx w b) * planeWave w a b i j := by
  have hw : 0 < w := by omega
  have hwc : (w : ℂ) ≠ 0 := by exact_mod_cast hw.ne'
  rw [propPadded_eq, ifft2_waves]
  have h : ∀ k ∈ range w, ∑ l ∈ range w, fft2 w (planeWave w a b) k l / w * H (ifftshiftIdx w k) (ifftshiftIdx w l) * planeWave w k l i j
      = if a = k then (w : ℂ) * H (ifftshiftIdx w a) (ifftshiftIdx w b) * planeWave w a b i j else 0 := by
    intro k hk
    have h' : ∀ l ∈ range w, fft2 w (planeWave w a b) k l / w * H (ifftshiftIdx w k) (ifftshiftIdx w l) * planeWave w k l i j
        = if b = l then (if a = k then (w : ℂ) * H (ifftshiftIdx w a) (ifftshiftIdx w b) * planeWave w a b i j else 0) else 0 := by
      intro l hl
      rw [fft2_wave w hw a b k l ha hb (mem_range.1 hk) (mem_range.1 hl)]
      by_cases h1 : a = k
      · by_cases h2 : b = l
        · subst h1 h2
          simp only [and_self, if_true]
          field_simp
        · rw [if_neg (fun h => h2 h.2.symm), if_neg h2]; simp
      · rw [if_neg (fun h => h1 h.1.symm), if_neg h1]; simp
    rw [sum_congr rfl h', sum_ite_eq, if_pos (mem_range.2 hb)]
  rw [sum_congr rfl h, sum_ite_eq, if_pos (mem_range.2 ha)]
  field_simp

/-- **C86** (linear): propagation is linear in the field. -/
theorem C86_linear (w : ℕ) (H : ℕ → ℕ → ℂ) (u v : ℕ → ℕ → ℂ) (x y : ℂ) (i j : ℕ) :
    propPadded w H (fun a b => x * u a b + y * v a b) i j = x * propPadded w H u i j + y * propPadded w H v i j := by
  have e : ∀ k l, fft2 w (fun a b => x * u a b + y * v a b) k l = x * fft2 w u k l + y * fft2 w v k l := by
    intro k l
    unfold fft2
    simp only [mul_sum, ← sum_add_distrib]
    exact sum_congr rfl (fun a _ => sum_congr rfl (fun b _ => by ring))
  rw [propPadded_eq, propPadded_eq, propPadded_eq]
  unfold ifft2
  simp only [e, mul_div_assoc', mul_sum, ← add_div, ← sum_add_distrib]
  congr 1
  exact sum_congr rfl (fun a _ => sum_congr rfl (fun b _ => by ring))

/-- Frequency of the k-th term of a discrete Fourier transform of w points, in periods: negative in the upper half. -/
def signedFreq (w k : ℕ) : ℤ := if k < (w + 1) / 2 then (k : ℤ) else (k : ℤ) - w

/-- **C86** (frequencies): with an even number of pixels the propagator is computed for the frequency it is applied to; with an odd number it is
computed for the frequency one step below. -/
theorem C86_frequencies (w k : ℕ) (hk : k < w) (size : ℝ) :
    propFreq w size (ifftshiftIdx w k) = ((signedFreq w k - (w % 2 : ℕ) : ℤ) : ℝ) / size := by
  unfold propFreq
  rw [mul_one_div]
  congr 2
  unfold signedFreq ifftshiftIdx
  by_cases h : k + w / 2 < w
  · rw [Nat.mod_eq_of_lt h, if_pos (by omega)]
    push_cast
    omega
  · rw [Nat.mod_eq_sub_mod (by omega), Nat.mod_eq_of_lt (by omega), if_neg (by omega)]
    omega

/-- Phase of paraxial propagation by `d` of a wave with `m` and `n` periods on the side. -/
noncomputable def fresnelPhase (size lam d : ℝ) (m n : ℤ) : ℂ :=
  Complex.exp (-(Complex.I * ((Real.pi * d * lam * (((n : ℝ) / size) ^ 2 + ((m : ℝ) / size) ^ 2) : ℝ) : ℂ)))

/-- The limit on frequencies is not reached, so that the distance is not reduced. -/
def Unreduced (w : ℕ) (size lam d : ℝ) : Prop := (w : ℝ) / 2 * (1 / size) ≤ freqLimit size lam d

theorem kernel_plain (w : ℕ) (size lam d : ℝ) (hu : Unreduced w size lam d) (a b : ℕ) :
    propKernel w size lam 1 d a b = Complex.exp (-(Complex.I * ((Real.pi * d * lam * ((propFreq w size b) ^ 2 + (propFreq w size a) ^ 2) : ℝ) : ℂ))) := by
  have e : propLimit w size lam 1 d = (freqLimit size lam d, d) := by
    unfold propLimit
    rw [mul_one]
    exact if_neg (not_lt.2 hu)
  unfold propKernel
  rw [e]
  simp

/-- **C86** (Fresnel): for an even number of pixels, without band limit and where the distance is not reduced, every wave gets exactly the phase of
paraxial propagation. -/
theorem C86_fresnel (w : ℕ) (he : w % 2 = 0) (size lam d : ℝ) (hu : Unreduced w size lam d) (a b : ℕ) (ha : a < w) (hb : b < w) (i j : ℕ) :
    propPadded w (propKernel w size lam 1 d) (planeWave w a b) i j = fresnelPhase size lam d (signedFreq w a) (signedFreq w b) * planeWave w a b i j := by
  rw [C86_waves w _ a b ha hb, kernel_plain w size lam d hu, C86_frequencies w b hb, C86_frequencies w a ha, he]
  unfold fresnelPhase
  simp

/-- **C86** (odd): for an odd number of pixels every wave gets the phase of the wave with one period less along both axes; a uniform field gets a
phase too. -/
theorem C86_odd (w : ℕ) (ho : w % 2 = 1) (size lam d : ℝ) (hu : Unreduced w size lam d) (a b : ℕ) (ha : a < w) (hb : b < w) (i j : ℕ) :
    propPadded w (propKernel w size lam 1 d) (planeWave w a b) i j
      = fresnelPhase size lam d (signedFreq w a - 1) (signedFreq w b - 1) * planeWave w a b i j := by
  rw [C86_waves w _ a b ha hb, kernel_plain w size lam d hu, C86_frequencies w b hb, C86_frequencies w a ha, ho]
  unfold fresnelPhase
  simp

/-- **C86** (odd, shift): that is the right phase, times a constant, times the phase of a sideways shift by `lam * d / size` along both axes. -/
theorem C86_odd_shift (size lam d : ℝ) (m n : ℤ) :
    fresnelPhase size lam d (m - 1) (n - 1) = fresnelPhase size lam d 1 1 * fresnelPhase size lam d m n
      * Complex.exp (2 * Real.pi * Complex.I * (((m : ℝ) / size * (lam * d / size) + (n : ℝ) / size * (lam * d / size) : ℝ) : ℂ)) := by
  unfold fresnelPhase
  rw [← Complex.exp_add, ← Complex.exp_add]
  congr 1
  push_cast
  ring

theorem kernel_norm (w : ℕ) (size lam factor d : ℝ) (a b : ℕ) :
    Complex.normSq (propKernel w size lam factor d a b) ≤ 1 ∧ (1 ≤ factor → Complex.normSq (propKernel w size lam factor d a b) = 1) := by
  have hexp : ∀ x : ℝ, Complex.normSq (Complex.exp (-(Complex.I * (x : ℂ)))) = 1 := by
    intro x
    have e : -(Complex.I * (x : ℂ)) = ((-x : ℝ) : ℂ) * Complex.I := by push_cast; ring
    rw [e, Complex.normSq_eq_norm_sq, Complex.norm_exp_ofReal_mul_I, one_pow]
  unfold propKernel
  simp only
  split_ifs with h1 h2
  · rw [mul_one, hexp]
    exact ⟨le_refl _, fun _ => rfl⟩
  · rw [mul_zero, map_zero]
    exact ⟨by norm_num, fun h => absurd h (not_le.2 h1)⟩
  · rw [hexp]
    exact ⟨le_refl _, fun _ => rfl⟩

theorem energy_padded (w : ℕ) (hw : 0 < w) (H u : ℕ → ℕ → ℂ) :
    ∑ i ∈ range w, ∑ j ∈ range w, Complex.normSq (propPadded w H u i j)
      = (∑ k ∈ range w, ∑ l ∈ range w, Complex.normSq (fft2 w u k l) * Complex.normSq (H (ifftshiftIdx w k) (ifftshiftIdx w l))) / (w : ℝ) ^ 2 := by
  have hwr : (w : ℝ) ≠ 0 := by exact_mod_cast hw.ne'
  have e : ∀ i j, Complex.normSq (propPadded w H u i j)
      = Complex.normSq (ifft2 w (fun k l => fft2 w u k l / w * H (ifftshiftIdx w k) (ifftshiftIdx w l)) i j) / (w : ℝ) ^ 2 := by
    intro i j
    rw [propPadded_eq, Complex.normSq_div, Complex.normSq_natCast, pow_two]
  simp only [e, ← sum_div]
  rw [parseval2_inverse w hw]
  simp only [Complex.normSq_mul, Complex.normSq_div, Complex.normSq_natCast]
  have e2 : ∀ k l, Complex.normSq (fft2 w u k l) / ((w : ℝ) * w) * Complex.normSq (H (ifftshiftIdx w k) (ifftshiftIdx w l))
      = Complex.normSq (fft2 w u k l) * Complex.normSq (H (ifftshiftIdx w k) (ifftshiftIdx w l)) / ((w : ℝ) * w) := fun k l => by ring
  simp only [e2, ← sum_div]
  field_simp

/-- **C86** (energy): without band limit the padded field keeps its energy; with it, energy is never gained. -/
theorem C86_energy (w : ℕ) (hw : 0 < w) (size lam factor d : ℝ) (u : ℕ → ℕ → ℂ) :
    ∑ i ∈ range w, ∑ j ∈ range w, Complex.normSq (propPadded w (propKernel w size lam factor d) u i j) ≤ ∑ i ∈ range w, ∑ j ∈ range w, Complex.normSq (u i j)
    ∧ (1 ≤ factor → ∑ i ∈ range w, ∑ j ∈ range w, Complex.normSq (propPadded w (propKernel w size lam factor d) u i j)
        = ∑ i ∈ range w, ∑ j ∈ range w, Complex.normSq (u i j)) := by
  have hwr : (0 : ℝ) < w := by exact_mod_cast hw
  rw [energy_padded w hw]
  have hp := parseval2 w hw u
  constructor
  · rw [div_le_iff₀ (by positivity), mul_comm, ← hp]
    refine sum_le_sum (fun k _ => sum_le_sum (fun l _ => ?_))
    have := (kernel_norm w size lam factor d (ifftshiftIdx w k) (ifftshiftIdx w l)).1
    nlinarith [Complex.normSq_nonneg (fft2 w u k l)]
  · intro hf
    rw [div_eq_iff (by positivity), mul_comm (∑ i ∈ range w, ∑ j ∈ range w, Complex.normSq (u i j)), ← hp]
    refine sum_congr rfl (fun k _ => sum_congr rfl (fun l _ => ?_))
    rw [(kernel_norm w size lam factor d _ _).2 hf, mul_one]

theorem sum_padWindow (w p : ℕ) (hp : p ≤ w) (f : ℕ → ℝ) :
    ∑ i ∈ range p, f (i + padStart w p) = ∑ i ∈ range w, if padStart w p ≤ i ∧ i < padStart w p + p then f i else 0 := by
  rw [← sum_filter]
  refine sum_nbij' (fun i => i + padStart w p) (fun i => i - padStart w p) ?_ ?_ ?_ ?_ ?_
  · intro i hi
    simp only [mem_range, mem_filter] at hi ⊢
    unfold padStart at *
    omega
  · intro i hi
    simp only [mem_range, mem_filter] at hi ⊢
    omega
  · intro i hi; simp
  · intro i hi
    simp only [mem_range, mem_filter] at hi ⊢
    omega
  · intro i _; rfl

theorem energy_pad (w p : ℕ) (hp : p ≤ w) (u : ℕ → ℕ → ℂ) :
    ∑ i ∈ range w, ∑ j ∈ range w, Complex.normSq (padCentre w p u i j) = ∑ i ∈ range p, ∑ j ∈ range p, Complex.normSq (u i j) := by
  have h1 : ∀ i, ∑ j ∈ range w, Complex.normSq (padCentre w p u i j)
      = if padStart w p ≤ i ∧ i < padStart w p + p then ∑ j ∈ range p, Complex.normSq (u (i - padStart w p) j) else 0 := by
    intro i
    split_ifs with h
    · have e : ∀ j, Complex.normSq (u (i - padStart w p) j) = (fun x => Complex.normSq (u (i - padStart w p) (x - padStart w p))) (j + padStart w p) := fun j => by simp
      rw [sum_congr rfl (fun j _ => e j), sum_padWindow w p hp (fun x => Complex.normSq (u (i - padStart w p) (x - padStart w p)))]
      refine sum_congr rfl (fun j _ => ?_)
      unfold padCentre
      simp only [h.1, h.2, true_and]
      split_ifs <;> simp
    · refine sum_eq_zero (fun j _ => ?_)
      unfold padCentre
      simp only
      rw [if_neg (fun hc => h ⟨hc.1, hc.2.1⟩), map_zero]
  simp only [h1]
  rw [← sum_padWindow w p hp (fun x => ∑ j ∈ range p, Complex.normSq (u (x - padStart w p) j))]
  simp

/-- **C86** (light): the field in the pupil after propagation has never more energy than before. -/
theorem C86_light (w p : ℕ) (hp : p ≤ w) (hw : 0 < w) (size lam factor d : ℝ) (u : ℕ → ℕ → ℂ) :
    ∑ i ∈ range p, ∑ j ∈ range p, Complex.normSq (physProp w p (propKernel w size lam factor d) u i j) ≤ ∑ i ∈ range p, ∑ j ∈ range p, Complex.normSq (u i j) := by
  rw [← energy_pad w p hp u]
  refine le_trans ?_ (C86_energy w hw size lam factor d (padCentre w p u)).1
  unfold physProp
  generalize propPadded w (propKernel w size lam factor d) (padCentre w p u) = v
  have h1 : ∀ a, ∑ j ∈ range p, Complex.normSq (v a (j + padStart w p)) ≤ ∑ j ∈ range w, Complex.normSq (v a j) := by
    intro a
    rw [sum_padWindow w p hp (fun x => Complex.normSq (v a x))]
    refine sum_le_sum (fun j _ => ?_)
    split_ifs
    · exact le_refl _
    · exact Complex.normSq_nonneg _
  refine le_trans (sum_le_sum (fun i _ => h1 (i + padStart w p))) ?_
  rw [sum_padWindow w p hp (fun x => ∑ j ∈ range w, Complex.normSq (v x j))]
  refine sum_le_sum (fun i _ => ?_)
  split_ifs
  · exact le_refl _
  · exact sum_nonneg (fun j _ => Complex.normSq_nonneg _)

/-- **C86** (nothing): with a propagator of ones the field comes out as it is. -/
theorem C86_identity (w p : ℕ) (hp : p ≤ w) (hw : 0 < w) (u : ℕ → ℕ → ℂ) (i j : ℕ) (hi : i < p) (hj : j < p) :
    physProp w p (fun _ _ => 1) u i j = u i j := by
  have hwc : (w : ℂ) ≠ 0 := by exact_mod_cast hw.ne'
  have hs : padStart w p + p ≤ w := by unfold padStart; omega
  unfold physProp
  rw [propPadded_eq]
  simp only [mul_one]
  have e : ifft2 w (fun k l => fft2 w (padCentre w p u) k l / w) (i + padStart w p) (j + padStart w p)
      = ifft2 w (fft2 w (padCentre w p u)) (i + padStart w p) (j + padStart w p) / w := by
    unfold ifft2
    rw [sum_div]
    refine sum_congr rfl (fun k _ => ?_)
    rw [sum_div]
    exact sum_congr rfl (fun l _ => by ring)
  rw [e, ifft2_fft2 w hw _ _ _ (by omega) (by omega)]
  unfold padCentre
  simp only
  rw [if_pos ⟨by omega, by omega, by omega, by omega⟩, Nat.add_sub_cancel, Nat.add_sub_cancel]
  field_simp

theorem fft2_congr (w : ℕ) (u v : ℕ → ℕ → ℂ) (h : ∀ i < w, ∀ j < w, u i j = v i j) (k l : ℕ) : fft2 w u k l = fft2 w v k l := by
  unfold fft2
  exact sum_congr rfl (fun i hi => sum_congr rfl (fun j hj => by rw [h i (mem_range.1 hi) j (mem_range.1 hj)]))

theorem prop_compose (w : ℕ) (hw : 0 < w) (H1 H2 u : ℕ → ℕ → ℂ) (i j : ℕ) :
    propPadded w H2 (propPadded w H1 u) i j = propPadded w (fun a b => H1 a b * H2 a b) u i j := by
  have hwc : (w : ℂ) ≠ 0 := by exact_mod_cast hw.ne'
  have e1 : propPadded w H1 u = ifft2 w (fun k l => fft2 w u k l / w * H1 (ifftshiftIdx w k) (ifftshiftIdx w l) / w) := by
    funext a b
    rw [propPadded_eq]
    unfold ifft2
    rw [sum_div]
    refine sum_congr rfl (fun k _ => ?_)
    rw [sum_div]
    exact sum_congr rfl (fun l _ => by ring)
  rw [propPadded_eq w H2, propPadded_eq w (fun a b => H1 a b * H2 a b)]
  congr 1
  unfold ifft2
  refine sum_congr rfl (fun k hk => sum_congr rfl (fun l hl => ?_))
  congr 1
  simp only
  rw [e1, fft2_ifft2 w hw _ k l (mem_range.1 hk) (mem_range.1 hl)]
  field_simp

theorem freqLimit_anti (size lam d d' : ℝ) (hs : 0 < size) (hl : 0 < lam) (hd : 0 ≤ d) (h : d ≤ d') : freqLimit size lam d' ≤ freqLimit size lam d := by
  unfold freqLimit
  have h1 : Real.sqrt (size ^ 2 + 4 * d ^ 2) ≤ Real.sqrt (size ^ 2 + 4 * d' ^ 2) := Real.sqrt_le_sqrt (by nlinarith)
  have h0 : 0 < Real.sqrt (size ^ 2 + 4 * d ^ 2) := Real.sqrt_pos.2 (by positivity)
  exact div_le_div_of_nonneg_left hs.le (by positivity) (mul_le_mul_of_nonneg_left h1 hl.le)

/-- **C86** (steps): two propagations of the padded field are one over the sum of the distances. -/
theorem C86_steps (w : ℕ) (hw : 0 < w) (size lam d e : ℝ) (hs : 0 < size) (hl : 0 < lam) (hd : 0 ≤ d) (he : 0 ≤ e) (hu : Unreduced w size lam (d + e))
    (u : ℕ → ℕ → ℂ) (i j : ℕ) :
    propPadded w (propKernel w size lam 1 e) (propPadded w (propKernel w size lam 1 d) u) i j = propPadded w (propKernel w size lam 1 (d + e)) u i j := by
  have hu1 : Unreduced w size lam d := le_trans hu (freqLimit_anti size lam d (d + e) hs hl hd (by linarith))
  have hu2 : Unreduced w size lam e := le_trans hu (freqLimit_anti size lam e (d + e) hs hl he (by linarith))
  rw [prop_compose w hw]
  congr 1
  funext a b
  rw [kernel_plain w size lam d hu1, kernel_plain w size lam e hu2, kernel_plain w size lam (d + e) hu, ← Complex.exp_add]
  congr 1
  push_cast
  ring

/-- **C86** (reduction): where the frequencies of the band do not propagate, the distance is reduced to the one at which the band just does. -/
theorem C86_reduction (w : ℕ) (size lam factor d : ℝ) (hs : 0 < size) (hl : 0 < lam) (hd : 0 ≤ d)
    (hp : 0 < (w : ℝ) / 2 * (1 / size) * factor) (hb : lam * ((w : ℝ) / 2 * (1 / size) * factor) ≤ 1)
    (h : freqLimit size lam d < (w : ℝ) / 2 * (1 / size) * factor) :
    (propLimit w size lam factor d).1 = (w : ℝ) / 2 * (1 / size) * factor ∧ 0 ≤ (propLimit w size lam factor d).2 ∧ (propLimit w size lam factor d).2 < d
    ∧ freqLimit size lam (propLimit w size lam factor d).2 = (propLimit w size lam factor d).1 := by
  unfold propLimit
  simp only
  rw [if_pos h]
  generalize (w : ℝ) / 2 * (1 / size) * factor = F at *
  have hq : 0 ≤ (size / F) ^ 2 / lam ^ 2 - size ^ 2 := by
    have : (size / F) ^ 2 / lam ^ 2 = size ^ 2 / (lam * F) ^ 2 := by field_simp
    rw [this, sub_nonneg, le_div_iff₀ (by positivity)]
    have h1 : 0 < lam * F := mul_pos hl hp
    have : (lam * F) ^ 2 ≤ 1 := by nlinarith
    nlinarith [sq_nonneg size]
  have hsq : size ^ 2 + 4 * (Real.sqrt ((size / F) ^ 2 / lam ^ 2 - size ^ 2) / 2) ^ 2 = (size / (lam * F)) ^ 2 := by
    rw [div_pow, Real.sq_sqrt hq]
    field_simp
    ring
  have hfix : freqLimit size lam (Real.sqrt ((size / F) ^ 2 / lam ^ 2 - size ^ 2) / 2) = F := by
    unfold freqLimit
    rw [hsq, Real.sqrt_sq (by positivity)]
    field_simp
  refine ⟨rfl, by positivity, ?_, hfix⟩
  by_contra hc
  have := freqLimit_anti size lam d _ hs hl hd (not_lt.1 hc)
  rw [hfix] at this
  linarith

/-- **C86** (band): with a band limit every wave is either removed or gets the phase for the (possibly reduced) distance. It is removed when its
frequency along one axis exceeds the limit, and kept when its frequency is within the limit as a whole. -/
theorem C86_band (w : ℕ) (he : w % 2 = 0) (size lam factor d : ℝ) (hl : 0 < lam) (hf : factor < 1)
    (hlim : 0 < (propLimit w size lam factor d).1) (hll : (propLimit w size lam factor d).1 * lam ≤ 1) (a b : ℕ) (ha : a < w) (hb : b < w) (i j : ℕ) :
    (((propLimit w size lam factor d).1 < |(signedFreq w a : ℝ) / size| ∨ (propLimit w size lam factor d).1 < |(signedFreq w b : ℝ) / size|) →
      propPadded w (propKernel w size lam factor d) (planeWave w a b) i j = 0)
    ∧ (((signedFreq w a : ℝ) / size) ^ 2 + ((signedFreq w b : ℝ) / size) ^ 2 ≤ (propLimit w size lam factor d).1 ^ 2 →
      propPadded w (propKernel w size lam factor d) (planeWave w a b) i j
        = fresnelPhase size lam (propLimit w size lam factor d).2 (signedFreq w a) (signedFreq w b) * planeWave w a b i j) := by
  rw [C86_waves w _ a b ha hb]
  unfold propKernel
  rw [C86_frequencies w b hb, C86_frequencies w a ha, he]
  generalize propLimit w size lam factor d = L at *
  obtain ⟨lim, d'⟩ := L
  simp only [Nat.cast_zero, sub_zero, if_pos hf] at *
  generalize hm : (signedFreq w a : ℝ) / size = fa
  generalize hn : (signedFreq w b : ℝ) / size = fb
  have big : ∀ x y : ℝ, lim < |x| → ¬ (x / lim) ^ 2 + (y * lam) ^ 2 ≤ 1 := by
    intro x y h hc
    have h1 : 1 < |x / lim| := by rw [abs_div, abs_of_pos hlim, lt_div_iff₀ hlim, one_mul]; exact h
    have h2 : 1 < (x / lim) ^ 2 := by rw [← sq_abs]; nlinarith
    nlinarith [sq_nonneg (y * lam)]
  have small : ∀ x y : ℝ, x ^ 2 + y ^ 2 ≤ lim ^ 2 → (x / lim) ^ 2 + (y * lam) ^ 2 ≤ 1 := by
    intro x y h
    have h1 : (y * lam) ^ 2 ≤ y ^ 2 / lim ^ 2 := by
      rw [le_div_iff₀ (by positivity)]
      have h3 : (lim * lam) ^ 2 ≤ 1 := by
        have : 0 < lim * lam := mul_pos hlim hl
        nlinarith
      calc (y * lam) ^ 2 * lim ^ 2 = y ^ 2 * (lim * lam) ^ 2 := by ring
        _ ≤ y ^ 2 := by nlinarith [sq_nonneg y]
    have h2 : (x / lim) ^ 2 + y ^ 2 / lim ^ 2 = (x ^ 2 + y ^ 2) / lim ^ 2 := by rw [div_pow, ← add_div]
    have h4 : (x ^ 2 + y ^ 2) / lim ^ 2 ≤ 1 := by rw [div_le_one (by positivity)]; exact h
    linarith
  constructor
  · rintro (h | h)
    · rw [if_neg (fun hc => big fa fb h hc.2), mul_zero, zero_mul]
    · rw [if_neg (fun hc => big fb fa h hc.1), mul_zero, zero_mul]
  · intro h
    rw [if_pos ⟨small fb fa (by linarith), small fa fb h⟩, mul_one]
    unfold fresnelPhase
    rw [hm, hn]

/-- **C86** (stored): phase and amplitude as stored after the propagation give back the field at the same wavelength. -/
theorem C86_stored (z : ℂ) (lam : ℝ) (hl : lam ≠ 0) :
    (‖z‖ : ℂ) * Complex.exp (2 * Real.pi * Complex.I * ((Complex.arg z * lam / (2 * Real.pi) : ℝ) : ℂ) / (lam : ℂ)) = z := by
  have hlc : (lam : ℂ) ≠ 0 := by exact_mod_cast hl
  have hp : (Real.pi : ℂ) ≠ 0 := by exact_mod_cast Real.pi_ne_zero
  have e : 2 * Real.pi * Complex.I * ((Complex.arg z * lam / (2 * Real.pi) : ℝ) : ℂ) / (lam : ℂ) = (Complex.arg z : ℂ) * Complex.I := by
    push_cast
    field_simp
  rw [e]
  exact Complex.norm_mul_exp_arg_mul_I z

/-! ### Layers -/

/-- Distance as the code stores it: nothing for zero. -/
def stepOf (d : ℚ) : Option ℚ := if d ≠ 0 then some d else none

theorem diffAppend_get (h : List ℚ) (z : ℚ) : (diffAppend h z).length = h.length
    ∧ ∀ k, k < h.length → (diffAppend h z).getD k 0 = (if k + 1 < h.length then h.getD (k + 1) 0 else z) - h.getD k 0 := by
  induction h with
  | nil => simp [diffAppend]
  | cons a l ih =>
    cases l with
    | nil =>
      refine ⟨rfl, fun k hk => ?_⟩
      have : k = 0 := by simp at hk; omega
      subst this
      simp [diffAppend]
    | cons b l =>
      refine ⟨by simp [diffAppend, ih.1], fun k hk => ?_⟩
      cases k with
      | zero => simp [diffAppend]
      | succ k =>
        have hk' : k < (b :: l).length := by simpa using hk
        have := ih.2 k hk'
        simp only [diffAppend, List.getD_cons_succ]
        rw [this]
        by_cases hc : k + 1 < (b :: l).length
        · rw [if_pos hc, if_pos (by simpa using hc), List.getD_cons_succ]
        · rw [if_neg hc, if_neg (by simpa using hc)]

/-- Conditions under which the layers are accepted. -/
theorem fresnel_accepted (up : Bool) (h : List ℚ) (z : ℚ) : (fresnelSteps up h (some z)).isSome ↔ allClose h (sortHeights h) = true := by
  unfold fresnelSteps
  simp only
  cases allClose h (sortHeights h) <;> simp

/-- **C86** (order): layers from the lowest to the highest are accepted. Accepted layers are in that order up to the tolerance of `allclose`; a
source at infinity never is, in either direction. -/
theorem C86_order (up : Bool) (h : List ℚ) (z : ℚ) :
    (h.Pairwise (· ≤ ·) → (fresnelSteps up h (some z)).isSome)
    ∧ (∀ B : ℚ, (∀ x ∈ h, |x| ≤ B) → (fresnelSteps up h (some z)).isSome →
        ∀ i j, i < j → j < h.length → h.getD i 0 ≤ h.getD j 0 + 2 * (1 / 10 ^ 8 + 1 / 10 ^ 5 * B))
    ∧ fresnelSteps up h none = none := by
  refine ⟨fun hs => ?_, fun B hB ha i j hij hj => ?_, rfl⟩
  · rw [fresnel_accepted]
    have e : sortHeights h = h := hs.insertionSort_eq
    rw [e]
    unfold allClose
    rw [List.all_eq_true]
    intro x hx
    rw [List.zipWith_self] at hx
    obtain ⟨y, -, rfl⟩ := List.mem_map.1 hx
    simp only [id, sub_self, abs_zero, decide_eq_true_eq]
    positivity
  · rw [fresnel_accepted] at ha
    have hlen : (sortHeights h).length = h.length := List.length_insertionSort _ h
    have hclose : ∀ k, k < h.length → |h.getD k 0 - (sortHeights h).getD k 0| ≤ 1 / 10 ^ 8 + 1 / 10 ^ 5 * |(sortHeights h).getD k 0| := by
      intro k hk
      unfold allClose at ha
      rw [List.all_eq_true] at ha
      have hk' : k < (sortHeights h).length := by omega
      have := ha _ (List.getElem_mem (l := List.zipWith (fun x y => decide (|x - y| ≤ 1 / 10 ^ 8 + 1 / 10 ^ 5 * |y|)) h (sortHeights h)) (n := k)
        (by rw [List.length_zipWith]; omega))
      rw [List.getElem_zipWith] at this
      simpa [List.getD_eq_getElem?_getD, hk, hk'] using this
    have hmem : ∀ k, k < h.length → |(sortHeights h).getD k 0| ≤ B := by
      intro k hk
      have hk' : k < (sortHeights h).length := by omega
      apply hB
      have : (sortHeights h)[k] ∈ sortHeights h := List.getElem_mem hk'
      rw [List.getD_eq_getElem?_getD, List.getElem?_eq_getElem hk', Option.getD_some]
      exact ((List.mem_insertionSort _).1 this)
    have hsorted : (sortHeights h).getD i 0 ≤ (sortHeights h).getD j 0 := by
      have hp : (sortHeights h).Pairwise (· ≤ ·) := List.pairwise_insertionSort _ h
      have := List.pairwise_iff_getElem.1 hp i j (by omega) (by omega) hij
      have hi' : i < (sortHeights h).length := by omega
      have hj' : j < (sortHeights h).length := by omega
      simpa [List.getD_eq_getElem?_getD, hi', hj'] using this
    have a1 := abs_le.1 (hclose i (by omega))
    have a2 := abs_le.1 (hclose j hj)
    have b1 := hmem i (by omega)
    have b2 := hmem j hj
    linarith [a1.2, a2.1]

/-- **C86** (upwards): after each layer the field travels to the next one, after the last to the source; nothing is done between layers of equal
height. -/
theorem C86_up (h : List ℚ) (z : ℚ) (steps : List (Option ℚ)) (hs : fresnelSteps true h (some z) = some steps) :
    steps.length = h.length ∧ ∀ k, k < h.length → steps.getD k none = stepOf ((if k + 1 < h.length then h.getD (k + 1) 0 else z) - h.getD k 0) := by
  unfold fresnelSteps at hs
  simp only at hs
  split_ifs at hs
  simp only [Option.some.injEq, if_true] at hs
  subst hs
  refine ⟨by simp [diffAppend_get], fun k hk => ?_⟩
  rw [← (diffAppend_get h z).2 k hk]
  have hk' : k < (diffAppend h z).length := by rw [(diffAppend_get h z).1]; exact hk
  simp [List.getD_eq_getElem?_getD, hk', stepOf]

/-- **C86** (downwards): after the k-th layer from the top the field travels to the one below, whatever the height of the source; after the
lowest layer it does not travel any more, also when that layer is not on the ground. -/
theorem C86_down (h : List ℚ) (z : ℚ) (steps : List (Option ℚ)) (hs : fresnelSteps false h (some z) = some steps) (hne : h ≠ []) :
    steps.length = h.length
    ∧ (∀ k, k + 1 < h.length → steps.getD k none = stepOf (h.getD (h.length - 1 - k) 0 - h.getD (h.length - 2 - k) 0))
    ∧ steps.getD (h.length - 1) (some 0) = none := by
  have hpos : 0 < h.length := List.length_pos_iff.2 hne
  unfold fresnelSteps at hs
  simp only at hs
  split at hs
  · cases hs
  rw [if_neg (by decide), Option.some.injEq] at hs
  have hl := (diffAppend_get h z).1
  subst hs
  refine ⟨by simp [hl]; omega, fun k hk => ?_, ?_⟩
  · rw [List.getD_eq_getElem?_getD, List.getElem?_append_left (by simp [hl]; omega), List.getElem?_drop,
      List.getElem?_reverse (by simp [hl]; omega), List.getElem?_map, List.length_map, hl]
    have hk' : h.length - 1 - (1 + k) < (diffAppend h z).length := by omega
    rw [List.getElem?_eq_getElem hk']
    have := (diffAppend_get h z).2 (h.length - 1 - (1 + k)) (by omega)
    rw [List.getD_eq_getElem?_getD, List.getElem?_eq_getElem hk', Option.getD_some, if_pos (by omega)] at this
    rw [Option.map_some, Option.getD_some, this, show h.length - 1 - (1 + k) + 1 = h.length - 1 - k by omega,
      show h.length - 1 - (1 + k) = h.length - 2 - k by omega]
    rfl
  · rw [List.getD_eq_getElem?_getD, List.getElem?_append_right (by simp [hl])]
    simp [hl]

/-! Examples. -/

/-- Three layers, one on the ground. -/
example : fresnelSteps false [0, 0, 5000, 12000] (some 90000) = some [some 7000, some 5000, none, none] := by decide +kernel
example : fresnelSteps true [0, 0, 5000, 12000] (some 90000) = some [none, some 5000, some 7000, some 78000] := by decide +kernel
example : fresnelSteps true [5000, 0] (some 90000) = none := by decide +kernel

/-- Four pixels of half a metre, wavelength a micrometre, ten kilometres: the distance is not reduced. -/
example : Unreduced 4 2 (1 / 10 ^ 6) 10000 := by
  unfold Unreduced freqLimit
  have h : Real.sqrt (2 ^ 2 + 4 * 10000 ^ 2) ≤ 100000 := by
    rw [Real.sqrt_le_left (by norm_num)]
    norm_num
  have h0 : 0 < Real.sqrt (2 ^ 2 + 4 * 10000 ^ 2) := Real.sqrt_pos.2 (by norm_num)
  rw [le_div_iff₀ (by positivity)]
  norm_num at h h0 ⊢
  linarith

end Specula
