import Mathlib.Tactic.Ring
import Mathlib.Tactic.FieldSimp
import Mathlib.Tactic.Linarith
import Mathlib.Tactic.NormNum
import Mathlib.Tactic.Positivity
import Verif.Model.Vibration
import Verif.Props.Psf

/-!
# C87: vibrations from spectra
-/

namespace Specula
open Finset

theorem inv_coeff (w : ℕ) (hw : 0 < w) (c : ℕ → ℂ) (k : ℕ) (hk : k < w) :
    ∑ t ∈ range w, (∑ m ∈ range w, c m * twiddle w (-((m : ℤ) * t))) * twiddle w ((k : ℤ) * t) = w * c k := by
  have e : ∀ t, (∑ m ∈ range w, c m * twiddle w (-((m : ℤ) * t))) * twiddle w ((k : ℤ) * t) = ∑ m ∈ range w, c m * twiddle w (t * ((k : ℤ) - m)) := by
    intro t
    rw [sum_mul]
    refine sum_congr rfl (fun m _ => ?_)
    rw [mul_assoc, ← twiddle_add]
    congr 2
    ring
  simp only [e]
  rw [sum_comm]
  simp only [← mul_sum]
  have h : ∀ m ∈ range w, c m * ∑ t ∈ range w, twiddle w (t * ((k : ℤ) - m)) = if k = m then (w : ℂ) * c k else 0 := by
    intro m hm
    rw [twiddle_orthogonal w hw k m hk (mem_range.1 hm)]
    by_cases h : k = m
    · subst h; simp; ring
    · simp [h]
  rw [sum_congr rfl h, sum_ite_eq, if_pos (mem_range.2 hk)]

theorem inv_power (w : ℕ) (hw : 0 < w) (c : ℕ → ℂ) :
    ∑ t ∈ range w, Complex.normSq (∑ m ∈ range w, c m * twiddle w (-((m : ℤ) * t))) = w * ∑ m ∈ range w, Complex.normSq (c m) := by
  have h := parseval w hw (fun m => (starRingEnd ℂ) (c m))
  simp only [Complex.normSq_conj] at h
  rw [← h]
  refine sum_congr rfl (fun t _ => ?_)
  rw [← Complex.normSq_conj, map_sum]
  congr 1
  refine sum_congr rfl (fun m _ => ?_)
  rw [map_mul, twiddle_conj, neg_neg, mul_comm (m : ℤ)]

theorem normSq_phase (x : ℝ) : Complex.normSq (Complex.exp (Complex.I * (x : ℂ))) = 1 := by
  rw [mul_comm, Complex.normSq_eq_norm_sq, Complex.norm_exp_ofReal_mul_I, one_pow]

theorem sum_amp (n : ℕ) (hn : 0 < n) (psd : ℕ → ℝ) (df : ℝ) (h : ∀ i < n, 0 ≤ psd i * df) :
    ∑ k ∈ range (2 * n), specAmp n psd df k ^ 2 = 2 * ∑ i ∈ range n, psd i * df - psd (n - 1) * df := by
  obtain ⟨m, rfl⟩ := Nat.exists_eq_succ_of_ne_zero hn.ne'
  have e1 : 2 * (m + 1) = (m + 1) + 1 + m := by omega
  rw [e1, sum_range_add, sum_range_succ' _ (m + 1)]
  have a : ∑ k ∈ range (m + 1), specAmp (m + 1) psd df (k + 1) ^ 2 = ∑ i ∈ range (m + 1), psd i * df := by
    refine sum_congr rfl (fun k hk => ?_)
    have hk' := mem_range.1 hk
    unfold specAmp
    rw [if_neg (by omega), if_pos (by omega), Real.sq_sqrt (by simpa using h k hk')]
    simp
  have b : ∑ x ∈ range m, specAmp (m + 1) psd df (m + 1 + 1 + x) ^ 2 = ∑ i ∈ range m, psd i * df := by
    rw [← sum_range_reflect (fun i => psd i * df) m]
    refine sum_congr rfl (fun k hk => ?_)
    have hk' := mem_range.1 hk
    unfold specAmp
    have : 2 * (m + 1) - 1 - (m + 1 + 1 + k) = m - 1 - k := by omega
    rw [if_neg (by omega), if_neg (by omega), this, Real.sq_sqrt (h _ (by omega))]
  rw [a, b]
  have z : specAmp (m + 1) psd df 0 = 0 := by simp [specAmp]
  rw [z, sum_range_succ]
  simp
  ring

/-- **C87** (power): for any phases, the mean power of the two results together is twice the sum of the spectrum times the step of frequency, the
last value counted once. -/
theorem C87_power (n : ℕ) (hn : 0 < n) (psd : ℕ → ℝ) (fs : ℝ) (hfs : 0 ≤ fs) (h : ∀ i < n, 0 ≤ psd i) (ph : ℕ → ℝ) :
    (∑ t ∈ range (2 * n), ((psdToSignal n psd fs ph t).1 ^ 2 + (psdToSignal n psd fs ph t).2 ^ 2)) / (2 * n)
      = 2 * ∑ i ∈ range n, psd i * (fs / (2 * n)) - psd (n - 1) * (fs / (2 * n)) := by
  have hnr : (0 : ℝ) < n := by exact_mod_cast hn
  have edf : fs / n / 2 = fs / (2 * n) := by field_simp
  have e : ∀ t, (psdToSignal n psd fs ph t).1 ^ 2 + (psdToSignal n psd fs ph t).2 ^ 2 = Complex.normSq (psdTemp n psd fs ph t) := by
    intro t
    rw [Complex.normSq_apply]
    simp [psdToSignal]
    ring
  simp only [e]
  unfold psdTemp
  simp only
  rw [inv_power (2 * n) (by omega)]
  simp only [Complex.normSq_mul, normSq_phase, mul_one, Complex.normSq_ofReal, ← pow_two]
  rw [sum_amp n hn psd _ (fun i hi => mul_nonneg (h i hi) (by positivity)), edf]
  push_cast
  rw [mul_div_cancel_left₀ _ (by positivity)]

/-- **C87** (quarter turn): turning all phases by a quarter gives the second result with the opposite sign. -/
theorem C87_quarter (n : ℕ) (psd : ℕ → ℝ) (fs : ℝ) (ph : ℕ → ℝ) (t : ℕ) :
    (psdToSignal n psd fs (fun k => ph k + Real.pi / 2) t).1 = -(psdToSignal n psd fs ph t).2 := by
  have e : psdTemp n psd fs (fun k => ph k + Real.pi / 2) t = Complex.I * psdTemp n psd fs ph t := by
    unfold psdTemp
    simp only
    rw [mul_sum]
    refine sum_congr rfl (fun k _ => ?_)
    have : Complex.exp (Complex.I * ((ph k + Real.pi / 2 : ℝ) : ℂ)) = Complex.I * Complex.exp (Complex.I * (ph k : ℂ)) := by
      have h2 : Complex.exp (Complex.I * ((Real.pi / 2 : ℝ) : ℂ)) = Complex.I := by
        rw [mul_comm]; push_cast; exact Complex.exp_pi_div_two_mul_I
      push_cast at h2 ⊢
      rw [mul_add, Complex.exp_add, h2, mul_comm]
    rw [this]
    ring
  unfold psdToSignal
  simp only
  rw [e]
  simp

/-- **C87** (mean power): so the signal has, averaged over two sets of phases a quarter apart, the power of the one-sided spectrum, less half a
step of its last value. -/
theorem C87_variance (n : ℕ) (hn : 0 < n) (psd : ℕ → ℝ) (fs : ℝ) (hfs : 0 ≤ fs) (h : ∀ i < n, 0 ≤ psd i) (ph : ℕ → ℝ) :
    ((∑ t ∈ range (2 * n), (psdToSignal n psd fs ph t).1 ^ 2) / (2 * n)
      + (∑ t ∈ range (2 * n), (psdToSignal n psd fs (fun k => ph k + Real.pi / 2) t).1 ^ 2) / (2 * n)) / 2
      = ∑ i ∈ range n, psd i * (fs / (2 * n)) - psd (n - 1) * (fs / (2 * n)) / 2 := by
  have hp := C87_power n hn psd fs hfs h ph
  simp only [C87_quarter, neg_sq]
  rw [← add_div, ← sum_add_distrib, hp]
  ring

theorem signal_coeff (n : ℕ) (hn : 0 < n) (psd : ℕ → ℝ) (fs : ℝ) (ph : ℕ → ℝ) (k : ℕ) (hk : k < 2 * n) :
    ∑ t ∈ range (2 * n), ((psdToSignal n psd fs ph t).1 : ℂ) * twiddle (2 * n) ((k : ℤ) * t)
      = n * ((specAmp n psd (fs / n / 2) k : ℂ) * Complex.exp (Complex.I * (ph k : ℂ))
        + (specAmp n psd (fs / n / 2) ((2 * n - k) % (2 * n)) : ℂ) * Complex.exp (-(Complex.I * (ph ((2 * n - k) % (2 * n)) : ℂ)))) := by
  set c : ℕ → ℂ := fun k => (specAmp n psd (fs / n / 2) k : ℂ) * Complex.exp (Complex.I * (ph k : ℂ)) with hc
  have hw : 0 < 2 * n := by omega
  have e : ∀ t, ((psdToSignal n psd fs ph t).1 : ℂ) * twiddle (2 * n) ((k : ℤ) * t)
      = (psdTemp n psd fs ph t * twiddle (2 * n) ((k : ℤ) * t)
        + (starRingEnd ℂ) (psdTemp n psd fs ph t * twiddle (2 * n) (((((2 * n - k) % (2 * n) : ℕ) : ℤ)) * t))) / 2 := by
    intro t
    have h1 : (((psdToSignal n psd fs ph t).1 : ℝ) : ℂ) = (psdTemp n psd fs ph t + (starRingEnd ℂ) (psdTemp n psd fs ph t)) / 2 := by
      rw [Complex.add_conj]
      unfold psdToSignal
      simp
    have h2 : (starRingEnd ℂ) (twiddle (2 * n) (((((2 * n - k) % (2 * n) : ℕ) : ℤ)) * t)) = twiddle (2 * n) ((k : ℤ) * t) := by
      rw [twiddle_conj]
      by_cases hk0 : k = 0
      · subst hk0; simp
      · rw [Nat.mod_eq_of_lt (by omega), Nat.cast_sub hk.le]
        rw [← twiddle_period (2 * n) hw (-((((2 * n : ℕ) : ℤ) - k) * t)) t]
        congr 1
        ring
    rw [h1, map_mul, h2]
    ring
  rw [sum_congr rfl (fun t _ => e t), ← sum_div, sum_add_distrib, ← map_sum]
  have key : ∀ m, m < 2 * n → ∑ t ∈ range (2 * n), psdTemp n psd fs ph t * twiddle (2 * n) ((m : ℤ) * t) = ((2 * n : ℕ) : ℂ) * c m :=
    fun m hm => inv_coeff (2 * n) hw c m hm
  rw [key k hk, key _ (Nat.mod_lt _ hw), map_mul, map_natCast]
  have h3 : (starRingEnd ℂ) (c ((2 * n - k) % (2 * n)))
      = (specAmp n psd (fs / n / 2) ((2 * n - k) % (2 * n)) : ℂ) * Complex.exp (-(Complex.I * (ph ((2 * n - k) % (2 * n)) : ℂ))) := by
    rw [hc]
    simp only
    rw [map_mul, Complex.conj_ofReal, ← Complex.exp_conj, map_mul, Complex.conj_I, Complex.conj_ofReal, neg_mul]
  rw [h3, hc]
  push_cast
  ring

/-- **C87** (mean): the signal has mean zero. -/
theorem C87_mean (n : ℕ) (hn : 0 < n) (psd : ℕ → ℝ) (fs : ℝ) (ph : ℕ → ℝ) : ∑ t ∈ range (2 * n), (psdToSignal n psd fs ph t).1 = 0 := by
  have h := signal_coeff n hn psd fs ph 0 (by omega)
  have z : specAmp n psd (fs / n / 2) 0 = 0 := by simp [specAmp]
  simp only [Nat.sub_zero, Nat.mod_self, z] at h
  simp only [Nat.cast_zero, zero_mul, twiddle_zero, mul_one, Complex.ofReal_zero, add_zero, mul_zero] at h
  exact_mod_cast h

/-- **C87** (spectrum): the coefficient of the signal at the k-th frequency is the root of the k-th value of the spectrum times the step, times
the mean of two phases drawn independently, one of them reversed (for the last frequency, of the same phase). -/
theorem C87_spectrum (n : ℕ) (hn : 0 < n) (psd : ℕ → ℝ) (fs : ℝ) (ph : ℕ → ℝ) (k : ℕ) (h1 : 1 ≤ k) (hk : k ≤ n) :
    (∑ t ∈ range (2 * n), ((psdToSignal n psd fs ph t).1 : ℂ) * Complex.exp (-(2 * Real.pi * Complex.I * k * t / ((2 * n : ℕ) : ℂ)))) / ((2 * n : ℕ) : ℂ)
      = (Real.sqrt (psd (k - 1) * (fs / n / 2)) : ℂ) * ((Complex.exp (Complex.I * (ph k : ℂ)) + Complex.exp (-(Complex.I * (ph (2 * n - k) : ℂ)))) / 2) := by
  have hnc : (n : ℂ) ≠ 0 := by exact_mod_cast hn.ne'
  have h := signal_coeff n hn psd fs ph k (by omega)
  have ea : specAmp n psd (fs / n / 2) k = Real.sqrt (psd (k - 1) * (fs / n / 2)) := by
    unfold specAmp
    rw [if_neg (by omega), if_pos hk]
  have em : (2 * n - k) % (2 * n) = 2 * n - k := Nat.mod_eq_of_lt (by omega)
  have eb : specAmp n psd (fs / n / 2) (2 * n - k) = Real.sqrt (psd (k - 1) * (fs / n / 2)) := by
    unfold specAmp
    rw [if_neg (by omega)]
    split_ifs with hh
    · have : 2 * n - k - 1 = k - 1 := by omega
      rw [this]
    · have : 2 * n - 1 - (2 * n - k) = k - 1 := by omega
      rw [this]
  rw [em, ea, eb] at h
  have e : ∀ t : ℕ, twiddle (2 * n) ((k : ℤ) * t) = Complex.exp (-(2 * Real.pi * Complex.I * k * t / ((2 * n : ℕ) : ℂ))) := by
    intro t
    unfold twiddle
    congr 1
    push_cast
    ring
  simp only [e] at h
  rw [h]
  push_cast
  field_simp

/-- **C87** (spectrum, bound): it is never larger than that root. -/
theorem C87_bound (n : ℕ) (hn : 0 < n) (psd : ℕ → ℝ) (fs : ℝ) (ph : ℕ → ℝ) (k : ℕ) (h1 : 1 ≤ k) (hk : k ≤ n) :
    ‖(∑ t ∈ range (2 * n), ((psdToSignal n psd fs ph t).1 : ℂ) * Complex.exp (-(2 * Real.pi * Complex.I * k * t / ((2 * n : ℕ) : ℂ)))) / ((2 * n : ℕ) : ℂ)‖
      ≤ Real.sqrt (psd (k - 1) * (fs / n / 2)) := by
  rw [C87_spectrum n hn psd fs ph k h1 hk, norm_mul, Complex.norm_real, Real.norm_of_nonneg (Real.sqrt_nonneg _)]
  refine mul_le_of_le_one_right (Real.sqrt_nonneg _) ?_
  rw [norm_div]
  have a : ‖Complex.exp (Complex.I * (ph k : ℂ))‖ = 1 := by rw [mul_comm]; exact Complex.norm_exp_ofReal_mul_I _
  have b : ‖Complex.exp (-(Complex.I * (ph (2 * n - k) : ℂ)))‖ = 1 := by
    have : -(Complex.I * (ph (2 * n - k) : ℂ)) = ((-ph (2 * n - k) : ℝ) : ℂ) * Complex.I := by push_cast; ring
    rw [this]; exact Complex.norm_exp_ofReal_mul_I _
  have c := norm_add_le (Complex.exp (Complex.I * (ph k : ℂ))) (Complex.exp (-(Complex.I * (ph (2 * n - k) : ℂ))))
  rw [a, b] at c
  have d : ‖(2 : ℂ)‖ = 2 := by simp
  rw [d]
  linarith

/-- **C87** (axis): the k-th value of the spectrum is taken at the k-th frequency of the signal, for every k, only when the frequencies given go
from the step of the signal to half the sampling frequency. -/
theorem C87_axis (n : ℕ) (hn : 2 ≤ n) (f0 f1 fs : ℝ) :
    (∀ k, 1 ≤ k → k ≤ n → linBins f0 f1 n (k - 1) = k * (fs / (2 * n))) ↔ f0 = fs / (2 * n) ∧ f1 = fs / 2 := by
  have hnr : (n : ℝ) ≠ 0 := by positivity
  have hn1 : ((n - 1 : ℕ) : ℝ) ≠ 0 := by
    have : 0 < n - 1 := by omega
    positivity
  have hcast : ((n - 1 : ℕ) : ℝ) = n - 1 := by push_cast [Nat.cast_sub (show 1 ≤ n by omega)]; ring
  constructor
  · intro h
    have h1 := h 1 (le_refl _) (by omega)
    have h2 := h n (by omega) (le_refl _)
    unfold linBins at h1 h2
    rw [if_neg (by omega)] at h1 h2
    simp at h1
    rw [mul_div_cancel₀ _ hn1] at h2
    refine ⟨h1, ?_⟩
    have : f1 = n * (fs / (2 * n)) := by linarith
    rw [this]
    field_simp
  · rintro ⟨rfl, rfl⟩ k h1 hk
    unfold linBins
    rw [if_neg (by omega), Nat.cast_sub h1, hcast]
    rw [hcast] at hn1
    push_cast
    field_simp
    ring

theorem interp1_cons (a p b q : ℝ) (l : List (ℝ × ℝ)) (x : ℝ) :
    interp1 ((a, p) :: (b, q) :: l) x = if x < b then (if x ≤ a then p else p + (q - p) / (b - a) * (x - a)) else interp1 ((b, q) :: l) x := by
  rw [interp1]

/-- **C87** (interpolation): interpolated spectra stay between the bounds of the given one; so they are not negative, and constant when it is. -/
theorem C87_between (pts : List (ℝ × ℝ)) (hne : pts ≠ []) (lo hi : ℝ) (h : ∀ c ∈ pts, lo ≤ c.2 ∧ c.2 ≤ hi) (x : ℝ) : lo ≤ interp1 pts x ∧ interp1 pts x ≤ hi := by
  induction pts with
  | nil => exact absurd rfl hne
  | cons c l ih =>
    obtain ⟨a, p⟩ := c
    have hp := h (a, p) (by simp)
    cases l with
    | nil => simpa [interp1] using hp
    | cons c' l =>
      obtain ⟨b, q⟩ := c'
      have hq := h (b, q) (by simp)
      rw [interp1_cons]
      simp only at hp hq
      split_ifs with h1 h2
      · exact hp
      · push Not at h2
        have hd : 0 < b - a := by linarith
        have hr : (q - p) / (b - a) * (x - a) = (q - p) * ((x - a) / (b - a)) := by ring
        have r0 : 0 ≤ (x - a) / (b - a) := div_nonneg (by linarith) hd.le
        have r1 : (x - a) / (b - a) ≤ 1 := by rw [div_le_one hd]; linarith
        rw [hr]
        generalize (x - a) / (b - a) = r at *
        constructor <;> nlinarith
      · exact ih (by simp) (fun c hc => h c (by simp only [List.mem_cons] at hc ⊢; tauto))

/-- **C87** (knots): at the given frequencies the spectrum has the given values. -/
theorem C87_knots (pts : List (ℝ × ℝ)) (hs : (pts.map Prod.fst).Pairwise (· < ·)) (c : ℝ × ℝ) (hc : c ∈ pts) : interp1 pts c.1 = c.2 := by
  induction pts with
  | nil => cases hc
  | cons d l ih =>
    obtain ⟨a, p⟩ := d
    cases l with
    | nil =>
      simp only [List.mem_singleton] at hc
      subst hc
      simp [interp1]
    | cons c' l =>
      obtain ⟨b, q⟩ := c'
      simp only [List.map_cons] at hs
      have hab : a < b := (List.pairwise_cons.1 hs).1 b (by simp)
      rw [interp1_cons]
      rcases List.mem_cons.1 hc with rfl | hc'
      · simp only
        rw [if_pos hab, if_pos (le_refl _)]
      · have hb : b ≤ c.1 := by
          rcases List.mem_cons.1 hc' with rfl | h2
          · exact le_refl _
          · exact ((List.pairwise_cons.1 (List.pairwise_cons.1 hs).2).1 c.1 (List.mem_map.2 ⟨c, h2, rfl⟩)).le
        rw [if_neg (not_lt.2 hb)]
        exact ih (List.pairwise_cons.1 hs).2 hc'

/-- **C87** (given): a spectrum given at as many evenly spaced increasing frequencies as half the number of samples is used as it is. -/
theorem C87_given (n : ℕ) (hn : 2 ≤ n) (f0 step : ℝ) (hs : 0 < step) (psd : List ℝ) (hl : psd.length = n) (i : ℕ) (hi : i < n) :
    psdInterp n ((List.range n).map (fun k : ℕ => f0 + k * step)) psd i = psd.getD i 0 := by
  have hn1 : ((n - 1 : ℕ) : ℝ) ≠ 0 := by
    have : 0 < n - 1 := by omega
    positivity
  set fr : List ℝ := (List.range n).map (fun k : ℕ => f0 + k * step) with hfr
  have hlen : fr.length = n := by simp [hfr]
  have hh : fr.headD 0 = f0 := by
    obtain ⟨m, rfl⟩ : ∃ m, n = m + 1 := ⟨n - 1, by omega⟩
    rw [hfr, List.range_succ_eq_map]
    simp
  have ht : fr.getLastD 0 = f0 + ((n - 1 : ℕ) : ℝ) * step := by
    obtain ⟨m, rfl⟩ : ∃ m, n = m + 1 := ⟨n - 1, by omega⟩
    rw [hfr, List.range_succ, List.map_append, List.map_singleton]
    simp
  have ex : linBins (fr.headD 0) (fr.getLastD 0) n i = f0 + i * step := by
    unfold linBins
    rw [if_neg (by omega), hh, ht, add_sub_cancel_left, mul_div_cancel_left₀ _ hn1]
  unfold psdInterp
  rw [ex]
  have hm : (f0 + (i : ℝ) * step, psd.getD i 0) ∈ fr.zip psd := by
    have : (fr.zip psd)[i]'(by simp [hlen, hl, hi]) = (f0 + (i : ℝ) * step, psd.getD i 0) := by
      rw [List.getElem_zip]
      simp [hfr, List.getD_eq_getElem?_getD, hl, hi]
    rw [← this]
    exact List.getElem_mem _
  refine C87_knots _ ?_ _ hm
  rw [List.map_fst_zip (by omega), hfr, List.pairwise_map]
  refine List.Pairwise.imp (fun {a b} h => ?_) (List.pairwise_lt_range (n := n))
  have : (a : ℝ) < b := by exact_mod_cast h
  nlinarith

/-- What mode `i` of the history is, on its own. -/
noncomputable def modeSignal (rng : ℕ → ℕ → ℕ → ℝ) (n : ℕ) (freq psd : List ℝ) (seed : ℕ) (fs : ℝ) (t : ℕ) : ℝ :=
  (psdToSignal n (psdInterp n freq psd) fs (rng seed (2 * n)) t).1

/-- **C87** (modes): each mode is made from its own spectrum, its own frequencies (or the common ones) and the seed plus its number. From zero,
its first sample is taken from all. -/
theorem C87_modes (rng : ℕ → ℕ → ℕ → ℝ) (nmodes : ℕ) (psd : List (List ℝ)) (freq : FreqArg) (seed : ℕ) (fs : ℝ) (niter : ℕ) (z : Bool) (hist : ℕ → ℕ → ℝ)
    (h : vibHist rng nmodes psd freq seed fs niter z = some hist) (i : ℕ) (hi : i < nmodes) (f : List ℝ)
    (hf : (freq = .one f) ∨ ∃ fr, freq = .perMode fr ∧ fr[i]? = some f) (t : ℕ) :
    hist t i = modeSignal rng (halfSamples niter) f (psd.getD i []) (seed + i) fs t
      - (if z then modeSignal rng (halfSamples niter) f (psd.getD i []) (seed + i) fs 0 else 0) := by
  unfold vibHist at h
  simp only at h
  split_ifs at h
  simp only [Option.some.injEq] at h
  subst h
  have ep : (psd.take nmodes).getD i [] = psd.getD i [] := by
    simp [List.getD_eq_getElem?_getD, List.getElem?_take, hi]
  have ef : (freqRows nmodes freq).getD i [] = f := by
    unfold freqRows
    rcases hf with rfl | ⟨fr, rfl, hfr⟩
    · simp [List.getD_eq_getElem?_getD, List.getElem?_replicate, hi]
    · simp [List.getD_eq_getElem?_getD, List.getElem?_take, hi, hfr]
  simp only [ep, ef]
  cases z <;> simp [modeSignal, startFrom]

/-- **C87** (from zero): the first sample is then zero. -/
theorem C87_from_zero (rng : ℕ → ℕ → ℕ → ℝ) (nmodes : ℕ) (psd : List (List ℝ)) (freq : FreqArg) (seed : ℕ) (fs : ℝ) (niter : ℕ) (hist : ℕ → ℕ → ℝ)
    (h : vibHist rng nmodes psd freq seed fs niter true = some hist) (i : ℕ) : hist 0 i = 0 := by
  unfold vibHist at h
  simp only at h
  split_ifs at h
  simp only [Option.some.injEq] at h
  subst h
  simp [startFrom]

/-- **C87** (seeds): with the same frequencies, mode `i + 1` of one generator and mode `i` of another with the next seed have the same phases: if
their spectra are equal, so are they. -/
theorem C87_seeds (rng : ℕ → ℕ → ℕ → ℝ) (n m : ℕ) (psd psd' : List (List ℝ)) (f : List ℝ) (seed : ℕ) (fs : ℝ) (niter : ℕ) (z : Bool) (h1 h2 : ℕ → ℕ → ℝ)
    (e1 : vibHist rng n psd (.one f) seed fs niter z = some h1) (e2 : vibHist rng m psd' (.one f) (seed + 1) fs niter z = some h2)
    (i : ℕ) (hi : i + 1 < n) (hi' : i < m) (hp : psd.getD (i + 1) [] = psd'.getD i []) (t : ℕ) : h1 t (i + 1) = h2 t i := by
  rw [C87_modes rng n psd (.one f) seed fs niter z h1 e1 (i + 1) hi f (Or.inl rfl), C87_modes rng m psd' (.one f) (seed + 1) fs niter z h2 e2 i hi' f (Or.inl rfl), hp,
    show seed + (i + 1) = seed + 1 + i by omega]

/-- **C87** (refused): too few spectra or too few vectors of frequencies are refused; so is a run of no iterations. One vector of frequencies is
enough for any number of modes. -/
theorem C87_refused (rng : ℕ → ℕ → ℕ → ℝ) (nmodes : ℕ) (psd : List (List ℝ)) (freq : FreqArg) (seed : ℕ) (fs : ℝ) (niter : ℕ) (z : Bool) :
    (vibHist rng nmodes psd freq seed fs niter z).isSome ↔
      nmodes ≤ psd.length ∧ (∀ fr, freq = .perMode fr → nmodes ≤ fr.length)
      ∧ ∀ i < nmodes, ∀ f, ((freq = .one f) ∨ ∃ fr, freq = .perMode fr ∧ fr[i]? = some f) → f.length = (psd.getD i []).length ∧ f ≠ [] ∧ 0 < niter := by
  have hn : ∀ x, halfSamples x = 0 ↔ x = 0 := by intro x; unfold halfSamples; omega
  unfold vibHist freqRows
  simp only
  by_cases hp : nmodes ≤ psd.length
  · rw [if_neg (by simp; omega)]
    have ep : ∀ i < nmodes, (psd.take nmodes).getD i [] = psd.getD i [] := fun i hi => by
      simp [List.getD_eq_getElem?_getD, List.getElem?_take, hi]
    cases freq with
    | one f =>
      rw [if_neg (by simp)]
      have ef : ∀ i < nmodes, (List.replicate nmodes f).getD i [] = f := fun i hi => by
        simp [List.getD_eq_getElem?_getD, List.getElem?_replicate, hi]
      simp only [hp, true_and]
      split_ifs with hh
      · simp only [Option.isSome_none, Bool.false_eq_true, false_iff]
        rw [List.any_eq_true] at hh
        obtain ⟨i, hi, hc⟩ := hh
        have hi' := List.mem_range.1 hi
        rw [ep i hi', ef i hi', decide_eq_true_eq, hn] at hc
        rintro ⟨-, h⟩
        obtain ⟨a, b, c⟩ := h i hi' f (Or.inl rfl)
        rcases hc with hc | hc | hc
        · exact hc a
        · exact b hc
        · omega
      · simp only [Option.isSome_some, true_iff]
        refine ⟨fun fr h => (nomatch h), fun i hi g hg => ?_⟩
        have hg' : f = g := by
          rcases hg with h | ⟨fr, h, -⟩
          · exact FreqArg.one.inj h
          · exact nomatch h
        subst hg'
        have : ¬ _ := fun h => hh (List.any_eq_true.2 ⟨i, List.mem_range.2 hi, h⟩)
        rw [ep i hi, ef i hi, decide_eq_true_eq, hn] at this
        simp only [not_or, ne_eq, not_not] at this
        exact ⟨this.1, this.2.1, by omega⟩
    | perMode fr =>
      by_cases hf : nmodes ≤ fr.length
      · rw [if_neg (by simp; omega)]
        have ef : ∀ i < nmodes, ∀ g, fr[i]? = some g → (fr.take nmodes).getD i [] = g := fun i hi g hg => by
          simp [List.getD_eq_getElem?_getD, List.getElem?_take, hi, hg]
        simp only [hp, true_and]
        split_ifs with hh
        · simp only [Option.isSome_none, Bool.false_eq_true, false_iff]
          rw [List.any_eq_true] at hh
          obtain ⟨i, hi, hc⟩ := hh
          have hi' := List.mem_range.1 hi
          have hg : fr[i]? = some fr[i] := List.getElem?_eq_getElem (by omega)
          rw [ep i hi', ef i hi' _ hg, decide_eq_true_eq, hn] at hc
          rintro ⟨-, h⟩
          obtain ⟨a, b, c⟩ := h i hi' _ (Or.inr ⟨fr, rfl, hg⟩)
          rcases hc with hc | hc | hc
          · exact hc a
          · exact b hc
          · omega
        · simp only [Option.isSome_some, true_iff]
          refine ⟨fun fr' h => by cases h; exact hf, fun i hi g hg => ?_⟩
          have hg' : fr[i]? = some g := by
            rcases hg with h | ⟨fr', h, h'⟩
            · exact nomatch h
            · cases h; exact h'
          have : ¬ _ := fun h => hh (List.any_eq_true.2 ⟨i, List.mem_range.2 hi, h⟩)
          rw [ep i hi, ef i hi g hg', decide_eq_true_eq, hn] at this
          simp only [not_or, ne_eq, not_not] at this
          exact ⟨this.1, this.2.1, by omega⟩
      · rw [if_pos (by simp; omega)]
        simp only [Option.isSome_none, Bool.false_eq_true, false_iff]
        rintro ⟨-, h, -⟩
        exact hf (h fr rfl)
  · rw [if_pos (by simp; omega)]
    simp [hp]

/-- **C87** (output): there is a sample for every iteration, and one more when their number is odd; beyond, the last one is held. -/
theorem C87_output (hist : ℕ → ℕ → ℝ) (niter i : ℕ) :
    2 * halfSamples niter = niter + niter % 2 ∧ (∀ it < niter, vibOutput hist niter it i = hist it i)
    ∧ ∀ it, niter + niter % 2 ≤ it → vibOutput hist niter it i = hist (niter + niter % 2 - 1) i := by
  have e : 2 * halfSamples niter = niter + niter % 2 := by unfold halfSamples; omega
  refine ⟨e, fun it h => ?_, fun it h => ?_⟩
  · unfold vibOutput
    rw [if_pos (by omega)]
  · unfold vibOutput
    rw [e, if_neg (by omega)]

/-! Examples. -/

/-- A single frequency: with opposite phases at the two bins the signal has the whole amplitude. -/
example : (psdToSignal 1 (fun _ => 2) 1 (fun _ => 0) 0).1 = 1 := by
  unfold psdToSignal psdTemp
  simp [sum_range_succ, specAmp, twiddle_zero]

/-- Frequencies from zero to half the sampling frequency do not fit. -/
example : ¬ ∀ k, 1 ≤ k → k ≤ 4 → linBins 0 4 4 (k - 1) = k * (8 / (2 * (4 : ℕ))) := by
  rw [C87_axis 4 (by norm_num)]
  norm_num

example : interp1 [(0, 1), (2, 5), (3, 0)] 1 = 3 := by
  rw [interp1_cons]; norm_num

example (rng : ℕ → ℕ → ℕ → ℝ) : (vibHist rng 2 [[1, 2], [3, 4]] (.one [1, 500]) 1987 1000 100 true).isSome := by
  rw [C87_refused]
  refine ⟨by simp, fun fr h => (nomatch h), fun i hi f hf => ?_⟩
  rcases hf with h | ⟨fr, h, -⟩
  · cases h
    have : i = 0 ∨ i = 1 := by omega
    rcases this with rfl | rfl <;> simp
  · exact nomatch h

end Specula
