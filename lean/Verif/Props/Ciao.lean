import Mathlib.Tactic.Ring
import Mathlib.Tactic.Linarith
import Mathlib.Tactic.FieldSimp
import Mathlib.Tactic.Positivity
import Mathlib.Tactic.NormNum
import Verif.Model.Ciao
import Verif.Props.Psf
import Verif.Props.Fresnel
import Verif.Props.LgsKernel
import Verif.Props.Ccd
import Verif.Props.Resample
/-
C95: the rotating shearing interferometer and the measurement of its fringes.
-/
namespace Specula
open Finset

/-! ### Sensor -/

theorem efAtLambda_polar (e : EF ℝ) (wl : ℝ) (i j : ℕ) :
    efAtLambda e wl i j = ⟨e.A i j * Real.cos (e.phase i j * (2 * Real.pi / wl)), e.A i j * Real.sin (e.phase i j * (2 * Real.pi / wl))⟩ := by
  unfold efAtLambda
  rw [mul_comm Complex.I, Complex.exp_mul_I, ← Complex.ofReal_cos, ← Complex.ofReal_sin]
  apply Complex.ext <;>
    simp only [Complex.add_re, Complex.add_im, Complex.mul_re, Complex.mul_im, Complex.ofReal_re, Complex.ofReal_im, Complex.I_re, Complex.I_im] <;> ring

/-- Law of interference, with the fluxes of the two branches. -/
theorem C95_interference (flux wl : ℝ) (h0 : 0 ≤ flux) (h1 : flux ≤ 1) (e0 e1 : EF ℝ) (tilt : ℕ → ℕ → ℝ) (i j : ℕ) :
    ciaoInterf flux wl e0 e1 tilt i j = 2 * flux * e0.A i j ^ 2 + 2 * (1 - flux) * e1.A i j ^ 2 +
      4 * Real.sqrt (flux * (1 - flux)) * e0.A i j * e1.A i j * Real.cos ((e0.phase i j - e1.phase i j) * (2 * Real.pi / wl) - tilt i j) := by
  unfold ciaoInterf ciaoAmp
  dsimp only
  rw [efAtLambda_polar, efAtLambda_polar, mul_comm Complex.I, Complex.exp_mul_I, ← Complex.ofReal_cos, ← Complex.ofReal_sin, Complex.normSq_apply]
  have s0 : Real.sqrt (2 * flux) ^ 2 = 2 * flux := Real.sq_sqrt (by linarith)
  have s1 : Real.sqrt (2 * (1 - flux)) ^ 2 = 2 * (1 - flux) := Real.sq_sqrt (by linarith)
  have s2 : Real.sqrt (2 * flux) * Real.sqrt (2 * (1 - flux)) = 2 * Real.sqrt (flux * (1 - flux)) := by
    rw [← Real.sqrt_mul (by linarith)]
    have : 2 * flux * (2 * (1 - flux)) = 2 ^ 2 * (flux * (1 - flux)) := by ring
    rw [this, Real.sqrt_mul (by positivity), Real.sqrt_sq (by norm_num)]
  set a := Real.sqrt (2 * flux)
  set b := Real.sqrt (2 * (1 - flux))
  set p := e0.phase i j * (2 * Real.pi / wl) with hp
  set q := e1.phase i j * (2 * Real.pi / wl) with hq
  have hpq : (e0.phase i j - e1.phase i j) * (2 * Real.pi / wl) - tilt i j = p - (q + tilt i j) := by rw [hp, hq]; ring
  rw [hpq, Real.cos_sub, Real.cos_add, Real.sin_add]
  simp only [Complex.add_re, Complex.add_im, Complex.mul_re, Complex.mul_im, Complex.ofReal_re, Complex.ofReal_im, Complex.I_re, Complex.I_im]
  have c1 := Real.sin_sq_add_cos_sq p
  have c2 := Real.sin_sq_add_cos_sq q
  have c3 := Real.sin_sq_add_cos_sq (tilt i j)
  have e4 : 4 * Real.sqrt (flux * (1 - flux)) = 2 * (a * b) := by rw [s2]; ring
  rw [e4, ← s0, ← s1]
  set A := e0.A i j
  set B := e1.A i j
  have q1 : a ^ 2 * A ^ 2 = a ^ 2 * A ^ 2 * (Real.sin p ^ 2 + Real.cos p ^ 2) := by rw [c1, mul_one]
  have q2 : b ^ 2 * B ^ 2 = b ^ 2 * B ^ 2 * ((Real.sin q ^ 2 + Real.cos q ^ 2) * (Real.sin (tilt i j) ^ 2 + Real.cos (tilt i j) ^ 2)) := by
    rw [c2, c3, mul_one, mul_one]
  rw [q1, q2]
  ring

/-- A piston of the input field, that is of both branches, is not seen. -/
theorem C95_piston (flux wl c : ℝ) (h0 : 0 ≤ flux) (h1 : flux ≤ 1) (e0 e1 : EF ℝ) (tilt : ℕ → ℕ → ℝ) (i j : ℕ) :
    ciaoInterf flux wl { e0 with phase := fun i j => e0.phase i j + c } { e1 with phase := fun i j => e1.phase i j + c } tilt i j =
      ciaoInterf flux wl e0 e1 tilt i j := by
  rw [C95_interference _ _ h0 h1, C95_interference _ _ h0 h1]
  dsimp only
  rw [add_sub_add_right_eq_sub]

/-- The output has the photons of the input, if it is normalised and not dark. -/
theorem C95_photons (eps : ℝ) (n number : ℕ) (phot : ℝ) (img : ℕ → ℕ → ℝ) (out : Img ℝ) (h : ciaoOutput eps n number true phot img = some out)
    (r : Img ℝ) (hr : (if number = n then some ⟨n, n, img⟩ else toccd eps ⟨n, n, img⟩ number number none) = some r) (hp : 0 < r.total) :
    out.total = phot ∧ ∀ i j, out.px i j * r.total = r.px i j * phot := by
  unfold ciaoOutput at h
  rw [hr, Option.map_some, Option.some_inj] at h
  rw [if_pos ⟨rfl, hp⟩] at h
  rw [← h]
  constructor
  · unfold Img.total
    dsimp only
    simp only [← sum_mul]
    change r.total * (phot / r.total) = phot
    field_simp
  · intro i j
    dsimp only
    field_simp

/-- The tilt as a number of fringes: `m` times the wavelength over the side of the field gives `m` periods, with the origin on the pixel in
the middle. -/
theorem C95_fringe_period (n : ℕ) (hn : 0 < n) (pitch wl : ℝ) (hp : pitch ≠ 0) (hw : wl ≠ 0) (my mx : ℝ) (i j : ℕ) :
    ciaoTilt n pitch wl (mx * (wl * 1e-9) / (n * pitch)) (my * (wl * 1e-9) / (n * pitch)) i j =
      2 * Real.pi * (my * ((i : ℝ) - (n / 2 : ℕ)) + mx * ((j : ℝ) - (n / 2 : ℕ))) / n := by
  have hn' : (n : ℝ) ≠ 0 := by exact_mod_cast hn.ne'
  have x0 : ((n : ℝ) - 1) / 2 + (if n % 2 = 0 then 0.5 else 0) = ((n / 2 : ℕ) : ℝ) := by
    have h2 : (n : ℝ) = 2 * ((n / 2 : ℕ) : ℝ) + ((n % 2 : ℕ) : ℝ) := by exact_mod_cast (Nat.div_add_mod n 2).symm
    split_ifs with h
    · rw [h] at h2
      rw [h2]; push_cast; ring
    · have : n % 2 = 1 := by omega
      rw [this] at h2
      rw [h2]; push_cast; ring
  unfold ciaoTilt ciaoAxis
  dsimp only
  rw [x0]
  field_simp
  ring

/-- A rotation by 180° is not the reversal of the rows and columns: the row `i` is read at `n - 1 - i + i / n`. -/
theorem C95_rotation (P : EFIParams ℚ) (n : ℕ) (hn : 0 < n) (hr : P.rows = n) (hc : P.cols = n) (ho : P.outRows = n) (hoc : P.outCols = n)
    (hrot : P.rot = some (-1, 0)) (hm : P.mag = 1) (i j : ℕ) :
    efiXY P 0 0 i j = ((n : ℚ) - 1 - i + i / n, (n : ℚ) - 1 - j + j / n) := by
  have hn' : (n : ℚ) ≠ 0 := by exact_mod_cast hn.ne'
  unfold efiXY
  rw [hrot, hm, hr, hc, ho, hoc]
  simp only [Option.isSome_some, true_or, if_true]
  ext
  · dsimp only
    field_simp
    ring
  · dsimp only
    field_simp
    ring

/-! ### Slope computer -/

/-- Specification: a filter in the frequency plane, with the window centred as the shifted spectrum. -/
noncomputable def bandFilter (n : ℕ) (W : ℕ → ℕ → ℝ) (u : ℕ → ℕ → ℂ) (i j : ℕ) : ℂ :=
  ifft2 n (fun k l => fft2 n u k l * (W ((k + n / 2) % n) ((l + n / 2) % n) : ℂ)) i j / (n : ℂ) ^ 2

theorem nat_eq_of_emod (n a b : ℕ) (ha : a < n) (hb : b < n) (h : (a : ℤ) % n = (b : ℤ) % n) : a = b := by
  rw [Int.emod_eq_of_lt (by omega) (by omega), Int.emod_eq_of_lt (by omega) (by omega)] at h
  exact_mod_cast h

/-- Where the frequencies go. -/
theorem roll_index (n : ℕ) (hn : 0 < n) (s : ℤ) : ∃ c : ℕ, (∀ k, rollIdx n s (fftshiftIdx n k) = ((k + c) % n + n / 2) % n ∧
    fftshiftIdx n (rollIdx n s (fftshiftIdx n k)) = (k + c) % n) ∧ ∃ t : ℤ, (c : ℤ) = -(2 * (n / 2 : ℕ) + s) + n * t := by
  have hn0 : (n : ℤ) ≠ 0 := by exact_mod_cast hn.ne'
  have hz : (0 : ℤ) < n := by exact_mod_cast hn
  set c0 : ℤ := (-(2 * (n / 2 : ℕ) + s)) % n with hc0
  have hc1 : 0 ≤ c0 := Int.emod_nonneg _ hn0
  refine ⟨c0.toNat, ?_, ?_⟩
  · intro k
    have hr : ∀ k, rollIdx n s k < n := by
      intro k
      unfold rollIdx
      have := Int.emod_lt_of_pos ((k : ℤ) - s) hz
      have := Int.emod_nonneg ((k : ℤ) - s) hn0
      omega
    have cast_roll : ∀ k, ((rollIdx n s k : ℕ) : ℤ) = ((k : ℤ) - s) % n := by
      intro k
      unfold rollIdx
      exact Int.toNat_of_nonneg (Int.emod_nonneg _ hn0)
    have cast_shift : ∀ k, ((fftshiftIdx n k : ℕ) : ℤ) = ((k : ℤ) + (n - (n / 2 : ℕ))) % n := by
      intro k
      unfold fftshiftIdx
      rw [Int.natCast_mod, Nat.cast_add, Nat.cast_sub (Nat.div_le_self n 2)]
    have hct : ((c0.toNat : ℕ) : ℤ) = c0 := Int.toNat_of_nonneg hc1
    have m1 : ((rollIdx n s (fftshiftIdx n k) : ℕ) : ℤ) ≡ (k : ℤ) + (n - (n / 2 : ℕ)) - s [ZMOD n] := by
      rw [cast_roll, cast_shift]
      exact (Int.mod_modEq _ _).trans ((Int.mod_modEq _ _).sub_right s)
    have m2 : (((k + c0.toNat) % n : ℕ) : ℤ) ≡ (k : ℤ) - (2 * (n / 2 : ℕ) + s) [ZMOD n] := by
      rw [Int.natCast_mod, Nat.cast_add, hct, hc0]
      refine (Int.mod_modEq _ _).trans ?_
      have := (Int.mod_modEq (-(2 * ((n / 2 : ℕ) : ℤ) + s)) n).add_left (k : ℤ)
      rw [show (k : ℤ) + -(2 * ((n / 2 : ℕ) : ℤ) + s) = (k : ℤ) - (2 * ((n / 2 : ℕ) : ℤ) + s) by ring] at this
      exact this
    have key1 : rollIdx n s (fftshiftIdx n k) = ((k + c0.toNat) % n + n / 2) % n := by
      apply nat_eq_of_emod n _ _ (hr _) (Nat.mod_lt _ hn)
      refine m1.trans ?_
      rw [Int.natCast_mod, Nat.cast_add]
      refine Int.ModEq.trans ?_ ((Int.mod_modEq _ _).trans (m2.add_right _)).symm
      refine (Int.modEq_iff_dvd.2 ⟨-1, by ring⟩)
    refine ⟨key1, ?_⟩
    have hlt : fftshiftIdx n (rollIdx n s (fftshiftIdx n k)) < n := Nat.mod_lt _ hn
    apply nat_eq_of_emod n (fftshiftIdx n (rollIdx n s (fftshiftIdx n k))) _ hlt (Nat.mod_lt _ hn)
    rw [cast_shift]
    refine Int.ModEq.trans ((Int.mod_modEq _ _).trans (m1.add_right _)) (Int.ModEq.trans ?_ m2.symm)
    exact Int.modEq_iff_dvd.2 ⟨-2, by ring⟩
  · refine ⟨-((-(2 * (n / 2 : ℕ) + s)) / n), ?_⟩
    rw [Int.toNat_of_nonneg hc1, hc0, Int.emod_def]
    ring

/-- The demodulated image is the filtered image times a wave; `2 (n / 2)` is a whole period only if `n` is even. -/
theorem C95_demod (n : ℕ) (hn : 0 < n) (W : ℕ → ℕ → ℝ) (sy sx : ℤ) (px : ℕ → ℕ → ℝ) (i j : ℕ) :
    ciaoDemod n W sy sx px i j = twiddle n (-((2 * (n / 2 : ℕ) + sy) * i + (2 * (n / 2 : ℕ) + sx) * j)) * bandFilter n W (fun i j => (px i j : ℂ)) i j / n := by
  obtain ⟨cy, hy, ty, hty⟩ := roll_index n hn sy
  obtain ⟨cx, hx, tx, htx⟩ := roll_index n hn sx
  unfold ciaoDemod bandFilter ifft2
  dsimp only
  set u : ℕ → ℕ → ℂ := fun i j => (px i j : ℂ) with hu
  set G : ℕ → ℕ → ℂ := fun k l => fft2 n u k l * (W ((k + n / 2) % n) ((l + n / 2) % n) : ℂ) with hG
  have term : ∀ k l, fft2 n u (fftshiftIdx n (rollIdx n sy (fftshiftIdx n k))) (fftshiftIdx n (rollIdx n sx (fftshiftIdx n l))) / n *
      (W (rollIdx n sy (fftshiftIdx n k)) (rollIdx n sx (fftshiftIdx n l)) : ℂ) = G ((k + cy) % n) ((l + cx) % n) / n := by
    intro k l
    rw [(hy k).2, (hx l).2, (hy k).1, (hx l).1, hG]
    dsimp only
    ring
  simp only [term]
  set T : ℂ := twiddle n (-((2 * (n / 2 : ℕ) + sy) * i + (2 * (n / 2 : ℕ) + sx) * j)) with hT
  have tw : ∀ k l, twiddle n (-((k * i + l * j : ℕ) : ℤ)) = T * twiddle n (-((((k + cy) % n) * i + ((l + cx) % n) * j : ℕ) : ℤ)) := by
    intro k l
    have d1 : (k : ℤ) + cy = (((k + cy) % n : ℕ) : ℤ) + n * (((k + cy) / n : ℕ) : ℤ) := by exact_mod_cast (Nat.mod_add_div (k + cy) n).symm
    have d2 : (l : ℤ) + cx = (((l + cx) % n : ℕ) : ℤ) + n * (((l + cx) / n : ℕ) : ℤ) := by exact_mod_cast (Nat.mod_add_div (l + cx) n).symm
    rw [hT, ← twiddle_add, ← twiddle_period n hn _ (((((k + cy) / n : ℕ) : ℤ) - ty) * i + ((((l + cx) / n : ℕ) : ℤ) - tx) * j)]
    congr 1
    have p1 : ((k * i + l * j : ℕ) : ℤ) = (k : ℤ) * i + (l : ℤ) * j := by push_cast; ring
    have p2 : ((((k + cy) % n) * i + ((l + cx) % n) * j : ℕ) : ℤ) = (((k + cy) % n : ℕ) : ℤ) * i + (((l + cx) % n : ℕ) : ℤ) * j := by
      rw [Nat.cast_add, Nat.cast_mul, Nat.cast_mul]
    rw [p1, p2]
    linear_combination (-(i : ℤ)) * d1 + (-(j : ℤ)) * d2 + (i : ℤ) * hty + (j : ℤ) * htx
  have inner : ∀ k, ∑ l ∈ range n, G ((k + cy) % n) ((l + cx) % n) / n * twiddle n (-((k * i + l * j : ℕ) : ℤ)) =
      ∑ l ∈ range n, T * (G ((k + cy) % n) l / n * twiddle n (-((((k + cy) % n) * i + l * j : ℕ) : ℤ))) := by
    intro k
    rw [← sum_cyclic n cx hn (fun l => T * (G ((k + cy) % n) l / n * twiddle n (-((((k + cy) % n) * i + l * j : ℕ) : ℤ))))]
    refine sum_congr rfl fun l _ => ?_
    rw [tw k l]
    ring
  rw [sum_congr rfl fun k _ => inner k,
    sum_cyclic n cy hn (fun k => ∑ l ∈ range n, T * (G k l / n * twiddle n (-((k * i + l * j : ℕ) : ℤ))))]
  have fac : ∑ k ∈ range n, ∑ l ∈ range n, T * (G k l / n * twiddle n (-((k * i + l * j : ℕ) : ℤ))) =
      T / n * ∑ k ∈ range n, ∑ l ∈ range n, G k l * twiddle n (-((k * i + l * j : ℕ) : ℤ)) := by
    rw [mul_sum]
    refine sum_congr rfl fun k _ => ?_
    rw [mul_sum]
    refine sum_congr rfl fun l _ => ?_
    ring
  rw [fac]
  ring

/-- What is recovered: if the image is a part that the window stops and a part that it lets through, the second part, moved in frequency. -/
theorem C95_recover (n : ℕ) (hn : 0 < n) (W : ℕ → ℕ → ℝ) (sy sx : ℤ) (px : ℕ → ℕ → ℝ) (B S : ℕ → ℕ → ℂ) (h : ∀ i j, (px i j : ℂ) = B i j + S i j)
    (hB : ∀ k l, k < n → l < n → fft2 n B k l = 0 ∨ W ((k + n / 2) % n) ((l + n / 2) % n) = 0)
    (hS : ∀ k l, k < n → l < n → fft2 n S k l = 0 ∨ W ((k + n / 2) % n) ((l + n / 2) % n) = 1) (i j : ℕ) (hi : i < n) (hj : j < n) :
    ciaoDemod n W sy sx px i j = twiddle n (-((2 * (n / 2 : ℕ) + sy) * i + (2 * (n / 2 : ℕ) + sx) * j)) * S i j / n := by
  have hn' : (n : ℂ) ≠ 0 := by exact_mod_cast hn.ne'
  rw [C95_demod n hn]
  have e : ∀ k l, k < n → l < n → fft2 n (fun i j => (px i j : ℂ)) k l * (W ((k + n / 2) % n) ((l + n / 2) % n) : ℂ) = fft2 n S k l := by
    intro k l hk hl
    have e1 : fft2 n (fun i j => (px i j : ℂ)) k l = fft2 n B k l + fft2 n S k l := by
      unfold fft2
      rw [← sum_add_distrib]
      refine sum_congr rfl fun i _ => ?_
      rw [← sum_add_distrib]
      refine sum_congr rfl fun j _ => ?_
      dsimp only
      rw [h]; ring
    rw [e1, add_mul]
    have b0 : fft2 n B k l * (W ((k + n / 2) % n) ((l + n / 2) % n) : ℂ) = 0 := by
      rcases hB k l hk hl with hb | hb <;> rw [hb] <;> simp
    have s0 : fft2 n S k l * (W ((k + n / 2) % n) ((l + n / 2) % n) : ℂ) = fft2 n S k l := by
      rcases hS k l hk hl with hb | hb <;> rw [hb] <;> simp
    rw [b0, s0, zero_add]
  have e2 : bandFilter n W (fun i j => (px i j : ℂ)) i j = S i j := by
    unfold bandFilter
    have : ifft2 n (fun k l => fft2 n (fun i j => (px i j : ℂ)) k l * (W ((k + n / 2) % n) ((l + n / 2) % n) : ℂ)) i j = ifft2 n (fft2 n S) i j := by
      unfold ifft2
      refine sum_congr rfl fun k hk => sum_congr rfl fun l hl => ?_
      dsimp only
      rw [e k l (mem_range.1 hk) (mem_range.1 hl)]
    rw [this, ifft2_fft2 n hn S i j hi hj]
    field_simp
  rw [e2]

/-- The displacement of the side band: with `n` even and the window centred on the frequency `m`, it is `-m` and nothing is left. -/
theorem C95_shift_even (h : ℕ) (m : ℤ) : ciaoShift (2 * h) (h + m) = -m := by
  unfold ciaoShift
  have : (((2 * h : ℕ) : ℝ) / 2 - ((h : ℝ) + m)) = ((-m : ℤ) : ℝ) := by push_cast; ring
  rw [this]
  exact roundEvenF_eq _ _ (by simp)

/-- With `n` odd it is `-m` for even `m` and `1 - m` for odd `m`. -/
theorem C95_shift_odd (h : ℕ) (m : ℤ) : ciaoShift (2 * h + 1) (h + m) = if m % 2 = 0 then -m else 1 - m := by
  unfold ciaoShift
  have e : (((2 * h + 1 : ℕ) : ℝ) / 2 - ((h : ℝ) + m)) = ((-m : ℤ) : ℝ) + 1 / 2 := by push_cast; ring
  rw [e]
  unfold roundEvenF
  have hf : ⌊((-m : ℤ) : ℝ) + 1 / 2⌋ = -m := by
    rw [Int.floor_intCast_add]
    norm_num
  simp only [hf]
  rw [if_neg (by linarith), if_neg (by linarith)]
  by_cases hm : m % 2 = 0
  · rw [if_pos (by omega), if_pos hm]
  · rw [if_neg (by omega), if_neg hm]; ring

/-- Wave of `a` and `b` periods (also negative). -/
noncomputable def waveZ (n : ℕ) (a b : ℤ) (i j : ℕ) : ℂ := Complex.exp (Complex.I * ((2 * Real.pi * (a * i + b * j) / n : ℝ) : ℂ))

theorem waveZ_eq (n : ℕ) (a b : ℤ) (i j : ℕ) : waveZ n a b i j = twiddle n (-(a * i + b * j)) := by
  unfold waveZ twiddle
  congr 1
  push_cast
  ring

/-- With `n` odd, and a window centred on the side band of an even number of fringes, the result is the side band at zero frequency times
one period over the field: a wavefront without aberrations is measured as a tilt. -/
theorem C95_odd_tilt (h : ℕ) (m my : ℤ) (hm : m % 2 = 0) (hmy : my % 2 = 0) (W : ℕ → ℕ → ℝ) (px : ℕ → ℕ → ℝ) (B S : ℕ → ℕ → ℂ) (ψ : ℂ)
    (hS : ∀ i j, S i j = ψ * waveZ (2 * h + 1) my m i j) (hp : ∀ i j, (px i j : ℂ) = B i j + S i j)
    (hB : ∀ k l, k < 2 * h + 1 → l < 2 * h + 1 → fft2 (2 * h + 1) B k l = 0 ∨ W ((k + (2 * h + 1) / 2) % (2 * h + 1)) ((l + (2 * h + 1) / 2) % (2 * h + 1)) = 0)
    (hW : ∀ k l, k < 2 * h + 1 → l < 2 * h + 1 → fft2 (2 * h + 1) S k l = 0 ∨ W ((k + (2 * h + 1) / 2) % (2 * h + 1)) ((l + (2 * h + 1) / 2) % (2 * h + 1)) = 1)
    (i j : ℕ) (hi : i < 2 * h + 1) (hj : j < 2 * h + 1) :
    ciaoDemod (2 * h + 1) W (ciaoShift (2 * h + 1) (h + my)) (ciaoShift (2 * h + 1) (h + m)) px i j =
      ψ * waveZ (2 * h + 1) (-1) (-1) i j / ((2 * h + 1 : ℕ) : ℂ) := by
  rw [C95_recover (2 * h + 1) (by omega) W _ _ px B S hp hB hW i j hi hj, C95_shift_odd, C95_shift_odd, if_pos hm, if_pos hmy, hS, waveZ_eq, waveZ_eq]
  congr 1
  rw [mul_left_comm, ← twiddle_add]
  congr 1
  have hd : (2 * h + 1) / 2 = h := by omega
  rw [hd, ← twiddle_period (2 * h + 1) (by omega) _ ((i : ℤ) + j)]
  congr 1
  push_cast
  ring

/-- With an even size the result is the side band at zero frequency. -/
theorem C95_even (h : ℕ) (h0 : 0 < h) (m my : ℤ) (W : ℕ → ℕ → ℝ) (px : ℕ → ℕ → ℝ) (B ψ : ℕ → ℕ → ℂ)
    (hp : ∀ i j, (px i j : ℂ) = B i j + ψ i j * waveZ (2 * h) my m i j)
    (hB : ∀ k l, k < 2 * h → l < 2 * h → fft2 (2 * h) B k l = 0 ∨ W ((k + 2 * h / 2) % (2 * h)) ((l + 2 * h / 2) % (2 * h)) = 0)
    (hW : ∀ k l, k < 2 * h → l < 2 * h → fft2 (2 * h) (fun i j => ψ i j * waveZ (2 * h) my m i j) k l = 0 ∨
      W ((k + 2 * h / 2) % (2 * h)) ((l + 2 * h / 2) % (2 * h)) = 1)
    (i j : ℕ) (hi : i < 2 * h) (hj : j < 2 * h) :
    ciaoDemod (2 * h) W (ciaoShift (2 * h) (h + my)) (ciaoShift (2 * h) (h + m)) px i j = ψ i j / ((2 * h : ℕ) : ℂ) := by
  rw [C95_recover (2 * h) (by omega) W _ _ px B _ hp hB hW i j hi hj, C95_shift_even, C95_shift_even, waveZ_eq]
  congr 1
  rw [mul_left_comm, ← twiddle_add]
  have hd : 2 * h / 2 = h := by omega
  rw [hd]
  have : -((2 * ((h : ℕ) : ℤ) + -my) * i + (2 * (h : ℤ) + -m) * j) + -(my * i + m * j) = 0 + ((2 * h : ℕ) : ℤ) * (-(i : ℤ) - j) := by push_cast; ring
  rw [this, twiddle_period (2 * h) (by omega), twiddle_zero, mul_one]

/-- The window: one at its centre, less elsewhere, never zero. -/
theorem C95_window (wx wy sigma : ℝ) (hs : 0 < sigma) (y x : ℕ) :
    0 < ciaoWindow wx wy sigma y x ∧ ciaoWindow wx wy sigma y x ≤ 1 ∧ (ciaoWindow wx wy sigma y x = 1 ↔ (x : ℝ) = wx ∧ (y : ℝ) = wy) := by
  unfold ciaoWindow
  refine ⟨Real.exp_pos _, ?_, ?_⟩
  · rw [Real.exp_le_one_iff]
    have := sq_nonneg (((x : ℝ) - wx) ^ 2 / (2 * sigma ^ 2) + ((y : ℝ) - wy) ^ 2 / (2 * sigma ^ 2))
    linarith
  · rw [Real.exp_eq_one_iff, neg_eq_zero, sq_eq_zero_iff]
    have h2 : 0 < 2 * sigma ^ 2 := by positivity
    constructor
    · intro h
      have a1 : 0 ≤ ((x : ℝ) - wx) ^ 2 / (2 * sigma ^ 2) := by positivity
      have a2 : 0 ≤ ((y : ℝ) - wy) ^ 2 / (2 * sigma ^ 2) := by positivity
      have b1 : ((x : ℝ) - wx) ^ 2 / (2 * sigma ^ 2) = 0 := by linarith
      have b2 : ((y : ℝ) - wy) ^ 2 / (2 * sigma ^ 2) = 0 := by linarith
      rw [div_eq_zero_iff] at b1 b2
      constructor
      · rcases b1 with b | b
        · exact sub_eq_zero.1 (pow_eq_zero_iff (two_ne_zero) |>.1 b)
        · linarith
      · rcases b2 with b | b
        · exact sub_eq_zero.1 (pow_eq_zero_iff (two_ne_zero) |>.1 b)
        · linarith
    · rintro ⟨hx, hy⟩
      rw [hx, hy]; simp

/-- With an odd size and the window centred on an even number of fringes, for any window: the result is the filtered image moved to zero frequency
times one period over the field. -/
theorem C95_odd (h : ℕ) (m my : ℤ) (hm : m % 2 = 0) (hmy : my % 2 = 0) (W : ℕ → ℕ → ℝ) (px : ℕ → ℕ → ℝ) (i j : ℕ) :
    ciaoDemod (2 * h + 1) W (ciaoShift (2 * h + 1) (h + my)) (ciaoShift (2 * h + 1) (h + m)) px i j =
      waveZ (2 * h + 1) (-1) (-1) i j * (waveZ (2 * h + 1) (-my) (-m) i j * bandFilter (2 * h + 1) W (fun i j => (px i j : ℂ)) i j / ((2 * h + 1 : ℕ) : ℂ)) := by
  rw [C95_demod (2 * h + 1) (by omega), C95_shift_odd, C95_shift_odd, if_pos hm, if_pos hmy, waveZ_eq, waveZ_eq, ← mul_div_assoc, ← mul_assoc, ← twiddle_add]
  congr 2
  have hd : (2 * h + 1) / 2 = h := by omega
  rw [hd, ← twiddle_period (2 * h + 1) (by omega) _ ((i : ℤ) + j)]
  congr 1
  push_cast
  ring

/-- With an even size nothing is left, for any window. -/
theorem C95_even_any (h : ℕ) (h0 : 0 < h) (m my : ℤ) (W : ℕ → ℕ → ℝ) (px : ℕ → ℕ → ℝ) (i j : ℕ) :
    ciaoDemod (2 * h) W (ciaoShift (2 * h) (h + my)) (ciaoShift (2 * h) (h + m)) px i j =
      waveZ (2 * h) (-my) (-m) i j * bandFilter (2 * h) W (fun i j => (px i j : ℂ)) i j / ((2 * h : ℕ) : ℂ) := by
  rw [C95_demod (2 * h) (by omega), C95_shift_even, C95_shift_even, waveZ_eq]
  congr 2
  have hd : 2 * h / 2 = h := by omega
  rw [hd, ← twiddle_period (2 * h) (by omega) _ ((i : ℤ) + j)]
  congr 1
  push_cast
  ring

/-! #### Flat fringes through the window of the code -/

theorem waveZ_plane (n : ℕ) (hn : 0 < n) (a b : ℤ) (i j : ℕ) : waveZ n a b i j = planeWave n (a % n).toNat (b % n).toNat i j := by
  have hn0 : (n : ℤ) ≠ 0 := by exact_mod_cast hn.ne'
  rw [waveZ_eq, planeWave_eq]
  have h1 : (((a % n).toNat : ℕ) : ℤ) = a % n := Int.toNat_of_nonneg (Int.emod_nonneg _ hn0)
  have h2 : (((b % n).toNat : ℕ) : ℤ) = b % n := Int.toNat_of_nonneg (Int.emod_nonneg _ hn0)
  rw [← twiddle_period n hn (-(a * i + b * j)) (a / n * i + b / n * j)]
  congr 1
  push_cast
  rw [h1, h2, Int.emod_def, Int.emod_def]
  ring

/-- A wave goes through the filter with the value of the window at its frequency. -/
theorem bandFilter_wave (n : ℕ) (hn : 0 < n) (W : ℕ → ℕ → ℝ) (a b : ℤ) (i j : ℕ) :
    bandFilter n W (waveZ n a b) i j = (W (((a % n).toNat + n / 2) % n) (((b % n).toNat + n / 2) % n) : ℂ) * waveZ n a b i j := by
  have hn' : (n : ℂ) ≠ 0 := by exact_mod_cast hn.ne'
  have hz : (0 : ℤ) < n := by exact_mod_cast hn
  have ha : (a % n).toNat < n := by have := Int.emod_lt_of_pos a hz; have := Int.emod_nonneg a hz.ne'; omega
  have hb : (b % n).toNat < n := by have := Int.emod_lt_of_pos b hz; have := Int.emod_nonneg b hz.ne'; omega
  have e : waveZ n a b = planeWave n (a % n).toNat (b % n).toNat := by funext i j; exact waveZ_plane n hn a b i j
  rw [e]
  set p := (a % n).toNat
  set q := (b % n).toNat
  unfold bandFilter
  rw [ifft2_waves]
  rw [sum_eq_single_of_mem p (mem_range.2 ha), sum_eq_single_of_mem q (mem_range.2 hb)]
  · rw [fft2_wave n hn p q p q ha hb ha hb, if_pos ⟨rfl, rfl⟩]
    field_simp
  · intro l hl hne
    rw [fft2_wave n hn p q p l ha hb ha (mem_range.1 hl), if_neg (fun h => hne h.2), zero_mul, zero_mul]
  · intro k hk hne
    refine sum_eq_zero fun l hl => ?_
    rw [fft2_wave n hn p q k l ha hb (mem_range.1 hk) (mem_range.1 hl), if_neg (fun h => hne h.1), zero_mul, zero_mul]

theorem bandFilter_add (n : ℕ) (W : ℕ → ℕ → ℝ) (c d : ℂ) (u v : ℕ → ℕ → ℂ) (i j : ℕ) :
    bandFilter n W (fun i j => c * u i j + d * v i j) i j = c * bandFilter n W u i j + d * bandFilter n W v i j := by
  have hf : ∀ k l, fft2 n (fun i j => c * u i j + d * v i j) k l = c * fft2 n u k l + d * fft2 n v k l := by
    intro k l
    unfold fft2
    rw [mul_sum, mul_sum, ← sum_add_distrib]
    refine sum_congr rfl fun i _ => ?_
    rw [mul_sum, mul_sum, ← sum_add_distrib]
    refine sum_congr rfl fun j _ => ?_
    ring
  unfold bandFilter ifft2
  simp only [hf]
  rw [mul_div_assoc', mul_div_assoc', ← add_div, mul_sum, mul_sum, ← sum_add_distrib]
  congr 1
  refine sum_congr rfl fun k _ => ?_
  rw [mul_sum, mul_sum, ← sum_add_distrib]
  refine sum_congr rfl fun l _ => ?_
  ring

theorem norm_waveZ (n : ℕ) (a b : ℤ) (i j : ℕ) : ‖waveZ n a b i j‖ = 1 := by
  unfold waveZ
  rw [mul_comm]
  exact Complex.norm_exp_ofReal_mul_I _

theorem centred_index (h : ℕ) (h0 : 0 < h) (m : ℤ) (hl : -(h : ℤ) ≤ m) (hu : m < h) : (((m % (2 * h : ℕ)).toNat + 2 * h / 2) % (2 * h) : ℕ) = (h + m).toNat := by
  have hd : 2 * h / 2 = h := by omega
  rw [hd]
  have h2 : ((2 * h : ℕ) : ℤ) = 2 * h := by push_cast; ring
  rw [h2]
  by_cases hm : 0 ≤ m
  · rw [Int.emod_eq_of_lt hm (by omega), Nat.mod_eq_of_lt (by omega)]
    omega
  · have : m % (2 * (h : ℤ)) = m + 2 * h := by
      rw [← Int.add_emod_right]
      exact Int.emod_eq_of_lt (by omega) (by omega)
    rw [this]
    have : (m + 2 * (h : ℤ)).toNat + h = (h + m).toNat + 2 * h := by omega
    rw [this, Nat.add_mod_right, Nat.mod_eq_of_lt (by omega)]

/-- The window at the frequency `(a, b)`, centred at `(my, mx)`. -/
theorem window_at (h : ℕ) (mx my sigma : ℝ) (a b : ℤ) (ha : -(h : ℤ) ≤ a) (hb : -(h : ℤ) ≤ b) :
    ciaoWindow (h + mx) (h + my) sigma (h + a).toNat (h + b).toNat = Real.exp (-(((((b : ℝ) - mx) ^ 2 + ((a : ℝ) - my) ^ 2) / (2 * sigma ^ 2)) ^ 2)) := by
  have c1 : (((h + a).toNat : ℕ) : ℝ) = (h : ℝ) + a := by
    have : (((h + a).toNat : ℕ) : ℤ) = (h : ℤ) + a := Int.toNat_of_nonneg (by omega)
    exact_mod_cast this
  have c2 : (((h + b).toNat : ℕ) : ℝ) = (h : ℝ) + b := by
    have : (((h + b).toNat : ℕ) : ℤ) = (h : ℤ) + b := Int.toNat_of_nonneg (by omega)
    exact_mod_cast this
  unfold ciaoWindow
  rw [c1, c2]
  congr 1
  ring

/-- Straight fringes through the window of the code: the side band, and what the window lets through of the mean and of the other side band. -/
theorem C95_fringes (h : ℕ) (h0 : 0 < h) (my mx : ℤ) (hy : |my| < h) (hx : |mx| < h) (sigma a : ℝ) (ψ : ℂ) (px : ℕ → ℕ → ℝ)
    (hp : ∀ i j, (px i j : ℂ) = a + ψ * waveZ (2 * h) my mx i j + (starRingEnd ℂ) ψ * waveZ (2 * h) (-my) (-mx) i j) (i j : ℕ) :
    ((2 * h : ℕ) : ℂ) * ciaoDemod (2 * h) (ciaoWindow (h + mx) (h + my) sigma) (ciaoShift (2 * h) (h + my)) (ciaoShift (2 * h) (h + mx)) px i j =
      ψ + a * (Real.exp (-((((mx : ℝ) ^ 2 + (my : ℝ) ^ 2) / (2 * sigma ^ 2)) ^ 2)) : ℂ) * waveZ (2 * h) (-my) (-mx) i j +
        (starRingEnd ℂ) ψ * (Real.exp (-((4 * ((mx : ℝ) ^ 2 + (my : ℝ) ^ 2) / (2 * sigma ^ 2)) ^ 2)) : ℂ) * waveZ (2 * h) (-(2 * my)) (-(2 * mx)) i j := by
  have hn : 0 < 2 * h := by omega
  have hn' : ((2 * h : ℕ) : ℂ) ≠ 0 := by exact_mod_cast hn.ne'
  rw [abs_lt] at hy hx
  rw [C95_even_any h h0, mul_div_cancel₀ _ hn']
  have hpe : (fun i j => (px i j : ℂ)) = fun i j => 1 * ((a : ℂ) * waveZ (2 * h) 0 0 i j + ψ * waveZ (2 * h) my mx i j) + (starRingEnd ℂ) ψ * waveZ (2 * h) (-my) (-mx) i j := by
    funext i j
    rw [hp, one_mul]
    have : waveZ (2 * h) 0 0 i j = 1 := by unfold waveZ; simp
    rw [this, mul_one]
  rw [hpe, bandFilter_add, bandFilter_add, bandFilter_wave _ hn, bandFilter_wave _ hn, bandFilter_wave _ hn,
    centred_index h h0 0 (by omega) (by omega), centred_index h h0 my (by omega) (by omega), centred_index h h0 mx (by omega) (by omega),
    centred_index h h0 (-my) (by omega) (by omega), centred_index h h0 (-mx) (by omega) (by omega),
    window_at h mx my sigma 0 0 (by omega) (by omega), window_at h mx my sigma my mx (by omega) (by omega), window_at h mx my sigma (-my) (-mx) (by omega) (by omega)]
  have w0 : waveZ (2 * h) 0 0 i j = 1 := by unfold waveZ; simp
  have w1 : waveZ (2 * h) (-my) (-mx) i j * waveZ (2 * h) my mx i j = 1 := by
    rw [waveZ_eq, waveZ_eq, ← twiddle_add]
    rw [← twiddle_zero (2 * h)]
    congr 1; ring
  have w2 : waveZ (2 * h) (-(2 * my)) (-(2 * mx)) i j = waveZ (2 * h) (-my) (-mx) i j * waveZ (2 * h) (-my) (-mx) i j := by
    rw [waveZ_eq, waveZ_eq, ← twiddle_add]
    congr 1; ring
  have e1 : Real.exp (-((((mx : ℝ) - mx) ^ 2 + ((my : ℝ) - my) ^ 2) / (2 * sigma ^ 2)) ^ 2) = 1 := by simp
  have e0 : ((((0 : ℤ) : ℝ) - mx) ^ 2 + (((0 : ℤ) : ℝ) - my) ^ 2) = (mx : ℝ) ^ 2 + (my : ℝ) ^ 2 := by push_cast; ring
  have e2 : ((((-mx : ℤ) : ℝ) - mx) ^ 2 + (((-my : ℤ) : ℝ) - my) ^ 2) = 4 * ((mx : ℝ) ^ 2 + (my : ℝ) ^ 2) := by push_cast; ring
  rw [e0, e1, e2, w0, w2]
  push_cast
  linear_combination ψ * w1

/-- If a number is close to another one, so are their arguments. -/
theorem arg_close (w : ℂ) (ρ : ℝ) (h1 : ρ < 1) (h : ‖w - 1‖ ≤ ρ) : |Complex.arg w| ≤ Real.arcsin ρ := by
  have h0 : 0 ≤ ρ := le_trans (norm_nonneg _) h
  have hsq : (w.re - 1) ^ 2 + w.im ^ 2 ≤ ρ ^ 2 := by
    have e : ‖w - 1‖ ^ 2 = (w.re - 1) ^ 2 + w.im ^ 2 := by
      rw [← Complex.normSq_eq_norm_sq, Complex.normSq_apply]; simp; ring
    rw [← e]
    exact pow_le_pow_left₀ (norm_nonneg _) h 2
  have hre : 0 < w.re := by nlinarith [sq_nonneg w.im]
  have hw : w ≠ 0 := by intro hw; rw [hw] at hre; simp at hre
  have hn : 0 < ‖w‖ := norm_pos_iff.2 hw
  have hns : ‖w‖ ^ 2 = w.re ^ 2 + w.im ^ 2 := by rw [← Complex.normSq_eq_norm_sq, Complex.normSq_apply]; ring
  have key : w.im ^ 2 ≤ ρ ^ 2 * ‖w‖ ^ 2 := by
    rw [hns]
    nlinarith [sq_nonneg (ρ ^ 2 + (w.re - 1)), mul_nonneg (sub_nonneg.2 hsq) (by nlinarith : (0 : ℝ) ≤ 1 - ρ ^ 2)]
  have hs : |w.im / ‖w‖| ≤ ρ := by
    rw [abs_div, abs_of_pos hn, div_le_iff₀ hn]
    have := sq_le_sq.1 (show w.im ^ 2 ≤ (ρ * ‖w‖) ^ 2 by rw [mul_pow]; exact key)
    rwa [abs_of_nonneg (mul_nonneg h0 hn.le)] at this
  rw [Complex.arg_of_re_nonneg hre.le]
  rw [abs_le] at hs ⊢
  constructor
  · rw [← Real.arcsin_neg]
    exact Real.monotone_arcsin hs.1
  · exact Real.monotone_arcsin hs.2

/-- Specification: the difference of the two wavefronts, seen from the detector in which the tilted branch has `my` and `mx` fringes. -/
noncomputable def sideBand (flux wl : ℝ) (e0 e1 : EF ℝ) (my mx : ℤ) (i j : ℕ) : ℂ :=
  ((2 * Real.sqrt (flux * (1 - flux)) * e0.A i j * e1.A i j : ℝ) : ℂ) *
    Complex.exp ((((e1.phase i j - e0.phase i j) * (2 * Real.pi / wl) - Real.pi * (my + mx) : ℝ) : ℂ) * Complex.I)

/-- The image of the sensor as mean and side bands. -/
theorem C95_bands (h : ℕ) (h0 : 0 < h) (flux wl pitch : ℝ) (hf0 : 0 ≤ flux) (hf1 : flux ≤ 1) (hp : pitch ≠ 0) (hw : wl ≠ 0) (e0 e1 : EF ℝ) (my mx : ℤ) (i j : ℕ) :
    (ciaoInterf flux wl e0 e1 (ciaoTilt (2 * h) pitch wl (mx * (wl * 1e-9) / ((2 * h : ℕ) * pitch)) (my * (wl * 1e-9) / ((2 * h : ℕ) * pitch))) i j : ℂ) =
      ((2 * flux * e0.A i j ^ 2 + 2 * (1 - flux) * e1.A i j ^ 2 : ℝ) : ℂ) + sideBand flux wl e0 e1 my mx i j * waveZ (2 * h) my mx i j +
        (starRingEnd ℂ) (sideBand flux wl e0 e1 my mx i j) * waveZ (2 * h) (-my) (-mx) i j := by
  have hn : 0 < 2 * h := by omega
  have hh : (h : ℝ) ≠ 0 := by exact_mod_cast h0.ne'
  rw [C95_interference flux wl hf0 hf1, C95_fringe_period (2 * h) hn pitch wl hp hw]
  have hd : 2 * h / 2 = h := by omega
  rw [hd]
  set d := (e1.phase i j - e0.phase i j) * (2 * Real.pi / wl) - Real.pi * (my + mx) with hdd
  set t := 2 * Real.pi * (my * i + mx * j) / ((2 * h : ℕ) : ℝ) with ht
  have harg : (e0.phase i j - e1.phase i j) * (2 * Real.pi / wl) - 2 * Real.pi * ((my : ℝ) * ((i : ℝ) - (h : ℕ)) + mx * ((j : ℝ) - (h : ℕ))) / ((2 * h : ℕ) : ℝ) =
      -(d + t) := by
    rw [hdd, ht]
    push_cast
    field_simp
    ring
  rw [harg, Real.cos_neg]
  have w1 : waveZ (2 * h) my mx i j = Complex.exp ((t : ℂ) * Complex.I) := by
    unfold waveZ
    rw [ht, mul_comm Complex.I]
  have w2 : waveZ (2 * h) (-my) (-mx) i j = Complex.exp (((-t : ℝ) : ℂ) * Complex.I) := by
    unfold waveZ
    rw [mul_comm Complex.I]
    congr 3
    rw [ht]; push_cast; ring
  have c2 : (starRingEnd ℂ) (sideBand flux wl e0 e1 my mx i j) =
      ((2 * Real.sqrt (flux * (1 - flux)) * e0.A i j * e1.A i j : ℝ) : ℂ) * Complex.exp (((-d : ℝ) : ℂ) * Complex.I) := by
    unfold sideBand
    rw [map_mul, Complex.conj_ofReal, ← Complex.exp_conj, map_mul, Complex.conj_ofReal, Complex.conj_I]
    congr 2
    rw [hdd]; push_cast; ring
  have c1 : sideBand flux wl e0 e1 my mx i j =
      ((2 * Real.sqrt (flux * (1 - flux)) * e0.A i j * e1.A i j : ℝ) : ℂ) * Complex.exp ((d : ℂ) * Complex.I) := by
    unfold sideBand
    rw [hdd]
  rw [c2, c1, w1, w2, mul_assoc _ (Complex.exp ((d : ℂ) * Complex.I)), mul_assoc _ (Complex.exp (((-d : ℝ) : ℂ) * Complex.I)), ← Complex.exp_add,
    ← Complex.exp_add]
  have x1 : (d : ℂ) * Complex.I + (t : ℂ) * Complex.I = ((d + t : ℝ) : ℂ) * Complex.I := by push_cast; ring
  have x2 : ((-d : ℝ) : ℂ) * Complex.I + ((-t : ℝ) : ℂ) * Complex.I = ((-(d + t) : ℝ) : ℂ) * Complex.I := by push_cast; ring
  rw [x1, x2, Complex.exp_mul_I, Complex.exp_mul_I, ← Complex.ofReal_cos, ← Complex.ofReal_sin, ← Complex.ofReal_cos, ← Complex.ofReal_sin, Real.cos_neg, Real.sin_neg]
  push_cast
  ring

theorem opd_scale (wl c : ℝ) (hc : 0 < c) (mask : Option (ℕ → ℕ → Bool)) (z z' : ℕ → ℕ → ℂ) (i j : ℕ) (h : z' i j = c * z i j) :
    ciaoOpd wl mask z' i j = ciaoOpd wl mask z i j := by
  unfold ciaoOpd arctan2
  have : Complex.arg ⟨(z' i j).re, (z' i j).im⟩ = Complex.arg ⟨(z i j).re, (z i j).im⟩ := by
    rw [Complex.eta, Complex.eta, h, Complex.arg_real_mul _ hc]
  rw [this]

theorem opd_of_exp (wl : ℝ) (hw : 0 < wl) (r d : ℝ) (hr : 0 < r) (hd : -(wl / 2) < d ∧ d ≤ wl / 2) (z : ℕ → ℕ → ℂ) (i j : ℕ)
    (h : z i j = (r : ℂ) * Complex.exp (((d * (2 * Real.pi / wl) : ℝ) : ℂ) * Complex.I)) : ciaoOpd wl none z i j = d := by
  unfold ciaoOpd arctan2
  have hpi := Real.pi_pos
  rw [Complex.eta, h, Complex.arg_real_mul _ hr, Complex.arg_exp_mul_I]
  have hmem : d * (2 * Real.pi / wl) ∈ Set.Ioc (-Real.pi) (-Real.pi + 2 * Real.pi) := by
    constructor
    · rw [← mul_div_assoc, lt_div_iff₀ hw]; nlinarith
    · rw [← mul_div_assoc, div_le_iff₀ hw]; nlinarith
  rw [(toIocMod_eq_self (Real.two_pi_pos)).2 hmem]
  field_simp

/-- From the sensor to the map: with an even size, an even total number of fringes and a window that lets through the side band and nothing else, the
map is the difference of the two wavefronts where both branches have light, if that is within half a wavelength. -/
theorem C95_end_to_end (h : ℕ) (h0 : 0 < h) (flux wl pitch : ℝ) (hf0 : 0 < flux) (hf1 : flux < 1) (hp : pitch ≠ 0) (hw : 0 < wl) (e0 e1 : EF ℝ) (my mx : ℤ)
    (W : ℕ → ℕ → ℝ) (hev : (my + mx) % 2 = 0)
    (hB : ∀ k l, k < 2 * h → l < 2 * h → fft2 (2 * h) (fun i j => ((2 * flux * e0.A i j ^ 2 + 2 * (1 - flux) * e1.A i j ^ 2 : ℝ) : ℂ) +
        (starRingEnd ℂ) (sideBand flux wl e0 e1 my mx i j) * waveZ (2 * h) (-my) (-mx) i j) k l = 0 ∨ W ((k + 2 * h / 2) % (2 * h)) ((l + 2 * h / 2) % (2 * h)) = 0)
    (hW : ∀ k l, k < 2 * h → l < 2 * h → fft2 (2 * h) (fun i j => sideBand flux wl e0 e1 my mx i j * waveZ (2 * h) my mx i j) k l = 0 ∨
      W ((k + 2 * h / 2) % (2 * h)) ((l + 2 * h / 2) % (2 * h)) = 1)
    (i j : ℕ) (hi : i < 2 * h) (hj : j < 2 * h) (ha : 0 < e0.A i j * e1.A i j)
    (hd : -(wl / 2) < e1.phase i j - e0.phase i j ∧ e1.phase i j - e0.phase i j ≤ wl / 2) :
    ciaoOpd wl none (ciaoDemod (2 * h) W (ciaoShift (2 * h) (h + my)) (ciaoShift (2 * h) (h + mx))
      (ciaoInterf flux wl e0 e1 (ciaoTilt (2 * h) pitch wl (mx * (wl * 1e-9) / ((2 * h : ℕ) * pitch)) (my * (wl * 1e-9) / ((2 * h : ℕ) * pitch))))) i j =
      e1.phase i j - e0.phase i j := by
  have hn : (0 : ℝ) < ((2 * h : ℕ) : ℝ) := by exact_mod_cast (by omega : 0 < 2 * h)
  have hs : 0 < Real.sqrt (flux * (1 - flux)) := Real.sqrt_pos.2 (mul_pos hf0 (by linarith))
  apply opd_of_exp wl hw (2 * Real.sqrt (flux * (1 - flux)) * (e0.A i j * e1.A i j) / ((2 * h : ℕ) : ℝ)) _ (by positivity) hd
  rw [C95_even h h0 mx my W _ (fun i j => ((2 * flux * e0.A i j ^ 2 + 2 * (1 - flux) * e1.A i j ^ 2 : ℝ) : ℂ) +
        (starRingEnd ℂ) (sideBand flux wl e0 e1 my mx i j) * waveZ (2 * h) (-my) (-mx) i j) (sideBand flux wl e0 e1 my mx) _ hB hW i j hi hj]
  · unfold sideBand
    obtain ⟨q, hq⟩ := Int.dvd_of_emod_eq_zero hev
    have hq' : (my : ℝ) + mx = 2 * q := by exact_mod_cast hq
    have : Complex.exp ((((e1.phase i j - e0.phase i j) * (2 * Real.pi / wl) - Real.pi * (my + mx) : ℝ) : ℂ) * Complex.I) =
        Complex.exp ((((e1.phase i j - e0.phase i j) * (2 * Real.pi / wl) : ℝ) : ℂ) * Complex.I) := by
      rw [Complex.exp_eq_exp_iff_exists_int]
      refine ⟨-q, ?_⟩
      rw [hq']
      push_cast
      ring
    rw [this]
    push_cast
    ring
  · intro i j
    rw [C95_bands h h0 flux wl pitch hf0.le hf1.le hp hw.ne' e0 e1 my mx i j]
    ring

/-- With an odd number of fringes the map is half a wavelength off: equal wavefronts give `wl / 2`. -/
theorem C95_odd_fringes (h : ℕ) (h0 : 0 < h) (flux wl pitch : ℝ) (hf0 : 0 < flux) (hf1 : flux < 1) (hp : pitch ≠ 0) (hw : 0 < wl) (e0 e1 : EF ℝ) (my mx : ℤ)
    (W : ℕ → ℕ → ℝ) (hev : (my + mx) % 2 = 1)
    (hB : ∀ k l, k < 2 * h → l < 2 * h → fft2 (2 * h) (fun i j => ((2 * flux * e0.A i j ^ 2 + 2 * (1 - flux) * e1.A i j ^ 2 : ℝ) : ℂ) +
        (starRingEnd ℂ) (sideBand flux wl e0 e1 my mx i j) * waveZ (2 * h) (-my) (-mx) i j) k l = 0 ∨ W ((k + 2 * h / 2) % (2 * h)) ((l + 2 * h / 2) % (2 * h)) = 0)
    (hW : ∀ k l, k < 2 * h → l < 2 * h → fft2 (2 * h) (fun i j => sideBand flux wl e0 e1 my mx i j * waveZ (2 * h) my mx i j) k l = 0 ∨
      W ((k + 2 * h / 2) % (2 * h)) ((l + 2 * h / 2) % (2 * h)) = 1)
    (i j : ℕ) (hi : i < 2 * h) (hj : j < 2 * h) (ha : 0 < e0.A i j * e1.A i j) (he : e1.phase i j = e0.phase i j) :
    ciaoOpd wl none (ciaoDemod (2 * h) W (ciaoShift (2 * h) (h + my)) (ciaoShift (2 * h) (h + mx))
      (ciaoInterf flux wl e0 e1 (ciaoTilt (2 * h) pitch wl (mx * (wl * 1e-9) / ((2 * h : ℕ) * pitch)) (my * (wl * 1e-9) / ((2 * h : ℕ) * pitch))))) i j = wl / 2 := by
  have hn : (0 : ℝ) < ((2 * h : ℕ) : ℝ) := by exact_mod_cast (by omega : 0 < 2 * h)
  have hs : 0 < Real.sqrt (flux * (1 - flux)) := Real.sqrt_pos.2 (mul_pos hf0 (by linarith))
  apply opd_of_exp wl hw (2 * Real.sqrt (flux * (1 - flux)) * (e0.A i j * e1.A i j) / ((2 * h : ℕ) : ℝ)) _ (by positivity) ⟨by linarith, le_refl _⟩
  rw [C95_even h h0 mx my W _ (fun i j => ((2 * flux * e0.A i j ^ 2 + 2 * (1 - flux) * e1.A i j ^ 2 : ℝ) : ℂ) +
        (starRingEnd ℂ) (sideBand flux wl e0 e1 my mx i j) * waveZ (2 * h) (-my) (-mx) i j) (sideBand flux wl e0 e1 my mx) _ hB hW i j hi hj]
  · unfold sideBand
    obtain ⟨q, hq⟩ : ∃ q, my + mx = 2 * q + 1 := ⟨(my + mx) / 2, by omega⟩
    have hq' : (my : ℝ) + mx = 2 * q + 1 := by exact_mod_cast hq
    have hwc : (wl : ℂ) ≠ 0 := by exact_mod_cast hw.ne'
    have : Complex.exp ((((e1.phase i j - e0.phase i j) * (2 * Real.pi / wl) - Real.pi * (my + mx) : ℝ) : ℂ) * Complex.I) =
        Complex.exp (((wl / 2 * (2 * Real.pi / wl) : ℝ) : ℂ) * Complex.I) := by
      rw [Complex.exp_eq_exp_iff_exists_int]
      refine ⟨-q - 1, ?_⟩
      rw [hq', he]
      push_cast
      field_simp
      ring
    rw [this]
    push_cast
    ring
  · intro i j
    rw [C95_bands h h0 flux wl pitch hf0.le hf1.le hp hw.ne' e0 e1 my mx i j]
    ring

/-- The map with the window of the code, for straight fringes of phase `d` nanometres, mean `a` and half amplitude `b`: the error is bounded by what
the window lets through. -/
theorem C95_error (h : ℕ) (h0 : 0 < h) (my mx : ℤ) (hy : |my| < h) (hx : |mx| < h) (sigma a b wl : ℝ) (ha : 0 ≤ a) (hb : 0 < b) (hw : 0 < wl) (ψ : ℂ) (hψ : ‖ψ‖ = b)
    (px : ℕ → ℕ → ℝ) (hp : ∀ i j, (px i j : ℂ) = a + ψ * waveZ (2 * h) my mx i j + (starRingEnd ℂ) ψ * waveZ (2 * h) (-my) (-mx) i j)
    (hr : a / b * Real.exp (-((((mx : ℝ) ^ 2 + (my : ℝ) ^ 2) / (2 * sigma ^ 2)) ^ 2)) + Real.exp (-((4 * ((mx : ℝ) ^ 2 + (my : ℝ) ^ 2) / (2 * sigma ^ 2)) ^ 2)) < 1) (i j : ℕ) :
    ∃ e : ℝ, |e| ≤ Real.arcsin (a / b * Real.exp (-((((mx : ℝ) ^ 2 + (my : ℝ) ^ 2) / (2 * sigma ^ 2)) ^ 2)) + Real.exp (-((4 * ((mx : ℝ) ^ 2 + (my : ℝ) ^ 2) / (2 * sigma ^ 2)) ^ 2))) ∧
      ∃ k : ℤ, ciaoSlopes (2 * h) (h + mx) (h + my) sigma wl none px (i * (2 * h) + j % (2 * h)) =
        (ψ.arg + e) * wl / (2 * Real.pi) + k * wl := by
  set ρ := a / b * Real.exp (-((((mx : ℝ) ^ 2 + (my : ℝ) ^ 2) / (2 * sigma ^ 2)) ^ 2)) + Real.exp (-((4 * ((mx : ℝ) ^ 2 + (my : ℝ) ^ 2) / (2 * sigma ^ 2)) ^ 2)) with hρ
  have hn : 0 < 2 * h := by omega
  have hnr : (0 : ℝ) < ((2 * h : ℕ) : ℝ) := by exact_mod_cast hn
  have hnc : ((2 * h : ℕ) : ℂ) ≠ 0 := by exact_mod_cast hn.ne'
  have hψ0 : ψ ≠ 0 := by intro h; rw [h, norm_zero] at hψ; linarith
  have hrow : (i * (2 * h) + j % (2 * h)) / (2 * h) = i := by
    rw [mul_comm, Nat.mul_add_div hn, Nat.div_eq_of_lt (Nat.mod_lt _ hn), add_zero]
  have hcol : (i * (2 * h) + j % (2 * h)) % (2 * h) = j % (2 * h) := by
    rw [mul_comm, Nat.mul_add_mod, Nat.mod_mod]
  unfold ciaoSlopes
  rw [hrow, hcol]
  have F := C95_fringes h h0 my mx hy hx sigma a ψ px hp i (j % (2 * h))
  set z := ciaoDemod (2 * h) (ciaoWindow (h + mx) (h + my) sigma) (ciaoShift (2 * h) (h + my)) (ciaoShift (2 * h) (h + mx)) px with hz
  set q := j % (2 * h)
  set E1 := Real.exp (-((((mx : ℝ) ^ 2 + (my : ℝ) ^ 2) / (2 * sigma ^ 2)) ^ 2)) with hE1
  set E2 := Real.exp (-((4 * ((mx : ℝ) ^ 2 + (my : ℝ) ^ 2) / (2 * sigma ^ 2)) ^ 2)) with hE2
  have hE1p : 0 < E1 := Real.exp_pos _
  have hE2p : 0 < E2 := Real.exp_pos _
  set w := ((2 * h : ℕ) : ℂ) * z i q / ψ with hwdef
  have hnear : ‖w - 1‖ ≤ ρ := by
    have e : w - 1 = (a * (E1 : ℂ) * waveZ (2 * h) (-my) (-mx) i q + (starRingEnd ℂ) ψ * (E2 : ℂ) * waveZ (2 * h) (-(2 * my)) (-(2 * mx)) i q) / ψ := by
      rw [hwdef, F]
      field_simp
      ring
    rw [e, norm_div, hψ, div_le_iff₀ hb]
    refine (norm_add_le _ _).trans ?_
    rw [norm_mul, norm_mul, norm_mul, norm_mul, norm_waveZ, norm_waveZ, Complex.norm_conj, hψ, Complex.norm_of_nonneg ha, Complex.norm_of_nonneg hE1p.le, Complex.norm_of_nonneg hE2p.le, hρ]
    apply le_of_eq
    field_simp
  refine ⟨w.arg, arg_close w ρ hr hnear, ?_⟩
  have hw0 : w ≠ 0 := by
    intro hw0
    rw [hw0, zero_sub, norm_neg, norm_one] at hnear
    linarith
  have hzz : z i q = ((1 / ((2 * h : ℕ) : ℝ) : ℝ) : ℂ) * (ψ * w) := by
    rw [hwdef, mul_div_cancel₀ _ hψ0, ← mul_assoc, Complex.ofReal_div, Complex.ofReal_one, Complex.ofReal_natCast, one_div_mul_cancel hnc, one_mul]
  have harg : (z i q).arg = (ψ * w).arg := by rw [hzz, Complex.arg_real_mul _ (by positivity)]
  have hmod : ((ψ * w).arg : Real.Angle) = ((ψ.arg + w.arg : ℝ) : Real.Angle) := by
    rw [Complex.arg_mul_coe_angle hψ0 hw0]; rfl
  rw [Real.Angle.angle_eq_iff_two_pi_dvd_sub] at hmod
  obtain ⟨k, hk⟩ := hmod
  refine ⟨k, ?_⟩
  unfold ciaoOpd arctan2
  dsimp only
  rw [Complex.eta, harg]
  have : (ψ * w).arg = ψ.arg + w.arg + 2 * Real.pi * k := by linarith
  rw [this]
  have := Real.pi_ne_zero
  field_simp

/-- The gain of the detector does not matter. -/
theorem C95_gain (n : ℕ) (wx wy sigma wl c : ℝ) (hc : 0 < c) (mask : Option (ℕ → ℕ → Bool)) (px : ℕ → ℕ → ℝ) (k : ℕ) :
    ciaoSlopes n wx wy sigma wl mask (fun i j => c * px i j) k = ciaoSlopes n wx wy sigma wl mask px k := by
  unfold ciaoSlopes
  apply opd_scale wl c hc
  have hf : ∀ k l, fft2 n (fun i j => ((c * px i j : ℝ) : ℂ)) k l = c * fft2 n (fun i j => (px i j : ℂ)) k l := by
    intro k l
    unfold fft2
    rw [mul_sum]
    refine sum_congr rfl fun i _ => ?_
    rw [mul_sum]
    refine sum_congr rfl fun j _ => ?_
    push_cast; ring
  unfold ciaoDemod ifft2
  dsimp only
  simp only [hf]
  rw [mul_div_assoc', mul_sum]
  congr 1
  refine sum_congr rfl fun i _ => ?_
  rw [mul_sum]
  refine sum_congr rfl fun j _ => ?_
  ring

/-- Every value is within half a wavelength, and zero outside the mask. -/
theorem C95_range (n : ℕ) (wx wy sigma wl : ℝ) (hw : 0 ≤ wl) (mask : Option (ℕ → ℕ → Bool)) (px : ℕ → ℕ → ℝ) (k : ℕ) :
    |ciaoSlopes n wx wy sigma wl mask px k| ≤ wl / 2 ∧ ∀ m, mask = some m → m (k / n) (k % n) = false → ciaoSlopes n wx wy sigma wl mask px k = 0 := by
  constructor
  · unfold ciaoSlopes ciaoOpd arctan2
    set z := ciaoDemod n (ciaoWindow wx wy sigma) (ciaoShift n wy) (ciaoShift n wx) px (k / n) (k % n)
    have hb : |Complex.arg ⟨z.re, z.im⟩ * wl / (2 * Real.pi)| ≤ wl / 2 := by
      have h1 := Complex.abs_arg_le_pi ⟨z.re, z.im⟩
      have hpi := Real.pi_pos
      rw [abs_div, abs_mul, abs_of_nonneg hw, abs_of_pos (by positivity : 0 < 2 * Real.pi), div_le_div_iff₀ (by positivity) (by norm_num)]
      nlinarith
    cases mask with
    | none => exact hb
    | some m =>
      dsimp only
      split_ifs
      · rw [mul_one]; exact hb
      · rw [mul_zero, abs_zero]; linarith
  · rintro m rfl hm
    unfold ciaoSlopes ciaoOpd
    dsimp only
    rw [hm]
    simp

/-- The value given as total counts is the total only for an image of one pixel. -/
theorem C95_counts (n : ℕ) (hn : 0 < n) (px : ℕ → ℕ → ℝ) (hp : ∑ i ∈ range n, ∑ j ∈ range n, px i j ≠ 0) :
    ciaoCounts n px = ∑ i ∈ range n, ∑ j ∈ range n, px i j ↔ n = 1 := by
  unfold ciaoCounts
  have hn' : (n : ℝ) ≠ 0 := by exact_mod_cast hn.ne'
  rw [div_eq_iff (mul_ne_zero hn' hn')]
  constructor
  · intro h
    have h1 : (n : ℝ) * n = 1 := by
      have := mul_left_cancel₀ hp (show _ * ((n : ℝ) * n) = _ * 1 by rw [mul_one]; exact h.symm)
      exact this
    have : n * n = 1 := by exact_mod_cast h1
    exact Nat.eq_one_of_mul_eq_one_right this
  · rintro rfl
    simp

/-- What the constructor accepts. -/
theorem C95_ctor (numberPx : Int) (flux mag magDiff : ℚ) :
    ciaoCtor numberPx flux mag magDiff = true ↔ 0 < numberPx ∧ (0 ≤ flux ∧ flux ≤ 1) ∧ 1 / 1000000 ≤ mag ∧ 1 / 1000000 ≤ magDiff := by
  unfold ciaoCtor
  simp only [Bool.and_eq_true, decide_eq_true_eq, not_or, not_lt, not_le, and_assoc]

/-- The two branches together have twice the light of the field. -/
theorem C95_amp (flux : ℝ) (h0 : 0 ≤ flux) (h1 : flux ≤ 1) : (ciaoAmp flux).1 ^ 2 + (ciaoAmp flux).2 ^ 2 = 2 ∧ 0 ≤ (ciaoAmp flux).1 ∧ 0 ≤ (ciaoAmp flux).2 := by
  unfold ciaoAmp
  dsimp only
  rw [Real.sq_sqrt (by linarith), Real.sq_sqrt (by linarith)]
  exact ⟨by ring, Real.sqrt_nonneg _, Real.sqrt_nonneg _⟩

/-- When the first branch is not interpolated, the second one is the interpolation of the input. -/
theorem C95_second {K : Type} [Field K] [LinearOrder K] [IsStrictOrderedRing K] [FloorRing K] (rd : K → K) (P : EFIParams K) (A ph : ℕ → ℕ → K) :
    efiRun rd P none [(A, ph)] = [ciaoSecond rd false P (efiPrepare P none A) A ph] := rfl

/-- When it is, the phase is set to zero where the amplitude *after* the second rotation is below the threshold: in a field that is lit in its first rows and
rotated by 180°, the row that is lit afterwards has no phase. -/
theorem C95_shared : ∃ (P : EFIParams ℚ) (A ph : ℕ → ℕ → ℚ), P.rot = some (-1, 0) ∧ P.mag = 1 ∧ (∀ i j, ph i j = 16) ∧
    (ciaoSecond id true P (efiPrepare P none A) A ph).1 3 1 = 1 ∧ (ciaoSecond id true P (efiPrepare P none A) A ph).2 3 1 = 0 ∧
    (ciaoSecond id false P (efiPrepare P none A) A ph).1 3 1 = 1 ∧ (ciaoSecond id false P (efiPrepare P none A) A ph).2 3 1 = 16 :=
  ⟨⟨4, 4, 4, 4, some (-1, 0), 0, 0, 1, 1, false⟩, fun i _ => if i < 2 then 1 else 0, fun _ _ => 16, rfl, rfl, fun _ _ => rfl, by decide +kernel,
    by decide +kernel, by decide +kernel, by decide +kernel⟩

/-! ### Cases -/

theorem fft2_lin (n : ℕ) (c d : ℂ) (u v : ℕ → ℕ → ℂ) (k l : ℕ) : fft2 n (fun i j => c * u i j + d * v i j) k l = c * fft2 n u k l + d * fft2 n v k l := by
  unfold fft2
  rw [mul_sum, mul_sum, ← sum_add_distrib]
  refine sum_congr rfl fun i _ => ?_
  rw [mul_sum, mul_sum, ← sum_add_distrib]
  refine sum_congr rfl fun j _ => ?_
  ring

theorem fft2_waveZ (n : ℕ) (hn : 0 < n) (a b : ℤ) (k l : ℕ) (hk : k < n) (hl : l < n) :
    fft2 n (waveZ n a b) k l = if k = (a % n).toNat ∧ l = (b % n).toNat then (n : ℂ) ^ 2 else 0 := by
  have hz : (0 : ℤ) < n := by exact_mod_cast hn
  have ha : (a % n).toNat < n := by have := Int.emod_lt_of_pos a hz; have := Int.emod_nonneg a hz.ne'; omega
  have hb : (b % n).toNat < n := by have := Int.emod_lt_of_pos b hz; have := Int.emod_nonneg b hz.ne'; omega
  have e : waveZ n a b = planeWave n (a % n).toNat (b % n).toNat := by funext i j; exact waveZ_plane n hn a b i j
  rw [e, fft2_wave n hn _ _ k l ha hb hk hl]

/-- The hypotheses of `C95_end_to_end` are met by two flat wavefronts and a window of one frequency. -/
theorem C95_flat (h : ℕ) (flux wl pitch d0 d1 : ℝ) (hf0 : 0 < flux) (hf1 : flux < 1) (hp : pitch ≠ 0) (hw : 0 < wl) (my mx : ℤ) (hy : |my| < h) (hx : |mx| < h)
    (hm : mx ≠ 0) (hev : (my + mx) % 2 = 0) (s0 : ℝ) (hd : -(wl / 2) < d1 - d0 ∧ d1 - d0 ≤ wl / 2) (i j : ℕ) (hi : i < 2 * h) (hj : j < 2 * h) :
    ciaoOpd wl none (ciaoDemod (2 * h) (fun y x => if y = (h + my).toNat ∧ x = (h + mx).toNat then 1 else 0) (ciaoShift (2 * h) (h + my)) (ciaoShift (2 * h) (h + mx))
      (ciaoInterf flux wl ⟨2 * h, 2 * h, fun _ _ => 1, fun _ _ => d0, s0⟩ ⟨2 * h, 2 * h, fun _ _ => 1, fun _ _ => d1, s0⟩
        (ciaoTilt (2 * h) pitch wl (mx * (wl * 1e-9) / ((2 * h : ℕ) * pitch)) (my * (wl * 1e-9) / ((2 * h : ℕ) * pitch))))) i j = d1 - d0 := by
  rw [abs_lt] at hy hx
  have h0 : 0 < h := by omega
  have hn : 0 < 2 * h := by omega
  have hc : ((2 * h : ℕ) : ℤ) = 2 * h := by push_cast; ring
  have idx : ∀ (m : ℤ) (k : ℕ), -(h : ℤ) ≤ m → m < h → k < 2 * h → (k + 2 * h / 2) % (2 * h) = (h + m).toNat → k = (m % (2 * h : ℕ)).toNat := by
    intro m k h1 h2 hk e
    rw [← centred_index h h0 m h1 h2] at e
    have hlt : (m % (2 * h : ℕ)).toNat < 2 * h := by
      have := Int.emod_lt_of_pos m (by omega : (0 : ℤ) < (2 * h : ℕ)); have := Int.emod_nonneg m (by omega : ((2 * h : ℕ) : ℤ) ≠ 0); omega
    have : k ≡ (m % (2 * h : ℕ)).toNat [MOD 2 * h] := Nat.ModEq.add_right_cancel' (2 * h / 2) e
    exact Nat.ModEq.eq_of_lt_of_lt this hk hlt
  have tn : ∀ m : ℤ, -(h : ℤ) < m → m < h → (m % (2 * h : ℕ)).toNat = if 0 ≤ m then m.toNat else (m + 2 * h).toNat := by
    intro m h1 h2
    rw [hc]
    split_ifs with h3
    · rw [Int.emod_eq_of_lt h3 (by omega)]
    · rw [← Int.add_emod_right, Int.emod_eq_of_lt (by omega) (by omega)]
  have sb : ∀ i j, sideBand flux wl ⟨2 * h, 2 * h, fun _ _ => 1, fun _ _ => d0, s0⟩ ⟨2 * h, 2 * h, fun _ _ => 1, fun _ _ => d1, s0⟩ my mx i j =
      sideBand flux wl ⟨2 * h, 2 * h, fun _ _ => 1, fun _ _ => d0, s0⟩ ⟨2 * h, 2 * h, fun _ _ => 1, fun _ _ => d1, s0⟩ my mx 0 0 := fun _ _ => rfl
  apply C95_end_to_end h h0 flux wl pitch hf0 hf1 hp hw ⟨2 * h, 2 * h, fun _ _ => 1, fun _ _ => d0, s0⟩ ⟨2 * h, 2 * h, fun _ _ => 1, fun _ _ => d1, s0⟩ my mx _ hev ?_ ?_ i j hi hj (by norm_num) hd
  · intro k l hk hl
    by_cases hyx : (k + 2 * h / 2) % (2 * h) = (h + my).toNat ∧ (l + 2 * h / 2) % (2 * h) = (h + mx).toNat
    · left
      have kl := idx mx l (by omega) (by omega) hl hyx.2
      have e : (fun i j => ((2 * flux * (1 : ℝ) ^ 2 + 2 * (1 - flux) * (1 : ℝ) ^ 2 : ℝ) : ℂ) +
          (starRingEnd ℂ) (sideBand flux wl ⟨2 * h, 2 * h, fun _ _ => 1, fun _ _ => d0, s0⟩ ⟨2 * h, 2 * h, fun _ _ => 1, fun _ _ => d1, s0⟩ my mx i j) * waveZ (2 * h) (-my) (-mx) i j) =
          fun i j => ((2 * flux * (1 : ℝ) ^ 2 + 2 * (1 - flux) * (1 : ℝ) ^ 2 : ℝ) : ℂ) * waveZ (2 * h) 0 0 i j +
          (starRingEnd ℂ) (sideBand flux wl ⟨2 * h, 2 * h, fun _ _ => 1, fun _ _ => d0, s0⟩ ⟨2 * h, 2 * h, fun _ _ => 1, fun _ _ => d1, s0⟩ my mx 0 0) * waveZ (2 * h) (-my) (-mx) i j := by
        funext i j
        have : waveZ (2 * h) 0 0 i j = 1 := by unfold waveZ; simp
        rw [this, mul_one, sb i j]
      refine Eq.trans (congrArg (fun u => fft2 (2 * h) u k l) e) ?_
      rw [fft2_lin, fft2_waveZ _ hn _ _ k l hk hl, fft2_waveZ _ hn _ _ k l hk hl, if_neg, if_neg, mul_zero, mul_zero, add_zero]
      · rintro ⟨_, h2⟩
        rw [kl, tn mx (by omega) (by omega), tn (-mx) (by omega) (by omega)] at h2
        split_ifs at h2 <;> omega
      · rintro ⟨_, h2⟩
        rw [kl, tn mx (by omega) (by omega), Int.zero_emod] at h2
        split_ifs at h2 <;> omega
    · right
      exact if_neg hyx
  · intro k l hk hl
    by_cases hyx : (k + 2 * h / 2) % (2 * h) = (h + my).toNat ∧ (l + 2 * h / 2) % (2 * h) = (h + mx).toNat
    · right
      exact if_pos hyx
    · left
      have e : (fun i j => sideBand flux wl ⟨2 * h, 2 * h, fun _ _ => 1, fun _ _ => d0, s0⟩ ⟨2 * h, 2 * h, fun _ _ => 1, fun _ _ => d1, s0⟩ my mx i j * waveZ (2 * h) my mx i j) =
          fun i j => sideBand flux wl ⟨2 * h, 2 * h, fun _ _ => 1, fun _ _ => d0, s0⟩ ⟨2 * h, 2 * h, fun _ _ => 1, fun _ _ => d1, s0⟩ my mx 0 0 * waveZ (2 * h) my mx i j + 0 * waveZ (2 * h) 0 0 i j := by
        funext i j
        rw [sb i j, zero_mul, add_zero]
      refine Eq.trans (congrArg (fun u => fft2 (2 * h) u k l) e) ?_
      rw [fft2_lin, fft2_waveZ _ hn _ _ k l hk hl, if_neg, mul_zero, zero_mul, add_zero]
      rintro ⟨h1, h2⟩
      apply hyx
      rw [h1, h2]
      exact ⟨centred_index h h0 my (by omega) (by omega), centred_index h h0 mx (by omega) (by omega)⟩

/-- Straight fringes along the rows, `8` of them on `32` pixels, with a window of `2` pixels: the map is constant to a part in `10 ^ 20`. -/
example (i j : ℕ) : ∃ e : ℝ, |e| ≤ Real.arcsin (1 / (1 / 2) * Real.exp (-(((((8 : ℤ) : ℝ) ^ 2 + ((0 : ℤ) : ℝ) ^ 2) / (2 * 2 ^ 2)) ^ 2)) +
      Real.exp (-((4 * (((8 : ℤ) : ℝ) ^ 2 + ((0 : ℤ) : ℝ) ^ 2) / (2 * 2 ^ 2)) ^ 2))) ∧
    ∃ k : ℤ, ciaoSlopes (2 * 16) ((16 : ℕ) + (8 : ℤ)) ((16 : ℕ) + (0 : ℤ)) 2 600 none (fun _ j => 1 + Real.cos (2 * Real.pi * (8 * j) / 32)) (i * (2 * 16) + j % (2 * 16)) =
      ((1 / 2 : ℂ).arg + e) * 600 / (2 * Real.pi) + k * 600 := by
  have hE : ∀ x : ℝ, 9 ≤ x → Real.exp (-x) < 1 / 9 := by
    intro x hx
    rw [Real.exp_neg, inv_eq_one_div]
    apply one_div_lt_one_div_of_lt (by norm_num)
    have := Real.add_one_lt_exp (show x ≠ 0 by linarith)
    linarith
  refine C95_error 16 (by norm_num) 0 8 (by norm_num) (by norm_num) 2 1 (1 / 2) 600 (by norm_num) (by norm_num) (by norm_num) (1 / 2) (by norm_num) _ ?_ ?_ i j
  · intro i j
    unfold waveZ
    rw [mul_comm Complex.I, mul_comm Complex.I, Complex.exp_mul_I, Complex.exp_mul_I, ← Complex.ofReal_cos, ← Complex.ofReal_cos, ← Complex.ofReal_sin, ← Complex.ofReal_sin]
    have e1 : (2 * Real.pi * (((0 : ℤ) : ℝ) * i + ((8 : ℤ) : ℝ) * j) / ((2 * 16 : ℕ) : ℝ)) = 2 * Real.pi * (8 * j) / 32 := by push_cast; ring
    have e2 : (2 * Real.pi * (((-0 : ℤ) : ℝ) * i + ((-8 : ℤ) : ℝ) * j) / ((2 * 16 : ℕ) : ℝ)) = -(2 * Real.pi * (8 * j) / 32) := by push_cast; ring
    rw [e1, e2, Real.cos_neg, Real.sin_neg]
    have : (starRingEnd ℂ) (1 / 2 : ℂ) = 1 / 2 := by rw [map_div₀, map_one, map_ofNat]
    rw [this]
    push_cast
    ring
  · have h1 := hE (((((8 : ℤ) : ℝ) ^ 2 + ((0 : ℤ) : ℝ) ^ 2) / (2 * 2 ^ 2)) ^ 2) (by norm_num)
    have h2 := hE ((4 * (((8 : ℤ) : ℝ) ^ 2 + ((0 : ℤ) : ℝ) ^ 2) / (2 * 2 ^ 2)) ^ 2) (by norm_num)
    linarith

end Specula
