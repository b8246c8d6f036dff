import Mathlib.Tactic.Ring
import Mathlib.Tactic.Linarith
import Mathlib.Tactic.FieldSimp
import Mathlib.Tactic.Positivity
import Mathlib.Tactic.NormNum
import Verif.Model.Curvature
import Verif.Model.PixSlopes
import Verif.Props.Psf
import Verif.Props.Fresnel
import Verif.Props.Coronagraph
import Verif.Props.LgsKernel
import Verif.Props.SubapCal
import Verif.Props.Extrap
/-
C96: curvature sensor.
-/
namespace Specula
open Finset

/-- The size of the grid is even, and its pixels are at least as fine as asked for. -/
theorem C96_res (lam pxs pitch ovs : ℝ) (hl : 0 < lam) (hp : 0 < pxs) (ht : 0 < pitch) :
    curvRes lam pxs pitch ovs % 2 = 0 ∧ lam / (pxs * pitch) * max 1 ovs ≤ curvRes lam pxs pitch ovs ∧
      (curvRes lam pxs pitch ovs : ℝ) < lam / (pxs * pitch) * max 1 ovs + 2 ∧
      ∀ res : ℕ, (res : ℤ) = curvRes lam pxs pitch ovs → curvScale lam pitch res ≤ pxs / max 1 ovs := by
  have hm : 1 ≤ max 1 ovs := le_max_left _ _
  set t := lam / (pxs * pitch) * max 1 ovs with htd
  have ht0 : 0 < t := by positivity
  have h1 : t ≤ ⌈t⌉ := Int.le_ceil t
  have h2 : (⌈t⌉ : ℝ) < t + 1 := Int.ceil_lt_add_one t
  have hr : curvRes lam pxs pitch ovs = ⌈t⌉ + ⌈t⌉ % 2 := rfl
  have hmod : ⌈t⌉ % 2 = 0 ∨ ⌈t⌉ % 2 = 1 := by omega
  have hle : t ≤ (curvRes lam pxs pitch ovs : ℝ) := by
    rw [hr]; push_cast
    rcases hmod with h | h <;> rw [h] <;> push_cast <;> linarith
  refine ⟨by rw [hr]; omega, hle, ?_, ?_⟩
  · rw [hr]; push_cast
    rcases hmod with h | h <;> rw [h] <;> push_cast <;> linarith
  · intro res hres
    have hres' : (res : ℝ) = (curvRes lam pxs pitch ovs : ℝ) := by exact_mod_cast hres
    unfold curvScale
    rw [hres', div_le_div_iff₀ (mul_pos (by linarith) ht) (by linarith)]
    have : lam * max 1 ovs = t * (pxs * pitch) := by rw [htd]; field_simp
    rw [this]
    have := mul_le_mul_of_nonneg_right hle (mul_pos hp ht).le
    linarith

/-- The focus inside the disk, that has the diameter of the array: `√3 (2 ρ² - 1)` times the rms, as a phase. -/
theorem C96_focus (n res : ℕ) (hn : 0 < n) (hr : 0 < res) (pitch rms wl : ℝ) (hp : pitch ≠ 0) (i j : ℕ) :
    curvFocus n res pitch rms wl i j =
      (if ((i : ℝ) + 1 / 2 - res / 2) ^ 2 + ((j : ℝ) + 1 / 2 - res / 2) ^ 2 ≤ ((res : ℝ) / 2) ^ 2 then
        Real.sqrt 3 * (2 * ((((i : ℝ) + 1 / 2 - res / 2) ^ 2 + ((j : ℝ) + 1 / 2 - res / 2) ^ 2) / ((res : ℝ) / 2) ^ 2) - 1) * (2 * Real.pi * rms / wl) else 0) := by
  have hn' : (n : ℝ) ≠ 0 := by exact_mod_cast hn.ne'
  have hr' : (res : ℝ) ≠ 0 := by exact_mod_cast hr.ne'
  have hrad : curvRadius n res pitch = (res : ℝ) / 2 := by
    unfold curvRadius
    dsimp only
    field_simp
  have hs : Real.sqrt 0.5 * Real.sqrt (2 * (2 + 1)) = Real.sqrt 3 := by
    rw [← Real.sqrt_mul (by norm_num)]
    norm_num
  unfold curvFocus circularMask
  dsimp only
  rw [hrad, hs, Real.sq_sqrt (by positivity)]
  simp only [Option.getD_some, decide_eq_true_eq]
  have e : ((j : ℝ) + 1 / 2 - res / 2) ^ 2 + ((i : ℝ) + 1 / 2 - res / 2) ^ 2 = ((i : ℝ) + 1 / 2 - res / 2) ^ 2 + ((j : ℝ) + 1 / 2 - res / 2) ^ 2 := by ring
  rw [e]
  split_ifs
  · field_simp
    ring
  · ring

/-- Index counted from the other end. -/
def rev (n i : ℕ) : ℕ := n - 1 - i

theorem C96_focus_even (n res : ℕ) (hn : 0 < n) (hr : 0 < res) (pitch rms wl : ℝ) (hp : pitch ≠ 0) (i j : ℕ) (hi : i < res) (hj : j < res) :
    curvFocus n res pitch rms wl (rev res i) (rev res j) = curvFocus n res pitch rms wl i j := by
  have c : ∀ i < res, ((rev res i : ℕ) : ℝ) + 1 / 2 - res / 2 = -((i : ℝ) + 1 / 2 - res / 2) := by
    intro i hi
    have : ((rev res i : ℕ) : ℝ) = (res : ℝ) - 1 - i := by
      unfold rev
      rw [Nat.cast_sub (by omega), Nat.cast_sub (by omega)]; push_cast; ring
    rw [this]; ring
  rw [C96_focus n res hn hr pitch rms wl hp, C96_focus n res hn hr pitch rms wl hp, c i hi, c j hj, neg_sq, neg_sq]

/-! ### Symmetries -/

/-- Reversal and conjugation of a field conjugate its transform, up to a phase. -/
theorem normSq_rev_conj (n : ℕ) (u v : ℕ → ℕ → ℂ) (h : ∀ i j, i < n → j < n → v i j = (starRingEnd ℂ) (u (rev n i) (rev n j))) (k l : ℕ) :
    Complex.normSq (fft2 n v k l) = Complex.normSq (fft2 n u k l) := by
  have key : fft2 n v k l = twiddle n ((k * (n - 1) + l * (n - 1) : ℕ) : ℤ) * (starRingEnd ℂ) (fft2 n u k l) := by
    unfold fft2
    rw [map_sum, mul_sum, ← sum_range_reflect]
    refine sum_congr rfl fun i hi => ?_
    have hi' := mem_range.1 hi
    rw [map_sum, mul_sum, ← sum_range_reflect]
    refine sum_congr rfl fun j hj => ?_
    have hj' := mem_range.1 hj
    have r1 : rev n (n - 1 - i) = i := by unfold rev; omega
    have r2 : rev n (n - 1 - j) = j := by unfold rev; omega
    rw [h _ _ (by omega) (by omega), r1, r2, map_mul, twiddle_conj, mul_left_comm, ← twiddle_add]
    congr 2
    have e1 : ((n - 1 - i : ℕ) : ℤ) = ((n - 1 : ℕ) : ℤ) - i := by omega
    have e2 : ((n - 1 - j : ℕ) : ℤ) = ((n - 1 : ℕ) : ℤ) - j := by omega
    rw [Nat.cast_add, Nat.cast_mul, Nat.cast_mul, e1, e2]
    push_cast
    ring
  rw [key, map_mul, Complex.normSq_conj]
  have : Complex.normSq (twiddle n ((k * (n - 1) + l * (n - 1) : ℕ) : ℤ)) = 1 := by
    have := twiddle_conj n ((k * (n - 1) + l * (n - 1) : ℕ) : ℤ)
    have h2 : ((Complex.normSq (twiddle n ((k * (n - 1) + l * (n - 1) : ℕ) : ℤ)) : ℝ) : ℂ) = 1 := by
      rw [Complex.normSq_eq_conj_mul_self, this, ← twiddle_add, neg_add_cancel, twiddle_zero]
    exact_mod_cast h2
  rw [this, one_mul]

theorem conj_field (A p s d : ℝ) :
    (starRingEnd ℂ) (Complex.exp (Complex.I * (p : ℂ)) * (A : ℂ) * Complex.exp (Complex.I * ((s * d : ℝ) : ℂ))) =
      Complex.exp (Complex.I * ((-p : ℝ) : ℂ)) * (A : ℂ) * Complex.exp (Complex.I * ((-s * d : ℝ) : ℂ)) := by
  rw [map_mul, map_mul, Complex.conj_ofReal, ← Complex.exp_conj, ← Complex.exp_conj, map_mul, map_mul, Complex.conj_ofReal, Complex.conj_ofReal, Complex.conj_I]
  congr 2
  · congr 1
    push_cast; ring
  · push_cast; ring

/-- Specification: the aberration is odd, or even, about the centre of the array, and the amplitude even. -/
structure OddField (n : ℕ) (e : EF ℝ) : Prop where
  amp : ∀ i j, i < n → j < n → e.A (rev n i) (rev n j) = e.A i j
  phase : ∀ i j, i < n → j < n → e.phase (rev n i) (rev n j) = -e.phase i j

structure EvenField (n : ℕ) (e : EF ℝ) : Prop where
  amp : ∀ i j, i < n → j < n → e.A (rev n i) (rev n j) = e.A i j
  phase : ∀ i j, i < n → j < n → e.phase (rev n i) (rev n j) = e.phase i j

/-- The field of the opposite aberration. -/
def negEF (e : EF ℝ) : EF ℝ := { e with phase := fun i j => -e.phase i j }

theorem image_odd (res : ℕ) (stop D : ℕ → ℕ → ℝ) (hD : ∀ i j, i < res → j < res → D (rev res i) (rev res j) = D i j) (s wl : ℝ) (e : EF ℝ) (h : OddField res e) (k l : ℕ) :
    curvImage res stop (-s) D (efAtLambda e wl) k l = curvImage res stop s D (efAtLambda e wl) k l := by
  unfold curvImage
  congr 1
  apply normSq_rev_conj
  intro i j hi hj
  unfold efAtLambda
  rw [conj_field, h.amp i j hi hj, h.phase i j hi hj, hD i j hi hj, neg_mul (e.phase i j), neg_neg]

theorem image_even (res : ℕ) (stop D : ℕ → ℕ → ℝ) (hD : ∀ i j, i < res → j < res → D (rev res i) (rev res j) = D i j) (s wl : ℝ) (e : EF ℝ) (h : EvenField res e) (k l : ℕ) :
    curvImage res stop (-s) D (efAtLambda (negEF e) wl) k l = curvImage res stop s D (efAtLambda e wl) k l := by
  unfold curvImage
  congr 1
  apply normSq_rev_conj
  intro i j hi hj
  unfold efAtLambda negEF
  dsimp only
  rw [conj_field, h.amp i j hi hj, h.phase i j hi hj, hD i j hi hj]
  congr 3
  push_cast; ring

/-- Odd aberrations (tilt, coma, ...) with a symmetric amplitude give two equal images. -/
theorem C96_odd (eps : ℝ) (n res number : ℕ) (hn : 0 < n) (hr : 0 < res) (pitch rms wl fov phot : ℝ) (hp : pitch ≠ 0) (e : EF ℝ) (h : OddField res e) :
    (curvSensor eps n res number pitch rms wl fov phot e).1 = (curvSensor eps n res number pitch rms wl fov phot e).2 := by
  unfold curvSensor
  dsimp only
  congr 2
  funext k l
  exact (image_odd res _ _ (fun i j hi hj => C96_focus_even n res hn hr pitch rms wl hp i j hi hj) 1 wl e h k l).symm

/-- Even aberrations: the opposite aberration exchanges the images. -/
theorem C96_even (eps : ℝ) (n res number : ℕ) (hn : 0 < n) (hr : 0 < res) (pitch rms wl fov phot : ℝ) (hp : pitch ≠ 0) (e : EF ℝ) (h : EvenField res e) :
    curvSensor eps n res number pitch rms wl fov phot (negEF e) =
      ((curvSensor eps n res number pitch rms wl fov phot e).2, (curvSensor eps n res number pitch rms wl fov phot e).1) := by
  have hD := fun i j hi hj => C96_focus_even n res hn hr pitch rms wl hp i j hi hj
  unfold curvSensor
  dsimp only
  congr 3
  · funext k l
    have := image_even res (curvStop fov (curvScale (wl * 1e-9) pitch res) res) _ hD (-1) wl e h k l
    rwa [neg_neg] at this
  · funext k l
    exact image_even res (curvStop fov (curvScale (wl * 1e-9) pitch res) res) _ hD 1 wl e h k l

/-- In general the opposite aberration exchanges the images and reflects them about the zero frequency, pixel `res / 2`, before the stop. -/
theorem C96_mirror (h : ℕ) (h0 : 0 < h) (D : ℕ → ℕ → ℝ) (s wl : ℝ) (e : EF ℝ) (k l : ℕ) (hk : k < 2 * h) (hl : l < 2 * h) :
    curvImage (2 * h) (fun _ _ => 1) (-s) D (efAtLambda (negEF e) wl) k l =
      curvImage (2 * h) (fun _ _ => 1) s D (efAtLambda e wl) ((2 * h - k) % (2 * h)) ((2 * h - l) % (2 * h)) := by
  have hn : 0 < 2 * h := by omega
  unfold curvImage
  congr 1
  rw [← Complex.normSq_conj]
  congr 1
  have idx : ∀ k, k < 2 * h → ∃ t : ℤ, ((fftshiftIdx (2 * h) ((2 * h - k) % (2 * h)) : ℕ) : ℤ) = -((fftshiftIdx (2 * h) k : ℕ) : ℤ) + (2 * h : ℕ) * t := by
    intro k hk
    have hm : (2 * h - k) % (2 * h) < 2 * h := Nat.mod_lt _ hn
    rw [fftshiftIdx_eq _ _ hm, fftshiftIdx_eq _ _ hk]
    by_cases hk0 : k = 0
    · subst hk0
      rw [Nat.sub_zero, Nat.mod_self]
      refine ⟨1, ?_⟩
      split_ifs <;> push_cast <;> omega
    · rw [Nat.mod_eq_of_lt (by omega)]
      by_cases hkh : k = h
      · refine ⟨0, ?_⟩
        split_ifs <;> push_cast <;> omega
      · refine ⟨1, ?_⟩
        split_ifs <;> push_cast <;> omega
  obtain ⟨t, ht⟩ := idx k hk
  obtain ⟨r, hr⟩ := idx l hl
  unfold fft2
  rw [map_sum]
  refine sum_congr rfl fun i _ => ?_
  rw [map_sum]
  refine sum_congr rfl fun j _ => ?_
  unfold efAtLambda negEF
  dsimp only
  rw [map_mul, conj_field, twiddle_conj, neg_neg]
  congr 1
  · congr 3
    push_cast; ring
  · rw [← twiddle_period (2 * h) hn _ (t * i + r * j)]
    congr 1
    have p1 : ((fftshiftIdx (2 * h) k * i + fftshiftIdx (2 * h) l * j : ℕ) : ℤ) = (fftshiftIdx (2 * h) k : ℤ) * i + (fftshiftIdx (2 * h) l : ℤ) * j := by
      rw [Nat.cast_add, Nat.cast_mul, Nat.cast_mul]
    have p2 : ((fftshiftIdx (2 * h) ((2 * h - k) % (2 * h)) * i + fftshiftIdx (2 * h) ((2 * h - l) % (2 * h)) * j : ℕ) : ℤ) =
        (fftshiftIdx (2 * h) ((2 * h - k) % (2 * h)) : ℤ) * i + (fftshiftIdx (2 * h) ((2 * h - l) % (2 * h)) : ℤ) * j := by
      rw [Nat.cast_add, Nat.cast_mul, Nat.cast_mul]
    rw [p1, p2, ht, hr]
    ring

/-- With equal images the slopes of the curvature computer are zero. -/
theorem C96_no_signal {K : Type} [Field K] [LinearOrder K] [IsStrictOrderedRing K] (idx : List ℕ) (p : List K) (o : PixOut K) (h : curTrigger idx p p = some o) :
    ∀ s ∈ o.slopes, s = some 0 := by
  unfold curTrigger at h
  cases hg : gatherPix p idx with
  | none => rw [hg] at h; simp at h
  | some v =>
    rw [hg] at h
    simp only [Option.bind_some, Option.map_some, Option.some.injEq] at h
    rw [← h]
    intro s hs
    simp only at hs
    obtain ⟨i, hi, rfl⟩ := List.mem_iff_getElem.1 hs
    simp only [List.getElem_zipWith, sub_self, zero_div]

/-- Exchanged images change the sign of the slopes. -/
theorem C96_sign {K : Type} [Field K] [LinearOrder K] [IsStrictOrderedRing K] (idx : List ℕ) (p q : List K) (o : PixOut K) (h : curTrigger idx p q = some o) :
    ∃ o', curTrigger idx q p = some o' ∧ o'.slopes = o.slopes.map (Option.map fun x => -x) ∧ o'.flux = o.flux := by
  unfold curTrigger at h ⊢
  cases hp : gatherPix p idx with
  | none => rw [hp] at h; simp at h
  | some v =>
    cases hq : gatherPix q idx with
    | none => rw [hp, hq] at h; simp at h
    | some w =>
      rw [hp, hq] at h
      simp only [Option.bind_some, Option.map_some, Option.some.injEq] at h ⊢
      refine ⟨_, rfl, ?_, ?_⟩
      · rw [← h]
        apply List.ext_getElem
        · simp only [List.length_zipWith, List.length_map]; omega
        · intro i h1 h2
          simp only [List.getElem_zipWith, List.getElem_map, Option.map_some]
          unfold curSum
          rw [add_comm, ← neg_div, neg_sub]
      · rw [← h]
        apply List.ext_getElem
        · simp only [List.length_zipWith]; omega
        · intro i h1 h2
          simp only [List.getElem_zipWith]
          unfold curSum
          rw [add_comm]

/-- The first image is the one in focus of the field with the defocus added, the second with it subtracted. -/
theorem C96_defocus (eps : ℝ) (n res number : ℕ) (pitch rms wl fov phot : ℝ) (hw : wl ≠ 0) (e : EF ℝ) :
    (curvSensor eps n res number pitch rms wl fov phot e).1 =
        (curvSensor eps n res number pitch 0 wl fov phot { e with phase := fun i j => e.phase i j + curvFocus n res pitch rms wl i j * wl / (2 * Real.pi) }).1 ∧
      (curvSensor eps n res number pitch rms wl fov phot e).2 =
        (curvSensor eps n res number pitch 0 wl fov phot { e with phase := fun i j => e.phase i j - curvFocus n res pitch rms wl i j * wl / (2 * Real.pi) }).1 := by
  have hwc : (wl : ℂ) ≠ 0 := by exact_mod_cast hw
  have hpi : (Real.pi : ℂ) ≠ 0 := by exact_mod_cast Real.pi_ne_zero
  have h0 : ∀ i j, curvFocus n res pitch 0 wl i j = 0 := by
    intro i j
    unfold curvFocus
    dsimp only
    rw [mul_zero, zero_mul]
  constructor
  · unfold curvSensor
    dsimp only
    congr 2
    funext k l
    unfold curvImage
    congr 4
    funext i j
    rw [h0, mul_zero, Complex.ofReal_zero, mul_zero, Complex.exp_zero, mul_one]
    unfold efAtLambda
    dsimp only
    rw [mul_right_comm, ← Complex.exp_add]
    congr 2
    push_cast
    field_simp
  · unfold curvSensor
    dsimp only
    congr 2
    funext k l
    unfold curvImage
    congr 4
    funext i j
    rw [h0, mul_zero, Complex.ofReal_zero, mul_zero, Complex.exp_zero, mul_one]
    unfold efAtLambda
    dsimp only
    rw [mul_right_comm, ← Complex.exp_add]
    congr 2
    push_cast
    field_simp
    ring

/-- Before the stop both images have the same total, that of the field. -/
theorem C96_energy (res : ℕ) (hr : 0 < res) (D : ℕ → ℕ → ℝ) (s wl : ℝ) (e : EF ℝ) :
    ∑ k ∈ range res, ∑ l ∈ range res, curvImage res (fun _ _ => 1) s D (efAtLambda e wl) k l = (res : ℝ) ^ 2 * ∑ i ∈ range res, ∑ j ∈ range res, e.A i j ^ 2 := by
  unfold curvImage
  simp only [mul_one]
  set v : ℕ → ℕ → ℂ := fun i j => efAtLambda e wl i j * Complex.exp (Complex.I * ((s * D i j : ℝ) : ℂ)) with hv
  rw [sum_fftshift res (fun k => ∑ l ∈ range res, Complex.normSq (fft2 res v k (fftshiftIdx res l))),
    sum_congr rfl fun k _ => sum_fftshift res (fun l => Complex.normSq (fft2 res v k l)), parseval2 res hr]
  congr 1
  refine sum_congr rfl fun i _ => sum_congr rfl fun j _ => ?_
  have u1 : ∀ x : ℝ, Complex.normSq (Complex.exp (Complex.I * (x : ℂ))) = 1 := by
    intro x
    rw [Complex.normSq_eq_norm_sq, mul_comm, Complex.norm_exp_ofReal_mul_I]; norm_num
  rw [hv]
  dsimp only
  unfold efAtLambda
  rw [map_mul, map_mul, u1, u1, Complex.normSq_ofReal]
  ring

/-- Both outputs have the photons of the field, if they are not dark. -/
theorem C96_photons (eps : ℝ) (number : ℕ) (phot : ℝ) (a r out : Img ℝ) (hr : toccd eps a number number none = some r) (hp : 0 < r.total)
    (h : curvOut eps number phot a = some out) : out.total = phot ∧ ∀ i j, out.px i j * r.total = r.px i j * phot := by
  unfold curvOut at h
  rw [hr, Option.map_some, Option.some_inj, if_pos hp] at h
  rw [← h]
  constructor
  · unfold Img.total
    dsimp only
    simp only [← sum_mul]
    change r.total * (phot / r.total) = phot
    field_simp
  · intro i j
    dsimp only
    field_simp

/-! ### Geometry of the detector -/

/-- The stop is a disk of the field of view, centred between pixels: half a pixel from the zero frequency, at `res / 2`. -/
theorem C96_stop (fov scale : ℝ) (res : ℕ) (hr : 2 ≤ res) (k l : ℕ) :
    curvStop fov scale res k l = if ((k : ℝ) - ((res : ℝ) - 1) / 2) ^ 2 + ((l : ℝ) - ((res : ℝ) - 1) / 2) ^ 2 < (fov / scale / 2) ^ 2 then 1 else 0 := by
  have hr' : (0 : ℝ) < res := by exact_mod_cast (by omega : 0 < res)
  unfold curvStop baseMask maskCentreArg
  rw [if_neg (by omega)]
  simp only [Bool.false_eq_true, if_false, Option.map_some]
  unfold maskShape maskX maskY makeXY
  simp only [Bool.false_eq_true, if_false, Option.getD_none, Option.getD_some, mul_zero, mul_one, sub_zero, Bool.and_eq_true, decide_eq_true_eq]
  congr 1
  rw [eq_iff_iff]
  have e : (((l : ℝ) - ((res : ℝ) - 1) / 2) / ((res : ℝ) / 2)) ^ 2 + (((k : ℝ) - ((res : ℝ) - 1) / 2) / ((res : ℝ) / 2)) ^ 2 =
      (((k : ℝ) - ((res : ℝ) - 1) / 2) ^ 2 + ((l : ℝ) - ((res : ℝ) - 1) / 2) ^ 2) / ((res : ℝ) / 2) ^ 2 := by
    field_simp
    ring
  have e2 : (fov / scale / res) ^ 2 = (fov / scale / 2) ^ 2 / ((res : ℝ) / 2) ^ 2 := by
    field_simp
  rw [e, e2, div_lt_div_iff_of_pos_right (by positivity)]
  constructor
  · exact fun h => h.1
  · intro h
    refine ⟨h, ?_⟩
    rw [zero_pow two_ne_zero]
    positivity

/-- The part that is cut, when it is not larger than the grid: consecutive pixels, with the zero frequency at position `(w + 1) / 2`. -/
theorem C96_cut (fov scale : ℝ) (h w : ℕ) (hw : ⌈fov / scale⌉ = (w : ℤ)) (hle : w ≤ 2 * h) :
    curvCut fov scale (2 * h) = (List.range w).map (fun p => h - (w + 1) / 2 + p) ∧ (0 < w → h - (w + 1) / 2 + (w + 1) / 2 = h) := by
  refine ⟨?_, fun _ => by omega⟩
  unfold curvCut
  dsimp only
  rw [hw]
  have e : (((2 * h : ℕ) : ℤ) - w) / 2 = ((h - (w + 1) / 2 : ℕ) : ℤ) := by omega
  rw [e, ← Nat.cast_add]
  exact slicePos_block (2 * h) (h - (w + 1) / 2) w (by omega)

/-- A field of view larger than the grid: the start is negative, that counts from the end, and only the last rows and columns are left. -/
theorem C96_cut_large (fov scale : ℝ) (h w : ℕ) (hw : ⌈fov / scale⌉ = (w : ℤ)) (hgt : 2 * h < w) (hlt : w < 6 * h) :
    curvCut fov scale (2 * h) = List.range' (3 * h - (w + 1) / 2) ((w + 1) / 2 - h) := by
  unfold curvCut slicePos
  dsimp only
  rw [hw, if_pos (by omega), if_neg (by omega)]
  have e1 : ((((2 * h : ℕ) : ℤ) - w) / 2 + ((2 * h : ℕ) : ℤ)).toNat = 3 * h - (w + 1) / 2 := by omega
  have e2 : min ((((2 * h : ℕ) : ℤ) - w) / 2 + (w : ℤ)).toNat (2 * h) = 2 * h := by omega
  rw [e1, e2]
  congr 1
  omega

/-! ### Scale of the image -/

/-- Tilt of `p` and `q` waves over the grid: the image moves by `p` and `q` pixels. -/
theorem C96_shift (res : ℕ) (hr : 0 < res) (D : ℕ → ℕ → ℝ) (s wl : ℝ) (hw : wl ≠ 0) (e : EF ℝ) (p q : ℕ) (k l : ℕ) :
    curvImage res (fun _ _ => 1) s D (efAtLambda { e with phase := fun i j => e.phase i j + wl * (p * i + q * j) / res } wl) ((k + p) % res) ((l + q) % res) =
      curvImage res (fun _ _ => 1) s D (efAtLambda e wl) (k % res) (l % res) := by
  have hr' : (res : ℂ) ≠ 0 := by exact_mod_cast hr.ne'
  have hwc : (wl : ℂ) ≠ 0 := by exact_mod_cast hw
  have sh : ∀ a, fftshiftIdx res (a % res) = (a + (res - res / 2)) % res := by
    intro a
    unfold fftshiftIdx
    rw [Nat.mod_add_mod]
  unfold curvImage
  rw [sh, sh, sh, sh, fft2_mod res hr, fft2_mod res hr]
  congr 2
  unfold fft2
  refine sum_congr rfl fun i _ => sum_congr rfl fun j _ => ?_
  have w : efAtLambda { e with phase := fun i j => e.phase i j + wl * (p * i + q * j) / res } wl i j = efAtLambda e wl i j * twiddle res (-((p * i + q * j : ℕ) : ℤ)) := by
    unfold efAtLambda twiddle
    dsimp only
    rw [mul_right_comm, ← Complex.exp_add]
    congr 2
    push_cast
    field_simp
  dsimp only
  rw [w, mul_right_comm _ (twiddle res _), mul_assoc, ← twiddle_add]
  congr 2
  push_cast
  ring

/-- What a tilt of the input becomes after the interpolation: `p` waves between the first and the last pixel of the input are `p` waves over the grid, so
that a pixel of the grid is `λ / ((n - 1) pitch)` whatever its size. -/
theorem C96_scale (n res : ℕ) (hn : 2 ≤ n) (hr : 0 < res) (hne : n ≠ res) (thr wl : ℝ) (A ph : ℕ → ℕ → ℝ) (hA : ∀ a b, a < n → b < n → thr ≤ A a b) (p q : ℝ)
    (hp : ∀ a b : ℕ, a < n → b < n → ph a b = p * wl / ((n : ℝ) - 1) * a + q * wl / ((n : ℝ) - 1) * b) (i j : ℕ) (hi : i < res) (hj : j < res) :
    efiPhase id (⟨n, n, res, res, none, 0, 0, 1, thr, false⟩ : EFIParams ℝ) (freshState ⟨n, n, res, res, none, 0, 0, 1, thr, false⟩ A) A ph i j = wl * (p * i + q * j) / res := by
  have hn1 : (0 : ℝ) < (n : ℝ) - 1 := by have : (2 : ℝ) ≤ n := by exact_mod_cast hn
                                         linarith
  have hr' : (0 : ℝ) < res := by exact_mod_cast hr
  have hi' : (i : ℝ) ≤ res := by exact_mod_cast hi.le
  have hj' : (j : ℝ) ≤ res := by exact_mod_cast hj.le
  have bnd : ∀ i : ℕ, (i : ℝ) ≤ res → 0 ≤ (i : ℝ) * (((n : ℝ) - 1) / res) ∧ (i : ℝ) * (((n : ℝ) - 1) / res) ≤ (n : ℝ) - 1 := by
    intro i h
    constructor
    · positivity
    · rw [mul_div_assoc', div_le_iff₀ hr']; nlinarith
  rw [C72_position (⟨n, n, res, res, none, 0, 0, 1, thr, false⟩ : EFIParams ℝ) hn hn A ph 0 (p * wl / ((n : ℝ) - 1)) (q * wl / ((n : ℝ) - 1)) 1 0 (Or.inr ⟨rfl, rfl, rfl⟩) one_ne_zero
    (fun h => hne h.1.1) hA (fun a b ha hb => by rw [hp a b ha hb]; ring) i j hi hj (i * (((n : ℝ) - 1) / res)) (j * (((n : ℝ) - 1) / res)) _ _ rfl rfl
    (by dsimp only; ring) (by dsimp only; ring) (bnd i hi').1 (bnd i hi').2 (bnd j hj').1 (bnd j hj').2]
  field_simp
  ring

/-- The scale that the sensor uses is the true one only if the grid has as many pixels as the input has steps. -/
theorem C96_scale_wrong (lam pitch : ℝ) (hl : 0 < lam) (hp : 0 < pitch) (n res : ℕ) (hn : 2 ≤ n) (hr : 0 < res) :
    curvScale lam pitch res * (res / ((n : ℝ) - 1)) = lam / (((n : ℝ) - 1) * pitch) ∧ (curvScale lam pitch res = lam / (((n : ℝ) - 1) * pitch) ↔ res = n - 1) := by
  have hn1 : (0 : ℝ) < (n : ℝ) - 1 := by have : (2 : ℝ) ≤ n := by exact_mod_cast hn
                                         linarith
  have hr' : (0 : ℝ) < res := by exact_mod_cast hr
  unfold curvScale
  constructor
  · field_simp
  · rw [div_eq_div_iff (by positivity) (by positivity)]
    constructor
    · intro h
      have : ((n : ℝ) - 1) = res := by
        have h1 := mul_left_cancel₀ hl.ne' h
        exact mul_right_cancel₀ hp.ne' h1
      have h2 : (n : ℝ) = (res + 1 : ℕ) := by push_cast; linarith
      have : n = res + 1 := by exact_mod_cast h2
      omega
    · intro h
      have : (n : ℝ) - 1 = res := by
        rw [h, Nat.cast_sub (by omega)]; push_cast; ring
      rw [this]

/-- Without interpolation the scale is the true one: a tilt of `p` pixels of the sensor is `p` waves over the input. -/
theorem C96_scale_same (lam pitch : ℝ) (n : ℕ) (hn : 0 < n) (hp : pitch ≠ 0) (p : ℝ) : curvScale lam pitch n * p * (n * pitch) = p * lam := by
  have : (n : ℝ) ≠ 0 := by exact_mod_cast hn.ne'
  unfold curvScale
  field_simp

/-! ### Cases -/

/-- A tilt is an odd aberration, a parabola an even one. -/
theorem C96_cases (n : ℕ) (c : ℝ) :
    OddField n ⟨n, n, fun _ _ => 1, fun i j => c * ((i : ℝ) - ((n : ℝ) - 1) / 2) + ((j : ℝ) - ((n : ℝ) - 1) / 2), 1⟩ ∧
      EvenField n ⟨n, n, fun _ _ => 1, fun i j => c * (((i : ℝ) - ((n : ℝ) - 1) / 2) ^ 2 + ((j : ℝ) - ((n : ℝ) - 1) / 2) ^ 2), 1⟩ := by
  have e : ∀ i < n, ((rev n i : ℕ) : ℝ) = (n : ℝ) - 1 - i := by
    intro i hi
    unfold rev
    rw [Nat.cast_sub (by omega), Nat.cast_sub (by omega)]; push_cast; ring
  refine ⟨⟨fun _ _ _ _ => rfl, fun i j hi hj => ?_⟩, ⟨fun _ _ _ _ => rfl, fun i j hi hj => ?_⟩⟩
  · dsimp only
    rw [e i hi, e j hj]; ring
  · dsimp only
    rw [e i hi, e j hj]; ring

/-- 240 pixels of 256; a field of view of 257 pixels of 256 leaves one pixel. -/
example : curvCut 240 1 256 = (List.range 240).map (fun p => 8 + p) ∧ curvCut 257 1 256 = [255] := by
  constructor
  · have := (C96_cut 240 1 128 240 (by norm_num) (by norm_num)).1
    exact this
  · have := C96_cut_large 257 1 128 257 (by norm_num) (by norm_num) (by norm_num)
    rw [show (2 * 128 : ℕ) = 256 from rfl] at this
    rw [this]
    rfl

/-- The example of the tests: 128 pixels are interpolated to 256, pixels of 0.05 are really 0.1. -/
example : curvRes (0.1 * 128) 0.1 1 2 = 256 ∧ curvScale (0.1 * 128) 1 256 = 0.05 ∧ (0.1 * 128 : ℝ) / ((128 - 1) * 1) > 0.1 := by
  refine ⟨?_, ?_, by norm_num⟩
  · unfold curvRes
    have : (⌈(0.1 * 128 : ℝ) / (0.1 * 1) * max 1 2⌉ : ℤ) = 256 := by
      rw [max_eq_right (by norm_num)]
      norm_num
    dsimp only
    rw [this]; rfl
  · unfold curvScale; norm_num

end Specula
