import Verif.Model.ModPyr
import Verif.Props.ShSpots
import Verif.Props.PupCal
import Mathlib.RingTheory.RootsOfUnity.Complex
/-
C77: geometry, modulation and light of the modulated pyramid.
-/
namespace Specula

section
variable {K : Type} [Field K] [LinearOrder K] [IsStrictOrderedRing K] [FloorRing K]

/-- Twice a rounded half: an even number within one of the argument. -/
theorem round_half_near (x : K) : |((roundEvenF (x / 2) * 2 : Int) : K) - x| ≤ 1 := by
  have h := roundEvenF_near (x / 2)
  rw [abs_le] at h ⊢
  push_cast
  constructor <;> linarith [h.1, h.2]

/-- **C77** (FFT): the field of view is the one asked for, or what the interpolated field provides if it is less than that but
within the accepted error; interpolation is the least that achieves it; the FFT has an even size, within one pixel of the requested
resolution, and the reported resolution is the actual one. -/
theorem C77_fft (d : Nat) (fovInt fov errinf errsup fftRes : K) (hd : 0 < d) (hi : 0 < fovInt) (hf : 0 < fov) (he : errinf < 1)
    (hmax : fovInt ≤ fov * (1 + errsup)) :
    ∃ g, calcGeometry d fovInt fov errinf errsup fftRes = some g ∧ 1 ≤ g.fovRes ∧ g.sampling = d * g.fovRes ∧
      fov * (1 - errinf) ≤ fovInt * g.fovRes ∧ (∀ r : Int, 1 ≤ r → fov * (1 - errinf) ≤ fovInt * r → g.fovRes ≤ r) ∧
      g.masking * (fovInt * g.fovRes) = min fov (fovInt * g.fovRes) ∧
      Even g.totsize ∧ |(g.totsize : K) - g.sampling * fftRes| ≤ 1 ∧ g.fftRes * g.sampling = g.totsize ∧
      (Even g.sampling → g.sampling + g.padding = g.totsize) := by
  have hmin : 0 < fov * (1 - errinf) := mul_pos hf (by linarith)
  unfold calcGeometry
  rw [if_neg (not_lt.2 hmax)]
  dsimp only
  set r : Int := if fovInt < fov * (1 - errinf) then ⌈fov * (1 - errinf) / fovInt⌉ else 1 with hr
  have hr1 : 1 ≤ r := by
    rw [hr]; split_ifs
    · exact Int.one_le_ceil_iff.2 (div_pos hmin hi)
    · exact le_rfl
  have hr1K : (1 : K) ≤ r := by exact_mod_cast hr1
  have hcov : fov * (1 - errinf) ≤ fovInt * r := by
    rw [hr]; split_ifs with h
    · have := Int.le_ceil (fov * (1 - errinf) / fovInt)
      rw [div_le_iff₀ hi] at this
      linarith
    · simpa using not_lt.1 h
  have hleast : ∀ q : Int, 1 ≤ q → fov * (1 - errinf) ≤ fovInt * q → r ≤ q := by
    intro q hq h
    rw [hr]; split_ifs
    · rw [Int.ceil_le, div_le_iff₀ hi]; linarith
    · exact hq
  have hint : 0 < fovInt * r := by positivity
  have hnot : ¬ (1 < fov / (fovInt * r) ∧ 1 < fov * (1 - errinf) / (fovInt * r)) := by
    rintro ⟨-, h⟩
    rw [lt_div_iff₀ hint] at h
    linarith
  rw [if_neg hnot]
  have hdp : (0 : K) < ((d * r : Int) : K) := by
    push_cast
    have : (0 : K) < d := Nat.cast_pos.2 hd
    positivity
  refine ⟨_, rfl, hr1, rfl, hcov, hleast, ?_, ⟨_, by ring⟩, ?_, ?_, ?_⟩
  · dsimp only
    split_ifs with h
    · rw [lt_div_iff₀ hint, one_mul] at h
      rw [one_mul, min_eq_right h.le]
    · rw [not_lt, div_le_iff₀ hint, one_mul] at h
      rw [min_eq_left h, div_mul_cancel₀ _ hint.ne']
  · dsimp only
    exact round_half_near _
  · dsimp only
    field_simp
  · dsimp only
    rintro ⟨q, hq⟩
    set tot : Int := roundEvenF (((d * r : Int) : K) * fftRes / 2) with htot
    have e : (((d * r : Int) : K) * (((tot * 2 : Int) : K) / ((d * r : Int) : K)) - ((d * r : Int) : K)) / 2 = ((tot - q : Int) : K) := by
      rw [mul_div_cancel₀ _ hdp.ne', hq]
      push_cast
      ring
    rw [e, roundEvenF_int]
    linarith

omit [IsStrictOrderedRing K] in
/-- A field whose natural field of view is too large is refused. -/
theorem C77_fov_too_large (d : Nat) (fovInt fov errinf errsup fftRes : K) (h : fov * (1 + errsup) < fovInt) :
    calcGeometry d fovInt fov errinf errsup fftRes = none := by
  unfold calcGeometry; rw [if_pos h]

/-- Parameters that make sense. -/
structure PyrIn.Valid (p : PyrIn K) : Prop where
  pupil : 0 < p.pixelPupil
  fovInt : 0 < p.fovInt
  fov : 0 < p.fov
  errinf : p.errinf < 1
  max : p.fovInt ≤ p.fov * (1 + p.errsup)
  diam : 0 < p.diam

/-- Diameter of a pupil on the detector, in pixels. -/
def PyrGeom.pupilOnCcd (g : PyrGeom K) : K := g.fft.sampling * (g.toccd / g.fft.totsize)

/-- Distance between the centres of two pupils in the plane of the FFT: each face shifts by `totsize / tiltScale`. -/
def PyrGeom.separation (g : PyrGeom K) : K := 2 * (g.fft.totsize / g.tiltScale)

/-- Distance between the centres of two pupils on the detector, in pixels. -/
def PyrGeom.separationOnCcd (g : PyrGeom K) : K := g.separation * (g.toccd / g.fft.totsize)

omit [IsStrictOrderedRing K] in
theorem pyrGeometry_eq (p : PyrIn K) (g : PyrGeom K) (h : pyrGeometry p = some g) :
    ∃ res : K, calcGeometry p.pixelPupil p.fovInt p.fov p.errinf p.errsup res = some g.fft ∧ p.resMin ≤ res ∧
      (p.resMin ≤ (p.side : K) / p.diam → res = (p.side : K) / p.diam) ∧ g.tiltScale = g.fft.fftRes / ((p.pupDist : K) / p.diam / 2) ∧
      g.toccd = p.side ∧ g.final = p.ccdSide ∧ p.minDist.getD (p.diam + p.margin * 2) ≤ p.pupDist ∧
      p.pupDist + p.diam + p.margin * 2 ≤ p.ccdSide := by
  unfold pyrGeometry at h
  split_ifs at h with h1 h2
  · dsimp only at h
    rw [Option.map_eq_some_iff] at h
    obtain ⟨f, hf, rfl⟩ := h
    refine ⟨_, hf, ?_, ?_, rfl, rfl, rfl, by omega, by omega⟩
    · split_ifs with h3
      · exact le_rfl
      · exact not_lt.1 h3
    · intro h3
      rw [if_neg (not_lt.2 h3)]

omit [IsStrictOrderedRing K] in
/-- **C77** (detector): a geometry is accepted only if the four pupils with their margins are on the detector, without overlap unless
a smaller `min_pup_dist` is given. -/
theorem C77_detector (p : PyrIn K) (g : PyrGeom K) (h : pyrGeometry p = some g) :
    p.pupDist + p.diam + p.margin * 2 ≤ g.final ∧ p.minDist.getD (p.diam + p.margin * 2) ≤ p.pupDist ∧
      (p.minDist = none → p.diam + p.margin * 2 ≤ p.pupDist) := by
  obtain ⟨res, -, -, -, -, -, h6, h7, h8⟩ := pyrGeometry_eq p g h
  exact ⟨h6 ▸ h8, h7, fun hn => by rw [hn] at h7; exact h7⟩

/-- **C77** (pupils): pupils are separated as requested in units of their diameter, and neither overlap nor wrap around the array.
(At least five pixels across the pupil.) -/
theorem C77_pupils (p : PyrIn K) (hp : p.Valid) (h5 : 5 ≤ p.pixelPupil) (hdist : p.diam ≤ p.pupDist) (g : PyrGeom K)
    (h : pyrGeometry p = some g) :
    g.separation * p.diam = g.fft.sampling * p.pupDist ∧ (g.fft.sampling : K) ≤ g.separation ∧
      g.separation + g.fft.sampling ≤ g.fft.totsize := by
  obtain ⟨res, h1, h2, -, h4, h5', -⟩ := pyrGeometry_eq p g h
  obtain ⟨f, hf, g1, g2, -, -, -, -, g7, g8, -⟩ := C77_fft p.pixelPupil p.fovInt p.fov p.errinf p.errsup res hp.pupil hp.fovInt hp.fov
    hp.errinf hp.max
  rw [h1, Option.some.injEq] at hf
  subst hf
  have hdm : (0 : K) < p.diam := Nat.cast_pos.2 hp.diam
  have hds : (p.diam : K) ≤ p.pupDist := by exact_mod_cast hdist
  have hds0 : (0 : K) < p.pupDist := by linarith
  have hs5 : (5 : K) ≤ g.fft.sampling := by
    rw [g2]
    have h1 : (5 : K) ≤ p.pixelPupil := by exact_mod_cast h5
    have h2 : (1 : K) ≤ g.fft.fovRes := by exact_mod_cast g1
    push_cast
    nlinarith
  have hR : 2 ≤ ((p.pupDist : K) + p.diam) / p.diam := by rw [le_div_iff₀ hdm]; linarith
  have hres : ((p.pupDist : K) + p.diam) / p.diam * (11 / 10) ≤ res := h2
  rw [abs_le] at g7
  have hwrap : (g.fft.sampling : K) * (((p.pupDist : K) + p.diam) / p.diam) ≤ g.fft.totsize := by nlinarith
  have htot : (0 : K) < g.fft.totsize := by nlinarith
  have hfr : g.fft.fftRes = g.fft.totsize / g.fft.sampling := by
    rw [eq_div_iff (by linarith : (g.fft.sampling : K) ≠ 0)]; exact g8
  have hsep : g.separation = g.fft.sampling * p.pupDist / p.diam := by
    unfold PyrGeom.separation
    rw [h4, hfr]
    have : (g.fft.sampling : K) ≠ 0 := by linarith
    field_simp
  refine ⟨by rw [hsep]; field_simp, ?_, ?_⟩
  · rw [hsep, le_div_iff₀ hdm]
    nlinarith
  · rw [hsep]
    have : (g.fft.sampling : K) * p.pupDist / p.diam + g.fft.sampling = g.fft.sampling * (((p.pupDist : K) + p.diam) / p.diam) := by field_simp
    rw [this]; exact hwrap

/-- **C77** (scale): on the detector, pupils have the requested diameter and distance within the rounding of the size of the FFT,
provided that the requested resolution holds the geometry. -/
theorem C77_scale (p : PyrIn K) (hp : p.Valid) (h5 : 5 ≤ p.pixelPupil) (hdist : p.diam ≤ p.pupDist) (g : PyrGeom K)
    (h : pyrGeometry p = some g) (hres : p.resMin ≤ (p.side : K) / p.diam) :
    |g.pupilOnCcd - p.diam| ≤ p.diam / g.fft.totsize ∧ |g.separationOnCcd - p.pupDist| ≤ p.pupDist / g.fft.totsize := by
  obtain ⟨res, h1, h2, h3, h4, h5', -⟩ := pyrGeometry_eq p g h
  obtain ⟨f, hf, g1, g2, -, -, -, -, g7, g8, -⟩ := C77_fft p.pixelPupil p.fovInt p.fov p.errinf p.errsup res hp.pupil hp.fovInt hp.fov
    hp.errinf hp.max
  rw [h1, Option.some.injEq] at hf
  subst hf
  obtain ⟨e1, e2, e3⟩ := C77_pupils p hp h5 hdist g h
  have hdm : (0 : K) < p.diam := Nat.cast_pos.2 hp.diam
  have hs : (0 : K) < g.fft.sampling := by
    rw [g2]
    have h1 : (0 : K) < p.pixelPupil := by exact_mod_cast hp.pupil
    have h2 : (1 : K) ≤ g.fft.fovRes := by exact_mod_cast g1
    push_cast
    positivity
  have htot : (0 : K) < g.fft.totsize := by linarith
  rw [h3 hres] at g7
  have key : |g.fft.sampling * (p.side / (g.fft.totsize : K)) - p.diam| ≤ p.diam / g.fft.totsize := by
    have e : g.fft.sampling * (p.side / (g.fft.totsize : K)) - p.diam =
        -((g.fft.totsize - g.fft.sampling * ((p.side : K) / p.diam)) * (p.diam / g.fft.totsize)) := by field_simp; ring
    rw [e, abs_neg, abs_mul, abs_of_pos (by positivity : (0 : K) < p.diam / g.fft.totsize)]
    have : (0 : K) < p.diam / g.fft.totsize := by positivity
    nlinarith
  refine ⟨?_, ?_⟩
  · unfold PyrGeom.pupilOnCcd
    rw [h5']
    exact key
  · unfold PyrGeom.separationOnCcd
    rw [h5']
    have e : g.separation = g.fft.sampling * p.pupDist / p.diam := by rw [← e1]; field_simp
    have e' : g.separation * (p.side / (g.fft.totsize : K)) - p.pupDist =
        (g.fft.sampling * (p.side / (g.fft.totsize : K)) - p.diam) * (p.pupDist / p.diam) := by rw [e]; field_simp
    have hq : (0 : K) ≤ p.pupDist / p.diam := by positivity
    rw [e', abs_mul, abs_of_nonneg hq]
    calc |g.fft.sampling * (p.side / (g.fft.totsize : K)) - p.diam| * (p.pupDist / p.diam) ≤ p.diam / g.fft.totsize * (p.pupDist / p.diam) :=
          mul_le_mul_of_nonneg_right key hq
      _ = p.pupDist / g.fft.totsize := by field_simp

/-- When the resolution is raised, the number of pixels of the detector is not: whatever was requested, a pupil spans at most
`side / resMin` pixels (within the rounding of the size of the FFT), which is less than `diam` if `side / diam < resMin`. -/
theorem C77_scale_shrinks (p : PyrIn K) (hp : p.Valid) (h5 : 5 ≤ p.pixelPupil) (hdist : p.diam ≤ p.pupDist) (g : PyrGeom K)
    (h : pyrGeometry p = some g) (hside : 0 ≤ p.side) :
    g.pupilOnCcd * (g.fft.sampling * p.resMin - 1) ≤ g.fft.sampling * p.side := by
  obtain ⟨res, h1, h2, h3, h4, h5', -⟩ := pyrGeometry_eq p g h
  obtain ⟨f, hf, g1, g2, -, -, -, -, g7, g8, -⟩ := C77_fft p.pixelPupil p.fovInt p.fov p.errinf p.errsup res hp.pupil hp.fovInt hp.fov
    hp.errinf hp.max
  rw [h1, Option.some.injEq] at hf
  subst hf
  obtain ⟨e1, e2, e3⟩ := C77_pupils p hp h5 hdist g h
  have hs : (0 : K) < g.fft.sampling := by
    rw [g2]
    have h1 : (0 : K) < p.pixelPupil := by exact_mod_cast hp.pupil
    have h2 : (1 : K) ≤ g.fft.fovRes := by exact_mod_cast g1
    push_cast
    positivity
  have htot : (0 : K) < g.fft.totsize := by linarith
  rw [abs_le] at g7
  unfold PyrGeom.pupilOnCcd
  rw [h5']
  have hsd : (0 : K) ≤ p.side := by exact_mod_cast hside
  have hle : (g.fft.sampling : K) * p.resMin - 1 ≤ g.fft.totsize := by nlinarith
  have hq : (0 : K) ≤ g.fft.sampling * (p.side / (g.fft.totsize : K)) := by positivity
  calc g.fft.sampling * (p.side / (g.fft.totsize : K)) * (g.fft.sampling * p.resMin - 1)
      ≤ g.fft.sampling * (p.side / (g.fft.totsize : K)) * g.fft.totsize := mul_le_mul_of_nonneg_left hle hq
    _ = g.fft.sampling * p.side := by field_simp

/-- The arrays of the faces and of the focal plane mask have the same side when the number of pixels of the pupil is even. -/
theorem C77_sides (d : Nat) (fovInt fov errinf errsup fftRes : K) (hd : 0 < d) (hi : 0 < fovInt) (hf : 0 < fov) (he : errinf < 1)
    (hmax : fovInt ≤ fov * (1 + errsup)) (g : FftGeom K) (h : calcGeometry d fovInt fov errinf errsup fftRes = some g)
    (heven : Even g.sampling) : g.pyrSide = g.totsize := by
  obtain ⟨f, hf, -, -, -, -, -, g6, -, -, g9⟩ := C77_fft d fovInt fov errinf errsup fftRes hd hi hf he hmax
  rw [h, Option.some.injEq] at hf
  subst hf
  obtain ⟨q, hq⟩ := g6
  unfold FftGeom.pyrSide
  rw [g9 heven, hq]
  omega

end

/-! ### Modulation -/

/-- **C77** (steps): without `mod_step`, a circular modulation of amplitude above 3/4 has a multiple of four steps, at least the
number that an explicit `mod_step` is required to have. -/
theorem C77_steps_circular (a : ℝ) (ha : 3 / 4 < a) :
    ∃ m : Nat, modSteps .circular a none = some (m : Int) ∧ 4 ∣ m ∧ 4 ≤ m ∧ 2 * Real.pi * a ≤ m ∧
      modSteps .circular a (some m) = some (m : Int) := by
  have hpi : Real.pi < 3.15 := Real.pi_lt_d2
  have hpi0 := Real.pi_pos
  have hn := abs_le.1 (roundEvenF_near (a * 2))
  have h2 : (2 : Int) ≤ roundEvenF (a * 2) := by
    have : ((1 : Int) : ℝ) < roundEvenF (a * 2) := by push_cast; linarith [hn.1]
    have : (1 : Int) < roundEvenF (a * 2) := by exact_mod_cast this
    omega
  obtain ⟨r, hr⟩ := Int.eq_ofNat_of_zero_le (by omega : 0 ≤ roundEvenF (a * 2))
  rw [hr] at h2 hn
  have h2r : (2 : ℝ) ≤ (r : ℝ) := by exact_mod_cast h2
  have h2n : 2 ≤ r := by exact_mod_cast h2
  have hle : 2 * Real.pi * a ≤ (4 * r : ℝ) := by
    have hna : a * 2 ≤ r + 1 / 2 := by
      have := hn.1; push_cast at this; linarith
    have h3 : 2 * Real.pi * a ≤ Real.pi * (r + 1 / 2) := by nlinarith
    nlinarith
  refine ⟨4 * r, ?_, ⟨r, rfl⟩, by omega, by push_cast; exact hle, ?_⟩
  · unfold modSteps
    dsimp only
    rw [if_pos rfl, hr, Option.some.injEq, max_eq_right]
    · push_cast; ring
    · omega
  · unfold modSteps
    dsimp only
    have e : truncInt (((4 * r : Nat) : ℝ)) = ((4 * r : Nat) : Int) := by
      have := truncInt_int (K := ℝ) ((4 * r : Nat) : Int)
      rwa [Int.cast_natCast] at this
    rw [if_neg, e]
    rw [e]
    have hpos : (0 : ℝ) < ((4 * r : Nat) : ℝ) := by push_cast; linarith
    push Not
    refine ⟨hpos.ne', hpos.le, by push_cast; ring, ?_⟩
    have hm := abs_le.1 (roundEvenF_near (2 * Real.pi * a))
    have h4 : (roundEvenF (2 * Real.pi * a) : ℝ) < (((4 * r + 1 : Nat) : Int) : ℝ) := by push_cast; linarith [hm.2]
    have h5 : roundEvenF (2 * Real.pi * a) < ((4 * r + 1 : Nat) : Int) := by exact_mod_cast h4
    have h6 : roundEvenF (2 * Real.pi * a) ≤ ((4 * r : Nat) : Int) := by push_cast at h5 ⊢; omega
    exact_mod_cast h6

/-- Up to an amplitude of 1/4 there is a single step — not in the centre, see `C77_one_step`. -/
theorem C77_steps_small (a : ℝ) (h0 : 0 ≤ a) (ha : a < 1 / 4) : modSteps .circular a none = some 1 := by
  unfold modSteps
  dsimp only
  rw [if_pos rfl, roundEvenF_eq (a * 2) 0 (by rw [abs_lt]; constructor <;> push_cast <;> linarith)]
  rfl

/-- The single step is a static tilt of the whole amplitude. -/
theorem C77_one_step (a : ℝ) : circlePoint a 1 0 = (0, a) := by
  unfold circlePoint
  simp

/-- The comment in the code ("more than 2*pi*mod_amp points") does not hold below 3/4: the default for 0.74 is four steps, which is
refused if asked for. -/
theorem C77_steps_too_few : modSteps .circular (37 / 50) none = some 4 ∧ modSteps .circular (37 / 50) (some 4) = none := by
  constructor
  · unfold modSteps
    dsimp only
    rw [if_pos rfl, roundEvenF_eq (37 / 50 * 2 : ℝ) 1 (by rw [abs_lt]; constructor <;> push_cast <;> norm_num)]
    rfl
  · unfold modSteps
    dsimp only
    have h1 := Real.pi_gt_d2
    have h2 := Real.pi_lt_d2
    rw [roundEvenF_eq (2 * Real.pi * (37 / 50) : ℝ) 5 (by rw [abs_lt]; constructor <;> push_cast <;> linarith)]
    rw [if_pos]
    right; right; right
    norm_num

/-- A linear modulation has an odd number of steps, at least three from an amplitude of 1/2. -/
theorem C77_steps_linear (t : ModType) (ht : t ≠ .circular) (a : ℝ) (ha : 1 / 2 < a) :
    ∃ h : Nat, modSteps t a none = some ((2 * h + 1 : Nat) : Int) ∧ 1 ≤ h ∧ |(h : ℝ) - a| ≤ 1 / 2 := by
  have hn := roundEvenF_near a
  have h1 : (1 : Int) ≤ roundEvenF a := by
    have := (abs_le.1 hn).1
    have : ((0 : Int) : ℝ) < roundEvenF a := by push_cast; linarith
    have : (0 : Int) < roundEvenF a := by exact_mod_cast this
    omega
  obtain ⟨r, hr⟩ := Int.eq_ofNat_of_zero_le (by omega : 0 ≤ roundEvenF a)
  refine ⟨r, ?_, by rw [hr] at h1; exact_mod_cast h1, by rw [hr] at hn; exact_mod_cast hn⟩
  unfold modSteps
  dsimp only
  rw [if_neg ht, hr]
  congr 1
  push_cast
  ring

/-- Below that, also without modulation, there is one step and the sensor cannot be set up (division by zero). -/
theorem C77_linear_small (t : ModType) (ht : t ≠ .circular) (a : ℝ) (h0 : 0 ≤ a) (ha : a < 1 / 2) (iter : Nat) :
    modSteps t a none = some 1 ∧ modPoint t a 1 iter 0 = none := by
  constructor
  · unfold modSteps
    dsimp only
    rw [if_neg ht, roundEvenF_eq a 0 (by rw [abs_lt]; constructor <;> push_cast <;> linarith)]
    rfl
  · cases t <;> first | exact absurd rfl ht | (unfold modPoint linearTilt; simp)

/-- **C77** (circle): every step of a circular modulation lies at the amplitude from the centre. -/
theorem C77_circle_radius (a : ℝ) (m iter k : Nat) : ∃ x y, modPoint .circular a m iter k = some (x, y) ∧ x ^ 2 + y ^ 2 = a ^ 2 := by
  refine ⟨_, _, rfl, ?_⟩
  have := Real.sin_sq_add_cos_sq (2 * Real.pi * (k / m))
  linear_combination a ^ 2 * this

/-- Steps average to zero. -/
theorem C77_circle_centred (a : ℝ) (m : Nat) (hm : 2 ≤ m) :
    ∑ k ∈ Finset.range m, (circlePoint a m k).1 = 0 ∧ ∑ k ∈ Finset.range m, (circlePoint a m k).2 = 0 := by
  have h := (Complex.isPrimitiveRoot_exp m (by omega)).geom_sum_eq_zero (by omega)
  have e : ∀ k : Nat, Complex.exp (2 * Real.pi * Complex.I / m) ^ k =
      Complex.exp (((2 * Real.pi * (k / m) : ℝ) : ℂ) * Complex.I) := by
    intro k
    rw [← Complex.exp_nat_mul]
    congr 1
    push_cast
    ring
  simp only [e] at h
  have h1 := congrArg Complex.im h
  have h2 := congrArg Complex.re h
  rw [Complex.im_sum] at h1
  rw [Complex.re_sum] at h2
  simp only [Complex.exp_ofReal_mul_I_im, Complex.exp_ofReal_mul_I_re, Complex.zero_im, Complex.zero_re] at h1 h2
  unfold circlePoint
  constructor
  · dsimp only
    rw [← Finset.mul_sum, h1, mul_zero]
  · dsimp only
    rw [← Finset.mul_sum, h2, mul_zero]

/-- With a multiple of four steps the modulation looks the same from the four faces of the pyramid: a quarter of the steps later the
tilt has turned by ninety degrees. -/
theorem C77_circle_quarter (a : ℝ) (m : Nat) (hm : 0 < m) (k : Nat) :
    circlePoint a (4 * m) (k + m) = ((circlePoint a (4 * m) k).2, -(circlePoint a (4 * m) k).1) := by
  have hm' : (m : ℝ) ≠ 0 := by exact_mod_cast hm.ne'
  have e : 2 * Real.pi * (((k + m : Nat) : ℝ) / ((4 * m : Nat) : ℝ)) = 2 * Real.pi * ((k : ℝ) / ((4 * m : Nat) : ℝ)) + Real.pi / 2 := by
    push_cast; field_simp; ring
  unfold circlePoint
  rw [e, Real.sin_add_pi_div_two, Real.cos_add_pi_div_two]
  simp

/-- Consecutive steps are at most one λ/D apart, if steps are as many as required. -/
theorem C77_circle_dense (a : ℝ) (ha : 0 ≤ a) (m : Nat) (hm : 0 < m) (h : 2 * Real.pi * a ≤ m) (k : Nat) :
    ((circlePoint a m (k + 1)).1 - (circlePoint a m k).1) ^ 2 + ((circlePoint a m (k + 1)).2 - (circlePoint a m k).2) ^ 2 ≤ 1 := by
  have hm' : (0 : ℝ) < m := by exact_mod_cast hm
  have e : 2 * Real.pi * (((k + 1 : Nat) : ℝ) / m) = 2 * Real.pi * ((k : ℝ) / m) + 2 * Real.pi / m := by
    push_cast; field_simp
  unfold circlePoint
  rw [e]
  dsimp only
  set θ := 2 * Real.pi * ((k : ℝ) / m)
  set δ := 2 * Real.pi / m with hδ
  have key : (a * Real.sin (θ + δ) - a * Real.sin θ) ^ 2 + (a * Real.cos (θ + δ) - a * Real.cos θ) ^ 2 = a ^ 2 * (2 - 2 * Real.cos δ) := by
    have h1 := Real.sin_sq_add_cos_sq (θ + δ)
    have h2 := Real.sin_sq_add_cos_sq θ
    have h3 : Real.cos δ = Real.cos (θ + δ) * Real.cos θ + Real.sin (θ + δ) * Real.sin θ := by
      rw [← Real.cos_sub]; congr 1; ring
    rw [h3]
    linear_combination a ^ 2 * h1 + a ^ 2 * h2
  rw [key]
  have hc := Real.one_sub_sq_div_two_le_cos (x := δ)
  have hδ0 : 0 ≤ a * δ := by rw [hδ]; have := Real.pi_pos; positivity
  have hδ1 : a * δ ≤ 1 := by
    rw [hδ, ← mul_div_assoc, div_le_one hm']; linarith
  nlinarith [sq_nonneg a]

/-- **C77** (line): steps of a linear modulation run from minus to plus the amplitude, symmetric about the centre, in equal
steps. -/
theorem C77_line (a : ℝ) (m : Nat) (hm : 2 ≤ m) :
    linearTilt a m 0 = some (-a) ∧ linearTilt a m (m - 1) = some a ∧
      (∀ k < m, ∃ x, linearTilt a m k = some x ∧ linearTilt a m (m - 1 - k) = some (-x)) ∧
      ∀ k x y, linearTilt a m k = some x → linearTilt a m (k + 1) = some y → y - x = 2 * a / ((m : ℝ) - 1) := by
  have hne : m ≠ 1 := by omega
  have hm1 : ((m - 1 : Nat) : ℝ) = (m : ℝ) - 1 := by rw [Nat.cast_sub (by omega)]; norm_num
  have hm0 : ((m : ℝ) - 1) ≠ 0 := by
    rw [← hm1]; exact_mod_cast (by omega : m - 1 ≠ 0)
  unfold linearTilt
  simp only [if_neg hne, Option.some.injEq]
  refine ⟨by simp, ?_, ?_, ?_⟩
  · rw [hm1]; field_simp; ring
  · intro k hk
    refine ⟨_, rfl, ?_⟩
    rw [Nat.cast_sub (by omega), hm1]
    field_simp
    ring
  · rintro k x y rfl rfl
    push_cast
    field_simp
    ring

/-- An odd number of steps contains the centre. -/
theorem C77_line_centre (a : ℝ) (h : Nat) (hh : 1 ≤ h) : linearTilt a (2 * h + 1) h = some 0 := by
  unfold linearTilt
  rw [if_neg (by omega), Option.some.injEq]
  have : (h : ℝ) ≠ 0 := by exact_mod_cast (by omega : h ≠ 0)
  push_cast
  field_simp
  ring

/-- The direction of the line: constant, or swapped at every frame. -/
theorem C77_line_axis (a : ℝ) (m : Nat) (hm : m ≠ 1) (iter k : Nat) :
    ∃ v, linearTilt a m k = some v ∧ modPoint .vertical a m iter k = some (0, v) ∧ modPoint .horizontal a m iter k = some (v, 0) ∧
      modPoint .alternating a m (2 * iter) k = some (0, v) ∧ modPoint .alternating a m (2 * iter + 1) k = some (v, 0) := by
  refine ⟨_, by unfold linearTilt; rw [if_neg hm], ?_, ?_, ?_, ?_⟩ <;> unfold modPoint linearTilt <;> simp [hm, Nat.add_mod]

theorem avgTilt_lt (a : ℝ) (ha : 0 < a) (m k : Nat) (hm : 2 ≤ m) (hk : k < m) : |avgTilt a m k| < a := by
  have hm1 : (1 : ℝ) ≤ (m : ℝ) - 1 := by
    have : (2 : ℝ) ≤ m := by exact_mod_cast hm
    linarith
  have hm0 : (0 : ℝ) < (m : ℝ) - 1 := by linarith
  unfold avgTilt
  split_ifs with h0 h1
  · have e : (-a + a * (2 * (1 / 2) / ((m : ℝ) - 1) - 1)) / 2 = -a + a * (1 / (2 * ((m : ℝ) - 1))) := by field_simp; ring
    have h1 : 0 < 1 / (2 * ((m : ℝ) - 1)) := by positivity
    have h2 : 1 / (2 * ((m : ℝ) - 1)) ≤ 1 / 2 := by rw [div_le_div_iff₀ (by positivity) (by positivity)]; linarith
    rw [e, abs_lt]; constructor <;> nlinarith
  · subst h1
    have hm1' : ((m - 1 : Nat) : ℝ) = (m : ℝ) - 1 := by rw [Nat.cast_sub (by omega)]; norm_num
    rw [hm1']
    have e : (a * (2 * ((m : ℝ) - 1 - 1 / 2) / ((m : ℝ) - 1) - 1) + a) / 2 = a - a * (1 / (2 * ((m : ℝ) - 1))) := by field_simp; ring
    have h1 : 0 < 1 / (2 * ((m : ℝ) - 1)) := by positivity
    have h2 : 1 / (2 * ((m : ℝ) - 1)) ≤ 1 / 2 := by rw [div_le_div_iff₀ (by positivity) (by positivity)]; linarith
    rw [e, abs_lt]; constructor <;> nlinarith
  · have hk0 : (0 : ℝ) < k := by exact_mod_cast (by omega : 0 < k)
    have hk1 : (k : ℝ) < (m : ℝ) - 1 := by
      have : ((k + 1 : Nat) : ℝ) < m := by exact_mod_cast (by omega : k + 1 < m)
      push_cast at this; linarith
    have h2 : 0 < 2 * (k : ℝ) / ((m : ℝ) - 1) := by positivity
    have h3 : 2 * (k : ℝ) / ((m : ℝ) - 1) < 2 := by rw [div_lt_iff₀ hm0]; linarith
    rw [abs_lt]; constructor <;> nlinarith

theorem avgTilt_symm (a : ℝ) (m k : Nat) (hm : 2 ≤ m) (hk : k < m) : avgTilt a m (m - 1 - k) = -avgTilt a m k := by
  have hm1' : ((m - 1 : Nat) : ℝ) = (m : ℝ) - 1 := by rw [Nat.cast_sub (by omega)]; norm_num
  have hm0 : ((m : ℝ) - 1) ≠ 0 := by rw [← hm1']; exact_mod_cast (by omega : m - 1 ≠ 0)
  unfold avgTilt
  by_cases h0 : k = 0
  · subst h0
    rw [if_neg (by omega), if_pos (by omega), if_pos rfl, Nat.sub_zero, hm1']
    field_simp; ring
  · by_cases h1 : k = m - 1
    · subst h1
      rw [if_pos (by omega), if_neg (by omega), if_pos rfl, hm1']
      field_simp; ring
    · rw [if_neg (by omega), if_neg (by omega), if_neg h0, if_neg h1, Nat.cast_sub (by omega), hm1']
      field_simp; ring

/-- **C77** (weights): steps of a modulation have finite weights not less than one, symmetric about the centre. -/
theorem C77_weights (t : ModType) (a : ℝ) (ha : 0 < a) (m : Nat) (hm : 1 ≤ m) (k : Nat) (hk : k < m) :
    1 ≤ fluxFactor t a m k ∧ fluxFactor t a m (m - 1 - k) = fluxFactor t a m k ∧
      (t ≠ .circular → 2 ≤ m → 0 < Real.cos (|avgTilt a m k| * Real.pi / (2 * a))) := by
  have hpi := Real.pi_pos
  have hcos : 2 ≤ m → 0 < Real.cos (|avgTilt a m k| * Real.pi / (2 * a)) := by
    intro hm2
    have h := avgTilt_lt a ha m k hm2 hk
    apply Real.cos_pos_of_mem_Ioo
    have h0 : 0 ≤ |avgTilt a m k| * Real.pi / (2 * a) := by positivity
    refine ⟨by linarith, ?_⟩
    rw [div_lt_div_iff₀ (by positivity) (by norm_num)]
    nlinarith
  refine ⟨?_, ?_, fun _ h => hcos h⟩
  · unfold fluxFactor
    split_ifs with h1 h2
    · exact le_rfl
    · exact le_rfl
    · rw [le_div_iff₀ (hcos (by omega)), one_mul]
      exact Real.cos_le_one _
  · unfold fluxFactor
    split_ifs with h1 h2
    · rfl
    · rfl
    · rw [avgTilt_symm a m k (by omega) hk, abs_neg]

/-! ### Light -/

section
variable {K : Type} [Field K] [LinearOrder K] [IsStrictOrderedRing K]

/-- **C77** (accumulation): weights act as an average: steps with the same image give that image. -/
theorem C77_accumulate_same (m : Nat) (w : Nat → K) (hm : 0 < m) (hw : ∀ i < m, 0 < w i) (psf : Nat → Nat → Nat → K) (f : Nat → Nat → K)
    (h : ∀ i < m, ∀ y x, psf i y x = f y x) (y x : Nat) : accumulate m w psf y x = f y x := by
  have hs : 0 < ∑ i ∈ Finset.range m, w i := Finset.sum_pos (fun i hi => hw i (Finset.mem_range.1 hi)) ⟨0, Finset.mem_range.2 hm⟩
  unfold accumulate
  rw [Finset.sum_congr rfl fun i hi => by rw [h i (Finset.mem_range.1 hi)], ← Finset.mul_sum, mul_assoc, mul_one_div_cancel hs.ne', mul_one]

/-- An average lies between bounds of the images. -/
theorem C77_accumulate_bounds (m : Nat) (w : Nat → K) (hm : 0 < m) (hw : ∀ i < m, 0 < w i) (psf : Nat → Nat → Nat → K) (lo hi : K) (y x : Nat)
    (h : ∀ i < m, lo ≤ psf i y x ∧ psf i y x ≤ hi) : lo ≤ accumulate m w psf y x ∧ accumulate m w psf y x ≤ hi := by
  have hs : 0 < ∑ i ∈ Finset.range m, w i := Finset.sum_pos (fun i hi => hw i (Finset.mem_range.1 hi)) ⟨0, Finset.mem_range.2 hm⟩
  unfold accumulate
  rw [mul_one_div]
  constructor
  · rw [le_div_iff₀ hs, Finset.mul_sum]
    exact Finset.sum_le_sum fun i hi' => mul_le_mul_of_nonneg_right (h i (Finset.mem_range.1 hi')).1 (hw i (Finset.mem_range.1 hi')).le
  · rw [div_le_iff₀ hs, Finset.mul_sum]
    exact Finset.sum_le_sum fun i hi' => mul_le_mul_of_nonneg_right (h i (Finset.mem_range.1 hi')).2 (hw i (Finset.mem_range.1 hi')).le

/-- **C77** (transmission): a fraction of the light between 0 and 1; 1 with an open mask. -/
theorem C77_transmission (bfm : Img K) (mask : Nat → Nat → K) (hpsf : ∀ y x, 0 ≤ bfm.px y x) (hmask : ∀ y x, 0 ≤ mask y x ∧ mask y x ≤ 1)
    (ht : bfm.total ≠ 0) :
    0 ≤ pyrTransmission bfm mask ∧ pyrTransmission bfm mask ≤ 1 ∧ ((∀ y x, mask y x = 1) → pyrTransmission bfm mask = 1) := by
  have h0 : 0 ≤ bfm.total := Finset.sum_nonneg fun _ _ => Finset.sum_nonneg fun _ _ => hpsf _ _
  have hpos : 0 < bfm.total := lt_of_le_of_ne h0 ht.symm
  unfold pyrTransmission
  refine ⟨div_nonneg ?_ h0, ?_, ?_⟩
  · exact Finset.sum_nonneg fun _ _ => Finset.sum_nonneg fun _ _ => mul_nonneg (hpsf _ _) (hmask _ _).1
  · rw [div_le_one hpos]
    exact Finset.sum_le_sum fun _ _ => Finset.sum_le_sum fun _ _ => mul_le_of_le_one_right (hpsf _ _) (hmask _ _).2
  · intro h
    rw [div_eq_one_iff_eq ht]
    unfold Img.total
    simp only [h, mul_one]

omit [LinearOrder K] [IsStrictOrderedRing K] in
/-- A final detector not smaller than the internal one holds all the light, in the middle. -/
theorem placeCcd_pad (c : Img K) (final : Nat) (hsq : c.cols = c.rows) (h : c.rows ≤ final) :
    (placeCcd c final).1.rows = final ∧ (placeCcd c final).1.cols = final ∧ (placeCcd c final).2 = 1 ∧
      (placeCcd c final).1.total = c.total ∧
      ∀ y < c.rows, ∀ x < c.rows, (placeCcd c final).1.px ((final - c.rows) / 2 + y) ((final - c.rows) / 2 + x) = c.px y x := by
  unfold placeCcd
  rcases Nat.lt_or_ge c.rows final with hlt | hge
  · rw [if_pos hlt]
    dsimp only
    refine ⟨rfl, rfl, rfl, ?_, ?_⟩
    · unfold Img.total
      dsimp only
      rw [sum_window _ final ((final - c.rows) / 2) c.rows (by omega)]
      · refine Finset.sum_congr rfl fun u hu => ?_
        have hu := Finset.mem_range.1 hu
        rw [sum_window _ final ((final - c.rows) / 2) c.cols (by omega)]
        · refine Finset.sum_congr rfl fun v hv => ?_
          have hv := Finset.mem_range.1 hv
          rw [if_pos (by omega)]
          congr 1 <;> omega
        · intro i hi
          rw [if_neg (by omega)]
      · intro i hi
        refine Finset.sum_eq_zero fun j _ => ?_
        rw [if_neg (by omega)]
    · intro y hy x hx
      rw [if_pos (by omega)]
      congr 1 <;> omega
  · have he : c.rows = final := by omega
    rw [if_neg (by omega), if_neg (by omega)]
    refine ⟨he, hsq.trans he, rfl, rfl, ?_⟩
    intro y hy x hx
    have e : (final - c.rows) / 2 = 0 := by omega
    rw [e, Nat.zero_add, Nat.zero_add]

/-- A smaller final detector keeps the middle of the internal one; the output `flux_frac_inside_ccd` is the fraction of the light
it keeps. -/
theorem placeCcd_crop (c : Img K) (final : Nat) (hsq : c.cols = c.rows) (h : final < c.rows) (hpx : ∀ y x, 0 ≤ c.px y x) (ht : c.total ≠ 0) :
    (placeCcd c final).1.rows = final ∧ (placeCcd c final).1.cols = final ∧
      (∀ y x, (placeCcd c final).1.px y x = c.px ((c.rows - final) / 2 + y) ((c.rows - final) / 2 + x)) ∧
      (placeCcd c final).1.total = (placeCcd c final).2 * c.total ∧ 0 ≤ (placeCcd c final).2 ∧ (placeCcd c final).2 ≤ 1 := by
  have h0 : 0 ≤ c.total := Finset.sum_nonneg fun _ _ => Finset.sum_nonneg fun _ _ => hpx _ _
  have hpos : 0 < c.total := lt_of_le_of_ne h0 ht.symm
  unfold placeCcd
  rw [if_neg (by omega), if_pos h]
  dsimp only
  refine ⟨rfl, rfl, fun _ _ => rfl, (div_mul_cancel₀ _ ht).symm, div_nonneg ?_ h0, ?_⟩
  · exact Finset.sum_nonneg fun _ _ => Finset.sum_nonneg fun _ _ => hpx _ _
  · rw [div_le_one hpos]
    unfold Img.total
    dsimp only
    obtain ⟨k, hk⟩ : ∃ k, c.rows = (c.rows - final) / 2 + (final + k) := ⟨c.rows - final - (c.rows - final) / 2, by omega⟩
    have hsub : ∀ f : Nat → K, (∀ i, 0 ≤ f i) → ∑ i ∈ Finset.range final, f ((c.rows - final) / 2 + i) ≤ ∑ i ∈ Finset.range c.rows, f i := by
      intro f hf
      set o := (c.rows - final) / 2
      rw [hk, Finset.sum_range_add, Finset.sum_range_add]
      have h1 : 0 ≤ ∑ i ∈ Finset.range o, f i := Finset.sum_nonneg fun _ _ => hf _
      have h2 : 0 ≤ ∑ i ∈ Finset.range k, f (o + (final + i)) := Finset.sum_nonneg fun _ _ => hf _
      linarith
    rw [hsq]
    calc (∑ i ∈ Finset.range final, ∑ j ∈ Finset.range final, c.px ((c.rows - final) / 2 + i) ((c.rows - final) / 2 + j))
        ≤ ∑ i ∈ Finset.range final, ∑ j ∈ Finset.range c.rows, c.px ((c.rows - final) / 2 + i) j :=
          Finset.sum_le_sum fun i _ => hsub _ fun j => hpx _ _
      _ ≤ _ := hsub (fun i => ∑ j ∈ Finset.range c.rows, c.px i j) fun i => Finset.sum_nonneg fun _ _ => hpx _ _

omit [LinearOrder K] [IsStrictOrderedRing K] in
theorem pyr_scaled_total (pup : Img K) (q : K) : (⟨pup.rows, pup.cols, fun y x => pup.px y x * q⟩ : Img K).total = pup.total * q := by
  unfold Img.total
  dsimp only
  rw [Finset.sum_mul]
  exact Finset.sum_congr rfl fun _ _ => by rw [Finset.sum_mul]

/-- Light through the pyramid is resampled onto the internal detector without loss. -/
theorem pyrPost_eq (eps phot tr : K) (pup : Img K) (n final : Nat) (hsq : pup.cols = pup.rows) (hR : 0 < pup.rows) (hn : 0 < n)
    (hpup : ∀ y x, 0 ≤ pup.px y x) (ht : pup.total ≠ 0) (hflux : 0 < phot * tr) (hok : ResampleOk pup.rows pup.rows n n)
    (heps : eps ≤ phot * tr * ((n * n) / (pup.rows * pup.rows))) :
    ∃ c, pyrPost eps phot tr pup n final = some (placeCcd c final) ∧ c.rows = n ∧ c.cols = n ∧ c.total = phot * tr ∧
      ∀ y < n, ∀ x < n, c.px y x = areaResample pup.rows pup.rows n n pup.px y x * (phot * tr / pup.total) := by
  have h0 : 0 ≤ pup.total := Finset.sum_nonneg fun _ _ => Finset.sum_nonneg fun _ _ => hpup _ _
  have hpos : 0 < pup.total := lt_of_le_of_ne h0 ht.symm
  unfold pyrPost
  rw [if_neg ht]
  set q := phot / pup.total * tr with hq
  set a : Img K := ⟨pup.rows, pup.cols, fun y x => pup.px y x * q⟩ with ha
  have hat : a.total = phot * tr := by
    rw [ha, pyr_scaled_total, hq]; field_simp
  have hq' : q = phot * tr / pup.total := by rw [hq]; ring
  by_cases hs : pup.rows = n
  · refine ⟨a, ?_, hs, by rw [ha]; exact hsq.trans hs, hat, ?_⟩
    · unfold toccd
      rw [if_pos ⟨hs, by rw [ha]; exact hsq.trans hs⟩, Option.map_some]
    · intro y hy x hx
      rw [hs, areaResample_same n pup.px y x hy hx, ← hq']
  · have hok' : ResampleOk a.rows a.cols n n := by rw [ha]; dsimp only; rw [hsq]; exact hok
    obtain ⟨c, c1, c2, c3, c4, c5⟩ := C37_toccd eps a n n none hR (by rw [ha]; dsimp only; rw [hsq]; exact hR) hn hn
      (fun h => hs h.1) hok' (by rw [hat, ha]; dsimp only; rw [hsq]; exact heps) (by rw [hat]; exact hflux.ne')
    refine ⟨c, by rw [c1, Option.map_some], c2, c3, by rw [c4]; exact hat, ?_⟩
    intro y hy x hx
    rw [c5 y hy x hx, Option.getD_none, div_self (by rw [hat]; exact hflux.ne'), mul_one]
    rw [ha]
    dsimp only
    rw [hsq, hq']
    unfold areaResample
    rw [Finset.sum_mul]
    refine Finset.sum_congr rfl fun _ _ => ?_
    rw [Finset.sum_mul]
    exact Finset.sum_congr rfl fun _ _ => by ring

/-- **C77** (flux): the detector receives the photons of the field times the transmission of the mask, times the fraction inside the
detector that the sensor reports. -/
theorem C77_flux (eps phot tr : K) (pup : Img K) (n final : Nat) (hsq : pup.cols = pup.rows) (hR : 0 < pup.rows) (hn : 0 < n)
    (hpup : ∀ y x, 0 ≤ pup.px y x) (ht : pup.total ≠ 0) (hflux : 0 < phot * tr) (hok : ResampleOk pup.rows pup.rows n n)
    (heps : eps ≤ phot * tr * ((n * n) / (pup.rows * pup.rows))) (hc : n ≤ final) :
    ∃ r, pyrPost eps phot tr pup n final = some (r, 1) ∧ r.rows = final ∧ r.cols = final ∧ r.total = phot * tr ∧
      ∀ y < n, ∀ x < n, r.px ((final - n) / 2 + y) ((final - n) / 2 + x) =
        areaResample pup.rows pup.rows n n pup.px y x * (phot * tr / pup.total) := by
  obtain ⟨c, c1, c2, c3, c4, c5⟩ := pyrPost_eq eps phot tr pup n final hsq hR hn hpup ht hflux hok heps
  obtain ⟨p1, p2, p3, p4, p5⟩ := placeCcd_pad c final (by rw [c3, c2]) (by rw [c2]; exact hc)
  refine ⟨(placeCcd c final).1, by rw [c1, ← p3], p1, p2, p4.trans c4, ?_⟩
  intro y hy x hx
  rw [c2] at p5
  rw [p5 y hy x hx, c5 y hy x hx]

/-- The same with a smaller detector. -/
theorem C77_flux_crop (eps phot tr : K) (pup : Img K) (n final : Nat) (hsq : pup.cols = pup.rows) (hR : 0 < pup.rows) (hn : 0 < n)
    (hpup : ∀ y x, 0 ≤ pup.px y x) (ht : pup.total ≠ 0) (hflux : 0 < phot * tr) (hok : ResampleOk pup.rows pup.rows n n)
    (heps : eps ≤ phot * tr * ((n * n) / (pup.rows * pup.rows))) (hc : final < n) :
    ∃ r q, pyrPost eps phot tr pup n final = some (r, q) ∧ r.rows = final ∧ r.cols = final ∧ r.total = q * (phot * tr) ∧
      (∀ y < final, ∀ x < final, r.px y x =
        areaResample pup.rows pup.rows n n pup.px ((n - final) / 2 + y) ((n - final) / 2 + x) * (phot * tr / pup.total)) := by
  obtain ⟨c, c1, c2, c3, c4, c5⟩ := pyrPost_eq eps phot tr pup n final hsq hR hn hpup ht hflux hok heps
  refine ⟨(placeCcd c final).1, (placeCcd c final).2, c1, ?_⟩
  have hc' : final < c.rows := by rw [c2]; exact hc
  have hcne : c.total ≠ 0 := by rw [c4]; exact hflux.ne'
  unfold placeCcd
  rw [if_neg (by omega), if_pos hc']
  dsimp only
  refine ⟨rfl, rfl, by rw [← c4, div_mul_cancel₀ _ hcne], ?_⟩
  intro y hy x hx
  rw [c2, c5 _ (by omega) _ (by omega)]

end

/-! ### Cases -/

/-- With an odd number of pixels the arrays of faces and mask can differ in size: 11 pixels, resolution 3 give a mask of 32 pixels
and faces of 30, which the constructor cannot multiply. -/
theorem C77_odd_pupil : (calcGeometry 11 (1 : ℚ) 1 (1 / 10) (1 / 2) 3).map (fun g => [g.sampling, g.padding, g.totsize, g.pyrSide]) =
    some [11, 20, 32, 30] := by decide +kernel

/-- Typical parameters: 160 pixels, pupils of 30 sub-apertures 36 apart, on a detector of 80. -/
def pyrGeomExample : PyrIn ℚ := ⟨160, 2, 21 / 10, 1 / 10, 1 / 2, 30, some 36, none, 2, 80, 3⟩

example : pyrGeomExample.Valid where
  pupil := by decide
  fovInt := by decide +kernel
  fov := by decide +kernel
  errinf := by decide +kernel
  max := by decide +kernel
  diam := by decide

example : pyrGeomExample.resMin ≤ (pyrGeomExample.side : ℚ) / pyrGeomExample.diam := by decide +kernel

example : (pyrGeometry pyrGeomExample).map (fun g => [(g.fft.sampling : ℚ), g.fft.totsize, g.toccd, g.final, g.pupilOnCcd, g.separationOnCcd]) =
    some [160, 480, 90, 80, 30, 36] := by decide +kernel

/-- Pupils 60 apart do not fit in three diameters: resolution is raised to 3.3, and pupils come out with 27.3 sub-apertures instead
of 30. -/
theorem C77_smaller_pupils : (pyrGeometry { pyrGeomExample with pixelPupil := 120, dist := some 60, ccdSide := 100 }).map
    (fun g => [(g.fft.sampling : ℚ), g.fft.totsize, g.toccd, g.pupilOnCcd, g.separationOnCcd]) =
    some [120, 396, 90, 300 / 11, 600 / 11] := by decide +kernel

/-- The interpolated field is masked down to the requested one, or taken as it is if not larger. -/
example : (calcGeometry 10 (1 : ℚ) (5 / 2) (1 / 10) (1 / 2) 3).map (fun g => [(g.fovRes : ℚ), g.masking, g.totsize]) = some [3, 5 / 6, 90] ∧
    (calcGeometry 10 (1 : ℚ) (41 / 20) (1 / 10) (1 / 2) 3).map (fun g => [(g.fovRes : ℚ), g.masking, g.totsize]) = some [2, 1, 60] := by
  decide +kernel

/-- Light: 16 photons, a quarter lost at the mask, padded from 2 to 3 pixels. -/
example : (pyrPost (1 / 1000000) (16 : ℚ) (3 / 4) ⟨4, 4, fun y x => if y < 2 ∧ x < 2 then 1 else 0⟩ 2 3).map
    (fun r => [r.1.px 0 0, r.1.px 0 1, r.1.px 1 1, r.1.px 2 2, r.2]) = some [12, 0, 0, 0, 1] := by decide +kernel

example : (pyrPost (1 / 1000000) (16 : ℚ) (3 / 4) ⟨4, 4, fun y x => if y < 2 ∧ x < 2 then 1 else 3⟩ 4 2).map
    (fun r => [r.1.px 0 0, r.1.px 0 1, r.1.px 1 0, r.1.px 1 1, r.2]) = some [3 / 10, 9 / 10, 9 / 10, 9 / 10, 1 / 4] := by decide +kernel

/-- Steps of a modulation of 3 λ/D. -/
example : ∃ m : Nat, modSteps .circular 3 none = some (m : Int) ∧ 4 ∣ m ∧ 2 * Real.pi * 3 ≤ m := by
  obtain ⟨m, h1, h2, -, h4, -⟩ := C77_steps_circular 3 (by norm_num)
  exact ⟨m, h1, h2, h4⟩

end Specula
