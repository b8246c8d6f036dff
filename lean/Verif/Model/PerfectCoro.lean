import Verif.Model.Psf

/-!
# Perfect coronagraph

`specula/processing_objects/psf_coronagraph.py` (`PsfCoronagraph`): the field of the pupil less its coherent part, its image, and the sums over
time. Exact arithmetic over the real and complex numbers; phases in radians at the wavelength of the image. Profiles are those of
`Model/Radial.lean`.
-/

namespace Specula
open Finset

/-- `amp * exp(1j * phase)`, psf_coronagraph.py 142. -/
noncomputable def ampField (A ψ : ℕ → ℕ → ℝ) (i j : ℕ) : ℂ := (A i j : ℂ) * Complex.exp (Complex.I * (ψ i j : ℂ))

open Classical in
/-- `pupil_mask`, psf_coronagraph.py 149, as a number. -/
noncomputable def litMask (A : ℕ → ℕ → ℝ) (i j : ℕ) : ℝ := if 0 < A i j then 1 else 0

/-- Sum over the pixels of the pupil. -/
noncomputable def sumPix {M : Type} [AddCommMonoid M] (rows cols : ℕ) (f : ℕ → ℕ → M) : M := ∑ i ∈ range rows, ∑ j ∈ range cols, f i j

/-- Average field removed, psf_coronagraph.py 152-153. -/
noncomputable def lessAverage (rows cols : ℕ) (A ψ : ℕ → ℕ → ℝ) (i j : ℕ) : ℂ :=
  let avg := sumPix rows cols (fun a b => ampField A ψ a b * (litMask A a b : ℂ)) / ((sumPix rows cols (litMask A) : ℝ) : ℂ)
  ampField A ψ i j - avg * (litMask A i j : ℂ)

/-- `mean_phase`, psf_coronagraph.py 155. -/
noncomputable def meanPhase (rows cols : ℕ) (A ψ : ℕ → ℕ → ℝ) : ℝ := sumPix rows cols (fun a b => ψ a b * litMask A a b) / sumPix rows cols (litMask A)

/-- `var_phase`, psf_coronagraph.py 156. -/
noncomputable def varPhase (rows cols : ℕ) (A ψ : ℕ → ℕ → ℝ) : ℝ :=
  sumPix rows cols (fun a b => (ψ a b - meanPhase rows cols A ψ) ^ 2 * litMask A a b) / sumPix rows cols (litMask A)

/-- Coherent core removed, psf_coronagraph.py 155-159. -/
noncomputable def lessCore (rows cols : ℕ) (A ψ : ℕ → ℕ → ℝ) (i j : ℕ) : ℂ :=
  let ec := Real.exp (-varPhase rows cols A ψ)
  let core : ℂ := (Real.sqrt ec : ℂ) * Complex.exp (Complex.I * (meanPhase rows cols A ψ : ℂ)) * (A i j : ℂ)
  ampField A ψ i j - core * (litMask A i j : ℂ)

open Classical in
/-- `electric_field_corrected`, psf_coronagraph.py 149-161. -/
noncomputable def coroField (useAverage : Bool) (rows cols : ℕ) (A ψ : ℕ → ℕ → ℝ) : ℕ → ℕ → ℂ :=
  if 0 < sumPix rows cols (litMask A) then (if useAverage then lessAverage rows cols A ψ else lessCore rows cols A ψ) else ampField A ψ

/-- `calc_coronagraph_psf` as called by `trigger_code`, psf_coronagraph.py 163-199: image of side `w`, over the total of the image without
coronagraph. -/
noncomputable def coroPsf (useAverage : Bool) (w rows cols : ℕ) (A ψ : ℕ → ℕ → ℝ) (k l : ℕ) : ℝ :=
  psfRaw w rows cols (coroField useAverage rows cols A ψ) k l / psfTotal w rows cols (ampField A ψ)

section
variable {K : Type} [Field K] [LinearOrder K]

/-- Sums of the coronagraph besides those of the image without it, psf_coronagraph.py 115-118. -/
structure CoroState (P K : Type) where
  base : PsfState P K
  intCoro : P → K
  sumSqCoro : P → K

/-- After `setup`, psf_coronagraph.py 112-118. -/
def coroInit {P : Type} : CoroState P K := { base := psfInit, intCoro := fun _ => 0, sumSqCoro := fun _ => 0 }

/-- `post_trigger`, psf_coronagraph.py 210-215. -/
def coroPost {P : Type} (start : K) (s : CoroState P K) (x : PsfStep P K × (P → K)) : CoroState P K :=
  let base := psfPost start s.base x.1
  if x.1.time ≥ start then
    { base := base, intCoro := fun p => s.intCoro p + x.2 p, sumSqCoro := fun p => s.sumSqCoro p + x.2 p ^ 2 }
  else { s with base := base }

/-- `finalize`, psf_coronagraph.py 225-231: mean and variance before the square root. -/
def coroFinalize {P : Type} (s : CoroState P K) : (P → K) × (P → K) :=
  if s.base.count > 0 then
    (fun p => s.intCoro p / s.base.count, fun p => max (s.sumSqCoro p / s.base.count - (s.intCoro p / s.base.count) ^ 2) 0)
  else (s.intCoro, fun _ => 0)

end
end Specula
