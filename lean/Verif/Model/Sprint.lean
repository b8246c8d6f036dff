import Mathlib.Data.Sign.Basic
import Verif.Model.Demod
/-
The estimation of mis-registrations from modulated slopes: `specula/processing_objects/base_sprint_estimator.py`, and the arguments that
`specula/lib/synim_utils.py` passes to the package that computes interaction matrices.

The interaction matrix for given parameters (`_compute_nominal_im` of the subclasses) and the pseudo-inverse are functions given from
outside.  Rounding is not modelled.
-/
namespace Specula

/-- An interaction matrix: slopes by modes. -/
abbrev SpMat (ns nm : ℕ) := Fin ns → Fin nm → ℝ

/-- The constant that avoids divisions by zero, base_sprint_estimator.py 480, 512. -/
noncomputable def spEps : ℝ := 1e-12

/-- The constructor's values and the subclass. -/
structure SprintCfg (ns nm np : ℕ) where
  /-- `_compute_nominal_im` -/
  nominal : (Fin np → ℝ) → SpMat ns nm
  /-- `numpy.linalg.pinv` -/
  pinv : SpMat ns nm → SpMat nm ns
  /-- `perturbations` -/
  pert : Fin np → Option ℝ
  /-- `integration_gain` -/
  gain : ℝ
  /-- `forgetting_factor` -/
  forget : ℝ
  /-- `convergence_threshold` -/
  thr : ℝ
  /-- `max_iterations` -/
  maxIter : ℕ
  /-- `estimation_dt` -/
  dt : ℤ

/-- The checks of the constructor, base_sprint_estimator.py 130-165: lengths of the lists, gain and forgetting factor. -/
def sprintCheck (nModes nCarriers nParams : ℕ) (gain forget : ℚ) (initial : Option (List ℚ)) : Option (List ℚ) :=
  if nCarriers ≠ nModes then none
  else if ¬(0 < gain ∧ gain ≤ 1) then none
  else if ¬(0 < forget ∧ forget ≤ 1) then none
  else match initial with
    | none => some (List.replicate nParams 0)
    | some l => if l.length ≠ nParams then none else some l

section
variable {ns nm np : ℕ} (c : SprintCfg ns nm np)

/-- One of the two matrices of a push-pull, base_sprint_estimator.py 246-254. -/
noncomputable def spPushed (p : Fin np → ℝ) (i : Fin np) (d : ℝ) : SpMat ns nm := c.nominal (Function.update p i (p i + d))

/-- `_compute_sensitivity_matrices`, base_sprint_estimator.py 235-261: zero for parameters that are not in `perturbations`. -/
noncomputable def spSens (p : Fin np → ℝ) (i : Fin np) (s : Fin ns) (m : Fin nm) : ℝ :=
  match c.pert i with
  | some d => (spPushed c p i d s m - spPushed c p i (-d) s m) / (2 * d)
  | none => 0

/-- `_compute_optical_gains`, base_sprint_estimator.py 472-475. -/
noncomputable def spGain (M N : SpMat ns nm) (m : Fin nm) : ℝ := ∑ s, c.pinv N m s * M s m

/-- `_apply_optical_gain_correction`, base_sprint_estimator.py 477-480. -/
noncomputable def spCorrect (M : SpMat ns nm) (G : Fin nm → ℝ) : SpMat ns nm := fun s m => M s m * (1 / (G m + spEps))

/-- The corrected difference for parameters `p`, base_sprint_estimator.py 421-437. -/
noncomputable def spDiff (M : SpMat ns nm) (p : Fin np → ℝ) : SpMat ns nm :=
  fun s m => spCorrect M (spGain c M (c.nominal p)) s m - c.nominal p s m

/-- The estimate from one mode, base_sprint_estimator.py 508-513. -/
noncomputable def spModeDelta (S D : Fin ns → ℝ) : ℝ := (∑ s, S s * D s) / ((∑ s, S s * S s) + spEps)

/-- `_estimate_misreg_correction`, base_sprint_estimator.py 482-518: the mean over the modes, each parameter by itself. -/
noncomputable def spDelta (S : Fin np → Fin ns → Fin nm → ℝ) (D : SpMat ns nm) (i : Fin np) : ℝ :=
  (∑ m, spModeDelta (fun s => S i s m) (fun s => D s m)) / nm

/-- Integration with forgetting, base_sprint_estimator.py 445-447. -/
noncomputable def spUpdate (M : SpMat ns nm) (p : Fin np → ℝ) : Fin np → ℝ :=
  fun i => p i * c.forget + spDelta (spSens c p) (spDiff c M p) i * c.gain

/-- `sqrt(mean(x**2))`. -/
noncomputable def spRms (M : SpMat ns nm) : ℝ := Real.sqrt ((∑ s, ∑ m, M s m ^ 2) / (ns * nm))

/-- The relative error, base_sprint_estimator.py 451-454. -/
noncomputable def spError (M : SpMat ns nm) (p : Fin np → ℝ) : ℝ := spRms (spDiff c M p) / spRms M

/-- Mean absolute gain, base_sprint_estimator.py 427. -/
noncomputable def spGainMean (M : SpMat ns nm) (p : Fin np → ℝ) : ℝ := (∑ m, |spGain c M (c.nominal p) m|) / nm

open Classical in
/-- The iterations, base_sprint_estimator.py 419-464: parameters and error. -/
noncomputable def spLoop (M : SpMat ns nm) : ℕ → (Fin np → ℝ) × ℝ → (Fin np → ℝ) × ℝ
  | 0, st => st
  | n + 1, st =>
    let st' := (spUpdate c M st.1, spError c M st.1)
    if spError c M st.1 * spGainMean c M st.1 < c.thr then st' else spLoop M n st'

open Classical in
/-- `_iterative_estimation`, base_sprint_estimator.py 398-470: the division by the norm of the measured matrix is one of Python numbers
and raises for zero. -/
noncomputable def spEstimate (M : SpMat ns nm) (st : (Fin np → ℝ) × ℝ) : Option ((Fin np → ℝ) × ℝ) :=
  if 0 < c.maxIter ∧ spRms M = 0 then none else some (spLoop c M c.maxIter st)

/-- State and outputs, base_sprint_estimator.py 172-206. -/
structure SprintSt (ns nm np : ℕ) (V : Type) where
  hist : List V
  last : ℤ
  par : Fin np → ℝ
  err : ℝ
  outIm : Option (SpMat ns nm)
  outPar : Fin np → ℝ
  outErr : ℝ
  genT : Option ℤ

variable {V : Type}

/-- The constructor. -/
noncomputable def sprintInit (p0 : Fin np → ℝ) : SprintSt ns nm np V := ⟨[], 0, p0, 0, none, p0, 0, none⟩

/-- `prepare_trigger` and `trigger_code` at the time `t`, base_sprint_estimator.py 293-336, for slopes `x`; `demod` gives the measured
matrix from the collected slopes (345-396, which also empties the history). -/
noncomputable def sprintTrigger (demod : List V → SpMat ns nm) (st : SprintSt ns nm np V) (t : ℤ) (x : V) : Option (SprintSt ns nm np V) :=
  let hist := st.hist ++ [x]
  if t - st.last < c.dt then some { st with hist := hist }
  else if hist.length < 10 then some { st with hist := hist }
  else (spEstimate c (demod hist) (st.par, st.err)).map fun r =>
    ⟨[], t, r.1, r.2, some (c.nominal r.1), r.1, r.2, some t⟩

/-- A sequence of triggers. -/
noncomputable def sprintRun (demod : List V → SpMat ns nm) : List (ℤ × V) → SprintSt ns nm np V → Option (SprintSt ns nm np V)
  | [], st => some st
  | e :: es, st => (sprintTrigger c demod st e.1 e.2).bind (sprintRun demod es)

end

/-! ### Demodulation -/

section
/-- The phase of the window of the samples up to `j`, demodulate_signal.py 121-134. -/
noncomputable def cumArg (nt : ℕ) (w dt : ℝ) (x : ℕ → ℝ) (j : ℕ) : ℝ :=
  let cur := detrended (j + 1) j x
  let φ := demodPhase nt w dt x
  arctan2 (avgOf (j + 1) fun i => cur i * Real.sin (w * (i * dt) - φ)) (avgOf (j + 1) fun i => cur i * Real.cos (w * (i * dt) - φ))

/-- `demodulate_signal` with `cumulated=True`: the phase, demodulate_signal.py 134-147, 155-156. -/
noncomputable def demodCumPhase (nt n4 : ℕ) (w dt : ℝ) (x : ℕ → ℝ) : ℝ :=
  let start := nt - 2 - n4
  (if start < nt - 2 then (∑ k ∈ Finset.Ico start (nt - 2), cumArg nt w dt x (k + 2)) / ((nt - 2 - start : ℕ) : ℝ)
   else if 2 < nt then cumArg nt w dt x (nt - 1) else 0) + demodPhase nt w dt x

/-- An element of the measured matrix: amplitude with the sign of the cosine of the phase, base_sprint_estimator.py 371-384. -/
noncomputable def spSigned (nt n4 : ℕ) (w dt : ℝ) (x : ℕ → ℝ) : ℝ :=
  demodCumulated nt n4 w dt x * ((SignType.sign (Real.cos (demodCumPhase nt n4 w dt x)) : SignType) : ℝ)

end

/-! ### Arguments of SynIM -/

/-- Magnification and anamorphosis passed on. -/
structure SynimArgs (K : Type) where
  shiftX : K
  shiftY : K
  rotation : K
  magGlobal : K
  anam90 : K
  anam45 : K
deriving DecidableEq

/-- `compute_im_synim`, synim_utils.py 57-68. -/
def synimArgs {K : Type} [Zero K] [One K] [Add K] (p : List K) : SynimArgs K :=
  let ana : K × K := if p.length = 6 then (p.getD 4 0, p.getD 5 0) else (1, 1)
  ⟨p.getD 0 0, p.getD 1 0, p.getD 2 0, 1 + p.getD 3 0, ana.1, ana.2⟩

end Specula
