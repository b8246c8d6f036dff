import Verif.Model.Dm
import Verif.Model.PyrSlopes
import Mathlib.Data.Fin.VecNotation
/-
The interaction matrix that the mis-registration estimator of the pyramid computes from its own copy of the system:
`specula/processing_objects/sprint_pyr.py` 122-205 (`setup`), 207-230 (`_build_pyr_params`), 232-295 (`_compute_nominal_im`).

The pyramid with the interpolator in front is a function given from outside, from registration and phase to intensities.  Values are
the elements of an ordered field.  Exceptions are `none`; a frame whose maximum is zero, that gives values that are not numbers, is
`none` as well.  Not modelled: mirrors with a matrix from modes to actuators, negative indices of modes, devices, displays.
-/
namespace Specula

section
variable {K : Type} [Field K] [LinearOrder K]

/-- The objects given to the constructor: mirror, slope computer, pyramid; `modes_index`, `push_amp`; pixels of the layer. -/
structure SpPyrCfg (K : Type) where
  main : DmCfg K
  slopec : PyrCfg K
  wfs : (Fin 4 → K) → List K → List K
  modes : List Nat
  amp : K
  npix : Nat

/-- `internal_dm`, sprint_pyr.py 144-151: the influence functions are those of the mirror; `sign`, `start_mode`, `nmodes` and `idx_modes`
are not passed and have their defaults, dm.py 31-40, 115-118. -/
def spDm (c : SpPyrCfg K) : DmCfg K :=
  ⟨⟨List.range c.main.ifunc.rows, c.main.ifunc.rows, c.main.ifunc.rows⟩, c.main.ifunc, c.main.idx, none, -1⟩

/-- `internal_slopec`, sprint_pyr.py 183-190: `thr_value` is not passed. -/
def spSlopec (c : SpPyrCfg K) : PyrCfg K := ⟨c.slopec.ind, 0, c.slopec.normFactor, c.slopec.shlike, c.slopec.fromIntensity⟩

/-- State: the mirror's, and the parameters of the interpolator. -/
structure SpPyrSt (K : Type) where
  dm : DmState K
  par : Fin 4 → K

/-- The parameters of the interpolator, sprint_pyr.py 227-230, 236-241. -/
def spPar (p : Fin 4 → K) : Fin 4 → K := ![p 0, p 1, p 2, 1 + p 3]

/-- After `setup`. -/
def spPyrInit (c : SpPyrCfg K) (p : Fin 4 → K) : SpPyrSt K := ⟨dmInit (spDm c) c.npix, spPar p⟩

/-- `cmd`, sprint_pyr.py 255-256: as long as the modes of the given mirror. -/
def spCmd (n m : Nat) (a : K) : Option (List K) := if m < n then some ((List.replicate n 0).set m a) else none

/-- `intensity.max()`. -/
def frameMax : List K → Option K
  | [] => none
  | x :: l => some (l.foldl max x)

/-- `intensity / intensity.max() * 2**12`, sprint_pyr.py 275. -/
def spScale (f : List K) : Option (List K) :=
  (frameMax f).bind fun m => if m = 0 then none else some (f.map fun x => x / m * 2 ^ 12)

/-- One measurement, sprint_pyr.py 257-288. -/
def spMeasure (c : SpPyrCfg K) (st : SpPyrSt K) (cmd : List K) : Option (SpPyrSt K × List (Option K)) :=
  (dmTrigger (spDm c) st.dm cmd).bind fun d =>
  (spScale (c.wfs st.par d.phase)).bind fun f =>
  (pyrTrigger (spSlopec c) f).map fun o => (⟨d, st.par⟩, o.sx ++ o.sy)

/-- `(slopes_push - slopes_pull) / (2.0 * self.push_amp)`, sprint_pyr.py 293. -/
def spColumn (amp : K) (push pull : List (Option K)) : List (Option K) :=
  List.zipWith (fun a b => if 2 * amp = 0 then none else a.bind fun x => b.map fun y => (x - y) / (2 * amp)) push pull

/-- Push and pull of one mode, sprint_pyr.py 250-293. -/
def spMode (c : SpPyrCfg K) (st : SpPyrSt K) (m : Nat) : Option (SpPyrSt K × List (Option K)) :=
  (spCmd c.main.modes.nmodes m c.amp).bind fun up =>
  (spMeasure c st up).bind fun a =>
  (spCmd c.main.modes.nmodes m (-c.amp)).bind fun down =>
  (spMeasure c a.1 down).map fun b => (b.1, spColumn c.amp a.2 b.2)

/-- The loop over the modes, sprint_pyr.py 249-293. -/
def spModes (c : SpPyrCfg K) : SpPyrSt K → List Nat → Option (SpPyrSt K × List (List (Option K)))
  | st, [] => some (st, [])
  | st, m :: ms => (spMode c st m).bind fun a => (spModes c a.1 ms).map fun b => (b.1, a.2 :: b.2)

/-- `_compute_nominal_im` with `misreg_params = p`, sprint_pyr.py 232-295: the columns of the matrix. -/
def spNominal (c : SpPyrCfg K) (st : SpPyrSt K) (p : Fin 4 → K) : Option (SpPyrSt K × List (List (Option K))) :=
  spModes c ⟨st.dm, spPar p⟩ c.modes

/-- Earlier calls. -/
def spCalls (c : SpPyrCfg K) : SpPyrSt K → List (Fin 4 → K) → Option (SpPyrSt K)
  | st, [] => some st
  | st, p :: ps => (spNominal c st p).bind fun a => spCalls c a.1 ps

end

end Specula
