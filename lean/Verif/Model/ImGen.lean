import Mathlib.Data.Matrix.Mul
import Mathlib.Analysis.Real.Sqrt
import Verif.Model.Sprint
/-
Interaction and reconstruction matrices from mis-registration parameters: `specula/processing_objects/im_sh_synim_generator.py`,
`specula/data_objects/ifunc.py` 152-167 (`ifunc_2d_to_3d`), `specula/data_objects/intmat.py` 175-183, 247-249 (`generate_rec`),
`specula/data_objects/recmat.py` 36-43 (`set_value`), `specula/lib/synim_utils.py` (arguments, in `Sprint`).

The package SynIM, that is not part of the code, is a function that gives the slopes for one shape of the mirror; the pseudo-inverse of
numpy is a function given from outside.  Exceptions are `none`.  Rounding, masks that are not square and shapes that are zero everywhere
(division by zero) are not modelled.
-/
namespace Specula

/-- Constructor's values: number of slopes, of modes, of pixels of the mirror, and `rec_nmodes`. -/
structure ImGenCfg (ns nm np nr : ℕ) where
  /-- influence functions of the mirror -/
  ifn : Fin nm → Fin np → ℝ
  /-- SynIM for one shape -/
  syn : SynimArgs ℝ → (Fin np → ℝ) → Fin ns → ℝ
  /-- `numpy.linalg.pinv` -/
  pinv : Matrix (Fin ns) (Fin nr) ℝ → Matrix (Fin nr) (Fin ns) ℝ
  computeRec : Bool
  mmse : Bool

/-- The outputs. -/
structure ImGenOut (ns nm nr : ℕ) where
  intmat : Matrix (Fin ns) (Fin nm) ℝ
  imTime : ℤ
  recmat : Matrix (Fin nr) (Fin ns) ℝ
  recTime : ℤ

/-- Root mean square of a shape, ifunc.py 162. -/
noncomputable def shapeRms {np : ℕ} (f : Fin np → ℝ) : ℝ := Real.sqrt ((∑ i, f i ^ 2) / np)

/-- One mode of `ifunc_2d_to_3d(normalize=True)`, ifunc.py 161-165. -/
noncomputable def unitShape {np : ℕ} (f : Fin np → ℝ) : Fin np → ℝ := fun i => f i / shapeRms f

section
variable {ns nm np nr : ℕ} (c : ImGenCfg ns nm np nr)

/-- `generate_im`, im_sh_synim_generator.py 283-314. -/
noncomputable def genIm (p : List ℝ) : Matrix (Fin ns) (Fin nm) ℝ :=
  Matrix.of fun s k => c.syn (synimArgs p) (unitShape (c.ifn k)) s

/-- `generate_rec` with `set_value` of the output, im_sh_synim_generator.py 275-276, 316-354: with `mmse` the attribute `ifunc` of
`IFunc`, that does not exist, is read; a matrix with less rows than `rec_nmodes` does not fit in the output. -/
noncomputable def genRec (D : Matrix (Fin ns) (Fin nm) ℝ) : Option (Matrix (Fin nr) (Fin ns) ℝ) :=
  if c.mmse = true then none
  else if h : nr ≤ nm then some (c.pinv (D.submatrix id (Fin.castLE h))) else none

/-- `trigger_code`, im_sh_synim_generator.py 239-281: the parameters if the input is connected; missing ones raise. -/
noncomputable def imGenTrigger (s : ImGenOut ns nm nr) (e : ℤ × Option (List ℝ)) : Option (ImGenOut ns nm nr) :=
  let p := e.2.getD [0, 0, 0, 0]
  if p.length < 4 then none
  else if c.computeRec = true then
    (genRec c (genIm c p)).map fun R => ⟨genIm c p, e.1, R, e.1⟩
  else some ⟨genIm c p, e.1, s.recmat, s.recTime⟩

/-- All triggers. -/
noncomputable def imGenRun : ImGenOut ns nm nr → List (ℤ × Option (List ℝ)) → Option (ImGenOut ns nm nr)
  | s, [] => some s
  | s, e :: es => (imGenTrigger c s e).bind fun s' => imGenRun s' es

end

/-- `idx_valid_sa`, im_sh_synim_generator.py 211-216. -/
def validSubaps (displayMap : List ℕ) (nx : ℕ) : List (ℕ × ℕ) := displayMap.map fun d => (d / nx, d % nx)

end Specula
