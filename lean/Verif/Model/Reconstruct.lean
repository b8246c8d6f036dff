import Mathlib.Data.Matrix.Mul
/-
Model of the reconstructors with pseudo open loop control:
* `specula/processing_objects/modalrec.py` 131-160 (`prepare_trigger`) and 162-208 (`trigger_code`) with `polc=True`;
* `specula/processing_objects/modalrec_implicit_polc.py` 56-78 (matrices of the constructor), 92-106 (`prepare_trigger`) and
  108-112 (`trigger_code`);
* the reconstruction without POLC, modalrec.py 204-205.

Matrices have `ns` slopes, `nl` modes of the reconstruction (layers) and `nm` modes of the projection and commands.  The slopes are
given after the concatenation of `in_slopes_list`, the commands by `in_commands` (`in_commands_list` reads an attribute that does
not exist, modalrec.py 146, and raises).
-/
namespace Specula

section
variable {K : Type} [Field K] {ns nl nm : Nat}

/-- `intmat`, `recmat` and `projmat`. -/
structure PolcMats (K : Type) (ns nl nm : Nat) where
  D : Matrix (Fin ns) (Fin nm) K
  R : Matrix (Fin nl) (Fin ns) K
  P : Matrix (Fin nm) (Fin nl) K

/-- What a triggered iteration reads: the time, the slopes with their generation time, and the commands, `none` if they have no
value yet. -/
structure RecEvent (K : Type) (ns nm : Nat) where
  time : Nat
  slopes : Fin ns → K
  slopesTime : Nat
  commands : Option (Fin nm → K)

/-- `self.commands`, `out_modes` and `out_pseudo_ol_modes` with their generation times. -/
structure RecState (K : Type) (nl nm : Nat) where
  commands : Fin nm → K
  modes : (Fin nm → K) × Option Nat
  pol : (Fin nl → K) × Option Nat

def RecState.init : RecState K nl nm := ⟨0, (0, none), (0, none)⟩

/-- `Modalrec.prepare_trigger`, modalrec.py 142-152. -/
def polcPrepare (e : RecEvent K ns nm) (st : RecState K nl nm) : RecState K nl nm :=
  match e.commands with
  | none => { st with commands := 0 }
  | some c => { st with commands := c }

/-- `Modalrec.trigger_code` with POLC, modalrec.py 171-208. -/
def polcTrigger (M : PolcMats K ns nl nm) (e : RecEvent K ns nm) (st : RecState K nl nm) : RecState K nl nm :=
  if e.slopesTime ≠ e.time then st
  else
    let commSlopes := M.D.mulVec st.commands
    let pol := M.R.mulVec (e.slopes + commSlopes)
    let out := M.P.mulVec pol
    let out := out - st.commands
    { st with pol := (pol, some e.time), modes := (out, some e.time) }

def polcStep (M : PolcMats K ns nl nm) (st : RecState K nl nm) (e : RecEvent K ns nm) : RecState K nl nm :=
  polcTrigger M e (polcPrepare e st)

/-- `comm_mat`, modalrec_implicit_polc.py 65. -/
def PolcMats.commMat (M : PolcMats K ns nl nm) : Matrix (Fin nm) (Fin ns) K := M.P * M.R

/-- `h_mat`, modalrec_implicit_polc.py 73-74. -/
def PolcMats.hMat (M : PolcMats K ns nl nm) : Matrix (Fin nm) (Fin nm) K := 1 - M.commMat * M.D

/-- `ModalrecImplicitPolc.prepare_trigger`, modalrec_implicit_polc.py 92-106. -/
def implicitPrepare (e : RecEvent K ns nm) (st : RecState K nl nm) : RecState K nl nm :=
  let st := polcPrepare e st
  match e.commands with
  | none => st
  | some c => { st with commands := c }

/-- `ModalrecImplicitPolc.trigger_code`, modalrec_implicit_polc.py 108-112. -/
def implicitTrigger (M : PolcMats K ns nl nm) (e : RecEvent K ns nm) (st : RecState K nl nm) : RecState K nl nm :=
  let out := M.commMat.mulVec e.slopes - M.hMat.mulVec st.commands
  { st with modes := (out, some e.time) }

def implicitStep (M : PolcMats K ns nl nm) (st : RecState K nl nm) (e : RecEvent K ns nm) : RecState K nl nm :=
  implicitTrigger M e (implicitPrepare e st)

/-- The values of `out_modes` after each iteration of a run. -/
def recOutputs (step : RecState K nl nm → RecEvent K ns nm → RecState K nl nm) :
    RecState K nl nm → List (RecEvent K ns nm) → List ((Fin nm → K) × Option Nat)
  | _, [] => []
  | st, e :: es => (step st e).modes :: recOutputs step (step st e) es

end
end Specula
