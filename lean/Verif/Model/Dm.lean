import Verif.Model.SlopeVec
/-
Model of the deformable mirror, `specula/processing_objects/dm.py` 96-152 (selection of the modes in the constructor) and 161-179
(`trigger_code`).

Numbers are the elements of a field.  The influence functions are a matrix modes by valid pixels; the phase is the flattened layer,
and `idx` the flattened `idx_inf_func`.  Exceptions are `none`.  Not modelled: the computation of the influence functions when none
are given, the repetition of vectors of one element, `nmodes` smaller than `start_mode`.
-/
namespace Specula

section
variable {K : Type} [Field K]

/-- What the constructor fixes: rows of the influence functions used by the commands (`_valid_modes`), `n_valid_modes`, `nmodes`. -/
structure DmModes where
  valid : List Nat
  nValid : Nat
  nmodes : Nat

/-- Selection of the modes, dm.py 100-129, 146, for `nIf` influence functions. -/
def dmModes (nIf : Nat) (startMode nmodes : Option Nat) (idxModes : Option (List Int)) : Option DmModes :=
  match idxModes with
  | some l =>
    if startMode.isSome ∨ nmodes.isSome then none
    else ((Selector.indices l).positions nIf).map fun pos => ⟨pos, l.length, nIf⟩
  | none =>
    let start := startMode.getD 0
    let n := nmodes.getD nIf
    (sliceIdx nIf ⟨some start, some n, none⟩).map fun pos => ⟨pos, n - start, n - start⟩

/-- Configuration: modes, influence functions (modes by points), positions of the points, matrix from modes to actuators, sign. -/
structure DmCfg (K : Type) where
  modes : DmModes
  ifunc : Img K
  idx : List Nat
  m2c : Option (Img K)
  sign : K

/-- `if_commands`, `m2c_commands` and the phase of the layer. -/
structure DmState (K : Type) where
  ifCmd : List K
  m2cCmd : List K
  phase : List K

/-- The state after construction, dm.py 131-144. -/
def dmInit (c : DmCfg K) (npix : Nat) : DmState K :=
  ⟨List.replicate c.ifunc.rows 0, List.replicate c.modes.valid.length 0, List.replicate npix 0⟩

/-- `a[:len(x)] = x`. -/
def overwrite (a x : List K) : Option (List K) := if x.length ≤ a.length then some (x ++ a.drop x.length) else none

/-- Columns of a matrix. -/
def Img.selCols (m : Img K) (cols : List Nat) : Img K := ⟨m.rows, cols.length, fun i k => m.px i (cols.getD k 0)⟩

/-- Rows of a matrix. -/
def Img.selRows (m : Img K) (rows : List Nat) : Img K := ⟨rows.length, m.cols, fun k j => m.px (rows.getD k 0) j⟩

/-- `cmd` and the new `m2c_commands`, dm.py 167-171. -/
def dmCommand (c : DmCfg K) (m2cCmd inp : List K) : Option (List K × List K) :=
  match c.m2c with
  | none => some (inp, m2cCmd)
  | some m => (overwrite m2cCmd inp).bind fun mc => (vecMat mc (m.selCols c.modes.valid).transpose).map fun cmd => (cmd, mc)

/-- `DM.trigger_code`, dm.py 161-178. -/
def dmTrigger (c : DmCfg K) (st : DmState K) (command : List K) : Option (DmState K) :=
  let inp := command.take c.modes.nmodes
  (dmCommand c st.m2cCmd inp).bind fun (cmd, mc) =>
  (overwrite st.ifCmd (cmd.map (c.sign * ·))).bind fun ifc =>
  (match c.m2c with
    | some _ => vecMat ifc c.ifunc
    | none => vecMat (ifc.take c.modes.nValid) (c.ifunc.selRows c.modes.valid)).bind fun shape =>
  if shape.length = c.idx.length then some ⟨ifc, mc, scatter st.phase c.idx shape⟩ else none

/-- A history of commands. -/
def dmRun (c : DmCfg K) (st : DmState K) (cmds : List (List K)) : Option (DmState K) := cmds.foldlM (dmTrigger c) st

end

end Specula
