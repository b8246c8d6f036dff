import Verif.Model.Dm
/-
Models of ModalAnalysis, specula/processing_objects/modal_analysis.py 38-98 (constructor) and 163-212 (`setup`, `trigger_code`), of
`cut_modes`, specula/data_objects/ifunc_inv.py 6-46, and of PhaseFlattening, specula/processing_objects/phase_flattening.py 49-72.

Numbers are the elements of a field.  Phases are flattened and `idx` is the flattened `idx_inf_func`.  Exceptions are `none`.
The unwrapping done when a wavelength is set is in Model/Unwrap; here it is the function `prep`.  Not modelled: the computation of
Zernike polynomials when no influence function is given, the root mean square output, the test `_doZeroPad` (always false).
-/
namespace Specula

section
variable {K : Type} [Field K]

/-- Modes kept by `cut_modes`, ifunc_inv.py 22-46: with explicit indices the other two arguments are ignored. -/
def cutModes (n : Nat) (start nmodes : Option Nat) (idxModes : Option (List Int)) : Option (List Nat) :=
  match idxModes with
  | some l => (Selector.indices l).positions n
  | none =>
    let s := start.getD 0
    sliceIdx n ⟨some s, some (s + nmodes.getD n : Nat), none⟩

/-- `phase2modes` and the length of `out_modes`. -/
structure ModalCfg (K : Type) where
  inv : Img K
  idx : List Nat
  nOut : Nat

/-- Only `ifunc_inv` given, modal_analysis.py 59-63, 81-84: `nmodes` is compared with the number of rows, which are the pixels. -/
def modalFromInv (inv : Img K) (idx : List Nat) (nmodes : Option Nat) : Option (ModalCfg K) :=
  match nmodes with
  | none => some ⟨inv, idx, inv.cols⟩
  | some n =>
    if n ≠ inv.rows then (cutModes inv.cols none (some n) none).map fun pos => ⟨inv.selCols pos, idx, n⟩
    else some ⟨inv, idx, n⟩

/-- Only `ifunc` given, modal_analysis.py 64-68, 81-84, for a function `pinv` that inverts. -/
def modalFromIfunc (pinv : Img K → Img K) (ifunc : Img K) (idx : List Nat) (nmodes : Option Nat) : Option (ModalCfg K) :=
  match nmodes with
  | none => some ⟨pinv ifunc, idx, (pinv ifunc).cols⟩
  | some n =>
    if n ≠ ifunc.rows then (cutModes ifunc.rows none (some n) none).map fun pos => ⟨pinv (ifunc.selRows pos), idx, n⟩
    else some ⟨pinv ifunc, idx, n⟩

/-- Both given, modal_analysis.py 69-71, 81-84: nothing is cut. -/
def modalFromBoth (inv : Img K) (idx : List Nat) (nmodes : Option Nat) : ModalCfg K := ⟨inv, idx, nmodes.getD inv.cols⟩

/-- `a[:] = v` for a vector `a` of `n` elements. -/
def assignVec (n : Nat) (v : List K) : Option (List K) :=
  if v.length = n then some v else match v with
    | [x] => some (List.replicate n x)
    | _ => none

/-- The modes of one phase, modal_analysis.py 181-193. -/
def modalOf (c : ModalCfg K) (prep : List K → List K) (phase : List K) : Option (List K) :=
  (vecMat (c.idx.map fun i => (prep phase).getD i 0) c.inv).bind (assignVec c.nOut)

/-- `ModalAnalysis.trigger_code`, modal_analysis.py 172-212: the new `out_modes` and the new `out_modes_list`.  The first block reads
`self.in_ef` whatever is connected. -/
def modalTrigger (c : ModalCfg K) (prep : List K → List K) (inEf : Option (List K)) (outList : List (List K)) :
    Option (List K × List (List K)) :=
  inEf.bind fun phase => (modalOf c prep phase).map fun m => (m, outList)

/-- `phase[valid_mask]`. -/
def selectValid (valid : List Bool) (phase : List K) : List K := (valid.zip phase).filterMap fun p => if p.1 then some p.2 else none

/-- The phase after PhaseFlattening, phase_flattening.py 60-69. -/
def flattenPhase [LinearOrder K] (amp phase : List K) : List K :=
  let valid := amp.map fun a => decide (0 < a)
  if valid.any id then
    let sel := selectValid valid phase
    let mean := sel.sum / sel.length
    (valid.zip phase).map fun p => if p.1 then p.2 - mean else p.2
  else phase

/-- `PhaseFlattening.trigger_code`, phase_flattening.py 49-72: amplitude, phase and `S0`. -/
def flattenTrigger [LinearOrder K] (amp phase : List K) (s0 : K) : List K × List K × K := (amp, flattenPhase amp phase, s0)

end

end Specula
