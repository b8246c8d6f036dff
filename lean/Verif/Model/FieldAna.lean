import Verif.Model.SplitOutput
import Verif.Model.Ccd
/-
Model of `specula/field_analyser.py`: sources from the coordinates (79-96), names of the files (98-168), and the computation of the
three analyses with reuse of existing files (511-739).

Coordinates, wavelength and pixel size are rational numbers.  The replayed simulation is an arbitrary function from a source to its
results; it is connected to the files through the entries of the `input_list` of the data store, parsed by `split_output`.  Every
result is assumed to be produced (a data store writes no file for an output that was never updated).  The refusal of downsampled
inputs and the choice of the precision (170-263) are not modelled.  An exception is `none`.
-/
namespace Specula

/-- `_setup_sources`, field_analyser.py 81-96: `a` is the array of coordinates, of `cols` columns.  A source is `(r, theta)`. -/
def fieldSources (a : List (List ℚ)) (cols : Nat) : Option (List (ℚ × ℚ)) :=
  let coords := if a.length = 2 then (List.range cols).map fun j => a.map fun row => row.getD j 0 else a
  coords.mapM fun c => match c with
    | [r, t] => some (r, t)
    | _ => none

/-- `d` decimal digits of a number, the last one being that of the units. -/
def fracDigits : Nat → Nat → List Char
  | 0, _ => []
  | d + 1, r => fracDigits d (r / 10) ++ [Nat.digitChar (r % 10)]

/-- Python `f"{x:.df}"` (field_analyser.py 110-111, 126, 152, 167): correctly rounded, ties to even, sign also for a negative number
rounded to zero. -/
def fmtDec (d : Nat) (x : ℚ) : List Char :=
  let n := (roundEvenF (x * 10 ^ d)).natAbs
  (if x < 0 then ['-'] else []) ++ (toString (n / 10 ^ d)).toList ++ (if d = 0 then [] else '.' :: fracDigits d (n % 10 ^ d))

/-- `_get_psf_filenames`, field_analyser.py 109-112; `kind` is `psf` or `sr`. -/
def psfName (kind : String) (pix wl : ℚ) (s : ℚ × ℚ) : List Char :=
  kind.toList ++ '_' :: 'r' :: (fmtDec 1 s.1 ++ 't' :: (fmtDec 1 s.2 ++ '_' :: 'p' :: 'i' :: 'x' :: (fmtDec 2 pix ++
    'm' :: 'a' :: 's' :: '_' :: 'w' :: 'l' :: (fmtDec 0 wl ++ ['n', 'm']))))

/-- `_get_cube_filename`, field_analyser.py 166-168. -/
def cubeName (wl : ℚ) (s : ℚ × ℚ) : List Char :=
  "cube".toList ++ '_' :: 'r' :: (fmtDec 1 s.1 ++ 't' :: (fmtDec 1 s.2 ++ '_' :: 'w' :: 'l' :: (fmtDec 0 wl ++ ['n', 'm'])))

/-- Arguments of the modal analysis that the file name depends on, and the others. -/
structure ModalArgs where
  nmodes : Option Nat := none
  nzern : Option Nat := none
  ifuncRef : Option String := none
  ifuncObject : Option String := none
  ifuncInvRef : Option String := none
  ifuncInvObject : Option String := none
  typeStr : Option String := none
  obsratio : Option ℚ := none
  npixels : Option Nat := none
  dorms : Bool := false
deriving DecidableEq

/-- The basis in the file name, field_analyser.py 129-143 (`ifunc` and `ifunc_inv` left out). -/
def modalBasis (m : ModalArgs) : List Char :=
  match m.nmodes, m.nzern, m.ifuncRef, m.ifuncObject, m.ifuncInvRef, m.ifuncInvObject with
  | some n, _, _, _, _, _ => "_nmodes".toList ++ (toString n).toList
  | none, some n, _, _, _, _ => "_nzern".toList ++ (toString n).toList
  | none, none, some s, _, _, _ => "_ifref".toList ++ s.toList
  | none, none, none, some s, _, _ => "_ifobj".toList ++ s.toList
  | none, none, none, none, some s, _ => "_ifref".toList ++ s.toList
  | none, none, none, none, none, some s => "_ifobj".toList ++ s.toList
  | none, none, none, none, none, none => []

/-- `_get_modal_filename`, field_analyser.py 125-154. -/
def modalName (m : ModalArgs) (s : ℚ × ℚ) : List Char :=
  "modal".toList ++ '_' :: 'r' :: (fmtDec 1 s.1 ++ 't' :: (fmtDec 1 s.2 ++ (modalBasis m ++
    ((match m.typeStr with
      | some t => '_' :: t.toList
      | none => []) ++
    match m.obsratio with
      | some o => "_obs".toList ++ fmtDec 2 o
      | none => []))))

/-- A directory: contents of the files by name. -/
abbrev Folder (D : Type) := List Char → Option D

/-- An analysis: names of the files of a source; object and output they come from, for the `j`-th file of the `i`-th source; data
that the simulation produces. -/
structure Analysis (S D : Type) where
  files : S → List (List Char)
  ref : Nat → Nat → String × String
  data : S → Nat → D

/-- An entry of the `input_list` of the data store, field_analyser.py 300-303, 349, 381. -/
def storeEntry (name : List Char) (ref : String × String) : String :=
  String.ofList (name ++ '-' :: (ref.1.toList ++ '.' :: ref.2.toList))

variable {S D : Type}

/-- The entries, with the data of the output they refer to. -/
def Analysis.entries (a : Analysis S D) (srcs : List S) : List (List Char × (String × String) × D) :=
  (srcs.zipIdx).flatMap fun si => ((a.files si.1).zipIdx).map fun fj => (fj.1, a.ref si.2 fj.2, a.data si.1 fj.2)

/-- `simul.create_input_list_inputs` (simul.py 324-331) and the writing of the files: each entry is parsed, its alias is the name of
the file; an entry with the same alias as an earlier one replaces it. -/
def writeEntries (outs : List ((String × String) × D)) : List String → Folder D → Option (Folder D)
  | [], dir => some dir
  | e :: rest, dir =>
    match splitOutput e with
    | some ⟨some name, obj, some key, _⟩ =>
      match outs.lookup (obj, key) with
      | some v => writeEntries outs rest (fun n => if n = name.toList then some v else dir n)
      | none => none
    | _ => none

/-- `_run_simulation_with_params` on the parameters of the analysis, field_analyser.py 265-397, 475-509. -/
def Analysis.run (a : Analysis S D) (srcs : List S) (dir : Folder D) : Option (Folder D) :=
  writeEntries ((a.entries srcs).map fun e => (e.2.1, e.2.2)) ((a.entries srcs).map fun e => storeEntry e.1 e.2.1) dir

/-- `_load_*_results`, field_analyser.py 660-739: the data of the files of each source, in order. -/
def Analysis.load (a : Analysis S D) (srcs : List S) (dir : Folder D) : Option (List (List D)) :=
  srcs.mapM fun s => (a.files s).mapM dir

/-- All files are there, field_analyser.py 553-562, 602-609, 633-641. -/
def Analysis.present (a : Analysis S D) (srcs : List S) (dir : Folder D) : Bool :=
  srcs.all fun s => (a.files s).all fun f => (dir f).isSome

/-- `compute_field_psf`, `compute_modal_analysis`, `compute_phase_cube`, field_analyser.py 552-582, 601-627, 632-658: results and
directory afterwards. -/
def Analysis.compute (a : Analysis S D) (force : Bool) (srcs : List S) (dir : Folder D) : Option (List (List D) × Folder D) :=
  if !force && a.present srcs dir then (a.load srcs dir).map fun r => (r, dir)
  else (a.run srcs dir).bind fun d => (a.load srcs d).map fun r => (r, d)

/-- The analysis of the PSFs, field_analyser.py 265-320, 660-686: PSF and Strehl ratio of each source. -/
def psfAnalysis (pix wl : ℚ) (data : ℚ × ℚ → Nat → D) : Analysis (ℚ × ℚ) D :=
  ⟨fun s => [psfName "psf" pix wl s, psfName "sr" pix wl s],
   fun i j => ("psf_field_" ++ toString i, if j = 0 then "out_int_psf" else "out_int_sr"), data⟩

/-- The modal analysis, field_analyser.py 322-365, 688-717. -/
def modalAnalysis (m : ModalArgs) (data : ℚ × ℚ → Nat → D) : Analysis (ℚ × ℚ) D :=
  ⟨fun s => [modalName m s], fun i _ => ("modal_analysis_" ++ toString i, "out_modes"), data⟩

/-- The phase cubes, field_analyser.py 367-397, 719-739. -/
def cubeAnalysis (wl : ℚ) (data : ℚ × ℚ → Nat → D) : Analysis (ℚ × ℚ) D :=
  ⟨fun s => [cubeName wl s], fun i _ => ("prop", "out_field_source_" ++ toString i ++ "_ef"), data⟩

end Specula
