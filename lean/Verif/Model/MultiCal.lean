import Mathlib.Algebra.Field.Defs
import Verif.Model.Names
/-
Model of the calibration of several sensors and of what follows it:
* `specula/processing_objects/multi_im_calibrator.py` 51-60 (paths), 113-137 (`trigger_code`), 139-162 (`finalize`);
* `specula/data_objects/intmat.py` 98-106 (`set_nslopes`), 88-96 (`set_nmodes`), 108-125 (`reduce_size`, `reduce_slopes`,
  `set_start_mode`), 180-190 (`generate_rec`), 251-274 (`build_from_slopes`);
* `specula/processing_objects/mvm.py` 43-68.

An interaction matrix is the list of its columns (`modes`), each with one number for each slope.  Numbers are the elements of a
field.  Not modelled: the generation times, the tags of the files, the precision.
-/
namespace Specula

section
variable {K : Type} [Field K]

/-- `Intmat`: `intmat.shape[0]` and the columns. -/
structure IMat (K : Type) where
  nslopes : Nat
  cols : List (List K)

/-- `Intmat(nmodes=..., nslopes=...)`, intmat.py 65. -/
def IMat.zeros (nmodes nslopes : Nat) : IMat K := ⟨nslopes, List.replicate nmodes (List.replicate nslopes 0)⟩

/-- `Intmat.set_nslopes`, intmat.py 98-106. -/
def IMat.setNslopes (new : Nat) (im : IMat K) : IMat K :=
  if new > im.nslopes then ⟨new, im.cols.map fun c => c.take im.nslopes ++ List.replicate (new - im.nslopes) 0⟩
  else ⟨new, im.cols.map fun c => c.take new⟩

/-- `Intmat.set_nmodes`, intmat.py 88-96. -/
def IMat.setNmodes (new : Nat) (im : IMat K) : IMat K :=
  if new > im.cols.length then ⟨im.nslopes, im.cols ++ List.replicate (new - im.cols.length) (List.replicate im.nslopes 0)⟩
  else ⟨im.nslopes, im.cols.take new⟩

/-- `Intmat.reduce_size`, intmat.py 108-111. -/
def IMat.reduceSize (k : Nat) (im : IMat K) : Option (IMat K) :=
  if k ≥ im.cols.length then none else some ⟨im.nslopes, im.cols.take (im.cols.length - k)⟩

/-- `Intmat.reduce_slopes`, intmat.py 113-116. -/
def IMat.reduceSlopes (k : Nat) (im : IMat K) : Option (IMat K) :=
  if k ≥ im.nslopes then none else some ⟨im.nslopes - k, im.cols.map fun c => c.take (im.nslopes - k)⟩

/-- `Intmat.set_start_mode`, intmat.py 118-122. -/
def IMat.setStartMode (k : Nat) (im : IMat K) : Option (IMat K) :=
  if k ≥ im.cols.length then none else some ⟨im.nslopes, im.cols.drop k⟩

/-- `im.modes[mode] += x`, intmat.py 21-22: addition in place to a column. -/
def IMat.addCol (m : Nat) (x : List K) (im : IMat K) : Option (IMat K) :=
  if x.length = im.nslopes then some ⟨im.nslopes, im.cols.set m (List.zipWith (· + ·) (im.cols.getD m []) x)⟩
  else if x.length = 1 then some ⟨im.nslopes, im.cols.set m ((im.cols.getD m []).map (· + x.getD 0 0))⟩
  else none

/-- `xp.nonzero(cc)[0]` -/
def nonzeroIdx [DecidableEq K] (cc : List K) : List Nat := (List.range cc.length).filter fun i => cc.getD i 0 ≠ 0

/-- `ss / cc[idx]`, multi_im_calibrator.py 132. -/
def overPokes (ss : List K) (amps : List K) : Option (List K) :=
  if amps.length = 1 then some (ss.map (· / amps.getD 0 0))
  else if amps.length = ss.length then some (List.zipWith (· / ·) ss amps)
  else if ss.length = 1 then some (amps.map (ss.getD 0 0 / ·))
  else none

/-- What `MultiImCalibrator` reads in one iteration. -/
structure MultiEvent (K : Type) where
  commands : List (List K)
  slopes : List (List K)

/-- One interaction matrix with its `count_commands`. -/
abbrev Counted (K : Type) := IMat K × List Nat

/-- The body of the loop over the commands, multi_im_calibrator.py 125-133. -/
def multiCommand [DecidableEq K] (nmodes : Nat) (slopes : List (List K)) (st : List (Counted K)) (cc : List K) : Option (List (Counted K)) :=
  match (nonzeroIdx cc).head? with
  | none => some st
  | some mode =>
    if mode < nmodes then
      ((st.zip slopes).mapM fun q => (overPokes q.2 ((nonzeroIdx cc).map fun i => cc.getD i 0)).bind fun x =>
        (q.1.1.addCol mode x).map fun im => (im, q.1.2.set mode (q.1.2.getD mode 0 + 1))).map (· ++ st.drop slopes.length)
    else some st

/-- The first iteration, multi_im_calibrator.py 119-121. -/
def multiResize (slopes : List (List K)) (st : List (Counted K)) : Option (List (Counted K)) :=
  st.head?.map fun q0 =>
    if q0.1.nslopes = 0 then ((st.zip slopes).map fun q => (q.1.1.setNslopes q.2.length, q.1.2)) ++ st.drop slopes.length else st

/-- `trigger_code`, multi_im_calibrator.py 113-137. -/
def multiStep [DecidableEq K] (nmodes : Nat) (st : List (Counted K)) (e : MultiEvent K) : Option (List (Counted K)) :=
  (multiResize e.slopes st).bind fun st => e.commands.foldlM (multiCommand nmodes e.slopes) st

/-- The outputs after the constructor (63, 69-71) and all iterations of a run. -/
def multiRun [DecidableEq K] (nmodes nInputs : Nat) (es : List (MultiEvent K)) : Option (List (Counted K)) :=
  es.foldlM (multiStep nmodes) (List.replicate nInputs (IMat.zeros nmodes 0, List.replicate nmodes 0))

/-- Division of the columns by their counts: multi_im_calibrator.py 144-146, intmat.py 268-270. -/
def normalise (q : Counted K) : IMat K :=
  ⟨q.1.nslopes, (List.range q.1.cols.length).map fun m =>
    if q.2.getD m 0 > 0 then (q.1.cols.getD m []).map (· / (q.2.getD m 0 : K)) else q.1.cols.getD m []⟩

/-- `out_intmat_list` after `finalize`. -/
def multiFinalize (st : List (Counted K)) : List (IMat K) := st.map normalise

/-- `xp.vstack([im.intmat ...])`, multi_im_calibrator.py 155; `none` for no input or different numbers of modes. -/
def vstack (ims : List (IMat K)) : Option (IMat K) :=
  match ims with
  | [] => none
  | im :: rest =>
    if ∀ x ∈ rest, x.cols.length = im.cols.length then
      some ⟨((im :: rest).map IMat.nslopes).sum, (List.range im.cols.length).map fun m => (im :: rest).flatMap fun x => x.cols.getD m []⟩
    else none

/-- `Intmat.build_from_slopes`, intmat.py 251-274: the slopes and disturbances in the order of their times. -/
def buildFromSlopes [DecidableEq K] (es : List (List K × List K)) : Option (IMat K) :=
  match es with
  | [] => none
  | e0 :: _ =>
    (es.foldlM (fun (st : Counted K) e => (nonzeroIdx e.2).head?.bind fun mode =>
      if mode < e0.2.length then
        (st.1.addCol mode (e.1.map (· / e.2.getD mode 0))).map fun im => (im, st.2.set mode (st.2.getD mode 0 + 1))
      else none) (IMat.zeros e0.2.length e0.1.length, List.replicate e0.2.length 0)).map normalise

/-- `Intmat.generate_rec`, intmat.py 180-190, for a given pseudo-inverse. -/
def generateRec {R : Type} (pinv : IMat K → R) (nmodes : Option Nat) (im : IMat K) : R :=
  match nmodes with
  | some n => pinv ⟨im.nslopes, im.cols.take n⟩
  | none => pinv im

/-- `MVM`, mvm.py 43-68, for a matrix given by its rows with `nin` columns: `none` is the ValueError of `setup`. -/
def mvm (nin : Nat) (rows : List (List K)) (v : List K) : Option (List K) :=
  if v.length ≠ nin then none else some (rows.map fun r => (List.zipWith (· * ·) r v).sum)

end

/-! ### Files -/

/-- Name of a file without its directory: `f"{tag}.fits"`, where `None` is printed as a word. -/
def tagFile (tag : Option (List Char)) : List Char := tag.getD "None".toList ++ ".fits".toList

/-- The paths tested by the constructor of `MultiImCalibrator`, multi_im_calibrator.py 51-60. -/
def multiPaths (dir : List Char) (tags : List (List Char)) (full : Option (List Char)) : List (List Char) :=
  tags.map (fun t => posixJoin dir (tagFile (some t))) ++ [posixJoin dir (tagFile full)]

/-- The constructor raises FileExistsError if one of the paths exists and `overwrite` is not set. -/
def multiInit (files : List (List Char)) (dir : List Char) (tags : List (List Char)) (full : Option (List Char)) (overwrite : Bool) :
    Option (List (List Char)) :=
  if ∃ p ∈ multiPaths dir tags full, p ∈ files ∧ ¬overwrite then none else some (multiPaths dir tags full)

/-- The paths to which `finalize` writes, multi_im_calibrator.py 148, 160. -/
def multiSaved (dir : List Char) (paths : List (List Char)) : List (List Char) := paths.map (posixJoin dir)

end Specula
