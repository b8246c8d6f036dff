import Mathlib.Logic.Function.Iterate
import Verif.Model.MultiCal
/-
Model of the files written by the calibrators: `RecCalibrator` (rec_calibrator.py 42-69, 79-99), `MultiRecCalibrator`
(multi_rec_calibrator.py 25-58, 73-96), `ImCalibrator` (im_calibrator.py 40-52, 198-207), `SnCalibrator` (sn_calibrator.py 23-41, 59-66),
`ShSubapCalibrator` (sh_subap_calibrator.py 30-38, 69-75), and of the saving in `PyrPupdataCalibrator._save` (pyr_pupdata_calibrator.py
568-595) and `DynamicDarkCalibrator.save` (dynamic_dark_calibrator.py 217-228).  `MultiImCalibrator` is in `MultiCal`.

Paths are lists of characters and are compared as text (no links, no `..`, no case folding); the empty path is the current directory.  All
directories can be written to and disks are never full.  What is written is arbitrary.  A failed operation raises: the operations before it
have had their effects, the ones after it are not done.
-/
namespace Specula

/-- Files and directories. -/
structure Disk (V : Type) where
  files : List Char → Option V
  dirs : List (List Char)

/-- `posixpath.dirname`: up to the last slash, without the slashes at the end unless there is nothing else. -/
def stripSlashes (h : List Char) : List Char := if h.all (· == '/') then h else (h.reverse.dropWhile (· == '/')).reverse
def posixDirname (p : List Char) : List Char := stripSlashes (p.reverse.dropWhile (· != '/')).reverse

/-- A path and all the directories above it. -/
def ancestors (d : List Char) : List (List Char) := (List.range (d.length + 1)).map fun k => posixDirname^[k] d

inductive DiskOp (V : Type) where
  /-- `os.makedirs(dir, exist_ok=True)` -/
  | mkdirs (dir : List Char)
  /-- `obj.save(path, overwrite=...)`, that is `writeto` of astropy -/
  | write (path : List Char) (v : V)

section
variable {V : Type}

/-- One operation; the flag tells that nothing was raised. -/
def diskStep (overwrite : Bool) (s : Disk V) : DiskOp V → Disk V × Bool
  | .mkdirs d =>
    if d = [] ∨ ∃ a ∈ ancestors d, (s.files a).isSome then (s, false) else ({ s with dirs := ancestors d ++ s.dirs }, true)
  | .write p v =>
    if p ∈ s.dirs ∨ (posixDirname p ≠ [] ∧ posixDirname p ∉ s.dirs) ∨ ((s.files p).isSome ∧ overwrite = false) then (s, false)
    else ({ s with files := fun q => if q = p then some v else s.files q }, true)

/-- A sequence of operations, up to the first that raises. -/
def diskRun (overwrite : Bool) (s : Disk V) : List (DiskOp V) → Disk V × Bool
  | [] => (s, true)
  | op :: ops => if (diskStep overwrite s op).2 then diskRun overwrite (diskStep overwrite s op).1 ops else ((diskStep overwrite s op).1, false)

end

/-- `if not name.endswith('.fits'): name += '.fits'` -/
def fitsName (name : List Char) : List Char := if ".fits".toList.isSuffixOf name then name else name ++ ".fits".toList

/-- The name given by the user or, if there is none, the template; `none` is the `ValueError`; rec_calibrator.py 39-40, 58-61,
sn_calibrator.py 26-32, sh_subap_calibrator.py 31-37. -/
def tagOr (tag template : Option (List Char)) : Option (List Char) :=
  if tag = none ∨ tag = some "auto".toList then template else tag

/-- Constructors that test the file: the path, or `none` if it exists and must not be overwritten.  rec_calibrator.py 63-68,
im_calibrator.py 48-52, sn_calibrator.py 37-41. -/
def checkedPath {V : Type} (s : Disk V) (overwrite : Bool) (dir name : List Char) : Option (List Char) :=
  if (s.files (fitsName (posixJoin dir name))).isSome ∧ overwrite = false then none else some (fitsName (posixJoin dir name))

/-- `finalize` of `RecCalibrator` and `ImCalibrator`: the directory of the data, then the file. -/
def recOps {V : Type} (dir name : List Char) (v : V) : List (DiskOp V) := [.mkdirs dir, .write (fitsName (posixJoin dir name)) v]

/-- `finalize` of `SnCalibrator` and `ShSubapCalibrator`, and the two functions that save on request: the directory of the file. -/
def snOps {V : Type} (dir name : List Char) (v : V) : List (DiskOp V) :=
  [.mkdirs (posixDirname (posixJoin dir (fitsName name))), .write (posixJoin dir (fitsName name)) v]

/-- `tag_filename`, multi_rec_calibrator.py 39-46: `none` is the `ValueError`, `some none` no name. -/
def multiRecName (tag template : Option (List Char)) : Option (Option (List Char)) :=
  if tag = some "auto".toList then template.map some else some tag

/-- `rec_path(i)`, multi_rec_calibrator.py 48-52 (an empty name counts as none). -/
def multiRecPath (dir : List Char) (name : Option (List Char)) (i : ℕ) : Option (List Char) :=
  match name with
  | some (c :: cs) => some (posixJoin dir ((c :: cs) ++ Nat.toDigits 10 i ++ ".fits".toList))
  | _ => none

/-- `full_rec_path()`, multi_rec_calibrator.py 54-58. -/
def multiFullPath (dir : List Char) (name : Option (List Char)) : Option (List Char) :=
  match name with
  | some (c :: cs) => some (posixJoin dir ((c :: cs) ++ ".fits".toList))
  | _ => none

/-- The paths tested by the constructor and by `setup`, multi_rec_calibrator.py 32-34, 90-96. -/
def multiRecChecked (dir : List Char) (name full : Option (List Char)) (n : ℕ) : List (List Char) :=
  (multiFullPath dir full).toList ++ (List.range n).filterMap (multiRecPath dir name)

def multiRecCheck {V : Type} (s : Disk V) (overwrite : Bool) (dir : List Char) (name full : Option (List Char)) (n : ℕ) : Bool :=
  (multiRecChecked dir name full n).all fun p => !(s.files p).isSome || overwrite

/-- `finalize`, multi_rec_calibrator.py 73-88: one file for each input, the directory, the file of the full reconstructor. -/
def multiRecOps {V : Type} (dir : List Char) (name full : Option (List Char)) (recs : List V) (fullRec : V) : List (DiskOp V) :=
  (recs.zipIdx.filterMap fun r => (multiRecPath dir name r.2).map fun p => DiskOp.write (posixJoin dir p) r.1) ++ [.mkdirs dir] ++
    ((multiFullPath dir full).toList.map fun p => DiskOp.write (posixJoin dir p) fullRec)

end Specula
