import Mathlib.Data.List.Basic
/-
Model of names:
* `specula/calib_manager.py` 6-112 (`CalibManager`: directories and file names of calibration data),
* `specula/lib/utils.py` 10-22 (`camelcase_to_snakecase`) and 25-84 (`import_class`).

Strings are lists of characters.  `os.path.join` is that of POSIX systems.  Exceptions are `none`.  Not modelled: reading and writing of
files; import of a module having other effects than defining names; import errors inside the module found.
-/
namespace Specula

/-! ### Calibration files -/

/-- `posixpath.join(a, b)`: an absolute `b` replaces `a`. -/
def posixJoin (a b : List Char) : List Char :=
  if b.head? = some '/' then b
  else if a = [] ∨ a.getLast? = some '/' then a ++ b
  else a ++ '/' :: b

/-- `_subdirs`, calib_manager.py 15-80. -/
def subdirTable : List (String × String) :=
  [("phasescreen", "phasescreens/"), ("AtmoRandomPhase", "phasescreens/"), ("AtmoEvolution", "phasescreens/"),
   ("AtmoEvolutionUpDown", "phasescreens/"), ("AtmoInfiniteEvolution", "phasescreens/"), ("AtmoInfiniteEvolutionUpDown", "phasescreens/"),
   ("slopenull", "slopenulls/"), ("SnCalibrator", "slopenulls/"), ("sn", "slopenulls/"), ("background", "backgrounds/"),
   ("pupils", "pupils/"), ("pupdata", "pupils"), ("PupData", "pupils"), ("PyrPupdataCalibrator", "pupils/"),
   ("DynamicPyrPupdataCalibrator", "pupils/"), ("DynamicDarkCalibrator", "dark/"), ("subapdata", "subapdata/"),
   ("ShSubapCalibrator", "subapdata/"), ("iir_filter_data", "filter/"), ("IirFilterData", "filter/"), ("ssr_filter_data", "filter/"),
   ("SsrFilterData", "filter/"), ("rec", "rec/"), ("recmat", "rec/"), ("Recmat", "rec/"), ("intmat", "im/"), ("Intmat", "im/"),
   ("ImCalibrator", "im/"), ("MultiImCalibrator", "im/"), ("projmat", "rec/"), ("RecCalibrator", "rec/"), ("MultiRecCalibrator", "rec/"),
   ("im", "im/"), ("ifunc", "ifunc/"), ("IFunc", "ifunc/"), ("ifunc_inv", "ifunc/"), ("IFuncInv", "ifunc/"), ("m2c", "m2c/"), ("M2C", "m2c/"),
   ("filter", "filter/"), ("kernel", "kernels/"), ("sh", "kernels/"), ("SH", "kernels/"), ("convolution_kernel", "kernels/"),
   ("ConvolutionKernel", "kernels/"), ("gaussian_convolution_kernel", "kernels/"), ("GaussianConvolutionKernel", "kernels/"),
   ("pupilstop", "pupilstop/"), ("Pupilstop", "pupilstop/"), ("maskef", "maskef/"), ("ElectricField", "ef/"), ("Intensity", "intensity/"),
   ("LaserLaunchTelescope", "data/"), ("Lenslet", "lenslet/"), ("Pixels", "pixels/"), ("Slopes", "slopes/"), ("TimeHistory", "data/"),
   ("time_hist", "data/"), ("Source", "data/"), ("SpatioTempArray", "arrays/"), ("SubapData", "subapdata/"), ("vibrations", "vibrations/"),
   ("Layer", "layers/"), ("data", "data/"), ("projection", "popt/")]

/-- `self._subdirs[type]` (`KeyError`: `none`). -/
def subdirOf (key : String) : Option (List Char) := (subdirTable.find? fun p => p.1 == key).map fun p => p.2.toList

/-- The extension. -/
def fitsExt : List Char := ".fits".toList

/-- `filename`, calib_manager.py 96-110. -/
def calibFile (root : List Char) (key : String) (name : List Char) : Option (List Char) :=
  (subdirOf key).map fun sub =>
    let fname := posixJoin (posixJoin root sub) name
    if fitsExt.isSuffixOf fname then fname else fname ++ fitsExt

/-! ### Class names -/

def isLowerDigit (ch : Char) : Bool := ch.isLower || ch.isDigit

/-- `re.findall('[A-Z]+[0-9a-z]*', s)`: `cur` is the token being read, reversed; `tail` tells whether its capitals are over. -/
def camelTokens : List Char → List Char → Bool → List (List Char)
  | [], cur, _ => if cur = [] then [] else [cur.reverse]
  | ch :: cs, cur, tail =>
    if ch.isUpper then
      if cur ≠ [] ∧ tail then cur.reverse :: camelTokens cs [ch] false else camelTokens cs (ch :: cur) false
    else if isLowerDigit ch then
      if cur = [] then camelTokens cs [] false else camelTokens cs (ch :: cur) true
    else if cur = [] then camelTokens cs [] false
    else cur.reverse :: camelTokens cs [] false

/-- The tokens after the first, lowercase, with an underscore before each unless the token before it ends with a digit, utils.py 18-22. -/
def snakeRest (prev : List Char) : List (List Char) → List Char
  | [] => []
  | t :: ts => (if (prev.getLast?.map Char.isDigit).getD false then [] else ['_']) ++ t.map Char.toLower ++ snakeRest t ts

/-- `camelcase_to_snakecase`, utils.py 10-22; `tokens[0]` raises if there is no capital. -/
def camelToSnake (s : List Char) : Option (List Char) :=
  match camelTokens s [] false with
  | [] => none
  | t :: ts => some (t.map Char.toLower ++ snakeRest t ts)

/-- `import_class`, utils.py 25-84: the result is the package whose module is used.  `world p m` is the list of names defined by module `m`
of package `p`, if it exists.  The search stops at the first package that has the module, even if the class is not in it. -/
def importClass (world : String → List Char → Option (List (List Char))) (additional : List String) (classname : List Char) : Option String :=
  (camelToSnake classname).bind fun m =>
    ((["specula.processing_objects", "specula.data_objects", "specula.display"] ++ additional).find? fun p => (world p m).isSome).bind fun p =>
      if classname ∈ (world p m).getD [] then some p else none

end Specula
