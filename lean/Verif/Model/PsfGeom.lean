import Verif.Model.Float
/-
Model of the sampling of PSF images: `specula/lib/calc_psf.py` 72-185 (`calc_psf_geometry`, `calc_psf_sampling`, `calc_psf_pixel_size`)
and `specula/processing_objects/psf.py` 75-80, 159-165 (size of the image).

Exact arithmetic on rational numbers.  `lamD` stands for lambda/D in milliarcseconds, `wavelength_nm * 1e-9 / dim_pup_in_m * 3600 * 180 /
pi * 1000`, the same expression in all the functions.  Exceptions are `none`.
-/
namespace Specula

/-- One pass of the search, calc_psf.py 142-151: `best` is the error and the size so far, `none` for infinity. -/
def samplingStep (pupil : ℕ) (lamD q : ℚ) (best : Option (ℚ × ℤ)) (size : ℤ) : Option (ℚ × ℤ) :=
  if size > 0 then
    let error := |lamD / (size / pupil) - q|
    match best with
    | none => some (error, size)
    | some (e, _) => if error < e then some (error, size) else best
  else best

/-- `range(int(x) - 5, int(x) + 6)`, calc_psf.py 142-143. -/
def samplingSizes (x : ℚ) : List ℤ := (List.range 11).map fun i : ℕ => ⌊x⌋ - 5 + (i : ℤ)

/-- `calc_psf_sampling`, calc_psf.py 108-163; `none`: the pixel asked for is larger than lambda/D. -/
def calcPsfSampling (pupil : ℕ) (lamD q : ℚ) : Option ℚ :=
  if q > lamD then none
  else
    let required := lamD / q
    match (samplingSizes (pupil * required)).foldl (samplingStep pupil lamD q) none with
    | none => some required
    | some (_, size) => some (size / pupil)

/-- `calc_psf_geometry`, calc_psf.py 72-105: sampling and reported pixel size; `none`: both arguments given. -/
def calcPsfGeometry (pupil : ℕ) (lamD : ℚ) (nd q : Option ℚ) : Option (ℚ × ℚ) :=
  match nd, q with
  | some _, some _ => none
  | some nd, none => some (nd, lamD / nd)
  | none, some q => (calcPsfSampling pupil lamD q).map fun nd => (nd, lamD / nd)
  | none, none => some (1, lamD / 1)

/-- Size of the image, psf.py 159 and 165: `int(around(dim * nd / 2) * 2)`. -/
def psfImageSize (pupil : ℕ) (nd : ℚ) : ℤ := roundEven (pupil * nd / 2) * 2

end Specula
