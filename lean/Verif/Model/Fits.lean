import Verif.Model.Filter
/-
Model of saving and restoring data objects (`save`, `get_fits_header`, `from_header`, `restore` of `specula/data_objects/*.py`).

A FITS file is its primary header and the list of the arrays in the extensions (trusted description of astropy):
* setting a header card to a float that is not finite, or to a string with a character that is not printable ASCII, raises;
* strings lose trailing blanks; floats are written in decimal and come back as `c.card x`;
* arrays come back as they were written (no empty arrays).
`c.cast` is the conversion of array values to the precision of the restored object, which is always the global precision: `restore`
never passes a precision.  Python floats that may be infinite or NaN are `Option K` (`none`: not finite).  Exceptions are `none`.
Not modelled: file names, overwriting, devices, generation times, versions other than the ones written.
-/
namespace Specula

/-- Roundings on the way: decimal text of header cards, conversion of arrays to the global precision. -/
structure Codec (K : Type) where
  card : K → K
  cast : K → K

/-- An n-dimensional array in C order. -/
structure NdArr (α : Type) where
  shape : List ℕ
  data : List α
deriving DecidableEq

/-- Value of a header card. -/
inductive Card (K : Type) where
  | int (i : ℤ)
  | flt (x : K)
  | str (s : List Char)
  | bool (b : Bool)
deriving DecidableEq

abbrev Header (K : Type) := List (String × Card K)

/-- Array extensions: floating point or integer data. -/
inductive Hdu (K : Type) where
  | f (a : NdArr K)
  | i (a : NdArr ℤ)
deriving DecidableEq

structure Fits (K : Type) where
  hdr : Header K
  hdus : List (Hdu K)
deriving DecidableEq

section
variable {K : Type}

/-- `hdr[key]` (`KeyError` if missing). -/
def Header.get (h : Header K) (key : String) : Option (Card K) := (h.find? fun p => p.1 == key).map Prod.snd

def Card.toInt : Card K → Option ℤ
  | .int i => some i
  | _ => none

def Card.toFlt : Card K → Option K
  | .flt x => some x
  | _ => none

def Card.toStr : Card K → Option (List Char)
  | .str s => some s
  | _ => none

def Header.int (h : Header K) (key : String) : Option ℤ := (h.get key).bind Card.toInt
def Header.flt (h : Header K) (key : String) : Option K := (h.get key).bind Card.toFlt
def Header.str (h : Header K) (key : String) : Option (List Char) := (h.get key).bind Card.toStr

def Hdu.toF : Hdu K → Option (NdArr K)
  | .f a => some a
  | .i _ => none

def Hdu.toI : Hdu K → Option (NdArr ℤ)
  | .i a => some a
  | .f _ => none

/-- `hdul[n+1].data` for floating point and integer arrays. -/
def Fits.arr (x : Fits K) (n : ℕ) : Option (NdArr K) := x.hdus[n]?.bind Hdu.toF
def Fits.iarr (x : Fits K) (n : ℕ) : Option (NdArr ℤ) := x.hdus[n]?.bind Hdu.toI

/-- A header card from a float that may be infinite or NaN. -/
def fltCard (c : Codec K) (x : Option K) : Option (Card K) := x.map fun x => .flt (c.card x)

def printable (ch : Char) : Bool := 32 ≤ ch.toNat && ch.toNat ≤ 126

/-- Trailing blanks are lost. -/
def rstrip (s : List Char) : List Char := (s.reverse.dropWhile (· == ' ')).reverse

/-- A header card from a string. -/
def strCard (s : List Char) : Option (Card K) := if s.all printable then some (.str (rstrip s)) else none

def NdArr.cast (c : Codec K) (a : NdArr K) : NdArr K := { a with data := a.data.map c.cast }

/-- `a.T` of a two-dimensional array (other arrays are not used transposed). -/
def NdArr.T {α : Type} (a : NdArr α) : NdArr α :=
  match a.shape with
  | [m, n] => ⟨[n, m], ((List.range (n * m)).filterMap fun k => a.data[k % m * n + k / m]?)⟩
  | _ => a

def NdArr.zeros [Zero K] (shape : List ℕ) : NdArr K := ⟨shape, List.replicate shape.prod 0⟩

/-! ### Electric field, layer, pupil stop, intensity -/

structure EfObj (K : Type) where
  amp : NdArr K
  phase : NdArr K
  pitch : Option K
  s0 : Option K

/-- `ElectricField.save`, electric_field.py 283-301; the shape of the arrays is `[dimy, dimx]`. -/
def EfObj.save (c : Codec K) (o : EfObj K) : Option (Fits K) := do
  let dimy : ℕ ← o.amp.shape[0]?
  let dimx : ℕ ← o.amp.shape[1]?
  let pitch ← fltCard c o.pitch
  let s0 ← fltCard c o.s0
  some ⟨[("VERSION", .int 1), ("OBJ_TYPE", .str "ElectricField".toList), ("DIMX", .int dimx), ("DIMY", .int dimy), ("PIXPITCH", pitch), ("S0", s0)],
    [.f o.amp, .f o.phase]⟩

/-- Assignment `field[k, :] = data` into an array of shape `shape`; numpy would also broadcast, but the files written have the shape. -/
def storeArr (c : Codec K) (shape : List ℕ) (a : NdArr K) : Option (NdArr K) := if a.shape = shape then some (a.cast c) else none

/-- `ElectricField.restore`, electric_field.py 303-325. -/
def EfObj.restore (c : Codec K) (x : Fits K) : Option (EfObj K) := do
  if x.hdr.str "OBJ_TYPE" ≠ some "ElectricField".toList then none
  else if x.hdr.int "VERSION" ≠ some 1 then none
  else
    let dimx ← x.hdr.int "DIMX"
    let dimy ← x.hdr.int "DIMY"
    let pitch ← x.hdr.flt "PIXPITCH"
    let s0 ← x.hdr.flt "S0"
    let a ← (x.arr 0).bind (storeArr c [dimy.toNat, dimx.toNat])
    let p ← (x.arr 1).bind (storeArr c [dimy.toNat, dimx.toNat])
    some ⟨a, p, some pitch, some s0⟩

structure LayerObj (K : Type) where
  amp : NdArr K
  phase : NdArr K
  pitch : Option K
  s0 : Option K
  height : Option K
  shiftX : Option K
  shiftY : Option K
  rot : Option K
  magnification : Option K

/-- `Layer.save`, layer.py 55-78. -/
def LayerObj.save (c : Codec K) (o : LayerObj K) : Option (Fits K) := do
  let dimy : ℕ ← o.amp.shape[0]?
  let dimx : ℕ ← o.amp.shape[1]?
  let pitch ← fltCard c o.pitch
  let height ← fltCard c o.height
  let sx ← fltCard c o.shiftX
  let sy ← fltCard c o.shiftY
  let rot ← fltCard c o.rot
  let mag ← fltCard c o.magnification
  some ⟨[("VERSION", .int 1), ("OBJ_TYPE", .str "Layer".toList), ("DIMX", .int dimx), ("DIMY", .int dimy), ("PIXPITCH", pitch),
    ("HEIGHT", height), ("SHIFTX", sx), ("SHIFTY", sy), ("ROTATION", rot), ("MAGNIFIC", mag)], [.f o.amp, .f o.phase]⟩

/-- `Layer.restore`, layer.py 80-106; `S0` is the default of the `ElectricField` constructor, 0. -/
def LayerObj.restore [Zero K] (c : Codec K) (x : Fits K) : Option (LayerObj K) := do
  if x.hdr.str "OBJ_TYPE" ≠ some "Layer".toList then none
  else if x.hdr.int "VERSION" ≠ some 1 then none
  else
    let dimx ← x.hdr.int "DIMX"
    let dimy ← x.hdr.int "DIMY"
    let pitch ← x.hdr.flt "PIXPITCH"
    let height ← x.hdr.flt "HEIGHT"
    let sx ← x.hdr.flt "SHIFTX"
    let sy ← x.hdr.flt "SHIFTY"
    let rot ← x.hdr.flt "ROTATION"
    let mag ← x.hdr.flt "MAGNIFIC"
    let a ← (x.arr 0).bind (storeArr c [dimy.toNat, dimx.toNat])
    let p ← (x.arr 1).bind (storeArr c [dimy.toNat, dimx.toNat])
    some ⟨a, p, some pitch, some 0, some height, some (c.cast sx), some (c.cast sy), some rot, some mag⟩

/-- `Pupilstop` holds the fields of a layer (height zero). -/
def pupilstopSave (c : Codec K) (o : LayerObj K) : Option (Fits K) := do
  let n : ℕ ← o.amp.shape[0]?
  let pitch ← fltCard c o.pitch
  let sx ← fltCard c o.shiftX
  let sy ← fltCard c o.shiftY
  let rot ← fltCard c o.rot
  let mag ← fltCard c o.magnification
  some ⟨[("VERSION", .int 1), ("OBJ_TYPE", .str "Pupilstop".toList), ("PIXPUPIL", .int n), ("PIXPITCH", pitch), ("SHIFTX", sx), ("SHIFTY", sy),
    ("ROTATION", rot), ("MAGNIFIC", mag)], [.f o.amp]⟩

/-- `Pupilstop.restore` of a SPECULA file, pupilstop.py 103-135: the phase is that of a new object, zero. -/
def pupilstopRestore [Zero K] (c : Codec K) (x : Fits K) : Option (LayerObj K) := do
  if x.hdr.str "OBJ_TYPE" ≠ some "Pupilstop".toList then none
  else if x.hdr.int "VERSION" ≠ some 1 then none
  else
    let n ← x.hdr.int "PIXPUPIL"
    let pitch ← x.hdr.flt "PIXPITCH"
    let sx ← x.hdr.flt "SHIFTX"
    let sy ← x.hdr.flt "SHIFTY"
    let rot ← x.hdr.flt "ROTATION"
    let mag ← x.hdr.flt "MAGNIFIC"
    let a ← (x.arr 0).bind (storeArr c [n.toNat, n.toNat])
    some ⟨a, NdArr.zeros [n.toNat, n.toNat], some pitch, some 0, some 0, some (c.cast sx), some (c.cast sy), some rot, some mag⟩

/-- `Intensity.save`, intensity.py 42-57. -/
def intensitySave (a : NdArr K) : Option (Fits K) := do
  let dimy : ℕ ← a.shape[0]?
  let dimx : ℕ ← a.shape[1]?
  some ⟨[("VERSION", .int 1), ("OBJ_TYPE", .str "Intensity".toList), ("DIMX", .int dimx), ("DIMY", .int dimy)], [.f a]⟩

/-- `Intensity.restore`, intensity.py 59-78. -/
def intensityRestore (c : Codec K) (x : Fits K) : Option (NdArr K) := do
  if x.hdr.str "OBJ_TYPE" ≠ some "Intensity".toList then none
  else if x.hdr.int "VERSION" ≠ some 1 then none
  else
    let dimx ← x.hdr.int "DIMX"
    let dimy ← x.hdr.int "DIMY"
    (x.arr 0).bind (storeArr c [dimy.toNat, dimx.toNat])

/-! ### Pixels and slopes -/

structure PixObj (K : Type) where
  pixels : NdArr K
  bpp : ℕ
  signed : ℕ

/-- `Pixels.save`, pixels.py 109-127 (the card `TYPE` is not read back). -/
def PixObj.save (o : PixObj K) : Option (Fits K) := do
  let dimy : ℕ ← o.pixels.shape[0]?
  let dimx : ℕ ← o.pixels.shape[1]?
  some ⟨[("VERSION", .int 1), ("OBJ_TYPE", .str "Pixels".toList), ("BPP", .int o.bpp), ("BYTESPP", .int ((o.bpp + 7) / 8 : ℕ)),
    ("SIGNED", .int o.signed), ("DIMX", .int dimx), ("DIMY", .int dimy)], [.f o.pixels]⟩

/-- `Pixels.restore`, pixels.py 41-56, 58-75, 81-88, 129-147. -/
def PixObj.restore (c : Codec K) (x : Fits K) : Option (PixObj K) := do
  if x.hdr.int "VERSION" ≠ some 1 then none
  else
    let dimx ← x.hdr.int "DIMX"
    let dimy ← x.hdr.int "DIMY"
    let bits ← x.hdr.int "BPP"
    let signed ← x.hdr.int "SIGNED"
    if bits > 64 then none
    else
      let a ← (x.arr 0).bind (storeArr c [dimy.toNat, dimx.toNat])
      some ⟨a, bits.toNat, signed.toNat⟩

structure SlopesObj (K : Type) where
  slopes : NdArr K
  interleave : Bool
  pupTag : Option (List Char)
  subapTag : Option (List Char)

/-- `Slopes.save`, slopes.py 217-246. -/
def SlopesObj.save (o : SlopesObj K) : Option (Fits K) := do
  let pt ← strCard (o.pupTag.getD [])
  let st ← strCard (o.subapTag.getD [])
  some ⟨[("VERSION", .int 3), ("OBJ_TYPE", .str "Slopes".toList), ("INTRLVD", .int (if o.interleave then 1 else 0)),
    ("LENGTH", .int o.slopes.data.length), ("PUPDTAG", pt), ("SUBAPTAG", st)], [.f o.slopes]⟩

/-- `Slopes.restore` of a file of version 3, slopes.py 248-275. -/
def SlopesObj.restore (c : Codec K) (x : Fits K) : Option (SlopesObj K) := do
  if x.hdr.int "VERSION" ≠ some 3 then none
  else
    let il ← x.hdr.int "INTRLVD"
    let n ← x.hdr.int "LENGTH"
    let a ← (x.arr 0).bind (storeArr c [n.toNat])
    some ⟨a, il ≠ 0, x.hdr.str "PUPDTAG", x.hdr.str "SUBAPTAG"⟩

/-! ### Source, laser launch telescope, lenslet -/

structure SourceObj (K : Type) where
  orig : K × K
  error : K × K
  polar : K × K
  magnitude : Option K
  wavelength : Option K
  height : Option K
  band : List Char
  zeroPoint : Option K

/-- Construction of a source, source.py 58-80. -/
def mkSource [Add K] (c : Codec K) (orig error : K × K) (magnitude wavelength height : Option K) (band : List Char) (zeroPoint : Option K) :
    SourceObj K :=
  { orig, error, polar := (c.cast orig.1 + c.cast error.1, c.cast orig.2 + c.cast error.2), magnitude, wavelength, height, band, zeroPoint }

/-- `Source.save`, source.py 82-94, 173-175. -/
def SourceObj.save (c : Codec K) (o : SourceObj K) : Option (Fits K) := do
  let mag ← fltCard c o.magnitude
  let wl ← fltCard c o.wavelength
  let height ← fltCard c o.height
  let band ← strCard o.band
  let zp ← fltCard c o.zeroPoint
  some ⟨[("VERSION", .int 1), ("PCOORD0", .flt (c.card o.orig.1)), ("PCOORD1", .flt (c.card o.orig.2)), ("MAGNITUD", mag), ("WAVELENG", wl),
    ("HEIGHT", height), ("BAND", band), ("ZEROPNT", zp), ("ERR_CRD0", .flt (c.card o.error.1)), ("ERR_CRD1", .flt (c.card o.error.2))], []⟩

/-- `Source.restore`, source.py 177-195. -/
def SourceObj.restore [Add K] (c : Codec K) (x : Fits K) : Option (SourceObj K) := do
  if x.hdr.int "VERSION" ≠ some 1 then none
  else
    let p0 ← x.hdr.flt "PCOORD0"
    let p1 ← x.hdr.flt "PCOORD1"
    let mag ← x.hdr.flt "MAGNITUD"
    let wl ← x.hdr.flt "WAVELENG"
    let height ← x.hdr.flt "HEIGHT"
    let band ← x.hdr.str "BAND"
    let zp ← x.hdr.flt "ZEROPNT"
    let e0 ← x.hdr.flt "ERR_CRD0"
    let e1 ← x.hdr.flt "ERR_CRD1"
    some (mkSource c (p0, p1) (e0, e1) (some mag) (some wl) (some height) band (some zp))

structure LltObj (K : Type) where
  spotSize : Option K
  telPos : List K
  beaconFocus : Option K
  beaconTt : K × K
  airmass : K

/-- Construction of a laser launch telescope, laser_launch_telescope.py 43-66: the focus is multiplied by the airmass. -/
def mkLlt [Mul K] (spotSize : Option K) (telPos : List K) (beaconFocus : Option K) (beaconTt : K × K) (airmass : K) : LltObj K :=
  { spotSize, telPos, beaconFocus := beaconFocus.map (· * airmass), beaconTt, airmass }

/-- `LaserLaunchTelescope.save`, laser_launch_telescope.py 73-92. -/
def LltObj.save [Zero K] (c : Codec K) (o : LltObj K) : Option (Fits K) := do
  let pos := if o.telPos.isEmpty then [0, 0, 0] else o.telPos
  let spot ← fltCard c o.spotSize
  let x ← pos[0]?
  let y ← pos[1]?
  let z ← pos[2]?
  let foc ← fltCard c o.beaconFocus
  some ⟨[("VERSION", .int 1), ("SPOTSIZE", spot), ("TELPOS_X", .flt (c.card x)), ("TELPOS_Y", .flt (c.card y)), ("TELPOS_Z", .flt (c.card z)),
    ("BEAC_FOC", foc), ("BEAC_TT0", .flt (c.card o.beaconTt.1)), ("BEAC_TT1", .flt (c.card o.beaconTt.2))], []⟩

/-- `LaserLaunchTelescope.restore`, laser_launch_telescope.py 94-112: zenith angle zero, airmass 1. -/
def LltObj.restore [Mul K] [One K] (x : Fits K) : Option (LltObj K) := do
  if x.hdr.int "VERSION" ≠ some 1 then none
  else
    let spot ← x.hdr.flt "SPOTSIZE"
    let px ← x.hdr.flt "TELPOS_X"
    let py ← x.hdr.flt "TELPOS_Y"
    let pz ← x.hdr.flt "TELPOS_Z"
    let foc ← x.hdr.flt "BEAC_FOC"
    let t0 ← x.hdr.flt "BEAC_TT0"
    let t1 ← x.hdr.flt "BEAC_TT1"
    some (mkLlt (some spot) [px, py, pz] (some foc) (t0, t1) 1)

/-! ### Matrices -/

structure RecmatObj (K : Type) where
  recmat : NdArr K
  normFactor : Option K
  modes2recLayer : Option (NdArr K)

/-- `Recmat.save`, recmat.py 62-81. -/
def RecmatObj.save (c : Codec K) (o : RecmatObj K) : Option (Fits K) := do
  let nf ← fltCard c o.normFactor
  some ⟨[("VERSION", .int 1), ("NORMFACT", nf)], .f o.recmat :: (o.modes2recLayer.map Hdu.f).toList⟩

/-- The constructor, recmat.py 15-28: the third matrix is accepted and dropped, the values are not converted. -/
def mkRecmat (recmat : NdArr K) (_modes2recLayer : Option (NdArr K)) (normFactor : K) : RecmatObj K := ⟨recmat, some normFactor, none⟩

/-- `Recmat.restore`, recmat.py 87-103. -/
def RecmatObj.restore (x : Fits K) : Option (RecmatObj K) := do
  if x.hdr.int "VERSION" ≠ some 1 then none
  else
    let nf ← x.hdr.flt "NORMFACT"
    let m ← x.arr 0
    some (mkRecmat m (x.arr 1) nf)

/-- Values that may end up in the fields of an `Intmat`. -/
inductive AttrVal (K : Type) where
  | none
  | arr (a : NdArr K)
  | str (s : List Char)
  | flt (x : K)
deriving DecidableEq

structure IntmatObj (K : Type) where
  intmat : NdArr K
  slopeMm : AttrVal K := .none
  slopeRms : AttrVal K := .none
  pupTag : AttrVal K := .str []
  subapTag : AttrVal K := .str []
  normFactor : AttrVal K
deriving DecidableEq

/-- A header card from a field; `None` gives an undefined card (`KeyError` is not raised, the value is `None`; not needed here), arrays raise. -/
def AttrVal.card (c : Codec K) : AttrVal K → Option (Card K)
  | .str s => strCard s
  | .flt x => some (.flt (c.card x))
  | _ => Option.none

/-- `if self.slope_mm is not None: hdul.append(fits.ImageHDU(data=...))`: data that is not an array raises. -/
def AttrVal.hdu : AttrVal K → Option (List (Hdu K))
  | .none => some []
  | .arr a => some [.f a]
  | _ => Option.none

/-- `Intmat.save`, intmat.py 139-157. -/
def IntmatObj.save (c : Codec K) (o : IntmatObj K) : Option (Fits K) := do
  let pt ← o.pupTag.card c
  let st ← o.subapTag.card c
  let nf ← o.normFactor.card c
  let mm ← o.slopeMm.hdu
  let rms ← o.slopeRms.hdu
  some ⟨[("VERSION", .int 1), ("PUP_TAG", pt), ("SA_TAG", st), ("NORMFACT", nf)], .f o.intmat :: (mm ++ rms)⟩

/-- `Intmat.restore`, intmat.py 163-178.  The last line passes the fields by position, but the parameters of the constructor are
`intmat, nmodes, nslopes, slope_mm, slope_rms, pupdata_tag, subapdata_tag, norm_factor` (intmat.py 42-51): the two tags become
`slope_mm` and `slope_rms`, the normalisation becomes `pupdata_tag`; `nmodes` and `nslopes` are not used when a matrix is given. -/
def IntmatObj.restore [Zero K] (x : Fits K) : Option (IntmatObj K) := do
  let m ← x.arr 0
  let nf := (x.hdr.flt "NORMFACT").getD 0
  let pt := (x.hdr.str "PUP_TAG").getD []
  let st := (x.hdr.str "SA_TAG").getD []
  some { intmat := m, slopeMm := .str pt, slopeRms := .str st, pupTag := .flt nf, subapTag := .str [], normFactor := .flt 0 }

/-- `IFunc.save`, ifunc.py 169-180, and `IFuncInv.save`, ifunc_inv.py 80-92. -/
def ifuncSave (ifunc mask : NdArr K) : Fits K := ⟨[("VERSION", .int 1)], [.f ifunc.T, .f mask]⟩

/-- `IFunc.restore`, ifunc.py 182-187 with the constructor 86-92 (`conv`: the `cut` without arguments converts the functions through the
setter, 97-116; the mask is kept as it is), and `IFuncInv.restore`, ifunc_inv.py 94-99 (no conversion). -/
def ifuncRestore (c : Codec K) (conv : Bool) (x : Fits K) : Option (NdArr K × NdArr K) := do
  let f ← x.arr 0
  let m ← x.arr 1
  some (if conv then f.T.cast c else f.T, m)

structure M2cObj (K : Type) where
  m2c : NdArr K
  normFactor : Option K

/-- `M2C.save`, m2c.py 66-79. -/
def M2cObj.save (o : M2cObj K) : Fits K := ⟨[("VERSION", .int 1)], [.f o.m2c]⟩

/-- `M2C.restore`, m2c.py 81-91. -/
def M2cObj.restore (c : Codec K) (x : Fits K) : Option (M2cObj K) := do
  if x.hdr.int "VERSION" ≠ some 1 then none
  else
    let m ← x.arr 0
    some ⟨m.cast c, none⟩

/-! ### Sub-aperture and pupil data -/

structure SubapObj (K : Type) where
  idxs : NdArr ℤ
  displayMap : NdArr ℤ
  nx : ℤ
  ny : ℤ
  energyTh : Option K

/-- `SubapData.save`, subap_data.py 75-85 (the card `NP_SUB` is not read back). -/
def SubapObj.save (c : Codec K) (o : SubapObj K) : Option (Fits K) := do
  let th ← fltCard c o.energyTh
  some ⟨[("VERSION", .int 1), ("ENRGYTH", th), ("NX", .int o.nx), ("NY", .int o.ny)], [.i o.idxs.T, .i o.displayMap]⟩

/-- `SubapData.restore`, subap_data.py 87-104. -/
def SubapObj.restore (x : Fits K) : Option (SubapObj K) := do
  if x.hdr.int "VERSION" ≠ some 1 then none
  else
    let th ← x.hdr.flt "ENRGYTH"
    let nx ← x.hdr.int "NX"
    let ny ← x.hdr.int "NY"
    let idxs ← x.iarr 0
    let dm ← x.iarr 1
    some ⟨idxs.T, dm, nx, ny, some th⟩

structure PupObj (K : Type) where
  indPup : NdArr ℤ
  radius : NdArr K
  cx : NdArr K
  cy : NdArr K
  framesize : ℤ × ℤ
  slopesFromIntensity : Bool

/-- `PupData.save`, pupdata.py 121-134. -/
def PupObj.save (o : PupObj K) : Fits K :=
  ⟨[("VERSION", .int 2), ("FSIZEX", .int o.framesize.1), ("FSIZEY", .int o.framesize.2)], [.i o.indPup, .f o.radius, .f o.cx, .f o.cy]⟩

/-- `PupData.restore`, pupdata.py 136-163, with the constructor 38-57. -/
def PupObj.restore (c : Codec K) (x : Fits K) : Option (PupObj K) := do
  if x.hdr.int "VERSION" ≠ some 2 then none
  else
    let fx ← x.hdr.int "FSIZEX"
    let fy ← x.hdr.int "FSIZEY"
    let ind ← x.iarr 0
    let radius ← x.arr 1
    let cx ← x.arr 2
    let cy ← x.arr 3
    some ⟨ind, radius.cast c, cx.cast c, cy.cast c, (fx, fy), false⟩

/-! ### IIR filters -/

structure IirObj (K : Type) where
  ordnum : List ℕ
  ordden : List ℕ
  num : List (List K)
  den : List (List K)

/-- Construction without `n_modes`, iir_filter_data.py 62-71, 105-133: `set_num` and `set_den` align each row. -/
def mkIir [_root_.Field K] [DecidableEq K] (ordnum ordden : List ℕ) (num den : List (List K)) : IirObj K :=
  ⟨ordnum, ordden, List.zipWith alignCoef ordnum num, List.zipWith alignCoef ordden den⟩

/-- `IirFilterData.save` and `restore` with exact values, iir_filter_data.py 744-769: the arrays are passed to the constructor again. -/
def IirObj.saveRestore [_root_.Field K] [DecidableEq K] (o : IirObj K) : IirObj K := mkIir o.ordnum o.ordden o.num o.den

/-! ### Spatio-temporal arrays -/

/-- `moveaxis(a, -1, 0)`. -/
def moveLast (a : NdArr K) : NdArr K :=
  match a.shape.getLast? with
  | none => a
  | some t => ⟨t :: a.shape.dropLast, (NdArr.T ⟨[a.shape.dropLast.prod, t], a.data⟩).data⟩

structure StaObj (K : Type) where
  array : NdArr K
  time : NdArr K

/-- `array.shape[time_axis]`. -/
def timeDim (a : NdArr K) (timeLast : Bool) : Option ℕ := if timeLast then a.shape.getLast? else a.shape.head?

/-- Constructor, spatio_temp_array.py 46-68; `timeLast` is `time_axis == -1`. -/
def mkSta (array time : NdArr K) (timeLast : Bool) : Option (StaObj K) :=
  if array.shape = [] then none
  else if timeDim array timeLast ≠ time.shape.head? then none
  else some ⟨if timeLast ∧ 1 < array.shape.length then moveLast array else array, time⟩

/-- `set_value`, spatio_temp_array.py 74-91. -/
def StaObj.setValue (o : StaObj K) (v : NdArr K) : Option (StaObj K) :=
  if v.shape = o.array.shape then some { o with array := v }
  else if v.shape.length = o.array.shape.length ∧ 1 < v.shape.length ∧ v.shape.getLast? = o.array.shape.head? then
    if (moveLast v).shape = o.array.shape then some { o with array := moveLast v } else none
  else none

/-- `save`, spatio_temp_array.py 101-121: the array is the primary HDU, here the first of the list. -/
def StaObj.save (o : StaObj K) : Fits K := ⟨[("VERSION", .int 1), ("OBJ_TYPE", .str "SpatioTempArray".toList)], [.f o.array, .f o.time]⟩

/-- `restore`, spatio_temp_array.py 123-150. -/
def StaObj.restore (x : Fits K) : Option (StaObj K) := do
  if x.hdr.int "VERSION" ≠ some 1 then none
  else
    let a ← x.arr 0
    let t ← x.arr 1
    mkSta a t false

end
end Specula
