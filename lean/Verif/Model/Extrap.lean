import Verif.Model.Interp
/-
Model of `specula/lib/extrapolation_2d.py`: `_calculate_extrapolation_indices_coeffs` (11-129), `_apply_extrapolation` (132-181) and
`EFInterpolator` (184-462), with `specula/lib/interp2d.py` 114-236 for coordinates that are not given.

Numbers are the elements of an ordered field with floor; NaN is `none`.  The coefficients are stored in single precision: `rd` is the
rounding (the identity for exact arithmetic).  `binary_dilation` has the default structure, the four neighbours, and nothing outside
the array.  The fixed size of the arrays (41-51) only adds entries that are not used.  Not modelled: GPU kernels, the caches of
`use_out_ef_cache`, rounding other than `rd`.
-/
namespace Specula

section
variable {K : Type} [Field K] [LinearOrder K]

/-- `0 <= y < mask.shape[0] and 0 <= x < mask.shape[1] and binary_mask[y, x]`, extrapolation_2d.py 78-84. -/
def inMaskAt (rows cols : Nat) (b : Nat → Nat → Bool) (y x : Int) : Bool :=
  decide (0 ≤ y) && decide (y < rows) && decide (0 ≤ x) && decide (x < cols) && b y.toNat x.toNat

/-- `directions`, 60-65. -/
def exDirs : List (Int × Int) := [(1, 0), (-1, 0), (0, 1), (0, -1)]

/-- `dilated_mask & ~binary_mask`, 30-31. -/
def exEdge (rows cols : Nat) (b : Nat → Nat → Bool) (y x : Nat) : Bool :=
  (b y x || exDirs.any fun d => inMaskAt rows cols b (y + d.1) (x + d.2)) && !b y x

/-- Two columns of `reference_indices_fixed` and `coefficients_fixed`: those of one direction. -/
structure ExRef (K : Type) where
  ref1 : Int
  ref2 : Int
  c1 : Option K
  c2 : Option K

/-- The body of the loop over the directions, 73-113, with `valid_directions` as first component. -/
def exDir (rows cols : Nat) (b : Nat → Nat → Bool) (y x : Nat) (st : Nat × List (ExRef K)) (d : Int × Int) : Nat × List (ExRef K) :=
  let y1 := (y : Int) + d.1
  let x1 := (x : Int) + d.2
  let y2 := (y : Int) + 2 * d.1
  let x2 := (x : Int) + 2 * d.2
  if inMaskAt rows cols b y1 x1 then
    if inMaskAt rows cols b y2 x2 then (st.1 + 1, st.2 ++ [⟨y1 * cols + x1, y2 * cols + x2, some 2, some (-1)⟩])
    else if st.1 = 0 then (st.1 + 1, st.2 ++ [⟨y1 * cols + x1, -1, some 1, none⟩])
    else (st.1, st.2 ++ [⟨y1 * cols + x1, -1, some 0, some 0⟩])
  else (st.1, st.2 ++ [⟨-1, -1, some 0, some 0⟩])

/-- Normalisation by the number of directions, 115-122 (NaN is different from zero). -/
def exNorm (rd : K → K) (k : Nat) (e : ExRef K) : ExRef K :=
  if 1 < k then
    if e.c1 = some 0 then e
    else { e with c1 := e.c1.map (fun c => rd (c * (1 / k))), c2 := if e.c2 = some 0 then e.c2 else e.c2.map fun c => rd (c * (1 / k)) }
  else e

/-- The references and coefficients of an edge pixel, 68-122. -/
def exCoeffs (rd : K → K) (rows cols : Nat) (b : Nat → Nat → Bool) (y x : Nat) : List (ExRef K) :=
  let st := exDirs.foldl (exDir rows cols b y x) (0, [])
  st.2.map (exNorm rd st.1)

/-- One contribution, 161-175: `flat_data[ref]`, zero for references below zero. -/
def exSlot (cols : Nat) (px : Nat → Nat → K) (ref : Int) (c : Option K) : Option K :=
  if 0 ≤ ref then c.map fun c => c * px (ref.toNat / cols) (ref.toNat % cols) else some 0

/-- `extrap_values`, 174-175. -/
def exValue (cols : Nat) (px : Nat → Nat → K) (es : List (ExRef K)) : Option K :=
  (es.mapM fun e => (exSlot cols px e.ref1 e.c1).bind fun a => (exSlot cols px e.ref2 e.c2).map fun c => a + c).map List.sum

/-- `_apply_extrapolation` on the array `out`, 132-181: edge pixels whose first coefficient is not NaN (125). -/
def exApply (rd : K → K) (rows cols : Nat) (b : Nat → Nat → Bool) (px out : Nat → Nat → K) (y x : Nat) : Option K :=
  if exEdge rows cols b y x && ((exCoeffs rd rows cols b y x).head?.bind ExRef.c1).isSome then exValue cols px (exCoeffs rd rows cols b y x)
  else some (out y x)

/-- `binary_mask`, 27. -/
def exMask (thr : K) (A : Nat → Nat → K) (y x : Nat) : Bool := decide (thr ≤ A y x)

/-- Whether all values of the amplitude are close to 0 or 1, 417-425. -/
def exBinary (rows cols : Nat) (A : Nat → Nat → K) : Bool :=
  decide (∀ y < rows, ∀ x < cols, |A y x - 0| < 1 / 1000 ∨ |A y x - 1| < 1 / 1000)

/-- Parameters of an `EFInterpolator`; `rot` holds cosine and sine of the angle given to `Interp2D`, `none` for zero. -/
structure EFIParams (K : Type) where
  rows : Nat
  cols : Nat
  outRows : Nat
  outCols : Nat
  rot : Option (K × K)
  xShift : K
  yShift : K
  mag : K
  thr : K
  force : Bool

/-- Whether nothing has to be done, interp2d.py 154-160 and extrapolation_2d.py 280-284. -/
def EFIParams.same (P : EFIParams K) : Prop :=
  (P.rows = P.outRows ∧ P.cols = P.outCols) ∧ P.rot = none ∧ P.xShift = 0 ∧ P.yShift = 0 ∧ P.mag = 1

instance EFIParams.decSame (P : EFIParams K) : Decidable P.same := by
  unfold EFIParams.same
  infer_instance

/-- The constructor, 264-289: `none` for the two exceptions, else `do_interpolation`. -/
def EFIParams.init (P : EFIParams K) : Option Bool :=
  if (P.outRows : K) / P.rows ≠ (P.outCols : K) / P.cols then none
  else if P.mag < 1 / 1000000 then none
  else if P.same ∧ P.force = false then some false
  else some true

/-- `Interp2D` without given coordinates, interp2d.py 182-220: coordinates before they are moved to the border.  The fourth and fifth
arguments of its constructor are `rowShiftInPixels` and `colShiftInPixels` (114-117). -/
def efiXY (P : EFIParams K) (rowShift colShift : K) (i j : Nat) : K × K :=
  let yy : K := i * (((P.rows : K) - 1) / P.outRows)
  let xx : K := j * (((P.cols : K) - 1) / P.outCols)
  let yc : K := (P.rows : K) / 2 - 1 / 2
  let xc : K := (P.cols : K) / 2 - 1 / 2
  let (yy, xx) :=
    if P.rot.isSome ∨ P.mag ≠ 1 then
      let xq := (xx - xc) / P.mag
      let yq := (yy - yc) / P.mag
      match P.rot with
      | none => (yq + yc, xq + xc)
      | some (c, s) => ((xq * s + yq * c) + yc, (xq * c - yq * s) + xc)
    else (yy, xx)
  (yy + rowShift, xx + colShift)

variable [IsStrictOrderedRing K] [FloorRing K]

/-- `self.interp.interpolate(px)` for the `Interp2D` made by the constructor, 316-325: the x shift is passed as the shift of the rows. -/
def efiInterp (P : EFIParams K) (px : Nat → Nat → K) (i j : Nat) : K :=
  if P.same then px i j
  else bilinear P.rows P.cols px (clampTo P.rows (efiXY P P.xShift P.yShift i j).1) (clampTo P.cols (efiXY P P.xShift P.yShift i j).2)

/-- What `interpolate` computes only once: the mask used for the edges and `amplitude_is_binary`. -/
structure EFIState where
  mask : Nat → Nat → Bool
  binary : Bool

/-- The first part of `interpolate`, 404-426. -/
def efiPrepare (P : EFIParams K) (st : Option EFIState) (A : Nat → Nat → K) : EFIState :=
  match st with
  | some s => s
  | none => ⟨exMask P.thr A, exBinary P.rows P.cols A⟩

/-- `phase_extrapolated`, 435-448. -/
def efiExtrapolated (rd : K → K) (P : EFIParams K) (s : EFIState) (A ph : Nat → Nat → K) (y x : Nat) : Option K :=
  exApply rd P.rows P.cols s.mask ph (fun y x => ph y x * (if P.thr ≤ A y x then 1 else 0)) y x

/-- The amplitude of the output, 428-433. -/
def efiAmp (P : EFIParams K) (s : EFIState) (A : Nat → Nat → K) (i j : Nat) : K :=
  if s.binary then (if efiInterp P A i j > 1 / 2 then 1 else 0) else efiInterp P A i j

/-- The phase of the output, 459; NaN in the extrapolated phase is not expected (`getD`, see `C71_value`). -/
def efiPhase (rd : K → K) (P : EFIParams K) (s : EFIState) (A ph : Nat → Nat → K) (i j : Nat) : K :=
  efiInterp P (fun y x => (efiExtrapolated rd P s A ph y x).getD 0) i j

/-- A sequence of calls of `interpolate` for the fields `(A, phase)`: amplitudes and phases of the output. -/
def efiRun (rd : K → K) (P : EFIParams K) : Option EFIState → List ((Nat → Nat → K) × (Nat → Nat → K)) → List ((Nat → Nat → K) × (Nat → Nat → K))
  | _, [] => []
  | st, f :: fs => (efiAmp P (efiPrepare P st f.1) f.1, efiPhase rd P (efiPrepare P st f.1) f.1 f.2) :: efiRun rd P (some (efiPrepare P st f.1)) fs

/-- `update_parameters`, 346-377, for the shifts: the new parameters, where a shift that is not given is read from `shift_x` and `shift_y` of
the `Interp2D`, which are the shifts of its columns and rows (interp2d.py 228-229).  `none` is the TypeError of a magnification that is
not given (350) and the AttributeError when nothing was to be interpolated. -/
def efiUpdate (P : EFIParams K) (x y : Option K) (mag : Option K) : Option (EFIParams K) :=
  if P.same ∧ P.force = false then none
  else mag.bind fun m => if m < 1 / 1000000 then none else some { P with xShift := x.getD P.yShift, yShift := y.getD P.xShift, mag := m }

end

end Specula
