import Verif.Model.Masks
import Verif.Model.SlopeVec
import Verif.Model.PyrSlopes
/-
Model of the slope computers that take one signal per pixel, of the double roof, and of the maps of slopes.

* `specula/processing_objects/cur_wfs_slopec.py` 43-63, 112-132 (curvature);
* `specula/processing_objects/zwfs_slopec.py` 37-61, 77-94 (Zernike sensor);
* `specula/processing_objects/double_roof_slopec.py` 48-59, over `pyr_slopec.py` 99-144;
* `specula/data_objects/slopes.py` 143-191 (`x_remap2d`, `y_remap2d`, `get2d`).

Numbers are the elements of an ordered field.  Exceptions, and values that are not finite, are `none`.
-/
namespace Specula

section
variable {K : Type} [Field K] [LinearOrder K] [IsStrictOrderedRing K]

/-- `flat[idx]`. -/
def gatherPix (frame : List K) (idx : List Nat) : Option (List K) := idx.mapM fun i => frame[i]?

/-- Pixels of the sensor, cur_wfs_slopec.py 46-49 and zwfs_slopec.py 40-41: the mask is a square of `rows` pixels, its rows and columns
are turned into indices with `cols`. -/
def ringIndices (rows cols : Nat) (dia : K) (obs : Option K) : Option (List Nat) :=
  (baseMask rows ⟨obs, some (dia / rows), 0, 0, false, false⟩).map fun m => (maskWhere rows m).map fun q => q.1 * cols + q.2

/-- Construction, cur_wfs_slopec.py 46-80: `single_mask` (pupdata.py 103) raises if an index is outside of the frame. -/
def curInit (rows cols : Nat) (dia : K) : Option (List Nat) :=
  (ringIndices rows cols dia none).bind fun idx => if idx.all fun p => decide (p < rows * cols) then some idx else none

/-- Construction, zwfs_slopec.py 37-61. -/
def zwfsInit (n : Nat) (dia : K) (obs : Option K) : Option (List Nat) :=
  (ringIndices n n dia obs).bind fun idx => if idx.all fun p => decide (p < n * n) then some idx else none

/-- Outputs of a slope computer of pixels. -/
structure PixOut (K : Type) where
  slopes : List (Option K)
  flux : List K
  total : K
  mean : Option K

/-- `where(sum_i < 1e-9, 1.0, sum_i)`, cur_wfs_slopec.py 118-121. -/
def curSum (a b : K) : K := if a + b < 1 / 10 ^ 9 then 1 else a + b

/-- `CurWfsSlopec.trigger_code`, cur_wfs_slopec.py 112-132. -/
def curTrigger (idx : List Nat) (p1 p2 : List K) : Option (PixOut K) :=
  (gatherPix p1 idx).bind fun i1 => (gatherPix p2 idx).map fun i2 =>
    let s := List.zipWith curSum i1 i2
    ⟨List.zipWith (fun d x => some (d / x)) (List.zipWith (· - ·) i1 i2) s, s, s.sum,
      if idx.length = 0 then none else some (s.sum / idx.length)⟩

/-- `ZwfsSlopec.trigger_code`, zwfs_slopec.py 81-94. -/
def zwfsTrigger (idx : List Nat) (thr : K) (frame : List K) : Option (PixOut K) :=
  (gatherPix (frame.map fun x => x - thr) idx).map fun m =>
    let norm : K := m.sum / (idx.length : K)
    ⟨m.map fun x => if norm = 0 then none else some (x / norm), m, m.sum, if idx.length = 0 then none else some (m.sum / (idx.length : K))⟩

/-- `DoubleRoofSlopec`: pyr_slopec.py 99-144 with the differences of double_roof_slopec.py 57-58. -/
def roofTrigger (c : PyrCfg K) (frame : List K) : Option (PyrOut K) :=
  if c.fromIntensity then pyrTrigger c frame
  else
    (pyrVals c frame 0).bind fun A =>
    (pyrVals c frame 1).bind fun B =>
    (pyrVals c frame 2).bind fun C =>
    (pyrVals c frame 3).bind fun D =>
    if A.length = B.length ∧ A.length = C.length ∧ A.length = D.length ∧ A.length = c.nSub then
      let flux := List.zipWith (· + ·) (List.zipWith (· + ·) (List.zipWith (· + ·) A B) C) D
      let total := flux.sum
      let inv := pyrInv c total
      let factor : Option K := if inv = 0 then none else some (1 / inv)
      let ux := List.zipWith (· - ·) A B
      let uy := List.zipWith (· - ·) D C
      let scale := if inv > 0 then 1 else inv
      some ⟨ux.map fun x => fmul (fmul (some x) factor) (some scale), uy.map fun x => fmul (fmul (some x) factor) (some scale), flux, total⟩
    else none

/-- `xp.put(f, idx, vals)` on a new frame of `size` zeros: an index outside raises, values are repeated if they are too few. -/
def putZeros (size : Nat) (idx : List Nat) (vals : List K) : Option (List K) :=
  if vals = [] then some (List.replicate size 0)
  else if idx.all fun p => decide (p < size) then
    some (scatter (List.replicate size 0) idx ((List.range idx.length).map fun k => vals.getD (k % vals.length) 0))
  else none

/-- Result of `get2d`: one frame, or a frame for x and one for y. -/
inductive SlopeMap (K : Type) where
  | one (f : List K)
  | two (fx fy : List K)

/-- `Slopes.get2d`, slopes.py 168-191, for a mask of `size` pixels and a display map of flat indices; frames are flattened. -/
def slopesMap (size : Nat) (idx : List Nat) (s : SlopeVec K) : Option (SlopeMap K) :=
  if s.v.length = idx.length then (putZeros size idx s.v).map SlopeMap.one
  else (putZeros size idx s.getX).bind fun fx => (putZeros size idx s.getY).map fun fy => SlopeMap.two fx fy

/-- `get2d` of the curvature and Zernike sensors: cur_wfs_slopec.py 79-80, zwfs_slopec.py 57-58, with the mask of pupdata.py 101-105 (a
quarter of the frame) and the map of pupdata.py 96 (indices of the whole frame). -/
def pixSensorMap (rows cols : Nat) (idx : List Nat) (s : SlopeVec K) : Option (SlopeMap K) :=
  slopesMap (rows / 2 * (cols - cols / 2)) idx s

end

end Specula
