import Verif.Model.Select
import Verif.Model.Resample
/-
Model of the slopes vector and of the common part of the slope computers.

* `specula/data_objects/slopes.py` 12-38 (constructor), 55-74 (`resize`), 76-111 (`size`, `xslopes`, `yslopes`), 126-130 (`sum`);
* `specula/processing_objects/slopec.py` 44-58 (filter matrices), 132-151 (`post_trigger`).

Numbers are the elements of a field.  Matrices are `Img` (rows, columns, elements).  Exceptions are `none`.  The repetition of a
vector of one element is not modelled: sizes that differ raise.
-/
namespace Specula

/-- A `Slopes` object: `late` tells if the size was set by `resize`. -/
structure SlopeVec (K : Type) where
  v : List K
  interleave : Bool
  late : Bool

section
variable {K : Type}

/-- `indices_x`, slopes.py 33, 36 and 70, 73. -/
def SlopeVec.idxX (s : SlopeVec K) : List Nat :=
  if s.interleave then (List.range (s.v.length / 2)).map (· * 2) else List.range (s.v.length / 2)

/-- `indices_y`: in the constructor (slopes.py 34, 37) and in `resize` (71, 74). -/
def SlopeVec.idxY (s : SlopeVec K) : List Nat :=
  if s.interleave then s.idxX.map (· + 1)
  else if s.late then s.idxX.map (· + s.v.length / 2)
  else (List.range (s.v.length - s.v.length / 2)).map (· + s.v.length / 2)

variable [Field K]

/-- `xslopes`, slopes.py 83-88. -/
def SlopeVec.getX (s : SlopeVec K) : List K := s.idxX.map fun i => s.v.getD i 0

/-- `yslopes`, slopes.py 97-102. -/
def SlopeVec.getY (s : SlopeVec K) : List K := s.idxY.map fun i => s.v.getD i 0

/-- Setter of `xslopes`, slopes.py 90-95. -/
def SlopeVec.setX (s : SlopeVec K) (xs : List K) : Option (SlopeVec K) :=
  if xs.length = s.idxX.length then some { s with v := scatter s.v s.idxX xs } else none

/-- Setter of `yslopes`, slopes.py 104-109. -/
def SlopeVec.setY (s : SlopeVec K) (ys : List K) : Option (SlopeVec K) :=
  if ys.length = s.idxY.length then some { s with v := scatter s.v s.idxY ys } else none

/-- `a - b` for vectors: the sizes must agree. -/
def vecSub (a b : List K) : Option (List K) := if a.length = b.length then some (List.zipWith (· - ·) a b) else none

/-- `v @ m`. -/
def vecMat (v : List K) (m : Img K) : Option (List K) :=
  if v.length = m.rows then some ((List.range m.cols).map fun j => ∑ i ∈ Finset.range m.rows, v.getD i 0 * m.px i j) else none

/-- `m.T`. -/
def Img.transpose (m : Img K) : Img K := ⟨m.cols, m.rows, fun i j => m.px j i⟩

/-- Matrices and reference slopes of a slope computer; the constructor accepts the two filter matrices only together, 50-58. -/
structure SlopecCfg (K : Type) where
  sn : Option (SlopeVec K)
  recmat : Option (Img K)
  filt : Option (Img K × Img K)   -- filt_intmat, filt_recmat

/-- Reference slopes, slopec.py 135-137. -/
def subReference (sn : SlopeVec K) (s : SlopeVec K) : Option (SlopeVec K) :=
  (vecSub s.getX sn.getX).bind fun dx => (s.setX dx).bind fun s1 =>
  (vecSub s1.getY sn.getY).bind fun dy => s1.setY dy

/-- Multiplication by `recmat`, slopec.py 139-141: the result must have the same size. -/
def mulRecmat (r : Img K) (s : SlopeVec K) : Option (SlopeVec K) :=
  (vecMat s.v r).bind fun m => if m.length = s.v.length then some { s with v := m } else none

/-- Filter, slopec.py 143-146. -/
def filterSlopes (im rm : Img K) (s : SlopeVec K) : Option (SlopeVec K) :=
  (vecMat s.v rm).bind fun m => (vecMat m im.transpose).bind fun sl0 => (vecSub s.v sl0).map fun d => { s with v := d }

/-- `if self.x:` before a stage. -/
def optStage {A S : Type} (x : Option A) (f : A → S → Option S) (s : S) : Option S :=
  match x with
  | some a => f a s
  | none => some s

/-- `Slopec.post_trigger`, slopec.py 132-146. -/
def slopecPost (c : SlopecCfg K) (s : SlopeVec K) : Option (SlopeVec K) :=
  (optStage c.sn subReference s).bind fun s1 =>
  (optStage c.recmat mulRecmat s1).bind fun s2 =>
  optStage c.filt (fun p => filterSlopes p.1 p.2) s2

end

end Specula
