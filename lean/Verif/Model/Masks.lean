import Verif.Model.Interp
import Verif.Model.Sh
import Mathlib.Analysis.SpecialFunctions.Trigonometric.Basic
import Mathlib.Analysis.SpecialFunctions.Complex.Arg

/-!
Model of the pupil masks: `specula/lib/make_mask.py`, the circular and annular masks of `specula/lib/mask.py` 120-132 and 360-379, and
the petals of `specula/lib/compute_petal_ifunc.py`.

Images are functions of row and column on a square of side `n`; pixels outside are not looked at.
Simplifications: exact arithmetic (a pixel whose centre lies on the edge is decided exactly, while the code decides by rounded
coordinates); sines and cosines are those of the real numbers.
-/

namespace Specula

section
variable {K : Type} [Field K] [LinearOrder K] [IsStrictOrderedRing K]

/-- Arguments of `make_mask` that choose the shape, make_mask.py 7-9; `none` for the ratios is Python's `None`. -/
structure MaskArgs (K : Type) where
  obs : Option K
  dia : Option K
  xc : K
  yc : K
  square : Bool
  onPixel : Bool

/-- Grid of `x`, make_mask.py 41 with make_xy.py 172: `tile` repeats the vector, so `x` depends on the column. -/
def maskX (n : Nat) (_i j : Nat) : K := makeXY n 1 j

/-- Grid of `y`, make_mask.py 41 with make_xy.py 173: the transpose. -/
def maskY (n : Nat) (i _j : Nat) : K := makeXY n 1 i

/-- Lines 45-49 (and 51-55) of make_mask.py for the vector `v`: `closest`, its two neighbours (index -1 is the last, an index past
the end raises), and half a step towards the closest of the two. -/
def onPixelCentre (n : Nat) (v : Nat → K) (c : K) : Option K :=
  (argminOn (fun i => |v i - c|) (List.range n)).bind fun idx =>
    let left := v (if idx = 0 then n - 1 else idx - 1)
    if idx + 1 < n then
      let k : K := if |v (idx + 1) - c| < |left - c| then 1 / 2 else -(1 / 2)
      some (v idx + k * (v 1 - v 0))
    else none

/-- Centre of the mask, make_mask.py 44-55: the code takes `x[:, 0]` and `y[0, :]`. -/
def maskCentreArg (n : Nat) (a : MaskArgs K) : Option (K × K) :=
  if a.onPixel then
    (onPixelCentre n (fun i => maskX n i 0) a.xc).bind fun xc =>
      (onPixelCentre n (fun j => maskY n 0 j) a.yc).map fun yc => (xc, yc)
  else some (a.xc, a.yc)

/-- Condition of the pixels set to one, make_mask.py 60-69, for a centre `(xc, yc)`. -/
def maskShape (square : Bool) (ir dia x y : K) : Bool :=
  if square then decide (|x| ≤ dia) && decide (|y| ≤ dia) && (decide (dia * ir ≤ |x|) || decide (dia * ir ≤ |y|))
  else decide (x ^ 2 + y ^ 2 < dia ^ 2) && decide ((dia * ir) ^ 2 ≤ x ^ 2 + y ^ 2)

/-- `make_mask` without spider and inversion, make_mask.py 33-73; `none` when it raises. -/
def baseMask (n : Nat) (a : MaskArgs K) : Option (Nat → Nat → Bool) :=
  if n ≤ 1 then none
  else (maskCentreArg n a).map fun c => fun i j =>
    maskShape a.square (a.obs.getD 0) (a.dia.getD 1) (maskX n i j - c.1) (maskY n i j - c.2)

/-- Spider and inversion, make_mask.py 76-140. -/
def finishMask (spider : Option (Nat → Nat → Bool)) (inverse : Bool) (m : Nat → Nat → Bool) (i j : Nat) : Bool :=
  let m1 := match spider with
    | some s => m i j && !s i j
    | none => m i j
  if inverse then !m1 else m1

/-- `xp.where(mask)` as the list of pairs (row, column), make_mask.py 144. -/
def maskWhere (n : Nat) (m : Nat → Nat → Bool) : List (Nat × Nat) :=
  (List.range n).flatMap fun i => ((List.range n).filter fun j => m i j).map fun j => (i, j)

/-- `CircularMask._computeMask`, mask.py 120-132: true inside the pupil (the code keeps the negation).  Radius and centre default to
half the shorter side and to the middle of the frame. -/
def circularMask (rows cols : Nat) (r : Option K) (centre : Option (K × K)) (i j : Nat) : Bool :=
  let rr := r.getD ((min rows cols : Nat) / 2)
  let cc := centre.getD ((rows : K) / 2, (cols : K) / 2)
  decide (((j : K) + 1 / 2 - cc.2) ^ 2 + ((i : K) + 1 / 2 - cc.1) ^ 2 ≤ rr ^ 2)

/-- `AnnularMask._computeMask`, mask.py 360-379; without a centre line 366 asks for an attribute `dtype` that does not exist. -/
def annularMask (rows cols : Nat) (r : Option K) (centre : Option (K × K)) (inner : K) : Option (Nat → Nat → Bool) :=
  centre.map fun c => fun i j =>
    circularMask rows cols r (some c) i j && (decide (inner = 0) || !circularMask rows cols (some inner) (some c) i j)

end

section
open Classical Real

/-- Direction of arm `i`, make_mask.py 89-95. -/
noncomputable def armAngle (petals : Nat) (offset : ℝ) (i : Nat) : ℝ := i * (2 * π / petals) + offset * π / 180

/-- `int(sqrt(2) * np_size / 2)`, make_mask.py 98. -/
noncomputable def spiderReach (n : Nat) : Nat := ⌊√2 * n / 2⌋₊

/-- Number of offsets across an arm, `arange(-h, h + 0.5, 0.5)`, make_mask.py 117-120. -/
noncomputable def spiderAcross (h : ℝ) : Nat := ⌈(h + 1 / 2 - -h) / (1 / 2)⌉₊

/-- Half of the width of an arm, make_mask.py 104 and 117. -/
noncomputable def spiderHalf (width : ℝ) : ℝ := width * 1.2 / 2

/-- Pixel `(i, j)` is set by the arm of direction `angle`, make_mask.py 92-132. -/
def armSets (n : Nat) (width angle : ℝ) (i j : Nat) : Prop :=
  ∃ k < 2 * spiderReach n,
    let d : ℝ := k / 2
    let xp := (n : ℝ) / 2 + d * cos angle
    let yp := (n : ℝ) / 2 + d * sin angle
    (0 ≤ xp ∧ xp < n ∧ 0 ≤ yp ∧ yp < n) ∧
    ∃ l < spiderAcross (spiderHalf width),
      let w := -spiderHalf width + l / 2
      truncInt (xp + w * -sin angle) = j ∧ truncInt (yp + w * cos angle) = i

/-- `spider_mask`, make_mask.py 86-135. -/
noncomputable def spiderMask (n petals : Nat) (width offset : ℝ) (i j : Nat) : Bool :=
  decide (∃ a < petals, armSets n width (armAngle petals offset a) i j)

/-- `make_mask`, make_mask.py 33-140. -/
noncomputable def makeMask (n : Nat) (a : MaskArgs ℝ) (inverse spider : Bool) (width : ℝ) (petals : Nat) (offset : ℝ) :
    Option (Nat → Nat → Bool) :=
  (baseMask n a).map (finishMask
    (if spider = true ∧ 0 < petals ∧ 0 < width then some (spiderMask n petals width offset) else none) inverse)

/-- `theta`, compute_petal_ifunc.py 62-71. -/
noncomputable def petalTheta (n : Nat) (offset : ℝ) (i j : Nat) : ℝ :=
  let t := Complex.arg ⟨(j : ℝ) - n / 2, (i : ℝ) - n / 2⟩ + offset * π / 180 + 2 * π
  t - 2 * π * ⌊t / (2 * π)⌋

/-- Mask of petal `p`, compute_petal_ifunc.py 74-95. -/
noncomputable def petalMask (n petals : Nat) (offset : ℝ) (special : Bool) (mask : Nat → Nat → Bool) (p i j : Nat) : Bool :=
  let t := petalTheta n offset i j
  let lo := p * (2 * π / petals)
  let hi := (p + 1) * (2 * π / petals)
  if p + 1 = petals ∧ special = true then (decide (lo ≤ t) || decide (t < hi)) && mask i j
  else (decide (lo ≤ t) && decide (t < hi)) && mask i j

/-- Mean of `f` on a list, `xp.mean`. -/
noncomputable def listMean (l : List ℝ) : ℝ := l.sum / l.length

/-- `xp.std` of a list. -/
noncomputable def listStd (l : List ℝ) : ℝ := √(listMean (l.map fun x => (x - listMean l) ^ 2))

/-- Tip or tilt of a petal, compute_petal_ifunc.py 108-125: the coordinate `f` on the pixels of `m`, centred and scaled. -/
noncomputable def petalTilt (n : Nat) (f : Nat → Nat → ℝ) (m : Nat → Nat → Bool) (i j : Nat) : ℝ :=
  if m i j then
    let vals := (maskWhere n m).map fun q => f q.1 q.2
    (f i j - listMean vals) / (if listStd vals = 0 then 1 else listStd vals)
  else 0

/-- Rows of `ifs_2d`, compute_petal_ifunc.py 97-128, with a given mask; coordinates as in lines 62-65. -/
noncomputable def petalIfunc (n petals : Nat) (offset : ℝ) (tilts special : Bool) (mask : Nat → Nat → Bool) : List (List ℝ) :=
  let pm := petalMask n petals offset special mask
  let row (f : Nat → Nat → ℝ) : List ℝ := (maskWhere n mask).map fun q => f q.1 q.2
  let piston := (List.range petals).map fun p => row fun i j => if pm p i j then 1 else 0
  if tilts then
    piston ++ ((List.range petals).map fun p => row (petalTilt n (fun _ j => (j : ℝ) - n / 2) (pm p))) ++
      ((List.range petals).map fun p => row (petalTilt n (fun i _ => (i : ℝ) - n / 2) (pm p)))
  else piston

end

end Specula
