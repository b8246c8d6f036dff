import Mathlib.LinearAlgebra.Matrix.NonsingularInverse
import Mathlib.Analysis.SpecialFunctions.Trigonometric.Basic
/-
Model of the zonal influence functions, `specula/lib/compute_zonal_ifunc.py`: positions of the actuators (80-131), cut of the influence functions
far from their actuator (138-179), mechanical coupling (184-206), weights of the slaves (239-329) and slaving (332-377).

Numbers are real.  Actuators are numbered from zero; positions, influence functions and weights are functions of the numbers.  The thin plate
spline of scipy (`Rbf`) is a parameter.  `np.linalg.solve` is the inverse when the determinant is not zero; otherwise it raises and the code
takes `np.linalg.lstsq`, a parameter.  Ties of `np.argsort` are in the order of the
masters.  Not modelled: the mask (it is a parameter here; see `Masks`), progress output, devices.
-/
namespace Specula

noncomputable section

/-! ### Positions -/

/-- `np.linspace(0, dim - 1, n)` -/
def zonalLin (dim n i : Nat) : ℝ := i * (((dim : ℝ) - 1) / ((n : ℝ) - 1))

/-- `step`, compute_zonal_ifunc.py 121 and 128; a division of floats by zero raises. -/
def zonalStep (dim n : Nat) : Option ℝ := if n = 1 then none else some (((dim : ℝ) - 1) / ((n : ℝ) - 1))

/-- The square geometry, compute_zonal_ifunc.py 123-128: `meshgrid`, raveled. -/
def squareActs (dim n : Nat) : List (ℝ × ℝ) := (List.range (n * n)).map fun k => (zonalLin dim n (k % n), zonalLin dim n (k / n))

/-- `rho_max`, compute_zonal_ifunc.py 116. -/
def alpaoRadius (dim n : Nat) : ℝ := (((dim : ℝ) - 1) * (9 / 8 - n / (24 * 16))) / 2

/-- The geometry `alpao`, compute_zonal_ifunc.py 111-121. -/
def alpaoActs (dim n : Nat) : List (ℝ × ℝ) :=
  let c := ((dim : ℝ) - 1) / 2
  (squareActs dim n).filter fun p => √((p.1 - c) ^ 2 + (p.2 - c) ^ 2) ≤ alpaoRadius dim n

/-- `n_act_radius`, compute_zonal_ifunc.py 81-84. -/
def actRadius (n : Nat) : Nat := if n % 2 = 0 then ⌈((n : ℚ) + 1) / 2⌉₊ else ⌈(n : ℚ) / 2⌉₊

/-- `na`, compute_zonal_ifunc.py 85-86. -/
def ringCounts (n : Nat) : List Nat := ((List.range (actRadius n)).map (· * 6)).set 0 1

/-- `step` of the circular geometry, compute_zonal_ifunc.py 90-91. -/
def circularStep (dim n : Nat) : Option ℝ := zonalStep dim (2 * actRadius n - 1)

/-- One actuator of the circular geometry, compute_zonal_ifunc.py 100-101, 105-109: `j` is its number in ring `r` of `m` actuators. -/
def ringAct (dim : Nat) (step offset : ℝ) (m r j : Nat) : ℝ × ℝ :=
  let angle : ℝ := 360 / m * j + offset
  let c := ((dim : ℝ) - 1) / 2
  (r * step * Real.cos (angle * (Real.pi / 180)) + c, r * step * Real.sin (angle * (Real.pi / 180)) + c)

/-- The circular geometry, compute_zonal_ifunc.py 80-109. -/
def circularActs (dim n : Nat) (offset : ℝ) : Option (List (ℝ × ℝ)) :=
  (circularStep dim n).map fun step =>
    ((ringCounts n).zipIdx.map fun p => (List.range p.1).map fun j => ringAct dim step offset p.1 p.2 j).flatten

/-! ### Influence functions -/

abbrev Pixel (dim : Nat) := Fin dim × Fin dim

def sqDist (p q : ℝ × ℝ) : ℝ := √((p.1 - q.1) ^ 2 + (p.2 - q.2) ^ 2)

/-- Position of a pixel: `grid_x` is the column, `grid_y` the row. -/
def pixPos {dim : Nat} (p : Pixel dim) : ℝ × ℝ := ((p.2 : ℕ), (p.1 : ℕ))

/-- The influence function of actuator `i`, compute_zonal_ifunc.py 138-179; `rbf` interpolates from a list of nodes with their values. -/
def zonalIf (dim nAct : Nat) (rbf : List ((ℝ × ℝ) × ℝ) → ℝ × ℝ → ℝ) (acts : List (ℝ × ℝ)) (i : Nat) (p : Pixel dim) : ℝ :=
  let minDist : ℝ := 9 * dim / nAct
  let xi := acts.getD i (0, 0)
  let nodes := acts.zipIdx.map fun a => (a.1, if a.2 = i then (1 : ℝ) else 0)
  if minDist ≥ dim / 2 then rbf nodes (pixPos p)
  else
    let close := nodes.filter fun a => sqDist a.1 xi ≤ minDist
    if sqDist (pixPos p) xi > 0.8 * minDist then 0 else rbf close (pixPos p)

/-- Mechanical coupling, compute_zonal_ifunc.py 184-206: `xy` are the positions of `n` actuators. -/
def mechCouple {P : Type} (n : Nat) (xy : Nat → ℝ × ℝ) (step c1 c2 : ℝ) (ifs : Nat → P → ℝ) (j : Nat) (p : P) : ℝ :=
  let dist := fun k => sqDist (xy k) (xy j)
  let close1 := (List.range n).filter fun k => 0 < dist k ∧ dist k ≤ step
  let close2 := (List.range n).filter fun k => step < dist k ∧ dist k ≤ 2 * step
  ifs j p + c1 * (close1.map fun k => ifs k p).sum + c2 * (close2.map fun k => ifs k p).sum

/-! ### Slaving -/

/-- `_compute_weights_standard`, compute_zonal_ifunc.py 239-261: the weight of master number `i` for slave number `j`. -/
def weightsStandard (xy : Nat → ℝ × ℝ) (masters slaves : List Nat) (step : ℝ) (i j : Nat) : ℝ :=
  let raw := fun i : Nat => if sqDist (xy (slaves.getD j 0)) (xy (masters.getD i 0)) ≤ 1.1 * step then (1 : ℝ) else 0
  let colSum := ∑ i ∈ Finset.range masters.length, raw i
  raw i / (if colSum > 1 then colSum else 1)

/-- A row of `A`, compute_zonal_ifunc.py 300. -/
def planeRow (p : ℝ × ℝ) : Fin 3 → ℝ := ![p.1, p.2, 1]

/-- `A.T @ A` for the rows `l`. -/
def normalMat (l : List (Fin 3 → ℝ)) : Matrix (Fin 3) (Fin 3) ℝ := (l.map fun r => Matrix.vecMulVec r r).sum

/-- `nearby_indices`, compute_zonal_ifunc.py 284-294: numbers of masters near the slave, at least three when there are. -/
def nearMasters (xy : Nat → ℝ × ℝ) (masters : List Nat) (radius : ℝ) (s : Nat) : List Nat :=
  let dist := fun i : Nat => sqDist (xy (masters.getD i 0)) (xy s)
  let near := (List.range masters.length).filter fun i => dist i ≤ radius
  if near.length < 3 then ((List.range masters.length).mergeSort fun i k => dist i ≤ dist k).take 3 else near

/-- The virtual actuator, compute_zonal_ifunc.py 274-275, 304-314. -/
def virtualAct (n : Nat) (xy : Nat → ℝ × ℝ) (step : ℝ) (s : Nat) : ℝ × ℝ :=
  let xc := (∑ k ∈ Finset.range n, (xy k).1) / n
  let yc := (∑ k ∈ Finset.range n, (xy k).2) / n
  let dx := (xy s).1 - xc
  let dy := (xy s).2 - yc
  let d := √(dx ^ 2 + dy ^ 2)
  let u := if d > 1e-10 then (dx / d, dy / d) else (1, 0)
  ((xy s).1 + step * u.1, (xy s).2 + step * u.2)

/-- `np.linalg.solve`, or `np.linalg.lstsq` when it raises, compute_zonal_ifunc.py 321-324. -/
def solveOr (lstsq : Matrix (Fin 3) (Fin 3) ℝ → (Fin 3 → ℝ) → Fin 3 → ℝ) (m : Matrix (Fin 3) (Fin 3) ℝ) (p : Fin 3 → ℝ) : Fin 3 → ℝ :=
  if m.det ≠ 0 then m⁻¹.mulVec p else lstsq m p

/-- The rows of the fit for slave `s`, compute_zonal_ifunc.py 296-319. -/
def fitRows (n : Nat) (xy : Nat → ℝ × ℝ) (masters : List Nat) (step edge radiusSteps : ℝ) (s : Nat) : List (Fin 3 → ℝ) :=
  let a := (nearMasters xy masters (radiusSteps * step) s).map fun i => planeRow (xy (masters.getD i 0))
  if edge > 0 then a ++ [edge • planeRow (virtualAct n xy step s)] else a

/-- `_compute_weights_linear`, compute_zonal_ifunc.py 264-329. -/
def weightsLinear (lstsq : Matrix (Fin 3) (Fin 3) ℝ → (Fin 3 → ℝ) → Fin 3 → ℝ) (n : Nat) (xy : Nat → ℝ × ℝ) (masters slaves : List Nat)
    (step edge radiusSteps : ℝ) (i j : Nat) : ℝ :=
  let s := slaves.getD j 0
  let v := solveOr lstsq (normalMat (fitRows n xy masters step edge radiusSteps s)) (planeRow (xy s))
  if i ∈ nearMasters xy masters (radiusSteps * step) s then planeRow (xy (masters.getD i 0)) ⬝ᵥ v else 0

/-- The result of `apply_slaving`. -/
structure Slaved (P : Type) where
  ifs : List (P → ℝ)
  coords : List (ℝ × ℝ)
  nAct : Nat
  slaveMat : Nat → Nat → ℝ

/-- The test of a master, compute_zonal_ifunc.py 342-346: `xp.max` of nothing raises. -/
def isMaster {P : Type} (all valid : List P) (thr : ℝ) (ifs : Nat → P → ℝ) (a : Nat) : Option Bool := do
  let peak ← (valid.map (ifs a)).max?
  let top ← (all.map (ifs a)).max?
  return decide (peak ≥ thr * top)

/-- `apply_slaving`, compute_zonal_ifunc.py 332-377; `weights` is one of the two functions above, `all` are all the pixels and `valid` those of
the mask. -/
def applySlaving {P : Type} (all valid : List P) (thr : ℝ) (n : Nat) (xy : Nat → ℝ × ℝ)
    (weights : List Nat → List Nat → Nat → Nat → ℝ) (ifs : Nat → P → ℝ) : Option (Slaved P) := do
  let flags ← (List.range n).mapM (isMaster all valid thr ifs)
  let masters := (List.range n).filter fun a => flags.getD a false
  let slaves := (List.range n).filter fun a => !flags.getD a false
  if slaves.length = 0 then
    return ⟨masters.map ifs, masters.map xy, masters.length, fun _ _ => 0⟩
  let w := weights masters slaves
  let out := (List.range masters.length).map fun i p =>
    ifs (masters.getD i 0) p + ∑ j ∈ Finset.range slaves.length, w i j * ifs (slaves.getD j 0) p
  return ⟨out, masters.map xy, masters.length,
    fun a b => if a ∈ masters ∧ b ∈ slaves then w (masters.idxOf a) (slaves.idxOf b) else 0⟩

end

end Specula
