import Verif.Model.Extrap
import Verif.Model.Ccd

/-!
# Ideal derivative sensor

`specula/processing_objects/ideal_derivative_sensor.py`. Exact arithmetic in an ordered field with floor; `rd` is the rounding of the coefficients of the
extrapolation (model `Extrap`). All subapertures have the same number of pixels, so that the filling with indices `-1` (184-201) is not used and not modelled.
Exceptions are `none`. Not modelled: plots, generation times, the cache of fields shared between interpolators.
-/

namespace Specula

variable {K : Type} [Field K] [LinearOrder K] [IsStrictOrderedRing K] [FloorRing K]

/-- What the constructor is given: number of subapertures on a side and positions on the grid of the `SubapData`, its `np_sub`, `pixel_pitch`, `fov`, and
`RAD2ASEC`. -/
structure DerConf (K : Type) where
  nx : ℕ
  map : List ℕ
  npSub : ℕ
  pitch : K
  fov : K
  r2a : K

omit [IsStrictOrderedRing K] [FloorRing K] in
/-- `slope_factor`, ideal_derivative_sensor.py 35-51; `none` for the exceptions. -/
def derFactor (c : DerConf K) : Option K :=
  if c.fov ≤ 0 then none
  else if c.npSub = 0 ∨ c.pitch = 0 then none
  else some (1 / 1000000000 * c.r2a / (c.pitch * c.fov / 2) * (((c.npSub : K) - 1) / c.npSub))

/-- The interpolator made in `setup`, 87-99, with the default threshold of extrapolation_2d.py 223. -/
def derInterp (rows cols : ℕ) : EFIParams K := ⟨rows, cols, rows, cols, none, 0, 0, 1, 1 / 1000, true⟩

/-- `arange(lo, hi)`. -/
def derRange (lo hi : Int) : List ℕ := (List.range (hi - lo).toNat).map fun k => lo.toNat + k

/-- Indices of the pixels of the subaperture at position `m`, `_compute_subap_indices` 102-137; `ravel_multi_index` refuses pixels outside the field. -/
def derIdx (K : Type) [Field K] [LinearOrder K] [FloorRing K] (rows cols nx m : ℕ) : Option (List ℕ) :=
  if nx = 0 then none
  else
    let np := rows / nx
    let xc : K := (np : K) / 2 + np * ((m % nx : ℕ) : K)
    let yc : K := (np : K) / 2 + np * ((m / nx : ℕ) : K)
    let xs := derRange (roundEvenF (xc - (np : K) / 2)) (roundEvenF (xc + (np : K) / 2))
    let ys := derRange (roundEvenF (yc - (np : K) / 2)) (roundEvenF (yc + (np : K) / 2))
    if (ys.all fun y => xs.all fun x => decide (y < rows ∧ x < cols)) = true then some (ys.flatMap fun y => xs.map fun x => y * cols + x) else none

omit [LinearOrder K] [IsStrictOrderedRing K] [FloorRing K] in
/-- `gradient` along an axis with `n` pixels: central differences, at the two ends differences of neighbours. -/
def npGrad (n : ℕ) (f : ℕ → K) (i : ℕ) : K :=
  if i = 0 then f 1 - f 0
  else if i + 1 = n then f i - f (i - 1)
  else (f (i + 1) - f (i - 1)) / 2

omit [IsStrictOrderedRing K] [FloorRing K] in
/-- `dx_phase`, 158 and 162-163. -/
def derX (cols : ℕ) (A E : ℕ → ℕ → K) (y x : ℕ) : K := npGrad cols (fun x' => E y x') x * (if A y x > 1 / 2 then 1 else 0)

omit [IsStrictOrderedRing K] [FloorRing K] in
/-- `dy_phase`, 159 and 162-164. -/
def derY (rows : ℕ) (A E : ℕ → ℕ → K) (y x : ℕ) : K := npGrad rows (fun y' => E y' x) y * (if A y x > 1 / 2 then 1 else 0)

omit [IsStrictOrderedRing K] [FloorRing K] in
/-- `valid_masks` for one pixel, 204. -/
def derValid (v : K × K) : Bool := decide (|v.1| + |v.2| > 0)

omit [IsStrictOrderedRing K] [FloorRing K] in
/-- The slopes of a subaperture with these derivatives, 206-234. -/
def derMean (f : K) (vals : List (K × K)) : K × K :=
  let k := vals.countP derValid
  if k = 0 then (0, 0)
  else
    ((vals.map fun v => v.1 * (if derValid v then 1 else 0)).sum / ((if k > 0 then k else 1 : ℕ) : K) * f,
      (vals.map fun v => v.2 * (if derValid v then 1 else 0)).sum / ((if k > 0 then k else 1 : ℕ) : K) * f)

/-- `trigger_code` and `post_trigger`, 139-256, for the extrapolated phase `E`: x slopes, then y slopes. -/
def derSlopes (c : DerConf K) (rows cols : ℕ) (A E : ℕ → ℕ → K) : Option (List K) :=
  if rows < 2 ∨ cols < 2 ∨ c.map = [] then none
  else (derFactor c).bind fun f => (c.map.mapM (derIdx K rows cols c.nx)).map fun idx =>
    let s := idx.map fun l => derMean f (l.map fun p => (derX cols A E (p / cols) (p % cols), derY rows A E (p / cols) (p % cols)))
    s.map Prod.fst ++ s.map Prod.snd

/-- A call with state `s` of the interpolator, 144-147. -/
def derTrigger (rd : K → K) (c : DerConf K) (rows cols : ℕ) (s : EFIState) (A ph : ℕ → ℕ → K) : Option (List K) :=
  derSlopes c rows cols A (efiPhase rd (derInterp rows cols) s A ph)

/-- A sequence of triggers with the fields `(A, phase)`. -/
def derRun (rd : K → K) (c : DerConf K) (rows cols : ℕ) : Option EFIState → List ((ℕ → ℕ → K) × (ℕ → ℕ → K)) → List (Option (List K))
  | _, [] => []
  | st, f :: fs =>
    derTrigger rd c rows cols (efiPrepare (derInterp rows cols) st f.1) f.1 f.2 ::
      derRun rd c rows cols (some (efiPrepare (derInterp rows cols) st f.1)) fs

end Specula
