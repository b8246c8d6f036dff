import Mathlib.LinearAlgebra.Matrix.NonsingularInverse
import Mathlib.Algebra.Order.Field.Basic
import Mathlib.Algebra.Order.Group.Unbundled.Abs
/-
Model of `compute_mmse_reconstructor`, specula/lib/mmse_reconstructor.py 2-137.

Numbers are the elements of an ordered field; `pinv` is the pseudo-inverse, used only for singular matrices.  The shapes of `c_atm` and
`c_noise` are right by their types (the code raises ValueError otherwise, 48-54).  The result is `none` for an exception and for a
division of one by a zero on a diagonal (the code then returns infinities).
-/
namespace Specula

section
variable {K : Type} [Field K] [LinearOrder K]

/-- The covariance built from one variance for each sensor, mmse_reconstructor.py 31-45: assignment of diagonal blocks. -/
def noiseFromVariance (m : Nat) (v : List K) : Matrix (Fin m) (Fin m) K :=
  let per := m / v.length
  (List.range v.length).foldl (fun C i => fun a b =>
    if (i * per ≤ a ∧ (a : Nat) < (i + 1) * per) ∧ (i * per ≤ b ∧ (b : Nat) < (i + 1) * per)
    then v.getD i 0 * (if (a : Nat) - i * per = (b : Nat) - i * per then 1 else 0) else C a b) 0

/-- `c_noise` after line 45. -/
def mmseNoise (m : Nat) (noiseVar : Option (List K)) (cNoise : Option (Matrix (Fin m) (Fin m) K)) : Option (Option (Matrix (Fin m) (Fin m) K)) :=
  match cNoise, noiseVar with
  | some c, _ => some (some c)
  | none, some v => if v.length = 0 then none else some (some (noiseFromVariance m v))
  | none, none => some none

/-- `linalg.inv` and its replacement for singular matrices, 69-74, 90-95, 115-120. -/
noncomputable def invOr {k : Nat} (pinv : Matrix (Fin k) (Fin k) K → Matrix (Fin k) (Fin k) K) (C : Matrix (Fin k) (Fin k) K) : Matrix (Fin k) (Fin k) K :=
  if C.det ≠ 0 then C⁻¹ else pinv C

/-- The inverse of a covariance, 60-74 and 81-95: a matrix whose other elements are all below 1e-10 counts as diagonal. -/
noncomputable def invCov {k : Nat} (pinv : Matrix (Fin k) (Fin k) K → Matrix (Fin k) (Fin k) K) (C : Matrix (Fin k) (Fin k) K) :
    Option (Matrix (Fin k) (Fin k) K) :=
  if ∀ i j, |(Matrix.diagonal fun i => C i i) i j - C i j| < 1 / 10000000000 then
    if ∀ i, C i i ≠ 0 then some (Matrix.diagonal fun i => 1 / C i i) else none
  else some (invOr pinv C)

/-- `c_noise_inv`: a matrix of the size of the slopes, or the identity of the size of the modes, 79, 99. -/
inductive MmseWeight (K : Type) (m : Nat)
  | full (w : Matrix (Fin m) (Fin m) K)
  | ident

/-- `c_noise_inv`, 57-79, 96-99. -/
noncomputable def mmseWeight (m : Nat) (pinv : ∀ k, Matrix (Fin k) (Fin k) K → Matrix (Fin k) (Fin k) K) (cInverse : Bool)
    (noise : Option (Matrix (Fin m) (Fin m) K)) : Option (MmseWeight K m) :=
  match noise with
  | none => some .ident
  | some c => if cInverse then some (.full c) else (invCov (pinv m) c).map .full

/-- `c_atm_inv`, 81-98. -/
noncomputable def mmseAtm (n : Nat) (pinv : ∀ k, Matrix (Fin k) (Fin k) K → Matrix (Fin k) (Fin k) K) (cInverse : Bool)
    (cAtm : Matrix (Fin n) (Fin n) K) : Option (Matrix (Fin n) (Fin n) K) :=
  if cInverse then some cAtm else invCov (pinv n) cAtm

/-- The case `c_noise_inv.size == 1`, 106-107, 127-128. -/
def weightScalar (m n : Nat) (w : MmseWeight K m) : Option K :=
  match w with
  | .full w => if h : m = 1 then some (w ⟨0, by omega⟩ ⟨0, by omega⟩) else none
  | .ident => if n = 1 then some 1 else none

/-- The matrix that can be multiplied with the interaction matrix. -/
def weightMatrix (m n : Nat) (w : MmseWeight K m) : Option (Matrix (Fin m) (Fin m) K) :=
  match w with
  | .full w => some w
  | .ident => if n = m then some 1 else none

/-- `H`, its inverse and `W`, 101-131. -/
noncomputable def mmseSolve {m n : Nat} (pinv : ∀ k, Matrix (Fin k) (Fin k) K → Matrix (Fin k) (Fin k) K) (A : Matrix (Fin m) (Fin n) K)
    (w : MmseWeight K m) (atmInv : Matrix (Fin n) (Fin n) K) : Option (Matrix (Fin n) (Fin m) K) :=
  match weightScalar m n w with
  | some s => some (s • (invOr (pinv n) (s • (A.transpose * A) + atmInv) * A.transpose))
  | none => (weightMatrix m n w).map fun c => invOr (pinv n) (A.transpose * (c * A) + atmInv) * (A.transpose * c)

/-- `compute_mmse_reconstructor`. -/
noncomputable def mmse {m n : Nat} (pinv : ∀ k, Matrix (Fin k) (Fin k) K → Matrix (Fin k) (Fin k) K) (A : Matrix (Fin m) (Fin n) K)
    (cAtm : Matrix (Fin n) (Fin n) K) (noiseVar : Option (List K)) (cNoise : Option (Matrix (Fin m) (Fin m) K)) (cInverse : Bool) :
    Option (Matrix (Fin n) (Fin m) K) :=
  (mmseNoise m noiseVar cNoise).bind fun noise => (mmseWeight m pinv cInverse noise).bind fun w =>
    (mmseAtm n pinv cInverse cAtm).bind fun atmInv => mmseSolve pinv A w atmInv

end

end Specula
