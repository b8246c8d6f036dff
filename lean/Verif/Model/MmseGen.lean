import Verif.Model.Mmse
import Verif.Model.ModalBase
/-
Model of `Intmat.generate_rec_mmse` (`specula/data_objects/intmat.py` 185-245) and of the branch `mmse` of `RecCalibrator`
(`specula/processing_objects/rec_calibrator.py` 44-53, 84-95), on top of `compute_mmse_reconstructor` (`Mmse`) and `compute_ifs_covmat`
(`ModalBase`).

Numbers are real.  `nmodes` is not negative; `m2c` has one row for each influence function (the product raises otherwise).  Covariances of noise
given as arrays with two dimensions are square; lists inside a list are not modelled, arrays inside a list have at most one
dimension.  `none` is an exception or, as in `Mmse`, a division of one by zero.
-/
namespace Specula

noncomputable section

/-- An element of a list `c_noise`: a number, an array without dimensions, an array with one dimension. -/
inductive NoiseElem
  | num (x : ℝ)
  | zeroDim (x : ℝ)
  | arr (l : List ℝ)

/-- `c_noise`: a number or array without dimensions, a list, an array with one dimension, a square array. -/
inductive NoiseArg
  | num (x : ℝ)
  | list (l : List NoiseElem)
  | vec (l : List ℝ)
  | mat (k : ℕ) (C : Matrix (Fin k) (Fin k) ℝ)

/-- `float(elem)`. -/
def NoiseElem.toFloat : NoiseElem → Option ℝ
  | .num x => some x
  | .zeroDim x => some x
  | .arr [x] => some x
  | .arr _ => none

/-- `diag_elements`, intmat.py 216-223: an array without dimensions has `__len__` but cannot be iterated. -/
def diagElements : List NoiseElem → Option (List ℝ)
  | [] => some []
  | .num x :: l => (diagElements l).map fun r => x :: r
  | .zeroDim _ :: _ => none
  | .arr a :: l => (diagElements l).map fun r => a ++ r

/-- What is handed on to `compute_mmse_reconstructor`: `noise_variance` or `c_noise_mat`, which may have one dimension. -/
inductive NoiseSel (m : ℕ)
  | variance (v : ℝ)
  | full (C : Matrix (Fin m) (Fin m) ℝ)
  | vector

/-- A diagonal matrix for `m` slopes; mmse_reconstructor.py 52-54 raises if the size is another one. -/
def diagNoise (m : ℕ) (d : List ℝ) : Option (NoiseSel m) :=
  if d.length = m then some (.full (Matrix.diagonal fun i => d.getD i 0)) else none

/-- intmat.py 202-238, for `m` slopes. -/
def noiseSel (m : ℕ) : NoiseArg → Option (NoiseSel m)
  | .num x => some (.variance x)
  | .list [e] => e.toFloat.map .variance
  | .list l => if l.length ≠ m then none else (diagElements l).bind (diagNoise m)
  | .vec [x] => some (.variance x)
  | .vec l => if l.length ≠ m then none else some .vector
  | .mat k C => if h : k = 1 then some (.variance (C ⟨0, by omega⟩ ⟨0, by omega⟩))
      else if h : k = m then some (.full (h ▸ C)) else none

/-- Number of columns of `self.modes[:nmodes]`, intmat.py 186-189. -/
def cutN (nmodes : Option ℕ) (n : ℕ) : ℕ := match nmodes with
  | some k => min k n
  | none => n

theorem cutN_le (nmodes : Option ℕ) (n : ℕ) : cutN nmodes n ≤ n := by
  unfold cutN; cases nmodes <;> simp

/-- `intmat`, intmat.py 186-189. -/
def cutCols {m n : ℕ} (nmodes : Option ℕ) (A : Matrix (Fin m) (Fin n) ℝ) : Matrix (Fin m) (Fin (cutN nmodes n)) ℝ :=
  fun i j => A i ⟨j, lt_of_lt_of_le j.2 (cutN_le nmodes n)⟩

/-- The modal base: mask, number of influence functions, values, and the matrix from modes to commands with its number of modes. -/
structure MmseBase where
  mask : MaskPx
  a : ℕ
  F : Fin a → ℕ → ℝ
  m2c : Option (Σ k : ℕ, Matrix (Fin a) (Fin k) ℝ)

/-- Number of rows of `influence_function`, intmat.py 191-194. -/
def MmseBase.count (b : MmseBase) : ℕ := match b.m2c with
  | some ⟨k, _⟩ => k
  | none => b.a

/-- `influence_function`, intmat.py 191-194. -/
def MmseBase.modes (b : MmseBase) : Fin b.count → ℕ → ℝ :=
  match b with
  | ⟨_, _, F, some ⟨_, M⟩⟩ => fun j => shapeOf F fun i => M i j
  | ⟨_, _, F, none⟩ => F

/-- `c_atm` after line 200; mmse_reconstructor.py 48-50 raises if there are fewer modes than columns. -/
def cutCov {b : ℕ} (n : ℕ) (C : Matrix (Fin b) (Fin b) ℝ) : Option (Matrix (Fin n) (Fin n) ℝ) :=
  if h : n ≤ b then some fun i j => C ⟨i, lt_of_lt_of_le i.2 h⟩ ⟨j, lt_of_lt_of_le j.2 h⟩ else none

/-- The result: a matrix, or a vector (no reconstructor at all). -/
inductive RecOut (n m : ℕ)
  | mat (W : Matrix (Fin n) (Fin m) ℝ)
  | vector

/-- The call of `compute_mmse_reconstructor`, intmat.py 240-243.  With a covariance of one dimension its weight has one dimension too: the
products need as many modes as slopes and give a vector. -/
def runMmse {m n : ℕ} (pinv : ∀ k, Matrix (Fin k) (Fin k) ℝ → Matrix (Fin k) (Fin k) ℝ) (A : Matrix (Fin m) (Fin n) ℝ)
    (cAtm : Matrix (Fin n) (Fin n) ℝ) : NoiseSel m → Option (RecOut n m)
  | .variance v => (mmse pinv A cAtm (some [v]) none false).map .mat
  | .full C => (mmse pinv A cAtm none (some C) false).map .mat
  | .vector => if n = m then some .vector else none

/-- `Intmat.generate_rec_mmse`, intmat.py 185-245. -/
def generateMmse {m n : ℕ} (pinv : ∀ k, Matrix (Fin k) (Fin k) ℝ → Matrix (Fin k) (Fin k) ℝ) (A : Matrix (Fin m) (Fin n) ℝ)
    (r0 L0 diam : ℝ) (base : MmseBase) (noise : NoiseArg) (nmodes : Option ℕ) : Option (RecOut (cutN nmodes n) m) :=
  (ifsCovmat base.mask 2 diam r0 L0 base.modes).bind fun C => (cutCov (cutN nmodes n) C).bind fun cAtm =>
    (noiseSel m noise).bind fun s => runMmse pinv (cutCols nmodes A) cAtm s

/-- `self.to_xp` of an element of the list, rec_calibrator.py 51: numbers become arrays without dimensions. -/
def NoiseElem.toXp : NoiseElem → NoiseElem
  | .num x => .zeroDim x
  | e => e

/-- `self.noise_cov`, rec_calibrator.py 46-53.  `none`: ValueError. -/
def calNoise : Option NoiseArg → Option NoiseArg
  | none => none
  | some (.list l) => some (.list (l.map NoiseElem.toXp))
  | some x => some x

/-- `RecCalibrator` with `mmse=True`, rec_calibrator.py 46-53 and 84-95: the mirror is given by pixel pitch, pixels of the pupil and base. -/
def calMmse {m n : ℕ} (pinv : ∀ k, Matrix (Fin k) (Fin k) ℝ → Matrix (Fin k) (Fin k) ℝ) (A : Matrix (Fin m) (Fin n) ℝ)
    (r0 L0 pitch : ℝ) (pixels : ℕ) (base : MmseBase) (noise : Option NoiseArg) (nmodes : ℕ) : Option (RecOut (cutN (some nmodes) n) m) :=
  (calNoise noise).bind fun c => generateMmse pinv A r0 L0 (pitch * pixels) base c (some nmodes)

end

end Specula
