import Verif.Model.Psf
import Mathlib.Data.Matrix.Diagonal
import Mathlib.Data.Matrix.Mul
import Mathlib.Analysis.SpecialFunctions.Gamma.Basic
import Mathlib.Analysis.SpecialFunctions.Pow.Real
/-
Model of `specula/lib/modal_base_generator.py` (`generate_phase_spectrum`, `generate_distance_grid`, `compute_ifs_covmat`,
`make_modal_base_from_ifs_fft`).

Exact arithmetic over the reals; the FFT is the discrete Fourier transform it computes.  `svd` is an argument: the theorems assume what
`scipy.linalg.svd` promises of its results (`IsSvd` in the file of properties).  The Zernike modes after orthonormalisation
and normalisation (lines 249-264) and their projection coefficients `coef_zern = modes · pinv(influence_functions)` (line 267) are an
argument too: the theorems hold whatever they are.  Pixels of the pupil are numbered in the order of `idx_mask`.  Exceptions are
`none`.  Not modelled: printing, the precision of the arrays, masks that are not boolean.
-/
namespace Specula
open Finset Matrix

/-- `generate_phase_spectrum(f, r0, L0)`, modal_base_generator.py 33-34. -/
noncomputable def phaseSpectrum (f r0 L0 : ℝ) : ℝ :=
  (Real.Gamma (11 / 6) ^ 2 / (2 * Real.pi ^ (11 / 3 : ℝ))) * (24 * Real.Gamma (6 / 5) / 5) ^ (5 / 6 : ℝ) *
    r0 ^ (-(5 / 3) : ℝ) * (f ^ 2 + (1 / L0) ^ 2) ^ (-(11 / 6) : ℝ)

/-- `fftfreq(N)[i]`: `i / N` in the first half, `(i - N) / N` in the second. -/
noncomputable def fftFreq (N i : ℕ) : ℝ := if i ≤ (N - 1) / 2 then (i : ℝ) / N else ((i : ℝ) - N) / N

/-- `generate_distance_grid(N)[i, j]`, modal_base_generator.py 60-67. -/
noncomputable def distGrid (N i j : ℕ) : ℝ :=
  Real.sqrt (|fftFreq N j * N| * |fftFreq N j * N| + |fftFreq N i * N| * |fftFreq N i * N|)

/-- A pupil mask of `h` by `w` pixels. -/
structure MaskPx where
  h : ℕ
  w : ℕ
  on : ℕ → ℕ → Bool

/-- Number of pixels of the mask before position `q` of `pupil_mask.ravel()`. -/
def MaskPx.before (m : MaskPx) (q : ℕ) : ℕ := ((range q).filter fun t => m.on (t / m.w) (t % m.w) = true).card

/-- `npupil_mask`, modal_base_generator.py 118. -/
def MaskPx.count (m : MaskPx) : ℕ := m.before (m.h * m.w)

/-- The influence function written on the mask in the corner of an array of zeros: `if_2d_flat[idx_mask] = if_flat` and
`support[:mask_shape[0], :mask_shape[1]] = if_2d`, modal_base_generator.py 132-141. -/
def MaskPx.support (m : MaskPx) (f : ℕ → ℝ) (i j : ℕ) : ℝ :=
  if i < m.h ∧ j < m.w ∧ m.on i j = true then f (m.before (i * m.w + j)) else 0

/-- Side of the array transformed, modal_base_generator.py 122 and 128. -/
def MaskPx.side (m : MaskPx) (ov : ℕ) : ℕ := ov * max m.h m.w

/-- `ft_influence_functions[:, :, act_idx]`, modal_base_generator.py 143-144. -/
noncomputable def ifsFt (m : MaskPx) (ov : ℕ) (f : ℕ → ℝ) (k l : ℕ) : ℂ := fft2 (m.side ov) (fun i j => ((m.support f i j : ℝ) : ℂ)) k l

/-- `phase_spectrum[k, l]`, modal_base_generator.py 150-153. -/
noncomputable def specAt (m : MaskPx) (ov : ℕ) (diam r0 L0 : ℝ) (k l : ℕ) : ℝ := phaseSpectrum (distGrid (m.side ov) k l / (ov * diam)) r0 L0

/-- Entry of `ifft_covariance` for two influence functions, modal_base_generator.py 154-174. -/
noncomputable def covEntry (m : MaskPx) (ov : ℕ) (diam r0 L0 : ℝ) (f g : ℕ → ℝ) : ℝ :=
  (∑ k ∈ range (m.side ov), ∑ l ∈ range (m.side ov),
    ifsFt m ov f k l * (specAt m ov diam r0 L0 k l : ℂ) * (starRingEnd ℂ) (ifsFt m ov g k l)).re / ((m.count : ℝ) ^ 2 * (ov * diam) ^ 2)

/-- `compute_ifs_covmat`, modal_base_generator.py 71-176.  `none`: ValueError, oversampling below 2. -/
noncomputable def ifsCovmat {n : ℕ} (m : MaskPx) (ov : ℕ) (diam r0 L0 : ℝ) (F : Fin n → ℕ → ℝ) : Option (Matrix (Fin n) (Fin n) ℝ) :=
  if ov < 2 then none else some (Matrix.of fun a b => covEntry m ov diam r0 L0 (F a) (F b))

/-- One pass of the loop on the modes to be removed, modal_base_generator.py 273-281: coefficients and filtered functions. -/
noncomputable def removeMode {n : ℕ} (p : ℕ) (mode : ℕ → ℝ) (F : Fin n → ℕ → ℝ) : (Fin n → ℝ) × (Fin n → ℕ → ℝ) :=
  if 0 < ∑ k ∈ range p, mode k * mode k then
    (fun a => (∑ k ∈ range p, F a k * mode k) / ∑ k ∈ range p, mode k * mode k,
      fun a k => F a k - mode k * ((∑ t ∈ range p, F a t * mode t) / ∑ t ∈ range p, mode t * mode t))
  else (fun _ => 0, F)

/-- The loop on the modes, modal_base_generator.py 270-281: `coef` and `filtered_ifs`. -/
noncomputable def removeModes {n : ℕ} (p : ℕ) : List (ℕ → ℝ) → (Fin n → ℕ → ℝ) → List (Fin n → ℝ) × (Fin n → ℕ → ℝ)
  | [], F => ([], F)
  | mode :: rest, F =>
    let s := removeMode p mode F
    let r := removeModes p rest s.2
    (s.1 :: r.1, r.2)

/-- `if_covariance`, modal_base_generator.py 286. -/
noncomputable def geoCov {n : ℕ} (p : ℕ) (F : Fin n → ℕ → ℝ) : Matrix (Fin n) (Fin n) ℝ := Matrix.of fun a b => (∑ k ∈ range p, F a k * F b k) / p

/-- `S1[i]` of a vector of `n` numbers, with Python's negative indices.  `none`: IndexError. -/
def vecAt {n : ℕ} (S : Fin n → ℝ) (z : ℤ) : Option ℝ :=
  if h : 0 ≤ z ∧ z < n then some (S ⟨z.toNat, by omega⟩)
  else if h : z < 0 ∧ 0 ≤ z + n then some (S ⟨(z + n).toNat, by omega⟩) else none

/-- Whether `x / y > m` for `x, y ≥ 0`, with NumPy's infinity for a positive number over zero and NaN for zero over zero. -/
noncomputable def ratioAbove (x y m : ℝ) : Bool := if y = 0 then decide (0 < x) else decide (m < x / y)

/-- `len(xp.where(S1[:n - r] < S1[0] / max)[0])` for `r ≤ n`, modal_base_generator.py 308-311. -/
noncomputable def countBelow {n : ℕ} (S : Fin n → ℝ) (r : ℕ) (t : ℝ) : ℕ := (univ.filter fun i : Fin n => (i : ℕ) < n - r ∧ S i < t).card

/-- Number of modes to be removed after the check of the condition number, modal_base_generator.py 299-319.  `none`: IndexError. -/
noncomputable def condRemoved {n : ℕ} (S : Fin n → ℝ) (r : ℕ) (maxCond : Option ℝ) : Option ℕ :=
  (vecAt S 0).bind fun s0 => (vecAt S ((n : ℤ) - r - 1)).bind fun sl =>
    maxCond.elim (some r) fun m =>
      if ratioAbove s0 sl m = true then
        let c := countBelow S r (s0 / m)
        if 0 < c then (vecAt S ((n : ℤ) - (r + c : ℕ) - 1)).bind fun _ => some (r + c) else some r
      else some r

/-- `M`, modal_base_generator.py 321-324: the first `n - r` left vectors over the root of their singular value, the others zero. -/
noncomputable def scaledVecs {n : ℕ} (U : Matrix (Fin n) (Fin n) ℝ) (S : Fin n → ℝ) (r : ℕ) : Matrix (Fin n) (Fin n) ℝ :=
  Matrix.of fun a i => if (i : ℕ) < n - r then U a i / Real.sqrt (S i) else 0

/-- Results of `make_modal_base_from_ifs_fft`: the Zernike part and the Karhunen-Loève part of `kl_basis` and of `m2c`. -/
structure ModalBase (n : ℕ) where
  kept : ℕ
  zern : List (ℕ → ℝ)
  kl : Fin n → ℕ → ℝ
  zernCmd : List (Fin n → ℝ)
  klCmd : Matrix (Fin n) (Fin n) ℝ
  S1 : Fin n → ℝ
  S2 : Fin n → ℝ

/-- `outer(x, y)` summed over a list of pairs: `matmul(coef_zern.T, coef)`. -/
def sumOuter {n : ℕ} : List ((Fin n → ℝ) × (Fin n → ℝ)) → Matrix (Fin n) (Fin n) ℝ
  | [] => 0
  | x :: l => Matrix.vecMulVec x.1 x.2 + sumOuter l

/-- `xp.matmul(coef_zern, influence_functions)`, one row, modal_base_generator.py 268. -/
def shapeOf {n : ℕ} (F : Fin n → ℕ → ℝ) (c : Fin n → ℝ) (k : ℕ) : ℝ := ∑ a, c a * F a k

/-- The settings shared by the calls. -/
structure KlParams where
  m : MaskPx
  ov : ℕ
  diam : ℝ
  r0 : ℝ
  L0 : ℝ
  maxCond : Option ℝ

/-- `make_modal_base_from_ifs_fft(pupil_mask, diameter, influence_functions, r0, L0, zern_modes, oversampling, filt_modes,
if_max_condition_number)`, modal_base_generator.py 178-373.  `zern_modes` is the length of `cz` less one, or zero when `cz = []`;
`cz` holds the rows of `coef_zern` for piston and the Zernike modes (line 267); `nfilt` is the number of rows of `filt_modes`, and the
rows of `modes_to_be_removed` left for them are zeros (line 246: nothing is written in them), which is modelled for `zern_modes = 0`.  `svd`
returns the left vectors and the singular values.  Only the first `kept` of the modes and the columns of `klCmd` belong to the
result. -/
noncomputable def modalBase {n : ℕ} (q : KlParams) (svd : Matrix (Fin n) (Fin n) ℝ → Matrix (Fin n) (Fin n) ℝ × (Fin n → ℝ))
    (F : Fin n → ℕ → ℝ) (cz : List (Fin n → ℝ)) (nfilt : ℕ) : Option (ModalBase n) :=
  let p := q.m.count
  let modes := if cz = [] then (fun _ => 1) :: List.replicate nfilt (fun _ => 0) else cz.map (shapeOf F)
  let cf := removeModes p modes F
  let s1 := svd (geoCov p cf.2)
  (condRemoved s1.2 modes.length q.maxCond).bind fun r =>
    let M := scaledVecs s1.1 s1.2 r
    (ifsCovmat q.m q.ov q.diam q.r0 q.L0 cf.2).bind fun C =>
      let s2 := svd (M.transpose * C * M)
      let Bp := M * s2.1
      let K := if cz = [] then 1 - Matrix.vecMulVec (cf.1.headD 0) (cf.1.headD 0) else 1 - sumOuter (cz.tail.zip cf.1.tail)
      some {
        kept := n - r
        zern := if cz = [] then [] else modes.tail
        kl := fun j => shapeOf cf.2 fun a => Bp a j
        zernCmd := cz.tail
        klCmd := K * Bp
        S1 := s1.2
        S2 := s2.2 }

end Specula
