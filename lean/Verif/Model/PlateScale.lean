import Verif.Model.ModalBase
import Verif.Model.Operation
import Mathlib.Data.Real.Basic
/-
Model of `specula/lib/platescale_coeff.py` (`platescale_coeff`), used by `LinearCombination` (Model/Operation).

Exact arithmetic over the reals.  `pinv` is an argument: the theorems assume two of the equations of Penrose.  Arrays of pixels of
the pupil are functions on the positions of the window cut from the first mirror's mask.  Exceptions are `none`.  Not modelled: masks
that are not boolean, mirrors with fewer modes than needed (they raise), windows that are clipped by the border of the array (they
raise for want of pixels: `none`).
-/
namespace Specula
open Finset

/-- A mirror: mask, influence functions on the pixels of the mask and, when there is one, the matrix from modes to commands. -/
structure PsDm where
  m : MaskPx
  acts : ℕ
  ifunc : ℕ → ℕ → ℝ
  m2c : Option (ℕ → ℕ → ℝ)

/-- Shape of mode `k` on the pixels of the mask, platescale_coeff.py 32-35 and 61-65. -/
def PsDm.mode (d : PsDm) (k px : ℕ) : ℝ := d.m2c.elim (d.ifunc k px) fun M => ∑ a ∈ range d.acts, M a k * d.ifunc a px

/-- The window of `2 * (p // 2)` pixels at the centre of the array, platescale_coeff.py 41-44, 81 and 92: image at position
`(i, j)` of the window. -/
def psCut (m : MaskPx) (p : ℕ) (img : ℕ → ℕ → ℝ) (i j : ℕ) : ℝ := img (m.h / 2 - p / 2 + i) (m.w / 2 - p / 2 + j)

/-- The window lies within the array. -/
def psFits (m : MaskPx) (p : ℕ) : Prop := p / 2 ≤ m.h / 2 ∧ m.h / 2 + p / 2 ≤ m.h ∧ p / 2 ≤ m.w / 2 ∧ m.w / 2 + p / 2 ≤ m.w

instance (m : MaskPx) (p : ℕ) : Decidable (psFits m p) := by unfold psFits; infer_instance

/-- Positions of the pupil in the window: `np.where(pup_mask)`, platescale_coeff.py 44-45. -/
def psPupil (m : MaskPx) (p : ℕ) : Finset (ℕ × ℕ) :=
  ((range (2 * (p / 2))) ×ˢ (range (2 * (p / 2)))).filter fun x => m.on (m.h / 2 - p / 2 + x.1) (m.w / 2 - p / 2 + x.2) = true

/-- One column of `cubea2D` or `cubeb2D`: the mode on the pixels of the pupil, less its mean, platescale_coeff.py 77-101. -/
noncomputable def psColumn (pup : Finset (ℕ × ℕ)) (p : ℕ) (d : PsDm) (k : ℕ) (x : ℕ × ℕ) : ℝ :=
  psCut d.m p (d.m.support (d.mode k)) x.1 x.2 - (∑ y ∈ pup, psCut d.m p (d.m.support (d.mode k)) y.1 y.2) / pup.card

/-- Index of the first mode used, `idx0`, platescale_coeff.py 55-59. -/
def psFirst (start : ℤ) : ℕ := if start = 0 then 2 else 0

/-- The coefficients of one mirror, platescale_coeff.py 53-119.  `none`: ValueError, a window with another shape than
`(pixel_pupil, pixel_pupil)`. -/
noncomputable def psOne (pinv : Finset (ℕ × ℕ) → (ℕ × ℕ → Fin 3 → ℝ) → Fin 3 → ℕ × ℕ → ℝ) (p : ℕ) (ground : PsDm) (d : PsDm) (start : ℤ) :
    Option (Fin 3 → ℝ) :=
  if start ≤ 2 then
    if p % 2 = 0 ∧ psFits ground.m p ∧ psFits d.m p then
      let pup := psPupil ground.m p
      let P := pinv pup fun x k => psColumn pup p ground (2 + k) x
      some fun k => ∑ x ∈ pup, P k x * psColumn pup p d (psFirst start + k) x
    else none
  else some fun _ => 0

/-- `platescale_coeff(dm_list, start_modes, pixel_pupil)`, platescale_coeff.py 5-125: one row for each mirror after the first. -/
noncomputable def plateScale (pinv : Finset (ℕ × ℕ) → (ℕ × ℕ → Fin 3 → ℝ) → Fin 3 → ℕ × ℕ → ℝ) (p : ℕ) (ground : PsDm) (dms : List (PsDm × ℤ)) :
    Option (List (Fin 3 → ℝ)) :=
  dms.mapM fun x => psOne pinv p ground x.1 x.2

end Specula
