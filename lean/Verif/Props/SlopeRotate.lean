import Verif.Model.SlopeRotate
import Mathlib.Tactic.Ring
import Mathlib.Tactic.Linarith
import Mathlib.Tactic.LinearCombination
/-
C52: rotation of the slopes.
-/
namespace Specula

/-- **C52**: rotating multiplies each pair of slopes by the rotation matrix of the angle, counterclockwise, and then changes the signs
of the flipped axes. -/
theorem C52_rotate (angle : ℝ) (fx fy : Bool) (x y : ℝ) :
    rotateSlope angle fx fy (x, y) =
      ((if fx then -1 else 1) * (Real.cos (angle * Real.pi / 180) * x - Real.sin (angle * Real.pi / 180) * y),
       (if fy then -1 else 1) * (Real.sin (angle * Real.pi / 180) * x + Real.cos (angle * Real.pi / 180) * y)) := by
  have hm : Real.sqrt (x ^ 2 + y ^ 2) = ‖(⟨x, y⟩ : ℂ)‖ := by
    rw [Complex.norm_eq_sqrt_sq_add_sq]
  have hc : Real.cos (Complex.arg ⟨x, y⟩) * ‖(⟨x, y⟩ : ℂ)‖ = x := by
    rw [mul_comm]; exact Complex.norm_mul_cos_arg ⟨x, y⟩
  have hs : Real.sin (Complex.arg ⟨x, y⟩) * ‖(⟨x, y⟩ : ℂ)‖ = y := by
    rw [mul_comm]; exact Complex.norm_mul_sin_arg ⟨x, y⟩
  unfold rotateSlope
  simp only [hm, Real.cos_add, Real.sin_add]
  refine Prod.ext ?_ ?_
  · linear_combination (if fx then (-1 : ℝ) else 1) * (Real.cos (angle * Real.pi / 180) * hc - Real.sin (angle * Real.pi / 180) * hs)
  · linear_combination (if fy then (-1 : ℝ) else 1) * (Real.sin (angle * Real.pi / 180) * hc + Real.cos (angle * Real.pi / 180) * hs)

/-- **C52** (composition): rotations without flips add their angles; a rotation by minus the angle undoes it; a whole turn changes
nothing. -/
theorem C52_compose (a b : ℝ) (s : ℝ × ℝ) :
    rotateSlope b false false (rotateSlope a false false s) = rotateSlope (a + b) false false s ∧
    rotateSlope (-a) false false (rotateSlope a false false s) = s ∧ rotateSlope 360 false false s = s := by
  obtain ⟨x, y⟩ := s
  simp only [C52_rotate, Bool.false_eq_true, if_false, one_mul]
  refine ⟨?_, ?_, ?_⟩
  · have e : (a + b) * Real.pi / 180 = a * Real.pi / 180 + b * Real.pi / 180 := by ring
    rw [e, Real.cos_add, Real.sin_add]
    refine Prod.ext ?_ ?_ <;> simp only <;> ring
  · have e : -a * Real.pi / 180 = -(a * Real.pi / 180) := by ring
    rw [e, Real.cos_neg, Real.sin_neg]
    have h := Real.sin_sq_add_cos_sq (a * Real.pi / 180)
    refine Prod.ext ?_ ?_ <;> simp only
    · linear_combination x * h
    · linear_combination y * h
  · have e : (360 : ℝ) * Real.pi / 180 = 2 * Real.pi := by ring
    rw [e, Real.cos_two_pi, Real.sin_two_pi]
    simp

/-- **C52** (size): the length of every slope is preserved, also with flips. -/
theorem C52_norm (a : ℝ) (fx fy : Bool) (s : ℝ × ℝ) :
    (rotateSlope a fx fy s).1 ^ 2 + (rotateSlope a fx fy s).2 ^ 2 = s.1 ^ 2 + s.2 ^ 2 := by
  obtain ⟨x, y⟩ := s
  have h := Real.sin_sq_add_cos_sq (a * Real.pi / 180)
  rw [C52_rotate]
  cases fx <;> cases fy <;> simp only [Bool.false_eq_true, if_false, if_true] <;> linear_combination (x ^ 2 + y ^ 2) * h

/-- A quarter of a turn, with and without flip. -/
theorem C52_quarter (x y : ℝ) : rotateSlope 90 false false (x, y) = (-y, x) ∧ rotateSlope 90 true false (x, y) = (y, x) := by
  have e : (90 : ℝ) * Real.pi / 180 = Real.pi / 2 := by ring
  simp only [C52_rotate, e, Real.cos_pi_div_two, Real.sin_pi_div_two]
  constructor <;> (refine Prod.ext ?_ ?_ <;> simp)

/-- Rotations with a flip do not add their angles: two quarter turns with a flip of x are the identity, not the half turn with a
flip. -/
theorem C52_flip_not_additive : rotateSlope 90 true false (rotateSlope 90 true false (1, 0)) ≠ rotateSlope 180 true false (1, 0) ∨
    rotateSlope 90 true false (rotateSlope 90 true false (0, 1)) ≠ rotateSlope 180 true false (0, 1) := by
  right
  have e : (180 : ℝ) * Real.pi / 180 = Real.pi := by ring
  rw [(C52_quarter 0 1).2, (C52_quarter 1 0).2]
  simp only [C52_rotate, e, Real.cos_pi, Real.sin_pi]
  intro h
  have := (Prod.ext_iff.1 h).2
  norm_num at this

/-- A concrete pair. -/
example : rotateSlope 90 false false (3, 4) = (-4, 3) := (C52_quarter 3 4).1

end Specula
