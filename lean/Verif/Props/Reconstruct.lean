import Verif.Model.Reconstruct
import Mathlib.Data.Rat.Defs
import Mathlib.LinearAlgebra.Matrix.Notation
import Mathlib.Tactic.Abel
import Mathlib.Tactic.NormNum
/-
C33: explicit and implicit POLC.
-/
namespace Specula

section
variable {K : Type} [Field K] {ns nl nm : Nat}

/-- Specification: the POLC increment for commands `c` and slopes `s`. -/
def polcIncrement (M : PolcMats K ns nl nm) (s : Fin ns → K) (c : Fin nm → K) : Fin nm → K :=
  fun i => (∑ l, M.P i l * ∑ k, M.R l k * (s k + ∑ j, M.D k j * c j)) - c i

theorem implicit_out (M : PolcMats K ns nl nm) (s : Fin ns → K) (c : Fin nm → K) :
    M.commMat.mulVec s - M.hMat.mulVec c = polcIncrement M s c := by
  have h : polcIncrement M s c = M.P.mulVec (M.R.mulVec (s + M.D.mulVec c)) - c := rfl
  rw [h, PolcMats.hMat, PolcMats.commMat, Matrix.sub_mulVec, Matrix.one_mulVec, Matrix.mulVec_add, Matrix.mulVec_add, Matrix.mulVec_mulVec,
    Matrix.mulVec_mulVec, Matrix.mulVec_mulVec, Matrix.mul_assoc]
  abel

/-- The commands used: zero before the first ones are available. -/
def usedCommands (e : RecEvent K ns nm) : Fin nm → K := e.commands.getD 0

theorem implicit_commands (e : RecEvent K ns nm) (st : RecState K nl nm) : (implicitPrepare e st).commands = usedCommands e := by
  unfold implicitPrepare polcPrepare usedCommands
  cases e.commands <;> rfl

theorem polc_commands (e : RecEvent K ns nm) (st : RecState K nl nm) : (polcPrepare e st).commands = usedCommands e := by
  unfold polcPrepare usedCommands
  cases e.commands <;> rfl

/-- The implicit reconstructor outputs the POLC increment in every iteration. -/
theorem C33_implicit (M : PolcMats K ns nl nm) (st : RecState K nl nm) (e : RecEvent K ns nm) :
    (implicitStep M st e).modes = (polcIncrement M e.slopes (usedCommands e), some e.time) := by
  unfold implicitStep implicitTrigger
  simp only [implicit_commands, implicit_out]

/-- The explicit reconstructor outputs the POLC increment when the slopes are new, and nothing otherwise. -/
theorem C33_explicit (M : PolcMats K ns nl nm) (st : RecState K nl nm) (e : RecEvent K ns nm) :
    (polcStep M st e).modes =
      if e.slopesTime = e.time then (polcIncrement M e.slopes (usedCommands e), some e.time) else st.modes := by
  unfold polcStep polcTrigger
  by_cases h : e.slopesTime = e.time
  · simp only [h, ne_eq, not_true_eq_false, if_false, if_true, polc_commands]
    rfl
  · simp only [h, ne_eq, not_false_eq_true, if_true, if_false]
    unfold polcPrepare
    cases e.commands <;> rfl

/-- **C33**: whatever the matrices and the earlier iterations of each, in an iteration with new slopes both reconstructors
output the same modes at the same time. -/
theorem C33_agree (M : PolcMats K ns nl nm) (st st' : RecState K nl nm) (e : RecEvent K ns nm) (h : e.slopesTime = e.time) :
    (polcStep M st e).modes = (implicitStep M st' e).modes := by
  rw [C33_explicit, C33_implicit, if_pos h]

/-- **C33** (runs): in a run in which every triggered iteration has new slopes the two output the same history. -/
theorem C33_runs_agree (M : PolcMats K ns nl nm) (st st' : RecState K nl nm) (es : List (RecEvent K ns nm))
    (h : ∀ e ∈ es, e.slopesTime = e.time) : recOutputs (polcStep M) st es = recOutputs (implicitStep M) st' es := by
  induction es generalizing st st' with
  | nil => rfl
  | cons e es ih =>
    rw [recOutputs, recOutputs, C33_agree M st st' e (h e List.mem_cons_self), ih _ _ fun e' he => h e' (List.mem_cons_of_mem _ he)]

/-- With a perfect reconstruction of the commands (`P R D = 1`) POLC does not depend on the commands: it is the plain
reconstruction with the matrix `P R`. -/
theorem C33_perfect (M : PolcMats K ns nl nm) (h : M.P * M.R * M.D = 1) (s : Fin ns → K) (c : Fin nm → K) :
    polcIncrement M s c = (M.P * M.R).mulVec s := by
  rw [← implicit_out]
  unfold PolcMats.hMat PolcMats.commMat
  rw [h, sub_self, Matrix.zero_mulVec, sub_zero]

/-- and the increment is the residual: modes `a` corrected by commands `c` give `a - c`. -/
theorem C33_residual (M : PolcMats K ns nl nm) (h : M.P * M.R * M.D = 1) (a c : Fin nm → K) :
    polcIncrement M (M.D.mulVec (a - c)) c = a - c := by
  rw [C33_perfect M h, Matrix.mulVec_mulVec, h, Matrix.one_mulVec]

end

/-- When only the commands are new the two differ: the implicit one outputs again, with the old slopes and the new commands. -/
theorem C33_stale_slopes_differ :
    let M : PolcMats ℚ 1 1 1 := ⟨!![1], !![1/2], !![1]⟩
    let es : List (RecEvent ℚ 1 1) := [⟨1, ![4], 1, none⟩, ⟨2, ![4], 1, some ![2]⟩]
    (recOutputs (polcStep M) RecState.init es).map (fun x => (x.1 0, x.2)) = [(2, some 1), (2, some 1)] ∧
    (recOutputs (implicitStep M) RecState.init es).map (fun x => (x.1 0, x.2)) = [(2, some 1), (1, some 2)] := by
  constructor <;> decide +kernel

/-- Two slopes, one layer mode, one command. -/
example : let M : PolcMats ℚ 2 1 1 := ⟨!![1; 2], !![1/5, 2/5], !![1]⟩
    M.P * M.R * M.D = 1 ∧ (polcIncrement M ![3, 6] ![7]) 0 = 3 := by
  constructor
  · ext i j
    fin_cases i; fin_cases j
    decide +kernel
  · decide +kernel

end Specula
