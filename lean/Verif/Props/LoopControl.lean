import Verif.Model.LoopControl
import Mathlib.Tactic.Linarith
import Mathlib.Tactic.Ring
import Mathlib.Tactic.NormNum
import Mathlib.Tactic.Positivity
import Mathlib.Data.Rat.Floor
import Mathlib.Algebra.Order.Field.Basic
/-
Property C18: number and times of the iterations.
-/
namespace Specula

/-- number of multiples `k*dt` smaller than `rt`: the ceiling of `rt/dt` -/
theorem lt_ceil_iff (rt dt : Int) (hdt : 0 < dt) (k : Int) : k < (rt + dt - 1) / dt ↔ k * dt < rt := by
  rw [show k < (rt + dt - 1) / dt ↔ k + 1 ≤ (rt + dt - 1) / dt from Int.lt_iff_add_one_le, Int.le_ediv_iff_mul_le hdt]
  constructor <;> intro h <;> nlinarith

theorem runFuel_mono (fuel : Nat) (s : LoopCtl) (r) (h : s.runFuel fuel = some r) : s.runFuel (fuel + 1) = some r := by
  induction fuel generalizing s r with
  | zero =>
    unfold LoopCtl.runFuel at h ⊢
    split at h
    · simp at h
    · rename_i hc; rw [if_neg hc]; exact h
  | succ fuel ih =>
    unfold LoopCtl.runFuel at h ⊢
    split at h
    · rename_i hc
      rw [if_pos hc]
      cases h1 : s.advance.runFuel fuel with
      | none => rw [h1] at h; simp at h
      | some r1 => rw [ih _ _ h1]; rw [h1] at h; exact h
    · rename_i hc; rw [if_neg hc]; exact h

theorem runFuel_closed (rt dt t0 : Int) (hdt : 0 < dt) (hrt : 0 ≤ rt) (c n : Nat) :
    ∀ j, ((n + j : Nat) : Int) = max (n : Int) ((rt + dt - 1) / dt) →
      (LoopCtl.runFuel j ⟨rt, dt, t0, t0 + n * dt, c + n⟩) =
        some ((List.range' n j).map fun (k : Nat) =>
          (t0 + (k : Int) * dt, (LoopCtl.mk rt dt t0 (t0 + (k : Int) * dt) (c + k)).lastIter), ⟨rt, dt, t0, t0 + (n + j : Nat) * dt, c + (n + j)⟩) := by
  intro j
  induction j generalizing n with
  | zero =>
    intro h
    unfold LoopCtl.runFuel
    have hc : (LoopCtl.mk rt dt t0 (t0 + n * dt) (c + n)).cond = false := by
      unfold LoopCtl.cond
      have : ¬ ((n : Int) < (rt + dt - 1) / dt) := by
        simp only [Nat.add_zero] at h; have := le_max_right (n : Int) ((rt + dt - 1) / dt); omega
      rw [lt_ceil_iff rt dt hdt] at this
      simp only [Bool.or_eq_false_iff, decide_eq_false_iff_not]
      constructor <;> linarith
    rw [hc]
    simp
  | succ j ih =>
    intro h
    have hlt : (n : Int) < (rt + dt - 1) / dt := by
      by_contra hx
      rw [max_eq_left (by omega)] at h
      omega
    unfold LoopCtl.runFuel
    have hc : (LoopCtl.mk rt dt t0 (t0 + n * dt) (c + n)).cond = true := by
      unfold LoopCtl.cond
      rw [lt_ceil_iff rt dt hdt] at hlt
      simp only [Bool.or_eq_true, decide_eq_true_eq]
      right; linarith
    rw [if_pos hc]
    have hadv : (LoopCtl.mk rt dt t0 (t0 + n * dt) (c + n)).advance =
        ⟨rt, dt, t0, t0 + ((n + 1 : Nat) : Int) * dt, c + (n + 1)⟩ := by
      unfold LoopCtl.advance
      simp only [LoopCtl.mk.injEq, true_and]
      constructor
      · push_cast; ring
      · omega
    rw [hadv, ih (n + 1) (by
      rw [max_eq_right (by omega)] at h
      rw [max_eq_right (by push_cast; omega)]
      omega)]
    simp only [Option.map_some, List.range'_succ, List.map_cons]
    congr 2
    simp only [LoopCtl.mk.injEq, true_and]
    constructor
    · push_cast; ring
    · omega

/-- **C18** (times and number).  With a positive time step and a non-negative run time the loop ends; the times of the
iterations are `t0, t0+dt, …`, exactly those smaller than `t0 + run_time`; there are `⌈run_time/dt⌉` of them. -/
theorem C18_iteration_times (rt dt t0 : Int) (hdt : 0 < dt) (hrt : 0 ≤ rt) (counter : Nat) :
    ∃ (N : Nat) (log : List (Int × Bool)) (fin : LoopCtl),
      (∀ fuel, N ≤ fuel → LoopCtl.runFuel fuel (LoopCtl.start rt dt t0 counter) = some (log, fin)) ∧
      log.map (·.1) = (List.range N).map (fun k : Nat => t0 + (k : Int) * dt) ∧
      (∀ k : Nat, k < N ↔ t0 + k * dt < t0 + rt) ∧
      (N : Int) = ⌈(rt : ℚ) / dt⌉ ∧ fin.iterCounter = counter + N := by
  have hnn : 0 ≤ (rt + dt - 1) / dt := Int.ediv_nonneg (by omega) (by omega)
  obtain ⟨N, hN⟩ := Int.eq_ofNat_of_zero_le hnn
  have h := runFuel_closed rt dt t0 hdt hrt counter 0 N (by rw [hN]; simp)
  simp only [Nat.cast_zero, zero_mul, add_zero, Nat.zero_add] at h
  refine ⟨N, (List.range' 0 N).map fun (k : Nat) =>
    (t0 + (k : Int) * dt, (LoopCtl.mk rt dt t0 (t0 + (k : Int) * dt) (counter + k)).lastIter),
    ⟨rt, dt, t0, t0 + N * dt, counter + N⟩, ?_, ?_, ?_, ?_, rfl⟩
  · intro fuel hf
    obtain ⟨k, rfl⟩ := Nat.exists_eq_add_of_le hf
    clear hf
    induction k with
    | zero => exact h
    | succ k ih => exact runFuel_mono _ _ _ ih
  · rw [List.map_map, List.range_eq_range']; rfl
  · intro k
    have := lt_ceil_iff rt dt hdt k
    rw [hN] at this
    constructor
    · intro hk; have := this.1 (by simpa using hk); linarith
    · intro hk; have := this.2 (by linarith); simpa using this
  · symm
    rw [Int.ceil_eq_iff]
    have hdt' : (0 : ℚ) < dt := by exact_mod_cast hdt
    have h1 := lt_ceil_iff rt dt hdt ((N : Int) - 1)
    have h2 := lt_ceil_iff rt dt hdt N
    rw [hN] at h1 h2
    constructor
    · rw [lt_div_iff₀ hdt']
      have := h1.1 (by simp)
      exact_mod_cast this
    · rw [div_le_iff₀ hdt']
      have : ¬ (N : Int) * dt < rt := fun hx => by have := h2.2 hx; simp at this
      have := not_lt.1 this
      exact_mod_cast this

/-- **C18** (endless runs).  A negative run time runs for ever. -/
theorem C18_negative_run_time_never_ends (rt dt t0 : Int) (hrt : rt < 0) (counter fuel : Nat) :
    LoopCtl.runFuel fuel (LoopCtl.start rt dt t0 counter) = none := by
  have key : ∀ fuel (s : LoopCtl), s.runTime < 0 → s.runFuel fuel = none := by
    intro fuel
    induction fuel with
    | zero => intro s h; unfold LoopCtl.runFuel; simp [LoopCtl.cond, h]
    | succ fuel ih =>
      intro s h
      unfold LoopCtl.runFuel
      have hc : s.cond = true := by simp [LoopCtl.cond, h]
      rw [if_pos hc, ih s.advance h]
      rfl
  exact key fuel _ hrt

/-- **C18** (bad time step).  A zero or negative time step with a positive run time runs for ever. -/
theorem C18_nonpositive_dt_never_ends (rt dt t0 : Int) (hrt : 0 < rt) (hdt : dt ≤ 0) (counter fuel : Nat) :
    LoopCtl.runFuel fuel (LoopCtl.start rt dt t0 counter) = none := by
  have key : ∀ fuel (s : LoopCtl), 0 < s.runTime → s.dt ≤ 0 → s.t ≤ s.t0 → s.runFuel fuel = none := by
    intro fuel
    induction fuel with
    | zero => intro s h _ h2; unfold LoopCtl.runFuel; simp [LoopCtl.cond]; omega
    | succ fuel ih =>
      intro s h h1 h2
      unfold LoopCtl.runFuel
      have hc : s.cond = true := by simp [LoopCtl.cond]; omega
      rw [if_pos hc, ih s.advance h h1 (by simp only [LoopCtl.advance]; omega)]
      rfl
  exact key fuel _ hrt hdt (le_refl _)

/-- **C18** (advertised count).  When the run starts at time 0 with a fresh loop object and the run time is a multiple
of the step, `niters()` is the number of iterations, and the "last iteration" flag is set exactly in the last one. -/
theorem C18_niters_correct (dt : Int) (hdt : 0 < dt) (n : Nat) :
    ∃ fin, LoopCtl.runFuel n (LoopCtl.start (n * dt) dt 0 0) =
        some ((List.range n).map (fun k : Nat => ((k : Int) * dt, decide (k + 1 = n))), fin) ∧
      (LoopCtl.start (n * dt) dt 0 0).niters = n := by
  have hnit : ∀ t c, (LoopCtl.mk (n * dt) dt 0 t c).niters = n := by
    intro t c
    unfold LoopCtl.niters
    simp only
    rw [if_pos (by omega), add_zero, Int.mul_tdiv_cancel _ (by omega)]
  have hc : ((n : Int) * dt + dt - 1) / dt = n := by
    have h2 := lt_ceil_iff (n * dt) dt hdt n
    have h1 := lt_ceil_iff (n * dt) dt hdt (n - 1)
    have e1 : ¬ (n : Int) < (n * dt + dt - 1) / dt := fun hx => lt_irrefl _ (h2.1 hx)
    have e2 : (n : Int) - 1 < (n * dt + dt - 1) / dt := h1.2 (by nlinarith)
    omega
  have h := runFuel_closed (n * dt) dt 0 hdt (by positivity) 0 0 n (by rw [hc]; simp)
  simp only [Nat.cast_zero, zero_mul, add_zero, zero_add] at h
  refine ⟨⟨n * dt, dt, 0, n * dt, n⟩, ?_, hnit _ _⟩
  unfold LoopCtl.start
  rw [h, List.range_eq_range']
  congr 2
  apply List.map_congr_left
  intro k _
  congr 1
  unfold LoopCtl.lastIter
  rw [hnit]
  apply decide_eq_decide.2
  show (k : Int) = n - 1 ↔ k + 1 = n
  omega

/-- The advertised count is wrong when the run time is not a multiple of the step: 3 iterations are executed, 2 are
advertised, and the flag `last_iter` is set in the last but one. -/
theorem C18_niters_counterexample_fraction : ∃ fin,
    LoopCtl.runFuel 10 (LoopCtl.start 5 2 0 0) = some ([(0, false), (2, true), (4, false)], fin) ∧
    (LoopCtl.start 5 2 0 0).niters = 2 := ⟨_, rfl, rfl⟩

/-- The advertised count is wrong when the start time is not zero: 2 iterations are executed, 3 are advertised, and
`last_iter` is never set. -/
theorem C18_niters_counterexample_t0 : ∃ fin,
    LoopCtl.runFuel 10 (LoopCtl.start 4 2 2 0) = some ([(2, false), (4, false)], fin) ∧
    (LoopCtl.start 4 2 2 0).niters = 3 := ⟨_, rfl, rfl⟩

/-- The iteration counter is not reset by `start`: in a second run of the same loop object `last_iter` is never set. -/
theorem C18_second_run_counterexample : ∃ fin fin2,
    LoopCtl.runFuel 10 (LoopCtl.start 4 2 0 0) = some ([(0, false), (2, true)], fin) ∧
    LoopCtl.runFuel 10 (LoopCtl.start 4 2 0 fin.iterCounter) = some ([(0, false), (2, false)], fin2) :=
  ⟨_, _, rfl, rfl⟩

/-- A concrete case of C18: one second at 1 kHz in nanoseconds has 1000 iterations. -/
example : ⌈((1000000000 : Int) : ℚ) / (1000000 : Int)⌉ = 1000 := by norm_num

end Specula
