import Mathlib.Logic.Relation
import Verif.Lemmas.TriggerOrder
/-
Properties C01–C04: the trigger order computed by `Simul.build_trigger_order`.
-/
namespace Specula

/-- **C01**.  Whenever the trigger order is computed, an object `c` in it that reads an output of `a` in the current
iteration has a strictly larger trigger index than `a`, which is in the order too. -/
theorem C01_undelayed_producer_first (ps : Params) (hdict : IsDict ps) (hdel : DelaysOk ps)
    (order : List (String × Nat)) (left : Params) (h : buildTriggerOrder ps = some (order, left))
    (c a : String) (ic : Nat) (hc : (c, ic) ∈ order) (hread : ReadsNow ps c a) :
    ∃ ia, (a, ia) ∈ order ∧ ia < ic := by
  unfold buildTriggerOrder at h
  rw [← residual_nil ps] at h
  obtain ⟨-, -, -, -, -, h6⟩ := triggerLoop_spec ps hdict 0 [] order left h
  obtain ⟨l1, l2, he⟩ := List.append_of_mem hc
  obtain ⟨-, d', h8, h9⟩ := h6 l1 c ic l2 he
  obtain ⟨r, hr, rfl, h0⟩ := hread
  rcases h8 _ (leaf_reads_now hdict hdel h9 hr h0) with hx | ⟨j, hj, hji⟩
  · simp at hx
  · exact ⟨j, by rw [he]; exact List.mem_append_left _ hj, hji⟩

/-- **C02**.  Whenever the trigger order is computed, an object `c` that reads an output of `a` with a `:-n` suffix
occurs before `a` in the order, with an index not larger than the index of `a`. -/
theorem C02_delayed_consumer_first (ps : Params) (hdict : IsDict ps)
    (order : List (String × Nat)) (left : Params) (h : buildTriggerOrder ps = some (order, left))
    (c a : String) (ia : Nat) (ha : (a, ia) ∈ order) (hread : ReadsDelayed ps c a) :
    ∃ ic, Before order (c, ic) (a, ia) ∧ ic ≤ ia ∧ c ≠ a := by
  unfold buildTriggerOrder at h
  rw [← residual_nil ps] at h
  obtain ⟨-, -, h3, h4, h5, h6⟩ := triggerLoop_spec ps hdict 0 [] order left h
  obtain ⟨l1, l2, he⟩ := List.append_of_mem ha
  obtain ⟨h7, -⟩ := h6 l1 a ia l2 he
  have hanot : a ∉ l1.map (·.1) := by
    intro hm
    rw [he, List.map_append, List.nodup_append] at h3
    exact h3.2.2 _ hm a (by simp) rfl
  have hc : c ∈ l1.map (·.1) := by
    apply Classical.byContradiction
    intro hcn
    have : hasDelayedOutput a (residual ps ((l1.map (·.1)).reverse ++ [])) = true :=
      hasDelayedOutput_residual.2 ⟨c, by simpa using hcn, by simpa using hanot, hread⟩
    rw [this] at h7
    simp at h7
  obtain ⟨⟨c', ic⟩, hc', rfl⟩ := List.mem_map.1 hc
  obtain ⟨m1, m2, hm⟩ := List.append_of_mem hc'
  refine ⟨ic, ⟨m1, m2, l2, by rw [he, hm]⟩, ?_, ?_⟩
  · rw [he, hm] at h5
    rw [List.pairwise_append] at h5
    exact h5.2.2 (c', ic) (by simp) (a, ia) (by simp)
  · intro hca
    exact hanot (by rw [← hca]; exact hc)

/-- **C03** (at most once, only known objects). -/
theorem C03_order_nodup (ps : Params) (hdict : IsDict ps)
    (order : List (String × Nat)) (left : Params) (h : buildTriggerOrder ps = some (order, left)) :
    (order.map (·.1)).Nodup ∧ (∀ x ∈ order, x.1 ∈ names ps) ∧
      (∀ n ∈ names ps, n ∈ order.map (·.1) ∨ n ∈ names left) ∧ (∀ n ∈ names left, n ∉ order.map (·.1)) ∧
      (∀ n ∈ names left, n ∈ names ps) := by
  unfold buildTriggerOrder at h
  rw [← residual_nil ps] at h
  obtain ⟨h1, -, h3, h4, -, -⟩ := triggerLoop_spec ps hdict 0 [] order left h
  refine ⟨h3, fun x hx => (h4 x hx).2.1, ?_, ?_, ?_⟩
  · intro n hn
    by_cases hno : n ∈ order.map (·.1)
    · exact Or.inl hno
    · right; rw [h1]; exact names_residual.2 ⟨hn, by simpa using hno⟩
  · intro n hn
    rw [h1] at hn
    simpa using (names_residual.1 hn).2
  · intro n hn
    rw [h1] at hn
    exact (names_residual.1 hn).1

/-- **C03** (exactly the schedulable objects are triggered). -/
theorem C03_order_iff_schedulable (ps : Params) (hdict : IsDict ps) (hdel : DelaysOk ps)
    (order : List (String × Nat)) (left : Params) (h : buildTriggerOrder ps = some (order, left)) (n : String) :
    n ∈ order.map (·.1) ↔ Schedulable ps n :=
  triggerLoop_some_sched hdict hdel h n

/-- **C03** (the error is raised exactly when some unschedulable object has nothing to wait for in the current
iteration but a delayed consumer of it cannot be scheduled). -/
theorem C03_error_iff (ps : Params) (hdict : IsDict ps) (hdel : DelaysOk ps) :
    buildTriggerOrder ps = none ↔
      ∃ n ∈ names ps, ¬ Schedulable ps n ∧ ∀ a, ReadsNow ps n a → Schedulable ps a := by
  constructor
  · intro h
    unfold buildTriggerOrder at h
    rw [← residual_nil ps] at h
    obtain ⟨d, h1, h2, h3⟩ := triggerLoop_none hdict hdel 0 [] (by simp) h
    -- a schedulable object outside `d` would be an unblocked leaf or wait for another one
    have hclosed : ∀ n, Schedulable ps n → n ∈ d := by
      intro n hn
      induction hn with
      | mk n hn hnow hdl ih1 ih2 =>
        apply Classical.byContradiction
        intro hnd
        by_cases hleaf : n ∈ leavesOf (residual ps d)
        · obtain ⟨c, hc, _, hcr⟩ := hasDelayedOutput_residual.1 (h3 n hleaf)
          exact hc (ih2 c hcr)
        · obtain ⟨r, hr, h0, hrn⟩ := not_leaf_reads_now (names_residual.2 ⟨hn, hnd⟩) hleaf
          exact hrn (ih1 r.obj ⟨r, hr, rfl, h0⟩)
    obtain ⟨n, hn⟩ := List.exists_mem_of_ne_nil _ h2
    obtain ⟨hn1, hn2⟩ := names_residual.1 ((leavesOf_subset_names _).subset hn)
    refine ⟨n, hn1, fun hs => hn2 (hclosed n hs), ?_⟩
    rintro a ⟨r, hr, rfl, h0⟩
    exact h1 _ (leaf_reads_now hdict hdel hn hr h0)
  · rintro ⟨n, hn, hns, hnow⟩
    cases h : buildTriggerOrder ps with
    | none => rfl
    | some ol =>
      exfalso
      obtain ⟨o, left⟩ := ol
      have hiff := C03_order_iff_schedulable ps hdict hdel o left h
      have h' := h
      unfold buildTriggerOrder at h
      rw [← residual_nil ps] at h
      obtain ⟨h1, h2, -⟩ := triggerLoop_spec ps hdict 0 [] o left h
      have hnl : n ∉ leavesOf left := by rw [h2]; simp
      have hin : n ∈ names left := by
        rw [h1]; exact names_residual.2 ⟨hn, by
          rw [List.append_nil, List.mem_reverse]; exact fun hx => hns ((hiff n).1 hx)⟩
      rw [h1] at hin hnl
      obtain ⟨r, hr, h0, hrn⟩ := not_leaf_reads_now hin hnl
      exact hrn (by simpa using (hiff r.obj).2 (hnow r.obj ⟨r, hr, rfl, h0⟩))

/-- **C03** (completeness).  If the objects can be ranked so that current-iteration producers have smaller rank and
exist, and delayed consumers have smaller rank than the producer, the computation succeeds and contains every
object, and no object is left out. -/
theorem C03_complete (ps : Params) (hdict : IsDict ps) (hdel : DelaysOk ps) (rank : String → Nat)
    (hnow : ∀ c a, ReadsNow ps c a → a ∈ names ps ∧ rank a < rank c)
    (hdl : ∀ c a, ReadsDelayed ps c a → rank c < rank a) :
    ∃ order, buildTriggerOrder ps = some (order, []) ∧ ∀ n ∈ names ps, n ∈ order.map (·.1) := by
  have hall : ∀ k n, rank n = k → n ∈ names ps → Schedulable ps n := by
    intro k
    induction k using Nat.strongRecOn with
    | ind k ih =>
      intro n hk hn
      refine Schedulable.mk n hn ?_ ?_
      · intro a ha
        have := hnow n a ha
        exact ih (rank a) (by omega) a rfl this.1
      · intro c hc
        have := hdl c n hc
        obtain ⟨r, hr, _, _⟩ := hc
        exact ih (rank c) (by omega) c rfl hr.mem_names
  cases h : buildTriggerOrder ps with
  | none =>
    obtain ⟨n, hn, hns, -⟩ := (C03_error_iff ps hdict hdel).1 h
    exact absurd (hall _ n rfl hn) hns
  | some ol =>
    obtain ⟨order, left⟩ := ol
    have hiff := C03_order_iff_schedulable ps hdict hdel order left h
    have hin : ∀ n ∈ names ps, n ∈ order.map (·.1) := fun n hn => (hiff n).2 (hall _ n rfl hn)
    obtain ⟨-, -, -, h4, h5⟩ := C03_order_nodup ps hdict order left h
    have hleft : left = [] := by
      cases left with
      | nil => rfl
      | cons x xs =>
        have hx : x.1 ∈ names (x :: xs) := by simp [names]
        exact absurd (hin _ (h5 _ hx)) (h4 _ hx)
    subst hleft
    exact ⟨order, rfl, hin⟩

/-- **C03** (why an object is left out).  An object that is left out with only a warning waits, in the current
iteration, for an object that is left out or does not exist. -/
theorem C03_left_out_reason (ps : Params) (hdict : IsDict ps)
    (order : List (String × Nat)) (left : Params) (h : buildTriggerOrder ps = some (order, left))
    (n : String) (hn : n ∈ names left) :
    ∃ a, ReadsNow ps n a ∧ (a ∈ names left ∨ a ∉ names ps) := by
  unfold buildTriggerOrder at h
  rw [← residual_nil ps] at h
  obtain ⟨h1, h2, -⟩ := triggerLoop_spec ps hdict 0 [] order left h
  have hnl : n ∉ leavesOf left := by rw [h2]; simp
  have hn' := hn
  rw [h1] at hn hnl
  obtain ⟨r, hr, h0, hrn⟩ := not_leaf_reads_now hn hnl
  refine ⟨r.obj, ⟨r, hr, rfl, h0⟩, ?_⟩
  by_cases hin : r.obj ∈ names ps
  · left; rw [h1]; exact names_residual.2 ⟨hin, hrn⟩
  · exact Or.inr hin

/-- **C04** (current-iteration cycles).  An object from which one can come back to itself following
current-iteration inputs, and any object depending on it through current-iteration inputs, is never in the order. -/
theorem C04_cycle_never_runs (ps : Params) (hdict : IsDict ps) (hdel : DelaysOk ps)
    (order : List (String × Nat)) (left : Params) (h : buildTriggerOrder ps = some (order, left))
    (m n : String) (hdep : Relation.ReflTransGen (ReadsNow ps) m n) (hcyc : Relation.TransGen (ReadsNow ps) n n) :
    m ∉ order.map (·.1) := by
  -- following current-iteration inputs decreases the trigger index
  have step : ∀ x y, Relation.TransGen (ReadsNow ps) x y → ∀ i, (x, i) ∈ order → ∃ j, (y, j) ∈ order ∧ j < i := by
    intro x y hxy
    induction hxy with
    | single h1 => intro i hi; exact C01_undelayed_producer_first ps hdict hdel order left h _ _ i hi h1
    | tail _ h1 ih =>
      intro i hi
      obtain ⟨j, hj, hji⟩ := ih i hi
      obtain ⟨k, hk, hkj⟩ := C01_undelayed_producer_first ps hdict hdel order left h _ _ j hj h1
      exact ⟨k, hk, by omega⟩
  have no : ∀ i, (n, i) ∉ order := by
    intro i
    induction i using Nat.strongRecOn with
    | ind i ih =>
      intro hi
      obtain ⟨j, hj, hji⟩ := step n n hcyc i hi
      exact ih j hji hj
  intro hm
  obtain ⟨⟨m', i⟩, hi, rfl⟩ := List.mem_map.1 hm
  rcases Relation.reflTransGen_iff_eq_or_transGen.1 hdep with rfl | ht
  · exact no i hi
  · obtain ⟨j, hj, _⟩ := step _ _ ht i hi
    exact no j hj

/-- **C04** (self delay).  An object that reads its own output with a delay is never in the order. -/
theorem C04_self_delayed_never_runs (ps : Params) (hdict : IsDict ps)
    (order : List (String × Nat)) (left : Params) (h : buildTriggerOrder ps = some (order, left))
    (n : String) (hself : ReadsDelayed ps n n) : n ∉ order.map (·.1) := by
  intro hm
  obtain ⟨⟨m', i⟩, hi, rfl⟩ := List.mem_map.1 hm
  obtain ⟨_, _, _, hne⟩ := C02_delayed_consumer_first ps hdict order left h _ _ i hi hself
  exact hne rfl

/-! ### Concrete cases -/

/-- A closed-loop system: atmosphere, propagation (with the mirror of the previous iteration), sensor, reconstructor,
controller, mirror. -/
def scao : Params :=
  [ ("dm", { inputs := some [("in_command", .single { obj := "control", key := some "out_comm" })] }),
    ("atmo", {}),
    ("prop", { inputs := some [("layers", .list [{ obj := "atmo", key := some "layer" },
                                                  { obj := "dm", key := some "out_layer", delay := -1 }])] }),
    ("wfs", { inputs := some [("in_ef", .single { obj := "prop", key := some "out_ef" })] }),
    ("control", { inputs := some [("delta_comm", .single { obj := "wfs", key := some "out_modes" })] }) ]

theorem scao_order : buildTriggerOrder scao
    = some ([("atmo", 0), ("prop", 1), ("wfs", 2), ("control", 3), ("dm", 4)], []) := by
  rw [buildTriggerOrder_eval]; rfl

theorem scao_isDict : IsDict scao := by unfold IsDict; decide
theorem scao_delaysOk : DelaysOk scao := delaysOk_of_all (by decide)

theorem scao_wfs_reads_prop : ReadsNow scao "wfs" "prop" :=
  ⟨_, ⟨_, List.mem_of_getElem? (i := 3) rfl, _, List.mem_singleton.2 rfl, List.mem_singleton.2 rfl⟩, rfl, rfl⟩

theorem scao_prop_reads_dm : ReadsDelayed scao "prop" "dm" :=
  ⟨_, ⟨_, List.mem_of_getElem? (i := 2) rfl, _, List.mem_singleton.2 rfl,
    List.mem_of_getElem? (i := 1) rfl⟩, rfl, by decide⟩

/-- C01 and C02 apply to the closed loop. -/
example : ∃ ia, ("prop", ia) ∈ [("atmo", 0), ("prop", 1), ("wfs", 2), ("control", 3), ("dm", 4)] ∧ ia < 2 :=
  C01_undelayed_producer_first scao scao_isDict scao_delaysOk _ _ scao_order "wfs" "prop" 2 (by simp)
    scao_wfs_reads_prop

example : ∃ ic, Before [("atmo", 0), ("prop", 1), ("wfs", 2), ("control", 3), ("dm", 4)] ("prop", ic) ("dm", 4) ∧
    ic ≤ 4 ∧ "prop" ≠ "dm" :=
  C02_delayed_consumer_first scao scao_isDict _ _ scao_order "prop" "dm" 4 (by simp) scao_prop_reads_dm

/-- C03: the closed loop satisfies the hypotheses of the completeness theorem with this rank. -/
example : ∃ order, buildTriggerOrder scao = some (order, []) ∧ ∀ n ∈ names scao, n ∈ order.map (·.1) :=
  ⟨_, scao_order, by decide⟩

/-- An undelayed loop of two objects plus an observer: all three are silently left out (C04, `left`). -/
def undelayedLoop : Params :=
  [ ("a", { inputs := some [("x", .single { obj := "b" })] }),
    ("b", { inputs := some [("x", .list [{ obj := "a" }])] }),
    ("obs", { inputs := some [("x", .single { obj := "a" })] }),
    ("src", {}) ]

theorem undelayedLoop_order : ∃ left, buildTriggerOrder undelayedLoop = some ([("src", 0)], left) ∧
    names left = ["a", "b", "obs"] := by
  rw [buildTriggerOrder_eval]; exact ⟨_, rfl, rfl⟩

/-- A delayed self-loop makes the computation raise. -/
theorem selfDelayed_raises : buildTriggerOrder
    [("a", { inputs := some [("x", .single { obj := "a", delay := -1 })] })] = none := by
  rw [buildTriggerOrder_eval]; rfl

/-- The hypothesis `DelaysOk` of C01 is needed: with a positive delay in a list input the code treats the whole list
as "not needed in this iteration", and the consumer is triggered with the same index as its producer, before it. -/
theorem C01_positive_delay_counterexample :
    ∃ ps order left, IsDict ps ∧ buildTriggerOrder ps = some (order, left) ∧
      ReadsNow ps "c" "a" ∧ ("c", 0) ∈ order ∧ ("a", 0) ∈ order :=
  ⟨[("c", { inputs := some [("x", .list [{ obj := "a" }, { obj := "a", delay := 1 }])] }), ("a", {})],
    [("c", 0), ("a", 0)], [], by unfold IsDict; decide, by rw [buildTriggerOrder_eval]; rfl,
    ⟨_, ⟨_, List.mem_cons_self, _, List.mem_cons_self, List.mem_cons_self⟩, rfl, rfl⟩, by simp, by simp⟩

end Specula
