import Verif.Lemmas.Loop
import Verif.Props.TriggerOrder
/-
Properties C05 (the loop refines synchronous dataflow) and C06 (independence of the order of the file).
-/
namespace Specula
variable {σ ν : Type}

theorem mem_bucket {sim : Sim σ ν} {order : List (String × Nat)} {i : Nat} {c : String} :
    c ∈ ((procOrder sim order).filter fun x => x.2 = i).map (·.1) ↔ (c, i) ∈ order ∧ sim.isProc c = true := by
  simp only [procOrder, List.mem_map, List.mem_filter, decide_eq_true_eq]
  constructor
  · rintro ⟨⟨c', j⟩, ⟨⟨h1, h2⟩, rfl⟩, rfl⟩; exact ⟨h1, h2⟩
  · rintro ⟨h1, h2⟩; exact ⟨(c, i), ⟨⟨h1, h2⟩, rfl⟩, rfl⟩

theorem order_index_unique {order : List (String × Nat)} (hnd : (order.map (·.1)).Nodup) {c : String} {i j : Nat}
    (hi : (c, i) ∈ order) (hj : (c, j) ∈ order) : i = j := by
  induction order with
  | nil => simp at hi
  | cons a order ih =>
    simp only [List.map_cons, List.nodup_cons, List.mem_map, not_exists, not_and] at hnd
    rcases List.mem_cons.1 hi with hi | hi <;> rcases List.mem_cons.1 hj with hj | hj
    · rw [← hi] at hj; exact (Prod.mk.inj hj).2.symm
    · exact absurd (by rw [← hi]) (hnd.1 _ hj)
    · exact absurd (by rw [← hj]) (hnd.1 _ hi)
    · exact ih hnd.2 hi hj

theorem before_not_after {α : Type} {l : List α} (hnd : l.Nodup) {a b : α} (h : Before l a b)
    {pre post : List α} (he : l = pre ++ a :: post) : b ∈ post := by
  obtain ⟨l1, l2, l3, h⟩ := h
  subst he
  have h' : pre ++ a :: post = l1 ++ a :: (l2 ++ b :: l3) := by simpa using h
  clear h
  induction pre generalizing l1 with
  | nil =>
    cases l1 with
    | nil => simp only [List.nil_append, List.cons.injEq, true_and] at h'; rw [h']; simp
    | cons x l1 =>
      exfalso
      simp only [List.nil_append, List.cons_append, List.cons.injEq] at h'
      simp only [List.nil_append, List.nodup_cons] at hnd
      rw [h'.2] at hnd
      simp at hnd
  | cons y pre ih =>
    cases l1 with
    | nil =>
      exfalso
      simp only [List.cons_append, List.nil_append, List.cons.injEq] at h'
      simp only [List.cons_append, List.nodup_cons] at hnd
      rw [h'.1] at hnd
      simp at hnd
    | cons x l1 =>
      simp only [List.cons_append, List.cons.injEq] at h'
      simp only [List.cons_append, List.nodup_cons] at hnd
      exact ih l1 hnd.2 h'.2

/-- Every bucket filled from an order computed by the library is safe. -/
theorem bucketSafe_of_order {sim : Sim σ ν} (hdict : IsDict sim.params) (hdel : DelaysOk sim.params)
    {order : List (String × Nat)} {left : Params} (h : buildTriggerOrder sim.params = some (order, left))
    (hsafe : SameIndexSafe sim order) (i : Nat) :
    (((procOrder sim order).filter fun x => x.2 = i).map (·.1)).Nodup ∧
    BucketSafe sim (((procOrder sim order).filter fun x => x.2 = i).map (·.1)) := by
  have hnd := (C03_order_nodup sim.params hdict order left h).1
  have hsub : (((procOrder sim order).filter fun x => x.2 = i)).Sublist order :=
    (List.filter_sublist).trans List.filter_sublist
  have hnd1 : (((procOrder sim order).filter fun x => x.2 = i).map (·.1)).Nodup := hnd.sublist (hsub.map _)
  refine ⟨hnd1, ?_⟩
  intro pre c post he r hr hin
  have hc : c ∈ ((procOrder sim order).filter fun x => x.2 = i).map (·.1) := by rw [he]; simp
  obtain ⟨hc1, hc2⟩ := mem_bucket.1 hc
  obtain ⟨ha1, ha2⟩ := mem_bucket.1 hin
  have hdelay : r.delay < 0 := by
    have hle := hdel c r hr
    have hne : r.delay ≠ 0 := by
      intro h0
      obtain ⟨ia, hia, hlt⟩ := C01_undelayed_producer_first sim.params hdict hdel order left h c r.obj i hc1
        ⟨r, hr, rfl, h0⟩
      have := order_index_unique hnd ha1 hia
      omega
    omega
  have hrd : ReadsDelayed sim.params c r.obj := ⟨r, hr, rfl, hdelay⟩
  refine ⟨?_, fun hdev => hsafe c r.obj i hc1 ha1 hrd hdev⟩
  obtain ⟨ic, ⟨l1, l2, l3, hb⟩, -, hne⟩ :=
    C02_delayed_consumer_first sim.params hdict order left h c r.obj i ha1 hrd
  have hic : ic = i := order_index_unique hnd (by rw [hb]; simp) hc1
  subst hic
  refine before_not_after hnd1 ?_ he
  rw [hb]
  refine ⟨((procOrder sim l1).filter fun x => x.2 = ic).map (·.1), ((procOrder sim l2).filter fun x => x.2 = ic).map (·.1),
    ((procOrder sim l3).filter fun x => x.2 = ic).map (·.1), ?_⟩
  simp [procOrder, List.filter_append, hc2, ha2]

/-- **C05**.  For every simulation whose trigger order was computed by the library, in every iteration `k`: every
object of the order is updated exactly as the synchronous dataflow equation says (undelayed inputs: end of this
iteration; delayed inputs: end of the previous one), all other objects keep their state. -/
theorem C05_loop_is_synchronous_dataflow (sim : Sim σ ν) (hdict : IsDict sim.params) (hdel : DelaysOk sim.params)
    (order : List (String × Nat)) (left : Params) (h : buildTriggerOrder sim.params = some (order, left))
    (hsafe : SameIndexSafe sim order) (t0 dt : Int) (m0 : Mem σ ν) (k : Nat) :
    SyncStep sim (fun c => c ∈ order.map (·.1) ∧ sim.isProc c = true) (t0 + k * dt)
      (fun x => (runIters sim (fillTriggers sim order) t0 dt m0 k x).st)
      (fun x => (runIters sim (fillTriggers sim order) t0 dt m0 (k + 1) x).st) := by
  simp only [runIters]
  generalize runIters sim (fillTriggers sim order) t0 dt m0 k = m
  generalize t0 + (k : Int) * dt = t
  unfold iterOnce
  obtain ⟨is, hsort, hmem, heq⟩ := sortedBuckets_fill sim order
  rw [heq]
  have hnd := (C03_order_nodup sim.params hdict order left h).1
  have hidx : ∀ {c i j}, c ∈ ((procOrder sim order).filter fun x => x.2 = i).map (·.1) →
      c ∈ ((procOrder sim order).filter fun x => x.2 = j).map (·.1) → i = j := fun h1 h2 =>
    order_index_unique hnd (mem_bucket.1 h1).1 (mem_bucket.1 h2).1
  constructor
  · rintro c ⟨hc, hp⟩
    obtain ⟨⟨c', i⟩, hi, rfl⟩ := List.mem_map.1 hc
    simp only at hp
    have hci : c' ∈ ((procOrder sim order).filter fun x => x.2 = i).map (·.1) := mem_bucket.2 ⟨hi, hp⟩
    have hiin : i ∈ is := (hmem i).2 (List.mem_map.2 ⟨(c', i), List.mem_filter.2 ⟨hi, hp⟩, rfl⟩)
    obtain ⟨is1, is2, his⟩ := List.append_of_mem hiin
    rw [his, List.pairwise_append, List.pairwise_cons] at hsort
    obtain ⟨-, ⟨hgt, -⟩, hlt⟩ := hsort
    obtain ⟨hbnd, hbs⟩ := bucketSafe_of_order hdict hdel h hsafe i
    rw [his, List.map_append, List.map_cons]
    beta_reduce
    rw [foldBuckets_mem sim t _ _ _ m hbnd hbs c' hci]
    · unfold insFrom syncInputs
      congr 1
      funext d
      refine gather_congr _ _ _ _ fun r hr => ?_
      have hr := refsOf_reads hr
      -- value of the producer at the start of the bucket
      by_cases h0 : r.delay = 0
      · rw [if_pos h0]
        obtain ⟨ia, hia, hlt'⟩ :=
          C01_undelayed_producer_first sim.params hdict hdel order left h c' r.obj i hi ⟨r, hr, rfl, h0⟩
        rw [List.foldl_append]
        symm
        beta_reduce
        rw [foldBuckets_not_mem]
        intro b hb hin
        rw [← List.map_cons (f := fun i => ((procOrder sim order).filter fun x => x.2 = i).map (·.1))] at hb
        obtain ⟨j, hj, rfl⟩ := List.mem_map.1 hb
        have := order_index_unique hnd (mem_bucket.1 hin).1 hia
        rcases List.mem_cons.1 hj with rfl | hj
        · omega
        · have := hgt j hj; omega
      · rw [if_neg h0]
        have hneg : r.delay < 0 := by have := hdel _ r hr; omega
        beta_reduce
        rw [foldBuckets_not_mem]
        intro b hb hin
        obtain ⟨j, hj, rfl⟩ := List.mem_map.1 hb
        obtain ⟨ic, ⟨l1, l2, l3, hbf⟩, hle, -⟩ := C02_delayed_consumer_first sim.params hdict order left h c' r.obj j
          (mem_bucket.1 hin).1 ⟨r, hr, rfl, hneg⟩
        have hic : ic = i := order_index_unique hnd (by rw [hbf]; simp) hi
        have := hlt j hj i (by simp)
        omega
    · intro b hb hin
      obtain ⟨j, hj, rfl⟩ := List.mem_map.1 hb
      have := hidx hci hin
      have := hgt j hj
      omega
    · intro b hb hin
      obtain ⟨j, hj, rfl⟩ := List.mem_map.1 hb
      have := hidx hci hin
      have := hlt j hj i (by simp)
      omega
  · intro c hc
    beta_reduce
    rw [foldBuckets_not_mem]
    intro b hb hin
    obtain ⟨j, hj, rfl⟩ := List.mem_map.1 hb
    obtain ⟨h1, h2⟩ := mem_bucket.1 hin
    exact hc ⟨List.mem_map.2 ⟨_, h1, rfl⟩, h2⟩

/-- The dataflow equation determines the new state (used for C06). -/
theorem syncStep_unique {sim : Sim σ ν} (hdict : IsDict sim.params) (hdel : DelaysOk sim.params)
    {order : List (String × Nat)} {left : Params} (h : buildTriggerOrder sim.params = some (order, left))
    {t : Int} {prev cur cur' : String → σ}
    (h1 : SyncStep sim (fun c => c ∈ order.map (·.1) ∧ sim.isProc c = true) t prev cur)
    (h2 : SyncStep sim (fun c => c ∈ order.map (·.1) ∧ sim.isProc c = true) t prev cur') : cur = cur' := by
  have key : ∀ i c, (c, i) ∈ order → cur c = cur' c := by
    intro i
    induction i using Nat.strongRecOn with
    | ind i ih =>
      intro c hc
      by_cases hp : c ∈ order.map (·.1) ∧ sim.isProc c = true
      · rw [h1.1 c hp, h2.1 c hp]
        congr 1
        funext d
        refine gather_congr _ _ _ _ fun r hr => ?_
        have hr := refsOf_reads hr
        by_cases h0 : r.delay = 0
        · obtain ⟨ia, hia, hlt⟩ :=
            C01_undelayed_producer_first sim.params hdict hdel order left h c r.obj i hc ⟨r, hr, rfl, h0⟩
          simp only [h0, if_true, ih ia hlt r.obj hia]
        · simp only [h0, if_false]
      · rw [h1.2 c hp, h2.2 c hp]
  funext c
  by_cases hp : c ∈ order.map (·.1) ∧ sim.isProc c = true
  · obtain ⟨⟨c', i⟩, hi, rfl⟩ := List.mem_map.1 hp.1
    exact key i _ hi
  · rw [h1.2 c hp, h2.2 c hp]

/-! ### permuting the file -/

theorem reads_perm {ps ps' : Params} (hp : ps.Perm ps') (c : String) (r : OutRef) : Reads ps c r ↔ Reads ps' c r := by
  unfold Reads
  simp only [hp.mem_iff]

theorem names_perm {ps ps' : Params} (hp : ps.Perm ps') (n : String) : n ∈ names ps ↔ n ∈ names ps' :=
  (hp.map _).mem_iff

theorem isDict_perm {ps ps' : Params} (hp : ps.Perm ps') (h : IsDict ps) : IsDict ps' :=
  (hp.map _).nodup_iff.1 h

theorem schedulable_perm {ps ps' : Params} (hp : ps.Perm ps') {n : String} (h : Schedulable ps n) :
    Schedulable ps' n := by
  induction h with
  | mk n hn hnow hdel ih1 ih2 =>
    refine Schedulable.mk n ((names_perm hp n).1 hn) ?_ ?_
    · rintro a ⟨r, hr, h1⟩; exact ih1 a ⟨r, (reads_perm hp _ _).2 hr, h1⟩
    · rintro c ⟨r, hr, h1⟩; exact ih2 c ⟨r, (reads_perm hp _ _).2 hr, h1⟩

theorem lookup_eq_some_iff_mem {ps : Params} (hd : IsDict ps) (c : String) (p : ObjPars) :
    ps.lookup c = some p ↔ (c, p) ∈ ps := by
  unfold IsDict names at hd
  induction ps with
  | nil => simp
  | cons a ps ih =>
    rcases a with ⟨a1, a2⟩
    simp only [List.map_cons, List.nodup_cons, List.mem_map, not_exists, not_and] at hd
    rw [List.lookup_cons]
    by_cases hc : c = a1
    · subst hc
      simp only [beq_self_eq_true, Option.some.injEq, List.mem_cons, Prod.mk.injEq, true_and]
      constructor
      · intro h; exact Or.inl h.symm
      · rintro (h | h)
        · exact h.symm
        · exact absurd rfl (hd.1 _ h)
    · have : (c == a1) = false := by simpa using hc
      simp only [this, ih hd.2, List.mem_cons, Prod.mk.injEq, hc, false_and, false_or]

theorem lookup_perm {ps ps' : Params} (hp : ps.Perm ps') (h : IsDict ps) (c : String) :
    ps.lookup c = ps'.lookup c := by
  apply Option.ext
  intro p
  rw [lookup_eq_some_iff_mem h, lookup_eq_some_iff_mem (isDict_perm hp h), hp.mem_iff]

/-- **C06** (success).  Whether the order can be computed does not depend on the order of the objects in the file. -/
theorem C06_success_order_independent (ps ps' : Params) (hp : ps.Perm ps') (hdict : IsDict ps) (hdel : DelaysOk ps) :
    buildTriggerOrder ps = none ↔ buildTriggerOrder ps' = none := by
  have hdel' : DelaysOk ps' := fun c r hr => hdel c r ((reads_perm hp _ _).2 hr)
  rw [C03_error_iff ps hdict hdel, C03_error_iff ps' (isDict_perm hp hdict) hdel']
  constructor
  · rintro ⟨n, hn, h1, h2⟩
    refine ⟨n, (names_perm hp n).1 hn, fun h => h1 (schedulable_perm hp.symm h), ?_⟩
    rintro a ⟨r, hr, h3⟩
    exact schedulable_perm hp (h2 a ⟨r, (reads_perm hp _ _).2 hr, h3⟩)
  · rintro ⟨n, hn, h1, h2⟩
    refine ⟨n, (names_perm hp n).2 hn, fun h => h1 (schedulable_perm hp h), ?_⟩
    rintro a ⟨r, hr, h3⟩
    exact schedulable_perm hp.symm (h2 a ⟨r, (reads_perm hp _ _).1 hr, h3⟩)

/-- **C06**.  Two simulations with the same objects listed in a different order, started from the same states, have
the same state (hence the same outputs) for every object after every number of iterations. -/
theorem C06_results_order_independent (sim sim' : Sim σ ν) (hbeh : sim.beh = sim'.beh) (hproc : sim.isProc = sim'.isProc)
    (hp : sim.params.Perm sim'.params) (hdict : IsDict sim.params) (hdel : DelaysOk sim.params)
    (order order' : List (String × Nat)) (left left' : Params)
    (h : buildTriggerOrder sim.params = some (order, left))
    (h' : buildTriggerOrder sim'.params = some (order', left'))
    (hsafe : SameIndexSafe sim order) (hsafe' : SameIndexSafe sim' order')
    (t0 dt : Int) (m0 : Mem σ ν) (k : Nat) (c : String) :
    (runIters sim (fillTriggers sim order) t0 dt m0 k c).st =
      (runIters sim' (fillTriggers sim' order') t0 dt m0 k c).st := by
  have hdel' : DelaysOk sim'.params := fun c r hr => hdel c r ((reads_perm hp _ _).2 hr)
  have hdict' := isDict_perm hp hdict
  have hpars : ∀ c, sim.pars c = sim'.pars c := fun c => by
    unfold Sim.pars; rw [lookup_perm hp hdict]
  have hrun : ∀ c, (c ∈ order.map (·.1) ∧ sim.isProc c = true) ↔ (c ∈ order'.map (·.1) ∧ sim'.isProc c = true) := by
    intro c
    rw [C03_order_iff_schedulable _ hdict hdel _ _ h, C03_order_iff_schedulable _ hdict' hdel' _ _ h', hproc]
    exact and_congr ⟨fun h => schedulable_perm hp h, fun h => schedulable_perm hp.symm h⟩ Iff.rfl
  have key : ∀ k, (fun c => (runIters sim (fillTriggers sim order) t0 dt m0 k c).st) =
      (fun c => (runIters sim' (fillTriggers sim' order') t0 dt m0 k c).st) := by
    intro k
    induction k with
    | zero => rfl
    | succ k ih =>
      have s1 := C05_loop_is_synchronous_dataflow sim hdict hdel order left h hsafe t0 dt m0 k
      have s2 := C05_loop_is_synchronous_dataflow sim' hdict' hdel' order' left' h' hsafe' t0 dt m0 k
      rw [← ih] at s2
      refine syncStep_unique hdict hdel h s1 ?_
      obtain ⟨s21, s22⟩ := s2
      refine ⟨fun c hc => ?_, fun c hc => s22 c (fun hx => hc ((hrun c).2 hx))⟩
      rw [s21 c ((hrun c).1 hc)]
      have hin : ∀ prev cur, syncInputs sim' prev cur c = syncInputs sim prev cur c := by
        intro prev cur; unfold syncInputs; rw [hpars, hbeh]
      unfold objStep
      rw [hin, hbeh]
  exact congrFun (key k) c

/-! ### Concrete cases -/

/-- values of the items of all inputs of a given reading -/
def inputVals (decls : List InDecl) (ins : InDecl → Local Int) : List Int :=
  decls.flatMap fun d => (ins d).items.map (·.val)

/-- An object that outputs the sum of its inputs plus one, stamped with the current time. -/
def adder (decls : List InDecl) : Behaviour (Item Int) Int where
  decls := decls
  prepare := fun _ _ s => s
  trigger := fun t ins _ => { gen := some t, val := (inputVals decls ins).sum + 1 }
  post := fun _ _ s => s
  out := fun s _ => [s]

/-- The closed loop `scao` with adders. -/
def scaoSim : Sim (Item Int) Int where
  params := scao
  beh := fun c =>
    if c = "dm" then adder [{ name := "in_command" }]
    else if c = "prop" then adder [{ name := "layers", isList := true }]
    else if c = "wfs" then adder [{ name := "in_ef" }]
    else if c = "control" then adder [{ name := "delta_comm" }]
    else adder []
  isProc := fun _ => true

def scaoOrder : List (String × Nat) := [("atmo", 0), ("prop", 1), ("wfs", 2), ("control", 3), ("dm", 4)]

/-- A simulation all of whose objects do their work in `trigger` satisfies the side condition. -/
theorem sameIndexSafe_of_trigger_only (sim : Sim σ ν) (order : List (String × Nat))
    (h1 : ∀ c t ins s, (sim.beh c).post t ins s = s) (h2 : ∀ c t ins s, (sim.beh c).prepare t ins s = s) :
    SameIndexSafe sim order := by
  intro c a i _ _ _ _
  exact ⟨fun t ins ins' s => by rw [h1, h1], fun t ins s => by rw [h2]⟩

theorem scaoSim_safe (order : List (String × Nat)) : SameIndexSafe scaoSim order := by
  apply sameIndexSafe_of_trigger_only
  · intro c t ins s; unfold scaoSim adder; simp only; split_ifs <;> rfl
  · intro c t ins s; unfold scaoSim adder; simp only; split_ifs <;> rfl

/-- C05 applies to the closed loop, at any iteration. -/
example (m0 : Mem (Item Int) Int) (k : Nat) :
    SyncStep scaoSim
      (fun c => c ∈ scaoOrder.map (·.1) ∧ scaoSim.isProc c = true) (0 + k * 1000)
      (fun x => (runIters scaoSim (fillTriggers scaoSim scaoOrder) 0 1000 m0 k x).st)
      (fun x => (runIters scaoSim (fillTriggers scaoSim scaoOrder) 0 1000 m0 (k + 1) x).st) :=
  C05_loop_is_synchronous_dataflow scaoSim scao_isDict scao_delaysOk _ _ scao_order (scaoSim_safe _) 0 1000 m0 k

/-- The same objects with the file reversed. -/
def scaoRev : Sim (Item Int) Int := { scaoSim with params := scao.reverse }

theorem scaoRev_order : buildTriggerOrder scaoRev.params = some (scaoOrder, []) := by
  rw [buildTriggerOrder_eval]; rfl

theorem scaoRev_safe (order : List (String × Nat)) : SameIndexSafe scaoRev order := by
  apply sameIndexSafe_of_trigger_only
  · intro c t ins s; unfold scaoRev scaoSim adder; simp only; split_ifs <;> rfl
  · intro c t ins s; unfold scaoRev scaoSim adder; simp only; split_ifs <;> rfl

/-- C06 applies to the reversed file. -/
example (m0 : Mem (Item Int) Int) (k : Nat) (c : String) :
    (runIters scaoSim (fillTriggers scaoSim scaoOrder) 0 1000 m0 k c).st =
      (runIters scaoRev (fillTriggers scaoRev scaoOrder) 0 1000 m0 k c).st :=
  C06_results_order_independent scaoSim scaoRev rfl rfl (List.reverse_perm scao).symm
    scao_isDict scao_delaysOk _ _ _ _ scao_order scaoRev_order (scaoSim_safe _) (scaoRev_safe _) 0 1000 m0 k c

/-- Two objects of the same trigger index: `c` reads the output of `a` delayed by one iteration. -/
def sameIndex : Params := [("c", { inputs := some [("x", .single { obj := "a", delay := -1 })] }), ("a", {})]

theorem sameIndex_order : buildTriggerOrder sameIndex = some ([("c", 0), ("a", 0)], []) := by
  rw [buildTriggerOrder_eval]; rfl

/-- `a` counts iterations in `trigger`; `c` copies its input in `post_trigger` (as e.g. the wavefront sensors do with
`in_ef`). -/
def sameIndexSim : Sim (Item Int) Int where
  params := sameIndex
  beh := fun n => if n = "a" then adder [] else
    { decls := [{ name := "x" }]
      prepare := fun _ _ s => s
      trigger := fun _ _ s => s
      post := fun t ins _ => { gen := some t, val := (inputVals [{ name := "x" }] ins).sum }
      out := fun s _ => [s] }
  isProc := fun _ => true

/-- The side condition of C05 is needed: an object that looks at a delayed input in `post_trigger` sees the value of
the current iteration if the producer happens to have the same trigger index. -/
theorem C05_post_trigger_counterexample :
    ∃ m0 : Mem (Item Int) Int, ¬ SyncStep sameIndexSim (fun c => c ∈ ["c", "a"]) 0 (fun x => (m0 x).st)
      (fun x => (runIters sameIndexSim (fillTriggers sameIndexSim [("c", 0), ("a", 0)]) 0 1 m0 1 x).st) := by
  refine ⟨fun _ => { st := { gen := some 0, val := 0 }, changed := false, copy := fun _ => [] }, ?_⟩
  intro h
  have hval := congrArg Item.val (h.1 "c" (by simp))
  have hspec : ∀ cur, (objStep sameIndexSim 0 "c"
      (syncInputs sameIndexSim (fun _ => { gen := some 0, val := 0 }) cur "c") { gen := some 0, val := 0 }).val = 0 := by
    intro cur
    unfold objStep
    split_ifs <;> rfl
  rw [hspec] at hval
  revert hval
  have hb : sortedBuckets (fillTriggers sameIndexSim [("c", 0), ("a", 0)]) = [["c", "a"]] := by
    have : fillTriggers sameIndexSim [("c", 0), ("a", 0)] = [(0, ["c", "a"])] := rfl
    rw [this]; unfold sortedBuckets; simp
  simp only [runIters, iterOnce, hb]
  decide

end Specula
