import Verif.Lemmas.Protocol
import Verif.Props.Loop
import Verif.Spec.Rate
import Mathlib.Tactic.Linarith
/-
Properties C19 (an object is triggered iff it has something new to do) and C20 (rates).
-/
namespace Specula
variable {σ ν : Type}

open Classical in
/-- **C19** (one iteration).  Whatever its flag was, in an iteration the object is prepared, triggered and
post-triggered once each, in this order, if there is something new, and nothing is called otherwise; nothing raises;
afterwards the flag is down. -/
theorem C19_iteration (decls : List InDecl) (ch : Bool) (t : Int) (loc : InDecl → Local ν) :
    iterObj decls ch t loc =
      (false, if SomethingNew decls loc t then [.prepared, .triggered, .posted] else [.notReady]) := by
  unfold iterObj callStep
  by_cases h : SomethingNew decls loc t
  · have h' := (checkInputTimes_iff decls loc t).2 h
    simp [h, h']
  · have h' : checkInputTimes decls loc t = false := by
      have := mt (checkInputTimes_iff decls loc t).1 h; simpa using this
    simp [h, h']

open Classical in
/-- **C19** (whole run).  The same in every iteration of any run. -/
theorem C19_run (decls : List InDecl) (ch : Bool) (hist : List (Int × (InDecl → Local ν))) :
    iterObjs decls ch hist = hist.map fun e =>
      if SomethingNew decls e.2 e.1 then [.prepared, .triggered, .posted] else [.notReady] := by
  induction hist generalizing ch with
  | nil => rfl
  | cons e hist ih => unfold iterObjs; simp only [C19_iteration, ih, List.map_cons]

/-- The calls allow `trigger` and `post_trigger`: the last call that is not `trigger` was a `check_ready` that found
something new. -/
def Allowed (decls : List InDecl) (cs : List (Call ν)) : Prop :=
  ∃ pre t loc trigs, cs = pre ++ Call.check t loc :: trigs ∧ (∀ c ∈ trigs, c = Call.trigger) ∧ SomethingNew decls loc t

theorem callRun_append (decls : List InDecl) (ch : Bool) (cs ds : List (Call ν)) :
    callRun decls ch (cs ++ ds) =
      ((callRun decls (callRun decls ch cs).1 ds).1, (callRun decls ch cs).2 ++ (callRun decls (callRun decls ch cs).1 ds).2) := by
  induction cs generalizing ch with
  | nil => simp [callRun]
  | cons c cs ih => simp [callRun, ih]

theorem callRun_flag (decls : List InDecl) (cs : List (Call ν)) :
    (callRun decls false cs).1 = true ↔ Allowed decls cs := by
  induction cs using List.reverseRecOn with
  | nil =>
    simp only [callRun, Bool.false_eq_true, false_iff]
    rintro ⟨pre, t, loc, trigs, h, -⟩
    simp at h
  | append_singleton cs c ih =>
    rw [callRun_append]
    cases c with
    | check t loc =>
      simp only [callRun, callStep]
      constructor
      · intro h
        refine ⟨cs, t, loc, [], by simp, by simp, ?_⟩
        rw [← checkInputTimes_iff]
        by_contra hc
        simp [hc] at h
      · rintro ⟨pre, t', loc', trigs, h, ht, hn⟩
        have : trigs = [] := by
          cases trigs using List.reverseRecOn with
          | nil => rfl
          | append_singleton tr x =>
            rw [← List.cons_append, ← List.append_assoc] at h
            have := List.append_inj_right' h rfl
            simp only [List.cons.injEq, and_true] at this
            have hx := ht x (by simp)
            rw [hx] at this; cases this
        subst this
        have := List.append_inj_right' h rfl
        simp only [List.cons.injEq, Call.check.injEq, and_true] at this
        rw [this.1, this.2, if_pos ((checkInputTimes_iff _ _ _).2 hn)]
    | trigger =>
      have : (callRun decls (callRun decls false cs).1 [Call.trigger (ν := ν)]).1 = (callRun decls false cs).1 := by
        simp only [callRun, callStep]; split <;> rfl
      simp only [this, ih]
      constructor
      · rintro ⟨pre, t, loc, trigs, rfl, ht, hn⟩
        refine ⟨pre, t, loc, trigs ++ [.trigger], by simp, ?_, hn⟩
        intro c hc
        rcases List.mem_append.1 hc with hc | hc
        · exact ht c hc
        · simpa using hc
      · rintro ⟨pre, t, loc, trigs, h, ht, hn⟩
        cases trigs using List.reverseRecOn with
        | nil =>
          have := List.append_inj_right' h rfl
          simp at this
        | append_singleton tr x =>
          refine ⟨pre, t, loc, tr, ?_, fun c hc => ht c (by simp [hc]), hn⟩
          rw [← List.cons_append, ← List.append_assoc] at h
          exact List.append_inj_left' h rfl
    | post =>
      have : (callRun decls (callRun decls false cs).1 [Call.post (ν := ν)]).1 = false := by
        simp only [callRun, callStep]; split
        · rfl
        · rename_i h; simpa using h
      simp only [this, Bool.false_eq_true, false_iff]
      rintro ⟨pre, t, loc, trigs, h, ht, hn⟩
      cases trigs using List.reverseRecOn with
      | nil =>
        have := List.append_inj_right' h rfl
        simp at this
      | append_singleton tr x =>
        rw [← List.cons_append, ← List.append_assoc] at h
        have := List.append_inj_right' h rfl
        simp only [List.cons.injEq, and_true] at this
        have hx := ht x (by simp)
        rw [hx] at this; cases this

/-- **C19** (guards).  After any history of calls on a new object, `trigger` runs the object's code exactly when
allowed and raises otherwise; the same for `post_trigger`. -/
theorem C19_guards (decls : List InDecl) (cs : List (Call ν)) :
    ((Allowed decls cs → callStep decls (callRun decls false cs).1 (Call.trigger (ν := ν)) = (true, .triggered)) ∧
     (¬ Allowed decls cs → (callStep decls (callRun decls false cs).1 (Call.trigger (ν := ν))).2 = .raised)) ∧
    ((Allowed decls cs → callStep decls (callRun decls false cs).1 (Call.post (ν := ν)) = (false, .posted)) ∧
     (¬ Allowed decls cs → (callStep decls (callRun decls false cs).1 (Call.post (ν := ν))).2 = .raised)) := by
  have h := callRun_flag decls cs
  refine ⟨⟨fun ha => ?_, fun ha => ?_⟩, ⟨fun ha => ?_, fun ha => ?_⟩⟩
  · rw [h.2 ha]; rfl
  · have : (callRun decls false cs).1 = false := by simpa using mt h.1 ha
    rw [this]; rfl
  · rw [h.2 ha]; rfl
  · have : (callRun decls false cs).1 = false := by simpa using mt h.1 ha
    rw [this]; rfl

/-- Concrete case: a fresh value at time 5 allows `trigger`; a second `post_trigger` raises. -/
example : (callRun (ν := Nat) [{ name := "x" }] false
    [.check 5 (fun _ => .one ⟨some 5, 0⟩), .trigger, .post, .post, .check 6 (fun _ => .one ⟨some 5, 0⟩), .trigger]).2 =
    [.prepared, .triggered, .posted, .raised, .notReady, .raised] := rfl

/-- A required list input to which nothing is connected, or an optional one, never counts as unset: an object whose
only input is an unconnected optional *list* is never triggered (while with an unconnected optional single input it
always is). -/
theorem C19_unconnected_optional_list_never_triggers (t : Int) (name : String) :
    ¬ SomethingNew (ν := ν) [{ name := name, optional := true, isList := true }]
        (fun d => gather {} d fun _ => []) t ∧
    SomethingNew (ν := ν) [{ name := name, optional := true, isList := false }] (fun d => gather {} d fun _ => []) t := by
  constructor
  · rintro (h | h | ⟨d, hd, x, hx, -⟩)
    · simp at h
    · have := (h { name := name, optional := true, isList := true } (by simp)).2
      simp [gather] at this
    · simp only [List.mem_singleton] at hd
      subst hd
      simp only [gather, if_true] at hx
      cases hx with
      | many _ _ h => simp [refsOf, ObjPars.ins] at h
  · right; left
    intro d hd
    simp only [List.mem_singleton] at hd
    subst hd
    simp [gather, refsOf, ObjPars.ins]

/-! ### the loop -/

/-- A simulation in which every object counts how many times its `trigger_code` and `post_trigger` run. -/
def counted (sim : Sim σ ν) : Sim (σ × Nat × Nat) ν where
  params := sim.params
  isProc := sim.isProc
  beh := fun c =>
    { decls := (sim.beh c).decls
      prepare := fun t ins s => ((sim.beh c).prepare t ins s.1, s.2)
      trigger := fun t ins s => ((sim.beh c).trigger t ins s.1, s.2.1 + 1, s.2.2)
      post := fun t ins s => ((sim.beh c).post t ins s.1, s.2.1, s.2.2 + 1)
      out := fun s => (sim.beh c).out s.1
      device := (sim.beh c).device }

open Classical in
/-- **C19** (in the loop).  In the full loop, in iteration `k` every scheduled object runs `trigger_code` and
`post_trigger` exactly once if there is something new for it, and not at all otherwise; objects not scheduled never do. -/
theorem C19_loop_calls (sim : Sim σ ν) (hdict : IsDict sim.params) (hdel : DelaysOk sim.params)
    (order : List (String × Nat)) (left : Params) (h : buildTriggerOrder sim.params = some (order, left))
    (hsafe : SameIndexSafe (counted sim) order) (t0 dt : Int) (m0 : Mem (σ × Nat × Nat) ν) (k : Nat) (c : String) :
    let st := fun k c => (runIters (counted sim) (fillTriggers (counted sim) order) t0 dt m0 k c).st
    (st (k + 1) c).2 =
      if (c ∈ order.map (·.1) ∧ sim.isProc c = true) ∧ TriggersAt (counted sim) t0 dt st k c then
        ((st k c).2.1 + 1, (st k c).2.2 + 1) else (st k c).2 := by
  intro st
  obtain ⟨h1, h2⟩ := C05_loop_is_synchronous_dataflow (counted sim) hdict hdel order left h hsafe t0 dt m0 k
  by_cases hr : c ∈ order.map (·.1) ∧ sim.isProc c = true
  · have hs : st (k + 1) c = _ := h1 c hr
    rw [hs]
    unfold objStep TriggersAt
    by_cases hn : SomethingNew ((counted sim).beh c).decls (syncInputs (counted sim) (st k) (st (k + 1)) c) (t0 + k * dt)
    · rw [if_pos hn, if_pos ⟨hr, hn⟩]; rfl
    · rw [if_neg hn, if_neg (fun hx => hn hx.2)]
  · have hs : st (k + 1) c = st k c := h2 c hr
    rw [hs, if_neg (fun hx => hr hx.1)]

/-! ### rates -/

theorem sees_gather {p : ObjPars} {d : InDecl} {rd : OutRef → List (Item ν)} {x : Item ν} (h : Sees (gather p d rd) x) :
    ∃ r ∈ refsOf p d, x ∈ rd r := by
  unfold gather at h
  split at h
  · cases h with | many _ _ h => exact List.mem_flatMap.1 h
  · split at h
    · cases h
    · rename_i y ys he
      cases h with
      | one => exact List.mem_flatMap.1 (by rw [he]; simp)

/-- time stamps stay in the past -/
theorem stale_invariant (sim : Sim σ ν) (running : String → Prop) (t0 dt : Int) (hdt : 0 < dt) (st : Nat → String → σ)
    (hrun : ∀ k : Nat, SyncStep sim running (t0 + k * dt) (st k) (st (k + 1))) (c : String)
    (hstamp : StampsNow (sim.beh c)) (hinit : StaleBefore (sim.beh c) (st 0 c) t0) (k : Nat) :
    StaleBefore (sim.beh c) (st k c) (t0 + k * dt) := by
  induction k with
  | zero => simpa using hinit
  | succ k ih =>
    have hle : t0 + (k : Int) * dt < t0 + ((k + 1 : Nat) : Int) * dt := by push_cast; nlinarith
    intro key x hx g hg
    by_cases hr : running c
    · rw [(hrun k).1 c hr] at hx
      unfold objStep at hx
      split_ifs at hx
      · rcases hstamp _ _ _ key x hx with h1 | ⟨y, hy, h1⟩
        · rw [h1] at hg; cases hg; exact hle
        · have := ih key y hy g (by rw [h1]; exact hg)
          omega
      · have := ih key x hx g hg
        omega
    · rw [(hrun k).2 c hr] at hx
      have := ih key x hx g hg
      omega

/-- **C20** (one link).  In any iteration, an object with a required (or connected) input, all of whose inputs other
than the undelayed ones coming from `a` hold only old items, is triggered exactly if one of the items it reads from
`a` has been refreshed in this iteration. -/
theorem C20_follows_producer (sim : Sim σ ν) (t0 dt : Int) (st : Nat → String → σ) (k : Nat) (c a : String)
    (hins : (sim.beh c).decls ≠ [])
    (hset : ∃ d ∈ (sim.beh c).decls, d.optional = false ∨ syncInputs sim (st k) (st (k + 1)) c d ≠ .none)
    (hother : ∀ d ∈ (sim.beh c).decls, ∀ r ∈ refsOf (sim.pars c) d, ¬ (r.obj = a ∧ r.delay = 0) →
      ∀ x ∈ (sim.beh r.obj).out (if r.delay = 0 then st (k + 1) r.obj else st k r.obj) r.key, ∀ g, x.gen = some g →
        g < t0 + k * dt) :
    TriggersAt sim t0 dt st k c ↔
      ∃ d ∈ (sim.beh c).decls, ∃ x, Sees (syncInputs sim (st k) (st (k + 1)) c d) x ∧
        (∃ r ∈ refsOf (sim.pars c) d, r.obj = a ∧ r.delay = 0 ∧ x ∈ (sim.beh a).out (st (k + 1) a) r.key) ∧
        ∃ g, x.gen = some g ∧ t0 + k * dt ≤ g := by
  unfold TriggersAt SomethingNew
  constructor
  · rintro (h | h | ⟨d, hd, x, hx, g, hg, hle⟩)
    · exact absurd h hins
    · obtain ⟨d, hd, h1⟩ := hset
      rcases h1 with h1 | h1
      · have := (h d hd).1; rw [h1] at this; cases this
      · exact absurd (h d hd).2 h1
    · refine ⟨d, hd, x, hx, ?_, g, hg, hle⟩
      obtain ⟨r, hr, hxr⟩ := sees_gather hx
      by_cases hra : r.obj = a ∧ r.delay = 0
      · refine ⟨r, hr, hra.1, hra.2, ?_⟩
        rw [if_pos hra.2, hra.1] at hxr
        exact hxr
      · have := hother d hd r hr hra x hxr g hg
        omega
  · rintro ⟨d, hd, x, hx, -, g, hg, hle⟩
    exact Or.inr (Or.inr ⟨d, hd, x, hx, g, hg, hle⟩)

/-- a relay triggers exactly when its producer's output is refreshed, and then refreshes its own -/
theorem relay_step (sim : Sim σ ν) (running : String → Prop) (t0 dt : Int) (st : Nat → String → σ)
    (hrun : ∀ k : Nat, SyncStep sim running (t0 + k * dt) (st k) (st (k + 1))) (c : String) (r : OutRef) (key : Option String)
    (hrel : Relay sim c r key) (hc : running c) (k : Nat)
    (hsingle : ∃ x, (sim.beh r.obj).out (st (k + 1) r.obj) r.key = [x])
    (hstale : StaleBefore (sim.beh c) (st k c) (t0 + k * dt)) :
    (TriggersAt sim t0 dt st k c ↔ RefreshedAt sim t0 dt st k r.obj r.key) ∧
    (TriggersAt sim t0 dt st k c ↔ RefreshedAt sim t0 dt st k c key) := by
  obtain ⟨d, hdecl, hopt, hlist, hrefs⟩ := hrel.input
  obtain ⟨y, hy⟩ := hsingle
  have hsync : syncInputs sim (st k) (st (k + 1)) c d = .one y := by
    unfold syncInputs gather
    rw [hlist, hrefs]
    simp [hrel.undelayed, hy]
  have h1 : TriggersAt sim t0 dt st k c ↔ RefreshedAt sim t0 dt st k r.obj r.key := by
    unfold TriggersAt RefreshedAt SomethingNew
    rw [hdecl, hy]
    constructor
    · rintro (h | h | ⟨d', hd', x, hx, g, hg, hle⟩)
      · simp at h
      · have := (h d (by simp)).1; rw [hopt] at this; cases this
      · simp only [List.mem_singleton] at hd'
        subst hd'
        rw [hsync] at hx
        cases hx
        exact ⟨y, by simp, g, hg, hle⟩
    · rintro ⟨x, hx, g, hg, hle⟩
      simp only [List.mem_singleton] at hx
      subst hx
      exact Or.inr (Or.inr ⟨d, by simp, x, by rw [hsync]; exact Sees.one _, g, hg, hle⟩)
  refine ⟨h1, ?_⟩
  constructor
  · intro ht
    have hs := (hrun k).1 c hc
    obtain ⟨v, hv⟩ := hrel.refresh (t0 + k * dt) (syncInputs sim (st k) (st (k + 1)) c) (st k c)
    refine ⟨{ gen := some (t0 + k * dt), val := v }, ?_, _, rfl, le_refl _⟩
    rw [hs]
    unfold objStep
    unfold TriggersAt at ht
    rw [if_pos ht, hv]
    simp
  · rintro ⟨x, hx, g, hg, hle⟩
    by_contra hnt
    have hs := (hrun k).1 c hc
    unfold objStep at hs
    unfold TriggersAt at hnt
    rw [if_neg hnt] at hs
    rw [hs] at hx
    have := hstale key x hx g hg
    omega

/-- **C20** (chains).  In a simulation run by the library, along a chain of relays of any length
(`chain i` reads output `keys i` of `chain (i-1)`), every object is triggered exactly in the iterations in which the
output of the source is refreshed. -/
theorem C20_chain_rate (sim : Sim σ ν) (hdict : IsDict sim.params) (hdel : DelaysOk sim.params)
    (order : List (String × Nat)) (left : Params) (h : buildTriggerOrder sim.params = some (order, left))
    (hsafe : SameIndexSafe sim order) (t0 dt : Int) (hdt : 0 < dt) (m0 : Mem σ ν)
    (n : Nat) (chain : Nat → String) (keys : Nat → Option String)
    (hrun : ∀ i, i < n → chain (i + 1) ∈ order.map (·.1) ∧ sim.isProc (chain (i + 1)) = true)
    (hrel : ∀ i, i < n → ∃ r, r.obj = chain i ∧ r.key = keys i ∧ Relay sim (chain (i + 1)) r (keys (i + 1)))
    (hstamp : ∀ i, i < n → StampsNow (sim.beh (chain (i + 1))))
    (hinit : ∀ i, i < n → StaleBefore (sim.beh (chain (i + 1))) (m0 (chain (i + 1))).st t0)
    (hone : ∀ i, i < n → ∀ s, ∃ x, (sim.beh (chain i)).out s (keys i) = [x]) :
    let st := fun k c => (runIters sim (fillTriggers sim order) t0 dt m0 k c).st
    ∀ k i, i < n → (TriggersAt sim t0 dt st k (chain (i + 1)) ↔ RefreshedAt sim t0 dt st k (chain 0) (keys 0)) := by
  intro st k
  have hsync : ∀ k : Nat, SyncStep sim (fun c => c ∈ order.map (·.1) ∧ sim.isProc c = true) (t0 + k * dt) (st k) (st (k + 1)) :=
    fun k => C05_loop_is_synchronous_dataflow sim hdict hdel order left h hsafe t0 dt m0 k
  have key : ∀ i, i < n → (TriggersAt sim t0 dt st k (chain (i + 1)) ↔ RefreshedAt sim t0 dt st k (chain i) (keys i)) ∧
      (TriggersAt sim t0 dt st k (chain (i + 1)) ↔ RefreshedAt sim t0 dt st k (chain (i + 1)) (keys (i + 1))) := by
    intro i hi
    obtain ⟨r, hr1, hr2, hr3⟩ := hrel i hi
    have hst := stale_invariant sim _ t0 dt hdt st hsync (chain (i + 1)) (hstamp i hi) (hinit i hi) k
    have := relay_step sim _ t0 dt st hsync (chain (i + 1)) r (keys (i + 1)) hr3 (hrun i hi) k
      (by rw [hr1, hr2]; exact hone i hi _) hst
    rw [hr1, hr2] at this
    exact this
  intro i
  induction i with
  | zero => intro hi; exact (key 0 hi).1
  | succ i ih => intro hi; rw [(key (i + 1) hi).1, ← (key i (by omega)).2]; exact ih (by omega)

/-- **C20** (delayed inputs only).  If every object stamps its outputs with the current time and all the configured
inputs of `c` are delayed, `c` (having some required or connected input) is never triggered, in any iteration. -/
theorem C20_delayed_only_never_triggers (sim : Sim σ ν) (hdict : IsDict sim.params) (hdel : DelaysOk sim.params)
    (order : List (String × Nat)) (left : Params) (h : buildTriggerOrder sim.params = some (order, left))
    (hsafe : SameIndexSafe sim order) (t0 dt : Int) (hdt : 0 < dt) (m0 : Mem σ ν) (c : String)
    (hstamp : ∀ a, StampsNow (sim.beh a)) (hinit : ∀ a, StaleBefore (sim.beh a) (m0 a).st t0)
    (hins : (sim.beh c).decls ≠ [])
    (hset : ∃ d ∈ (sim.beh c).decls, d.optional = false)
    (hdelayed : ∀ d ∈ (sim.beh c).decls, ∀ r ∈ refsOf (sim.pars c) d, r.delay < 0) (k : Nat) :
    ¬ TriggersAt sim t0 dt (fun k c => (runIters sim (fillTriggers sim order) t0 dt m0 k c).st) k c := by
  have hsync : ∀ k : Nat, SyncStep sim (fun c => c ∈ order.map (·.1) ∧ sim.isProc c = true) (t0 + k * dt)
      ((fun k c => (runIters sim (fillTriggers sim order) t0 dt m0 k c).st) k)
      ((fun k c => (runIters sim (fillTriggers sim order) t0 dt m0 k c).st) (k + 1)) :=
    fun k => C05_loop_is_synchronous_dataflow sim hdict hdel order left h hsafe t0 dt m0 k
  generalize hst : (fun k c => (runIters sim (fillTriggers sim order) t0 dt m0 k c).st) = st at *
  have hst0 : ∀ a, st 0 a = (m0 a).st := fun a => by rw [← hst]; rfl
  rintro (h | h | ⟨d, hd, x, hx, g, hg, hle⟩)
  · exact hins h
  · obtain ⟨d, hd, h1⟩ := hset
    have := (h d hd).1; rw [h1] at this; cases this
  · obtain ⟨r, hr, hxr⟩ := sees_gather hx
    have hneg := hdelayed d hd r hr
    rw [if_neg (by omega)] at hxr
    have := stale_invariant sim _ t0 dt hdt st hsync r.obj (hstamp _) (by rw [hst0]; exact hinit _) k r.key x hxr g hg
    omega

/-! ### concrete case -/

theorem adder_stamps (decls : List InDecl) : StampsNow (adder decls) := by
  intro t ins s key x hx
  simp only [adder, List.mem_singleton] at hx
  left; rw [hx]

/-- The chain prop → wfs → control → dm of the closed loop satisfies the hypotheses of C20, so in every iteration the
mirror is triggered exactly if the propagation has a new output. -/
example (k : Nat) :
    let m0 : Mem (Item Int) Int := fun _ => { st := { gen := some (-1), val := 0 }, changed := false, copy := fun _ => [] }
    let st := fun k c => (runIters scaoSim (fillTriggers scaoSim scaoOrder) 0 1000 m0 k c).st
    (TriggersAt scaoSim 0 1000 st k "dm" ↔ RefreshedAt scaoSim 0 1000 st k "prop" (some "out_ef")) := by
  intro m0 st
  let chain : Nat → String := fun i => ["prop", "wfs", "control", "dm"].getD i ""
  let keys : Nat → Option String := fun i => [some "out_ef", some "out_modes", some "out_comm", some "out_layer"].getD i none
  have := C20_chain_rate scaoSim scao_isDict scao_delaysOk _ _ scao_order (scaoSim_safe _) 0 1000 (by decide) m0 3
    chain keys
    (by intro i hi; obtain rfl | rfl | rfl : i = 0 ∨ i = 1 ∨ i = 2 := by omega
        all_goals exact ⟨by decide, rfl⟩)
    (by intro i hi; obtain rfl | rfl | rfl : i = 0 ∨ i = 1 ∨ i = 2 := by omega
        · exact ⟨{ obj := "prop", key := some "out_ef" }, rfl, rfl, ⟨_, rfl, rfl, rfl, rfl⟩, rfl, fun t ins s => ⟨_, rfl⟩⟩
        · exact ⟨{ obj := "wfs", key := some "out_modes" }, rfl, rfl, ⟨_, rfl, rfl, rfl, rfl⟩, rfl, fun t ins s => ⟨_, rfl⟩⟩
        · exact ⟨{ obj := "control", key := some "out_comm" }, rfl, rfl, ⟨_, rfl, rfl, rfl, rfl⟩, rfl, fun t ins s => ⟨_, rfl⟩⟩)
    (by intro i hi; obtain rfl | rfl | rfl : i = 0 ∨ i = 1 ∨ i = 2 := by omega
        all_goals exact adder_stamps _)
    (by intro i hi; obtain rfl | rfl | rfl : i = 0 ∨ i = 1 ∨ i = 2 := by omega
        all_goals
          intro key x hx g hg
          have : x = { gen := some (-1), val := 0 } := List.mem_singleton.1 hx
          subst this
          cases hg
          decide)
    (by intro i hi s; obtain rfl | rfl | rfl : i = 0 ∨ i = 1 ∨ i = 2 := by omega
        all_goals exact ⟨s, rfl⟩)
    k 2 (by decide)
  exact this

end Specula
