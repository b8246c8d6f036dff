import Verif.Spec.Mpi
import Mathlib.Data.List.Basic
import Mathlib.Tactic.Linarith
import Mathlib.Tactic.ByContra
import Mathlib.Tactic.Push
/-
Progress and delivery for processes that follow a common canonical order of events.
-/
namespace Specula

/-- events of one rank -/
def proj (r : Nat) (G : List (Nat × Ev)) : List Ev := (G.filter fun x => decide (x.1 = r)).map (·.2)

def sendsOn (c : Nat) (l : List Ev) : List Stamp :=
  l.filterMap fun e => match e with | .send c' s => if c' = c then some s else none | _ => none

def recvsOn (c : Nat) (l : List Ev) : List Stamp :=
  l.filterMap fun e => match e with | .recv c' w => if c' = c then some w else none | _ => none

def logOn (c : Nat) (l : List (Nat × Stamp × Stamp)) : List (Stamp × Stamp) :=
  l.filterMap fun x => if x.1 = c then some x.2 else none

def untag (G : List (Nat × Ev)) : List Ev := G.map (·.2)

@[simp] theorem proj_nil (r : Nat) : proj r [] = [] := rfl
theorem proj_cons (r : Nat) (x : Nat × Ev) (G : List (Nat × Ev)) :
    proj r (x :: G) = if x.1 = r then x.2 :: proj r G else proj r G := by
  unfold proj; by_cases h : x.1 = r <;> simp [h]
theorem proj_append (r : Nat) (a b : List (Nat × Ev)) : proj r (a ++ b) = proj r a ++ proj r b := by
  simp [proj]
theorem sendsOn_append (c : Nat) (a b : List Ev) : sendsOn c (a ++ b) = sendsOn c a ++ sendsOn c b := by
  simp [sendsOn]
theorem recvsOn_append (c : Nat) (a b : List Ev) : recvsOn c (a ++ b) = recvsOn c a ++ recvsOn c b := by
  simp [recvsOn]

/-- A canonical order: every channel has one sending and one receiving rank, and in that order every receive finds a message
and every wait follows the arrivals. -/
structure Canon (R : Nat) (G : List (Nat × Ev)) (src dst : Nat → Nat) : Prop where
  ranks : ∀ x ∈ G, x.1 < R
  src : ∀ r c s, (r, Ev.send c s) ∈ G → r = src c
  dst : ∀ r c w, (r, Ev.recv c w) ∈ G → r = dst c
  recvOk : ∀ G1 r c w G2, G = G1 ++ (r, Ev.recv c w) :: G2 → (recvsOn c (untag G1)).length < (sendsOn c (untag G1)).length
  waitOk : ∀ G1 r m G2, G = G1 ++ (r, Ev.wait m) :: G2 → ∀ r' < R, m ≤ (proj r' G1).count .arrive

theorem mem_proj {r : Nat} {e : Ev} {G : List (Nat × Ev)} : e ∈ proj r G ↔ (r, e) ∈ G := by
  unfold proj
  simp only [List.mem_map, List.mem_filter, decide_eq_true_eq, Prod.exists]
  constructor
  · rintro ⟨a, b, ⟨h, rfl⟩, rfl⟩; exact h
  · intro h; exact ⟨r, e, ⟨h, rfl⟩, rfl⟩

theorem sendsOn_untag {src : Nat} {c : Nat} {G : List (Nat × Ev)} (h : ∀ r s, (r, Ev.send c s) ∈ G → r = src) :
    sendsOn c (untag G) = sendsOn c (proj src G) := by
  induction G with
  | nil => rfl
  | cons x G ih =>
    obtain ⟨r, e⟩ := x
    have ih := ih fun r s hr => h r s (List.mem_cons_of_mem _ hr)
    rw [proj_cons]
    simp only [untag, List.map_cons] at ih ⊢
    by_cases hr : r = src
    · simp only [hr, if_true]
      simp only [sendsOn, List.filterMap_cons] at ih ⊢
      split <;> simp [ih]
    · simp only [hr, if_false]
      rw [← ih]
      simp only [sendsOn, List.filterMap_cons]
      cases e with
      | send c' s =>
        by_cases hc : c' = c
        · subst hc; exact absurd (h r s (by simp)) hr
        · simp [hc]
      | recv c' w => rfl
      | arrive => rfl
      | wait m => rfl

theorem recvsOn_untag {dst : Nat} {c : Nat} {G : List (Nat × Ev)} (h : ∀ r s, (r, Ev.recv c s) ∈ G → r = dst) :
    recvsOn c (untag G) = recvsOn c (proj dst G) := by
  induction G with
  | nil => rfl
  | cons x G ih =>
    obtain ⟨r, e⟩ := x
    have ih := ih fun r s hr => h r s (List.mem_cons_of_mem _ hr)
    rw [proj_cons]
    simp only [untag, List.map_cons] at ih ⊢
    by_cases hr : r = dst
    · simp only [hr, if_true]
      simp only [recvsOn, List.filterMap_cons] at ih ⊢
      split <;> simp [ih]
    · simp only [hr, if_false]
      rw [← ih]
      simp only [recvsOn, List.filterMap_cons]
      cases e with
      | recv c' s =>
        by_cases hc : c' = c
        · subst hc; exact absurd (h r s (by simp)) hr
        · simp [hc]
      | send c' w => rfl
      | arrive => rfl
      | wait m => rfl

/-- the earliest event of the canonical order that has not been executed -/
theorem first_pending (R : Nat) (G : List (Nat × Ev)) (hR : ∀ x ∈ G, x.1 < R) (dn rm : Nat → List Ev)
    (h : ∀ r, proj r G = dn r ++ rm r) :
    (∀ r, rm r = []) ∨
    ∃ G1 r e G2 t, G = G1 ++ (r, e) :: G2 ∧ rm r = e :: t ∧ proj r G1 = dn r ∧ ∀ r', proj r' G1 <+: dn r' := by
  induction G generalizing dn with
  | nil =>
    left; intro r
    have := h r
    simp only [proj_nil] at this
    exact (List.append_eq_nil_iff.1 this.symm).2
  | cons x G ih =>
    obtain ⟨r0, e0⟩ := x
    cases hd : dn r0 with
    | nil =>
      right
      have := h r0
      rw [hd, proj_cons] at this
      simp only [if_true, List.nil_append] at this
      exact ⟨[], r0, e0, G, proj r0 G, rfl, this.symm, by simp [hd], fun r' => by simp⟩
    | cons e' d' =>
      have h0 := h r0
      rw [hd, proj_cons] at h0
      simp only [if_true, List.cons_append, List.cons.injEq] at h0
      obtain ⟨rfl, h0⟩ := h0
      rcases ih (fun x hx => hR x (List.mem_cons_of_mem _ hx)) (fun r => if r = r0 then d' else dn r) (by
        intro r
        by_cases hr : r = r0
        · subst hr; simpa using h0
        · have := h r
          rw [proj_cons] at this
          simp only [Ne.symm hr, if_false] at this
          simpa [hr] using this) with hall | ⟨G1, r, e, G2, t, h1, h2, h3, h4⟩
      · exact Or.inl hall
      · right
        refine ⟨(r0, e0) :: G1, r, e, G2, t, by rw [h1]; rfl, h2, ?_, fun r' => ?_⟩
        · rw [proj_cons]
          by_cases hr : r = r0
          · subst hr; simp only [if_true]; rw [h3]; simp [hd]
          · simp only [Ne.symm hr, if_false]; rw [h3]; simp [hr]
        · rw [proj_cons]
          have := h4 r'
          by_cases hr : r' = r0
          · subst hr
            simp only [if_true] at this ⊢
            rw [hd]
            exact (List.prefix_cons_inj _).2 this
          · simp only [hr, if_false] at this
            simpa [Ne.symm hr] using this

/-- What a reachable state looks like. -/
structure NetInv (G : List (Nat × Ev)) (src dst : Nat → Nat) (n : Net) (dn : Nat → List Ev) : Prop where
  split : ∀ r, proj r G = dn r ++ n.rem r
  arrived : ∀ r, n.arrived r = (dn r).count .arrive
  chan : ∀ c, ∃ got, sendsOn c (dn (src c)) = got ++ n.ch c ∧ got.length = (recvsOn c (dn (dst c))).length ∧
    logOn c n.log = (recvsOn c (dn (dst c))).zip got

theorem netInv_step {R : Nat} {G : List (Nat × Ev)} {src dst : Nat → Nat} (hG : Canon R G src dst) {n n' : Net} {dn : Nat → List Ev}
    (hi : NetInv G src dst n dn) (hs : Step R n n') : ∃ dn', NetInv G src dst n' dn' := by
  cases hs with
  | @send r c s t hr h =>
    have hmem : (r, Ev.send c s) ∈ G := mem_proj.1 (by rw [hi.split r, h]; simp)
    have hsrc := hG.src _ _ _ hmem
    refine ⟨upd dn r (dn r ++ [.send c s]), ⟨?_, ?_, ?_⟩⟩
    · intro r'
      by_cases hr' : r' = r
      · subst hr'; simp [upd, hi.split r', h]
      · simp [upd, hr', hi.split r']
    · intro r'
      by_cases hr' : r' = r
      · subst hr'; simp [upd, hi.arrived]
      · simp [upd, hr', hi.arrived]
    · intro c'
      obtain ⟨got, h1, h2, h3⟩ := hi.chan c'
      have hrec : recvsOn c' (upd dn r (dn r ++ [.send c s]) (dst c')) = recvsOn c' (dn (dst c')) := by
        by_cases hd : dst c' = r
        · simp [upd, hd, recvsOn]
        · simp [upd, hd]
      refine ⟨got, ?_, by rw [hrec]; exact h2, by rw [hrec]; exact h3⟩
      by_cases hc : c' = c
      · subst hc
        simp only [upd, ← hsrc, if_true, sendsOn_append]
        rw [← hsrc] at h1
        rw [h1]; simp [sendsOn]
      · by_cases hd : src c' = r
        · simp only [upd, hd, if_true, sendsOn_append, hc, if_false]
          rw [hd] at h1
          rw [h1]; simp [sendsOn, Ne.symm hc]
        · simp [upd, hd, hc, h1]
  | @recv r c w s t q hr h hc0 =>
    have hmem : (r, Ev.recv c w) ∈ G := mem_proj.1 (by rw [hi.split r, h]; simp)
    have hdst := hG.dst _ _ _ hmem
    refine ⟨upd dn r (dn r ++ [.recv c w]), ⟨?_, ?_, ?_⟩⟩
    · intro r'
      by_cases hr' : r' = r
      · subst hr'; simp [upd, hi.split r', h]
      · simp [upd, hr', hi.split r']
    · intro r'
      by_cases hr' : r' = r
      · subst hr'; simp [upd, hi.arrived]
      · simp [upd, hr', hi.arrived]
    · intro c'
      obtain ⟨got, h1, h2, h3⟩ := hi.chan c'
      have hsnd : sendsOn c' (upd dn r (dn r ++ [.recv c w]) (src c')) = sendsOn c' (dn (src c')) := by
        by_cases hd : src c' = r
        · simp [upd, hd, sendsOn]
        · simp [upd, hd]
      by_cases hc : c' = c
      · subst hc
        refine ⟨got ++ [s], ?_, ?_, ?_⟩
        · rw [hsnd, h1, hc0]; simp [upd]
        · simp only [upd, ← hdst, if_true, recvsOn_append]
          rw [← hdst] at h2
          rw [List.length_append, List.length_append, h2]; simp [recvsOn]
        · simp only [upd, ← hdst, if_true, recvsOn_append]
          rw [← hdst] at h2 h3
          rw [List.zip_append h2.symm, ← h3]
          simp [logOn, recvsOn]
      · refine ⟨got, ?_, ?_, ?_⟩
        · rw [hsnd]; simp [upd, hc, h1]
        · by_cases hd : dst c' = r
          · simp only [upd, hd, if_true, recvsOn_append]
            rw [hd] at h2
            rw [List.length_append, h2]; simp [recvsOn, Ne.symm hc]
          · simp [upd, hd, h2]
        · have hl : logOn c' (n.log ++ [(c, w, s)]) = logOn c' n.log := by simp [logOn, Ne.symm hc]
          rw [hl, h3]
          by_cases hd : dst c' = r
          · simp [upd, hd, recvsOn, Ne.symm hc]
          · simp [upd, hd]
  | @arrive r t hr h =>
    refine ⟨upd dn r (dn r ++ [.arrive]), ⟨?_, ?_, ?_⟩⟩
    · intro r'
      by_cases hr' : r' = r
      · subst hr'; simp [upd, hi.split r', h]
      · simp [upd, hr', hi.split r']
    · intro r'
      by_cases hr' : r' = r
      · subst hr'; simp [upd, hi.arrived]
      · simp [upd, hr', hi.arrived]
    · intro c'
      obtain ⟨got, h1, h2, h3⟩ := hi.chan c'
      have hrec : recvsOn c' (upd dn r (dn r ++ [.arrive]) (dst c')) = recvsOn c' (dn (dst c')) := by
        by_cases hd : dst c' = r
        · simp [upd, hd, recvsOn]
        · simp [upd, hd]
      have hsnd : sendsOn c' (upd dn r (dn r ++ [.arrive]) (src c')) = sendsOn c' (dn (src c')) := by
        by_cases hd : src c' = r
        · simp [upd, hd, sendsOn]
        · simp [upd, hd]
      exact ⟨got, by rw [hsnd]; exact h1, by rw [hrec]; exact h2, by rw [hrec]; exact h3⟩
  | @wait r m t hr h hall =>
    refine ⟨upd dn r (dn r ++ [.wait m]), ⟨?_, ?_, ?_⟩⟩
    · intro r'
      by_cases hr' : r' = r
      · subst hr'; simp [upd, hi.split r', h]
      · simp [upd, hr', hi.split r']
    · intro r'
      by_cases hr' : r' = r
      · subst hr'; simp [upd, hi.arrived]
      · simp [upd, hr', hi.arrived]
    · intro c'
      obtain ⟨got, h1, h2, h3⟩ := hi.chan c'
      have hrec : recvsOn c' (upd dn r (dn r ++ [.wait m]) (dst c')) = recvsOn c' (dn (dst c')) := by
        by_cases hd : dst c' = r
        · simp [upd, hd, recvsOn]
        · simp [upd, hd]
      have hsnd : sendsOn c' (upd dn r (dn r ++ [.wait m]) (src c')) = sendsOn c' (dn (src c')) := by
        by_cases hd : src c' = r
        · simp [upd, hd, sendsOn]
        · simp [upd, hd]
      exact ⟨got, by rw [hsnd]; exact h1, by rw [hrec]; exact h2, by rw [hrec]; exact h3⟩

theorem netInv_reach {R : Nat} {G : List (Nat × Ev)} {src dst : Nat → Nat} (hG : Canon R G src dst) {n0 n : Net}
    (h0 : n0.rem = (fun r => proj r G)) (h1 : n0.ch = fun _ => []) (h2 : n0.arrived = fun _ => 0) (h3 : n0.log = [])
    (h : Reach R n0 n) : ∃ dn, NetInv G src dst n dn := by
  induction h with
  | refl =>
    refine ⟨fun _ => [], ⟨fun r => by rw [h0]; rfl, fun r => by rw [h2]; rfl, fun c => ⟨[], by rw [h1]; rfl, rfl, ?_⟩⟩⟩
    rw [h3]; rfl
  | step _ hs ih =>
    obtain ⟨dn, hi⟩ := ih
    exact netInv_step hG hi hs

/-- Progress. -/
theorem netInv_progress {R : Nat} {G : List (Nat × Ev)} {src dst : Nat → Nat} (hG : Canon R G src dst) {n : Net}
    {dn : Nat → List Ev} (hi : NetInv G src dst n dn) : (∀ r, n.rem r = []) ∨ ∃ n', Step R n n' := by
  rcases first_pending R G hG.ranks dn n.rem hi.split with h | ⟨G1, r, e, G2, t, hg, hrem, hdn, hpre⟩
  · exact Or.inl h
  right
  have hr : r < R := hG.ranks (r, e) (by rw [hg]; simp)
  cases e with
  | send c s => exact ⟨_, .send hr hrem⟩
  | arrive => exact ⟨_, .arrive hr hrem⟩
  | wait m =>
    refine ⟨_, .wait hr hrem fun r' hr' => ?_⟩
    have h1 := hG.waitOk G1 r m G2 hg r' hr'
    rw [hi.arrived]
    exact le_trans h1 ((hpre r').sublist.count_le _)
  | recv c w =>
    have h1 := hG.recvOk G1 r c w G2 hg
    have hd : r = dst c := hG.dst r c w (by rw [hg]; simp)
    have hs1 : sendsOn c (untag G1) = sendsOn c (proj (src c) G1) :=
      sendsOn_untag fun r s h => hG.src r c s (by rw [hg]; simp [h])
    have hr1 : recvsOn c (untag G1) = recvsOn c (proj (dst c) G1) :=
      recvsOn_untag fun r s h => hG.dst r c s (by rw [hg]; simp [h])
    rw [hs1, hr1, ← hd, hdn] at h1
    obtain ⟨got, hg1, hg2, -⟩ := hi.chan c
    obtain ⟨rest, hrest⟩ := hpre (src c)
    rw [← hrest, sendsOn_append] at hg1
    have hlen := congrArg List.length hg1
    simp only [List.length_append] at hlen
    rw [← hd] at hg2
    cases hch : n.ch c with
    | nil => rw [hch] at hlen; simp at hlen; omega
    | cons s q => exact ⟨_, .recv hr hrem hch⟩

/-- Deliveries. -/
theorem netInv_log {R : Nat} {G : List (Nat × Ev)} {src dst : Nat → Nat} (hG : Canon R G src dst) {n : Net}
    {dn : Nat → List Ev} (hi : NetInv G src dst n dn) {c : Nat} {w s : Stamp} (h : (c, w, s) ∈ n.log) :
    (w, s) ∈ (recvsOn c (untag G)).zip (sendsOn c (untag G)) := by
  have hl : (w, s) ∈ logOn c n.log := by
    unfold logOn; rw [List.mem_filterMap]; exact ⟨(c, w, s), h, by simp⟩
  obtain ⟨got, h1, h2, h3⟩ := hi.chan c
  rw [sendsOn_untag fun r s h => hG.src r c s h, recvsOn_untag fun r s h => hG.dst r c s h, hi.split, hi.split,
    sendsOn_append, recvsOn_append, h1, List.append_assoc, List.zip_append h2.symm]
  rw [h3] at hl
  exact List.mem_append_left _ hl

/-- When everything is done, what is left in a channel is what has been sent and is not received. -/
theorem netInv_done {R : Nat} {G : List (Nat × Ev)} {src dst : Nat → Nat} (hG : Canon R G src dst) {n : Net}
    {dn : Nat → List Ev} (hi : NetInv G src dst n dn) (hd : ∀ r, n.rem r = []) (c : Nat) :
    (sendsOn c (untag G)).length = (recvsOn c (untag G)).length + (n.ch c).length ∧
    logOn c n.log = (recvsOn c (untag G)).zip (sendsOn c (untag G)) := by
  obtain ⟨got, h1, h2, h3⟩ := hi.chan c
  rw [sendsOn_untag fun r s h => hG.src r c s h, recvsOn_untag fun r s h => hG.dst r c s h, hi.split, hi.split,
    hd, hd, List.append_nil, List.append_nil, h1, List.length_append, h2, h3]
  refine ⟨rfl, ?_⟩
  conv_rhs => rw [← List.append_nil (recvsOn c (dn (dst c))), List.zip_append h2.symm]
  simp

end Specula
