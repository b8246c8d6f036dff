import Verif.Lemmas.MpiRun
import Verif.Props.LoopControl
import Mathlib.Algebra.BigOperators.Group.Finset.Basic
import Mathlib.Algebra.BigOperators.Fin
import Mathlib.Tactic.IntervalCases
/-
C15: distributed runs do not deadlock, deliver the right values and leave no message behind.
-/
namespace Specula

/-- Flags of the iterations of a run of `n` steps from time 0 (C18). -/
theorem run_flags (dt : Int) (hdt : 0 < dt) (n : Nat) {log : List (Int × Bool)} {fin : LoopCtl}
    (h : LoopCtl.runFuel n (LoopCtl.start (n * dt) dt 0 0) = some (log, fin)) : log.map (·.2) = goodFlags n := by
  obtain ⟨fin', h', -⟩ := C18_niters_correct dt hdt n
  rw [h'] at h
  simp only [Option.some.injEq, Prod.mk.injEq] at h
  rw [← h.1, List.map_map]
  cases n with
  | zero => rfl
  | succ n =>
    rw [List.range_succ, List.map_append, goodFlags]
    congr 1
    · rw [List.eq_replicate_iff]
      refine ⟨by simp, fun b hb => ?_⟩
      obtain ⟨k, hk, rfl⟩ := List.mem_map.1 hb
      have := List.mem_range.1 hk
      simp; omega
    · simp

theorem goodFlags_lastOnly (n : Nat) : LastOnly (goodFlags n) := by
  cases n with
  | zero => simp [goodFlags, LastOnly]
  | succ n => simp [goodFlags, LastOnly]

theorem goodFlags_length (n : Nat) : (goodFlags n).length = n := by cases n <;> simp [goodFlags]

theorem goodFlags_count (n : Nat) : (goodFlags n).count false = n - 1 := by cases n <;> simp [goodFlags]

theorem initial_rem {es : List MElem} {R B : Nat} (hw : Wired es R B) (flags : List Bool) :
    (Net.initial es R B flags).rem = fun r => proj r (runEvents es (List.range R) B flags) := by
  funext r
  simp only [Net.initial]
  by_cases hr : r < R
  · rw [if_pos hr, program_eq es R B flags r hr]
  · rw [if_neg hr]
    symm
    rw [List.eq_nil_iff_forall_not_mem]
    intro e he
    rw [mem_proj] at he
    rcases mem_run he with ⟨e', h', sk, dl, s, hx⟩ | ⟨e', h', w, hx⟩ | ⟨h', -⟩
    · have := sendOutputs_rank _ _ _ _ _ hx; have := hw.ranks _ h'; simp at *; omega
    · have := recvInputs_rank _ _ _ hx; have := hw.ranks _ h'; simp at *; omega
    · exact hr (List.mem_range.1 h')

theorem reach_inv {es : List MElem} {R B : Nat} (hw : Wired es R B) {flags : List Bool} (hl : LastOnly flags) {net : Net}
    (h : Reach R (Net.initial es R B flags) net) :
    ∃ dn, NetInv (runEvents es (List.range R) B flags) (srcOf es) (dstOf es) net dn :=
  netInv_reach (run_canon hw flags hl) (initial_rem hw flags) rfl rfl rfl h

/-- **C15** (no deadlock).  In a run of `n` iterations from time 0, whatever the processes have done so far, either all of
them have finished or one of them can go on. -/
theorem C15_no_deadlock {es : List MElem} {R B : Nat} (hw : Wired es R B) (dt : Int) (hdt : 0 < dt) (n : Nat)
    {log : List (Int × Bool)} {fin : LoopCtl} (hrun : LoopCtl.runFuel n (LoopCtl.start (n * dt) dt 0 0) = some (log, fin))
    {net : Net} (h : Reach R (Net.initial es R B (log.map (·.2))) net) : net.done R ∨ ∃ net', Step R net net' := by
  rw [run_flags dt hdt n hrun] at h
  have hl := goodFlags_lastOnly n
  obtain ⟨dn, hi⟩ := reach_inv hw hl h
  rcases netInv_progress (run_canon hw _ hl) hi with h | h
  · exact Or.inl fun r _ => h r
  · exact Or.inr h

/-- Remaining work. -/
def Net.work (R : Nat) (net : Net) : Nat := ((List.range R).map fun r => (net.rem r).length).sum

theorem work_upd (R : Nat) (f : Nat → List Ev) (r : Nat) (hr : r < R) (e : Ev) (t : List Ev) (h : f r = e :: t) :
    ((List.range R).map fun x => (f x).length).sum = ((List.range R).map fun x => (upd f r t x).length).sum + 1 := by
  induction R with
  | zero => omega
  | succ R ih =>
    simp only [List.range_succ, List.map_append, List.sum_append, List.map_cons, List.map_nil, List.sum_cons, List.sum_nil]
    by_cases hR : r = R
    · subst hR
      have : ((List.range r).map fun x => (upd f r t x).length) = (List.range r).map fun x => (f x).length := by
        apply List.map_congr_left
        intro x hx
        have := List.mem_range.1 hx
        have hne : x ≠ r := by omega
        simp [upd, hne]
      rw [this, h]
      simp [upd]; omega
    · have h1 := ih (by omega)
      have : upd f r t R = f R := by simp [upd, Ne.symm hR]
      rw [h1, this]; omega

/-- **C15** (termination).  Every step uses up one of the finitely many actions, so no run goes on for ever. -/
theorem C15_terminates {R : Nat} {net net' : Net} (h : Step R net net') : net.work R = net'.work R + 1 := by
  cases h with
  | send hr h => exact work_upd R _ _ hr _ _ h
  | recv hr h _ => exact work_upd R _ _ hr _ _ h
  | arrive hr h => exact work_upd R _ _ hr _ _ h
  | wait hr h _ => exact work_upd R _ _ hr _ _ h

/-- **C15** (completion).  From every reachable state the run can be, and by the two theorems above will be, completed. -/
theorem C15_completes {es : List MElem} {R B : Nat} (hw : Wired es R B) (dt : Int) (hdt : 0 < dt) (n : Nat)
    {log : List (Int × Bool)} {fin : LoopCtl} (hrun : LoopCtl.runFuel n (LoopCtl.start (n * dt) dt 0 0) = some (log, fin))
    {net : Net} (h : Reach R (Net.initial es R B (log.map (·.2))) net) :
    ∃ net', Reach R (Net.initial es R B (log.map (·.2))) net' ∧ net'.done R := by
  generalize hk : net.work R = k
  induction k using Nat.strongRecOn generalizing net with
  | ind k ih =>
    rcases C15_no_deadlock hw dt hdt n hrun h with hd | ⟨net', hs⟩
    · exact ⟨net, h, hd⟩
    · have := C15_terminates hs
      exact ih (net'.work R) (by omega) (h.step hs) rfl

theorem wired_ends {es : List MElem} {R B : Nat} (hw : Wired es R B) {c : Nat} (hc : ∃ e ∈ es, c ∈ e.recvs) :
    ∃ p ∈ es, ∃ dly, (c, dly) ∈ p.sends ∧ (DelayedChan es c ↔ dly < 0) := by
  obtain ⟨d, hd, hcd⟩ := hc
  have := (hw.paired c).2 (List.mem_flatMap.2 ⟨d, hd, hcd⟩)
  obtain ⟨p, hp, hcp⟩ := List.mem_flatMap.1 this
  obtain ⟨⟨c', dly⟩, hcp', rfl⟩ := List.mem_map.1 hcp
  refine ⟨p, hp, dly, hcp', ⟨?_, fun h => ⟨p, hp, dly, hcp', h⟩⟩⟩
  rintro ⟨p', hp', dly', h1, h2⟩
  have hpp : p' = p := owner_unique (f := fun e => e.sends.map (·.1)) hw.sendOnce hp' hp
    (List.mem_map.2 ⟨_, h1, rfl⟩) hcp
  subst hpp
  have hnd := sends_nodup hw hp
  have h3 := List.inj_on_of_nodup_map hnd h1 hcp' rfl
  simp only [Prod.mk.injEq, true_and] at h3
  omega

/-- **C15** (right values).  Every value ever received is the one the link should deliver at that moment: in iteration `k` the
value of iteration `k` over an undelayed link and of iteration `k - 1` (before: of the setup) over a delayed one. -/
theorem C15_delivered {es : List MElem} {R B : Nat} (hw : Wired es R B) (dt : Int) (hdt : 0 < dt) (n : Nat)
    {log : List (Int × Bool)} {fin : LoopCtl} (hrun : LoopCtl.runFuel n (LoopCtl.start (n * dt) dt 0 0) = some (log, fin))
    {net : Net} (h : Reach R (Net.initial es R B (log.map (·.2))) net) {c : Nat} {w s : Stamp} (hm : (c, w, s) ∈ net.log) :
    Delivers (DelayedChan es c) w s := by
  rw [run_flags dt hdt n hrun] at h
  have hl := goodFlags_lastOnly n
  obtain ⟨dn, hi⟩ := reach_inv hw hl h
  have hz := netInv_log (run_canon hw _ hl) hi hm
  have hr : w ∈ recvsOn c (untag (runEvents es (List.range R) B (goodFlags n))) := (List.of_mem_zip hz).1
  rw [recvsOn, List.mem_filterMap] at hr
  obtain ⟨e, he, hr⟩ := hr
  cases e with
  | recv c' w' =>
    simp only [Option.ite_none_right_eq_some, Option.some.injEq] at hr
    obtain ⟨rfl, rfl⟩ := hr
    obtain ⟨⟨r, e⟩, hx, he'⟩ := List.mem_map.1 he
    simp only at he'
    subst he'
    obtain ⟨d, hd, hcd, -⟩ := mem_run_recv hx
    obtain ⟨p, hp, dly, hcp, hiff⟩ := wired_ends hw ⟨d, hd, hcd⟩
    have := run_zip hw hp hcp hd hcd (List.range R) _ hl hz
    rw [show DelayedChan es c' = (dly < 0) from propext hiff]
    exact this
  | send c' s => simp at hr
  | arrive => simp at hr
  | wait m => simp at hr

theorem recvs_moments {es : List MElem} {R B : Nat} {p d : MElem} {c : Nat} {dly : Int} (hw : Wired es R B) (hp : p ∈ es)
    (hcp : (c, dly) ∈ p.sends) (hd : d ∈ es) (hcd : c ∈ d.recvs) (rs : List Nat) (flags : List Bool) :
    recvsOn c (untag (runEvents es rs B flags)) = .setup :: (List.range flags.length).map .iter := by
  obtain ⟨X, hX, hx⟩ := run_on hw hp hcp hd hcd rs flags
  have hloop : ∀ k, ((loopOn dly k flags).filter (!·.1)).map (·.2) = (List.range' k flags.length).map .iter := by
    clear hX hx
    induction flags with
    | nil => intro k; rfl
    | cons b l ih =>
      intro k
      simp only [loopOn, List.filter_append, List.map_append, ih, List.length_cons]
      rw [List.range'_succ]
      by_cases h : dly < 0 <;> cases b <;> simp [h]
  rw [recvsOn_eq, hX, List.filter_append, List.map_append, hloop, List.range_eq_range']
  rcases hx with ⟨-, rfl⟩ | ⟨-, rfl | rfl⟩ <;> simp

/-- **C15** (nothing missing, nothing left).  When all processes have finished, every link has been received exactly once in
the setup and once in each iteration, in that order, and no message is left in any channel. -/
theorem C15_all_received {es : List MElem} {R B : Nat} (hw : Wired es R B) (dt : Int) (hdt : 0 < dt) (n : Nat) (hn : 0 < n)
    {log : List (Int × Bool)} {fin : LoopCtl} (hrun : LoopCtl.runFuel n (LoopCtl.start (n * dt) dt 0 0) = some (log, fin))
    {net : Net} (h : Reach R (Net.initial es R B (log.map (·.2))) net) (hdone : net.done R) {c : Nat} (hc : ∃ e ∈ es, c ∈ e.recvs) :
    net.ch c = [] ∧
    (net.log.filter fun x => decide (x.1 = c)).map (fun x => x.2.1) = .setup :: (List.range n).map .iter := by
  rw [run_flags dt hdt n hrun] at h
  have hl := goodFlags_lastOnly n
  obtain ⟨dn, hi⟩ := reach_inv hw hl h
  have hall : ∀ r, net.rem r = [] := by
    intro r
    by_cases hr : r < R
    · exact hdone r hr
    · have := hi.split r
      rw [← initial_rem hw (goodFlags n) |> congrFun (a := r)] at this
      simp only [Net.initial, hr, if_false] at this
      exact (List.append_eq_nil_iff.1 this.symm).2
  obtain ⟨p, hp, dly, hcp, hiff⟩ := wired_ends hw hc
  obtain ⟨d, hd, hcd⟩ := hc
  obtain ⟨h1, h2⟩ := netInv_done (run_canon hw _ hl) hi hall c
  obtain ⟨h3, h4⟩ := run_lengths hw hp hcp hd hcd (List.range R) (goodFlags n)
  rw [goodFlags_length, goodFlags_count] at h4
  rw [goodFlags_length] at h3
  have hlen : (sendsOn c (untag (runEvents es (List.range R) B (goodFlags n)))).length = n + 1 := by
    rw [h4]; split <;> omega
  refine ⟨?_, ?_⟩
  · rw [hlen, h3] at h1
    exact List.length_eq_zero_iff.1 (by omega)
  · have h5 : (net.log.filter fun x => decide (x.1 = c)).map (fun x => x.2.1) = (logOn c net.log).map (·.1) := by
      unfold logOn
      induction net.log with
      | nil => rfl
      | cons x l ih => by_cases hx : x.1 = c <;> simp [hx, ih]
    rw [h5, h2, List.map_fst_zip (by rw [hlen, h3]), recvs_moments hw hp hcp hd hcd, goodFlags_length]

/-! ### Concrete cases -/

/-- Atmosphere (rank 0, index 0) → propagation (rank 0, index 1) → sensor (rank 1, index 2, link 0), and the mirror (rank 1,
index 3) feeding the propagation with a delay (link 1). -/
def mpiElems : List MElem :=
  [{ rank := 0, idx := 0 }, { rank := 0, idx := 1, recvs := [1], sends := [(0, 0)] },
   { rank := 1, idx := 2, recvs := [0] }, { rank := 1, idx := 3, sends := [(1, -1)] }]

theorem mpiElems_wired : Wired mpiElems 2 4 := by
  refine ⟨by decide, by decide, fun c => ?_, ?_, by decide, by decide⟩
  · simp only [mpiElems, List.flatMap_cons, List.flatMap_nil, List.map_cons, List.map_nil, List.append_nil, List.nil_append,
      List.mem_cons, List.not_mem_nil, or_false, List.singleton_append]
    tauto
  · intro p hp d hd c delay h1 h2
    simp only [mpiElems, List.mem_cons, List.not_mem_nil, or_false] at hp hd
    rcases hp with rfl | rfl | rfl | rfl <;> rcases hd with rfl | rfl | rfl | rfl <;> simp_all

example : DelayedChan mpiElems 1 ∧ ∃ e ∈ mpiElems, 0 ∈ e.recvs :=
  ⟨⟨{ rank := 1, idx := 3, sends := [(1, -1)] }, by simp [mpiElems], -1, by simp, by decide⟩, by decide⟩

/-- One step of a given process, if it can make one. -/
def stepRank (R r : Nat) (n : Net) : Option Net :=
  match n.rem r with
  | [] => none
  | .send c s :: t => some { n with rem := upd n.rem r t, ch := upd n.ch c (n.ch c ++ [s]) }
  | .recv c w :: t =>
    match n.ch c with
    | [] => none
    | s :: q => some { n with rem := upd n.rem r t, ch := upd n.ch c q, log := n.log ++ [(c, w, s)] }
  | .arrive :: t => some { n with rem := upd n.rem r t, arrived := upd n.arrived r (n.arrived r + 1) }
  | .wait m :: t => if (List.range R).all (fun r' => decide (m ≤ n.arrived r')) then some { n with rem := upd n.rem r t } else none

theorem stepRank_step {R r : Nat} (hr : r < R) {n n' : Net} (h : stepRank R r n = some n') : Step R n n' := by
  unfold stepRank at h
  split at h
  · simp at h
  · simp only [Option.some.injEq] at h; subst h; exact .send hr (by assumption)
  · split at h
    · simp at h
    · simp only [Option.some.injEq] at h; subst h; exact .recv hr (by assumption) (by assumption)
  · simp only [Option.some.injEq] at h; subst h; exact .arrive hr (by assumption)
  · split at h
    · rename_i hall
      simp only [Option.some.injEq] at h; subst h
      simp only [List.all_eq_true, List.mem_range, decide_eq_true_eq] at hall
      exact .wait hr (by assumption) hall
    · simp at h

/-- A schedule: the rank that moves at each step. -/
def stepRanks (R : Nat) : List Nat → Net → Option Net
  | [], n => some n
  | r :: rs, n => if r < R then (stepRank R r n).bind (stepRanks R rs) else none

theorem stepRanks_reach {R : Nat} {n0 n n' : Net} {rs : List Nat} (h0 : Reach R n0 n) (h : stepRanks R rs n = some n') :
    Reach R n0 n' := by
  induction rs generalizing n with
  | nil => simp only [stepRanks, Option.some.injEq] at h; subst h; exact h0
  | cons r rs ih =>
    simp only [stepRanks] at h
    split at h
    · rename_i hr
      simp only [Option.bind_eq_some_iff] at h
      obtain ⟨m, hm, h⟩ := h
      exact ih (h0.step (stepRank_step hr hm)) h
    · simp at h

/-- A loop over two ranks: the consumer of the delayed link 0 (rank 1, index 0) feeds its producer (rank 0, index 1) through
the undelayed link 1. -/
def mpiLoop : List MElem :=
  [{ rank := 1, idx := 0, recvs := [0], sends := [(1, 0)] }, { rank := 0, idx := 1, recvs := [1], sends := [(0, -1)] }]

theorem mpiLoop_wired : Wired mpiLoop 2 2 := by
  refine ⟨by decide, by decide, fun c => ?_, ?_, by decide, by decide⟩
  · simp [mpiLoop]; tauto
  · intro p hp d hd c delay h1 h2
    simp only [mpiLoop, List.mem_cons, List.not_mem_nil, or_false] at hp hd
    rcases hp with rfl | rfl <;> rcases hd with rfl | rfl <;> simp_all

/-- The condition on the run time is needed: with a run time of 2.5 steps the flag `last_iter` is set in the second of three
iterations, a message of the delayed link is not sent, and the run deadlocks: a state is reached in which both processes wait
for each other. -/
theorem C15_fraction_deadlocks : ∃ (log : List (Int × Bool)) (fin : LoopCtl) (net : Net),
    LoopCtl.runFuel 10 (LoopCtl.start 5 2 0 0) = some (log, fin) ∧
    Reach 2 (Net.initial mpiLoop 2 2 (log.map (·.2))) net ∧ ¬ net.done 2 ∧ ¬ ∃ net', Step 2 net net' := by
  have hrun : LoopCtl.runFuel 10 (LoopCtl.start 5 2 0 0) = some ([(0, false), (2, true), (4, false)], ⟨5, 2, 0, 6, 3⟩) := rfl
  obtain ⟨net, hnet, h0, h1, hc0, hc1⟩ : ∃ net,
      stepRanks 2 [0, 0, 1, 1, 0, 1, 0, 0, 0, 1, 1, 0, 1, 1, 1, 0, 0, 1, 1, 0]
        (Net.initial mpiLoop 2 2 [false, true, false]) = some net ∧
      net.rem 0 = [.recv 1 (.iter 2), .send 0 (.iter 2)] ∧ net.rem 1 = [.recv 0 (.iter 2), .send 1 (.iter 2)] ∧
      net.ch 0 = [] ∧ net.ch 1 = [] := ⟨_, rfl, rfl, rfl, rfl, rfl⟩
  refine ⟨_, _, net, hrun, stepRanks_reach .refl hnet, ?_, ?_⟩
  · intro h
    have := h 1 (by omega)
    rw [h1] at this
    simp at this
  · rintro ⟨net', hs⟩
    cases hs with
    | @send r c s t hr h => interval_cases r <;> simp_all
    | @recv r c w s t q hr h hc =>
      interval_cases r
      · rw [h0] at h; simp only [List.cons.injEq, Ev.recv.injEq] at h; rw [← h.1.1, hc1] at hc; simp at hc
      · rw [h1] at h; simp only [List.cons.injEq, Ev.recv.injEq] at h; rw [← h.1.1, hc0] at hc; simp at hc
    | @arrive r t hr h => interval_cases r <;> simp_all
    | @wait r m t hr h hall => interval_cases r <;> simp_all

/-- Nor may the start time be different from 0: then `last_iter` is never set and the last message of a delayed link is
sent but never received. -/
theorem C15_start_time_leftover : ∃ (log : List (Int × Bool)) (fin : LoopCtl) (net : Net),
    LoopCtl.runFuel 10 (LoopCtl.start 4 2 2 0) = some (log, fin) ∧
    Reach 2 (Net.initial mpiLoop 2 2 (log.map (·.2))) net ∧ net.done 2 ∧ net.ch 0 = [.iter 1] := by
  have hrun : LoopCtl.runFuel 10 (LoopCtl.start 4 2 2 0) = some ([(2, false), (4, false)], ⟨4, 2, 2, 6, 2⟩) := rfl
  obtain ⟨net, hnet, h0, h1, hc0⟩ : ∃ net,
      stepRanks 2 [0, 0, 1, 1, 0, 1, 0, 0, 0, 1, 1, 0, 1, 1, 1, 0, 0, 1, 1, 0, 0]
        (Net.initial mpiLoop 2 2 [false, false]) = some net ∧
      net.rem 0 = [] ∧ net.rem 1 = [] ∧ net.ch 0 = [.iter 1] := ⟨_, rfl, rfl, rfl, rfl⟩
  exact ⟨_, _, net, hrun, stepRanks_reach .refl hnet, by intro r hr; interval_cases r <;> assumption, hc0⟩

/-- Producer on rank 0, consumer on rank 1, linked with a delay and not otherwise. -/
def delayedPair : List MElem := [{ rank := 1, idx := 0, recvs := [0] }, { rank := 0, idx := 1, sends := [(0, -1)] }]

/-- Without the loop the same run time does not deadlock but delivers a wrong value: in iteration 2 the consumer receives the
value of iteration 2 instead of that of iteration 1. -/
theorem C15_fraction_wrong_value : ∃ (log : List (Int × Bool)) (fin : LoopCtl) (net : Net),
    LoopCtl.runFuel 10 (LoopCtl.start 5 2 0 0) = some (log, fin) ∧
    Reach 2 (Net.initial delayedPair 2 2 (log.map (·.2))) net ∧ net.done 2 ∧ (0, .iter 1, .iter 0) ∈ net.log ∧
    (0, .iter 2, .iter 2) ∈ net.log := by
  have hrun : LoopCtl.runFuel 10 (LoopCtl.start 5 2 0 0) = some ([(0, false), (2, true), (4, false)], ⟨5, 2, 0, 6, 3⟩) := rfl
  obtain ⟨net, hnet, h0, h1, hl⟩ : ∃ net,
      stepRanks 2 [0, 0, 1, 0, 1, 1, 0, 0, 1, 0, 1, 0, 0, 1, 1, 1]
        (Net.initial delayedPair 2 2 [false, true, false]) = some net ∧
      net.rem 0 = [] ∧ net.rem 1 = [] ∧ net.log = [(0, .setup, .init), (0, .iter 0, .setup), (0, .iter 1, .iter 0), (0, .iter 2, .iter 2)] :=
    ⟨_, rfl, rfl, rfl, rfl⟩
  exact ⟨_, _, net, hrun, stepRanks_reach .refl hnet, by intro r hr; interval_cases r <;> assumption, by rw [hl]; simp, by rw [hl]; simp⟩

end Specula
