import Verif.Model.DispServer
import Mathlib.Data.List.Count
import Mathlib.Data.Multiset.AddSub
import Mathlib.Algebra.Order.Group.Multiset
import Mathlib.Tactic.Linarith
import Mathlib.Tactic.Abel
import Mathlib.Tactic.Ring
import Mathlib.Tactic.NormNum
/-
C110: what the clients of the display server are sent.
-/
namespace Specula

/-! ### Specification -/

section Spec
variable {C N D : Type}

/-- The object is there and can be prepared. -/
def DsObj.value {D : Type} : DsObj D → Option D
  | .ready d => some d
  | _ => none

/-- A message of the answer before its end, with its name and data. -/
def DsOut.item : DsOut C N D → Option (C × N × Option D)
  | .image c n d => some (c, n, some d)
  | .data c n d => some (c, n, d)
  | .term _ => none

/-- The client a message is for. -/
def DsOut.client : DsOut C N D → C
  | .image c _ _ => c
  | .data c _ _ => c
  | .term c => c

end Spec

/-- The responses among the items of a queue. -/
def SrvMsg.resp? {R S : Type} : SrvMsg R S → Option R
  | .resp r => some r
  | .status _ => none

/-- Where an item may be: waiting, about to be put back, delivered, sent. -/
def srvItems {R S : Type} (st : SrvSt R S) : List (SrvMsg R S) :=
  st.queue ++ st.heldS.toList.map .resp ++ st.heldH.toList.map .status ++ st.delivered.map .resp ++ st.sent.map .status

/-- Runs in which the status thread never holds a response. -/
inductive CalmRun {R S : Type} : SrvSt R S → List (SrvMsg R S) → SrvSt R S → Prop
  | nil (st) : CalmRun st [] st
  | snoc {a b c ms ns} : CalmRun a ms b → SrvStep b ns c → c.heldS = none → CalmRun a (ms ++ ns) c

/-! ### The answers -/

section Answers
variable {C N D : Type}

theorem dsImage_append (obj : N → DsObj D) (a b : List (Option (C × List N))) : dsImage obj (a ++ b) = dsImage obj a ++ dsImage obj b := by
  induction a with
  | nil => rfl
  | cons r a ih =>
    cases r with
    | none => simpa [dsImage] using ih
    | some p => obtain ⟨c, names⟩ := p; simp [dsImage, ih]

/-- In the mode of images every request is answered as though it were alone, and the answers come in the order of the requests. -/
theorem C110_image_split (obj : N → DsObj D) (a b : List (Option (C × List N))) (c : C) (names : List N) :
    ∃ out, dsImage obj (a ++ some (c, names) :: b) = dsImage obj a ++ (out ++ [.term c]) ++ dsImage obj b ∧
      (∀ x ∈ out, x.client = c ∧ x.item ≠ none) ∧
      out.filterMap DsOut.item = names.filterMap fun n => (obj n).value.map fun d => (c, n, some d) := by
  refine ⟨names.filterMap fun n => (dsReady (obj n)).map (DsOut.image c n), ?_, ?_, ?_⟩
  · rw [dsImage_append]
    simp [dsImage, dsImageOne]
  · intro x hx
    rw [List.mem_filterMap] at hx
    obtain ⟨n, _, hx⟩ := hx
    cases h : obj n <;> simp [h, dsReady] at hx
    subst hx
    simp [DsOut.client, DsOut.item]
  · rw [List.filterMap_filterMap]
    apply List.filterMap_congr
    intro n _
    cases h : obj n <;> simp [DsObj.value, DsOut.item, dsReady]

/-- A request that cannot be read is as though it had not been there, in the mode of images. -/
theorem C110_image_malformed (obj : N → DsObj D) (reqs : List (Option (C × List N))) :
    dsImage obj reqs = dsImage obj ((reqs.filterMap id).map some) := by
  induction reqs with
  | nil => rfl
  | cons r a ih =>
    cases r with
    | none => simpa [dsImage] using ih
    | some p => obtain ⟨c, names⟩ := p; simp [dsImage, ih]

/-- In the mode of data every name asked for has its answer, in the order of the request; an object that is missing or cannot be prepared has an
answer without a value. -/
theorem C110_data_one (obj : N → DsObj D) (c : C) (names : List N) (rest : List (Option (C × List N))) :
    ∃ out, (dsData obj (some (c, names) :: rest)).1 = (out ++ [.term c]) ++ (dsData obj rest).1 ∧
      (∀ x ∈ out, x.client = c ∧ x.item ≠ none) ∧ out.filterMap DsOut.item = names.map fun n => (c, n, (obj n).value) := by
  refine ⟨names.map fun n => DsOut.data c n (dsReady (obj n)), ?_, ?_, ?_⟩
  · simp [dsData, dsDataOne]
  · intro x hx
    rw [List.mem_map] at hx
    obtain ⟨n, _, rfl⟩ := hx
    simp [DsOut.client, DsOut.item]
  · rw [List.filterMap_map, ← List.filterMap_eq_map]
    apply List.filterMap_congr
    intro n _
    cases h : obj n <;> simp [DsObj.value, DsOut.item, h, dsReady]

/-- The triggers of the mode of data, on the requests that are there: all that is sent, and what is left. -/
def dsDataRun (obj : N → DsObj D) : ℕ → List (Option (C × List N)) → List (DsOut C N D) × List (Option (C × List N))
  | 0, reqs => ([], reqs)
  | k + 1, reqs =>
    let r := dsData obj reqs
    let q := dsDataRun obj k r.2
    (r.1 ++ q.1, q.2)

/-- In the mode of data a request that cannot be read stops the trigger, and the requests after it are answered by the following ones: with
one trigger more than there are such requests everything is answered, once and in order. -/
theorem C110_data_malformed (obj : N → DsObj D) (reqs : List (Option (C × List N))) (k : ℕ) (hk : (reqs.filter Option.isNone).length < k) :
    dsDataRun obj k reqs = ((dsData obj ((reqs.filterMap id).map some)).1, []) := by
  induction reqs generalizing k with
  | nil =>
    have hz : ∀ k, dsDataRun obj k ([] : List (Option (C × List N))) = ([], []) := by
      intro k
      induction k with
      | zero => rfl
      | succ k ih => simp [dsDataRun, dsData, ih]
    simp [hz, dsData]
  | cons r a ih =>
    obtain ⟨j, rfl⟩ : ∃ j, k = j + 1 := ⟨k - 1, by omega⟩
    cases r with
    | none =>
      have h1 : (a.filter Option.isNone).length < j := by simpa using hk
      simpa [dsDataRun, dsData] using ih j h1
    | some p =>
      obtain ⟨c, names⟩ := p
      have h1 : (a.filter Option.isNone).length < j + 1 := by simpa using hk
      have h2 := ih (j + 1) h1
      rw [dsDataRun] at h2 ⊢
      have e1 := congrArg Prod.fst h2
      have e2 := congrArg Prod.snd h2
      simp only at e1 e2
      simp only [dsData, List.filterMap_cons, id, List.map_cons, Prod.mk.injEq, List.append_assoc, List.append_cancel_left_eq]
      exact ⟨e1, e2⟩

/-- It does stop: the requests after the first that cannot be read wait, whatever they are. -/
theorem C110_data_waits (obj : N → DsObj D) (good : List (C × List N)) (rest : List (Option (C × List N))) :
    dsData obj (good.map some ++ none :: rest) = ((dsData obj (good.map some)).1, rest) := by
  induction good with
  | nil => rfl
  | cons p a ih => obtain ⟨c, names⟩ := p; simp [dsData, ih]

/-- Every request that can be read has one terminator: in both modes a client is told `done` once for each. -/
theorem C110_terms [DecidableEq C] [DecidableEq N] [DecidableEq D] (obj : N → DsObj D) (reqs : List (C × List N)) (c : C) :
    (dsImage obj (reqs.map some)).count (.term c) = (reqs.map Prod.fst).count c ∧
      (dsData obj (reqs.map some)).1.count (.term c) = (reqs.map Prod.fst).count c := by
  have h1 : ∀ (l : List N) (c' : C), (l.filterMap fun n => (dsReady (obj n)).map (DsOut.image c' n)).count
      (DsOut.term c) = 0 := by
    intro l c'
    rw [List.count_eq_zero]
    intro h
    rw [List.mem_filterMap] at h
    obtain ⟨n, _, h⟩ := h
    cases h' : obj n <;> simp [h', dsReady] at h
  have h2 : ∀ (l : List N) (c' : C), (l.map fun n => DsOut.data c' n (dsReady (obj n))).count
      (DsOut.term c) = 0 := by
    intro l c'
    rw [List.count_eq_zero]
    simp
  constructor
  · induction reqs with
    | nil => rfl
    | cons p a ih =>
      obtain ⟨c', names⟩ := p
      simp only [List.map_cons, dsImage, dsImageOne, List.count_append, List.count_cons, h1, ih, List.count_nil]
      by_cases hc : c' = c <;> simp [hc] <;> omega
  · induction reqs with
    | nil => rfl
    | cons p a ih =>
      obtain ⟨c', names⟩ := p
      simp only [List.map_cons, dsData, dsDataOne, List.count_append, List.count_cons, h2, ih, List.count_nil]
      by_cases hc : c' = c <;> simp [hc] <;> omega

example : dsImage (C := ℕ) (fun n : ℕ => if n = 1 then DsObj.missing else if n = 2 then .failing else .ready (10 * n))
    [some (7, [0, 1, 2, 3]), none, some (8, [1])] = [.image 7 0 0, .image 7 3 30, .term 7, .term 8] := rfl

example : dsData (C := ℕ) (fun n : ℕ => if n = 1 then DsObj.missing else if n = 2 then .failing else .ready (10 * n))
    [some (7, [0, 1, 2, 3]), none, some (8, [1])] =
    ([.data 7 0 (some 0), .data 7 1 none, .data 7 2 none, .data 7 3 (some 30), .term 7], [some (8, [1])]) := rfl

/-- The object of a name: the input alone when the name has `.in_`; otherwise the output, and the input when the name is of no output. -/
theorem C110_lookup {O : Type} (getIn getOut : DsGet O) (o : O) :
    (dsLookup true getIn getOut = some o ↔ getIn = .found o) ∧
      (dsLookup false getIn getOut = some o ↔ getOut = .found o ∨ (getOut = .valueError ∧ getIn = .found o)) := by
  constructor
  · cases getIn <;> simp [dsLookup]
  · cases getIn <;> cases getOut <;> simp [dsLookup]

example : dsLookup false (.found 1) (.valueError : DsGet ℕ) = some 1 ∧ dsLookup false (.found 1) (.otherError : DsGet ℕ) = none := ⟨rfl, rfl⟩

end Answers

/-! ### Speed -/

/-- Every trigger is counted in one report: the iterations of the reports, with the ones since the last, are the triggers; the reports cover
the time up to the last one, and each of them covers a second at least. -/
theorem C110_speed (s : SpeedSt) (hs : s.c0 ≤ s.counter) (ts : List ℝ) :
    (((speedRun s ts).2.map Prod.fst).sum + ((speedRun s ts).1.counter - (speedRun s ts).1.c0) = (s.counter - s.c0) + ts.length) ∧
      ((speedRun s ts).2.map Prod.snd).sum = (speedRun s ts).1.t0 - s.t0 ∧
      (∀ p ∈ (speedRun s ts).2, 1 ≤ p.2 ∧ 1 ≤ p.1) := by
  induction ts generalizing s with
  | nil => simp [speedRun]
  | cons t ts ih =>
    by_cases h : 1 ≤ t - s.t0
    · have e : speedTrigger s t = (⟨s.counter + 1, t, s.counter + 1⟩, some (s.counter + 1 - s.c0, t - s.t0)) := by simp [speedTrigger, h]
      obtain ⟨i1, i2, i3⟩ := ih ⟨s.counter + 1, t, s.counter + 1⟩ (le_refl _)
      simp only [speedRun, e, Option.toList_some, List.singleton_append, List.map_cons, List.sum_cons, List.length_cons, List.mem_cons]
      refine ⟨?_, ?_, ?_⟩
      · simp only at i1; omega
      · rw [i2]; ring
      · rintro p (rfl | hp)
        · refine ⟨h, ?_⟩
          show 1 ≤ s.counter + 1 - s.c0
          omega
        · exact i3 p hp
    · have e : speedTrigger s t = (⟨s.counter + 1, s.t0, s.c0⟩, none) := by simp [speedTrigger, h]
      obtain ⟨i1, i2, i3⟩ := ih ⟨s.counter + 1, s.t0, s.c0⟩ (by show s.c0 ≤ s.counter + 1; omega)
      simp only [speedRun, e, Option.toList_none, List.nil_append, List.length_cons]
      refine ⟨?_, i2, i3⟩
      simp only at i1
      omega

example : (speedRun ⟨0, 0, 0⟩ [1 / 2, 1, 5 / 4, 3]).2 = [(2, 1), (2, 2)] := by
  norm_num [speedRun, speedTrigger]

/-! ### remove_xp_np -/

section Remove
variable {V : Type}

theorem removeAll_fst (h : Attrs V) (rs : List ℕ) (q : ℕ) (a : String) :
    (removeAll h rs).1 q a = if q ∈ rs ∧ (a = "xp" ∨ a = "np") then none else h q a := by
  induction rs generalizing h with
  | nil => simp [removeAll]
  | cons r rs ih =>
    simp only [removeAll, ih, removeMods, List.mem_cons]
    by_cases hq : q = r <;> by_cases hm : q ∈ rs <;> by_cases ha : a = "xp" ∨ a = "np" <;> simp [hq, hm, ha]

theorem putBack_removeAll (h g : Attrs V) (rs : List ℕ) (q : ℕ) (a : String) :
    putBack g rs (removeAll h rs).2 q a = if q ∈ rs ∧ (a = "xp" ∨ a = "np") then (h q a).orElse fun _ => g q a else g q a := by
  induction rs generalizing h g with
  | nil => simp [removeAll, putBack]
  | cons r rs ih =>
    simp only [removeAll, putBack]
    rw [ih]
    simp only [removeMods, List.mem_cons]
    by_cases hq : q = r
    · subst hq
      by_cases hm : q ∈ rs <;> by_cases ha : a = "xp" ∨ a = "np" <;> simp [hm, ha]
    · by_cases hm : q ∈ rs <;> by_cases ha : a = "xp" ∨ a = "np" <;> simp [hq, hm, ha]

/-- After an object, or a list of objects with repetitions, is sent, everything has the attributes it had. -/
theorem C110_restore (h : Attrs V) (rs : List ℕ) : withRemoved h rs false = h := by
  funext q a
  simp only [withRemoved, Bool.false_eq_true, if_false]
  rw [putBack_removeAll, removeAll_fst]
  by_cases hc : q ∈ rs ∧ (a = "xp" ∨ a = "np")
  · simp only [hc, and_self, if_true]
    cases h q a <;> simp
  · simp only [hc, if_false]

/-- When the object cannot be pickled, an object of the simulation that is on the CPU is left without `xp` and `np`; the other attributes stay. -/
theorem C110_restore_fails (h : Attrs V) (rs : List ℕ) (onCpu : ℕ → Bool) (fresh : ℕ → ℕ) (r : ℕ) (hr : r ∈ rs) (hc : onCpu r = true) :
    withRemoved h (rs.map (copyToCpu onCpu fresh)) true r "xp" = none ∧ withRemoved h (rs.map (copyToCpu onCpu fresh)) true r "np" = none ∧
      ∀ a, a ≠ "xp" → a ≠ "np" → withRemoved h (rs.map (copyToCpu onCpu fresh)) true r a = h r a := by
  have hm : r ∈ rs.map (copyToCpu onCpu fresh) := List.mem_map.2 ⟨r, hr, by simp [copyToCpu, hc]⟩
  simp only [withRemoved, if_true]
  refine ⟨?_, ?_, ?_⟩
  · rw [removeAll_fst]; simp [hm]
  · rw [removeAll_fst]; simp [hm]
  · intro a h1 h2; rw [removeAll_fst]; simp [h1, h2]

/-- Objects on a GPU are copied, and the ones of the simulation are never touched. -/
theorem C110_restore_gpu (h : Attrs V) (rs : List ℕ) (onCpu : ℕ → Bool) (fresh : ℕ → ℕ) (raises : Bool) (r : ℕ)
    (hg : ∀ q ∈ rs, onCpu q = false) (hf : ∀ q ∈ rs, fresh q ≠ r) (a : String) :
    withRemoved h (rs.map (copyToCpu onCpu fresh)) raises r a = h r a := by
  cases raises with
  | false => rw [C110_restore]
  | true =>
    have hm : r ∉ rs.map (copyToCpu onCpu fresh) := by
      intro hm
      obtain ⟨q, hq, e⟩ := List.mem_map.1 hm
      simp only [copyToCpu, hg q hq] at e
      exact hf q hq (by simpa using e)
    simp only [withRemoved, if_true]
    rw [removeAll_fst]
    simp [hm]

example : withRemoved (V := ℕ) (fun _ a => if a = "xp" then some 1 else none) [3, 3] false 3 "xp" = some 1 ∧
    withRemoved (V := ℕ) (fun _ a => if a = "xp" then some 1 else none) [3, 3] true 3 "xp" = none := by decide

end Remove

/-! ### The queue -/

section Queue
variable {R S : Type}

theorem srvStep_items {a b : SrvSt R S} {ns : List (SrvMsg R S)} (h : SrvStep a ns b) : (srvItems b).Perm (srvItems a ++ ns) := by
  rw [← Multiset.coe_eq_coe]
  cases h with
  | put m => simp only [srvItems, ← Multiset.coe_add]; abel
  | sTakeStatus s q _ hq hh =>
    simp only [srvItems, hq, ← Multiset.coe_add, List.map_append, List.map_cons, List.map_nil, ← List.singleton_append (l := q)]
    simp only [← Multiset.coe_add, Multiset.coe_nil]; abel
  | sTakeResp r q _ hq hh =>
    simp only [srvItems, hq, hh, ← Multiset.coe_add, List.map_cons, List.map_nil, Option.toList, ← List.singleton_append (l := q)]
    simp only [← Multiset.coe_add, Multiset.coe_nil]; abel
  | sPut r _ hh =>
    simp only [srvItems, hh, ← Multiset.coe_add, List.map_cons, List.map_nil, Option.toList, Multiset.coe_nil]; abel
  | hTakeResp r q _ hq hh =>
    simp only [srvItems, hq, ← Multiset.coe_add, List.map_append, List.map_cons, List.map_nil, ← List.singleton_append (l := q)]
    simp only [← Multiset.coe_add, Multiset.coe_nil]; abel
  | hTakeStatus s q _ hq hh =>
    simp only [srvItems, hq, hh, ← Multiset.coe_add, List.map_cons, List.map_nil, Option.toList, ← List.singleton_append (l := q)]
    simp only [← Multiset.coe_add, Multiset.coe_nil]; abel
  | hPut s _ hh =>
    simp only [srvItems, hh, ← Multiset.coe_add, List.map_cons, List.map_nil, Option.toList, Multiset.coe_nil]; abel

/-- Whatever the order of the operations of the threads, nothing that was put on the queue is lost or repeated. -/
theorem C110_conserved {st : SrvSt R S} {ms : List (SrvMsg R S)} (h : SrvRun (srvInit []) ms st) : (srvItems st).Perm ms := by
  generalize ha : (srvInit [] : SrvSt R S) = a at h
  induction h with
  | nil => subst ha; simp [srvItems, srvInit]
  | snoc h1 h2 ih => exact (srvStep_items h2).trans (ih.append_right _)

/-- So when nothing waits, the responses delivered are the ones put, each as many times, and the statuses sent are the ones put. -/
theorem C110_all {st : SrvSt R S} {ms : List (SrvMsg R S)} (h : SrvRun (srvInit []) ms st) (hq : st.queue = []) (h1 : st.heldS = none)
    (h2 : st.heldH = none) : st.delivered.Perm (ms.filterMap SrvMsg.resp?) := by
  have hp := (C110_conserved h).filterMap SrvMsg.resp?
  have e1 : ∀ l : List R, (l.map (SrvMsg.resp (S := S))).filterMap SrvMsg.resp? = l := by
    intro l; induction l with
    | nil => rfl
    | cons x l ih => simp [SrvMsg.resp?, ih]
  have e2 : ∀ l : List S, (l.map (SrvMsg.status (R := R))).filterMap SrvMsg.resp? = [] := by
    intro l; induction l with
    | nil => rfl
    | cons x l ih => simp [SrvMsg.resp?]
  rw [srvItems, hq, h1, h2] at hp
  simpa only [Option.toList, List.map_nil, List.nil_append, List.filterMap_append, e1, e2, List.append_nil] using hp

/-- The order is not kept: of two responses the second can be delivered first, when the status thread takes the first and puts it back: a
client can be told that its request is done before it has the data. -/
theorem C110_reordered (r t : R) : ∃ st : SrvSt R S, SrvRun (srvInit []) [.resp r, .resp t] st ∧ st.delivered = [t, r] ∧ st.queue = [] := by
  let s0 : SrvSt R S := srvInit []
  have r0 : SrvRun s0 [] s0 := .nil _
  have r1 := r0.snoc (.put (.resp r) s0)
  have r2 := r1.snoc (.put (.resp t) _)
  have r3 := r2.snoc (.sTakeResp r [.resp t] _ rfl rfl)
  have r4 := r3.snoc (.hTakeResp t [] _ rfl rfl)
  have r5 := r4.snoc (.sPut r _ rfl)
  have r6 := r5.snoc (.hTakeResp r [] _ rfl rfl)
  exact ⟨_, r6, rfl, rfl⟩

/-- The thread of the responses alone keeps the order: as long as the status thread takes no response, what is delivered is a beginning of the
responses put. -/
theorem C110_order {st : SrvSt R S} {ms : List (SrvMsg R S)} (h : CalmRun (srvInit []) ms st) :
    st.delivered ++ st.queue.filterMap SrvMsg.resp? = ms.filterMap SrvMsg.resp? := by
  suffices H : st.heldS = none ∧ st.delivered ++ st.queue.filterMap SrvMsg.resp? = ms.filterMap SrvMsg.resp? from H.2
  generalize ha : (srvInit [] : SrvSt R S) = a at h
  induction h with
  | nil => subst ha; simp [srvInit]
  | snoc h1 h2 hc ih =>
    obtain ⟨i0, i1⟩ := ih
    refine ⟨hc, ?_⟩
    rw [List.filterMap_append, ← i1]
    cases h2 with
    | put m => simp
    | sTakeStatus s q _ hq hh => simp [hq, List.filterMap_cons, SrvMsg.resp?]
    | sTakeResp r q _ hq hh => simp at hc
    | sPut r _ hh => rw [i0] at hh; simp at hh
    | hTakeResp r q _ hq hh => simp [hq, SrvMsg.resp?]
    | hTakeStatus s q _ hq hh => simp [hq, List.filterMap_cons, SrvMsg.resp?]
    | hPut s _ hh => simp [SrvMsg.resp?]

/-- Statuses, too, change their order: of two statuses the second can be sent first. -/
theorem C110_status_reordered (s t : S) : ∃ st : SrvSt R S, SrvRun (srvInit []) [.status s, .status t] st ∧ st.sent = [t, s] := by
  let s0 : SrvSt R S := srvInit []
  have r0 : SrvRun s0 [] s0 := .nil _
  have r1 := r0.snoc (.put (.status s) s0)
  have r2 := r1.snoc (.put (.status t) _)
  have r3 := r2.snoc (.hTakeStatus s [.status t] _ rfl rfl)
  have r4 := r3.snoc (.sTakeStatus t [] _ rfl rfl)
  have r5 := r4.snoc (.hPut s _ rfl)
  have r6 := r5.snoc (.sTakeStatus s [] _ rfl rfl)
  exact ⟨_, r6, rfl⟩

example : ∃ st : SrvSt ℕ String, CalmRun (srvInit []) [.resp 1, .status "12 Hz", .resp 2] st ∧ st.delivered = [1] ∧ st.sent = ["12 Hz"] ∧
    st.queue = [.resp 2] := by
  let s0 : SrvSt ℕ String := srvInit []
  have r0 : CalmRun s0 [] s0 := .nil _
  have r1 := r0.snoc (.put (.resp 1) s0) rfl
  have r2 := r1.snoc (.put (.status "12 Hz") _) rfl
  have r3 := r2.snoc (.put (.resp 2) _) rfl
  have r4 := r3.snoc (.hTakeResp 1 [.status "12 Hz", .resp 2] _ rfl rfl) rfl
  have r5 := r4.snoc (.sTakeStatus "12 Hz" [.resp 2] _ rfl rfl) rfl
  exact ⟨_, r5, rfl, rfl, rfl⟩

end Queue
end Specula
