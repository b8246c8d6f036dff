import Verif.Lemmas.Mpi
import Mathlib.Data.List.Nodup
import Mathlib.Data.List.Count
import Mathlib.Data.List.Pairwise
/-
The run of `LoopControl` on all ranks together is a canonical order in the sense of `Canon`.
-/
namespace Specula

/-- sends (`true`) and receives (`false`) of a channel -/
def evsOn (c : Nat) (G : List (Nat × Ev)) : List (Bool × Stamp) :=
  G.filterMap fun x => match x.2 with
    | .send c' s => if c' = c then some (true, s) else none
    | .recv c' w => if c' = c then some (false, w) else none
    | _ => none

theorem evsOn_append (c : Nat) (a b : List (Nat × Ev)) : evsOn c (a ++ b) = evsOn c a ++ evsOn c b := by simp [evsOn]

theorem evsOn_flatMap {α : Type} (c : Nat) (l : List α) (f : α → List (Nat × Ev)) :
    evsOn c (l.flatMap f) = l.flatMap fun a => evsOn c (f a) := by
  unfold evsOn; rw [List.filterMap_flatMap]

theorem sendsOn_eq (c : Nat) (G : List (Nat × Ev)) : sendsOn c (untag G) = ((evsOn c G).filter (·.1)).map (·.2) := by
  induction G with
  | nil => rfl
  | cons x G ih =>
    obtain ⟨r, e⟩ := x
    simp only [untag, List.map_cons, sendsOn, evsOn, List.filterMap_cons] at ih ⊢
    cases e with
    | send c' s => by_cases h : c' = c <;> simp [h, ih]
    | recv c' s => by_cases h : c' = c <;> simp [h, ih]
    | arrive => simp [ih]
    | wait m => simp [ih]

theorem recvsOn_eq (c : Nat) (G : List (Nat × Ev)) : recvsOn c (untag G) = ((evsOn c G).filter (!·.1)).map (·.2) := by
  induction G with
  | nil => rfl
  | cons x G ih =>
    obtain ⟨r, e⟩ := x
    simp only [untag, List.map_cons, recvsOn, evsOn, List.filterMap_cons] at ih ⊢
    cases e with
    | send c' s => by_cases h : c' = c <;> simp [h, ih]
    | recv c' s => by_cases h : c' = c <;> simp [h, ih]
    | arrive => simp [ih]
    | wait m => simp [ih]

/-- starting with `b` messages in the channel, every receive finds one -/
def okFrom : Nat → List (Bool × Stamp) → Prop
  | _, [] => True
  | b, (true, _) :: l => okFrom (b + 1) l
  | b, (false, _) :: l => 0 < b ∧ okFrom (b - 1) l

theorem okFrom_split {b : Nat} {A B : List (Bool × Stamp)} {w : Stamp} (h : okFrom b (A ++ (false, w) :: B)) :
    (A.filter (!·.1)).length < b + (A.filter (·.1)).length := by
  induction A generalizing b with
  | nil => simp only [List.nil_append, okFrom] at h; simpa using h.1
  | cons x A ih =>
    obtain ⟨f, s⟩ := x
    cases f
    · simp only [List.cons_append, okFrom] at h
      have := ih h.2
      simp only [List.filter_cons, Bool.not_false, if_true, List.length_cons, Bool.false_eq_true, if_false]
      omega
    · simp only [List.cons_append, okFrom] at h
      have := ih h
      simp only [List.filter_cons, Bool.not_true, if_true, List.length_cons, Bool.false_eq_true, if_false]
      omega

theorem range_single {α : Type} (B j : Nat) (S : List α) :
    ((List.range B).flatMap fun i => if j = i then S else []) = if j < B then S else [] := by
  induction B with
  | zero => simp
  | succ B ih =>
    rw [List.range_succ, List.flatMap_append, ih]
    rcases Nat.lt_trichotomy j B with h | h | h
    · have : j < B + 1 := by omega
      simp [h, this, Nat.ne_of_lt h]
    · subst h; simp
    · have h1 : ¬ j < B := by omega
      have h2 : ¬ j < B + 1 := by omega
      have h3 : j ≠ B := by omega
      simp [h1, h2, h3]

/-- receive in bucket `j`, send in bucket `i`, send earlier -/
theorem range_send_recv {α : Type} (B i j : Nat) (hij : i < j) (A S : List α) :
    ((List.range B).flatMap fun m => (if j = m then A else []) ++ (if i = m then S else [])) =
      (if i < B then S else []) ++ (if j < B then A else []) := by
  induction B with
  | zero => simp
  | succ B ih =>
    rw [List.range_succ, List.flatMap_append, ih]
    simp only [List.flatMap_cons, List.flatMap_nil, List.append_nil]
    rcases Nat.lt_trichotomy j B with h | h | h
    · have h0 : i < B := by omega
      have h1 : j < B + 1 := by omega
      have h2 : i < B + 1 := by omega
      have h3 : j ≠ B := by omega
      have h4 : i ≠ B := by omega
      simp [h, h0, h1, h2, h3, h4]
    · subst h
      have h1 : i ≠ j := by omega
      have h2 : i < j + 1 := by omega
      simp [hij, h1, h2]
    · have h0 : ¬ j < B := by omega
      have h1 : ¬ j < B + 1 := by omega
      have h3 : j ≠ B := by omega
      rcases Nat.lt_trichotomy i B with h' | h' | h'
      · have h2 : i < B + 1 := by omega
        have h4 : i ≠ B := by omega
        simp [h0, h1, h2, h3, h4, h']
      · subst h'
        simp [h0, h1, h3]
      · have h2 : ¬ i < B + 1 := by omega
        have h4 : i ≠ B := by omega
        have h5 : ¬ i < B := by omega
        simp [h0, h1, h2, h3, h4, h5]

/-- receive not later than send -/
theorem range_recv_send {α : Type} (B i j : Nat) (hij : j ≤ i) (A S : List α) :
    ((List.range B).flatMap fun m => (if j = m then A else []) ++ (if i = m then S else [])) =
      (if j < B then A else []) ++ (if i < B then S else []) := by
  rcases Nat.lt_or_eq_of_le hij with hlt | rfl
  · induction B with
    | zero => simp
    | succ B ih =>
      rw [List.range_succ, List.flatMap_append, ih]
      simp only [List.flatMap_cons, List.flatMap_nil, List.append_nil]
      rcases Nat.lt_trichotomy i B with h | h | h
      · have h0 : j < B := by omega
        have h1 : i < B + 1 := by omega
        have h2 : j < B + 1 := by omega
        have h3 : i ≠ B := by omega
        have h4 : j ≠ B := by omega
        simp [h, h0, h1, h2, h3, h4]
      · subst h
        have h1 : j ≠ i := by omega
        have h2 : j < i + 1 := by omega
        simp [hlt, h1, h2]
      · have h0 : ¬ i < B := by omega
        have h1 : ¬ i < B + 1 := by omega
        have h3 : i ≠ B := by omega
        rcases Nat.lt_trichotomy j B with h' | h' | h'
        · have h2 : j < B + 1 := by omega
          have h4 : j ≠ B := by omega
          simp [h0, h1, h2, h3, h4, h']
        · subst h'
          simp [h0, h1, h3]
        · have h2 : ¬ j < B + 1 := by omega
          have h4 : j ≠ B := by omega
          have h5 : ¬ j < B := by omega
          simp [h0, h1, h2, h3, h4, h5]
  · have : ((List.range B).flatMap fun m => (if j = m then A else []) ++ (if j = m then S else [])) =
        (List.range B).flatMap fun m => if j = m then A ++ S else [] := by
      congr 1; funext m; by_cases h : j = m <;> simp [h]
    rw [this, range_single]
    by_cases h : j < B <;> simp [h]

/-- one element owns the value -/
theorem flatMap_owner {α β : Type} {l : List α} {f : α → List Nat} (hn : (l.flatMap f).Nodup) {a : α} (ha : a ∈ l) {c : Nat}
    (hc : c ∈ f a) (q : α → Bool) (h : α → List β) (hh : ∀ x, c ∉ f x → h x = []) :
    (l.filter q).flatMap h = if q a then h a else [] := by
  obtain ⟨l1, l2, rfl⟩ := List.append_of_mem ha
  rw [List.flatMap_append, List.flatMap_cons, List.nodup_append] at hn
  obtain ⟨-, h2, h3⟩ := hn
  rw [List.nodup_append] at h2
  have n1 : ∀ x ∈ l1, c ∉ f x := fun x hx hcx =>
    h3 c (List.mem_flatMap.2 ⟨x, hx, hcx⟩) c (by simp [hc]) rfl
  have n2 : ∀ x ∈ l2, c ∉ f x := fun x hx hcx =>
    h2.2.2 c hc c (List.mem_flatMap.2 ⟨x, hx, hcx⟩) rfl
  rw [List.filter_append, List.flatMap_append]
  have e1 : (l1.filter q).flatMap h = [] := by
    rw [List.flatMap_eq_nil_iff]
    intro x hx; exact hh x (n1 x (List.mem_of_mem_filter hx))
  have e2 : (l2.filter q).flatMap h = [] := by
    rw [List.flatMap_eq_nil_iff]
    intro x hx; exact hh x (n2 x (List.mem_of_mem_filter hx))
  rw [e1, List.filter_cons]
  by_cases hq : q a = true <;> simp [hq, e2]

theorem owner_unique {α : Type} {l : List α} {f : α → List Nat} (hn : (l.flatMap f).Nodup) {a b : α} (ha : a ∈ l) (hb : b ∈ l)
    {c : Nat} (hca : c ∈ f a) (hcb : c ∈ f b) : a = b := by
  by_contra hne
  rw [List.nodup_flatMap] at hn
  have : Std.Symm (Function.onFun List.Disjoint f) :=
    ⟨fun x y (h : List.Disjoint (f x) (f y)) => fun _ h1 h2 => h h2 h1⟩
  have := hn.2.forall ha hb hne
  exact this hca hcb

theorem recvInputs_on (c : Nat) (w : Stamp) (e : MElem) :
    evsOn c (recvInputs w e) = (e.recvs.filter fun x => decide (x = c)).map fun _ => (false, w) := by
  unfold evsOn recvInputs
  induction e.recvs with
  | nil => rfl
  | cons a l ih =>
    by_cases h : a = c
    · subst h; simpa using ih
    · simpa [h] using ih

theorem sendOutputs_on (c : Nat) (sk dl : Bool) (s : Stamp) (e : MElem) :
    evsOn c (sendOutputs sk dl s e) = (e.sends.filter fun cd => decide (cd.1 = c) && !(decide (cd.2 < 0) && sk) &&
      !(decide (cd.2 ≥ 0) && dl)).map fun _ => (true, s) := by
  unfold evsOn sendOutputs
  induction e.sends with
  | nil => rfl
  | cons a l ih =>
    rw [List.filterMap_cons, List.filter_cons]
    by_cases h1 : (decide (a.2 < 0) && sk) = true
    · simp only [h1, if_true, Bool.not_true, Bool.and_false, Bool.false_and, Bool.false_eq_true, if_false]; exact ih
    · by_cases h2 : (decide (a.2 ≥ 0) && dl) = true
      · simp only [h1, h2, if_true, Bool.not_true, Bool.and_false, Bool.false_eq_true, if_false]; exact ih
      · by_cases h : a.1 = c
        · simp only [h1, h2, h, decide_true, Bool.not_false, Bool.and_true, if_true, List.map_cons,
            List.filterMap_cons, Bool.false_eq_true, if_false, ih]
        · simp only [h1, h2, h, decide_false, Bool.not_false, Bool.and_true, Bool.false_eq_true, if_false,
            List.filterMap_cons, ih]

section
variable {es : List MElem} {R B : Nat} {p d : MElem} {c : Nat} {dly : Int}

theorem bucket_recv (hw : Wired es R B) (hd : d ∈ es) (hcd : c ∈ d.recvs) (w : Stamp) (i : Nat) :
    evsOn c ((bucket es i).flatMap (recvInputs w)) = if d.idx = i then [(false, w)] else [] := by
  have hone : evsOn c (recvInputs w d) = [(false, w)] := by
    rw [recvInputs_on]
    have hnd : d.recvs.Nodup := (List.nodup_flatMap.1 hw.recvOnce).1 d hd
    have : (d.recvs.filter fun x => decide (x = c)) = [c] := by
      have h := List.filter_eq (l := d.recvs) c
      rw [List.count_eq_one_of_mem hnd hcd] at h
      simpa [eq_comm] using h
    rw [this]; rfl
  rw [evsOn_flatMap]
  unfold bucket
  rw [flatMap_owner (f := fun e => e.recvs) hw.recvOnce hd hcd (fun e => decide (e.idx = i)) (fun e => evsOn c (recvInputs w e)) (by
    intro x hx
    simp only [recvInputs_on]
    have : (x.recvs.filter fun y => decide (y = c)) = [] := by
      rw [List.filter_eq_nil_iff]; intro y hy; simp; rintro rfl; exact hx hy
    rw [this]; rfl), hone]
  simp

theorem filter_pair {l : List (Nat × Int)} (hn : (l.map (·.1)).Nodup) {c : Nat} {dly : Int} (h : (c, dly) ∈ l)
    (q : Nat × Int → Bool) : (l.filter fun cd => decide (cd.1 = c) && q cd) = if q (c, dly) then [(c, dly)] else [] := by
  induction l with
  | nil => simp at h
  | cons a l ih =>
    simp only [List.map_cons, List.nodup_cons] at hn
    rw [List.filter_cons]
    rcases List.mem_cons.1 h with rfl | h'
    · have : (l.filter fun cd => decide (cd.1 = c) && q cd) = [] := by
        rw [List.filter_eq_nil_iff]
        intro x hx
        simp only [Bool.and_eq_true, decide_eq_true_eq, not_and]
        rintro rfl
        exact absurd (List.mem_map.2 ⟨x, hx, rfl⟩) hn.1
      simp [this]
    · have : a.1 ≠ c := by
        rintro rfl
        exact hn.1 (List.mem_map.2 ⟨_, h', rfl⟩)
      simp only [this, decide_false, Bool.false_and, Bool.false_eq_true, if_false]
      exact ih hn.2 h'

theorem sends_nodup (hw : Wired es R B) (hp : p ∈ es) : (p.sends.map (·.1)).Nodup :=
  (List.nodup_flatMap.1 hw.sendOnce).1 p hp

theorem bucket_send (hw : Wired es R B) (hp : p ∈ es) (hcp : (c, dly) ∈ p.sends) (sk dl : Bool) (s : Stamp) (i : Nat) :
    evsOn c ((bucket es i).flatMap (sendOutputs sk dl s)) =
      if p.idx = i then (if (decide (dly < 0) && sk) || (decide (dly ≥ 0) && dl) then [] else [(true, s)]) else [] := by
  have hone : evsOn c (sendOutputs sk dl s p) =
      if (decide (dly < 0) && sk) || (decide (dly ≥ 0) && dl) then [] else [(true, s)] := by
    rw [sendOutputs_on]
    have := filter_pair (sends_nodup hw hp) hcp (fun cd => !(decide (cd.2 < 0) && sk) && !(decide (cd.2 ≥ 0) && dl))
    simp only [Bool.and_assoc] at this ⊢
    rw [this]
    cases hA : (decide (dly < 0) && sk) <;> cases hB : (decide (dly ≥ 0) && dl) <;> simp
  rw [evsOn_flatMap]
  unfold bucket
  rw [flatMap_owner (f := fun e => e.sends.map (·.1)) hw.sendOnce hp (List.mem_map.2 ⟨_, hcp, rfl⟩) (fun e => decide (e.idx = i))
    (fun e => evsOn c (sendOutputs sk dl s e)) (by
    intro x hx
    simp only [sendOutputs_on]
    rw [List.map_eq_nil_iff, List.filter_eq_nil_iff]
    intro y hy
    simp only [Bool.and_eq_true, decide_eq_true_eq, not_and, and_assoc]
    rintro rfl
    exact absurd (List.mem_map.2 ⟨y, hy, rfl⟩) hx), hone]
  simp

/-- events of a channel in one iteration -/
theorem iter_on (hw : Wired es R B) (hp : p ∈ es) (hcp : (c, dly) ∈ p.sends) (hd : d ∈ es) (hcd : c ∈ d.recvs)
    (k : Nat) (last : Bool) :
    evsOn c (iterEvents es B k last) =
      if dly < 0 then (false, .iter k) :: (if last then [] else [(true, .iter k)])
      else [(true, .iter k), (false, .iter k)] := by
  unfold iterEvents
  rw [evsOn_flatMap]
  simp only [evsOn_append, bucket_recv hw hd hcd, bucket_send hw hp hcp]
  have hpB := hw.idxs p hp
  have hdB := hw.idxs d hd
  obtain ⟨h1, h2⟩ := hw.order p hp d hd c dly hcp hcd
  by_cases hneg : dly < 0
  · rw [range_recv_send _ _ _ (h1 hneg)]
    have : ¬ dly ≥ 0 := by omega
    simp only [hdB, hpB, if_true, hneg, decide_true, Bool.true_and, Bool.and_false, Bool.or_false]
    cases last <;> simp
  · rw [range_send_recv _ _ _ (h2 (by omega))]
    simp [hdB, hpB, hneg]

/-- events of a channel in the loop -/
def loopOn (dly : Int) : Nat → List Bool → List (Bool × Stamp)
  | _, [] => []
  | k, last :: rest => (if dly < 0 then (false, .iter k) :: (if last then [] else [(true, .iter k)])
      else [(true, .iter k), (false, .iter k)]) ++ loopOn dly (k + 1) rest

theorem loop_on (hw : Wired es R B) (hp : p ∈ es) (hcp : (c, dly) ∈ p.sends) (hd : d ∈ es) (hcd : c ∈ d.recvs)
    (k : Nat) (flags : List Bool) : evsOn c (loopEvents es B k flags) = loopOn dly k flags := by
  induction flags generalizing k with
  | nil => rfl
  | cons last rest ih => rw [loopEvents, evsOn_append, iter_on hw hp hcp hd hcd, ih, loopOn]

theorem evsOn_barrier (c : Nat) (rs : List Nat) (m : Nat) :
    evsOn c (rs.map (fun r => (r, Ev.arrive)) ++ rs.map (fun r => (r, Ev.wait m))) = [] := by
  unfold evsOn
  rw [List.filterMap_eq_nil_iff]
  intro x hx
  simp only [List.mem_append, List.mem_map] at hx
  rcases hx with ⟨r, -, rfl⟩ | ⟨r, -, rfl⟩ <;> rfl

theorem pre_on (hw : Wired es R B) (hp : p ∈ es) (hcp : (c, dly) ∈ p.sends) :
    evsOn c ((List.range B).flatMap (fun i => (bucket es i).flatMap (sendOutputs false false .init))) = [(true, .init)] := by
  rw [evsOn_flatMap]
  simp only [bucket_send hw hp hcp]
  rw [range_single]
  simp [hw.idxs p hp]

theorem two_elems {X : List (Bool × Stamp)} {f : Stamp} {T : List (Bool × Stamp)} (h1 : X.filter (!·.1) = [(false, f)])
    (h2 : X.filter (·.1) = T) (hT : T = [] ∨ ∃ t, T = [(true, t)]) :
    (T = [] ∧ X = [(false, f)]) ∨ ∃ t, T = [(true, t)] ∧ (X = [(false, f), (true, t)] ∨ X = [(true, t), (false, f)]) := by
  subst h2
  have nofalse : ∀ l : List (Bool × Stamp), l.filter (!·.1) = [] → l.filter (·.1) = l := by
    intro l hl
    rw [List.filter_eq_self]
    intro a ha
    have := (List.filter_eq_nil_iff.1 hl) a ha
    simpa using this
  have notrue : ∀ l : List (Bool × Stamp), l.filter (·.1) = [] → l.filter (!·.1) = l := by
    intro l hl
    rw [List.filter_eq_self]
    intro a ha
    have := (List.filter_eq_nil_iff.1 hl) a ha
    simpa using this
  rcases hT with hT | ⟨t, hT⟩
  · left; exact ⟨hT, by rw [← notrue X hT]; exact h1⟩
  · right
    refine ⟨t, hT, ?_⟩
    cases X with
    | nil => simp at hT
    | cons x X =>
      obtain ⟨b, s⟩ := x
      cases b
      · left
        simp only [List.filter_cons, Bool.not_false, if_true, List.cons.injEq] at h1
        simp only [List.filter_cons, Bool.false_eq_true, if_false] at hT
        rw [← nofalse X h1.2, hT, h1.1]
      · right
        simp only [List.filter_cons, Bool.not_true, Bool.false_eq_true, if_false] at h1
        simp only [List.filter_cons, if_true, List.cons.injEq] at hT
        rw [← notrue X hT.2, h1, hT.1]

theorem filter_true_setup (c : Nat) (e : MElem) (w s : Stamp) (sk dl : Bool) :
    (evsOn c (recvInputs w e ++ sendOutputs sk dl s e)).filter (·.1) = evsOn c (sendOutputs sk dl s e) := by
  rw [evsOn_append, List.filter_append, recvInputs_on, sendOutputs_on]
  simp

theorem filter_false_setup (c : Nat) (e : MElem) (w s : Stamp) (sk dl : Bool) :
    (evsOn c (recvInputs w e ++ sendOutputs sk dl s e)).filter (!·.1) = evsOn c (recvInputs w e) := by
  rw [evsOn_append, List.filter_append, recvInputs_on, sendOutputs_on]
  simp

theorem setup_on (hw : Wired es R B) (hp : p ∈ es) (hcp : (c, dly) ∈ p.sends) (hd : d ∈ es) (hcd : c ∈ d.recvs) :
    let X := evsOn c ((List.range B).flatMap (fun i => (bucket es i).flatMap fun e => recvInputs .setup e ++ sendOutputs false true .setup e))
    (0 ≤ dly ∧ X = [(false, .setup)]) ∨
    (dly < 0 ∧ (X = [(false, .setup), (true, .setup)] ∨ X = [(true, .setup), (false, .setup)])) := by
  intro X
  have h1 : X.filter (!·.1) = [(false, .setup)] := by
    have : X.filter (!·.1) = (List.range B).flatMap fun i => evsOn c ((bucket es i).flatMap (recvInputs .setup)) := by
      simp only [X, evsOn_flatMap, List.filter_flatMap, filter_false_setup]
    rw [this]
    simp only [bucket_recv hw hd hcd]
    rw [range_single]
    simp [hw.idxs d hd]
  have h2 : X.filter (·.1) = if dly < 0 then [(true, .setup)] else [] := by
    have : X.filter (·.1) = (List.range B).flatMap fun i => evsOn c ((bucket es i).flatMap (sendOutputs false true .setup)) := by
      simp only [X, evsOn_flatMap, List.filter_flatMap, filter_true_setup]
    rw [this]
    simp only [bucket_send hw hp hcp]
    rw [range_single]
    simp only [hw.idxs p hp, if_true, Bool.and_false, Bool.false_or, Bool.and_true]
    by_cases hneg : dly < 0
    · have : ¬ dly ≥ 0 := by omega
      simp [hneg]
    · have : dly ≥ 0 := by omega
      simp [this, hneg]
  by_cases hneg : dly < 0
  · right
    rw [if_pos hneg] at h2
    rcases two_elems h1 h2 (Or.inr ⟨_, rfl⟩) with ⟨h, -⟩ | ⟨t, ht, h⟩
    · simp at h
    · simp only [List.cons.injEq, Prod.mk.injEq, true_and, and_true] at ht
      subst ht
      exact ⟨hneg, h⟩
  · left
    rw [if_neg hneg] at h2
    rcases two_elems h1 h2 (Or.inl rfl) with ⟨-, h⟩ | ⟨t, ht, -⟩
    · exact ⟨by omega, h⟩
    · simp at ht

theorem run_on (hw : Wired es R B) (hp : p ∈ es) (hcp : (c, dly) ∈ p.sends) (hd : d ∈ es) (hcd : c ∈ d.recvs)
    (rs : List Nat) (flags : List Bool) : ∃ X, evsOn c (runEvents es rs B flags) = (true, .init) :: X ++ loopOn dly 0 flags ∧
    ((0 ≤ dly ∧ X = [(false, .setup)]) ∨
    (dly < 0 ∧ (X = [(false, .setup), (true, .setup)] ∨ X = [(true, .setup), (false, .setup)]))) := by
  refine ⟨_, ?_, setup_on hw hp hcp hd hcd⟩
  unfold runEvents startEvents
  rw [evsOn_append, evsOn_append, evsOn_append, evsOn_append, evsOn_barrier, evsOn_barrier, pre_on hw hp hcp,
    loop_on hw hp hcp hd hcd]
  simp

/-- only the last flag may be set -/
def LastOnly (flags : List Bool) : Prop := ∀ b ∈ flags.dropLast, b = false

theorem lastOnly_cons {b : Bool} {l : List Bool} (h : LastOnly (b :: l)) : (b = true → l = []) ∧ LastOnly l := by
  cases l with
  | nil => exact ⟨fun _ => rfl, by simp [LastOnly]⟩
  | cons a l =>
    unfold LastOnly at h ⊢
    simp only [List.dropLast_cons_cons, List.mem_cons] at h
    refine ⟨fun hb => ?_, fun x hx => h x (Or.inr hx)⟩
    have := h b (Or.inl rfl)
    simp [this] at hb

theorem loopOn_ok_undelayed (h : ¬ dly < 0) (k : Nat) (flags : List Bool) : okFrom 0 (loopOn dly k flags) := by
  induction flags generalizing k with
  | nil => simp [loopOn, okFrom]
  | cons b l ih => simp only [loopOn, h, if_false, List.cons_append, List.nil_append, okFrom]; exact ⟨by omega, ih _⟩

theorem loopOn_ok_delayed (h : dly < 0) (k : Nat) (flags : List Bool) (hl : LastOnly flags) : okFrom 1 (loopOn dly k flags) := by
  induction flags generalizing k with
  | nil => simp [loopOn, okFrom]
  | cons b l ih =>
    obtain ⟨h1, h2⟩ := lastOnly_cons hl
    cases b
    · simp only [loopOn, h, if_true, Bool.false_eq_true, if_false, List.cons_append, List.nil_append, okFrom]
      exact ⟨by omega, ih _ h2⟩
    · rw [h1 rfl]
      simp [loopOn, h, okFrom]

theorem run_ok (hw : Wired es R B) (hp : p ∈ es) (hcp : (c, dly) ∈ p.sends) (hd : d ∈ es) (hcd : c ∈ d.recvs)
    (rs : List Nat) (flags : List Bool) (hl : LastOnly flags) : okFrom 0 (evsOn c (runEvents es rs B flags)) := by
  obtain ⟨X, hX, h⟩ := run_on hw hp hcp hd hcd rs flags
  rw [hX]
  rcases h with ⟨hneg, rfl⟩ | ⟨hneg, rfl | rfl⟩
  · simp only [List.cons_append, List.nil_append, okFrom]
    exact ⟨by omega, loopOn_ok_undelayed (by omega) _ _⟩
  · simp only [List.cons_append, List.nil_append, okFrom]
    exact ⟨by omega, loopOn_ok_delayed hneg _ _ hl⟩
  · simp only [List.cons_append, List.nil_append, okFrom]
    exact ⟨by omega, loopOn_ok_delayed hneg _ _ hl⟩

theorem zip_undelayed (h : ¬ dly < 0) (k : Nat) (flags : List Bool) {w s : Stamp}
    (hm : (w, s) ∈ (((loopOn dly k flags).filter (!·.1)).map (·.2)).zip (((loopOn dly k flags).filter (·.1)).map (·.2))) :
    ∃ j, w = .iter j ∧ s = .iter j := by
  induction flags generalizing k with
  | nil => simp [loopOn] at hm
  | cons b l ih =>
    simp only [loopOn, h, if_false, List.cons_append, List.nil_append, List.filter_cons, Bool.not_true, Bool.not_false,
      if_true, List.map_cons, List.zip_cons_cons, List.mem_cons, Prod.mk.injEq, Bool.false_eq_true] at hm
    rcases hm with ⟨rfl, rfl⟩ | hm
    · exact ⟨k, rfl, rfl⟩
    · exact ih _ hm

theorem zip_delayed (h : dly < 0) (k : Nat) (flags : List Bool) (hl : LastOnly flags) (s0 : Stamp) {w s : Stamp}
    (hm : (w, s) ∈ (((loopOn dly k flags).filter (!·.1)).map (·.2)).zip (s0 :: ((loopOn dly k flags).filter (·.1)).map (·.2))) :
    (w = .iter k ∧ s = s0) ∨ ∃ j, w = .iter (j + 1) ∧ s = .iter j := by
  induction flags generalizing k s0 with
  | nil => simp [loopOn] at hm
  | cons b l ih =>
    obtain ⟨h1, h2⟩ := lastOnly_cons hl
    cases b
    · simp only [loopOn, h, if_true, List.cons_append, List.nil_append, List.filter_cons, Bool.not_true, Bool.not_false,
        List.map_cons, List.zip_cons_cons, List.mem_cons, Prod.mk.injEq, Bool.false_eq_true, if_false] at hm
      rcases hm with ⟨rfl, rfl⟩ | hm
      · exact Or.inl ⟨rfl, rfl⟩
      · rcases ih (k + 1) h2 _ hm with ⟨rfl, rfl⟩ | h3
        · exact Or.inr ⟨k, rfl, rfl⟩
        · exact Or.inr h3
    · rw [h1 rfl] at hm
      simp [loopOn, h] at hm
      exact Or.inl hm

/-- pairs receive moment / value of a channel -/
theorem run_zip (hw : Wired es R B) (hp : p ∈ es) (hcp : (c, dly) ∈ p.sends) (hd : d ∈ es) (hcd : c ∈ d.recvs)
    (rs : List Nat) (flags : List Bool) (hl : LastOnly flags) {w s : Stamp}
    (h : (w, s) ∈ (recvsOn c (untag (runEvents es rs B flags))).zip (sendsOn c (untag (runEvents es rs B flags)))) :
    Delivers (dly < 0) w s := by
  obtain ⟨X, hX, hx⟩ := run_on hw hp hcp hd hcd rs flags
  rw [recvsOn_eq, sendsOn_eq, hX] at h
  have key : (w = .setup ∧ s = .init) ∨ (0 ≤ dly ∧ ∃ j, w = .iter j ∧ s = .iter j) ∨
      (dly < 0 ∧ ((w = .iter 0 ∧ s = .setup) ∨ ∃ j, w = .iter (j + 1) ∧ s = .iter j)) := by
    rcases hx with ⟨hneg, rfl⟩ | ⟨hneg, rfl | rfl⟩
    · simp at h
      rcases h with h | h
      · exact Or.inl h
      · exact Or.inr (Or.inl ⟨hneg, zip_undelayed (by omega) _ _ h⟩)
    · simp at h
      rcases h with h | h
      · exact Or.inl h
      · exact Or.inr (Or.inr ⟨hneg, zip_delayed hneg _ _ hl _ h⟩)
    · simp at h
      rcases h with h | h
      · exact Or.inl h
      · exact Or.inr (Or.inr ⟨hneg, zip_delayed hneg _ _ hl _ h⟩)
  rcases key with ⟨rfl, rfl⟩ | ⟨hneg, j, rfl, rfl⟩ | ⟨hneg, ⟨rfl, rfl⟩ | ⟨j, rfl, rfl⟩⟩
  · rfl
  · have : ¬ dly < 0 := by omega
    cases j <;> simp [Delivers, this]
  · simp [Delivers, hneg]
  · simp [Delivers, hneg]

theorem loopOn_recvs (dly : Int) (k : Nat) (flags : List Bool) :
    ((loopOn dly k flags).filter (!·.1)).length = flags.length := by
  induction flags generalizing k with
  | nil => rfl
  | cons b l ih =>
    simp only [loopOn, List.filter_append, List.length_append, ih, List.length_cons]
    by_cases h : dly < 0 <;> cases b <;> simp [h] <;> omega

theorem loopOn_sends (dly : Int) (k : Nat) (flags : List Bool) :
    ((loopOn dly k flags).filter (·.1)).length = if dly < 0 then flags.count false else flags.length := by
  induction flags generalizing k with
  | nil => simp [loopOn]
  | cons b l ih =>
    simp only [loopOn, List.filter_append, List.length_append, ih, List.length_cons]
    by_cases h : dly < 0 <;> cases b <;> simp [h] <;> omega

/-- numbers of messages -/
theorem run_lengths (hw : Wired es R B) (hp : p ∈ es) (hcp : (c, dly) ∈ p.sends) (hd : d ∈ es) (hcd : c ∈ d.recvs)
    (rs : List Nat) (flags : List Bool) :
    (recvsOn c (untag (runEvents es rs B flags))).length = flags.length + 1 ∧
    (sendsOn c (untag (runEvents es rs B flags))).length = if dly < 0 then flags.count false + 2 else flags.length + 1 := by
  obtain ⟨X, hX, hx⟩ := run_on hw hp hcp hd hcd rs flags
  rw [recvsOn_eq, sendsOn_eq, hX]
  simp only [List.length_map, List.filter_append, List.length_append, loopOn_recvs, loopOn_sends]
  rcases hx with ⟨hneg, rfl⟩ | ⟨hneg, rfl | rfl⟩
  · have : ¬ dly < 0 := by omega
    simp [this]; omega
  · simp [hneg]; omega
  · simp [hneg]; omega

/-! ### Ranks -/

theorem proj_flatMap {α : Type} (r : Nat) (l : List α) (f : α → List (Nat × Ev)) :
    proj r (l.flatMap f) = l.flatMap fun a => proj r (f a) := by
  unfold proj; rw [List.filter_flatMap, List.map_flatMap]

theorem untag_flatMap {α : Type} (l : List α) (f : α → List (Nat × Ev)) :
    untag (l.flatMap f) = l.flatMap fun a => untag (f a) := by
  unfold untag; rw [List.map_flatMap]

theorem untag_append (a b : List (Nat × Ev)) : untag (a ++ b) = untag a ++ untag b := by simp [untag]

theorem proj_bucket (es : List MElem) (i r : Nat) (h : MElem → List (Nat × Ev)) (hh : ∀ e, ∀ x ∈ h e, x.1 = e.rank) :
    proj r ((bucket es i).flatMap h) = untag ((bucket (es.filter fun e => decide (e.rank = r)) i).flatMap h) := by
  rw [proj_flatMap, untag_flatMap]
  unfold bucket
  induction es with
  | nil => rfl
  | cons e es ih =>
    have hproj : proj r (h e) = if e.rank = r then untag (h e) else [] := by
      by_cases hr : e.rank = r
      · rw [if_pos hr]
        unfold proj untag
        congr 1
        rw [List.filter_eq_self]
        intro x hx; simp [hh e x hx, hr]
      · rw [if_neg hr]
        unfold proj
        rw [List.map_eq_nil_iff, List.filter_eq_nil_iff]
        intro x hx; simp [hh e x hx, hr]
    by_cases hi : e.idx = i <;> by_cases hr : e.rank = r
    · simp only [List.filter_cons, hi, hr, decide_true, if_true, List.flatMap_cons, hproj, ih]
    · simp only [List.filter_cons, hi, hr, decide_true, decide_false, if_true, if_false, List.flatMap_cons, hproj, ih,
        List.nil_append, Bool.false_eq_true]
    · simp only [List.filter_cons, hi, hr, decide_true, decide_false, if_true, if_false, ih, Bool.false_eq_true]
    · simp only [List.filter_cons, hi, hr, decide_false, if_false, ih, Bool.false_eq_true]

theorem sendOutputs_rank (sk dl : Bool) (s : Stamp) (e : MElem) : ∀ x ∈ sendOutputs sk dl s e, x.1 = e.rank := by
  intro x hx
  unfold sendOutputs at hx
  obtain ⟨cd, -, h⟩ := List.mem_filterMap.1 hx
  split at h
  · simp at h
  · split at h
    · simp at h
    · simp only [Option.some.injEq] at h; rw [← h]

theorem recvInputs_rank (w : Stamp) (e : MElem) : ∀ x ∈ recvInputs w e, x.1 = e.rank := by
  intro x hx
  unfold recvInputs at hx
  obtain ⟨c, -, rfl⟩ := List.mem_map.1 hx
  rfl

theorem proj_barrier (R r m : Nat) (hr : r < R) :
    proj r ((List.range R).map (fun r => (r, Ev.arrive)) ++ (List.range R).map (fun r => (r, Ev.wait m))) = [.arrive, .wait m] := by
  have key : ∀ e : Ev, proj r ((List.range R).map fun r => (r, e)) = [e] := by
    intro e
    unfold proj
    rw [List.filter_map, List.map_map]
    have : ((List.range R).filter ((fun x : Nat × Ev => decide (x.1 = r)) ∘ fun r => (r, e))) = [r] := by
      have h := List.filter_eq (l := List.range R) r
      rw [List.count_eq_one_of_mem List.nodup_range (List.mem_range.2 hr)] at h
      simpa [Function.comp_def, eq_comm] using h
    rw [this]; rfl
  rw [proj_append, key, key]; rfl

theorem program_eq (es : List MElem) (R B : Nat) (flags : List Bool) (r : Nat) (hr : r < R) :
    program es B flags r = proj r (runEvents es (List.range R) B flags) := by
  have hl : ∀ k, untag (loopEvents (es.filter fun e => decide (e.rank = r)) B k flags) = proj r (loopEvents es B k flags) := by
    induction flags with
    | nil => intro k; rfl
    | cons b l ih =>
      intro k
      rw [loopEvents, loopEvents, untag_append, proj_append, ih]
      congr 1
      unfold iterEvents
      rw [proj_flatMap, untag_flatMap]
      congr 1
      funext i
      rw [untag_append, proj_append, proj_bucket _ _ _ _ (recvInputs_rank _), proj_bucket _ _ _ _ (sendOutputs_rank _ _ _)]
  unfold program
  change untag _ = _
  unfold runEvents startEvents
  simp only [untag_append, proj_append, hl]
  rw [← proj_append r ((List.range R).map fun r => (r, Ev.arrive)), ← proj_append r ((List.range R).map fun r => (r, Ev.arrive)),
    proj_barrier _ _ _ hr, proj_barrier _ _ _ hr]
  congr 1
  have h1 : untag ((List.range B).flatMap fun i => (bucket (es.filter fun e => decide (e.rank = r)) i).flatMap (sendOutputs false false .init)) =
      proj r ((List.range B).flatMap fun i => (bucket es i).flatMap (sendOutputs false false .init)) := by
    rw [proj_flatMap, untag_flatMap]
    congr 1; funext i
    rw [proj_bucket _ _ _ _ (sendOutputs_rank _ _ _)]
  have h2 : untag ((List.range B).flatMap fun i => (bucket (es.filter fun e => decide (e.rank = r)) i).flatMap
        fun e => recvInputs .setup e ++ sendOutputs false true .setup e) =
      proj r ((List.range B).flatMap fun i => (bucket es i).flatMap fun e => recvInputs .setup e ++ sendOutputs false true .setup e) := by
    rw [proj_flatMap, untag_flatMap]
    congr 1; funext i
    rw [proj_bucket _ _ _ _ (by
      intro e x hx
      rcases List.mem_append.1 hx with hx | hx
      · exact recvInputs_rank _ _ _ hx
      · exact sendOutputs_rank _ _ _ _ _ hx)]
  rw [h1, h2]
  rfl

theorem mem_run {es : List MElem} {rs : List Nat} {B : Nat} {flags : List Bool} {x : Nat × Ev} (h : x ∈ runEvents es rs B flags) :
    (∃ e ∈ es, ∃ sk dl s, x ∈ sendOutputs sk dl s e) ∨ (∃ e ∈ es, ∃ w, x ∈ recvInputs w e) ∨
    (x.1 ∈ rs ∧ (x.2 = .arrive ∨ ∃ m, x.2 = .wait m)) := by
  have hb : ∀ {i e}, e ∈ bucket es i → e ∈ es := fun h => List.mem_of_mem_filter h
  have hloop : ∀ k, x ∈ loopEvents es B k flags → (∃ e ∈ es, ∃ sk dl s, x ∈ sendOutputs sk dl s e) ∨ (∃ e ∈ es, ∃ w, x ∈ recvInputs w e) := by
    clear h
    induction flags with
    | nil => intro k h; simp [loopEvents] at h
    | cons b l ih =>
      intro k h
      rw [loopEvents, List.mem_append] at h
      rcases h with h | h
      · unfold iterEvents at h
        simp only [List.mem_flatMap, List.mem_append] at h
        obtain ⟨i, -, ⟨e, he, hx⟩ | ⟨e, he, hx⟩⟩ := h
        · exact Or.inr ⟨e, hb he, _, hx⟩
        · exact Or.inl ⟨e, hb he, _, _, _, hx⟩
      · exact ih _ h
  unfold runEvents startEvents at h
  simp only [List.mem_append, List.mem_flatMap, List.mem_map] at h
  rcases h with (((⟨i, -, e, he, hx⟩ | ⟨r, hr, rfl⟩ | ⟨r, hr, rfl⟩) | ⟨i, -, e, he, hx | hx⟩) | ⟨r, hr, rfl⟩ | ⟨r, hr, rfl⟩) | h
  · exact Or.inl ⟨e, hb he, _, _, _, hx⟩
  · exact Or.inr (Or.inr ⟨hr, Or.inl rfl⟩)
  · exact Or.inr (Or.inr ⟨hr, Or.inr ⟨_, rfl⟩⟩)
  · exact Or.inr (Or.inl ⟨e, hb he, _, hx⟩)
  · exact Or.inl ⟨e, hb he, _, _, _, hx⟩
  · exact Or.inr (Or.inr ⟨hr, Or.inl rfl⟩)
  · exact Or.inr (Or.inr ⟨hr, Or.inr ⟨_, rfl⟩⟩)
  · rcases hloop 0 h with h | h
    · exact Or.inl h
    · exact Or.inr (Or.inl h)

theorem mem_sendOutputs {sk dl : Bool} {s : Stamp} {e : MElem} {x : Nat × Ev} (h : x ∈ sendOutputs sk dl s e) :
    ∃ c dly, (c, dly) ∈ e.sends ∧ x = (e.rank, .send c s) := by
  unfold sendOutputs at h
  obtain ⟨cd, hcd, h⟩ := List.mem_filterMap.1 h
  split at h
  · simp at h
  · split at h
    · simp at h
    · simp only [Option.some.injEq] at h; exact ⟨cd.1, cd.2, hcd, h.symm⟩

theorem mem_recvInputs {w : Stamp} {e : MElem} {x : Nat × Ev} (h : x ∈ recvInputs w e) :
    ∃ c ∈ e.recvs, x = (e.rank, .recv c w) := by
  obtain ⟨c, hc, rfl⟩ := List.mem_map.1 h
  exact ⟨c, hc, rfl⟩

theorem mem_run_send {es : List MElem} {rs : List Nat} {B : Nat} {flags : List Bool} {r c : Nat} {s : Stamp}
    (h : (r, Ev.send c s) ∈ runEvents es rs B flags) : ∃ p ∈ es, ∃ dly, (c, dly) ∈ p.sends ∧ r = p.rank := by
  rcases mem_run h with ⟨e, he, sk, dl, s', hx⟩ | ⟨e, he, w, hx⟩ | ⟨-, h | ⟨m, h⟩⟩
  · obtain ⟨c', dly, hc, hx⟩ := mem_sendOutputs hx
    simp only [Prod.mk.injEq, Ev.send.injEq] at hx
    obtain ⟨rfl, rfl, -⟩ := hx
    exact ⟨e, he, dly, hc, rfl⟩
  · obtain ⟨c', -, hx⟩ := mem_recvInputs hx
    simp at hx
  · simp at h
  · simp at h

theorem mem_run_recv {es : List MElem} {rs : List Nat} {B : Nat} {flags : List Bool} {r c : Nat} {s : Stamp}
    (h : (r, Ev.recv c s) ∈ runEvents es rs B flags) : ∃ d ∈ es, c ∈ d.recvs ∧ r = d.rank := by
  rcases mem_run h with ⟨e, he, sk, dl, s', hx⟩ | ⟨e, he, w, hx⟩ | ⟨-, h | ⟨m, h⟩⟩
  · obtain ⟨c', dly, hc, hx⟩ := mem_sendOutputs hx
    simp at hx
  · obtain ⟨c', hc, hx⟩ := mem_recvInputs hx
    simp only [Prod.mk.injEq, Ev.recv.injEq] at hx
    obtain ⟨rfl, rfl, -⟩ := hx
    exact ⟨e, he, hc, rfl⟩
  · simp at h
  · simp at h

/-! ### Barriers -/

/-- after `cnt r` arrivals of each rank, every wait follows enough arrivals -/
def waitsOk (R : Nat) : (Nat → Nat) → List (Nat × Ev) → Prop
  | _, [] => True
  | cnt, (r, .arrive) :: l => waitsOk R (upd cnt r (cnt r + 1)) l
  | cnt, (_, .wait m) :: l => (∀ r' < R, m ≤ cnt r') ∧ waitsOk R cnt l
  | cnt, (_, .send _ _) :: l => waitsOk R cnt l
  | cnt, (_, .recv _ _) :: l => waitsOk R cnt l

theorem waitsOk_split {R : Nat} {cnt : Nat → Nat} {A C : List (Nat × Ev)} {r m : Nat}
    (h : waitsOk R cnt (A ++ (r, .wait m) :: C)) : ∀ r' < R, m ≤ cnt r' + (proj r' A).count .arrive := by
  induction A generalizing cnt with
  | nil => simp only [List.nil_append, waitsOk] at h; simpa using h.1
  | cons x A ih =>
    intro r' hr'
    obtain ⟨q, e⟩ := x
    rw [proj_cons]
    cases e with
    | arrive =>
      have := ih (cnt := upd cnt q (cnt q + 1)) (by simpa [waitsOk] using h) r' hr'
      by_cases hq : q = r'
      · subst hq; simp [upd] at this ⊢; omega
      · simp [upd, Ne.symm hq] at this; simpa [hq] using this
    | wait m' =>
      have := ih (cnt := cnt) (by simp only [List.cons_append, waitsOk] at h; exact h.2) r' hr'
      by_cases hq : q = r' <;> simpa [hq] using this
    | send c s =>
      have := ih (cnt := cnt) (by simpa [waitsOk] using h) r' hr'
      by_cases hq : q = r' <;> simpa [hq] using this
    | recv c s =>
      have := ih (cnt := cnt) (by simpa [waitsOk] using h) r' hr'
      by_cases hq : q = r' <;> simpa [hq] using this

theorem waitsOk_append {R : Nat} {cnt : Nat → Nat} {A C : List (Nat × Ev)} (hA : waitsOk R cnt A)
    (hC : waitsOk R (fun r => cnt r + (proj r A).count .arrive) C) : waitsOk R cnt (A ++ C) := by
  induction A generalizing cnt with
  | nil => simpa using hC
  | cons x A ih =>
    obtain ⟨q, e⟩ := x
    cases e with
    | arrive =>
      simp only [List.cons_append, waitsOk] at hA ⊢
      refine ih hA ?_
      have : (fun r => upd cnt q (cnt q + 1) r + (proj r A).count .arrive) =
          fun r => cnt r + (proj r ((q, Ev.arrive) :: A)).count .arrive := by
        funext r
        rw [proj_cons]
        by_cases hq : r = q
        · subst hq; simp [upd]; omega
        · simp [upd, hq, Ne.symm hq]
      rw [this]; exact hC
    | wait m =>
      simp only [List.cons_append, waitsOk] at hA ⊢
      refine ⟨hA.1, ih hA.2 ?_⟩
      have : (fun r => cnt r + (proj r A).count .arrive) = fun r => cnt r + (proj r ((q, Ev.wait m) :: A)).count .arrive := by
        funext r
        rw [proj_cons]
        by_cases hq : q = r <;> simp [hq]
      rw [this]; exact hC
    | send c s =>
      simp only [List.cons_append, waitsOk] at hA ⊢
      refine ih hA ?_
      have : (fun r => cnt r + (proj r A).count .arrive) = fun r => cnt r + (proj r ((q, Ev.send c s) :: A)).count .arrive := by
        funext r
        rw [proj_cons]
        by_cases hq : q = r <;> simp [hq]
      rw [this]; exact hC
    | recv c s =>
      simp only [List.cons_append, waitsOk] at hA ⊢
      refine ih hA ?_
      have : (fun r => cnt r + (proj r A).count .arrive) = fun r => cnt r + (proj r ((q, Ev.recv c s) :: A)).count .arrive := by
        funext r
        rw [proj_cons]
        by_cases hq : q = r <;> simp [hq]
      rw [this]; exact hC

theorem waitsOk_nowait {R : Nat} {cnt : Nat → Nat} {A : List (Nat × Ev)} (h : ∀ x ∈ A, ∀ m, x.2 ≠ .wait m) : waitsOk R cnt A := by
  induction A generalizing cnt with
  | nil => trivial
  | cons x A ih =>
    obtain ⟨q, e⟩ := x
    have ih' := fun cnt => ih (cnt := cnt) fun x hx => h x (List.mem_cons_of_mem _ hx)
    cases e with
    | arrive => exact ih' _
    | wait m => exact absurd rfl (h (q, .wait m) (by simp) m)
    | send c s => exact ih' _
    | recv c s => exact ih' _

theorem waitsOk_waits {R : Nat} {cnt : Nat → Nat} {m : Nat} (rs : List Nat) (h : ∀ r < R, m ≤ cnt r) :
    waitsOk R cnt (rs.map fun r => (r, Ev.wait m)) := by
  induction rs with
  | nil => trivial
  | cons r rs ih => exact ⟨h, ih⟩

theorem proj_arrive_count (R r : Nat) (hr : r < R) : (proj r ((List.range R).map fun r => (r, Ev.arrive))).count .arrive = 1 := by
  have := proj_barrier R r 0 hr
  rw [proj_append] at this
  have h2 := congrArg (List.count Ev.arrive) this
  rw [List.count_append] at h2
  have h3 : (proj r ((List.range R).map fun r => (r, Ev.wait 0))).count .arrive = 0 := by
    rw [List.count_eq_zero]
    intro h
    rw [mem_proj] at h
    simp at h
  simpa [h3] using h2

theorem run_waits (es : List MElem) (R B : Nat) (flags : List Bool) :
    waitsOk R (fun _ => 0) (runEvents es (List.range R) B flags) := by
  have hs : ∀ sk dl s (e : MElem), ∀ x ∈ sendOutputs sk dl s e, ∀ m, x.2 ≠ .wait m := by
    intro sk dl s e x hx m
    obtain ⟨c, d, -, rfl⟩ := mem_sendOutputs hx
    simp
  have hr : ∀ w (e : MElem), ∀ x ∈ recvInputs w e, ∀ m, x.2 ≠ .wait m := by
    intro w e x hx m
    obtain ⟨c, -, rfl⟩ := mem_recvInputs hx
    simp
  have hloop : ∀ k, ∀ x ∈ loopEvents es B k flags, ∀ m, x.2 ≠ .wait m := by
    induction flags with
    | nil => intro k x hx; simp [loopEvents] at hx
    | cons b l ih =>
      intro k x hx
      rw [loopEvents, List.mem_append] at hx
      rcases hx with hx | hx
      · unfold iterEvents at hx
        simp only [List.mem_flatMap, List.mem_append] at hx
        obtain ⟨i, -, ⟨e, -, hx⟩ | ⟨e, -, hx⟩⟩ := hx
        · exact hr _ _ _ hx
        · exact hs _ _ _ _ _ hx
      · exact ih _ x hx
  unfold runEvents startEvents
  refine waitsOk_append (waitsOk_append (waitsOk_append (waitsOk_append ?_ (waitsOk_append ?_ ?_)) ?_) (waitsOk_append ?_ ?_)) ?_
  · refine waitsOk_nowait fun x hx => ?_
    simp only [List.mem_flatMap] at hx
    obtain ⟨i, -, e, -, hx⟩ := hx
    exact hs _ _ _ _ _ hx
  · refine waitsOk_nowait fun x hx => ?_
    obtain ⟨r, -, rfl⟩ := List.mem_map.1 hx
    simp
  · refine waitsOk_waits _ fun r hr => ?_
    rw [proj_arrive_count R r hr]; omega
  · refine waitsOk_nowait fun x hx => ?_
    simp only [List.mem_flatMap, List.mem_append] at hx
    obtain ⟨i, -, e, -, hx | hx⟩ := hx
    · exact hr _ _ _ hx
    · exact hs _ _ _ _ _ hx
  · refine waitsOk_nowait fun x hx => ?_
    obtain ⟨r, -, rfl⟩ := List.mem_map.1 hx
    simp
  · refine waitsOk_waits _ fun r hr => ?_
    simp only [proj_append, List.count_append, proj_arrive_count R r hr]
    omega
  · exact waitsOk_nowait (hloop 0)

open Classical in
/-- rank of the sender of a channel -/
noncomputable def srcOf (es : List MElem) (c : Nat) : Nat :=
  if h : ∃ p ∈ es, c ∈ p.sends.map (·.1) then h.choose.rank else 0

open Classical in
/-- rank of the receiver of a channel -/
noncomputable def dstOf (es : List MElem) (c : Nat) : Nat :=
  if h : ∃ d ∈ es, c ∈ d.recvs then h.choose.rank else 0

theorem run_canon {es : List MElem} {R B : Nat} (hw : Wired es R B) (flags : List Bool) (hl : LastOnly flags) :
    Canon R (runEvents es (List.range R) B flags) (srcOf es) (dstOf es) := by
  refine ⟨?_, ?_, ?_, ?_, ?_⟩
  · intro x hx
    rcases mem_run hx with ⟨e, he, sk, dl, s, h⟩ | ⟨e, he, w, h⟩ | ⟨h, -⟩
    · rw [sendOutputs_rank _ _ _ _ _ h]; exact hw.ranks e he
    · rw [recvInputs_rank _ _ _ h]; exact hw.ranks e he
    · exact List.mem_range.1 h
  · intro r c s h
    obtain ⟨p, hp, dly, hc, rfl⟩ := mem_run_send h
    have hex : ∃ p ∈ es, c ∈ p.sends.map (·.1) := ⟨p, hp, List.mem_map.2 ⟨_, hc, rfl⟩⟩
    unfold srcOf
    rw [dif_pos hex]
    rw [owner_unique (f := fun e => e.sends.map (·.1)) hw.sendOnce hp hex.choose_spec.1 (List.mem_map.2 ⟨_, hc, rfl⟩) hex.choose_spec.2]
  · intro r c w h
    obtain ⟨d, hd, hc, rfl⟩ := mem_run_recv h
    have hex : ∃ d ∈ es, c ∈ d.recvs := ⟨d, hd, hc⟩
    unfold dstOf
    rw [dif_pos hex]
    rw [owner_unique (f := fun e => e.recvs) hw.recvOnce hd hex.choose_spec.1 hc hex.choose_spec.2]
  · intro G1 r c w G2 hG
    obtain ⟨d, hd, hcd, -⟩ := mem_run_recv (r := r) (c := c) (s := w) (by rw [hG]; simp)
    have := (hw.paired c).2 (List.mem_flatMap.2 ⟨d, hd, hcd⟩)
    obtain ⟨p, hp, hcp⟩ := List.mem_flatMap.1 this
    obtain ⟨⟨c', dly⟩, hcp', rfl⟩ := List.mem_map.1 hcp
    have hok := run_ok hw hp hcp' hd hcd (List.range R) flags hl
    rw [hG, evsOn_append] at hok
    have h2 : evsOn c' ((r, Ev.recv c' w) :: G2) = (false, w) :: evsOn c' G2 := by simp [evsOn]
    simp only at hok
    rw [h2] at hok
    have := okFrom_split hok
    rw [recvsOn_eq, sendsOn_eq, List.length_map, List.length_map]
    simpa using this
  · intro G1 r m G2 hG r' hr'
    have h := run_waits es R B flags
    rw [hG] at h
    have := waitsOk_split h r' hr'
    simpa using this

end

end Specula
