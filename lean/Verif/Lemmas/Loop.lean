import Verif.Spec.Dataflow
import Verif.Lemmas.Protocol
import Verif.Lemmas.TriggerOrder
/-
Helper lemmas for the loop: phases, buckets, iterations.
-/
namespace Specula
variable {σ ν : Type}

@[simp] theorem Mem.set_same (m : Mem σ ν) (c : String) (x) : m.set c x c = x := by simp [Mem.set]
theorem Mem.set_other (m : Mem σ ν) {c y : String} (x) (h : y ≠ c) : m.set c x y = m y := by simp [Mem.set, h]

theorem phase_not_mem (f : Mem σ ν → String → Cell σ ν) (m : Mem σ ν) (b : List String) (x : String) (h : x ∉ b) :
    phase f m b x = m x := by
  induction b generalizing m with
  | nil => rfl
  | cons c b ih =>
    simp only [List.mem_cons, not_or] at h
    unfold phase at ih ⊢
    simp only [List.foldl_cons]
    rw [ih _ h.2, Mem.set_other _ _ h.1]

theorem phase_mem (f : Mem σ ν → String → Cell σ ν) (m : Mem σ ν) (pre post : List String) (c : String)
    (h2 : c ∉ post) : phase f m (pre ++ c :: post) c = f (phase f m pre) c := by
  have : phase f m (pre ++ c :: post) = phase f ((phase f m pre).set c (f (phase f m pre) c)) post := by
    unfold phase; simp [List.foldl_append]
  rw [this, phase_not_mem _ _ _ _ h2, Mem.set_same]

theorem refsOf_reads {sim : Sim σ ν} {c : String} {d : InDecl} {r : OutRef} (h : r ∈ refsOf (sim.pars c) d) :
    Reads sim.params c r := by
  unfold refsOf Sim.pars at h
  cases h1 : sim.params.lookup c with
  | none => simp [h1, ObjPars.ins] at h
  | some p =>
    rw [h1] at h
    simp only [Option.getD_some] at h
    cases h2 : p.ins.lookup d.name with
    | none => simp [h2] at h
    | some i =>
      rw [h2] at h
      simp only [Option.map_some, Option.getD_some] at h
      have lookup_mem : ∀ {α : Type} (l : List (String × α)) (k : String) (v : α), l.lookup k = some v → (k, v) ∈ l := by
        intro α l k v
        induction l with
        | nil => simp
        | cons a l ih =>
          rcases a with ⟨a1, a2⟩
          rw [List.lookup_cons]
          split
          · rename_i hk
            intro hv
            have := eq_of_beq hk
            simp_all
          · intro hv; exact List.mem_cons_of_mem _ (ih hv)
      exact ⟨p, lookup_mem _ _ _ h1, _, lookup_mem _ _ _ h2, h⟩

theorem gather_congr (p : ObjPars) (d : InDecl) (rd rd' : OutRef → List (Item ν))
    (h : ∀ r ∈ refsOf p d, rd r = rd' r) : gather p d rd = gather p d rd' := by
  have : (refsOf p d).flatMap rd = (refsOf p d).flatMap rd' := by
    rw [List.flatMap_def, List.flatMap_def, List.map_congr_left h]
  unfold gather
  rw [this]

/-- inputs of `c` read from the states `s` -/
def insFrom (sim : Sim σ ν) (c : String) (s : String → σ) : InDecl → Local ν := fun d =>
  gather (sim.pars c) d fun r => (sim.beh r.obj).out (s r.obj) r.key

/-- A safe bucket: every reference of an object of the bucket to an object of the bucket points to a later one, and if
they share the device then the object does not read its inputs in `post` and preparing the producer keeps outputs. -/
def BucketSafe (sim : Sim σ ν) (b : List String) : Prop :=
  ∀ pre c post, b = pre ++ c :: post → ∀ r, Reads sim.params c r → r.obj ∈ b →
    r.obj ∈ post ∧ ((sim.beh r.obj).device = (sim.beh c).device →
      (∀ t ins ins' s, (sim.beh c).post t ins s = (sim.beh c).post t ins' s) ∧
      (∀ t ins s, (sim.beh r.obj).out ((sim.beh r.obj).prepare t ins s) = (sim.beh r.obj).out s))

theorem runBucket_not_mem (sim : Sim σ ν) (t : Int) (m : Mem σ ν) (b : List String) (x : String) (h : x ∉ b) :
    runBucket sim t m b x = m x := by
  unfold runBucket
  rw [phase_not_mem _ _ _ _ h, phase_not_mem _ _ _ _ h, phase_not_mem _ _ _ _ h]

theorem runBucket_mem (sim : Sim σ ν) (t : Int) (m : Mem σ ν) (b : List String) (hnd : b.Nodup)
    (hs : BucketSafe sim b) (c : String) (hc : c ∈ b) :
    (runBucket sim t m b c).st = objStep sim t c (insFrom sim c fun x => (m x).st) (m c).st := by
  -- the check phase
  have chk : ∀ pre c post, b = pre ++ c :: post →
      (phase (checkReady sim t) m b c).st =
        (if checkInputTimes (sim.beh c).decls (insFrom sim c fun x => (m x).st) t then
          (sim.beh c).prepare t (insFrom sim c fun x => (m x).st) (m c).st else (m c).st) ∧
      (phase (checkReady sim t) m b c).changed =
        checkInputTimes (sim.beh c).decls (insFrom sim c fun x => (m x).st) t ∧
      (∀ r, Reads sim.params c r → (phase (checkReady sim t) m b c).copy r = (sim.beh r.obj).out (m r.obj).st r.key) := by
    intro pre c post he
    have hnd' := hnd
    rw [he, List.nodup_append, List.nodup_cons] at hnd'
    obtain ⟨-, ⟨hcpost, -⟩, hdis⟩ := hnd'
    have hcpre : c ∉ pre := fun h => hdis c h c (by simp) rfl
    have hread : ∀ r, Reads sim.params c r →
        readNow sim (phase (checkReady sim t) m pre) r = (sim.beh r.obj).out (m r.obj).st r.key := by
      intro r hr
      have hnp : r.obj ∉ pre := by
        intro hp
        have := (hs pre c post he r hr (by rw [he]; simp [hp])).1
        exact hdis _ hp _ (by simp [this]) rfl
      unfold readNow
      rw [phase_not_mem _ _ _ _ hnp]
    have hins : (fun d => gather (sim.pars c) d (readNow sim (phase (checkReady sim t) m pre)))
        = insFrom sim c fun x => (m x).st := by
      funext d
      exact gather_congr _ _ _ _ fun r hr => hread r (refsOf_reads hr)
    have hown := phase_not_mem (checkReady sim t) m pre c hcpre
    rw [he, phase_mem _ _ _ _ _ hcpost]
    generalize phase (checkReady sim t) m pre = M at *
    unfold checkReady
    simp only [hins, hown]
    split
    · rename_i h; exact ⟨rfl, h.symm, fun r hr => hread r hr⟩
    · rename_i h; exact ⟨rfl, by simpa using h, fun r hr => hread r hr⟩
  obtain ⟨pre, post, he⟩ := List.append_of_mem hc
  have hnd' := hnd
  rw [he, List.nodup_append, List.nodup_cons] at hnd'
  obtain ⟨-, ⟨hcpost, -⟩, hdis⟩ := hnd'
  have hcpre : c ∉ pre := fun h => hdis c h c (by simp) rfl
  obtain ⟨c1, c2, c3⟩ := chk pre c post he
  -- outputs seen in the trigger phase
  generalize hm1 : phase (checkReady sim t) m b = m1 at *
  have m1_out : ∀ x, x ∉ b → m1 x = m x := fun x hx => by rw [← hm1]; exact phase_not_mem _ _ _ _ hx
  have trd : ∀ r, Reads sim.params c r →
      readLive sim (phase (triggerObj sim t) m1 pre) c r = (sim.beh r.obj).out (m r.obj).st r.key := by
    intro r hr
    unfold readLive
    split
    · rename_i hdev
      by_cases hin : r.obj ∈ b
      · obtain ⟨hpost, hsafe⟩ := hs pre c post he r hr hin
        obtain ⟨-, hprep⟩ := hsafe hdev
        have hnp : r.obj ∉ pre := fun h => hdis _ h _ (by simp [hpost]) rfl
        obtain ⟨pre', post', he'⟩ := List.append_of_mem hin
        obtain ⟨d1, -, -⟩ := chk pre' r.obj post' he'
        unfold readNow
        rw [phase_not_mem _ _ _ _ hnp, d1]
        split
        · rw [hprep]
        · rfl
      · have hnp : r.obj ∉ pre := fun h => hin (by rw [he]; simp [h])
        unfold readNow
        rw [phase_not_mem _ _ _ _ hnp, m1_out _ hin]
    · rw [phase_not_mem _ _ _ _ hcpre]
      exact c3 r hr
  have tins : (fun d => gather (sim.pars c) d (readLive sim (phase (triggerObj sim t) m1 pre) c))
        = insFrom sim c fun x => (m x).st := by
    funext d
    exact gather_congr _ _ _ _ fun r hr => trd r (refsOf_reads hr)
  have t1 : phase (triggerObj sim t) m1 b c =
      if (m1 c).changed then
        { m1 c with st := (sim.beh c).trigger t (insFrom sim c fun x => (m x).st) (m1 c).st } else m1 c := by
    have hown := phase_not_mem (triggerObj sim t) m1 pre c hcpre
    rw [he, phase_mem _ _ _ _ _ hcpost]
    generalize phase (triggerObj sim t) m1 pre = M at *
    unfold triggerObj
    simp only [tins, hown]
  generalize hm2 : phase (triggerObj sim t) m1 b = m2 at *
  have m2_out : ∀ x, x ∉ b → m2 x = m x := fun x hx => by
    rw [← hm2, phase_not_mem _ _ _ _ hx, m1_out x hx]
  -- the post phase
  have pins : ∀ s, (sim.beh c).post t
        (fun d => gather (sim.pars c) d (readLive sim (phase (postObj sim t) m2 pre) c)) s
        = (sim.beh c).post t (insFrom sim c fun x => (m x).st) s := by
    intro s
    by_cases hex : ∃ r, Reads sim.params c r ∧ r.obj ∈ b ∧ (sim.beh r.obj).device = (sim.beh c).device
    · obtain ⟨r, hr, hin, hdev⟩ := hex
      exact ((hs pre c post he r hr hin).2 hdev).1 t _ _ s
    · congr 1
      funext d
      refine gather_congr _ _ _ _ fun r hr => ?_
      have hr' := refsOf_reads hr
      unfold readLive
      split
      · rename_i hdev
        have hin : r.obj ∉ b := fun hin => hex ⟨r, hr', hin, hdev⟩
        have hnp : r.obj ∉ pre := fun h => hin (by rw [he]; simp [h])
        unfold readNow
        rw [phase_not_mem _ _ _ _ hnp, m2_out _ hin]
      · rw [phase_not_mem _ _ _ _ hcpre]
        have : (m2 c).copy = (m1 c).copy := by rw [t1]; split <;> rfl
        rw [this]
        exact c3 r hr'
  unfold runBucket
  rw [hm1, hm2, he, phase_mem _ _ _ _ _ hcpost]
  have hown := phase_not_mem (postObj sim t) m2 pre c hcpre
  generalize phase (postObj sim t) m2 pre = M at *
  unfold postObj
  rw [hown, t1]
  unfold objStep
  by_cases hch : checkInputTimes (sim.beh c).decls (insFrom sim c fun x => (m x).st) t = true
  · have hch' : (m1 c).changed = true := by rw [c2]; exact hch
    rw [if_pos hch] at c1
    rw [if_pos ((checkInputTimes_iff _ _ _).1 hch)]
    simp only [hch', if_true]
    rw [pins, c1]
  · have hch' : (m1 c).changed = false := by rw [c2]; simpa using hch
    rw [if_neg hch] at c1
    rw [if_neg (fun h => hch ((checkInputTimes_iff _ _ _).2 h))]
    simp [hch', c1]

theorem foldBuckets_not_mem (sim : Sim σ ν) (t : Int) (bs : List (List String)) (m : Mem σ ν) (x : String)
    (h : ∀ b ∈ bs, x ∉ b) : bs.foldl (runBucket sim t) m x = m x := by
  induction bs generalizing m with
  | nil => rfl
  | cons b bs ih =>
    simp only [List.foldl_cons]
    rw [ih _ (fun b' hb' => h b' (by simp [hb'])), runBucket_not_mem _ _ _ _ _ (h b (by simp))]

/-- One iteration over a list of disjoint safe buckets. -/
theorem foldBuckets_mem (sim : Sim σ ν) (t : Int) (bs1 bs2 : List (List String)) (b : List String) (m : Mem σ ν)
    (hnd : b.Nodup) (hs : BucketSafe sim b) (c : String) (hc : c ∈ b) (h2 : ∀ b' ∈ bs2, c ∉ b')
    (h1 : ∀ b' ∈ bs1, c ∉ b') :
    ((bs1 ++ b :: bs2).foldl (runBucket sim t) m c).st =
      objStep sim t c (insFrom sim c fun x => (bs1.foldl (runBucket sim t) m x).st) (m c).st := by
  rw [List.foldl_append, List.foldl_cons, foldBuckets_not_mem _ _ _ _ _ h2,
    runBucket_mem sim t _ b hnd hs c hc, foldBuckets_not_mem _ _ _ _ _ h1]

/-! ### the trigger lists -/

theorem lookup_map_append (tl : TriggerLists) (idx : Nat) (obj : String) (i : Nat) :
    (tl.map fun e => if e.1 = idx then (e.1, e.2 ++ [obj]) else e).lookup i =
      if i = idx then (tl.lookup i).map (· ++ [obj]) else tl.lookup i := by
  induction tl with
  | nil => simp
  | cons a tl ih =>
    rcases a with ⟨a1, a2⟩
    simp only [List.map_cons]
    by_cases h1 : a1 = idx
    · subst h1
      simp only [if_true, List.lookup_cons]
      by_cases h2 : i = a1
      · subst h2; simp
      · have : (i == a1) = false := by simpa using h2
        simp only [this, ih, h2, if_false]
    · simp only [h1, if_false, List.lookup_cons]
      by_cases h2 : i = a1
      · subst h2; simp [h1]
      · have : (i == a1) = false := by simpa using h2
        simp only [this, ih]

theorem lookup_isSome_iff (tl : TriggerLists) (i : Nat) : (tl.lookup i).isSome ↔ i ∈ tl.map (·.1) := by
  induction tl with
  | nil => simp
  | cons a tl ih =>
    rcases a with ⟨a1, a2⟩
    rw [List.lookup_cons]
    by_cases h2 : i = a1
    · subst h2; simp
    · have : (i == a1) = false := by simpa using h2
      simp only [this, ih]
      simp [h2]

theorem addTrigger_lookup (tl : TriggerLists) (obj : String) (idx i : Nat) :
    ((addTrigger tl obj idx).lookup i).getD [] =
      (tl.lookup i).getD [] ++ (if i = idx then [obj] else []) := by
  unfold addTrigger
  split
  · rename_i h
    rw [lookup_map_append]
    by_cases h2 : i = idx
    · subst h2
      obtain ⟨l, hl⟩ := Option.isSome_iff_exists.1 h
      simp [hl]
    · simp [h2]
  · rename_i h
    rw [List.lookup_append]
    by_cases h2 : i = idx
    · subst h2
      have : tl.lookup i = none := Option.not_isSome_iff_eq_none.1 h
      simp [this]
    · have h3 : List.lookup i [(idx, [obj])] = none := by
        rw [List.lookup_cons]
        have : (i == idx) = false := by simpa using h2
        simp [this]
      simp [h2, h3]

theorem addTrigger_keys (tl : TriggerLists) (obj : String) (idx : Nat) :
    (addTrigger tl obj idx).map (·.1) =
      if idx ∈ tl.map (·.1) then tl.map (·.1) else tl.map (·.1) ++ [idx] := by
  unfold addTrigger
  by_cases h : (tl.lookup idx).isSome
  · rw [if_pos h, if_pos ((lookup_isSome_iff _ _).1 h), List.map_map]
    congr 1
    funext e
    simp only [Function.comp]
    split <;> rfl
  · rw [if_neg h, if_neg (fun hm => h ((lookup_isSome_iff _ _).2 hm))]
    simp

/-- objects of the order that are processing objects -/
def procOrder (sim : Sim σ ν) (order : List (String × Nat)) : List (String × Nat) :=
  order.filter fun x => sim.isProc x.1

theorem fillTriggers_eq (sim : Sim σ ν) (order : List (String × Nat)) :
    fillTriggers sim order = (procOrder sim order).foldl (fun tl x => addTrigger tl x.1 x.2) [] := by
  unfold fillTriggers procOrder
  rw [List.foldl_filter]

theorem foldAdd_spec (l : List (String × Nat)) (tl : TriggerLists) (hnd : (tl.map (·.1)).Nodup) :
    let r := l.foldl (fun tl x => addTrigger tl x.1 x.2) tl
    (∀ i, (r.lookup i).getD [] = (tl.lookup i).getD [] ++ (l.filter fun x => x.2 = i).map (·.1)) ∧
    (r.map (·.1)).Nodup ∧ (∀ i, i ∈ r.map (·.1) ↔ i ∈ tl.map (·.1) ∨ i ∈ l.map (·.2)) := by
  induction l generalizing tl with
  | nil => simp [hnd]
  | cons x l ih =>
    simp only [List.foldl_cons]
    have hk := addTrigger_keys tl x.1 x.2
    have hnd' : ((addTrigger tl x.1 x.2).map (·.1)).Nodup := by
      rw [hk]
      split
      · exact hnd
      · rename_i h
        rw [List.nodup_append]
        refine ⟨hnd, by simp, ?_⟩
        intro a ha b hb
        simp only [List.mem_singleton] at hb
        subst hb
        intro hab; subst hab; exact h ha
    obtain ⟨h1, h2, h3⟩ := ih (addTrigger tl x.1 x.2) hnd'
    refine ⟨?_, h2, ?_⟩
    · intro i
      rw [h1, addTrigger_lookup]
      by_cases hi : i = x.2
      · subst hi; simp
      · have : ¬ x.2 = i := fun h => hi h.symm
        simp [hi, this]
    · intro i
      rw [h3, hk]
      by_cases hx : x.2 ∈ tl.map (·.1)
      · rw [if_pos hx]
        simp only [List.map_cons, List.mem_cons]
        constructor
        · rintro (h | h)
          · exact Or.inl h
          · exact Or.inr (Or.inr h)
        · rintro (h | rfl | h)
          · exact Or.inl h
          · exact Or.inl hx
          · exact Or.inr h
      · rw [if_neg hx]
        simp only [List.mem_append, List.map_cons, List.mem_cons, List.not_mem_nil, or_false, or_assoc]

/-- The sorted buckets are indexed by a strictly increasing list of trigger indices; the bucket of index `i` holds the
processing objects with that index in the order in which they were added. -/
theorem sortedBuckets_fill (sim : Sim σ ν) (order : List (String × Nat)) :
    ∃ is : List Nat, is.Pairwise (· < ·) ∧ (∀ i, i ∈ is ↔ i ∈ (procOrder sim order).map (·.2)) ∧
      sortedBuckets (fillTriggers sim order) =
        is.map fun i => ((procOrder sim order).filter fun x => x.2 = i).map (·.1) := by
  rw [fillTriggers_eq]
  obtain ⟨h1, h2, h3⟩ := foldAdd_spec (procOrder sim order) [] (by simp)
  generalize (procOrder sim order).foldl (fun tl x => addTrigger tl x.1 x.2) [] = tl at *
  refine ⟨(tl.map (·.1)).mergeSort (fun a b => decide (a ≤ b)), ?_, ?_, ?_⟩
  · have hs : ((tl.map (·.1)).mergeSort (fun a b => decide (a ≤ b))).Pairwise (fun a b => a ≤ b) := by
      have := List.pairwise_mergeSort (le := fun a b : Nat => decide (a ≤ b))
        (fun a b c => by simp; omega) (fun a b => by simp; omega) (tl.map (·.1))
      exact this.imp (fun h => by simpa using h)
    have hn : ((tl.map (·.1)).mergeSort (fun a b => decide (a ≤ b))).Nodup :=
      (List.mergeSort_perm _ _).nodup_iff.2 h2
    refine List.Pairwise.imp₂ ?_ hs hn
    intro a b h1 h2
    omega
  · intro i
    rw [List.mem_mergeSort, h3]
    simp
  · unfold sortedBuckets
    congr 1
    funext i
    rw [h1]
    simp

end Specula
