import Mathlib.Data.List.Induction
import Verif.Model.TriggerOrder
import Verif.Spec.Graph
/-
Helper lemmas about the trigger-order loop: the dictionary at any time is the original one restricted to the
objects not yet ordered, with the references to ordered objects removed.
-/
namespace Specula

/-- remove all references to objects satisfying `q` -/
def removeP (q : String → Bool) (ins : List (String × Input)) : List (String × Input) :=
  ins.filterMap fun e =>
    match e.2 with
    | .single r => if q r.obj then none else some e
    | .list rs => some (e.1, .list (rs.filter fun x => !q x.obj))

/-- the dictionary after the objects in `d` have been removed -/
def residual (ps : Params) (d : List String) : Params :=
  (ps.filter fun np => !d.contains np.1).map fun np =>
    (np.1, { np.2 with inputs := np.2.inputs.map (removeP fun n => d.contains n) })

theorem removeP_comp (q1 q2 : String → Bool) (ins) :
    removeP q2 (removeP q1 ins) = removeP (fun n => q1 n || q2 n) ins := by
  unfold removeP
  rw [List.filterMap_filterMap]
  congr 1
  funext e
  rcases e with ⟨k, i⟩
  cases i with
  | single r => by_cases h : q1 r.obj <;> simp [h]
  | list rs =>
    simp only [Option.bind_some, List.filter_filter]
    congr 3
    congr 1
    funext x
    cases q1 x.obj <;> cases q2 x.obj <;> rfl

theorem removeFromIns_eq (o : String) (ins) : removeFromIns o ins = removeP (fun n => n == o) ins := by
  unfold removeFromIns removeP; rfl

theorem removeP_false (ins) : removeP (fun _ => false) ins = ins := by
  unfold removeP
  conv => rhs; rw [← List.filterMap_some (l := ins)]
  congr 1
  funext e
  rcases e with ⟨k, i⟩
  cases i with
  | single r => rfl
  | list rs => simp

theorem residual_nil (ps : Params) : residual ps [] = ps := by
  unfold residual
  rw [List.filter_eq_self.2 (by simp)]
  conv => rhs; rw [← List.map_id ps]
  congr 1
  funext np
  rcases np with ⟨n, p⟩
  cases p with
  | mk cls inputs rest =>
    cases inputs with
    | none => rfl
    | some ins => simp [removeP_false]

theorem residual_step (ps : Params) (d : List String) (o : String) :
    removeInputs (delKey (residual ps d) o) o = residual ps (o :: d) := by
  unfold residual removeInputs delKey
  rw [List.filter_map, List.map_map, List.filter_filter]
  have h1 : (fun (a : String × ObjPars) => ((fun np => np.1 != o) ∘
      fun np : String × ObjPars => (np.1, { np.2 with inputs := np.2.inputs.map (removeP fun n => d.contains n) })) a
        && !d.contains a.1) = fun np : String × ObjPars => !(o :: d).contains np.1 := by
    funext np
    simp only [Function.comp, List.contains_cons, Bool.not_or]
    rfl
  rw [h1]
  congr 1
  funext np
  simp only [Function.comp]
  cases np.2.inputs with
  | none => rfl
  | some ins =>
    simp only [Option.map_some, removeFromIns_eq, removeP_comp]
    congr 4
    funext n
    simp only [List.contains_cons]
    rw [Bool.or_comm]

theorem mem_residual {ps : Params} {d : List String} {n : String} {p : ObjPars} :
    (n, p) ∈ residual ps d ↔ n ∉ d ∧ ∃ p0, (n, p0) ∈ ps ∧
      p = { p0 with inputs := p0.inputs.map (removeP fun n => d.contains n) } := by
  unfold residual
  simp only [List.mem_map, List.mem_filter, Bool.not_eq_true', Prod.mk.injEq]
  constructor
  · rintro ⟨⟨n', p0⟩, ⟨h1, h2⟩, rfl, h3⟩
    refine ⟨by simpa using h2, p0, h1, h3.symm⟩
  · rintro ⟨h1, p0, h2, rfl⟩
    exact ⟨(n, p0), ⟨h2, by simpa using h1⟩, rfl, rfl⟩

theorem names_residual {ps : Params} {d : List String} {n : String} :
    n ∈ names (residual ps d) ↔ n ∈ names ps ∧ n ∉ d := by
  simp only [names, List.mem_map]
  constructor
  · rintro ⟨⟨n', p⟩, h, rfl⟩
    obtain ⟨h1, p0, h2, _⟩ := mem_residual.1 h
    exact ⟨⟨(n', p0), h2, rfl⟩, h1⟩
  · rintro ⟨⟨⟨n', p0⟩, h, rfl⟩, h1⟩
    exact ⟨(n', _), mem_residual.2 ⟨h1, p0, h, rfl⟩, rfl⟩

theorem names_residual_eq (ps : Params) (d : List String) :
    names (residual ps d) = (names ps).filter fun n => !d.contains n := by
  unfold names residual
  rw [List.map_map, List.filter_map]
  rfl

/-- references remaining after removal -/
theorem mem_removeP_refs {q : String → Bool} {ins : List (String × Input)} {r : OutRef} :
    (∃ e ∈ removeP q ins, r ∈ e.2.refs) ↔ (∃ e ∈ ins, r ∈ e.2.refs) ∧ q r.obj = false := by
  unfold removeP
  simp only [List.mem_filterMap]
  constructor
  · rintro ⟨e, ⟨⟨k, i⟩, he, h⟩, hr⟩
    cases i with
    | single r' =>
      simp only at h
      split at h
      · simp at h
      · simp only [Option.some.injEq] at h
        subst h
        simp only [Input.refs, List.mem_singleton] at hr
        subst hr
        exact ⟨⟨_, he, by simp [Input.refs]⟩, by simp_all⟩
    | list rs =>
      simp only [Option.some.injEq] at h
      subst h
      simp only [Input.refs, List.mem_filter, Bool.not_eq_true'] at hr
      exact ⟨⟨_, he, hr.1⟩, hr.2⟩
  · rintro ⟨⟨⟨k, i⟩, he, hr⟩, hq⟩
    cases i with
    | single r' =>
      simp only [Input.refs, List.mem_singleton] at hr
      subst hr
      exact ⟨(k, .single r), ⟨_, he, by simp [hq]⟩, by simp [Input.refs]⟩
    | list rs =>
      exact ⟨_, ⟨_, he, rfl⟩, by simpa [Input.refs, hq] using hr⟩

theorem foldl_max_le (rs : List OutRef) (m b : Int) (hm : m ≤ b) (h : ∀ r ∈ rs, r.delay ≤ b) :
    rs.foldl (fun m x => max m x.delay) m ≤ b := by
  induction rs generalizing m with
  | nil => simpa
  | cons r rs ih =>
    simp only [List.foldl_cons]
    apply ih
    · have := h r (by simp); omega
    · intro x hx; exact h x (by simp [hx])

theorem le_foldl_max (rs : List OutRef) (m : Int) :
    m ≤ rs.foldl (fun m x => max m x.delay) m ∧ ∀ r ∈ rs, r.delay ≤ rs.foldl (fun m x => max m x.delay) m := by
  induction rs generalizing m with
  | nil => simp
  | cons r rs ih =>
    simp only [List.foldl_cons]
    have := ih (max m r.delay)
    refine ⟨by omega, ?_⟩
    intro x hx
    rcases List.mem_cons.1 hx with rfl | hx
    · omega
    · exact this.2 x hx

theorem foldl_max_attained (rs : List OutRef) (m : Int) :
    rs.foldl (fun m x => max m x.delay) m = m ∨ ∃ r ∈ rs, r.delay = rs.foldl (fun m x => max m x.delay) m := by
  induction rs generalizing m with
  | nil => simp
  | cons r rs ih =>
    simp only [List.foldl_cons]
    rcases ih (max m r.delay) with h | ⟨x, hx, h⟩
    · by_cases hc : r.delay ≤ m
      · left; rw [h]; omega
      · right; exact ⟨r, by simp, by rw [h]; omega⟩
    · right; exact ⟨x, by simp [hx], h⟩

/-- with delays `≤ 0`, an entry with a current-iteration reference has maximal delay 0 -/
theorem maxDelay_eq_zero_of_mem {i : Input} {r : OutRef} (hr : r ∈ i.refs) (h0 : r.delay = 0)
    (hle : ∀ x ∈ i.refs, x.delay ≤ 0) : i.maxDelay = 0 := by
  cases i with
  | single r' => simp only [Input.refs, List.mem_singleton] at hr; subst hr; simpa [Input.maxDelay]
  | list rs =>
    cases rs with
    | nil => simp [Input.refs] at hr
    | cons a rs =>
      simp only [Input.maxDelay]
      simp only [Input.refs] at hr hle
      have h1 := foldl_max_le rs a.delay 0 (hle a (by simp)) (fun x hx => hle x (by simp [hx]))
      have h2 := le_foldl_max rs a.delay
      rcases List.mem_cons.1 hr with rfl | hr
      · omega
      · have := h2.2 r hr; omega

/-- maximal delay 0 comes from a current-iteration reference -/
theorem mem_of_maxDelay_eq_zero {i : Input} (h : i.maxDelay = 0) : ∃ r ∈ i.refs, r.delay = 0 := by
  cases i with
  | single r => exact ⟨r, by simp [Input.refs], h⟩
  | list rs =>
    cases rs with
    | nil => simp [Input.maxDelay] at h
    | cons a rs =>
      simp only [Input.maxDelay] at h
      rcases foldl_max_attained rs a.delay with h1 | ⟨x, hx, h1⟩
      · exact ⟨a, by simp [Input.refs], by omega⟩
      · exact ⟨x, by simp [Input.refs, hx], by omega⟩

theorem isLeaf_iff {p : ObjPars} : isLeaf p = true ↔ ∀ e ∈ p.ins, e.2.maxDelay ≠ 0 := by
  unfold isLeaf ObjPars.ins
  cases p.inputs with
  | none => simp
  | some ins => simp

theorem ins_map_removeP (p : ObjPars) (q : String → Bool) :
    ({ p with inputs := p.inputs.map (removeP q) } : ObjPars).ins = removeP q p.ins := by
  unfold ObjPars.ins
  cases p.inputs with
  | none => simp [removeP]
  | some ins => simp

theorem removeP_mem_refs_le {q : String → Bool} {ins : List (String × Input)} {e : String × Input}
    (he : e ∈ removeP q ins) {r : OutRef} (hr : r ∈ e.2.refs) : (∃ e ∈ ins, r ∈ e.2.refs) ∧ q r.obj = false :=
  mem_removeP_refs.1 ⟨e, he, hr⟩

theorem mem_leavesOf {ps : Params} {n : String} : n ∈ leavesOf ps ↔ ∃ p, (n, p) ∈ ps ∧ isLeaf p = true := by
  unfold leavesOf
  simp only [List.mem_map, List.mem_filter]
  constructor
  · rintro ⟨⟨n', p⟩, ⟨h1, h2⟩, rfl⟩; exact ⟨p, h1, h2⟩
  · rintro ⟨p, h1, h2⟩; exact ⟨(n, p), ⟨h1, h2⟩, rfl⟩

theorem isDict_unique {ps : Params} (h : IsDict ps) {n : String} {p q : ObjPars}
    (hp : (n, p) ∈ ps) (hq : (n, q) ∈ ps) : p = q := by
  unfold IsDict names at h
  induction ps with
  | nil => simp at hp
  | cons a ps ih =>
    simp only [List.map_cons, List.nodup_cons, List.mem_map, not_exists, not_and] at h
    rcases List.mem_cons.1 hp with hp | hp <;> rcases List.mem_cons.1 hq with hq | hq
    · rw [← hp] at hq; exact (Prod.mk.inj hq).2.symm
    · exact absurd (by rw [← hp]) (h.1 _ hq)
    · exact absurd (by rw [← hq]) (h.1 _ hp)
    · exact ih h.2 hp hq

/-- A leaf of the residual dictionary has all its current-iteration producers already removed. -/
theorem leaf_reads_now {ps : Params} (hd : IsDict ps) (hdel : DelaysOk ps) {d : List String} {n : String}
    (hn : n ∈ leavesOf (residual ps d)) {r : OutRef} (hr : Reads ps n r) (h0 : r.delay = 0) : r.obj ∈ d := by
  obtain ⟨p, hp, hl⟩ := mem_leavesOf.1 hn
  obtain ⟨_, p0, hp0, rfl⟩ := mem_residual.1 hp
  rw [isLeaf_iff, ins_map_removeP] at hl
  obtain ⟨p1, hp1, e1, he1, hr1⟩ := hr
  obtain rfl := isDict_unique hd hp0 hp1
  apply Classical.byContradiction
  intro hnot
  obtain ⟨e, he, her⟩ := mem_removeP_refs (q := fun n => d.contains n) |>.2 ⟨⟨e1, he1, hr1⟩, by simpa using hnot⟩
  refine hl e he (maxDelay_eq_zero_of_mem her h0 ?_)
  intro x hx
  obtain ⟨⟨e2, he2, hx2⟩, _⟩ := removeP_mem_refs_le he hx
  exact hdel n x ⟨p0, hp0, e2, he2, hx2⟩

/-- An object of the residual dictionary that is not a leaf still waits for a current-iteration producer. -/
theorem not_leaf_reads_now {ps : Params} {d : List String} {n : String}
    (hn : n ∈ names (residual ps d)) (hl : n ∉ leavesOf (residual ps d)) :
    ∃ r, Reads ps n r ∧ r.delay = 0 ∧ r.obj ∉ d := by
  simp only [names, List.mem_map] at hn
  obtain ⟨⟨n', p⟩, hp, rfl⟩ := hn
  have h : ¬ isLeaf p = true := fun h => hl (mem_leavesOf.2 ⟨p, hp, h⟩)
  obtain ⟨_, p0, hp0, rfl⟩ := mem_residual.1 hp
  rw [isLeaf_iff, ins_map_removeP] at h
  simp only [ne_eq, Classical.not_forall, Classical.not_not] at h
  obtain ⟨e, he, h⟩ := h
  obtain ⟨r, hr, h0⟩ := mem_of_maxDelay_eq_zero h
  obtain ⟨⟨e2, he2, hx2⟩, hq⟩ := removeP_mem_refs_le he hr
  exact ⟨r, ⟨p0, hp0, e2, he2, hx2⟩, h0, by simpa using hq⟩

theorem hasDelayedOutput_residual {ps : Params} {d : List String} {o : String} :
    hasDelayedOutput o (residual ps d) = true ↔
      ∃ c, c ∉ d ∧ o ∉ d ∧ ReadsDelayed ps c o := by
  unfold hasDelayedOutput
  rw [List.any_eq_true]
  constructor
  · rintro ⟨⟨c, p⟩, hp, h⟩
    obtain ⟨hc, p0, hp0, rfl⟩ := mem_residual.1 hp
    cases hin : p0.inputs with
    | none => simp [hin] at h
    | some ins =>
      simp only [hin, Option.map_some, List.any_eq_true, Bool.and_eq_true, beq_iff_eq, decide_eq_true_eq] at h
      obtain ⟨e, he, r, hr, rfl, h1⟩ := h
      obtain ⟨⟨e2, he2, hx2⟩, hq⟩ := removeP_mem_refs_le he hr
      refine ⟨c, hc, by simpa using hq, r, ⟨p0, hp0, e2, ?_, hx2⟩, rfl, h1⟩
      simpa [ObjPars.ins, hin] using he2
  · rintro ⟨c, hc, ho, r, ⟨p0, hp0, e, he, hr⟩, rfl, h1⟩
    refine ⟨(c, _), mem_residual.2 ⟨hc, p0, hp0, rfl⟩, ?_⟩
    cases hin : p0.inputs with
    | none => simp [ObjPars.ins, hin] at he
    | some ins =>
      simp only [ObjPars.ins, hin, Option.getD_some] at he
      simp only [Option.map_some, List.any_eq_true, Bool.and_eq_true, beq_iff_eq, decide_eq_true_eq]
      obtain ⟨e2, he2, hr2⟩ := mem_removeP_refs (q := fun n => d.contains n) |>.2 ⟨⟨e, he, hr⟩, by simpa using ho⟩
      exact ⟨e2, he2, r, hr2, rfl, h1⟩

/-- What one pass over the leaves does. -/
theorem triggerPass_spec (ps : Params) (leaves : List String) (d : List String) :
    ∃ o, (triggerPass leaves (residual ps d)) = (residual ps (o.reverse ++ d), o) ∧ o.Sublist leaves ∧
      (∀ l1 n l2, o = l1 ++ n :: l2 → hasDelayedOutput n (residual ps (l1.reverse ++ d)) = false) ∧
      (o = [] → ∀ n ∈ leaves, hasDelayedOutput n (residual ps d) = true) := by
  induction leaves generalizing d with
  | nil => exact ⟨[], by simp [triggerPass], by simp, by simp, by simp⟩
  | cons l ls ih =>
    unfold triggerPass
    by_cases h : hasDelayedOutput l (residual ps d) = true
    · obtain ⟨o, h1, h2, h3, h4⟩ := ih d
      refine ⟨o, by rw [if_pos h, h1], h2.cons _, h3, ?_⟩
      intro ho n hn
      rcases List.mem_cons.1 hn with rfl | hn
      · exact h
      · exact h4 ho n hn
    · rw [if_neg h, residual_step]
      obtain ⟨o, h1, h2, h3, _⟩ := ih (l :: d)
      refine ⟨l :: o, by simp [h1], h2.cons_cons _, ?_, by simp⟩
      intro l1 n l2 he
      cases l1 with
      | nil =>
        simp only [List.nil_append, List.cons.injEq] at he
        obtain ⟨rfl, rfl⟩ := he
        simpa using h
      | cons a l1 =>
        simp only [List.cons_append, List.cons.injEq] at he
        obtain ⟨rfl, rfl⟩ := he
        have := h3 l1 n l2 rfl
        simpa using this

theorem leavesOf_subset_names (ps : Params) : (leavesOf ps).Sublist (names ps) := by
  unfold leavesOf names
  exact List.Sublist.map _ (List.filter_sublist)

/-- What the whole loop does, when it succeeds. -/
theorem triggerLoop_spec (ps : Params) (hd : IsDict ps) (index : Nat) (d : List String)
    (o : List (String × Nat)) (left : Params)
    (h : triggerLoop index (residual ps d) = some (o, left)) :
    left = residual ps ((o.map (·.1)).reverse ++ d) ∧ leavesOf left = [] ∧
    (o.map (·.1)).Nodup ∧ (∀ x ∈ o, x.1 ∉ d ∧ x.1 ∈ names ps ∧ index ≤ x.2) ∧
    o.Pairwise (fun a b => a.2 ≤ b.2) ∧
    (∀ l1 n i l2, o = l1 ++ (n, i) :: l2 →
      hasDelayedOutput n (residual ps ((l1.map (·.1)).reverse ++ d)) = false ∧
      ∃ d', (∀ x ∈ d', x ∈ d ∨ ∃ j, (x, j) ∈ l1 ∧ j < i) ∧ n ∈ leavesOf (residual ps d')) := by
  generalize hk : (residual ps d).length = k
  induction k using Nat.strongRecOn generalizing index d o left with
  | ind k ih =>
    rw [triggerLoop] at h
    split at h
    · rename_i hlen
      simp only [Option.some.injEq, Prod.mk.injEq] at h
      obtain ⟨rfl, rfl⟩ := h
      refine ⟨by simp, List.length_eq_zero_iff.1 hlen, by simp, by simp, by simp, by simp⟩
    · split at h
      · simp at h
      · rename_i hlen hne
        obtain ⟨po, hp1, hp2, hp3, _⟩ := triggerPass_spec ps (leavesOf (residual ps d)) d
        have hle := triggerPass_length_le (leavesOf (residual ps d)) (residual ps d)
        rw [hp1] at h hne hle
        simp only at h hne hle
        split at h
        · simp at h
        · rename_i o2 left2 hrec
          simp only [Option.some.injEq, Prod.mk.injEq] at h
          obtain ⟨rfl, rfl⟩ := h
          obtain ⟨i1, i2, i3, i4, i5, i6⟩ := ih _ (by omega) (index+1) (po.reverse ++ d) o2 left2 hrec rfl
          have hmem : ∀ n ∈ po, n ∈ names ps ∧ n ∉ d := by
            intro n hn
            exact names_residual.1 ((leavesOf_subset_names _).subset (hp2.subset hn))
          have hpnd : po.Nodup := by
            refine List.Nodup.sublist (hp2.trans (leavesOf_subset_names _)) ?_
            rw [names_residual_eq]
            exact hd.filter _
          have hmapmap : (List.map (fun n => (n, index)) po).map (·.1) = po := by
            rw [List.map_map]; simp [Function.comp_def]
          refine ⟨?_, i2, ?_, ?_, ?_, ?_⟩
          · rw [i1]; simp [hmapmap]
          · rw [List.map_append, hmapmap, List.nodup_append]
            refine ⟨hpnd, i3, ?_⟩
            intro a ha b hb hab
            subst hab
            obtain ⟨x, hx, rfl⟩ := List.mem_map.1 hb
            have := (i4 x hx).1
            simp only [List.mem_append, List.mem_reverse, not_or] at this
            exact this.1 ha
          · intro x hx
            rcases List.mem_append.1 hx with hx | hx
            · obtain ⟨n, hn, rfl⟩ := List.mem_map.1 hx
              exact ⟨(hmem n hn).2, (hmem n hn).1, Nat.le_refl _⟩
            · have := i4 x hx
              simp only [List.mem_append, not_or] at this
              exact ⟨this.1.2, this.2.1, by omega⟩
          · rw [List.pairwise_append]
            refine ⟨?_, i5, ?_⟩
            · rw [List.pairwise_map]; exact List.Pairwise.imp (fun _ => Nat.le_refl _) hpnd
            · intro a ha b hb
              obtain ⟨n, hn, rfl⟩ := List.mem_map.1 ha
              have := (i4 b hb).2.2
              show index ≤ b.2
              omega
          · intro l1 n i l2 he
            rcases List.append_eq_append_iff.1 he with ⟨as, h1, h2⟩ | ⟨cs, h1, h2⟩
            · -- the element belongs to the later passes
              subst h1
              obtain ⟨j1, d', j2, j3⟩ := i6 as n i l2 h2
              refine ⟨?_, d', ?_, j3⟩
              · simpa [hmapmap, Function.comp_def] using j1
              · intro x hx
                rcases j2 x hx with hx | ⟨j, hj, hji⟩
                · rcases List.mem_append.1 hx with hx | hx
                  · right
                    refine ⟨index, List.mem_append_left _ (List.mem_map.2 ⟨x, by simpa using hx, rfl⟩), ?_⟩
                    have : (n, i) ∈ o2 := by rw [h2]; simp
                    have := (i4 _ this).2.2
                    simp only at this
                    omega
                  · left; exact hx
                · right; exact ⟨j, List.mem_append_right _ hj, hji⟩
            · cases cs with
              | nil =>
                simp only [List.nil_append] at h2
                simp only [List.append_nil] at h1
                subst h1
                obtain ⟨j1, d', j2, j3⟩ := i6 [] n i l2 h2.symm
                refine ⟨?_, d', ?_, j3⟩
                · simpa [hmapmap, Function.comp_def] using j1
                · intro x hx
                  rcases j2 x hx with hx | ⟨j, hj, hji⟩
                  · rcases List.mem_append.1 hx with hx | hx
                    · right
                      refine ⟨index, List.mem_map.2 ⟨x, by simpa using hx, rfl⟩, ?_⟩
                      have : (n, i) ∈ o2 := by rw [← h2]; simp
                      have := (i4 _ this).2.2
                      simp only at this
                      omega
                    · left; exact hx
                  · simp at hj
              | cons c cs =>
                simp only [List.cons_append, List.cons.injEq] at h2
                obtain ⟨rfl, rfl⟩ := h2
                -- the element belongs to this pass
                obtain ⟨q1, q2, hq, hq1, hq2⟩ := List.map_eq_append_iff.1 h1
                cases q2 with
                | nil => simp at hq2
                | cons n' q2 =>
                  simp only [List.map_cons, List.cons.injEq, Prod.mk.injEq] at hq2
                  obtain ⟨⟨rfl, rfl⟩, hq2⟩ := hq2
                  subst hq1
                  refine ⟨?_, d, fun x hx => Or.inl hx, ?_⟩
                  · have := hp3 q1 n' q2 hq
                    rw [List.map_map]
                    simpa [Function.comp_def] using this
                  · exact hp2.subset (by rw [hq]; simp)

end Specula

namespace Specula

theorem Reads.mem_names {ps : Params} {c : String} {r : OutRef} (h : Reads ps c r) : c ∈ names ps := by
  obtain ⟨p, hp, _⟩ := h
  exact List.mem_map.2 ⟨_, hp, rfl⟩

/-- all the objects ordered by one pass are schedulable -/
theorem pass_schedulable {ps : Params} (hd : IsDict ps) (hdel : DelaysOk ps) {d o : List String}
    (hds : ∀ x ∈ d, Schedulable ps x) (hsub : o.Sublist (leavesOf (residual ps d)))
    (hno : ∀ l1 n l2, o = l1 ++ n :: l2 → hasDelayedOutput n (residual ps (l1.reverse ++ d)) = false) :
    ∀ x ∈ o, Schedulable ps x := by
  have key : ∀ l1 l2, o = l1 ++ l2 → ∀ x ∈ l1, Schedulable ps x := by
    intro l1
    induction l1 using List.reverseRecOn with
    | nil => simp
    | append_singleton l1 n ih =>
      intro l2 he x hx
      have he' : o = l1 ++ n :: l2 := by simpa using he
      have ih' := ih (n :: l2) he'
      rcases List.mem_append.1 hx with hx | hx
      · exact ih' x hx
      · simp only [List.mem_singleton] at hx
        subst hx
        have hleaf : x ∈ leavesOf (residual ps d) := hsub.subset (by rw [he']; simp)
        have hnd := hno l1 x l2 he'
        obtain ⟨hx1, hx2⟩ := names_residual.1 ((leavesOf_subset_names _).subset hleaf)
        refine Schedulable.mk x hx1 ?_ ?_
        · rintro a ⟨r, hr, rfl, h0⟩
          exact hds _ (leaf_reads_now hd hdel hleaf hr h0)
        · intro c hc
          apply Classical.byContradiction
          intro hcn
          have hx3 : x ∉ l1 := by
            intro hmem
            have : o.Nodup := by
              refine List.Nodup.sublist (hsub.trans (leavesOf_subset_names _)) ?_
              rw [names_residual_eq]; exact hd.filter _
            rw [he', List.nodup_append] at this
            exact this.2.2 x hmem x (by simp) rfl
          have : hasDelayedOutput x (residual ps (l1.reverse ++ d)) = true := by
            refine hasDelayedOutput_residual.2 ⟨c, ?_, ?_, hc⟩
            · intro hm
              rcases List.mem_append.1 hm with hm | hm
              · exact hcn (ih' c (by simpa using hm))
              · exact hcn (hds c hm)
            · simp [hx2, hx3]
          rw [this] at hnd
          simp at hnd
  intro x hx
  exact key o [] (by simp) x hx


/-- When the loop raises, the objects removed so far are schedulable, some object is a leaf, and all leaves are
blocked by a delayed consumer. -/
theorem triggerLoop_none {ps : Params} (hd : IsDict ps) (hdel : DelaysOk ps) (index : Nat) (d : List String)
    (hds : ∀ x ∈ d, Schedulable ps x) (h : triggerLoop index (residual ps d) = none) :
    ∃ d', (∀ x ∈ d', Schedulable ps x) ∧ leavesOf (residual ps d') ≠ [] ∧
      ∀ n ∈ leavesOf (residual ps d'), hasDelayedOutput n (residual ps d') = true := by
  generalize hk : (residual ps d).length = k
  induction k using Nat.strongRecOn generalizing index d with
  | ind k ih =>
    rw [triggerLoop] at h
    split at h
    · simp at h
    · rename_i hlen
      obtain ⟨po, hp1, hp2, hp3, hp4⟩ := triggerPass_spec ps (leavesOf (residual ps d)) d
      have hle := triggerPass_length_le (leavesOf (residual ps d)) (residual ps d)
      split at h
      · rename_i heq
        refine ⟨d, hds, fun hh => hlen (by simp [hh]), ?_⟩
        apply hp4
        rw [hp1] at heq
        simp only at heq
        have hsub : (names (residual ps (po.reverse ++ d))).Sublist (names (residual ps d)) := by
          rw [names_residual_eq, names_residual_eq]
          have : (names ps).filter (fun n => !(po.reverse ++ d).contains n)
              = ((names ps).filter (fun n => !d.contains n)).filter (fun n => !po.reverse.contains n) := by
            rw [List.filter_filter]
            congr 1
            funext n
            simp only [List.contains_eq_mem, List.mem_append, List.mem_reverse]
            by_cases h1 : n ∈ po <;> by_cases h2 : n ∈ d <;> simp [h1, h2]
          rw [this]
          exact List.filter_sublist
        have hlen2 : (names (residual ps d)).length ≤ (names (residual ps (po.reverse ++ d))).length := by
          simp only [names, List.length_map]; omega
        have heq2 := hsub.eq_of_length_le hlen2
        apply Classical.byContradiction
        intro hpo
        obtain ⟨a, po', rfl⟩ : ∃ a po', po = a :: po' := by
          cases po with
          | nil => exact absurd rfl hpo
          | cons a po' => exact ⟨a, po', rfl⟩
        have h1 : a ∈ names (residual ps d) := (leavesOf_subset_names _).subset (hp2.subset (by simp))
        rw [← heq2] at h1
        have := (names_residual.1 h1).2
        simp at this
      · rename_i hne
        rw [hp1] at h hne hle
        simp only at h hne hle
        split at h
        · rename_i hrec
          refine ih _ (by omega) (index + 1) (po.reverse ++ d) ?_ hrec rfl
          intro x hx
          rcases List.mem_append.1 hx with hx | hx
          · exact pass_schedulable hd hdel hds hp2 hp3 x (by simpa using hx)
          · exact hds x hx
        · simp at h

/-- When the loop succeeds, exactly the schedulable objects are ordered. -/
theorem triggerLoop_some_sched {ps : Params} (hd : IsDict ps) (hdel : DelaysOk ps) {o : List (String × Nat)}
    {left : Params} (h : buildTriggerOrder ps = some (o, left)) (n : String) :
    n ∈ o.map (·.1) ↔ Schedulable ps n := by
  unfold buildTriggerOrder at h
  rw [← residual_nil ps] at h
  obtain ⟨h1, h2, h3, h4, h5, h6⟩ := triggerLoop_spec ps hd 0 [] o left h
  constructor
  · have key : ∀ l1 l2, o = l1 ++ l2 → ∀ x ∈ l1, Schedulable ps x.1 := by
      intro l1
      induction l1 using List.reverseRecOn with
      | nil => simp
      | append_singleton l1 a ih =>
        intro l2 he x hx
        have he' : o = l1 ++ a :: l2 := by simpa using he
        have ih' := ih (a :: l2) he'
        rcases List.mem_append.1 hx with hx | hx
        · exact ih' x hx
        · simp only [List.mem_singleton] at hx
          subst hx
          obtain ⟨h7, d', h8, h9⟩ := h6 l1 x.1 x.2 l2 he'
          have hx1 := (h4 x (by rw [he']; simp)).2.1
          refine Schedulable.mk x.1 hx1 ?_ ?_
          · rintro a ⟨r, hr, rfl, h0⟩
            rcases h8 _ (leaf_reads_now hd hdel h9 hr h0) with hx | ⟨j, hj, _⟩
            · simp at hx
            · exact ih' _ hj
          · intro c hc
            apply Classical.byContradiction
            intro hcn
            have : hasDelayedOutput x.1 (residual ps ((l1.map (·.1)).reverse ++ [])) = true := by
              refine hasDelayedOutput_residual.2 ⟨c, ?_, ?_, hc⟩
              · intro hm
                simp only [List.append_nil, List.mem_reverse, List.mem_map] at hm
                obtain ⟨y, hy, rfl⟩ := hm
                exact hcn (ih' y hy)
              · intro hm
                rw [he', List.map_append, List.nodup_append] at h3
                simp only [List.append_nil, List.mem_reverse] at hm
                exact h3.2.2 _ hm x.1 (by simp) rfl
            rw [this] at h7
            simp at h7
    intro hn
    obtain ⟨x, hx, rfl⟩ := List.mem_map.1 hn
    exact key o [] (by simp) x hx
  · intro hs
    induction hs with
    | mk n hn hnow hdl ih1 ih2 =>
      apply Classical.byContradiction
      intro hnot
      have hin : n ∈ names left := by
        rw [h1]; exact names_residual.2 ⟨hn, by simpa using hnot⟩
      have hnl : n ∉ leavesOf left := by rw [h2]; simp
      rw [h1] at hin hnl
      obtain ⟨r, hr, h0, hrn⟩ := not_leaf_reads_now hin hnl
      exact hrn (by simpa using ih1 r.obj ⟨r, hr, rfl, h0⟩)


/-- fuelled copy of `triggerLoop`, only used to evaluate it on concrete files -/
def triggerLoopF : Nat → Nat → Params → Option (List (String × Nat) × Params)
  | 0, _, _ => none
  | fuel + 1, index, ps =>
    if (leavesOf ps).length = 0 then some ([], ps)
    else if ps.length = (triggerPass (leavesOf ps) ps).1.length then none
    else
      match triggerLoopF fuel (index + 1) (triggerPass (leavesOf ps) ps).1 with
      | none => none
      | some (o, left) => some ((triggerPass (leavesOf ps) ps).2.map (fun n => (n, index)) ++ o, left)

theorem triggerLoopF_eq (fuel index : Nat) (ps : Params) (h : ps.length < fuel) :
    triggerLoopF fuel index ps = triggerLoop index ps := by
  induction fuel generalizing index ps with
  | zero => omega
  | succ fuel ih =>
    rw [triggerLoopF, triggerLoop]
    split
    · rfl
    · split
      · rfl
      · have := triggerPass_length_le (leavesOf ps) ps
        rw [ih _ _ (by omega)]
        cases triggerLoop (index + 1) (triggerPass (leavesOf ps) ps).fst <;> rfl

theorem buildTriggerOrder_eval (ps : Params) : buildTriggerOrder ps = triggerLoopF (ps.length + 1) 0 ps :=
  (triggerLoopF_eq _ _ _ (by omega)).symm


/-- executable test for `DelaysOk`, used on concrete files -/
theorem delaysOk_of_all {ps : Params}
    (h : (ps.all fun np => np.2.ins.all fun e => e.2.refs.all fun r => decide (r.delay ≤ 0)) = true) :
    DelaysOk ps := by
  rintro c r ⟨p, hp, e, he, hr⟩
  simp only [List.all_eq_true, decide_eq_true_eq] at h
  exact h (c, p) hp e he r hr

end Specula
