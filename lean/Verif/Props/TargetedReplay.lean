import Verif.Props.Replay
/-
Property C13: the targeted replay.
-/
namespace Specula

/-- `rp'` extends `rp` by complete objects -/
def Ext (ps : RawParams) (m : Dict (Option String)) (rp rp' : RawParams) : Prop :=
  (∀ n v, rp.get? n = some v → rp'.get? n = some v) ∧
  ∀ n, rp.get? n = none → ∀ v', rp'.get? n = some v' →
    ∃ p deps, ps.get? n = some p ∧ targetObj m p = some (v', deps) ∧ ∀ d ∈ deps, d ∈ rp'.keys

theorem Ext.refl (ps : RawParams) (m : Dict (Option String)) (rp : RawParams) : Ext ps m rp rp :=
  ⟨fun _ _ h => h, fun n h v' h' => by rw [h] at h'; simp at h'⟩

theorem Ext.keys {ps : RawParams} {m : Dict (Option String)} {rp rp' : RawParams} (h : Ext ps m rp rp') {n : String}
    (hn : n ∈ rp.keys) : n ∈ rp'.keys := by
  obtain ⟨v, hv⟩ := Option.isSome_iff_exists.1 (Dict.get?_isSome.2 hn)
  rw [← Dict.get?_isSome, h.1 n v hv]; rfl

theorem Ext.trans {ps : RawParams} {m : Dict (Option String)} {a b c : RawParams} (h1 : Ext ps m a b) (h2 : Ext ps m b c) :
    Ext ps m a c := by
  refine ⟨fun n v h => h2.1 n v (h1.1 n v h), fun n hn v' hv' => ?_⟩
  cases hb : b.get? n with
  | none => exact h2.2 n hb v' hv'
  | some w =>
    have := h2.1 n w hb
    rw [hv'] at this; simp at this; subst this
    obtain ⟨p, deps, g1, g2, g3⟩ := h1.2 n hn _ hb
    exact ⟨p, deps, g1, g2, fun d hd => h2.keys (g3 d hd)⟩

theorem foldlM_ext {ps : RawParams} {m : Dict (Option String)} {f : RawParams → String → Option RawParams}
    (hf : ∀ rp d rp', f rp d = some rp' → Ext ps m rp rp' ∧ d ∈ rp'.keys) {deps : List String} {rp rp' : RawParams}
    (h : deps.foldlM f rp = some rp') : Ext ps m rp rp' ∧ ∀ d ∈ deps, d ∈ rp'.keys := by
  induction deps generalizing rp with
  | nil => simp at h; subst h; exact ⟨Ext.refl _ _ _, by simp⟩
  | cons d deps ih =>
    simp only [List.foldlM_cons, Option.bind_eq_bind, Option.bind_eq_some_iff] at h
    obtain ⟨rp1, h1, h2⟩ := h
    obtain ⟨e1, k1⟩ := hf _ _ _ h1
    obtain ⟨e2, k2⟩ := ih h2
    refine ⟨e1.trans e2, ?_⟩
    intro x hx
    rcases List.mem_cons.1 hx with rfl | hx
    · exact e2.keys k1
    · exact k2 x hx

theorem addKey_spec {ps : RawParams} {m : Dict (Option String)} {fuel : Nat} {key : String} {rp rp' : RawParams}
    (h : addKey ps m fuel key rp = some rp') : Ext ps m rp rp' ∧ key ∈ rp'.keys := by
  induction fuel generalizing key rp rp' with
  | zero => simp [addKey] at h
  | succ fuel ih =>
    rw [addKey] at h
    split at h
    · rename_i hk
      simp at h; subst h
      exact ⟨Ext.refl _ _ _, hk⟩
    · rename_i hk
      split at h
      · simp at h
      · rename_i p hp
        split at h
        · simp at h
        · rename_i p' deps ht
          obtain ⟨e, kd⟩ := foldlM_ext (f := fun rp d => addKey ps m fuel d rp) (fun _ _ _ hh => ih hh) h
          have hself : rp'.get? key = some p' := e.1 key p' (Dict.get?_set_self _ _ _)
          refine ⟨⟨?_, ?_⟩, by rw [← Dict.get?_isSome, hself]; rfl⟩
          · intro n v hn
            apply e.1
            rw [Dict.get?_set_ne _ _ ?_]
            · exact hn
            · rintro rfl
              exact hk (by rw [← Dict.get?_isSome, hn]; rfl)
          · intro n hn v' hv'
            by_cases hnk : n = key
            · subst hnk
              rw [hself] at hv'; simp at hv'; subst hv'
              exact ⟨p, deps, hp, ht, kd⟩
            · exact e.2 n (by rw [Dict.get?_set_ne _ _ hnk]; exact hn) v' hv'

/-- key under which a reference is looked up -/
def lookupKey (r : OutRef) : String := r.obj ++ "." ++ r.key.getD "None"

theorem targetInputs_spec {m : Dict (Option String)} {l : List (String × Value)} {ins ins' : Dict Value} {deps : List String}
    (h : targetInputs m l ins = some (ins', deps)) :
    (∀ k v, (k, v) ∈ l → ∃ s r, v = .str s ∧ splitOutput s = some r ∧
      ((∃ a, m.get? (lookupKey r) = some (some a)) ∨ (m.get? (lookupKey r) = none ∧ r.obj ∈ deps))) ∧
    (∀ i, (∀ s r, (i, Value.str s) ∈ l → splitOutput s = some r → m.get? (lookupKey r) = none) →
      ins'.get? i = ins.get? i) ∧
    (∀ i s r a, (i, Value.str s) ∈ l → splitOutput s = some r → m.get? (lookupKey r) = some (some a) →
      ∃ s' r' a', (i, Value.str s') ∈ l ∧ splitOutput s' = some r' ∧ m.get? (lookupKey r') = some (some a') ∧
        ins'.get? i = some (.str ("data_source." ++ a'))) := by
  induction l generalizing ins ins' deps with
  | nil =>
    simp [targetInputs] at h
    obtain ⟨rfl, rfl⟩ := h
    simp
  | cons e l ih =>
    obtain ⟨k, v⟩ := e
    cases v with
    | str s =>
      simp only [targetInputs] at h
      split at h
      · simp at h
      · rename_i r hr
        split at h
        · rename_i a ha
          obtain ⟨h1, h2, h3⟩ := ih h
          refine ⟨?_, ?_, ?_⟩
          · intro k' v' hm
            rcases List.mem_cons.1 hm with hm | hm
            · simp only [Prod.mk.injEq] at hm
              obtain ⟨rfl, rfl⟩ := hm
              exact ⟨s, r, rfl, hr, .inl ⟨a, ha⟩⟩
            · exact h1 k' v' hm
          · intro i hi
            have hne : i ≠ k := by
              rintro rfl
              have := hi s r (by simp) hr
              rw [show lookupKey r = r.obj ++ "." ++ r.key.getD "None" from rfl, ha] at this
              simp at this
            rw [h2 i (fun s' r' hm => hi s' r' (List.mem_cons_of_mem _ hm)), Dict.get?_set_ne _ _ hne]
          · intro i s1 r1 a1 hm hs1 hm1
            by_cases hex : ∃ s2 r2 a2, (i, Value.str s2) ∈ l ∧ splitOutput s2 = some r2 ∧
                m.get? (lookupKey r2) = some (some a2)
            · obtain ⟨s2, r2, a2, g1, g2, g3⟩ := hex
              obtain ⟨s', r', a', g4, g5, g6, g7⟩ := h3 i s2 r2 a2 g1 g2 g3
              exact ⟨s', r', a', List.mem_cons_of_mem _ g4, g5, g6, g7⟩
            · have hik : i = k := by
                rcases List.mem_cons.1 hm with hm | hm
                · simp only [Prod.mk.injEq] at hm; exact hm.1
                · exact absurd ⟨s1, r1, a1, hm, hs1, hm1⟩ hex
              subst hik
              refine ⟨s, r, a, by simp, hr, ha, ?_⟩
              rw [h2 i ?_, Dict.get?_set_self]
              intro s2 r2 g1 g2
              obtain ⟨s3, r3, e3, hr3, hor⟩ := h1 _ _ g1
              simp only [Value.str.injEq] at e3; subst e3
              rw [g2] at hr3; simp at hr3; subst hr3
              rcases hor with ⟨a2, ha2⟩ | h
              · exact absurd ⟨s2, r2, a2, g1, g2, ha2⟩ hex
              · exact h.1
        · simp at h
        · rename_i hnone
          simp only [Option.map_eq_some_iff, Prod.mk.injEq] at h
          obtain ⟨⟨i1, d1⟩, hx, rfl, rfl⟩ := h
          obtain ⟨h1, h2, h3⟩ := ih hx
          refine ⟨?_, ?_, ?_⟩
          · intro k' v' hm
            rcases List.mem_cons.1 hm with hm | hm
            · simp only [Prod.mk.injEq] at hm
              obtain ⟨rfl, rfl⟩ := hm
              exact ⟨s, r, rfl, hr, .inr ⟨hnone, by simp⟩⟩
            · obtain ⟨s', r', g1, g2, g3⟩ := h1 k' v' hm
              refine ⟨s', r', g1, g2, ?_⟩
              rcases g3 with g3 | g3
              · exact .inl g3
              · exact .inr ⟨g3.1, List.mem_cons_of_mem _ g3.2⟩
          · intro i hi
            exact h2 i (fun s' r' hm => hi s' r' (List.mem_cons_of_mem _ hm))
          · intro i s1 r1 a1 hm hs1 hm1
            rcases List.mem_cons.1 hm with hm | hm
            · simp only [Prod.mk.injEq, Value.str.injEq] at hm
              obtain ⟨rfl, rfl⟩ := hm
              rw [hr] at hs1; simp at hs1; subst hs1
              rw [show lookupKey r = r.obj ++ "." ++ r.key.getD "None" from rfl, hnone] at hm1
              simp at hm1
            · obtain ⟨s', r', a', g4, g5, g6, g7⟩ := h3 i s1 r1 a1 hm hs1 hm1
              exact ⟨s', r', a', List.mem_cons_of_mem _ g4, g5, g6, g7⟩
    | _ => simp [targetInputs] at h

theorem targetRefs_names {k : String} {w : Value} {ns : List String} (h : targetRefs k w = some ns) {b : String}
    (hk : endsWith k "_ref" = true)
    (hb : (w = .str b ∧ endsWith k "_list_ref" = false ∧ endsWith k "_dict_ref" = false) ∨
     ((endsWith k "_list_ref" = true ∨ endsWith k "_dict_ref" = true) ∧ ∃ os, Lists w os ∧ b ∈ os)) : b ∈ ns := by
  unfold targetRefs at h
  rcases hb with ⟨rfl, h1, h2⟩ | ⟨h1, os, h2, h3⟩
  · simp [h1, h2, hk] at h
    subst h; simp
  · have : (endsWith k "_list_ref" || endsWith k "_dict_ref") = true := by simpa using h1
    rw [if_pos this, lists_iterNames h2] at h
    simp at h; subst h; exact h3

/-- what one step of `add_key` makes of an object -/
theorem targetObj_spec {m : Dict (Option String)} {v v' : Value} {deps : List String} (h : targetObj m v = some (v', deps))
    (hio : InputsOk v) (hal : InputListAlone v) :
    (∀ k, k ≠ "inputs" → param v' k = param v k) ∧ (∀ b, NamesObj v b → b ∈ deps) ∧
    (∀ i s, s ∈ inputTexts v i → ∃ r, splitOutput s = some r ∧
      ((∃ a, m.get? (lookupKey r) = some (some a)) ∨ (m.get? (lookupKey r) = none ∧ r.obj ∈ deps))) ∧
    (∀ i s r a, inputValue v i = some (.str s) → splitOutput s = some r → m.get? (lookupKey r) = some (some a) →
      inputValue v' i = some (.str ("data_source." ++ a))) ∧
    (∀ i, (∀ s r, s ∈ inputTexts v i → splitOutput s = some r → m.get? (lookupKey r) = none) →
      inputValue v' i = inputValue v i) := by
  cases v with
  | dict pars =>
    simp only [targetObj] at h
    split at h
    · simp at h
    · rename_i l hl
      split at h
      · simp at h
      · rename_i ins' ideps hti
        obtain ⟨t1, t2, t3⟩ := targetInputs_spec hti
        have hmem : ∀ i s, s ∈ inputTexts (.dict pars) i → (i, Value.str s) ∈ l := fun i s hs =>
          mem_iterateInputs hl hs (alone_hides hal hs)
        have hnames : ∀ refs, (pars.mapM fun kv => targetRefs kv.1 kv.2).map List.flatten = some refs →
            ∀ b, NamesObj (.dict pars) b → b ∈ refs := by
          intro refs hr b ⟨k, w, hw, hk, hb⟩
          simp only [Option.map_eq_some_iff] at hr
          obtain ⟨ls, hls, rfl⟩ := hr
          obtain ⟨ns, hns, hf⟩ := (mapM_some_mem hls).1 _ (Dict.mem_of_get? hw)
          exact List.mem_flatten.2 ⟨ns, hns, targetRefs_names hf hk hb⟩
        have htext : ∀ i s, s ∈ inputTexts (.dict pars) i → ∃ r, splitOutput s = some r ∧
            ((∃ a, m.get? (lookupKey r) = some (some a)) ∨ (m.get? (lookupKey r) = none ∧ r.obj ∈ ideps)) := by
          intro i s hs
          obtain ⟨s', r, e, h1, h2⟩ := t1 _ _ (hmem i s hs)
          simp only [Value.str.injEq] at e; subst e
          exact ⟨r, h1, h2⟩
        split at h
        · rename_i hnoins
          simp only [Option.map_eq_some_iff, Prod.mk.injEq] at h
          obtain ⟨refs, hrefs, rfl, rfl⟩ := h
          refine ⟨fun _ _ => rfl, fun b hb => List.mem_append_right _ (hnames refs (by simpa using hrefs) b hb), ?_, ?_, fun _ _ => rfl⟩
          · intro i s hs
            simp [inputTexts, hnoins] at hs
          · intro i s r a hs
            simp [inputValue, param, hnoins] at hs
        · rename_i w hw
          simp only [Option.map_eq_some_iff, Prod.mk.injEq] at h
          obtain ⟨refs, hrefs, rfl, rfl⟩ := h
          have hinsdict : ∃ ins, w = .dict ins := by
            unfold iterateInputs at hl
            rw [hw] at hl
            cases w with
            | dict ins => exact ⟨ins, rfl⟩
            | _ => simp at hl
          obtain ⟨ins, rfl⟩ := hinsdict
          rw [hw] at t2
          dsimp only at t2
          have hnd : (Dict.keys ins).Nodup := hio pars ins rfl hw
          have hiv : ∀ i, inputValue (.dict pars) i = Dict.get? ins i := by intro i; simp [inputValue, param, hw]
          have hiv' : ∀ i, inputValue (.dict (Dict.set pars "inputs" (.dict ins'))) i = Dict.get? ins' i := by
            intro i; simp [inputValue, param, Dict.get?_set_self]
          refine ⟨fun k hk => Dict.get?_set_ne _ _ hk,
            fun b hb => List.mem_append_right _ (hnames refs (by simpa using hrefs) b hb), ?_, ?_, ?_⟩
          · intro i s hs
            obtain ⟨r, h1, h2⟩ := htext i s hs
            refine ⟨r, h1, ?_⟩
            rcases h2 with h2 | h2
            · exact .inl h2
            · exact .inr ⟨h2.1, List.mem_append_left _ h2.2⟩
          · intro i s r a hs hr ha
            have hs' : s ∈ inputTexts (.dict pars) i := by rw [inputTexts_of_value hs]; simp [texts]
            obtain ⟨s', r', a', g1, g2, g3, g4⟩ := t3 i s r a (hmem i s hs') hr ha
            obtain ⟨ins2, w2, q1, q2, q3⟩ := iterateInputs_mem hl g1
            rw [hw] at q1; simp only [Option.some.injEq, Value.dict.injEq] at q1; subst q1
            have hq := Dict.get?_of_mem hnd q2
            rw [hiv, hq] at hs
            simp only [Option.some.injEq] at hs; subst hs
            have : s' = s := by
              rcases q3 with q3 | ⟨vs, q3, _⟩
              · simp only [Value.str.injEq] at q3; exact q3.symm
              · simp at q3
            subst this
            rw [hr] at g2; simp at g2; subst g2
            rw [ha] at g3; simp at g3; subst g3
            rw [hiv', g4]
          · intro i hi
            rw [hiv, hiv']
            refine t2 i fun s r hm hr => hi s r ?_ hr
            exact iterateInputs_texts hio hl hm
  | _ => simp [targetObj] at h

/-- the scan for DataStores -/
theorem targetScan_spec {dir : Option Value} {ps rp0 rp : RawParams} {m0 m : Dict (Option String)}
    (h : targetScan dir ps (rp0, m0) = some (rp, m)) :
    (∀ n, n ≠ "data_source" → rp.get? n = rp0.get? n) ∧
    (∀ s x, m.get? s = some x → m0.get? s = some x ∨ ∃ n pars d o m', (n, Value.dict pars) ∈ ps ∧
      HasClass (.dict pars) "DataStore" ∧ dataStoreToDataSource pars dir = some (d, o, m') ∧ (s, x) ∈ m') ∧
    (∀ s, s ∈ m0.keys → s ∈ m.keys) ∧
    (∀ n v, (n, v) ∈ ps → HasClass v "DataStore" → ∃ pars d o m', v = .dict pars ∧
      dataStoreToDataSource pars dir = some (d, o, m') ∧ ∀ s ∈ Dict.keys m', s ∈ m.keys) ∧
    ((∀ n v, (n, v) ∈ ps → ¬ HasClass v "DataStore") ∧ rp.get? "data_source" = rp0.get? "data_source" ∨
      ∃ n pars d o m', (n, Value.dict pars) ∈ ps ∧ HasClass (.dict pars) "DataStore" ∧
        dataStoreToDataSource pars dir = some (d, o, m') ∧ rp.get? "data_source" = some (.dict d)) := by
  induction ps generalizing rp0 m0 with
  | nil =>
    simp [targetScan] at h
    obtain ⟨rfl, rfl⟩ := h
    simp
  | cons e ps ih =>
    obtain ⟨key, v⟩ := e
    cases v with
    | dict pars =>
      simp only [targetScan] at h
      split at h
      · simp at h
      · rename_i c hc
        split at h
        · rename_i hds
          rw [isStr_iff] at hds; subst hds
          have hcl : HasClass (.dict pars) "DataStore" := ⟨pars, rfl, hc⟩
          split at h
          · simp at h
          · rename_i d o m' hd
            obtain ⟨h1, h2, h3, h4, h5⟩ := ih h
            refine ⟨?_, ?_, ?_, ?_, .inr ?_⟩
            · intro n hn; rw [h1 n hn, Dict.get?_set_ne _ _ hn]
            · intro s x hs
              rcases h2 s x hs with h2 | ⟨n, p, d', o', m'', g1, g2, g3, g4⟩
              · rcases update_mem h2 with h2 | h2
                · exact .inr ⟨key, pars, d, o, m', by simp, hcl, hd, h2⟩
                · exact .inl h2
              · exact .inr ⟨n, p, d', o', m'', List.mem_cons_of_mem _ g1, g2, g3, g4⟩
            · intro s hs; exact h3 s (update_keys.2 (.inr hs))
            · intro n v hm hv
              rcases List.mem_cons.1 hm with hm | hm
              · simp only [Prod.mk.injEq] at hm
                obtain ⟨rfl, rfl⟩ := hm
                exact ⟨pars, d, o, m', rfl, hd, fun s hs => h3 s (update_keys.2 (.inl hs))⟩
              · exact h4 n v hm hv
            · rcases h5 with ⟨_, h5⟩ | ⟨n, p, d', o', m'', g1, g2, g3, g4⟩
              · exact ⟨key, pars, d, o, m', by simp, hcl, hd, by rw [h5, Dict.get?_set_self]⟩
              · exact ⟨n, p, d', o', m'', List.mem_cons_of_mem _ g1, g2, g3, g4⟩
        · rename_i hds
          obtain ⟨h1, h2, h3, h4, h5⟩ := ih h
          have hncl : ¬ HasClass (.dict pars) "DataStore" := by
            rintro ⟨p, e, hp⟩
            simp only [Value.dict.injEq] at e; subst e
            rw [hc] at hp; simp at hp; subst hp
            simp [isStr] at hds
          refine ⟨h1, ?_, h3, ?_, ?_⟩
          · intro s x hs
            rcases h2 s x hs with h2 | ⟨n, p, d', o', m'', g1, g2⟩
            · exact .inl h2
            · exact .inr ⟨n, p, d', o', m'', List.mem_cons_of_mem _ g1, g2⟩
          · intro n v hm hv
            rcases List.mem_cons.1 hm with hm | hm
            · simp only [Prod.mk.injEq] at hm
              obtain ⟨rfl, rfl⟩ := hm
              exact absurd hv hncl
            · exact h4 n v hm hv
          · rcases h5 with ⟨h5, h6⟩ | ⟨n, p, d', o', m'', g1, g2⟩
            · left
              refine ⟨?_, h6⟩
              intro n v hm
              rcases List.mem_cons.1 hm with hm | hm
              · simp only [Prod.mk.injEq] at hm
                obtain ⟨rfl, rfl⟩ := hm
                exact hncl
              · exact h5 n v hm
            · exact .inr ⟨n, p, d', o', m'', List.mem_cons_of_mem _ g1, g2⟩
    | _ => simp [targetScan] at h

theorem findMain_spec {ps : RawParams} {mk : String} {mv : Value} (h : findMain ps = some (mk, mv)) :
    (mk, mv) ∈ ps ∧ HasClass mv "SimulParams" := by
  induction ps with
  | nil => simp [findMain] at h
  | cons e ps ih =>
    obtain ⟨key, v⟩ := e
    cases v with
    | dict pars =>
      simp only [findMain] at h
      split at h
      · simp at h
      · rename_i c hc
        split at h
        · rename_i hs
          rw [isStr_iff] at hs; subst hs
          simp only [Option.some.injEq, Prod.mk.injEq] at h
          obtain ⟨rfl, rfl⟩ := h
          exact ⟨by simp, pars, rfl, hc⟩
        · obtain ⟨h1, h2⟩ := ih h
          exact ⟨List.mem_cons_of_mem _ h1, h2⟩
    | _ => simp [findMain] at h

theorem join_dot_inj {o k o' k' : String} (h : o ++ "." ++ k = o' ++ "." ++ k') (ho : '.' ∉ o.toList) (ho' : '.' ∉ o'.toList) :
    o = o' ∧ k = k' := by
  rw [← String.toList_inj] at h
  simp only [String.toList_append, List.append_assoc] at h
  have := first_split_unique (c := '.') h ho ho' (.inr (by simp)) (.inr (by simp))
  obtain ⟨h1, h2⟩ := this
  refine ⟨String.toList_inj.1 h1, ?_⟩
  simp at h2
  exact String.toList_inj.1 h2

/-- Output `k` of object `o` is saved under the name `a` by a DataStore of the file. -/
def Stored (ps : RawParams) (o k a : String) : Prop :=
  ∃ n sv, ps.get? n = some sv ∧ HasClass sv "DataStore" ∧ StoresAs sv o k a

/-- **C13**: what a targeted replay contains (file with at most one DataStore; every object with an `input_list` has no other
input).  The main object is there; so are the targets; nothing but objects of the file and the data source is there; and for
every object put there because of the targets:
* all its parameters except inputs are the original ones;
* every object named by one of its reference parameters is there;
* for every one of its input references, either the signal is not stored and its producer is there, or it is stored and the
  data source is there and offers it; and a plain text input is then redirected to that very output of the data source;
* an input without stored signals is unchanged.
(A reference without output key is looked up by the code as if the key were `None`.) -/
theorem C13_targeted_replay (limit : Nat) (ps : RawParams) (targets : List String) (dir : Option Value) (rp : RawParams)
    (hf : FileOk ps) (hal : ∀ n v, (n, v) ∈ ps → InputListAlone v) (hnew : "data_source" ∉ ps.keys)
    (hone : ∀ n n' v v', ps.get? n = some v → ps.get? n' = some v' → HasClass v "DataStore" → HasClass v' "DataStore" → n = n')
    (h : buildTargetedReplay limit ps targets dir = some rp) :
    ∃ mk mv, ps.get? mk = some mv ∧ HasClass mv "SimulParams" ∧ rp.get? mk = some mv ∧
      (∀ t ∈ targets, t ∈ rp.keys) ∧ (∀ n ∈ rp.keys, n = "data_source" ∨ n ∈ ps.keys) ∧
      ∀ n v', n ≠ mk → n ≠ "data_source" → rp.get? n = some v' → ∃ v, ps.get? n = some v ∧
        (∀ k, k ≠ "inputs" → param v' k = param v k) ∧
        (∀ b, NamesObj v b → b ∈ rp.keys) ∧
        (∀ i s, s ∈ inputTexts v i → ∃ r, splitOutput s = some r ∧
          ((r.obj ∈ rp.keys ∧ ∀ a, ¬ Stored ps r.obj (r.key.getD "None") a) ∨
           (∃ a dv outs, Stored ps r.obj (r.key.getD "None") a ∧ rp.get? "data_source" = some dv ∧
             HasClass dv "DataSource" ∧ param dv "outputs" = some (.list outs) ∧ Value.str a ∈ outs ∧
             (inputValue v i = some (.str s) → inputValue v' i = some (.str ("data_source." ++ a)))))) ∧
        (∀ i, (∀ s r a, s ∈ inputTexts v i → splitOutput s = some r → ¬ Stored ps r.obj (r.key.getD "None") a) →
          inputValue v' i = inputValue v i) := by
  unfold buildTargetedReplay at h
  split at h
  · simp at h
  · rename_i mk mv hmain
    obtain ⟨hmk, hmc⟩ := findMain_spec hmain
    split at h
    · simp at h
    · rename_i rp0 m hscan
      obtain ⟨s1, s2, s3, s4, s5⟩ := targetScan_spec hscan
      obtain ⟨hext, htargets⟩ := foldlM_ext (ps := ps) (m := m) (f := fun rp t => addKey ps m limit t rp) (fun _ _ _ hh => addKey_spec hh) h
      have hmkg := Dict.get?_of_mem hf.1 hmk
      have hmkne : mk ≠ "data_source" := by
        rintro rfl
        exact hnew (by rw [← Dict.get?_isSome, hmkg]; rfl)
      have hrp0mk : rp0.get? mk = some mv := by rw [s1 mk hmkne]; simp [Dict.get?]
      have hrp0 : ∀ n, n ≠ mk → n ≠ "data_source" → rp0.get? n = none := by
        intro n h1 h2
        rw [s1 n h2]; simp [Dict.get?, Ne.symm h1]
      -- the lookup table is exactly the stored signals
      have hm1 : ∀ r s : _, splitOutput s = some r → ∀ x, m.get? (lookupKey r) = some x →
          ∃ n pars d o m' r', (n, Value.dict pars) ∈ ps ∧ HasClass (.dict pars) "DataStore" ∧
            dataStoreToDataSource pars dir = some (d, o, m') ∧ r'.obj = r.obj ∧ r'.key = some (r.key.getD "None") ∧
            r'.alias = x ∧ (∃ i s, s ∈ inputTexts (.dict pars) i ∧ splitOutput s = some r') ∧
            (∀ a, x = some a → ∃ outs, Dict.get? d "outputs" = some (.list outs) ∧ Value.str a ∈ outs) ∧
            Dict.get? d "class" = some (.str "DataSource") := by
        intro r s hs x hx
        rcases s2 _ _ hx with h0 | ⟨n, pars, d, o, m', g1, g2, g3, g4⟩
        · simp [Dict.get?] at h0
        · obtain ⟨l, rs, hl, hrs, hkey, -, hm', hc1, hc2, -⟩ := dataStore_spec g3
          have hnd : (dictOf (rs.map (fun r => (r.obj ++ "." ++ r.key.getD "", r.alias)))).keys.Nodup :=
            Dict.nodup_update (d := []) (by simp [Dict.keys])
          rw [hm'] at g4
          have := dictOf_mem (Dict.get?_of_mem hnd g4)
          rw [List.mem_map] at this
          obtain ⟨r', hr', he⟩ := this
          simp only [Prod.mk.injEq] at he
          obtain ⟨k', hk'⟩ := Option.isSome_iff_exists.1 (hkey r' hr')
          obtain ⟨i', s', q1, q2⟩ := mem_refs_of_mem hrs hr'
          have p1 := (C11_accepts_iff s r).1 hs
          have p2 := (C11_accepts_iff s' r').1 q2
          obtain ⟨_, _, _, po, _⟩ := p1
          obtain ⟨_, _, _, po', _⟩ := p2
          have hj := join_dot_inj (h := he.1) po'.2.2 po.2.2
          refine ⟨n, pars, d, o, m', r', g1, g2, g3, hj.1, ?_, he.2,
            ⟨i', s', iterateInputs_texts (hf.2 _ _ g1) hl q1, q2⟩, ?_, hc1⟩
          · rw [hk'] at hj ⊢; simp at hj; rw [hj.2]
          · intro a ha
            refine ⟨_, hc2, List.mem_map.2 ⟨r', hr', ?_⟩⟩
            rw [he.2, ha]
      have hm2 : ∀ o k a, Stored ps o k a → m.get? (o ++ "." ++ k) ≠ none := by
        rintro o k a ⟨n, sv, g1, g2, i, s, r, q1, q2, q3, q4, q5⟩
        obtain ⟨pars, d, o', m', rfl, g3, g4⟩ := s4 n sv (Dict.mem_of_get? g1) g2
        obtain ⟨l, rs, hl, hrs, hkey, -, hm', -⟩ := dataStore_spec g3
        have hmem := Dict.mem_of_get? g1
        obtain ⟨r', hr', hs'⟩ := mem_of_mem_refs hrs (mem_iterateInputs hl q1 (alone_hides (hal _ _ hmem) q1))
        rw [q2] at hs'; simp at hs'; subst hs'
        rw [Ne, Dict.get?_eq_none, not_not]
        apply g4
        rw [hm', dictOf_keys, List.map_map, List.mem_map]
        exact ⟨r, hr', by simp [q3, q4]⟩
      have hm3 : ∀ r s, splitOutput s = some r → m.get? (lookupKey r) = none → ∀ a, ¬ Stored ps r.obj (r.key.getD "None") a :=
        fun r s _ hn a hst => hm2 _ _ a hst hn
      have hm4 : ∀ r s a, splitOutput s = some r → m.get? (lookupKey r) = some (some a) →
          Stored ps r.obj (r.key.getD "None") a := by
        intro r s a hs ha
        obtain ⟨n, pars, d, o, m', r', g1, g2, g3, g4, g5, g6, ⟨i, s', q1, q2⟩, -, -⟩ := hm1 r s hs _ ha
        exact ⟨n, _, Dict.get?_of_mem hf.1 g1, g2, i, s', r', q1, q2, g4, g5, g6⟩
      refine ⟨mk, mv, hmkg, hmc, hext.1 _ _ hrp0mk, htargets, ?_, ?_⟩
      · intro n hn
        by_cases h1 : n = "data_source"
        · exact .inl h1
        right
        by_cases h2 : n = mk
        · subst h2; rw [← Dict.get?_isSome, hmkg]; rfl
        · obtain ⟨v', hv'⟩ := Option.isSome_iff_exists.1 (Dict.get?_isSome.2 hn)
          obtain ⟨p, deps, g1, -⟩ := hext.2 n (hrp0 n h2 h1) v' hv'
          rw [← Dict.get?_isSome, g1]; rfl
      · intro n v' hn1 hn2 hv'
        obtain ⟨v, deps, hv, ht, hdeps⟩ := hext.2 n (hrp0 n hn1 hn2) v' hv'
        have hvm := Dict.mem_of_get? hv
        obtain ⟨t1, t2, t3, t4, t5⟩ := targetObj_spec ht (hf.2 _ _ hvm) (hal _ _ hvm)
        refine ⟨v, hv, t1, fun b hb => hdeps b (t2 b hb), ?_, ?_⟩
        · intro i s hs
          obtain ⟨r, hr, hor⟩ := t3 i s hs
          refine ⟨r, hr, ?_⟩
          rcases hor with ⟨a, ha⟩ | ⟨hn, hd⟩
          · right
            obtain ⟨n1, pars, d, o, m', r', g1, g2, g3, g4, g5, g6, _, houts, hcls⟩ := hm1 r s hr _ ha
            obtain ⟨outs, ho1, ho2⟩ := houts a rfl
            have hds : rp0.get? "data_source" = some (.dict d) := by
              rcases s5 with ⟨hno, -⟩ | ⟨n2, pars2, d2, o2, m2, w1, w2, w3, w4⟩
              · exact absurd g2 (hno _ _ g1)
              · have e1 := Dict.get?_of_mem hf.1 g1
                have e2 := Dict.get?_of_mem hf.1 w1
                have := hone _ _ _ _ e1 e2 g2 w2
                subst this
                rw [e1] at e2; simp only [Option.some.injEq, Value.dict.injEq] at e2; subst e2
                rw [g3] at w3; simp only [Option.some.injEq, Prod.mk.injEq] at w3
                rw [w4, w3.1]
            exact ⟨a, _, outs, hm4 r s a hr ha, hext.1 _ _ hds, ⟨d, rfl, hcls⟩, ho1, ho2,
              fun hsing => t4 i s r a hsing hr ha⟩
          · exact .inl ⟨hdeps _ hd, hm3 r s hr hn⟩
        · intro i hi
          apply t5
          intro s r hs hr
          cases hx : m.get? (lookupKey r) with
          | none => rfl
          | some x =>
            obtain ⟨r2, hr2, hor⟩ := t3 i s hs
            rw [hr] at hr2; simp at hr2; subst hr2
            rcases hor with ⟨a, ha⟩ | ⟨hn, -⟩
            · exact absurd (hm4 r s a hr ha) (hi s r a hs hr)
            · rw [hn] at hx; simp at hx

/-- A file on which nothing goes wrong: every object has a class, one is a SimulParams; inputs are texts or lists of texts
(`input_list`: a list) naming objects of the file; reference parameters name objects of the file; what a DataStore saves has
an output key and an input name, and its directory is known. -/
structure ReplayOk (ps : RawParams) (dir : Option Value) : Prop where
  cls : ∀ n v, (n, v) ∈ ps → ∃ pars c, v = .dict pars ∧ Dict.get? pars "class" = some c
  main : ∃ n v, (n, v) ∈ ps ∧ HasClass v "SimulParams"
  inputs : ∀ n pars, (n, Value.dict pars) ∈ ps → Dict.get? pars "inputs" = none ∨
    ∃ ins, Dict.get? pars "inputs" = some (.dict ins) ∧ ∀ i w, (i, w) ∈ ins →
      ∃ ss : List String, (w = .list (ss.map .str) ∨ ∃ s, ss = [s] ∧ w = .str s ∧ i ≠ "input_list") ∧
        ∀ s ∈ ss, ∃ r, splitOutput s = some r ∧ r.obj ∈ ps.keys
  refs : ∀ n pars k w, (n, Value.dict pars) ∈ ps → (k, w) ∈ pars →
    if endsWith k "_list_ref" || endsWith k "_dict_ref" then ∃ os, Lists w os ∧ ∀ o ∈ os, o ∈ ps.keys
    else endsWith k "_ref" = true → ∃ b, w = .str b ∧ b ∈ ps.keys
  stores : ∀ n v, (n, v) ∈ ps → HasClass v "DataStore" → (dir.or (param v "store_dir")).isSome ∧
    ∀ i s r, s ∈ inputTexts v i → splitOutput s = some r → r.key.isSome ∧ r.alias.isSome

theorem iterateInputs_isSome {ps : RawParams} {dir : Option Value} (h : ReplayOk ps dir) {n : String} {pars : Dict Value}
    (hm : (n, Value.dict pars) ∈ ps) : ∃ l, iterateInputs pars = some l ∧
      ∀ i v, (i, v) ∈ l → ∃ s r, v = .str s ∧ splitOutput s = some r ∧ r.obj ∈ ps.keys := by
  have key : ∀ l, iterateInputs pars = some l →
      ∀ i v, (i, v) ∈ l → ∃ s r, v = .str s ∧ splitOutput s = some r ∧ r.obj ∈ ps.keys := by
    intro l hl i v hv
    obtain ⟨ins, w, g1, g2, g3⟩ := iterateInputs_mem hl hv
    rcases h.inputs n pars hm with hi | ⟨ins', hi, hall⟩
    · rw [hi] at g1; simp at g1
    · rw [hi] at g1; simp only [Option.some.injEq, Value.dict.injEq] at g1; subst g1
      obtain ⟨ss, hw, hss⟩ := hall i w g2
      rcases hw with rfl | ⟨s, rfl, rfl, -⟩
      · rcases g3 with rfl | ⟨vs, e, hvs⟩
        · -- a list is never yielded itself
          exfalso
          unfold iterateInputs at hl
          rw [hi] at hl
          dsimp only at hl
          split at hl
          · rename_i vs' hvs'
            simp only [Option.some.injEq] at hl; subst hl
            simp only [List.mem_map, Prod.mk.injEq] at hv
            obtain ⟨x, hx, rfl, rfl⟩ := hv
            obtain ⟨ss', hw', -⟩ := hall _ _ (Dict.mem_of_get? hvs')
            rcases hw' with e | ⟨s, _, e, _⟩
            · simp only [Value.list.injEq] at e; subst e; simp at hx
            · simp at e
          · simp at hl
          · simp only [Option.some.injEq] at hl; subst hl
            rw [List.mem_flatMap] at hv
            obtain ⟨⟨k, w⟩, hkw, hv⟩ := hv
            cases w with
            | list vs =>
              simp only [iterEntry, List.mem_map, Prod.mk.injEq] at hv
              obtain ⟨x, hx, rfl, rfl⟩ := hv
              obtain ⟨ss', hw', -⟩ := hall _ _ hkw
              rcases hw' with e | ⟨s, _, e, _⟩
              · simp only [Value.list.injEq] at e; subst e; simp at hx
              · simp at e
            | _ => simp [iterEntry] at hv
        · simp only [Value.list.injEq] at e; subst e
          simp only [List.mem_map] at hvs
          obtain ⟨s, hs, rfl⟩ := hvs
          obtain ⟨r, hr, ho⟩ := hss s hs
          exact ⟨s, r, rfl, hr, ho⟩
      · rcases g3 with rfl | ⟨vs, e, -⟩
        · obtain ⟨r, hr, ho⟩ := hss s (by simp)
          exact ⟨s, r, rfl, hr, ho⟩
        · simp at e
  have : ∃ l, iterateInputs pars = some l := by
    unfold iterateInputs
    rcases h.inputs n pars hm with hi | ⟨ins, hi, hall⟩
    · rw [hi]; exact ⟨_, rfl⟩
    · rw [hi]
      dsimp only
      split
      · exact ⟨_, rfl⟩
      · rename_i x hno hx
        exfalso
        obtain ⟨ss, hw, -⟩ := hall _ _ (Dict.mem_of_get? hx)
        rcases hw with rfl | ⟨s, _, rfl, hne⟩
        · exact hno _ rfl
        · exact hne rfl
      · exact ⟨_, rfl⟩
  obtain ⟨l, hl⟩ := this
  exact ⟨l, hl, key l hl⟩

theorem storeLoop_isSome {l : List (String × Value)} (h : ∀ i v, (i, v) ∈ l → ∃ s r, v = Value.str s ∧ splitOutput s = some r ∧ r.key.isSome) :
    ∃ x, storeLoop l = some x := by
  induction l with
  | nil => exact ⟨_, rfl⟩
  | cons e l ih =>
    obtain ⟨i, v⟩ := e
    obtain ⟨s, r, rfl, hr, hk⟩ := h i v (by simp)
    obtain ⟨x, hx⟩ := ih fun i v hm => h i v (List.mem_cons_of_mem _ hm)
    obtain ⟨a, o, k, d⟩ := r
    obtain ⟨k', rfl⟩ := Option.isSome_iff_exists.1 hk
    simp [storeLoop, hr, hx]

theorem targetScan_isSome {dir : Option Value} {qs ps : RawParams} (h : ReplayOk ps dir) (hio : ∀ n v, (n, v) ∈ ps → InputsOk v)
    (hsub : ∀ e ∈ qs, e ∈ ps)
    (acc : RawParams × Dict (Option String)) (hacc : ∀ s, acc.2.get? s ≠ some none) :
    ∃ rp m, targetScan dir qs acc = some (rp, m) ∧ ∀ s, m.get? s ≠ some none := by
  induction qs generalizing acc with
  | nil => exact ⟨acc.1, acc.2, rfl, hacc⟩
  | cons e qs ih =>
    obtain ⟨n, v⟩ := e
    have hin := hsub _ (List.mem_cons_self ..)
    obtain ⟨pars, c, rfl, hc⟩ := h.cls n v hin
    obtain ⟨rp0, m0⟩ := acc
    simp only [targetScan, hc]
    split
    · rename_i hds
      rw [isStr_iff] at hds; subst hds
      obtain ⟨hd1, hd2⟩ := h.stores n _ hin ⟨pars, rfl, hc⟩
      obtain ⟨l, hl, hl2⟩ := iterateInputs_isSome h hin
      obtain ⟨⟨outs, objs, m1⟩, hx⟩ := storeLoop_isSome (l := l) (by
        intro i v hv
        obtain ⟨s, r, rfl, hr, -⟩ := hl2 i v hv
        exact ⟨s, r, rfl, hr, (hd2 i s r (iterateInputs_texts (hio _ _ hin) hl hv) hr).1⟩)
      have : ∃ x, dataStoreToDataSource pars dir = some x := by
        unfold dataStoreToDataSource
        simp only [hl, hx]
        obtain ⟨d, hd⟩ := Option.isSome_iff_exists.1 hd1
        cases dir with
        | some d' => exact ⟨_, rfl⟩
        | none =>
          simp [param] at hd
          simp [hd]
      obtain ⟨⟨d, o, m'⟩, hdd⟩ := this
      rw [hdd]
      refine ih (fun e he => hsub e (List.mem_cons_of_mem _ he)) _ ?_
      intro s hs
      rcases update_mem hs with hs | hs
      · obtain ⟨l', rs, hl', hrs, hkey, -, hm', -⟩ := dataStore_spec hdd
        have hnd : (dictOf (rs.map (fun r => (r.obj ++ "." ++ r.key.getD "", r.alias)))).keys.Nodup :=
          Dict.nodup_update (d := []) (by simp [Dict.keys])
        rw [hm'] at hs
        have := dictOf_mem (Dict.get?_of_mem hnd hs)
        rw [List.mem_map] at this
        obtain ⟨r, hr, he⟩ := this
        simp only [Prod.mk.injEq] at he
        obtain ⟨i, s', g1, g2⟩ := mem_refs_of_mem hrs hr
        have := (hd2 i s' r (iterateInputs_texts (hio _ _ hin) hl' g1) g2).2
        rw [he.2] at this; simp at this
      · exact hacc s hs
    · exact ih (fun e he => hsub e (List.mem_cons_of_mem _ he)) _ hacc

theorem targetInputs_isSome {ps : RawParams} {m : Dict (Option String)} (hm : ∀ s, m.get? s ≠ some none) {l : List (String × Value)}
    (hl : ∀ i v, (i, v) ∈ l → ∃ s r, v = Value.str s ∧ splitOutput s = some r ∧ r.obj ∈ ps.keys) (ins : Dict Value) :
    ∃ ins' deps, targetInputs m l ins = some (ins', deps) ∧ ∀ d ∈ deps, d ∈ ps.keys := by
  induction l generalizing ins with
  | nil => exact ⟨ins, [], rfl, by simp⟩
  | cons e l ih =>
    obtain ⟨i, v⟩ := e
    obtain ⟨s, r, rfl, hr, ho⟩ := hl i v (by simp)
    have ih' := ih fun i v hm => hl i v (List.mem_cons_of_mem _ hm)
    simp only [targetInputs, hr]
    split
    · exact ih' _
    · rename_i hx; exact absurd hx (hm _)
    · obtain ⟨ins', deps, h1, h2⟩ := ih' ins
      rw [h1]
      exact ⟨ins', r.obj :: deps, rfl, by simpa [ho] using h2⟩

theorem targetObj_isSome {ps : RawParams} {dir : Option Value} (h : ReplayOk ps dir) {m : Dict (Option String)}
    (hm : ∀ s, m.get? s ≠ some none) {n : String} {v : Value} (hv : (n, v) ∈ ps) :
    ∃ v' deps, targetObj m v = some (v', deps) ∧ ∀ d ∈ deps, d ∈ ps.keys := by
  obtain ⟨pars, c, rfl, hc⟩ := h.cls n v hv
  obtain ⟨l, hl, hl2⟩ := iterateInputs_isSome h hv
  have hti := targetInputs_isSome hm hl2
  have hrefs : ∀ e ∈ pars, ∃ ns, targetRefs e.1 e.2 = some ns ∧ ∀ o ∈ ns, o ∈ ps.keys := by
    rintro ⟨k, w⟩ he
    have := h.refs n pars k w hv he
    unfold targetRefs
    split at this
    · rename_i hk
      obtain ⟨os, h1, h2⟩ := this
      exact ⟨os, by rw [if_pos hk, lists_iterNames h1], h2⟩
    · rename_i hk
      rw [if_neg hk]
      by_cases hr : endsWith k "_ref" = true
      · obtain ⟨b, rfl, hb⟩ := this hr
        exact ⟨[b], by rw [if_pos hr], by simpa using hb⟩
      · exact ⟨[], by rw [if_neg hr], by simp⟩
  obtain ⟨ls, hls⟩ := mapM_isSome (f := fun kv => targetRefs kv.1 kv.2) (l := pars) (fun x hx => by
    obtain ⟨ns, h1, -⟩ := hrefs x hx; rw [h1]; rfl)
  have hls2 : ∀ o ∈ ls.flatten, o ∈ ps.keys := by
    intro o ho
    obtain ⟨ns, h1, h2⟩ := List.mem_flatten.1 ho
    obtain ⟨x, hx, hf⟩ := (mapM_some_mem hls).2 ns h1
    obtain ⟨ns', g1, g2⟩ := hrefs x hx
    rw [g1] at hf; simp at hf; subst hf
    exact g2 o h2
  simp only [targetObj, hl]
  split
  · rename_i hx
    obtain ⟨_, _, hx', _⟩ := hti _
    rw [hx'] at hx; simp at hx
  rename_i ins' deps hx
  have hd : ∀ d ∈ deps, d ∈ ps.keys := by
    obtain ⟨_, _, hx', hd⟩ := hti _
    rw [hx'] at hx; simp only [Option.some.injEq, Prod.mk.injEq] at hx
    rw [← hx.2]; exact hd
  split
  · refine ⟨_, deps ++ ls.flatten, by rw [hls]; rfl, ?_⟩
    intro d hd'
    rcases List.mem_append.1 hd' with h | h
    · exact hd d h
    · exact hls2 d h
  · refine ⟨_, deps ++ ls.flatten, by rw [hls]; rfl, ?_⟩
    intro d hd'
    rcases List.mem_append.1 hd' with h | h
    · exact hd d h
    · exact hls2 d h

/-- number of objects of the file still missing -/
def missing (ps rp : RawParams) : Nat := (ps.keys.filter fun n => decide (n ∉ rp.keys)).length

theorem missing_mono {ps rp rp' : RawParams} (h : ∀ n ∈ rp.keys, n ∈ rp'.keys) : missing ps rp' ≤ missing ps rp := by
  unfold missing
  rw [← List.countP_eq_length_filter, ← List.countP_eq_length_filter]
  apply List.countP_mono_left
  intro x _ hx
  simp only [decide_eq_true_eq] at hx ⊢
  exact fun hh => hx (h x hh)

theorem missing_lt {ps rp rp' : RawParams} (h : ∀ n ∈ rp.keys, n ∈ rp'.keys) {k : String} (hk : k ∈ ps.keys) (h1 : k ∉ rp.keys)
    (h2 : k ∈ rp'.keys) : missing ps rp' < missing ps rp := by
  unfold missing
  generalize ps.keys = l at hk
  induction l with
  | nil => simp at hk
  | cons a l ih =>
    have hle : (l.filter fun n => decide (n ∉ rp'.keys)).length ≤ (l.filter fun n => decide (n ∉ rp.keys)).length := by
      rw [← List.countP_eq_length_filter, ← List.countP_eq_length_filter]
      apply List.countP_mono_left
      intro x _ hx
      simp only [decide_eq_true_eq] at hx ⊢
      exact fun hh => hx (h x hh)
    by_cases ha : a = k
    · subst ha
      simp only [List.filter_cons, h1, h2, not_true_eq_false, not_false_eq_true, decide_true, decide_false, if_true,
        List.length_cons]
      simp only [Bool.false_eq_true, if_false]
      omega
    · have hk' : k ∈ l := by
        rcases List.mem_cons.1 hk with h | h
        · exact absurd h.symm ha
        · exact h
      have := ih hk'
      simp only [List.filter_cons]
      by_cases c1 : a ∈ rp.keys
      · have c2 := h a c1
        simp only [c1, c2, not_true_eq_false, decide_false, Bool.false_eq_true, if_false]
        exact this
      · by_cases c2 : a ∈ rp'.keys
        · simp only [c1, c2, not_true_eq_false, not_false_eq_true, decide_false, decide_true, Bool.false_eq_true, if_false,
            if_true, List.length_cons]
          omega
        · simp only [c1, c2, not_false_eq_true, decide_true, if_true, List.length_cons]
          omega

theorem addKey_isSome {ps : RawParams} {dir : Option Value} (h : ReplayOk ps dir) {m : Dict (Option String)}
    (hm : ∀ s, m.get? s ≠ some none) {fuel : Nat} {key : String} {rp : RawParams} (hk : key ∈ ps.keys)
    (hfuel : missing ps rp < fuel) : ∃ rp', addKey ps m fuel key rp = some rp' := by
  induction fuel generalizing key rp with
  | zero => omega
  | succ fuel ih =>
    rw [addKey]
    split
    · exact ⟨_, rfl⟩
    · rename_i hkey
      obtain ⟨p, hp⟩ := Option.isSome_iff_exists.1 (Dict.get?_isSome.2 hk)
      obtain ⟨p', deps, ht, hd⟩ := targetObj_isSome h hm (Dict.mem_of_get? hp)
      rw [hp]
      simp only [ht]
      have hlt : missing ps (rp.set key p') < fuel := by
        have := missing_lt (ps := ps) (rp := rp) (rp' := rp.set key p') (fun n hn => Dict.mem_keys_set.2 (.inr hn)) hk hkey
          (Dict.mem_keys_set.2 (.inl rfl))
        omega
      clear ht
      generalize rp.set key p' = q at hlt
      induction deps generalizing q with
      | nil => exact ⟨q, rfl⟩
      | cons d deps ihd =>
        obtain ⟨q1, hq1⟩ := ih (hd d (by simp)) hlt
        have := missing_mono (ps := ps) (fun n hn => (addKey_spec hq1).1.keys hn)
        obtain ⟨q2, hq2⟩ := ihd (fun x hx => hd x (List.mem_cons_of_mem _ hx)) q1 (by omega)
        refine ⟨q2, ?_⟩
        simp only [List.foldlM_cons, Option.bind_eq_bind, hq1, Option.bind_some]
        exact hq2

theorem findMain_isSome {ps : RawParams} (hc : ∀ n v, (n, v) ∈ ps → ∃ pars c, v = .dict pars ∧ Dict.get? pars "class" = some c)
    (hm : ∃ n v, (n, v) ∈ ps ∧ HasClass v "SimulParams") : ∃ x, findMain ps = some x := by
  induction ps with
  | nil => simp at hm
  | cons e ps ih =>
    obtain ⟨k, v⟩ := e
    obtain ⟨pars, c, rfl, hcl⟩ := hc k v (by simp)
    simp only [findMain, hcl]
    split
    · exact ⟨_, rfl⟩
    · rename_i hs
      apply ih (fun n v hm => hc n v (List.mem_cons_of_mem _ hm))
      obtain ⟨n, v, h1, h2⟩ := hm
      rcases List.mem_cons.1 h1 with h1 | h1
      · simp only [Prod.mk.injEq] at h1
        obtain ⟨rfl, rfl⟩ := h1
        obtain ⟨p, e, hp⟩ := h2
        simp only [Value.dict.injEq] at e; subst e
        rw [hcl] at hp; simp at hp; subst hp
        simp [isStr] at hs
      · exact ⟨n, v, h1, h2⟩

/-- **C13** (existence): on such a file, for any targets of the file, the replay is built - whatever the shape of the graph,
feedback loops included - as soon as the recursion limit exceeds the number of objects. -/
theorem C13_targeted_replay_exists (limit : Nat) (ps : RawParams) (targets : List String) (dir : Option Value)
    (hf : FileOk ps) (hok : ReplayOk ps dir) (ht : ∀ t ∈ targets, t ∈ ps.keys) (hl : ps.length < limit) :
    ∃ rp, buildTargetedReplay limit ps targets dir = some rp := by
  obtain ⟨⟨mk, mv⟩, hmain⟩ := findMain_isSome hok.cls hok.main
  obtain ⟨rp0, m, hscan, hm⟩ := targetScan_isSome hok hf.2 (fun e he => he) ([(mk, mv)], []) (by simp [Dict.get?])
  simp only [buildTargetedReplay, hmain, hscan]
  clear hscan
  induction targets generalizing rp0 with
  | nil => exact ⟨rp0, rfl⟩
  | cons t targets ih =>
    have hmiss : missing ps rp0 < limit := by
      have : missing ps rp0 ≤ ps.keys.length := List.length_filter_le ..
      simp only [Dict.keys, List.length_map] at this
      omega
    obtain ⟨q1, hq1⟩ := addKey_isSome hok hm (ht t (by simp)) hmiss
    obtain ⟨q2, hq2⟩ := ih (fun x hx => ht x (List.mem_cons_of_mem _ hx)) q1
    refine ⟨q2, ?_⟩
    simp only [List.foldlM_cons, Option.bind_eq_bind, hq1, Option.bind_some]
    exact hq2

/-- the hypotheses of both C13 theorems are met by the closed loop -/
theorem replayBase_replayOk : ReplayOk replayBase none where
  cls := by
    intro n v h
    simp only [replayBase, List.mem_cons, Prod.mk.injEq, List.not_mem_nil, or_false] at h
    rcases h with ⟨-, rfl⟩ | ⟨-, rfl⟩ | ⟨-, rfl⟩ | ⟨-, rfl⟩ | ⟨-, rfl⟩ | ⟨-, rfl⟩ | ⟨-, rfl⟩ <;> exact ⟨_, _, rfl, rfl⟩
  main := ⟨"main", _, List.mem_cons_self .., _, rfl, rfl⟩
  inputs := by
    have ht : ∀ ss : List String, (∀ s ∈ ss, s ∈ ["prop.out_ef", "dm.out_layer:-1", "tip.out_layer", "wfs.out_slopes",
        "rec.out_modes", "sl-wfs.out_slopes"]) → ∀ s ∈ ss, ∃ r, splitOutput s = some r ∧ r.obj ∈ replayBase.keys := by
      intro ss hss s hs
      have := hss s hs
      simp only [List.mem_cons, List.not_mem_nil, or_false] at this
      rcases this with rfl | rfl | rfl | rfl | rfl | rfl
      · exact ⟨_, rfl, by decide⟩
      · exact ⟨_, rfl, by decide⟩
      · exact ⟨_, rfl, by decide⟩
      · exact ⟨_, rfl, by decide⟩
      · exact ⟨_, rfl, by decide⟩
      · exact ⟨_, rfl, by decide⟩
    intro n pars h
    simp only [replayBase, List.mem_cons, Prod.mk.injEq, List.not_mem_nil, or_false, Value.dict.injEq] at h
    rcases h with ⟨-, rfl⟩ | ⟨-, rfl⟩ | ⟨-, rfl⟩ | ⟨-, rfl⟩ | ⟨-, rfl⟩ | ⟨-, rfl⟩ | ⟨-, rfl⟩
    · exact .inl rfl
    · refine .inr ⟨_, rfl, fun i w hm => ?_⟩
      simp only [List.mem_singleton, Prod.mk.injEq] at hm
      obtain ⟨rfl, rfl⟩ := hm
      exact ⟨["prop.out_ef"], .inr ⟨_, rfl, rfl, by decide⟩, ht _ (by decide)⟩
    · refine .inr ⟨_, rfl, fun i w hm => ?_⟩
      simp only [List.mem_singleton, Prod.mk.injEq] at hm
      obtain ⟨rfl, rfl⟩ := hm
      exact ⟨["dm.out_layer:-1", "tip.out_layer"], .inl rfl, ht _ (by decide)⟩
    · exact .inl rfl
    · refine .inr ⟨_, rfl, fun i w hm => ?_⟩
      simp only [List.mem_singleton, Prod.mk.injEq] at hm
      obtain ⟨rfl, rfl⟩ := hm
      exact ⟨["wfs.out_slopes"], .inr ⟨_, rfl, rfl, by decide⟩, ht _ (by decide)⟩
    · refine .inr ⟨_, rfl, fun i w hm => ?_⟩
      simp only [List.mem_singleton, Prod.mk.injEq] at hm
      obtain ⟨rfl, rfl⟩ := hm
      exact ⟨["rec.out_modes"], .inr ⟨_, rfl, rfl, by decide⟩, ht _ (by decide)⟩
    · refine .inr ⟨_, rfl, fun i w hm => ?_⟩
      simp only [List.mem_singleton, Prod.mk.injEq] at hm
      obtain ⟨rfl, rfl⟩ := hm
      exact ⟨["sl-wfs.out_slopes"], .inl rfl, ht _ (by decide)⟩
  refs := by
    intro n pars k w h hk
    have hnr : endsWith k "_ref" = false ∧ endsWith k "_list_ref" = false ∧ endsWith k "_dict_ref" = false := by
      have : k ∈ ["class", "time_step", "inputs", "gain", "store_dir"] := by
        simp only [replayBase, List.mem_cons, Prod.mk.injEq, List.not_mem_nil, or_false, Value.dict.injEq] at h
        rcases h with ⟨-, rfl⟩ | ⟨-, rfl⟩ | ⟨-, rfl⟩ | ⟨-, rfl⟩ | ⟨-, rfl⟩ | ⟨-, rfl⟩ | ⟨-, rfl⟩ <;>
          simp only [List.mem_cons, Prod.mk.injEq, List.not_mem_nil, or_false] at hk ⊢ <;> tauto
      simp only [List.mem_cons, List.not_mem_nil, or_false] at this
      rcases this with rfl | rfl | rfl | rfl | rfl <;> decide
    simp [hnr.1, hnr.2.1, hnr.2.2]
  stores := by
    intro n v h hc
    simp only [replayBase, List.mem_cons, Prod.mk.injEq, List.not_mem_nil, or_false] at h
    rcases h with ⟨-, rfl⟩ | ⟨-, rfl⟩ | ⟨-, rfl⟩ | ⟨-, rfl⟩ | ⟨-, rfl⟩ | ⟨-, rfl⟩ | ⟨-, rfl⟩ <;>
      first
      | (obtain ⟨p, e, hp⟩ := hc; simp only [Value.dict.injEq] at e; subst e; simp [Dict.get?] at hp; done)
      | skip
    refine ⟨rfl, ?_⟩
    intro i s r hs hr
    simp only [inputTexts, Dict.get?, reduceIte, String.reduceEq] at hs
    have : s = "sl-wfs.out_slopes" := by split at hs <;> simp_all [texts]
    subst this
    have hr' : some r = some ⟨some "sl", "wfs", some "out_slopes", 0⟩ := hr.symm.trans (by decide)
    simp only [Option.some.injEq] at hr'
    subst hr'
    exact ⟨rfl, rfl⟩

example : ∃ rp, buildTargetedReplay 8 replayBase ["dm", "wfs"] none = some rp :=
  C13_targeted_replay_exists 8 replayBase ["dm", "wfs"] none replayBase_ok.1 replayBase_replayOk (by decide) (by decide)

/-- A targeted replay of the mirror of the closed loop: the slopes come from the store, hence the sensor is not there. -/
example : ∃ rp, buildTargetedReplay 100 replayBase ["dm"] none = some rp ∧ rp.keys = ["main", "data_source", "dm", "rec"] ∧
    (rp.get? "rec").bind (inputValue · "in_slopes") = some (.str "data_source.sl") :=
  ⟨_, rfl, rfl, rfl⟩

/-- A targeted replay of the sensor goes around the loop. -/
example : ∃ rp, buildTargetedReplay 100 replayBase ["wfs"] none = some rp ∧
    rp.keys = ["main", "data_source", "wfs", "prop", "dm", "rec", "tip"] :=
  ⟨_, rfl, rfl⟩

/-- The redirection promised for a plain text input does not extend to lists: here only one of the two stored signals
survives. -/
theorem C13_list_input_truncated : ∃ ps rp v v', buildTargetedReplay 100 ps ["b"] none = some rp ∧
    ps.get? "b" = some v ∧ rp.get? "b" = some v' ∧ inputTexts v "in" = ["a.x", "a.y"] ∧
    inputValue v' "in" = some (.str "data_source.sy") ∧ Stored ps "a" "x" "sx" ∧ Stored ps "a" "y" "sy" := by
  refine ⟨[("main", .dict [("class", .str "SimulParams")]), ("a", .dict [("class", .str "A")]),
    ("b", .dict [("class", .str "B"), ("inputs", .dict [("in", .list [.str "a.x", .str "a.y"])])]),
    ("s", .dict [("class", .str "DataStore"), ("store_dir", .str "d"),
      ("inputs", .dict [("input_list", .list [.str "sx-a.x", .str "sy-a.y"])])])], _, _, _, rfl, rfl, rfl, rfl, rfl, ?_, ?_⟩
  · exact ⟨"s", _, rfl, ⟨_, rfl, rfl⟩, "input_list", "sx-a.x", ⟨some "sx", "a", some "x", 0⟩,
      by simp [inputTexts, Dict.get?, texts], by decide, rfl, rfl, rfl⟩
  · exact ⟨"s", _, rfl, ⟨_, rfl, rfl⟩, "input_list", "sy-a.y", ⟨some "sy", "a", some "y", 0⟩,
      by simp [inputTexts, Dict.get?, texts], by decide, rfl, rfl, rfl⟩

/-- With two DataStores the data source is the one of the last, although inputs stored by the first are redirected to it. -/
theorem C13_two_stores_dangle : ∃ ps rp v' dv, buildTargetedReplay 100 ps ["b"] none = some rp ∧ rp.get? "b" = some v' ∧
    inputValue v' "in" = some (.str "data_source.sx") ∧ rp.get? "data_source" = some dv ∧
    param dv "outputs" = some (.list [.str "sy"]) :=
  ⟨[("main", .dict [("class", .str "SimulParams")]), ("a", .dict [("class", .str "A")]),
    ("b", .dict [("class", .str "B"), ("inputs", .dict [("in", .str "a.x")])]),
    ("s", .dict [("class", .str "DataStore"), ("store_dir", .str "d"), ("inputs", .dict [("input_list", .list [.str "sx-a.x"])])]),
    ("t", .dict [("class", .str "DataStore"), ("store_dir", .str "d"), ("inputs", .dict [("input_list", .list [.str "sy-a.y"])])])],
    _, _, _, rfl, rfl, rfl, rfl, rfl⟩

end Specula
