import Verif.Lemmas.Replay
/-
Property C12: the replay parameters.
-/
namespace Specula

theorem replayScan_spec {ps : RawParams} {acc res : Option (Dict Value × List String × Dict (Option String))}
    (h : replayScan ps acc = some res) :
    (res = acc ∧ ∀ n v, (n, v) ∈ ps → ¬ HasClass v "DataStore") ∨
    ∃ key pars dspars objs m, (key, Value.dict pars) ∈ ps ∧ HasClass (.dict pars) "DataStore" ∧
      dataStoreToDataSource pars none = some (dspars, objs, m) ∧ res = some (dspars, objs ++ [key], m) := by
  induction ps generalizing acc with
  | nil => simp [replayScan] at h; exact .inl ⟨h.symm, by simp⟩
  | cons e ps ih =>
    obtain ⟨key, v⟩ := e
    cases v with
    | dict pars =>
      simp only [replayScan] at h
      split at h
      · simp at h
      · rename_i c hc
        split at h
        · rename_i hds
          rw [isStr_iff] at hds
          subst hds
          split at h
          · simp at h
          · rename_i dspars objs m hd
            rcases ih h with ⟨rfl, _⟩ | ⟨k, p, d, o, m', h1, h2, h3, h4⟩
            · exact .inr ⟨key, pars, dspars, objs, m, by simp, ⟨pars, rfl, hc⟩, hd, rfl⟩
            · exact .inr ⟨k, p, d, o, m', List.mem_cons_of_mem _ h1, h2, h3, h4⟩
        · rename_i hds
          rcases ih h with ⟨h1, h2⟩ | ⟨k, p, d, o, m', h1, h2, h3, h4⟩
          · refine .inl ⟨h1, ?_⟩
            intro n v hm hcl
            rcases List.mem_cons.1 hm with hm | hm
            · simp only [Prod.mk.injEq] at hm
              obtain ⟨_, rfl⟩ := hm
              obtain ⟨p, e, hp⟩ := hcl
              simp only [Value.dict.injEq] at e; subst e
              rw [hc] at hp; simp at hp; subst hp
              simp [isStr] at hds
            · exact h2 n v hm hcl
          · exact .inr ⟨k, p, d, o, m', List.mem_cons_of_mem _ h1, h2, h3, h4⟩
    | _ => simp [replayScan] at h

theorem delAll_spec {os : List String} {ps ps' : RawParams} (h : delAll os ps = some ps') :
    (∀ o ∈ os, o ∈ ps.keys) ∧ ∀ n, ps'.get? n = if n ∈ os then none else ps.get? n := by
  induction os generalizing ps with
  | nil => simp [delAll] at h; subst h; simp
  | cons o os ih =>
    unfold delAll at h
    split at h
    · rename_i ho
      obtain ⟨h1, h2⟩ := ih h
      constructor
      · intro x hx
        rcases List.mem_cons.1 hx with rfl | hx
        · exact ho
        · exact (Dict.mem_keys_del.1 (h1 x hx)).2
      · intro n
        rw [h2, Dict.get?_del]
        by_cases e1 : n = o <;> by_cases e2 : n ∈ os <;> simp [e1, e2]
    · simp at h

theorem mapM_get? {α β : Type} {f : String → α → Option β} {ps : Dict α} {ps' : Dict β}
    (h : (ps.mapM fun np => (f np.1 np.2).map fun v => (np.1, v)) = some ps') :
    ps'.keys = ps.keys ∧ ∀ n v, ps.get? n = some v → ∃ v', f n v = some v' ∧ ps'.get? n = some v' := by
  induction ps generalizing ps' with
  | nil => simp at h; subst h; simp [Dict.keys, Dict.get?]
  | cons e ps ih =>
    obtain ⟨n0, v0⟩ := e
    simp only [List.mapM_cons, Option.bind_eq_bind, Option.bind_eq_some_iff, Option.pure_def, Option.map_eq_some_iff,
      Option.some.injEq] at h
    obtain ⟨_, ⟨v0', hv0, rfl⟩, ps1, hps1, rfl⟩ := h
    obtain ⟨h1, h2⟩ := ih hps1
    refine ⟨by simp only [Dict.keys, List.map_cons] at h1 ⊢; rw [h1], ?_⟩
    intro n v hv
    rw [show Dict.get? ((n0, v0) :: ps) n = if n0 = n then some v0 else Dict.get? ps n from rfl] at hv
    rw [show Dict.get? ((n0, v0') :: ps1) n = if n0 = n then some v0' else Dict.get? ps1 n from rfl]
    split at hv
    · rename_i e
      simp at hv; subst hv; subst e
      exact ⟨v0', hv0, by simp⟩
    · rename_i e
      obtain ⟨v', hv', hw⟩ := h2 n v hv
      exact ⟨v', hv', by simp [e, hw]⟩

theorem redirect_spec {m : Dict (Option String)} {ins ins' : Dict Value} (h : redirect m ins = some ins') (i : String) :
    (∀ s, ins.get? i = some (.str s) →
      (∃ a, m.get? s = some (some a) ∧ ins'.get? i = some (.str ("data_source." ++ a))) ∨
      (m.get? s = none ∧ ins'.get? i = some (.str s))) ∧
    ((∀ s, ins.get? i ≠ some (.str s)) → ins'.get? i = ins.get? i) := by
  induction ins generalizing ins' with
  | nil => simp [redirect] at h; subst h; simp [Dict.get?]
  | cons e ins ih =>
    obtain ⟨k, v⟩ := e
    unfold redirect at h
    split at h
    · simp at h
    · rename_i rest' hr
      have ih' := ih hr
      rw [show Dict.get? ((k, v) :: ins) i = if k = i then some v else Dict.get? ins i from rfl]
      cases v with
      | str s =>
        dsimp only at h
        split at h
        · rename_i a ha
          simp only [Option.some.injEq] at h; subst h
          rw [show Dict.get? ((k, Value.str ("data_source." ++ a)) :: rest') i =
            if k = i then some (Value.str ("data_source." ++ a)) else Dict.get? rest' i from rfl]
          split
          · constructor
            · intro s' hs'
              simp at hs'; subst hs'
              exact .inl ⟨a, ha, rfl⟩
            · intro h; exact absurd rfl (h s)
          · exact ih'
        · simp at h
        · rename_i hm
          simp only [Option.some.injEq] at h; subst h
          rw [show Dict.get? ((k, Value.str s) :: rest') i = if k = i then some (Value.str s) else Dict.get? rest' i from rfl]
          split
          · constructor
            · intro s' hs'
              simp at hs'; subst hs'
              exact .inr ⟨hm, rfl⟩
            · intro h; rfl
          · exact ih'
      | dict d => simp at h
      | _ =>
        simp only [Option.some.injEq] at h; subst h
        rw [show ∀ w : Value, Dict.get? ((k, w) :: rest') i = if k = i then some w else Dict.get? rest' i from fun _ => rfl]
        split
        · simp
        · exact ih'

theorem redirectObj_spec {m : Dict (Option String)} {key : String} (hk : key ≠ "data_source") {v v' : Value}
    (h : redirectObj m key v = some v') :
    (∀ k, k ≠ "inputs" → param v' k = param v k) ∧ ∀ i,
    (∀ s, inputValue v i = some (.str s) →
      (∃ a, m.get? s = some (some a) ∧ inputValue v' i = some (.str ("data_source." ++ a))) ∨
      (m.get? s = none ∧ inputValue v' i = some (.str s))) ∧
    ((∀ s, inputValue v i ≠ some (.str s)) → inputValue v' i = inputValue v i) := by
  cases v with
  | dict pars =>
    simp only [redirectObj, if_neg hk] at h
    split at h
    · rename_i hno
      simp at h; subst h
      refine ⟨fun _ _ => rfl, fun i => ⟨?_, fun _ => rfl⟩⟩
      intro s hs
      simp [inputValue, param, hno] at hs
    · rename_i ins hins
      simp only [Option.map_eq_some_iff] at h
      obtain ⟨ins', hi, rfl⟩ := h
      refine ⟨fun k hne => Dict.get?_set_ne _ _ hne, fun i => ?_⟩
      have := redirect_spec hi i
      simpa only [inputValue, param, hins, Dict.get?_set_self] using this
    · simp at h
  | _ => simp [redirectObj] at h

theorem inputValue_none_of {v : Value} {i : String} (h : inputValue v i = none) : inputTexts v i = [] := by
  cases v with
  | dict pars =>
    simp only [inputValue, param, inputTexts] at h ⊢
    split
    · rename_i ins hins
      simp only [hins] at h
      simp [h]
    · rfl
  | _ => rfl

theorem inputTexts_of_value {v : Value} {i : String} {w : Value} (h : inputValue v i = some w) : inputTexts v i = texts w := by
  cases v with
  | dict pars =>
    simp only [inputValue, param, inputTexts] at h ⊢
    split at h
    · rename_i ins hins
      simp only [hins]
      simp [h]
    · simp at h
  | _ => simp [inputValue, param] at h

/-- hidden inputs: `input_list` alone means every text is iterated over -/
theorem alone_hides {pars : Dict Value} (h : InputListAlone (.dict pars)) {i s : String}
    (hs : s ∈ inputTexts (.dict pars) i) (ins : Dict Value) (hins : pars.get? "inputs" = some (.dict ins))
    (hil : "input_list" ∈ Dict.keys ins) : i = "input_list" := by
  apply h
  · simp only [inputValue, param, hins]
    intro hn
    rw [Dict.get?_eq_none] at hn
    exact hn hil
  · intro hn
    rw [inputValue_none_of hn] at hs
    simp at hs

/-- **C12**: what the replay parameters contain.  There is a DataStore of the file (the only one, if the file has one)
such that:
* a data source offers every stored output under its stored name, and nothing else, read from the same place and format;
* the objects are the original ones minus the DataStore and the owners of stored outputs;
* a remaining object keeps all its parameters; an input that is the plain text `obj.key` of a stored signal now reads the
  data source output that holds it; every other input is as it was. -/
theorem C12_replay (ps rp : RawParams) (hf : FileOk ps) (hnew : "data_source" ∉ ps.keys)
    (hds : ∃ n v, (n, v) ∈ ps ∧ HasClass v "DataStore") (hal : ∀ n v, (n, v) ∈ ps → HasClass v "DataStore" → InputListAlone v)
    (hcl : InputsClosed ps) (h : buildReplay ps = some rp) :
    ∃ sd sv, ps.get? sd = some sv ∧ HasClass sv "DataStore" ∧
      (∃ dv outs, rp.get? "data_source" = some dv ∧ HasClass dv "DataSource" ∧ param dv "outputs" = some (.list outs) ∧
        (∀ a, Value.str a ∈ outs ↔ ∃ o k, StoresAs sv o k a) ∧
        param dv "store_dir" = param sv "store_dir" ∧ param dv "data_format" = param sv "data_format") ∧
      (∀ n, n ∈ rp.keys ↔ n = "data_source" ∨
        (n ∈ ps.keys ∧ n ≠ sd ∧ ¬ ∃ i s, s ∈ inputTexts sv i ∧ RefersText s n)) ∧
      (∀ n v, n ∈ rp.keys → ps.get? n = some v → ∃ v', rp.get? n = some v' ∧
        (∀ k, k ≠ "inputs" → param v' k = param v k) ∧
        ∀ i, (∀ s, inputValue v i = some (.str s) →
            (∃ o k a, s = o ++ "." ++ k ∧ StoresAs sv o k a ∧ inputValue v' i = some (.str ("data_source." ++ a))) ∨
            ((∀ o k a, StoresAs sv o k a → s ≠ o ++ "." ++ k) ∧ inputValue v' i = some (.str s))) ∧
          ((∀ s, inputValue v i ≠ some (.str s)) → inputValue v' i = inputValue v i)) := by
  unfold buildReplay at h
  split at h
  · simp at h
  · rename_i acc hscan
    rcases replayScan_spec hscan with ⟨_, hno⟩ | ⟨sd, pars, dspars, objs, m, hsd, hclass, hd, rfl⟩
    · obtain ⟨n, v, h1, h2⟩ := hds
      exact absurd h2 (hno n v h1)
    · dsimp only at h
      split at h
      · simp at h
      · rename_i rp0 hdel
        obtain ⟨l, rs, hl, hrs, hkey, hobjs, hm, hc1, hc2, hc3, hc4⟩ := dataStore_spec hd
        obtain ⟨hdel1, hdel2⟩ := delAll_spec hdel
        obtain ⟨hk, hmap⟩ := mapM_get? (f := fun k v => redirectObj m k v) h
        have hsdg := Dict.get?_of_mem hf.1 hsd
        -- stored references, both ways
        have hst1 : ∀ r ∈ rs, ∃ i s, s ∈ inputTexts (.dict pars) i ∧ splitOutput s = some r := by
          intro r hr
          obtain ⟨i, s, hm1, hs⟩ := mem_refs_of_mem hrs hr
          exact ⟨i, s, iterateInputs_texts (hf.2 _ _ hsd) hl hm1, hs⟩
        have hst2 : ∀ i s, s ∈ inputTexts (.dict pars) i → ∃ r ∈ rs, splitOutput s = some r := by
          intro i s hs
          exact mem_of_mem_refs hrs (mem_iterateInputs hl hs (alone_hides (hal _ _ hsd hclass) hs))
        -- which names are removed
        have hrm : ∀ n, n ∈ (objs ++ [sd]).eraseDups ↔ n = sd ∨ ∃ i s, s ∈ inputTexts (.dict pars) i ∧ RefersText s n := by
          intro n
          rw [List.mem_eraseDups, List.mem_append, List.mem_singleton, hobjs, List.mem_map]
          constructor
          · rintro (⟨r, hr, rfl⟩ | h)
            · obtain ⟨i, s, h1, h2⟩ := hst1 r hr
              exact .inr ⟨i, s, h1, by simp [RefersText, h2]⟩
            · exact .inl h
          · rintro (h | ⟨i, s, h1, h2⟩)
            · exact .inr h
            · obtain ⟨r, hr, hs⟩ := hst2 i s h1
              simp only [RefersText, hs, Option.map_some, Option.some.injEq] at h2
              exact .inl ⟨r, hr, h2⟩
        have hdsrm : "data_source" ∉ (objs ++ [sd]).eraseDups := by
          rw [hrm]
          rintro (h | ⟨i, s, h1, h2⟩)
          · apply hnew; rw [h, ← Dict.get?_isSome, hsdg]; rfl
          · obtain ⟨b, hb, hb'⟩ := hcl sd _ hsdg i s h1
            unfold RefersText at h2 hb'
            rw [hb'] at h2
            simp at h2
            exact hnew (h2 ▸ hb)
        have hg0 : ∀ n, n ≠ "data_source" → rp0.get? n = if n ∈ (objs ++ [sd]).eraseDups then none else ps.get? n := by
          intro n hn
          rw [hdel2, Dict.get?_set_ne _ _ hn]
        refine ⟨sd, .dict pars, hsdg, hclass, ?_, ?_, ?_⟩
        · have h0 : rp0.get? "data_source" = some (.dict dspars) := by
            rw [hdel2, if_neg hdsrm, Dict.get?_set_self]
          obtain ⟨v', hv', hg⟩ := hmap _ _ h0
          simp only [redirectObj, if_pos, Option.some.injEq] at hv'
          subst hv'
          refine ⟨_, _, hg, ⟨dspars, rfl, hc1⟩, hc2, ?_, by simpa [param] using hc3, hc4⟩
          intro a
          rw [List.mem_map]
          constructor
          · rintro ⟨r, hr, he⟩
            cases hal : r.alias with
            | none => simp [hal] at he
            | some a' =>
              simp only [hal, Value.str.injEq] at he
              subst he
              obtain ⟨i, s, h1, h2⟩ := hst1 r hr
              obtain ⟨k, hk⟩ := Option.isSome_iff_exists.1 (hkey r hr)
              exact ⟨r.obj, k, i, s, r, h1, h2, rfl, hk, hal⟩
          · rintro ⟨o, k, i, s, r, h1, h2, h3, h4, h5⟩
            obtain ⟨r', hr', hs'⟩ := hst2 i s h1
            rw [h2] at hs'; simp at hs'; subst hs'
            exact ⟨r, hr', by simp [h5]⟩
        · intro n
          rw [hk, ← Dict.get?_isSome]
          by_cases hn : n = "data_source"
          · simp [hn, hdel2, hdsrm, Dict.get?_set_self]
          · rw [hg0 n hn]
            simp only [hn, false_or]
            rw [← Dict.get?_isSome]
            have := hrm n
            by_cases hmem : n ∈ (objs ++ [sd]).eraseDups
            · simp only [hmem, if_true]
              rw [this] at hmem
              simp only [Option.isSome_none, Bool.false_eq_true, false_iff]
              rintro ⟨-, h1, h2⟩
              rcases hmem with h | h
              · exact h1 h
              · exact h2 h
            · simp only [hmem, if_false]
              rw [this] at hmem
              push Not at hmem
              constructor
              · intro h
                exact ⟨h, hmem.1, fun ⟨i, s, h1, h2⟩ => hmem.2 i s h1 h2⟩
              · intro h; exact h.1
        · intro n v hnr hv
          have hn : n ≠ "data_source" := by
            rintro rfl
            exact hnew (by rw [← Dict.get?_isSome, hv]; rfl)
          have hv0 : rp0.get? n = some v := by
            rw [hk, ← Dict.get?_isSome, hg0 n hn] at hnr
            rw [hg0 n hn]
            split at hnr
            · simp at hnr
            · rename_i hx; rw [if_neg hx, hv]
          obtain ⟨v', hv', hg⟩ := hmap n v hv0
          obtain ⟨h1, h2⟩ := redirectObj_spec hn hv'
          refine ⟨v', hg, h1, fun i => ⟨?_, (h2 i).2⟩⟩
          intro s hs
          rcases (h2 i).1 s hs with ⟨a, ha, hv⟩ | ⟨ha, hv⟩
          · left
            rw [hm] at ha
            have hmem := dictOf_mem ha
            rw [List.mem_map] at hmem
            obtain ⟨r, hr, he⟩ := hmem
            simp only [Prod.mk.injEq] at he
            obtain ⟨k, hk⟩ := Option.isSome_iff_exists.1 (hkey r hr)
            obtain ⟨i', s', g1, g2⟩ := hst1 r hr
            exact ⟨r.obj, k, a, by rw [← he.1, hk]; rfl, ⟨i', s', r, g1, g2, rfl, hk, he.2⟩, hv⟩
          · right
            refine ⟨?_, hv⟩
            rintro o k a ⟨i', s', r, g1, g2, g3, g4, g5⟩ rfl
            obtain ⟨r', hr', hs'⟩ := hst2 i' s' g1
            rw [g2] at hs'; simp at hs'; subst hs'
            rw [Dict.get?_eq_none, hm, dictOf_keys] at ha
            apply ha
            rw [List.map_map, List.mem_map]
            exact ⟨r, hr', by simp [g3, g4]⟩

/-- **C12** (closure): if in addition every reference of a remaining object to a removed one is a plain single text
`obj.key` of a stored signal, then every input of every remaining object names an object that is present. -/
theorem C12_replay_closed (ps rp : RawParams) (hf : FileOk ps) (hnew : "data_source" ∉ ps.keys)
    (hds : ∃ n v, (n, v) ∈ ps ∧ HasClass v "DataStore") (hal : ∀ n v, (n, v) ∈ ps → HasClass v "DataStore" → InputListAlone v)
    (hcl : InputsClosed ps) (h : buildReplay ps = some rp)
    (hplain : ∀ sd sv n v i s b, ps.get? sd = some sv → HasClass sv "DataStore" → n ∈ rp.keys → ps.get? n = some v →
      s ∈ inputTexts v i → RefersText s b → b ∉ rp.keys →
      inputValue v i = some (.str s) ∧ ∃ o k a, s = o ++ "." ++ k ∧ StoresAs sv o k a)
    (hnames : ∀ sd sv o k a, ps.get? sd = some sv → HasClass sv "DataStore" → StoresAs sv o k a → '.' ∉ a.toList) :
    ∀ n v', n ≠ "data_source" → rp.get? n = some v' → ∀ i s, s ∈ inputTexts v' i → ∃ b ∈ rp.keys, RefersText s b := by
  obtain ⟨sd, sv, hsd, hc, ⟨dv, outs, hdv, -⟩, hkeys, hobj⟩ := C12_replay ps rp hf hnew hds hal hcl h
  intro n v' hn hv' i s hs
  have hnk : n ∈ rp.keys := by rw [← Dict.get?_isSome, hv']; rfl
  have hnps : n ∈ ps.keys := by
    rcases (hkeys n).1 hnk with h | h
    · exact absurd h hn
    · exact h.1
  obtain ⟨v, hv⟩ := Option.isSome_iff_exists.1 (Dict.get?_isSome.2 hnps)
  obtain ⟨v2, hv2, -, hin⟩ := hobj n v hnk hv
  rw [hv'] at hv2; simp at hv2; subst hv2
  -- original references of this object either stay inside or are redirected
  have hold : ∀ s, s ∈ inputTexts v i → inputValue v' i = inputValue v i →
      ¬ (∃ o k a, s = o ++ "." ++ k ∧ StoresAs sv o k a ∧ inputValue v i = some (.str s)) → ∃ b ∈ rp.keys, RefersText s b := by
    intro s hs hsame hnst
    obtain ⟨b, hb, hr⟩ := hcl n v hv i s hs
    by_cases hbr : b ∈ rp.keys
    · exact ⟨b, hbr, hr⟩
    · obtain ⟨h1, o, k, a, h2, h3⟩ := hplain sd sv n v i s b hsd hc hnk hv hs hr hbr
      exact absurd ⟨o, k, a, h2, h3, h1⟩ hnst
  by_cases hstr : ∃ t, inputValue v i = some (.str t)
  · obtain ⟨t, ht⟩ := hstr
    rcases (hin i).1 t ht with ⟨o, k, a, rfl, hst, hnv⟩ | ⟨hnot, hnv⟩
    · rw [inputTexts_of_value hnv] at hs
      simp only [texts, List.mem_singleton] at hs
      subst hs
      refine ⟨"data_source", by rw [← Dict.get?_isSome, hdv]; rfl, ?_⟩
      have ha := hnames sd sv o k a hsd hc hst
      obtain ⟨i', s', r, g1, g2, g3, g4, g5⟩ := hst
      rw [C11_accepts_iff] at g2
      obtain ⟨dt, -, g6, -⟩ := g2
      have := C11_roundtrip none "data_source" (some a) none (by simp) (by simp [PlainName])
        (by rintro x hx; simp at hx; subst hx; exact ⟨(g6 a g5).1, (g6 a g5).2, ha⟩)
      have he : refText none "data_source" (some a) "" = "data_source." ++ a := by
        rw [← String.toList_inj]; simp [refText]
      dsimp only at this
      rw [he] at this
      simp [RefersText, this]
    · rw [inputTexts_of_value hnv] at hs
      simp only [texts, List.mem_singleton] at hs
      subst hs
      refine hold s (by rw [inputTexts_of_value ht]; simp [texts]) (by rw [hnv, ht]) ?_
      rintro ⟨o, k, a, h1, h2, -⟩
      exact hnot o k a h2 h1
  · push Not at hstr
    have hsame := (hin i).2 hstr
    have hs' : s ∈ inputTexts v i := by
      cases hw : inputValue v' i with
      | none => rw [inputValue_none_of hw] at hs; simp at hs
      | some w =>
        rw [inputTexts_of_value hw] at hs
        rw [hsame] at hw
        rw [inputTexts_of_value hw]; exact hs
    exact hold s hs' hsame fun ⟨o, k, a, _, _, h⟩ => hstr s h

/-- A closed-loop file: sensor, reconstructor, mirror; the slopes and the commands are stored. -/
def replayBase : RawParams :=
  [("main", .dict [("class", .str "SimulParams"), ("time_step", .num 1)]),
   ("wfs", .dict [("class", .str "Sensor"), ("inputs", .dict [("in_ef", .str "prop.out_ef")])]),
   ("prop", .dict [("class", .str "Propagation"),
      ("inputs", .dict [("layers", .list [.str "dm.out_layer:-1", .str "tip.out_layer"])])]),
   ("tip", .dict [("class", .str "Tip")]),
   ("rec", .dict [("class", .str "Rec"), ("gain", .num 3), ("inputs", .dict [("in_slopes", .str "wfs.out_slopes")])]),
   ("dm", .dict [("class", .str "DM"), ("inputs", .dict [("in_command", .str "rec.out_modes")])]),
   ("store", .dict [("class", .str "DataStore"), ("store_dir", .str "/data"),
      ("inputs", .dict [("input_list", .list [.str "sl-wfs.out_slopes"])])])]

theorem replayBase_ok : FileOk replayBase ∧ "data_source" ∉ replayBase.keys ∧ InputsClosed replayBase ∧
    (∃ n v, (n, v) ∈ replayBase ∧ HasClass v "DataStore") ∧
    ∀ n v, (n, v) ∈ replayBase → HasClass v "DataStore" → InputListAlone v := by
  refine ⟨⟨by decide, ?_⟩, by decide, ?_, ⟨"store", _, by simp [replayBase]; rfl, _, rfl, by rfl⟩, ?_⟩
  · intro n v h
    simp only [replayBase, List.mem_cons, Prod.mk.injEq, List.not_mem_nil, or_false] at h
    intro pars ins e he
    rcases h with ⟨-, rfl⟩ | ⟨-, rfl⟩ | ⟨-, rfl⟩ | ⟨-, rfl⟩ | ⟨-, rfl⟩ | ⟨-, rfl⟩ | ⟨-, rfl⟩ <;>
      (simp only [Value.dict.injEq] at e; subst e; simp [Dict.get?] at he) <;> (subst he; simp [Dict.keys])
  · intro n v h i s hs
    replace h := Dict.mem_of_get? h
    simp only [replayBase, List.mem_cons, Prod.mk.injEq, List.not_mem_nil, or_false] at h
    have hr : ∀ s, s ∈ ["prop.out_ef", "dm.out_layer:-1", "tip.out_layer", "wfs.out_slopes", "rec.out_modes",
        "sl-wfs.out_slopes"] → ∃ b ∈ replayBase.keys, RefersText s b := by
      intro s hs
      simp only [List.mem_cons, List.not_mem_nil, or_false] at hs
      rcases hs with rfl | rfl | rfl | rfl | rfl | rfl
      · exact ⟨"prop", by decide, by decide⟩
      · exact ⟨"dm", by decide, by decide⟩
      · exact ⟨"tip", by decide, by decide⟩
      · exact ⟨"wfs", by decide, by decide⟩
      · exact ⟨"rec", by decide, by decide⟩
      · exact ⟨"wfs", by decide, by decide⟩
    apply hr
    rcases h with ⟨-, rfl⟩ | ⟨-, rfl⟩ | ⟨-, rfl⟩ | ⟨-, rfl⟩ | ⟨-, rfl⟩ | ⟨-, rfl⟩ | ⟨-, rfl⟩ <;>
      simp only [inputTexts, Dict.get?, reduceIte, String.reduceEq] at hs <;>
      first
        | (simp at hs; done)
        | (split at hs
           · simp [texts] at hs; simp; tauto
           · simp at hs)
  · intro n v h hc
    simp only [replayBase, List.mem_cons, Prod.mk.injEq, List.not_mem_nil, or_false] at h
    rcases h with ⟨-, rfl⟩ | ⟨-, rfl⟩ | ⟨-, rfl⟩ | ⟨-, rfl⟩ | ⟨-, rfl⟩ | ⟨-, rfl⟩ | ⟨-, rfl⟩ <;>
      first
      | (obtain ⟨p, e, hp⟩ := hc; simp only [Value.dict.injEq] at e; subst e; simp [Dict.get?] at hp; done)
      | (intro _ i hi
         simp only [inputValue, param, Dict.get?, reduceIte, String.reduceEq] at hi
         split at hi
         · rename_i e; exact e.symm
         · simp at hi)

/-- the hypotheses of `C12_replay` are met, and this is the result -/
example : ∃ rp, buildReplay replayBase = some rp ∧
    rp.keys = ["main", "prop", "tip", "rec", "dm", "data_source"] ∧
    (rp.get? "rec").bind (inputValue · "in_slopes") = some (.str "data_source.sl") :=
  ⟨_, rfl, rfl, rfl⟩

/-- `C12_replay_closed` does not extend to references inside a list: here the stored signal is read through a list, and the
replay still refers to the removed object. -/
theorem C12_list_reference_dangles : ∃ ps rp n v, FileOk ps ∧ InputsClosed ps ∧ buildReplay ps = some rp ∧
    rp.get? n = some v ∧ ∃ s, s ∈ inputTexts v "in" ∧ ∀ b ∈ rp.keys, ¬ RefersText s b := by
  refine ⟨[("a", .dict [("class", .str "A")]),
    ("b", .dict [("class", .str "B"), ("inputs", .dict [("in", .list [.str "a.x"])])]),
    ("s", .dict [("class", .str "DataStore"), ("store_dir", .str "d"),
      ("inputs", .dict [("input_list", .list [.str "sig-a.x"])])])], _, "b", _, ?_, ?_, rfl, rfl, "a.x", ?_, by decide⟩
  · refine ⟨by decide, ?_⟩
    intro n v h pars ins e he
    simp only [List.mem_cons, Prod.mk.injEq, List.not_mem_nil, or_false] at h
    rcases h with ⟨-, rfl⟩ | ⟨-, rfl⟩ | ⟨-, rfl⟩ <;>
      (simp only [Value.dict.injEq] at e; subst e; simp [Dict.get?] at he) <;> (subst he; simp [Dict.keys])
  · intro n v h i s hs
    replace h := Dict.mem_of_get? h
    simp only [List.mem_cons, Prod.mk.injEq, List.not_mem_nil, or_false] at h
    refine ⟨"a", by decide, ?_⟩
    rcases h with ⟨-, rfl⟩ | ⟨-, rfl⟩ | ⟨-, rfl⟩ <;>
      simp only [inputTexts, Dict.get?, reduceIte, String.reduceEq] at hs
    · simp at hs
    · have : s = "a.x" := by split at hs <;> simp_all [texts]
      subst this; decide
    · have : s = "sig-a.x" := by split at hs <;> simp_all [texts]
      subst this; decide
  · simp [inputTexts, Dict.get?, Dict.set, texts]

/-- Nor to a delayed reference. -/
theorem C12_delayed_reference_dangles : ∃ ps rp n v, buildReplay ps = some rp ∧ rp.get? n = some v ∧
    inputValue v "in" = some (.str "a.x:-1") ∧ "a" ∈ ps.keys ∧ "a" ∉ rp.keys ∧
    (∃ sv, ps.get? "s" = some sv ∧ HasClass sv "DataStore" ∧ StoresAs sv "a" "x" "sig") := by
  refine ⟨[("a", .dict [("class", .str "A")]),
    ("b", .dict [("class", .str "B"), ("inputs", .dict [("in", .str "a.x:-1")])]),
    ("s", .dict [("class", .str "DataStore"), ("store_dir", .str "d"),
      ("inputs", .dict [("input_list", .list [.str "sig-a.x"])])])], _, "b", _, rfl, rfl, rfl, by decide, by decide,
      _, rfl, ⟨_, rfl, rfl⟩, "input_list", "sig-a.x", ⟨some "sig", "a", some "x", 0⟩, ?_, by decide, rfl, rfl, rfl⟩
  simp [inputTexts, Dict.get?, texts]

end Specula
