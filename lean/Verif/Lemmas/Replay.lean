import Verif.Model.Replay
import Verif.Spec.Replay
import Verif.Props.Combine
import Verif.Props.BuildOrder
/-
Lemmas about the replay builders.
-/
namespace Specula

theorem update_mem {α : Type} {d e : Dict α} {k : String} {v : α} (h : (d.update e).get? k = some v) :
    (k, v) ∈ e ∨ d.get? k = some v := by
  induction e generalizing d with
  | nil => exact .inr h
  | cons a e ih =>
    rcases ih (d := d.set a.1 a.2) h with h | h
    · exact .inl (List.mem_cons_of_mem _ h)
    · rw [Dict.get?_set] at h
      split at h
      · rename_i hk
        simp at h
        left
        rw [hk, ← h]; simp
      · exact .inr h

theorem update_keys {α : Type} {d e : Dict α} {k : String} : k ∈ (d.update e).keys ↔ k ∈ e.keys ∨ k ∈ d.keys := by
  induction e generalizing d with
  | nil => simp [Dict.update, Dict.keys]
  | cons a e ih =>
    have : d.update (a :: e) = (d.set a.1 a.2).update e := rfl
    rw [this, ih, Dict.mem_keys_set]
    simp only [Dict.keys, List.map_cons, List.mem_cons]
    tauto

theorem dictOf_mem {α : Type} {l : List (String × α)} {k : String} {v : α} (h : (dictOf l).get? k = some v) : (k, v) ∈ l := by
  rcases update_mem (d := []) (e := l) h with h | h
  · exact h
  · simp [Dict.get?] at h

theorem dictOf_keys {α : Type} {l : List (String × α)} {k : String} : k ∈ (dictOf l).keys ↔ k ∈ l.map (·.1) := by
  have := update_keys (d := []) (e := l) (k := k)
  rw [show dictOf l = Dict.update [] l from rfl, this]
  simp [Dict.keys]

theorem isStr_iff {c : String} {v : Value} : isStr c v = true ↔ v = .str c := by
  cases v <;> simp [isStr]

/-- the reference texts met by `iterate_inputs` -/
theorem iterateInputs_mem {pars : Dict Value} {l : List (String × Value)} (h : iterateInputs pars = some l)
    {i : String} {v : Value} (hm : (i, v) ∈ l) :
    ∃ ins w, pars.get? "inputs" = some (.dict ins) ∧ (i, w) ∈ ins ∧ (w = v ∨ ∃ vs, w = .list vs ∧ v ∈ vs) := by
  unfold iterateInputs at h
  split at h
  · simp at h; subst h; simp at hm
  · rename_i ins hins
    split at h
    · rename_i vs hvs
      simp only [Option.some.injEq] at h; subst h
      simp only [List.mem_map, Prod.mk.injEq] at hm
      obtain ⟨x, hx, rfl, rfl⟩ := hm
      exact ⟨ins, .list vs, hins, Dict.mem_of_get? hvs, .inr ⟨vs, rfl, hx⟩⟩
    · simp at h
    · simp only [Option.some.injEq] at h; subst h
      rw [List.mem_flatMap] at hm
      obtain ⟨⟨k, w⟩, hkw, hm⟩ := hm
      cases w with
      | list vs =>
        simp only [iterEntry, List.mem_map, Prod.mk.injEq] at hm
        obtain ⟨x, hx, rfl, rfl⟩ := hm
        exact ⟨ins, _, hins, hkw, .inr ⟨vs, rfl, hx⟩⟩
      | _ =>
        simp only [iterEntry, List.mem_singleton, Prod.mk.injEq] at hm
        obtain ⟨rfl, rfl⟩ := hm
        exact ⟨ins, _, hins, hkw, .inl rfl⟩
  · simp at h

/-- every text of an input is met, unless an `input_list` hides it -/
theorem mem_iterateInputs {pars : Dict Value} {l : List (String × Value)} (h : iterateInputs pars = some l)
    {i s : String} (hs : s ∈ inputTexts (.dict pars) i)
    (hil : ∀ ins, pars.get? "inputs" = some (.dict ins) → "input_list" ∈ Dict.keys ins → i = "input_list") :
    (i, Value.str s) ∈ l := by
  unfold inputTexts at hs
  unfold iterateInputs at h
  dsimp only at hs
  split at hs
  · rename_i ins hins
    rw [hins] at h
    dsimp only at h
    cases hv : Dict.get? ins i with
    | none => simp [hv] at hs
    | some v =>
      simp only [hv, Option.map_some, Option.getD_some] at hs
      split at h
      · rename_i vs hvs
        have : i = "input_list" := hil ins hins (by rw [← Dict.get?_isSome, hvs]; rfl)
        subst this
        rw [hv] at hvs; simp only [Option.some.injEq] at hvs; subst hvs
        simp only [Option.some.injEq] at h; subst h
        simp only [texts, List.mem_filterMap] at hs
        obtain ⟨x, hx, hxs⟩ := hs
        cases x <;> simp at hxs
        subst hxs
        exact List.mem_map.2 ⟨_, hx, rfl⟩
      · simp at h
      · simp only [Option.some.injEq] at h; subst h
        rw [List.mem_flatMap]
        refine ⟨(i, v), Dict.mem_of_get? hv, ?_⟩
        cases v with
        | str t => simp [texts] at hs; subst hs; simp [iterEntry]
        | list vs =>
          simp only [texts, List.mem_filterMap] at hs
          obtain ⟨x, hx, hxs⟩ := hs
          cases x <;> simp at hxs
          subst hxs
          exact List.mem_map.2 ⟨_, hx, rfl⟩
        | _ => simp [texts] at hs
  · simp at hs

theorem iterateInputs_texts {pars : Dict Value} (hio : InputsOk (.dict pars)) {l : List (String × Value)}
    (h : iterateInputs pars = some l) {i s : String} (hm : (i, Value.str s) ∈ l) : s ∈ inputTexts (.dict pars) i := by
  obtain ⟨ins, w, hins, hw, hv⟩ := iterateInputs_mem h hm
  have := Dict.get?_of_mem (hio pars ins rfl hins) hw
  simp only [inputTexts, hins, this, Option.map_some, Option.getD_some]
  rcases hv with rfl | ⟨vs, rfl, hv⟩
  · simp [texts]
  · simp only [texts, List.mem_filterMap]
    exact ⟨_, hv, rfl⟩

/-- the loop of `data_store_to_data_source` -/
theorem storeLoop_spec {l : List (String × Value)} {outs : List (Option String)} {objs : List String}
    {m : Dict (Option String)} (h : storeLoop l = some (outs, objs, m)) :
    ∃ rs : List OutRef, l.map (fun e => match e.2 with | .str s => splitOutput s | _ => none) = rs.map some ∧
      outs = rs.map (·.alias) ∧ objs = rs.map (·.obj) ∧
      (∀ r ∈ rs, r.key.isSome) ∧ m = rs.map (fun r => (r.obj ++ "." ++ r.key.getD "", r.alias)) := by
  induction l generalizing outs objs m with
  | nil => simp [storeLoop] at h; obtain ⟨rfl, rfl, rfl⟩ := h; exact ⟨[], by simp⟩
  | cons e l ih =>
    obtain ⟨i, v⟩ := e
    cases v with
    | str s =>
      simp only [storeLoop] at h
      split at h
      · rename_i a o k d hs
        split at h
        · simp at h
        · rename_i outs' objs' m' hl
          simp only [Option.some.injEq, Prod.mk.injEq] at h
          obtain ⟨rfl, rfl, rfl⟩ := h
          obtain ⟨rs, h1, h2, h3, h4, h5⟩ := ih hl
          refine ⟨⟨a, o, some k, d⟩ :: rs, ?_, by simp [h2], by simp [h3], by simpa using h4, by simp [h5]⟩
          simp [h1, hs]
      · simp at h
    | _ => simp [storeLoop] at h

/-- what `data_store_to_data_source` returns -/
theorem dataStore_spec {pars : Dict Value} {dir : Option Value} {dspars : Dict Value} {objs : List String}
    {m : Dict (Option String)} (h : dataStoreToDataSource pars dir = some (dspars, objs, m)) :
    ∃ (l : List (String × Value)) (rs : List OutRef), iterateInputs pars = some l ∧
      l.map (fun e => match e.2 with | .str s => splitOutput s | _ => none) = rs.map some ∧
      (∀ r ∈ rs, r.key.isSome) ∧ objs = rs.map (·.obj) ∧
      m = dictOf (rs.map (fun r => (r.obj ++ "." ++ r.key.getD "", r.alias))) ∧
      dspars.get? "class" = some (.str "DataSource") ∧
      dspars.get? "outputs" = some (.list (rs.map fun r => match r.alias with | some a => .str a | none => .null)) ∧
      dspars.get? "store_dir" = dir.or (pars.get? "store_dir") ∧ dspars.get? "data_format" = pars.get? "data_format" := by
  unfold dataStoreToDataSource at h
  split at h
  · simp at h
  · rename_i l hl
    split at h
    · simp at h
    · rename_i outs objs' m' hs
      split at h
      · simp at h
      · rename_i d hd
        simp only [Option.some.injEq, Prod.mk.injEq] at h
        obtain ⟨rfl, rfl, rfl⟩ := h
        obtain ⟨rs, h1, h2, h3, h4, h5⟩ := storeLoop_spec hs
        refine ⟨l, rs, hl, h1, h4, h3, by rw [h5], ?_, ?_, ?_, ?_⟩
        · simp [Dict.get?]
        · simp [Dict.get?, h2]
          intro a _
          cases a.alias <;> rfl
        · have hd' : dir.or (pars.get? "store_dir") = some d := by
            rw [← hd]; cases dir <;> rfl
          rw [hd']
          cases hf : pars.get? "data_format" <;> simp [Dict.get?]
        · cases hf : pars.get? "data_format" <;> simp [Dict.get?]

theorem mem_refs_of_mem {l : List (String × Value)} {rs : List OutRef}
    (h : l.map (fun e => match e.2 with | .str s => splitOutput s | _ => none) = rs.map some) {r : OutRef} (hr : r ∈ rs) :
    ∃ i s, (i, Value.str s) ∈ l ∧ splitOutput s = some r := by
  have : some r ∈ rs.map some := List.mem_map.2 ⟨r, hr, rfl⟩
  rw [← h, List.mem_map] at this
  obtain ⟨⟨i, v⟩, hm, he⟩ := this
  cases v <;> simp at he
  exact ⟨i, _, hm, he⟩

theorem mem_of_mem_refs {l : List (String × Value)} {rs : List OutRef}
    (h : l.map (fun e => match e.2 with | .str s => splitOutput s | _ => none) = rs.map some) {i s : String}
    (hm : (i, Value.str s) ∈ l) : ∃ r ∈ rs, splitOutput s = some r := by
  have : splitOutput s ∈ l.map (fun e => match e.2 with | .str s => splitOutput s | _ => none) :=
    List.mem_map.2 ⟨_, hm, rfl⟩
  rw [h, List.mem_map] at this
  obtain ⟨r, hr, he⟩ := this
  exact ⟨r, hr, he.symm⟩

end Specula
