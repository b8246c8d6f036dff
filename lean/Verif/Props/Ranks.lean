import Verif.Spec.Ranks
import Verif.Props.BuildOrder
/-
Property C14: every processing object on one process, every remote link paired.
-/
namespace Specula

theorem findObj_of_mem {file : List PObj} (hn : (file.map (·.name)).Nodup) {p : PObj} (hp : p ∈ file) :
    findObj file p.name = some p := by
  unfold findObj
  induction file with
  | nil => simp at hp
  | cons a file ih =>
    simp only [List.map_cons, List.nodup_cons] at hn
    rcases List.mem_cons.1 hp with rfl | hp
    · simp
    · have : a.name ≠ p.name := fun e => hn.1 (e ▸ List.mem_map_of_mem hp)
      simp [this, ih hn.2 hp]

theorem findObj_mem {file : List PObj} {n : String} {p : PObj} (h : findObj file n = some p) : p ∈ file ∧ p.name = n := by
  unfold findObj at h
  exact ⟨List.mem_of_find?_eq_some h, by simpa using List.find?_some h⟩

/-- **C14** (placement): with one process per rank, a processing object is created on the process of its target rank and
on no other; a data object without target rank on all of them; with target rank, only there.  Without MPI everything is
created. -/
theorem C14_placement (o : PObj) (r : Nat) :
    (o.isData = false → (builtOn (some r) o = true ↔ r = o.rank.getD 0)) ∧
    (o.isData = true → (builtOn (some r) o = true ↔ o.rank = none ∨ o.rank = some r)) ∧ builtOn none o = true := by
  obtain ⟨n, d, rk, _, _, _⟩ := o
  refine ⟨?_, ?_, ?_⟩
  · rintro rfl
    simp [builtOn, PObj.target]
  · rintro rfl
    cases rk <;> simp [builtOn, PObj.target]
    intro h; exact h.symm
  · simp [builtOn]

theorem flatten_flatMap {α β γ : Type} {f : α → Option (List β)} {g : α → List γ} {h : γ → List β} {l : List α} {r : List (List β)}
    (hr : l.mapM f = some r) (hfg : ∀ a ∈ l, ∀ x, f a = some x → x = (g a).flatMap h) :
    r.flatten = (l.flatMap g).flatMap h := by
  induction l generalizing r with
  | nil => simp at hr; subst hr; rfl
  | cons a l ih =>
    simp only [List.mapM_cons, Option.bind_eq_bind, Option.bind_eq_some_iff, Option.pure_def, Option.some.injEq] at hr
    obtain ⟨x, hx, xs, hxs, rfl⟩ := hr
    simp only [List.flatten_cons, List.flatMap_cons, List.flatMap_append]
    rw [hfg a (by simp) x hx, ih hxs fun a ha => hfg a (List.mem_cons_of_mem _ ha)]

theorem mem_links {file : List PObj} {l : Link} :
    l ∈ links file ↔ l.dest ∈ file ∧ ∃ e ∈ l.dest.inputs, e.1 = l.input ∧ l.ref ∈ e.2 := by
  simp only [links, List.mem_flatMap, List.mem_map]
  constructor
  · rintro ⟨d, hd, e, he, ref, hr, rfl⟩
    exact ⟨hd, e, he, rfl, hr⟩
  · rintro ⟨hd, e, he, h1, h2⟩
    exact ⟨l.dest, hd, e, he, l.ref, h2, by cases l; simp_all⟩

/-- one link -/
theorem connectLink_spec {file : List PObj} {tag : String → String → Option String → String → Nat} {r : Nat} {d : PObj} (hd : d.isData = false) {i : String} {ref : OutRef}
    (hp : ∀ p ∈ file, p.name = ref.obj → p.isData = false) {acts : List Act}
    (h : connectLink (some r) file tag d i ref = some acts) :
    ∃ p ∈ file, p.name = ref.obj ∧ acts = expected tag r p.target ⟨d, i, ref⟩ := by
  unfold connectLink at h
  have hdb := (C14_placement d r).1 hd
  split at h
  · simp at h
  · rename_i hr
    unfold refOn at hr
    split at hr
    · simp at hr
    · rename_i p hfp
      obtain ⟨hpf, hpn⟩ := findObj_mem hfp
      have hpb := (C14_placement p r).1 (hp p hpf hpn)
      split at hr
      · split at hr
        · simp at hr
        · split at hr <;> simp at hr
      · rename_i hnb
        refine ⟨p, hpf, hpn, ?_⟩
        have hne : ¬ p.target = r := fun e => hnb (hpb.2 e.symm)
        split at h
        · rename_i hb
          have hdr : d.target = r := (hdb.1 hb).symm
          simp only [hfp, Option.some.injEq] at h
          simp [expected, hne, hdr, ← h]
        · rename_i hb
          have hdr : ¬ d.target = r := fun e => hb (hdb.2 e.symm)
          simp only [Option.some.injEq] at h
          simp [expected, hne, hdr, ← h]
  · rename_i q hr
    unfold refOn at hr
    split at hr
    · simp at hr
    · rename_i p hfp
      obtain ⟨hpf, hpn⟩ := findObj_mem hfp
      have hpd := hp p hpf hpn
      have hpb := (C14_placement p r).1 hpd
      split at hr
      · rename_i hb
        have hqp : q = p := by
          split at hr
          · simp at hr; exact hr.symm
          · split at hr <;> simp at hr; exact hr.symm
        subst hqp
        refine ⟨q, hpf, hpn, ?_⟩
        have hpr : q.target = r := (hpb.1 hb).symm
        split at h
        · rename_i hdb'
          have hdr : d.target = r := (hdb.1 hdb').symm
          simp only [Option.some.injEq] at h
          simp [expected, hpr, hdr, ← h]
        · rename_i hdb'
          have hdr : ¬ d.target = r := fun e => hdb' (hdb.2 e.symm)
          rw [hpd] at h
          simp only [Bool.false_eq_true, if_false, Option.some.injEq] at h
          simp [expected, hpr, hdr, ← h]
      · simp at hr

/-- Rank of a named object. -/
def rankOf (file : List PObj) (n : String) : Nat := ((findObj file n).map PObj.target).getD 0

/-- **C14** (connections): when all inputs come from processing objects, what a process registers is, link by link and in
file order, exactly what the placement of the two ends demands. -/
theorem C14_connections (file : List PObj) (hn : (file.map (·.name)).Nodup)
    (hproc : FromProcessing file) (hcons : ∀ l ∈ links file, l.dest.isData = false)
    (tag : String → String → Option String → String → Nat) (r : Nat) (acts : List Act)
    (h : connectOn (some r) file tag = some acts) :
    acts = (links file).flatMap fun l => expected tag r (rankOf file l.ref.obj) l := by
  unfold connectOn at h
  simp only [Option.map_eq_some_iff] at h
  obtain ⟨res, hres, rfl⟩ := h
  unfold links
  refine flatten_flatMap hres fun d hd x hx => ?_
  unfold connectObj at hx
  simp only [Option.map_eq_some_iff] at hx
  obtain ⟨res1, hres1, rfl⟩ := hx
  refine flatten_flatMap hres1 fun e he y hy => ?_
  split at hy
  · simp at hy
  · simp only [Option.map_eq_some_iff] at hy
    obtain ⟨res2, hres2, rfl⟩ := hy
    rw [List.map_eq_flatMap]
    refine flatten_flatMap hres2 fun ref hrf z hz => ?_
    have hl : (⟨d, e.1, ref⟩ : Link) ∈ links file := mem_links.2 ⟨hd, e, he, rfl, hrf⟩
    obtain ⟨p, hp, hpn, hz'⟩ := connectLink_spec (hcons _ hl) (fun p hp hpn => hproc _ hl p hp hpn) hz
    have : rankOf file ref.obj = p.target := by
      unfold rankOf; rw [← hpn, findObj_of_mem hn hp]; rfl
    simp [this, hz']

/-- **C14** (pairing): for any two different ranks, the tags one process registers for sending to the other are, in order,
the tags the other registers for receiving from it. -/
theorem C14_paired (file : List PObj) (hn : (file.map (·.name)).Nodup)
    (hproc : FromProcessing file) (hcons : ∀ l ∈ links file, l.dest.isData = false)
    (tag : String → String → Option String → String → Nat) (a b : Nat) (hab : a ≠ b) (acta actb : List Act)
    (ha : connectOn (some a) file tag = some acta) (hb : connectOn (some b) file tag = some actb) :
    sentTags b acta = recvTags a actb := by
  rw [C14_connections file hn hproc hcons tag a acta ha, C14_connections file hn hproc hcons tag b actb hb]
  unfold sentTags recvTags
  rw [List.filterMap_flatMap, List.filterMap_flatMap]
  congr 1
  funext l
  simp only [expected]
  by_cases h1 : rankOf file l.ref.obj = a <;> by_cases h2 : l.dest.target = b
  · subst h1; subst h2
    simp [hab, Ne.symm hab]
  · subst h1
    simp only [h2, and_false, hab, if_false]
    by_cases h3 : l.dest.target = rankOf file l.ref.obj <;> simp [h3, h2]
  · subst h2
    simp only [h1, false_and, if_false, and_true]
    by_cases h3 : l.dest.target = a <;> by_cases h4 : rankOf file l.ref.obj = l.dest.target <;> simp [h3, h4, h1]
  · simp only [h1, h2, false_and, and_false, if_false]
    by_cases h3 : l.dest.target = a <;> by_cases h4 : rankOf file l.ref.obj = b <;> simp [h3, h4]

/-- **C14** (no failure): on a file whose links are well formed and come from processing objects, connecting succeeds on every
process. -/
theorem C14_connects (file : List PObj) (hn : (file.map (·.name)).Nodup) (hok : LinksOk file) (hproc : FromProcessing file)
    (tag : String → String → Option String → String → Nat) (r : Nat) : ∃ acts, connectOn (some r) file tag = some acts := by
  unfold connectOn
  have : ∃ res, (file.mapM fun d => connectObj (some r) file tag d) = some res := by
    apply mapM_isSome
    intro d hd
    unfold connectObj
    rw [Option.isSome_map]
    obtain ⟨res, hres⟩ := mapM_isSome (l := d.inputs) (f := fun e =>
      if builtOn (some r) d && !decide (e.1 = "input_list") && !decide (e.1 ∈ d.ins) then none
      else (e.2.mapM fun ref => connectLink (some r) file tag d e.1 ref).map List.flatten) (by
        intro e he
        obtain ⟨h1, h2⟩ := hok d hd e he
        have : (builtOn (some r) d && !decide (e.1 = "input_list") && !decide (e.1 ∈ d.ins)) = false := by
          rcases h1 with h1 | h1 <;> simp [h1]
        simp only [this, Bool.false_eq_true, if_false, Option.isSome_map]
        obtain ⟨res2, hres2⟩ := mapM_isSome (l := e.2) (f := fun ref => connectLink (some r) file tag d e.1 ref) (by
          intro ref hr
          obtain ⟨p, hp, hpn, hk⟩ := h2 ref hr
          have hfp : findObj file ref.obj = some p := by rw [← hpn]; exact findObj_of_mem hn hp
          have hpd : p.isData = false := hproc ⟨d, e.1, ref⟩ (mem_links.2 ⟨hd, e, he, rfl, hr⟩) p hp hpn
          unfold connectLink refOn
          simp only [hfp]
          by_cases hb : builtOn (some r) p = true <;> by_cases hbd : builtOn (some r) d = true
          · cases hkk : ref.key with
            | none => simp [hb, hbd]
            | some k => simp [hb, hbd, hk k hkk]
          · cases hkk : ref.key with
            | none => simp [hb, hbd, hpd]
            | some k => simp [hb, hbd, hpd, hk k hkk]
          · simp [hb, hbd]
          · simp [hb, hbd])
        rw [hres2]; rfl)
    rw [hres]; rfl
  obtain ⟨res, hres⟩ := this
  exact ⟨_, by rw [hres]; rfl⟩

/-- **C14** (no MPI): in a run without MPI every link is a shared reference. -/
theorem C14_single_process (file : List PObj) (tag : String → String → Option String → String → Nat) (acts : List Act)
    (h : connectOn none file tag = some acts) :
    acts = (links file).flatMap fun l => [.local l.ref.obj l.ref.key l.dest.name l.input] := by
  unfold connectOn at h
  simp only [Option.map_eq_some_iff] at h
  obtain ⟨res, hres, rfl⟩ := h
  unfold links
  refine flatten_flatMap hres fun d hd x hx => ?_
  unfold connectObj at hx
  simp only [Option.map_eq_some_iff] at hx
  obtain ⟨res1, hres1, rfl⟩ := hx
  refine flatten_flatMap hres1 fun e he y hy => ?_
  split at hy
  · simp at hy
  · simp only [Option.map_eq_some_iff] at hy
    obtain ⟨res2, hres2, rfl⟩ := hy
    rw [List.map_eq_flatMap]
    refine flatten_flatMap hres2 fun ref hrf z hz => ?_
    unfold connectLink at hz
    have hb : ∀ o, builtOn none o = true := fun o => (C14_placement o 0).2.2
    simp only [hb, if_true] at hz
    split at hz
    · simp at hz
    · rename_i hr
      unfold refOn at hr
      simp only [hb, if_true] at hr
      split at hr
      · simp at hr
      · split at hr
        · simp at hr
        · split at hr <;> simp at hr
    · simp only [Option.some.injEq] at hz
      simp [← hz]

/-- Sensor on rank 1, atmosphere and mirror on rank 0. -/
def rankFile : List PObj :=
  [{ name := "atmo", outs := ["layers"] },
   { name := "prop", rank := some 0, outs := ["ef"], ins := ["layers"],
     inputs := [("layers", [{ obj := "atmo", key := some "layers" }, { obj := "dm", key := some "layer", delay := -1 }])] },
   { name := "wfs", rank := some 1, outs := ["slopes"], ins := ["ef"], inputs := [("ef", [{ obj := "prop", key := some "ef" }])] },
   { name := "dm", outs := ["layer"], ins := ["cmd"], inputs := [("cmd", [{ obj := "wfs", key := some "slopes" }])] }]

example : (rankFile.map (·.name)).Nodup ∧ LinksOk rankFile ∧ FromProcessing rankFile ∧
    (∀ l ∈ links rankFile, l.dest.isData = false) := by
  unfold LinksOk FromProcessing; decide

example : ∃ a b, connectOn (some 0) rankFile (fun _ _ _ _ => 7) = some a ∧ connectOn (some 1) rankFile (fun _ _ _ _ => 7) = some b ∧
    sentTags 1 a = [7] ∧ recvTags 0 b = [7] ∧ sentTags 0 b = [7] ∧ recvTags 1 a = [7] :=
  ⟨_, _, rfl, rfl, by decide, by decide, by decide, by decide⟩

/-- The restriction to processing objects is needed: a data object without target rank that is an *input* of an object makes
connecting fail on every process that does not hold the consumer. -/
theorem C14_shared_data_input_fails : ∃ file : List PObj, (file.map (·.name)).Nodup ∧ LinksOk file ∧
    (∀ l ∈ links file, l.dest.isData = false) ∧ (∃ acts, connectOn (some 0) file (fun _ _ _ _ => 7) = some acts) ∧
    connectOn (some 1) file (fun _ _ _ _ => 7) = none :=
  ⟨[{ name := "pupilstop", isData := true },
    { name := "prop", outs := ["ef"], ins := ["layers"], inputs := [("layers", [{ obj := "pupilstop" }])] }],
    by decide, by unfold LinksOk; decide, by decide, ⟨_, rfl⟩, rfl⟩

end Specula
