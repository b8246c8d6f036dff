import Verif.Model.Combine
import Verif.Spec.Combine
import Verif.Lemmas.Dict
import Verif.Props.SplitOutput
/-
Property C10: command line overrides.
-/
namespace Specula

theorem valueAt_set_ne {ps : Dict Value} {o : String} {v : Value} {path : List String} (h : path.head? ≠ some o)
    (hne : path ≠ []) : valueAt path (.dict (ps.set o v)) = valueAt path (.dict ps) := by
  cases path with
  | nil => exact absurd rfl hne
  | cons k ks =>
    have : k ≠ o := by simpa using h
    simp only [valueAt, Dict.get?_set_ne _ _ this]

theorem valueAt_set_self {ps : Dict Value} {o : String} {v : Value} {ks : List String} :
    valueAt (o :: ks) (.dict (ps.set o v)) = valueAt ks v := by
  simp only [valueAt, Dict.get?_set_self]

theorem valueAt_cons {ps : Dict Value} {o : String} {v : Value} {ks : List String} (h : ps.get? o = some v) :
    valueAt (o :: ks) (.dict ps) = valueAt ks v := by
  simp only [valueAt, h]

/-- setting through a path: what is found at the path, and everywhere else -/
theorem set_frame {d : Dict Value} {o : String} {v w : Value} {path : List String} (hw : valueAt path w = some v)
    (hold : ∀ p, ¬ path <+: p → ¬ p <+: path → valueAt (o :: p) (.dict d) = valueAt p w) :
    valueAt (o :: path) (.dict (d.set o w)) = some v ∧
    ∀ p, ¬ (o :: path) <+: p → ¬ p <+: (o :: path) → valueAt p (.dict (d.set o w)) = valueAt p (.dict d) := by
  refine ⟨by rw [valueAt_set_self, hw], ?_⟩
  intro p h1 h2
  cases p with
  | nil => exact absurd List.nil_prefix h2
  | cons k ks =>
    by_cases hk : k = o
    · subst hk
      rw [List.cons_prefix_cons] at h1 h2
      rw [valueAt_set_self, hold ks (fun h => h1 ⟨rfl, h⟩) (fun h => h2 ⟨rfl, h⟩)]
    · exact valueAt_set_ne (by simpa using hk) (by simp)

/-- the parts of a text between the dots -/
def dotParts (s : String) : List String := (pySplit '.' s.toList).map String.ofList

theorem pySplit_length (c : Char) (s : List Char) : (pySplit c s).length = s.count c + 1 := by
  induction s with
  | nil => rfl
  | cons x xs ih =>
    unfold pySplit
    split
    · rename_i h; subst h; simp [ih]
    · rename_i h
      split
      · rename_i he; rw [he] at ih; simp at ih
      · rename_i hd tl he
        rw [he] at ih
        simp only [List.length_cons] at ih ⊢
        rw [List.count_cons_of_ne h]
        exact ih

/-- A dotted path. -/
def dotted : List String → String
  | [] => ""
  | [a] => a
  | a :: b :: rest => a ++ "." ++ dotted (b :: rest)

theorem dotParts_dotted (path : List String) (hne : path ≠ []) (hp : ∀ k ∈ path, '.' ∉ k.toList) :
    dotParts (dotted path) = path := by
  unfold dotParts
  have : pySplit '.' (dotted path).toList = path.map String.toList := by
    induction path with
    | nil => exact absurd rfl hne
    | cons a rest ih =>
      cases rest with
      | nil => simpa [dotted] using pySplit_not_mem (hp a (by simp))
      | cons b rest =>
        have h1 : (dotted (a :: b :: rest)).toList = a.toList ++ '.' :: (dotted (b :: rest)).toList := by simp [dotted]
        rw [h1, pySplit_append (hp a (by simp)), ih (by simp) fun k hk => hp k (List.mem_cons_of_mem _ hk)]
        rfl
  rw [this, List.map_map]
  exact (List.map_congr_left (fun x _ => by simp)).trans (List.map_id _)

theorem override_parts {ps ps' : RawParams} {s : String} {v : Value} (h : applyOverride ps (s, v) = some ps') :
    ((dotParts s).length = 2 ∨ (dotParts s).length = 3) ∧
    valueAt (dotParts s) (.dict ps') = some v ∧
    ∀ q, ¬ dotParts s <+: q → ¬ q <+: dotParts s → valueAt q (.dict ps') = valueAt q (.dict ps) := by
  unfold applyOverride at h
  dsimp only at h
  change (match dotParts s with | [o, p] => _ | [o, p, q] => _ | _ => _) = some ps' at h
  split at h
  · rename_i o p hs
    rw [hs]
    split at h
    · rename_i pars hpars
      simp only [Option.some.injEq] at h
      subst h
      refine ⟨by simp, ?_⟩
      have h1 := set_frame (d := pars) (o := p) (v := v) (w := v) (path := []) rfl (by simp)
      refine set_frame (path := [p]) h1.1 ?_
      intro q hq1 hq2
      rw [valueAt_cons hpars, h1.2 q hq1 hq2]
    · simp at h
  · rename_i o p r hs
    rw [hs]
    split at h
    · rename_i pars hpars
      split at h
      · rename_i sub hsub
        simp only [Option.some.injEq] at h
        subst h
        refine ⟨by simp, ?_⟩
        have h1 := set_frame (d := sub) (o := r) (v := v) (w := v) (path := []) rfl (by simp)
        have h2 := set_frame (d := pars) (o := p) (path := [r]) h1.1 (by
          intro q hq1 hq2
          rw [valueAt_cons hsub, h1.2 q hq1 hq2])
        refine set_frame (path := [p, r]) h2.1 ?_
        intro q hq1 hq2
        rw [valueAt_cons hpars, h2.2 q hq1 hq2]
      · simp at h
    · simp at h
  · simp at h

/-- **C10**: one override `a.b` or `a.b.c`.  The setting named by the text gets the value; every setting that is not
inside it (and does not contain it) keeps its value, in every object. -/
theorem C10_override (ps ps' : RawParams) (path : List String) (hne : path ≠ []) (hp : ∀ k ∈ path, '.' ∉ k.toList)
    (v : Value) (h : applyOverride ps (dotted path, v) = some ps') :
    (path.length = 2 ∨ path.length = 3) ∧
    valueAt path (.dict ps') = some v ∧
    ∀ q, ¬ path <+: q → ¬ q <+: path → valueAt q (.dict ps') = valueAt q (.dict ps) := by
  have := override_parts h
  rwa [dotParts_dotted path hne hp] at this

/-- **C10**: texts without exactly one or two dots raise. -/
theorem C10_wrong_dots_raise (ps : RawParams) (s : String) (v : Value) (h : s.toList.count '.' ≠ 1)
    (h' : s.toList.count '.' ≠ 2) : applyOverride ps (s, v) = none := by
  rw [← Option.not_isSome_iff_eq_none, Option.isSome_iff_exists]
  rintro ⟨ps', hs⟩
  have h1 := (override_parts hs).1
  unfold dotParts at h1
  rw [List.length_map, pySplit_length] at h1
  omega

/-- **C10**: an override is accepted exactly when the dictionary it writes into exists (the object, and for three parts
its sub-dictionary): nothing is created on the way. -/
theorem C10_accepted_iff (ps : RawParams) (path : List String) (hne : path ≠ []) (hp : ∀ k ∈ path, '.' ∉ k.toList)
    (v : Value) : (applyOverride ps (dotted path, v)).isSome ↔
      (path.length = 2 ∨ path.length = 3) ∧ ∃ kvs, valueAt path.dropLast (.dict ps) = some (.dict kvs) := by
  have hd : (pySplit '.' (dotted path).toList).map String.ofList = path := dotParts_dotted path hne hp
  unfold applyOverride
  dsimp only
  rw [hd]
  match path with
  | [] => exact absurd rfl hne
  | [a] => simp
  | [o, p] =>
    simp only [List.length_cons, List.length_nil, List.dropLast]
    cases ho : ps.get? o with
    | none => simp [valueAt, ho]
    | some w => cases w <;> simp [valueAt, ho]
  | [o, p, q] =>
    simp only [List.length_cons, List.length_nil, List.dropLast]
    cases ho : ps.get? o with
    | none => simp [valueAt, ho]
    | some w =>
      cases w with
      | dict pars =>
        dsimp only
        cases hp : Dict.get? pars p with
        | none => simp [valueAt, ho, hp]
        | some x => cases x <;> simp [valueAt, ho, hp]
      | _ => simp [valueAt, ho]
  | a :: b :: c :: d :: rest => simp

/-- **C10**: a whole set of overrides.  A setting unrelated to all of them keeps its value; the setting of an override
that no later one touches has the value given. -/
theorem C10_overrides (ps ps' : RawParams) (ovr : List (List String × Value))
    (hp : ∀ e ∈ ovr, e.1 ≠ [] ∧ ∀ k ∈ e.1, '.' ∉ k.toList)
    (h : applyOverrides ps (ovr.map fun e => (dotted e.1, e.2)) = some ps') :
    (∀ q, (∀ e ∈ ovr, ¬ e.1 <+: q ∧ ¬ q <+: e.1) → valueAt q (.dict ps') = valueAt q (.dict ps)) ∧
    ∀ l1 path v l2, ovr = l1 ++ (path, v) :: l2 → (∀ e ∈ l2, ¬ e.1 <+: path ∧ ¬ path <+: e.1) →
      valueAt path (.dict ps') = some v := by
  unfold applyOverrides at h
  induction ovr generalizing ps with
  | nil => simp at h; subst h; exact ⟨fun q _ => rfl, by simp⟩
  | cons e ovr ih =>
    rw [List.map_cons, List.foldlM_cons] at h
    simp only [Option.bind_eq_bind, Option.bind_eq_some_iff] at h
    obtain ⟨ps1, h1, h2⟩ := h
    obtain ⟨e1, e2⟩ := hp e (by simp)
    obtain ⟨-, g1, g2⟩ := C10_override ps ps1 e.1 e1 e2 e.2 h1
    obtain ⟨i1, i2⟩ := ih ps1 (fun x hx => hp x (List.mem_cons_of_mem _ hx)) h2
    constructor
    · intro q hq
      rw [i1 q fun x hx => hq x (List.mem_cons_of_mem _ hx), g2 q (hq e (by simp)).1 (hq e (by simp)).2]
    · intro l1 path v l2 he hl2
      cases l1 with
      | nil =>
        simp only [List.nil_append, List.cons.injEq] at he
        obtain ⟨rfl, rfl⟩ := he
        rw [i1 path hl2]; exact g1
      | cons a l1 =>
        simp only [List.cons_append, List.cons.injEq] at he
        exact i2 l1 path v l2 he.2 hl2

/-- a concrete case: the two kinds of override, hypotheses met -/
def overrideBase : RawParams :=
  [("main", .dict [("class", .str "SimulParams"), ("total_time", .num 1)]),
   ("dm", .dict [("class", .str "DM"), ("height", .num 0), ("inputs", .dict [("in_command", .str "ctrl.out")])])]

example : applyOverrides overrideBase [("main.total_time", .num 3), ("dm.inputs.in_command", .str "x.y"), ("dm.new", .null)] =
    some [("main", .dict [("class", .str "SimulParams"), ("total_time", .num 3)]),
      ("dm", .dict [("class", .str "DM"), ("height", .num 0), ("inputs", .dict [("in_command", .str "x.y")]), ("new", .null)])] := by
  rfl

example : (applyOverride overrideBase (dotted ["dm", "inputs", "in_command"], .str "x.y")).isSome :=
  (C10_accepted_iff _ _ (by simp) (by simp) _).2 ⟨by simp, _, rfl⟩

end Specula
