import Verif.Model.Inputs
import Mathlib.Data.List.Forall2
/-
Property C21: list inputs.
-/
namespace Specula
variable {α : Type}

/-- The elements of a (nested) Python list of data objects, left to right. -/
inductive Leaves : PyVal α → List (Option α) → Prop
  | none : Leaves .none [none]
  | obj (a : α) : Leaves (.obj a) [some a]
  | nil : Leaves (.list []) []
  | cons {x : PyVal α} {xs : List (PyVal α)} {l ls : List (Option α)} (h1 : Leaves x l) (h2 : Leaves (.list xs) ls) :
      Leaves (.list (x :: xs)) (l ++ ls)

theorem leaves_flatten : ∀ v : PyVal α, Leaves v (flattenVal v)
  | .none => .none
  | .obj a => .obj a
  | .list xs => by
    unfold flattenVal
    exact go xs
where
  go : ∀ xs : List (PyVal α), Leaves (.list xs) (flattenVal.go xs)
  | [] => .nil
  | x :: xs => by
    unfold flattenVal.go
    exact .cons (leaves_flatten x) (go xs)

theorem leaves_unique {v : PyVal α} {l l' : List (Option α)} (h : Leaves v l) (h' : Leaves v l') : l = l' := by
  induction h generalizing l' with
  | none => cases h'; rfl
  | obj a => cases h'; rfl
  | nil => cases h'; rfl
  | cons h1 h2 ih1 ih2 => cases h' with | cons g1 g2 => rw [ih1 g1, ih2 g2]

/-- connecting a value: either every element is a data object of the right type, and then the elements are added in
order, or an exception is raised -/
theorem append_leaves (isInst : α → Bool) {v : PyVal α} {l : List (Option α)} (h : Leaves v l) (items : List (InItem α)) :
    ((∃ as : List α, l = as.map some ∧ (∀ a ∈ as, isInst a = true) ∧
        appendItem isInst none items v = (items ++ as.map (fun a => { ref := some a }), none)) ∨
     (∃ x ∈ l, (∀ a, x = some a → isInst a = false) ∧ ∃ items' e, appendItem isInst none items v = (items', some e))) := by
  induction h generalizing items with
  | none => right; exact ⟨none, by simp, by simp, items, _, by unfold appendItem; rfl⟩
  | obj a =>
    cases ha : isInst a with
    | true => left; exact ⟨[a], rfl, by simp [ha], by unfold appendItem; simp [ha]⟩
    | false => right; exact ⟨some a, by simp, by simp [ha], items, _, by unfold appendItem; simp [ha]; rfl⟩
  | nil => left; exact ⟨[], rfl, by simp, by unfold appendItem appendItem.go; simp⟩
  | @cons x xs l ls h1 h2 ih1 ih2 =>
    rcases ih1 items with ⟨as, rfl, ht, he⟩ | ⟨y, hy, hbad, items', e, he⟩
    · rcases ih2 (items ++ as.map fun a => { ref := some a }) with ⟨bs, rfl, ht2, he2⟩ | ⟨y, hy, hbad, items', e, he2⟩
      · left
        refine ⟨as ++ bs, by simp, ?_, ?_⟩
        · intro a ha
          rcases List.mem_append.1 ha with ha | ha
          · exact ht a ha
          · exact ht2 a ha
        · unfold appendItem appendItem.go
          rw [he]
          simp only
          unfold appendItem at he2
          rw [he2]
          simp
      · right
        refine ⟨y, by simp [hy], hbad, items', e, ?_⟩
        unfold appendItem appendItem.go
        rw [he]
        simp only
        unfold appendItem at he2
        rw [he2]
    · right
      refine ⟨y, by simp [hy], hbad, items', e, ?_⟩
      unfold appendItem appendItem.go
      rw [he]

theorem getList_append_objs (items : List (InItem α)) :
    getList items = items.map (·.ref) := by
  unfold getList flattenVal
  induction items with
  | nil => rfl
  | cons x xs ih =>
    simp only [List.map_cons]
    unfold flattenVal.go
    rw [ih]
    rcases x with ⟨_ | a, r⟩ <;> simp [InItem.get, flattenVal]

/-- Several connections made one after the other; `none` if one raised. -/
def connectAll (isInst : α → Bool) : List (InItem α) → List (PyVal α) → Option (List (InItem α))
  | items, [] => some items
  | items, v :: vs =>
    match appendItem isInst none items v with
    | (items', none) => connectAll isInst items' vs
    | (_, some _) => none

/-- **C21** (list inputs).  If a sequence of connections succeeds, the list delivered is the concatenation of the
elements of the connected values in order. -/
theorem C21_list_input_delivers_in_order (isInst : α → Bool) (vs : List (PyVal α)) (items : List (InItem α))
    (h : connectAll isInst [] vs = some items) (ls : List (List (Option α)))
    (hl : List.Forall₂ Leaves vs ls) : getList items = ls.flatten := by
  have key : ∀ (vs : List (PyVal α)) ls (items0 items : List (InItem α)), List.Forall₂ Leaves vs ls →
      connectAll isInst items0 vs = some items → items.map (·.ref) = items0.map (·.ref) ++ ls.flatten := by
    intro vs ls items0 items hl h
    induction hl generalizing items0 with
    | nil => simp only [connectAll, Option.some.injEq] at h; subst h; simp
    | @cons v l vs ls h1 _ ih =>
      unfold connectAll at h
      rcases append_leaves isInst h1 items0 with ⟨as, rfl, -, he⟩ | ⟨y, -, -, items', e, he⟩
      · rw [he] at h
        simp only at h
        rw [ih _ h]
        simp [Function.comp_def]
      · rw [he] at h; simp at h
  rw [getList_append_objs, key vs ls [] items hl h]
  simp

/-- **C21** (type check).  A sequence of connections succeeds exactly when every element is a data object of the type
of the input; otherwise it raises. -/
theorem C21_connection_refused_iff (isInst : α → Bool) (vs : List (PyVal α)) (ls : List (List (Option α)))
    (hl : List.Forall₂ Leaves vs ls) :
    (connectAll isInst [] vs).isSome = true ↔ ∀ x ∈ ls.flatten, ∃ a, x = some a ∧ isInst a = true := by
  have key : ∀ (items0 : List (InItem α)), (connectAll isInst items0 vs).isSome = true ↔
      ∀ x ∈ ls.flatten, ∃ a, x = some a ∧ isInst a = true := by
    induction hl with
    | nil => intro items0; simp [connectAll]
    | @cons v l vs ls h1 _ ih =>
      intro items0
      unfold connectAll
      rcases append_leaves isInst h1 items0 with ⟨as, rfl, ht, he⟩ | ⟨y, hy, hbad, items', e, he⟩
      · rw [he]
        simp only [ih, List.flatten_cons, List.mem_append, List.mem_map]
        constructor
        · rintro h x (⟨a, ha, rfl⟩ | hx)
          · exact ⟨a, rfl, ht a ha⟩
          · exact h x hx
        · intro h x hx; exact h x (Or.inr hx)
      · rw [he]
        simp only [Option.isSome_none, Bool.false_eq_true, List.flatten_cons, List.mem_append, false_iff]
        intro h
        obtain ⟨a, rfl, ha⟩ := h y (Or.inl hy)
        rw [hbad a rfl] at ha
        cases ha
  exact key []

/-- **C21** (single-value inputs).  After successful connections, reading a single-value input gives the only
element, nothing if it is optional and nothing is connected, and raises if it is required and unconnected or several
elements are connected. -/
theorem C21_single_input (isInst : α → Bool) (vs : List (PyVal α)) (items : List (InItem α)) (optional : Bool)
    (h : connectAll isInst [] vs = some items) (ls : List (List (Option α))) (hl : List.Forall₂ Leaves vs ls) :
    (ls.flatten = [] → optional = true → getValue optional items = .ok none) ∧
    (ls.flatten = [] → optional = false → ∃ e, getValue optional items = .error e) ∧
    (∀ a, ls.flatten = [some a] → getValue optional items = .ok (some a)) ∧
    (2 ≤ ls.flatten.length → ∃ e, getValue optional items = .error e) := by
  have hg := C21_list_input_delivers_in_order isInst vs items h ls hl
  refine ⟨?_, ?_, ?_, ?_⟩
  · intro h0 ho; unfold getValue; rw [hg, h0]; simp [ho]
  · intro h0 ho; unfold getValue; rw [hg, h0]; simp [ho]
  · intro a h0; unfold getValue; rw [hg, h0]; simp
  · intro h2; unfold getValue; rw [hg, if_pos (by omega)]; exact ⟨_, rfl⟩

/-- **C21** (`set` replaces).  `set` forgets what was connected before: it is `append` on an empty input. -/
theorem C21_set_replaces (isInst : α → Bool) (v : PyVal α) (items : List (InItem α))
    (h : setItems isInst v = (items, none)) (l : List (Option α)) (hl : Leaves v l) : getList items = l := by
  unfold setItems at h
  rcases append_leaves isInst hl [] with ⟨as, rfl, -, he⟩ | ⟨y, -, -, items', e, he⟩
  · rw [he] at h
    simp only [List.nil_append, Prod.mk.injEq, and_true] at h
    subst h
    rw [getList_append_objs]
    simp [Function.comp_def]
  · rw [he] at h; simp at h

/-- **C21** (`flatten`): the library function yields the elements of nested lists of any depth in order. -/
theorem C21_flatten (v : PyVal α) (l : List (Option α)) : Leaves v l ↔ flattenVal v = l :=
  ⟨fun h => leaves_unique (leaves_flatten v) h, fun h => h ▸ leaves_flatten v⟩

/-- Concrete case: `[[1,[2,3]],4,[5,6]]` and a second connection, to an input accepting all of them. -/
example : ∃ items, connectAll (fun _ : Nat => true) [] [.list [.list [.obj 1, .list [.obj 2, .obj 3]], .obj 4], .obj 7] =
    some items ∧ getList items = [1, 2, 3, 4, 7].map some := ⟨_, rfl, rfl⟩

end Specula
