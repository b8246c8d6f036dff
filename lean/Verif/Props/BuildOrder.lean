import Verif.Model.BuildOrder
import Verif.Spec.Refs
import Verif.Lemmas.Dict
import Mathlib.Logic.Relation
import Mathlib.Data.List.Nodup
import Mathlib.Data.Finset.Card
/-
Property C07: objects are built after the objects they reference.
-/
namespace Specula
open Relation

/-- the references as computed by the model -/
def Ref (ps : RawParams) (a b : String) : Prop :=
  ∃ pars owners, ps.get? a = some pars ∧ objRefs pars = some owners ∧ b ∈ owners

theorem mapM_some_mem {α β : Type} {f : α → Option β} {l : List α} {r : List β} (h : l.mapM f = some r) :
    (∀ x ∈ l, ∃ y ∈ r, f x = some y) ∧ (∀ y ∈ r, ∃ x ∈ l, f x = some y) := by
  induction l generalizing r with
  | nil => simp at h; subst h; simp
  | cons x xs ih =>
    simp only [List.mapM_cons, Option.bind_eq_bind, Option.bind_eq_some_iff, Option.pure_def, Option.some.injEq] at h
    obtain ⟨y, hy, ys, hys, rfl⟩ := h
    obtain ⟨h1, h2⟩ := ih hys
    constructor
    · intro z hz
      rcases List.mem_cons.1 hz with rfl | hz
      · exact ⟨y, by simp, hy⟩
      · obtain ⟨w, hw, e⟩ := h1 z hz; exact ⟨w, List.mem_cons_of_mem _ hw, e⟩
    · intro z hz
      rcases List.mem_cons.1 hz with rfl | hz
      · exact ⟨x, by simp, hy⟩
      · obtain ⟨w, hw, e⟩ := h2 z hz; exact ⟨w, List.mem_cons_of_mem _ hw, e⟩

theorem mapM_isSome {α β : Type} {f : α → Option β} {l : List α} (h : ∀ x ∈ l, (f x).isSome) : ∃ r, l.mapM f = some r := by
  induction l with
  | nil => exact ⟨[], rfl⟩
  | cons x xs ih =>
    obtain ⟨y, hy⟩ := Option.isSome_iff_exists.1 (h x (by simp))
    obtain ⟨r, hr⟩ := ih fun z hz => h z (List.mem_cons_of_mem _ hz)
    exact ⟨y :: r, by simp [List.mapM_cons, hy, hr]⟩

theorem ownerOf_eq {v : Value} {o : String} : ownerOf v = some o ↔ ∃ s r, v = .str s ∧ splitOutput s = some r ∧ r.obj = o := by
  cases v <;> simp [ownerOf]

theorem parRefs_mem {name : String} {v : Value} {os : List String} (h : parRefs name v = some os) (o : String) :
    o ∈ os ↔ endsWith name "_ref" = true ∧ ∃ s r, Mentions v s ∧ splitOutput s = some r ∧ r.obj = o := by
  unfold parRefs at h
  split at h
  · rename_i he
    split at h
    · rename_i vs
      obtain ⟨h1, h2⟩ := mapM_some_mem h
      constructor
      · intro ho
        obtain ⟨x, hx, hox⟩ := h2 o ho
        obtain ⟨s, r, rfl, hs, hr⟩ := ownerOf_eq.1 hox
        exact ⟨he, s, r, .inr ⟨vs, rfl, hx⟩, hs, hr⟩
      · rintro ⟨-, s, r, hm, hs, hr⟩
        rcases hm with hm | ⟨vs', hv, hm⟩
        · simp at hm
        · simp at hv; subst hv
          obtain ⟨y, hy, hoy⟩ := h1 _ hm
          obtain ⟨s', r', e1, e2, e3⟩ := ownerOf_eq.1 hoy
          simp at e1; subst e1
          rw [hs] at e2; simp at e2; subst e2
          rw [← hr, e3]; exact hy
    · rename_i hnl
      simp only [Option.map_eq_some_iff] at h
      obtain ⟨o', ho', rfl⟩ := h
      obtain ⟨s', r', rfl, e2, e3⟩ := ownerOf_eq.1 ho'
      constructor
      · intro ho
        simp at ho; subst ho
        exact ⟨he, s', r', .inl rfl, e2, e3⟩
      · rintro ⟨-, s, r, hm, hs, hr⟩
        rcases hm with hm | ⟨vs', hv, hm⟩
        · simp at hm; subst hm
          rw [hs] at e2; simp at e2; subst e2
          simp [← hr, e3]
        · simp at hv
  · rename_i he
    simp at h; subst h
    simp [he]

theorem objRefs_mem {p : Value} {os : List String} (h : objRefs p = some os) (o : String) :
    o ∈ os ↔ ∃ pars name v s r, p = .dict pars ∧ (name, v) ∈ pars ∧ endsWith name "_ref" = true ∧ Mentions v s ∧
      splitOutput s = some r ∧ r.obj = o := by
  cases p with
  | dict kvs =>
    simp only [objRefs, Option.map_eq_some_iff] at h
    obtain ⟨oss, hoss, rfl⟩ := h
    obtain ⟨h1, h2⟩ := mapM_some_mem hoss
    rw [List.mem_flatten]
    constructor
    · rintro ⟨l, hl, ho⟩
      obtain ⟨⟨name, v⟩, hx, he⟩ := h2 l hl
      obtain ⟨h3, s, r, h4⟩ := (parRefs_mem he o).1 ho
      exact ⟨kvs, name, v, s, r, rfl, hx, h3, h4⟩
    · rintro ⟨pars, name, v, s, r, hp, hm, h3, h4⟩
      simp at hp; subst hp
      obtain ⟨l, hl, he⟩ := h1 _ hm
      exact ⟨l, hl, (parRefs_mem he o).2 ⟨h3, s, r, h4⟩⟩
  | _ => simp [objRefs] at h

/-- all elements of `acc` distinct, each after everything it refers to -/
def Ordered (ps : RawParams) (acc : List String) : Prop :=
  acc.Nodup ∧ (∀ x ∈ acc, ∃ pars owners, ps.get? x = some pars ∧ objRefs pars = some owners) ∧
    ∀ l1 x l2, acc = l1 ++ x :: l2 → ∀ o, Ref ps x o → o ∈ l1

theorem ordered_trans {ps : RawParams} {acc : List String} (h : Ordered ps acc) {l1 : List String} {x : String}
    {l2 : List String} (he : acc = l1 ++ x :: l2) {y : String} (hy : TransGen (Ref ps) x y) : y ∈ l1 := by
  induction hy with
  | single h1 => exact h.2.2 l1 x l2 he _ h1
  | tail _ h2 ih =>
    obtain ⟨m1, m2, hm⟩ := List.append_of_mem ih
    have := h.2.2 m1 _ (m2 ++ x :: l2) (by rw [he, hm]; simp) _ h2
    rw [hm]; exact List.mem_append_left _ this

theorem ordered_irrefl {ps : RawParams} {acc : List String} (h : Ordered ps acc) {x : String} (hx : x ∈ acc) :
    ¬ TransGen (Ref ps) x x := by
  intro ht
  obtain ⟨l1, l2, he⟩ := List.append_of_mem hx
  have h1 := ordered_trans h he ht
  have := h.1
  rw [he, List.nodup_append] at this
  exact this.2.2 x h1 x (by simp) rfl

/-- one call of `add_to_build_order` -/
theorem add_sound {ps : RawParams} (fuel : Nat) (key : String) (acc acc' : List String)
    (h : addToBuildOrder ps fuel key acc = some acc') (hg : Ordered ps acc) :
    Ordered ps acc' ∧ key ∈ acc' ∧ acc <+: acc' ∧ ∀ x ∈ acc', x ∈ acc ∨ ReflTransGen (Ref ps) key x := by
  induction fuel generalizing key acc acc' with
  | zero => simp [addToBuildOrder] at h
  | succ fuel ih =>
    unfold addToBuildOrder at h
    split at h
    · rename_i hk
      simp at h; subst h
      exact ⟨hg, hk, List.prefix_refl _, fun x hx => .inl hx⟩
    · rename_i hk
      split at h
      · simp at h
      · rename_i pars hpars
        split at h
        · simp at h
        · rename_i owners howners
          simp only [Option.map_eq_some_iff] at h
          obtain ⟨acc1, hfold, rfl⟩ := h
          -- the loop over the owners
          have hloop : ∀ (os : List String) (a a' : List String), (∀ o ∈ os, o ∈ owners) →
              os.foldlM (fun acc o => if o ∈ acc then some acc else addToBuildOrder ps fuel o acc) a = some a' →
              Ordered ps a →
              Ordered ps a' ∧ (∀ o ∈ os, o ∈ a') ∧ a <+: a' ∧ ∀ x ∈ a', x ∈ a ∨ TransGen (Ref ps) key x := by
            intro os
            induction os with
            | nil =>
              intro a a' _ hf ha
              simp at hf; subst hf
              exact ⟨ha, by simp, List.prefix_refl _, fun x hx => .inl hx⟩
            | cons o os ihos =>
              intro a a' hos hf ha
              rw [List.foldlM_cons] at hf
              simp only [Option.bind_eq_bind, Option.bind_eq_some_iff] at hf
              obtain ⟨b, hb, hf⟩ := hf
              have hob : Ordered ps b ∧ o ∈ b ∧ a <+: b ∧ ∀ x ∈ b, x ∈ a ∨ TransGen (Ref ps) key x := by
                split at hb
                · rename_i hoa
                  simp at hb; subst hb
                  exact ⟨ha, hoa, List.prefix_refl _, fun x hx => .inl hx⟩
                · obtain ⟨h1, h2, h3, h4⟩ := ih o a b hb ha
                  refine ⟨h1, h2, h3, fun x hx => ?_⟩
                  rcases h4 x hx with h | h
                  · exact .inl h
                  · exact .inr (TransGen.head' ⟨pars, owners, hpars, howners, hos o (by simp)⟩ h)
              obtain ⟨h1, h2, h3, h4⟩ := ihos b a' (fun o' ho' => hos o' (List.mem_cons_of_mem _ ho')) hf hob.1
              refine ⟨h1, ?_, hob.2.2.1.trans h3, ?_⟩
              · intro o' ho'
                rcases List.mem_cons.1 ho' with rfl | ho'
                · exact h3.subset hob.2.1
                · exact h2 o' ho'
              · intro x hx
                rcases h4 x hx with h | h
                · exact hob.2.2.2 x h
                · exact .inr h
          obtain ⟨h1, h2, h3, h4⟩ := hloop owners acc acc1 (fun o ho => ho) hfold hg
          have hnew : key ∉ acc1 := by
            intro hm
            rcases h4 key hm with h | h
            · exact hk h
            · exact ordered_irrefl h1 hm h
          refine ⟨⟨?_, ?_, ?_⟩, by simp, h3.trans (List.prefix_append _ _), ?_⟩
          · rw [List.nodup_append]
            refine ⟨h1.1, by simp, ?_⟩
            intro a ha b hb
            simp at hb; subst hb
            rintro rfl; exact hnew ha
          · intro x hx
            rcases List.mem_append.1 hx with hx | hx
            · exact h1.2.1 x hx
            · simp at hx; subst hx; exact ⟨pars, owners, hpars, howners⟩
          · intro l1 x l2 he o ho
            rcases List.eq_nil_or_concat l2 with rfl | ⟨l3, z, rfl⟩
            · rw [← List.concat_eq_append, ← List.concat_eq_append, List.concat_inj] at he
              obtain ⟨rfl, rfl⟩ := he
              obtain ⟨p', o', e1, e2, e3⟩ := ho
              rw [hpars] at e1; simp at e1; subst e1
              rw [howners] at e2; simp at e2; subst e2
              exact h2 o e3
            · have he' : acc1 ++ [key] = (l1 ++ x :: l3) ++ [z] := by rw [he]; simp
              rw [← List.concat_eq_append, ← List.concat_eq_append, List.concat_inj] at he'
              exact h1.2.2 l1 x l3 he'.1 o ho
          · intro x hx
            rcases List.mem_append.1 hx with hx | hx
            · rcases h4 x hx with h | h
              · exact .inl h
              · exact .inr h.to_reflTransGen
            · simp at hx; subst hx; exact .inr .refl

theorem build_sound {ps : RawParams} (limit : Nat) (keys acc acc' : List String)
    (h : keys.foldlM (fun acc key => addToBuildOrder ps limit key acc) acc = some acc') (hg : Ordered ps acc) :
    Ordered ps acc' ∧ (∀ k ∈ keys, k ∈ acc') ∧ acc <+: acc' := by
  induction keys generalizing acc with
  | nil => simp at h; subst h; exact ⟨hg, by simp, List.prefix_refl _⟩
  | cons k ks ih =>
    rw [List.foldlM_cons] at h
    simp only [Option.bind_eq_bind, Option.bind_eq_some_iff] at h
    obtain ⟨b, hb, h⟩ := h
    obtain ⟨h1, h2, h3, _⟩ := add_sound limit k acc b hb hg
    obtain ⟨g1, g2, g3⟩ := ih b h h1
    refine ⟨g1, ?_, h3.trans g3⟩
    intro x hx
    rcases List.mem_cons.1 hx with rfl | hx
    · exact g3.subset h2
    · exact g2 x hx

theorem refersTo_ref {ps : RawParams} (hd : ps.keys.Nodup) {a b : String} {pars : Value} {owners : List String}
    (h1 : ps.get? a = some pars) (h2 : objRefs pars = some owners) (h : RefersTo ps a b) : Ref ps a b := by
  obtain ⟨p, name, v, s, r, hm, h3⟩ := h
  have := Dict.get?_of_mem hd hm
  rw [h1] at this; simp at this; subst this
  exact ⟨_, owners, h1, h2, (objRefs_mem h2 b).2 ⟨p, name, v, s, r, rfl, h3⟩⟩

theorem ref_refersTo {ps : RawParams} {a b : String} (h : Ref ps a b) : RefersTo ps a b := by
  obtain ⟨pars, owners, h1, h2, h3⟩ := h
  obtain ⟨p, name, v, s, r, rfl, h4⟩ := (objRefs_mem h2 b).1 h3
  exact ⟨p, name, v, s, r, Dict.mem_of_get? h1, h4⟩

/-- **C07** (soundness): whenever a build order is returned, it contains every object of the file exactly once and
nothing else, and every object named by a `_ref`, `_list_ref` or `_dict_ref` parameter comes before the object that
names it. -/
theorem C07_build_order (ps : RawParams) (hd : ps.keys.Nodup) (limit : Nat) (order : List String)
    (h : buildOrder limit ps = some order) :
    order.Nodup ∧ (∀ n, n ∈ order ↔ n ∈ ps.keys) ∧ ∀ a b, RefersTo ps a b → Before order b a := by
  have h0 : Ordered ps [] := ⟨by simp, by simp, by simp⟩
  obtain ⟨h1, h2, -⟩ := build_sound limit _ _ _ h h0
  have hkeys : ∀ n, n ∈ order ↔ n ∈ ps.keys := by
    intro n
    refine ⟨fun hn => ?_, h2 n⟩
    obtain ⟨pars, _, hp, _⟩ := h1.2.1 n hn
    rw [← Dict.get?_isSome, hp]; rfl
  refine ⟨h1.1, hkeys, ?_⟩
  intro a b hab
  have ha : a ∈ order := by
    obtain ⟨p, _, _, _, _, hm, _⟩ := hab
    exact (hkeys a).2 (List.mem_map.2 ⟨_, hm, rfl⟩)
  obtain ⟨pars, owners, hp, ho⟩ := h1.2.1 a ha
  obtain ⟨l1, l2, he⟩ := List.append_of_mem ha
  have hb := h1.2.2 l1 a l2 he b (refersTo_ref hd hp ho hab)
  obtain ⟨m1, m2, hm⟩ := List.append_of_mem hb
  exact ⟨m1, m2, l2, by rw [he, hm]⟩

/-- **C07**: circular references never produce a build order (the recursion does not end). -/
theorem C07_circular_rejected (ps : RawParams) (hd : ps.keys.Nodup) (limit : Nat) (a : String)
    (hc : TransGen (RefersTo ps) a a) : buildOrder limit ps = none := by
  rw [← Option.not_isSome_iff_eq_none, Option.isSome_iff_exists]
  rintro ⟨order, h⟩
  have h0 : Ordered ps [] := ⟨by simp, by simp, by simp⟩
  obtain ⟨h1, h2, -⟩ := build_sound limit _ _ _ h h0
  have hall : ∀ x y, RefersTo ps x y → Ref ps x y := by
    intro x y hxy
    have hx : x ∈ order := by
      obtain ⟨p, _, _, _, _, hm, _⟩ := hxy
      exact h2 x (List.mem_map.2 ⟨_, hm, rfl⟩)
    obtain ⟨pars, owners, hp, ho⟩ := h1.2.1 x hx
    exact refersTo_ref hd hp ho hxy
  have ha : a ∈ order := by
    obtain ⟨p, _, _, _, _, hm, _⟩ := (TransGen.head'_iff.1 hc).choose_spec.1
    exact h2 a (List.mem_map.2 ⟨_, hm, rfl⟩)
  exact ordered_irrefl h1 ha (TransGen.mono (p := Ref ps) (fun x y => hall x y) a a hc)

theorem refsOk_objRefs {ps : RawParams} (h : RefsOk ps) {a : String} (ha : a ∈ ps.keys) :
    ∃ pars owners, ps.get? a = some pars ∧ objRefs pars = some owners ∧ ∀ o ∈ owners, o ∈ ps.keys := by
  obtain ⟨pars, hp⟩ := Option.isSome_iff_exists.1 (Dict.get?_isSome.2 ha)
  obtain ⟨kvs, rfl, hkv⟩ := h a pars (Dict.mem_of_get? hp)
  have hs : ∀ kv ∈ kvs, (parRefs kv.1 kv.2).isSome := by
    rintro ⟨name, v⟩ hkvm
    unfold parRefs
    dsimp only
    split
    · rename_i he
      obtain ⟨ss, hv, hss⟩ := hkv name v hkvm he
      rcases hv with rfl | ⟨s, rfl, rfl⟩
      · dsimp only
        obtain ⟨r, hr⟩ := mapM_isSome (f := ownerOf) (l := ss.map Value.str) (by
          intro x hx
          obtain ⟨s, hs, rfl⟩ := List.mem_map.1 hx
          obtain ⟨r, hr, _⟩ := hss s hs
          simp [ownerOf, hr])
        rw [hr]; rfl
      · obtain ⟨r, hr, _⟩ := hss s (by simp)
        simp [ownerOf, hr]
    · rfl
  obtain ⟨r, hr⟩ := mapM_isSome hs
  have ho : objRefs (.dict kvs) = some r.flatten := by simp [objRefs, hr]
  refine ⟨_, _, hp, ho, ?_⟩
  intro o hof
  obtain ⟨kvs', name, v, s, r', e, hm, he, hms, hsp, hro⟩ := (objRefs_mem ho o).1 hof
  simp at e; subst e
  obtain ⟨ss, hv, hss⟩ := hkv name v hm he
  have : s ∈ ss := by
    rcases hv with rfl | ⟨s', rfl, rfl⟩
    · rcases hms with h | ⟨vs, h1, h2⟩
      · simp at h
      · simp at h1; subst h1; simpa using h2
    · rcases hms with h | ⟨vs, h1, h2⟩
      · simp at h; simp [h]
      · simp at h1
  obtain ⟨r2, h1, h2⟩ := hss s this
  rw [hsp] at h1; simp at h1; subst h1
  rw [← hro]; exact h2

theorem add_complete {ps : RawParams} (hok : RefsOk ps) (hac : ∀ a, ¬ TransGen (RefersTo ps) a a)
    (fuel : Nat) (key : String) (stack acc : List String) (hs : stack.Nodup) (hsub : ∀ x ∈ stack, x ∈ ps.keys)
    (hreach : ∀ x ∈ stack, TransGen (RefersTo ps) x key) (hkey : key ∈ ps.keys)
    (hf : ps.keys.length < fuel + stack.length) : ∃ acc', addToBuildOrder ps fuel key acc = some acc' := by
  induction fuel generalizing key stack acc with
  | zero =>
    have := (List.subperm_of_subset hs (fun x hx => hsub x hx)).length_le
    omega
  | succ fuel ih =>
    unfold addToBuildOrder
    split
    · exact ⟨_, rfl⟩
    · obtain ⟨pars, owners, hp, ho, hok'⟩ := refsOk_objRefs hok hkey
      rw [hp]
      dsimp only
      rw [ho]
      dsimp only
      have hns : key ∉ stack := fun h => hac key (hreach key h)
      have hloop : ∀ (os a : List String), (∀ o ∈ os, o ∈ owners) →
          ∃ a', os.foldlM (fun acc o => if o ∈ acc then some acc else addToBuildOrder ps fuel o acc) a = some a' := by
        intro os
        induction os with
        | nil => intro a _; exact ⟨a, rfl⟩
        | cons o os ihos =>
          intro a hos
          rw [List.foldlM_cons]
          have : ∃ b, (if o ∈ a then some a else addToBuildOrder ps fuel o a) = some b := by
            split
            · exact ⟨_, rfl⟩
            · have hro : RefersTo ps key o := ref_refersTo ⟨pars, owners, hp, ho, hos o (by simp)⟩
              refine ih o (key :: stack) a (by simp [hns, hs]) ?_ ?_ (hok' o (hos o (by simp))) (by simp; omega)
              · intro x hx
                rcases List.mem_cons.1 hx with rfl | hx
                · exact hkey
                · exact hsub x hx
              · intro x hx
                rcases List.mem_cons.1 hx with rfl | hx
                · exact .single hro
                · exact (hreach x hx).tail hro
          obtain ⟨b, hb⟩ := this
          rw [hb]
          exact ihos b fun o' ho' => hos o' (List.mem_cons_of_mem _ ho')
      obtain ⟨a', ha'⟩ := hloop owners acc fun o h => h
      rw [ha']
      exact ⟨_, rfl⟩

/-- **C07** (completeness): when references are not circular and name objects of the file, a build order is returned,
provided the interpreter allows a recursion as deep as the number of objects. -/
theorem C07_build_order_exists (ps : RawParams) (hok : RefsOk ps)
    (hac : ∀ a, ¬ TransGen (RefersTo ps) a a) (limit : Nat) (hl : ps.keys.length < limit) :
    ∃ order, buildOrder limit ps = some order := by
  have : ∀ (ks acc : List String), (∀ k ∈ ks, k ∈ ps.keys) →
      ∃ acc', ks.foldlM (fun acc key => addToBuildOrder ps limit key acc) acc = some acc' := by
    intro ks
    induction ks with
    | nil => intro acc _; exact ⟨acc, rfl⟩
    | cons k ks ih =>
      intro acc hk
      obtain ⟨b, hb⟩ := add_complete hok hac limit k [] acc (by simp) (by simp) (by simp) (hk k (by simp)) (by simpa using hl)
      rw [List.foldlM_cons, hb]
      exact ih b fun x hx => hk x (List.mem_cons_of_mem _ hx)
  exact this _ _ fun k h => h

/-! A file in which the referencing objects come first. -/

def refsFile : RawParams :=
  [("dm", .dict [("class", .str "DM"), ("ifunc_ref", .str "ifunc"), ("sources_dict_ref", .list [.str "s1", .str "s2"])]),
   ("ifunc", .dict [("class", .str "IFunc"), ("pupilstop_ref", .str "pup")]),
   ("s1", .dict [("class", .str "Source"), ("magnitude", .num 8)]),
   ("s2", .dict [("class", .str "Source")]),
   ("pup", .dict [("class", .str "Pupilstop"), ("simul_params_ref", .str "main")]),
   ("main", .dict [("class", .str "SimulParams")])]

example : buildOrder 7 refsFile = some ["main", "pup", "ifunc", "s1", "s2", "dm"] := by decide

/-- the hypotheses of `C07_build_order_exists` and of `C07_build_order` are met by `refsFile` -/
example : RefsOk refsFile ∧ (∀ a, ¬ TransGen (RefersTo refsFile) a a) ∧ refsFile.keys.Nodup := by
  have hn : refsFile.keys.Nodup := by decide
  refine ⟨?_, ?_, hn⟩
  · intro a p h
    simp only [refsFile, List.mem_cons, Prod.mk.injEq, List.not_mem_nil, or_false] at h
    rcases h with ⟨-, rfl⟩ | ⟨-, rfl⟩ | ⟨-, rfl⟩ | ⟨-, rfl⟩ | ⟨-, rfl⟩ | ⟨-, rfl⟩ <;> refine ⟨_, rfl, ?_⟩ <;>
      intro name v hm he <;> simp only [List.mem_cons, Prod.mk.injEq, List.not_mem_nil, or_false] at hm
    · rcases hm with ⟨rfl, rfl⟩ | ⟨rfl, rfl⟩ | ⟨rfl, rfl⟩
      · exact absurd he (by decide)
      · refine ⟨["ifunc"], .inr ⟨_, rfl, rfl⟩, ?_⟩
        intro s hs; simp at hs; subst hs
        exact ⟨{ obj := "ifunc" }, by decide, by decide⟩
      · refine ⟨["s1", "s2"], .inl rfl, ?_⟩
        intro s hs; simp at hs
        rcases hs with rfl | rfl
        · exact ⟨{ obj := "s1" }, by decide, by decide⟩
        · exact ⟨{ obj := "s2" }, by decide, by decide⟩
    · rcases hm with ⟨rfl, rfl⟩ | ⟨rfl, rfl⟩
      · exact absurd he (by decide)
      · refine ⟨["pup"], .inr ⟨_, rfl, rfl⟩, ?_⟩
        intro s hs; simp at hs; subst hs
        exact ⟨{ obj := "pup" }, by decide, by decide⟩
    · rcases hm with ⟨rfl, rfl⟩ | ⟨rfl, rfl⟩ <;> exact absurd he (by decide)
    · obtain ⟨rfl, rfl⟩ := hm; exact absurd he (by decide)
    · rcases hm with ⟨rfl, rfl⟩ | ⟨rfl, rfl⟩
      · exact absurd he (by decide)
      · refine ⟨["main"], .inr ⟨_, rfl, rfl⟩, ?_⟩
        intro s hs; simp at hs; subst hs
        exact ⟨{ obj := "main" }, by decide, by decide⟩
    · obtain ⟨rfl, rfl⟩ := hm; exact absurd he (by decide)
  · intro a h
    have := C07_circular_rejected refsFile hn 7 a h
    revert this; decide

/-- `dm` really refers to `ifunc` -/
example : RefersTo refsFile "dm" "ifunc" :=
  ⟨_, "ifunc_ref", .str "ifunc", "ifunc", { obj := "ifunc" }, .head _, by simp, by decide, .inl rfl, by decide, rfl⟩

/-- a file with circular references -/
example : buildOrder 1000 [("a", .dict [("b_ref", .str "b")]), ("b", .dict [("a_ref", .str "a.out")])] = none := by
  refine C07_circular_rejected _ (by decide) _ "a" (.tail (.single (b := "b") ?_) ?_)
  · exact ⟨_, "b_ref", .str "b", "b", { obj := "b" }, .head _, by simp, by decide, .inl rfl, by decide, rfl⟩
  · exact ⟨_, "a_ref", .str "a.out", "a.out", { obj := "a", key := some "out" }, .tail _ (.head _), by simp, by decide,
      .inl rfl, by decide, rfl⟩

end Specula
