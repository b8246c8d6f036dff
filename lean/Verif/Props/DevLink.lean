import Verif.Model.DevLink
import Mathlib.Data.List.Nodup
/-
C120: inputs that come from an object on another device.
-/
namespace Specula

section
variable {V : Type}

/-! ### Specification -/

/-- Shape and contents, if it is an array. -/
def Attr.content : Attr V → Option (ℕ × V)
  | .arr _ n v => some (n, v)
  | .other _ => none

/-- What a reader on device `t` sees of an attribute, from the values that it had when the input was read: the last array, on the device of the
reader; the first value if it never was an array. -/
def lastArr (t : ℤ) (hist : List (Attr V)) : Option (Attr V) :=
  match hist.reverse.findSome? Attr.content with
  | some p => some (.arr (decide (0 ≤ t)) p.1 p.2)
  | none => hist.head?

/-! ### Lemmas -/

theorem getAttr_nil (k : String) : getAttr k ([] : List (String × Attr V)) = none := rfl

theorem getAttr_cons (k : String) (p : String × Attr V) (l : List (String × Attr V)) :
    getAttr k (p :: l) = if p.1 = k then some p.2 else getAttr k l := by
  unfold getAttr
  by_cases h : p.1 = k
  · simp [h]
  · simp [h]

theorem getAttr_set (j k : String) (a : Attr V) (l : List (String × Attr V)) :
    getAttr j (setAttr k a l) = if j = k then (getAttr k l).map (fun _ => a) else getAttr j l := by
  induction l with
  | nil => simp [setAttr, getAttr_nil]
  | cons p l ih =>
    have e : setAttr k a (p :: l) = (if p.1 = k then (k, a) else p) :: setAttr k a l := rfl
    rw [e, getAttr_cons, getAttr_cons, getAttr_cons, ih]
    by_cases hp : p.1 = k
    · rw [if_pos hp, if_pos hp]
      by_cases hj : j = k
      · rw [if_pos hj.symm, if_pos hj]; rfl
      · rw [if_neg (fun x => hj x.symm), if_neg hj, if_neg hj, if_neg (fun x => hj (x.symm.trans hp))]
    · rw [if_neg hp, if_neg hp]
      by_cases hj : j = k
      · subst hj
        simp [hp]
      · rw [if_neg hj, if_neg hj]

theorem getAttr_of_mem (l : List (String × Attr V)) (hn : (l.map (·.1)).Nodup) (p : String × Attr V) (hp : p ∈ l) :
    getAttr p.1 l = some p.2 := by
  induction l with
  | nil => cases hp
  | cons q l ih =>
    rw [List.map_cons, List.nodup_cons] at hn
    rw [getAttr_cons]
    rcases List.mem_cons.1 hp with rfl | h
    · rw [if_pos rfl]
    · have hne : q.1 ≠ p.1 := fun e => hn.1 (e ▸ List.mem_map_of_mem h)
      rw [if_neg hne]
      exact ih hn.2 h

theorem reallocAttr_good (t : ℤ) (ht : 0 ≤ t ∨ t = -1) (n : ℕ) (v : V) (old : Attr V) :
    reallocAttr t n v old = .arr (decide (0 ≤ t)) n v := by
  unfold reallocAttr
  by_cases h : 0 ≤ t
  · simp [h]
  · rw [if_neg h, if_pos (by omega)]
    simp [h]

theorem transferOne_good (t : ℤ) (ht : 0 ≤ t ∨ t = -1) (f g : Bool) (n : ℕ) (v : V) (d : Attr V)
    (hs : ∀ p, d.content = some p → n = p.1) : ∃ f', transferOne t f g n v d = some (f', .arr (decide (0 ≤ t)) n v) := by
  cases d with
  | other w => exact ⟨true, by rw [transferOne, reallocAttr_good t ht]⟩
  | arr g' n' v' =>
    have hn : n = n' := hs (n', v') rfl
    simp only [transferOne]
    by_cases hf : f = true
    · exact ⟨true, by rw [if_pos hf, reallocAttr_good t ht]⟩
    · rw [if_neg hf]
      by_cases hside : (g' = true ∧ 0 ≤ t) ∨ (g' = false ∧ t = -1)
      · refine ⟨false, ?_⟩
        rw [if_pos hside, if_pos hn, hn]
        rcases hside with ⟨h1, h2⟩ | ⟨h1, h2⟩
        · simp [h1, h2]
        · simp [h1, h2]
      · exact ⟨true, by rw [if_neg hside, reallocAttr_good t ht]⟩

/-- The new value of an attribute: the array of the source, or what there was. -/
def freshAttr (t : ℤ) (new old : Option (Attr V)) : Option (Attr V) :=
  match new.bind Attr.content with
  | some p => some (.arr (decide (0 ≤ t)) p.1 p.2)
  | none => old

theorem transferLoop_good (t : ℤ) (ht : 0 ≤ t ∨ t = -1) (ps : List (String × Attr V)) (hn : (ps.map (·.1)).Nodup) (f : Bool)
    (l : List (String × Attr V)) (hex : ∀ p ∈ ps, p.2.content ≠ none → getAttr p.1 l ≠ none)
    (hsh : ∀ p ∈ ps, ∀ x y, p.2.content = some x → (getAttr p.1 l).bind Attr.content = some y → x.1 = y.1) :
    ∃ f' l', transferLoop t (f, l) ps = some (f', l') ∧ ∀ k, getAttr k l' = freshAttr t (getAttr k ps) (getAttr k l) := by
  induction ps generalizing f l with
  | nil => exact ⟨f, l, rfl, fun k => rfl⟩
  | cons p ps ih =>
    obtain ⟨k₀, a⟩ := p
    rw [List.map_cons, List.nodup_cons] at hn
    have hnot : getAttr k₀ ps = none := by
      unfold getAttr
      rw [Option.map_eq_none_iff, List.find?_eq_none]
      intro q hq
      have : q.1 ≠ k₀ := fun e => hn.1 (List.mem_map.2 ⟨q, hq, e⟩)
      simpa using this
    cases a with
    | other w =>
      obtain ⟨f', l', e, h⟩ := ih hn.2 f l (fun p hp => hex p (List.mem_cons_of_mem _ hp)) (fun p hp => hsh p (List.mem_cons_of_mem _ hp))
      refine ⟨f', l', e, fun k => ?_⟩
      rw [h k, getAttr_cons]
      by_cases hk : k₀ = k
      · subst hk
        rw [if_pos rfl, hnot]
        rfl
      · rw [if_neg hk]
    | arr g n v =>
      have h1 := hex (k₀, .arr g n v) List.mem_cons_self (by simp [Attr.content])
      obtain ⟨d, hd⟩ := Option.ne_none_iff_exists'.1 h1
      dsimp only at hd
      obtain ⟨f1, e1⟩ := transferOne_good t ht f g n v d (fun p hp =>
        hsh (k₀, .arr g n v) List.mem_cons_self (n, v) p rfl (by rw [hd]; exact hp))
      have hother : ∀ p ∈ ps, getAttr p.1 (setAttr k₀ (.arr (decide (0 ≤ t)) n v) l) = getAttr p.1 l := by
        intro p hp
        rw [getAttr_set, if_neg]
        exact fun e => hn.1 (List.mem_map.2 ⟨p, hp, e⟩)
      obtain ⟨f', l', e, h⟩ := ih hn.2 f1 (setAttr k₀ (.arr (decide (0 ≤ t)) n v) l)
        (fun p hp hc => by rw [hother p hp]; exact hex p (List.mem_cons_of_mem _ hp) hc)
        (fun p hp x y hx hy => hsh p (List.mem_cons_of_mem _ hp) x y hx (by rw [hother p hp] at hy; exact hy))
      refine ⟨f', l', ?_, fun k => ?_⟩
      · simp only [transferLoop, transferAttr, hd, Option.bind_some, e1, Option.map_some]
        exact e
      · rw [h k, getAttr_cons, getAttr_set]
        by_cases hk : k₀ = k
        · subst hk
          rw [if_pos rfl, if_pos rfl, hnot, hd]
          rfl
        · rw [if_neg hk, if_neg (fun x => hk x.symm)]

theorem lastArr_snoc (t : ℤ) (hist : List (Attr V)) (hh : hist ≠ []) (a : Attr V) :
    lastArr t (hist ++ [a]) = freshAttr t (some a) (lastArr t hist) := by
  obtain ⟨x, xs, rfl⟩ := List.exists_cons_of_ne_nil hh
  unfold lastArr freshAttr
  rw [List.reverse_append, List.reverse_singleton, List.singleton_append, List.findSome?_cons]
  cases hc : a.content with
  | some p => simp [hc]
  | none => simp [hc]

theorem lastArr_shape (t : ℤ) (hist : List (Attr V)) (a : Attr V) (x : ℕ × V) (h : lastArr t hist = some a) (hx : a.content = some x) :
    ∃ b ∈ hist, b.content = some x := by
  unfold lastArr at h
  cases hf : hist.reverse.findSome? Attr.content with
  | some p =>
    rw [hf] at h
    obtain rfl := Option.some.inj h
    obtain rfl := Option.some.inj hx
    obtain ⟨b, hb, hc⟩ := List.exists_of_findSome?_eq_some hf
    exact ⟨b, List.mem_reverse.1 hb, hc⟩
  | none =>
    rw [hf] at h
    exact ⟨a, List.mem_of_mem_head? h, hx⟩

theorem lastArr_isSome (t : ℤ) (hist : List (Attr V)) (hh : hist ≠ []) : lastArr t hist ≠ none := by
  obtain ⟨x, xs, rfl⟩ := List.exists_cons_of_ne_nil hh
  unfold lastArr
  cases (x :: xs).reverse.findSome? Attr.content <;> simp

/-- Values of an attribute in the states of an object. -/
def attrHist (k : String) (ss : List (DevObj V)) : List (Attr V) := ss.filterMap fun s => getAttr k s.attrs

/-- States of one object between which a reader can follow it: attributes have different names, none is added, and the arrays of an
attribute have one shape. -/
structure Steady (ss : List (DevObj V)) : Prop where
  names : ∀ s ∈ ss, (s.attrs.map (·.1)).Nodup
  same : ∀ s ∈ ss, ∀ s' ∈ ss, ∀ k, getAttr k s.attrs ≠ none → getAttr k s'.attrs ≠ none
  shape : ∀ k, ∀ a ∈ attrHist k ss, ∀ b ∈ attrHist k ss, ∀ x y, a.content = some x → b.content = some y → x.1 = y.1

/-- What the reader has. -/
structure Follows (t : ℤ) (seen : List (DevObj V)) (c : DevObj V) : Prop where
  dev : c.dev = t
  time : ∃ s, seen.getLast? = some s ∧ c.time = s.time
  attrs : ∀ k, getAttr k c.attrs = lastArr t (attrHist k seen)

theorem mem_attrHist (k : String) (ss : List (DevObj V)) (s : DevObj V) (hs : s ∈ ss) (a : Attr V) (h : getAttr k s.attrs = some a) :
    a ∈ attrHist k ss := List.mem_filterMap.2 ⟨s, hs, h⟩

theorem follows_step (t : ℤ) (ht : 0 ≤ t ∨ t = -1) (all seen : List (DevObj V)) (hst : Steady all) (s c : DevObj V)
    (hseen : ∀ x ∈ seen, x ∈ all) (hne : seen ≠ []) (hs : s ∈ all) (hd : s.dev ≠ t) (hc : Follows t seen c) :
    ∃ c', devGet t (some c) s = some c' ∧ Follows t (seen ++ [s]) c' := by
  obtain ⟨s1, hs1⟩ := List.exists_mem_of_ne_nil _ hne
  have hsub : ∀ k, ∀ a ∈ attrHist k seen, a ∈ attrHist k all := by
    intro k a ha
    obtain ⟨x, hx, e⟩ := List.mem_filterMap.1 ha
    exact mem_attrHist k all x (hseen x hx) a e
  have hhist : ∀ k, getAttr k s.attrs ≠ none → attrHist k seen ≠ [] := by
    intro k hk
    obtain ⟨a, ha⟩ := Option.ne_none_iff_exists'.1 (hst.same s hs s1 (hseen s1 hs1) k hk)
    exact List.ne_nil_of_mem (mem_attrHist k seen s1 hs1 a ha)
  obtain ⟨f', l', e, h⟩ := transferLoop_good t ht s.attrs (hst.names s hs) false c.attrs
    (fun p hp hcont => by
      rw [hc.attrs]
      exact lastArr_isSome t _ (hhist p.1 (by rw [getAttr_of_mem _ (hst.names s hs) p hp]; simp)))
    (fun p hp x y hx hy => by
      rw [hc.attrs] at hy
      obtain ⟨a, ha, hay⟩ := Option.bind_eq_some_iff.1 hy
      obtain ⟨b, hb, hby⟩ := lastArr_shape t _ a y ha hay
      exact hst.shape p.1 p.2 (mem_attrHist p.1 all s hs p.2 (getAttr_of_mem _ (hst.names s hs) p hp)) b (hsub _ b hb) x y hx hby)
  refine ⟨⟨t, l', s.time⟩, ?_, rfl, ⟨s, by simp, rfl⟩, fun k => ?_⟩
  · simp only [devGet, if_neg hd, transferData, hc.dev, e, Option.map_some]
  · change getAttr k l' = _
    rw [h k, hc.attrs k]
    unfold attrHist
    rw [List.filterMap_append]
    cases hk : getAttr k s.attrs with
    | none => simp [hk, freshAttr]
    | some a =>
      have := lastArr_snoc t (attrHist k seen) (hhist k (by rw [hk]; simp)) a
      unfold attrHist at this
      simp only [List.filterMap_cons, hk, List.filterMap_nil]
      exact this.symm

theorem follows_run (t : ℤ) (ht : 0 ≤ t ∨ t = -1) (all : List (DevObj V)) (hst : Steady all) (hd : ∀ s ∈ all, s.dev ≠ t)
    (ss seen : List (DevObj V)) (hss : ∀ x ∈ ss, x ∈ all) (hseen : ∀ x ∈ seen, x ∈ all) (hne : seen ≠ []) (c : DevObj V)
    (hc : Follows t seen c) : ∃ c', devRun t (some c) ss = some (some c') ∧ Follows t (seen ++ ss) c' := by
  induction ss generalizing seen c with
  | nil => exact ⟨c, rfl, by rw [List.append_nil]; exact hc⟩
  | cons s ss ih =>
    have hs := hss s List.mem_cons_self
    obtain ⟨c1, e1, h1⟩ := follows_step t ht all seen hst s c hseen hne hs (hd s hs) hc
    obtain ⟨c2, e2, h2⟩ := ih (seen ++ [s]) (fun x hx => hss x (List.mem_cons_of_mem _ hx))
      (fun x hx => by
        rcases List.mem_append.1 hx with h | h
        · exact hseen x h
        · rw [List.mem_singleton.1 h]; exact hs)
      (by simp) c1 h1
    refine ⟨c2, ?_, ?_⟩
    · rw [devRun, e1]; exact e2
    · rw [List.append_assoc] at h2
      exact h2

/-! ### Theorems -/

/-- **C120** (what a reader sees): a reader on another device than the object it reads has, whenever it reads, the time of the object and
of every attribute the last array that it read, on its own device; attributes that are not arrays are as they were at the first reading. -/
theorem C120_follows (t : ℤ) (ht : 0 ≤ t ∨ t = -1) (s₀ : DevObj V) (ss : List (DevObj V)) (hst : Steady (s₀ :: ss))
    (hd : ∀ s ∈ s₀ :: ss, s.dev ≠ t) :
    ∃ c, devRun t none (s₀ :: ss) = some (some c) ∧ c.dev = t ∧ (∃ s, (s₀ :: ss).getLast? = some s ∧ c.time = s.time) ∧
      ∀ k, getAttr k c.attrs = lastArr t (attrHist k (s₀ :: ss)) := by
  have h0 : s₀ ∈ s₀ :: ss := List.mem_cons_self
  obtain ⟨f', l', e, h⟩ := transferLoop_good t ht s₀.attrs (hst.names s₀ h0) true s₀.attrs
    (fun p hp _ => by rw [getAttr_of_mem _ (hst.names s₀ h0) p hp]; simp)
    (fun p hp x y hx hy => by
      rw [getAttr_of_mem _ (hst.names s₀ h0) p hp] at hy
      have : p.2.content = some y := hy
      rw [hx] at this
      rw [Option.some.inj this])
  have hf : Follows t [s₀] ⟨t, l', s₀.time⟩ := by
    refine ⟨rfl, ⟨s₀, rfl, rfl⟩, fun k => ?_⟩
    change getAttr k l' = _
    rw [h k]
    cases hk : getAttr k s₀.attrs with
    | none => simp [attrHist, hk, freshAttr, lastArr]
    | some a =>
      cases ha : a.content with
      | none => simp [attrHist, hk, freshAttr, lastArr, ha]
      | some p => simp [attrHist, hk, freshAttr, lastArr, ha]
  obtain ⟨c, e1, h1⟩ := follows_run t ht (s₀ :: ss) hst hd ss [s₀] (fun x hx => List.mem_cons_of_mem _ hx)
    (fun x hx => by rw [List.mem_singleton.1 hx]; exact h0) (by simp) _ hf
  refine ⟨c, ?_, h1.dev, h1.time, h1.attrs⟩
  rw [devRun, devGet, if_neg (hd s₀ h0), copyToDev, if_neg (fun x => hd s₀ h0 x.symm), transferData, e]
  exact e1

/-- **C120** (arrays are current): an attribute that is an array now is seen as it is now. -/
theorem C120_arrays_current (t : ℤ) (ht : 0 ≤ t ∨ t = -1) (s₀ : DevObj V) (ss : List (DevObj V)) (s : DevObj V)
    (hst : Steady (s₀ :: (ss ++ [s]))) (hd : ∀ x ∈ s₀ :: (ss ++ [s]), x.dev ≠ t) (k : String) (g : Bool) (n : ℕ) (v : V)
    (hk : getAttr k s.attrs = some (.arr g n v)) :
    ∃ c, devRun t none (s₀ :: (ss ++ [s])) = some (some c) ∧ c.time = s.time ∧
      getAttr k c.attrs = some (.arr (decide (0 ≤ t)) n v) := by
  obtain ⟨c, h1, -, ⟨x, hx, h3⟩, h4⟩ := C120_follows t ht s₀ (ss ++ [s]) hst hd
  rw [← List.cons_append, List.getLast?_concat] at hx
  obtain rfl := Option.some.inj hx
  refine ⟨c, h1, h3, ?_⟩
  rw [h4]
  have : attrHist k (s₀ :: (ss ++ [s])) = attrHist k (s₀ :: ss) ++ [.arr g n v] := by
    unfold attrHist
    rw [← List.cons_append, List.filterMap_append]
    simp [hk]
  rw [this, lastArr, List.reverse_append, List.reverse_singleton, List.singleton_append, List.findSome?_cons]
  rfl

/-- **C120** (numbers are frozen): an attribute that never is an array is seen as it was at the first reading, whatever it has become. -/
theorem C120_numbers_frozen (t : ℤ) (ht : 0 ≤ t ∨ t = -1) (s₀ : DevObj V) (ss : List (DevObj V)) (hst : Steady (s₀ :: ss))
    (hd : ∀ s ∈ s₀ :: ss, s.dev ≠ t) (k : String) (hk : ∀ s ∈ s₀ :: ss, ∃ v, getAttr k s.attrs = some (.other v)) :
    ∃ c, devRun t none (s₀ :: ss) = some (some c) ∧ getAttr k c.attrs = getAttr k s₀.attrs := by
  obtain ⟨c, h1, -, -, h4⟩ := C120_follows t ht s₀ ss hst hd
  refine ⟨c, h1, ?_⟩
  rw [h4]
  have hnone : (attrHist k (s₀ :: ss)).reverse.findSome? Attr.content = none := by
    rw [List.findSome?_eq_none_iff]
    intro a ha
    obtain ⟨s, hs, e⟩ := List.mem_filterMap.1 (List.mem_reverse.1 ha)
    obtain ⟨v, hv⟩ := hk s hs
    rw [hv] at e
    rw [← Option.some.inj e]
    rfl
  obtain ⟨v, hv⟩ := hk s₀ List.mem_cons_self
  unfold lastArr
  rw [hnone]
  simp [attrHist, hv]

/-- **C120** (same device): a reader on the device of the object reads the object itself. -/
theorem C120_same_device (t : ℤ) (c : Option (DevObj V)) (ss : List (DevObj V)) (s : DevObj V) (hd : ∀ x ∈ ss ++ [s], x.dev = t) :
    devRun t c (ss ++ [s]) = some (some s) := by
  induction ss generalizing c with
  | nil =>
    have := hd s (by simp)
    simp [devRun, devGet, this]
  | cons x ss ih =>
    have hx := hd x (by simp)
    have e : devGet t c x = some x := by simp [devGet, hx]
    rw [List.cons_append, devRun, e]
    exact ih _ fun y hy => hd y (by simp only [List.cons_append]; exact List.mem_cons_of_mem _ hy)

/-- **C120** (new attributes): once the object has an array that it did not have at the first reading, reading raises. -/
theorem C120_new_array_raises (t : ℤ) (s c : DevObj V) (hd : s.dev ≠ t) (k : String) (g : Bool) (n : ℕ) (v : V)
    (hs : (k, .arr g n v) ∈ s.attrs) (hc : getAttr k c.attrs = none) : devGet t (some c) s = none := by
  have hall : ∀ (ps : List (String × Attr V)) (x : Bool × List (String × Attr V)), (k, Attr.arr g n v) ∈ ps → getAttr k x.2 = none →
      transferLoop c.dev x ps = none := by
    intro ps
    induction ps with
    | nil => intro x h _; cases h
    | cons p ps ih =>
      intro x hmem hx
      rw [transferLoop]
      rcases List.mem_cons.1 hmem with rfl | h
      · simp [transferAttr, hx]
      · cases hp : transferAttr c.dev x p.1 p.2 with
        | none => rfl
        | some y =>
          refine ih y h ?_
          cases hpa : p.2 with
          | other w =>
            rw [hpa] at hp
            obtain rfl := Option.some.inj hp
            exact hx
          | arr g' n' v' =>
            rw [hpa] at hp
            unfold transferAttr at hp
            obtain ⟨d, hd1, hp⟩ := Option.bind_eq_some_iff.1 hp
            obtain ⟨r, -, rfl⟩ := Option.map_eq_some_iff.1 hp
            have hne : k ≠ p.1 := by
              intro e
              rw [← e, hx] at hd1
              cases hd1
            change getAttr k (setAttr p.1 r.2 x.2) = none
            rw [getAttr_set, if_neg hne]
            exact hx
  rw [devGet, if_neg hd]
  simp only [transferData, hall s.attrs (false, c.attrs) hs hc, Option.map_none]

end

/-! ### Concrete cases -/

/-- An object with an array that is unset at first, and a number. -/
def devLinkExample (d : ℤ) (gpu : Bool) (a : Option ℕ) (b : ℕ) (time : ℤ) : DevObj ℕ :=
  ⟨d, [("phase", match a with | some x => .arr gpu 4 x | none => .other 0), ("S0", .other b)], time⟩

/-- The array is followed, the number is frozen. -/
example : devRun 0 none [devLinkExample (-1) false none 7 1, devLinkExample (-1) false (some 5) 8 2, devLinkExample (-1) false (some 6) 9 3] =
    some (some ⟨0, [("phase", .arr true 4 6), ("S0", .other 7)], 3⟩) := by decide

/-- **C120** (shapes): when an array gets another shape, a reader on the CPU or of an object on the CPU fails; between two GPUs it keeps the old
array, with the new time. -/
theorem C120_shape_change :
    devRun 1 none [⟨0, [("psf", .arr true 4 5)], 1⟩, ⟨0, [("psf", .arr true 9 6)], 2⟩] = some (some (⟨1, [("psf", .arr true 4 5)], 2⟩ : DevObj ℕ)) ∧
    devRun (-1) none [⟨0, [("psf", .arr true 4 5)], 1⟩, (⟨0, [("psf", .arr true 9 6)], 2⟩ : DevObj ℕ)] = none := by decide

/-- The hypotheses of `C120_follows` hold for the example. -/
example : Steady [devLinkExample (-1) false none 7 1, devLinkExample (-1) false (some 5) 8 2] := by
  refine ⟨?_, ?_, ?_⟩
  · intro s hs
    simp only [List.mem_cons, List.not_mem_nil, or_false] at hs
    rcases hs with rfl | rfl <;> decide
  · intro s hs s' hs' k
    simp only [List.mem_cons, List.not_mem_nil, or_false] at hs hs'
    rcases hs with rfl | rfl <;> rcases hs' with rfl | rfl <;> simp only [devLinkExample, getAttr_cons, getAttr_nil] <;>
      (split <;> simp)
  · intro k a ha b hb x y hx hy
    have hall : ∀ a ∈ attrHist k [devLinkExample (-1) false none 7 1, devLinkExample (-1) false (some 5) 8 2], ∀ x, a.content = some x → x.1 = 4 := by
      intro a ha x hx
      simp only [attrHist, devLinkExample, getAttr_cons, getAttr_nil, List.filterMap_cons, List.filterMap_nil] at ha
      by_cases h1 : "phase" = k
      · simp only [if_pos h1, List.mem_cons, List.not_mem_nil, or_false] at ha
        rcases ha with rfl | rfl
        · cases hx
        · obtain rfl := Option.some.inj hx; rfl
      · by_cases h2 : "S0" = k
        · simp only [if_neg h1, if_pos h2, List.mem_cons, List.not_mem_nil, or_false] at ha
          rcases ha with rfl | rfl <;> cases hx
        · simp [if_neg h1, if_neg h2] at ha
    rw [hall a ha x hx, hall b hb y hy]

end Specula
