import Verif.Model.SplitOutput
/-
Property C11: output references.
-/
namespace Specula

/-! ### Specification: what a reference looks like when written -/

/-- The text of a reference: `[alias-]obj[.key]` followed by the given text of the delay. -/
def refText (a : Option String) (o : String) (k : Option String) (delayText : String) : String :=
  (match a with | none => "" | some x => x ++ "-") ++ o ++ (match k with | none => "" | some x => "." ++ x) ++ delayText

/-- Name without separator characters. -/
def PlainName (s : String) : Prop := ':' ∉ s.toList ∧ '-' ∉ s.toList ∧ '.' ∉ s.toList

/-! ### lemmas on splitting -/

theorem pySplit_ne_nil (c : Char) (s : List Char) : pySplit c s ≠ [] := by
  cases s with
  | nil => simp [pySplit]
  | cons x xs =>
    unfold pySplit
    split
    · simp
    · split <;> simp

theorem pySplit_not_mem {c : Char} {s : List Char} (h : c ∉ s) : pySplit c s = [s] := by
  induction s with
  | nil => rfl
  | cons x xs ih =>
    simp only [List.mem_cons, not_or] at h
    unfold pySplit
    rw [if_neg (fun e => h.1 e.symm), ih h.2]

theorem pySplit_append {c : Char} {a : List Char} (h : c ∉ a) (b : List Char) :
    pySplit c (a ++ c :: b) = a :: pySplit c b := by
  induction a with
  | nil => simp [pySplit]
  | cons x xs ih =>
    simp only [List.mem_cons, not_or] at h
    rw [List.cons_append]
    conv => lhs; unfold pySplit
    rw [if_neg (fun e => h.1 e.symm), ih h.2]

/-- joining the parts back with the separator -/
theorem pySplit_two {c : Char} {s a b : List Char} (h : pySplit c s = [a, b]) : s = a ++ c :: b ∧ c ∉ a ∧ c ∉ b := by
  induction s generalizing a with
  | nil => simp [pySplit] at h
  | cons x xs ih =>
    unfold pySplit at h
    split at h
    · rename_i hx
      subst hx
      simp only [List.cons.injEq] at h
      obtain ⟨rfl, h⟩ := h
      have hb : x ∉ xs := by
        intro hm
        obtain ⟨l1, l2, rfl, hl⟩ := List.append_of_mem hm |>.elim fun l1 h => h.elim fun l2 h => by
          exact List.eq_append_cons_of_mem hm
        rw [pySplit_append hl] at h
        have := pySplit_ne_nil x l2
        simp_all
      rw [pySplit_not_mem hb] at h
      simp at h
      subst h
      simp [hb]
    · rename_i hx
      split at h
      · simp at h
      · rename_i hd tl he
        simp only [List.cons.injEq] at h
        obtain ⟨rfl, rfl⟩ := h
        obtain ⟨rfl, h1, h2⟩ := ih he
        refine ⟨rfl, ?_, h2⟩
        simp [h1, Ne.symm hx]

theorem splitPair_none {c : Char} {s a : List Char} : splitPair c s = some (a, none) ↔ s = a ∧ c ∉ s := by
  unfold splitPair
  split
  · rename_i h
    split <;> simp [h]
  · rename_i h
    simp [h]

theorem splitPair_some {c : Char} {s a b : List Char} :
    splitPair c s = some (a, some b) ↔ s = a ++ c :: b ∧ c ∉ a ∧ c ∉ b := by
  unfold splitPair
  constructor
  · intro h
    split at h
    · split at h
      · rename_i he
        simp at h
        obtain ⟨rfl, rfl⟩ := h
        exact pySplit_two he
      · simp at h
    · simp at h
  · rintro ⟨rfl, ha, hb⟩
    rw [if_pos (by simp), pySplit_append ha, pySplit_not_mem hb]

theorem splitDelay_iff {s a : List Char} {d : Int} :
    splitDelay s = some (a, d) ↔
      (s = a ∧ ':' ∉ s ∧ d = 0) ∨ ∃ t, s = a ++ ':' :: t ∧ ':' ∉ a ∧ ':' ∉ t ∧ pyInt t = some d := by
  unfold splitDelay
  split
  · rename_i h
    constructor
    · intro h'
      right
      split at h'
      · rename_i a' b' he
        simp only [Option.map_eq_some_iff, Prod.mk.injEq] at h'
        obtain ⟨d', hd, rfl, rfl⟩ := h'
        obtain ⟨h1, h2, h3⟩ := pySplit_two he
        exact ⟨b', h1, h2, h3, hd⟩
      · simp at h'
    · rintro (⟨_, hn, _⟩ | ⟨t, rfl, ha, ht, hd⟩)
      · exact absurd h hn
      · simp [pySplit_append ha, pySplit_not_mem ht, hd]
  · rename_i h
    constructor
    · intro h'
      simp only [Option.some.injEq, Prod.mk.injEq] at h'
      exact .inl ⟨h'.1, h, h'.2.symm⟩
    · rintro (⟨rfl, _, rfl⟩ | ⟨t, rfl, _⟩)
      · rfl
      · simp at h

/-! ### integers -/

theorem digitsOk_of_all {ds : List Char} (hne : ds ≠ []) (h : ∀ c ∈ ds, c.isDigit = true) : digitsOk ds = true := by
  induction ds with
  | nil => exact absurd rfl hne
  | cons c cs ih =>
    cases cs with
    | nil => simpa [digitsOk] using h
    | cons d rest =>
      unfold digitsOk
      have hd : d ≠ '_' := by
        rintro rfl
        have := h '_' (by simp)
        simp at this
      rw [if_neg hd, ih (by simp) (fun x hx => h x (List.mem_cons_of_mem _ hx))]
      simp [h c (by simp)]

theorem not_blank_of_digit {c : Char} (h : c.isDigit = true) : isBlank c = false := by
  unfold isBlank
  rw [Bool.eq_false_iff]
  intro hb
  simp only [Bool.or_eq_true, decide_eq_true_eq] at hb
  rcases hb with ((((rfl | rfl) | rfl) | rfl) | rfl) | rfl <;> revert h <;> decide

theorem strip_digits {l : List Char} (h : ∀ c ∈ l, isBlank c = false) :
    ((l.dropWhile isBlank).reverse.dropWhile isBlank).reverse = l := by
  have h1 : ∀ m : List Char, (∀ c ∈ m, isBlank c = false) → m.dropWhile isBlank = m := by
    intro m hm
    cases m with
    | nil => rfl
    | cons x xs => rw [List.dropWhile_cons_of_neg]; simp [hm x (by simp)]
  rw [h1 l h, h1 l.reverse (by simpa using h), List.reverse_reverse]

/-- Python reads back the decimal text of an integer. -/
theorem pyInt_toString (d : Int) : pyInt (toString d).toList = some d := by
  have hdig : ∀ n : Nat, ∀ c ∈ Nat.toDigits 10 n, c.isDigit = true :=
    fun n c hc => Nat.isDigit_of_mem_toDigits (by decide) (by decide) hc
  have hval : ∀ n : Nat, (Nat.toDigits 10 n).filter (·.isDigit) = Nat.toDigits 10 n := by
    intro n; rw [List.filter_eq_self]; exact hdig n
  cases d with
  | ofNat n =>
    have : (toString (Int.ofNat n)).toList = Nat.toDigits 10 n := by
      show (Nat.repr n).toList = _
      simp
    rw [this]
    unfold pyInt
    rw [strip_digits (fun c hc => not_blank_of_digit (hdig n c hc))]
    dsimp only
    split
    · rename_i ds he
      have := hdig n '-' (by rw [he]; simp)
      simp at this
    · rename_i ds he
      have := hdig n '+' (by rw [he]; simp)
      simp at this
    · rw [digitsOk_of_all (by simp) (hdig n), hval]
      simp
  | negSucc n =>
    have : (toString (Int.negSucc n)).toList = '-' :: Nat.toDigits 10 (n + 1) := by
      show ("-" ++ Nat.repr (n + 1)).toList = _
      simp
    rw [this]
    unfold pyInt
    rw [strip_digits (by
      intro c hc
      rcases List.mem_cons.1 hc with rfl | hc
      · decide
      · exact not_blank_of_digit (hdig _ c hc))]
    simp [digitsOk_of_all (by simp) (hdig _), hval, Int.negSucc_eq]

theorem colon_not_mem_toString (d : Int) : ':' ∉ (toString d).toList := by
  have hdig : ∀ n : Nat, ':' ∉ Nat.toDigits 10 n := by
    intro n hc
    have := Nat.isDigit_of_mem_toDigits (by decide) (by decide) hc
    simp at this
  cases d with
  | ofNat n =>
    show ':' ∉ (Nat.repr n).toList
    simpa using hdig n
  | negSucc n =>
    show ':' ∉ ("-" ++ Nat.repr (n + 1)).toList
    simpa using hdig (n + 1)

/-! ### C11 -/

/-- Exactly the texts of the documented form are accepted, and what is returned is what was written. -/
theorem C11_accepts_iff (s : String) (r : OutRef) :
    splitOutput s = some r ↔
      ∃ dt, s = refText r.alias r.obj r.key dt ∧
        (∀ a, r.alias = some a → ':' ∉ a.toList ∧ '-' ∉ a.toList) ∧ PlainName r.obj ∧
        (∀ k, r.key = some k → PlainName k) ∧
        (dt = "" ∧ r.delay = 0 ∨ ∃ t, dt = ":" ++ t ∧ ':' ∉ t.toList ∧ pyInt t.toList = some r.delay) := by
  obtain ⟨al, o, k, d⟩ := r
  constructor
  · intro h
    unfold splitOutput at h
    split at h
    · simp at h
    · rename_i s1 delay hd
      split at h
      · simp at h
      · rename_i a b hp
        dsimp only at h
        split at h
        · simp at h
        · rename_i o' k' hk
          simp only [Option.some.injEq, OutRef.mk.injEq] at h
          obtain ⟨rfl, rfl, rfl, rfl⟩ := h
          rw [splitDelay_iff] at hd
          -- the part before the delay
          have hs1 : s1 = (refText (b.map fun _ => String.ofList a) (String.ofList o') (k'.map String.ofList) "").toList := by
            cases b with
            | none =>
              rw [splitPair_none] at hp
              cases k' with
              | none => rw [splitPair_none] at hk; simp_all [refText]
              | some k' => rw [splitPair_some] at hk; simp_all [refText]
            | some b =>
              rw [splitPair_some] at hp
              cases k' with
              | none => rw [splitPair_none] at hk; simp_all [refText]
              | some k' => rw [splitPair_some] at hk; simp_all [refText]
          have hc : ':' ∉ s1 := by rcases hd with ⟨rfl, h, _⟩ | ⟨_, _, h, _⟩ <;> exact h
          have hrest : (∀ a', (b.map fun _ => String.ofList a) = some a' → ':' ∉ a'.toList ∧ '-' ∉ a'.toList) ∧
              PlainName (String.ofList o') ∧ (∀ k, k'.map String.ofList = some k → PlainName k) := by
            clear hs1 hd
            cases b with
            | none =>
              rw [splitPair_none] at hp
              obtain ⟨rfl, hp⟩ := hp
              cases k' with
              | none => rw [splitPair_none] at hk; obtain ⟨hk, hk2⟩ := hk; subst hk; simp_all [PlainName]
              | some k' => rw [splitPair_some] at hk; obtain ⟨hk, hk2⟩ := hk; subst hk; simp_all [PlainName]
            | some b =>
              rw [splitPair_some] at hp
              obtain ⟨rfl, hp⟩ := hp
              cases k' with
              | none => rw [splitPair_none] at hk; obtain ⟨hk, hk2⟩ := hk; subst hk; simp_all [PlainName]
              | some k' => rw [splitPair_some] at hk; obtain ⟨hk, hk2⟩ := hk; subst hk; simp_all [PlainName]
          rcases hd with ⟨hse, _, rfl⟩ | ⟨t, hse, _, ht, hi⟩
          · refine ⟨"", ?_, hrest.1, hrest.2.1, hrest.2.2, .inl ⟨rfl, rfl⟩⟩
            rw [← String.toList_inj, hse, hs1]
          · refine ⟨":" ++ String.ofList t, ?_, hrest.1, hrest.2.1, hrest.2.2, .inr ⟨String.ofList t, rfl, by simpa, by simpa⟩⟩
            rw [← String.toList_inj, hse, hs1]
            simp [refText]
  · rintro ⟨dt, rfl, ha, ho, hk, hdt⟩
    dsimp only at ha ho hk hdt
    have hd : splitDelay (refText al o k dt).toList = some ((refText al o k "").toList, d) := by
      rw [splitDelay_iff]
      have hc : ':' ∉ (refText al o k "").toList := by
        cases al <;> cases k <;> simp_all [refText, PlainName]
      rcases hdt with ⟨rfl, rfl⟩ | ⟨t, rfl, ht, hi⟩
      · exact .inl ⟨rfl, hc, rfl⟩
      · exact .inr ⟨t.toList, by simp [refText], hc, ht, hi⟩
    unfold splitOutput
    rw [hd]
    dsimp only
    have hko : splitPair '.' (refText none o k "").toList = some (o.toList, k.map String.toList) := by
      cases k with
      | none => rw [Option.map_none, splitPair_none]; simp_all [refText, PlainName]
      | some k => rw [Option.map_some, splitPair_some]; simp_all [refText, PlainName]
    cases al with
    | none =>
      have : splitPair '-' (refText none o k "").toList = some ((refText none o k "").toList, none) := by
        rw [splitPair_none]
        cases k <;> simp_all [refText, PlainName]
      rw [this]
      dsimp only [Option.map_none, Option.getD_none]
      rw [hko]
      cases k <;> simp
    | some a =>
      have : splitPair '-' (refText (some a) o k "").toList = some (a.toList, some (refText none o k "").toList) := by
        rw [splitPair_some]
        cases k <;> simp_all [refText, PlainName]
      rw [this]
      dsimp only [Option.map_some, Option.getD_some]
      rw [hko]
      cases k <;> simp

/-- **C11**: parsing `alias-object.key:delay` gives back alias, object, key and delay, every part except the object
being optional, for all names free of the separators and all integer delays. -/
theorem C11_roundtrip (a : Option String) (o : String) (k : Option String) (d : Option Int)
    (ha : ∀ x, a = some x → PlainName x) (ho : PlainName o) (hk : ∀ x, k = some x → PlainName x) :
    splitOutput (refText a o k (match d with | none => "" | some n => ":" ++ toString n)) =
      some { alias := a, obj := o, key := k, delay := d.getD 0 } := by
  rw [C11_accepts_iff]
  refine ⟨_, rfl, fun x hx => ⟨(ha x hx).1, (ha x hx).2.1⟩, ho, hk, ?_⟩
  cases d with
  | none => exact .inl ⟨rfl, rfl⟩
  | some n => exact .inr ⟨_, rfl, colon_not_mem_toString n, pyInt_toString n⟩

/-- splitting at the first occurrence of a character is unique -/
theorem first_split_unique {c : Char} {p q p' q' : List Char} (h : p ++ q = p' ++ q') (hp : c ∉ p) (hp' : c ∉ p')
    (hq : q = [] ∨ q.head? = some c) (hq' : q' = [] ∨ q'.head? = some c) : p = p' ∧ q = q' := by
  induction p generalizing p' with
  | nil =>
    cases p' with
    | nil => exact ⟨rfl, by simpa using h⟩
    | cons y ys =>
      simp only [List.nil_append, List.cons_append] at h
      subst h
      simp at hq
      simp [hq] at hp'
  | cons x xs ih =>
    cases p' with
    | nil =>
      simp only [List.nil_append, List.cons_append] at h
      subst h
      simp at hq'
      simp [hq'] at hp
    | cons y ys =>
      simp only [List.cons_append, List.cons.injEq] at h
      simp only [List.mem_cons, not_or] at hp hp'
      obtain ⟨h1, h2⟩ := ih h.2 hp.2 hp'.2
      exact ⟨by rw [h.1, h1], h2⟩

/-- **C11**: texts with a repeated separator are rejected: two `:` anywhere, two `-` before the `:`, or two `.` in the
part between the optional alias and the optional delay. -/
theorem C11_repeated_rejected (s : String)
    (h : (2 ≤ s.toList.count ':') ∨
      (∃ p q, s = p ++ q ∧ (q = "" ∨ q.toList.head? = some ':') ∧ ':' ∉ p.toList ∧ 2 ≤ p.toList.count '-') ∨
      (∃ p q, s = p ++ q ∧ (q = "" ∨ q.toList.head? = some ':') ∧ ':' ∉ p.toList ∧ '-' ∉ p.toList ∧
        2 ≤ p.toList.count '.') ∨
      (∃ a p q, s = a ++ "-" ++ p ++ q ∧ ':' ∉ a.toList ∧ '-' ∉ a.toList ∧
        (q = "" ∨ q.toList.head? = some ':') ∧ ':' ∉ p.toList ∧ 2 ≤ p.toList.count '.')) :
    splitOutput s = none := by
  rw [← Option.not_isSome_iff_eq_none, Option.isSome_iff_exists]
  rintro ⟨r, hr⟩
  rw [C11_accepts_iff] at hr
  obtain ⟨dt, rfl, ha, ho, hk, hdt⟩ := hr
  obtain ⟨al, o, k, d⟩ := r
  dsimp only at ha ho hk hdt h
  have happ : (refText al o k dt).toList = (refText al o k "").toList ++ dt.toList := by simp [refText]
  have hc : ':' ∉ (refText al o k "").toList := by cases al <;> cases k <;> simp_all [refText, PlainName]
  have hdt' : dt.toList = [] ∨ dt.toList.head? = some ':' := by
    rcases hdt with ⟨rfl, _⟩ | ⟨t, rfl, _⟩
    · exact .inl rfl
    · exact .inr (by simp)
  have hdc : dt.toList.count ':' ≤ 1 := by
    rcases hdt with ⟨rfl, _⟩ | ⟨t, rfl, ht, _⟩
    · simp
    · simp [List.count_eq_zero.2 ht]
  have hq : ∀ q : String, (q = "" ∨ q.toList.head? = some ':') → q.toList = [] ∨ q.toList.head? = some ':' := by
    rintro q (rfl | h)
    · exact .inl rfl
    · exact .inr h
  -- the part after the alias
  have hdot : (refText none o k "").toList.count '.' ≤ 1 := by
    have h1 := List.count_eq_zero.2 ho.2.2
    cases k with
    | none => simp [refText, h1]
    | some k => simp [refText, h1, List.count_eq_zero.2 (hk k rfl).2.2]
  have hdash : '-' ∉ (refText none o k "").toList := by
    cases k <;> simp_all [refText, PlainName]
  rcases h with h | ⟨p, q, he, hq1, hp, h⟩ | ⟨p, q, he, hq1, hp, hp2, h⟩ | ⟨a, p, q, he, ha1, ha2, hq1, hp, h⟩
  · rw [happ, List.count_append, List.count_eq_zero.2 hc] at h
    omega
  · rw [← String.toList_inj, happ, String.toList_append] at he
    obtain ⟨he, -⟩ := first_split_unique he hc hp hdt' (hq q hq1)
    rw [← he] at h
    have h1 := List.count_eq_zero.2 hdash
    cases al with
    | none => omega
    | some a =>
      have h2 := List.count_eq_zero.2 (ha a rfl).2
      have : (refText (some a) o k "").toList = a.toList ++ '-' :: (refText none o k "").toList := by simp [refText]
      rw [this, List.count_append, List.count_cons_self] at h
      omega
  · rw [← String.toList_inj, happ, String.toList_append] at he
    obtain ⟨he, -⟩ := first_split_unique he hc hp hdt' (hq q hq1)
    rw [← he] at h hp2
    cases al with
    | none => omega
    | some a => simp [refText] at hp2
  · have he' : (refText al o k "").toList ++ dt.toList = (a ++ "-" ++ p).toList ++ q.toList := by
      rw [← happ, he]; simp
    obtain ⟨he', -⟩ := first_split_unique he' hc (by simp_all) hdt' (hq q hq1)
    cases al with
    | none =>
      rw [he'] at hdash
      simp at hdash
    | some b =>
      have h3 : b.toList ++ '-' :: (refText none o k "").toList = a.toList ++ '-' :: p.toList := by
        have : (refText (some b) o k "").toList = b.toList ++ '-' :: (refText none o k "").toList := by simp [refText]
        rw [← this, he']; simp
      obtain ⟨-, h4⟩ := first_split_unique h3 (ha b rfl).2 ha2 (by simp) (by simp)
      simp only [List.cons.injEq, true_and] at h4
      rw [← h4] at h
      omega

/-- a full reference of the kind used in the parameter files: hypotheses of `C11_roundtrip` are met -/
example : splitOutput "sr-slopec.out_slopes:-1" =
    some { alias := some "sr", obj := "slopec", key := some "out_slopes", delay := -1 } := by
  have h : "sr-slopec.out_slopes:-1" = refText (some "sr") "slopec" (some "out_slopes") (":" ++ toString (-1 : Int)) := by
    decide
  rw [h]
  exact C11_roundtrip (some "sr") "slopec" (some "out_slopes") (some (-1)) (by simp [PlainName]) (by simp [PlainName])
    (by simp [PlainName])

example : splitOutput "a.b.c" = none :=
  C11_repeated_rejected _ (.inr (.inr (.inl ⟨"a.b.c", "", by simp, .inl rfl, by simp, by simp, by decide⟩)))

example : splitOutput "dm-a.b.c:-1" = none :=
  C11_repeated_rejected _ (.inr (.inr (.inr ⟨"dm", "a.b.c", ":-1", by decide, by simp, by simp, .inr (by simp), by simp, by decide⟩)))

end Specula
