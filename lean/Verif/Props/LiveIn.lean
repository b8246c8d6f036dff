import Mathlib.Data.List.Basic
import Mathlib.Tactic.Common
import Verif.Model.LiveIn
/-
C117: values given while the simulation runs.
-/
namespace Specula

/-! Specification: who got what, when. -/

section
variable {V : Type}

/-- All that was put, in order. -/
def livePuts : List (LiveEv V) → List (LiveMsg V)
  | [] => []
  | .put m :: evs => m :: livePuts evs
  | .trigger _ _ :: evs => livePuts evs

/-- The times at which the pairs were taken, one for each pair taken; `pend` pairs are waiting. -/
def liveTimes (pend : ℕ) : List (LiveEv V) → List ℤ
  | [] => []
  | .put _ :: evs => liveTimes (pend + 1) evs
  | .trigger t k :: evs => List.replicate (min k pend) t ++ liveTimes (pend - k) evs

/-- The last pair with the given name. -/
def lastNamed (n : String) (l : List (ℤ × LiveMsg V)) : Option (ℤ × V) :=
  ((l.filter fun x => x.2.1 == n).getLast?).map fun x => (x.1, x.2.2)

/-- The outputs when the pairs `l` have been taken. -/
def liveSpec (names : List String) (l : List (ℤ × LiveMsg V)) : LiveOuts V := fun n =>
  if n ∈ names then some (((lastNamed n l).map fun x => (some x.2, x.1)).getD (none, -1)) else none

theorem liveTimes_le (pend : ℕ) (evs : List (LiveEv V)) : (liveTimes pend evs).length ≤ pend + (livePuts evs).length := by
  induction evs generalizing pend with
  | nil => simp [liveTimes]
  | cons e evs ih =>
    cases e with
    | put m => have := ih (pend + 1); simp only [liveTimes, livePuts, List.length_cons]; omega
    | trigger t k =>
      have := ih (pend - k)
      simp only [liveTimes, livePuts, List.length_append, List.length_replicate]; omega

/-- Nothing is lost, doubled or reordered: the queue holds the pairs that have not been taken. -/
theorem liveRun_queue (s : LiveState V) (evs : List (LiveEv V)) :
    (liveRun s evs).queue = (s.queue ++ livePuts evs).drop (liveTimes s.queue.length evs).length := by
  induction evs generalizing s with
  | nil => simp [liveRun, livePuts, liveTimes]
  | cons e evs ih =>
    have h := ih (liveStep s e)
    unfold liveRun at h ⊢
    rw [List.foldl_cons, h]
    cases e with
    | put m => simp [liveStep, livePuts, liveTimes]
    | trigger t k =>
      simp only [liveStep, livePuts, liveTimes, List.length_append, List.length_replicate, List.length_drop]
      rcases Nat.le_total k s.queue.length with hk | hk
      · rw [Nat.min_eq_left hk, ← List.drop_append_of_le_length hk, List.drop_drop]
      · rw [Nat.min_eq_right hk, List.drop_of_length_le hk, List.nil_append, ← List.drop_drop, List.drop_left]

theorem lastNamed_append (n : String) (l : List (ℤ × LiveMsg V)) (t : ℤ) (m : LiveMsg V) :
    lastNamed n (l ++ [(t, m)]) = if m.1 = n then some (t, m.2) else lastNamed n l := by
  unfold lastNamed
  rw [List.filter_append]
  by_cases h : m.1 = n
  · simp [h]
  · simp [h]

theorem liveSet_spec (names : List String) (l : List (ℤ × LiveMsg V)) (t : ℤ) (m : LiveMsg V) :
    liveSet t (liveSpec names l) m = liveSpec names (l ++ [(t, m)]) := by
  funext n
  unfold liveSet
  by_cases hm : m.1 ∈ names
  · rw [if_pos (by simp [liveSpec, hm])]
    show (if n = m.1 then _ else _) = _
    by_cases hn : n = m.1
    · subst hn
      rw [if_pos rfl]
      simp [liveSpec, hm, lastNamed_append]
    · rw [if_neg hn]
      have : ¬m.1 = n := fun e => hn e.symm
      simp [liveSpec, lastNamed_append, this]
  · rw [if_neg (by simp [liveSpec, hm])]
    unfold liveSpec
    by_cases hn : n ∈ names
    · have : ¬m.1 = n := fun e => hm (e ▸ hn)
      simp [hn, lastNamed_append, this]
    · simp [hn]

theorem liveSet_foldl (names : List String) (t : ℤ) (ms : List (LiveMsg V)) (l : List (ℤ × LiveMsg V)) :
    ms.foldl (liveSet t) (liveSpec names l) = liveSpec names (l ++ (List.replicate ms.length t).zip ms) := by
  induction ms generalizing l with
  | nil => simp
  | cons m ms ih =>
    rw [List.foldl_cons, liveSet_spec, ih]
    simp [List.replicate_succ]

theorem liveRun_outs (names : List String) (l : List (ℤ × LiveMsg V)) (q : List (LiveMsg V)) (evs : List (LiveEv V)) :
    (liveRun ⟨q, liveSpec names l⟩ evs).outs = liveSpec names (l ++ (liveTimes q.length evs).zip (q ++ livePuts evs)) := by
  induction evs generalizing q l with
  | nil => simp [liveRun, liveTimes]
  | cons e evs ih =>
    cases e with
    | put m =>
      have := ih l (q ++ [m])
      unfold liveRun at this ⊢
      simp only [List.foldl_cons, liveStep, livePuts, liveTimes]
      rw [this]; simp
    | trigger t k =>
      have h1 : liveStep ⟨q, liveSpec names l⟩ (.trigger t k) =
          ⟨q.drop k, liveSpec names (l ++ (List.replicate (q.take k).length t).zip (q.take k))⟩ := by
        simp only [liveStep]; rw [liveSet_foldl]
      have := ih (l ++ (List.replicate (q.take k).length t).zip (q.take k)) (q.drop k)
      unfold liveRun at this ⊢
      rw [List.foldl_cons, h1, this]
      simp only [livePuts, liveTimes]
      congr 1
      rw [List.append_assoc]
      congr 1
      have hq : q ++ livePuts evs = q.take k ++ (q.drop k ++ livePuts evs) := by rw [← List.append_assoc, List.take_append_drop]
      rw [hq, List.length_take, List.length_drop, List.zip_append (by simp)]

theorem liveSpec_nil (names : List String) : (liveInit names : LiveOuts V) = liveSpec names [] := by
  funext n; simp [liveInit, liveSpec, lastNamed]

/-- **Values.**  For all sequences of additions and triggers: an output has the value of the last pair with its name that was taken, and the
time of the trigger that took it; before, it has no value.  Names that are not outputs have no effect.  The pairs taken are the first ones put. -/
theorem C117_values (names : List String) (evs : List (LiveEv V)) :
    (liveRun ⟨[], liveInit names⟩ evs).outs = liveSpec names ((liveTimes 0 evs).zip (livePuts evs)) ∧
    (liveRun ⟨[], liveInit names⟩ evs).queue = (livePuts evs).drop (liveTimes 0 evs).length := by
  refine ⟨?_, ?_⟩
  · rw [liveSpec_nil]; simpa using liveRun_outs names [] [] evs
  · simpa using liveRun_queue ⟨[], liveInit names⟩ evs

/-- **Schedule.**  When the queue has been emptied the values depend only on what was put, not on when the triggers came. -/
theorem C117_schedule (names : List String) (evs evs' : List (LiveEv V)) (h : livePuts evs = livePuts evs')
    (h1 : (liveRun ⟨[], liveInit names⟩ evs).queue = []) (h2 : (liveRun ⟨[], liveInit names⟩ evs').queue = []) (n : String) :
    ((liveRun ⟨[], liveInit names⟩ evs).outs n).map Prod.fst = ((liveRun ⟨[], liveInit names⟩ evs').outs n).map Prod.fst := by
  have key : ∀ e : List (LiveEv V), (liveRun ⟨[], liveInit names⟩ e).queue = [] →
      ((liveRun ⟨[], liveInit names⟩ e).outs n).map Prod.fst =
        if n ∈ names then some ((((livePuts e).filter fun m => m.1 == n).getLast?).map Prod.snd) else none := by
    intro e he
    obtain ⟨a, b⟩ := C117_values names e
    rw [b, List.drop_eq_nil_iff] at he
    have hl : (liveTimes 0 e).length = (livePuts e).length := by have := liveTimes_le 0 e; omega
    rw [a]
    unfold liveSpec
    by_cases hn : n ∈ names
    · rw [if_pos hn, if_pos hn]
      have hz : ((liveTimes 0 e).zip (livePuts e)).map Prod.snd = livePuts e := List.map_snd_zip (Nat.le_of_eq hl.symm)
      have hf : (livePuts e).filter (fun m => m.1 == n) = (((liveTimes 0 e).zip (livePuts e)).filter fun x => x.2.1 == n).map Prod.snd := by
        conv_lhs => rw [← hz]
        rw [List.filter_map]; rfl
      unfold lastNamed
      rw [hf, List.getLast?_map]
      cases (List.filter (fun x => x.2.1 == n) ((liveTimes 0 e).zip (livePuts e))).getLast? <;> simp
    · rw [if_neg hn, if_neg hn]; rfl
  rw [key evs h1, key evs' h2, h]

/-- **Refresh.**  A trigger at a new time `t` refreshes exactly the outputs for which it took a pair. -/
theorem C117_refresh (s : LiveState V) (t : ℤ) (k : ℕ) (n : String) (v : Option V) (t0 : ℤ) (hn : s.outs n = some (v, t0)) (ht : t0 ≠ t) :
    (∃ v', (liveStep s (.trigger t k)).outs n = some (v', t)) ↔ ∃ m ∈ s.queue.take k, m.1 = n := by
  have gen : ∀ (ms : List (LiveMsg V)) (outs : LiveOuts V) (v : Option V) (t0 : ℤ), outs n = some (v, t0) →
      ∃ v', ms.foldl (liveSet t) outs n = some (v', if ∃ m ∈ ms, m.1 = n then t else t0) := by
    intro ms
    induction ms with
    | nil => intro outs v t0 h; exact ⟨v, by simpa using h⟩
    | cons m ms ih =>
      intro outs v t0 h
      by_cases hm : m.1 = n
      · have : liveSet t outs m n = some (some m.2, t) := by
          unfold liveSet; rw [if_pos (by rw [hm, h]; rfl)]; simp [hm]
        obtain ⟨v', e⟩ := ih _ _ _ this
        refine ⟨v', ?_⟩
        rw [List.foldl_cons, e, if_pos (⟨m, List.mem_cons_self, hm⟩ : ∃ m' ∈ m :: ms, m'.1 = n)]
        split_ifs <;> rfl
      · have : liveSet t outs m n = some (v, t0) := by
          unfold liveSet
          split_ifs
          · have : ¬n = m.1 := fun e => hm e.symm
            simp [this, h]
          · exact h
        obtain ⟨v', e⟩ := ih _ _ _ this
        refine ⟨v', ?_⟩
        rw [List.foldl_cons, e]
        have : (∃ m' ∈ m :: ms, m'.1 = n) ↔ ∃ m' ∈ ms, m'.1 = n := by simp [hm]
        simp only [this]
  obtain ⟨v', e⟩ := gen (s.queue.take k) s.outs v t0 hn
  simp only [liveStep]
  rw [e]
  by_cases h : ∃ m ∈ s.queue.take k, m.1 = n
  · simp [h]
  · rw [if_neg h]
    exact ⟨fun ⟨w, hw⟩ => absurd (by simpa using congrArg (Option.map Prod.snd) hw) ht, fun h' => absurd h' h⟩

/-- **Overwriting.**  Of several values for one output that are taken together only the last is ever seen. -/
theorem C117_overwritten (t : ℤ) (outs : LiveOuts V) (n : String) (v w : V) (ms : List (LiveMsg V)) (hn : (outs n).isSome) (hm : ∀ m ∈ ms, m.1 ≠ n) :
    (((n, v) :: ms ++ [(n, w)]).foldl (liveSet t) outs) n = some (some w, t) ∧ (((n, w) :: ms).foldl (liveSet t) outs) n = some (some w, t) := by
  have keep : ∀ (ms : List (LiveMsg V)) (o : LiveOuts V), (∀ m ∈ ms, m.1 ≠ n) → ms.foldl (liveSet t) o n = o n := by
    intro ms
    induction ms with
    | nil => intro o _; rfl
    | cons m ms ih =>
      intro o h
      rw [List.foldl_cons, ih _ fun m' hm' => h m' (List.mem_cons_of_mem _ hm')]
      unfold liveSet
      split_ifs
      · have : ¬n = m.1 := fun e => h m List.mem_cons_self e.symm
        simp [this]
      · rfl
  have set : ∀ (o : LiveOuts V) (x : V), (o n).isSome → liveSet t o (n, x) n = some (some x, t) := by
    intro o x h; unfold liveSet; rw [if_pos h]; simp
  refine ⟨?_, ?_⟩
  · rw [List.foldl_append, List.foldl_cons, List.foldl_nil]
    apply set
    rw [List.foldl_cons, keep ms _ hm, set outs v hn]; rfl
  · rw [List.foldl_cons, keep ms _ hm, set outs w hn]

end

/-! ### lines of the terminal -/

def IsWord (w : List Char) : Prop := w ≠ [] ∧ ∀ c ∈ w, c.isWhitespace = false
def IsBlank (b : List Char) : Prop := ∀ c ∈ b, c.isWhitespace = true

/-- A line: blanks before each word (none are needed before the first), and blanks at the end. -/
def termText (l : List (List Char × List Char)) (fin : List Char) : List Char := l.flatMap (fun x => x.1 ++ x.2) ++ fin

theorem splitGo_word (cur w r : List Char) (hw : ∀ c ∈ w, c.isWhitespace = false) : splitBlankGo cur (w ++ r) = splitBlankGo (cur ++ w) r := by
  induction w generalizing cur with
  | nil => simp
  | cons c w ih =>
    rw [List.cons_append, splitBlankGo, if_neg (by simp [hw c List.mem_cons_self]), ih _ fun d hd => hw d (List.mem_cons_of_mem _ hd)]
    simp

theorem splitGo_blank (b r : List Char) (hb : IsBlank b) : splitBlankGo [] (b ++ r) = splitBlankGo [] r := by
  induction b with
  | nil => rfl
  | cons c b ih =>
    rw [List.cons_append, splitBlankGo, if_pos (hb c List.mem_cons_self)]
    simpa using ih fun d hd => hb d (List.mem_cons_of_mem _ hd)

theorem splitGo_emit (cur b r : List Char) (hc : cur ≠ []) (hb : IsBlank b) (hb0 : b ≠ [] ∨ r = []) :
    splitBlankGo cur (b ++ r) = cur :: splitBlankGo [] r := by
  cases b with
  | nil =>
    have hr := hb0.resolve_left (fun h => h rfl)
    subst hr
    simp [splitBlankGo, hc]
  | cons c b =>
    rw [List.cons_append, splitBlankGo, if_pos (hb c List.mem_cons_self), if_neg hc,
      splitGo_blank b r fun d hd => hb d (List.mem_cons_of_mem _ hd)]
    rfl

/-- Words are what is between blanks, however many there are. -/
theorem splitBlank_line (l : List (List Char × List Char)) (fin : List Char) (hl : ∀ x ∈ l, IsBlank x.1 ∧ IsWord x.2)
    (hs : ∀ x ∈ l.tail, x.1 ≠ []) (hf : IsBlank fin) : splitBlank (termText l fin) = l.map Prod.snd := by
  have tl : ∀ (l : List (List Char × List Char)) (cur : List Char), cur ≠ [] → (∀ x ∈ l, IsBlank x.1 ∧ IsWord x.2) → (∀ x ∈ l, x.1 ≠ []) →
      splitBlankGo cur (termText l fin) = cur :: l.map Prod.snd := by
    intro l
    induction l with
    | nil =>
      intro cur hc _ _
      have h := splitGo_emit cur fin [] hc hf (Or.inr rfl)
      simpa [termText, splitBlankGo] using h
    | cons x l ih =>
      intro cur hc h1 h2
      have hx := h1 x List.mem_cons_self
      have e : termText (x :: l) fin = x.1 ++ (x.2 ++ termText l fin) := by simp [termText]
      rw [e, splitGo_emit cur x.1 _ hc hx.1 (Or.inl (h2 x List.mem_cons_self)), splitGo_word [] x.2 _ hx.2.2, List.nil_append,
        ih x.2 hx.2.1 (fun y hy => h1 y (List.mem_cons_of_mem _ hy)) fun y hy => h2 y (List.mem_cons_of_mem _ hy)]
      rfl
  unfold splitBlank
  cases l with
  | nil =>
    have h := splitGo_blank fin [] hf
    simpa [termText, splitBlankGo] using h
  | cons x l =>
    have hx := hl x List.mem_cons_self
    have e : termText (x :: l) fin = x.1 ++ (x.2 ++ termText l fin) := by simp [termText]
    rw [e, splitGo_blank x.1 _ hx.1, splitGo_word [] x.2 _ hx.2.2, List.nil_append,
      tl l x.2 hx.2.1 (fun y hy => hl y (List.mem_cons_of_mem _ hy)) hs]
    rfl

/-- One word is sent with `False` (except `help`), two words as name and text, anything else is refused. -/
theorem C117_terminal (l : List (List Char × List Char)) (fin : List Char) (hl : ∀ x ∈ l, IsBlank x.1 ∧ IsWord x.2)
    (hs : ∀ x ∈ l.tail, x.1 ≠ []) (hf : IsBlank fin) :
    (∀ b w, l = [(b, w)] → termLine (termText l fin) = if w = "help".toList then none else some (w, .flag)) ∧
    (∀ b w b' v, l = [(b, w), (b', v)] → termLine (termText l fin) = some (w, .text v)) ∧
    (l.length = 0 ∨ 3 ≤ l.length → termLine (termText l fin) = none) := by
  have h := splitBlank_line l fin hl hs hf
  refine ⟨?_, ?_, ?_⟩
  · rintro b w rfl
    unfold termLine; rw [h]; rfl
  · rintro b w b' v rfl
    unfold termLine; rw [h]; rfl
  · intro hn
    unfold termLine; rw [h]
    match l, hn with
    | [], _ => rfl
    | [_], hn => simp at hn
    | [_, _], hn => simp at hn
    | _ :: _ :: _ :: _, _ => rfl

/-- So no value with a blank, and no flag named `help`, can be given. -/
theorem C117_no_blank (line w v : List Char) (h : termLine line = some (w, .text v)) : (∀ c ∈ v, c.isWhitespace = false) ∧ ∀ c ∈ w, c.isWhitespace = false := by
  have gen : ∀ (line cur : List Char), (∀ c ∈ cur, c.isWhitespace = false) → ∀ x ∈ splitBlankGo cur line, ∀ c ∈ x, c.isWhitespace = false := by
    intro line
    induction line with
    | nil =>
      intro cur hc x hx
      simp only [splitBlankGo] at hx
      split_ifs at hx
      · cases hx
      · rw [List.mem_singleton.1 hx]; exact hc
    | cons c line ih =>
      intro cur hc x hx
      simp only [splitBlankGo] at hx
      split_ifs at hx with h1 h2
      · exact ih [] (by simp) x (by simpa using hx)
      · rcases List.mem_append.1 hx with hx | hx
        · rw [List.mem_singleton.1 hx]; exact hc
        · exact ih [] (by simp) x hx
      · refine ih (cur ++ [c]) ?_ x hx
        intro d hd
        rcases List.mem_append.1 hd with hd | hd
        · exact hc d hd
        · rw [List.mem_singleton.1 hd]; simpa using h1
  have g := gen line [] (by simp)
  unfold termLine splitBlank at h
  split at h
  · split_ifs at h; cases h
  · rename_i a b e
    cases h
    rw [e] at g
    exact ⟨g v (by simp), g w (by simp)⟩
  · cases h

/-- Two values for one output, with an unknown name between them; the second trigger finds the queue empty too early. -/
example : (liveRun ⟨[], liveInit ["thr"]⟩ [.put ("thr", 1), .trigger 10 1, .put ("x", 5), .put ("thr", 2), .trigger 20 1]).outs "thr" = some (some 1, 10) ∧
    (liveRun ⟨[], liveInit ["thr"]⟩ [.put ("thr", 1), .trigger 10 1, .put ("x", 5), .put ("thr", 2), .trigger 20 1, .trigger 30 1]).outs "thr" =
      some (some 2, 30) := by decide

example : termLine "  thr1   0.2 ".toList = some ("thr1".toList, .text "0.2".toList) ∧ termLine "in_save".toList = some ("in_save".toList, .flag) ∧
    termLine "help".toList = none ∧ termLine "save my file".toList = none := by decide

end Specula
