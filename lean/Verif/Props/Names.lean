import Verif.Model.Names
import Mathlib.Tactic.IntervalCases

/-!
# C49: calibration file names, C50: class names and modules
-/

namespace Specula

/-! ### C49 -/

/-- Specification: the directory of a data type, without slashes. -/
def dirWord (key : String) : Option (List Char) := (subdirOf key).map fun sub => sub.filter (· ≠ '/')

/-- Specification: a name without its extension. -/
def stem (name : List Char) : List Char := if fitsExt.isSuffixOf name then name.take (name.length - 5) else name

/-- Specification: the root with a slash at the end (nothing for the current directory). -/
def rootPrefix (root : List Char) : List Char := if root = [] ∨ root.getLast? = some '/' then root else root ++ ['/']

theorem subdir_shape (key : String) (sub : List Char) (h : subdirOf key = some sub) :
    sub.filter (· ≠ '/') ≠ [] ∧ (sub = sub.filter (· ≠ '/') ∨ sub = sub.filter (· ≠ '/') ++ ['/']) := by
  have tab : ∀ p ∈ subdirTable, p.2.toList.filter (· ≠ '/') ≠ [] ∧
      (p.2.toList = p.2.toList.filter (· ≠ '/') ∨ p.2.toList = p.2.toList.filter (· ≠ '/') ++ ['/']) := by decide +kernel
  unfold subdirOf at h
  cases hf : subdirTable.find? fun p => p.1 == key with
  | none => rw [hf] at h; cases h
  | some p =>
    rw [hf] at h
    cases h
    exact tab p (List.mem_of_find?_eq_some hf)

theorem stem_ext (name : List Char) (dir : List Char) :
    (if fitsExt.isSuffixOf (dir ++ '/' :: name) then dir ++ '/' :: name else dir ++ '/' :: name ++ fitsExt) = dir ++ '/' :: stem name ++ fitsExt := by
  have hiff : fitsExt.isSuffixOf (dir ++ '/' :: name) = fitsExt.isSuffixOf name := by
    rw [Bool.eq_iff_iff, List.isSuffixOf_iff_suffix, List.isSuffixOf_iff_suffix]
    constructor
    · intro h
      rcases Nat.lt_or_ge name.length fitsExt.length with hlt | hge
      · -- the slash would be inside the extension
        exfalso
        have h1 : '/' :: name <:+ dir ++ '/' :: name := List.suffix_append _ _
        have h2 : '/' :: name <:+ fitsExt := List.suffix_of_suffix_length_le h1 h (by simp only [List.length_cons]; omega)
        have : '/' ∈ fitsExt := h2.subset (List.mem_cons_self ..)
        revert this
        decide
      · have h1 : name <:+ dir ++ '/' :: name := by
          have : dir ++ '/' :: name = (dir ++ ['/']) ++ name := by simp
          rw [this]
          exact List.suffix_append _ _
        exact List.suffix_of_suffix_length_le h h1 hge
    · intro h
      exact h.trans (by
        have : dir ++ '/' :: name = (dir ++ ['/']) ++ name := by simp
        rw [this]
        exact List.suffix_append _ _)
  rw [hiff]
  unfold stem
  by_cases h : fitsExt.isSuffixOf name = true
  · rw [if_pos h, if_pos h]
    obtain ⟨t, ht⟩ := List.isSuffixOf_iff_suffix.1 h
    have hl : fitsExt.length = 5 := by decide
    have : name.take (name.length - 5) = t := by
      rw [← ht, List.length_append, hl, Nat.add_sub_cancel]
      exact List.take_left' rfl
    rw [this, ← ht]
    simp
  · rw [if_neg h, if_neg h]

/-- The path of a calibration file for a relative name: root, directory, name, with exactly one extension added if missing. -/
theorem C49_path (root : List Char) (key : String) (name word : List Char) (hk : dirWord key = some word) (hrel : name.head? ≠ some '/') :
    calibFile root key name = some (rootPrefix root ++ word ++ '/' :: stem name ++ fitsExt) := by
  unfold dirWord at hk
  cases hs : subdirOf key with
  | none => rw [hs] at hk; cases hk
  | some sub =>
    rw [hs] at hk
    simp only [Option.map_some, Option.some.injEq] at hk
    obtain ⟨hne, hsh⟩ := subdir_shape key sub hs
    rw [hk] at hne hsh
    have hslash : ∀ ch ∈ word, ch ≠ '/' := by
      intro ch hch
      rw [← hk, List.mem_filter] at hch
      simpa using hch.2
    have hhead : sub.head? ≠ some '/' := by
      cases word with
      | nil => exact absurd rfl hne
      | cons a w =>
        have ha := hslash a (List.mem_cons_self ..)
        rcases hsh with h | h <;> rw [h] <;> simpa using ha
    have hlast : word.getLast? ≠ some '/' := by
      intro h
      exact hslash '/' (List.mem_of_getLast? h) rfl
    have h1 : posixJoin root sub = rootPrefix root ++ sub := by
      unfold posixJoin rootPrefix
      rw [if_neg hhead]
      split <;> simp
    have h2 : posixJoin (rootPrefix root ++ sub) name = rootPrefix root ++ word ++ '/' :: name := by
      unfold posixJoin
      rw [if_neg hrel]
      rcases hsh with h | h
      · rw [if_neg, h]
        rintro (h3 | h3)
        · rw [List.append_eq_nil_iff] at h3
          exact hne (h ▸ h3.2)
        · rw [h, List.getLast?_append_of_ne_nil _ hne] at h3
          exact hlast h3
      · rw [if_pos (Or.inr (by rw [h, ← List.append_assoc]; simp)), h]
        simp
    unfold calibFile
    rw [hs]
    simp only [Option.map_some]
    rw [h1, h2, stem_ext]

/-- Two relative names give the same file exactly if the directories are the same and the names are the same up to the extension. -/
theorem C49_distinct (root : List Char) (k k' : String) (n n' w w' : List Char) (hk : dirWord k = some w) (hk' : dirWord k' = some w')
    (hn : n.head? ≠ some '/') (hn' : n'.head? ≠ some '/') : calibFile root k n = calibFile root k' n' ↔ w = w' ∧ stem n = stem n' := by
  rw [C49_path root k n w hk hn, C49_path root k' n' w' hk' hn']
  have hw : ∀ (key : String) (w : List Char), dirWord key = some w → '/' ∉ w := by
    intro key w h
    unfold dirWord at h
    cases hs : subdirOf key with
    | none => rw [hs] at h; cases h
    | some sub =>
      rw [hs] at h
      simp only [Option.map_some, Option.some.injEq] at h
      rw [← h, List.mem_filter]
      simp
  constructor
  · intro h
    simp only [Option.some.injEq, List.append_assoc] at h
    have h := List.append_cancel_left h
    have key : ∀ (a b x y : List Char), '/' ∉ a → '/' ∉ b → a ++ '/' :: x = b ++ '/' :: y → a = b ∧ x = y := by
      intro a
      induction a with
      | nil =>
        intro b x y _ hb h
        cases b with
        | nil => simpa using h
        | cons c b =>
          simp only [List.nil_append, List.cons_append, List.cons.injEq] at h
          exact absurd (h.1 ▸ List.mem_cons_self ..) hb
      | cons c a ih =>
        intro b x y ha hb h
        cases b with
        | nil =>
          simp only [List.nil_append, List.cons_append, List.cons.injEq] at h
          exact absurd (h.1.symm ▸ List.mem_cons_self ..) ha
        | cons d b =>
          simp only [List.cons_append, List.cons.injEq] at h
          obtain ⟨h1, h2⟩ := ih b x y (fun h => ha (List.mem_cons_of_mem _ h)) (fun h => hb (List.mem_cons_of_mem _ h)) h.2
          exact ⟨by rw [h.1, h1], h2⟩
    obtain ⟨h1, h2⟩ := key _ _ _ _ (hw k w hk) (hw k' w' hk') (by simpa using h)
    exact ⟨h1, List.append_cancel_right h2⟩
  · rintro ⟨rfl, h⟩
    rw [h]

/-- The extension may be given or not. -/
theorem C49_extension_optional (root : List Char) (key : String) (name : List Char) (h : fitsExt.isSuffixOf name = false)
    (hrel : name.head? ≠ some '/') : calibFile root key (name ++ fitsExt) = calibFile root key name := by
  cases hk : dirWord key with
  | none =>
    unfold dirWord at hk
    cases hs : subdirOf key with
    | none => simp [calibFile, hs]
    | some s => rw [hs] at hk; cases hk
  | some w =>
    have hst : stem (name ++ fitsExt) = stem name := by
      unfold stem
      rw [if_pos (List.isSuffixOf_iff_suffix.2 (List.suffix_append _ _)), if_neg (by simp [h])]
      have hl : fitsExt.length = 5 := by decide
      rw [List.length_append, hl, Nat.add_sub_cancel, List.take_left' rfl]
    rw [C49_path root key _ w hk hrel, C49_path root key _ w hk, hst]
    cases name with
    | nil => decide
    | cons a n => simpa using hrel

/-- An absolute name is used as it is, whatever the root and the data type. -/
theorem C49_absolute (root root' : List Char) (k k' : String) (name w w' : List Char) (hk : dirWord k = some w) (hk' : dirWord k' = some w')
    (h : name.head? = some '/') : calibFile root k name = calibFile root' k' name := by
  unfold dirWord at hk hk'
  cases hs : subdirOf k with
  | none => rw [hs] at hk; cases hk
  | some s =>
    cases hs' : subdirOf k' with
    | none => rw [hs'] at hk'; cases hk'
    | some s' => simp [calibFile, hs, hs', posixJoin, h]

/-- Types that share a directory share the files: an influence function and its inverse, or a source and a time history, with the same
tag are the same file. -/
theorem C49_shared_directories (root name : List Char) (h : name.head? ≠ some '/') :
    calibFile root "IFunc" name = calibFile root "IFuncInv" name ∧ calibFile root "Source" name = calibFile root "TimeHistory" name ∧
    calibFile root "IirFilterData" name = calibFile root "SsrFilterData" name := by
  refine ⟨(C49_distinct root _ _ name name "ifunc".toList "ifunc".toList ?_ ?_ h h).2 ⟨rfl, rfl⟩,
    (C49_distinct root _ _ name name "data".toList "data".toList ?_ ?_ h h).2 ⟨rfl, rfl⟩,
    (C49_distinct root _ _ name name "filter".toList "filter".toList ?_ ?_ h h).2 ⟨rfl, rfl⟩⟩ <;> decide +kernel

example : calibFile "/calib".toList "Recmat" "tn1".toList = some "/calib/rec/tn1.fits".toList ∧
    calibFile "/calib/".toList "PupData" "tn1.fits".toList = some "/calib/pupils/tn1.fits".toList ∧
    dirWord "Recmat" = some "rec".toList := by decide +kernel

/-! ### C50 -/

theorem upper_mem (ch : Char) (h : ch.isUpper = true) : ch ∈ "ABCDEFGHIJKLMNOPQRSTUVWXYZ".toList := by
  have h1 : 65 ≤ ch.val.toNat ∧ ch.val.toNat ≤ 90 := by
    simp only [Char.isUpper, ge_iff_le, decide_eq_true_eq] at h
    exact ⟨h.1, h.2⟩
  have h2 : ch = Char.ofNat ch.val.toNat := (Char.ofNat_toNat ch).symm
  generalize ch.val.toNat = k at h1 h2
  obtain ⟨ha, hb⟩ := h1
  subst h2
  interval_cases k <;> decide

theorem lowerDigit_mem (ch : Char) (h : isLowerDigit ch = true) : ch ∈ "abcdefghijklmnopqrstuvwxyz0123456789".toList := by
  have h1 : (97 ≤ ch.val.toNat ∧ ch.val.toNat ≤ 122) ∨ (48 ≤ ch.val.toNat ∧ ch.val.toNat ≤ 57) := by
    simp only [isLowerDigit, Char.isLower, Char.isDigit, ge_iff_le, Bool.or_eq_true, Bool.and_eq_true, decide_eq_true_eq] at h
    rcases h with h | h
    · exact Or.inl ⟨h.1, h.2⟩
    · exact Or.inr ⟨h.1, h.2⟩
  have h2 : ch = Char.ofNat ch.val.toNat := (Char.ofNat_toNat ch).symm
  generalize ch.val.toNat = k at h1 h2
  subst h2
  rcases h1 with ⟨ha, hb⟩ | ⟨ha, hb⟩ <;> interval_cases k <;> decide

/-- Letters and digits. -/
def alnum (ch : Char) : Bool := ch.isUpper || isLowerDigit ch

theorem alnum_lower (ch : Char) (h : alnum ch = true) : ch.toLower ≠ '_' := by
  unfold alnum at h
  rw [Bool.or_eq_true] at h
  have hu : ∀ c ∈ "ABCDEFGHIJKLMNOPQRSTUVWXYZ".toList, c.toLower ≠ '_' := by decide
  have hl : ∀ c ∈ "abcdefghijklmnopqrstuvwxyz0123456789".toList, c.toLower ≠ '_' := by decide
  rcases h with h | h
  · exact hu _ (upper_mem ch h)
  · exact hl _ (lowerDigit_mem ch h)

/-- The conversion fails only for names without a capital letter. -/
theorem C50_total (s : List Char) : (camelToSnake s).isSome = true ↔ ∃ ch ∈ s, ch.isUpper = true := by
  have key : ∀ (s cur : List Char) (tail : Bool), camelTokens s cur tail = [] ↔ cur = [] ∧ ∀ ch ∈ s, ch.isUpper = false := by
    intro s
    induction s with
    | nil =>
      intro cur tail
      unfold camelTokens
      by_cases h : cur = [] <;> simp [h]
    | cons a s ih =>
      intro cur tail
      unfold camelTokens
      by_cases ha : a.isUpper = true
      · rw [if_pos ha]
        split
        · simp [ha]
        · rw [ih]; simp [ha]
      · rw [if_neg ha]
        have ha' : a.isUpper = false := by simpa using ha
        split
        · split
          · rename_i hc; rw [ih]; simp [hc, ha']
          · rename_i hc; rw [ih]; simp [hc]
        · split
          · rename_i hc; rw [ih]; simp [hc, ha']
          · rename_i hc; simp [hc]
  have hn : camelToSnake s = none ↔ camelTokens s [] false = [] := by
    unfold camelToSnake
    split
    · rename_i h; simp [h]
    · rename_i h; simp [h]
  have h2 := key s [] false
  constructor
  · intro h
    by_contra hno
    push Not at hno
    have : camelToSnake s = none := hn.2 (h2.2 ⟨rfl, fun ch hch => by simpa using hno ch hch⟩)
    rw [this] at h
    cases h
  · rintro ⟨ch, hch, hu⟩
    cases hc : camelToSnake s with
    | some _ => rfl
    | none =>
      have := (h2.1 (hn.1 hc)).2 ch hch
      rw [hu] at this
      cases this

theorem tokens_flatten (s cur : List Char) (tail : Bool) (hs : ∀ ch ∈ s, alnum ch = true) (hc : cur ≠ []) :
    (camelTokens s cur tail).flatten = cur.reverse ++ s := by
  induction s generalizing cur tail with
  | nil => simp [camelTokens, hc]
  | cons a s ih =>
    have ha := hs a (List.mem_cons_self ..)
    have hs' : ∀ ch ∈ s, alnum ch = true := fun ch h => hs ch (List.mem_cons_of_mem _ h)
    unfold camelTokens
    by_cases hu : a.isUpper = true
    · rw [if_pos hu]
      split
      · rw [List.flatten_cons, ih [a] false hs' (by simp)]
        simp
      · rw [ih (a :: cur) false hs' (by simp)]
        simp
    · rw [if_neg hu]
      have hl : isLowerDigit a = true := by
        unfold alnum at ha
        simpa [hu] using ha
      rw [if_pos hl, if_neg hc, ih (a :: cur) true hs' (by simp)]
      simp

theorem snakeRest_filter (prev : List Char) (ts : List (List Char)) (h : ∀ ch ∈ ts.flatten, alnum ch = true) :
    (snakeRest prev ts).filter (· ≠ '_') = ts.flatten.map Char.toLower := by
  induction ts generalizing prev with
  | nil => rfl
  | cons t ts ih =>
    unfold snakeRest
    rw [List.flatten_cons] at h
    have h1 : ∀ ch ∈ t, alnum ch = true := fun ch hc => h ch (List.mem_append_left _ hc)
    have h2 : ∀ ch ∈ ts.flatten, alnum ch = true := fun ch hc => h ch (List.mem_append_right _ hc)
    have h3 : (t.map Char.toLower).filter (· ≠ '_') = t.map Char.toLower := by
      rw [List.filter_eq_self]
      intro x hx
      obtain ⟨y, hy, rfl⟩ := List.mem_map.1 hx
      simpa using alnum_lower y (h1 y hy)
    rw [List.filter_append, List.filter_append, ih t h2, h3, List.flatten_cons, List.map_append]
    split <;> simp

/-- For names of letters and digits starting with a capital, the module name without underscores is the name in lowercase; so two such
names share a module only if they differ in capitals only. -/
theorem C50_lowercase (s m : List Char) (hs : ∀ ch ∈ s, alnum ch = true) (h0 : (s.head?.map Char.isUpper).getD false = true)
    (h : camelToSnake s = some m) : m.filter (· ≠ '_') = s.map Char.toLower := by
  cases s with
  | nil => simp at h0
  | cons a s =>
    have ha : a.isUpper = true := by simpa using h0
    have htok : (camelTokens (a :: s) [] false).flatten = a :: s := by
      unfold camelTokens
      rw [if_pos ha, if_neg (by simp), tokens_flatten s [a] false (fun ch hc => hs ch (List.mem_cons_of_mem _ hc)) (by simp)]
      simp
    unfold camelToSnake at h
    split at h
    · cases h
    · rename_i t ts hts
      cases h
      rw [hts] at htok
      have h1 : ∀ ch ∈ (t :: ts).flatten, alnum ch = true := by rw [htok]; exact hs
      have h2 : (t.map Char.toLower).filter (· ≠ '_') = t.map Char.toLower := by
        rw [List.filter_eq_self]
        intro x hx
        obtain ⟨y, hy, rfl⟩ := List.mem_map.1 hx
        simpa using alnum_lower y (h1 y (by simp [hy]))
      rw [List.filter_append, h2, snakeRest_filter t ts (fun ch hc => h1 ch (by rw [List.flatten_cons]; exact List.mem_append_right _ hc)),
        ← List.map_append, ← List.flatten_cons, htok]

theorem C50_only_case (s s' m : List Char) (hs : ∀ ch ∈ s, alnum ch = true) (hs' : ∀ ch ∈ s', alnum ch = true)
    (h0 : (s.head?.map Char.isUpper).getD false = true) (h0' : (s'.head?.map Char.isUpper).getD false = true)
    (h : camelToSnake s = some m) (h' : camelToSnake s' = some m) : s.map Char.toLower = s'.map Char.toLower := by
  rw [← C50_lowercase s m hs h0 h, ← C50_lowercase s' m hs' h0' h']

/-- A capitalised word: one capital and then at least one lowercase letter. -/
def CapWord (w : List Char) : Prop := ∃ u l, w = u :: l ∧ u.isUpper = true ∧ l ≠ [] ∧ ∀ ch ∈ l, ch.isLower = true

theorem tokens_lower (l s cur : List Char) (tail : Bool) (hl : ∀ ch ∈ l, ch.isLower = true) (hne : l ≠ []) (hc : cur ≠ []) :
    camelTokens (l ++ s) cur tail = camelTokens s (l.reverse ++ cur) true := by
  have hup : ∀ ch : Char, ch.isLower = true → ch.isUpper = false := by
    intro ch h
    have hm := lowerDigit_mem ch (by simp [isLowerDigit, h])
    have : ∀ c ∈ "abcdefghijklmnopqrstuvwxyz0123456789".toList, c.isUpper = false := by decide
    exact this ch hm
  induction l generalizing cur tail with
  | nil => exact absurd rfl hne
  | cons a l ih =>
    have ha := hl a (List.mem_cons_self ..)
    rw [List.cons_append]
    conv_lhs => unfold camelTokens
    rw [if_neg (by simp [hup a ha]), if_pos (by simp [isLowerDigit, ha]), if_neg hc]
    by_cases hl0 : l = []
    · subst hl0; simp
    · rw [ih (a :: cur) true (fun ch h => hl ch (List.mem_cons_of_mem _ h)) hl0 (by simp)]
      simp

theorem tokens_words (ws : List (List Char)) (hw : ∀ w ∈ ws, CapWord w) (cur : List Char) (hc : cur ≠ []) :
    camelTokens ws.flatten cur true = cur.reverse :: ws := by
  induction ws generalizing cur with
  | nil => simp [camelTokens, hc]
  | cons w ws ih =>
    obtain ⟨u, l, rfl, hu, hl, hll⟩ := hw _ (List.mem_cons_self ..)
    rw [List.flatten_cons, List.cons_append]
    conv_lhs => unfold camelTokens
    rw [if_pos hu, if_pos ⟨hc, rfl⟩, tokens_lower l _ [u] false hll hl (by simp), ih (fun w h => hw w (List.mem_cons_of_mem _ h)) _ (by simp)]
    simp

/-- Names made of capitalised words become the words in lowercase joined by underscores. -/
theorem C50_words (w : List Char) (ws : List (List Char)) (hw : ∀ v ∈ w :: ws, CapWord v) :
    camelToSnake (w :: ws).flatten = some (['_'].intercalate ((w :: ws).map (·.map Char.toLower))) := by
  have htok : camelTokens (w :: ws).flatten [] false = w :: ws := by
    obtain ⟨u, l, rfl, hu, hl, hll⟩ := hw _ (List.mem_cons_self ..)
    rw [List.flatten_cons, List.cons_append]
    conv_lhs => unfold camelTokens
    rw [if_pos hu, if_neg (by simp), tokens_lower l _ [u] false hll hl (by simp), tokens_words ws (fun w h => hw w (List.mem_cons_of_mem _ h)) _ (by simp)]
    simp
  have hdig : ∀ v ∈ w :: ws, (v.getLast?.map Char.isDigit).getD false = false := by
    intro v hv
    obtain ⟨u, l, rfl, hu, hl, hll⟩ := hw v hv
    cases hg : (u :: l).getLast? with
    | none => rfl
    | some x =>
      have hx : x ∈ l := by
        have : (u :: l).getLast? = l.getLast? := by
          cases l with
          | nil => exact absurd rfl hl
          | cons a l => rw [List.getLast?_cons_cons]
        rw [this] at hg
        exact List.mem_of_getLast? hg
      have hlow := hll x hx
      simp only [Option.map_some, Option.getD_some]
      simp only [Char.isLower, Char.isDigit, ge_iff_le, Bool.and_eq_true, decide_eq_true_eq] at hlow ⊢
      rw [Bool.and_eq_false_iff]
      right
      rw [decide_eq_false_iff_not]
      intro hle
      exact absurd (UInt32.le_trans hlow.1 hle) (by decide)
  have hrest : ∀ (prev : List Char) (ts : List (List Char)), (∀ v ∈ prev :: ts, (v.getLast?.map Char.isDigit).getD false = false) →
      prev.map Char.toLower ++ snakeRest prev ts = ['_'].intercalate ((prev :: ts).map (·.map Char.toLower)) := by
    intro prev ts
    induction ts generalizing prev with
    | nil => intro _; simp [snakeRest, List.intercalate]
    | cons t ts ih =>
      intro h
      unfold snakeRest
      rw [h prev (List.mem_cons_self ..)]
      have := ih t (fun v hv => h v (List.mem_cons_of_mem _ hv))
      simp only [List.map_cons, List.intercalate, List.intersperse, List.flatten_cons] at this ⊢
      simp [this]
  unfold camelToSnake
  rw [htok]
  dsimp only
  rw [hrest w ws hdig]

/-- Different names of that shape have different modules. -/
theorem C50_distinct (ws ws' : List (List Char)) (hw : ∀ v ∈ ws, CapWord v) (hw' : ∀ v ∈ ws', CapWord v) (hne : ws ≠ []) (hne' : ws' ≠ [])
    (h : camelToSnake ws.flatten = camelToSnake ws'.flatten) : ws = ws' := by
  have hlow : ∀ v : List Char, CapWord v → '_' ∉ v.map Char.toLower := by
    rintro v ⟨u, l, rfl, hu, -, hll⟩ hm
    obtain ⟨y, hy, hy2⟩ := List.mem_map.1 hm
    refine alnum_lower y ?_ hy2
    rcases List.mem_cons.1 hy with rfl | hy
    · simp [alnum, hu]
    · simp [alnum, isLowerDigit, hll y hy]
  have hinj : ∀ v v' : List Char, CapWord v → CapWord v' → v.map Char.toLower = v'.map Char.toLower → v = v' := by
    rintro v v' ⟨u, l, rfl, hu, -, hll⟩ ⟨u', l', rfl, hu', -, hll'⟩ h
    simp only [List.map_cons, List.cons.injEq] at h
    have h1 : ∀ a ∈ "ABCDEFGHIJKLMNOPQRSTUVWXYZ".toList, ∀ b ∈ "ABCDEFGHIJKLMNOPQRSTUVWXYZ".toList, a.toLower = b.toLower → a = b := by decide
    have h2 : ∀ (l : List Char), (∀ ch ∈ l, ch.isLower = true) → l.map Char.toLower = l := by
      intro l hl
      conv_rhs => rw [← List.map_id l]
      apply List.map_congr_left
      intro ch hch
      have : ∀ a ∈ "abcdefghijklmnopqrstuvwxyz0123456789".toList, a.toLower = id a := by decide
      exact this ch (lowerDigit_mem ch (by simp [isLowerDigit, hl ch hch]))
    rw [h2 l hll, h2 l' hll'] at h
    rw [h1 u (upper_mem u hu) u' (upper_mem u' hu') h.1, h.2]
  cases ws with
  | nil => exact absurd rfl hne
  | cons w ws =>
    cases ws' with
    | nil => exact absurd rfl hne'
    | cons w' ws' =>
      rw [C50_words w ws hw, C50_words w' ws' hw', Option.some.injEq] at h
      have h1 := List.splitOn_intercalate '_' (ls := (w :: ws).map (·.map Char.toLower)) (by
        intro l hl
        obtain ⟨v, hv, rfl⟩ := List.mem_map.1 hl
        exact hlow v (hw v hv)) (by simp)
      have h2 := List.splitOn_intercalate '_' (ls := (w' :: ws').map (·.map Char.toLower)) (by
        intro l hl
        obtain ⟨v, hv, rfl⟩ := List.mem_map.1 hl
        exact hlow v (hw' v hv)) (by simp)
      rw [h] at h1
      have h3 : (w :: ws).map (·.map Char.toLower) = (w' :: ws').map (·.map Char.toLower) := h1.symm.trans h2
      have key : ∀ (a b : List (List Char)), (∀ v ∈ a, CapWord v) → (∀ v ∈ b, CapWord v) →
          a.map (·.map Char.toLower) = b.map (·.map Char.toLower) → a = b := by
        intro a
        induction a with
        | nil => intro b _ _ h; cases b with
          | nil => rfl
          | cons => simp at h
        | cons v a ih =>
          intro b ha hb h
          cases b with
          | nil => simp at h
          | cons v' b =>
            simp only [List.map_cons, List.cons.injEq] at h
            rw [hinj v v' (ha v (List.mem_cons_self ..)) (hb v' (List.mem_cons_self ..)) h.1,
              ih b (fun x hx => ha x (List.mem_cons_of_mem _ hx)) (fun x hx => hb x (List.mem_cons_of_mem _ hx)) h.2]
      exact key _ _ hw hw' h3

/-- Other names do collide: acronyms, digits before a capital, underscores. -/
theorem C50_collisions : camelToSnake "CCD".toList = camelToSnake "Ccd".toList ∧ camelToSnake "M2C".toList = camelToSnake "M2c".toList ∧
    camelToSnake "Foo_Bar".toList = camelToSnake "FooBar".toList ∧ camelToSnake "myFoo".toList = camelToSnake "Foo".toList := by decide +kernel

/-- A class is taken from the first package that has the module of its name, and nowhere else: if that module does not define it the import
fails although another package may. -/
theorem C50_import (world : String → List Char → Option (List (List Char))) (additional : List String) (cls m : List Char)
    (hm : camelToSnake cls = some m) (p : String) :
    importClass world additional cls = some p ↔
      ∃ before after, ["specula.processing_objects", "specula.data_objects", "specula.display"] ++ additional = before ++ p :: after ∧
        (∀ q ∈ before, world q m = none) ∧ ∃ names, world p m = some names ∧ cls ∈ names := by
  unfold importClass
  rw [hm, Option.bind_some]
  generalize ["specula.processing_objects", "specula.data_objects", "specula.display"] ++ additional = l
  constructor
  · intro h
    cases hf : l.find? fun p => (world p m).isSome with
    | none => rw [hf] at h; cases h
    | some q =>
      rw [hf, Option.bind_some] at h
      split at h
      · rename_i hmem
        cases h
        obtain ⟨hq, as, bs, hl, has⟩ := List.find?_eq_some_iff_append.1 hf
        refine ⟨as, bs, hl, ?_, ?_⟩
        · intro q hq
          have := has q hq
          simpa using this
        · obtain ⟨names, hn⟩ := Option.isSome_iff_exists.1 hq
          exact ⟨names, hn, by rw [hn] at hmem; exact hmem⟩
      · cases h
  · rintro ⟨as, bs, hl, has, names, hn, hmem⟩
    have hf : l.find? (fun p => (world p m).isSome) = some p := by
      rw [List.find?_eq_some_iff_append]
      exact ⟨by simp [hn], as, bs, hl, fun q hq => by simp [has q hq]⟩
    rw [hf, Option.bind_some, hn]
    simp [hmem]

example : camelToSnake "AtmoInfiniteEvolutionUpDown".toList = some "atmo_infinite_evolution_up_down".toList ∧
    camelToSnake "IirFilterData".toList = some "iir_filter_data".toList ∧ camelToSnake "M2C".toList = some "m2c".toList ∧
    camelToSnake "IFunc".toList = some "ifunc".toList ∧ camelToSnake "base".toList = none := by decide +kernel

example : CapWord "Atmo".toList := ⟨'A', "tmo".toList, by decide⟩

end Specula
