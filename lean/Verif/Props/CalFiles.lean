import Mathlib.Data.List.Basic
import Mathlib.Data.List.Infix
import Mathlib.Data.List.Nodup
import Verif.Model.CalFiles
/-
C116: files written by the calibrators.
-/
namespace Specula

section
variable {V : Type}

/-! ### operations on the disk -/

def DiskOp.target : DiskOp V → Option (List Char)
  | .mkdirs _ => none
  | .write p _ => some p

theorem diskStep_frame (ow : Bool) (s : Disk V) (op : DiskOp V) (q : List Char) (h : op.target ≠ some q) :
    (diskStep ow s op).1.files q = s.files q := by
  cases op with
  | mkdirs d => simp only [diskStep]; split_ifs <;> rfl
  | write p v =>
    simp only [diskStep]
    split_ifs
    · rfl
    · have : q ≠ p := fun e => h (by rw [e]; rfl)
      simp [this]

/-- Whatever happens, files that are not targets stay as they are. -/
theorem C116_frame (ow : Bool) (s : Disk V) (ops : List (DiskOp V)) (q : List Char) (h : ∀ op ∈ ops, op.target ≠ some q) :
    (diskRun ow s ops).1.files q = s.files q := by
  induction ops generalizing s with
  | nil => rfl
  | cons op ops ih =>
    have h1 := diskStep_frame ow s op q (h op List.mem_cons_self)
    simp only [diskRun]
    split_ifs
    · rw [ih _ fun o ho => h o (List.mem_cons_of_mem _ ho), h1]
    · exact h1

/-- Without `overwrite` no file is ever changed or removed, even if the calibrator fails halfway. -/
theorem C116_keeps (s : Disk V) (ops : List (DiskOp V)) (q : List Char) (v : V) (h : s.files q = some v) :
    (diskRun false s ops).1.files q = some v := by
  induction ops generalizing s with
  | nil => exact h
  | cons op ops ih =>
    have h1 : (diskStep false s op).1.files q = some v := by
      cases op with
      | mkdirs d => simp only [diskStep]; split_ifs <;> exact h
      | write p w =>
        simp only [diskStep]
        split_ifs with hc
        · exact h
        · by_cases e : q = p
          · subst e; exact absurd (Or.inr (Or.inr ⟨by rw [h]; rfl, trivial⟩)) hc
          · simp [e, h]
    simp only [diskRun]
    split_ifs
    · exact ih _ h1
    · exact h1

theorem diskRun_append (ow : Bool) (s : Disk V) (a b : List (DiskOp V)) :
    diskRun ow s (a ++ b) = if (diskRun ow s a).2 then diskRun ow (diskRun ow s a).1 b else diskRun ow s a := by
  induction a generalizing s with
  | nil => simp [diskRun]
  | cons op ops ih =>
    simp only [List.cons_append, diskRun]
    split_ifs with h1 h2 h2
    · rw [ih, if_pos h2]
    · rw [ih, if_neg h2]
    · exact absurd h2 (by simp)
    · rfl

/-- Several files, in directories that exist. -/
theorem diskRun_writes (ow : Bool) (l : List (List Char × V)) (s : Disk V)
    (hd : ∀ x ∈ l, x.1 ∉ s.dirs ∧ (posixDirname x.1 = [] ∨ posixDirname x.1 ∈ s.dirs))
    (hf : ow = true ∨ (∀ x ∈ l, s.files x.1 = none) ∧ (l.map Prod.fst).Nodup) :
    ∃ s', diskRun ow s (l.map fun x => DiskOp.write x.1 x.2) = (s', true) ∧ s'.dirs = s.dirs ∧
      (∀ q, q ∉ l.map Prod.fst → s'.files q = s.files q) ∧ ((l.map Prod.fst).Nodup → ∀ x ∈ l, s'.files x.1 = some x.2) := by
  induction l generalizing s with
  | nil => exact ⟨s, rfl, rfl, fun _ _ => rfl, fun _ x hx => absurd hx List.not_mem_nil⟩
  | cons x l ih =>
    have hstep : diskStep ow s (.write x.1 x.2) = ({ s with files := fun q => if q = x.1 then some x.2 else s.files q }, true) := by
      simp only [diskStep]
      rw [if_neg]
      rintro (h | ⟨h1, h2⟩ | ⟨h1, h2⟩)
      · exact (hd x List.mem_cons_self).1 h
      · rcases (hd x List.mem_cons_self).2 with h | h
        · exact h1 h
        · exact h2 h
      · rcases hf with h | ⟨h, -⟩
        · rw [h] at h2; cases h2
        · rw [h x List.mem_cons_self] at h1; cases h1
    obtain ⟨s', e1, e2, e3, e4⟩ := ih { s with files := fun q => if q = x.1 then some x.2 else s.files q }
      (fun y hy => hd y (List.mem_cons_of_mem _ hy)) (by
        rcases hf with h | ⟨h, hn⟩
        · exact Or.inl h
        · refine Or.inr ⟨fun y hy => ?_, (List.nodup_cons.1 hn).2⟩
          have : y.1 ≠ x.1 := fun e => (List.nodup_cons.1 hn).1 (e ▸ List.mem_map_of_mem hy)
          simp only [if_neg this]; exact h y (List.mem_cons_of_mem _ hy))
    refine ⟨s', ?_, e2, ?_, ?_⟩
    · simp only [List.map_cons, diskRun, hstep]; simpa using e1
    · intro q hq
      simp only [List.map_cons, List.mem_cons, not_or] at hq
      rw [e3 q hq.2]; simp [hq.1]
    · intro hn y hy
      rw [List.map_cons, List.nodup_cons] at hn
      rcases List.mem_cons.1 hy with rfl | hy
      · rw [e3 _ hn.1]; simp
      · exact e4 hn.2 y hy

/-! ### paths -/

theorem suffix_of_sep (t x y : List Char) (c : Char) (hc : c ∉ t) (h : t <:+ x ++ c :: y) : t <:+ y := by
  have h2 : (c :: y) <:+ x ++ c :: y := List.suffix_append x (c :: y)
  rcases List.suffix_or_suffix_of_suffix h h2 with h3 | h3
  · rcases List.suffix_cons_iff.1 h3 with h4 | h4
    · exact absurd (by rw [h4]; exact List.mem_cons_self) hc
    · exact h4
  · exact absurd (h3.subset List.mem_cons_self) hc

theorem fitsName_sep (x name : List Char) : fitsName (x ++ '/' :: name) = x ++ '/' :: fitsName name := by
  unfold fitsName
  by_cases h : ".fits".toList.isSuffixOf name = true
  · have h' : ".fits".toList.isSuffixOf (x ++ '/' :: name) = true := by
      rw [List.isSuffixOf_iff_suffix] at h ⊢
      exact h.trans ((List.suffix_cons _ _).trans (List.suffix_append _ _))
    rw [if_pos h, if_pos h']
  · have h' : ¬".fits".toList.isSuffixOf (x ++ '/' :: name) = true := by
      intro h2
      rw [List.isSuffixOf_iff_suffix] at h h2
      exact h (suffix_of_sep _ x name '/' (by decide) h2)
    rw [if_neg h, if_neg h']; simp

theorem fitsName_head (name : List Char) (c : Char) (h : name.head? = some c) : (fitsName name).head? = some c := by
  unfold fitsName; split_ifs
  · exact h
  · cases name with
    | nil => cases h
    | cons a l => simpa using h

theorem fitsName_head_ne (name : List Char) (h : name.head? ≠ some '/') : (fitsName name).head? ≠ some '/' := by
  unfold fitsName; split_ifs
  · exact h
  · cases name with
    | nil => decide
    | cons a l => simpa using h

/-- Testing `dir/name` and adding the extension, or adding the extension and then joining: the same file.  The calibrators do both. -/
theorem C116_same_path (dir name : List Char) : fitsName (posixJoin dir name) = posixJoin dir (fitsName name) := by
  unfold posixJoin
  by_cases h : name.head? = some '/'
  · rw [if_pos h, if_pos (fitsName_head name '/' h)]
  · rw [if_neg h, if_neg (fitsName_head_ne name h)]
    by_cases h2 : dir = [] ∨ dir.getLast? = some '/'
    · rw [if_pos h2, if_pos h2]
      rcases h2 with h2 | h2
      · subst h2; simp
      · obtain ⟨x, rfl⟩ : ∃ x, dir = x ++ ['/'] := ⟨dir.dropLast, (List.dropLast_append_getLast? '/' h2).symm⟩
        have := fitsName_sep x name
        simpa using this
    · rw [if_neg h2, if_neg h2]; exact fitsName_sep dir name

/-- The name with the extension written or not: the same file. -/
theorem C116_extension (name : List Char) : fitsName (fitsName name) = fitsName name ∧ ".fits".toList <:+ fitsName name := by
  have h : ".fits".toList <:+ fitsName name := by
    unfold fitsName; split_ifs with h
    · exact List.isSuffixOf_iff_suffix.1 h
    · exact List.suffix_append _ _
  refine ⟨?_, h⟩
  conv_lhs => unfold fitsName
  rw [if_pos (by exact List.isSuffixOf_iff_suffix.2 h)]
  rfl

theorem dropWhile_slash_free (l r : List Char) (h : '/' ∉ l) : (l ++ r).dropWhile (· != '/') = r.dropWhile (· != '/') := by
  induction l with
  | nil => rfl
  | cons a l ih =>
    have h1 : a ≠ '/' := fun e => h (by rw [e]; exact List.mem_cons_self)
    rw [List.cons_append, List.dropWhile_cons_of_pos (by simpa using h1)]
    exact ih fun h2 => h (List.mem_cons_of_mem _ h2)

theorem posixDirname_sep (x name : List Char) (h : '/' ∉ name) : posixDirname (x ++ '/' :: name) = stripSlashes (x ++ ['/']) := by
  unfold posixDirname
  have : (x ++ '/' :: name).reverse = name.reverse ++ '/' :: x.reverse := by simp
  rw [this, dropWhile_slash_free _ _ (by simpa using h)]
  simp

theorem posixDirname_free (name : List Char) (h : '/' ∉ name) : posixDirname name = [] := by
  unfold posixDirname
  have := dropWhile_slash_free name.reverse [] (by simpa using h)
  rw [List.append_nil] at this
  rw [this]; rfl

theorem self_mem_ancestors (d : List Char) : d ∈ ancestors d := by
  unfold ancestors; exact List.mem_map.2 ⟨0, by simp, rfl⟩

theorem dirname_mem_ancestors (d : List Char) (hd : d ≠ []) : posixDirname d ∈ ancestors d := by
  unfold ancestors
  have : 0 < d.length := List.length_pos_iff.2 hd
  exact List.mem_map.2 ⟨1, by simp; omega, rfl⟩

/-- The directory of `dir/name` is `dir`, or `dir` without the slash at its end. -/
theorem dirname_join (dir name : List Char) (hd : dir ≠ []) (hn : '/' ∉ name) : posixDirname (posixJoin dir name) ∈ ancestors dir := by
  have hh : name.head? ≠ some '/' := by
    intro h; cases name with
    | nil => cases h
    | cons a l => simp only [List.head?_cons, Option.some.injEq] at h; exact hn (by rw [h]; exact List.mem_cons_self)
  unfold posixJoin
  rw [if_neg hh]
  by_cases h2 : dir = [] ∨ dir.getLast? = some '/'
  · rw [if_pos h2]
    have h3 := h2.resolve_left hd
    obtain ⟨x, rfl⟩ : ∃ x, dir = x ++ ['/'] := ⟨dir.dropLast, (List.dropLast_append_getLast? '/' h3).symm⟩
    have e := posixDirname_sep x name hn
    have e2 := posixDirname_sep x [] (by simp)
    have : posixDirname (x ++ ['/'] ++ name) = posixDirname (x ++ ['/']) := by
      rw [e2, List.append_assoc]; exact e
    rw [this]
    exact dirname_mem_ancestors _ hd
  · rw [if_neg h2, posixDirname_sep dir name hn]
    have : stripSlashes (dir ++ ['/']) = dir := by
      have h3 : dir.getLast? ≠ some '/' := fun h => h2 (Or.inr h)
      obtain ⟨x, c, rfl⟩ : ∃ x c, dir = x ++ [c] := ⟨dir.dropLast, dir.getLast hd, (List.dropLast_append_getLast hd).symm⟩
      have hc : c ≠ '/' := by intro e; apply h3; simp [e]
      unfold stripSlashes
      rw [if_neg (by simp [hc])]
      simp [hc]
    rw [this]; exact self_mem_ancestors dir

theorem stripSlashes_length (h : List Char) : (stripSlashes h).length ≤ h.length := by
  unfold stripSlashes; split_ifs
  · exact le_rfl
  · have := (List.dropWhile_sublist (l := h.reverse) (· == '/')).length_le
    simpa using this

theorem posixDirname_length (p : List Char) : (posixDirname p).length ≤ p.length := by
  unfold posixDirname
  refine (stripSlashes_length _).trans ?_
  have := (List.dropWhile_sublist (l := p.reverse) (· != '/')).length_le
  simpa using this

theorem ancestors_length (d a : List Char) (h : a ∈ ancestors d) : a.length ≤ d.length := by
  unfold ancestors at h
  obtain ⟨k, -, rfl⟩ := List.mem_map.1 h
  clear h
  induction k with
  | zero => exact le_rfl
  | succ k ih => rw [Function.iterate_succ_apply']; exact (posixDirname_length _).trans ih

theorem posixDirname_fits (p : List Char) (h : ".fits".toList <:+ p) : (posixDirname p).length < p.length := by
  obtain ⟨x, rfl⟩ := h
  unfold posixDirname
  refine lt_of_le_of_lt (stripSlashes_length _) ?_
  have e : (x ++ ".fits".toList).reverse = ".fits".toList.reverse ++ x.reverse := by simp
  rw [e, dropWhile_slash_free _ _ (by decide)]
  have := (List.dropWhile_sublist (l := x.reverse) (· != '/')).length_le
  simp only [List.length_reverse, List.length_append] at this ⊢
  have : ".fits".toList.length = 5 := rfl
  omega

/-! ### calibrators of one file -/

theorem tag_write (ow : Bool) (s : Disk V) (d p : List Char) (v : V) (hd : d ≠ []) (hfree : ∀ a ∈ ancestors d, s.files a = none)
    (hp : p ∉ s.dirs) (hpa : p ∉ ancestors d) (hdir : posixDirname p ∈ ancestors d ++ s.dirs) (hex : s.files p = none ∨ ow = true) :
    ∃ s', diskRun ow s [.mkdirs d, .write p v] = (s', true) ∧ s'.files p = some v ∧ ∀ q, q ≠ p → s'.files q = s.files q := by
  have h1 : diskStep ow s (.mkdirs d : DiskOp V) = ({ s with dirs := ancestors d ++ s.dirs }, true) := by
    simp only [diskStep]
    rw [if_neg]
    rintro (h | ⟨a, ha, h⟩)
    · exact hd h
    · rw [hfree a ha] at h; cases h
  have h2 : diskStep ow { s with dirs := ancestors d ++ s.dirs } (.write p v) =
      ({ files := fun q => if q = p then some v else s.files q, dirs := ancestors d ++ s.dirs }, true) := by
    simp only [diskStep]
    rw [if_neg]
    rintro (h | ⟨h1, h2⟩ | ⟨h1, h2⟩)
    · rcases List.mem_append.1 h with h | h
      · exact hpa h
      · exact hp h
    · exact h2 hdir
    · rcases hex with h | h
      · rw [h] at h1; cases h1
      · rw [h] at h2; cases h2
  refine ⟨{ files := fun q => if q = p then some v else s.files q, dirs := ancestors d ++ s.dirs }, ?_, ?_, ?_⟩
  · simp only [diskRun, h1, h2]; rfl
  · simp
  · intro q hq; simp [hq]

/-- Reconstructors and interaction matrices: if the constructor accepts the name (without slash) and nobody writes that file during the
calibration, `finalize` does not fail and writes that file and no other. -/
theorem C116_rec (ow : Bool) (s0 s : Disk V) (dir name p : List Char) (v : V) (hc : checkedPath s0 ow dir name = some p)
    (hsame : s.files p = s0.files p) (hd : dir ≠ []) (hn : '/' ∉ name) (hfree : ∀ a ∈ ancestors dir, s.files a = none) (hp : p ∉ s.dirs) :
    p = posixJoin dir (fitsName name) ∧
    ∃ s', diskRun ow s (recOps dir name v) = (s', true) ∧ s'.files p = some v ∧ ∀ q, q ≠ p → s'.files q = s.files q := by
  unfold checkedPath at hc
  split_ifs at hc with h
  cases hc
  refine ⟨C116_same_path dir name, ?_⟩
  have hn' : '/' ∉ fitsName name := by
    unfold fitsName; split_ifs
    · exact hn
    · intro hm; rcases List.mem_append.1 hm with h | h
      · exact hn h
      · exact absurd h (by decide)
  apply tag_write ow s dir _ v hd hfree hp
  · intro ha
    have h1 := ancestors_length _ _ ha
    rw [C116_same_path] at h1
    have h2 := (C116_extension name).2.length_le
    have h5 : ".fits".toList.length = 5 := rfl
    unfold posixJoin at h1
    split_ifs at h1 with g1 g2
    · cases hf : fitsName name with
      | nil => rw [hf] at g1; cases g1
      | cons c l => rw [hf] at g1; simp only [List.head?_cons, Option.some.injEq] at g1; exact hn' (by rw [hf, g1]; exact List.mem_cons_self)
    · rw [List.length_append] at h1; omega
    · rw [List.length_append, List.length_cons] at h1; omega
  · rw [C116_same_path]; exact List.mem_append_left _ (dirname_join dir _ hd hn')
  · rw [hsame]
    cases e : s0.files (fitsName (posixJoin dir name)) with
    | none => exact Or.inl rfl
    | some w => refine Or.inr ?_; rw [e] at h; simpa using h

/-- Slope nulls (tested by the constructor), and sub-apertures, pupils and dark frames (not tested): the file is written exactly if it may be,
also in a subdirectory, which is made. -/
theorem C116_sn (ow : Bool) (s : Disk V) (dir name : List Char) (v : V) (hd : posixDirname (posixJoin dir (fitsName name)) ≠ [])
    (hfree : ∀ a ∈ ancestors (posixDirname (posixJoin dir (fitsName name))), s.files a = none) (hp : posixJoin dir (fitsName name) ∉ s.dirs) :
    if s.files (posixJoin dir (fitsName name)) = none ∨ ow = true then
      ∃ s', diskRun ow s (snOps dir name v) = (s', true) ∧ s'.files (posixJoin dir (fitsName name)) = some v ∧
        ∀ q, q ≠ posixJoin dir (fitsName name) → s'.files q = s.files q
    else (diskRun ow s (snOps dir name v)).2 = false ∧ ∀ q, (diskRun ow s (snOps dir name v)).1.files q = s.files q := by
  split_ifs with h
  · apply tag_write ow s _ _ v hd hfree hp
    · intro ha
      have h1 := ancestors_length _ _ ha
      have h2 : ".fits".toList <:+ posixJoin dir (fitsName name) := by
        rw [← C116_same_path]; exact (C116_extension _).2
      have := posixDirname_fits _ h2
      omega
    · exact List.mem_append_left _ (self_mem_ancestors _)
    · exact h
  · rw [not_or] at h
    have how : ow = false := by simpa using h.2
    have hs : (s.files (posixJoin dir (fitsName name))).isSome = true := by
      cases e : s.files (posixJoin dir (fitsName name)) with
      | none => exact absurd e h.1
      | some w => rfl
    have h1 : diskStep ow s (.mkdirs (posixDirname (posixJoin dir (fitsName name))) : DiskOp V) =
        ({ s with dirs := ancestors (posixDirname (posixJoin dir (fitsName name))) ++ s.dirs }, true) := by
      simp only [diskStep]
      rw [if_neg]
      rintro (h | ⟨a, ha, h⟩)
      · exact hd h
      · rw [hfree a ha] at h; cases h
    have h2 : ∀ D, diskStep ow { s with dirs := D } (.write (posixJoin dir (fitsName name)) v) = ({ s with dirs := D }, false) := by
      intro D
      simp only [diskStep]
      rw [if_pos (Or.inr (Or.inr ⟨hs, how⟩))]
    simp only [snOps, diskRun, h1, h2]
    exact ⟨by simp, fun q => by simp⟩

/-- The constructor of the slope null calibrator tests the very file that `finalize` writes. -/
theorem C116_sn_checked (ow : Bool) (s : Disk V) (dir name p : List Char) (h : checkedPath s ow dir name = some p) :
    p = posixJoin dir (fitsName name) ∧ (s.files p = none ∨ ow = true) := by
  unfold checkedPath at h
  split_ifs at h with hc
  cases h
  refine ⟨C116_same_path dir name, ?_⟩
  cases e : s.files (fitsName (posixJoin dir name)) with
  | none => exact Or.inl rfl
  | some w => refine Or.inr ?_; rw [e] at hc; simpa using hc

/-- An empty `data_dir` never works for names without slash: `makedirs('')` raises at the end of the calibration. -/
theorem C116_empty_dir (ow : Bool) (s : Disk V) (name : List Char) (v : V) :
    diskRun ow s (recOps [] name v) = (s, false) ∧ ('/' ∉ name → diskRun ow s (snOps [] name v) = (s, false)) := by
  have h0 : diskStep ow s (.mkdirs [] : DiskOp V) = (s, false) := by simp [diskStep]
  refine ⟨by simp [recOps, diskRun, h0], fun hn => ?_⟩
  have hn' : '/' ∉ fitsName name := by
    unfold fitsName; split_ifs
    · exact hn
    · intro hm; rcases List.mem_append.1 hm with h | h
      · exact hn h
      · exact absurd h (by decide)
  have : posixDirname (posixJoin [] (fitsName name)) = [] := by
    apply posixDirname_free
    unfold posixJoin
    split_ifs
    · exact hn'
    · simpa using hn'
    · simp at *
  unfold snOps
  rw [this]; simp [diskRun, h0]

/-- A reconstructor or an interaction matrix whose name has a subdirectory that does not exist is lost: the constructor accepts the name and
`finalize` raises. -/
theorem C116_subdirectory : ∃ (s : Disk Unit) (dir name : List Char), (checkedPath s false dir name).isSome ∧
    (diskRun false s (recOps dir name ())).2 = false ∧ (diskRun false s (snOps dir name ())).2 = true := by
  refine ⟨⟨fun _ => none, []⟩, "calib".toList, "a/b".toList, by decide, by decide, by decide⟩

/-! ### reconstructors of several sensors -/

theorem posixJoin_abs (dir y : List Char) (h : y.head? = some '/') : posixJoin dir y = y := by
  unfold posixJoin; rw [if_pos h]

theorem multiRec_abs (dir x : List Char) (h : dir.head? = some '/') : posixJoin dir (posixJoin dir x) = posixJoin dir x := by
  have : (posixJoin dir x).head? = some '/' := by
    unfold posixJoin
    split_ifs with h1
    · exact h1
    · cases dir with
      | nil => cases h
      | cons a l => simpa using h
    · cases dir with
      | nil => cases h
      | cons a l => simpa using h
  exact posixJoin_abs dir _ this

theorem toDigits_inj (i j : ℕ) (h : Nat.toDigits 10 i = Nat.toDigits 10 j) : i = j := by
  have := congrArg (fun l => Nat.ofDigitChars 10 l 0) h
  simpa using this

theorem posixJoin_inj (dir x y : List Char) (hx : '/' ∉ x) (hy : '/' ∉ y) (h : posixJoin dir x = posixJoin dir y) : x = y := by
  have hh : ∀ z : List Char, '/' ∉ z → z.head? ≠ some '/' := by
    intro z hz h; cases z with
    | nil => cases h
    | cons a l => simp only [List.head?_cons, Option.some.injEq] at h; exact hz (by rw [h]; exact List.mem_cons_self)
  unfold posixJoin at h
  rw [if_neg (hh x hx), if_neg (hh y hy)] at h
  split_ifs at h
  · exact List.append_cancel_left h
  · exact (List.cons.inj (List.append_cancel_left h)).2

/-- The file of sensor `i` in an absolute or relative directory. -/
def recFile (r : List Char) (i : ℕ) : List Char := r ++ Nat.toDigits 10 i ++ ".fits".toList

theorem recFile_inj (r : List Char) (i j : ℕ) (h : recFile r i = recFile r j) : i = j := by
  unfold recFile at h
  exact toDigits_inj i j (List.append_cancel_left (List.append_cancel_right h))

theorem recFile_free (r : List Char) (i : ℕ) (h : '/' ∉ r) : '/' ∉ recFile r i := by
  unfold recFile
  intro hm
  rcases List.mem_append.1 hm with hm | hm
  · rcases List.mem_append.1 hm with hm | hm
    · exact h hm
    · have := Nat.isDigit_of_mem_toDigits (by decide) (by decide) hm
      exact absurd this (by decide)
  · exact absurd hm (by decide)

theorem multiRecPath_eq (dir r : List Char) (hr : r ≠ []) (i : ℕ) : multiRecPath dir (some r) i = some (posixJoin dir (recFile r i)) := by
  cases r with
  | nil => exact absurd rfl hr
  | cons c cs => rfl

theorem multiFullPath_eq (dir r : List Char) (hr : r ≠ []) : multiFullPath dir (some r) = some (posixJoin dir (r ++ ".fits".toList)) := by
  cases r with
  | nil => exact absurd rfl hr
  | cons c cs => rfl

theorem multiRecOps_eq (dir r f : List Char) (hr : r ≠ []) (hf : f ≠ []) (recs : List V) (full : V) :
    multiRecOps dir (some r) (some f) recs full =
      ((recs.zipIdx.map fun x => (posixJoin dir (posixJoin dir (recFile r x.2)), x.1)).map fun x => DiskOp.write x.1 x.2) ++ [.mkdirs dir] ++
        [DiskOp.write (posixJoin dir (posixJoin dir (f ++ ".fits".toList))) full] := by
  unfold multiRecOps
  rw [multiFullPath_eq dir f hf]
  congr 2
  simp only [multiRecPath_eq dir r hr, Option.map_some, List.map_map]
  rw [← List.filterMap_eq_map]
  rfl

/-- Absolute directory that exists, names without slash, and the name of the full reconstructor is not that of a sensor with its number: if
the tests of the constructor and of `setup` pass, every reconstructor is in its own file and nothing else has changed. -/
theorem C116_multirec (ow : Bool) (s0 s : Disk V) (dir r f : List Char) (recs : List V) (full : V) (hr : r ≠ []) (hf : f ≠ [])
    (hrs : '/' ∉ r) (hfs : '/' ∉ f) (habs : dir.head? = some '/') (hdirs : ∀ a ∈ ancestors dir, a ∈ s.dirs ∧ s.files a = none)
    (hne : ∀ i, i < recs.length → f ++ ".fits".toList ≠ recFile r i)
    (hcheck : multiRecCheck s0 ow dir (some r) (some f) recs.length = true) (hsame : ∀ q, s.files q = s0.files q)
    (hpd : ∀ q ∈ multiRecChecked dir (some r) (some f) recs.length, q ∉ s.dirs) :
    ∃ s', diskRun ow s (multiRecOps dir (some r) (some f) recs full) = (s', true) ∧
      (∀ i v, recs[i]? = some v → s'.files (posixJoin dir (recFile r i)) = some v) ∧
      s'.files (posixJoin dir (f ++ ".fits".toList)) = some full ∧
      ∀ q, q ∉ multiRecChecked dir (some r) (some f) recs.length → s'.files q = s.files q := by
  have hd0 : dir ≠ [] := by intro e; rw [e] at habs; cases habs
  have hff : '/' ∉ f ++ ".fits".toList := by
    intro hm; rcases List.mem_append.1 hm with h | h
    · exact hfs h
    · exact absurd h (by decide)
  have hmemc : ∀ q, q ∈ multiRecChecked dir (some r) (some f) recs.length ↔
      q = posixJoin dir (f ++ ".fits".toList) ∨ ∃ i, i < recs.length ∧ q = posixJoin dir (recFile r i) := by
    intro q
    unfold multiRecChecked
    rw [multiFullPath_eq dir f hf]
    simp only [multiRecPath_eq dir r hr, List.mem_append, Option.toList_some, List.mem_singleton, List.mem_filterMap, List.mem_range,
      Option.some.injEq]
    constructor
    · rintro (h | ⟨i, hi, h⟩)
      · exact Or.inl h
      · exact Or.inr ⟨i, hi, h.symm⟩
    · rintro (h | ⟨i, hi, h⟩)
      · exact Or.inl h
      · exact Or.inr ⟨i, hi, h.symm⟩
  have hfree : ∀ q ∈ multiRecChecked dir (some r) (some f) recs.length, s.files q = none ∨ ow = true := by
    intro q hq
    unfold multiRecCheck at hcheck
    have := List.all_eq_true.1 hcheck q hq
    rw [hsame q]
    cases e : s0.files q with
    | none => exact Or.inl rfl
    | some w => rw [e] at this; refine Or.inr ?_; simpa using this
  rw [multiRecOps_eq dir r f hr hf]
  simp only [multiRec_abs dir _ habs]
  let l : List (List Char × V) := recs.zipIdx.map fun x => (posixJoin dir (recFile r x.2), x.1)
  have hl : ∀ x ∈ l, ∃ i, i < recs.length ∧ recs[i]? = some x.2 ∧ x.1 = posixJoin dir (recFile r i) := by
    intro x hx
    obtain ⟨y, hy, rfl⟩ := List.mem_map.1 hx
    have := List.mem_zipIdx_iff_getElem?.1 hy
    exact ⟨y.2, (List.getElem?_eq_some_iff.1 this).1, this, rfl⟩
  have hnd : (l.map Prod.fst).Nodup := by
    have e : l.map Prod.fst = (List.range recs.length).map fun i => posixJoin dir (recFile r i) := by
      show (recs.zipIdx.map _).map Prod.fst = _
      rw [List.map_map]
      have : List.range recs.length = recs.zipIdx.map Prod.snd := by
        rw [List.zipIdx_map_snd, List.range_eq_range']
      rw [this, List.map_map]; rfl
    rw [e]
    refine List.Nodup.map_on ?_ List.nodup_range
    intro i _ j _ hij
    exact recFile_inj r i j (posixJoin_inj dir _ _ (recFile_free r i hrs) (recFile_free r j hrs) hij)
  obtain ⟨s1, e1, e2, e3, e4⟩ := diskRun_writes ow l s
    (by
      intro x hx
      obtain ⟨i, hi, -, he⟩ := hl x hx
      rw [he]
      exact ⟨hpd _ ((hmemc _).2 (Or.inr ⟨i, hi, rfl⟩)), Or.inr (hdirs _ (dirname_join dir _ hd0 (recFile_free r i hrs))).1⟩)
    (by
      by_cases how : ow = true
      · exact Or.inl how
      · refine Or.inr ⟨fun x hx => ?_, hnd⟩
        obtain ⟨i, hi, -, he⟩ := hl x hx
        rw [he]
        exact (hfree _ ((hmemc _).2 (Or.inr ⟨i, hi, rfl⟩))).resolve_right how)
  have hlm : ∀ q, q ∈ l.map Prod.fst → ∃ i, i < recs.length ∧ q = posixJoin dir (recFile r i) := by
    intro q hq
    obtain ⟨x, hx, rfl⟩ := List.mem_map.1 hq
    obtain ⟨i, hi, -, he⟩ := hl x hx
    exact ⟨i, hi, he⟩
  have hnotl : posixJoin dir (f ++ ".fits".toList) ∉ l.map Prod.fst := by
    intro hm
    obtain ⟨i, hi, he⟩ := hlm _ hm
    exact hne i hi (posixJoin_inj dir _ _ hff (recFile_free r i hrs) he)
  have hanc : ∀ a ∈ ancestors dir, s1.files a = none := by
    intro a ha
    rw [e3 a, (hdirs a ha).2]
    intro hm
    obtain ⟨i, hi, rfl⟩ := hlm _ hm
    exact hpd _ ((hmemc _).2 (Or.inr ⟨i, hi, rfl⟩)) (hdirs _ ha).1
  obtain ⟨s2, f1, f2, f3⟩ := tag_write ow s1 dir (posixJoin dir (f ++ ".fits".toList)) full hd0 hanc
    (by rw [e2]; exact hpd _ ((hmemc _).2 (Or.inl rfl)))
    (fun ha => hpd _ ((hmemc _).2 (Or.inl rfl)) (hdirs _ ha).1)
    (List.mem_append_left _ (dirname_join dir _ hd0 hff))
    (by rw [e3 _ hnotl]; exact hfree _ ((hmemc _).2 (Or.inl rfl)))
  refine ⟨s2, ?_, ?_, f2, ?_⟩
  · have e1' : diskRun ow s (List.map (fun x => DiskOp.write x.1 x.2) (List.map (fun x => (posixJoin dir (recFile r x.2), x.1)) recs.zipIdx)) =
        (s1, true) := e1
    rw [List.append_assoc, diskRun_append, e1']
    simpa using f1
  · intro i v hv
    have hx : (posixJoin dir (recFile r i), v) ∈ l := List.mem_map.2 ⟨(v, i), List.mem_zipIdx_iff_getElem?.2 hv, rfl⟩
    rw [f3, e4 hnd _ hx]
    intro e
    exact hne i (List.getElem?_eq_some_iff.1 hv).1 (posixJoin_inj dir _ _ (recFile_free r i hrs) hff e).symm
  · intro q hq
    rw [hmemc] at hq
    rw [not_or] at hq
    rw [f3 q hq.1, e3 q]
    intro hm
    exact hq.2 (hlm q hm)

/-- A directory that does not exist, or a relative one: the first reconstructor is lost, `makedirs` comes after it. -/
theorem C116_multirec_no_dir (ow : Bool) (s : Disk V) (dir r f : List Char) (v : V) (recs : List V) (full : V) (hr : r ≠ []) (hf : f ≠ [])
    (h0 : posixDirname (posixJoin dir (posixJoin dir (recFile r 0))) ≠ [])
    (h : posixDirname (posixJoin dir (posixJoin dir (recFile r 0))) ∉ s.dirs) :
    diskRun ow s (multiRecOps dir (some r) (some f) (v :: recs) full) = (s, false) := by
  rw [multiRecOps_eq dir r f hr hf]
  have : diskStep ow s (.write (posixJoin dir (posixJoin dir (recFile r 0))) v) = (s, false) := by
    simp only [diskStep]
    rw [if_pos (Or.inr (Or.inl ⟨h0, h⟩))]
  simp [List.zipIdx_cons, diskRun, this]

/-- In a relative directory the file that is tested is not the one that is written. -/
theorem C116_multirec_relative (dir x : List Char) (hd : dir ≠ []) (h : dir.head? ≠ some '/') (hx : '/' ∉ x) :
    posixJoin dir (posixJoin dir x) ≠ posixJoin dir x ∧ (posixJoin dir x).length < (posixJoin dir (posixJoin dir x)).length := by
  have hh : x.head? ≠ some '/' := by
    intro h; cases x with
    | nil => cases h
    | cons a l => simp only [List.head?_cons, Option.some.injEq] at h; exact hx (by rw [h]; exact List.mem_cons_self)
  have hj : (posixJoin dir x).head? ≠ some '/' := by
    unfold posixJoin
    rw [if_neg hh]
    cases dir with
    | nil => exact absurd rfl hd
    | cons a l => split_ifs <;> simpa using h
  have hlen : (posixJoin dir x).length < (posixJoin dir (posixJoin dir x)).length := by
    have h1 : 0 < dir.length := List.length_pos_iff.2 hd
    have gen : ∀ y : List Char, y.head? ≠ some '/' → y.length < (posixJoin dir y).length := by
      intro y hy
      unfold posixJoin
      rw [if_neg hy]
      split_ifs <;> simp only [List.length_append, List.length_cons] <;> omega
    exact gen _ hj
  exact ⟨fun e => by rw [e] at hlen; exact lt_irrefl _ hlen, hlen⟩

end

/-- Two sensors, and a full reconstructor whose name is that of sensor 1: with `overwrite` the file of the sensor is replaced, without it
`finalize` fails after it has written the sensors. -/
theorem C116_multirec_collision :
    let s : Disk ℕ := ⟨fun _ => none, ["/d".toList, "/".toList]⟩
    multiRecCheck s false "/d".toList (some "r".toList) (some "r1".toList) 2 = true ∧
    (diskRun false s (multiRecOps "/d".toList (some "r".toList) (some "r1".toList) [10, 11] 99)).2 = false ∧
    (diskRun true s (multiRecOps "/d".toList (some "r".toList) (some "r1".toList) [10, 11] 99)).2 = true ∧
    (diskRun true s (multiRecOps "/d".toList (some "r".toList) (some "r1".toList) [10, 11] 99)).1.files "/d/r1.fits".toList = some 99 := by
  refine ⟨by decide, by decide, by decide, by decide⟩

/-- The names. -/
theorem C116_names (tag template : Option (List Char)) :
    (tagOr tag template = none ↔ template = none ∧ (tag = none ∨ tag = some "auto".toList)) ∧
    (∀ t, tag = some t → t ≠ "auto".toList → tagOr tag template = some t ∧ multiRecName tag template = some (some t)) ∧
    (multiRecName tag template = none ↔ template = none ∧ tag = some "auto".toList) ∧
    (tag = some "auto".toList → tagOr tag template = template ∧ multiRecName tag template = template.map some) := by
  refine ⟨?_, ?_, ?_, ?_⟩
  · unfold tagOr
    split_ifs with h
    · exact ⟨fun e => ⟨e, h⟩, fun e => e.1⟩
    · exact ⟨fun e => absurd (Or.inl e) h, fun e => absurd e.2 h⟩
  · rintro t rfl ht
    have : ¬(some t = none ∨ some t = some "auto".toList) := by rintro (h | h) <;> simp_all
    exact ⟨by unfold tagOr; rw [if_neg this], by unfold multiRecName; rw [if_neg fun h => this (Or.inr h)]⟩
  · unfold multiRecName
    split_ifs with h
    · cases template with
      | none => exact ⟨fun _ => ⟨rfl, h⟩, fun _ => rfl⟩
      | some t => exact ⟨fun e => (by cases e), fun e => (by cases e.1)⟩
    · exact ⟨fun e => (by cases e), fun e => absurd e.2 h⟩
  · rintro rfl
    exact ⟨by unfold tagOr; rw [if_pos (Or.inr rfl)], by unfold multiRecName; rw [if_pos rfl]⟩

/-- A reconstructor in a new directory. -/
example : ∃ s', diskRun false (⟨fun _ => none, []⟩ : Disk ℕ) (recOps "calib/rec".toList "myrec".toList 7) = (s', true) ∧
    s'.files "calib/rec/myrec.fits".toList = some 7 := by
  obtain ⟨-, s', h1, h2, -⟩ := C116_rec false (⟨fun _ => none, []⟩ : Disk ℕ) ⟨fun _ => none, []⟩ "calib/rec".toList "myrec".toList
    "calib/rec/myrec.fits".toList 7 (by decide) rfl (by decide) (by decide) (fun _ _ => rfl) (by simp)
  exact ⟨s', h1, h2⟩

/-- Two sensors and the full reconstructor. -/
example : ∃ s', diskRun false (⟨fun _ => none, ["/d".toList, "/".toList]⟩ : Disk ℕ)
    (multiRecOps "/d".toList (some "r".toList) (some "full".toList) [10, 11] 99) = (s', true) ∧
    s'.files (posixJoin "/d".toList (recFile "r".toList 1)) = some 11 := by
  obtain ⟨s', h1, h2, -⟩ := C116_multirec false (⟨fun _ => none, ["/d".toList, "/".toList]⟩ : Disk ℕ) ⟨fun _ => none, ["/d".toList, "/".toList]⟩
    "/d".toList "r".toList "full".toList [10, 11] 99 (by decide) (by decide) (by decide) (by decide) (by decide)
    (fun a ha => ⟨by revert a; decide, rfl⟩) (by decide) (by decide) (fun _ => rfl) (by decide)
  exact ⟨s', h1, h2 1 11 rfl⟩

end Specula
