import Verif.Model.FieldAna
import Verif.Props.SplitOutput
import Verif.Props.Ccd
import Verif.Props.ShSlopes
/-
C78: the field analyser: sources, names of the files, and reuse of files.
-/
namespace Specula

/-! ### Sources -/

/-- **C78** (columns): two rows are radii and angles, one column per source. -/
theorem C78_columns (rs ts : List ℚ) (h : rs.length = ts.length) : fieldSources [rs, ts] rs.length = some (rs.zip ts) := by
  unfold fieldSources
  dsimp only
  rw [if_pos (show [rs, ts].length = 2 from rfl)]
  rw [mapM_all_some _ (fun c => (c.getD 0 0, c.getD 1 0))]
  · rw [Option.some.injEq, List.map_map]
    apply List.ext_getElem
    · simp [h]
    · intro i h1 h2
      have hi : i < rs.length := by simpa using h1
      simp [hi, h ▸ hi]
  · intro c hc
    obtain ⟨j, -, rfl⟩ := List.mem_map.1 hc
    rfl

/-- **C78** (rows): any other number of rows of two numbers is one row per source. -/
theorem C78_rows (srcs : List (ℚ × ℚ)) (h : srcs.length ≠ 2) : fieldSources (srcs.map fun s => [s.1, s.2]) 2 = some srcs := by
  unfold fieldSources
  dsimp only
  rw [if_neg (by simpa using h)]
  rw [mapM_all_some _ (fun c => (c.getD 0 0, c.getD 1 0))]
  · rw [Option.some.injEq, List.map_map]
    exact List.map_id _
  · intro c hc
    obtain ⟨s, -, rfl⟩ := List.mem_map.1 hc
    rfl

/-- Two sources given one per row are mixed up: radii and angles of both become the two sources. -/
theorem C78_two_rows (r t r' t' : ℚ) : fieldSources [[r, t], [r', t']] 2 = some [(r, r'), (t, t')] := C78_columns [r, t] [r', t'] rfl

/-! ### Names -/

theorem natToString_inj {a b : Nat} (h : (toString a).toList = (toString b).toList) : a = b := by
  have h1 := pyInt_toString (a : Int)
  have h2 := pyInt_toString (b : Int)
  have e : ∀ n : Nat, (toString (n : Int)).toList = (toString n).toList := fun n => rfl
  rw [e] at h1 h2
  rw [h, h2, Option.some.injEq] at h1
  exact_mod_cast h1.symm

theorem natToString_digit (n : Nat) : ∀ c ∈ (toString n).toList, c.isDigit = true := by
  intro c hc
  have : (toString n).toList = Nat.toDigits 10 n := by
    show (Nat.repr n).toList = _
    simp
  rw [this] at hc
  exact Nat.isDigit_of_mem_toDigits (by decide) (by decide) hc

theorem natToString_ne_nil (n : Nat) : (toString n).toList ≠ [] := by
  have : (toString n).toList = Nat.toDigits 10 n := by
    show (Nat.repr n).toList = _
    simp
  rw [this]
  simp

theorem digitChar_mod_inj : ∀ a < 10, ∀ b < 10, Nat.digitChar a = Nat.digitChar b → a = b := by decide

theorem digitChar_isDigit : ∀ a < 10, (Nat.digitChar a).isDigit = true := by decide

theorem fracDigits_length (d r : Nat) : (fracDigits d r).length = d := by
  induction d generalizing r with
  | zero => rfl
  | succ d ih => simp [fracDigits, ih]

theorem fracDigits_inj (d : Nat) : ∀ r < 10 ^ d, ∀ r' < 10 ^ d, fracDigits d r = fracDigits d r' → r = r' := by
  induction d with
  | zero => intro r h r' h' _; simp at h h'; omega
  | succ d ih =>
    intro r h r' h' e
    unfold fracDigits at e
    obtain ⟨e1, e2⟩ := List.append_inj e (by rw [fracDigits_length, fracDigits_length])
    have h1 := ih (r / 10) (by rw [pow_succ] at h; omega) (r' / 10) (by rw [pow_succ] at h'; omega) e1
    have h2 := digitChar_mod_inj (r % 10) (Nat.mod_lt _ (by decide)) (r' % 10) (Nat.mod_lt _ (by decide)) (List.cons.inj e2).1
    omega

theorem fracDigits_digit (d r : Nat) : ∀ c ∈ fracDigits d r, c.isDigit = true := by
  induction d generalizing r with
  | zero => simp [fracDigits]
  | succ d ih =>
    intro c hc
    unfold fracDigits at hc
    rcases List.mem_append.1 hc with h | h
    · exact ih _ c h
    · rw [List.mem_singleton.1 h]
      exact digitChar_isDigit _ (Nat.mod_lt _ (by decide))

/-- Characters of a formatted number: digits, the point, and a minus sign for a negative one only. -/
theorem fmtDec_mem (d : Nat) (x : ℚ) : ∀ c ∈ fmtDec d x, c.isDigit = true ∨ c = '.' ∨ (c = '-' ∧ x < 0) := by
  intro c hc
  unfold fmtDec at hc
  dsimp only at hc
  rcases List.mem_append.1 hc with h | h
  · rcases List.mem_append.1 h with h | h
    · split_ifs at h with hx
      · exact .inr (.inr ⟨List.mem_singleton.1 h, hx⟩)
      · simp at h
    · exact .inl (natToString_digit _ c h)
  · split_ifs at h with hd
    · simp at h
    · rcases List.mem_cons.1 h with h | h
      · exact .inr (.inl h)
      · exact .inl (fracDigits_digit _ _ c h)

theorem fmtDec_not_mem (d : Nat) (x : ℚ) (c : Char) (h1 : c.isDigit = false) (h2 : c ≠ '.') (h3 : c ≠ '-') : c ∉ fmtDec d x := by
  intro h
  rcases fmtDec_mem d x c h with h | h | h
  · rw [h1] at h; cases h
  · exact h2 h
  · exact h3 h.1

theorem fmtDec_minus (d : Nat) (x : ℚ) : '-' ∈ fmtDec d x ↔ x < 0 := by
  constructor
  · intro h
    rcases fmtDec_mem d x '-' h with h | h | h
    · cases h
    · cases h
    · exact h.2
  · intro h
    unfold fmtDec
    dsimp only
    rw [if_pos h]
    simp

theorem roundEvenF_sign (x : ℚ) : (x < 0 → roundEvenF x ≤ 0) ∧ (0 ≤ x → 0 ≤ roundEvenF x) := by
  have h := abs_le.1 (roundEvenF_near x)
  constructor
  · intro hx
    have : (roundEvenF x : ℚ) < ((1 : Int) : ℚ) := by push_cast; linarith [h.2]
    have : roundEvenF x < 1 := by exact_mod_cast this
    omega
  · intro hx
    have : ((-1 : Int) : ℚ) < (roundEvenF x : ℚ) := by push_cast; linarith [h.1]
    have : -1 < roundEvenF x := by exact_mod_cast this
    omega

/-- Two numbers with the same text round to the same number. -/
theorem fmtDec_inj (d : Nat) (x y : ℚ) (h : fmtDec d x = fmtDec d y) : roundEvenF (x * 10 ^ d) = roundEvenF (y * 10 ^ d) := by
  have hs : x < 0 ↔ y < 0 := by rw [← fmtDec_minus d, ← fmtDec_minus d, h]
  have hp : (0 : ℚ) < 10 ^ d := by positivity
  have hx := roundEvenF_sign (x * 10 ^ d)
  have hy := roundEvenF_sign (y * 10 ^ d)
  have key : (roundEvenF (x * 10 ^ d)).natAbs = (roundEvenF (y * 10 ^ d)).natAbs := by
    set n := (roundEvenF (x * 10 ^ d)).natAbs with hn
    set m := (roundEvenF (y * 10 ^ d)).natAbs with hm
    unfold fmtDec at h
    dsimp only at h
    rw [← hn, ← hm] at h
    simp only [hs, List.append_assoc] at h
    have h := List.append_cancel_left h
    have hdot : ∀ k : Nat, '.' ∉ (toString k).toList := fun k hk => by
      have := natToString_digit k _ hk; cases this
    obtain ⟨e1, e2⟩ := first_split_unique (c := '.') h (hdot _) (hdot _) (by split_ifs <;> simp) (by split_ifs <;> simp)
    have e1 := natToString_inj e1
    by_cases hd : d = 0
    · subst hd; simpa using e1
    · rw [if_neg hd, if_neg hd] at e2
      have e2 := fracDigits_inj d _ (Nat.mod_lt _ (by positivity)) _ (Nat.mod_lt _ (by positivity)) (List.cons.inj e2).2
      rw [← Nat.div_add_mod n (10 ^ d), ← Nat.div_add_mod m (10 ^ d), e1, e2]
  by_cases h0 : x < 0
  · have h1 := hx.1 (mul_neg_of_neg_of_pos h0 hp)
    have h2 := hy.1 (mul_neg_of_neg_of_pos (hs.1 h0) hp)
    omega
  · have h1 := hx.2 (mul_nonneg (not_lt.1 h0) hp.le)
    have h2 := hy.2 (mul_nonneg (not_lt.1 fun h => h0 (hs.2 h)) hp.le)
    omega

theorem split_at (c : Char) {a a' b b' : List Char} (ha : c ∉ a) (ha' : c ∉ a') (h : a ++ c :: b = a' ++ c :: b') : a = a' ∧ b = b' := by
  obtain ⟨h1, h2⟩ := first_split_unique (c := c) h ha ha' (.inr rfl) (.inr rfl)
  exact ⟨h1, (List.cons.inj h2).2⟩

/-- Two sources are told apart in the names of the files. -/
def SameTenths (s s' : ℚ × ℚ) : Prop := roundEvenF (s.1 * 10) = roundEvenF (s'.1 * 10) ∧ roundEvenF (s.2 * 10) = roundEvenF (s'.2 * 10)

theorem fmtDec_one_inj {x y : ℚ} (h : fmtDec 1 x = fmtDec 1 y) : roundEvenF (x * 10) = roundEvenF (y * 10) := by
  have := fmtDec_inj 1 x y h
  rwa [pow_one] at this

/-- **C78** (names): files of PSFs have the same name only for sources with the same coordinates to a tenth, pixel size to a
hundredth and wavelength to the unit. -/
theorem C78_psf_names (kind : String) (pix pix' wl wl' : ℚ) (s s' : ℚ × ℚ) (h : psfName kind pix wl s = psfName kind pix' wl' s') :
    SameTenths s s' ∧ roundEvenF (pix * 100) = roundEvenF (pix' * 100) ∧ roundEvenF wl = roundEvenF wl' := by
  unfold psfName at h
  have h := (List.cons.inj (List.cons.inj (List.append_cancel_left h)).2).2
  obtain ⟨e1, h⟩ := split_at 't' (fmtDec_not_mem _ _ _ rfl (by decide) (by decide)) (fmtDec_not_mem _ _ _ rfl (by decide) (by decide)) h
  obtain ⟨e2, h⟩ := split_at '_' (fmtDec_not_mem _ _ _ rfl (by decide) (by decide)) (fmtDec_not_mem _ _ _ rfl (by decide) (by decide)) h
  simp only [List.cons.injEq, true_and] at h
  obtain ⟨e3, h⟩ := split_at 'm' (fmtDec_not_mem _ _ _ rfl (by decide) (by decide)) (fmtDec_not_mem _ _ _ rfl (by decide) (by decide)) h
  simp only [List.cons.injEq, true_and] at h
  have e4 := List.append_cancel_right h
  refine ⟨⟨fmtDec_one_inj e1, fmtDec_one_inj e2⟩, ?_, ?_⟩
  · have := fmtDec_inj 2 _ _ e3
    norm_num at this
    exact this
  · have := fmtDec_inj 0 _ _ e4
    simpa using this

theorem psfName_kind (pix pix' wl wl' : ℚ) (s s' : ℚ × ℚ) : psfName "psf" pix wl s ≠ psfName "sr" pix' wl' s' := by
  intro h
  have := congrArg (fun l => l.head?) h
  simp [psfName] at this

theorem C78_cube_names (wl wl' : ℚ) (s s' : ℚ × ℚ) (h : cubeName wl s = cubeName wl' s') :
    SameTenths s s' ∧ roundEvenF wl = roundEvenF wl' := by
  unfold cubeName at h
  have h := (List.cons.inj (List.cons.inj (List.append_cancel_left h)).2).2
  obtain ⟨e1, h⟩ := split_at 't' (fmtDec_not_mem _ _ _ rfl (by decide) (by decide)) (fmtDec_not_mem _ _ _ rfl (by decide) (by decide)) h
  obtain ⟨e2, h⟩ := split_at '_' (fmtDec_not_mem _ _ _ rfl (by decide) (by decide)) (fmtDec_not_mem _ _ _ rfl (by decide) (by decide)) h
  simp only [List.cons.injEq, true_and] at h
  have e4 := List.append_cancel_right h
  refine ⟨⟨fmtDec_one_inj e1, fmtDec_one_inj e2⟩, ?_⟩
  have := fmtDec_inj 0 _ _ e4
  simpa using this

theorem C78_modal_names (m : ModalArgs) (s s' : ℚ × ℚ) (h : modalName m s = modalName m s') : SameTenths s s' := by
  unfold modalName at h
  have h := (List.cons.inj (List.cons.inj (List.append_cancel_left h)).2).2
  obtain ⟨e1, h⟩ := split_at 't' (fmtDec_not_mem _ _ _ rfl (by decide) (by decide)) (fmtDec_not_mem _ _ _ rfl (by decide) (by decide)) h
  exact ⟨fmtDec_one_inj e1, fmtDec_one_inj (List.append_cancel_right h)⟩

/-- Sources on a grid of a tenth, and more generally sources more than a tenth apart in a coordinate, are told apart. -/
theorem C78_tenths (s s' : ℚ × ℚ) (h : SameTenths s s') : |s.1 - s'.1| ≤ 1 / 10 ∧ |s.2 - s'.2| ≤ 1 / 10 := by
  have key : ∀ x y : ℚ, roundEvenF (x * 10) = roundEvenF (y * 10) → |x - y| ≤ 1 / 10 := by
    intro x y h
    have h1 := abs_le.1 (roundEvenF_near (x * 10))
    have h2 := abs_le.1 (roundEvenF_near (y * 10))
    rw [h] at h1
    rw [abs_le]
    constructor <;> linarith [h1.1, h1.2, h2.1, h2.2]
  exact ⟨key _ _ h.1, key _ _ h.2⟩

theorem C78_grid (s s' : ℚ × ℚ) (a b a' b' : Int) (h1 : s = ((a : ℚ) / 10, (b : ℚ) / 10)) (h2 : s' = ((a' : ℚ) / 10, (b' : ℚ) / 10))
    (h : SameTenths s s') : s = s' := by
  subst h1 h2
  obtain ⟨e1, e2⟩ := h
  dsimp only at e1 e2
  have key : ∀ a : Int, roundEvenF ((a : ℚ) / 10 * 10) = a := by
    intro a
    apply roundEvenF_eq
    rw [div_mul_cancel₀ _ (by norm_num)]
    simp
  rw [key, key] at e1 e2
  rw [e1, e2]

/-- Names of the basis do not tell all arguments: neither the function behind a given number of modes, nor the inverse from the
direct functions, nor number of pixels and the other arguments. -/
theorem C78_modal_stale (n : Nat) (a b : String) (p q : Option Nat) (u v : Bool) (s : ℚ × ℚ) :
    modalName { nmodes := some n, ifuncRef := some a, npixels := p, dorms := u } s =
        modalName { nmodes := some n, ifuncRef := some b, npixels := q, dorms := v } s ∧
      modalName { ifuncRef := some a, npixels := p, dorms := u } s = modalName { ifuncInvRef := some a, npixels := q, dorms := v } s :=
  ⟨rfl, rfl⟩

/-! ### Files -/

variable {S D : Type}

/-- A name that `split_output` accepts in front of a dash. -/
def ProducedFile (f : List Char) : Prop := ':' ∉ f ∧ '-' ∉ f

theorem storeEntry_split (f : List Char) (r : String × String) (hf : ProducedFile f) (h1 : PlainName r.1) (h2 : PlainName r.2) :
    splitOutput (storeEntry f r) = some ⟨some (String.ofList f), r.1, some r.2, 0⟩ := by
  rw [C11_accepts_iff]
  refine ⟨"", ?_, ?_, h1, ?_, .inl ⟨rfl, rfl⟩⟩
  · rw [← String.toList_inj]
    simp [storeEntry, refText]
  · intro a ha
    rw [Option.some.injEq] at ha
    subst ha
    simpa using (show ':' ∉ f ∧ '-' ∉ f from hf)
  · intro k hk
    rw [Option.some.injEq] at hk
    subst hk
    exact h2

theorem anaSplit_length (c : Char) (l : List Char) : (pySplit c l).length = l.count c + 1 := by
  induction l with
  | nil => rfl
  | cons x xs ih =>
    unfold pySplit
    split_ifs with hx
    · subst hx; simp [ih]
    · rw [List.count_cons_of_ne hx, ← ih]
      cases hq : pySplit c xs with
      | nil => exact absurd hq (pySplit_ne_nil _ _)
      | cons h t => rfl

theorem storeEntry_refused (f : List Char) (r : String × String) (hc : ':' ∉ f) (hf : '-' ∈ f) (h1 : PlainName r.1) (h2 : PlainName r.2) :
    splitOutput (storeEntry f r) = none := by
  have hl : (storeEntry f r).toList = f ++ '-' :: (r.1.toList ++ '.' :: r.2.toList) := by simp [storeEntry]
  have hd : splitDelay (storeEntry f r).toList = some ((storeEntry f r).toList, 0) := by
    unfold splitDelay
    rw [if_neg]
    rw [hl]
    simp [hc, h1.1, h2.1]
  have hcount : 2 ≤ (storeEntry f r).toList.count '-' := by
    rw [hl, List.count_append, List.count_cons_self]
    have := List.count_pos_iff.2 hf
    omega
  have hp : splitPair '-' (storeEntry f r).toList = none := by
    unfold splitPair
    rw [if_pos (List.count_pos_iff.1 (by omega))]
    have := anaSplit_length '-' (storeEntry f r).toList
    split
    · rename_i a b he
      rw [he] at this
      simp at this
      omega
    · rfl
  unfold splitOutput
  rw [hd]
  dsimp only
  rw [hp]

theorem writeEntries_ok (outs : List ((String × String) × D)) (E : List (List Char × (String × String) × D)) (dir : Folder D)
    (hE : ∀ e ∈ E, ProducedFile e.1 ∧ PlainName e.2.1.1 ∧ PlainName e.2.1.2 ∧ outs.lookup e.2.1 = some e.2.2) :
    writeEntries outs (E.map fun e => storeEntry e.1 e.2.1) dir =
      some (E.foldl (fun d e => fun n => if n = e.1 then some e.2.2 else d n) dir) := by
  induction E generalizing dir with
  | nil => rfl
  | cons e E ih =>
    obtain ⟨h1, h2, h3, h4⟩ := hE e List.mem_cons_self
    rw [List.map_cons]
    unfold writeEntries
    rw [storeEntry_split e.1 e.2.1 h1 h2 h3]
    dsimp only
    rw [h4]
    dsimp only
    rw [String.toList_ofList, ih _ fun e' he' => hE e' (List.mem_cons_of_mem _ he')]
    rfl

theorem writeEntries_refused (outs : List ((String × String) × D)) (E : List (List Char × (String × String) × D)) (dir : Folder D)
    (hE : ∀ e ∈ E, ':' ∉ e.1 ∧ PlainName e.2.1.1 ∧ PlainName e.2.1.2) (h : ∃ e ∈ E, '-' ∈ e.1) :
    writeEntries outs (E.map fun e => storeEntry e.1 e.2.1) dir = none := by
  induction E generalizing dir with
  | nil => obtain ⟨e, he, -⟩ := h; cases he
  | cons e E ih =>
    obtain ⟨h1, h2, h3⟩ := hE e List.mem_cons_self
    rw [List.map_cons]
    unfold writeEntries
    by_cases hm : '-' ∈ e.1
    · rw [storeEntry_refused e.1 e.2.1 h1 hm h2 h3]
    · rw [storeEntry_split e.1 e.2.1 ⟨h1, hm⟩ h2 h3]
      dsimp only
      cases outs.lookup e.2.1 with
      | none => rfl
      | some v =>
        dsimp only
        apply ih _ fun e' he' => hE e' (List.mem_cons_of_mem _ he')
        obtain ⟨e', he', hd⟩ := h
        rcases List.mem_cons.1 he' with rfl | he'
        · exact absurd hd hm
        · exact ⟨e', he', hd⟩

/-- Contents after writing: those of one of the entries with that name, or what was there. -/
theorem foldl_written (E : List (List Char × (String × String) × D)) (dir : Folder D) (n : List Char) :
    (∃ e ∈ E, e.1 = n ∧ E.foldl (fun d e => fun n => if n = e.1 then some e.2.2 else d n) dir n = some e.2.2) ∨
      ((∀ e ∈ E, e.1 ≠ n) ∧ E.foldl (fun d e => fun n => if n = e.1 then some e.2.2 else d n) dir n = dir n) := by
  induction E generalizing dir with
  | nil => exact .inr ⟨by simp, rfl⟩
  | cons e E ih =>
    rw [List.foldl_cons]
    rcases ih (fun n => if n = e.1 then some e.2.2 else dir n) with ⟨e', h1, h2, h3⟩ | ⟨h1, h2⟩
    · exact .inl ⟨e', List.mem_cons_of_mem _ h1, h2, h3⟩
    · by_cases he : n = e.1
      · refine .inl ⟨e, List.mem_cons_self, he.symm, ?_⟩
        rw [h2, if_pos he]
      · refine .inr ⟨?_, by rw [h2, if_neg he]⟩
        intro e' he'
        rcases List.mem_cons.1 he' with rfl | he'
        · exact fun h => he h.symm
        · exact h1 e' he'

theorem mem_entries (a : Analysis S D) (srcs : List S) (e : List Char × (String × String) × D) :
    e ∈ a.entries srcs ↔ ∃ i s j f, srcs[i]? = some s ∧ (a.files s)[j]? = some f ∧ e = (f, a.ref i j, a.data s j) := by
  unfold Analysis.entries
  simp only [List.mem_flatMap, List.mem_map, Prod.exists, List.mk_mem_zipIdx_iff_getElem?]
  constructor
  · rintro ⟨s, i, h1, f, j, h2, rfl⟩
    exact ⟨i, s, j, f, h1, h2, rfl⟩
  · rintro ⟨i, s, j, f, h1, h2, rfl⟩
    exact ⟨s, i, h1, f, j, h2, rfl⟩

theorem lookup_of_unique (l : List ((String × String) × D)) (k : String × String) (v : D) (hm : (k, v) ∈ l)
    (hu : ∀ v', (k, v') ∈ l → v' = v) : l.lookup k = some v := by
  induction l with
  | nil => cases hm
  | cons x l ih =>
    rw [List.lookup_cons]
    by_cases hk : k = x.1
    · subst hk
      rw [beq_self_eq_true]
      rw [hu x.2 List.mem_cons_self]
    · have hb : (k == x.1) = false := by simpa using hk
      rw [hb]
      dsimp only
      apply ih
      · rcases List.mem_cons.1 hm with h | h
        · exact absurd (congrArg Prod.fst h) hk
        · exact h
      · exact fun v' h => hu v' (List.mem_cons_of_mem _ h)

/-- An analysis whose objects can be connected: plain and distinct names of objects and outputs. -/
structure AnaRefsOk (a : Analysis S D) : Prop where
  obj : ∀ i j, PlainName (a.ref i j).1
  key : ∀ i j, PlainName (a.ref i j).2
  /-- for the files of the sources -/
  inj : ∀ s s' i j i' j', j < (a.files s).length → j' < (a.files s').length → a.ref i j = a.ref i' j' → i = i' ∧ j = j'

theorem analysis_run_ok (a : Analysis S D) (ha : AnaRefsOk a) (srcs : List S) (dir : Folder D) (hf : ∀ s ∈ srcs, ∀ f ∈ a.files s, ProducedFile f) :
    a.run srcs dir = some ((a.entries srcs).foldl (fun d e => fun n => if n = e.1 then some e.2.2 else d n) dir) := by
  unfold Analysis.run
  apply writeEntries_ok
  intro e he
  have he' := he
  rw [mem_entries] at he'
  obtain ⟨i, s, j, f, h1, h2, rfl⟩ := he'
  refine ⟨hf s (List.mem_of_getElem? h1) f (List.mem_of_getElem? h2), ha.obj i j, ha.key i j, ?_⟩
  apply lookup_of_unique
  · exact List.mem_map.2 ⟨_, he, rfl⟩
  · intro v' hv
    obtain ⟨e', he', heq⟩ := List.mem_map.1 hv
    rw [mem_entries] at he'
    obtain ⟨i', s', j', f', h1', h2', rfl⟩ := he'
    rw [Prod.mk.injEq] at heq
    obtain ⟨hr, rfl⟩ := heq
    obtain ⟨rfl, rfl⟩ := ha.inj s' s i' j' i j (List.getElem?_eq_some_iff.1 h2').1 (List.getElem?_eq_some_iff.1 h2).1 hr
    rw [h1, Option.some.injEq] at h1'
    rw [h1']

/-- What the analysis of the sources has to return: for every source, in order, its own data. -/
def Analysis.expected (a : Analysis S D) (srcs : List S) : List (List D) :=
  srcs.map fun s => (List.range (a.files s).length).map fun j => a.data s j

theorem load_expected (a : Analysis S D) (srcs : List S) (dir : Folder D)
    (h : ∀ s ∈ srcs, ∀ j f, (a.files s)[j]? = some f → dir f = some (a.data s j)) : a.load srcs dir = some (a.expected srcs) := by
  unfold Analysis.load Analysis.expected
  apply mapM_all_some
  intro s hs
  have key : ∀ (l : List (List Char)) (g : Nat → D), (∀ j f, l[j]? = some f → dir f = some (g j)) →
      l.mapM dir = some ((List.range l.length).map g) := by
    intro l
    induction l with
    | nil => intro g _; rfl
    | cons f l ih =>
      intro g hg
      rw [List.mapM_cons, hg 0 f rfl, ih (fun j => g (j + 1)) fun j f' hj => hg (j + 1) f' (by simpa using hj)]
      simp [List.range_succ_eq_map, List.map_map, Function.comp_def]
  exact key _ _ (h s hs)

/-- A call of one of the three functions. -/
structure FieldCall (S D : Type) where
  analysis : Analysis S D
  force : Bool
  srcs : List S

/-- A sequence of calls on the same directory: results of each. -/
def fieldHistory : List (FieldCall S D) → Folder D → Option (List (List (List D)))
  | [], _ => some []
  | c :: rest, dir =>
    (c.analysis.compute c.force c.srcs dir).bind fun r => (fieldHistory rest r.2).map fun q => r.1 :: q

/-- Names of files are enough to tell the data, among calls. -/
def NamesTell (calls : List (FieldCall S D)) : Prop :=
  ∀ c ∈ calls, ∀ c' ∈ calls, ∀ s ∈ c.srcs, ∀ s' ∈ c'.srcs, ∀ j j' f, (c.analysis.files s)[j]? = some f →
    (c'.analysis.files s')[j']? = some f → c.analysis.data s j = c'.analysis.data s' j'

/-- Files hold data of calls. -/
def FilesFrom (calls : List (FieldCall S D)) (dir : Folder D) : Prop :=
  ∀ n v, dir n = some v → ∃ c ∈ calls, ∃ s ∈ c.srcs, ∃ j, (c.analysis.files s)[j]? = some n ∧ c.analysis.data s j = v

/-- Directory after the entries were written. -/
def Analysis.written (a : Analysis S D) (srcs : List S) (dir : Folder D) : Folder D :=
  (a.entries srcs).foldl (fun d e => fun n => if n = e.1 then some e.2.2 else d n) dir

theorem written_expected (a : Analysis S D) (srcs : List S) (dir : Folder D)
    (ht : ∀ s ∈ srcs, ∀ s' ∈ srcs, ∀ j j' f, (a.files s)[j]? = some f → (a.files s')[j']? = some f → a.data s j = a.data s' j') :
    ∀ s ∈ srcs, ∀ j f, (a.files s)[j]? = some f → a.written srcs dir f = some (a.data s j) := by
  intro s hs j f hj
  obtain ⟨i, hi⟩ := List.mem_iff_getElem?.1 hs
  unfold Analysis.written
  rcases foldl_written (a.entries srcs) dir f with ⟨e, h1, h2, h3⟩ | ⟨h1, h2⟩
  · rw [h3]
    rw [mem_entries] at h1
    obtain ⟨i', s', j', f', k1, k2, rfl⟩ := h1
    dsimp only at h2
    subst h2
    rw [Option.some.injEq]
    exact ht s' (List.mem_of_getElem? k1) s hs j' j f' k2 hj
  · exact absurd rfl (h1 (f, a.ref i j, a.data s j) ((mem_entries _ _ _).2 ⟨i, s, j, f, hi, hj, rfl⟩))

theorem compute_ok (calls : List (FieldCall S D)) (ht : NamesTell calls) (c : FieldCall S D) (hc : c ∈ calls) (hr : AnaRefsOk c.analysis)
    (hf : ∀ s ∈ c.srcs, ∀ f ∈ c.analysis.files s, ProducedFile f) (dir : Folder D) (hd : FilesFrom calls dir) :
    ∃ d, c.analysis.compute c.force c.srcs dir = some (c.analysis.expected c.srcs, d) ∧ FilesFrom calls d := by
  unfold Analysis.compute
  split_ifs with h
  · refine ⟨dir, ?_, hd⟩
    rw [load_expected, Option.map_some]
    intro s hs j f hj
    rw [Bool.and_eq_true] at h
    have hp := List.all_eq_true.1 (List.all_eq_true.1 h.2 s hs) f (List.mem_of_getElem? hj)
    obtain ⟨v, hv⟩ := Option.isSome_iff_exists.1 hp
    obtain ⟨c', hc', s', hs', j', hj', hv'⟩ := hd f v hv
    rw [hv, ← hv', ht c hc c' hc' s hs s' hs' j j' f hj hj']
  · rw [analysis_run_ok c.analysis hr c.srcs dir hf, Option.bind_some]
    refine ⟨c.analysis.written c.srcs dir, ?_, ?_⟩
    · have := load_expected c.analysis c.srcs _ (written_expected c.analysis c.srcs dir fun s hs s' hs' => ht c hc c hc s hs s' hs')
      unfold Analysis.written at this
      rw [this]
      rfl
    · intro n v hv
      unfold Analysis.written at hv
      rcases foldl_written (c.analysis.entries c.srcs) dir n with ⟨e, h1, h2, h3⟩ | ⟨h1, h2⟩
      · rw [h3, Option.some.injEq] at hv
        rw [mem_entries] at h1
        obtain ⟨i', s', j', f', k1, k2, rfl⟩ := h1
        exact ⟨c, hc, s', List.mem_of_getElem? k1, j', h2 ▸ k2, hv⟩
      · exact hd n v (h2 ▸ hv)

theorem history_ok (all : List (FieldCall S D)) (ht : NamesTell all) (hok : ∀ c ∈ all, AnaRefsOk c.analysis ∧ ∀ s ∈ c.srcs, ∀ f ∈ c.analysis.files s, ProducedFile f)
    (calls : List (FieldCall S D)) (hsub : ∀ c ∈ calls, c ∈ all) (dir : Folder D) (hd : FilesFrom all dir) :
    fieldHistory calls dir = some (calls.map fun c => c.analysis.expected c.srcs) := by
  induction calls generalizing dir with
  | nil => rfl
  | cons c rest ih =>
    have hc := hsub c List.mem_cons_self
    obtain ⟨d, h1, h2⟩ := compute_ok all ht c hc (hok c hc).1 (hok c hc).2 dir hd
    unfold fieldHistory
    rw [h1, Option.bind_some]
    dsimp only
    rw [ih (fun c' h => hsub c' (List.mem_cons_of_mem _ h)) d h2]
    rfl

/-- **C78** (reuse): any sequence of calls on the same directory returns, for each source in order, its own data, whatever was
computed before and whichever files are reused, as long as names of files tell the data. -/
theorem C78_history (calls : List (FieldCall S D)) (ht : NamesTell calls)
    (hok : ∀ c ∈ calls, AnaRefsOk c.analysis ∧ ∀ s ∈ c.srcs, ∀ f ∈ c.analysis.files s, ProducedFile f) :
    fieldHistory calls (fun _ => none) = some (calls.map fun c => c.analysis.expected c.srcs) :=
  history_ok calls ht hok calls (fun _ h => h) _ (fun _ _ h => by cases h)

/-- **C78** (forced): a forced computation does not depend on the files that are there; names have to tell the sources of the call
only. -/
theorem C78_forced (a : Analysis S D) (srcs : List S) (dir : Folder D) (hr : AnaRefsOk a) (hf : ∀ s ∈ srcs, ∀ f ∈ a.files s, ProducedFile f)
    (ht : NamesTell [(⟨a, true, srcs⟩ : FieldCall S D)]) : ∃ d, a.compute true srcs dir = some (a.expected srcs, d) := by
  have hc : (⟨a, true, srcs⟩ : FieldCall S D) ∈ [(⟨a, true, srcs⟩ : FieldCall S D)] := List.mem_singleton.2 rfl
  unfold Analysis.compute
  rw [if_neg (by simp), analysis_run_ok a hr srcs dir hf, Option.bind_some]
  have := load_expected a srcs _ (written_expected a srcs dir fun s hs s' hs' => ht _ hc _ hc s hs s' hs')
  unfold Analysis.written at this
  rw [this]
  exact ⟨_, rfl⟩

/-- Without `force_recompute`, an analysis with other data but the same names returns the old ones. -/
theorem C78_stale (a a' : Analysis S D) (srcs : List S) (hr : AnaRefsOk a) (hf : ∀ s ∈ srcs, ∀ f ∈ a.files s, ProducedFile f)
    (ht : NamesTell [(⟨a, false, srcs⟩ : FieldCall S D)]) (hn : a'.files = a.files) (dir : Folder D) (hd : dir = fun _ => none) (hne : srcs ≠ [])
    (hfiles : ∀ s, a.files s ≠ []) :
    ∃ d, a.compute false srcs dir = some (a.expected srcs, d) ∧ a'.compute false srcs d = some (a.expected srcs, d) := by
  have hc : (⟨a, false, srcs⟩ : FieldCall S D) ∈ [(⟨a, false, srcs⟩ : FieldCall S D)] := List.mem_singleton.2 rfl
  have hd0 : FilesFrom [(⟨a, false, srcs⟩ : FieldCall S D)] dir := by
    intro n v h; rw [hd] at h; cases h
  have hload : a.load srcs = a'.load srcs := by
    funext d; unfold Analysis.load; rw [hn]
  obtain ⟨s0, l, rfl⟩ := List.exists_cons_of_ne_nil hne
  unfold Analysis.compute
  have hp : a.present (s0 :: l) dir = false := by
    obtain ⟨f0, l', hl⟩ := List.exists_cons_of_ne_nil (hfiles s0)
    unfold Analysis.present
    simp [hl, hd]
  rw [if_neg (by simp [hp]), analysis_run_ok a hr (s0 :: l) dir hf, Option.bind_some]
  set d := (a.entries (s0 :: l)).foldl (fun d e => fun n => if n = e.1 then some e.2.2 else d n) dir with hdd
  have hall : ∀ s ∈ s0 :: l, ∀ j f, (a.files s)[j]? = some f → d f = some (a.data s j) :=
    written_expected a (s0 :: l) dir fun s hs s' hs' => ht _ hc _ hc s hs s' hs'
  have hl := load_expected a (s0 :: l) d hall
  refine ⟨d, by rw [hl]; rfl, ?_⟩
  have hp' : a'.present (s0 :: l) d = true := by
    unfold Analysis.present
    rw [hn]
    refine List.all_eq_true.2 fun s hs => List.all_eq_true.2 fun f hf' => ?_
    obtain ⟨j, hj⟩ := List.mem_iff_getElem?.1 hf'
    rw [hall s hs j f hj]; rfl
  rw [if_pos (by simp [hp']), ← hload, hl]
  rfl

/-- A source with a negative coordinate cannot be analysed: the dash of the minus sign in the name of the file is taken for the one
in front of the object. -/
theorem C78_minus (a : Analysis S D) (ha : AnaRefsOk a) (srcs : List S) (hc : ∀ s ∈ srcs, ∀ f ∈ a.files s, ':' ∉ f) (s : S) (hs : s ∈ srcs)
    (f : List Char) (hf : f ∈ a.files s) (hm : '-' ∈ f) (force : Bool) (dir : Folder D) (hd : force = true ∨ dir f = none) :
    a.compute force srcs dir = none := by
  unfold Analysis.compute
  rw [if_neg (by
    rcases hd with h | h
    · simp [h]
    · have : a.present srcs dir = false := by
        rw [Bool.eq_false_iff]
        intro hp
        have := List.all_eq_true.1 (List.all_eq_true.1 hp s hs) f hf
        rw [h] at this
        cases this
      simp [this])]
  have : a.run srcs dir = none := by
    unfold Analysis.run
    apply writeEntries_refused
    · intro e he
      rw [mem_entries] at he
      obtain ⟨i, s, j, f, h1, h2, rfl⟩ := he
      exact ⟨hc s (List.mem_of_getElem? h1) f (List.mem_of_getElem? h2), ha.obj i j, ha.key i j⟩
    · obtain ⟨i, hi⟩ := List.mem_iff_getElem?.1 hs
      obtain ⟨j, hj⟩ := List.mem_iff_getElem?.1 hf
      exact ⟨(f, a.ref i j, a.data s j), (mem_entries _ _ _).2 ⟨i, s, j, f, hi, hj, rfl⟩, hm⟩
  rw [this]
  rfl

/-- Two sources with the same names of files both get the data of the second. -/
theorem C78_collision (a : Analysis S D) (ha : AnaRefsOk a) (s s' : S) (f : List Char) (h1 : a.files s = [f]) (h2 : a.files s' = [f])
    (hf : ProducedFile f) (dir : Folder D) : ∃ d, a.compute true [s, s'] dir = some ([[a.data s' 0], [a.data s' 0]], d) := by
  unfold Analysis.compute
  rw [if_neg (by simp), analysis_run_ok a ha [s, s'] dir (by
    intro x hx g hg
    rcases List.mem_cons.1 hx with rfl | hx
    · rw [h1] at hg; rw [List.mem_singleton.1 hg]; exact hf
    · rw [List.mem_singleton.1 hx, h2] at hg; rw [List.mem_singleton.1 hg]; exact hf), Option.bind_some]
  have hw : (a.entries [s, s']).foldl (fun d e => fun n => if n = e.1 then some e.2.2 else d n) dir f = some (a.data s' 0) := by
    simp [Analysis.entries, h1, h2]
  have hl : a.load [s, s'] ((a.entries [s, s']).foldl (fun d e => fun n => if n = e.1 then some e.2.2 else d n) dir) =
      some [[a.data s' 0], [a.data s' 0]] := by
    simp [Analysis.load, h1, h2, hw]
  rw [hl]
  exact ⟨_, rfl⟩

/-! ### The three analyses -/

theorem plainName_append_nat (p : String) (n : Nat) (q : String) (hp : PlainName p) (hq : PlainName q) : PlainName (p ++ toString n ++ q) := by
  have hd : ∀ c : Char, c.isDigit = false → c ∉ (toString n).toList := by
    intro c hc h
    rw [natToString_digit n c h] at hc
    cases hc
  unfold PlainName at *
  simp only [String.toList_append, List.mem_append, not_or]
  exact ⟨⟨⟨hp.1, hd _ rfl⟩, hq.1⟩, ⟨⟨hp.2.1, hd _ rfl⟩, hq.2.1⟩, ⟨⟨hp.2.2, hd _ rfl⟩, hq.2.2⟩⟩

theorem plainName_nat (p : String) (n : Nat) (hp : PlainName p) : PlainName (p ++ toString n) := by
  have := plainName_append_nat p n "" hp (by unfold PlainName; simp)
  simpa using this

theorem append_nat_inj (p q : String) (n m : Nat) (h : p ++ toString n ++ q = p ++ toString m ++ q) : n = m := by
  rw [← String.toList_inj] at h
  simp only [String.toList_append] at h
  exact natToString_inj (List.append_cancel_left (List.append_cancel_right h))

theorem psf_refs (pix wl : ℚ) (data : ℚ × ℚ → Nat → D) : AnaRefsOk (psfAnalysis pix wl data) where
  obj i j := plainName_nat _ _ (by unfold PlainName; decide)
  key i j := by
    unfold psfAnalysis PlainName
    dsimp only
    split_ifs <;> decide
  inj s s' i j i' j' h h' e := by
    unfold psfAnalysis at h h' e
    simp only [List.length_cons, List.length_nil] at h h'
    rw [Prod.mk.injEq] at e
    refine ⟨append_nat_inj "psf_field_" "" i i' (by simpa using e.1), ?_⟩
    have h2 := e.2
    have hj : j = 0 ∨ j = 1 := by omega
    have hj' : j' = 0 ∨ j' = 1 := by omega
    rcases hj with rfl | rfl <;> rcases hj' with rfl | rfl <;> first | rfl | (exfalso; revert h2; decide)

theorem modal_refs (m : ModalArgs) (data : ℚ × ℚ → Nat → D) : AnaRefsOk (modalAnalysis m data) where
  obj i j := plainName_nat _ _ (by unfold PlainName; decide)
  key i j := (by unfold PlainName; decide : PlainName "out_modes")
  inj s s' i j i' j' h h' e := by
    unfold modalAnalysis at h h' e
    simp only [List.length_cons, List.length_nil] at h h'
    rw [Prod.mk.injEq] at e
    exact ⟨append_nat_inj "modal_analysis_" "" i i' (by simpa using e.1), by omega⟩

theorem cube_refs (wl : ℚ) (data : ℚ × ℚ → Nat → D) : AnaRefsOk (cubeAnalysis wl data) where
  obj i j := (by unfold PlainName; decide : PlainName "prop")
  key i j := plainName_append_nat _ _ _ (by unfold PlainName; decide) (by unfold PlainName; decide)
  inj s s' i j i' j' h h' e := by
    unfold cubeAnalysis at h h' e
    simp only [List.length_cons, List.length_nil] at h h'
    rw [Prod.mk.injEq] at e
    exact ⟨append_nat_inj "out_field_source_" "_ef" i i' e.2, by omega⟩

/-- A source without negative coordinates. -/
def SrcOk (s : ℚ × ℚ) : Prop := 0 ≤ s.1 ∧ 0 ≤ s.2

theorem fmtDec_fileOk (d : Nat) (x : ℚ) (h : 0 ≤ x) : ProducedFile (fmtDec d x) :=
  ⟨fmtDec_not_mem _ _ _ rfl (by decide) (by decide), fun hm => absurd ((fmtDec_minus d x).1 hm) (not_lt.2 h)⟩

theorem fileOk_append {a b : List Char} : ProducedFile (a ++ b) ↔ ProducedFile a ∧ ProducedFile b := by
  unfold ProducedFile
  simp only [List.mem_append, not_or]
  tauto

theorem fileOk_cons {c : Char} {b : List Char} : ProducedFile (c :: b) ↔ (':' ≠ c ∧ '-' ≠ c) ∧ ProducedFile b := by
  unfold ProducedFile
  simp only [List.mem_cons, not_or]
  tauto

theorem fileOk_nil : ProducedFile [] := ⟨by simp, by simp⟩

theorem psfName_ok (kind : String) (hk : ProducedFile kind.toList) (pix wl : ℚ) (s : ℚ × ℚ) (h1 : 0 ≤ pix) (h2 : 0 ≤ wl) (hs : SrcOk s) :
    ProducedFile (psfName kind pix wl s) := by
  unfold psfName
  simp only [fileOk_append, fileOk_cons]
  have := fmtDec_fileOk 1 s.1 hs.1
  have := fmtDec_fileOk 1 s.2 hs.2
  have := fmtDec_fileOk 2 pix h1
  have := fmtDec_fileOk 0 wl h2
  have := fileOk_nil
  refine ⟨hk, ?_⟩
  simp_all

theorem cubeName_ok (wl : ℚ) (s : ℚ × ℚ) (h2 : 0 ≤ wl) (hs : SrcOk s) : ProducedFile (cubeName wl s) := by
  unfold cubeName
  simp only [fileOk_append, fileOk_cons]
  have := fmtDec_fileOk 1 s.1 hs.1
  have := fmtDec_fileOk 1 s.2 hs.2
  have := fmtDec_fileOk 0 wl h2
  have := fileOk_nil
  refine ⟨⟨by decide, by decide⟩, ?_⟩
  simp_all

/-- A call of `compute_field_psf`: pixel size, wavelength, `force_recompute` and sources. -/
structure PsfCall where
  pix : ℚ
  wl : ℚ
  force : Bool
  srcs : List (ℚ × ℚ)

/-- **C78** (PSF): any sequence of computations of PSFs, with different sources, pixel sizes and wavelengths but the same time
interval, returns PSF and Strehl ratio of each source in order, whichever files are reused, provided that coordinates are not
negative and that what is analysed differs in the digits of the file names. -/
theorem C78_psf (data : ℚ → ℚ → ℚ × ℚ → Nat → D) (calls : List PsfCall)
    (hpos : ∀ c ∈ calls, 0 ≤ c.pix ∧ 0 ≤ c.wl ∧ ∀ s ∈ c.srcs, SrcOk s)
    (hdiff : ∀ c ∈ calls, ∀ c' ∈ calls, ∀ s ∈ c.srcs, ∀ s' ∈ c'.srcs, SameTenths s s' → roundEvenF (c.pix * 100) = roundEvenF (c'.pix * 100) →
      roundEvenF c.wl = roundEvenF c'.wl → c.pix = c'.pix ∧ c.wl = c'.wl ∧ s = s') :
    fieldHistory (calls.map fun c => ⟨psfAnalysis c.pix c.wl (data c.pix c.wl), c.force, c.srcs⟩) (fun _ => none) =
      some (calls.map fun c => c.srcs.map fun s => [data c.pix c.wl s 0, data c.pix c.wl s 1]) := by
  rw [C78_history]
  · rw [List.map_map]; rfl
  · intro c hc c' hc' s hs s' hs' j j' f hj hj'
    obtain ⟨q, hq, rfl⟩ := List.mem_map.1 hc
    obtain ⟨q', hq', rfl⟩ := List.mem_map.1 hc'
    dsimp only at hs hs'
    have hlt := (List.getElem?_eq_some_iff.1 hj).1
    have hlt' := (List.getElem?_eq_some_iff.1 hj').1
    simp only [psfAnalysis, List.length_cons, List.length_nil] at hlt hlt'
    have e1 : j = 0 ∨ j = 1 := by omega
    have e2 : j' = 0 ∨ j' = 1 := by omega
    have key : ∀ kind, psfName kind q.pix q.wl s = psfName kind q'.pix q'.wl s' → q.pix = q'.pix ∧ q.wl = q'.wl ∧ s = s' := by
      intro kind h
      obtain ⟨h1, h2, h3⟩ := C78_psf_names kind _ _ _ _ _ _ h
      exact hdiff q hq q' hq' s hs s' hs' h1 h2 h3
    rcases e1 with rfl | rfl <;> rcases e2 with rfl | rfl <;>
      simp only [psfAnalysis, List.getElem?_cons_zero, List.getElem?_cons_succ, Option.some.injEq] at hj hj' ⊢ <;> subst hj
    · obtain ⟨h1, h2, h3⟩ := key _ hj'.symm; rw [h1, h2, h3]
    · exact absurd hj'.symm (psfName_kind _ _ _ _ _ _)
    · exact absurd hj' (psfName_kind _ _ _ _ _ _)
    · obtain ⟨h1, h2, h3⟩ := key _ hj'.symm; rw [h1, h2, h3]
  · intro c hc
    obtain ⟨q, hq, rfl⟩ := List.mem_map.1 hc
    refine ⟨psf_refs _ _ _, ?_⟩
    intro s hs f hf
    obtain ⟨h1, h2, h3⟩ := hpos q hq
    simp only [psfAnalysis, List.mem_cons, List.not_mem_nil, or_false] at hf
    rcases hf with rfl | rfl
    · exact psfName_ok _ ⟨by decide, by decide⟩ _ _ _ h1 h2 (h3 s hs)
    · exact psfName_ok _ ⟨by decide, by decide⟩ _ _ _ h1 h2 (h3 s hs)

/-- A call of `compute_phase_cube`. -/
structure CubeCall where
  wl : ℚ
  force : Bool
  srcs : List (ℚ × ℚ)

/-- **C78** (cubes): the same for the phase cubes. -/
theorem C78_cube (data : ℚ → ℚ × ℚ → Nat → D) (calls : List CubeCall)
    (hpos : ∀ c ∈ calls, 0 ≤ c.wl ∧ ∀ s ∈ c.srcs, SrcOk s)
    (hdiff : ∀ c ∈ calls, ∀ c' ∈ calls, ∀ s ∈ c.srcs, ∀ s' ∈ c'.srcs, SameTenths s s' → roundEvenF c.wl = roundEvenF c'.wl →
      c.wl = c'.wl ∧ s = s') :
    fieldHistory (calls.map fun c => ⟨cubeAnalysis c.wl (data c.wl), c.force, c.srcs⟩) (fun _ => none) =
      some (calls.map fun c => c.srcs.map fun s => [data c.wl s 0]) := by
  rw [C78_history]
  · rw [List.map_map]; rfl
  · intro c hc c' hc' s hs s' hs' j j' f hj hj'
    obtain ⟨q, hq, rfl⟩ := List.mem_map.1 hc
    obtain ⟨q', hq', rfl⟩ := List.mem_map.1 hc'
    dsimp only at hs hs'
    have hlt := (List.getElem?_eq_some_iff.1 hj).1
    have hlt' := (List.getElem?_eq_some_iff.1 hj').1
    simp only [cubeAnalysis, List.length_cons, List.length_nil] at hlt hlt'
    obtain rfl : j = 0 := by omega
    obtain rfl : j' = 0 := by omega
    simp only [cubeAnalysis, List.getElem?_cons_zero, Option.some.injEq] at hj hj' ⊢
    subst hj
    obtain ⟨h1, h2⟩ := C78_cube_names _ _ _ _ hj'.symm
    obtain ⟨h3, h4⟩ := hdiff q hq q' hq' s hs s' hs' h1 h2
    rw [h3, h4]
  · intro c hc
    obtain ⟨q, hq, rfl⟩ := List.mem_map.1 hc
    refine ⟨cube_refs _ _, ?_⟩
    intro s hs f hf
    obtain ⟨h2, h3⟩ := hpos q hq
    simp only [cubeAnalysis, List.mem_cons, List.not_mem_nil, or_false] at hf
    rw [hf]
    exact cubeName_ok _ _ h2 (h3 s hs)

/-- **C78** (modes): the same for the modal analysis with a given set of arguments. -/
theorem C78_modal (m : ModalArgs) (data : ℚ × ℚ → Nat → D) (calls : List (Bool × List (ℚ × ℚ)))
    (hpos : ∀ c ∈ calls, ∀ s ∈ c.2, ProducedFile (modalName m s))
    (hdiff : ∀ c ∈ calls, ∀ c' ∈ calls, ∀ s ∈ c.2, ∀ s' ∈ c'.2, SameTenths s s' → s = s') :
    fieldHistory (calls.map fun c => ⟨modalAnalysis m data, c.1, c.2⟩) (fun _ => none) =
      some (calls.map fun c => c.2.map fun s => [data s 0]) := by
  rw [C78_history]
  · rw [List.map_map]; rfl
  · intro c hc c' hc' s hs s' hs' j j' f hj hj'
    obtain ⟨q, hq, rfl⟩ := List.mem_map.1 hc
    obtain ⟨q', hq', rfl⟩ := List.mem_map.1 hc'
    dsimp only at hs hs'
    have hlt := (List.getElem?_eq_some_iff.1 hj).1
    have hlt' := (List.getElem?_eq_some_iff.1 hj').1
    simp only [modalAnalysis, List.length_cons, List.length_nil] at hlt hlt'
    obtain rfl : j = 0 := by omega
    obtain rfl : j' = 0 := by omega
    simp only [modalAnalysis, List.getElem?_cons_zero, Option.some.injEq] at hj hj' ⊢
    subst hj
    rw [hdiff q hq q' hq' s hs s' hs' (C78_modal_names m s s' hj'.symm)]
  · intro c hc
    obtain ⟨q, hq, rfl⟩ := List.mem_map.1 hc
    refine ⟨modal_refs _ _, ?_⟩
    intro s hs f hf
    simp only [modalAnalysis, List.mem_cons, List.not_mem_nil, or_false] at hf
    rw [hf]
    exact hpos q hq s hs

/-- No PSF can be computed at a negative angle. -/
theorem C78_negative_angle (pix wl : ℚ) (data : ℚ × ℚ → Nat → D) (srcs : List (ℚ × ℚ)) (s : ℚ × ℚ) (hs : s ∈ srcs) (h : s.2 < 0)
    (force : Bool) (dir : Folder D) (hd : force = true ∨ dir (psfName "psf" pix wl s) = none) :
    (psfAnalysis pix wl data).compute force srcs dir = none := by
  have hcolon : ∀ (kind : String), ':' ∉ kind.toList → ∀ s, ':' ∉ psfName kind pix wl s := by
    intro kind hk s
    have hf : ∀ d x, ':' ∉ fmtDec d x := fun d x => fmtDec_not_mem _ _ _ rfl (by decide) (by decide)
    unfold psfName
    simp [hk, hf]
  refine C78_minus _ (psf_refs _ _ _) srcs ?_ s hs (psfName "psf" pix wl s) (by simp [psfAnalysis]) ?_ force dir hd
  · intro s' _ f hf
    simp only [psfAnalysis, List.mem_cons, List.not_mem_nil, or_false] at hf
    rcases hf with rfl | rfl
    · exact hcolon _ (by decide) _
    · exact hcolon _ (by decide) _
  · unfold psfName
    have := (fmtDec_minus 1 s.2).2 h
    simp [this]

/-! ### Cases -/

example : String.ofList (psfName "psf" (25 / 4) 750 (10, 45)) = "psf_r10.0t45.0_pix6.25mas_wl750nm" := by decide +kernel

example : String.ofList (modalName { nmodes := some 100, typeStr := some "zernike", obsratio := some (3 / 25) } (1 / 3, 271 / 2)) =
    "modal_r0.3t135.5_nmodes100_zernike_obs0.12" := by decide +kernel

example : splitOutput (storeEntry (psfName "psf" (25 / 4) 750 (10, 45)) ("psf_field_0", "out_int_psf")) =
    some ⟨some "psf_r10.0t45.0_pix6.25mas_wl750nm", "psf_field_0", some "out_int_psf", 0⟩ := by decide +kernel

example : splitOutput (storeEntry (psfName "psf" (25 / 4) 750 (10, -45)) ("psf_field_0", "out_int_psf")) = none := by decide +kernel

/-- Three calls: two sources, one of them again with another one, and a forced computation at another wavelength. -/
example (data : ℚ → ℚ → ℚ × ℚ → Nat → D) :
    fieldHistory ([⟨5, 750, false, [(0, 0), (10, 45)]⟩, ⟨5, 750, false, [(10, 45), (20, 90)]⟩, ⟨5, 1650, true, [(0, 0)]⟩].map
        fun c : PsfCall => ⟨psfAnalysis c.pix c.wl (data c.pix c.wl), c.force, c.srcs⟩) (fun _ => none) =
      some [[[data 5 750 (0, 0) 0, data 5 750 (0, 0) 1], [data 5 750 (10, 45) 0, data 5 750 (10, 45) 1]],
        [[data 5 750 (10, 45) 0, data 5 750 (10, 45) 1], [data 5 750 (20, 90) 0, data 5 750 (20, 90) 1]],
        [[data 5 1650 (0, 0) 0, data 5 1650 (0, 0) 1]]] := by
  rw [C78_psf]
  · rfl
  · simp only [SrcOk]; decide +kernel
  · simp only [SameTenths]; decide +kernel

/-- Sources 0.04 apart: both get the cube of the second. -/
example (data : ℚ × ℚ → Nat → D) (dir : Folder D) :
    ∃ d, (cubeAnalysis 750 data).compute true [(10, 0), (1004 / 100, 0)] dir = some ([[data (1004 / 100, 0) 0], [data (1004 / 100, 0) 0]], d) :=
  C78_collision _ (cube_refs _ _) _ _ (cubeName 750 (10, 0)) rfl (by show [cubeName _ _] = [_]; decide +kernel)
    (cubeName_ok _ _ (by norm_num) ⟨by norm_num, by norm_num⟩) dir

/-- Results of another time interval are returned for the new one. -/
example (data data' : ℚ × ℚ → Nat → D) :
    ∃ d, (cubeAnalysis 750 data).compute false [(10, 0)] (fun _ => none) = some ([[data (10, 0) 0]], d) ∧
      (cubeAnalysis 750 data').compute false [(10, 0)] d = some ([[data (10, 0) 0]], d) := by
  refine C78_stale (cubeAnalysis 750 data) (cubeAnalysis 750 data') [(10, 0)] (cube_refs _ _) ?_ ?_ rfl _ rfl (by simp) (fun s => by simp [cubeAnalysis])
  · intro s hs f hf
    rw [List.mem_singleton.1 hs] at hf
    simp only [cubeAnalysis, List.mem_cons, List.not_mem_nil, or_false] at hf
    rw [hf]
    exact cubeName_ok _ _ (by norm_num) ⟨by norm_num, by norm_num⟩
  · intro c hc c' hc' s hs s' hs' j j' f hj hj'
    rw [List.mem_singleton.1 hc] at hs hj
    rw [List.mem_singleton.1 hc'] at hs' hj'
    rw [List.mem_singleton.1 hc, List.mem_singleton.1 hc', List.mem_singleton.1 hs, List.mem_singleton.1 hs']
    have hlt := (List.getElem?_eq_some_iff.1 hj).1
    have hlt' := (List.getElem?_eq_some_iff.1 hj').1
    simp only [cubeAnalysis, List.length_cons, List.length_nil] at hlt hlt'
    obtain rfl : j = 0 := by omega
    obtain rfl : j' = 0 := by omega
    rfl

end Specula
