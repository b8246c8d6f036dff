import Mathlib.Tactic.Linarith
import Mathlib.Tactic.Ring
import Mathlib.Tactic.FieldSimp
import Mathlib.Tactic.NormNum
import Mathlib.Data.Rat.Floor
import Mathlib.Algebra.Order.Field.Basic
import Verif.Model.Extrap
import Verif.Props.Interp
import Verif.Props.ShSlopes
import Verif.Props.Float
/-
C71: extrapolation of the phase at the edge of the pupil, and interpolation of electric fields.
C72: positions at which `EFInterpolator` samples the field.
-/
namespace Specula

section
variable {K : Type} [Field K] [LinearOrder K]

/-! ### Edge pixels: the list of references -/

omit [LinearOrder K] in
theorem linear_index (cols : Nat) (y x : Int) (hy : 0 ≤ y) (hx : 0 ≤ x) (hc : x < cols) :
    0 ≤ y * cols + x ∧ (y * cols + x).toNat / cols = y.toNat ∧ (y * cols + x).toNat % cols = x.toNat := by
  obtain ⟨a, rfl⟩ := Int.eq_ofNat_of_zero_le hy
  obtain ⟨b, rfl⟩ := Int.eq_ofNat_of_zero_le hx
  have hb : b < cols := by exact_mod_cast hc
  have e : ((a : Int) * cols + b).toNat = cols * a + b := by
    rw [show ((a : Int) * cols + b) = ((cols * a + b : Nat) : Int) by push_cast; ring, Int.toNat_natCast]
  refine ⟨by positivity, ?_, ?_⟩
  · rw [e, Nat.mul_add_div (by omega), Nat.div_eq_of_lt hb, Int.toNat_natCast, Nat.add_zero]
  · rw [e, Nat.mul_add_mod, Nat.mod_eq_of_lt hb, Int.toNat_natCast]

theorem inMaskAt_iff (rows cols : Nat) (b : Nat → Nat → Bool) (y x : Int) :
    inMaskAt rows cols b y x = true ↔ ∃ y' x' : Nat, y = y' ∧ x = x' ∧ y' < rows ∧ x' < cols ∧ b y' x' = true := by
  unfold inMaskAt
  simp only [Bool.and_eq_true, decide_eq_true_eq]
  constructor
  · rintro ⟨⟨⟨⟨h1, h2⟩, h3⟩, h4⟩, h5⟩
    exact ⟨y.toNat, x.toNat, by omega, by omega, by omega, by omega, h5⟩
  · rintro ⟨a, c, rfl, rfl, h1, h2, h3⟩
    exact ⟨⟨⟨⟨by omega, by omega⟩, by omega⟩, by omega⟩, by simpa using h3⟩

/-- The forms an entry can have before normalisation, with references in the mask. -/
def ExForm (rows cols : Nat) (b : Nat → Nat → Bool) (e : ExRef K) : Prop :=
  (∀ r, (r = e.ref1 ∨ r = e.ref2) → 0 ≤ r → r.toNat / cols < rows ∧ r.toNat % cols < cols ∧ b (r.toNat / cols) (r.toNat % cols) = true) ∧
    ((e.c1 = some 2 ∧ e.c2 = some (-1)) ∨ (e.ref2 = -1 ∧ e.c1 = some 1 ∧ e.c2 = none) ∨ (e.c1 = some 0 ∧ e.c2 = some 0))

omit [LinearOrder K] in
theorem fold_forms (rows cols : Nat) (b : Nat → Nat → Bool) (y x : Nat) (ds : List (Int × Int)) (st : Nat × List (ExRef K))
    (h : ∀ e ∈ st.2, ExForm rows cols b e) : ∀ e ∈ (ds.foldl (exDir rows cols b y x) st).2, ExForm rows cols b e := by
  induction ds generalizing st with
  | nil => exact h
  | cons d ds ih =>
    rw [List.foldl_cons]
    apply ih
    have hin : ∀ y1 x1 : Int, inMaskAt rows cols b y1 x1 = true → 0 ≤ y1 * cols + x1 → (y1 * cols + x1).toNat / cols < rows ∧
        (y1 * cols + x1).toNat % cols < cols ∧ b ((y1 * cols + x1).toNat / cols) ((y1 * cols + x1).toNat % cols) = true := by
      intro y1 x1 h1 _
      obtain ⟨a, c, rfl, rfl, h2, h3, h4⟩ := (inMaskAt_iff _ _ _ _ _).1 h1
      obtain ⟨-, e1, e2⟩ := linear_index cols a c (by omega) (by omega) (by omega)
      rw [e1, e2, Int.toNat_natCast, Int.toNat_natCast]
      exact ⟨h2, h3, h4⟩
    unfold exDir
    dsimp only
    split_ifs with h1 h2 h3
    · intro e he
      rw [List.mem_append, List.mem_singleton] at he
      rcases he with he | rfl
      · exact h e he
      · refine ⟨?_, Or.inl ⟨rfl, rfl⟩⟩
        rintro r (rfl | rfl) hr
        · exact hin _ _ h1 hr
        · exact hin _ _ h2 hr
    · intro e he
      rw [List.mem_append, List.mem_singleton] at he
      rcases he with he | rfl
      · exact h e he
      · refine ⟨?_, Or.inr (Or.inl ⟨rfl, rfl, rfl⟩)⟩
        rintro r (rfl | rfl) hr
        · exact hin _ _ h1 hr
        · exact absurd hr (by dsimp only; omega)
    · intro e he
      rw [List.mem_append, List.mem_singleton] at he
      rcases he with he | rfl
      · exact h e he
      · refine ⟨?_, Or.inr (Or.inr ⟨rfl, rfl⟩)⟩
        rintro r (rfl | rfl) hr
        · exact hin _ _ h1 hr
        · exact absurd hr (by dsimp only; omega)
    · intro e he
      rw [List.mem_append, List.mem_singleton] at he
      rcases he with he | rfl
      · exact h e he
      · refine ⟨?_, Or.inr (Or.inr ⟨rfl, rfl⟩)⟩
        rintro r (rfl | rfl) hr
        · exact absurd hr (by dsimp only; omega)
        · exact absurd hr (by dsimp only; omega)

/-- The contribution of an entry. -/
def exPart (cols : Nat) (px : Nat → Nat → K) (e : ExRef K) : K :=
  (if 0 ≤ e.ref1 then e.c1.getD 0 * px (e.ref1.toNat / cols) (e.ref1.toNat % cols) else 0) +
    (if 0 ≤ e.ref2 then e.c2.getD 0 * px (e.ref2.toNat / cols) (e.ref2.toNat % cols) else 0)

theorem exNorm_form (rd : K → K) (rows cols : Nat) (b : Nat → Nat → Bool) (k : Nat) (e : ExRef K) (h : ExForm rows cols b e) :
    (exNorm rd k e).ref1 = e.ref1 ∧ (exNorm rd k e).ref2 = e.ref2 ∧ (exNorm rd k e).c1.isSome = true ∧
      ((exNorm rd k e).c2.isSome = true ∨ e.ref2 = -1) := by
  obtain ⟨r1, r2, c1, c2⟩ := e
  rcases h.2 with ⟨h1, h2⟩ | ⟨h0, h1, h2⟩ | ⟨h1, h2⟩
  all_goals
    dsimp only at *
    subst h1 h2
    unfold exNorm
    dsimp only
    split_ifs <;> simp_all

omit [LinearOrder K] in
theorem exValue_parts (cols : Nat) (px : Nat → Nat → K) (es : List (ExRef K))
    (h : ∀ e ∈ es, e.c1.isSome = true ∧ (e.c2.isSome = true ∨ e.ref2 = -1)) : exValue cols px es = some (es.map (exPart cols px)).sum := by
  unfold exValue
  rw [mapM_all_some _ (exPart cols px) es, Option.map_some]
  intro e he
  obtain ⟨h1, h2⟩ := h e he
  obtain ⟨r1, r2, c1, c2⟩ := e
  dsimp only at h1 h2
  obtain ⟨c1, rfl⟩ := Option.isSome_iff_exists.1 h1
  unfold exSlot exPart
  dsimp only
  rcases h2 with h2 | rfl
  · obtain ⟨c2, rfl⟩ := Option.isSome_iff_exists.1 h2
    split_ifs <;> simp
  · split_ifs <;> simp_all

/-- The list of references of a pixel. -/
theorem exCoeffs_good (rd : K → K) (rows cols : Nat) (b : Nat → Nat → Bool) (y x : Nat) :
    ∀ e ∈ exCoeffs rd rows cols b y x, e.c1.isSome = true ∧ (e.c2.isSome = true ∨ e.ref2 = -1) := by
  intro e he
  unfold exCoeffs at he
  rw [List.mem_map] at he
  obtain ⟨e0, h0, rfl⟩ := he
  have hf := fold_forms rows cols b y x exDirs (0, []) (by simp) e0 h0
  obtain ⟨h1, h2, h3, h4⟩ := exNorm_form rd rows cols b (exDirs.foldl (exDir (K := K) rows cols b y x) (0, [])).1 e0 hf
  exact ⟨h3, by rw [h2]; exact h4⟩

theorem exCoeffs_head (rd : K → K) (rows cols : Nat) (b : Nat → Nat → Bool) (y x : Nat) :
    ((exCoeffs rd rows cols b y x).head?.bind ExRef.c1).isSome = true := by
  have hne : exCoeffs rd rows cols b y x ≠ [] := by
    intro h
    have hl : ∀ (ds : List (Int × Int)) (st : Nat × List (ExRef K)), (ds.foldl (exDir rows cols b y x) st).2.length = st.2.length + ds.length := by
      intro ds
      induction ds with
      | nil => intro st; rfl
      | cons d ds ih =>
        intro st
        rw [List.foldl_cons, ih, List.length_cons]
        have : (exDir rows cols b y x st d).2.length = st.2.length + 1 := by
          unfold exDir
          dsimp only
          split_ifs <;> simp
        omega
    have := congrArg List.length h
    unfold exCoeffs at this
    rw [List.length_map, hl] at this
    simp [exDirs] at this
  cases he : exCoeffs rd rows cols b y x with
  | nil => exact absurd he hne
  | cons e l =>
    have := exCoeffs_good rd rows cols b y x e (by rw [he]; exact List.mem_cons_self)
    simpa using this.1

/-- The extrapolated value. -/
theorem exApply_edge (rd : K → K) (rows cols : Nat) (b : Nat → Nat → Bool) (px out : Nat → Nat → K) (y x : Nat) (h : exEdge rows cols b y x = true) :
    exApply rd rows cols b px out y x = some ((exCoeffs rd rows cols b y x).map (exPart cols px)).sum := by
  unfold exApply
  rw [h, exCoeffs_head]
  exact exValue_parts cols px _ (exCoeffs_good rd rows cols b y x)

theorem exApply_other (rd : K → K) (rows cols : Nat) (b : Nat → Nat → Bool) (px out : Nat → Nat → K) (y x : Nat) (h : exEdge rows cols b y x = false) :
    exApply rd rows cols b px out y x = some (out y x) := by
  unfold exApply
  rw [h]
  rfl

/-! ### Sums over the directions -/

variable [IsStrictOrderedRing K]

theorem exPart_norm (rows cols : Nat) (b : Nat → Nat → Bool) (px : Nat → Nat → K) (k : Nat) (e : ExRef K) (h : ExForm rows cols b e) :
    exPart cols px (exNorm id k e) = if 1 < k then exPart cols px e * (1 / k) else exPart cols px e := by
  obtain ⟨r1, r2, c1, c2⟩ := e
  by_cases hk : 1 < k
  swap
  · unfold exNorm; rw [if_neg hk, if_neg hk]
  rw [if_pos hk]
  unfold exNorm exPart
  rw [if_pos hk]
  rcases h.2 with ⟨h1, h2⟩ | ⟨h0, h1, h2⟩ | ⟨h1, h2⟩
  · dsimp only at *
    subst h1 h2
    have a : ¬(some (2 : K) = some 0) := by rw [Option.some.injEq]; exact two_ne_zero
    have c : ¬(some (-1 : K) = some 0) := by rw [Option.some.injEq]; exact neg_ne_zero.2 one_ne_zero
    rw [if_neg a, if_neg c]
    dsimp only
    simp only [Option.map_some, Option.getD_some, id]
    split_ifs <;> ring
  · dsimp only at *
    subst h0 h1 h2
    have a : ¬(some (1 : K) = some 0) := by rw [Option.some.injEq]; exact one_ne_zero
    rw [if_neg a]
    dsimp only
    simp only [Option.map_some, Option.getD_some, id]
    have hn : ¬(0 : Int) ≤ -1 := by omega
    simp only [hn, if_false]
    split_ifs <;> ring
  · dsimp only at *
    subst h1 h2
    rw [if_pos rfl]
    simp

/-- When every direction with a reference predicts the value `T`, the extrapolated value is `T`. -/
theorem fold_total (rows cols : Nat) (b : Nat → Nat → Bool) (y x : Nat) (px : Nat → Nat → K) (T : K) (ds : List (Int × Int))
    (h1 : ∀ d ∈ ds, inMaskAt rows cols b (y + d.1) (x + d.2) = true → inMaskAt rows cols b (y + 2 * d.1) (x + 2 * d.2) = true →
      2 * px (y + d.1).toNat (x + d.2).toNat - px (y + 2 * d.1).toNat (x + 2 * d.2).toNat = T)
    (h2 : ∀ d ∈ ds, inMaskAt rows cols b (y + d.1) (x + d.2) = true → inMaskAt rows cols b (y + 2 * d.1) (x + 2 * d.2) = false →
      px (y + d.1).toNat (x + d.2).toNat = T)
    (st : Nat × List (ExRef K)) (hst : (st.2.map (exPart cols px)).sum = T * st.1) :
    ((ds.foldl (exDir rows cols b y x) st).2.map (exPart cols px)).sum = T * (ds.foldl (exDir rows cols b y x) st).1 := by
  induction ds generalizing st with
  | nil => exact hst
  | cons d ds ih =>
    rw [List.foldl_cons]
    apply ih (fun e he => h1 e (List.mem_cons_of_mem _ he)) (fun e he => h2 e (List.mem_cons_of_mem _ he))
    have hr : ∀ y1 x1 : Int, inMaskAt rows cols b y1 x1 = true → 0 ≤ y1 * cols + x1 ∧ (y1 * cols + x1).toNat / cols = y1.toNat ∧
        (y1 * cols + x1).toNat % cols = x1.toNat := by
      intro y1 x1 h
      obtain ⟨a, c, rfl, rfl, -, h3, -⟩ := (inMaskAt_iff _ _ _ _ _).1 h
      exact linear_index cols a c (by omega) (by omega) (by omega)
    unfold exDir
    dsimp only
    split_ifs with c1 c2 c3
    · obtain ⟨a1, a2, a3⟩ := hr _ _ c1
      obtain ⟨b1, b2, b3⟩ := hr _ _ c2
      have := h1 d List.mem_cons_self c1 c2
      rw [List.map_append, List.sum_append, hst]
      simp only [List.map_cons, List.map_nil, List.sum_cons, List.sum_nil, exPart, if_pos a1, if_pos b1, a2, a3, b2, b3, Option.getD_some]
      push_cast
      linear_combination this
    · obtain ⟨a1, a2, a3⟩ := hr _ _ c1
      have := h2 d List.mem_cons_self c1 (by simpa using c2)
      rw [List.map_append, List.sum_append, hst]
      simp only [List.map_cons, List.map_nil, List.sum_cons, List.sum_nil, exPart, if_pos a1, a2, a3, Option.getD_some]
      rw [if_neg (by omega)]
      push_cast
      linear_combination this
    · rw [List.map_append, List.sum_append, hst]
      simp [exPart]
    · rw [List.map_append, List.sum_append, hst]
      simp [exPart]

omit [LinearOrder K] [IsStrictOrderedRing K] in
theorem fold_count_mono (rows cols : Nat) (b : Nat → Nat → Bool) (y x : Nat) (ds : List (Int × Int)) (st : Nat × List (ExRef K)) :
    st.1 ≤ (ds.foldl (exDir rows cols b y x) st).1 := by
  induction ds generalizing st with
  | nil => exact le_refl _
  | cons d ds ih =>
    rw [List.foldl_cons]
    refine le_trans ?_ (ih _)
    unfold exDir
    dsimp only
    split_ifs <;> simp

omit [LinearOrder K] [IsStrictOrderedRing K] in
theorem fold_count_pos (rows cols : Nat) (b : Nat → Nat → Bool) (y x : Nat) (ds : List (Int × Int)) (st : Nat × List (ExRef K))
    (h : ∃ d ∈ ds, inMaskAt rows cols b (y + d.1) (x + d.2) = true) : 0 < (ds.foldl (exDir rows cols b y x) st).1 := by
  induction ds generalizing st with
  | nil => obtain ⟨d, hd, -⟩ := h; simp at hd
  | cons d ds ih =>
    rw [List.foldl_cons]
    by_cases hd : inMaskAt rows cols b (y + d.1) (x + d.2) = true
    · refine lt_of_lt_of_le ?_ (fold_count_mono rows cols b y x ds _)
      unfold exDir
      dsimp only
      rw [if_pos hd]
      split_ifs <;> simp
      omega
    · apply ih
      obtain ⟨d', h1, h2⟩ := h
      rcases List.mem_cons.1 h1 with rfl | h1
      · exact absurd h2 hd
      · exact ⟨d', h1, h2⟩

theorem edge_neighbour (rows cols : Nat) (b : Nat → Nat → Bool) (y x : Nat) (h : exEdge rows cols b y x = true) :
    b y x = false ∧ ∃ d ∈ exDirs, inMaskAt rows cols b (y + d.1) (x + d.2) = true := by
  unfold exEdge at h
  rw [Bool.and_eq_true, Bool.or_eq_true, Bool.not_eq_true', List.any_eq_true] at h
  obtain ⟨h1 | h1, h2⟩ := h
  · rw [h1] at h2; exact absurd h2 (by simp)
  · exact ⟨h2, h1⟩

theorem edge_value (rows cols : Nat) (b : Nat → Nat → Bool) (px out : Nat → Nat → K) (y x : Nat) (T : K) (h : exEdge rows cols b y x = true)
    (h1 : ∀ d ∈ exDirs, inMaskAt rows cols b (y + d.1) (x + d.2) = true → inMaskAt rows cols b (y + 2 * d.1) (x + 2 * d.2) = true →
      2 * px (y + d.1).toNat (x + d.2).toNat - px (y + 2 * d.1).toNat (x + 2 * d.2).toNat = T)
    (h2 : ∀ d ∈ exDirs, inMaskAt rows cols b (y + d.1) (x + d.2) = true → inMaskAt rows cols b (y + 2 * d.1) (x + 2 * d.2) = false →
      px (y + d.1).toNat (x + d.2).toNat = T) : exApply id rows cols b px out y x = some T := by
  rw [exApply_edge id rows cols b px out y x h]
  unfold exCoeffs
  dsimp only
  have hf := fold_forms (K := K) rows cols b y x exDirs (0, []) (by simp)
  have ht := fold_total rows cols b y x px T exDirs h1 h2 (0, []) (by simp)
  have hk := fold_count_pos (K := K) rows cols b y x exDirs (0, []) (edge_neighbour rows cols b y x h).2
  generalize exDirs.foldl (exDir (K := K) rows cols b y x) (0, []) = st at hf ht hk
  rw [List.map_map]
  have hm : st.2.map (exPart cols px ∘ exNorm id st.1) = st.2.map fun e => exPart cols px e * (if 1 < st.1 then 1 / (st.1 : K) else 1) := by
    apply List.map_congr_left
    intro e he
    rw [Function.comp, exPart_norm rows cols b px st.1 e (hf e he)]
    split_ifs
    · rfl
    · rw [mul_one]
  rw [hm, List.sum_map_mul_right, ht]
  have hk0 : (st.1 : K) ≠ 0 := by exact_mod_cast hk.ne'
  split_ifs with h3
  · rw [mul_assoc, mul_one_div, div_self hk0, mul_one]
  · have : st.1 = 1 := by omega
    rw [this]
    simp

/-! ### The extrapolated phase -/

omit [IsStrictOrderedRing K] in
/-- C71.  Every edge pixel gets a number (never NaN), whatever the rounding of the coefficients. -/
theorem C71_defined (rd : K → K) (rows cols : Nat) (b : Nat → Nat → Bool) (px out : Nat → Nat → K) (y x : Nat) :
    (exApply rd rows cols b px out y x).isSome = true := by
  cases h : exEdge rows cols b y x with
  | true => rw [exApply_edge rd rows cols b px out y x h]; rfl
  | false => rw [exApply_other rd rows cols b px out y x h]; rfl

/-- C71.  A phase that is constant on the mask is extended with the same constant. -/
theorem C71_constant (rows cols : Nat) (b : Nat → Nat → Bool) (px out : Nat → Nat → K) (p : K)
    (hp : ∀ i j, i < rows → j < cols → b i j = true → px i j = p) (y x : Nat) (h : exEdge rows cols b y x = true) :
    exApply id rows cols b px out y x = some p := by
  have hv : ∀ y1 x1 : Int, inMaskAt rows cols b y1 x1 = true → px y1.toNat x1.toNat = p := by
    intro y1 x1 h1
    obtain ⟨a, c, rfl, rfl, h2, h3, h4⟩ := (inMaskAt_iff _ _ _ _ _).1 h1
    simpa using hp a c h2 h3 h4
  apply edge_value rows cols b px out y x p h
  · intro d _ h1 h2
    rw [hv _ _ h1, hv _ _ h2]
    ring
  · intro d _ h1 _
    exact hv _ _ h1

/-- C71.  A plane is continued exactly at the edge pixels that have two pixels of the mask in each direction in which they have one. -/
theorem C71_plane (rows cols : Nat) (b : Nat → Nat → Bool) (px out : Nat → Nat → K) (p q r : K)
    (hp : ∀ i j : Nat, i < rows → j < cols → b i j = true → px i j = p + q * i + r * j) (y x : Nat) (h : exEdge rows cols b y x = true)
    (hfull : ∀ d ∈ exDirs, inMaskAt rows cols b (y + d.1) (x + d.2) = true → inMaskAt rows cols b (y + 2 * d.1) (x + 2 * d.2) = true) :
    exApply id rows cols b px out y x = some (p + q * y + r * x) := by
  have hv : ∀ y1 x1 : Int, inMaskAt rows cols b y1 x1 = true → px y1.toNat x1.toNat = p + q * y1 + r * x1 := by
    intro y1 x1 h1
    obtain ⟨a, c, rfl, rfl, h2, h3, h4⟩ := (inMaskAt_iff _ _ _ _ _).1 h1
    simpa using hp a c h2 h3 h4
  apply edge_value rows cols b px out y x _ h
  · intro d _ h1 h2
    rw [hv _ _ h1, hv _ _ h2]
    push_cast
    ring
  · intro d hd h1 h2
    rw [hfull d hd h1] at h2
    exact absurd h2 (by simp)

omit [IsStrictOrderedRing K] in
/-- C71.  Only the phase inside the mask matters. -/
theorem C71_local (rd : K → K) (rows cols : Nat) (b : Nat → Nat → Bool) (px qx out : Nat → Nat → K)
    (hp : ∀ i j, i < rows → j < cols → b i j = true → px i j = qx i j) (y x : Nat) :
    exApply rd rows cols b px out y x = exApply rd rows cols b qx out y x := by
  cases h : exEdge rows cols b y x with
  | false => rw [exApply_other _ _ _ _ _ _ _ _ h, exApply_other _ _ _ _ _ _ _ _ h]
  | true =>
    rw [exApply_edge _ _ _ _ _ _ _ _ h, exApply_edge _ _ _ _ _ _ _ _ h]
    congr 2
    apply List.map_congr_left
    intro e he
    unfold exCoeffs at he
    rw [List.mem_map] at he
    obtain ⟨e0, h0, rfl⟩ := he
    have hf := fold_forms rows cols b y x exDirs (0, []) (by simp) e0 h0
    obtain ⟨h1, h2, -, -⟩ := exNorm_form rd rows cols b (exDirs.foldl (exDir (K := K) rows cols b y x) (0, [])).1 e0 hf
    unfold exPart
    rw [h1, h2]
    have k1 : 0 ≤ e0.ref1 → px (e0.ref1.toNat / cols) (e0.ref1.toNat % cols) = qx (e0.ref1.toNat / cols) (e0.ref1.toNat % cols) := fun hr => by
      obtain ⟨a1, a2, a3⟩ := hf.1 e0.ref1 (Or.inl rfl) hr
      exact hp _ _ a1 a2 a3
    have k2 : 0 ≤ e0.ref2 → px (e0.ref2.toNat / cols) (e0.ref2.toNat % cols) = qx (e0.ref2.toNat / cols) (e0.ref2.toNat % cols) := fun hr => by
      obtain ⟨a1, a2, a3⟩ := hf.1 e0.ref2 (Or.inr rfl) hr
      exact hp _ _ a1 a2 a3
    split_ifs with g1 g2 g2
    · rw [k1 g1, k2 g2]
    · rw [k1 g1]
    · rw [k2 g2]
    · rfl

omit [IsStrictOrderedRing K] in
/-- C71.  The extension is linear. -/
theorem C71_linear (rd : K → K) (rows cols : Nat) (b : Nat → Nat → Bool) (px qx out out' : Nat → Nat → K) (al be : K) (y x : Nat) :
    exApply rd rows cols b (fun i j => al * px i j + be * qx i j) (fun i j => al * out i j + be * out' i j) y x =
      some (al * (exApply rd rows cols b px out y x).getD 0 + be * (exApply rd rows cols b qx out' y x).getD 0) := by
  cases h : exEdge rows cols b y x with
  | false => rw [exApply_other _ _ _ _ _ _ _ _ h, exApply_other _ _ _ _ _ _ _ _ h, exApply_other _ _ _ _ _ _ _ _ h]; rfl
  | true =>
    rw [exApply_edge _ _ _ _ _ _ _ _ h, exApply_edge _ _ _ _ _ _ _ _ h, exApply_edge _ _ _ _ _ _ _ _ h, Option.getD_some, Option.getD_some]
    generalize exCoeffs rd rows cols b y x = es
    congr 1
    induction es with
    | nil => simp
    | cons e es ih =>
      rw [List.map_cons, List.sum_cons, ih, List.map_cons, List.sum_cons, List.map_cons, List.sum_cons]
      unfold exPart
      split_ifs <;> ring

variable [FloorRing K]

/-! ### Interpolation -/

/-- Two images that agree at less than one pixel from a position have the same interpolated value. -/
theorem bilinear_near (rows cols : Nat) (hr : 2 ≤ rows) (hc : 2 ≤ cols) (px qx : Nat → Nat → K) (y x : K) (hy0 : 0 ≤ y) (hy1 : y ≤ (rows : K) - 1)
    (hx0 : 0 ≤ x) (hx1 : x ≤ (cols : K) - 1)
    (h : ∀ a b : Nat, a < rows → b < cols → |(a : K) - y| < 1 → |(b : K) - x| < 1 → px a b = qx a b) :
    bilinear rows cols px y x = bilinear rows cols qx y x := by
  obtain ⟨a1, a2, a3⟩ := cellIdx_spec rows hr y hy0 hy1
  obtain ⟨b1, b2, b3⟩ := cellIdx_spec cols hc x hx0 hx1
  unfold bilinear
  dsimp only
  generalize cellIdx rows y = i at *
  generalize cellIdx cols x = j at *
  have low : ∀ (z : K) (k : Nat), (k : K) ≤ z → z ≤ k + 1 → 1 - (z - k) = 0 ∨ |(k : K) - z| < 1 := by
    intro z k h1 h2
    rcases eq_or_lt_of_le h2 with h3 | h3
    · left; rw [h3]; ring
    · right; rw [abs_lt]; constructor <;> linarith
  have high : ∀ (z : K) (k : Nat), (k : K) ≤ z → z ≤ k + 1 → z - k = 0 ∨ |((k + 1 : Nat) : K) - z| < 1 := by
    intro z k h1 h2
    rcases eq_or_lt_of_le h1 with h3 | h3
    · left; rw [h3]; ring
    · right; rw [abs_lt]; push_cast; constructor <;> linarith
  have t1 : (1 - (y - i)) * ((1 - (x - j)) * px i j) = (1 - (y - i)) * ((1 - (x - j)) * qx i j) := by
    rcases low y i a2 a3 with h1 | h1
    · rw [h1, zero_mul, zero_mul]
    · rcases low x j b2 b3 with h2 | h2
      · rw [h2, zero_mul, zero_mul]
      · rw [h i j (by omega) (by omega) h1 h2]
  have t2 : (1 - (y - i)) * ((x - j) * px i (j + 1)) = (1 - (y - i)) * ((x - j) * qx i (j + 1)) := by
    rcases low y i a2 a3 with h1 | h1
    · rw [h1, zero_mul, zero_mul]
    · rcases high x j b2 b3 with h2 | h2
      · rw [h2, zero_mul, zero_mul]
      · rw [h i (j + 1) (by omega) (by omega) h1 h2]
  have t3 : (y - i) * ((1 - (x - j)) * px (i + 1) j) = (y - i) * ((1 - (x - j)) * qx (i + 1) j) := by
    rcases high y i a2 a3 with h1 | h1
    · rw [h1, zero_mul, zero_mul]
    · rcases low x j b2 b3 with h2 | h2
      · rw [h2, zero_mul, zero_mul]
      · rw [h (i + 1) j (by omega) (by omega) h1 h2]
  have t4 : (y - i) * ((x - j) * px (i + 1) (j + 1)) = (y - i) * ((x - j) * qx (i + 1) (j + 1)) := by
    rcases high y i a2 a3 with h1 | h1
    · rw [h1, zero_mul, zero_mul]
    · rcases high x j b2 b3 with h2 | h2
      · rw [h2, zero_mul, zero_mul]
      · rw [h (i + 1) (j + 1) (by omega) (by omega) h1 h2]
  linear_combination t1 + t2 + t3 + t4

omit [LinearOrder K] [IsStrictOrderedRing K] [FloorRing K] in
theorem mix_const (dy dx p : K) : (1 - dy) * ((1 - dx) * p + dx * p) + dy * ((1 - dx) * p + dx * p) = p := by ring

omit [IsStrictOrderedRing K] in
theorem bilinear_const (rows cols : Nat) (p y x : K) : bilinear rows cols (fun _ _ => p) y x = p := by
  unfold bilinear
  exact mix_const _ _ _

omit [IsStrictOrderedRing K] in
theorem bilinear_plane (rows cols : Nat) (p q r y x : K) : bilinear rows cols (fun a b => p + q * a + r * b) y x = p + q * y + r * x := by
  unfold bilinear
  dsimp only
  push_cast
  ring

/-- The position in the input at which an output pixel is taken: itself when nothing is to be done. -/
def samplePos (P : EFIParams K) (i j : Nat) : K × K :=
  if P.same then (i, j) else (clampTo P.rows (efiXY P P.xShift P.yShift i j).1, clampTo P.cols (efiXY P P.xShift P.yShift i j).2)

/-- Images that agree close to the sampled position give the same output pixel. -/
theorem efiInterp_near (P : EFIParams K) (hr : 2 ≤ P.rows) (hc : 2 ≤ P.cols) (px qx : Nat → Nat → K) (i j : Nat) (hi : i < P.outRows) (hj : j < P.outCols)
    (h : ∀ a b : Nat, a < P.rows → b < P.cols → |(a : K) - (samplePos P i j).1| < 1 → |(b : K) - (samplePos P i j).2| < 1 → px a b = qx a b) :
    efiInterp P px i j = efiInterp P qx i j := by
  unfold efiInterp
  unfold samplePos at h
  split_ifs at h ⊢ with hs
  · have e := hs.1
    apply h i j (by rw [e.1]; exact hi) (by rw [e.2]; exact hj)
    · simp
    · simp
  · obtain ⟨a1, a2⟩ := clampTo_range P.rows (by omega) (efiXY P P.xShift P.yShift i j).1
    obtain ⟨b1, b2⟩ := clampTo_range P.cols (by omega) (efiXY P P.xShift P.yShift i j).2
    exact bilinear_near P.rows P.cols hr hc px qx _ _ a1 a2 b1 b2 h

omit [IsStrictOrderedRing K] in
theorem efiInterp_plane (P : EFIParams K) (p q r : K) (i j : Nat) :
    efiInterp P (fun a b => p + q * a + r * b) i j = p + q * (samplePos P i j).1 + r * (samplePos P i j).2 := by
  unfold efiInterp samplePos
  split_ifs
  · rfl
  · exact bilinear_plane _ _ _ _ _ _ _

/-- The state after a first call. -/
def freshState (P : EFIParams K) (A : Nat → Nat → K) : EFIState := efiPrepare P none A

omit [IsStrictOrderedRing K] [FloorRing K] in
theorem extrapolated_mask (rd : K → K) (P : EFIParams K) (A ph : Nat → Nat → K) (y x : Nat) (h : P.thr ≤ A y x) :
    efiExtrapolated rd P (freshState P A) A ph y x = some (ph y x) := by
  unfold efiExtrapolated
  rw [exApply_other]
  · rw [if_pos h, mul_one]
  · unfold exEdge freshState efiPrepare exMask
    simp [h]

/-- C71.  Where the phase is defined close to the sampled position, it is interpolated as it is. -/
theorem C71_inside (rd : K → K) (P : EFIParams K) (hr : 2 ≤ P.rows) (hc : 2 ≤ P.cols) (A ph : Nat → Nat → K) (i j : Nat) (hi : i < P.outRows)
    (hj : j < P.outCols)
    (h : ∀ a b : Nat, a < P.rows → b < P.cols → |(a : K) - (samplePos P i j).1| < 1 → |(b : K) - (samplePos P i j).2| < 1 → P.thr ≤ A a b) :
    efiPhase rd P (freshState P A) A ph i j = efiInterp P ph i j := by
  unfold efiPhase
  apply efiInterp_near P hr hc _ _ i j hi hj
  intro a b ha hb h1 h2
  rw [extrapolated_mask rd P A ph a b (h a b ha hb h1 h2)]
  rfl

/-- C71.  A piston on the mask is exact where all pixels close to the sampled position are in the mask or next to it. -/
theorem C71_piston (P : EFIParams K) (hr : 2 ≤ P.rows) (hc : 2 ≤ P.cols) (A ph : Nat → Nat → K) (p : K)
    (hp : ∀ a b : Nat, a < P.rows → b < P.cols → P.thr ≤ A a b → ph a b = p) (i j : Nat) (hi : i < P.outRows) (hj : j < P.outCols)
    (h : ∀ a b : Nat, a < P.rows → b < P.cols → |(a : K) - (samplePos P i j).1| < 1 → |(b : K) - (samplePos P i j).2| < 1 →
      P.thr ≤ A a b ∨ exEdge P.rows P.cols (exMask P.thr A) a b = true) :
    efiPhase id P (freshState P A) A ph i j = p := by
  unfold efiPhase
  rw [efiInterp_near P hr hc _ (fun a b => p + 0 * a + 0 * b) i j hi hj, efiInterp_plane]
  · ring
  · intro a b ha hb h1 h2
    rw [show p + 0 * (a : K) + 0 * b = p by ring]
    rcases h a b ha hb h1 h2 with h3 | h3
    · rw [extrapolated_mask id P A ph a b h3, Option.getD_some, hp a b ha hb h3]
    · unfold efiExtrapolated
      rw [show (freshState P A).mask = exMask P.thr A from rfl, C71_constant P.rows P.cols (exMask P.thr A) ph _ p _ a b h3]
      · rfl
      · intro a' b' h1 h2 h3
        apply hp a' b' h1 h2
        unfold exMask at h3
        simpa using h3

/-- C71.  A plane is exact where all pixels close to the sampled position are in the mask, or next to it with two pixels of the mask in each
direction in which they have one. -/
theorem C71_tilt (P : EFIParams K) (hr : 2 ≤ P.rows) (hc : 2 ≤ P.cols) (A ph : Nat → Nat → K) (p q r : K)
    (hp : ∀ a b : Nat, a < P.rows → b < P.cols → P.thr ≤ A a b → ph a b = p + q * a + r * b) (i j : Nat) (hi : i < P.outRows) (hj : j < P.outCols)
    (h : ∀ a b : Nat, a < P.rows → b < P.cols → |(a : K) - (samplePos P i j).1| < 1 → |(b : K) - (samplePos P i j).2| < 1 →
      P.thr ≤ A a b ∨ (exEdge P.rows P.cols (exMask P.thr A) a b = true ∧ ∀ d ∈ exDirs, inMaskAt P.rows P.cols (exMask P.thr A) (a + d.1) (b + d.2) = true →
        inMaskAt P.rows P.cols (exMask P.thr A) (a + 2 * d.1) (b + 2 * d.2) = true)) :
    efiPhase id P (freshState P A) A ph i j = p + q * (samplePos P i j).1 + r * (samplePos P i j).2 := by
  unfold efiPhase
  rw [efiInterp_near P hr hc _ (fun a b => p + q * a + r * b) i j hi hj, efiInterp_plane]
  intro a b ha hb h1 h2
  rcases h a b ha hb h1 h2 with h3 | ⟨h3, h4⟩
  · rw [extrapolated_mask id P A ph a b h3, Option.getD_some, hp a b ha hb h3]
  · unfold efiExtrapolated
    rw [show (freshState P A).mask = exMask P.thr A from rfl, C71_plane P.rows P.cols (exMask P.thr A) ph _ p q r _ a b h3 h4]
    · rfl
    · intro a' b' h1 h2 h3
      apply hp a' b' h1 h2
      unfold exMask at h3
      simpa using h3

/-- C71.  What the phase is outside the mask has no effect. -/
theorem C71_outside (rd : K → K) (P : EFIParams K) (hr : 2 ≤ P.rows) (hc : 2 ≤ P.cols) (A ph ph' : Nat → Nat → K)
    (h : ∀ a b : Nat, a < P.rows → b < P.cols → P.thr ≤ A a b → ph a b = ph' a b) (i j : Nat) (hi : i < P.outRows) (hj : j < P.outCols) :
    efiPhase rd P (freshState P A) A ph i j = efiPhase rd P (freshState P A) A ph' i j := by
  unfold efiPhase
  apply efiInterp_near P hr hc _ _ i j hi hj
  intro a b ha hb _ _
  have hm : ∀ i j : Nat, i < P.rows → j < P.cols → (freshState P A).mask i j = true → ph i j = ph' i j := by
    intro i j h1 h2 h3
    apply h i j h1 h2
    unfold freshState efiPrepare exMask at h3
    simpa using h3
  unfold efiExtrapolated
  rw [C71_local rd P.rows P.cols _ ph ph' _ hm a b]
  cases he : exEdge P.rows P.cols (freshState P A).mask a b with
  | true => rw [exApply_edge _ _ _ _ _ _ _ _ he, exApply_edge _ _ _ _ _ _ _ _ he]
  | false =>
    rw [exApply_other _ _ _ _ _ _ _ _ he, exApply_other _ _ _ _ _ _ _ _ he]
    split_ifs with ht
    · rw [h a b ha hb ht]
    · simp

/-- C71.  Amplitudes: values 0 and 1 for a binary mask, otherwise between the smallest and the largest of the input. -/
theorem C71_amplitude (P : EFIParams K) (hr : 2 ≤ P.rows) (hc : 2 ≤ P.cols) (A : Nat → Nat → K) (s : EFIState) (i j : Nat) (hi : i < P.outRows)
    (hj : j < P.outCols) :
    (s.binary = true → efiAmp P s A i j = 0 ∨ efiAmp P s A i j = 1) ∧
    (s.binary = false → ∀ lo hi : K, (∀ a < P.rows, ∀ b < P.cols, lo ≤ A a b ∧ A a b ≤ hi) → lo ≤ efiAmp P s A i j ∧ efiAmp P s A i j ≤ hi) := by
  constructor
  · intro hb
    unfold efiAmp
    rw [hb, if_pos rfl]
    split_ifs
    · exact Or.inr rfl
    · exact Or.inl rfl
  · intro hb lo hi' h
    unfold efiAmp
    rw [hb, if_neg (by simp)]
    unfold efiInterp
    split_ifs with hs
    · exact h i (by rw [hs.1.1]; exact hi) j (by rw [hs.1.2]; exact hj)
    · obtain ⟨a1, a2⟩ := clampTo_range P.rows (by omega) (efiXY P P.xShift P.yShift i j).1
      obtain ⟨b1, b2⟩ := clampTo_range P.cols (by omega) (efiXY P P.xShift P.yShift i j).2
      obtain ⟨a, b, dy, dx, h1, h2, h3, h4, h5, h6, -, -, h7⟩ := bilinear_cell P.rows P.cols hr hc A _ _ a1 a2 b1 b2
      rw [h7]
      apply mix_bounds dy _ _ lo hi' h3 h4
      · exact mix_bounds dx _ _ lo hi' h5 h6 (h a (by omega) b (by omega)) (h a (by omega) (b + 1) (by omega))
      · exact mix_bounds dx _ _ lo hi' h5 h6 (h (a + 1) (by omega) b (by omega)) (h (a + 1) (by omega) (b + 1) (by omega))

/-! ### Lit pixels -/

omit [FloorRing K] in
theorem bad_weight (a b : K) (ha0 : 0 ≤ a) (ha1 : a ≤ 1) (hb0 : 0 ≤ b) (hb1 : b ≤ 1) (h : 1 / 2 < a * b) :
    0 ≤ (1 - a) * (1 - b) ∧ (1 - a) * (1 - b) ≤ 9 / 100 := by
  refine ⟨mul_nonneg (by linarith) (by linarith), ?_⟩
  have h1 : 4 * (a * b) ≤ (a + b) ^ 2 := by nlinarith [sq_nonneg (a - b)]
  have h2 : (141 / 100 : K) < a + b := by
    by_contra hn
    push Not at hn
    have : (a + b) ^ 2 ≤ (141 / 100) ^ 2 := by
      apply pow_le_pow_left₀ (by linarith) hn
    norm_num at this
    linarith
  have h3 : (1 - a) * (1 - b) ≤ (1 - (a + b) / 2) ^ 2 := by nlinarith [sq_nonneg (a - b)]
  have h4 : (1 - (a + b) / 2) ^ 2 ≤ (295 / 1000) ^ 2 := by
    apply pow_le_pow_left₀
    · linarith
    · linarith
  refine le_trans h3 (le_trans h4 ?_)
  norm_num

omit [FloorRing K] in
/-- One cell: `m` in the mask (0 or 1), `e` the extrapolated phase, right at the pixels of the mask and next to them. -/
theorem cell_lit (dy dx p m0 m1 m2 m3 e0 e1 e2 e3 : K) (hy0 : 0 ≤ dy) (hy1 : dy ≤ 1) (hx0 : 0 ≤ dx) (hx1 : dx ≤ 1)
    (b0 : m0 = 0 ∨ m0 = 1 ∧ e0 = p ∧ e1 = p ∧ e2 = p) (b1 : m1 = 0 ∨ m1 = 1 ∧ e1 = p ∧ e0 = p ∧ e3 = p)
    (b2 : m2 = 0 ∨ m2 = 1 ∧ e2 = p ∧ e0 = p ∧ e3 = p) (b3 : m3 = 0 ∨ m3 = 1 ∧ e3 = p ∧ e1 = p ∧ e2 = p)
    (c0 : e0 = p ∨ e0 = 0) (c1 : e1 = p ∨ e1 = 0) (c2 : e2 = p ∨ e2 = 0) (c3 : e3 = p ∨ e3 = 0)
    (h : 1 / 2 < (1 - dy) * ((1 - dx) * m0 + dx * m1) + dy * ((1 - dx) * m2 + dx * m3)) :
    ∃ w, 0 ≤ w ∧ w ≤ 9 / 100 ∧ (1 - dy) * ((1 - dx) * e0 + dx * e1) + dy * ((1 - dx) * e2 + dx * e3) = (1 - w) * p := by
  by_cases hall : e0 = p ∧ e1 = p ∧ e2 = p ∧ e3 = p
  · obtain ⟨rfl, rfl, rfl, rfl⟩ := hall
    exact ⟨0, le_refl _, by norm_num, by ring⟩
  by_cases f0 : e0 = p
  · by_cases f1 : e1 = p
    · by_cases f2 : e2 = p
      · have f3 : e3 ≠ p := fun f3 => hall ⟨f0, f1, f2, f3⟩
        have g3 : e3 = 0 := c3.resolve_left f3
        have n1 : m1 = 0 := b1.resolve_right (fun q => f3 q.2.2.2)
        have n2 : m2 = 0 := b2.resolve_right (fun q => f3 q.2.2.2)
        have n3 : m3 = 0 := b3.resolve_right (fun q => f3 q.2.1)
        rw [n1, n2, n3] at h
        rcases b0 with b0 | b0
        · rw [b0] at h; norm_num at h
        · rw [b0.1] at h
          obtain ⟨w0, w1⟩ := bad_weight (1 - dy) (1 - dx) (by linarith) (by linarith) (by linarith) (by linarith) (by linarith)
          refine ⟨_, w0, w1, ?_⟩
          rw [f0, f1, f2, g3]; ring
      · have g2 : e2 = 0 := c2.resolve_left f2
        have n0 : m0 = 0 := b0.resolve_right (fun q => f2 q.2.2.2)
        have n2 : m2 = 0 := b2.resolve_right (fun q => f2 q.2.1)
        have n3 : m3 = 0 := b3.resolve_right (fun q => f2 q.2.2.2)
        rw [n0, n2, n3] at h
        rcases b1 with b1 | b1
        · rw [b1] at h; norm_num at h
        · rw [b1.1] at h
          obtain ⟨w0, w1⟩ := bad_weight (1 - dy) dx (by linarith) (by linarith) (by linarith) (by linarith) (by linarith)
          refine ⟨_, w0, w1, ?_⟩
          rw [f0, f1, g2, b1.2.2.2]; ring
    · have g1 : e1 = 0 := c1.resolve_left f1
      have n0 : m0 = 0 := b0.resolve_right (fun q => f1 q.2.2.1)
      have n1 : m1 = 0 := b1.resolve_right (fun q => f1 q.2.1)
      have n3 : m3 = 0 := b3.resolve_right (fun q => f1 q.2.2.1)
      rw [n0, n1, n3] at h
      rcases b2 with b2 | b2
      · rw [b2] at h; norm_num at h
      · rw [b2.1] at h
        obtain ⟨w0, w1⟩ := bad_weight dy (1 - dx) (by linarith) (by linarith) (by linarith) (by linarith) (by linarith)
        refine ⟨_, w0, w1, ?_⟩
        rw [f0, b2.2.1, g1, b2.2.2.2]; ring
  · have g0 : e0 = 0 := c0.resolve_left f0
    have n0 : m0 = 0 := b0.resolve_right (fun q => f0 q.2.1)
    have n1 : m1 = 0 := b1.resolve_right (fun q => f0 q.2.2.1)
    have n2 : m2 = 0 := b2.resolve_right (fun q => f0 q.2.2.1)
    rw [n0, n1, n2] at h
    rcases b3 with b3 | b3
    · rw [b3] at h; norm_num at h
    · rw [b3.1] at h
      obtain ⟨w0, w1⟩ := bad_weight dy dx (by linarith) (by linarith) (by linarith) (by linarith) (by linarith)
      refine ⟨_, w0, w1, ?_⟩
      rw [g0, b3.2.1, b3.2.2.1, b3.2.2.2]; ring

omit [IsStrictOrderedRing K] [FloorRing K] in
theorem edge_of_neighbour (rows cols : Nat) (b : Nat → Nat → Bool) (y x y' x' : Nat) (hy : y' < rows) (hx : x' < cols) (h : b y' x' = true)
    (hd : ((y' : Int) - y, (x' : Int) - x) ∈ exDirs) : b y x = true ∨ exEdge rows cols b y x = true := by
  cases hb : b y x with
  | true => exact Or.inl rfl
  | false =>
    refine Or.inr ?_
    unfold exEdge
    rw [hb, Bool.false_or, Bool.not_false, Bool.and_true, List.any_eq_true]
    refine ⟨_, hd, ?_⟩
    rw [inMaskAt_iff]
    exact ⟨y', x', by ring, by ring, hy, hx, h⟩

omit [FloorRing K] in
/-- The extrapolated phase of a piston: right in the mask and next to it, zero elsewhere. -/
theorem extrapolated_piston (P : EFIParams K) (A ph : Nat → Nat → K) (p : K) (hp : ∀ a b : Nat, a < P.rows → b < P.cols → P.thr ≤ A a b → ph a b = p)
    (a b : Nat) (ha : a < P.rows) (hb : b < P.cols) :
    ((exMask P.thr A a b = true ∨ exEdge P.rows P.cols (exMask P.thr A) a b = true) → (efiExtrapolated id P (freshState P A) A ph a b).getD 0 = p) ∧
    ((efiExtrapolated id P (freshState P A) A ph a b).getD 0 = p ∨ (efiExtrapolated id P (freshState P A) A ph a b).getD 0 = 0) := by
  have hm : exMask P.thr A a b = true → (efiExtrapolated id P (freshState P A) A ph a b).getD 0 = p := by
    intro h
    have h3 : P.thr ≤ A a b := by unfold exMask at h; simpa using h
    rw [extrapolated_mask id P A ph a b h3, Option.getD_some, hp a b ha hb h3]
  have he : exEdge P.rows P.cols (exMask P.thr A) a b = true → (efiExtrapolated id P (freshState P A) A ph a b).getD 0 = p := by
    intro h
    unfold efiExtrapolated
    rw [show (freshState P A).mask = exMask P.thr A from rfl, C71_constant P.rows P.cols (exMask P.thr A) ph _ p _ a b h]
    · rfl
    · intro a' b' h1 h2 h3
      apply hp a' b' h1 h2
      unfold exMask at h3
      simpa using h3
  refine ⟨fun h => h.elim hm he, ?_⟩
  cases h1 : exMask P.thr A a b with
  | true => exact Or.inl (hm h1)
  | false =>
    cases h2 : exEdge P.rows P.cols (exMask P.thr A) a b with
    | true => exact Or.inl (he h2)
    | false =>
      right
      unfold efiExtrapolated
      rw [show (freshState P A).mask = exMask P.thr A from rfl, exApply_other _ _ _ _ _ _ _ _ h2, Option.getD_some, if_neg, mul_zero]
      unfold exMask at h1
      simpa using h1

/-- C71.  With amplitudes 0 and 1, a piston is kept within nine per cent at every pixel that is lit after interpolation. -/
theorem C71_lit (P : EFIParams K) (hr : 2 ≤ P.rows) (hc : 2 ≤ P.cols) (ht0 : 0 < P.thr) (ht1 : P.thr ≤ 1) (A ph : Nat → Nat → K) (p : K)
    (hA : ∀ a b : Nat, a < P.rows → b < P.cols → A a b = 0 ∨ A a b = 1)
    (hp : ∀ a b : Nat, a < P.rows → b < P.cols → A a b = 1 → ph a b = p) (i j : Nat) (hi : i < P.outRows) (hj : j < P.outCols)
    (h : efiAmp P (freshState P A) A i j = 1) :
    ∃ w, 0 ≤ w ∧ w ≤ 9 / 100 ∧ efiPhase id P (freshState P A) A ph i j = (1 - w) * p := by
  have hbin : (freshState P A).binary = true := by
    unfold freshState efiPrepare exBinary
    simp only [decide_eq_true_eq]
    intro y hy x hx
    rcases hA y x hy hx with e | e <;> rw [e]
    · left; norm_num
    · right; norm_num
  have hthr : ∀ a b : Nat, a < P.rows → b < P.cols → P.thr ≤ A a b → A a b = 1 := by
    intro a b ha hb h1
    rcases hA a b ha hb with e | e
    · rw [e] at h1; exact absurd h1 (not_le.2 ht0)
    · exact e
  have hp' : ∀ a b : Nat, a < P.rows → b < P.cols → P.thr ≤ A a b → ph a b = p := fun a b ha hb h1 => hp a b ha hb (hthr a b ha hb h1)
  have hlit : 1 / 2 < efiInterp P A i j := by
    unfold efiAmp at h
    rw [hbin, if_pos rfl] at h
    by_contra hn
    rw [if_neg hn] at h
    exact zero_ne_one h
  have hmask : ∀ a b : Nat, A a b = 1 → exMask P.thr A a b = true := by
    intro a b e
    unfold exMask
    rw [e]
    simpa using ht1
  unfold efiPhase
  unfold efiInterp at hlit ⊢
  split_ifs at hlit ⊢ with hs
  · have hi' : i < P.rows := by rw [hs.1.1]; exact hi
    have hj' : j < P.cols := by rw [hs.1.2]; exact hj
    refine ⟨0, le_refl _, by norm_num, ?_⟩
    rcases hA i j hi' hj' with e | e
    · rw [e] at hlit; norm_num at hlit
    · dsimp only
      rw [(extrapolated_piston P A ph p hp' i j hi' hj').1 (Or.inl (hmask i j e))]; ring
  · obtain ⟨a1, a2⟩ := clampTo_range P.rows (by omega) (efiXY P P.xShift P.yShift i j).1
    obtain ⟨b1, b2⟩ := clampTo_range P.cols (by omega) (efiXY P P.xShift P.yShift i j).2
    obtain ⟨u1, u2, u3⟩ := cellIdx_spec P.rows hr _ a1 a2
    obtain ⟨v1, v2, v3⟩ := cellIdx_spec P.cols hc _ b1 b2
    unfold bilinear at hlit ⊢
    dsimp only at hlit ⊢
    generalize clampTo P.rows (efiXY P P.xShift P.yShift i j).1 = y at *
    generalize clampTo P.cols (efiXY P P.xShift P.yShift i j).2 = x at *
    generalize cellIdx P.rows y = r at *
    generalize cellIdx P.cols x = c at *
    have ex := fun a b (ha : a < P.rows) (hb : b < P.cols) => extrapolated_piston P A ph p hp' a b ha hb
    have nb : ∀ a b a' b' : Nat, a < P.rows → b < P.cols → a' < P.rows → b' < P.cols → A a' b' = 1 → ((a' : Int) - a, (b' : Int) - b) ∈ exDirs →
        (efiExtrapolated id P (freshState P A) A ph a b).getD 0 = p :=
      fun a b a' b' h1 h2 h3 h4 e hd => (ex a b h1 h2).1 (edge_of_neighbour P.rows P.cols (exMask P.thr A) a b a' b' h3 h4 (hmask a' b' e) hd)
    have own : ∀ a b : Nat, a < P.rows → b < P.cols → A a b = 1 → (efiExtrapolated id P (freshState P A) A ph a b).getD 0 = p :=
      fun a b h1 h2 e => (ex a b h1 h2).1 (Or.inl (hmask a b e))
    have r1 : r < P.rows := by omega
    have r2 : r + 1 < P.rows := by omega
    have c1 : c < P.cols := by omega
    have c2 : c + 1 < P.cols := by omega
    apply cell_lit (y - r) (x - c) p _ _ _ _ _ _ _ _ (by linarith) (by linarith) (by linarith) (by linarith) _ _ _ _
      (ex r c r1 c1).2 (ex r (c + 1) r1 c2).2 (ex (r + 1) c r2 c1).2 (ex (r + 1) (c + 1) r2 c2).2 hlit
    · exact (hA r c r1 c1).imp id fun e => ⟨e, own _ _ r1 c1 e, nb _ _ _ _ r1 c2 r1 c1 e (by simp [exDirs]), nb _ _ _ _ r2 c1 r1 c1 e (by simp [exDirs])⟩
    · exact (hA r (c + 1) r1 c2).imp id fun e => ⟨e, own _ _ r1 c2 e, nb _ _ _ _ r1 c1 r1 c2 e (by simp [exDirs]), nb _ _ _ _ r2 c2 r1 c2 e (by simp [exDirs])⟩
    · exact (hA (r + 1) c r2 c1).imp id fun e => ⟨e, own _ _ r2 c1 e, nb _ _ _ _ r1 c1 r2 c1 e (by simp [exDirs]), nb _ _ _ _ r2 c2 r2 c1 e (by simp [exDirs])⟩
    · exact (hA (r + 1) (c + 1) r2 c2).imp id fun e => ⟨e, own _ _ r2 c2 e, nb _ _ _ _ r1 c2 r2 c2 e (by simp [exDirs]), nb _ _ _ _ r2 c1 r2 c2 e (by simp [exDirs])⟩

/-! ### Runs -/

omit [IsStrictOrderedRing K] in
/-- C71.  Calls with the same mask give what a new interpolator would give. -/
theorem C71_run (rd : K → K) (P : EFIParams K) (fs : List ((Nat → Nat → K) × (Nat → Nat → K))) (m : Nat → Nat → Bool) (bin : Bool)
    (h : ∀ f ∈ fs, exMask P.thr f.1 = m ∧ exBinary P.rows P.cols f.1 = bin) :
    efiRun rd P none fs = fs.map fun f => (efiAmp P (freshState P f.1) f.1, efiPhase rd P (freshState P f.1) f.1 f.2) := by
  have key : ∀ (fs : List ((Nat → Nat → K) × (Nat → Nat → K))) (st : Option EFIState), (∀ f ∈ fs, exMask P.thr f.1 = m ∧ exBinary P.rows P.cols f.1 = bin) →
      (st = none ∨ st = some ⟨m, bin⟩) →
      efiRun rd P st fs = fs.map fun f => (efiAmp P (freshState P f.1) f.1, efiPhase rd P (freshState P f.1) f.1 f.2) := by
    intro fs
    induction fs with
    | nil => intro st _ _; rfl
    | cons f fs ih =>
      intro st hf hst
      obtain ⟨h1, h2⟩ := hf f (by simp)
      have e : efiPrepare P st f.1 = freshState P f.1 := by
        rcases hst with rfl | rfl
        · rfl
        · unfold freshState efiPrepare
          rw [h1, h2]
      have e' : freshState P f.1 = ⟨m, bin⟩ := by
        unfold freshState efiPrepare
        rw [h1, h2]
      rw [efiRun, List.map_cons, e, ih _ (fun g hg => hf g (by simp [hg])) (Or.inr (by rw [e']))]
  exact key fs none h (Or.inl rfl)

/-- C71.  Nothing to interpolate: unless it is forced the constructor says so; if it is forced, the phase of the mask is kept, the pixels next to the mask
get a value, and the others are zero. -/
theorem C71_forced (rd : K → K) (P : EFIParams K) (hs : P.same) (hn : 0 < P.rows ∧ 0 < P.cols) (A ph : Nat → Nat → K) (i j : Nat) :
    P.init = some P.force ∧ (P.thr ≤ A i j → efiPhase rd P (freshState P A) A ph i j = ph i j) ∧
    (A i j < P.thr → exEdge P.rows P.cols (exMask P.thr A) i j = false → efiPhase rd P (freshState P A) A ph i j = 0) := by
  refine ⟨?_, ?_, ?_⟩
  · obtain ⟨⟨h1, h2⟩, -, -, -, h5⟩ := id hs
    have hr : (P.rows : K) ≠ 0 := by exact_mod_cast (by omega : P.rows ≠ 0)
    have hc : (P.cols : K) ≠ 0 := by exact_mod_cast (by omega : P.cols ≠ 0)
    unfold EFIParams.init
    rw [← h1, ← h2, div_self hr, div_self hc, if_neg (by simp), if_neg (by rw [h5]; norm_num)]
    cases hf : P.force with
    | false => rw [if_pos ⟨hs, rfl⟩]
    | true => rw [if_neg (by simp)]
  · intro h
    unfold efiPhase efiInterp
    rw [if_pos hs]
    dsimp only
    rw [extrapolated_mask rd P A ph i j h, Option.getD_some]
  · intro h1 h2
    unfold efiPhase efiInterp
    rw [if_pos hs]
    unfold efiExtrapolated
    dsimp only
    rw [show (freshState P A).mask = exMask P.thr A from rfl, exApply_other _ _ _ _ _ _ _ _ h2, Option.getD_some, if_neg (not_le.2 h1), mul_zero]

/-! ### C72: sampled positions -/

/-- C72.  Position of output pixel `(i, j)` for a plane over a full mask, with any rotation `(c, s)` and magnification: the corner of the output is the
centre of the first pixel of the input, one step is `(n - 1) / N` pixels, the rotation and magnification are about the centre of the input, and the x
shift moves the rows. -/
theorem C72_position (P : EFIParams K) (hr : 2 ≤ P.rows) (hc : 2 ≤ P.cols) (A ph : Nat → Nat → K) (p q r : K) (c s : K) (hrot : P.rot = some (c, s) ∨ P.rot = none ∧ c = 1 ∧ s = 0)
    (hm : P.mag ≠ 0) (hs : ¬P.same) (hA : ∀ a b : Nat, a < P.rows → b < P.cols → P.thr ≤ A a b)
    (hp : ∀ a b : Nat, a < P.rows → b < P.cols → ph a b = p + q * a + r * b) (i j : Nat) (hi : i < P.outRows) (hj : j < P.outCols)
    (y x v u : K) (hv : v = i * (((P.rows : K) - 1) / P.outRows) - ((P.rows : K) - 1) / 2) (hu : u = j * (((P.cols : K) - 1) / P.outCols) - ((P.cols : K) - 1) / 2)
    (hy : y = ((P.rows : K) - 1) / 2 + (s * u + c * v) / P.mag + P.xShift) (hx : x = ((P.cols : K) - 1) / 2 + (c * u - s * v) / P.mag + P.yShift)
    (hy0 : 0 ≤ y) (hy1 : y ≤ (P.rows : K) - 1) (hx0 : 0 ≤ x) (hx1 : x ≤ (P.cols : K) - 1) :
    efiPhase id P (freshState P A) A ph i j = p + q * y + r * x := by
  have e : efiXY P P.xShift P.yShift i j = (y, x) := by
    rw [hy, hx, hv, hu]
    unfold efiXY
    dsimp only
    rcases hrot with h | ⟨h, rfl, rfl⟩
    · rw [h, if_pos (Or.inl (Option.isSome_some))]
      dsimp only
      congr 1 <;> (field_simp; ring)
    · rw [h]
      by_cases h1 : P.mag = 1
      · rw [h1]
        simp only [Option.isSome_none, ne_eq, not_true_eq_false, or_self, if_false, Bool.false_eq_true]
        congr 1 <;> ring
      · rw [if_pos (Or.inr h1)]
        dsimp only
        congr 1 <;> (field_simp; ring)
  rw [C71_tilt P hr hc A ph p q r (fun a b ha hb _ => hp a b ha hb) i j hi hj (fun a b ha hb _ _ => Or.inl (hA a b ha hb))]
  unfold samplePos
  rw [if_neg hs, e]
  dsimp only
  rw [clampTo_id _ _ hy0 hy1, clampTo_id _ _ hx0 hx1]

/-- C72.  Resampling without shift, rotation or magnification: a tilt is scaled with `(n - 1) / n` and mirror pixels are not mirrored: a tilt about the centre
of the input gets a mean that is not zero. -/
theorem C72_tilt_change (P : EFIParams K) (hr : 2 ≤ P.rows) (hc : 2 ≤ P.cols) (A ph : Nat → Nat → K) (q : K) (hrot : P.rot = none) (hm : P.mag = 1)
    (hsx : P.xShift = 0) (hsy : P.yShift = 0) (hs : ¬P.same) (hA : ∀ a b : Nat, a < P.rows → b < P.cols → P.thr ≤ A a b)
    (hp : ∀ a b : Nat, a < P.rows → b < P.cols → ph a b = q * (a - ((P.rows : K) - 1) / 2)) (i j : Nat) (hi : i < P.outRows) (hj : j < P.outCols) :
    efiPhase id P (freshState P A) A ph i j = q * (i * (((P.rows : K) - 1) / P.outRows) - ((P.rows : K) - 1) / 2) ∧
    efiPhase id P (freshState P A) A ph i j + efiPhase id P (freshState P A) A ph (P.outRows - 1 - i) j = -(q * (((P.rows : K) - 1) / P.outRows)) := by
  have hR : (0 : K) < P.outRows := by exact_mod_cast (by omega : 0 < P.outRows)
  have hC : (0 : K) < P.outCols := by exact_mod_cast (by omega : 0 < P.outCols)
  have h1r : (1 : K) ≤ (P.rows : K) - 1 := by
    have : (2 : K) ≤ P.rows := by exact_mod_cast hr
    linarith
  have h1c : (1 : K) ≤ (P.cols : K) - 1 := by
    have : (2 : K) ≤ P.cols := by exact_mod_cast hc
    linarith
  have rng : ∀ (k n : Nat) (L : K), k < n → 1 ≤ L → 0 ≤ (k : K) * (L / n) ∧ (k : K) * (L / n) ≤ L := by
    intro k n L hk hL
    have hn : (0 : K) < n := by exact_mod_cast (by omega : 0 < n)
    have hk' : (k : K) ≤ n := by exact_mod_cast hk.le
    refine ⟨by positivity, ?_⟩
    rw [mul_div_assoc', div_le_iff₀ hn]
    nlinarith
  have key : ∀ k : Nat, k < P.outRows →
      efiPhase id P (freshState P A) A ph k j = q * (k * (((P.rows : K) - 1) / P.outRows) - ((P.rows : K) - 1) / 2) := by
    intro k hk
    obtain ⟨a1, a2⟩ := rng k P.outRows _ hk h1r
    obtain ⟨b1, b2⟩ := rng j P.outCols _ hj h1c
    rw [C72_position P hr hc A ph (-(q * (((P.rows : K) - 1) / 2))) q 0 1 0 (Or.inr ⟨hrot, rfl, rfl⟩) (by rw [hm]; exact one_ne_zero) hs hA
      (fun a b ha hb => by rw [hp a b ha hb]; ring) k j hk hj (k * (((P.rows : K) - 1) / P.outRows)) (j * (((P.cols : K) - 1) / P.outCols)) _ _ rfl rfl
      (by rw [hm, hsx]; ring) (by rw [hm, hsy]; ring) a1 a2 b1 b2]
    ring
  refine ⟨key i hi, ?_⟩
  rw [key i hi, key _ (by omega), Nat.cast_sub (by omega), Nat.cast_sub (by omega)]
  field_simp
  push_cast
  ring

omit [IsStrictOrderedRing K] [FloorRing K] in
/-- C72.  `update_parameters` with one shift: the shift that is not given becomes the shift that is given up to now for the other axis. -/
theorem C72_update (P : EFIParams K) (m : K) (hm : 1 / 1000000 ≤ m) (hs : ¬(P.same ∧ P.force = false)) (x y : K) :
    efiUpdate P (some x) (some y) (some m) = some { P with xShift := x, yShift := y, mag := m } ∧
    efiUpdate P none none (some m) = some { P with xShift := P.yShift, yShift := P.xShift, mag := m } ∧
    efiUpdate P (some x) (some y) none = none := by
  unfold efiUpdate
  rw [if_neg hs, if_neg hs, if_neg hs, Option.bind_some, Option.bind_some, if_neg (not_lt.2 hm), if_neg (not_lt.2 hm)]
  exact ⟨rfl, rfl, rfl⟩

end

/-! ### Concrete cases -/

/-- A disc of five pixels in 5 x 5. -/
def exA : Nat → Nat → ℚ := fun y x => if (y = 2 ∧ 1 ≤ x ∧ x ≤ 3) ∨ (x = 2 ∧ 1 ≤ y ∧ y ≤ 3) then 1 else 0

def exP : EFIParams ℚ := ⟨5, 5, 10, 10, none, 0, 0, 1, 1, false⟩

/-- C71 on numbers: a piston of 7 on the cross; a tilt that is exact at the end of the arms and not between them. -/
example : (exApply id 5 5 (exMask 1 exA) (fun _ _ => (7 : ℚ)) (fun _ _ => 0) 0 2, exApply id 5 5 (exMask 1 exA) (fun _ _ => (7 : ℚ)) (fun _ _ => 0) 1 1,
    exApply id 5 5 (exMask 1 exA) (fun _ _ => (7 : ℚ)) (fun _ _ => 0) 0 0, exApply id 5 5 (exMask 1 exA) (fun y _ => (y : ℚ)) (fun _ _ => 0) 0 2) =
    (some 7, some 7, some 0, some 0) := by decide +kernel

/-- C71: a single pixel lit: one output pixel is lit and has a piston that is too small by a sixteenth. -/
theorem C71_short : ∃ (P : EFIParams ℚ) (A ph : Nat → Nat → ℚ), efiAmp P (freshState P A) A 1 1 = 1 ∧ ph 0 0 = 16 ∧ A 0 0 = 1 ∧
    efiPhase id P (freshState P A) A ph 1 1 = 15 :=
  ⟨⟨3, 3, 8, 8, none, 0, 0, 1, 1, false⟩, fun y x => if y = 0 ∧ x = 0 then 1 else 0, fun _ _ => 16, by decide +kernel, rfl, rfl, by decide +kernel⟩

/-- C71: after a first field with a smaller mask, a field that is lit everywhere loses its phase: the edges are those of the first mask. -/
theorem C71_stale : ∃ (P : EFIParams ℚ) (A1 A2 ph : Nat → Nat → ℚ), (∀ y x, A2 y x = 1) ∧ ph 0 1 = 5 ∧
    ((efiRun id P none [(A1, ph), (A2, ph)]).map fun f => f.2 0 1) = [0, 0] ∧ ((efiRun id P none [(A2, ph)]).map fun f => f.2 0 1) = [5] :=
  ⟨⟨2, 2, 2, 2, none, 0, 0, 1, 1, true⟩, fun y x => if y = 0 ∧ x = 0 then 1 else 0, fun _ _ => 1, fun y x => if y = 0 ∧ x = 1 then 5 else 0,
    fun _ _ => rfl, rfl, by decide +kernel, by decide +kernel⟩

/-- C71: the extrapolation depends on the order of the directions: a phase and its transpose give different values. -/
theorem C71_transpose : ∃ (b : Nat → Nat → Bool) (px : Nat → Nat → ℚ),
    exApply id 3 3 b px (fun _ _ => 0) 0 0 = some 3 ∧ exApply id 3 3 (fun y x => b x y) (fun y x => px x y) (fun _ _ => 0) 0 0 = some 2 :=
  ⟨fun y x => decide ((y = 1 ∧ x = 0) ∨ (y = 0 ∧ 1 ≤ x)), fun y _ => if y = 1 then 4 else 2, by decide +kernel, by decide +kernel⟩

/-- C71 with coefficients in single precision: three directions, and a piston of 1 is extended with another number. -/
theorem C71_single_precision : ∃ b : Nat → Nat → Bool,
    exApply (fun c => if c < 0 then -fl 24 (-c) else fl 24 c) 5 5 b (fun _ _ => (1 : ℚ)) (fun _ _ => 0) 2 2 = some (33554433 / 33554432) :=
  ⟨fun y x => decide ((y = 2 ∧ x ≠ 2) ∨ (x = 2 ∧ 2 < y)), by
    have h1 : fl 24 (2 * 3⁻¹) = 11184811 / 16777216 := by
      rw [fl_eval (-1) 11184811 (by norm_num) (by norm_num) (by norm_num [abs_lt])]
      norm_num
    have h2 : fl 24 3⁻¹ = 11184811 / 33554432 := by
      rw [fl_eval (-2) 11184811 (by norm_num) (by norm_num) (by norm_num [abs_lt])]
      norm_num
    have h3 : ¬(2 * 3⁻¹ : ℚ) < 0 := by norm_num
    simp [exApply, exCoeffs, exDirs, exDir, inMaskAt, exNorm, exEdge, exValue, exSlot, h1, h2, h3]
    norm_num⟩

/-- C72 on numbers: 4 x 4 to 8 x 8, a tilt of 8 per pixel about the centre. -/
example : ((List.range 8).map fun i => efiPhase id (⟨4, 4, 8, 8, none, 0, 0, 1, 1, false⟩ : EFIParams ℚ) (freshState ⟨4, 4, 8, 8, none, 0, 0, 1, 1, false⟩ fun _ _ => (1 : ℚ))
    (fun _ _ => 1) (fun y _ => 8 * (y - 3 / 2)) i 0) = [-12, -9, -6, -3, 0, 3, 6, 9] := by decide +kernel

/-- C72 on numbers: the shift in x moves the rows. -/
example : efiPhase id (⟨4, 4, 4, 4, none, 1, 0, 1, 1, false⟩ : EFIParams ℚ) (freshState ⟨4, 4, 4, 4, none, 1, 0, 1, 1, false⟩ fun _ _ => (1 : ℚ))
    (fun _ _ => 1) (fun y x => 10 * y + x) 0 0 = 10 := by decide +kernel

end Specula
