import Verif.Model.ModesView
import Mathlib.Tactic.Linarith
import Mathlib.Tactic.NormNum
import Mathlib.Tactic.Positivity
/-!
# C127: the display of modes
-/
namespace Specula

noncomputable section

/-! ### Specification -/

/-- The range last asked for. -/
def lastX (init : Option (ℝ × ℝ)) : List ModesOp → Option (ℝ × ℝ)
  | [] => init
  | .setX r :: l => lastX (some r) l
  | _ :: l => lastX init l

def lastY (init : ℝ × ℝ) : List ModesOp → ℝ × ℝ
  | [] => init
  | .setY r :: l => lastY r l
  | _ :: l => lastY init l

/-- Ten percent beyond the extreme values. -/
def WideLim (y : List ℝ) (r : ℝ × ℝ) : Prop :=
  ∃ a ∈ y, ∃ b ∈ y, (∀ v ∈ y, a ≤ v ∧ v ≤ b) ∧ r = (a * (11 / 10), b * (11 / 10))

/-! ### Lemmas -/

theorem vecMin_spec (y : List ℝ) (h : y ≠ []) : ∃ a ∈ y, vecMin y = some a ∧ ∀ v ∈ y, a ≤ v := by
  match y with
  | [] => exact absurd rfl h
  | c :: l =>
    have key : ∀ (l : List ℝ) (c : ℝ), (l.foldl min c ∈ c :: l) ∧ ∀ v ∈ c :: l, l.foldl min c ≤ v := by
      intro l
      induction l with
      | nil => intro c; simp
      | cons b l ih =>
        intro c
        obtain ⟨h1, h2⟩ := ih (min c b)
        rw [List.foldl_cons]
        have h3 := h2 _ List.mem_cons_self
        constructor
        · rcases List.mem_cons.1 h1 with h1 | h1
          · rcases min_choice c b with e | e
            · rw [h1, e]; exact List.mem_cons_self
            · rw [h1, e]; exact List.mem_cons_of_mem _ List.mem_cons_self
          · exact List.mem_cons_of_mem _ (List.mem_cons_of_mem _ h1)
        · intro v hv
          rcases List.mem_cons.1 hv with rfl | hv
          · exact le_trans h3 (min_le_left _ _)
          · rcases List.mem_cons.1 hv with rfl | hv
            · exact le_trans h3 (min_le_right _ _)
            · exact h2 v (List.mem_cons_of_mem _ hv)
    exact ⟨_, (key l c).1, rfl, (key l c).2⟩

theorem vecMax_spec (y : List ℝ) (h : y ≠ []) : ∃ a ∈ y, vecMax y = some a ∧ ∀ v ∈ y, v ≤ a := by
  match y with
  | [] => exact absurd rfl h
  | c :: l =>
    have key : ∀ (l : List ℝ) (c : ℝ), (l.foldl max c ∈ c :: l) ∧ ∀ v ∈ c :: l, v ≤ l.foldl max c := by
      intro l
      induction l with
      | nil => intro c; simp
      | cons b l ih =>
        intro c
        obtain ⟨h1, h2⟩ := ih (max c b)
        rw [List.foldl_cons]
        have h3 := h2 _ List.mem_cons_self
        constructor
        · rcases List.mem_cons.1 h1 with h1 | h1
          · rcases max_choice c b with e | e
            · rw [h1, e]; exact List.mem_cons_self
            · rw [h1, e]; exact List.mem_cons_of_mem _ List.mem_cons_self
          · exact List.mem_cons_of_mem _ (List.mem_cons_of_mem _ h1)
        · intro v hv
          rcases List.mem_cons.1 hv with rfl | hv
          · exact le_trans (le_max_left _ _) h3
          · rcases List.mem_cons.1 hv with rfl | hv
            · exact le_trans (le_max_right _ _) h3
            · exact h2 v (List.mem_cons_of_mem _ hv)
    exact ⟨_, (key l c).1, rfl, (key l c).2⟩

theorem autoLim_spec (y : List ℝ) (h : y ≠ []) : ∃ r, autoLim y = some r ∧ WideLim y r := by
  obtain ⟨a, a1, a2, a3⟩ := vecMin_spec y h
  obtain ⟨b, b1, b2, b3⟩ := vecMax_spec y h
  exact ⟨_, by rw [autoLim, a2, b2]; rfl, a, a1, b, b1, fun v hv => ⟨a3 v hv, b3 v hv⟩, rfl⟩

theorem abs_pair (r : ℝ × ℝ) : |r.1| + |r.2| = 0 ↔ r = (0, 0) := by
  constructor
  · intro h
    have h1 := abs_nonneg r.1
    have h2 := abs_nonneg r.2
    exact Prod.ext (abs_eq_zero.1 (by linarith)) (abs_eq_zero.1 (by linarith))
  · rintro rfl; simp

/-- One frame. -/
theorem updateModes_spec (d : ModesDisp) (y : List ℝ) (hinv : d.line.isSome → d.yrange ≠ (0, 0) → d.ylim = some d.yrange) :
    (updateModes d y).1.xrange = d.xrange ∧ (updateModes d y).1.yrange = d.yrange ∧ (updateModes d y).1.line = some y ∧
    (updateModes d y).1.xlim = setXlim d y ∧ (d.yrange ≠ (0, 0) → (updateModes d y).1.ylim = some d.yrange ∧ (updateModes d y).2 = true) ∧
    (d.yrange = (0, 0) → (y ≠ [] → ∃ r, (updateModes d y).1.ylim = some r ∧ WideLim y r ∧ (updateModes d y).2 = true) ∧
      (y = [] → (updateModes d y).1.ylim = d.ylim ∧ (updateModes d y).2 = false)) := by
  have hp : d.yrange ≠ (0, 0) → 0 < |d.yrange.1| + |d.yrange.2| := fun h =>
    lt_of_le_of_ne (by positivity) fun h' => h ((abs_pair _).1 h'.symm)
  have hauto : ∀ y : List ℝ, y ≠ [] → ∃ r, autoLim y = some r ∧ WideLim y r := autoLim_spec
  unfold updateModes
  cases hl : d.line with
  | none =>
    dsimp only
    by_cases h : d.yrange = (0, 0)
    · have h0 : ¬ 0 < |d.yrange.1| + |d.yrange.2| := by rw [(abs_pair _).2 h]; exact lt_irrefl _
      rw [if_neg h0]
      by_cases hy : y = []
      · subst hy
        exact ⟨rfl, rfl, rfl, rfl, fun h' => absurd h h', fun _ => ⟨fun h' => absurd rfl h', fun _ => ⟨rfl, rfl⟩⟩⟩
      · obtain ⟨r, hr, hw⟩ := hauto y hy
        rw [hr]
        exact ⟨rfl, rfl, rfl, rfl, fun h' => absurd h h', fun _ => ⟨fun _ => ⟨r, rfl, hw, rfl⟩, fun h' => absurd h' hy⟩⟩
    · rw [if_pos (hp h)]
      exact ⟨rfl, rfl, rfl, rfl, fun _ => ⟨rfl, rfl⟩, fun h' => absurd h' h⟩
  | some l =>
    dsimp only
    by_cases h : d.yrange = (0, 0)
    · rw [if_pos ((abs_pair _).2 h)]
      by_cases hy : y = []
      · subst hy
        exact ⟨rfl, rfl, rfl, rfl, fun h' => absurd h h', fun _ => ⟨fun h' => absurd rfl h', fun _ => ⟨rfl, rfl⟩⟩⟩
      · obtain ⟨r, hr, hw⟩ := hauto y hy
        rw [hr]
        exact ⟨rfl, rfl, rfl, rfl, fun h' => absurd h h', fun _ => ⟨fun _ => ⟨r, rfl, hw, rfl⟩, fun h' => absurd h' hy⟩⟩
    · rw [if_neg (hp h).ne']
      exact ⟨rfl, rfl, rfl, rfl, fun h' => ⟨hinv (by rw [hl]; rfl) h', rfl⟩, fun h' => absurd h' h⟩

theorem modesRun_inv : ∀ (ops : List ModesOp) (d : ModesDisp), (d.line.isSome → d.yrange ≠ (0, 0) → d.ylim = some d.yrange) →
    ((modesRun d ops).line.isSome → (modesRun d ops).yrange ≠ (0, 0) → (modesRun d ops).ylim = some (modesRun d ops).yrange) ∧
      (modesRun d ops).xrange = lastX d.xrange ops ∧ (modesRun d ops).yrange = lastY d.yrange ops := by
  intro ops
  induction ops with
  | nil => intro d h; exact ⟨h, rfl, rfl⟩
  | cons o ops ih =>
    intro d h
    show ((modesRun (modesStep d o) ops).line.isSome → _) ∧ _
    match o with
    | .frame y =>
      obtain ⟨u1, u2, u3, u4, u5, u6⟩ := updateModes_spec d y h
      have := ih (modesStep d (.frame y)) (fun _ h' => by
        show (updateModes d y).1.ylim = some (updateModes d y).1.yrange
        rw [u2]
        exact (u5 (by rw [← u2]; exact h')).1)
      refine ⟨this.1, this.2.1.trans ?_, this.2.2.trans ?_⟩
      · show lastX (updateModes d y).1.xrange ops = lastX d.xrange ops
        rw [u1]
      · show lastY (updateModes d y).1.yrange ops = lastY d.yrange ops
        rw [u2]
    | .setX r =>
      exact ih (setXRange d r) (fun h1 h2 => h h1 h2)
    | .setY r =>
      refine ih (setYRange d r) (fun h1 _ => ?_)
      show (if d.line.isSome then some r else d.ylim) = some r
      exact if_pos h1

/-! ### Theorems -/

/-- C127: after any frame with some values, whatever happened before, the line is the frame, the horizontal limits are the range last asked for
or all indices, the vertical ones the range last asked for or, if that is zero, ten percent beyond the extreme values. -/
theorem C127_shown (x0 : Option (ℝ × ℝ)) (y0 : ℝ × ℝ) (ops : List ModesOp) (y : List ℝ) (hy : y ≠ []) :
    (modesRun (newModes x0 y0) (ops ++ [.frame y])).line = some y ∧
    (modesRun (newModes x0 y0) (ops ++ [.frame y])).xlim = some ((lastX x0 ops).getD (0, (y.length : ℝ) - 1)) ∧
    (lastY y0 ops ≠ (0, 0) → (modesRun (newModes x0 y0) (ops ++ [.frame y])).ylim = some (lastY y0 ops)) ∧
    (lastY y0 ops = (0, 0) → ∃ r, (modesRun (newModes x0 y0) (ops ++ [.frame y])).ylim = some r ∧ WideLim y r) ∧
    (updateModes (modesRun (newModes x0 y0) ops) y).2 = true := by
  obtain ⟨i1, i2, i3⟩ := modesRun_inv ops (newModes x0 y0) (fun h => absurd h (by simp [newModes]))
  have e : modesRun (newModes x0 y0) (ops ++ [.frame y]) = (updateModes (modesRun (newModes x0 y0) ops) y).1 := by
    unfold modesRun; rw [List.foldl_append]; rfl
  obtain ⟨u1, u2, u3, u4, u5, u6⟩ := updateModes_spec (modesRun (newModes x0 y0) ops) y i1
  rw [i3] at u5 u6
  rw [e]
  refine ⟨u3, ?_, fun h => (u5 h).1, fun h => ?_, ?_⟩
  · rw [u4, setXlim, i2]
    show (match lastX x0 ops with | some r => _ | none => _) = _
    cases lastX x0 ops with
    | some r => rfl
    | none => simp [List.length_pos_iff.2 hy]
  · obtain ⟨r, h1, h2, -⟩ := (u6 h).1 hy
    exact ⟨r, h1, h2⟩
  · by_cases h : lastY y0 ops = (0, 0)
    · obtain ⟨r, -, -, h3⟩ := (u6 h).1 hy
      exact h3
    · exact (u5 h).2

/-- C127: a range asked for after a frame is used at once, and the line stays. -/
theorem C127_set (x0 : Option (ℝ × ℝ)) (y0 : ℝ × ℝ) (ops : List ModesOp) (y : List ℝ) (r : ℝ × ℝ) :
    ((modesRun (newModes x0 y0) (ops ++ [.frame y, .setX r])).xlim = some r ∧
      (modesRun (newModes x0 y0) (ops ++ [.frame y, .setX r])).line = some y) ∧
    (modesRun (newModes x0 y0) (ops ++ [.frame y, .setY r])).ylim = some r ∧
      (modesRun (newModes x0 y0) (ops ++ [.frame y, .setY r])).line = some y := by
  obtain ⟨i1, -, -⟩ := modesRun_inv ops (newModes x0 y0) (fun h => absurd h (by simp [newModes]))
  obtain ⟨-, -, u3, -⟩ := updateModes_spec (modesRun (newModes x0 y0) ops) y i1
  have hs : (updateModes (modesRun (newModes x0 y0) ops) y).1.line.isSome = true := by rw [u3]; rfl
  constructor
  · have e : modesRun (newModes x0 y0) (ops ++ [.frame y, .setX r]) = setXRange (updateModes (modesRun (newModes x0 y0) ops) y).1 r := by
      unfold modesRun; rw [List.foldl_append]; rfl
    rw [e]
    exact ⟨by rw [setXRange, hs]; rfl, u3⟩
  · have e : modesRun (newModes x0 y0) (ops ++ [.frame y, .setY r]) = setYRange (updateModes (modesRun (newModes x0 y0) ops) y).1 r := by
      unfold modesRun; rw [List.foldl_append]; rfl
    rw [e]
    exact ⟨by rw [setYRange, hs]; rfl, u3⟩

/-- C127: the automatic limits contain all values exactly if there is one not above zero and one not below. -/
theorem C127_auto (y : List ℝ) (r : ℝ × ℝ) (h : WideLim y r) :
    (∀ v ∈ y, r.1 ≤ v ∧ v ≤ r.2) ↔ (∃ v ∈ y, v ≤ 0) ∧ ∃ v ∈ y, 0 ≤ v := by
  obtain ⟨a, ha, b, hb, hab, rfl⟩ := h
  constructor
  · intro h
    have h1 := (h a ha).1
    have h2 := (h b hb).2
    dsimp only at h1 h2
    exact ⟨⟨a, ha, by linarith⟩, ⟨b, hb, by linarith⟩⟩
  · rintro ⟨⟨u, hu, h1⟩, ⟨w, hw, h2⟩⟩ v hv
    have h3 := (hab u hu).1
    have h4 := (hab w hw).2
    obtain ⟨h5, h6⟩ := hab v hv
    dsimp only
    constructor <;> linarith

/-- C127: an empty vector raises exactly if the limits are automatic, and leaves the vertical limits. -/
theorem C127_empty (x0 : Option (ℝ × ℝ)) (y0 : ℝ × ℝ) (ops : List ModesOp) :
    ((updateModes (modesRun (newModes x0 y0) ops) []).2 = false ↔ lastY y0 ops = (0, 0)) ∧
    (lastY y0 ops = (0, 0) → (updateModes (modesRun (newModes x0 y0) ops) []).1.ylim = (modesRun (newModes x0 y0) ops).ylim) := by
  obtain ⟨i1, -, i3⟩ := modesRun_inv ops (newModes x0 y0) (fun h => absurd h (by simp [newModes]))
  obtain ⟨-, -, -, -, u5, u6⟩ := updateModes_spec (modesRun (newModes x0 y0) ops) [] i1
  rw [i3] at u5 u6
  have i3' : (modesRun (newModes x0 y0) ops).yrange = lastY y0 ops := i3
  refine ⟨⟨fun h => ?_, fun h => ((u6 h).2 rfl).2⟩, fun h => ((u6 h).2 rfl).1⟩
  by_contra hne
  have := (u5 hne).2
  rw [h] at this
  exact absurd this (by simp)

/-! ### Concrete cases -/

/-- Automatic limits asked for with a range of zero, after a fixed range. -/
example : ∃ r, (modesRun (newModes none (-500, 500)) ([.frame [1, 2], .setY (0, 0)] ++ [.frame [-1, 3]])).ylim = some r ∧ WideLim [-1, 3] r :=
  (C127_shown none (-500, 500) [.frame [1, 2], .setY (0, 0)] [-1, 3] (by simp)).2.2.2.1 rfl

/-- Positive modes: the smallest lies below the plot. -/
example (r : ℝ × ℝ) (h : WideLim [1, 2] r) : ¬ ∀ v ∈ [(1 : ℝ), 2], r.1 ≤ v ∧ v ≤ r.2 := by
  rw [C127_auto _ r h]
  rintro ⟨⟨v, hv, h0⟩, -⟩
  simp only [List.mem_cons, List.not_mem_nil, or_false] at hv
  rcases hv with rfl | rfl <;> linarith

example : WideLim [1, 2] (1 * (11 / 10), 2 * (11 / 10)) :=
  ⟨1, by simp, 2, by simp, by intro v hv; simp only [List.mem_cons, List.not_mem_nil, or_false] at hv; rcases hv with rfl | rfl <;> norm_num, rfl⟩

end

end Specula
