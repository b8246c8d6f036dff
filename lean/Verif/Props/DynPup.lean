import Verif.Model.DynPup
import Mathlib.Algebra.BigOperators.Group.List.Basic
import Mathlib.Tactic.NormNum
/-
C114: the interactive calibrator of the pupils of a pyramid.
-/
namespace Specula

/-- A value that `float` refuses. -/
def PupIn.invalid : PupIn → Prop
  | .fresh none => True
  | _ => False

/-- The value to use after an input. -/
def PupIn.newValue (i : PupIn) (old : ℝ) : ℝ :=
  match i with
  | .fresh (some v) => v
  | _ => old

section
variable {I Q : Type} [AddMonoid I]

theorem pupDynInput_valid {A : Type} (conv : ℝ → A) (i : PupIn) (old : A) (h : ¬i.invalid) : ∃ a, pupDynInput conv i old = some a := by
  cases i with
  | absent => exact ⟨old, rfl⟩
  | stale => exact ⟨old, rfl⟩
  | fresh v => cases v with
    | none => exact absurd trivial h
    | some v => exact ⟨conv v, rfl⟩

/-- Values refreshed at an iteration are used from that iteration, the others stay. -/
theorem C114_update (toT : ℝ → ℤ) (idt i1 i2 : PupIn) (s : DynSt I Q) (h0 : ¬idt.invalid) (h1 : ¬i1.invalid) (h2 : ¬i2.invalid) :
    ∃ s', pupDynPrepare toT idt i1 i2 s = some s' ∧ s'.thr1 = i1.newValue s.thr1 ∧ s'.thr2 = i2.newValue s.thr2 ∧
      (∀ v, idt = .fresh (some v) → s'.dt = some (toT v)) ∧ ((idt = .absent ∨ idt = .stale) → s'.dt = s.dt) ∧
      s'.acc = s.acc ∧ s'.status = s.status ∧ s'.pup = s.pup := by
  obtain ⟨a, ha⟩ := pupDynInput_valid (fun v => some (toT v)) idt s.dt h0
  obtain ⟨b, hb⟩ := pupDynInput_valid id i1 s.thr1 h1
  obtain ⟨c, hc⟩ := pupDynInput_valid id i2 s.thr2 h2
  refine ⟨{ s with dt := a, thr1 := b, thr2 := c }, by simp [pupDynPrepare, ha, hb, hc], ?_, ?_, ?_, ?_, rfl, rfl, rfl⟩
  · cases i1 with
    | absent => simp [pupDynInput] at hb; simp [PupIn.newValue, hb]
    | stale => simp [pupDynInput] at hb; simp [PupIn.newValue, hb]
    | fresh v => cases v with
      | none => exact absurd trivial h1
      | some v => simp [pupDynInput] at hb; simp [PupIn.newValue, hb]
  · cases i2 with
    | absent => simp [pupDynInput] at hc; simp [PupIn.newValue, hc]
    | stale => simp [pupDynInput] at hc; simp [PupIn.newValue, hc]
    | fresh v => cases v with
      | none => exact absurd trivial h2
      | some v => simp [pupDynInput] at hc; simp [PupIn.newValue, hc]
  · rintro v rfl
    simp [pupDynInput] at ha
    exact ha.symm
  · rintro (rfl | rfl) <;> (simp [pupDynInput] at ha; exact ha.symm)

/-- A value that is not a number stops the simulation, although the code means to ignore it. -/
theorem C114_invalid (meas : ℝ → ℝ → I → Meas Q) (toT : ℝ → ℤ) (s : DynSt I Q) (t : ℤ) (x : I) (idt i1 i2 : PupIn)
    (h : idt.invalid ∨ i1.invalid ∨ i2.invalid) : pupDynStep meas toT s (t, x, idt, i1, i2) = none := by
  have key : ∀ {A : Type} (conv : ℝ → A) (i : PupIn) (old : A), i.invalid → pupDynInput conv i old = none := by
    intro A conv i old hi
    cases i with
    | absent => exact hi.elim
    | stale => exact hi.elim
    | fresh v => cases v with
      | none => rfl
      | some v => exact hi.elim
  have hp : pupDynPrepare toT idt i1 i2 s = none := by
    rcases h with h | h | h
    · simp [pupDynPrepare, key _ _ _ h]
    · simp [pupDynPrepare, key _ _ _ h]
    · simp [pupDynPrepare, key _ _ _ h]
  simp [pupDynStep, hp]

/-- Without `dt`, the default, the first iteration stops the simulation. -/
theorem C114_no_dt (meas : ℝ → ℝ → I → Meas Q) (toT : ℝ → ℤ) (s : DynSt I Q) (hs : s.dt = none) (t : ℤ) (x : I) (idt i1 i2 : PupIn)
    (h : idt = .absent ∨ idt = .stale) : pupDynStep meas toT s (t, x, idt, i1, i2) = none := by
  have hd : pupDynInput (fun v => some (toT v)) idt s.dt = some none := by
    rcases h with rfl | rfl <;> simp [pupDynInput, hs]
  have key : ∀ s1 : DynSt I Q, s1.dt = none → (pupDynTrigger meas t x s1).bind pupDynPost = none := by
    intro s1 h1
    simp only [pupDynTrigger, h1]
    cases meas s1.thr1 s1.thr2 (s1.acc.getD 0 + x) <;> simp [pupDynPost, h1]
  simp only [pupDynStep]
  cases hp : pupDynPrepare toT idt i1 i2 s with
  | none => rfl
  | some s1 =>
    rw [Option.bind_some]
    apply key
    simp only [pupDynPrepare, hd, Option.bind_some] at hp
    cases h1 : pupDynInput id i1 s.thr1 with
    | none => simp [h1] at hp
    | some a =>
      rw [h1, Option.bind_some] at hp
      cases h2 : pupDynInput id i2 s.thr2 with
      | none => simp [h2] at hp
      | some b => rw [h2, Option.map_some, Option.some.injEq] at hp; rw [← hp]

/-- An interval of zero given interactively stops the simulation. -/
theorem C114_zero_dt (meas : ℝ → ℝ → I → Meas Q) (toT : ℝ → ℤ) (s : DynSt I Q) (t : ℤ) (x : I) (v : ℝ) (i1 i2 : PupIn) (hv : toT v = 0) :
    pupDynStep meas toT s (t, x, .fresh (some v), i1, i2) = none := by
  simp only [pupDynStep]
  cases hp : pupDynPrepare toT (.fresh (some v)) i1 i2 s with
  | none => rfl
  | some s1 =>
    have h1 : s1.dt = some 0 := by
      simp only [pupDynPrepare, pupDynInput, Option.bind_some, hv] at hp
      cases h1 : pupDynInput id i1 s.thr1 with
      | none => simp [pupDynInput] at h1 hp; simp [h1] at hp
      | some a =>
        simp only [pupDynInput] at h1 hp
        rw [h1, Option.bind_some] at hp
        cases h2 : pupDynInput id i2 s.thr2 with
        | none => simp only [pupDynInput] at h2; rw [h2] at hp; simp at hp
        | some b => simp only [pupDynInput] at h2; rw [h2, Option.map_some, Option.some.injEq] at hp; rw [← hp]
    simp [pupDynTrigger, h1]

/-! ### Integration -/

/-- A frame at time `t`, no interactive input refreshed. -/
def quiet (f : ℤ × I) : ℤ × I × PupIn × PupIn × PupIn := (f.1, f.2, .stale, .absent, .stale)

/-- The run over quiet frames. -/
def pupDynRun (meas : ℝ → ℝ → I → Meas Q) (toT : ℝ → ℤ) (s : DynSt I Q) (fs : List (ℤ × I)) : Option (DynSt I Q) :=
  fs.foldlM (fun s f => pupDynStep meas toT s (quiet f)) s

theorem pupDynStep_quiet (meas : ℝ → ℝ → I → Meas Q) (toT : ℝ → ℤ) (s : DynSt I Q) (f : ℤ × I) :
    pupDynStep meas toT s (quiet f) = (pupDynTrigger meas f.1 f.2 s).bind pupDynPost := by
  simp [pupDynStep, quiet, pupDynPrepare, pupDynInput]

/-- Between two measurements the frames add up, the pupils stay, and the status is OK. -/
theorem C114_between (meas : ℝ → ℝ → I → Meas Q) (toT : ℝ → ℤ) (s : DynSt I Q) (d : ℤ) (hd : s.dt = some d) (h0 : d ≠ 0) (a : I)
    (ha : s.acc = some a) (fs : List (ℤ × I)) (hne : fs ≠ []) (hfs : ∀ f ∈ fs, f.1 % d ≠ 0) :
    pupDynRun meas toT s fs = some { s with acc := some (a + (fs.map Prod.snd).sum), status := some true } := by
  induction fs generalizing s a with
  | nil => exact absurd rfl hne
  | cons f fs ih =>
    have h1 : pupDynStep meas toT s (quiet f) = some { s with acc := some (a + f.2), status := some true } := by
      rw [pupDynStep_quiet]
      simp [pupDynTrigger, hd, h0, hfs f (List.mem_cons_self ..), ha, pupDynPost]
    simp only [pupDynRun, List.foldlM_cons, h1]
    show pupDynRun meas toT { s with acc := some (a + f.2), status := some true } fs = _
    by_cases hfs' : fs = []
    · subst hfs'
      simp [pupDynRun]
    · rw [ih { s with acc := some (a + f.2), status := some true } hd (a + f.2) rfl hfs' fun g hg => hfs g (List.mem_cons_of_mem _ hg)]
      simp [add_assoc]

theorem pupDynRun_append (meas : ℝ → ℝ → I → Meas Q) (toT : ℝ → ℤ) (s : DynSt I Q) (a b : List (ℤ × I)) :
    pupDynRun meas toT s (a ++ b) = (pupDynRun meas toT s a).bind fun s1 => pupDynRun meas toT s1 b := by
  simp only [pupDynRun, List.foldlM_append]
  rfl

theorem pupDynRun_window (meas : ℝ → ℝ → I → Meas Q) (toT : ℝ → ℤ) (s : DynSt I Q) (d : ℤ) (hd : s.dt = some d) (h0 : d ≠ 0) (a : I)
    (ha : s.acc = some a) (fs : List (ℤ × I)) (hfs : ∀ f ∈ fs, f.1 % d ≠ 0) (t : ℤ) (x : I) (ht : t % d = 0) :
    pupDynRun meas toT s (fs ++ [(t, x)]) =
      match meas s.thr1 s.thr2 (a + (fs.map Prod.snd).sum + x) with
      | .pupils q => some { s with acc := some 0, status := some true, pup := some (q, t) }
      | .refused => some { s with acc := some (a + (fs.map Prod.snd).sum + x), status := some false }
      | .crash => none := by
  have last : ∀ (s1 : DynSt I Q) (b : I), s1.dt = some d → s1.acc = some b → pupDynRun meas toT s1 [(t, x)] =
      match meas s1.thr1 s1.thr2 (b + x) with
      | .pupils q => some { s1 with acc := some 0, status := some true, pup := some (q, t) }
      | .refused => some { s1 with acc := some (b + x), status := some false }
      | .crash => none := by
    intro s1 b e1 e2
    simp only [pupDynRun, List.foldlM_cons, List.foldlM_nil, pupDynStep_quiet, pupDynTrigger, e1, e2, h0, ht, if_false, ne_eq, not_true, Option.getD_some]
    cases meas s1.thr1 s1.thr2 (b + x) <;> simp [pupDynPost, e1]
  rw [pupDynRun_append]
  by_cases hne : fs = []
  · subst hne
    have : pupDynRun meas toT s ([] : List (ℤ × I)) = some s := rfl
    rw [this, Option.bind_some, last s a hd ha]
    simp
  · rw [C114_between meas toT s d hd h0 a ha fs hne hfs, Option.bind_some,
      last { s with acc := some (a + (fs.map Prod.snd).sum), status := some true } (a + (fs.map Prod.snd).sum) hd rfl]

/-- After a measurement, the next one is of the sum of the frames since then, at the next multiple of `dt`. -/
theorem C114_measure (meas : ℝ → ℝ → I → Meas Q) (toT : ℝ → ℤ) (s : DynSt I Q) (d : ℤ) (hd : s.dt = some d) (h0 : d ≠ 0) (ha : s.acc = some 0)
    (fs : List (ℤ × I)) (hfs : ∀ f ∈ fs, f.1 % d ≠ 0) (t : ℤ) (x : I) (ht : t % d = 0) (q : Q)
    (hq : meas s.thr1 s.thr2 (((fs ++ [(t, x)]).map Prod.snd).sum) = .pupils q) :
    ∃ s', pupDynRun meas toT s (fs ++ [(t, x)]) = some s' ∧ s'.pup = some (q, t) ∧ s'.status = some true ∧ s'.acc = some 0 := by
  have e : (((fs ++ [(t, x)]).map Prod.snd).sum) = 0 + (fs.map Prod.snd).sum + x := by simp
  rw [e] at hq
  refine ⟨{ s with acc := some 0, status := some true, pup := some (q, t) }, ?_, rfl, rfl, rfl⟩
  rw [pupDynRun_window meas toT s d hd h0 0 ha fs hfs t x ht, hq]

/-- A measurement that is refused leaves the pupils with their time and sets the status, and its frames are still there: the next
measurement is of the frames of both intervals. -/
theorem C114_after_failure (meas : ℝ → ℝ → I → Meas Q) (toT : ℝ → ℤ) (s : DynSt I Q) (d : ℤ) (hd : s.dt = some d) (h0 : d ≠ 0)
    (ha : s.acc = some 0) (fs gs : List (ℤ × I)) (hfs : ∀ f ∈ fs, f.1 % d ≠ 0) (hgs : ∀ f ∈ gs, f.1 % d ≠ 0) (t u : ℤ) (x y : I)
    (ht : t % d = 0) (hu : u % d = 0) (hbad : meas s.thr1 s.thr2 (((fs ++ [(t, x)]).map Prod.snd).sum) = .refused) (q : Q)
    (hq : meas s.thr1 s.thr2 (((fs ++ [(t, x)] ++ (gs ++ [(u, y)])).map Prod.snd).sum) = .pupils q) :
    (∃ s1, pupDynRun meas toT s (fs ++ [(t, x)]) = some s1 ∧ s1.pup = s.pup ∧ s1.status = some false) ∧
      ∃ s2, pupDynRun meas toT s (fs ++ [(t, x)] ++ (gs ++ [(u, y)])) = some s2 ∧ s2.pup = some (q, u) := by
  have e : (((fs ++ [(t, x)]).map Prod.snd).sum) = 0 + (fs.map Prod.snd).sum + x := by simp
  rw [e] at hbad
  have h1 := pupDynRun_window meas toT s d hd h0 0 ha fs hfs t x ht
  rw [hbad] at h1
  refine ⟨⟨_, h1, rfl, rfl⟩, ?_⟩
  have e2 : (((fs ++ [(t, x)] ++ (gs ++ [(u, y)])).map Prod.snd).sum) = (0 + (fs.map Prod.snd).sum + x) + (gs.map Prod.snd).sum + y := by
    simp [add_assoc]
  rw [e2] at hq
  refine ⟨{ s with acc := some 0, status := some true, pup := some (q, u) }, ?_, rfl⟩
  rw [pupDynRun_append, h1, Option.bind_some,
    pupDynRun_window meas toT { s with acc := some (0 + (fs.map Prod.snd).sum + x), status := some false } d hd h0 (0 + (fs.map Prod.snd).sum + x) rfl gs hgs u y hu]
  simp only [hq]

/-- The status does not tell of the failure for long: one frame later it is OK again, although no measurement was made. -/
theorem C114_status_lost (meas : ℝ → ℝ → I → Meas Q) (toT : ℝ → ℤ) (s : DynSt I Q) (d : ℤ) (hd : s.dt = some d) (h0 : d ≠ 0)
    (ha : s.acc = some 0) (t u : ℤ) (x y : I) (ht : t % d = 0) (hu : u % d ≠ 0) (hbad : meas s.thr1 s.thr2 x = .refused) :
    ∃ s', pupDynRun meas toT s [(t, x), (u, y)] = some s' ∧ s'.status = some true ∧ s'.pup = s.pup := by
  have h1 := pupDynRun_window meas toT s d hd h0 0 ha [] (by simp) t x ht
  have e : (0 : I) + (([] : List (ℤ × I)).map Prod.snd).sum + x = x := by simp
  rw [e, hbad] at h1
  have h2 : pupDynRun meas toT s [(t, x), (u, y)] = (pupDynRun meas toT s ([] ++ [(t, x)])).bind fun s1 => pupDynRun meas toT s1 [(u, y)] :=
    pupDynRun_append meas toT s [(t, x)] [(u, y)]
  rw [h2, h1, Option.bind_some, C114_between meas toT { s with acc := some x, status := some false } d hd h0 x rfl [(u, y)] (by simp) (by simpa using hu)]
  exact ⟨_, rfl, rfl, rfl⟩

/-- The measurement refuses sums below 5. -/
example : ∃ s2 : DynSt ℕ ℕ, pupDynRun (fun _ _ n => if n < 5 then .refused else .pupils n) (fun _ => 1) ⟨some 2, 0, 0, some 0, none, none⟩
    [(1, 1), (2, 1), (3, 1), (4, 2)] = some s2 ∧ s2.pup = some (5, 4) :=
  (C114_after_failure (fun _ _ n => if n < 5 then .refused else .pupils n) (fun _ => 1) ⟨some 2, 0, 0, some 0, none, none⟩ 2 rfl (by norm_num) rfl
    [(1, 1)] [(3, 1)] (by simp) (by simp) 2 4 1 2 (by norm_num) (by norm_num) (by norm_num) 5 (by norm_num)).2

example : pupDynStep (I := ℕ) (Q := ℕ) (fun _ _ n => .pupils n) (fun _ => 1) ⟨some 2, 0, 0, none, none, none⟩ (2, 7, .absent, .fresh none, .absent) = none :=
  C114_invalid _ _ _ _ _ _ _ _ (.inr (.inl trivial))

end
end Specula
