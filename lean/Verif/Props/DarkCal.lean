import Verif.Model.DarkCal
import Mathlib.Tactic.Linarith
import Mathlib.Tactic.Ring
import Mathlib.Tactic.FieldSimp
import Mathlib.Tactic.NormNum

/-!
# C47: dark frames
-/

namespace Specula

section
variable {P K : Type} [Field K]

/-- Specification: mean of `n` frames at a pixel. -/
def meanFrame (xs : List (DarkStep P K)) (n : ℕ) (p : P) : K := (xs.map fun x => x.frame p).sum / n

/-- A trigger without requests other than resets. -/
def DarkQuiet (x : DarkStep P K) : Prop := x.trigger = false ∧ x.nframes = none ∧ x.load = none

theorem darkRun_cons (s : DarkState P K) (x : DarkStep P K) (xs : List (DarkStep P K)) :
    darkRun s (x :: xs) = (darkStep s x).bind fun s => darkRun s xs := rfl

theorem darkRun_append (s : DarkState P K) (xs ys : List (DarkStep P K)) :
    darkRun s (xs ++ ys) = (darkRun s xs).bind fun s => darkRun s ys := by
  unfold darkRun
  rw [List.foldlM_append]
  rfl

theorem darkStep_quiet (s : DarkState P K) (x : DarkStep P K) (hq : DarkQuiet x) :
    darkStep s x = some (darkTrigger (darkRequests s false x.reset) x) := by
  obtain ⟨h1, h2, h3⟩ := hq
  simp [darkStep, darkPrepare, darkNframes, darkLoad, h1, h2, h3]

/-- While no acquisition is going on, the sum is zero: in every state that any history reaches. -/
theorem C47_idle_sum_zero (n : ℤ) (xs : List (DarkStep P K)) (s₀ s : DarkState P K) (h0 : darkInit n = some s₀) (h : darkRun s₀ xs = some s) :
    (s.counter = 0 → ∀ p, s.integrated p = 0) ∧ 0 < s.nframes := by
  have hinit : (s₀.counter = 0 → ∀ p, s₀.integrated p = 0) ∧ 0 < s₀.nframes := by
    unfold darkInit at h0
    split at h0
    · cases h0
    · cases h0
      exact ⟨fun _ _ => rfl, by dsimp only; omega⟩
  clear h0
  induction xs generalizing s₀ with
  | nil => cases h; exact hinit
  | cons x xs ih =>
    rw [darkRun_cons] at h
    cases hx : darkStep s₀ x with
    | none => rw [hx] at h; cases h
    | some s₁ =>
      rw [hx] at h
      refine ih s₁ h ?_
      unfold darkStep darkPrepare at hx
      -- the requests
      cases h2 : darkNframes (darkRequests s₀ x.trigger x.reset) x.nframes with
      | none => rw [h2] at hx; cases hx
      | some s₂ =>
        rw [h2] at hx
        have hs2 : s₂.integrated = s₀.integrated ∧ 0 < s₂.nframes ∧ (s₂.counter = 0 → s₀.counter = 0) := by
          have hr : (darkRequests s₀ x.trigger x.reset).counter = 0 → s₀.counter = 0 := by
            unfold darkRequests
            dsimp only
            split
            · intro h; have := hinit.2; omega
            · exact id
          unfold darkNframes at h2
          split at h2
          · cases h2; exact ⟨rfl, hinit.2, hr⟩
          · split at h2
            · cases h2
            · cases h2; refine ⟨rfl, by dsimp only; omega, hr⟩
        cases h3 : darkLoad s₂ x.time x.load with
        | none => simp [h3] at hx
        | some s₃ =>
          simp only [Option.bind_some, h3, Option.map_some, Option.some.injEq] at hx
          have hs3 : s₃.integrated = s₂.integrated ∧ s₃.nframes = s₂.nframes ∧ s₃.counter = s₂.counter := by
            unfold darkLoad at h3
            split at h3
            · cases h3; exact ⟨rfl, rfl, rfl⟩
            · cases h3
            · cases h3; exact ⟨rfl, rfl, rfl⟩
          subst hx
          unfold darkTrigger
          dsimp only
          by_cases c1 : s₃.counter = 0
          · rw [if_pos c1]
            dsimp only
            refine ⟨fun _ p => ?_, by rw [hs3.2.1]; exact hs2.2.1⟩
            rw [hs3.1, hs2.1]
            exact hinit.1 (hs2.2.2 (by rw [← hs3.2.2]; exact c1)) p
          · rw [if_neg c1]
            by_cases c2 : s₃.counter - 1 = 0
            · rw [if_pos c2]
              exact ⟨fun _ p => mul_zero _, by dsimp only; rw [hs3.2.1]; exact hs2.2.1⟩
            · rw [if_neg c2]
              exact ⟨fun h => absurd h c2, by dsimp only; rw [hs3.2.1]; exact hs2.2.1⟩

/-- During an acquisition with `c` frames to go, quiet triggers add to the sum; before the last frame the dark stays what it was (or
zero if a reset arrives), with the last one it becomes the sum over the number of frames. -/
theorem dark_acquire (c : ℕ) (s : DarkState P K) (xs : List (DarkStep P K)) (hc : s.counter = c) (hq : ∀ x ∈ xs, DarkQuiet x)
    (hl : xs.length ≤ c) :
    ∃ s', darkRun s xs = some s' ∧ s'.counter = c - xs.length ∧ s'.nframes = s.nframes ∧
      (xs.length < c → (∀ p, s'.integrated p = s.integrated p + (xs.map fun x => x.frame p).sum) ∧
        ((∀ p, s'.dark p = s.dark p) ∨ ∀ p, s'.dark p = 0) ∧ s'.darkTime = s.darkTime) ∧
      (xs.length = c → xs ≠ [] → (∀ p, s'.dark p = (s.integrated p + (xs.map fun x => x.frame p).sum) / s.nframes) ∧
        (∀ p, s'.integrated p = 0) ∧ ∀ x, xs.getLast? = some x → s'.darkTime = x.time) := by
  induction xs generalizing s c with
  | nil => exact ⟨s, rfl, by simp [hc], rfl, fun _ => ⟨by simp, Or.inl fun _ => rfl, rfl⟩, fun _ h => absurd rfl h⟩
  | cons x xs ih =>
    rw [darkRun_cons, darkStep_quiet s x (hq x (List.mem_cons_self ..)), Option.bind_some]
    have hq' : ∀ y ∈ xs, DarkQuiet y := fun y hy => hq y (List.mem_cons_of_mem _ hy)
    simp only [List.length_cons] at hl
    by_cases c1 : c = 1
    · -- the last frame
      have hx : xs = [] := List.length_eq_zero_iff.1 (by omega)
      subst hx
      refine ⟨_, rfl, ?_⟩
      subst c1
      have : s.counter ≠ 0 := by omega
      simp [darkTrigger, darkRequests, hc]
    · have hne : s.counter ≠ 0 := by omega
      have hne1 : s.counter - 1 ≠ 0 := by omega
      have hst : darkTrigger (darkRequests s false x.reset) x =
          { darkRequests s false x.reset with
            subtracted := fun p => x.frame p - (darkRequests s false x.reset).dark p
            integrated := fun p => s.integrated p + x.frame p
            counter := c - 1 } := by
        subst hc
        simp [darkTrigger, darkRequests, hne, hne1]
      rw [hst]
      obtain ⟨s', h1, h2, h3, h4, h5⟩ := ih (c - 1)
        { darkRequests s false x.reset with
          subtracted := fun p => x.frame p - (darkRequests s false x.reset).dark p
          integrated := fun p => s.integrated p + x.frame p
          counter := c - 1 } rfl hq' (by omega)
      refine ⟨s', h1, by simp only [List.length_cons]; omega, h3, ?_, ?_⟩
      · intro hlt
        simp only [List.length_cons] at hlt
        obtain ⟨h6, h7, h8⟩ := h4 (by omega)
        refine ⟨fun p => ?_, ?_, h8⟩
        · rw [h6 p]; simp only [List.map_cons, List.sum_cons]; ring
        · rcases h7 with h7 | h7
          · cases hr : x.reset with
            | true =>
              right
              intro p
              rw [h7 p]
              simp [darkRequests, hr]
            | false =>
              left
              intro p
              rw [h7 p]
              simp [darkRequests, hr]
          · exact Or.inr h7
      · intro hlen _
        simp only [List.length_cons] at hlen
        have hxs : xs ≠ [] := by rintro rfl; simp at hlen; omega
        obtain ⟨h6, h7, h8⟩ := h5 (by omega) hxs
        refine ⟨fun p => ?_, h7, ?_⟩
        · rw [h6 p]
          simp only [List.map_cons, List.sum_cons]
          have : (darkRequests s false x.reset).nframes = s.nframes := rfl
          simp only [this]
          congr 1
          ring
        · intro y hy
          apply h8
          rw [List.getLast?_cons] at hy
          cases hg : xs.getLast? with
          | none => exact absurd (List.getLast?_eq_none_iff.1 hg) hxs
          | some z =>
            rw [hg] at hy
            simpa using hy

/-- A dark requested while none is being acquired, with no other requests (but resets) until it is complete, is the mean of exactly
`nframes` frames, the one of the request and those that follow; it is published with the time of the last, and not before. -/
theorem C47_mean (n : ℤ) (hist : List (DarkStep P K)) (s₀ s : DarkState P K) (h0 : darkInit n = some s₀) (h : darkRun s₀ hist = some s)
    (hidle : s.counter = 0) (x : DarkStep P K) (xs : List (DarkStep P K)) (hx : x.trigger = true ∧ x.nframes = none ∧ x.load = none)
    (hq : ∀ y ∈ xs, DarkQuiet y) :
    (xs.length + 1 = s.nframes → ∃ s', darkRun s (x :: xs) = some s' ∧ s'.counter = 0 ∧
      (∀ p, s'.dark p = meanFrame (x :: xs) s.nframes p) ∧ ∀ y, (x :: xs).getLast? = some y → s'.darkTime = y.time) ∧
    (xs.length + 1 < s.nframes → ∃ s', darkRun s (x :: xs) = some s' ∧ s'.counter = s.nframes - (xs.length + 1) ∧
      ((∀ p, s'.dark p = s.dark p) ∨ ∀ p, s'.dark p = 0) ∧ s'.darkTime = s.darkTime) := by
  obtain ⟨hz, hpos⟩ := C47_idle_sum_zero n hist s₀ s h0 h
  -- the request is the same as a quiet trigger with the counter already set
  have hreq : darkRun s (x :: xs) = darkRun { s with counter := s.nframes } ({ x with trigger := false } :: xs) := by
    rw [darkRun_cons, darkRun_cons]
    congr 1
    obtain ⟨h1, h2, h3⟩ := hx
    simp [darkStep, darkPrepare, darkNframes, darkLoad, darkRequests, h1, h2, h3, darkTrigger]
  have hq' : ∀ y ∈ { x with trigger := false } :: xs, DarkQuiet y := by
    intro y hy
    rcases List.mem_cons.1 hy with rfl | hy
    · exact ⟨rfl, hx.2.1, hx.2.2⟩
    · exact hq y hy
  have hlen : ({ x with trigger := false } :: xs).length = xs.length + 1 := rfl
  have hsum : ∀ p, (({ x with trigger := false } :: xs).map fun x => x.frame p).sum = ((x :: xs).map fun x => x.frame p).sum := fun p => rfl
  constructor
  · intro hn
    obtain ⟨s', h1, h2, h3, -, h5⟩ := dark_acquire s.nframes { s with counter := s.nframes } ({ x with trigger := false } :: xs) rfl hq' (by omega)
    obtain ⟨h6, -, h8⟩ := h5 (by omega) (by simp)
    refine ⟨s', by rw [hreq]; exact h1, by omega, ?_, ?_⟩
    · intro p
      rw [h6 p, hsum p, meanFrame]
      simp only [hz hidle p, zero_add]
    · intro y hy
      cases xs with
      | nil =>
        simp only [List.getLast?_singleton, Option.some.injEq] at hy
        subst hy
        exact h8 { x with trigger := false } (by simp)
      | cons a l =>
        apply h8
        rw [List.getLast?_cons_cons] at hy ⊢
        exact hy
  · intro hn
    obtain ⟨s', h1, h2, h3, h4, -⟩ := dark_acquire s.nframes { s with counter := s.nframes } ({ x with trigger := false } :: xs) rfl hq' (by omega)
    obtain ⟨-, h7, h8⟩ := h4 (by omega)
    exact ⟨s', by rw [hreq]; exact h1, by omega, h7, h8⟩

/-- At every trigger of every history the published pixels are the frame minus the dark that was there before the trigger (zero after a
reset); a dark completed at the trigger is not used yet. -/
theorem C47_subtracted (s s' : DarkState P K) (x : DarkStep P K) (h : darkStep s x = some s') (p : P) :
    s'.subtracted p = x.frame p - (if x.reset then 0 else s.dark p) := by
  unfold darkStep darkPrepare at h
  cases h2 : darkNframes (darkRequests s x.trigger x.reset) x.nframes with
  | none => rw [h2] at h; cases h
  | some s₂ =>
    rw [h2] at h
    have hs2 : s₂.dark = (darkRequests s x.trigger x.reset).dark := by
      unfold darkNframes at h2
      split at h2
      · cases h2; rfl
      · split at h2
        · cases h2
        · cases h2; rfl
    cases h3 : darkLoad s₂ x.time x.load with
    | none => simp [h3] at h
    | some s₃ =>
      simp only [Option.bind_some, h3, Option.map_some, Option.some.injEq] at h
      have hs3 : s₃.dark = s₂.dark := by
        unfold darkLoad at h3
        split at h3
        · cases h3; rfl
        · cases h3
        · cases h3; rfl
      subst h
      have : (darkTrigger s₃ x).subtracted p = x.frame p - s₃.dark p := by
        unfold darkTrigger
        dsimp only
        split
        · rfl
        · split <;> rfl
      rw [this, hs3, hs2]
      unfold darkRequests
      dsimp only
      split <;> simp

/-- Loading a dark never changes anything but the time of the output, whatever the file contains. -/
theorem C47_load_ignored (s : DarkState P K) (x : DarkStep P K) (d d' : P → K) :
    darkStep s { x with load := some (some d) } = darkStep s { x with load := some (some d') } ∧
    ∀ s', darkStep s { x with load := some (some d) } = some s' → x.trigger = false → s.counter = 0 → x.reset = false → s'.dark = s.dark := by
  constructor
  · simp [darkStep, darkPrepare, darkLoad, darkTrigger]
  · intro s' h h1 h2 h3
    simp only [darkStep, darkPrepare, darkLoad] at h
    cases hn : darkNframes (darkRequests s x.trigger x.reset) x.nframes with
    | none => rw [hn] at h; cases h
    | some s₂ =>
      rw [hn] at h
      simp only [Option.bind_some, Option.map_some, Option.some.injEq] at h
      have hs2 : s₂.dark = s.dark ∧ s₂.counter = 0 := by
        unfold darkNframes at hn
        split at hn
        · cases hn; simp [darkRequests, h1, h2, h3]
        · split at hn
          · cases hn
          · cases hn; simp [darkRequests, h1, h2, h3]
      subst h
      unfold darkTrigger
      dsimp only
      rw [if_pos hs2.2]
      exact hs2.1

/-- A number of frames that is not positive, or a file that cannot be read, ends the simulation: the handler meant to protect from
exceptions raises itself. -/
theorem C47_bad_request_raises (s : DarkState P K) (x : DarkStep P K) :
    (∀ n, x.nframes = some n → n ≤ 0 → darkStep s x = none) ∧ (x.load = some none → darkStep s x = none) := by
  constructor
  · intro n hn h
    simp [darkStep, darkPrepare, darkNframes, hn, h]
  · intro h
    unfold darkStep darkPrepare
    rw [h]
    cases darkNframes (darkRequests s x.trigger x.reset) x.nframes <;> rfl

end

/-- A second request while a dark is being acquired starts the count again but keeps the sum: with constant frames of value 4 and two
frames per dark the dark is 6. -/
theorem C47_request_during_acquisition :
    ∃ s₀ s : DarkState Unit ℚ, darkInit 2 = some s₀ ∧
      darkRun s₀ [{ time := 1, frame := fun _ => 4, trigger := true }, { time := 2, frame := fun _ => 4, trigger := true },
        { time := 3, frame := fun _ => 4 }] = some s ∧ s.darkTime = 3 ∧ s.dark () = 6 := by
  refine ⟨_, _, rfl, rfl, rfl, ?_⟩
  decide +kernel

/-- A new number of frames together with the request (or during the acquisition) divides the sum of the old number of frames by the new
number: 4 times 2 frames over 8. -/
theorem C47_new_nframes_during_acquisition :
    ∃ s₀ s : DarkState Unit ℚ, darkInit 2 = some s₀ ∧
      darkRun s₀ [{ time := 1, frame := fun _ => 4, trigger := true, nframes := some 8 }, { time := 2, frame := fun _ => 4 }] = some s ∧
      s.darkTime = 2 ∧ s.dark () = 1 := by
  refine ⟨_, _, rfl, rfl, rfl, ?_⟩
  decide +kernel

-- Two frames, 3 and 5, after a reset in between: dark 4; subtracted from the next frame.
example : ∃ s₀ s : DarkState Unit ℚ, darkInit 2 = some s₀ ∧
    darkRun s₀ [{ time := 1, frame := fun _ => 3, trigger := true }, { time := 2, frame := fun _ => 5, reset := true },
      { time := 3, frame := fun _ => 10 }] = some s ∧ s.dark () = 4 ∧ s.darkTime = 2 ∧ s.subtracted () = 6 := by
  refine ⟨_, _, rfl, rfl, ?_, rfl, ?_⟩ <;> decide +kernel

end Specula
