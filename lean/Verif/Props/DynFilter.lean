import Mathlib.Tactic.Ring
import Mathlib.Tactic.Linarith
import Mathlib.Tactic.FieldSimp
import Mathlib.Tactic.NormNum
import Verif.Model.DynFilter
import Verif.Props.Filter
/-
C99: filters whose gain is changed, and whose state is cleared, while they run.
-/
namespace Specula

section
variable {K : Type} [Field K]

/-! ### Specification -/

/-- A gain that a filter accepts: an integrator takes one number. -/
def GainVal.ok (integrator : Bool) : GainVal K → Prop
  | .scalar _ => True
  | .vector l => integrator = true → l.length = 1

/-- The gain meant for filter `i`. -/
def GainVal.entry (integrator : Bool) (i : Nat) : GainVal K → Option K
  | .scalar x => x
  | .vector l => if integrator then (l[0]?).join else (l[i]?).join

/-- The gain that arrives for filter `i` at time `t`: inputs generated at other times do not count. -/
def gainEvent (integrator : Bool) (t : ℤ) (inp : DynIn K) (i : Nat) : Option (Option K) :=
  (inp.gain.bind fun v => if v.1 = t then some v.2 else none).map fun v => v.entry integrator i

/-- The gain in force before step `n`: the last finite one received, or the initial one. -/
def gainBefore (g₀ : K) (ev : Nat → Option (Option K)) : Nat → K
  | 0 => g₀
  | n + 1 => (ev n).join.getD (gainBefore g₀ ev n)

/-- No reset after step `k`, up to step `n`. -/
def Quiet (r : Nat → Bool) (k n : Nat) : Prop := ∀ j, k < j → j ≤ n → r j = false

open Classical in
/-- The output of `k` steps before step `n`: zero before the start and before the last reset. -/
noncomputable def keptBack (r : Nat → Bool) (y : Nat → K) (n k : Nat) : K := if k ≤ n ∧ Quiet r (n - k) n then y (n - k) else 0

/-! ### One filter at a time -/

/-- The state of one filter before step `n`. -/
def modeRun (d : ℚ) (integ : Bool) (r : Nat → Bool) (ev : Nat → Option (Option K)) (m u : Nat → K) (s : DynMode K) : Nat → DynMode K
  | 0 => s
  | n + 1 => dynModeStep d integ (r n) (ev n) (m n) (u n) (modeRun d integ r ev m u s n)

theorem dynGain_entry (integrator : Bool) (v : GainVal K) (h : v.ok integrator) : dynGain integrator v = some fun i => v.entry integrator i := by
  cases v with
  | scalar x => rfl
  | vector l =>
    cases integrator with
    | false => rfl
    | true =>
      have hl : l.length = 1 := h rfl
      obtain ⟨x, rfl⟩ := List.length_eq_one_iff.1 hl
      rfl

theorem dynStep_eq (integrator : Bool) (d : ℚ) (integ : Bool) (t : ℤ) (inp : DynIn K) (s : Nat → DynMode K) (h : ∀ v, inp.gain = some (t, v) → v.ok integrator) :
    dynStep integrator d integ t inp s =
      some fun i => dynModeStep d integ (decide (inp.reset = some t)) (gainEvent integrator t inp i) (inp.gainMod i) (inp.delta i) (s i) := by
  unfold dynStep gainEvent
  cases hg : inp.gain with
  | none => rfl
  | some v =>
    obtain ⟨a, v⟩ := v
    by_cases ha : a = t
    · subst ha
      simp only [Option.bind_some, if_true, Option.map_some]
      rw [dynGain_entry integrator v (h v hg)]
      rfl
    · simp only [Option.bind_some, ha, if_false, Option.map_none]

theorem dynRun_eq (integrator : Bool) (d : ℚ) (integ : Bool) (t : Nat → ℤ) (inp : Nat → DynIn K) (s : Nat → DynMode K) (n : Nat)
    (h : ∀ k < n, ∀ v, (inp k).gain = some (t k, v) → v.ok integrator) :
    dynRun integrator d integ t inp s n = some fun i => modeRun d integ (fun k => decide ((inp k).reset = some (t k))) (fun k => gainEvent integrator (t k) (inp k) i)
      (fun k => (inp k).gainMod i) (fun k => (inp k).delta i) (s i) n := by
  induction n with
  | zero => rfl
  | succ n ih =>
    rw [dynRun, ih fun k hk => h k (by omega)]
    simp only [Option.bind_some]
    rw [dynStep_eq _ _ _ _ _ _ fun v hv => h n (by omega) v hv]
    rfl

theorem map_zero_eq (l : List K) : (l.map fun _ => (0 : K)) = List.replicate l.length 0 := by simp

/-! ### Shapes -/

structure DynMode.Shaped (d : ℚ) (s : DynMode K) : Prop where
  num : s.coef.num.length = s.coef.normalized.length
  ist : s.st.ist.length = s.coef.normalized.length
  ost : s.st.ost.length = s.den.length
  buf : s.buf.length = bufLen d
  numPos : 0 < s.coef.normalized.length
  denPos : 0 < s.den.length

theorem setLast_length (l : List K) (x : K) (h : 0 < l.length) : (setLast l x).length = l.length := by
  unfold setLast
  simp
  omega

theorem shiftBuf_length (b : List K) : (shiftBuf b).length = b.length := by
  unfold shiftBuf
  cases b with
  | nil => rfl
  | cons a l => simp

theorem fresh_shaped (d : ℚ) (coef : GainState K) (den : List K) (h : coef.num.length = coef.normalized.length) (h1 : 0 < coef.normalized.length) (h2 : 0 < den.length) :
    (DynMode.fresh d coef den).Shaped d := by
  refine ⟨h, ?_, ?_, ?_, h1, h2⟩
  · simp [DynMode.fresh, h]
  · simp [DynMode.fresh]
  · simp [DynMode.fresh]

theorem reset_shaped (d : ℚ) (s : DynMode K) (h : s.Shaped d) : s.reset.Shaped d := by
  refine ⟨h.num, ?_, ?_, ?_, h.numPos, h.denPos⟩
  · simp [DynMode.reset, h.ist]
  · simp [DynMode.reset, h.ost]
  · simp [DynMode.reset, h.buf]

/-- The state as `set_gain` finds it. -/
def dynPrep (d : ℚ) (reset : Bool) (s : DynMode K) : DynMode K :=
  let s := { s with buf := if d > 0 then shiftBuf s.buf else s.buf }
  if reset then s.reset else s

/-- The state as `trigger_code` finds it. -/
def dynSet (g : Option (Option K)) (s : DynMode K) : DynMode K :=
  match g with
  | none => s
  | some x => { s with coef := setGain x s.coef }

/-- `trigger_code`. -/
def dynFire (integ : Bool) (m u : K) (s : DynMode K) : DynMode K :=
  let r := iirStep ⟨s.coef.num, s.den⟩ integ m u s.st
  { s with st := r.1, buf := r.2 :: s.buf.tail }

theorem dynModeStep_eq (d : ℚ) (integ reset : Bool) (g : Option (Option K)) (m u : K) (s : DynMode K) :
    dynModeStep d integ reset g m u s = dynFire integ m u (dynSet g (dynPrep d reset s)) := by
  unfold dynModeStep dynFire dynSet dynPrep
  cases g <;> rfl

theorem prep_shaped (d : ℚ) (reset : Bool) (s : DynMode K) (h : s.Shaped d) : (dynPrep d reset s).Shaped d := by
  have h1 : ({ s with buf := if d > 0 then shiftBuf s.buf else s.buf } : DynMode K).Shaped d := by
    refine ⟨h.num, h.ist, h.ost, ?_, h.numPos, h.denPos⟩
    dsimp only
    split
    · rw [shiftBuf_length, h.buf]
    · exact h.buf
  unfold dynPrep
  cases reset with
  | false => exact h1
  | true => exact reset_shaped d _ h1

theorem set_shaped (d : ℚ) (g : Option (Option K)) (s : DynMode K) (h : s.Shaped d) : (dynSet g s).Shaped d := by
  unfold dynSet
  cases g with
  | none => exact h
  | some x => exact ⟨by simp [setGain], h.ist, h.ost, h.buf, h.numPos, h.denPos⟩

theorem fire_shaped (d : ℚ) (integ : Bool) (m u : K) (s : DynMode K) (h : s.Shaped d) : (dynFire integ m u s).Shaped d := by
  have hi := h.ist
  have ho := h.ost
  have hn := h.numPos
  have hd := h.denPos
  refine ⟨h.num, ?_, ?_, ?_, hn, hd⟩
  · unfold dynFire iirStep
    dsimp only
    rw [setLast_length _ _ (by simp)]
    simp; omega
  · unfold dynFire iirStep
    dsimp only
    rw [setLast_length _ _ (by simp)]
    simp; omega
  · unfold dynFire
    have := h.buf
    have hb : bufLen d = bufLen d - 1 + 1 := rfl
    simp; omega

theorem step_shaped (d : ℚ) (integ reset : Bool) (g : Option (Option K)) (m u : K) (s : DynMode K) (h : s.Shaped d) : (dynModeStep d integ reset g m u s).Shaped d := by
  rw [dynModeStep_eq]
  exact fire_shaped d integ m u _ (set_shaped d g _ (prep_shaped d reset s h))

theorem run_shaped (d : ℚ) (integ : Bool) (r : Nat → Bool) (ev : Nat → Option (Option K)) (m u : Nat → K) (s : DynMode K) (h : s.Shaped d) (n : Nat) :
    (modeRun d integ r ev m u s n).Shaped d := by
  induction n with
  | zero => exact h
  | succ n ih => exact step_shaped d integ _ _ _ _ _ ih

/-! ### Reset -/

theorem shiftBuf_zero (n : Nat) : shiftBuf (List.replicate n (0 : K)) = List.replicate n 0 := by
  cases n with
  | zero => rfl
  | succ n =>
    unfold shiftBuf
    simp [List.replicate_succ]

/-- A reset leaves what a new filter with the present coefficients would have. -/
theorem prep_reset (d : ℚ) (b : Bool) (s : DynMode K) (h : s.Shaped d) : dynPrep d true s = dynPrep d b (DynMode.fresh d s.coef s.den) := by
  have e1 : dynPrep d true s = DynMode.fresh d s.coef s.den := by
    unfold dynPrep DynMode.reset DynMode.fresh
    simp only [if_true, map_zero_eq]
    rw [h.ist, h.ost, h.num]
    split
    · rw [shiftBuf_length, h.buf]
    · rw [h.buf]
  have e2 : ({ DynMode.fresh d s.coef s.den with buf := if d > 0 then shiftBuf (DynMode.fresh d s.coef s.den).buf else (DynMode.fresh d s.coef s.den).buf } : DynMode K) =
      DynMode.fresh d s.coef s.den := by
    unfold DynMode.fresh
    simp only [shiftBuf_zero, ite_self]
  rw [e1]
  unfold dynPrep
  dsimp only
  rw [e2]
  cases b with
  | false => rfl
  | true =>
    simp only [if_true]
    unfold DynMode.reset DynMode.fresh
    simp

theorem modeRun_add (d : ℚ) (integ : Bool) (r : Nat → Bool) (ev : Nat → Option (Option K)) (m u : Nat → K) (s : DynMode K) (n k : Nat) :
    modeRun d integ r ev m u s (n + k) = modeRun d integ (fun j => r (n + j)) (fun j => ev (n + j)) (fun j => m (n + j)) (fun j => u (n + j)) (modeRun d integ r ev m u s n) k := by
  induction k with
  | zero => rfl
  | succ k ih => rw [← add_assoc, modeRun, ih]; rfl

/-- **C99** (reset): from the step of a reset on, the outputs are those of a new filter with the present gains, delay included. -/
theorem C99_reset [CharZero K] (integrator : Bool) (d : ℚ) (integ : Bool) (t : Nat → ℤ) (inp : Nat → DynIn K) (coef : Nat → GainState K) (den : Nat → List K)
    (hs : ∀ i, (coef i).num.length = (coef i).normalized.length ∧ 0 < (coef i).normalized.length ∧ 0 < (den i).length) (hg : ∀ k v, (inp k).gain = some (t k, v) → v.ok integrator)
    (n : Nat) (hr : (inp n).reset = some (t n)) (s : Nat → DynMode K) (hrun : dynRun integrator d integ t inp (fun i => .fresh d (coef i) (den i)) n = some s) (k : Nat) :
    dynOut integrator d integ t inp (fun i => .fresh d (coef i) (den i)) (n + k) =
      dynOut integrator d integ (fun j => t (n + j)) (fun j => inp (n + j)) (fun i => .fresh d (s i).coef (den i)) k := by
  set S : Nat → DynMode K := fun i => modeRun d integ (fun k => decide ((inp k).reset = some (t k))) (fun k => gainEvent integrator (t k) (inp k) i)
      (fun k => (inp k).gainMod i) (fun k => (inp k).delta i) (.fresh d (coef i) (den i)) n with hS
  have hden : ∀ i n, (modeRun d integ (fun k => decide ((inp k).reset = some (t k))) (fun k => gainEvent integrator (t k) (inp k) i)
      (fun k => (inp k).gainMod i) (fun k => (inp k).delta i) (.fresh d (coef i) (den i)) n).den = den i := by
    intro i n
    induction n with
    | zero => rfl
    | succ n ih =>
      rw [modeRun, dynModeStep_eq]
      unfold dynFire dynSet dynPrep
      cases gainEvent integrator (t n) (inp n) i <;> cases decide ((inp n).reset = some (t n)) <;> exact ih
  have hsS : s = S := by
    rw [dynRun_eq integrator d integ t inp _ _ fun k _ => hg k] at hrun
    exact (Option.some.inj hrun).symm
  rw [hsS]
  · unfold dynOut
    rw [dynRun_eq integrator d integ t inp _ _ fun k _ => hg k, dynRun_eq integrator d integ (fun j => t (n + j)) (fun j => inp (n + j)) _ _ fun k _ => hg (n + k)]
    simp only [Option.map_some]
    congr 1
    funext i
    have key : modeRun d integ (fun k => decide ((inp k).reset = some (t k))) (fun k => gainEvent integrator (t k) (inp k) i)
        (fun k => (inp k).gainMod i) (fun k => (inp k).delta i) (.fresh d (coef i) (den i)) (n + k + 1) =
        modeRun d integ (fun j => decide ((inp (n + j)).reset = some (t (n + j)))) (fun j => gainEvent integrator (t (n + j)) (inp (n + j)) i)
        (fun j => (inp (n + j)).gainMod i) (fun j => (inp (n + j)).delta i) (.fresh d (S i).coef (den i)) (k + 1) := by
      rw [add_assoc, modeRun_add]
      have hsh : (S i).Shaped d := run_shaped d integ _ _ _ _ _ (fresh_shaped d _ _ (hs i).1 (hs i).2.1 (hs i).2.2) n
      induction k with
      | zero =>
        simp only [zero_add, modeRun, add_zero, hr, decide_true]
        rw [dynModeStep_eq, dynModeStep_eq]
        have := prep_reset d true (S i) hsh
        rw [show (S i).den = den i from hden i n] at this
        rw [← this]
      | succ k ih =>
        exact congrArg (dynModeStep d integ _ _ _ _) ih
    rw [key]

/-! ### Gain -/

theorem iirStep_scale (l den : List K) (integ : Bool) (g g₀ m u : K) (h : g₀ ≠ 0) (st : IirState K) :
    iirStep ⟨l.map fun a => a * g, den⟩ integ m u st = iirStep ⟨l.map fun a => a * g₀, den⟩ integ (m * (g / g₀)) u st := by
  have e : ((l.map fun a => a * g).map fun a => a * m) = ((l.map fun a => a * g₀).map fun a => a * (m * (g / g₀))) := by
    rw [List.map_map, List.map_map]
    apply List.map_congr_left
    intro a _
    simp only [Function.comp]
    field_simp
  unfold iirStep
  simp only [e]

theorem modeRun_modulation (d : ℚ) (integ : Bool) (r : Nat → Bool) (ev : Nat → Option (Option K)) (m u : Nat → K) (s : DynMode K) (g₀ : K) (h0 : g₀ ≠ 0) (hg : s.coef.gain = g₀)
    (hn : s.coef.num = s.coef.normalized.map fun a => a * g₀) (n : Nat) :
    let a := modeRun d integ r ev m u s n
    let b := modeRun d integ r (fun _ => none) (fun k => m k * (gainBefore g₀ ev (k + 1) / g₀)) u s n
    a.st = b.st ∧ a.buf = b.buf ∧ a.den = b.den ∧ b.coef = s.coef ∧
      a.coef = ⟨s.coef.normalized.map fun a => a * gainBefore g₀ ev n, gainBefore g₀ ev n, s.coef.normalized⟩ := by
  intro a b
  induction n with
  | zero =>
    refine ⟨rfl, rfl, rfl, rfl, ?_⟩
    show s.coef = _
    rw [gainBefore, ← hn, ← hg]
  | succ n ih =>
    obtain ⟨i1, i2, i3, i4, i5⟩ := ih
    set a' := modeRun d integ r ev m u s n with ha'
    set b' := modeRun d integ r (fun _ => none) (fun k => m k * (gainBefore g₀ ev (k + 1) / g₀)) u s n with hb'
    have ea : a = dynFire integ (m n) (u n) (dynSet (ev n) (dynPrep d (r n) a')) := dynModeStep_eq _ _ _ _ _ _ _
    have eb : b = dynFire integ (m n * (gainBefore g₀ ev (n + 1) / g₀)) (u n) (dynSet none (dynPrep d (r n) b')) := dynModeStep_eq _ _ _ _ _ _ _
    have p1 : (dynPrep d (r n) a').st = (dynPrep d (r n) b').st ∧ (dynPrep d (r n) a').buf = (dynPrep d (r n) b').buf ∧ (dynPrep d (r n) a').den = (dynPrep d (r n) b').den ∧
        (dynPrep d (r n) a').coef = a'.coef ∧ (dynPrep d (r n) b').coef = b'.coef := by
      unfold dynPrep DynMode.reset
      cases r n
      · simp [i1, i2, i3]
      · simp [i1, i2, i3]
    obtain ⟨q1, q2, q3, q4, q5⟩ := p1
    have p2 : (dynSet (ev n) (dynPrep d (r n) a')).st = (dynPrep d (r n) a').st ∧ (dynSet (ev n) (dynPrep d (r n) a')).buf = (dynPrep d (r n) a').buf ∧
        (dynSet (ev n) (dynPrep d (r n) a')).den = (dynPrep d (r n) a').den ∧
        (dynSet (ev n) (dynPrep d (r n) a')).coef =
          ⟨s.coef.normalized.map fun a => a * gainBefore g₀ ev (n + 1), gainBefore g₀ ev (n + 1), s.coef.normalized⟩ := by
      unfold dynSet
      cases he : ev n with
      | none =>
        refine ⟨rfl, rfl, rfl, ?_⟩
        dsimp only
        rw [q4, i5, gainBefore, he]
        rfl
      | some x =>
        refine ⟨rfl, rfl, rfl, ?_⟩
        dsimp only
        rw [q4, i5, gainBefore, he]
        rfl
    obtain ⟨w1, w2, w3, w4⟩ := p2
    have hstep : iirStep ⟨(dynSet (ev n) (dynPrep d (r n) a')).coef.num, (dynSet (ev n) (dynPrep d (r n) a')).den⟩ integ (m n) (u n) (dynSet (ev n) (dynPrep d (r n) a')).st =
        iirStep ⟨(dynSet none (dynPrep d (r n) b')).coef.num, (dynSet none (dynPrep d (r n) b')).den⟩ integ (m n * (gainBefore g₀ ev (n + 1) / g₀)) (u n)
          (dynSet none (dynPrep d (r n) b')).st := by
      rw [w1, w3, w4]
      show _ = iirStep ⟨(dynPrep d (r n) b').coef.num, (dynPrep d (r n) b').den⟩ integ _ (u n) (dynPrep d (r n) b').st
      rw [q5, i4, hn, ← q1, ← q3]
      exact iirStep_scale _ _ integ _ g₀ (m n) (u n) h0 _
    rw [ea, eb]
    unfold dynFire
    dsimp only
    refine ⟨by rw [hstep], ?_, ?_, ?_, w4⟩
    · rw [hstep, w2]
      show _ = _ :: (dynPrep d (r n) b').buf.tail
      rw [q2]
    · rw [w3, q3]; rfl
    · show (dynPrep d (r n) b').coef = _
      rw [q5, i4]

/-- **C99** (gain): gains received while running act as a gain modulation equal to the gain in force, over the first one. -/
theorem C99_gain [CharZero K] [DecidableEq K] (integrator : Bool) (d : ℚ) (integ : Bool) (t : Nat → ℤ) (inp : Nat → DynIn K) (ord : Nat → Nat) (num den : Nat → List K)
    (h0 : ∀ i, (setNum (ord i) (num i)).gain ≠ 0) (hg : ∀ k v, (inp k).gain = some (t k, v) → v.ok integrator) (n : Nat) :
    dynOut integrator d integ t inp (fun i => .fresh d (setNum (ord i) (num i)) (den i)) n =
      dynOut integrator d integ t (fun k => { inp k with
        gain := none
        gainMod := fun i => (inp k).gainMod i * (gainBefore (setNum (ord i) (num i)).gain (fun k => gainEvent integrator (t k) (inp k) i) (k + 1) / (setNum (ord i) (num i)).gain) })
        (fun i => .fresh d (setNum (ord i) (num i)) (den i)) n := by
  unfold dynOut
  rw [dynRun_eq integrator d integ t inp _ _ fun k _ => hg k, dynRun_eq integrator d integ t _ _ _ (by intro k _ v hv; simp at hv)]
  simp only [Option.map_some]
  congr 1
  funext i
  have hn : (setNum (ord i) (num i)).num = (setNum (ord i) (num i)).normalized.map fun a => a * (setNum (ord i) (num i)).gain := by
    have hne := h0 i
    unfold setNum at hne ⊢
    dsimp only at hne ⊢
    rw [if_neg hne, List.map_map]
    conv_lhs => rw [← List.map_id (alignCoef (ord i) (num i))]
    apply List.map_congr_left
    intro a _
    simp only [Function.comp, id]
    rw [div_mul_cancel₀ _ hne]
  have h := modeRun_modulation d integ (fun k => decide ((inp k).reset = some (t k))) (fun k => gainEvent integrator (t k) (inp k) i) (fun k => (inp k).gainMod i) (fun k => (inp k).delta i)
    (.fresh d (setNum (ord i) (num i)) (den i)) (setNum (ord i) (num i)).gain (h0 i) rfl hn (n + 1)
  rw [h.2.1]
  rfl

/-! ### Integrator -/

open Classical in
/-- The integral up to step `n - 1`. -/
noncomputable def leaky (r : Nat → Bool) (m u : Nat → K) (gain ff : K) : Nat → K
  | 0 => 0
  | n + 1 => ∑ k ∈ Finset.range (n + 1), if Quiet r k n then ff ^ (n - k) * (gain * (m k * u k)) else 0

theorem modeRun_integrator [DecidableEq K] (d : ℚ) (r : Nat → Bool) (m u : Nat → K) (gain ff : K) (n : Nat) :
    let s := modeRun d true r (fun _ => none) m u (DynMode.fresh d (setNum 2 (integratorCoef gain ff).num) (integratorCoef gain ff).den) n
    s.coef.num = [0, gain] ∧ s.den = [-ff, 1] ∧ s.st.ist.length = 2 ∧
      (∃ x, s.st.ost = [x, leaky r m u gain ff n]) ∧ (0 < n → s.buf.getD 0 0 = leaky r m u gain ff n) := by
  classical
  intro s
  induction n with
  | zero =>
    refine ⟨?_, rfl, ?_, ⟨0, ?_⟩, fun h => absurd h (lt_irrefl 0)⟩
    · show (setNum 2 (integratorCoef gain ff).num).num = _
      simp [setNum, alignCoef, integratorCoef]
    · show ((setNum 2 (integratorCoef gain ff).num).num.map fun _ => (0 : K)).length = 2
      simp [setNum, alignCoef, integratorCoef]
    · rfl
  | succ n ih =>
    obtain ⟨i1, i2, i3, ⟨x, i4⟩, _⟩ := ih
    set s' := modeRun d true r (fun _ => none) m u (DynMode.fresh d (setNum 2 (integratorCoef gain ff).num) (integratorCoef gain ff).den) n with hs'
    have es : s = dynFire true (m n) (u n) (dynSet none (dynPrep d (r n) s')) := dynModeStep_eq _ _ _ _ _ _ _
    set P : K := leaky r m u gain ff n with hP
    have hrec : leaky r m u gain ff (n + 1) = (if r n then 0 else ff * P) + gain * (m n * u n) := by
      rw [leaky, Finset.sum_range_succ]
      have hq : Quiet r n n := fun j h1 h2 => by omega
      rw [if_pos hq, Nat.sub_self, pow_zero, one_mul]
      congr 1
      cases n with
      | zero => simp [hP, leaky]
      | succ n =>
        by_cases hr : r (n + 1)
        · rw [if_pos hr]
          apply Finset.sum_eq_zero
          intro k hk
          rw [if_neg]
          intro hq
          have := hq (n + 1) (Finset.mem_range.1 hk) (le_refl _)
          rw [hr] at this
          cases this
        · rw [if_neg hr, hP, leaky]
          rw [Finset.mul_sum]
          refine Finset.sum_congr rfl fun k hk => ?_
          have hk' := Finset.mem_range.1 hk
          have hiff : Quiet r k (n + 1) ↔ Quiet r k n := by
            constructor
            · intro hq j h1 h2; exact hq j h1 (by omega)
            · intro hq j h1 h2
              rcases Nat.lt_or_ge n j with h | h
              · have : j = n + 1 := by omega
                subst this
                simpa using hr
              · exact hq j h1 h
          by_cases hq : Quiet r k n
          · rw [if_pos (hiff.2 hq), if_pos hq, show n + 1 - k = n - k + 1 by omega, pow_succ]; ring
          · rw [if_neg (fun h => hq (hiff.1 h)), if_neg hq, mul_zero]
    have i4' : s'.st.ost = [x, P] := i4
    obtain ⟨a, b, hab⟩ : ∃ a b, s'.st.ist = [a, b] := List.length_eq_two.1 i3
    have hst : (dynPrep d (r n) s').st = if r n then ⟨[0, 0], [0, 0]⟩ else ⟨[a, b], [x, P]⟩ := by
      unfold dynPrep DynMode.reset
      cases r n with
      | false => simp; rw [← hab, ← i4']
      | true => simp [hab, i4']
    have hco : (dynPrep d (r n) s').coef.num = [0, gain] := by
      unfold dynPrep DynMode.reset
      cases r n <;> exact i1
    have hde : (dynPrep d (r n) s').den = [-ff, 1] := by
      unfold dynPrep DynMode.reset
      cases r n <;> exact i2
    have hfire : ∃ p q, iirStep ⟨(dynPrep d (r n) s').coef.num, (dynPrep d (r n) s').den⟩ true (m n) (u n) (dynPrep d (r n) s').st =
        (⟨[p, u n], [q, (if r n then 0 else ff * P) + gain * (m n * u n)]⟩, (if r n then 0 else ff * P) + gain * (m n * u n)) := by
      rw [hst, hco, hde]
      cases r n with
      | true =>
        refine ⟨0, 0, ?_⟩
        simp [iirStep, setLast, dotSum]
        ring
      | false =>
        refine ⟨b, P, ?_⟩
        simp [iirStep, setLast, dotSum]
        ring
    obtain ⟨p, q, hf⟩ := hfire
    rw [es]
    unfold dynFire
    show (dynPrep d (r n) s').coef.num = _ ∧ (dynPrep d (r n) s').den = _ ∧ _
    refine ⟨hco, hde, ?_, ⟨q, ?_⟩, ?_⟩
    · show (iirStep ⟨(dynPrep d (r n) s').coef.num, (dynPrep d (r n) s').den⟩ true (m n) (u n) (dynPrep d (r n) s').st).1.ist.length = 2
      rw [hf]; rfl
    · show (iirStep ⟨(dynPrep d (r n) s').coef.num, (dynPrep d (r n) s').den⟩ true (m n) (u n) (dynPrep d (r n) s').st).1.ost = _
      rw [hf]
      dsimp only
      rw [hrec]
    · intro _
      show (iirStep ⟨(dynPrep d (r n) s').coef.num, (dynPrep d (r n) s').den⟩ true (m n) (u n) (dynPrep d (r n) s').st).2 = _
      rw [hf, hrec]

open Classical in
/-- **C99** (integrator): the command is the leaky integral, since the last reset, of the input times the gain in force at each step. -/
theorem C99_integrator [CharZero K] [DecidableEq K] (d : ℚ) (t : Nat → ℤ) (inp : Nat → DynIn K) (gain ff : Nat → K) (h0 : ∀ i, gain i ≠ 0)
    (hg : ∀ k v, (inp k).gain = some (t k, v) → v.ok true) (n : Nat) :
    ∃ o, dynOut true d true t inp (dynIntegrator d gain ff) n = some o ∧ ∀ i, (o i).1 =
      ∑ k ∈ Finset.range (n + 1), if Quiet (fun k => decide ((inp k).reset = some (t k))) k n then
        ff i ^ (n - k) * (gainBefore (gain i) (fun k => gainEvent true (t k) (inp k) i) (k + 1) * ((inp k).gainMod i * (inp k).delta i)) else 0 := by
  have hgain : ∀ i, (setNum 2 (integratorCoef (gain i) (ff i)).num).gain = gain i := by intro i; simp [setNum, alignCoef, integratorCoef]
  have h := C99_gain true d true t inp (fun _ => 2) (fun i => (integratorCoef (gain i) (ff i)).num) (fun i => (integratorCoef (gain i) (ff i)).den) (fun i => by rw [hgain i]; exact h0 i) hg n
  unfold dynIntegrator
  rw [h]
  unfold dynOut
  rw [dynRun_eq true d true t _ _ _ (by intro k _ v hv; simp at hv)]
  refine ⟨_, rfl, fun i => ?_⟩
  have hm := (modeRun_integrator d (fun k => decide ((inp k).reset = some (t k)))
    (fun k => (inp k).gainMod i * (gainBefore (gain i) (fun k => gainEvent true (t k) (inp k) i) (k + 1) / gain i)) (fun k => (inp k).delta i) (gain i) (ff i) (n + 1)).2.2.2.2 (Nat.succ_pos n)
  rw [leaky] at hm
  dsimp only at hm ⊢
  simp only [hgain]
  refine Eq.trans hm ?_
  refine Finset.sum_congr rfl fun k _ => ?_
  have := h0 i
  congr 2
  field_simp

/-! ### Delay -/

theorem modeRun_buf (d : ℚ) (hd : 0 ≤ d) (integ : Bool) (r : Nat → Bool) (ev : Nat → Option (Option K)) (m u : Nat → K) (s : DynMode K) (hs : s.buf = List.replicate (bufLen d) 0) (n : Nat) :
    (modeRun d integ r ev m u s (n + 1)).buf =
      (List.range (bufLen d)).map (keptBack r (fun k => (modeRun d integ r ev m u s (k + 1)).buf.getD 0 0) n) := by
  classical
  set y : Nat → K := fun k => (modeRun d integ r ev m u s (k + 1)).buf.getD 0 0 with hy
  have hstep : ∀ k, (modeRun d integ r ev m u s (k + 1)).buf = y k :: (dynPrep d (r k) (modeRun d integ r ev m u s k)).buf.tail := by
    intro k
    have hb : ∃ z, (modeRun d integ r ev m u s (k + 1)).buf = z :: (dynPrep d (r k) (modeRun d integ r ev m u s k)).buf.tail := by
      rw [modeRun, dynModeStep_eq]
      unfold dynFire dynSet
      cases ev k <;> exact ⟨_, rfl⟩
    obtain ⟨z, hz⟩ := hb
    have : y k = z := by rw [hy]; dsimp only; rw [hz]; rfl
    rw [hz, this]
  have hk0 : ∀ n, keptBack r y n 0 = y n := by
    intro n
    unfold keptBack
    rw [if_pos ⟨Nat.zero_le _, fun j h1 h2 => by omega⟩]; rfl
  have hlen : bufLen d = (bufLen d - 1) + 1 := rfl
  have hprep : ∀ k b, (modeRun d integ r ev m u s k).buf = b → (dynPrep d (r k) (modeRun d integ r ev m u s k)).buf =
      if r k then List.replicate b.length 0 else if d > 0 then shiftBuf b else b := by
    intro k b hb
    unfold dynPrep DynMode.reset
    cases r k with
    | false => simp [hb]
    | true =>
      simp only [if_true, map_zero_eq, hb]
      split
      · rw [shiftBuf_length]
      · rfl
  have tailkept : ∀ n, keptBack r y (n + 1) ∘ Nat.succ = if r (n + 1) then fun _ => 0 else keptBack r y n := by
    intro n
    funext i
    simp only [Function.comp]
    by_cases hr : r (n + 1)
    · rw [if_pos hr]
      unfold keptBack
      rw [if_neg]
      rintro ⟨h1, h2⟩
      have := h2 (n + 1) (by omega) (le_refl _)
      rw [hr] at this
      cases this
    · rw [if_neg hr]
      unfold keptBack
      have hr' : r (n + 1) = false := by simpa using hr
      have hiff : (i.succ ≤ n + 1 ∧ Quiet r (n + 1 - i.succ) (n + 1)) ↔ (i ≤ n ∧ Quiet r (n - i) n) := by
        constructor
        · rintro ⟨h1, h2⟩
          exact ⟨by omega, fun j h3 h4 => h2 j (by omega) (by omega)⟩
        · rintro ⟨h1, h2⟩
          refine ⟨by omega, fun j h3 h4 => ?_⟩
          rcases Nat.lt_or_ge n j with h | h
          · have : j = n + 1 := by omega
            subst this; exact hr'
          · exact h2 j (by omega) h
      by_cases h : i ≤ n ∧ Quiet r (n - i) n
      · rw [if_pos (hiff.2 h), if_pos h, show n + 1 - i.succ = n - i by omega]
      · rw [if_neg (fun h' => h (hiff.1 h')), if_neg h]
  have tail0 : ∀ i, keptBack r y 0 (i + 1) = 0 := by
    intro i
    unfold keptBack
    rw [if_neg (by omega)]
  have hzero : ∀ k, (List.replicate k (0 : K)) = (List.range k).map fun _ => 0 := by intro k; simp [List.map_const']
  have htl : ∀ (b : List K), b.length = bufLen d → (if d > 0 then shiftBuf b else b).tail = b.dropLast := by
    intro b hb
    split_ifs with hpos
    · rw [shiftBuf_tail, if_neg]
      rintro rfl
      rw [hlen] at hb
      simp at hb
    · have hd0 : d = 0 := le_antisymm (not_lt.1 hpos) hd
      subst hd0
      have : b.length = 1 := by rw [hb]; simp [bufLen]
      obtain ⟨a, rfl⟩ := List.length_eq_one_iff.1 this
      rfl
  have hdl : ∀ f : Nat → K, ((List.range (bufLen d)).map f).dropLast = (List.range (bufLen d - 1)).map f := by
    intro f
    rw [hlen, List.range_succ]
    simp
  have hsplit : ∀ f : Nat → K, (List.range (bufLen d)).map f = f 0 :: (List.range (bufLen d - 1)).map (f ∘ Nat.succ) := by
    intro f
    rw [hlen, List.range_succ_eq_map, List.map_cons, List.map_map, Nat.add_sub_cancel]
  induction n with
  | zero =>
    rw [hstep 0, hsplit, hk0]
    congr 1
    rw [hprep 0 _ hs]
    have e0 : ((List.range (bufLen d - 1)).map (keptBack r y 0 ∘ Nat.succ)) = List.replicate (bufLen d - 1) 0 := by
      rw [hzero]
      apply List.map_congr_left
      intro i _
      exact tail0 i
    rw [e0]
    split
    · rw [List.length_replicate, List.tail_replicate]
    · rw [htl _ (by simp), List.dropLast_replicate]
  | succ n ih =>
    rw [hstep (n + 1), hsplit, hk0]
    congr 1
    rw [hprep (n + 1) _ ih, tailkept n]
    by_cases hr : r (n + 1)
    · rw [if_pos hr, if_pos hr, List.tail_replicate, hzero]
      simp
    · rw [if_neg hr, if_neg hr, htl _ (by simp), hdl]

/-- **C99** (delay): the delayed command is the one of `d` steps before, interpolated if `d` is not whole, and zero in place of commands before the last reset. -/
theorem C99_delay [CharZero K] (integrator : Bool) (d : ℚ) (hd : 0 ≤ d) (integ : Bool) (t : Nat → ℤ) (inp : Nat → DynIn K) (coef : Nat → GainState K) (den : Nat → List K)
    (hg : ∀ k v, (inp k).gain = some (t k, v) → v.ok integrator) (o : Nat → Nat → K × K) (ho : ∀ k, dynOut integrator d integ t inp (fun i => .fresh d (coef i) (den i)) k = some (o k)) (n i : Nat) :
    (o n i).2 = (1 - ((d - ⌊d⌋ : ℚ) : K)) * keptBack (fun k => decide ((inp k).reset = some (t k))) (fun k => (o k i).1) n ⌊d⌋₊ +
      ((d - ⌊d⌋ : ℚ) : K) * keptBack (fun k => decide ((inp k).reset = some (t k))) (fun k => (o k i).1) n (⌊d⌋₊ + 1) := by
  have hrun : ∀ k, o k i = ((modeRun d integ (fun k => decide ((inp k).reset = some (t k))) (fun k => gainEvent integrator (t k) (inp k) i)
      (fun k => (inp k).gainMod i) (fun k => (inp k).delta i) (.fresh d (coef i) (den i)) (k + 1)).buf.getD 0 0,
      delayOutput d (modeRun d integ (fun k => decide ((inp k).reset = some (t k))) (fun k => gainEvent integrator (t k) (inp k) i)
      (fun k => (inp k).gainMod i) (fun k => (inp k).delta i) (.fresh d (coef i) (den i)) (k + 1)).buf) := by
    intro k
    have h := ho k
    unfold dynOut at h
    rw [dynRun_eq integrator d integ t inp _ _ fun k _ => hg k] at h
    rw [← Option.some.inj h]
  have hy : (fun k => (o k i).1) = fun k => (modeRun d integ (fun k => decide ((inp k).reset = some (t k))) (fun k => gainEvent integrator (t k) (inp k) i)
      (fun k => (inp k).gainMod i) (fun k => (inp k).delta i) (.fresh d (coef i) (den i)) (k + 1)).buf.getD 0 0 := by
    funext k
    rw [hrun k]
  rw [hy, hrun n]
  dsimp only
  rw [modeRun_buf d hd integ _ _ _ _ _ rfl n]
  set f := keptBack (fun k => decide ((inp k).reset = some (t k))) (fun k => (modeRun d integ (fun k => decide ((inp k).reset = some (t k))) (fun k => gainEvent integrator (t k) (inp k) i)
      (fun k => (inp k).gainMod i) (fun k => (inp k).delta i) (.fresh d (coef i) (den i)) (k + 1)).buf.getD 0 0) n with hf
  have hget : ∀ j, j ≤ ⌈d⌉₊ → ((List.range (bufLen d)).map f).getD j 0 = f j := by
    intro j hj
    have : j < bufLen d := by unfold bufLen; omega
    rw [List.getD_eq_getElem _ _ (by simpa using this)]
    simp
  unfold delayOutput
  by_cases hint : d = ⌊d⌋
  · have hz : d - (⌊d⌋ : ℚ) = 0 := by rw [← hint]; ring
    have hz' : d - ((⌊d⌋ : ℤ) : ℚ) = 0 := hz
    have hc : ⌈d⌉₊ = ⌊d⌋₊ := by
      obtain ⟨k, hk⟩ : ∃ k : Nat, d = k := by
        refine ⟨⌊d⌋.toNat, ?_⟩
        have : 0 ≤ ⌊d⌋ := Int.floor_nonneg.2 hd
        have h2 : ((⌊d⌋.toNat : ℤ) : ℚ) = ⌊d⌋ := by rw [Int.toNat_of_nonneg this]
        rw [← hint] at h2
        exact_mod_cast h2.symm
      rw [hk]; simp
    rw [hz']
    simp only [Rat.cast_zero, sub_zero, one_mul, zero_mul, add_zero, if_true]
    rw [hget 0 (Nat.zero_le _), hget _ (le_refl _), hc]
    split_ifs with h0
    · rw [h0]; simp
    · rfl
  · have hne : d - (⌊d⌋ : ℚ) ≠ 0 := fun h => hint (sub_eq_zero.1 h)
    have hd0 : d ≠ 0 := by rintro rfl; simp at hint
    have hpos : 0 < d := lt_of_le_of_ne hd (Ne.symm hd0)
    have hceil : ⌈d⌉₊ = ⌊d⌋₊ + 1 := by
      rw [Nat.ceil_eq_iff (by omega)]
      have h1 := Nat.floor_le hpos.le
      have h2 := Nat.lt_floor_add_one d
      refine ⟨?_, by push_cast; linarith⟩
      rw [Nat.add_sub_cancel]
      refine lt_of_le_of_ne h1 ?_
      intro h
      apply hint
      rw [← natCast_floor_eq_intCast_floor hd]
      exact h.symm
    rw [if_neg hd0]
    simp only [if_neg hne]
    rw [hget _ (le_refl _), hget _ (by omega), hceil, Nat.add_sub_cancel]
    ring

/-! ### Where the gain cannot be changed -/

/-- **C99** (zero): an integrator built with gain zero never moves, whatever the gains it receives. -/
theorem C99_zero_start [CharZero K] [DecidableEq K] (d : ℚ) (integ : Bool) (t : Nat → ℤ) (inp : Nat → DynIn K) (gain ff : Nat → K) (i : Nat) (h0 : gain i = 0)
    (hg : ∀ k v, (inp k).gain = some (t k, v) → v.ok true) (n : Nat) :
    ∃ o, dynOut true d integ t inp (dynIntegrator d gain ff) n = some o ∧ (o i).1 = 0 := by
  unfold dynOut
  rw [dynRun_eq true d integ t inp _ _ fun k _ => hg k]
  refine ⟨_, rfl, ?_⟩
  have key : ∀ n, let s := modeRun d integ (fun k => decide ((inp k).reset = some (t k))) (fun k => gainEvent true (t k) (inp k) i) (fun k => (inp k).gainMod i) (fun k => (inp k).delta i) (dynIntegrator d gain ff i) n
      s.coef.num = [0, 0] ∧ s.coef.normalized = [0, 0] ∧ s.den = [-ff i, 1] ∧ s.st.ist.length = 2 ∧ (∃ x, s.st.ost = [x, 0]) ∧ (0 < n → s.buf.getD 0 0 = 0) := by
    intro n
    induction n with
    | zero =>
      refine ⟨?_, ?_, rfl, ?_, ⟨0, rfl⟩, fun h => absurd h (lt_irrefl 0)⟩
      · show (setNum 2 (integratorCoef (gain i) (ff i)).num).num = _
        simp [setNum, alignCoef, integratorCoef, h0]
      · show (setNum 2 (integratorCoef (gain i) (ff i)).num).normalized = _
        simp [setNum, alignCoef, integratorCoef, h0]
      · show ((setNum 2 (integratorCoef (gain i) (ff i)).num).num.map fun _ => (0 : K)).length = 2
        simp [setNum, alignCoef, integratorCoef]
    | succ n ih =>
      dsimp only at ih ⊢
      obtain ⟨i1, i2, i3, i4, ⟨x, i5⟩, _⟩ := ih
      rw [modeRun, dynModeStep_eq]
      set s' := modeRun d integ (fun k => decide ((inp k).reset = some (t k))) (fun k => gainEvent true (t k) (inp k) i) (fun k => (inp k).gainMod i) (fun k => (inp k).delta i)
        (dynIntegrator d gain ff i) n with hs'
      obtain ⟨a, b, hab⟩ : ∃ a b, s'.st.ist = [a, b] := List.length_eq_two.1 i4
      have hp : ∀ r : Bool, (dynPrep d r s').coef = s'.coef ∧ (dynPrep d r s').den = s'.den ∧ ∃ a b x, (dynPrep d r s').st = ⟨[a, b], [x, 0]⟩ := by
        intro r
        unfold dynPrep DynMode.reset
        cases r with
        | false =>
          refine ⟨rfl, rfl, a, b, x, ?_⟩
          simp only [Bool.false_eq_true, if_false]
          rw [← hab, ← i5]
        | true =>
          refine ⟨rfl, rfl, 0, 0, 0, ?_⟩
          simp [hab, i5]
      obtain ⟨p1, p2, a', b', x', p3⟩ := hp (decide ((inp n).reset = some (t n)))
      have hset : ∀ g, (dynSet g (dynPrep d (decide ((inp n).reset = some (t n))) s')).coef.num = [0, 0] ∧ (dynSet g (dynPrep d (decide ((inp n).reset = some (t n))) s')).coef.normalized = [0, 0] ∧
          (dynSet g (dynPrep d (decide ((inp n).reset = some (t n))) s')).den = [-ff i, 1] ∧ (dynSet g (dynPrep d (decide ((inp n).reset = some (t n))) s')).st = ⟨[a', b'], [x', 0]⟩ := by
        intro g
        unfold dynSet
        cases g with
        | none => exact ⟨by rw [p1, i1], by rw [p1, i2], by rw [p2, i3], p3⟩
        | some y => exact ⟨by simp [setGain, p1, i2], by simp [setGain, p1, i2], by dsimp only; rw [p2, i3], p3⟩
      obtain ⟨q1, q2, q3, q4⟩ := hset (gainEvent true (t n) (inp n) i)
      have hfire : iirStep ⟨(dynSet (gainEvent true (t n) (inp n) i) (dynPrep d (decide ((inp n).reset = some (t n))) s')).coef.num,
          (dynSet (gainEvent true (t n) (inp n) i) (dynPrep d (decide ((inp n).reset = some (t n))) s')).den⟩ integ ((inp n).gainMod i) ((inp n).delta i)
          (dynSet (gainEvent true (t n) (inp n) i) (dynPrep d (decide ((inp n).reset = some (t n))) s')).st = (⟨[b', (inp n).delta i], [0, 0]⟩, 0) := by
        rw [q1, q3, q4]
        cases integ <;> simp [iirStep, setLast, dotSum]
      unfold dynFire
      dsimp only
      rw [hfire]
      exact ⟨q1, q2, q3, rfl, ⟨0, rfl⟩, fun _ => rfl⟩
  exact (key (n + 1)).2.2.2.2.2 (Nat.succ_pos n)

/-- **C99** (vector): a new gain that is a vector, unless of one element, stops an integrator with an exception. -/
theorem C99_vector_raises (d : ℚ) (integ : Bool) (t : ℤ) (inp : DynIn K) (s : Nat → DynMode K) (l : List (Option K)) (hl : l.length ≠ 1) (h : inp.gain = some (t, .vector l)) :
    dynStep true d integ t inp s = none := by
  have hd : dynGain true (.vector l) = none := by
    match l, hl with
    | [], _ => rfl
    | [x], hl => exact absurd rfl hl
    | _ :: _ :: _, _ => rfl
  unfold dynStep
  rw [h]
  simp only [Option.bind_some, if_true]
  rw [hd]
  rfl

omit [Field K] in
/-- **C99** (one element): the same vector of one element changes all the gains of an integrator and only the first of the filter. -/
theorem C99_one_element (x : K) (i : Nat) :
    (∃ g, dynGain true (.vector [some x]) = some g ∧ g i = some x) ∧ ∃ g, dynGain false (.vector [some x]) = some g ∧ g i = if i = 0 then some x else none := by
  refine ⟨⟨_, rfl, rfl⟩, ⟨_, rfl, ?_⟩⟩
  cases i with
  | zero => rfl
  | succ i => simp

/-! ### Cases -/

/-- Gain changed at the second step, stale gain at the third, reset at the fourth. -/
def dynDemo : Nat → DynIn ℚ
  | 1 => ⟨fun _ => 1, fun _ => 1, none, some (1, .scalar (some 3))⟩
  | 2 => ⟨fun _ => 1, fun _ => 1, some 0, some (1, .scalar (some 5))⟩
  | 3 => ⟨fun _ => 1, fun _ => 1, some 3, none⟩
  | _ => ⟨fun _ => 1, fun _ => 1, none, none⟩

example : ((List.range 6).map fun n => (dynOut true (3 / 2) true (fun k => k) dynDemo (dynIntegrator (3 / 2) (fun _ => 2) fun _ => 1) n).map fun o => o 0) =
    [some (2, 0), some (5, 1), some (8, 7 / 2), some (3, 0), some (6, 3 / 2), some (9, 9 / 2)] := by decide +kernel

/-- The gains of the case are accepted. -/
example : ∀ k v, (dynDemo k).gain = some ((k : ℤ), v) → v.ok true := by
  intro k v h
  match k, h with
  | 0, h => simp [dynDemo] at h
  | 1, h => simp [dynDemo] at h; subst h; trivial
  | 2, h => simp [dynDemo] at h
  | 3, h => simp [dynDemo] at h
  | _ + 4, h => simp [dynDemo] at h

example : gainBefore (2 : ℚ) (fun k => gainEvent true (k : ℤ) (dynDemo k) 0) 1 = 2 ∧ gainBefore (2 : ℚ) (fun k => gainEvent true (k : ℤ) (dynDemo k) 0) 4 = 3 := by decide +kernel

end
end Specula
