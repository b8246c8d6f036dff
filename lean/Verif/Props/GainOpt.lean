import Verif.Model.GainOpt
import Mathlib.Algebra.Order.Ring.Rat
import Mathlib.Tactic.Ring
import Mathlib.Tactic.FieldSimp
import Mathlib.Tactic.Linarith
import Mathlib.Tactic.NormNum
import Mathlib.Tactic.Positivity
/-
C35, C36: gain optimisation and optical gain.
-/
namespace Specula

section
variable {K : Type} [Field K] [LinearOrder K] [IsStrictOrderedRing K] {n : Nat}

/-! ### C35 -/

/-- The candidates are the multiples of `gmax / ngains` from 1 to `ngains`. -/
theorem candidateGain_eq (gmax : K) (ng i : Nat) (hi : i < ng) : candidateGain gmax ng i = gmax * ((i + 1 : Nat) / ng) := by
  unfold candidateGain
  have hng : (ng : K) ≠ 0 := Nat.cast_ne_zero.2 (by omega)
  by_cases h1 : ng = 1
  · subst h1
    obtain rfl : i = 0 := by omega
    simp
  · have h2 : (ng : K) - 1 ≠ 0 := by
      have : (1 : K) < ng := by exact_mod_cast (by omega : 1 < ng)
      exact sub_ne_zero.2 this.ne'
    push_cast
    field_simp
    ring

omit [Field K] [IsStrictOrderedRing K] in
theorem argminUpTo_le (f : Nat → K) (m : Nat) : argminUpTo f m ≤ m := by
  induction m with
  | zero => simp [argminUpTo]
  | succ m ih => rw [argminUpTo]; split <;> omega

omit [Field K] [IsStrictOrderedRing K] in
theorem argminUpTo_min (f : Nat → K) (m k : Nat) (hk : k ≤ m) : f (argminUpTo f m) ≤ f k := by
  induction m with
  | zero => obtain rfl : k = 0 := by omega
            simp [argminUpTo]
  | succ m ih =>
    rw [argminUpTo]
    split
    · rename_i h
      rcases Nat.lt_or_ge k (m + 1) with h1 | h1
      · exact h.le.trans (ih (by omega))
      · rw [show k = m + 1 by omega]
    · rename_i h
      rcases Nat.lt_or_ge k (m + 1) with h1 | h1
      · exact ih (by omega)
      · rw [show k = m + 1 by omega]; exact not_lt.1 h

/-- **C35** (optimum): the optimum of a mode is one of the multiples of `gmax / ngains` up to `gmax`, and none of them has a
smaller predicted residual. -/
theorem C35_optimum (p : GainOpt K n) (i : Fin n) (pol : List K) (hng : 0 < p.ngains) :
    (∃ k, 1 ≤ k ∧ k ≤ p.ngains ∧ optimalGain p i pol = p.gmax i * ((k : K) / p.ngains)) ∧
    ∀ k, 1 ≤ k → k ≤ p.ngains → p.residual i pol (optimalGain p i pol) ≤ p.residual i pol (p.gmax i * ((k : K) / p.ngains)) := by
  unfold optimalGain
  set f := fun k => p.residual i pol (candidateGain (p.gmax i) p.ngains k) with hf
  have hle := argminUpTo_le f (p.ngains - 1)
  constructor
  · refine ⟨argminUpTo f (p.ngains - 1) + 1, by omega, by omega, ?_⟩
    rw [candidateGain_eq _ _ _ (by omega)]
  · intro k h1 h2
    have h := argminUpTo_min f (p.ngains - 1) (k - 1) (by omega)
    rw [hf] at h
    simp only at h
    rw [candidateGain_eq (p.gmax i) p.ngains (k - 1) (by omega), show k - 1 + 1 = k by omega] at h
    exact h

/-- Whether an iteration optimises. -/
def OptTime (p : GainOpt K n) (e : OptEvent K n) : Prop := p.optDt ≤ e.time ∧ e.time % p.optDt = 0

omit [IsStrictOrderedRing K] in
theorem newGain_le (p : GainOpt K n) (prev : Fin n → K) (og : List K) (opt : Fin n → K) (i : Fin n) :
    newGain p prev og opt i ≤ p.gmax i := min_le_right _ _

omit [IsStrictOrderedRing K] in
theorem optimizeGains_le (p : GainOpt K n) (st : OptState K n) (h : 2 ≤ st.deltaHist.length) (i : Fin n) :
    (optimizeGains p st).out i ≤ p.gmax i := by
  unfold optimizeGains
  rw [if_neg (by omega)]
  apply newGain_le

omit [IsStrictOrderedRing K] in
theorem optStep_hist (p : GainOpt K n) (st : OptState K n) (e : OptEvent K n) :
    (optStep p st e).deltaHist.length = st.deltaHist.length + 1 := by
  unfold optStep optimizeGains
  cases e.opticalGain <;> simp <;> split <;> (try split) <;> simp

/-- The gains set so far respect the bound. -/
def GainsBounded (p : GainOpt K n) (g : Fin n → K) (st : OptState K n) : Prop :=
  (st.outTime = none → st.filterGain = g) ∧ (st.outTime ≠ none → ∀ i, st.filterGain i ≤ p.gmax i)

omit [IsStrictOrderedRing K] in
theorem optStep_bounded (p : GainOpt K n) (g : Fin n → K) (st : OptState K n) (e : OptEvent K n) (h : GainsBounded p g st)
    (hlen : OptTime p e → 1 ≤ st.deltaHist.length) : GainsBounded p g (optStep p st e) := by
  obtain ⟨h1, h2⟩ := h
  have main : ∀ st' : OptState K n, st'.deltaHist = st.deltaHist → st'.outTime = st.outTime → st'.filterGain = st.filterGain →
      GainsBounded p g (let st := { st' with deltaHist := st'.deltaHist ++ [e.delta], commHist := st'.commHist ++ [e.comm] }
        if p.optDt ≤ e.time ∧ e.time % p.optDt = 0 then
          let st := optimizeGains p st
          { st with outTime := some e.time, filterGain := st.out }
        else st) := by
    intro st' ha hb hc
    by_cases ht : p.optDt ≤ e.time ∧ e.time % p.optDt = 0
    · simp only [ht, and_self, if_true]
      refine ⟨by simp, fun _ i => ?_⟩
      apply optimizeGains_le
      have := hlen ht
      simp only [ha, List.length_append, List.length_cons, List.length_nil]
      omega
    · simp only [ht, if_false]
      exact ⟨by simpa [hb, hc] using h1, by simpa [hb, hc] using h2⟩
  unfold optStep
  cases e.opticalGain with
  | none => exact main st rfl rfl rfl
  | some a => exact main { st with ogHist := st.ogHist ++ [a] } rfl rfl rfl

omit [IsStrictOrderedRing K] in
/-- **C35** (bound): in every run in which the first triggered iteration is not an optimisation one, at every iteration the
filter has its original gains, or gains set by the optimiser, none of which is above the maximum gain, whatever the telemetry. -/
theorem C35_bound (p : GainOpt K n) (g : Fin n → K) (es : List (OptEvent K n)) (hfirst : ∀ e, es.head? = some e → ¬ OptTime p e)
    (st : OptState K n) (hst : st ∈ optRun p (OptState.init g) es) :
    (st.outTime = none → st.filterGain = g) ∧ (st.outTime ≠ none → ∀ i, st.filterGain i ≤ p.gmax i) := by
  have gen : ∀ (es : List (OptEvent K n)) (st₀ : OptState K n), GainsBounded p g st₀ → 1 ≤ st₀.deltaHist.length →
      ∀ st ∈ optRun p st₀ es, GainsBounded p g st := by
    intro es
    induction es with
    | nil => intro st₀ _ _ st h; simp [optRun] at h
    | cons e es ih =>
      intro st₀ hb hl st h
      rw [optRun, List.mem_cons] at h
      have hb' := optStep_bounded p g st₀ e hb fun _ => hl
      rcases h with rfl | h
      · exact hb'
      · exact ih _ hb' (by rw [optStep_hist]; omega) st h
  cases es with
  | nil => simp [optRun] at hst
  | cons e es =>
    have hb : GainsBounded p g (optStep p (OptState.init g) e) :=
      optStep_bounded p g _ e ⟨fun _ => rfl, fun h => absurd rfl h⟩ fun h => absurd h (hfirst e rfl)
    rw [optRun, List.mem_cons] at hst
    rcases hst with rfl | hst
    · exact hb
    · exact gen es _ hb (by rw [optStep_hist]; omega) st hst

omit [IsStrictOrderedRing K] in
theorem optStep_carried (p : GainOpt K n) (st : OptState K n) (e : OptEvent K n) (h : st.prev = st.filterGain)
    (hlen : OptTime p e → 1 ≤ st.deltaHist.length) : (optStep p st e).prev = (optStep p st e).filterGain := by
  have main : ∀ st' : OptState K n, st'.deltaHist = st.deltaHist → st'.prev = st'.filterGain →
      ∀ s, s = (let st := { st' with deltaHist := st'.deltaHist ++ [e.delta], commHist := st'.commHist ++ [e.comm] }
        if p.optDt ≤ e.time ∧ e.time % p.optDt = 0 then
          let st := optimizeGains p st
          { st with outTime := some e.time, filterGain := st.out }
        else st) → s.prev = s.filterGain := by
    rintro st' ha hb _ rfl
    by_cases ht : p.optDt ≤ e.time ∧ e.time % p.optDt = 0
    · simp only [ht, and_self, if_true]
      unfold optimizeGains
      have := hlen ht
      rw [if_neg (by simp only [ha, List.length_append, List.length_cons, List.length_nil]; omega)]
    · simp only [ht, if_false]
      exact hb
  unfold optStep
  cases e.opticalGain with
  | none => exact main st rfl h _ rfl
  | some a => exact main { st with ogHist := st.ogHist ++ [a] } rfl h _ rfl

omit [IsStrictOrderedRing K] in
/-- **C35** (carried): in the runs of `C35_bound` every optimisation starts from the gains the filter has. -/
theorem C35_carried (p : GainOpt K n) (g : Fin n → K) (es : List (OptEvent K n)) (hfirst : ∀ e, es.head? = some e → ¬ OptTime p e)
    (st : OptState K n) (hst : st ∈ optRun p (OptState.init g) es) : st.prev = st.filterGain := by
  have gen : ∀ (es : List (OptEvent K n)) (st₀ : OptState K n), st₀.prev = st₀.filterGain → 1 ≤ st₀.deltaHist.length →
      ∀ st ∈ optRun p st₀ es, st.prev = st.filterGain := by
    intro es
    induction es with
    | nil => intro st₀ _ _ st h; simp [optRun] at h
    | cons e es ih =>
      intro st₀ hb hl st h
      rw [optRun, List.mem_cons] at h
      have hb' := optStep_carried p st₀ e hb fun _ => hl
      rcases h with rfl | h
      · exact hb'
      · exact ih _ hb' (by rw [optStep_hist]; omega) st h
  cases es with
  | nil => simp [optRun] at hst
  | cons e es =>
    have hb := optStep_carried p (OptState.init g) e rfl fun h => absurd h (hfirst e rfl)
    rw [optRun, List.mem_cons] at hst
    rcases hst with rfl | hst
    · exact hb
    · exact gen es _ hb (by rw [optStep_hist]; omega) st hst

/-- **C35** (increment): without optical gains, with increments limited to the fraction `maxInc` and with previous gain and
optimum between 0 and the maximum, the new gain is the safety factor times the point at the fraction `maxInc` of the way from the
previous gain to the optimum. -/
theorem C35_increment (p : GainOpt K n) (prev opt : Fin n → K) (i : Fin n) (hl : p.limitInc = true) (h0 : 0 ≤ p.maxInc)
    (h1 : p.maxInc ≤ 1) (hs1 : p.safety ≤ 1) (hp0 : 0 ≤ prev i) (hp1 : prev i ≤ p.gmax i) (ho0 : 0 ≤ opt i)
    (ho1 : opt i ≤ p.gmax i) :
    newGain p prev [] opt i = p.safety * (prev i + p.maxInc * (opt i - prev i)) := by
  unfold newGain lastTwo
  simp only [hl, if_true, List.reverse_nil]
  rw [min_eq_left]
  · ring
  · have ha : prev i + p.maxInc * (opt i - prev i) = (1 - p.maxInc) * prev i + p.maxInc * opt i := by ring
    rw [ha]
    have hle : (1 - p.maxInc) * prev i + p.maxInc * opt i ≤ p.gmax i := by
      have e1 := mul_le_mul_of_nonneg_left hp1 (sub_nonneg.2 h1)
      have e2 := mul_le_mul_of_nonneg_left ho1 h0
      nlinarith
    have hge : 0 ≤ (1 - p.maxInc) * prev i + p.maxInc * opt i :=
      add_nonneg (mul_nonneg (sub_nonneg.2 h1) hp0) (mul_nonneg h0 ho0)
    calc _ ≤ ((1 - p.maxInc) * prev i + p.maxInc * opt i) * 1 := mul_le_mul_of_nonneg_left hs1 hge
      _ ≤ p.gmax i := by rw [mul_one]; exact hle

/-- **C35** (positive gains): with positive maximum gains, safety factor and optical gains and a fraction in `(0, 1]`, positive
gains stay positive. -/
theorem C35_positive (p : GainOpt K n) (prev opt : Fin n → K) (og : List K) (i : Fin n) (h0 : 0 < p.maxInc) (h1 : p.maxInc ≤ 1)
    (hs : 0 < p.safety) (hg : 0 < p.gmax i) (hp : 0 < prev i) (ho : 0 < opt i) (hog : ∀ x ∈ og, 0 < x) :
    0 < newGain p prev og opt i := by
  unfold newGain
  have hin : 0 < (if p.limitInc then prev i + p.maxInc * (opt i - prev i) else opt i) := by
    split
    · have : prev i + p.maxInc * (opt i - prev i) = (1 - p.maxInc) * prev i + p.maxInc * opt i := by ring
      rw [this]
      exact add_pos_of_nonneg_of_pos (mul_nonneg (sub_nonneg.2 h1) hp.le) (mul_pos h0 ho)
    · exact ho
  have h2 : ∀ ab, lastTwo og = some ab → 0 < ab.1 ∧ 0 < ab.2 := by
    intro ab h
    unfold lastTwo at h
    have hm : ∀ x ∈ og.reverse, 0 < x := fun x hx => hog x (List.mem_reverse.1 hx)
    generalize og.reverse = l at h hm
    match l, h, hm with
    | a :: b :: _, h, hm =>
      simp only [Option.some.injEq] at h
      subst h
      exact ⟨hm a (by simp), hm b (by simp)⟩
  cases hlt : lastTwo og with
  | none => exact lt_min (mul_pos hin hs) hg
  | some ab =>
    obtain ⟨ha, hb⟩ := h2 ab hlt
    exact lt_min (mul_pos (mul_pos hin (div_pos ha hb)) hs) hg

/-- **C35** (repeated optimisations): if the telemetry always gives the same optimum, after `k` optimisations the distance from
`safety * maxInc * opt / (1 - safety * (1 - maxInc))` is multiplied by `(safety * (1 - maxInc)) ^ k`. -/
theorem C35_settles (p : GainOpt K n) (opt : Fin n → K) (i : Fin n) (hl : p.limitInc = true) (h0 : 0 < p.maxInc) (h1 : p.maxInc ≤ 1)
    (hs0 : 0 ≤ p.safety) (hs1 : p.safety ≤ 1) (ho0 : 0 ≤ opt i) (ho1 : opt i ≤ p.gmax i) (g₀ : Fin n → K) (hg0 : 0 ≤ g₀ i)
    (hg1 : g₀ i ≤ p.gmax i) (k : Nat) :
    (fun g => newGain p g [] opt)^[k] g₀ i - p.safety * p.maxInc * opt i / (1 - p.safety * (1 - p.maxInc)) =
      (p.safety * (1 - p.maxInc)) ^ k * (g₀ i - p.safety * p.maxInc * opt i / (1 - p.safety * (1 - p.maxInc))) := by
  have hden : 1 - p.safety * (1 - p.maxInc) ≠ 0 := by
    have : p.safety * (1 - p.maxInc) ≤ 1 * (1 - p.maxInc) := mul_le_mul_of_nonneg_right hs1 (sub_nonneg.2 h1)
    have : 0 < 1 - p.safety * (1 - p.maxInc) := by linarith
    exact this.ne'
  suffices h : (0 ≤ (fun g => newGain p g [] opt)^[k] g₀ i ∧ (fun g => newGain p g [] opt)^[k] g₀ i ≤ p.gmax i) ∧
      (fun g => newGain p g [] opt)^[k] g₀ i - p.safety * p.maxInc * opt i / (1 - p.safety * (1 - p.maxInc)) =
      (p.safety * (1 - p.maxInc)) ^ k * (g₀ i - p.safety * p.maxInc * opt i / (1 - p.safety * (1 - p.maxInc))) from h.2
  induction k with
  | zero => exact ⟨⟨hg0, hg1⟩, by simp⟩
  | succ k ih =>
    obtain ⟨⟨ha, hb⟩, hc⟩ := ih
    rw [Function.iterate_succ_apply']
    have hstep := C35_increment p ((fun g => newGain p g [] opt)^[k] g₀) opt i hl h0.le h1 hs1 ha hb ho0 ho1
    refine ⟨⟨?_, newGain_le _ _ _ _ _⟩, ?_⟩
    · rw [hstep]
      apply mul_nonneg hs0
      have : ∀ x : K, x + p.maxInc * (opt i - x) = (1 - p.maxInc) * x + p.maxInc * opt i := by intro x; ring
      rw [this]
      exact add_nonneg (mul_nonneg (sub_nonneg.2 h1) ha) (mul_nonneg h0.le ho0)
    · have hpow : ∀ x : K, (p.safety * (1 - p.maxInc)) ^ (k + 1) * x = p.safety * (1 - p.maxInc) * ((p.safety * (1 - p.maxInc)) ^ k * x) := by
        intro x; rw [pow_succ]; ring
      rw [hstep, hpow, ← hc]
      field_simp
      ring

omit [LinearOrder K] [IsStrictOrderedRing K] in
/-- **C35** (pseudo open loop): when every measured residual is the disturbance minus the command of the previous iteration the
sequence used for the optimisation is the disturbance. -/
theorem C35_pseudo_open_loop (a comm : List K) (hlen : comm.length = a.length) :
    pseudoOpenLoop ((List.range a.length).map fun k => a.getD k 0 - if k = 0 then 0 else comm.getD (k - 1) 0) comm = a := by
  cases a with
  | nil => rfl
  | cons a as =>
    rw [List.length_cons, List.range_succ_eq_map]
    simp only [List.map_cons, List.map_map, pseudoOpenLoop, List.getD_cons_zero, if_true, sub_zero]
    congr 1
    apply List.ext_getElem
    · simp; simp at hlen; omega
    · intro j h1 h2
      simp at h1
      simp [h2, h1.1]

end

/-- When the first iteration is an optimisation one the optimiser sets all gains to one, above the maximum: here a filter of gain
1/2 and maximum gain 3/4. -/
theorem C35_first_iteration_sets_one :
    let p : GainOpt ℚ 1 := ⟨5, 1/2, true, 9/10, 20, fun _ => 3/4, fun _ _ x => x⟩
    (optRun p (OptState.init fun _ => 1/2) [⟨5, fun _ => 0, fun _ => 0, none⟩]).map (fun st => (st.filterGain 0, st.outTime)) =
      [(1, some 5)] ∧ p.gmax 0 < 1 := by
  constructor <;> decide +kernel

/-- A run that meets the hypotheses of `C35_bound`, and its gains. -/
example : let p : GainOpt ℚ 1 := ⟨2, 1/2, true, 9/10, 4, fun _ => 1, fun _ _ x => (x - 3/4) ^ 2⟩
    let es : List (OptEvent ℚ 1) := (List.range 7).map fun t => ⟨t + 1, fun _ => 1, fun _ => 0, none⟩
    (∀ e, es.head? = some e → ¬ OptTime p e) ∧
    (optRun p (OptState.init fun _ => 1/2) es).map (fun st => st.filterGain 0) =
      [1/2, 9/16, 9/16, 189/320, 189/320, 3861/6400, 3861/6400] := by
  constructor
  · intro e he
    simp [List.range_succ] at he
    subst he
    rintro ⟨h, _⟩
    simp at h
  · decide +kernel

/-! ### C36 -/

section
variable {K : Type} [Field K] [LinearOrder K] [IsStrictOrderedRing K]

omit [IsStrictOrderedRing K] in
/-- **C36** (bound): the published output never exceeds 1, is published in every iteration, and is the estimate limited to 1. -/
theorem C36_bound (gain tiny : K) (st : OgState K) (e : OgEvent K) :
    (ogStep gain tiny st e).out ≤ 1 ∧ (ogStep gain tiny st e).out = min (ogStep gain tiny st e).og 1 ∧
    (ogStep gain tiny st e).outTime = some e.time := ⟨min_le_right _ _, rfl, rfl⟩

omit [IsStrictOrderedRing K] in
/-- **C36** (updates): the estimate and its time change only in iterations with both inputs new and a command amplitude above the
threshold, and then it is multiplied by `1 - gain * (1 - ratio)`. -/
theorem C36_update (gain tiny : K) (st : OgState K) (e : OgEvent K) :
    ((ogStep gain tiny st e).og, (ogStep gain tiny st e).ogTime) =
      if e.deltaTime = e.time ∧ e.cmdTime = e.time ∧ tiny < |e.cmd| then (st.og * (1 - gain * (1 - e.delta / e.cmd)), some e.time)
      else (st.og, st.ogTime) := by
  unfold ogStep ogUpdate
  by_cases h1 : e.deltaTime = e.time ∧ e.cmdTime = e.time
  · by_cases h2 : tiny < |e.cmd|
    · simp only [h1, h2, and_self, if_true]
      congr 1
      ring
    · simp only [h1, h2, and_self, and_false, if_true, if_false]
  · have h3 : ¬(e.deltaTime = e.time ∧ e.cmdTime = e.time ∧ tiny < |e.cmd|) := fun h => h1 ⟨h.1, h.2.1⟩
    simp only [h1, h3, if_false]

/-- **C36** (direction): a positive estimate decreases when the ratio is below 1, increases when it is above and stays when they
are equal. -/
theorem C36_direction (gain tiny : K) (hg : 0 < gain) (st : OgState K) (hpos : 0 < st.og) (e : OgEvent K)
    (hf : e.deltaTime = e.time ∧ e.cmdTime = e.time ∧ tiny < |e.cmd|) :
    ((ogStep gain tiny st e).og < st.og ↔ e.delta / e.cmd < 1) ∧ (st.og < (ogStep gain tiny st e).og ↔ 1 < e.delta / e.cmd) ∧
    ((ogStep gain tiny st e).og = st.og ↔ e.delta / e.cmd = 1) := by
  have h := C36_update gain tiny st e
  rw [if_pos hf] at h
  have h := (Prod.mk.inj h).1
  rw [h]
  generalize e.delta / e.cmd = r
  have hm : 0 < st.og * gain := mul_pos hpos hg
  have e1 : st.og * (1 - gain * (1 - r)) = st.og - st.og * gain * (1 - r) := by ring
  rw [e1]
  refine ⟨?_, ?_, ?_⟩
  · rw [sub_lt_self_iff, mul_pos_iff_of_pos_left hm, sub_pos]
  · rw [lt_sub_iff_add_lt, ← sub_pos]
    constructor
    · intro h'
      by_contra hr
      have := mul_nonneg hm.le (sub_nonneg.2 (not_lt.1 hr))
      linarith
    · intro hr
      have := mul_pos hm (sub_pos.2 hr)
      linarith
  · rw [sub_eq_self, mul_eq_zero, sub_eq_zero]
    constructor
    · rintro (h' | h')
      · exact absurd h' hm.ne'
      · exact h'.symm
    · intro h'; exact Or.inr h'.symm

/-- A run in which the ratio measured by the sensor is the true optical gain over the estimate in use. -/
def CompensatedRun (gain tiny true₀ : K) (st : Nat → OgState K) (e : Nat → OgEvent K) : Prop :=
  ∀ k, st (k + 1) = ogStep gain tiny (st k) (e k) ∧ (e k).deltaTime = (e k).time ∧ (e k).cmdTime = (e k).time ∧ tiny < |(e k).cmd| ∧
    (e k).delta / (e k).cmd = true₀ / (st k).og

/-- **C36** (convergence): in a loop whose reconstruction is divided by the estimate, the estimate converges to the true optical
gain: the error is multiplied by `1 - gain` at each update, and the estimate stays positive. -/
theorem C36_converges (gain tiny true₀ : K) (hg0 : 0 < gain) (hg1 : gain ≤ 1) (ht : 0 < true₀) (st : Nat → OgState K)
    (e : Nat → OgEvent K) (h0 : 0 < (st 0).og) (hrun : CompensatedRun gain tiny true₀ st e) (k : Nat) :
    (st k).og - true₀ = (1 - gain) ^ k * ((st 0).og - true₀) ∧ 0 < (st k).og := by
  induction k with
  | zero => exact ⟨by simp, h0⟩
  | succ k ih =>
    obtain ⟨h1, h2, h3, h4, h5⟩ := hrun k
    have hu := C36_update gain tiny (st k) (e k)
    rw [if_pos ⟨h2, h3, h4⟩, ← h1] at hu
    have hu := (Prod.mk.inj hu).1
    have hne := ih.2.ne'
    have hval : (st (k + 1)).og = (1 - gain) * (st k).og + gain * true₀ := by
      rw [hu, h5]; field_simp; ring
    constructor
    · rw [hval, pow_succ, mul_comm (_ ^ k), mul_assoc, ← ih.1]; ring
    · rw [hval]
      exact add_pos_of_nonneg_of_pos (mul_nonneg (sub_nonneg.2 hg1) ih.2.le) (mul_pos hg0 ht)

end

/-- A compensated run: true optical gain 1/2, gain 1/2, starting from 1. -/
example : ∃ (st : Nat → OgState ℚ) (e : Nat → OgEvent ℚ), CompensatedRun (1/2) (1/10) (1/2) st e ∧ (st 0).og = 1 := by
  let rec_ : Nat → OgState ℚ := fun k => Nat.rec (OgState.init 1)
    (fun k st => ogStep (1/2) (1/10) st ⟨k, 1/2 / st.og, k, 1, k⟩) k
  refine ⟨rec_, fun k => ⟨k, 1/2 / (rec_ k).og, k, 1, k⟩, fun k => ⟨rfl, rfl, rfl, by norm_num, by simp⟩, rfl⟩

/-- With a fixed ratio below one the estimate does not settle on the ratio: it decreases in every update. -/
example : ((ogRun (1/2) (1/10) (OgState.init (1 : ℚ)) ((List.range 3).map fun t => ⟨t, 1/2, t, 1, t⟩)).og) = 27/64 := by decide +kernel

/-- The estimate itself is not limited. -/
example : (let st := ogStep (1/2) (1/10) (OgState.init (1 : ℚ)) ⟨1, 3, 1, 1, 1⟩; (st.og, st.out)) = (2, 1) := by decide +kernel

end Specula
