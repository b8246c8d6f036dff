import Verif.Model.Infinite
import Verif.Props.Float
/-
C63: an infinite screen blows past the pupil as one fixed screen.  C64: lines added on opposite sides follow the same law.
-/
namespace Specula

/-! ### Specification: one fixed screen -/

/-- Line `m` seen from the edge where old lines leave the screen, element `i` of it. -/
def lineOf (S : ℕ) (row after : Bool) (scrn : ℕ → ℕ → ℝ) (m i : ℕ) : ℝ :=
  let k := if after then m else S - 1 - m
  if row then scrn i k else scrn k i

/-- Which line, and which element of it, is pixel `(i, j)`. -/
def lineIdx (S : ℕ) (row after : Bool) (i j : ℕ) : ℕ :=
  let k := if row then j else i
  if after then k else S - 1 - k

def elemIdx (row : Bool) (i j : ℕ) : ℕ := if row then i else j

theorem lineOf_idx (S : ℕ) (row after : Bool) (scrn : ℕ → ℕ → ℝ) (i j : ℕ) (hi : i < S) (hj : j < S) :
    lineOf S row after scrn (lineIdx S row after i j) (elemIdx row i j) = scrn i j := by
  have h1 : S - 1 - (S - 1 - i) = i := by omega
  have h2 : S - 1 - (S - 1 - j) = j := by omega
  cases row <;> cases after <;> simp [lineOf, lineIdx, elemIdx, h1, h2]

theorem lineIdx_lt (S : ℕ) (row after : Bool) (i j : ℕ) (hi : i < S) (hj : j < S) : lineIdx S row after i j < S := by
  unfold lineIdx
  cases row <;> cases after <;> simp <;> omega

/-- A pushed line appears at the far edge, the others move by one. -/
theorem lineOf_push (S : ℕ) (row after : Bool) (scrn : ℕ → ℕ → ℝ) (line : ℕ → ℝ) (m i : ℕ) (hm : m < S) :
    lineOf S row after (pushLine S row after scrn line) m i = if m + 1 < S then lineOf S row after scrn (m + 1) i else line i := by
  cases row <;> cases after <;> simp only [lineOf, pushLine, Bool.false_eq_true, if_true, if_false]
  · by_cases h : m + 1 < S
    · rw [if_pos h, if_neg (by omega)]
      congr 1
    · rw [if_neg h, if_pos (by omega)]
  · by_cases h : m + 1 < S
    · rw [if_pos h, if_neg (by omega)]
      congr 1
    · rw [if_neg h, if_pos (by omega)]

/-! ### Screens after whole numbers of lines -/

/-- The screen after `k` lines on one side, the `k`-th with the `k`-th draw. -/
noncomputable def flowScreen (p : ScreenPar) (row after : Bool) (scrn : ℕ → ℕ → ℝ) : ℕ → ℕ → ℕ → ℝ
  | 0 => scrn
  | k + 1 => pushLine p.S row after (flowScreen p row after scrn k) (newLine p row after (flowScreen p row after scrn k) (p.rng k))

/-- The endless screen: the lines of the first one followed by all the lines that are added. -/
noncomputable def flowWorld (p : ScreenPar) (row after : Bool) (scrn : ℕ → ℕ → ℝ) (m i : ℕ) : ℝ :=
  if m < p.S then lineOf p.S row after scrn m i else lineOf p.S row after (flowScreen p row after scrn (m - p.S + 1)) (p.S - 1) i

theorem flow_window (p : ScreenPar) (row after : Bool) (scrn : ℕ → ℕ → ℝ) (k m i : ℕ) (hm : m < p.S) :
    lineOf p.S row after (flowScreen p row after scrn k) m i = flowWorld p row after scrn (k + m) i := by
  induction k generalizing m with
  | zero => simp [flowScreen, flowWorld, hm]
  | succ k ih =>
    by_cases h : m + 1 < p.S
    · rw [flowScreen, lineOf_push _ _ _ _ _ _ _ hm, if_pos h, ih _ h]
      congr 1; omega
    · have hm' : m = p.S - 1 := by omega
      unfold flowWorld
      rw [if_neg (by omega), hm']
      congr 2; omega

/-- The random numbers in store are those of the next line, or have not been drawn yet. -/
def FlowState (p : ScreenPar) (row after : Bool) (scrn : ℕ → ℕ → ℝ) (k : ℕ) (st : Screen) : Prop :=
  st.scrn = flowScreen p row after scrn k ∧ (if row then st.colData else st.rowData) = none ∧
  (((if row then st.rowData else st.colData) = none ∧ st.draws = k) ∨
   ((if row then st.rowData else st.colData) = some (p.rng k) ∧ st.draws = k + 1))

theorem flow_add (p : ScreenPar) (row after : Bool) (scrn : ℕ → ℕ → ℝ) (k : ℕ) (st : Screen) (h : FlowState p row after scrn k st) :
    FlowState p row after scrn (k + 1) (addLine p row after true st) ∧
    (addLine p row after false st).scrn = flowScreen p row after scrn (k + 1) ∧
    FlowState p row after scrn k { addLine p row after false st with scrn := st.scrn } := by
  obtain ⟨h1, h2, h3⟩ := h
  cases row
  · simp only [Bool.false_eq_true, if_false] at h2 h3
    rcases h3 with ⟨h3, h4⟩ | ⟨h3, h4⟩ <;>
      simp [FlowState, addLine, prepRandom, flowScreen, h1, h2, h3, h4]
  · simp only [if_true] at h2 h3
    rcases h3 with ⟨h3, h4⟩ | ⟨h3, h4⟩ <;>
      simp [FlowState, addLine, prepRandom, flowScreen, h1, h2, h3, h4]

theorem flow_adds (p : ScreenPar) (row after : Bool) (scrn : ℕ → ℕ → ℝ) (m k : ℕ) (st : Screen) (h : FlowState p row after scrn k st) :
    FlowState p row after scrn (k + m) (addLines p row after m st) := by
  induction m generalizing k st with
  | zero => exact h
  | succ m ih =>
    have := ih _ _ (flow_add p row after scrn k st h).1
    unfold addLines at this ⊢
    rw [Function.iterate_succ_apply]
    have e : k + (m + 1) = k + 1 + m := by omega
    rw [e]; exact this

/-! ### One trigger -/

/-- Direction of the flow as a sign. -/
def flowSign (after : Bool) : ℝ := if after then 1 else -1

theorem trunc_sign (after : Bool) (y : ℝ) (hy : 0 ≤ y) : truncPart (flowSign after * y) = if after then ⌊y⌋ else -⌊y⌋ := by
  unfold truncPart flowSign
  cases after
  · simp only [Bool.false_eq_true, if_false, neg_mul, one_mul, Left.neg_neg_iff, Int.ceil_neg, Int.floor_neg]
    split_ifs with h
    · rfl
    · have : y = 0 := le_antisymm (not_lt.1 h) hy
      rw [this]; simp
  · simp only [if_true, one_mul]
    rw [if_neg (not_lt.2 hy)]

/-- The phase shown when the screen has moved by `x` lines: between two neighbouring windows of the endless screen, or the nearest below if
the fraction is negligible. -/
noncomputable def flowPhase (p : ScreenPar) (eps : ℝ) (row after : Bool) (scrn : ℕ → ℕ → ℝ) (x : ℝ) (i j : ℕ) : ℝ :=
  let k := ⌊x⌋.toNat
  let f := Int.fract x
  let m := lineIdx p.S row after i j
  let e := elemIdx row i j
  if f ≤ eps then flowWorld p row after scrn (k + m) e
  else (1 - f) * flowWorld p row after scrn (k + m) e + f * flowWorld p row after scrn (k + 1 + m) e

theorem flow_step (p : ScreenPar) (eps : ℝ) (heps : 0 ≤ eps) (heps1 : eps < 1) (row after : Bool) (scrn : ℕ → ℕ → ℝ) (st : InfState)
    (x d : ℝ) (hx : 0 ≤ x) (hd : 0 ≤ d)
    (hst : FlowState p row after scrn ⌊x⌋.toNat st.screen)
    (haR : st.accR = if row then flowSign after * Int.fract x else 0) (haC : st.accC = if row then 0 else flowSign after * Int.fract x) :
    let r := infStep p eps (if row then flowSign after else 0) (if row then 0 else flowSign after) st d
    FlowState p row after scrn ⌊x + d⌋.toNat r.1.screen ∧
    r.1.accR = (if row then flowSign after * Int.fract (x + d) else 0) ∧ r.1.accC = (if row then 0 else flowSign after * Int.fract (x + d)) ∧
    ∀ i j, i < p.S → j < p.S → r.2 i j = flowPhase p eps row after scrn (x + d) i j := by
  intro r
  -- the movement in lines
  set y := d + Int.fract x with hy
  have hy0 : 0 ≤ y := add_nonneg hd (Int.fract_nonneg x)
  have hxy : x + d = ⌊x⌋ + y := by rw [hy]; have := Int.floor_add_fract x; linarith
  have hfl : ⌊x + d⌋ = ⌊x⌋ + ⌊y⌋ := by rw [hxy, Int.floor_intCast_add]
  have hfr : Int.fract (x + d) = Int.fract y := by rw [hxy, Int.fract_intCast_add]
  have hfx : 0 ≤ ⌊x⌋ := Int.floor_nonneg.2 hx
  have hfy : 0 ≤ ⌊y⌋ := Int.floor_nonneg.2 hy0
  have hk : ⌊x + d⌋.toNat = ⌊x⌋.toNat + ⌊y⌋.toNat := by omega
  have hz : truncPart (0 : ℝ) = 0 := by simp [truncPart]
  have hmov : d * flowSign after + flowSign after * Int.fract x = flowSign after * y := by rw [hy]; ring
  have htr := trunc_sign after y hy0
  have hfrac : flowSign after * y - (truncPart (flowSign after * y) : ℝ) = flowSign after * Int.fract y := by
    rw [htr]
    unfold flowSign
    have := Int.self_sub_floor y
    cases after
    · simp; linarith
    · simp
  have habs : |flowSign after * Int.fract y| = Int.fract y := by
    have h0 := Int.fract_nonneg y
    unfold flowSign
    cases after <;> simp [abs_of_nonneg h0]
  have hsgn : |flowSign after| = 1 := by unfold flowSign; cases after <;> simp
  have hsq : Real.sqrt ((flowSign after * Int.fract y) ^ 2) = Int.fract y := by rw [Real.sqrt_sq_eq_abs, habs]
  have hside : eps < Int.fract y → (decide (flowSign after * Int.fract y > 0)) = after := by
    intro h
    unfold flowSign
    have h0 : 0 < Int.fract y := lt_of_le_of_lt heps h
    cases after <;> simp [h0, h0.le]
  -- whole lines
  have hwhole : FlowState p row after scrn ⌊x + d⌋.toNat
      (addLines p row (decide (truncPart (flowSign after * y) > 0)) (truncPart (flowSign after * y)).natAbs st.screen) := by
    have hn : (truncPart (flowSign after * y)).natAbs = ⌊y⌋.toNat := by
      rw [htr]; cases after <;> simp <;> omega
    rw [hn, hk]
    rcases Nat.eq_zero_or_pos ⌊y⌋.toNat with h | h
    · rw [h]; exact hst
    · have : decide (truncPart (flowSign after * y) > 0) = after := by
        rw [htr]; cases after <;> simp <;> omega
      rw [this]
      exact flow_adds _ _ _ _ _ _ _ hst
  set s0 := addLines p row (decide (truncPart (flowSign after * y) > 0)) (truncPart (flowSign after * y)).natAbs st.screen with hs0
  -- the trigger in terms of these
  have hr : r = (InfState.mk { (if eps < Int.fract y then addLine p row after false s0 else s0 : Screen) with scrn := s0.scrn }
      (if row then flowSign after * Int.fract y else 0) (if row then 0 else flowSign after * Int.fract y),
      fun i j : ℕ => Int.fract y * (if eps < Int.fract y then addLine p row after false s0 else s0 : Screen).scrn i j
        + (1 - Int.fract y) * s0.scrn i j) := by
    simp only [r, infStep]
    cases row
    · simp only [Bool.false_eq_true, if_false] at haR haC hs0 ⊢
      simp only [haR, haC, mul_zero, add_zero, hz, Int.cast_zero, sub_zero, abs_zero, gt_iff_lt, not_lt.2 heps, if_false, hmov, hfrac,
        habs, hsgn, heps1, if_true, ne_eq, OfNat.ofNat_ne_zero, not_false_eq_true, zero_pow, zero_add, hsq]
      by_cases hc : eps < Int.fract y
      · have := hside hc
        simp only [gt_iff_lt] at this
        simp only [if_pos hc, this, hs0, gt_iff_lt]
      · simp only [if_neg hc, hs0, gt_iff_lt]
    · simp only [if_true] at haR haC hs0 ⊢
      simp only [haR, haC, mul_zero, add_zero, hz, Int.cast_zero, sub_zero, abs_zero, gt_iff_lt, not_lt.2 heps, if_false, hmov, hfrac,
        habs, hsgn, heps1, if_true, ne_eq, OfNat.ofNat_ne_zero, not_false_eq_true, zero_pow, hsq]
      by_cases hc : eps < Int.fract y
      · have := hside hc
        simp only [gt_iff_lt] at this
        simp only [if_pos hc, this, hs0, gt_iff_lt]
      · simp only [if_neg hc, hs0, gt_iff_lt]
  have hadd := flow_add p row after scrn _ s0 hwhole
  rw [hr, hfr]
  refine ⟨?_, rfl, rfl, fun i j hi hj => ?_⟩
  · by_cases hc : eps < Int.fract y
    · simp only [if_pos hc]; exact hadd.2.2
    · simp only [if_neg hc]; exact hwhole
  · have hw : ∀ k, flowScreen p row after scrn k i j = flowWorld p row after scrn (k + lineIdx p.S row after i j) (elemIdx row i j) := fun k => by
      rw [← flow_window _ _ _ _ _ _ _ (lineIdx_lt _ _ _ _ _ hi hj), lineOf_idx _ _ _ _ _ _ hi hj]
    unfold flowPhase
    dsimp only
    rw [hfr]
    by_cases hc : eps < Int.fract y
    · rw [if_neg (not_le.2 hc)]
      simp only [if_pos hc]
      rw [hadd.2.1, hwhole.1, hw, hw]
      ring
    · rw [if_pos (not_lt.1 hc)]
      simp only [if_neg hc]
      rw [hwhole.1, hw]; ring

/-! ### Whole runs -/

/-- Where the screen should be after the inputs of a list: the path of the wind, plus the extra time at the present speed, in pixels. -/
noncomputable def windPath (pitch extra : ℝ) (inps : List InfIn) : ℝ :=
  (inps.map fun inp => inp.wind * inp.dt).sum / pitch + ((inps.getLast?.map InfIn.wind).getD 0) * extra / pitch

/-- The inputs that have a fixed direction along an axis and never move the screen back. -/
def AlongAxis (pitch extra : ℝ) (row after : Bool) (inps : List InfIn) : Prop :=
  (∀ inp ∈ inps, inp.wy = (if row then flowSign after else 0) ∧ inp.wx = (if row then 0 else flowSign after)) ∧
  ∀ k, windPath pitch extra (inps.take k) ≤ windPath pitch extra (inps.take (k + 1))

theorem infRun_pos (p : ScreenPar) (eps pitch extra : ℝ) (scrn : ℕ → ℕ → ℝ) (inps : List InfIn) :
    (infRun p eps pitch extra scrn inps).2.pos = (inps.map fun inp => inp.wind * inp.dt).sum / pitch ∧
    (infRun p eps pitch extra scrn inps).2.eff = windPath pitch extra inps := by
  induction inps using List.reverseRecOn with
  | nil => simp [infRun, infInit, windPath]
  | append_singleton l a ih =>
    have e : infRun p eps pitch extra scrn (l ++ [a]) = (infTrigger p eps pitch extra (infRun p eps pitch extra scrn l) a).1 := by
      simp [infRun]
    rw [e]
    simp only [infTrigger, ih.1]
    simp [windPath, add_div]

/-- Frozen flow.  With the wind along an axis there is one endless screen, the same for all wind speeds and time steps, such that at every
trigger the layer is that screen displaced by the path of the wind, interpolated linearly between neighbouring lines. -/
theorem C63_frozen_flow (p : ScreenPar) (eps : ℝ) (heps : 0 ≤ eps) (heps1 : eps < 1) (row after : Bool) (scrn : ℕ → ℕ → ℝ) :
    ∃ W : ℕ → ℕ → ℝ,
      (∀ i j, i < p.S → j < p.S → W (lineIdx p.S row after i j) (elemIdx row i j) = scrn i j) ∧
      ∀ (pitch extra : ℝ) (inps : List InfIn) (inp : InfIn), AlongAxis pitch extra row after (inps ++ [inp]) →
        ∀ i j, i < p.S → j < p.S →
          let x := windPath pitch extra (inps ++ [inp])
          let m := ⌊x⌋.toNat + lineIdx p.S row after i j
          (infTrigger p eps pitch extra (infRun p eps pitch extra scrn inps) inp).2 i j = inp.scale *
            (if Int.fract x ≤ eps then W m (elemIdx row i j)
             else (1 - Int.fract x) * W m (elemIdx row i j) + Int.fract x * W (m + 1) (elemIdx row i j)) := by
  refine ⟨flowWorld p row after scrn, fun i j hi hj => ?_, fun pitch extra inps inp hax i j hi hj => ?_⟩
  · have hm := lineIdx_lt _ row after _ _ hi hj
    unfold flowWorld
    rw [if_pos hm, lineOf_idx _ _ _ _ _ _ hi hj]
  have h0 : windPath pitch extra ([] : List InfIn) = 0 := by simp [windPath]
  have hnn : ∀ (l : List InfIn), AlongAxis pitch extra row after l → ∀ k, 0 ≤ windPath pitch extra (l.take k) := by
    intro l hl k
    induction k with
    | zero => simp [h0]
    | succ k ih => exact ih.trans (hl.2 k)
  have hpre : ∀ (l : List InfIn) (a : InfIn), AlongAxis pitch extra row after (l ++ [a]) → AlongAxis pitch extra row after l := by
    intro l a h
    refine ⟨fun b hb => h.1 b (by simp [hb]), fun k => ?_⟩
    rcases Nat.lt_or_ge k l.length with hk | hk
    · have := h.2 k
      rwa [List.take_append_of_le_length hk.le, List.take_append_of_le_length hk] at this
    · rw [List.take_of_length_le hk, List.take_of_length_le (by omega)]
  have hstate : ∀ l : List InfIn, AlongAxis pitch extra row after l →
      FlowState p row after scrn ⌊windPath pitch extra l⌋.toNat (infRun p eps pitch extra scrn l).1.screen ∧
      (infRun p eps pitch extra scrn l).1.accR = (if row then flowSign after * Int.fract (windPath pitch extra l) else 0) ∧
      (infRun p eps pitch extra scrn l).1.accC = (if row then 0 else flowSign after * Int.fract (windPath pitch extra l)) ∧
      ∀ a, AlongAxis pitch extra row after (l ++ [a]) → ∀ i j, i < p.S → j < p.S →
        (infTrigger p eps pitch extra (infRun p eps pitch extra scrn l) a).2 i j
          = flowPhase p eps row after scrn (windPath pitch extra (l ++ [a])) i j * a.scale ∧
        FlowState p row after scrn ⌊windPath pitch extra (l ++ [a])⌋.toNat (infTrigger p eps pitch extra (infRun p eps pitch extra scrn l) a).1.1.screen := by
    intro l
    -- one trigger from a good state
    have step : ∀ (l : List InfIn) (a : InfIn), AlongAxis pitch extra row after (l ++ [a]) →
        FlowState p row after scrn ⌊windPath pitch extra l⌋.toNat (infRun p eps pitch extra scrn l).1.screen →
        (infRun p eps pitch extra scrn l).1.accR = (if row then flowSign after * Int.fract (windPath pitch extra l) else 0) →
        (infRun p eps pitch extra scrn l).1.accC = (if row then 0 else flowSign after * Int.fract (windPath pitch extra l)) →
        let t := infTrigger p eps pitch extra (infRun p eps pitch extra scrn l) a
        FlowState p row after scrn ⌊windPath pitch extra (l ++ [a])⌋.toNat t.1.1.screen ∧
        t.1.1.accR = (if row then flowSign after * Int.fract (windPath pitch extra (l ++ [a])) else 0) ∧
        t.1.1.accC = (if row then 0 else flowSign after * Int.fract (windPath pitch extra (l ++ [a]))) ∧
        ∀ i j, i < p.S → j < p.S → t.2 i j = flowPhase p eps row after scrn (windPath pitch extra (l ++ [a])) i j * a.scale := by
      intro l a hla h1 h2 h3 t
      have hp := infRun_pos p eps pitch extra scrn l
      have hp2 := infRun_pos p eps pitch extra scrn (l ++ [a])
      have he : infRun p eps pitch extra scrn (l ++ [a]) = (infTrigger p eps pitch extra (infRun p eps pitch extra scrn l) a).1 := by
        simp [infRun]
      have heff : (infRun p eps pitch extra scrn l).2.pos + a.wind * a.dt / pitch + a.wind * extra / pitch = windPath pitch extra (l ++ [a]) := by
        rw [← hp2.2, he]; rfl
      have hx : 0 ≤ windPath pitch extra l := by
        have := hnn l (hpre l a hla) l.length
        rwa [List.take_length] at this
      have hd : 0 ≤ windPath pitch extra (l ++ [a]) - windPath pitch extra l := by
        have := hla.2 l.length
        rw [List.take_append_of_le_length (le_refl _), List.take_length, List.take_of_length_le (by simp)] at this
        linarith
      have hs := flow_step p eps heps heps1 row after scrn (infRun p eps pitch extra scrn l).1 _ _ hx hd h1 h2 h3
      have hxd : windPath pitch extra l + (windPath pitch extra (l ++ [a]) - windPath pitch extra l) = windPath pitch extra (l ++ [a]) := by ring
      rw [hxd] at hs
      have ht : t = ((( infStep p eps a.wy a.wx (infRun p eps pitch extra scrn l).1 (windPath pitch extra (l ++ [a]) - windPath pitch extra l)).1,
          ⟨(infRun p eps pitch extra scrn l).2.pos + a.wind * a.dt / pitch, windPath pitch extra (l ++ [a])⟩),
          fun i j => (infStep p eps a.wy a.wx (infRun p eps pitch extra scrn l).1 (windPath pitch extra (l ++ [a]) - windPath pitch extra l)).2 i j * a.scale) := by
        simp only [t, infTrigger, heff, hp.2]
      have hw := hla.1 a (by simp)
      rw [ht, hw.1, hw.2]
      exact ⟨hs.1, hs.2.1, hs.2.2.1, fun i j hi hj => by simp only [hs.2.2.2 i j hi hj]⟩
    induction l using List.reverseRecOn with
    | nil =>
      intro _
      have hb : FlowState p row after scrn ⌊windPath pitch extra ([] : List InfIn)⌋.toNat (infRun p eps pitch extra scrn []).1.screen := by
        rw [h0]; cases row <;> simp [FlowState, infRun, infInit, flowScreen]
      have hr : (infRun p eps pitch extra scrn []).1.accR = (if row then flowSign after * Int.fract (windPath pitch extra ([] : List InfIn)) else 0) := by
        rw [h0]; simp [infRun, infInit]
      have hc : (infRun p eps pitch extra scrn []).1.accC = (if row then 0 else flowSign after * Int.fract (windPath pitch extra ([] : List InfIn))) := by
        rw [h0]; simp [infRun, infInit]
      exact ⟨hb, hr, hc, fun a ha i j hi hj => ⟨(step [] a ha hb hr hc).2.2.2 i j hi hj, (step [] a ha hb hr hc).1⟩⟩
    | append_singleton l b ih =>
      intro hl
      obtain ⟨g1, g2, g3, -⟩ := ih (hpre l b hl)
      have hs := step l b hl g1 g2 g3
      have he : infRun p eps pitch extra scrn (l ++ [b]) = (infTrigger p eps pitch extra (infRun p eps pitch extra scrn l) b).1 := by
        simp [infRun]
      have q1 := hs.1
      have q2 := hs.2.1
      have q3 := hs.2.2.1
      rw [← he] at q1 q2 q3
      exact ⟨q1, q2, q3, fun a ha i j hi hj => ⟨(step (l ++ [b]) a ha q1 q2 q3).2.2.2 i j hi hj, (step (l ++ [b]) a ha q1 q2 q3).1⟩⟩
  have := ((hstate inps (hpre inps inp hax)).2.2.2 inp hax i j hi hj).1
  simp only
  rw [this, mul_comm]
  congr 1
  unfold flowPhase
  dsimp only
  congr 3
  congr 1; omega

-- Wind of 10 m/s and then 20 m/s with steps of 1 ms and pixels of 1 cm: displacements 1 and 3.
example : AlongAxis (1/100) 0 true true [⟨10, 1/1000, 1, 0, 1⟩, ⟨20, 1/1000, 1, 0, 1⟩] ∧
    windPath (1/100) 0 [⟨10, 1/1000, 1, 0, 1⟩, ⟨20, 1/1000, 1, 0, 1⟩] = 3 := by
  refine ⟨⟨by simp [flowSign], fun k => ?_⟩, by norm_num [windPath]⟩
  rcases k with _ | _ | k <;> norm_num [windPath]

/-! ### Any direction: lines and fractions account for the whole path -/

/-- Lines added on the two axes by a trigger, counted with their sign. -/
noncomputable def linesAdded (eps w acc d : ℝ) : ℤ := if |w| > eps then truncPart (d * w + acc) else 0

theorem truncPart_frac (x : ℝ) : |x - (truncPart x : ℝ)| < 1 ∧ (0 ≤ x → 0 ≤ x - (truncPart x : ℝ)) ∧ (x ≤ 0 → x - (truncPart x : ℝ) ≤ 0) := by
  unfold truncPart
  split_ifs with h
  · have h1 := Int.le_ceil x
    have h2 := Int.ceil_lt_add_one x
    exact ⟨by rw [abs_lt]; constructor <;> linarith, fun h' => by linarith, fun _ => by linarith⟩
  · have h1 := Int.floor_le x
    have h2 := Int.lt_floor_add_one x
    refine ⟨by rw [abs_lt]; constructor <;> linarith, fun _ => by linarith, fun h' => ?_⟩
    have : x = 0 := le_antisymm h' (not_lt.1 h)
    rw [this]; simp

/-- No drift: whatever the directions of the wind, the lines added along an axis and the fraction kept make the whole displacement along
that axis, and the fraction is less than one line.  (Components below `eps` add no lines: that part of the path is lost.) -/
theorem C63_no_drift (p : ScreenPar) (eps : ℝ) (w : List (ℝ × ℝ × ℝ)) (st : InfState)
    (hw : ∀ c ∈ w, eps < |c.1| ∧ eps < |c.2.1|) (haR : |st.accR| < 1) (haC : |st.accC| < 1) :
    let run := fun (s : InfState × ℤ × ℤ) (c : ℝ × ℝ × ℝ) =>
      ((infStep p eps c.1 c.2.1 s.1 c.2.2).1, s.2.1 + linesAdded eps c.1 s.1.accR c.2.2, s.2.2 + linesAdded eps c.2.1 s.1.accC c.2.2)
    let e := w.foldl run (st, 0, 0)
    (e.2.1 : ℝ) + e.1.accR = st.accR + (w.map fun c => c.2.2 * c.1).sum ∧
    (e.2.2 : ℝ) + e.1.accC = st.accC + (w.map fun c => c.2.2 * c.2.1).sum ∧ |e.1.accR| < 1 ∧ |e.1.accC| < 1 := by
  intro run e
  simp only [e]
  induction w using List.reverseRecOn with
  | nil => simp [haR, haC]
  | append_singleton l c ih =>
    obtain ⟨h1, h2, h3, h4⟩ := ih fun x hx => hw x (by simp [hx])
    rw [List.foldl_append, List.foldl_cons, List.foldl_nil]
    set q := List.foldl run (st, 0, 0) l
    have hc := hw c (by simp)
    have eR : (run q c).1.accR = c.2.2 * c.1 + q.1.accR - (truncPart (c.2.2 * c.1 + q.1.accR) : ℝ) := rfl
    have eC : (run q c).1.accC = c.2.2 * c.2.1 + q.1.accC - (truncPart (c.2.2 * c.2.1 + q.1.accC) : ℝ) := rfl
    have lR : (run q c).2.1 = q.2.1 + truncPart (c.2.2 * c.1 + q.1.accR) := by
      simp only [run, linesAdded, gt_iff_lt, hc.1, if_true]
    have lC : (run q c).2.2 = q.2.2 + truncPart (c.2.2 * c.2.1 + q.1.accC) := by
      simp only [run, linesAdded, gt_iff_lt, hc.2, if_true]
    refine ⟨?_, ?_, ?_, ?_⟩
    · rw [eR, lR, List.map_append, List.sum_append]
      push_cast
      simp only [List.map_cons, List.map_nil, List.sum_cons, List.sum_nil]
      linarith
    · rw [eC, lC, List.map_append, List.sum_append]
      push_cast
      simp only [List.map_cons, List.map_nil, List.sum_cons, List.sum_nil]
      linarith
    · rw [eR]; exact (truncPart_frac _).1
    · rw [eC]; exact (truncPart_frac _).1

/-! ### Where oblique winds and two propagation directions fail -/

/-- A screen of one pixel where each line is one higher than the one before: its phase is the displacement. -/
noncomputable def rampPar : ScreenPar := ⟨1, 1, fun _ => [(0, 0)], fun _ _ _ => 1, fun _ _ => 1, fun _ _ => 1⟩

theorem ramp_push (row after : Bool) (scrn : ℕ → ℕ → ℝ) : pushLine 1 row after scrn (newLine rampPar row after scrn fun _ => 1) 0 0 = scrn 0 0 + 1 := by
  cases row <;> cases after <;> simp [pushLine, newLine, stencilData, rampPar]

/-- The random numbers of the ramp are all one. -/
def RampOk (st : Screen) : Prop := (∀ r, st.rowData = some r → r = fun _ => 1) ∧ (∀ r, st.colData = some r → r = fun _ => 1)

theorem ramp_add (row after flush : Bool) (st : Screen) (h : RampOk st) :
    RampOk (addLine rampPar row after flush st) ∧ (addLine rampPar row after flush st).scrn 0 0 = st.scrn 0 0 + 1 := by
  obtain ⟨scrn, draws, col, rw'⟩ := st
  have hp := ramp_push row after scrn
  have hrng : ∀ n, rampPar.rng n = fun _ => 1 := fun n => rfl
  have hS : rampPar.S = 1 := rfl
  obtain ⟨h1, h2⟩ := h
  simp only at h1 h2
  cases row <;> cases rw' <;> cases col <;> cases flush <;>
    simp_all [addLine, prepRandom, RampOk]

theorem ramp_adds (row after : Bool) (m : ℕ) (st : Screen) (h : RampOk st) :
    RampOk (addLines rampPar row after m st) ∧ (addLines rampPar row after m st).scrn 0 0 = st.scrn 0 0 + m := by
  induction m generalizing st with
  | zero => simp [addLines, h]
  | succ m ih =>
    have := ih _ (ramp_add row after true st h).1
    unfold addLines at this ⊢
    rw [Function.iterate_succ_apply]
    refine ⟨this.1, ?_⟩
    rw [this.2, (ramp_add row after true st h).2]; push_cast; ring

/-- With an oblique wind the weight of the displaced screen exceeds one: after 9/8 of a line at a direction with cosine 3/5 there is one
preview line on each axis, so the next screen is two higher, and the phase is beyond it. -/
theorem C63_oblique_extrapolates (eps : ℝ) (heps : 0 ≤ eps ∧ eps < 1/2) (scrn : ℕ → ℕ → ℝ) (h0 : scrn 0 0 = 0) :
    (infStep rampPar eps (3/5) (4/5) ⟨⟨scrn, 0, none, none⟩, 0, 0⟩ (9/8)).2 0 0 = 9/4 := by
  have ht : truncPart ((9/8 : ℝ) * (3/5) + 0) = 0 := by
    unfold truncPart
    rw [if_neg (by norm_num), Int.floor_eq_zero_iff]
    constructor <;> norm_num
  have ht2 : truncPart ((9/8 : ℝ) * (4/5) + 0) = 0 := by
    unfold truncPart
    rw [if_neg (by norm_num), Int.floor_eq_zero_iff]
    constructor <;> norm_num
  have hok : RampOk ⟨scrn, 0, none, none⟩ := ⟨by simp, by simp⟩
  have a1 := ramp_add true true false _ hok
  have a2 := ramp_add false true false _ a1.1
  have he : (eps < 3/5) := by linarith [heps.2]
  have he2 : (eps < 4/5) := by linarith [heps.2]
  have he3 : (eps < 27/40) := by linarith [heps.2]
  have he4 : (eps < 9/10) := by linarith [heps.2]
  have hs : Real.sqrt (81/64) = 9/8 := by
    rw [show (81/64 : ℝ) = (9/8) ^ 2 by norm_num, Real.sqrt_sq (by norm_num)]
  have e1 : (9/8 * (3/5) + 0 - ((0 : ℤ) : ℝ) : ℝ) = 27/40 := by norm_num
  have e2 : (9/8 * (4/5) + 0 - ((0 : ℤ) : ℝ) : ℝ) = 9/10 := by norm_num
  have e3 : ((27/40 : ℝ) ^ 2 + (9/10) ^ 2) = 81/64 := by norm_num
  have d1 : decide ((27/40 : ℝ) > 0) = true := by norm_num
  have d2 : decide ((9/10 : ℝ) > 0) = true := by norm_num
  have b1 : |(27/40 : ℝ)| > eps := by rw [abs_of_pos (by norm_num)]; exact he3
  have b2 : |(9/10 : ℝ)| > eps := by rw [abs_of_pos (by norm_num)]; exact he4
  simp only [infStep, ht, ht2, e1, e2, e3, hs, d1, d2, if_pos b1, if_pos b2, Int.natAbs_zero, addLines, Function.iterate_zero, id_eq,
    ite_self, a2.2, a1.2, h0]
  norm_num

/-- A whole number of lines on the ramp. -/
theorem ramp_whole (eps : ℝ) (heps : 0 ≤ eps ∧ eps < 1) (st : Screen) (h : RampOk st) (m : ℕ) :
    let r := infStep rampPar eps 1 0 ⟨st, 0, 0⟩ m
    RampOk r.1.screen ∧ r.1.screen.scrn 0 0 = st.scrn 0 0 + m ∧ r.1.accR = 0 ∧ r.1.accC = 0 ∧ r.2 0 0 = st.scrn 0 0 + m := by
  intro r
  have ht : truncPart ((m : ℝ) * 1 + 0) = m := by
    unfold truncPart
    rw [mul_one, add_zero, if_neg (by simp)]; simp
  have ht0 : truncPart ((m : ℝ) * 0 + 0) = 0 := by simp [truncPart]
  have e1 : ((m : ℝ) * 1 + 0 - ((m : ℤ) : ℝ)) = 0 := by simp
  have e2 : ((m : ℝ) * 0 + 0 - ((0 : ℤ) : ℝ)) = 0 := by simp
  have n0 : ¬ |(0 : ℝ)| > eps := by simp [heps.1]
  have n1 : |(1 : ℝ)| > eps := by simp [heps.2]
  have ha := ramp_adds true (decide ((m : ℤ) > 0)) m st h
  simp only [r, infStep, ht, ht0, e1, e2, if_neg n0, if_pos n1, Int.natAbs_natCast]
  refine ⟨ha.1, ha.2, trivial, trivial, ?_⟩
  rw [ha.2]; ring

/-- Wind of one line per step along the first axis. -/
def rampWind : InfIn := ⟨1, 1, 1, 0, 1⟩

/-- The states of a run of the two-way evolution on the ramp. -/
noncomputable def rampUpDown (eps extraD extraU : ℝ) (scrn : ℕ → ℕ → ℝ) (n : ℕ) : UpDown :=
  (fun st => (upDownTrigger rampPar eps 1 extraD extraU st rampWind).1)^[n] (upDownInit scrn)

/-- The two layers at step `n + 1`. -/
noncomputable def rampLayers (eps extraD extraU : ℝ) (scrn : ℕ → ℕ → ℝ) (n : ℕ) : ℝ × ℝ :=
  let o := (upDownTrigger rampPar eps 1 extraD extraU (rampUpDown eps extraD extraU scrn n) rampWind).2
  (o.1 0 0, o.2 0 0)

/-- The upward layer is in the wrong place.  With an upward delay of `u` steps it should be at displacement `n + 1 + u`; it is one step
ahead of the downward layer instead, whatever `u` (and `u + 1` steps ahead at the first step). -/
theorem C63_up_layer_wrong (eps : ℝ) (heps : 0 ≤ eps ∧ eps < 1) (u : ℕ) (scrn : ℕ → ℕ → ℝ) (h0 : scrn 0 0 = 0) (n : ℕ) :
    rampLayers eps 0 u scrn n = ((n + 1 : ℝ), if n = 0 then (2 + u : ℝ) else n + 2) := by
  have key : ∀ n : ℕ, let st := rampUpDown eps 0 u scrn n
      RampOk st.screen ∧ st.screen.scrn 0 0 = n ∧ st.accD = (0, 0) ∧ st.accU = (0, 0) ∧ st.posD = ⟨n, n⟩ ∧ st.posU = ⟨n, if n = 0 then 0 else n + u⟩ ∧
      rampLayers eps 0 u scrn n = ((n + 1 : ℝ), if n = 0 then (2 + u : ℝ) else n + 2) := by
    intro n
    have step : ∀ (n : ℕ) (st : UpDown), RampOk st.screen → st.screen.scrn 0 0 = n → st.accD = (0, 0) → st.accU = (0, 0) → st.posD = ⟨n, n⟩ →
        st.posU = ⟨n, if n = 0 then 0 else n + u⟩ →
        let t := upDownTrigger rampPar eps 1 0 u st rampWind
        RampOk t.1.screen ∧ t.1.screen.scrn 0 0 = (n + 1 : ℕ) ∧ t.1.accD = (0, 0) ∧ t.1.accU = (0, 0) ∧ t.1.posD = ⟨(n + 1 : ℕ), (n + 1 : ℕ)⟩ ∧
        t.1.posU = ⟨(n + 1 : ℕ), if n + 1 = 0 then 0 else (n + 1 : ℕ) + u⟩ ∧
        (t.2.1 0 0, t.2.2 0 0) = ((n + 1 : ℝ), if n = 0 then (2 + u : ℝ) else n + 2) := by
      intro n st h1 h2 h3 h4 h5 h6 t
      have w1 := ramp_whole eps heps st.screen h1 1
      simp only [Nat.cast_one] at w1
      have hd : (n : ℝ) + 1 * 1 / 1 + 1 * 0 / 1 - n = 1 := by ring
      have hu : (n : ℝ) + 1 * 1 / 1 + 1 * u / 1 - (if n = 0 then 0 else (n : ℝ) + u) = ((if n = 0 then 1 + u else 1 : ℕ) : ℝ) := by
        by_cases hn : n = 0
        · subst hn; simp
        · simp only [if_neg hn]; push_cast; ring
      have w2 := ramp_whole eps heps (infStep rampPar eps 1 0 ⟨st.screen, 0, 0⟩ 1).1.screen w1.1 (if n = 0 then 1 + u else 1)
      have ht : t = upDownTrigger rampPar eps 1 0 u st rampWind := rfl
      simp only [upDownTrigger, infTrigger, rampWind, h3, h4, h5, h6, hd, hu, if_pos (Nat.cast_nonneg u : (0 : ℝ) ≤ (u : ℝ)),
        w1.2.2.1, w1.2.2.2.1, w2.2.2.1, w2.2.2.2.1] at ht
      rw [ht]
      refine ⟨w1.1, ?_, rfl, rfl, ?_, ?_, ?_⟩
      · have := w1.2.1
        rw [h2] at this
        push_cast; exact this
      · simp
      · simp
      · simp only [w1.2.2.2.2, w2.2.2.2.2, w1.2.1, h2]
        by_cases hn : n = 0
        · subst hn; simp; ring
        · simp only [if_neg hn, Prod.mk.injEq]; constructor <;> (push_cast; ring)
    have hinv : ∀ n : ℕ, let st := rampUpDown eps 0 u scrn n
        RampOk st.screen ∧ st.screen.scrn 0 0 = n ∧ st.accD = (0, 0) ∧ st.accU = (0, 0) ∧ st.posD = ⟨n, n⟩ ∧
        st.posU = ⟨n, if n = 0 then 0 else n + u⟩ := by
      intro n
      induction n with
      | zero => simp [rampUpDown, upDownInit, RampOk, h0]
      | succ n ih =>
        obtain ⟨h1, h2, h3, h4, h5, h6⟩ := ih
        have := step n _ h1 h2 h3 h4 h5 h6
        unfold rampUpDown at this ⊢
        rw [Function.iterate_succ_apply']
        exact ⟨this.1, this.2.1, this.2.2.1, this.2.2.2.1, this.2.2.2.2.1, this.2.2.2.2.2.1⟩
    obtain ⟨h1, h2, h3, h4, h5, h6⟩ := hinv n
    exact ⟨h1, h2, h3, h4, h5, h6, (step n _ h1 h2 h3 h4 h5 h6).2.2.2.2.2.2⟩
  exact (key n).2.2.2.2.2.2

/-- With a longer downward delay, both passes move the same screen for good: the downward layer moves at twice the speed of the wind. -/
theorem C63_double_speed (eps : ℝ) (heps : 0 ≤ eps ∧ eps < 1) (u : ℕ) (scrn : ℕ → ℕ → ℝ) (h0 : scrn 0 0 = 0) (n : ℕ) :
    (rampLayers eps (u + 1) 0 scrn n).1 = 2 * (n + 1) + (u + 1) := by
  have step : ∀ (n : ℕ) (st : UpDown), RampOk st.screen → st.screen.scrn 0 0 = (if n = 0 then 0 else 2 * n + (u + 1) : ℕ) → st.accD = (0, 0) →
      st.accU = (0, 0) → st.posU = ⟨n, n⟩ → st.posD = ⟨n, if n = 0 then 0 else n + (u + 1)⟩ →
      let t := upDownTrigger rampPar eps 1 (u + 1) 0 st rampWind
      RampOk t.1.screen ∧ t.1.screen.scrn 0 0 = (if n + 1 = 0 then 0 else 2 * (n + 1) + (u + 1) : ℕ) ∧ t.1.accD = (0, 0) ∧ t.1.accU = (0, 0) ∧
      t.1.posU = ⟨(n + 1 : ℕ), (n + 1 : ℕ)⟩ ∧
      t.1.posD = ⟨(n + 1 : ℕ), if n + 1 = 0 then 0 else (n + 1 : ℕ) + (u + 1)⟩ ∧ t.2.1 0 0 = 2 * (n + 1) + (u + 1) := by
    intro n st h1 h2 h3 h4 h5 h6 t
    have w1 := ramp_whole eps heps st.screen h1 1
    simp only [Nat.cast_one] at w1
    have hd : (n : ℝ) + 1 * 1 / 1 + 1 * 0 / 1 - n = 1 := by ring
    have hu : (n : ℝ) + 1 * 1 / 1 + 1 * (u + 1) / 1 - (if n = 0 then 0 else (n : ℝ) + (u + 1)) = ((if n = 0 then 2 + u else 1 : ℕ) : ℝ) := by
      by_cases hn : n = 0
      · subst hn; simp; ring
      · simp only [if_neg hn]; push_cast; ring
    have w2 := ramp_whole eps heps (infStep rampPar eps 1 0 ⟨st.screen, 0, 0⟩ 1).1.screen w1.1 (if n = 0 then 2 + u else 1)
    have hneg : ¬ ((u : ℝ) + 1 ≤ 0) := by have := Nat.cast_nonneg (α := ℝ) u; linarith
    have ht : t = upDownTrigger rampPar eps 1 (u + 1) 0 st rampWind := rfl
    simp only [upDownTrigger, infTrigger, rampWind, h3, h4, h5, h6, hd, hu, if_neg hneg,
      w1.2.2.1, w1.2.2.2.1, w2.2.2.1, w2.2.2.2.1] at ht
    rw [ht]
    have hval : (((if n = 0 then 0 else 2 * n + (u + 1) : ℕ) : ℝ) + 1 + ((if n = 0 then 2 + u else 1 : ℕ) : ℝ)) = 2 * (n + 1) + (u + 1) := by
      by_cases hn : n = 0
      · subst hn; simp; ring
      · simp only [if_neg hn]; push_cast; ring
    refine ⟨w2.1, ?_, rfl, rfl, ?_, ?_, ?_⟩
    · have := w2.2.1
      rw [w1.2.1, h2, hval] at this
      rw [if_neg (Nat.succ_ne_zero n), show ((2 * (n + 1) + (u + 1) : ℕ) : ℝ) = 2 * (n + 1) + (u + 1) by push_cast; ring]
      exact this
    · simp
    · simp
    · have := w2.2.2.2.2
      rw [w1.2.1, h2, hval] at this
      simp only [this, mul_one]
  have hinv : ∀ n : ℕ, let st := rampUpDown eps (u + 1) 0 scrn n
      RampOk st.screen ∧ st.screen.scrn 0 0 = (if n = 0 then 0 else 2 * n + (u + 1) : ℕ) ∧ st.accD = (0, 0) ∧ st.accU = (0, 0) ∧ st.posU = ⟨n, n⟩ ∧
      st.posD = ⟨n, if n = 0 then 0 else n + (u + 1)⟩ := by
    intro n
    induction n with
    | zero => simp [rampUpDown, upDownInit, RampOk, h0]
    | succ n ih =>
      obtain ⟨h1, h2, h3, h4, h5, h6⟩ := ih
      have := step n _ h1 h2 h3 h4 h5 h6
      unfold rampUpDown at this ⊢
      rw [Function.iterate_succ_apply']
      exact ⟨this.1, this.2.1, this.2.2.1, this.2.2.2.1, this.2.2.2.2.1, this.2.2.2.2.2.1⟩
  obtain ⟨h1, h2, h3, h4, h5, h6⟩ := hinv n
  exact (step n _ h1 h2 h3 h4 h5 h6).2.2.2.2.2.2

/-! ### Scaling -/

/-- The phase is proportional to the seeing to the power 5/6, whatever the airmass, and zero without seeing. -/
theorem C63_seeing (airmass : ℝ) (ha : 0 < airmass) (seeing : ℝ) :
    infScale airmass seeing = (if seeing > 0 then seeing ^ (5 / 6 : ℝ) else 0) * (500 / (2 * Real.pi)) := by
  unfold infScale
  simp only
  congr 1
  split_ifs with h
  · congr 1
    have h1 : (airmass ^ (-3 / 5 : ℝ)) ≠ 0 := (Real.rpow_pos_of_pos ha _).ne'
    have h2 : (500 / 500 : ℝ) ^ (6 / 5 : ℝ) = 1 := by norm_num
    rw [h2]
    field_simp
  · rfl

/-! ### C64: the two sides -/

theorem log2_pow_succ (m : ℕ) (hm : 0 < m) : Nat.log2 (2 ^ m + 1) = m := by
  rw [Nat.log2_eq_log_two, Nat.log_eq_iff (Or.inl (by omega))]
  refine ⟨by omega, ?_⟩
  rw [pow_succ]
  have : 2 ≤ 2 ^ m := by calc 2 = 2 ^ 1 := rfl
    _ ≤ 2 ^ m := Nat.pow_le_pow_right (by norm_num) hm
  omega

/-- The size of the stencil is always a power of two plus one. -/
theorem stencilSize_eq (k : ℕ) : stencilSize k = 2 ^ (max k 8) + 1 ∧ mxSize k ≤ stencilSize k := by
  unfold stencilSize mxSize
  rcases Nat.lt_or_ge k 8 with h | h
  · rw [Nat.max_eq_right (by omega : k ≤ 8)]
    have h7 : k = 0 ∨ k = 1 ∨ k = 2 ∨ k = 3 ∨ k = 4 ∨ k = 5 ∨ k = 6 ∨ k = 7 := by omega
    rcases h7 with h | h | h | h | h | h | h | h <;> subst h <;> decide
  · rw [Nat.max_eq_left h]
    obtain ⟨q, rfl⟩ := Nat.exists_eq_add_of_le h
    have hp : 2 ^ (8 + q) = 2 ^ q * 256 := by rw [pow_add]; ring
    have : 0 < 2 ^ q := by positivity
    rw [hp]; omega

/-- The head of the stencil at level `lvl` has the multiples of `2 ^ lvl`. -/
theorem mem_headPoints (m lvl j : ℕ) (hl : lvl ≤ m) : j ∈ headPoints (2 ^ m + 1) m lvl ↔ 2 ^ lvl ∣ j ∧ j ≤ 2 ^ m := by
  have hpt : ∀ i : ℕ, (roundEven ((i : ℚ) * (((2 ^ m + 1 - 1 : ℕ) : ℚ) / ((2 ^ (m - lvl) : ℕ) : ℚ)))).toNat = i * 2 ^ lvl := by
    intro i
    have : (i : ℚ) * (((2 ^ m + 1 - 1 : ℕ) : ℚ) / ((2 ^ (m - lvl) : ℕ) : ℚ)) = ((i * 2 ^ lvl : ℤ) : ℚ) := by
      rw [Nat.add_sub_cancel]
      have hm : (2 : ℕ) ^ m = 2 ^ lvl * 2 ^ (m - lvl) := by rw [← pow_add]; congr 1; omega
      rw [hm]
      push_cast
      field_simp
    rw [this, roundEven_int]
    have : (i * 2 ^ lvl : ℤ) = ((i * 2 ^ lvl : ℕ) : ℤ) := by push_cast; rfl
    rw [this, Int.toNat_natCast]
  unfold headPoints
  simp only [hpt, List.mem_map, List.mem_range]
  have hm : (2 : ℕ) ^ m = 2 ^ (m - lvl) * 2 ^ lvl := by rw [← pow_add]; congr 1; omega
  constructor
  · rintro ⟨i, hi, rfl⟩
    refine ⟨Dvd.intro_left i rfl, ?_⟩
    rw [hm]; exact Nat.mul_le_mul_right _ (by omega)
  · rintro ⟨⟨i, rfl⟩, h⟩
    refine ⟨i, ?_, by ring⟩
    rw [hm, mul_comm] at h
    have := Nat.le_of_mul_le_mul_right h (by positivity)
    omega

/-- The second stencil is the first one turned by 180 degrees. -/
theorem stencil_turned (k : ℕ) (c : ℕ × ℕ) (h1 : c.1 < stencilSize k) (h2 : c.2 < stencilSize k) :
    inStencilF (stencilSize k) (mxSize k) (stencilSize k - 1 - c.1, stencilSize k - 1 - c.2) = inStencil (stencilSize k) (mxSize k) c := by
  obtain ⟨hS, hmx⟩ := stencilSize_eq k
  set m := max k 8 with hm
  have hm0 : 0 < m := by omega
  have hlog : Nat.log2 (stencilSize k) = m := by rw [hS]; exact log2_pow_succ m hm0
  have hline : ∀ lvl, lvl ≤ m → headLine lvl ≤ 2 ^ m := by
    intro lvl hl
    unfold headLine
    split_ifs
    · exact Nat.zero_le _
    · exact Nat.pow_le_pow_right (by norm_num) (by omega)
  have hmx0 : 0 < mxSize k := Nat.succ_pos _
  have hev : 2 ^ m = 2 * 2 ^ (m - 1) := by rw [← pow_succ']; congr 1; omega
  rw [Bool.eq_iff_iff]
  unfold inStencilF inStencil
  rw [hlog, hS]
  rw [hS] at h1 h2 hmx
  simp only [Bool.or_eq_true, List.any_eq_true, List.mem_range, Bool.and_eq_true, beq_iff_eq, List.contains_iff_mem]
  have hsym : ∀ lvl, lvl ≤ m → (2 ^ m + 1 - 1 - c.2 ∈ headPoints (2 ^ m + 1) m lvl ↔ c.2 ∈ headPoints (2 ^ m + 1) m lvl) := by
    intro lvl hl
    rw [mem_headPoints _ _ _ hl, mem_headPoints _ _ _ hl]
    have hd : 2 ^ lvl ∣ 2 ^ m := pow_dvd_pow 2 hl
    constructor
    · rintro ⟨a, b⟩
      refine ⟨?_, by omega⟩
      have := Nat.dvd_sub hd a
      rwa [show 2 ^ m - (2 ^ m + 1 - 1 - c.2) = c.2 by omega] at this
    · rintro ⟨a, b⟩
      refine ⟨?_, by omega⟩
      rw [Nat.add_sub_cancel]; exact Nat.dvd_sub hd a
  refine or_congr ?_ ?_
  · refine exists_congr fun lvl => and_congr_right fun hl => and_congr ?_ (hsym lvl (by omega))
    have := hline lvl (by omega)
    omega
  · omega

/-- Row-major order reversed is the order of the points turned by 180 degrees. -/
theorem whereSquare_reverse (S : ℕ) (a b : ℕ × ℕ → Bool)
    (h : ∀ c : ℕ × ℕ, c.1 < S → c.2 < S → b (S - 1 - c.1, S - 1 - c.2) = a c) :
    (whereSquare S b).reverse = (whereSquare S a).map fun c => (S - 1 - c.1, S - 1 - c.2) := by
  have hrev : ∀ n, (List.range n).reverse = (List.range n).map fun i : ℕ => n - 1 - i := fun n => by
    refine List.ext_getElem (by simp) fun i h1 h2 => ?_
    simp
  set L := ((List.range S).map fun i : ℕ => (List.range S).map fun j : ℕ => (i, j)).flatten with hL
  have hLrev : L.reverse = L.map fun c => (S - 1 - c.1, S - 1 - c.2) := by
    have h1 : ∀ f : ℕ → List (ℕ × ℕ), ((List.range S).map f).reverse = (List.range S).map fun i : ℕ => f (S - 1 - i) := fun f => by
      rw [← List.map_reverse, hrev, List.map_map]; rfl
    have h2 : ∀ f : ℕ → ℕ × ℕ, ((List.range S).map f).reverse = (List.range S).map fun i : ℕ => f (S - 1 - i) := fun f => by
      rw [← List.map_reverse, hrev, List.map_map]; rfl
    rw [hL, List.reverse_flatten, List.map_map, h1, List.map_flatten, List.map_map]
    congr 1
    refine List.map_congr_left fun i _ => ?_
    simp only [Function.comp_apply]
    rw [h2, List.map_map]; rfl
  have hmem : ∀ c ∈ L, c.1 < S ∧ c.2 < S := by
    intro c hc
    rw [hL] at hc
    simp only [List.mem_flatten, List.mem_map, List.mem_range] at hc
    obtain ⟨l, ⟨i, hi, rfl⟩, hc⟩ := hc
    simp only [List.mem_map, List.mem_range] at hc
    obtain ⟨j, hj, rfl⟩ := hc
    exact ⟨hi, hj⟩
  unfold whereSquare
  rw [← hL, ← List.filter_reverse, hLrev, List.filter_map]
  congr 1
  refine List.filter_congr fun c hc => ?_
  exact h c (hmem c hc).1 (hmem c hc).2

/-- The deterministic part of a line added at one side is the mirror image of what would be added at the other side of the screen turned
by 180 degrees: `A[1] = fliplr(flipud(A[0]))` goes with the second stencil. -/
theorem C64_two_sides (p : ScreenPar) (k : ℕ) (hS : p.S = stencilSize k) (hc : p.coords = stencilCoords (stencilSize k) (mxSize k))
    (hA : p.A true = flipBoth p.S (p.coords false).length (p.A false)) (row : Bool) (scrn : ℕ → ℕ → ℝ) (i : ℕ) :
    newLine p row true scrn (fun _ => 0) i
      = newLine p row false (fun a b => scrn (p.S - 1 - a) (p.S - 1 - b)) (fun _ => 0) (p.S - 1 - i) := by
  have hrev : (p.coords true).reverse = (p.coords false).map fun c => (p.S - 1 - c.1, p.S - 1 - c.2) := by
    rw [hc, hS]
    exact whereSquare_reverse _ _ _ fun c h1 h2 => stencil_turned k c h1 h2
  have hlen : (p.coords true).length = (p.coords false).length := by
    have := congrArg List.length hrev
    simpa using this
  have ht : p.coords true = ((p.coords false).map fun c => (p.S - 1 - c.1, p.S - 1 - c.2)).reverse := by
    rw [← hrev, List.reverse_reverse]
  unfold newLine stencilData
  simp only [mul_zero, Finset.sum_const_zero, add_zero, List.length_map, hlen]
  rw [← Finset.sum_range_reflect]
  refine Finset.sum_congr rfl fun q hq => ?_
  rw [Finset.mem_range] at hq
  have hAq : p.A true i ((p.coords false).length - 1 - q) = p.A false (p.S - 1 - i) q := by
    rw [hA]; unfold flipBoth
    congr 1; omega
  rw [hAq]
  congr 1
  have hq' : (p.coords false).length - 1 - q < (p.coords true).length := by omega
  rw [List.getD_eq_getElem?_getD, List.getD_eq_getElem?_getD, List.getElem?_eq_getElem (by simpa using hq'),
    List.getElem?_eq_getElem (by simpa using hq), List.getElem_map, List.getElem_map]
  simp only [Option.getD_some]
  have hget : (p.coords true)[(p.coords false).length - 1 - q] = (p.S - 1 - ((p.coords false)[q]).1, p.S - 1 - ((p.coords false)[q]).2) := by
    have h1 : (p.coords true)[(p.coords false).length - 1 - q]? = some (p.S - 1 - ((p.coords false)[q]).1, p.S - 1 - ((p.coords false)[q]).2) := by
      rw [ht, List.getElem?_reverse (by simp; omega)]
      simp only [List.length_map, List.getElem?_map]
      have : (p.coords false).length - 1 - ((p.coords false).length - 1 - q) = q := by omega
      rw [this, List.getElem?_eq_getElem hq]; rfl
    rw [List.getElem?_eq_getElem hq'] at h1
    exact Option.some.inj h1
  rw [hget]

/-- The whole line next to the new one is in the stencil, on both axes and both sides. -/
theorem C64_neighbour (p : ScreenPar) (k : ℕ) (hS : p.S = stencilSize k) (hc : p.coords = stencilCoords (stencilSize k) (mxSize k))
    (row after : Bool) (scrn : ℕ → ℕ → ℝ) (i : ℕ) (hi : i < p.S) :
    lineOf p.S row after scrn (p.S - 1) i ∈ stencilData p row after scrn := by
  obtain ⟨hSe, -⟩ := stencilSize_eq k
  have hm0 : 0 < max k 8 := by omega
  have hin : ∀ j, j < stencilSize k → inStencil (stencilSize k) (mxSize k) (0, j) = true := by
    intro j hj
    rw [hSe] at hj ⊢
    unfold inStencil
    rw [Bool.or_eq_true, List.any_eq_true]
    left
    rw [log2_pow_succ _ hm0]
    refine ⟨0, by simp, ?_⟩
    rw [Bool.and_eq_true, List.contains_iff_mem]
    exact ⟨rfl, (mem_headPoints _ 0 j (by omega)).2 ⟨by simp, by omega⟩⟩
  have hmem : ∀ (f : ℕ × ℕ → Bool) (a b : ℕ), a < stencilSize k → b < stencilSize k → f (a, b) = true → (a, b) ∈ whereSquare (stencilSize k) f := by
    intro f a b ha hb hf
    unfold whereSquare
    rw [List.mem_filter]
    refine ⟨?_, hf⟩
    simp only [List.mem_flatten, List.mem_map, List.mem_range]
    exact ⟨_, ⟨a, ha, rfl⟩, by simp [hb]⟩
  have hpos : 0 < stencilSize k := by omega
  rw [hS] at hi ⊢
  unfold stencilData
  rw [List.mem_map, hc]
  cases after
  · refine ⟨(0, i), hmem _ 0 i hpos hi (hin i hi), ?_⟩
    simp [lineOf]
  · refine ⟨(stencilSize k - 1, i), hmem _ _ _ (by omega) hi ?_, ?_⟩
    · have := stencil_turned k (0, stencilSize k - 1 - i) hpos (by simp only; omega)
      simp only [Nat.sub_zero] at this
      rw [hin _ (by omega)] at this
      rwa [show stencilSize k - 1 - (stencilSize k - 1 - i) = i by omega] at this
    · simp [lineOf]

/-- The stencil of the smallest screens: size 257, with the whole first line. -/
theorem C64_smallest : stencilSize 6 = 257 ∧ ∀ j, j < 257 → inStencil 257 65 (0, j) = true := by
  refine ⟨by decide, fun j hj => ?_⟩
  unfold inStencil
  rw [Bool.or_eq_true]
  left
  rw [List.any_eq_true]
  refine ⟨0, by simp, ?_⟩
  have hl : Nat.log2 257 = 8 := by decide
  rw [hl, Bool.and_eq_true, List.contains_iff_mem]
  exact ⟨rfl, (mem_headPoints 8 0 j (by omega)).2 ⟨by simp, by omega⟩⟩

end Specula
