import Verif.Model.Sh
import Verif.Props.Ccd
import Verif.Props.Resample
import Mathlib.Algebra.Order.Archimedean.Basic
import Mathlib.Tactic.FieldSimp
import Mathlib.Tactic.Ring
import Mathlib.Tactic.Linarith
import Mathlib.Tactic.Positivity
/-
C76: geometry, light and separation of the spots of the Shack-Hartmann sensor.
-/
namespace Specula

section
variable {K : Type} [Field K] [LinearOrder K] [IsStrictOrderedRing K]

/-- Parameters that make sense: at least one pixel per lenslet, and positive lengths and angles. -/
structure ShIn.Valid (p : ShIn K) : Prop where
  n : 0 < p.n
  size : p.n ≤ p.efSize
  npx : 0 < p.npx
  pitch : 0 < p.pitch
  lam : 0 < p.lam
  px : 0 < p.pxscale

theorem ShIn.Valid.npSub_eq {p : ShIn K} (h : p.Valid) : p.npSub = p.efSize / p.n := by
  have : (p.n : K) ≠ 0 := Nat.cast_ne_zero.2 h.n.ne'
  unfold ShIn.npSub
  field_simp

theorem ShIn.Valid.turb_eq {p : ShIn K} (h : p.Valid) : p.turb = p.lam * p.n / (p.efSize * p.pitch) := by
  have h1 : (p.n : K) ≠ 0 := Nat.cast_ne_zero.2 h.n.ne'
  have h2 : (p.efSize : K) ≠ 0 := Nat.cast_ne_zero.2 (by have := h.n; have := h.size; omega)
  have h3 := h.pitch.ne'
  unfold ShIn.turb
  rw [h.npSub_eq]
  field_simp

theorem ShIn.Valid.turb_pos {p : ShIn K} (h : p.Valid) : 0 < p.turb := by
  have h1 : (0 : K) < p.n := Nat.cast_pos.2 h.n
  have h2 : (0 : K) < p.efSize := Nat.cast_pos.2 (by have := h.n; have := h.size; omega)
  have h3 := h.pitch
  have h4 := h.lam
  rw [h.turb_eq]
  positivity

omit [IsStrictOrderedRing K] in
theorem resSearch_spec (p : ShIn K) (fuel i m : Nat) (h : resSearch p fuel i = some m) :
    p.turb / ((m : K) + 2) < p.pxscale ∧ ∀ k, i ≤ k → k < m → p.pxscale ≤ p.turb / ((k : K) + 2) := by
  induction fuel generalizing i with
  | zero => simp [resSearch] at h
  | succ fuel ih =>
    unfold resSearch at h
    by_cases hc : p.pxscale ≤ p.turb / ((i : K) + 2)
    · rw [if_pos hc] at h
      obtain ⟨h1, h2⟩ := ih (i + 1) h
      refine ⟨h1, fun k hk hm => ?_⟩
      rcases Nat.eq_or_lt_of_le hk with rfl | hk
      · exact hc
      · exact h2 k hk hm
    · rw [if_neg hc, Option.some.injEq] at h
      subst h
      exact ⟨not_le.1 hc, fun k hk hm => by omega⟩

variable [FloorRing K]

omit [Field K] [IsStrictOrderedRing K] [FloorRing K] in
theorem argminOn_isSome (f : Nat → K) (l : List Nat) (h : l ≠ []) : ∃ m, argminOn f l = some m ∧ m ∈ l := by
  induction l with
  | nil => exact absurd rfl h
  | cons k l ih =>
    unfold argminOn
    by_cases hl : l = []
    · subst hl
      exact ⟨k, rfl, by simp⟩
    · obtain ⟨m, hm, hml⟩ := ih hl
      rw [hm]
      dsimp only
      split_ifs
      · exact ⟨m, rfl, by simp [hml]⟩
      · exact ⟨k, rfl, by simp⟩

omit [IsStrictOrderedRing K] in
theorem chooseTry_isSome (p : ShIn K) (iMin : Nat) : ∃ k, chooseTry p iMin = some k := by
  unfold chooseTry
  dsimp only
  split_ifs with hg
  · obtain ⟨m, hm, -⟩ := argminOn_isSome (fun k => ((shTry p iMin k).mcm : K) / (shTry p iMin k).scale) (List.range 10) (by simp)
    rw [hm]
    exact ⟨_, rfl⟩
  · obtain ⟨m, hm, -⟩ := argminOn_isSome (fun k => ((shTry p iMin k).mcm : K) / (shTry p iMin k).scale) _ hg
    rw [hm]
    obtain ⟨k0, l, hl⟩ := List.exists_cons_of_ne_nil hg
    rw [hl]
    exact ⟨_, rfl⟩

theorem shTry_scale (p : ShIn K) (hp : p.Valid) (m k : Nat) : (shTry p m k).scale = ((m + k + 2 : Nat) : Int) := by
  have ht := hp.turb_pos
  have h2 : (0 : K) < (m : K) + k + 2 := by positivity
  have : p.turb / (p.turb / ((m : K) + k + 2)) = ((((m + k + 2 : Nat) : Int)) : K) := by push_cast; field_simp
  unfold shTry
  dsimp only
  rw [this]
  exact roundEvenF_eq _ _ (by simp)

/-- The field of view of a trial is within two per cent of the one asked for. -/
def TryGood (p : ShIn K) (m k : Nat) : Prop := |(shTry p m k).fovPix * (shTry p m k).fftPx - p.wantedFov| / p.wantedFov < 2 / 100

/-- A trial that may be chosen: an accurate one, or any when none of the ten is. -/
def TryOk (p : ShIn K) (m k : Nat) : Prop := k < 10 ∧ (TryGood p m k ∨ ∀ i < 10, ¬ TryGood p m i)

/-- **C76** (choice): among the ten trials one with an accurate field of view is taken, if there is any; it costs no more (common
multiple of the numbers of pixels times oversampling) than the first of those. -/
theorem C76_choice (p : ShIn K) (hp : p.Valid) (m k : Nat) (h : chooseTry p m = some k) :
    TryOk p m k ∧ ∀ j, TryOk p m j → (∀ i, TryOk p m i → j ≤ i) →
      (shTry p m k).mcm * (shTry p m k).scale ≤ (shTry p m j).mcm * (shTry p m j).scale := by
  unfold chooseTry at h
  dsimp only at h
  set good := (List.range 10).filter fun k => decide (|(shTry p m k).fovPix * (shTry p m k).fftPx - p.wantedFov| / p.wantedFov < 2 / 100)
    with hgood
  set idx := if good = [] then List.range 10 else good with hidx
  have hmem : ∀ j, j ∈ good ↔ j < 10 ∧ TryGood p m j := by
    intro j; rw [hgood, List.mem_filter, List.mem_range, decide_eq_true_eq]; rfl
  have hsort : good.Pairwise (· < ·) := List.Pairwise.filter _ List.pairwise_lt_range
  rw [Option.bind_eq_some_iff] at h
  obtain ⟨k0, hk0, h⟩ := h
  rw [Option.map_eq_some_iff] at h
  obtain ⟨km, hkm, hk⟩ := h
  have hne : idx ≠ [] := by intro e; rw [e] at hk0; simp at hk0
  obtain ⟨km', hkm', hkmem⟩ := argminOn_isSome (fun k => ((shTry p m k).mcm : K) / (shTry p m k).scale) idx hne
  rw [hkm] at hkm'
  obtain rfl : km = km' := by simpa using hkm'
  have hk0mem : k0 ∈ idx := List.mem_of_mem_head? hk0
  have hkm0 : k = km ∨ k = k0 := by rw [← hk]; split_ifs <;> simp
  have hin : k ∈ idx := by rcases hkm0 with rfl | rfl <;> assumption
  have hcost : (shTry p m k).mcm * (shTry p m k).scale ≤ (shTry p m k0).mcm * (shTry p m k0).scale := by
    rw [← hk]
    by_cases hc : km ≠ 0 ∧ (if (shTry p m km).mcm = 0 then decide (0 < (shTry p m k0).mcm)
      else decide (((shTry p m km).scale : K) / (shTry p m k0).scale < ((shTry p m k0).mcm : K) / (shTry p m km).mcm)) = true
    · rw [if_pos hc]
      have hs0 : (0 : Int) ≤ (shTry p m k0).scale := by rw [shTry_scale p hp]; positivity
      have hs0' : (0 : K) < (shTry p m k0).scale := by
        rw [shTry_scale p hp]; exact_mod_cast (by omega : 0 < m + k0 + 2)
      by_cases hz : (shTry p m km).mcm = 0
      · rw [hz]; simpa using mul_nonneg (Int.natCast_nonneg _) hs0
      · have h2 := hc.2
        rw [if_neg hz, decide_eq_true_eq, div_lt_div_iff₀ hs0' (Nat.cast_pos.2 (Nat.pos_of_ne_zero hz))] at h2
        have : (((shTry p m km).scale * (shTry p m km).mcm : Int) : K) < (((shTry p m k0).mcm * (shTry p m k0).scale : Int) : K) := by
          push_cast; exact h2
        have := Int.cast_lt.1 this
        rw [mul_comm (shTry p m km).scale] at this
        exact this.le
    · rw [if_neg hc]
  have hok : ∀ j, j ∈ idx ↔ TryOk p m j := by
    intro j
    by_cases hg : good = []
    · have hno : ∀ i < 10, ¬ TryGood p m i := fun i hi hi' => by
        have := (hmem i).2 ⟨hi, hi'⟩; rw [hg] at this; simp at this
      rw [hidx, if_pos hg, List.mem_range]
      exact ⟨fun hj => ⟨hj, .inr hno⟩, fun hj => hj.1⟩
    · obtain ⟨a, ha⟩ := List.exists_mem_of_ne_nil _ hg
      rw [hidx, if_neg hg, hmem]
      exact ⟨fun hj => ⟨hj.1, .inl hj.2⟩, fun hj => ⟨hj.1, hj.2.resolve_right fun hno => hno a ((hmem a).1 ha).1 ((hmem a).1 ha).2⟩⟩
  have hsort' : idx.Pairwise (· < ·) := by
    rw [hidx]; split_ifs
    · exact List.pairwise_lt_range
    · exact hsort
  refine ⟨(hok k).1 hin, ?_⟩
  · intro j hj hfirst
    have hjk : j = k0 := by
      obtain ⟨a, l, hal⟩ := List.exists_cons_of_ne_nil hne
      rw [hal] at hk0 hsort'
      obtain rfl : a = k0 := by simpa using hk0
      have hjm : j ∈ a :: l := hal ▸ (hok j).2 hj
      have := hfirst a ((hok a).1 hk0mem)
      rcases List.mem_cons.1 hjm with e | e
      · exact e
      · have := (List.pairwise_cons.1 hsort').1 j e
        omega
    rw [hjk]
    exact hcost

/-- **C76** (resolution): the internal resolution is an integer fraction of the diffraction limit of a sub-aperture, and finer than
the pixel of the detector. -/
theorem C76_resolution (p : ShIn K) (hp : p.Valid) (fuel : Nat) (res : K) (h : shRes p fuel = some res) :
    0 < res ∧ res < p.pxscale ∧ ∃ s : Nat, 0 < s ∧ res = p.turb / s := by
  have ht := hp.turb_pos
  unfold shRes at h
  split_ifs at h with h1 h2 h3
  · rw [Option.some.injEq] at h
    subst h
    exact ⟨ht, not_le.1 h2, 1, one_pos, by simp⟩
  · rw [Option.some.injEq] at h
    subst h
    refine ⟨by positivity, by linarith [h3.1], 2, two_pos, by push_cast; ring⟩
  · rw [Option.bind_eq_some_iff] at h
    obtain ⟨m, hm, h⟩ := h
    rw [Option.map_eq_some_iff] at h
    obtain ⟨k, -, rfl⟩ := h
    have hm' := (resSearch_spec p fuel 0 m hm).1
    have e : (shTry p m k).res = p.turb / ((m + k + 2 : Nat) : K) := by unfold shTry; push_cast; rfl
    have hpos : (0 : K) < ((m + k + 2 : Nat) : K) := by exact_mod_cast (by omega : 0 < m + k + 2)
    refine ⟨by rw [e]; positivity, ?_, m + k + 2, by omega, e⟩
    rw [e]
    refine lt_of_le_of_lt ?_ hm'
    have h2 : (0 : K) < (m : K) + 2 := by positivity
    refine div_le_div_of_nonneg_left ht.le h2 ?_
    push_cast
    linarith [(Nat.cast_nonneg k : (0 : K) ≤ k)]

/-- The search for a resolution always ends. -/
theorem C76_resolution_found (p : ShIn K) (hp : p.Valid) (hr : p.resToTurb = false) : ∃ fuel res, shRes p fuel = some res := by
  by_cases h1 : p.turb < p.pxscale ∧ 1 / 2 < p.pxscale / 2
  · exact ⟨0, p.turb * (1 / 2), by unfold shRes; rw [hr, if_neg (by simp), if_pos h1]⟩
  · have ht := hp.turb_pos
    have hx := hp.px
    obtain ⟨m, hm⟩ := exists_nat_gt (p.turb / p.pxscale)
    have key : ∀ fuel i, m ≤ i + fuel → ∃ r, resSearch p (fuel + 1) i = some r := by
      intro fuel
      induction fuel with
      | zero =>
        intro i hi
        refine ⟨i, ?_⟩
        unfold resSearch
        rw [if_neg]
        rw [not_le, div_lt_iff₀ (by positivity)]
        have hmi : (m : K) ≤ i := by exact_mod_cast hi
        rw [div_lt_iff₀ hx] at hm
        nlinarith
      | succ fuel ih =>
        intro i hi
        unfold resSearch
        split_ifs
        · exact ih (i + 1) (by omega)
        · exact ⟨i, rfl⟩
    obtain ⟨r, hr'⟩ := key m 0 (by omega)
    obtain ⟨k, hk⟩ := chooseTry_isSome p r
    exact ⟨m + 1, (shTry p r k).res, by unfold shRes; rw [hr, if_neg (by simp), if_neg h1, hr', Option.bind_some, hk, Option.map_some]⟩

theorem roundEvenF_int (m : Int) : roundEvenF (m : K) = m := roundEvenF_eq _ _ (by simp)

theorem truncInt_int (m : Int) : truncInt (m : K) = m := by
  unfold truncInt; split_ifs <;> simp

/-- **C76** (geometry): the sizes derived from the internal resolution.  The field is enlarged to a multiple of twice the number of
lenslets, at least as much as asked for and by no more than needed; every lenslet has the same even number of pixels; pixels of the
focal plane are as fine as the internal resolution; what is cut out of it is the field of view of the detector, an even number of
pixels, not more than the FFT provides, and it differs from the one asked for by at most one of them. -/
theorem C76_geometry (p : ShIn K) (hp : p.Valid) (s : Nat) (hs : 0 < s) (res : K) (hres : res = p.turb / s) (hpx : res < p.pxscale) :
    ∃ g, shGeom p res = some g ∧ g.scale = s ∧ (2 * (p.n : Int)) ∣ g.finalSize ∧ p.efSize * max 1 p.coeff ≤ (g.finalSize : K) ∧
      (g.finalSize : K) < p.efSize * max 1 (max ((g.cs : K) / ⌊(s : K) * (p.efSize / p.n)⌋) p.coeff) + 2 * p.n ∧
      g.np * p.n = g.finalSize ∧ Even g.np ∧ 0 < g.np ∧ g.fft = g.np * s ∧ g.fp4 = res ∧ g.cs = g.fft - g.cut ∧ Even g.cs ∧
      2 ≤ g.cs ∧ 0 ≤ g.cut ∧ g.pxscale * p.npx = g.cs * res ∧ |g.pxscale * p.npx - p.pxscale * p.npx| ≤ res := by
  have hn : (0 : K) < p.n := Nat.cast_pos.2 hp.n
  have hE0 : 0 < p.efSize := lt_of_lt_of_le hp.n hp.size
  have hE : (0 : K) < p.efSize := Nat.cast_pos.2 hE0
  have hEn : (p.n : K) ≤ p.efSize := by exact_mod_cast hp.size
  have hS : (0 : K) < s := Nat.cast_pos.2 hs
  have hS1 : (1 : K) ≤ s := by exact_mod_cast hs
  have hx : (0 : K) < p.npx := Nat.cast_pos.2 hp.npx
  have hx1 : (1 : K) ≤ p.npx := by exact_mod_cast hp.npx
  have hpi := hp.pitch
  have hl := hp.lam
  have ht := hp.turb_pos
  have hr0 : 0 < res := by rw [hres]; positivity
  have e1 : roundEvenF (p.turb / res) = (s : Int) := by
    have : p.turb / res = ((s : Int) : K) := by rw [hres]; push_cast; field_simp
    rw [this, roundEvenF_int]
  have e2 : p.lam / (p.efSize * p.pitch * ((s : Int) : K) / p.n) = res := by
    rw [hres, hp.turb_eq]; push_cast; field_simp
  set F : Int := roundEvenF (p.pxscale * p.npx / res / 2) with hF
  have hF1 : 1 ≤ F := by
    have h1 : 1 < p.pxscale * p.npx / res := by
      rw [lt_div_iff₀ hr0]; nlinarith
    have h2 := roundEvenF_near (p.pxscale * p.npx / res / 2)
    rw [← hF, abs_le] at h2
    have : (0 : K) < F := by linarith
    exact_mod_cast this
  have hF1K : (1 : K) ≤ F := by exact_mod_cast hF1
  have eT : truncInt (((s : Int) : K) * p.npSub) = ⌊(s : K) * (p.efSize / p.n)⌋ := by
    unfold truncInt
    rw [hp.npSub_eq, if_pos (by push_cast; positivity)]; push_cast; rfl
  set T : Int := ⌊(s : K) * (p.efSize / p.n)⌋ with hT
  have hT1 : 1 ≤ T := by
    rw [hT, Int.le_floor]
    have : 1 ≤ (p.efSize : K) / p.n := by rw [le_div_iff₀ hn]; linarith
    push_cast
    nlinarith
  have hT1K : (1 : K) ≤ T := by exact_mod_cast hT1
  have hTle : (T : K) ≤ s * (p.efSize / p.n) := Int.floor_le _
  set need : K := max 1 (max (((F * 2 : Int) : K) / T) p.coeff) with hneed
  have hneed1 : 1 ≤ need := le_max_left _ _
  set c : Int := ⌈p.efSize * need / (2 * (p.n : K))⌉ with hc
  have hc1 : (p.efSize : K) * need / (2 * p.n) ≤ c := Int.le_ceil _
  have hc2 : (c : K) < p.efSize * need / (2 * p.n) + 1 := Int.ceil_lt_add_one _
  have hc3 : (p.efSize : K) * need ≤ c * (2 * p.n) := by rwa [div_le_iff₀ (by positivity)] at hc1
  have hc0 : 0 < c := by
    rw [hc, Int.ceil_pos]; positivity
  have hc0K : (0 : K) < c := by exact_mod_cast hc0
  have e3 : (p.efSize : K) * (((c * (2 * (p.n : Int)) : Int) : K) / p.efSize) * (2 / (p.n : K)) * (1 / 2) = ((2 * c : Int) : K) := by
    push_cast; field_simp
  have e4 : (p.efSize : K) * (((c * (2 * (p.n : Int)) : Int) : K) / p.efSize) * (2 / (p.n : K)) / 2 = ((2 * c : Int) : K) := by
    push_cast; field_simp
  have e5 : p.lam / (p.pitch / (((c * (2 * (p.n : Int)) : Int) : K) / p.efSize) * ((2 * c * (s : Int) : Int) : K)) = res := by
    rw [hres, hp.turb_eq]; push_cast; field_simp
  have e6 : ((2 * c * (s : Int) : Int) : K) * res - ((F * 2 : Int) : K) * res / p.npx * p.npx = ((2 * c * s - F * 2 : Int) : K) * res := by
    push_cast; field_simp
  have hge : F * 2 ≤ 2 * c * s := by
    have h1 : ((F * 2 : Int) : K) / T ≤ need := le_trans (le_max_left _ _) (le_max_right _ _)
    rw [div_le_iff₀ (by linarith)] at h1
    have h2 : need * T ≤ need * (s * (p.efSize / p.n)) := mul_le_mul_of_nonneg_left hTle (by linarith)
    have h3 : need * (s * ((p.efSize : K) / p.n)) = s * (p.efSize * need / p.n) := by field_simp
    have h4 : (p.efSize : K) * need / p.n ≤ 2 * c := by rw [div_le_iff₀ hn]; linarith
    have h5 : (s : K) * (p.efSize * need / p.n) ≤ s * (2 * c) := mul_le_mul_of_nonneg_left h4 hS.le
    have : ((F * 2 : Int) : K) ≤ ((2 * c * s : Int) : K) := by push_cast; push_cast at h1; linarith
    exact_mod_cast this
  refine ⟨⟨s, res, F * 2, c * (2 * (p.n : Int)), ((c * (2 * (p.n : Int)) : Int) : K) / p.efSize, ((F * 2 : Int) : K) * res / p.npx, 2 * c,
    2 * c * s, res, 2 * c * s - F * 2, 2 * c * s - (2 * c * s - F * 2)⟩, ?_, rfl, Dvd.intro_left c rfl, ?_, ?_, ?_, ⟨c, by ring⟩, by positivity, rfl,
    rfl, rfl, ⟨F, by ring⟩, ?_, ?_, ?_, ?_⟩
  · unfold shGeom
    dsimp only
    simp only [e1, e2, ← hF, eT]
    rw [if_pos (show 0 < T by omega)]
    rw [← hneed, ← hc, e3, e4]
    simp only [roundEvenF_int]
    rw [sub_self, abs_zero, if_neg (by norm_num), e5, e6, mul_div_cancel_right₀ _ hr0.ne']
    simp only [roundEvenF_int]
    have e7 : (((2 * c * s - F * 2 : Int) : K) / 2 * 2) = ((2 * c * s - F * 2 : Int) : K) := by field_simp
    rw [e7, truncInt_int]
  · have h1 : max 1 p.coeff ≤ need := max_le_max le_rfl (le_max_right _ _)
    have := mul_le_mul_of_nonneg_left h1 hE.le
    push_cast; linarith
  · dsimp only
    have e : (((2 * c * s - (2 * c * s - F * 2) : Int)) : K) = ((F * 2 : Int) : K) := by push_cast; ring
    rw [e, ← hneed]
    have h2 : (c : K) * (2 * p.n) < (p.efSize * need / (2 * p.n) + 1) * (2 * p.n) := mul_lt_mul_of_pos_right hc2 (by positivity)
    have h3 : ((p.efSize : K) * need / (2 * p.n) + 1) * (2 * p.n) = p.efSize * need + 2 * p.n := by field_simp
    push_cast; linarith
  · dsimp only; ring
  · dsimp only; omega
  · dsimp only; omega
  · dsimp only; push_cast; field_simp; ring
  · dsimp only
    have e : ((F * 2 : Int) : K) * res / p.npx * p.npx = F * 2 * res := by push_cast; field_simp
    rw [e]
    have h2 := roundEvenF_near (p.pxscale * p.npx / res / 2)
    rw [← hF] at h2
    have e' : (F : K) * 2 * res - p.pxscale * p.npx = (F - p.pxscale * p.npx / res / 2) * (2 * res) := by field_simp
    rw [e', abs_mul, abs_of_pos (by positivity : 0 < 2 * res)]
    nlinarith

end

/-! ### Floating point size of the field -/

/-- The size of the interpolated field is right when the oversampling factor is a floating point number, in particular when the
final size is a multiple of the original one. -/
theorem C76_size_exact (e f : Nat) (he : 0 < e) (hf : f < 2 ^ 53) (h : FloatNum 53 ((f : ℚ) / e)) : shOvsSize e f = f := by
  unfold shOvsSize
  rw [fl_exact (by norm_num) h]
  have : (e : ℚ) * ((f : ℚ) / e) = f := by
    have : (e : ℚ) ≠ 0 := Nat.cast_ne_zero.2 he.ne'
    field_simp
  rw [this, fl_exact (by norm_num) (.nat hf)]
  exact Int.floor_natCast f

/-- It is never more than one pixel short, and never too large. -/
theorem C76_size_near (e f : Nat) (he : 0 < e) (hf0 : 0 < f) (hf : f < 2 ^ 50) : shOvsSize e f = f ∨ shOvsSize e f = (f : Int) - 1 := by
  have heq : (0 : ℚ) < e := Nat.cast_pos.2 he
  have hfq : (0 : ℚ) < f := Nat.cast_pos.2 hf0
  have hfb : (f : ℚ) < 2 ^ 50 := by exact_mod_cast hf
  set q : ℚ := fl 53 ((f : ℚ) / e) with hq
  have h1 : |q - (f : ℚ) / e| ≤ (f : ℚ) / e / 2 ^ 53 := fl_error (by positivity)
  have hq0 : 0 ≤ q := fl_nonneg (by norm_num) (by positivity)
  have h2 : |(e : ℚ) * q - f| ≤ f / 2 ^ 53 := by
    have e1 : (e : ℚ) * q - f = e * (q - f / e) := by field_simp
    rw [e1, abs_mul, abs_of_pos heq]
    calc (e : ℚ) * |q - f / e| ≤ e * ((f : ℚ) / e / 2 ^ 53) := mul_le_mul_of_nonneg_left h1 heq.le
      _ = f / 2 ^ 53 := by field_simp
  have h3 : |fl 53 ((e : ℚ) * q) - e * q| ≤ e * q / 2 ^ 53 := fl_error (by positivity)
  rw [abs_le] at h2 h3
  have h4 : (f : ℚ) / 2 ^ 53 < 1 / 8 := by rw [div_lt_iff₀ (by norm_num)]; norm_num at hfb ⊢; linarith
  have h5 : (e : ℚ) * q / 2 ^ 53 < 1 / 4 := by rw [div_lt_iff₀ (by norm_num)]; norm_num at hfb ⊢; linarith
  have h6 : (f : ℚ) - 1 ≤ fl 53 ((e : ℚ) * q) := by linarith
  have h7 : fl 53 ((e : ℚ) * q) < f + 1 := by linarith
  have h8 : (f : Int) - 1 ≤ shOvsSize e f := by
    unfold shOvsSize; rw [Int.le_floor]; push_cast; exact h6
  have h9 : shOvsSize e f < (f : Int) + 1 := by
    unfold shOvsSize; rw [Int.floor_lt]; push_cast; exact h7
  omega

/-- Five lenslets on 26 pixels, oversampled at least twice: the field needs 60 pixels and gets 59. -/
theorem C76_size_short : shOvsSize 26 60 = 59 := by
  unfold shOvsSize
  rw [fl_eval (x := ((60 : Nat) : ℚ) / (26 : Nat)) 1 5196461108504418 (by norm_num) (by norm_num) (by norm_num [abs_lt])]
  rw [fl_eval (x := ((26 : Nat) : ℚ) * _) 5 8444249301319679 (by norm_num) (by norm_num) (by norm_num [abs_lt])]
  rw [Int.floor_eq_iff]
  norm_num

/-! ### Concrete cases -/

/-- 40 pixels of 0.2 m, 8 lenslets, 6 pixels of 0.4 arcsec each, at 600 nm. -/
def shSample : ShIn ℚ := ⟨40, 8, 6, 1 / 5, 124 / 1000, 4 / 10, 24 / 10, 2, false⟩

/-- 26 pixels, 5 lenslets. -/
def shSample26 : ShIn ℚ := ⟨26, 5, 4, 3 / 10, 124 / 1000, 4 / 100, 16 / 100, 2, false⟩

example : shSample.Valid := ⟨by decide, by decide, by decide, by norm_num [shSample], by norm_num [shSample], by norm_num [shSample]⟩

example : ((shRes shSample 5).bind (shGeom shSample)).map (fun g => [g.scale, g.fovPix, g.finalSize, g.np, g.fft, g.cut, g.cs]) =
    some [2, 38, 160, 20, 40, 2, 38] := by decide +kernel

/-- The size which comes out one pixel short is one the code asks for. -/
theorem C76_short_geometry : ((shRes shSample26 5).bind (shGeom shSample26)).map (fun g => [g.scale, g.fovPix, g.finalSize, g.np, g.fft, g.cut, g.cs]) =
    some [2, 4, 60, 12, 24, 20, 4] := by decide +kernel

end Specula
