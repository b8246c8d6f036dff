import Verif.Model.RandomPhase
import Verif.Props.Ccd
import Verif.Props.Atmo
import Verif.Props.Sh
import Mathlib.Tactic.FieldSimp
import Mathlib.Tactic.Linarith
/-
C103: uncorrelated phase screens, the store of screens, layers for the two ways of a link.
-/
namespace Specula

open Finset

/-! ### Tiles -/

/-- **C103** (tiles): tile `k` is the square of `p` pixels at row `k / ns` and column `k % ns` of the grid of tiles. -/
theorem C103_tiles {V : Type} (ns p : ℕ) (x : ℕ → ℕ → V) (k i j : ℕ) (hk : k < ns * ns) (hi : i < p) (hj : j < p) :
    rpTile ns p x k i j = x (k / ns * p + i) (k % ns * p + j) := by
  have hn : 0 < ns := Nat.pos_of_ne_zero (by rintro rfl; simp at hk)
  have hp : 0 < p := by omega
  unfold rpTile
  dsimp only
  have e1 : ((k * p + i) * p + j) % p = j := by rw [Nat.add_comm, Nat.add_mul_mod_self_right, Nat.mod_eq_of_lt hj]
  have e2 : ((k * p + i) * p + j) / p = k * p + i := by rw [Nat.add_comm, Nat.add_mul_div_right _ _ hp, Nat.div_eq_of_lt hj, Nat.zero_add]
  have e3 : (k * p + i) % p = i := by rw [Nat.add_comm, Nat.add_mul_mod_self_right, Nat.mod_eq_of_lt hi]
  have e4 : (k * p + i) / p = k := by rw [Nat.add_comm, Nat.add_mul_div_right _ _ hp, Nat.div_eq_of_lt hi, Nat.zero_add]
  have e5 : ((k * p + i) * p + j) / (p * p) = k := by rw [← Nat.div_div_eq_div_mul, e2, e4]
  have e6 : ((k * p + i) * p + j) / (ns * (p * p)) = k / ns := by rw [Nat.mul_comm ns, ← Nat.div_div_eq_div_mul, e5]
  rw [e6, e5, e2, e3, e1]
  set a := k / ns
  set b := k % ns
  have hb : b < ns := Nat.mod_lt _ hn
  have f1 : ((a * p + i) * ns + b) * p + j = (b * p + j) + (a * p + i) * (ns * p) := by ring
  have hlt : b * p + j < ns * p := by
    calc b * p + j < b * p + p := by omega
      _ = (b + 1) * p := by ring
      _ ≤ ns * p := Nat.mul_le_mul_right _ hb
  rw [f1, Nat.add_mul_div_right _ _ (by positivity), Nat.div_eq_of_lt hlt, Nat.zero_add, Nat.add_mul_mod_self_right, Nat.mod_eq_of_lt hlt]

/-- **C103** (disjoint tiles): no pixel of the screen is in two tiles, and all the tiles are inside. -/
theorem C103_disjoint (ns p : ℕ) (k i j k' i' j' : ℕ) (hk : k < ns * ns) (hi : i < p) (hj : j < p) (hi' : i' < p) (hj' : j' < p)
    (h : rpTile ns p (fun r c => (r, c)) k i j = rpTile ns p (fun r c => (r, c)) k' i' j') (hk' : k' < ns * ns) :
    (k = k' ∧ i = i' ∧ j = j') ∧ (rpTile ns p (fun r c => (r, c)) k i j).1 < ns * p ∧ (rpTile ns p (fun r c => (r, c)) k i j).2 < ns * p := by
  have hn : 0 < ns := Nat.pos_of_ne_zero (by rintro rfl; simp at hk)
  rw [C103_tiles ns p _ k i j hk hi hj] at h ⊢
  rw [C103_tiles ns p _ k' i' j' hk' hi' hj'] at h
  obtain ⟨h1, h2⟩ := Prod.mk.inj h
  have hp : 0 < p := by omega
  have d : ∀ a b c d : ℕ, b < p → d < p → a * p + b = c * p + d → a = c ∧ b = d := by
    intro a b c d hb hd he
    have e1 : (a * p + b) % p = (c * p + d) % p := by rw [he]
    have e2 : (a * p + b) / p = (c * p + d) / p := by rw [he]
    rw [Nat.add_comm, Nat.add_mul_mod_self_right, Nat.mod_eq_of_lt hb, Nat.add_comm, Nat.add_mul_mod_self_right, Nat.mod_eq_of_lt hd] at e1
    rw [Nat.add_comm, Nat.add_mul_div_right _ _ hp, Nat.div_eq_of_lt hb, Nat.add_comm (c * p), Nat.add_mul_div_right _ _ hp, Nat.div_eq_of_lt hd] at e2
    omega
  obtain ⟨r1, r2⟩ := d _ _ _ _ hi hi' h1
  obtain ⟨c1, c2⟩ := d _ _ _ _ hj hj' h2
  refine ⟨⟨?_, r2, c2⟩, ?_, ?_⟩
  · rw [← Nat.div_add_mod k ns, ← Nat.div_add_mod k' ns, r1, c1]
  · have : k / ns < ns := Nat.div_lt_of_lt_mul hk
    calc k / ns * p + i < (k / ns + 1) * p := by rw [Nat.add_one_mul]; omega
      _ ≤ ns * p := Nat.mul_le_mul_right _ this
  · have : k % ns < ns := Nat.mod_lt _ hn
    calc k % ns * p + j < (k % ns + 1) * p := by rw [Nat.add_one_mul]; omega
      _ ≤ ns * p := Nat.mul_le_mul_right _ this

/-! ### Sequence of tiles -/

/-- Whether a trigger computes new screens: its interval is a positive multiple of the number of tiles. -/
def newScreens (n u t : ℕ) : Prop := 0 < t / u ∧ n ∣ t / u

instance (n u : ℕ) : DecidablePred (newScreens n u) := fun t => by unfold newScreens; infer_instance

theorem last_ge_iff (n q : ℕ) (hn : 1 ≤ n) : n ≤ (if q = 0 then 0 else (q - 1) % n + 1) ↔ 0 < q ∧ n ∣ q := by
  by_cases hq : q = 0
  · simp [hq]; omega
  · rw [if_neg hq]
    obtain ⟨r, rfl⟩ : ∃ r, q = r + 1 := ⟨q - 1, by omega⟩
    have h1 : r % n < n := Nat.mod_lt _ (by omega)
    rw [Nat.dvd_iff_mod_eq_zero, Nat.add_sub_cancel]
    have h2 : (r + 1) % n = (r % n + 1) % n := by rw [Nat.add_mod, Nat.add_mod (r % n)]; simp
    rw [h2]
    constructor
    · intro h
      have : r % n + 1 = n := by omega
      rw [this]; simp
    · intro ⟨_, h⟩
      by_contra hc
      rw [Nat.mod_eq_of_lt (by omega)] at h
      omega

theorem new_eq (n q : ℕ) (hn : 1 ≤ n) :
    (if n ≤ (if q = 0 then 0 else (q - 1) % n + 1) then 0 else (if q = 0 then 0 else (q - 1) % n + 1)) = q % n := by
  by_cases h : n ≤ (if q = 0 then 0 else (q - 1) % n + 1)
  · rw [if_pos h]
    exact (Nat.mod_eq_zero_of_dvd ((last_ge_iff n q hn).1 h).2).symm
  · rw [if_neg h]
    by_cases hq : q = 0
    · simp [hq]
    · rw [if_neg hq] at h ⊢
      obtain ⟨r, rfl⟩ : ∃ r, q = r + 1 := ⟨q - 1, by omega⟩
      rw [Nat.add_sub_cancel] at h ⊢
      have h2 : (r + 1) % n = (r % n + 1) % n := by rw [Nat.add_mod, Nat.add_mod (r % n)]; simp
      have h3 : (r % n + 1) % n = r % n + 1 := Nat.mod_eq_of_lt (by omega)
      rw [h2, h3]

theorem rpPrepare_eq (n u : ℕ) (hn : 1 ≤ n) (s : RpState) (t : ℕ) (hs : s.last = if t / u = 0 then 0 else (t / u - 1) % n + 1) :
    rpPrepare n s = ⟨s.seed + (if newScreens n u t then 1 else 0), s.last, t / u % n, s.steps⟩ := by
  have hi : n ≤ s.last ↔ newScreens n u t := by rw [hs]; exact last_ge_iff n _ hn
  have he : (if n ≤ s.last then 0 else s.last) = t / u % n := by rw [hs]; exact new_eq n _ hn
  unfold rpPrepare
  dsimp only
  by_cases h : n ≤ s.last
  · rw [if_pos h] at he
    rw [if_pos h, if_pos (hi.1 h), he]
  · rw [if_neg h] at he
    rw [if_neg h, if_neg (fun hc => h (hi.2 hc)), he]; rfl

theorem rpAt_invariant (n u seed : ℕ) (hn : 1 ≤ n) (hu : 1 ≤ u) (t : ℕ) :
    (rpAt n u seed t).steps = t ∧ (rpAt n u seed t).last = (if t / u = 0 then 0 else (t / u - 1) % n + 1) ∧
      (rpAt n u seed t).seed = seed + ((range t).filter (newScreens n u)).card := by
  induction t with
  | zero => simp [rpAt, rpInit]
  | succ t ih =>
    obtain ⟨h1, h2, h3⟩ := ih
    have hp := rpPrepare_eq n u hn _ t h2
    have hseed : (rpAt n u seed t).seed + (if newScreens n u t then 1 else 0) = seed + ((range (t + 1)).filter (newScreens n u)).card := by
      rw [h3, range_add_one, filter_insert]
      by_cases h : newScreens n u t
      · rw [if_pos h, if_pos h, card_insert_of_notMem (by simp)]; omega
      · rw [if_neg h, if_neg h, Nat.add_zero]
    have e : rpAt n u seed (t + 1) = rpPost u (rpPrepare n (rpAt n u seed t)) := rfl
    rw [e, hp]
    unfold rpPost
    dsimp only
    rw [h1]
    have hdiv : (t + 1) / u = if (t + 1) % u = 0 then t / u + 1 else t / u := by
      rw [Nat.succ_div]
      by_cases h : u ∣ t + 1
      · rw [if_pos h, if_pos (Nat.mod_eq_zero_of_dvd h)]
      · rw [if_neg h, if_neg (fun hc => h (Nat.dvd_of_mod_eq_zero hc))]; rfl
    by_cases h : (t + 1) % u = 0
    · rw [if_pos h] at hdiv ⊢
      refine ⟨rfl, ?_, hseed⟩
      rw [hdiv]
      simp
    · rw [if_neg h] at hdiv ⊢
      refine ⟨rfl, ?_, hseed⟩
      rw [hdiv]
      exact h2

/-- **C103** (schedule): trigger `t` is in interval `t / u`; it shows the tile numbered by the interval modulo the number of tiles, of the screen whose seed is the
first one plus the number of triggers so far that computed new screens. -/
theorem C103_schedule (n u seed : ℕ) (hn : 1 ≤ n) (hu : 1 ≤ u) (t : ℕ) :
    rpShown n u seed t = (seed + ((range (t + 1)).filter (newScreens n u)).card, t / u % n) := by
  obtain ⟨h1, h2, h3⟩ := rpAt_invariant n u seed hn hu t
  have hseed : (rpAt n u seed t).seed + (if newScreens n u t then 1 else 0) = seed + ((range (t + 1)).filter (newScreens n u)).card := by
    rw [h3, range_add_one, filter_insert]
    by_cases h : newScreens n u t
    · rw [if_pos h, if_pos h, card_insert_of_notMem (by simp)]; omega
    · rw [if_neg h, if_neg h, Nat.add_zero]
  unfold rpShown
  dsimp only
  rw [rpPrepare_eq n u hn _ t h2, hseed]

/-- **C103** (held): within an interval that is not a positive multiple of the number of tiles, the phase does not change. -/
theorem C103_held (n u seed : ℕ) (hn : 1 ≤ n) (hu : 1 ≤ u) (t t' : ℕ) (h : t / u = t' / u) (hnew : ¬newScreens n u t) :
    rpShown n u seed t = rpShown n u seed t' := by
  rw [C103_schedule n u seed hn hu t, C103_schedule n u seed hn hu t']
  have key : ∀ a b : ℕ, a ≤ b → a / u = b / u → ¬newScreens n u a →
      ((range (a + 1)).filter (newScreens n u)).card = ((range (b + 1)).filter (newScreens n u)).card := by
    intro a b hab hq ha
    congr 1
    ext k
    simp only [mem_filter, mem_range]
    constructor
    · intro ⟨hk, hs⟩; exact ⟨by omega, hs⟩
    · intro ⟨hk, hs⟩
      refine ⟨?_, hs⟩
      by_contra hc
      have h1 : a / u ≤ k / u := Nat.div_le_div_right (by omega)
      have h2 : k / u ≤ b / u := Nat.div_le_div_right (by omega)
      have h3 : k / u = a / u := by omega
      exact ha (by unfold newScreens at hs ⊢; rwa [h3] at hs)
  have hnew' : ¬newScreens n u t' := by unfold newScreens at hnew ⊢; rwa [h] at hnew
  rw [h]
  congr 2
  rcases Nat.le_total t t' with hle | hle
  · exact key t t' hle h hnew
  · exact (key t' t hle h.symm hnew').symm

theorem count_new_screens (n t : ℕ) : ((range (t + 1)).filter (newScreens n 1)).card = t / n := by
  induction t with
  | zero =>
    rw [Nat.zero_div, card_eq_zero, filter_eq_empty_iff]
    intro k hk hc
    simp at hk
    subst hk
    exact absurd hc.1 (by simp)
  | succ t ih =>
    rw [range_add_one, filter_insert, Nat.succ_div]
    by_cases h : n ∣ t + 1
    · rw [if_pos ⟨by simp, by simpa using h⟩, card_insert_of_notMem (by simp), ih, if_pos h]
    · rw [if_neg (fun hc => h (by simpa using hc.2)), ih, if_neg h]; rfl

/-- **C103** (a new phase at every trigger): with one trigger per phase, trigger `t` shows tile `t % n` of the screen of seed `seed + t / n`; no phase is ever shown twice. -/
theorem C103_every (n seed : ℕ) (hn : 1 ≤ n) (t : ℕ) :
    rpShown n 1 seed t = (seed + t / n, t % n) ∧ ∀ t', rpShown n 1 seed t' = rpShown n 1 seed t → t' = t := by
  have h : ∀ t, rpShown n 1 seed t = (seed + t / n, t % n) := by
    intro t
    rw [C103_schedule n 1 seed hn (Nat.le_refl _) t, count_new_screens n t, Nat.div_one]
  refine ⟨h t, fun t' ht => ?_⟩
  rw [h, h] at ht
  obtain ⟨h1, h2⟩ := Prod.mk.inj ht
  rw [← Nat.div_add_mod t' n, ← Nat.div_add_mod t n, h2, show t' / n = t / n by omega]

/-- **C103** (the code disagrees): with more than one trigger per phase, the first interval after the last tile is not held: each of its triggers computes new screens and
shows another phase. -/
theorem C103_not_held (n u seed : ℕ) (hn : 1 ≤ n) (hu : 2 ≤ u) (c : ℕ) (hc : 1 ≤ c) (i : ℕ) (hi : i + 1 < u) :
    rpShown n u seed (c * n * u + (i + 1)) = ((rpShown n u seed (c * n * u + i)).1 + 1, 0) ∧ (rpShown n u seed (c * n * u + i)).2 = 0 := by
  have hq : ∀ k, k < u → (c * n * u + k) / u = c * n := by
    intro k hk
    rw [Nat.add_comm, Nat.add_mul_div_right _ _ (by omega), Nat.div_eq_of_lt hk, Nat.zero_add]
  have hnew : newScreens n u (c * n * u + (i + 1)) := by
    unfold newScreens
    rw [hq _ hi]
    exact ⟨Nat.mul_pos (by omega) (by omega), Dvd.intro_left _ rfl⟩
  rw [C103_schedule n u seed hn (by omega), C103_schedule n u seed hn (by omega), hq _ hi, hq _ (by omega)]
  dsimp only
  rw [range_add_one, filter_insert, if_pos hnew, card_insert_of_notMem (by simp), Nat.mul_mod_left]
  exact ⟨by rw [← Nat.add_assoc, ← Nat.add_assoc], rfl⟩

/-! ### Scale -/

/-- **C103** (scale): the phase in nanometres is that of the screen at 500 nm, with the ratio of the pitch to `r0` at 500 nm to the power 5/6: it does not depend on
the wavelength asked for. -/
theorem C103_scale (pitch w seeing airmass x : ℝ) (hp : 0 < pitch) (hw : 0 < w) (hs : 0 < seeing) (ha : 0 < airmass) :
    rpPhase pitch w seeing airmass x = x * (500 / (2 * Real.pi)) * (pitch / rpR0 seeing airmass) ^ (5 / 6 : ℝ) := by
  have hr : 0 < rpR0 seeing airmass := by unfold rpR0; positivity
  unfold rpPhase
  dsimp only
  have e1 : pitch / (rpR0 seeing airmass * (w / 500) ^ (6 / 5 : ℝ)) = (pitch / rpR0 seeing airmass) * ((w / 500) ^ (6 / 5 : ℝ))⁻¹ := by
    field_simp
  have e2 : (((w / 500) ^ (6 / 5 : ℝ))⁻¹) ^ (5 / 6 : ℝ) = (w / 500)⁻¹ := by
    rw [Real.inv_rpow (by positivity), ← Real.rpow_mul (by positivity)]
    norm_num
  rw [e1, Real.mul_rpow (by positivity) (by positivity), e2]
  field_simp

/-- **C103** (variance): the square of the phase goes with the airmass and with the seeing to the power 5/3. -/
theorem C103_variance (pitch w seeing airmass x : ℝ) (hp : 0 < pitch) (hw : 0 < w) (hs : 0 < seeing) (ha : 0 < airmass) :
    rpPhase pitch w seeing airmass x ^ 2 = rpPhase pitch w 1 1 x ^ 2 * seeing ^ (5 / 3 : ℝ) * airmass := by
  rw [C103_scale pitch w seeing airmass x hp hw hs ha, C103_scale pitch w 1 1 x hp hw one_pos one_pos]
  have hc : (0 : ℝ) < rpR0 1 1 := by unfold rpR0; positivity
  have e0 : pitch / rpR0 seeing airmass = (pitch / rpR0 1 1) * (seeing * airmass ^ (3 / 5 : ℝ)) := by
    unfold rpR0
    rw [show (-3 / 5 : ℝ) = -(3 / 5) by norm_num, Real.rpow_neg ha.le, Real.one_rpow]
    field_simp
  have hsq : ∀ y : ℝ, 0 < y → (y ^ (5 / 6 : ℝ)) ^ 2 = y ^ (5 / 3 : ℝ) := by
    intro y hy
    rw [← Real.rpow_natCast, ← Real.rpow_mul hy.le]
    norm_num
  rw [e0, Real.mul_rpow (by positivity) (by positivity), Real.mul_rpow hs.le (by positivity)]
  have e1 : ((airmass ^ (3 / 5 : ℝ)) ^ (5 / 6 : ℝ)) ^ 2 = airmass := by
    rw [← Real.rpow_natCast, ← Real.rpow_mul ha.le, ← Real.rpow_mul ha.le]
    norm_num
  have e2 := hsq seeing hs
  calc _ = (x * (500 / (2 * Real.pi)) * (pitch / rpR0 1 1) ^ (5 / 6 : ℝ)) ^ 2 * (seeing ^ (5 / 6 : ℝ)) ^ 2 * ((airmass ^ (3 / 5 : ℝ)) ^ (5 / 6 : ℝ)) ^ 2 := by ring
    _ = _ := by rw [e1, e2]

/-! ### Screens on disk -/

/-- Two requests the store does not tell apart, the first having been computed: same seed, dimension and precision, same pitch to the thousandth, and the outer scale of
the first, to the ten thousandth, is that of the second or the second rounded to an integer. -/
def Confused (old new : ScreenReq) : Prop :=
  old.seed = new.seed ∧ old.dim = new.dim ∧ old.single = new.single ∧ roundEvenF (old.pitch * 1000) = roundEvenF (new.pitch * 1000) ∧
    (roundEvenF (old.l0 * 10000) = roundEvenF (new.l0 * 10000) ∨ roundEvenF (old.l0 * 10000) = 10000 * roundEvenF new.l0)

/-- Everything on the disk was computed for one of the requests. -/
def DiskOf {S : Type} (compute : ScreenReq → S) (past : List ScreenReq) (disk : ScreenName → Option S) : Prop :=
  ∀ nm s, disk nm = some s → ∃ q ∈ past, some nm = (screenNames q).head? ∧ s = compute q

theorem getScreen_spec {S : Type} (compute : ScreenReq → S) (past : List ScreenReq) (disk : ScreenName → Option S) (hd : DiskOf compute past disk) (q : ScreenReq) :
    (∃ q' ∈ q :: past, Confused q' q ∧ (getScreen compute disk q).1 = compute q') ∧ DiskOf compute (q :: past) (getScreen compute disk q).2 := by
  unfold getScreen
  cases h : (screenNames q).findSome? disk with
  | some s =>
    dsimp only
    obtain ⟨nm, hm, hs⟩ := List.exists_of_findSome?_eq_some h
    obtain ⟨q', hq', hn, hv⟩ := hd nm s hs
    refine ⟨⟨q', List.mem_cons_of_mem _ hq', ?_, hv⟩, ?_⟩
    · simp only [screenNames, List.head?_cons, Option.some.injEq] at hn
      subst hn
      simp only [screenNames, List.mem_cons, ScreenName.mk.injEq, List.not_mem_nil, or_false, Bool.false_eq_true, false_and] at hm
      unfold Confused
      rcases hm with hm | hm
      · exact ⟨hm.2.1, hm.2.2.1, hm.2.2.2.2.2, hm.2.2.2.1, Or.inl hm.2.2.2.2.1⟩
      · exact ⟨hm.2.1, hm.2.2.1, hm.2.2.2.2.2, hm.2.2.2.1, Or.inr hm.2.2.2.2.1⟩
    · intro nm' s' hs'
      obtain ⟨a, b, c⟩ := hd nm' s' hs'
      exact ⟨a, List.mem_cons_of_mem _ b, c⟩
  | none =>
    dsimp only
    refine ⟨⟨q, List.mem_cons_self, ⟨rfl, rfl, rfl, rfl, Or.inl rfl⟩, rfl⟩, ?_⟩
    intro nm' s' hs'
    by_cases hn : some nm' = (screenNames q).head?
    · dsimp only at hs'
      rw [if_pos hn] at hs'
      exact ⟨q, List.mem_cons_self, hn, (Option.some.inj hs').symm⟩
    · dsimp only at hs'
      rw [if_neg hn] at hs'
      obtain ⟨a, b, c⟩ := hd nm' s' hs'
      exact ⟨a, List.mem_cons_of_mem _ b, c⟩

theorem screenRun_spec {S : Type} (compute : ScreenReq → S) : ∀ (qs past : List ScreenReq) (disk : ScreenName → Option S), DiskOf compute past disk →
    (screenRun compute disk qs).1.length = qs.length ∧
    ∀ i s, (screenRun compute disk qs).1[i]? = some s → ∃ q q', qs[i]? = some q ∧ (q' ∈ past ∨ q' ∈ qs.take (i + 1)) ∧ Confused q' q ∧ s = compute q'
  | [], past, disk, hd => ⟨rfl, fun i s h => by simp [screenRun] at h⟩
  | q :: qs, past, disk, hd => by
    obtain ⟨⟨q', hq', hc, hv⟩, hd'⟩ := getScreen_spec compute past disk hd q
    obtain ⟨hl, hi⟩ := screenRun_spec compute qs (q :: past) _ hd'
    refine ⟨by simp [screenRun, hl], ?_⟩
    intro i s hs
    cases i with
    | zero =>
      simp only [screenRun, List.getElem?_cons_zero, Option.some.injEq] at hs
      subst hs
      refine ⟨q, q', by simp, ?_, hc, hv⟩
      rcases List.mem_cons.1 hq' with rfl | h
      · exact Or.inr (by simp)
      · exact Or.inl h
    | succ i =>
      simp only [screenRun, List.getElem?_cons_succ] at hs
      obtain ⟨a, b, h1, h2, h3, h4⟩ := hi i s hs
      refine ⟨a, b, by simpa using h1, ?_, h3, h4⟩
      rcases h2 with h | h
      · rcases List.mem_cons.1 h with rfl | h
        · exact Or.inr (by simp)
        · exact Or.inl h
      · exact Or.inr (by simp [h])

/-- **C103** (screens on disk): starting with an empty directory, whatever is asked and in whatever order, the screen given for a request is the one computed for
that request or an earlier one, which the store does not tell apart from it. -/
theorem C103_store {S : Type} (compute : ScreenReq → S) (qs : List ScreenReq) (i : ℕ) (s : S) (h : (screenRun compute (fun _ => none) qs).1[i]? = some s) :
    ∃ q q', qs[i]? = some q ∧ q' ∈ qs.take (i + 1) ∧ Confused q' q ∧ s = compute q' := by
  obtain ⟨q, q', h1, h2, h3, h4⟩ := (screenRun_spec compute qs [] (fun _ => none) (fun nm s hs => by simp at hs)).2 i s h
  exact ⟨q, q', h1, h2.resolve_left (by simp), h3, h4⟩

/-- A pitch in whole thousandths and an outer scale in whole metres. -/
def PlainReq (q : ScreenReq) : Prop := (∃ a : ℤ, q.pitch * 1000 = a) ∧ ∃ b : ℤ, q.l0 = b

theorem plain_confused (a b : ScreenReq) (ha : PlainReq a) (hb : PlainReq b) (h : Confused a b) : a = b := by
  obtain ⟨⟨p, hp⟩, l, hl⟩ := ha
  obtain ⟨⟨p', hp'⟩, l', hl'⟩ := hb
  obtain ⟨h1, h2, h3, h4, h5⟩ := h
  have r : ∀ m : ℤ, roundEvenF (m : ℚ) = m := fun m => roundEvenF_int m
  rw [hp, hp', r, r] at h4
  have e1 : a.l0 * 10000 = ((l * 10000 : ℤ) : ℚ) := by rw [hl]; push_cast; ring
  have e2 : b.l0 * 10000 = ((l' * 10000 : ℤ) : ℚ) := by rw [hl']; push_cast; ring
  rw [e1, e2, hl', r, r, r] at h5
  have hll : l = l' := by omega
  have hpp : a.pitch = b.pitch := by
    have : a.pitch * 1000 = b.pitch * 1000 := by rw [hp, hp', h4]
    linarith
  cases a; cases b
  simp only at h1 h2 h3 hpp hl hl'
  subst h1 h2 h3 hpp hl hl'
  rw [hll]

/-- **C103** (exact store): when all the pitches are in whole thousandths and all the outer scales in whole metres, every request gets its own screen. -/
theorem C103_exact {S : Type} (compute : ScreenReq → S) (qs : List ScreenReq) (hq : ∀ q ∈ qs, PlainReq q) :
    (screenRun compute (fun _ => none) qs).1 = qs.map compute := by
  apply List.ext_getElem?
  intro i
  have hl := (screenRun_spec compute qs [] (fun _ => none) (fun nm s hs => by simp at hs)).1
  cases h : (screenRun compute (fun _ => none) qs).1[i]? with
  | none =>
    rw [List.getElem?_eq_none_iff, hl] at h
    rw [eq_comm, List.getElem?_eq_none_iff, List.length_map]
    exact h
  | some s =>
    obtain ⟨q, q', h1, h2, h3, h4⟩ := C103_store compute qs i s h
    have := plain_confused q' q (hq _ (List.mem_of_mem_take h2)) (hq _ (List.mem_of_getElem? h1)) h3
    rw [List.getElem?_map, h1, h4, this]; rfl

theorem getScreen_keeps {S : Type} (compute : ScreenReq → S) (disk : ScreenName → Option S) (q : ScreenReq) (nm : ScreenName) (s : S) (h : disk nm = some s) :
    (getScreen compute disk q).2 nm = some s := by
  unfold getScreen
  cases hf : (screenNames q).findSome? disk with
  | some s' => exact h
  | none =>
    dsimp only
    by_cases hn : some nm = (screenNames q).head?
    · exfalso
      rw [List.findSome?_eq_none_iff] at hf
      have := hf nm (List.mem_of_mem_head? hn.symm)
      rw [this] at h
      cases h
    · rw [if_neg hn]; exact h

theorem screenRun_keeps {S : Type} (compute : ScreenReq → S) (nm : ScreenName) (s : S) : ∀ (qs : List ScreenReq) (disk : ScreenName → Option S), disk nm = some s →
    (screenRun compute disk qs).2 nm = some s
  | [], disk, h => h
  | q :: qs, disk, h => screenRun_keeps compute nm s qs _ (getScreen_keeps compute disk q nm s h)

/-- **C103** (screens are kept): a screen computed and written for a request is what every later request of the same gets, whatever is asked in between; files
are never changed. -/
theorem C103_kept {S : Type} (compute : ScreenReq → S) (disk : ScreenName → Option S) (q : ScreenReq) (hq : ∀ nm ∈ screenNames q, disk nm = none) (qs : List ScreenReq) :
    (getScreen compute (screenRun compute (getScreen compute disk q).2 qs).2 q).1 = compute q ∧
      ∀ nm s, disk nm = some s → (screenRun compute disk qs).2 nm = some s := by
  refine ⟨?_, fun nm s h => screenRun_keeps compute nm s qs disk h⟩
  have h0 : (screenNames q).findSome? disk = none := List.findSome?_eq_none_iff.2 hq
  obtain ⟨nm, tl, hl⟩ : ∃ nm tl, screenNames q = nm :: tl := ⟨_, _, rfl⟩
  have h1 : (getScreen compute disk q).2 nm = some (compute q) := by
    unfold getScreen
    rw [h0]
    dsimp only
    rw [hl, List.head?_cons, if_pos rfl]
  have h2 := screenRun_keeps compute nm _ qs _ h1
  have h3 : (screenNames q).findSome? (screenRun compute (getScreen compute disk q).2 qs).2 = some (compute q) := by
    rw [hl, List.findSome?_cons, h2]
  rw [getScreen, h3]

/-- **C103** (lists): a list of seeds gives one screen per seed, each asked with its own outer scale, or with the only one; any other number of outer scales
raises as soon as there is a seed. -/
theorem C103_list {S : Type} (compute : ScreenReq → S) (disk : ScreenName → Option S) (l0 : List ℚ) (dim : ℕ) (pitch : ℚ) (single : Bool) (seeds : List ℤ) :
    (screenManager compute disk l0 dim pitch single seeds = none ↔ seeds ≠ [] ∧ l0.length ≠ seeds.length ∧ l0.length ≠ 1) ∧
    (l0.length = seeds.length → screenManager compute disk l0 dim pitch single seeds =
      some (screenRun compute disk ((seeds.zip l0).map fun e => ⟨e.1, dim, pitch, e.2, single⟩))) ∧
    (∀ l, l0 = [l] → screenManager compute disk l0 dim pitch single seeds =
      some (screenRun compute disk (seeds.map fun e => ⟨e, dim, pitch, l, single⟩))) := by
  have run : ∀ (g : ℕ → Option ℚ) (f : ℕ → ℚ) (sd : List ℤ) (k : ℕ) (acc : List S) (dk : ScreenName → Option S), (∀ i, i < sd.length → g (k + i) = some (f (k + i))) →
      (sd.zipIdx k).foldlM (fun (st : List S × (ScreenName → Option S)) e => (g e.2).map fun l =>
        let r := getScreen compute st.2 ⟨e.1, dim, pitch, l, single⟩
        (st.1 ++ [r.1], r.2)) (acc, dk) =
      some (acc ++ (screenRun compute dk ((sd.zipIdx k).map fun e => ⟨e.1, dim, pitch, f e.2, single⟩)).1,
        (screenRun compute dk ((sd.zipIdx k).map fun e => ⟨e.1, dim, pitch, f e.2, single⟩)).2) := by
    intro g f sd
    induction sd with
    | nil => intro k acc dk _; simp [screenRun]
    | cons a sd ih =>
      intro k acc dk h
      have h0 := h 0 (by simp)
      rw [Nat.add_zero] at h0
      rw [List.zipIdx_cons, List.foldlM_cons, List.map_cons]
      dsimp only
      rw [h0]
      have := ih (k + 1) (acc ++ [(getScreen compute dk ⟨a, dim, pitch, f k, single⟩).1]) (getScreen compute dk ⟨a, dim, pitch, f k, single⟩).2 (by
        intro i hi
        have := h (i + 1) (by simpa using hi)
        rwa [show k + 1 + i = k + (i + 1) by omega])
      simp only [Option.map_some, Option.bind_eq_bind, Option.bind_some]
      rw [this]
      simp [screenRun]
  have c2 : l0.length = seeds.length → screenManager compute disk l0 dim pitch single seeds =
      some (screenRun compute disk ((seeds.zip l0).map fun e => ⟨e.1, dim, pitch, e.2, single⟩)) := by
    intro h
    unfold screenManager
    refine (run (fun k => if l0.length = seeds.length then l0[k]? else if l0.length = 1 then l0[0]? else none) (fun i => l0.getD i 0) seeds 0 [] disk (fun i hi => by
      rw [if_pos h, Nat.zero_add]
      rw [List.getD_eq_getElem?_getD, List.getElem?_eq_getElem (by omega)]; rfl)).trans ?_
    rw [List.nil_append]
    have e : (seeds.zipIdx 0).map (fun e => (⟨e.1, dim, pitch, l0.getD e.2 0, single⟩ : ScreenReq)) = (seeds.zip l0).map fun e => ⟨e.1, dim, pitch, e.2, single⟩ := by
      apply List.ext_getElem (by simp [h])
      intro i h1 h2
      simp only [List.getElem_map, List.getElem_zipIdx, List.getElem_zip, Nat.zero_add]
      rw [List.getD_eq_getElem?_getD, List.getElem?_eq_getElem (by simp at h2; omega)]; rfl
    rw [e]
  have c3 : ∀ l, l0 = [l] → screenManager compute disk l0 dim pitch single seeds =
      some (screenRun compute disk (seeds.map fun e => ⟨e, dim, pitch, l, single⟩)) := by
    intro l hl
    unfold screenManager
    refine (run (fun k => if l0.length = seeds.length then l0[k]? else if l0.length = 1 then l0[0]? else none) (fun _ => l) seeds 0 [] disk (fun i hi => by
      subst hl
      by_cases hh : [l].length = seeds.length
      · rw [if_pos hh]
        simp at hh
        have : i = 0 := by omega
        subst this; rfl
      · rw [if_neg hh, if_pos (List.length_singleton)]; rfl)).trans ?_
    rw [List.nil_append]
    have e : (seeds.zipIdx 0).map (fun e => (⟨e.1, dim, pitch, l, single⟩ : ScreenReq)) = seeds.map fun e => ⟨e, dim, pitch, l, single⟩ := by
      apply List.ext_getElem (by simp)
      intro i h1 h2
      simp
    rw [e]
  refine ⟨⟨?_, ?_⟩, c2, c3⟩
  · intro h
    refine ⟨?_, fun hc => ?_, fun hc => ?_⟩
    · rintro rfl; simp [screenManager] at h
    · rw [c2 hc] at h; cases h
    · obtain ⟨l, rfl⟩ := List.length_eq_one_iff.1 hc
      rw [c3 l rfl] at h; cases h
  · intro ⟨h1, h2, h3⟩
    obtain ⟨a, tl, rfl⟩ := List.exists_cons_of_ne_nil h1
    unfold screenManager
    rw [List.zipIdx_cons, List.foldlM_cons]
    dsimp only
    rw [if_neg h2, if_neg h3]
    rfl

/-- **C103** (the code disagrees): after a screen for an outer scale of 20 metres, one of 20.4 metres is asked for and the first is given; two pitches less than
a thousandth apart are the same screen, too. -/
theorem C103_confused {S : Type} (compute : ScreenReq → S) (seed : ℤ) (dim : ℕ) (single : Bool) :
    (screenRun compute (fun _ => none) [⟨seed, dim, 1 / 50, 20, single⟩, ⟨seed, dim, 1 / 50, 204 / 10, single⟩]).1 =
      [compute ⟨seed, dim, 1 / 50, 20, single⟩, compute ⟨seed, dim, 1 / 50, 20, single⟩] ∧
    (screenRun compute (fun _ => none) [⟨seed, dim, 204 / 10000, 20, single⟩, ⟨seed, dim, 196 / 10000, 20, single⟩]).1 =
      [compute ⟨seed, dim, 204 / 10000, 20, single⟩, compute ⟨seed, dim, 204 / 10000, 20, single⟩] := by
  have r2 : roundEvenF ((20 : ℚ) * 10000) = 200000 := roundEvenF_eq _ _ (by norm_num)
  have r3 : roundEvenF ((204 / 10 : ℚ) * 10000) = 204000 := roundEvenF_eq _ _ (by norm_num)
  have r4 : roundEvenF (204 / 10 : ℚ) = 20 := roundEvenF_eq _ _ (by norm_num [abs_lt])
  have r5 : roundEvenF (20 : ℚ) = 20 := roundEvenF_eq _ _ (by norm_num)
  have r6 : roundEvenF ((204 / 10000 : ℚ) * 1000) = 20 := roundEvenF_eq _ _ (by norm_num [abs_lt])
  have r7 : roundEvenF ((196 / 10000 : ℚ) * 1000) = 20 := roundEvenF_eq _ _ (by norm_num [abs_lt])
  constructor <;> simp [screenRun, getScreen, screenNames, r2, r3, r4, r5, r6, r7]

/-! ### Two ways -/

section
variable {K : Type} [Field K] [LinearOrder K] [IsStrictOrderedRing K] [FloorRing K]

omit [IsStrictOrderedRing K] in
theorem evo_split (rotFn : K → Img K → Img K) (l : AtmoLayer K) (up pitch : K) (inps : List (AtmoIn K)) :
    ∀ st res : (K × K) × (Nat → Nat → K) × (Nat → Nat → K), evoUpDownRun rotFn l up pitch st inps = some res ↔
      atmoRun rotFn l pitch (st.1.1, st.2.1) inps = some (res.1.1, res.2.1) ∧
      atmoRun rotFn { l with extra := up } pitch (st.1.2, st.2.2) inps = some (res.1.2, res.2.2) := by
  induction inps with
  | nil =>
    intro st res
    obtain ⟨⟨a, b⟩, c, d⟩ := st
    obtain ⟨⟨a', b'⟩, c', d'⟩ := res
    simp only [evoUpDownRun, atmoRun, List.foldlM_nil, Option.pure_def, Option.some.injEq, Prod.mk.injEq]
    tauto
  | cons i inps ih =>
    intro st res
    unfold evoUpDownRun atmoRun at ih ⊢
    simp only [List.foldlM_cons, Option.bind_eq_bind, Option.bind_eq_some_iff]
    constructor
    · rintro ⟨s1, h1, h2⟩
      unfold evoUpDown at h1
      obtain ⟨d, hd, h1⟩ := Option.bind_eq_some_iff.1 h1
      obtain ⟨u, hu, h1⟩ := Option.map_eq_some_iff.1 h1
      subst h1
      obtain ⟨i1, i2⟩ := (ih _ _).1 h2
      exact ⟨⟨d, hd, i1⟩, ⟨u, hu, i2⟩⟩
    · rintro ⟨⟨d, hd, i1⟩, ⟨u, hu, i2⟩⟩
      refine ⟨((d.1, u.1), d.2, u.2), ?_, (ih _ _).2 ⟨i1, i2⟩⟩
      unfold evoUpDown
      rw [hd, Option.bind_some, hu]
      rfl

omit [IsStrictOrderedRing K] in
/-- **C103** (two ways): the two lists of layers do not act on each other: each is what an atmosphere with its own extra time gives. -/
theorem C103_two_ways (rotFn : K → Img K → Img K) (l : AtmoLayer K) (up pitch : K) (inps : List (AtmoIn K)) (st res : (K × K) × (Nat → Nat → K) × (Nat → Nat → K)) :
    evoUpDownRun rotFn l up pitch st inps = some res ↔
      atmoRun rotFn l pitch (st.1.1, st.2.1) inps = some (res.1.1, res.2.1) ∧
      atmoRun rotFn { l with extra := up } pitch (st.1.2, st.2.2) inps = some (res.1.2, res.2.2) := evo_split rotFn l up pitch inps st res

omit [IsStrictOrderedRing K] in
theorem atmoTrigger_eff (rotFn : K → Img K → Img K) (l l' : AtmoLayer K) (hs : l'.size = l.size) (hc : l'.screen = l.screen) (pitch pos pos' : K) (i i' : AtmoIn K)
    (hd : i'.dir = i.dir) (hsc : i'.scale = i.scale)
    (he : atmoMove l pitch pos i.wind i.dt + atmoOffset l pitch i.wind = atmoMove l' pitch pos' i'.wind i'.dt + atmoOffset l' pitch i'.wind)
    (r r' : K × (Nat → Nat → K)) (h : atmoTrigger rotFn l pitch pos i = some r) (h' : atmoTrigger rotFn l' pitch pos' i' = some r') : r.2 = r'.2 := by
  unfold atmoTrigger at h h'
  dsimp only at h h'
  rw [he] at h
  have hcut : ∀ e, atmoCut l' e = atmoCut l e := by intro e; unfold atmoCut; rw [hs, hc]
  rw [hcut, hd, hsc, hs] at h'
  obtain ⟨c, hc1, h⟩ := Option.bind_eq_some_iff.1 h
  obtain ⟨c', hc2, h'⟩ := Option.bind_eq_some_iff.1 h'
  rw [hc1] at hc2
  cases hc2
  obtain ⟨p, hp, h⟩ := Option.map_eq_some_iff.1 h
  obtain ⟨p', hp', h'⟩ := Option.map_eq_some_iff.1 h'
  rw [hp] at hp'
  cases hp'
  rw [← h, ← h']

/-- **C103** (lag): with a constant wind, and as long as neither list has reached the end of the screen, the layer of the way up after some time is the layer of the way down after
that time plus the difference of the extra times. -/
theorem C103_lag (rotFn : K → Img K → Img K) (l : AtmoLayer K) (up pitch wind : K) (hp : 0 < pitch) (hw : 0 ≤ wind) (inps inps' : List (AtmoIn K)) (i i' : AtmoIn K)
    (hi : ∀ k ∈ inps ++ [i], k.wind = wind ∧ 0 ≤ k.dt) (hi' : ∀ k ∈ inps' ++ [i'], k.wind = wind ∧ 0 ≤ k.dt) (hd : i'.dir = i.dir) (hsc : i'.scale = i.scale)
    (ph : (Nat → Nat → K) × (Nat → Nat → K)) (res res' : (K × K) × (Nat → Nat → K) × (Nat → Nat → K))
    (hr : evoUpDownRun rotFn l up pitch ((0, 0), ph) (inps ++ [i]) = some res) (hr' : evoUpDownRun rotFn l up pitch ((0, 0), ph) (inps' ++ [i']) = some res')
    (ht : ((inps' ++ [i']).map (·.dt)).sum + l.extra = ((inps ++ [i]).map (·.dt)).sum + up)
    (hend : wind * (((inps ++ [i]).map (·.dt)).sum + up) / pitch + l.size < l.screen.cols) : res.2.2 = res'.2.1 := by
  have hu := ((evo_split rotFn l up pitch _ _ _).1 hr).2
  have hdn := ((evo_split rotFn l up pitch _ _ _).1 hr').1
  have ef : wind * (((inps ++ [i]).map (·.dt)).sum + up) / pitch = wind * ((inps ++ [i]).map (·.dt)).sum / pitch + wind * up / pitch := by
    rw [mul_add, add_div]
  have ef' : wind * (((inps ++ [i]).map (·.dt)).sum + up) / pitch = wind * ((inps' ++ [i']).map (·.dt)).sum / pitch + wind * l.extra / pitch := by
    rw [← ht, mul_add, add_div]
  have pu := C43_advance rotFn { l with extra := up } pitch wind hp hw _ hi _ _ _ hu (by
    unfold atmoOffset; dsimp only; linarith)
  have pd := C43_advance rotFn l pitch wind hp hw _ hi' _ _ _ hdn (by
    unfold atmoOffset; dsimp only; linarith)
  dsimp only at pu pd
  unfold atmoRun at hu hdn
  rw [List.foldlM_append] at hu hdn
  obtain ⟨su, hu1, hu2⟩ := Option.bind_eq_some_iff.1 hu
  obtain ⟨sd, hd1, hd2⟩ := Option.bind_eq_some_iff.1 hdn
  simp only [List.foldlM_cons, List.foldlM_nil, Option.bind_eq_bind, Option.pure_def] at hu2 hd2
  have hb : ∀ o : Option (K × (Nat → Nat → K)), (o.bind fun x => some x) = o := fun o => by cases o <;> rfl
  rw [hb] at hu2 hd2
  have hfst : ∀ (l : AtmoLayer K) (pos : K) (i : AtmoIn K) (r : K × (Nat → Nat → K)), atmoTrigger rotFn l pitch pos i = some r → r.1 = atmoMove l pitch pos i.wind i.dt := by
    intro l pos i r h
    unfold atmoTrigger at h
    obtain ⟨c, _, h⟩ := Option.bind_eq_some_iff.1 h
    obtain ⟨p, _, h⟩ := Option.map_eq_some_iff.1 h
    rw [← h]
  have mu := hfst _ _ _ _ hu2
  have md := hfst _ _ _ _ hd2
  dsimp only at mu md
  have hwi : i.wind = wind := (hi i (by simp)).1
  have hwi' : i'.wind = wind := (hi' i' (by simp)).1
  refine atmoTrigger_eff rotFn { l with extra := up } l rfl rfl pitch _ _ i i' hd hsc ?_ _ _ hu2 hd2
  rw [← mu, ← md, pu, pd, hwi, hwi']
  unfold atmoOffset
  dsimp only
  linarith

end

/-- **C103** (the code disagrees): at the end of the screen each list starts again from zero by itself, so the lag between the two is lost: with a screen of ten pixels, layers of two, one pixel per
trigger and an extra time of three triggers on the way up, after five triggers the way up is two pixels behind the way down instead of three ahead. -/
theorem C103_wrap (scr : Img ℚ) (hs : scr.cols = 10) :
    let l : AtmoLayer ℚ := ⟨2, scr, 0⟩
    let i : AtmoIn ℚ := ⟨1, 0, 1, 1⟩
    atmoPositions l 1 0 (List.replicate 5 i) + atmoOffset l 1 1 = 5 ∧ atmoPositions { l with extra := 3 } 1 0 (List.replicate 5 i) + atmoOffset { l with extra := 3 } 1 1 = 3 := by
  constructor <;> simp [atmoPositions, atmoMove, atmoOffset, List.replicate, hs] <;> norm_num

/-! ### Examples -/

example : (List.range 8).map (rpShown 2 2 7) = [(7, 0), (7, 0), (7, 1), (7, 1), (8, 0), (9, 0), (9, 1), (9, 1)] := by decide
example : (List.range 7).map (rpShown 3 1 1) = [(1, 0), (1, 1), (1, 2), (2, 0), (2, 1), (2, 2), (3, 0)] := by decide
example : rpTile 2 3 (fun r c => (r, c)) 2 1 2 = (4, 2) := by decide
example : PlainReq ⟨1, 8192, 1 / 50, 25, true⟩ := ⟨⟨20, by norm_num⟩, 25, by norm_num⟩
example : ¬Confused ⟨1, 8192, 1 / 50, 25, true⟩ ⟨2, 8192, 1 / 50, 25, true⟩ := fun h => absurd h.1 (by decide)

/-- The hypotheses of `C103_lag` can be met: a ramp of ten pixels, an extra time of three triggers on the way up. -/
example : let l : AtmoLayer ℚ := ⟨2, ⟨2, 10, fun _ j => j⟩, 0⟩
    let i : AtmoIn ℚ := ⟨1, 0, 1, 1⟩
    (∃ res, evoUpDownRun (fun _ m => m) l 3 1 ((0, 0), fun _ _ => 0, fun _ _ => 0) ([] ++ [i]) = some res) ∧
    (∃ res, evoUpDownRun (fun _ m => m) l 3 1 ((0, 0), fun _ _ => 0, fun _ _ => 0) ([i, i, i] ++ [i]) = some res) ∧
    (([i, i, i] ++ [i]).map AtmoIn.dt).sum + l.extra = (([] ++ [i]).map AtmoIn.dt).sum + 3 ∧ 1 * ((([] ++ [i]).map AtmoIn.dt).sum + 3) / 1 + (l.size : ℚ) < l.screen.cols := by
  intro l i
  have key : ∀ inps : List (AtmoIn ℚ), (∀ k ∈ inps, k = i) → ∃ res, evoUpDownRun (fun _ m => m) l 3 1 ((0, 0), fun _ _ => 0, fun _ _ => 0) inps = some res := by
    intro inps h
    obtain ⟨a, ha, -⟩ := C43_inside (fun _ m => m) (fun _ _ => ⟨rfl, rfl⟩) l (by norm_num [AtmoLayer.Fits, l]) 1 one_pos (by norm_num [l]) inps
      (fun k hk => by rw [h k hk]; norm_num [AtmoIn.Ok, atmoOffset, l, i]) (0, fun _ _ => 0) (by norm_num)
    obtain ⟨b, hb, -⟩ := C43_inside (fun _ m => m) (fun _ _ => ⟨rfl, rfl⟩) { l with extra := 3 } (by norm_num [AtmoLayer.Fits, l]) 1 one_pos (by norm_num) inps
      (fun k hk => by rw [h k hk]; norm_num [AtmoIn.Ok, atmoOffset, l, i]) (0, fun _ _ => 0) (by norm_num)
    exact ⟨((a.1, b.1), a.2, b.2), (C103_two_ways _ _ _ _ _ _ _).2 ⟨ha, hb⟩⟩
  refine ⟨key _ (by simp), key _ (by simp), ?_, ?_⟩ <;> norm_num [l, i]

end Specula
