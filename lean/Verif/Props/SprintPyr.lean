import Verif.Model.SprintPyr
import Verif.Props.Dm
import Verif.Props.PyrSlopes
/-
C118: the interaction matrix computed by the estimator of mis-registrations for the pyramid.
-/
namespace Specula

section
variable {K : Type} [Field K] [LinearOrder K]

/-! ### Specification -/

/-- The vector with `a` at place `m` and zeros elsewhere. -/
def pokeOf (n m : Nat) (a : K) : List K := (List.range n).map fun k => if k = m then a else 0

/-- Slopes of a system that was just started, for one command: mirror, sensor, slope computer. -/
def systemSlopes (dm : DmCfg K) (npix : Nat) (wfs : List K → List K) (s : PyrCfg K) (cmd : List K) : Option (List (Option K)) :=
  (dmRun dm (dmInit dm npix) [cmd]).bind fun d => (pyrTrigger s (wfs d.phase)).map fun o => o.sx ++ o.sy

/-- `cols` is the matrix measured with pushes and pulls of the modes on a system with response `resp`: every slope of every column is
the difference of the slope after the push and after the pull, divided by twice the amplitude. -/
def IsPushPull (resp : List K → Option (List (Option K))) (n : Nat) (amp : K) (modes : List Nat) (cols : List (List (Option K))) : Prop :=
  cols.length = modes.length ∧ ∀ i m : Nat, modes[i]? = some m → ∃ push pull col : List (Option K), resp (pokeOf n m amp) = some push ∧
    resp (pokeOf n m (-amp)) = some pull ∧ cols[i]? = some col ∧ push.length = col.length ∧ pull.length = col.length ∧
    ∀ s < col.length, ∃ x y, push[s]? = some (some x) ∧ pull[s]? = some (some y) ∧ col[s]? = some (some ((x - y) / (2 * amp)))

/-! ### The copy of the mirror -/

omit [LinearOrder K] in
theorem phase_ext (idx : List Nat) (a b : List K) (hl : a.length = b.length)
    (hin : ∀ q < idx.length, a.getD (idx.getD q 0) 0 = b.getD (idx.getD q 0) 0)
    (ha : ∀ p, p ∉ idx → a.getD p 0 = 0) (hb : ∀ p, p ∉ idx → b.getD p 0 = 0) : a = b := by
  apply List.ext_getElem hl
  intro p h1 h2
  have key : a.getD p 0 = b.getD p 0 := by
    by_cases hp : p ∈ idx
    · obtain ⟨q, hq, e⟩ := List.getElem_of_mem hp
      have := hin q hq
      rwa [List.getD_eq_getElem?_getD (l := idx), List.getElem?_eq_getElem hq, Option.getD_some, e] at this
    · rw [ha p hp, hb p hp]
  rwa [List.getD_eq_getElem?_getD, List.getD_eq_getElem?_getD, List.getElem?_eq_getElem h1, List.getElem?_eq_getElem h2] at key

/-- The given objects fit together: no matrix of actuators; the influence functions have a row for every mode. -/
structure SpPyrCfg.WF (c : SpPyrCfg K) : Prop where
  few : c.main.modes.nmodes ≤ c.main.ifunc.rows
  pts : c.main.idx.length = c.main.ifunc.cols
  nodup : c.main.idx.Nodup
  bound : ∀ p ∈ c.main.idx, p < c.npix

omit [LinearOrder K] in
theorem spDm_wf (c : SpPyrCfg K) (h : c.WF) : (spDm c).WF c.npix :=
  ⟨by simp [spDm], Nat.le_refl _, Nat.le_refl _, h.pts, h.nodup, h.bound⟩

/-- States of the copy that calls can reach. -/
structure SpReady (c : SpPyrCfg K) (st : DmState K) : Prop where
  inv : DmInv (spDm c) c.npix st
  rest : ∀ k, c.main.modes.nmodes ≤ k → st.ifCmd.getD k 0 = 0

omit [LinearOrder K] in
theorem spReady_init (c : SpPyrCfg K) : SpReady c (dmInit (spDm c) c.npix) :=
  ⟨dmInv_init _ _, fun k _ => getD_replicate_zero _ k⟩

omit [LinearOrder K] in
/-- The phase after a command is the one asked by the command. -/
theorem spDm_step (c : SpPyrCfg K) (h : c.WF) (st : DmState K) (hst : SpReady c st) (cmd : List K)
    (hc : cmd.length = c.main.modes.nmodes) :
    ∃ st', dmTrigger (spDm c) st cmd = some st' ∧ SpReady c st' ∧ st'.phase.length = c.npix ∧
      (∀ q < c.main.idx.length, st'.phase.getD (c.main.idx.getD q 0) 0 =
        -∑ k ∈ Finset.range c.main.modes.nmodes, cmd.getD k 0 * c.main.ifunc.px k q) ∧
      ∀ p, p ∉ c.main.idx → st'.phase.getD p 0 = 0 := by
  obtain ⟨s, h1, h2, h3, h4⟩ := dm_step (spDm c) c.npix (spDm_wf c h) rfl st hst.inv cmd
  have hmin : min cmd.length (spDm c).modes.nmodes = c.main.modes.nmodes := by
    rw [hc]; exact Nat.min_eq_left h.few
  rw [hmin] at h3
  have h3' : ∀ k, s.ifCmd.getD k 0 = -cmd.getD k 0 := by
    intro k
    rw [h3 k]
    split
    · simp [spDm]
    · next hk => rw [hst.rest k (by omega), getD_beyond cmd k (by omega), neg_zero]
  refine ⟨s, h1, ⟨h2, fun k hk => ?_⟩, h2.len, fun q hq => ?_, h2.outside⟩
  · rw [h3' k, getD_beyond cmd k (by omega), neg_zero]
  · rw [show c.main.idx.getD q 0 = (spDm c).idx.getD q 0 from rfl, h4 q hq, ← Finset.sum_neg_distrib]
    symm
    have hsub : Finset.range c.main.modes.nmodes ⊆ Finset.range (spDm c).modes.nValid := by
      intro k hk
      rw [Finset.mem_range] at hk ⊢
      exact lt_of_lt_of_le hk h.few
    rw [Finset.sum_subset hsub]
    · refine Finset.sum_congr rfl fun k hk => ?_
      have hv : (spDm c).modes.valid.getD k 0 = k := by
        have : k < c.main.ifunc.rows := by simpa [spDm] using hk
        simp [spDm, List.getD_eq_getElem?_getD, this]
      rw [h3' k, hv]
      simp [spDm]
    · intro k _ hk
      rw [Finset.mem_range, not_lt] at hk
      rw [getD_beyond cmd k (by omega)]
      simp

omit [LinearOrder K] in
theorem spCmd_eq (n m : Nat) (a : K) (h : m < n) : spCmd n m a = some (pokeOf n m a) := by
  unfold spCmd pokeOf
  rw [if_pos h]
  congr 1
  apply List.ext_getElem
  · simp
  · intro i h1 h2
    simp [List.getElem_set, eq_comm]

omit [LinearOrder K] in
theorem pokeOf_length (n m : Nat) (a : K) : (pokeOf n m a).length = n := by simp [pokeOf]

omit [LinearOrder K] in
theorem pokeOf_getD (n m : Nat) (a : K) (k : Nat) : (pokeOf n m a).getD k 0 = if k = m ∧ m < n then a else 0 := by
  rw [List.getD_eq_getElem?_getD]
  by_cases hk : k < n
  · simp only [pokeOf, List.getElem?_map, List.getElem?_range hk, Option.map_some, Option.getD_some]
    by_cases e : k = m
    · subst e; simp [hk]
    · simp [e]
  · rw [List.getElem?_eq_none (by rw [pokeOf_length]; omega), if_neg (by omega)]
    rfl

omit [LinearOrder K] in
theorem poke_sum (n m : Nat) (a : K) (g : Nat → K) (hm : m < n) :
    ∑ k ∈ Finset.range n, (pokeOf n m a).getD k 0 * g k = a * g m := by
  rw [Finset.sum_eq_single m]
  · rw [pokeOf_getD, if_pos ⟨rfl, hm⟩]
  · intro k _ hk
    rw [pokeOf_getD, if_neg (fun e => hk e.1), zero_mul]
  · intro h
    exact absurd (Finset.mem_range.2 hm) h

/-! ### The scale of the frame -/

variable [IsStrictOrderedRing K]

theorem foldl_max_scale (k : K) (hk : 0 < k) (l : List K) (x : K) : (l.map (k * ·)).foldl max (k * x) = k * l.foldl max x := by
  induction l generalizing x with
  | nil => rfl
  | cons a l ih =>
    rw [List.map_cons, List.foldl_cons, List.foldl_cons, ← mul_max_of_nonneg _ _ hk.le, ih]

theorem spScale_brighter (k : K) (hk : 0 < k) (f : List K) : spScale (f.map (k * ·)) = spScale f := by
  cases f with
  | nil => rfl
  | cons x l =>
    unfold spScale frameMax
    rw [List.map_cons]
    simp only [Option.bind_some]
    rw [foldl_max_scale k hk]
    by_cases hm : l.foldl max x = 0
    · rw [if_pos (by rw [hm, mul_zero]), if_pos hm]
    · rw [if_neg (mul_ne_zero hk.ne' hm), if_neg hm, ← List.map_cons, List.map_map]
      congr 1
      apply List.map_congr_left
      intro y _
      simp only [Function.comp_apply]
      rw [mul_div_mul_left _ _ hk.ne']

omit [Field K] [IsStrictOrderedRing K] in
theorem foldl_max_bound (l : List K) (x : K) : x ≤ l.foldl max x ∧ ∀ y ∈ l, y ≤ l.foldl max x := by
  induction l generalizing x with
  | nil => exact ⟨le_refl _, by simp⟩
  | cons a l ih =>
    rw [List.foldl_cons]
    obtain ⟨h1, h2⟩ := ih (max x a)
    refine ⟨le_trans (le_max_left _ _) h1, fun y hy => ?_⟩
    rcases List.mem_cons.1 hy with rfl | hy
    · exact le_trans (le_max_right _ _) h1
    · exact h2 y hy

/-- A frame with light in the pupils is multiplied by a positive number. -/
theorem spScale_lit (s : PyrCfg K) (hthr : s.thr = 0) (f : List K) (hpos : 0 < pyrTotal s f) :
    ∃ k, 0 < k ∧ spScale f = some (f.map (k * ·)) := by
  have hx : ∃ y ∈ f, 0 < y := by
    by_contra hno
    push Not at hno
    have hz : ∀ q i, pyrLight s f q i = 0 := by
      intro q i
      unfold pyrLight
      rw [hthr, sub_zero]
      apply max_eq_right
      rw [List.getD_eq_getElem?_getD]
      cases hv : f[((s.ind q).getD i 0).toNat]? with
      | none => exact le_refl _
      | some v => exact hno v (List.mem_of_getElem? hv)
    unfold pyrTotal at hpos
    simp [hz] at hpos
  obtain ⟨y, hy, hy0⟩ := hx
  cases f with
  | nil => simp at hy
  | cons x l =>
    have hm : 0 < l.foldl max x := by
      obtain ⟨h1, h2⟩ := foldl_max_bound l x
      rcases List.mem_cons.1 hy with rfl | hy
      · exact lt_of_lt_of_le hy0 h1
      · exact lt_of_lt_of_le hy0 (h2 y hy)
    refine ⟨2 ^ 12 / l.foldl max x, by positivity, ?_⟩
    unfold spScale frameMax
    simp only [Option.bind_some]
    rw [if_neg hm.ne']
    congr 1
    apply List.map_congr_left
    intro z _
    field_simp

/-! ### Measurements -/

/-- The sensor sees light in the pupils whatever the phase and the registration; the slopes are the usual ones. -/
structure SpLit (c : SpPyrCfg K) (nf : Nat) : Prop where
  size : ∀ par ph, (c.wfs par ph).length = nf
  pups : c.slopec.WF nf
  light : ∀ par ph, 0 < pyrTotal (spSlopec c) (c.wfs par ph)
  norm : c.slopec.normFactor = none
  quad : c.slopec.shlike = false
  diff : c.slopec.fromIntensity = false

/-- The slopes of a system with a mirror that gives the same phase, a sensor `k` times as bright and a slope computer without threshold. -/
theorem sp_slopes_same (c : SpPyrCfg K) (nf : Nat) (hl : SpLit c nf) (hthr : c.slopec.thr = 0) (par : Fin 4 → K) (ph : List K) (k : K)
    (hk : 0 < k) :
    ∃ (o₁ o₂ : PyrOut K) (f : List K) (v : List K), spScale (c.wfs par ph) = some f ∧ pyrTrigger (spSlopec c) f = some o₁ ∧
      pyrTrigger c.slopec ((c.wfs par ph).map (k * ·)) = some o₂ ∧ o₁.sx ++ o₁.sy = v.map some ∧ o₂.sx ++ o₂.sy = v.map some ∧
      v.length = 2 * c.slopec.nSub := by
  have e : spSlopec c = c.slopec := by
    unfold spSlopec
    rw [← hthr]
  have hpos := hl.light par ph
  rw [e] at hpos ⊢
  have hwf : c.slopec.WF (c.wfs par ph).length := by rw [hl.size]; exact hl.pups
  obtain ⟨k', hk', hs⟩ := spScale_lit c.slopec hthr _ hpos
  obtain ⟨a, b, h1, h2, h3, h4, -⟩ := C38_brightness c.slopec _ hwf hl.diff hl.norm hl.quad hpos hthr k' hk'
  obtain ⟨a', b', g1, g2, g3, g4, -⟩ := C38_brightness c.slopec _ hwf hl.diff hl.norm hl.quad hpos hthr k hk
  obtain rfl : a = a' := Option.some.inj (h1.symm.trans g1)
  obtain ⟨d, d1, d2, d3⟩ := pyrTrigger_default c.slopec _ hwf hl.diff hl.norm hl.quad hpos
  obtain rfl : a = d := Option.some.inj (h1.symm.trans d1)
  refine ⟨b, b', _, (List.range c.slopec.nSub).map (pyrSx c.slopec (c.wfs par ph)) ++
    (List.range c.slopec.nSub).map (pyrSy c.slopec (c.wfs par ph)), hs, h2, g2, ?_, ?_, ?_⟩
  · rw [← h3, ← h4, d2, d3, List.map_append, List.map_map, List.map_map]; rfl
  · rw [← g3, ← g4, d2, d3, List.map_append, List.map_map, List.map_map]; rfl
  · simp; ring

theorem spColumn_some (amp : K) (ha : amp ≠ 0) (x y : List K) :
    spColumn amp (x.map some) (y.map some) = (List.zipWith (fun a b => (a - b) / (2 * amp)) x y).map some := by
  have h2 : (2 : K) * amp ≠ 0 := mul_ne_zero two_ne_zero ha
  unfold spColumn
  rw [List.zipWith_map, List.map_zipWith]
  congr 1
  funext a b
  rw [if_neg h2]
  rfl

/-- Calls always succeed and leave a state like the initial one; each column comes from the poke's phase alone. -/
theorem sp_modes (c : SpPyrCfg K) (nf : Nat) (h : c.WF) (hl : SpLit c nf) (ms : List Nat)
    (hm : ∀ m ∈ ms, m < c.main.modes.nmodes) (st : SpPyrSt K) (hst : SpReady c st.dm) :
    ∃ st' cols, spModes c st ms = some (st', cols) ∧ SpReady c st'.dm ∧ st'.par = st.par ∧ cols.length = ms.length ∧
      ∀ i m : Nat, ms[i]? = some m → ∃ col ph₁ ph₂ f₁ f₂ o₁ o₂, cols[i]? = some col ∧ ph₁.length = c.npix ∧ ph₂.length = c.npix ∧
        (∀ q < c.main.idx.length, ph₁.getD (c.main.idx.getD q 0) 0 = -(c.amp * c.main.ifunc.px m q) ∧
          ph₂.getD (c.main.idx.getD q 0) 0 = c.amp * c.main.ifunc.px m q) ∧
        (∀ p, p ∉ c.main.idx → ph₁.getD p 0 = 0 ∧ ph₂.getD p 0 = 0) ∧
        spScale (c.wfs st.par ph₁) = some f₁ ∧ spScale (c.wfs st.par ph₂) = some f₂ ∧
        pyrTrigger (spSlopec c) f₁ = some o₁ ∧ pyrTrigger (spSlopec c) f₂ = some o₂ ∧
        col = spColumn c.amp (o₁.sx ++ o₁.sy) (o₂.sx ++ o₂.sy) := by
  induction ms generalizing st with
  | nil => exact ⟨st, [], rfl, hst, rfl, rfl, by simp⟩
  | cons m ms ih =>
    have hmm := hm m List.mem_cons_self
    have hlit : ∀ ph, ∃ f o, spScale (c.wfs st.par ph) = some f ∧ pyrTrigger (spSlopec c) f = some o := by
      intro ph
      obtain ⟨k, hk, e⟩ := spScale_lit (spSlopec c) rfl _ (hl.light st.par ph)
      have hw : (spSlopec c).WF ((c.wfs st.par ph).map (k * ·)).length := by
        rw [List.length_map, hl.size]; exact ⟨hl.pups.pos, hl.pups.len, hl.pups.bound⟩
      exact ⟨_, _, e, pyrTrigger_eq (spSlopec c) _ hw⟩
    obtain ⟨d1, t1, r1, l1, p1, q1⟩ := spDm_step c h st.dm hst (pokeOf c.main.modes.nmodes m c.amp) (pokeOf_length _ _ _)
    obtain ⟨d2, t2, r2, l2, p2, q2⟩ := spDm_step c h d1 r1 (pokeOf c.main.modes.nmodes m (-c.amp)) (pokeOf_length _ _ _)
    obtain ⟨f1, o1, e1, g1⟩ := hlit d1.phase
    obtain ⟨f2, o2, e2, g2⟩ := hlit d2.phase
    have hmode : spMode c st m = some (⟨d2, st.par⟩, spColumn c.amp (o1.sx ++ o1.sy) (o2.sx ++ o2.sy)) := by
      unfold spMode
      rw [spCmd_eq _ _ _ hmm, spCmd_eq _ _ _ hmm]
      simp only [Option.bind_some, spMeasure, t1, e1, g1, Option.map_some, t2, e2, g2]
    obtain ⟨st', cols, c1, c2, c3, c4, c5⟩ := ih (fun x hx => hm x (List.mem_cons_of_mem _ hx)) ⟨d2, st.par⟩ r2
    refine ⟨st', spColumn c.amp (o1.sx ++ o1.sy) (o2.sx ++ o2.sy) :: cols, ?_, c2, c3, by simp [c4], ?_⟩
    · unfold spModes
      rw [hmode]
      simp only [Option.bind_some, c1, Option.map_some]
    · intro i x hx
      cases i with
      | zero =>
        obtain rfl : m = x := by simpa using hx
        refine ⟨_, d1.phase, d2.phase, f1, f2, o1, o2, rfl, l1, l2, fun q hq => ⟨?_, ?_⟩, fun p hp => ⟨q1 p hp, q2 p hp⟩, e1, e2, g1, g2, rfl⟩
        · rw [p1 q hq, poke_sum _ _ _ (fun k => c.main.ifunc.px k q) hmm]
        · rw [p2 q hq, poke_sum _ _ _ (fun k => c.main.ifunc.px k q) hmm, neg_mul, neg_neg]
      | succ i => exact c5 i x (by simpa using hx)

theorem sp_calls (c : SpPyrCfg K) (nf : Nat) (h : c.WF) (hl : SpLit c nf) (hm : ∀ m ∈ c.modes, m < c.main.modes.nmodes)
    (ps : List (Fin 4 → K)) (st : SpPyrSt K) (hst : SpReady c st.dm) : ∃ st', spCalls c st ps = some st' ∧ SpReady c st'.dm := by
  induction ps generalizing st with
  | nil => exact ⟨st, rfl, hst⟩
  | cons p ps ih =>
    obtain ⟨s1, cols, e, r, -⟩ := sp_modes c nf h hl c.modes hm ⟨st.dm, spPar p⟩ hst
    obtain ⟨s2, e2, r2⟩ := ih s1 r
    refine ⟨s2, ?_, r2⟩
    unfold spCalls spNominal
    rw [e]
    exact e2

omit [LinearOrder K] [IsStrictOrderedRing K] in
/-- A mirror with the same influence functions whose first mode is number `s`, and of sign `sg`: its phase for a poke. -/
theorem main_phase (c : SpPyrCfg K) (h : c.WF) (s : Nat) (hv : c.main.modes.valid = (List.range c.main.modes.nmodes).map (· + s))
    (hn : c.main.modes.nValid = c.main.modes.nmodes) (hs : c.main.modes.nmodes ≤ c.main.ifunc.rows) (hm2c : c.main.m2c = none)
    (m : Nat) (hmn : m < c.main.modes.nmodes) (a : K) :
    ∃ d, dmRun c.main (dmInit c.main c.npix) [pokeOf c.main.modes.nmodes m a] = some d ∧ d.phase.length = c.npix ∧
      (∀ q < c.main.idx.length, d.phase.getD (c.main.idx.getD q 0) 0 = c.main.sign * (a * c.main.ifunc.px (m + s) q)) ∧
      ∀ p, p ∉ c.main.idx → d.phase.getD p 0 = 0 := by
  have hw : c.main.WF c.npix := ⟨by rw [hv, hn]; simp, by rw [hn]; exact hs, hs, h.pts, h.nodup, h.bound⟩
  obtain ⟨d, h1, h2, h3, h4⟩ := C41_last_command c.main c.npix hw hm2c [] (pokeOf c.main.modes.nmodes m a)
    (by rw [pokeOf_length, hn]) (by rw [hn])
  refine ⟨d, h1, h2, fun q hq => ?_, h4⟩
  rw [h3 q hq]
  unfold dmShape
  rw [hn, poke_sum _ _ _ (fun k => c.main.ifunc.px (c.main.modes.valid.getD k 0) q) hmn]
  congr 3
  rw [hv, List.getD_eq_getElem?_getD]
  simp [hmn]

/-- One column of the copy, and the same column of the system. -/
theorem sp_entry (amp g : K) (hamp : amp ≠ 0) (x y : List K) (hlen : x.length = y.length) (hg : g = 1 ∨ g = -1) :
    ∃ push pull col : List (Option K), (if g = 1 then x else y).map some = push ∧ (if g = 1 then y else x).map some = pull ∧
      (spColumn amp (x.map some) (y.map some)).map (Option.map (g * ·)) = col ∧ push.length = col.length ∧ pull.length = col.length ∧
      ∀ s < col.length, ∃ u v, push[s]? = some (some u) ∧ pull[s]? = some (some v) ∧ col[s]? = some (some ((u - v) / (2 * amp))) := by
  refine ⟨_, _, _, rfl, rfl, rfl, ?_, ?_, ?_⟩
  · rw [spColumn_some amp hamp]
    split <;> simp [hlen]
  · rw [spColumn_some amp hamp]
    split <;> simp [hlen]
  · intro s hs
    rw [spColumn_some amp hamp] at hs ⊢
    simp only [List.length_map, List.length_zipWith] at hs
    have h1 : s < x.length := by omega
    have h2 : s < y.length := by omega
    rcases hg with rfl | rfl
    · refine ⟨x[s], y[s], by simp [h1], by simp [h2], by simp [h1, h2]⟩
    · have hne : ¬((-1 : K) = 1) := by
        intro e
        have : (2 : K) = 0 := by linear_combination -e
        exact two_ne_zero this
      refine ⟨y[s], x[s], by simp [hne, h2], by simp [hne, h1], ?_⟩
      simp only [List.getElem?_map, List.getElem?_zipWith, List.getElem?_eq_getElem h1, List.getElem?_eq_getElem h2, Option.map_some,
        Option.some.injEq]
      ring

/-- The copy against a mirror with sign and first mode. -/
theorem sp_general (c : SpPyrCfg K) (nf : Nat) (h : c.WF) (hl : SpLit c nf) (hthr : c.slopec.thr = 0) (hamp : c.amp ≠ 0) (s : Nat)
    (hv : c.main.modes.valid = (List.range c.main.modes.nmodes).map (· + s)) (hn : c.main.modes.nValid = c.main.modes.nmodes)
    (hm2c : c.main.m2c = none) (g : K) (hsg : c.main.sign = -g) (hg : g = 1 ∨ g = -1) (ms : List Nat) (hmodes : c.modes = ms.map (· + s))
    (hm : ∀ m ∈ c.modes, m < c.main.modes.nmodes) (p₀ : Fin 4 → K) (ps : List (Fin 4 → K)) (p : Fin 4 → K) (k : K) (hk : 0 < k) :
    ∃ st st' cols, spCalls c (spPyrInit c p₀) ps = some st ∧ spNominal c st p = some (st', cols) ∧
      IsPushPull (systemSlopes c.main c.npix (fun ph => (c.wfs (spPar p) ph).map (k * ·)) c.slopec) c.main.modes.nmodes
        c.amp ms (cols.map fun col => col.map (Option.map (g * ·))) := by
  obtain ⟨st, e1, r1⟩ := sp_calls c nf h hl hm ps (spPyrInit c p₀) (spReady_init c)
  obtain ⟨st', cols, e2, -, -, n2, hcol⟩ := sp_modes c nf h hl c.modes hm ⟨st.dm, spPar p⟩ r1
  refine ⟨st, st', cols, e1, e2, by rw [List.length_map, n2, hmodes, List.length_map], fun i m hi => ?_⟩
  have hi' : c.modes[i]? = some (m + s) := by rw [hmodes, List.getElem?_map, hi]; rfl
  have hms : m + s < c.main.modes.nmodes := hm _ (List.mem_of_getElem? hi')
  have hmn : m < c.main.modes.nmodes := by omega
  obtain ⟨col, ph₁, ph₂, f₁, f₂, o₁, o₂, k1, l1, l2, hin, hout, s1, s2, t1, t2, hc⟩ := hcol i (m + s) hi'
  obtain ⟨d₁, a1, a2, a3, a4⟩ := main_phase c h s hv hn h.few hm2c m hmn c.amp
  obtain ⟨d₂, b1, b2, b3, b4⟩ := main_phase c h s hv hn h.few hm2c m hmn (-c.amp)
  obtain ⟨u₁, w₁, f₁', x, v1, v2, v3, v4, v5, v6⟩ := sp_slopes_same c nf hl hthr (spPar p) ph₁ k hk
  obtain ⟨u₂, w₂, f₂', y, z1, z2, z3, z4, z5, z6⟩ := sp_slopes_same c nf hl hthr (spPar p) ph₂ k hk
  obtain rfl : f₁ = f₁' := Option.some.inj (s1.symm.trans v1)
  obtain rfl : f₂ = f₂' := Option.some.inj (s2.symm.trans z1)
  obtain rfl : o₁ = u₁ := Option.some.inj (t1.symm.trans v2)
  obtain rfl : o₂ = u₂ := Option.some.inj (t2.symm.trans z2)
  rw [v4, z4] at hc
  obtain ⟨push, pull, col', q1, q2, q3, q4⟩ := sp_entry c.amp g hamp x y (by rw [v6, z6]) hg
  have hresp : ∀ (a : K) (d : DmState K) (ph : List K) (w : PyrOut K) (v : List K),
      dmRun c.main (dmInit c.main c.npix) [pokeOf c.main.modes.nmodes m a] = some d → d.phase = ph →
      pyrTrigger c.slopec ((c.wfs (spPar p) ph).map (k * ·)) = some w → w.sx ++ w.sy = v.map some →
      systemSlopes c.main c.npix (fun ph => (c.wfs (spPar p) ph).map (k * ·)) c.slopec (pokeOf c.main.modes.nmodes m a) =
        some (v.map some) := by
    intro a d ph w v ha hd hw hv'
    unfold systemSlopes
    rw [ha, Option.bind_some, hd, hw, Option.map_some, hv']
  have hcols : (cols.map fun col => col.map (Option.map (g * ·)))[i]? = some col' := by
    rw [List.getElem?_map, k1, ← q3, hc]; rfl
  refine ⟨push, pull, col', ?_, ?_, hcols, q4⟩
  · rw [← q1]
    rcases hg with rfl | rfl
    · rw [if_pos rfl]
      refine hresp _ d₁ ph₁ w₁ x a1 (phase_ext c.main.idx _ _ (by rw [a2, l1]) (fun q hq => ?_) a4 (fun p hp => (hout p hp).1)) v3 v5
      rw [a3 q hq, (hin q hq).1, hsg]; ring
    · rw [if_neg (by intro e; exact two_ne_zero (α := K) (by linear_combination -e))]
      refine hresp _ d₁ ph₂ w₂ y a1 (phase_ext c.main.idx _ _ (by rw [a2, l2]) (fun q hq => ?_) a4 (fun p hp => (hout p hp).2)) z3 z5
      rw [a3 q hq, (hin q hq).2, hsg]; ring
  · rw [← q2]
    rcases hg with rfl | rfl
    · rw [if_pos rfl]
      refine hresp _ d₂ ph₂ w₂ y b1 (phase_ext c.main.idx _ _ (by rw [b2, l2]) (fun q hq => ?_) b4 (fun p hp => (hout p hp).2)) z3 z5
      rw [b3 q hq, (hin q hq).2, hsg]; ring
    · rw [if_neg (by intro e; exact two_ne_zero (α := K) (by linear_combination -e))]
      refine hresp _ d₂ ph₁ w₁ x b1 (phase_ext c.main.idx _ _ (by rw [b2, l1]) (fun q hq => ?_) b4 (fun p hp => (hout p hp).1)) v3 v5
      rw [b3 q hq, (hin q hq).1, hsg]; ring

/-! ### The properties -/

/-- **C118** (the matrix of the system): for a mirror that uses its influence functions from the first and with the sign of a reflection,
and slopes without threshold and fixed normalisation, the matrix that is computed for a registration is the one that pushes and pulls on
the real system with that registration give, however bright it is and whatever was computed before. -/
theorem C118_measured (c : SpPyrCfg K) (nf : Nat) (h : c.WF) (hl : SpLit c nf) (hthr : c.slopec.thr = 0) (hamp : c.amp ≠ 0)
    (hv : c.main.modes.valid = List.range c.main.modes.nmodes) (hn : c.main.modes.nValid = c.main.modes.nmodes)
    (hm2c : c.main.m2c = none) (hsg : c.main.sign = -1) (hm : ∀ m ∈ c.modes, m < c.main.modes.nmodes)
    (p₀ : Fin 4 → K) (ps : List (Fin 4 → K)) (p : Fin 4 → K) (k : K) (hk : 0 < k) :
    ∃ st st' cols, spCalls c (spPyrInit c p₀) ps = some st ∧ spNominal c st p = some (st', cols) ∧
      IsPushPull (systemSlopes c.main c.npix (fun ph => (c.wfs ![p 0, p 1, p 2, 1 + p 3] ph).map (k * ·)) c.slopec) c.main.modes.nmodes
        c.amp c.modes cols := by
  obtain ⟨st, st', cols, h1, h2, h3⟩ := sp_general c nf h hl hthr hamp 0 (by simpa using hv) hn hm2c 1 hsg (Or.inl rfl) c.modes (by simp)
    hm p₀ ps p k hk
  refine ⟨st, st', cols, h1, h2, ?_⟩
  have e : (cols.map fun col => col.map (Option.map ((1 : K) * ·))) = cols := by
    simp
  rw [e] at h3
  exact h3

/-- **C118** (sign): the sign of the given mirror is not used: for a mirror of sign one, all columns are the opposite of those of the system. -/
theorem C118_sign_ignored (c : SpPyrCfg K) (nf : Nat) (h : c.WF) (hl : SpLit c nf) (hthr : c.slopec.thr = 0) (hamp : c.amp ≠ 0)
    (hv : c.main.modes.valid = List.range c.main.modes.nmodes) (hn : c.main.modes.nValid = c.main.modes.nmodes)
    (hm2c : c.main.m2c = none) (hsg : c.main.sign = 1) (hm : ∀ m ∈ c.modes, m < c.main.modes.nmodes) (p₀ p : Fin 4 → K) :
    ∃ st' cols, spNominal c (spPyrInit c p₀) p = some (st', cols) ∧
      IsPushPull (systemSlopes c.main c.npix (c.wfs ![p 0, p 1, p 2, 1 + p 3]) c.slopec) c.main.modes.nmodes
        c.amp c.modes (cols.map fun col => col.map (Option.map (- ·))) := by
  obtain ⟨st, st', cols, h1, h2, h3⟩ := sp_general c nf h hl hthr hamp 0 (by simpa using hv) hn hm2c (-1) (by rw [hsg]; ring) (Or.inr rfl)
    c.modes (by simp) hm p₀ [] p 1 one_pos
  obtain rfl : spPyrInit c p₀ = st := Option.some.inj h1
  refine ⟨st', cols, h2, ?_⟩
  simpa [spPar] using h3

/-- **C118** (first mode): the first mode of the given mirror is not used: if the mirror skips `s` influence functions, the columns
belong to the modes that are `s` places before those asked for. -/
theorem C118_start_ignored (c : SpPyrCfg K) (nf : Nat) (h : c.WF) (hl : SpLit c nf) (hthr : c.slopec.thr = 0) (hamp : c.amp ≠ 0) (s : Nat)
    (hv : c.main.modes.valid = (List.range c.main.modes.nmodes).map (· + s)) (hn : c.main.modes.nValid = c.main.modes.nmodes)
    (hm2c : c.main.m2c = none) (hsg : c.main.sign = -1) (ms : List Nat) (hmodes : c.modes = ms.map (· + s))
    (hm : ∀ m ∈ c.modes, m < c.main.modes.nmodes) (p₀ p : Fin 4 → K) :
    ∃ st' cols, spNominal c (spPyrInit c p₀) p = some (st', cols) ∧
      IsPushPull (systemSlopes c.main c.npix (c.wfs ![p 0, p 1, p 2, 1 + p 3]) c.slopec) c.main.modes.nmodes c.amp ms cols := by
  obtain ⟨st, st', cols, h1, h2, h3⟩ := sp_general c nf h hl hthr hamp s hv hn hm2c 1 hsg (Or.inl rfl) ms hmodes hm p₀ [] p 1 one_pos
  obtain rfl : spPyrInit c p₀ = st := Option.some.inj h1
  refine ⟨st', cols, h2, ?_⟩
  simpa [spPar] using h3

/-- **C118** (no memory): the matrix for a registration is the same after any earlier computations as after `setup`. -/
theorem C118_no_memory (c : SpPyrCfg K) (nf : Nat) (h : c.WF) (hl : SpLit c nf) (hm : ∀ m ∈ c.modes, m < c.main.modes.nmodes)
    (p₀ p₁ p : Fin 4 → K) (ps : List (Fin 4 → K)) :
    ∃ st s₁ s₂ cols, spCalls c (spPyrInit c p₀) ps = some st ∧ spNominal c st p = some (s₁, cols) ∧
      spNominal c (spPyrInit c p₁) p = some (s₂, cols) := by
  obtain ⟨st, e1, r1⟩ := sp_calls c nf h hl hm ps (spPyrInit c p₀) (spReady_init c)
  obtain ⟨s₁, cols, e2, -, -, n2, hc⟩ := sp_modes c nf h hl c.modes hm ⟨st.dm, spPar p⟩ r1
  obtain ⟨s₂, cols', e3, -, -, n3, hc'⟩ := sp_modes c nf h hl c.modes hm ⟨(spPyrInit c p₁).dm, spPar p⟩ (spReady_init c)
  refine ⟨st, s₁, s₂, cols, e1, e2, ?_⟩
  have : cols = cols' := by
    apply List.ext_getElem?
    intro i
    cases hi : c.modes[i]? with
    | none =>
      have hle : c.modes.length ≤ i := List.getElem?_eq_none_iff.1 hi
      rw [List.getElem?_eq_none (by omega), List.getElem?_eq_none (by omega)]
    | some m =>
      obtain ⟨col, ph₁, ph₂, f₁, f₂, o₁, o₂, k1, l1, l2, hin, hout, g1, g2, t1, t2, hcol⟩ := hc i m hi
      obtain ⟨col', ph₁', ph₂', f₁', f₂', o₁', o₂', k1', l1', l2', hin', hout', g1', g2', t1', t2', hcol'⟩ := hc' i m hi
      obtain rfl : ph₁ = ph₁' := phase_ext c.main.idx _ _ (by rw [l1, l1']) (fun q hq => by rw [(hin q hq).1, (hin' q hq).1])
        (fun p hp => (hout p hp).1) (fun p hp => (hout' p hp).1)
      obtain rfl : ph₂ = ph₂' := phase_ext c.main.idx _ _ (by rw [l2, l2']) (fun q hq => by rw [(hin q hq).2, (hin' q hq).2])
        (fun p hp => (hout p hp).2) (fun p hp => (hout' p hp).2)
      obtain rfl : f₁ = f₁' := Option.some.inj (g1.symm.trans g1')
      obtain rfl : f₂ = f₂' := Option.some.inj (g2.symm.trans g2')
      obtain rfl : o₁ = o₁' := Option.some.inj (t1.symm.trans t1')
      obtain rfl : o₂ = o₂' := Option.some.inj (t2.symm.trans t2')
      rw [k1, k1', hcol, hcol']
  rw [this]
  exact e3

/-- **C118** (brightness): the brightness assumed for the copy of the sensor has no effect at all, for any kind of slopes. -/
theorem C118_brightness (c : SpPyrCfg K) (k : K) (hk : 0 < k) (st : SpPyrSt K) (p : Fin 4 → K) :
    spNominal { c with wfs := fun par ph => (c.wfs par ph).map (k * ·) } st p = spNominal c st p := by
  have hmeas : ∀ s cmd, spMeasure { c with wfs := fun par ph => (c.wfs par ph).map (k * ·) } s cmd = spMeasure c s cmd := by
    intro s cmd
    unfold spMeasure
    simp only [spScale_brighter k hk]
    rfl
  have hmode : ∀ s m, spMode { c with wfs := fun par ph => (c.wfs par ph).map (k * ·) } s m = spMode c s m := by
    intro s m
    unfold spMode
    simp only [hmeas]
  have hall : ∀ (ms : List Nat) (s : SpPyrSt K),
      spModes { c with wfs := fun par ph => (c.wfs par ph).map (k * ·) } s ms = spModes c s ms := by
    intro ms
    induction ms with
    | nil => intro s; rfl
    | cons m ms ih =>
      intro s
      unfold spModes
      rw [hmode]
      simp only [ih]
  exact hall c.modes _

omit [LinearOrder K] [IsStrictOrderedRing K] in
/-- **C118** (linear part): if the slopes of the system for a push of size `a` are `z + a b + a² e`, the columns of a matrix measured with
pushes and pulls are exactly the `b`: offsets and curvature have no effect, nor has the amplitude. -/
theorem C118_linear_part [NeZero (2 : K)] (resp : List K → Option (List (Option K))) (n : Nat) (amp : K) (hamp : amp ≠ 0) (modes : List Nat)
    (cols : List (List (Option K))) (hp : IsPushPull resp n amp modes cols) (i m : Nat) (hi : modes[i]? = some m) (z b e : Nat → K) (L : Nat)
    (hr : ∀ a : K, resp (pokeOf n m a) = some ((List.range L).map fun s => some (z s + a * b s + a ^ 2 * e s))) :
    cols[i]? = some ((List.range L).map fun s => some (b s)) := by
  obtain ⟨push, pull, col, h1, h2, h3, h4, h5, h6⟩ := hp.2 i m hi
  rw [hr amp] at h1
  rw [hr (-amp)] at h2
  obtain rfl := Option.some.inj h1
  obtain rfl := Option.some.inj h2
  have hL : col.length = L := by simpa using h4.symm
  rw [h3]
  congr 1
  apply List.ext_getElem?
  intro s
  by_cases hs : s < L
  · obtain ⟨x, y, k1, k2, k3⟩ := h6 s (by omega)
    simp only [List.getElem?_map, List.getElem?_range hs, Option.map_some, Option.some.injEq] at k1 k2
    rw [k3]
    simp only [List.getElem?_map, List.getElem?_range hs, Option.map_some, Option.some.injEq]
    rw [← k1, ← k2]
    have : (2 : K) ≠ 0 := NeZero.ne _
    field_simp
    ring
  · rw [List.getElem?_eq_none (by omega), List.getElem?_eq_none (by simpa using hs)]

end

/-! ### A concrete system -/

/-- Two pixels, two influence functions, a sensor of two subapertures whose frame follows phase and shift. -/
def spExample : SpPyrCfg ℚ where
  main := ⟨⟨[0, 1], 2, 2⟩, ⟨2, 2, fun k q => if k = q then 1 else 0⟩, [0, 1], none, -1⟩
  slopec := ⟨![[0, 1], [2, 3], [4, 5], [6, 7]], 0, none, false, false⟩
  wfs := fun par ph => [10 + par 0 + ph.getD 0 0, 10, 10 - ph.getD 1 0, 10, 10, 10 + ph.getD 1 0, 8, 10 - ph.getD 0 0].map (max 1)
  modes := [1, 0]
  amp := 1
  npix := 2

example : spExample.WF := ⟨by decide, rfl, by decide, by decide⟩

example : SpLit spExample 8 where
  size := fun _ _ => rfl
  pups := ⟨by decide, by decide, by decide⟩
  light := fun par ph => by
    have hpos : ∀ x : ℚ, 0 < max (max 1 x - 0) 0 := fun x => by
      rw [sub_zero]; exact lt_of_lt_of_le one_pos (le_trans (le_max_left _ _) (le_max_left _ _))
    have h0 := hpos (10 + par 0 + ph.getD 0 0)
    have h1 := hpos 10
    have h2 := hpos (10 - ph.getD 1 0)
    have h3 := hpos (10 + ph.getD 1 0)
    have h4 := hpos 8
    have h5 := hpos (10 - ph.getD 0 0)
    have e : pyrTotal (spSlopec spExample) (spExample.wfs par ph) =
        max (max 1 (10 + par 0 + ph.getD 0 0) - 0) 0 + max (max 1 (10 - ph.getD 1 0) - 0) 0 + max (max 1 10 - 0) 0 + max (max 1 8 - 0) 0 +
        (max (max 1 10 - 0) 0 + max (max 1 10 - 0) 0 + max (max 1 (10 + ph.getD 1 0) - 0) 0 + max (max 1 (10 - ph.getD 0 0) - 0) 0) := by
      unfold pyrTotal
      rw [show (spSlopec spExample).nSub = 2 from rfl, Finset.sum_range_succ, Finset.sum_range_one]
      rfl
    rw [e]
    linarith
  norm := rfl
  quad := rfl
  diff := rfl

/-- The matrix for no mis-registration, after a computation for another one, and the one for a shift. -/
example : ((spCalls spExample (spPyrInit spExample 0) [![3, 0, 0, 0]]).bind fun st => (spNominal spExample st 0).map (·.2)) =
    (spNominal spExample (spPyrInit spExample 0) 0).map (·.2) ∧
    (spNominal spExample (spPyrInit spExample 0) 0).map (·.2) =
      some [[some (1 / 39), some (1 / 39), some (1 / 39), some (-1 / 39)], [some (-1 / 39), some (-1 / 39), some (1 / 39), some (-1 / 39)]] := by
  decide +kernel

/-- The same system with a threshold in the slope computer. -/
def spThrExample : SpPyrCfg ℚ := { spExample with slopec := ⟨spExample.slopec.ind, 5, none, false, false⟩ }

/-- **C118** (threshold): the threshold of the given slope computer is not used: with one, the computed matrix may not be the measured one. -/
theorem C118_threshold_ignored : ∃ st' cols, spNominal spThrExample (spPyrInit spThrExample 0) 0 = some (st', cols) ∧
    ¬IsPushPull (systemSlopes spThrExample.main spThrExample.npix (spThrExample.wfs ![0, 0, 0, 1]) spThrExample.slopec) 2 spThrExample.amp
      spThrExample.modes cols := by
  have hc : (spNominal spThrExample (spPyrInit spThrExample 0) 0).map (·.2) =
      some [[some (1 / 39), some (1 / 39), some (1 / 39), some (-1 / 39)], [some (-1 / 39), some (-1 / 39), some (1 / 39), some (-1 / 39)]] := by
    decide +kernel
  have hx : (systemSlopes spThrExample.main spThrExample.npix (spThrExample.wfs ![0, 0, 0, 1]) spThrExample.slopec (pokeOf 2 1 1)).map
      (·[0]?) = some (some (some (3 / 19))) := by decide +kernel
  have hy : (systemSlopes spThrExample.main spThrExample.npix (spThrExample.wfs ![0, 0, 0, 1]) spThrExample.slopec (pokeOf 2 1 (-1))).map
      (·[0]?) = some (some (some (1 / 19))) := by decide +kernel
  obtain ⟨⟨st', cols⟩, e1, e2⟩ := Option.map_eq_some_iff.1 hc
  refine ⟨st', cols, e1, fun hp => ?_⟩
  obtain ⟨push, pull, col, h1, h2, h3, -, -, h6⟩ := hp.2 0 1 rfl
  change cols = _ at e2
  rw [e2] at h3
  obtain rfl := Option.some.inj h3
  obtain ⟨x, y, k1, k2, k3⟩ := h6 0 (by decide)
  rw [show spThrExample.amp = 1 from rfl] at h1 h2 k3
  rw [h1] at hx
  rw [h2] at hy
  have hx' : x = 3 / 19 := by
    have := Option.some.inj (hx.symm.trans (congrArg some k1))
    simpa using this.symm
  have hy' : y = 1 / 19 := by
    have := Option.some.inj (hy.symm.trans (congrArg some k2))
    simpa using this.symm
  rw [hx', hy'] at k3
  norm_num at k3

end Specula
