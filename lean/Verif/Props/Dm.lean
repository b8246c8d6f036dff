import Verif.Model.Dm
import Verif.Props.SlopeVec
import Mathlib.Tactic.LinearCombination
/-
C41: deformable mirror.
-/
namespace Specula

section
variable {K : Type} [Field K]

omit [Field K] in
theorem getD_take [Zero K] (l : List K) (n k : Nat) : (l.take n).getD k 0 = if k < n then l.getD k 0 else 0 := by
  rw [List.getD_eq_getElem?_getD, List.getD_eq_getElem?_getD, List.getElem?_take]
  split <;> rfl

omit [Field K] in
theorem getD_beyond [Zero K] (l : List K) (k : Nat) (h : l.length ≤ k) : l.getD k 0 = 0 := by
  rw [List.getD_eq_getElem?_getD, List.getElem?_eq_none h]
  rfl

omit [Field K] in
theorem getD_overwrite [Zero K] (a x : List K) (k : Nat) : (x ++ a.drop x.length).getD k 0 = if k < x.length then x.getD k 0 else a.getD k 0 := by
  split
  · next h => rw [List.getD_append _ _ _ _ h]
  · next h =>
    rw [List.getD_append_right _ _ _ _ (by omega), List.getD_eq_getElem?_getD, List.getElem?_drop, List.getD_eq_getElem?_getD]
    congr 2
    omega

theorem getD_map_mul (s : K) (l : List K) (k : Nat) : (l.map (s * ·)).getD k 0 = s * l.getD k 0 := by
  rw [List.getD_eq_getElem?_getD, List.getD_eq_getElem?_getD, List.getElem?_map]
  cases l[k]? <;> simp

theorem getD_replicate_zero (n k : Nat) : (List.replicate n (0 : K)).getD k 0 = 0 := by
  rw [List.getD_eq_getElem?_getD, List.getElem?_replicate]
  split <;> rfl

/-- A consistent mirror on a layer of `npix` pixels. -/
structure DmCfg.WF (c : DmCfg K) (npix : Nat) : Prop where
  nval : c.modes.valid.length = c.modes.nValid
  fits : c.modes.nValid ≤ c.ifunc.rows
  kept : c.modes.nmodes ≤ c.ifunc.rows
  pts : c.idx.length = c.ifunc.cols
  nodup : c.idx.Nodup
  bound : ∀ p ∈ c.idx, p < npix

/-- States that can be reached. -/
structure DmInv (c : DmCfg K) (npix : Nat) (st : DmState K) : Prop where
  ifc : st.ifCmd.length = c.ifunc.rows
  m2c : st.m2cCmd.length = c.modes.valid.length
  len : st.phase.length = npix
  outside : ∀ p, p ∉ c.idx → st.phase.getD p 0 = 0

theorem dmInv_init (c : DmCfg K) (npix : Nat) : DmInv c npix (dmInit c npix) :=
  ⟨by simp [dmInit], by simp [dmInit], by simp [dmInit], fun p _ => getD_replicate_zero npix p⟩

theorem phase_at (c : DmCfg K) (npix : Nat) (h : c.WF npix) (st : DmState K) (hst : DmInv c npix st) (shape : List K)
    (hs : shape.length = c.idx.length) (q : Nat) (hq : q < c.idx.length) :
    (scatter st.phase c.idx shape).getD (c.idx.getD q 0) 0 = shape.getD q 0 := by
  have e : c.idx.getD q 0 = c.idx[q] := by rw [List.getD_eq_getElem?_getD, List.getElem?_eq_getElem hq]; rfl
  rw [e, List.getD_eq_getElem?_getD, List.getD_eq_getElem?_getD]
  rw [scatter_last st.phase c.idx shape hs (fun p hp => by rw [hst.len]; exact h.bound p hp) q _ (List.getElem?_eq_getElem hq)]
  intro j hj he
  have hjl : j < c.idx.length := (List.getElem?_eq_some_iff.1 he).1
  rw [List.getElem?_eq_getElem hjl, Option.some.injEq] at he
  exact absurd ((List.Nodup.getElem_inj_iff h.nodup).1 he) (by omega)

/-- One trigger without matrix from modes to actuators. -/
theorem dm_step (c : DmCfg K) (npix : Nat) (h : c.WF npix) (hm : c.m2c = none) (st : DmState K) (hst : DmInv c npix st) (command : List K) :
    ∃ st', dmTrigger c st command = some st' ∧ DmInv c npix st' ∧
      (∀ k, st'.ifCmd.getD k 0 = if k < min command.length c.modes.nmodes then c.sign * command.getD k 0 else st.ifCmd.getD k 0) ∧
      ∀ q < c.idx.length, st'.phase.getD (c.idx.getD q 0) 0 =
        ∑ k ∈ Finset.range c.modes.nValid, st'.ifCmd.getD k 0 * c.ifunc.px (c.modes.valid.getD k 0) q := by
  have hlen : ((command.take c.modes.nmodes).map (c.sign * ·)).length ≤ st.ifCmd.length := by
    rw [hst.ifc, List.length_map, List.length_take]
    have := h.kept
    omega
  set ifc := (command.take c.modes.nmodes).map (c.sign * ·) ++ st.ifCmd.drop ((command.take c.modes.nmodes).map (c.sign * ·)).length with hifc
  have hifl : ifc.length = c.ifunc.rows := by
    rw [hifc, List.length_append, List.length_drop]
    have := hst.ifc
    omega
  have hdim : (ifc.take c.modes.nValid).length = (c.ifunc.selRows c.modes.valid).rows := by
    rw [List.length_take, hifl]
    change _ = c.modes.valid.length
    rw [h.nval]
    have := h.fits
    omega
  obtain ⟨shape, s1, s2, s3⟩ := vecMat_ok _ _ hdim
  have hsl : shape.length = c.idx.length := by rw [s2, h.pts]; rfl
  have hget : ∀ k, ifc.getD k 0 = if k < min command.length c.modes.nmodes then c.sign * command.getD k 0 else st.ifCmd.getD k 0 := by
    intro k
    rw [hifc, getD_overwrite, List.length_map, List.length_take, Nat.min_comm]
    split
    · next hk => rw [getD_map_mul, getD_take, if_pos (by omega)]
    · rfl
  refine ⟨⟨ifc, st.m2cCmd, scatter st.phase c.idx shape⟩, ?_, ⟨hifl, hst.m2c, by rw [scatter_length]; exact hst.len, fun p hp => ?_⟩, hget, ?_⟩
  · unfold dmTrigger dmCommand
    simp only [hm, Option.bind_some, overwrite, if_pos hlen]
    rw [← hifc, s1, Option.bind_some, if_pos hsl]
  · rw [List.getD_eq_getElem?_getD, scatter_other _ _ _ _ hp, ← List.getD_eq_getElem?_getD]
    exact hst.outside p hp
  · intro q hq
    rw [phase_at c npix h st hst shape hsl q hq, s3 q (by change q < c.ifunc.cols; rw [← h.pts]; exact hq)]
    change ∑ k ∈ Finset.range c.modes.valid.length, _ = _
    rw [h.nval]
    refine Finset.sum_congr rfl fun k hk => ?_
    rw [getD_take, if_pos (Finset.mem_range.1 hk)]
    rfl

/-- The shape asked by a command at point `q`: entries that are missing count as zero (specification). -/
def dmShape (c : DmCfg K) (cmd : List K) (q : Nat) : K :=
  c.sign * ∑ k ∈ Finset.range c.modes.nValid, cmd.getD k 0 * c.ifunc.px (c.modes.valid.getD k 0) q

theorem shape_of_cmd (c : DmCfg K) (ifc cmd : List K) (q : Nat) (h : ∀ k < c.modes.nValid, ifc.getD k 0 = c.sign * cmd.getD k 0) :
    ∑ k ∈ Finset.range c.modes.nValid, ifc.getD k 0 * c.ifunc.px (c.modes.valid.getD k 0) q = dmShape c cmd q := by
  unfold dmShape
  rw [Finset.mul_sum]
  refine Finset.sum_congr rfl fun k hk => ?_
  rw [h k (Finset.mem_range.1 hk), mul_assoc]

/-- Histories without matrix never fail and stay consistent. -/
theorem dm_run_ok (c : DmCfg K) (npix : Nat) (h : c.WF npix) (hm : c.m2c = none) (cmds : List (List K)) (st : DmState K)
    (hst : DmInv c npix st) : ∃ st', dmRun c st cmds = some st' ∧ DmInv c npix st' := by
  induction cmds generalizing st with
  | nil => exact ⟨st, rfl, hst⟩
  | cons a cmds ih =>
    obtain ⟨s1, h1, h2, -⟩ := dm_step c npix h hm st hst a
    obtain ⟨s2, h3, h4⟩ := ih s1 h2
    refine ⟨s2, ?_, h4⟩
    unfold dmRun at h3 ⊢
    rw [List.foldlM_cons, h1]
    exact h3

omit [Field K] in
theorem foldlM_append_one {S A : Type} (f : S → A → Option S) (s : S) (l : List A) (a : A) :
    (l ++ [a]).foldlM f s = (l.foldlM f s).bind fun t => f t a := by
  rw [List.foldlM_append]
  cases l.foldlM f s with
  | none => rfl
  | some t => simp [List.foldlM_cons]

/-- **C41**: after any history of commands of any lengths, a command that has a value for every mode of the mirror produces on each
valid pixel the sum of the commands times the influence functions, with the sign of the mirror, and zero outside: the shape depends
on the last command only. -/
theorem C41_last_command (c : DmCfg K) (npix : Nat) (h : c.WF npix) (hm : c.m2c = none) (cmds : List (List K)) (cmd : List K)
    (hc : c.modes.nValid ≤ cmd.length) (hk : c.modes.nValid ≤ c.modes.nmodes) :
    ∃ st, dmRun c (dmInit c npix) (cmds ++ [cmd]) = some st ∧ st.phase.length = npix ∧
      (∀ q < c.idx.length, st.phase.getD (c.idx.getD q 0) 0 = dmShape c cmd q) ∧ ∀ p, p ∉ c.idx → st.phase.getD p 0 = 0 := by
  obtain ⟨s1, h1, h2⟩ := dm_run_ok c npix h hm cmds _ (dmInv_init c npix)
  obtain ⟨s2, h3, h4, h5, h6⟩ := dm_step c npix h hm s1 h2 cmd
  refine ⟨s2, ?_, h4.len, fun q hq => ?_, h4.outside⟩
  · unfold dmRun at h1 ⊢
    rw [foldlM_append_one, h1]
    exact h3
  · rw [h6 q hq]
    refine shape_of_cmd c _ cmd q fun k hk' => ?_
    rw [h5, if_pos (by omega)]

/-- **C41** (linearity): the shape of a combination of commands is the combination of the shapes. -/
theorem C41_linear (c : DmCfg K) (npix : Nat) (h : c.WF npix) (hm : c.m2c = none) (hist₁ hist₂ hist₃ : List (List K)) (a b : List K)
    (al be : K) (hab : a.length = b.length) (hc : c.modes.nValid ≤ a.length) (hk : c.modes.nValid ≤ c.modes.nmodes) :
    ∃ s₁ s₂ s₃, dmRun c (dmInit c npix) (hist₁ ++ [a]) = some s₁ ∧ dmRun c (dmInit c npix) (hist₂ ++ [b]) = some s₂ ∧
      dmRun c (dmInit c npix) (hist₃ ++ [List.zipWith (fun x y => al * x + be * y) a b]) = some s₃ ∧
      ∀ p, s₃.phase.getD p 0 = al * s₁.phase.getD p 0 + be * s₂.phase.getD p 0 := by
  obtain ⟨s₁, a1, -, a2, a3⟩ := C41_last_command c npix h hm hist₁ a hc hk
  obtain ⟨s₂, b1, -, b2, b3⟩ := C41_last_command c npix h hm hist₂ b (by omega) hk
  obtain ⟨s₃, c1, -, c2, c3⟩ := C41_last_command c npix h hm hist₃ (List.zipWith (fun x y => al * x + be * y) a b) (by simp; omega) hk
  refine ⟨s₁, s₂, s₃, a1, b1, c1, fun p => ?_⟩
  by_cases hp : p ∈ c.idx
  · obtain ⟨q, hq, rfl⟩ := List.mem_iff_getElem.1 hp
    have e : c.idx[q] = c.idx.getD q 0 := by rw [List.getD_eq_getElem?_getD, List.getElem?_eq_getElem hq]; rfl
    rw [e, a2 q hq, b2 q hq, c2 q hq]
    have hsum : ∑ k ∈ Finset.range c.modes.nValid, (List.zipWith (fun x y => al * x + be * y) a b).getD k 0 * c.ifunc.px (c.modes.valid.getD k 0) q =
        al * ∑ k ∈ Finset.range c.modes.nValid, a.getD k 0 * c.ifunc.px (c.modes.valid.getD k 0) q +
        be * ∑ k ∈ Finset.range c.modes.nValid, b.getD k 0 * c.ifunc.px (c.modes.valid.getD k 0) q := by
      rw [Finset.mul_sum, Finset.mul_sum, ← Finset.sum_add_distrib]
      refine Finset.sum_congr rfl fun k hk' => ?_
      have hk' := Finset.mem_range.1 hk'
      have ha : k < a.length := by omega
      have hb : k < b.length := by omega
      have hz : (List.zipWith (fun x y => al * x + be * y) a b).getD k 0 = al * a.getD k 0 + be * b.getD k 0 := by
        simp [List.getD_eq_getElem?_getD, List.getElem?_zipWith, List.getElem?_eq_getElem ha, List.getElem?_eq_getElem hb]
      rw [hz]
      ring
    unfold dmShape
    rw [hsum]
    ring
  · rw [a3 p hp, b3 p hp, c3 p hp]
    ring

/-- **C41** (short commands of constant length): when all commands of a run have the same length, also if shorter than the number of
modes, the missing modes are zero and the shape depends on the last command only. -/
theorem C41_constant_length (c : DmCfg K) (npix : Nat) (h : c.WF npix) (hm : c.m2c = none) (L : Nat) (cmds : List (List K)) (cmd : List K)
    (hL : ∀ x ∈ cmds ++ [cmd], x.length = L) (hk : c.modes.nValid ≤ c.modes.nmodes) :
    ∃ st, dmRun c (dmInit c npix) (cmds ++ [cmd]) = some st ∧
      (∀ q < c.idx.length, st.phase.getD (c.idx.getD q 0) 0 = dmShape c cmd q) ∧ ∀ p, p ∉ c.idx → st.phase.getD p 0 = 0 := by
  have hrun : ∀ (l : List (List K)) (s0 : DmState K), DmInv c npix s0 → (∀ x ∈ l, x.length = L) →
      (∀ k, L ≤ k → k < c.modes.nValid → s0.ifCmd.getD k 0 = 0) →
      ∃ s, dmRun c s0 l = some s ∧ DmInv c npix s ∧ ∀ k, L ≤ k → k < c.modes.nValid → s.ifCmd.getD k 0 = 0 := by
    intro l
    induction l with
    | nil => intro s0 h0 _ hz; exact ⟨s0, rfl, h0, hz⟩
    | cons a l ih =>
      intro s0 h0 hl hz
      obtain ⟨s1, h1, h2, h3, -⟩ := dm_step c npix h hm s0 h0 a
      have ha := hl a List.mem_cons_self
      obtain ⟨s2, h4, h5, h6⟩ := ih s1 h2 (fun x hx => hl x (List.mem_cons_of_mem _ hx)) fun k hk1 hk2 => by
        rw [h3 k, if_neg (by omega)]; exact hz k hk1 hk2
      refine ⟨s2, ?_, h5, h6⟩
      unfold dmRun at h4 ⊢
      rw [List.foldlM_cons, h1]
      exact h4
  obtain ⟨s1, h1, h2, h2z⟩ := hrun cmds _ (dmInv_init c npix) (fun x hx => hL x (by simp [hx]))
    fun k _ _ => getD_replicate_zero _ k
  obtain ⟨s2, h3, h4, h5, h6⟩ := dm_step c npix h hm s1 h2 cmd
  have hcl := hL cmd (by simp)
  refine ⟨s2, ?_, fun q hq => ?_, h4.outside⟩
  · unfold dmRun at h1 ⊢
    rw [foldlM_append_one, h1]
    exact h3
  · rw [h6 q hq]
    refine shape_of_cmd c _ cmd q fun k hk' => ?_
    rw [h5]
    split
    · rfl
    · rw [h2z k (by omega) hk', getD_beyond cmd k (by omega), mul_zero]

/-- A command shorter than the previous one keeps the end of the previous one: the shape does not depend on the last command only. -/
theorem C41_shorter_keeps_old (c : DmCfg K) (npix : Nat) (h : c.WF npix) (hm : c.m2c = none) (hist : List (List K)) (a b : List K)
    (ha : c.modes.nValid ≤ a.length) (hk : c.modes.nValid ≤ c.modes.nmodes) :
    ∃ st, dmRun c (dmInit c npix) (hist ++ [a] ++ [b]) = some st ∧
      ∀ q < c.idx.length, st.phase.getD (c.idx.getD q 0) 0 = dmShape c (b ++ a.drop b.length) q := by
  obtain ⟨s0, h0, h0i⟩ := dm_run_ok c npix h hm hist _ (dmInv_init c npix)
  obtain ⟨s1, h1, h1i, h1c, -⟩ := dm_step c npix h hm s0 h0i a
  obtain ⟨s2, h2, -, h2c, h2p⟩ := dm_step c npix h hm s1 h1i b
  refine ⟨s2, ?_, fun q hq => ?_⟩
  · unfold dmRun at h0 ⊢
    rw [foldlM_append_one, foldlM_append_one, h0]
    simp only [Option.bind_some, h1, h2]
  · rw [h2p q hq]
    refine shape_of_cmd c _ _ q fun k hk' => ?_
    rw [h2c, getD_overwrite]
    by_cases hb : k < b.length
    · rw [if_pos (by omega), if_pos hb]
    · rw [if_neg (by omega), if_neg hb, h1c, if_pos (by omega)]

/-! ### With a matrix from modes to actuators -/

/-- The matrix fits: actuators are rows of the influence functions. -/
def DmCfg.M2cOk (c : DmCfg K) (m : Img K) : Prop := c.m2c = some m ∧ m.rows ≤ c.ifunc.rows

/-- The shape of a command through the matrix (specification). -/
def dmShapeM2c (c : DmCfg K) (m : Img K) (cmd : List K) (q : Nat) : K :=
  c.sign * ∑ a ∈ Finset.range m.rows, (∑ k ∈ Finset.range c.modes.valid.length, cmd.getD k 0 * m.px a (c.modes.valid.getD k 0)) * c.ifunc.px a q

theorem dm_step_m2c (c : DmCfg K) (npix : Nat) (h : c.WF npix) (m : Img K) (hm : c.M2cOk m) (st : DmState K) (hst : DmInv c npix st)
    (hz : ∀ k, m.rows ≤ k → st.ifCmd.getD k 0 = 0) (command : List K) (hl : min command.length c.modes.nmodes ≤ c.modes.valid.length) :
    ∃ st', dmTrigger c st command = some st' ∧ DmInv c npix st' ∧ (∀ k, m.rows ≤ k → st'.ifCmd.getD k 0 = 0) ∧
      (∀ k, st'.m2cCmd.getD k 0 = if k < min command.length c.modes.nmodes then command.getD k 0 else st.m2cCmd.getD k 0) ∧
      ∀ q < c.idx.length, st'.phase.getD (c.idx.getD q 0) 0 = dmShapeM2c c m st'.m2cCmd q := by
  obtain ⟨hm1, hm2⟩ := hm
  set inp := command.take c.modes.nmodes with hinp
  have hinl : inp.length = min command.length c.modes.nmodes := by rw [hinp, List.length_take, Nat.min_comm]
  have hov : inp.length ≤ st.m2cCmd.length := by rw [hst.m2c, hinl]; exact hl
  set mc := inp ++ st.m2cCmd.drop inp.length with hmc
  have hmcl : mc.length = c.modes.valid.length := by
    rw [hmc, List.length_append, List.length_drop]
    have := hst.m2c
    omega
  obtain ⟨cmd, a1, a2, a3⟩ := vecMat_ok mc (m.selCols c.modes.valid).transpose hmcl
  have a2 : cmd.length = m.rows := a2
  have hov2 : (cmd.map (c.sign * ·)).length ≤ st.ifCmd.length := by rw [List.length_map, a2, hst.ifc]; exact hm2
  set ifc := cmd.map (c.sign * ·) ++ st.ifCmd.drop (cmd.map (c.sign * ·)).length with hifc
  have hifl : ifc.length = c.ifunc.rows := by
    rw [hifc, List.length_append, List.length_drop]
    have := hst.ifc
    omega
  have hifz : ∀ k, ifc.getD k 0 = if k < m.rows then c.sign * cmd.getD k 0 else 0 := by
    intro k
    rw [hifc, getD_overwrite, List.length_map, a2]
    split
    · rw [getD_map_mul]
    · next hk => exact hz k (by omega)
  obtain ⟨shape, s1, s2, s3⟩ := vecMat_ok ifc c.ifunc hifl
  have hsl : shape.length = c.idx.length := by rw [s2, h.pts]
  refine ⟨⟨ifc, mc, scatter st.phase c.idx shape⟩, ?_, ⟨hifl, hmcl, by rw [scatter_length]; exact hst.len, fun p hp => ?_⟩,
    fun k hk => by rw [hifz, if_neg (by omega)], fun k => ?_, fun q hq => ?_⟩
  · unfold dmTrigger dmCommand
    simp only [hm1, overwrite]
    rw [if_pos hov, Option.bind_some, ← hmc, a1]
    simp only [Option.map_some, Option.bind_some]
    rw [if_pos hov2, Option.bind_some, ← hifc, s1, Option.bind_some, if_pos hsl]
  · rw [List.getD_eq_getElem?_getD, scatter_other _ _ _ _ hp, ← List.getD_eq_getElem?_getD]
    exact hst.outside p hp
  · change mc.getD k 0 = _
    rw [hmc, getD_overwrite, hinl]
    split
    · rw [hinp, getD_take, if_pos (by omega)]
    · rfl
  · rw [phase_at c npix h st hst shape hsl q hq, s3 q (by rw [← h.pts]; exact hq)]
    unfold dmShapeM2c
    rw [Finset.mul_sum, ← Finset.sum_subset (Finset.range_subset_range.2 hm2)]
    · refine Finset.sum_congr rfl fun a ha => ?_
      rw [hifz, if_pos (Finset.mem_range.1 ha), a3 a (Finset.mem_range.1 ha), mul_assoc]
      rfl
    · intro a _ ha
      rw [hifz, if_neg (by simpa using ha), zero_mul]

/-- **C41** (with a matrix): after any history of commands that fit, a command with a value for every selected mode produces the
actuator commands of the matrix and their shape; it depends on the last command only. -/
theorem C41_m2c (c : DmCfg K) (npix : Nat) (h : c.WF npix) (m : Img K) (hm : c.M2cOk m) (cmds : List (List K)) (cmd : List K)
    (hl : ∀ x ∈ cmds, min x.length c.modes.nmodes ≤ c.modes.valid.length)
    (hc : min cmd.length c.modes.nmodes = c.modes.valid.length) :
    ∃ st, dmRun c (dmInit c npix) (cmds ++ [cmd]) = some st ∧
      (∀ q < c.idx.length, st.phase.getD (c.idx.getD q 0) 0 = dmShapeM2c c m cmd q) ∧ ∀ p, p ∉ c.idx → st.phase.getD p 0 = 0 := by
  have hrun : ∀ (l : List (List K)) (s0 : DmState K), DmInv c npix s0 → (∀ k, m.rows ≤ k → s0.ifCmd.getD k 0 = 0) →
      (∀ x ∈ l, min x.length c.modes.nmodes ≤ c.modes.valid.length) →
      ∃ s, dmRun c s0 l = some s ∧ DmInv c npix s ∧ ∀ k, m.rows ≤ k → s.ifCmd.getD k 0 = 0 := by
    intro l
    induction l with
    | nil => intro s0 h0 hz _; exact ⟨s0, rfl, h0, hz⟩
    | cons a l ih =>
      intro s0 h0 hz hl
      obtain ⟨s1, h1, h2, h3, -⟩ := dm_step_m2c c npix h m hm s0 h0 hz a (hl a List.mem_cons_self)
      obtain ⟨s2, h4, h5, h6⟩ := ih s1 h2 h3 fun x hx => hl x (List.mem_cons_of_mem _ hx)
      refine ⟨s2, ?_, h5, h6⟩
      unfold dmRun at h4 ⊢
      rw [List.foldlM_cons, h1]
      exact h4
  obtain ⟨s1, h1, h2, h2z⟩ := hrun cmds _ (dmInv_init c npix) (fun k _ => getD_replicate_zero _ k) hl
  obtain ⟨s2, h3, h4, -, h5, h6⟩ := dm_step_m2c c npix h m hm s1 h2 h2z cmd hc.le
  refine ⟨s2, ?_, fun q hq => ?_, h4.outside⟩
  · unfold dmRun at h1 ⊢
    rw [foldlM_append_one, h1]
    exact h3
  · rw [h6 q hq]
    unfold dmShapeM2c
    congr 1
    refine Finset.sum_congr rfl fun a _ => ?_
    congr 1
    refine Finset.sum_congr rfl fun k hk => ?_
    rw [h5, if_pos (by have := Finset.mem_range.1 hk; omega)]

/-- A command with more entries than the modes of the matrix raises (without matrix the excess is ignored), unless it is cut by
`nmodes`. -/
theorem C41_m2c_long_raises (c : DmCfg K) (npix : Nat) (m : Img K) (hm : c.m2c = some m) (st : DmState K)
    (hst : DmInv c npix st) (cmd : List K) (hl : c.modes.valid.length < min cmd.length c.modes.nmodes) : dmTrigger c st cmd = none := by
  have : ¬ (cmd.take c.modes.nmodes).length ≤ st.m2cCmd.length := by
    rw [hst.m2c, List.length_take]
    omega
  unfold dmTrigger dmCommand
  simp only [hm, overwrite, if_neg this, Option.bind_none]

end

/-! ### Selection of the modes -/

/-- **C41** (modes): with `start_mode` s and `nmodes` n, entry k of the command drives influence function s + k, and n - s entries are
used; with `idx_modes`, entry k drives the k-th of the list. -/
theorem C41_modes (nIf s n : Nat) (hs : s ≤ n) (hn : n ≤ nIf) :
    (dmModes nIf (some s) (some n) none = some ⟨(List.range (n - s)).map (s + ·), n - s, n - s⟩) ∧
    ∀ (l : List Nat), (∀ i ∈ l, i < nIf) → dmModes nIf none none (some (l.map Int.ofNat)) = some ⟨l, l.length, nIf⟩ := by
  constructor
  · have hadj : ∀ x : Nat, x ≤ nIf → adjustBound nIf 0 nIf (x : Int) = x := by
      intro x hx
      unfold adjustBound
      rw [if_neg (by omega)]
      split <;> omega
    simp only [dmModes, sliceIdx, sliceRange, Option.getD_some, Option.getD_none, Option.map_some, hadj s (by omega), hadj n hn]
    rw [if_neg (by decide), if_neg (by decide)]
    simp only [Option.map_some, Option.some.injEq, DmModes.mk.injEq, and_true]
    have hlen : (if (s : Int) < n then ((((n : Int) - s - 1) / 1) + 1).toNat else 0) = n - s := by
      rw [Int.ediv_one]
      split <;> omega
    rw [hlen]
    refine List.map_congr_left fun k _ => ?_
    omega
  · intro l hl
    have hpos : (Selector.indices (l.map Int.ofNat)).positions nIf = some l := by
      rw [indices_positions]
      refine ⟨by simp, fun k i hk => ?_⟩
      rw [List.getElem?_map] at hk
      obtain ⟨p, hp, rfl⟩ := Option.map_eq_some_iff.1 hk
      exact ⟨p, hp, hl p (List.mem_of_getElem? hp), by simp⟩
    simp [dmModes, hpos]

/-! ### Concrete cases -/

/-- Three influence functions on two points of a layer of four pixels, the first mode left out. -/
def dmExample : DmCfg ℚ := ⟨⟨[1, 2], 2, 2⟩, ⟨3, 2, fun k q => 10 * k + q⟩, [1, 3], none, -1⟩

example : dmModes 3 (some 1) none none = some ⟨[1, 2], 2, 2⟩ := rfl

example : dmExample.WF 4 := ⟨rfl, by decide, by decide, rfl, by decide, by decide⟩

example : (dmRun dmExample (dmInit dmExample 4) [[5, 5], [1, 2]]).map (fun s => s.phase) = some [0, -50, 0, -53] := by decide +kernel

/-- A shorter command keeps the old second entry. -/
example : (dmRun dmExample (dmInit dmExample 4) [[1, 2], [1]]).map (fun s => s.phase) = some [0, -50, 0, -53] ∧
    (dmRun dmExample (dmInit dmExample 4) [[1]]).map (fun s => s.phase) = some [0, -10, 0, -11] := by decide +kernel

/-- With a matrix of two modes to three actuators. -/
def dmExampleM2c : DmCfg ℚ := ⟨⟨[0, 1], 2, 2⟩, ⟨3, 2, fun k q => 10 * k + q⟩, [1, 3], some ⟨3, 2, fun a k => a + k⟩, -1⟩

example : dmExampleM2c.WF 4 ∧ dmExampleM2c.M2cOk ⟨3, 2, fun a k => a + k⟩ :=
  ⟨⟨rfl, by decide, by decide, rfl, by decide, by decide⟩, rfl, by decide⟩

example : (dmRun dmExampleM2c (dmInit dmExampleM2c 4) [[1, 2]]).map (fun s => s.phase) = some [0, -210, 0, -225] := by decide +kernel

end Specula
