import Verif.Model.Modal
import Verif.Props.Dm
import Verif.Props.EField
import Mathlib.Algebra.Order.Field.Basic
import Mathlib.Tactic.FieldSimp
/-
C66: piston removal.  C67: modal analysis.
-/
namespace Specula

section flatten
variable {K : Type} [Field K] [LinearOrder K] [IsStrictOrderedRing K]

/-! ### C66, specification -/

/-- Sum of the phase over the illuminated pixels, and their number. -/
def litSum : List K → List K → K
  | a :: as, p :: ps => (if 0 < a then p else 0) + litSum as ps
  | _, _ => 0

def litCount : List K → Nat
  | a :: as => (if 0 < a then 1 else 0) + litCount as
  | [] => 0

omit [IsStrictOrderedRing K] in
theorem selectValid_sum : ∀ (amp phase : List K), (selectValid (amp.map fun a => decide (0 < a)) phase).sum = litSum amp phase
  | [], _ => by simp [selectValid, litSum]
  | _ :: _, [] => by simp [selectValid, litSum]
  | a :: as, p :: ps => by
    have ih := selectValid_sum as ps
    unfold selectValid at ih ⊢
    rw [List.map_cons, List.zip_cons_cons, List.filterMap_cons, litSum]
    by_cases h : 0 < a <;> simp [h, ih]

omit [IsStrictOrderedRing K] in
theorem selectValid_length : ∀ (amp phase : List K), amp.length = phase.length →
    (selectValid (amp.map fun a => decide (0 < a)) phase).length = litCount amp
  | [], _, _ => by simp [selectValid, litCount]
  | _ :: _, [], h => by simp at h
  | a :: as, p :: ps, hl => by
    have ih := selectValid_length as ps (by simpa using hl)
    unfold selectValid at ih ⊢
    rw [List.map_cons, List.zip_cons_cons, List.filterMap_cons, litCount]
    by_cases h : 0 < a <;> simp [h, ih]; omega

omit [IsStrictOrderedRing K] in
theorem litCount_pos (amp : List K) : ((amp.map fun a => decide (0 < a)).any id = true) ↔ 0 < litCount amp := by
  induction amp with
  | nil => simp [litCount]
  | cons a as ih =>
    rw [List.map_cons, List.any_cons, litCount]
    by_cases h : 0 < a
    · simp [h]
    · simpa [h] using ih

omit [IsStrictOrderedRing K] in
theorem zip_map_getD (f : Bool → K → K) (amp phase : List K) (hl : amp.length = phase.length) (i : Nat) (hi : i < amp.length) :
    (((amp.map fun a => decide (0 < a)).zip phase).map fun p => f p.1 p.2).getD i 0 = f (decide (0 < amp.getD i 0)) (phase.getD i 0) := by
  have hz : ((amp.map fun a => decide (0 < a)).zip phase)[i]? = some (decide (0 < amp.getD i 0), phase.getD i 0) := by
    rw [List.getElem?_zip_eq_some]
    constructor
    · rw [List.getElem?_map, List.getElem?_eq_getElem hi, List.getD_eq_getElem?_getD, List.getElem?_eq_getElem hi]
      rfl
    · rw [List.getD_eq_getElem?_getD (l := phase), List.getElem?_eq_getElem (by omega)]
      rfl
  rw [List.getD_eq_getElem?_getD, List.getElem?_map, hz]
  rfl

omit [IsStrictOrderedRing K] in
/-- C66.  Illuminated pixels lose the mean over the illuminated pixels, the others keep their phase. -/
theorem C66_pixel (amp phase : List K) (hl : amp.length = phase.length) (i : Nat) (hi : i < amp.length) :
    (flattenPhase amp phase).getD i 0 =
      if 0 < amp.getD i 0 then phase.getD i 0 - litSum amp phase / litCount amp else phase.getD i 0 := by
  unfold flattenPhase
  dsimp only
  by_cases h : (amp.map fun a => decide (0 < a)).any id = true
  · rw [if_pos h, selectValid_sum, selectValid_length amp phase hl,
      zip_map_getD (fun b x => if b = true then x - litSum amp phase / litCount amp else x) amp phase hl i hi]
    simp
  · rw [if_neg h, if_neg]
    intro ha
    apply h
    rw [List.any_eq_true]
    refine ⟨true, ?_, rfl⟩
    rw [List.mem_map]
    refine ⟨amp.getD i 0, ?_, by simpa using ha⟩
    rw [List.getD_eq_getElem?_getD, List.getElem?_eq_getElem hi]
    exact List.getElem_mem hi

omit [IsStrictOrderedRing K] in
theorem C66_length (amp phase : List K) (hl : amp.length = phase.length) : (flattenPhase amp phase).length = phase.length := by
  unfold flattenPhase
  dsimp only
  split_ifs
  · simp [hl]
  · rfl

omit [IsStrictOrderedRing K] in
theorem litSum_sub (f : K) : ∀ (amp phase out : List K), amp.length = phase.length → out.length = phase.length →
    (∀ i < amp.length, out.getD i 0 = if 0 < amp.getD i 0 then phase.getD i 0 - f else phase.getD i 0) →
    litSum amp out = litSum amp phase - litCount amp * f
  | [], phase, out, _, _, _ => by simp [litSum, litCount]
  | _ :: _, [], _, h, _, _ => by simp at h
  | _ :: _, _ :: _, [], _, h, _ => by simp at h
  | a :: as, p :: ps, o :: os, h1, h2, h => by
    have ih := litSum_sub f as ps os (by simpa using h1) (by simpa using h2) (fun i hi => by
      have := h (i + 1) (by simpa using hi)
      simpa using this)
    have h0 := h 0 (by simp)
    simp only [List.getD_cons_zero] at h0
    rw [litSum, litSum, litCount, ih, h0]
    split_ifs
    · push_cast; ring
    · push_cast; ring

/-- C66.  The mean over the illuminated pixels is zero afterwards. -/
theorem C66_zero_mean (amp phase : List K) (hl : amp.length = phase.length) (hlit : 0 < litCount amp) :
    litSum amp (flattenPhase amp phase) = 0 := by
  rw [litSum_sub (litSum amp phase / litCount amp) amp phase _ hl (C66_length amp phase hl) (fun i hi => C66_pixel amp phase hl i hi)]
  have : (litCount amp : K) ≠ 0 := by
    have := hlit.ne'
    exact_mod_cast this
  field_simp
  ring

/-- C66.  Doing it twice changes nothing more. -/
theorem C66_idempotent (amp phase : List K) (hl : amp.length = phase.length) :
    flattenPhase amp (flattenPhase amp phase) = flattenPhase amp phase := by
  have hl2 := C66_length amp phase hl
  have hl3 := C66_length amp (flattenPhase amp phase) (by omega)
  refine list_eq_of_getD _ _ hl3 fun i hi => ?_
  rw [C66_pixel amp _ (by omega) i (by omega)]
  by_cases h : 0 < litCount amp
  · rw [C66_zero_mean amp phase hl h]
    simp
  · have h0 : litCount amp = 0 := by omega
    rw [h0]
    simp

/-- C66.  A piston on the illuminated pixels is removed exactly, whatever its size. -/
theorem C66_piston (amp phase phase' : List K) (c : K) (hl : amp.length = phase.length) (hl' : phase'.length = phase.length)
    (h : ∀ i < amp.length, phase'.getD i 0 = if 0 < amp.getD i 0 then phase.getD i 0 + c else phase.getD i 0) :
    flattenPhase amp phase' = flattenPhase amp phase := by
  have h1 := C66_length amp phase hl
  have h2 := C66_length amp phase' (by omega)
  refine list_eq_of_getD _ _ (by omega) fun i hi => ?_
  rw [C66_pixel amp phase hl i (by omega), C66_pixel amp phase' (by omega) i (by omega), h i (by omega)]
  split_ifs with ha
  · have hs := litSum_sub (-c) amp phase phase' hl hl' (fun i hi => by rw [h i hi, sub_neg_eq_add])
    have hc : (litCount amp : K) ≠ 0 := by
      have : litCount amp ≠ 0 := by
        have := (litCount_pos amp).1 (by
          rw [List.any_eq_true]
          refine ⟨true, ?_, rfl⟩
          rw [List.mem_map]
          refine ⟨amp.getD i 0, ?_, by simpa using ha⟩
          rw [List.getD_eq_getElem?_getD, List.getElem?_eq_getElem (by omega)]
          exact List.getElem_mem _)
        omega
      exact_mod_cast this
    rw [hs]
    field_simp
    ring
  · rfl

omit [IsStrictOrderedRing K] in
/-- C66.  Amplitude and flux scale are passed on. -/
theorem C66_rest (amp phase : List K) (s0 : K) : (flattenTrigger amp phase s0).1 = amp ∧ (flattenTrigger amp phase s0).2.2 = s0 := ⟨rfl, rfl⟩

example : flattenPhase [1, 0, (1 : ℚ) / 2, -1] [3, 7, 5, 9] = [-1, 7, 1, 9] := by decide +kernel

end flatten

/-! ### C67 -/

section modal
variable {K : Type} [Field K]

/-- `inv` (points by modes) inverts the influence functions `f` (modes by points) from the right. -/
def RightInv (f inv : Img K) : Prop :=
  inv.rows = f.cols ∧ inv.cols = f.rows ∧
    ∀ a < f.rows, ∀ b < f.rows, ∑ q ∈ Finset.range f.cols, f.px a q * inv.px q b = if a = b then 1 else 0

omit [Field K] in
theorem assignVec_same (v : List K) (n : Nat) (h : v.length = n) : assignVec n v = some v := by
  unfold assignVec
  rw [if_pos h]

/-- A phase made of influence functions is analysed into their amplitudes. -/
theorem modalOf_combination (f inv : Img K) (hinv : RightInv f inv) (c : ModalCfg K) (n : Nat) (hn : n ≤ f.rows)
    (hrows : c.inv.rows = f.cols) (hcols : c.inv.cols = n) (hpx : ∀ q < f.cols, ∀ b < n, c.inv.px q b = inv.px q b) (hout : c.nOut = n)
    (hidx : c.idx.length = f.cols) (phase : List K) (x : Nat → K)
    (hph : ∀ q < c.idx.length, phase.getD (c.idx.getD q 0) 0 = ∑ a ∈ Finset.range f.rows, x a * f.px a q) :
    modalOf c id phase = some ((List.range n).map x) := by
  obtain ⟨w, h1, h2, h3⟩ := vecMat_ok (c.idx.map fun i => (id phase).getD i 0) c.inv (by rw [List.length_map, hidx, hrows])
  unfold modalOf
  rw [h1, Option.bind_some, assignVec_same w c.nOut (by omega)]
  congr 1
  refine list_eq_of_getD _ _ (by simp; omega) fun b hb => ?_
  have hbn : b < n := by omega
  rw [h3 b (by omega), List.getD_eq_getElem?_getD, List.getElem?_map, List.getElem?_range hbn]
  change _ = x b
  rw [hrows]
  have e : ∀ q ∈ Finset.range f.cols, (c.idx.map fun i => (id phase).getD i 0).getD q 0 * c.inv.px q b =
      ∑ a ∈ Finset.range f.rows, x a * (f.px a q * inv.px q b) := by
    intro q hq
    have hq' := Finset.mem_range.1 hq
    rw [hpx q hq' b hbn, ← Finset.sum_congr rfl (fun a _ => mul_assoc (x a) (f.px a q) (inv.px q b)), ← Finset.sum_mul, ← hph q (by omega)]
    congr 1
    rw [List.getD_eq_getElem?_getD, List.getElem?_map, List.getElem?_eq_getElem (by omega : q < c.idx.length)]
    rw [List.getD_eq_getElem?_getD (l := c.idx), List.getElem?_eq_getElem (by omega : q < c.idx.length)]
    rfl
  rw [Finset.sum_congr rfl e, Finset.sum_comm]
  rw [Finset.sum_eq_single b]
  · rw [← Finset.mul_sum, hinv.2.2 b (by omega) b (by omega), if_pos rfl, mul_one]
  · intro a ha hab
    rw [← Finset.mul_sum, hinv.2.2 a (Finset.mem_range.1 ha) b (by omega), if_neg hab, mul_zero]
  · intro hb'
    exact absurd (Finset.mem_range.2 (by omega)) hb'

omit [Field K] in
/-- The configurations of the constructor that analyse the first `n` modes. -/
theorem modalFromInv_ok (inv : Img K) (idx : List Nat) (nmodes : Option Nat) (h : nmodes.getD inv.cols ≤ inv.cols)
    (hne : nmodes = some inv.rows → inv.rows = inv.cols) :
    ∃ c, modalFromInv inv idx nmodes = some c ∧ c.idx = idx ∧ c.inv.rows = inv.rows ∧ c.inv.cols = nmodes.getD inv.cols ∧
      c.nOut = nmodes.getD inv.cols ∧ ∀ q, ∀ b < nmodes.getD inv.cols, c.inv.px q b = inv.px q b := by
  cases nmodes with
  | none => exact ⟨_, rfl, rfl, rfl, rfl, rfl, fun _ _ _ => rfl⟩
  | some n =>
    simp only [Option.getD_some] at h ⊢
    unfold modalFromInv
    dsimp only
    by_cases hn : n ≠ inv.rows
    · rw [if_pos hn]
      have hs : cutModes inv.cols none (some n) none = some ((List.range n).map (0 + ·)) := by
        have := sliceIdx_window inv.cols 0 n (by omega)
        simp only [cutModes, Option.getD_none, Option.getD_some]
        rw [← this]
        simp
      rw [hs]
      refine ⟨_, rfl, rfl, rfl, by simp [Img.selCols], rfl, fun q b hb => ?_⟩
      simp only [Img.selCols]
      congr 1
      rw [List.getD_eq_getElem?_getD, List.getElem?_map, List.getElem?_range hb]
      simp
    · rw [if_neg hn]
      push Not at hn
      subst hn
      exact ⟨_, rfl, rfl, rfl, (hne rfl).symm, rfl, fun _ _ _ => rfl⟩

/-- The amplitude of mode `a` commanded to a mirror whose `k`-th command drives row `valid k`. -/
def rowCommand (valid : List Nat) (n : Nat) (x : Nat → K) (a : Nat) : K := ∑ k ∈ Finset.range n, if valid.getD k 0 = a then x k else 0

theorem rowCommand_at (valid : List Nat) (n : Nat) (hn : n = valid.length) (hd : valid.Nodup) (x : Nat → K) (k : Nat) (hk : k < n) :
    rowCommand valid n x (valid.getD k 0) = x k := by
  unfold rowCommand
  rw [Finset.sum_eq_single k, if_pos rfl]
  · intro j hj hjk
    rw [if_neg]
    intro h
    have hj' := Finset.mem_range.1 hj
    rw [List.getD_eq_getElem?_getD, List.getD_eq_getElem?_getD, List.getElem?_eq_getElem (by omega), List.getElem?_eq_getElem (by omega)] at h
    exact hjk ((List.Nodup.getElem_inj_iff hd).1 h)
  · exact fun h => absurd (Finset.mem_range.2 hk) h

theorem rowCommand_off (valid : List Nat) (n : Nat) (hn : n = valid.length) (x : Nat → K) (a : Nat) (ha : a ∉ valid) : rowCommand valid n x a = 0 := by
  unfold rowCommand
  apply Finset.sum_eq_zero
  intro k hk
  rw [if_neg]
  intro h
  apply ha
  have hk' := Finset.mem_range.1 hk
  rw [← h, List.getD_eq_getElem?_getD, List.getElem?_eq_getElem (by omega)]
  exact List.getElem_mem _

/-- C67.  The phase of a mirror analysed with an inverse of its influence functions gives back what was commanded: mode `a` has the
amplitude held by the mirror for it, which is sign times the last command, and zero if no command drives it. -/
theorem C67_mirror (c : DmCfg K) (npix : Nat) (h : c.WF npix) (hm : c.m2c = none) (hv : ∀ a ∈ c.modes.valid, a < c.ifunc.rows)
    (hd : c.modes.valid.Nodup) (st : DmState K) (hst : DmInv c npix st) (command : List K)
    (inv : Img K) (hinv : RightInv c.ifunc inv) (nmodes : Option Nat) (hnm : nmodes.getD inv.cols ≤ inv.cols)
    (hne : nmodes = some inv.rows → inv.rows = inv.cols) (outList : List (List K)) :
    ∃ st' cfg m, dmTrigger c st command = some st' ∧ modalFromInv inv c.idx nmodes = some cfg ∧
      modalTrigger cfg id (some st'.phase) outList = some (m, outList) ∧ m.length = nmodes.getD inv.cols ∧
      (∀ k < min (min command.length c.modes.nmodes) c.modes.nValid, c.modes.valid.getD k 0 < m.length →
        m.getD (c.modes.valid.getD k 0) 0 = c.sign * command.getD k 0) ∧
      ∀ a < m.length, a ∉ c.modes.valid → m.getD a 0 = 0 := by
  obtain ⟨st', s1, s2, s3, s4⟩ := dm_step c npix h hm st hst command
  obtain ⟨cfg, f1, f2, f3, f4, f5, f6⟩ := modalFromInv_ok inv c.idx nmodes hnm hne
  set n := nmodes.getD inv.cols with hn
  have hcomb := modalOf_combination c.ifunc inv hinv cfg n (by rw [← hinv.2.1]; exact hnm) (by rw [f3, hinv.1]) f4
    (fun q _ b hb => f6 q b hb) f5 (by rw [f2, h.pts]) st'.phase
    (rowCommand c.modes.valid c.modes.nValid (fun k => st'.ifCmd.getD k 0)) (fun q hq => by
      rw [f2] at hq ⊢
      rw [s4 q hq]
      unfold rowCommand
      simp only [Finset.sum_mul]
      rw [Finset.sum_comm]
      refine Finset.sum_congr rfl fun k hk => ?_
      have hk' := Finset.mem_range.1 hk
      have hmem : c.modes.valid.getD k 0 ∈ c.modes.valid := by
        rw [List.getD_eq_getElem?_getD, List.getElem?_eq_getElem (by rw [h.nval]; exact hk')]
        exact List.getElem_mem _
      rw [Finset.sum_eq_single (c.modes.valid.getD k 0)]
      · rw [if_pos rfl]
      · intro a _ ha
        rw [if_neg (fun e => ha e.symm), zero_mul]
      · exact fun hb => absurd (Finset.mem_range.2 (hv _ hmem)) hb)
  have hget : ∀ a < n, ((List.range n).map (rowCommand c.modes.valid c.modes.nValid (fun k => st'.ifCmd.getD k 0))).getD a 0 =
      rowCommand c.modes.valid c.modes.nValid (fun k => st'.ifCmd.getD k 0) a := by
    intro a ha
    rw [List.getD_eq_getElem?_getD, List.getElem?_map, List.getElem?_range ha]
    rfl
  refine ⟨st', cfg, (List.range n).map (rowCommand c.modes.valid c.modes.nValid (fun k => st'.ifCmd.getD k 0)), s1, f1, ?_,
    by rw [List.length_map, List.length_range], ?_, ?_⟩
  · unfold modalTrigger
    rw [Option.bind_some, hcomb]
    rfl
  · intro k hk hlt
    rw [List.length_map, List.length_range] at hlt
    rw [hget _ hlt, rowCommand_at _ _ h.nval.symm hd _ k (by omega), s3, if_pos (by omega)]
  · intro a ha hav
    rw [List.length_map, List.length_range] at ha
    rw [hget _ ha, rowCommand_off _ _ h.nval.symm _ a hav]

/-- C67.  With a matrix from modes to actuators, the analysis gives the commands of the actuators. -/
theorem C67_mirror_m2c (c : DmCfg K) (npix : Nat) (h : c.WF npix) (m : Img K) (hm : c.M2cOk m) (st : DmState K) (hst : DmInv c npix st)
    (hz : ∀ k, m.rows ≤ k → st.ifCmd.getD k 0 = 0) (command : List K) (hl : min command.length c.modes.nmodes = c.modes.valid.length)
    (inv : Img K) (hinv : RightInv c.ifunc inv) :
    ∃ st' cfg, dmTrigger c st command = some st' ∧ modalFromInv inv c.idx none = some cfg ∧
      modalOf cfg id st'.phase = some ((List.range c.ifunc.rows).map fun a =>
        if a < m.rows then c.sign * ∑ k ∈ Finset.range c.modes.valid.length, command.getD k 0 * m.px a (c.modes.valid.getD k 0) else 0) := by
  obtain ⟨st', s1, s2, s3, s4, s5⟩ := dm_step_m2c c npix h m hm st hst hz command (le_of_eq hl)
  refine ⟨st', _, s1, rfl, ?_⟩
  refine modalOf_combination c.ifunc inv hinv _ c.ifunc.rows le_rfl hinv.1 hinv.2.1 (fun _ _ _ _ => rfl) hinv.2.1 h.pts st'.phase _ (fun q hq => ?_)
  rw [s5 q hq]
  unfold dmShapeM2c
  rw [Finset.mul_sum, ← Finset.sum_subset (Finset.range_subset_range.2 hm.2)]
  · refine Finset.sum_congr rfl fun a ha => ?_
    rw [if_pos (Finset.mem_range.1 ha), mul_assoc]
    congr 2
    refine Finset.sum_congr rfl fun k hk => ?_
    rw [s4, if_pos (by rw [hl]; exact Finset.mem_range.1 hk)]
  · intro a _ ha
    rw [if_neg (by simpa using ha), zero_mul]

/-- C67.  Built from the influence functions themselves, cut to `n` modes: a phase made of the first `n` influence functions is analysed
into its amplitudes, for any inversion that returns a right inverse. -/
theorem C67_ifunc (pinv : Img K → Img K) (f : Img K) (idx : List Nat) (n : Nat) (hn : n < f.rows) (hidx : idx.length = f.cols)
    (hp : RightInv (f.selRows (List.range n)) (pinv (f.selRows (List.range n)))) (phase : List K) (x : Nat → K)
    (hph : ∀ q < idx.length, phase.getD (idx.getD q 0) 0 = ∑ a ∈ Finset.range n, x a * f.px a q) :
    ∃ c, modalFromIfunc pinv f idx (some n) = some c ∧ modalOf c id phase = some ((List.range n).map x) := by
  have hs : cutModes f.rows none (some n) none = some (List.range n) := by
    have := sliceIdx_window f.rows 0 n (by omega)
    simp only [cutModes, Option.getD_none, Option.getD_some]
    simpa using this
  refine ⟨⟨pinv (f.selRows (List.range n)), idx, n⟩, ?_, ?_⟩
  · unfold modalFromIfunc
    dsimp only
    rw [if_pos (by omega), hs]
    rfl
  · have hr : (f.selRows (List.range n)).rows = n := by simp [Img.selRows]
    refine modalOf_combination _ _ hp _ n hr.ge hp.1 (hp.2.1.trans hr) (fun _ _ _ _ => rfl) rfl hidx phase x (fun q hq => ?_)
    rw [hph q hq, hr]
    refine Finset.sum_congr rfl fun a ha => ?_
    simp only [Img.selRows]
    congr 2
    rw [List.getD_eq_getElem?_getD, List.getElem?_range (Finset.mem_range.1 ha)]
    rfl

/-- C67.  Only the list of fields connected: every trigger fails. -/
theorem C67_list (c : ModalCfg K) (prep : List K → List K) (outList : List (List K)) : modalTrigger c prep none outList = none := rfl

/-- C67.  The analysis is linear in the phase. -/
theorem C67_linear (c : ModalCfg K) (s t : K) (p q r : List K) (hr : ∀ i, r.getD i 0 = s * p.getD i 0 + t * q.getD i 0)
    (hcols : c.inv.cols = c.nOut) (mp mq : List K) (hp : modalOf c id p = some mp) (hq : modalOf c id q = some mq) :
    ∃ mr, modalOf c id r = some mr ∧ mr.length = c.nOut ∧ ∀ b < c.nOut, mr.getD b 0 = s * mp.getD b 0 + t * mq.getD b 0 := by
  have hlen : c.idx.length = c.inv.rows := by
    by_contra hne
    unfold modalOf vecMat at hp
    rw [List.length_map, if_neg hne] at hp
    simp at hp
  have key : ∀ x : List K, ∃ w, modalOf c id x = some w ∧ w.length = c.nOut ∧
      ∀ b < c.nOut, w.getD b 0 = ∑ i ∈ Finset.range c.inv.rows, x.getD (c.idx.getD i 0) 0 * c.inv.px i b := by
    intro x
    obtain ⟨w, h1, h2, h3⟩ := vecMat_ok (c.idx.map fun i => (id x).getD i 0) c.inv (by rw [List.length_map, hlen])
    refine ⟨w, ?_, by omega, fun b hb => ?_⟩
    · unfold modalOf
      rw [h1, Option.bind_some, assignVec_same w c.nOut (by omega)]
    · rw [h3 b (by omega)]
      refine Finset.sum_congr rfl fun i hi => ?_
      have hi' := Finset.mem_range.1 hi
      congr 1
      rw [List.getD_eq_getElem?_getD, List.getElem?_map, List.getElem?_eq_getElem (by omega : i < c.idx.length)]
      rw [List.getD_eq_getElem?_getD (l := c.idx), List.getElem?_eq_getElem (by omega : i < c.idx.length)]
      rfl
  obtain ⟨wp, a1, a2, a3⟩ := key p
  obtain ⟨wq, b1, b2, b3⟩ := key q
  obtain ⟨wr, c1, c2, c3⟩ := key r
  rw [hp] at a1
  rw [hq] at b1
  obtain rfl := Option.some.inj a1
  obtain rfl := Option.some.inj b1
  refine ⟨wr, c1, c2, fun b hb => ?_⟩
  rw [c3 b hb, a3 b hb, b3 b hb, Finset.mul_sum, Finset.mul_sum, ← Finset.sum_add_distrib]
  refine Finset.sum_congr rfl fun i _ => ?_
  rw [hr]
  ring

/-- C67.  `nmodes` beyond the modes of the inverse, or `nmodes` smaller than them while `ifunc` is given too: every trigger fails. -/
theorem C67_sizes (c : ModalCfg K) (prep : List K → List K) (phase : Option (List K)) (outList : List (List K))
    (h : c.inv.cols ≠ c.nOut) (h1 : c.inv.cols ≠ 1) : modalTrigger c prep phase outList = none := by
  cases phase with
  | none => rfl
  | some p =>
    unfold modalTrigger modalOf
    rw [Option.bind_some]
    by_cases hl : (c.idx.map fun i => (prep p).getD i 0).length = c.inv.rows
    · obtain ⟨w, a1, a2, a3⟩ := vecMat_ok _ _ hl
      rw [a1, Option.bind_some]
      unfold assignVec
      rw [if_neg (by omega)]
      match w, a2 with
      | [], _ => rfl
      | [x], a2 => exact absurd a2.symm (by simpa using h1)
      | _ :: _ :: _, _ => rfl
    · unfold vecMat
      rw [if_neg hl]
      rfl

theorem C67_both (inv : Img K) (idx : List Nat) (n : Nat) (hn : n ≠ inv.cols) (h1 : inv.cols ≠ 1) (prep : List K → List K)
    (phase : Option (List K)) (outList : List (List K)) : modalTrigger (modalFromBoth inv idx (some n)) prep phase outList = none :=
  C67_sizes _ prep phase outList (fun e => hn e.symm) h1

omit [Field K] in
/-- C67.  Both matrices given and no `nmodes`: as the inverse alone. -/
theorem C67_both_all (inv : Img K) (idx : List Nat) : modalFromInv inv idx none = some (modalFromBoth inv idx none) := rfl

/-- C67.  When `nmodes` equals the number of pixels nothing is cut: with another number of modes every trigger fails. -/
theorem C67_pixels (inv : Img K) (idx : List Nat) (hn : inv.cols ≠ inv.rows) (h1 : inv.cols ≠ 1) (prep : List K → List K)
    (phase : Option (List K)) (outList : List (List K)) :
    ∃ c, modalFromInv inv idx (some inv.rows) = some c ∧ modalTrigger c prep phase outList = none := by
  refine ⟨⟨inv, idx, inv.rows⟩, ?_, C67_sizes _ prep phase outList hn h1⟩
  unfold modalFromInv
  simp

end modal

/-! ### Cases -/

/-- Two modes on three pixels and an inverse. -/
def exIf : Img ℚ := ⟨2, 3, fun i j => [[1, 1, 0], [0, 1, 1]].getD i [] |>.getD j 0⟩
def exInv : Img ℚ := ⟨3, 2, fun i j => [[1, 0], [0, 0], [0, 1]].getD i [] |>.getD j 0⟩
def exMirror : DmCfg ℚ := ⟨⟨[0, 1], 2, 2⟩, exIf, [0, 2, 3], none, -1⟩

example : RightInv exIf exInv := by
  refine ⟨rfl, rfl, ?_⟩
  decide +kernel

example : (dmTrigger exMirror (dmInit exMirror 5) [2, 3]).bind (fun st => (modalFromInv exInv [0, 2, 3] (some 1)).bind fun c =>
    modalTrigger c id (some st.phase) [[]]) = some ([-2], [[]]) := by decide +kernel

example : exMirror.WF 5 := ⟨rfl, by decide, by decide, rfl, by decide, by decide⟩

end Specula
