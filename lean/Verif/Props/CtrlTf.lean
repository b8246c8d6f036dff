import Verif.Model.CtrlTf
import Verif.Props.LoopTf
/-!
# C125: exchange of filters with the library `control`
-/
namespace Specula

open Polynomial

noncomputable section

/-! ### Specification -/

/-- Value of the polynomial with the coefficients `l`, highest order first. -/
def highAt (l : List ℝ) (z : ℂ) : ℂ := ∑ i ∈ Finset.range l.length, ((l.getD i 0 : ℝ) : ℂ) * z ^ (l.length - 1 - i)

/-- The transfer function of an object of the library, and of a filter. -/
def ctrlAt (t : CtrlTf) (z : ℂ) : ℂ := highAt t.num z / highAt t.den z
def iirAt (c : IirCoef ℝ) (z : ℂ) : ℂ := polyAt c.num z / polyAt c.den z

/-! ### Lemmas -/

theorem highAt_eq (l : List ℝ) (z : ℂ) : highAt l z = polyAt l.reverse z := by
  unfold highAt polyAt
  rw [List.length_reverse, ← Finset.sum_range_reflect]
  refine Finset.sum_congr rfl fun i hi => ?_
  have h := Finset.mem_range.1 hi
  rw [List.getD_eq_getElem _ _ (by omega), List.getD_eq_getElem _ _ (by simpa using h), List.getElem_reverse]
  congr 2
  omega

theorem highAt_cons (a : ℝ) (l : List ℝ) (z : ℂ) : highAt (a :: l) z = a * z ^ l.length + highAt l z := by
  unfold highAt
  rw [List.length_cons, Finset.sum_range_succ', add_comm]
  congr 1
  refine Finset.sum_congr rfl fun i _ => ?_
  rw [List.getD_cons_succ]
  congr 2
  omega

theorem highAt_dropLead (z : ℂ) : ∀ l : List ℝ, highAt (dropLead l) z = highAt l z := by
  intro l
  induction l using dropLead.induct with
  | case1 b l ih => rw [dropLead, if_pos rfl, ih, highAt_cons 0]; simp
  | case2 a b l h => rw [dropLead, if_neg h]
  | case3 l h =>
    have e : dropLead l = l := by rw [dropLead]; exact h
    rw [e]

theorem dropLead_of_head (l : List ℝ) (h : l.headD 0 ≠ 0) : dropLead l = l := by
  match l with
  | [] => rfl
  | [a] => rfl
  | a :: b :: l => rw [dropLead, if_neg (by simpa using h)]

theorem stripZeros_len : ∀ num den : List ℝ, num.length = den.length → (stripZeros num den).1.length = (stripZeros num den).2.length := by
  intro num den
  induction num, den using stripZeros.induct with
  | case1 a a' as b b' bs h ih => intro hl; rw [stripZeros, if_pos h]; exact ih (by simpa using hl)
  | case2 a a' as b b' bs h => intro hl; rw [stripZeros, if_neg h]; exact hl
  | case3 num den h =>
    intro hl
    have e : stripZeros num den = (num, den) := by rw [stripZeros]; exact h
    rw [e]; exact hl

theorem stripZeros_last : ∀ num den : List ℝ, (stripZeros num den).1.getLastD 0 = num.getLastD 0 ∧ (stripZeros num den).2.getLastD 0 = den.getLastD 0 := by
  intro num den
  induction num, den using stripZeros.induct with
  | case1 a a' as b b' bs h ih => rw [stripZeros, if_pos h, ih.1, ih.2]; simp
  | case2 a a' as b b' bs h => rw [stripZeros, if_neg h]; exact ⟨rfl, rfl⟩
  | case3 num den h =>
    have e : stripZeros num den = (num, den) := by rw [stripZeros]; exact h
    rw [e]; exact ⟨rfl, rfl⟩

theorem stripZeros_zero : ∀ num den : List ℝ, (∀ a ∈ (stripZeros num den).2, a = 0) ↔ ∀ a ∈ den, a = 0 := by
  intro num den
  induction num, den using stripZeros.induct with
  | case1 a a' as b b' bs h ih => rw [stripZeros, if_pos h, ih]; simp [h.2]
  | case2 a a' as b b' bs h => rw [stripZeros, if_neg h]
  | case3 num den h =>
    have e : stripZeros num den = (num, den) := by rw [stripZeros]; exact h
    rw [e]

theorem headD_reverse (l : List ℝ) : l.reverse.headD 0 = l.getLastD 0 := by
  rw [List.headD_eq_head?_getD, List.head?_reverse, List.getLastD_eq_getLast?]

theorem ctrl_foldl_max_ge (l : List ℕ) : ∀ m : ℕ, m ≤ l.foldl max m ∧ ∀ a ∈ l, a ≤ l.foldl max m := by
  induction l with
  | nil => intro m; simp
  | cons b l ih =>
    intro m
    obtain ⟨h1, h2⟩ := ih (max m b)
    rw [List.foldl_cons]
    refine ⟨le_trans (le_max_left _ _) h1, ?_⟩
    intro a ha
    rcases List.mem_cons.1 ha with rfl | ha
    · exact le_trans (le_max_right _ _) h1
    · exact h2 a ha

theorem ctrlLen_ge (tfs : List CtrlTf) (t : CtrlTf) (h : t ∈ tfs) : t.num.length ≤ ctrlLen tfs ∧ t.den.length ≤ ctrlLen tfs :=
  ⟨le_trans ((ctrl_foldl_max_ge _ 0).2 _ (List.mem_map.2 ⟨t, h, rfl⟩)) (le_max_left _ _),
    le_trans ((ctrl_foldl_max_ge _ 0).2 _ (List.mem_map.2 ⟨t, h, rfl⟩)) (le_max_right _ _)⟩

theorem padded_eq (n : ℕ) (l : List ℝ) (h : l.headD 0 ≠ 0) (hn : l.length ≤ n) :
    (alignCoef l.length (frontPad n l.reverse)).length = n ∧
      ∀ z, polyAt (alignCoef l.length (frontPad n l.reverse)) z = z ^ (n - l.length) * highAt l z := by
  have hne : l.reverse ≠ [] := by
    intro h'; rw [List.reverse_eq_nil_iff] at h'; rw [h'] at h; simp at h
  have hlast : (frontPad n l.reverse).getLastD 0 ≠ 0 := by
    rw [frontPad_last _ _ hne, ← headD_reverse, List.reverse_reverse]; exact h
  rw [alignCoef_of_last _ _ hlast]
  refine ⟨frontPad_length _ _ (by simpa using hn), fun z => ?_⟩
  rw [polyAt_eq, polyOf_frontPad, eval_mul, eval_pow, eval_X, List.length_reverse, ← polyAt_eq, ← highAt_eq]

/-! ### Theorems -/

/-- C125: each filter made from an object of the library has as many coefficients above as below and its transfer function times `z` to the
difference of the numbers of coefficients of denominator and numerator. -/
theorem C125_from (tfs : List CtrlTf) (i : ℕ) (t : CtrlTf) (hi : tfs[i]? = some t) (hn : t.num.headD 0 ≠ 0) (hd : t.den.headD 0 ≠ 0) :
    ∃ c : IirCoef ℝ, (fromControl tfs)[i]? = some c ∧ c.num.length = c.den.length ∧
      ∀ z : ℂ, z ≠ 0 → iirAt c z = ctrlAt t z * z ^ ((t.den.length : ℤ) - t.num.length) := by
  obtain ⟨l1, l2⟩ := ctrlLen_ge tfs t (List.mem_of_getElem? hi)
  obtain ⟨n1, n2⟩ := padded_eq (ctrlLen tfs) t.num hn l1
  obtain ⟨d1, d2⟩ := padded_eq (ctrlLen tfs) t.den hd l2
  refine ⟨_, by rw [fromControl, List.getElem?_map, hi]; rfl, n1.trans d1.symm, ?_⟩
  intro z hz
  unfold iirAt ctrlAt
  rw [n2, d2, mul_div_mul_comm, mul_comm]
  congr 1
  rw [← zpow_natCast, ← zpow_natCast, ← zpow_sub₀ hz]
  congr 1
  omega

/-- C125: with as many coefficients above as below the transfer function is kept. -/
theorem C125_from_exact (tfs : List CtrlTf) (i : ℕ) (t : CtrlTf) (hi : tfs[i]? = some t) (hn : t.num.headD 0 ≠ 0) (hd : t.den.headD 0 ≠ 0)
    (hl : t.num.length = t.den.length) : ∃ c : IirCoef ℝ, (fromControl tfs)[i]? = some c ∧ ∀ z : ℂ, z ≠ 0 → iirAt c z = ctrlAt t z := by
  obtain ⟨c, h1, -, h2⟩ := C125_from tfs i t hi hn hd
  refine ⟨c, h1, fun z hz => ?_⟩
  rw [h2 z hz, hl, sub_self, zpow_zero, mul_one]

/-- C125: conversely, if there are fewer coefficients above, the transfer function is another one. -/
theorem C125_from_wrong (tfs : List CtrlTf) (i : ℕ) (t : CtrlTf) (hi : tfs[i]? = some t) (hn : t.num.headD 0 ≠ 0) (hd : t.den.headD 0 ≠ 0)
    (hl : t.num.length < t.den.length) : ∃ c : IirCoef ℝ, (fromControl tfs)[i]? = some c ∧
      ∀ z : ℂ, ctrlAt t z ≠ 0 → 1 < ‖z‖ → iirAt c z ≠ ctrlAt t z := by
  obtain ⟨c, h1, -, h2⟩ := C125_from tfs i t hi hn hd
  refine ⟨c, h1, fun z ht hz he => ?_⟩
  have hz0 : z ≠ 0 := by rintro rfl; simp at hz; linarith
  rw [h2 z hz0] at he
  have h3 : z ^ ((t.den.length : ℤ) - t.num.length) = 1 := mul_left_cancel₀ ht (by rw [he, mul_one])
  have e : ((t.den.length : ℤ) - t.num.length) = ((t.den.length - t.num.length : ℕ) : ℤ) := by omega
  rw [e, zpow_natCast] at h3
  have h4 := congrArg norm h3
  rw [norm_pow, norm_one] at h4
  exact absurd h4 (one_lt_pow₀ hz (by omega)).ne'

/-- C125: the object made from a filter has its transfer function; it can be made exactly if the denominator is not zero. -/
theorem C125_to (c : IirCoef ℝ) : ((∃ a ∈ c.den, a ≠ 0) ↔ ∃ t, toControl c = some t) ∧
    ∀ t, toControl c = some t → ∀ z : ℂ, z ≠ 0 → ctrlAt t z = iirAt c z := by
  have hz : (∀ a ∈ (stripZeros c.num c.den).2.reverse, a = 0) ↔ ∀ a ∈ c.den, a = 0 := by
    rw [← stripZeros_zero c.num c.den]; simp
  constructor
  · unfold toControl mkCtrlTf
    dsimp only
    by_cases h : ∀ a ∈ c.den, a = 0
    · rw [if_pos (hz.2 h)]
      constructor
      · rintro ⟨a, ha, h'⟩; exact absurd (h a ha) h'
      · rintro ⟨t, ht⟩; exact absurd ht (by simp)
    · rw [if_neg (fun h' => h (hz.1 h'))]
      push Not at h
      exact ⟨fun _ => ⟨_, rfl⟩, fun _ => h⟩
  · intro t ht z hz0
    unfold toControl mkCtrlTf at ht
    dsimp only at ht
    split at ht
    · exact absurd ht (by simp)
    · rw [Option.some.injEq] at ht
      obtain ⟨k, h1, h2, -⟩ := stripZeros_spec z c.num c.den
      rw [← ht]
      unfold ctrlAt iirAt
      dsimp only
      rw [highAt_dropLead, highAt_dropLead, highAt_eq, highAt_eq, List.reverse_reverse, List.reverse_reverse, h1, h2,
        mul_div_mul_right _ _ (pow_ne_zero _ hz0)]

theorem toControl_good (c : IirCoef ℝ) (hl : c.num.length = c.den.length) (hn : c.num.getLastD 0 ≠ 0) (hd : c.den.getLastD 0 ≠ 0) :
    ∃ t, toControl c = some t ∧ t.num.headD 0 ≠ 0 ∧ t.den.headD 0 ≠ 0 ∧ t.num.length = t.den.length := by
  have hex : ∃ a ∈ c.den, a ≠ 0 := by
    have hne : c.den ≠ [] := by rintro h; rw [h] at hd; simp at hd
    refine ⟨c.den.getLast hne, List.getLast_mem hne, ?_⟩
    rwa [List.getLastD_eq_getLast?, List.getLast?_eq_some_getLast hne] at hd
  obtain ⟨t, ht⟩ := (C125_to c).1.1 hex
  have hh1 : (stripZeros c.num c.den).1.reverse.headD 0 ≠ 0 := by rw [headD_reverse, (stripZeros_last _ _).1]; exact hn
  have hh2 : (stripZeros c.num c.den).2.reverse.headD 0 ≠ 0 := by rw [headD_reverse, (stripZeros_last _ _).2]; exact hd
  have e : t = ⟨(stripZeros c.num c.den).1.reverse, (stripZeros c.num c.den).2.reverse⟩ := by
    have ht' := ht
    unfold toControl mkCtrlTf at ht'
    dsimp only at ht'
    split at ht'
    · exact absurd ht' (by simp)
    · rw [Option.some.injEq, dropLead_of_head _ hh1, dropLead_of_head _ hh2] at ht'
      exact ht'.symm
  refine ⟨t, ht, by rw [e]; exact hh1, by rw [e]; exact hh2, ?_⟩
  rw [e]; simpa using stripZeros_len c.num c.den hl

/-- C125: all filters with leading coefficients other than zero come back from the library, in their places, with the same transfer functions. -/
theorem C125_roundtrip (cs : List (IirCoef ℝ)) (h : ∀ c ∈ cs, c.num.length = c.den.length ∧ c.num.getLastD 0 ≠ 0 ∧ c.den.getLastD 0 ≠ 0) :
    ∃ ts, toControlList cs = some ts ∧ (fromControl ts).length = cs.length ∧
      ∀ (i : ℕ) (c : IirCoef ℝ), cs[i]? = some c → ∃ c', (fromControl ts)[i]? = some c' ∧ ∀ z : ℂ, z ≠ 0 → iirAt c' z = iirAt c z := by
  have key : ∃ ts, toControlList cs = some ts ∧ ts.length = cs.length ∧ ∀ (i : ℕ) (c : IirCoef ℝ), cs[i]? = some c → ∃ t, ts[i]? = some t ∧
      t.num.headD 0 ≠ 0 ∧ t.den.headD 0 ≠ 0 ∧ t.num.length = t.den.length ∧ ∀ z : ℂ, z ≠ 0 → ctrlAt t z = iirAt c z := by
    induction cs with
    | nil => exact ⟨[], rfl, rfl, fun i c hc => by simp at hc⟩
    | cons c cs ih =>
      obtain ⟨ts, h1, h2, h3⟩ := ih fun c hc => h c (List.mem_cons_of_mem _ hc)
      obtain ⟨hl, hn, hd⟩ := h c List.mem_cons_self
      obtain ⟨t, ht, p⟩ := toControl_good c hl hn hd
      refine ⟨t :: ts, by rw [toControlList, ht, h1]; rfl, by simp [h2], ?_⟩
      intro i d hi
      match i with
      | 0 =>
        simp only [List.getElem?_cons_zero, Option.some.injEq] at hi
        subst hi
        exact ⟨t, rfl, p.1, p.2.1, p.2.2, (C125_to c).2 t ht⟩
      | i + 1 =>
        simp only [List.getElem?_cons_succ] at hi ⊢
        exact h3 i d hi
  obtain ⟨ts, h1, h2, h3⟩ := key
  refine ⟨ts, h1, by rw [fromControl, List.length_map, h2], fun i c hi => ?_⟩
  obtain ⟨t, ht, hn, hd, hl, hz⟩ := h3 i c hi
  obtain ⟨c', e1, e2⟩ := C125_from_exact ts i t ht hn hd hl
  exact ⟨c', e1, fun z hz0 => (e2 z hz0).trans (hz z hz0)⟩

/-! ### Concrete cases -/

/-- An integrator and a filter of second order survive together. -/
example : ∃ ts, toControlList [integratorCoef (1 / 2) 1, ⟨[0, 1, 2], [0, -1, 1]⟩] = some ts ∧ (fromControl ts).length = 2 ∧
    ∀ (i : ℕ) (c : IirCoef ℝ), [integratorCoef (1 / 2) 1, ⟨[0, 1, 2], [0, -1, 1]⟩][i]? = some c →
      ∃ c', (fromControl ts)[i]? = some c' ∧ ∀ z : ℂ, z ≠ 0 → iirAt c' z = iirAt c z := by
  refine C125_roundtrip _ fun c hc => ?_
  rcases List.mem_cons.1 hc with rfl | hc
  · exact ⟨rfl, by simp [integratorCoef], by simp [integratorCoef]⟩
  · rw [List.mem_singleton] at hc; subst hc
    exact ⟨rfl, by simp, by simp⟩

/-- The transfer function `1 / (z - 1)`, which answers one step later, becomes the integrator that answers at once. -/
example : fromControl [⟨[1], [1, -1]⟩] = [integratorCoef 1 1] := by
  have h1 : alignCoef 1 (frontPad 2 [(1 : ℝ)]) = [0, 1] := alignCoef_of_last _ _ (by simp [frontPad])
  have h2 : alignCoef 2 (frontPad 2 [(-1 : ℝ), 1]) = [-1, 1] := alignCoef_of_last _ _ (by simp [frontPad])
  simp only [fromControl, ctrlLen, integratorCoef, List.map_cons, List.map_nil, List.length_cons, List.length_nil, List.foldl_cons, List.foldl_nil,
    List.reverse_cons, List.reverse_nil, List.nil_append, List.cons_append]
  norm_num
  exact ⟨h1, h2⟩

/-- A filter with a zero as leading coefficient of the numerator comes back with another transfer function. -/
example : ∃ t, toControl ⟨[1, 0], [-1, 1]⟩ = some t ∧ t.num = [1] ∧ t.den = [1, -1] := by
  refine ⟨⟨[1], [1, -1]⟩, ?_, rfl, rfl⟩
  simp [toControl, mkCtrlTf, stripZeros, dropLead]

end

end Specula
