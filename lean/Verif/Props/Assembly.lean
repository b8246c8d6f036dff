import Verif.Props.Operation
/-
C59: assembly of the commands of several mirrors from the commands of several loops.
-/
namespace Specula

section
variable {K : Type} [Field K] [LinearOrder K]

omit [Field K] [LinearOrder K] in
theorem pySub_length (x : List K) (a b : Nat) : (pySub x a b).length = min b x.length - a := by simp [pySub]

omit [LinearOrder K] in
theorem pySub_getD (x : List K) (a b i : Nat) (h : a + i < b) : (pySub x a b).getD i 0 = x.getD (a + i) 0 := by
  simp [pySub, List.getD_eq_getElem?_getD, h]

omit [LinearOrder K] in
theorem getD_append_split (x y : List K) (i : Nat) : (x ++ y).getD i 0 = if i < x.length then x.getD i 0 else y.getD (i - x.length) 0 := by
  simp only [List.getD_eq_getElem?_getD, List.getElem?_append]
  split <;> rfl

omit [LinearOrder K] in
theorem zipWith_getD (f : K → K → K) (x y : List K) (i : Nat) (h1 : i < x.length) (h2 : i < y.length) :
    (List.zipWith f x y).getD i 0 = f (x.getD i 0) (y.getD i 0) := by
  simp [List.getD_eq_getElem?_getD, h1, h2]

omit [Field K] [LinearOrder K] in
theorem bcastOp_eq (f : K → K → K) (x y : List K) (h : x.length = y.length) : bcastOp f x y = some (List.zipWith f x y) := by
  simp [bcastOp, h]

omit [LinearOrder K] in
theorem replicate_getD (n : Nat) (i : Nat) : (List.replicate n (0 : K)).getD i 0 = 0 := by
  by_cases h : i < n <;> simp [List.getD_eq_getElem?_getD, h]

omit [LinearOrder K] in
/-- The commands of the three mirrors, element by element, when sizes fit and the second mirror has no low orders.  The first mirror gets
its low orders, the focus and its high orders, plus the offload of the low orders of the third mirror, plus the reconstructed petals; the
second its high orders; the third its low and high orders.  Every high order command is used exactly once. -/
theorem C59_mirrors (c : MccCfg K) (ho lo f p : List K) (h1 : c.lo0 + c.dimsF ≤ c.out0) (h2 : c.lo1 = 0) (h3 : c.lo2 ≤ c.out2)
    (h4 : c.lo0 + c.lo2 ≤ c.out0) (hlo : lo.length = c.lo0 + c.lo2) (hf : f.length = c.dimsF)
    (hho : ho.length = (c.out0 - c.lo0 - c.dimsF) + c.out1 + (c.out2 - c.lo2)) (hk : c.k.length = c.lo2)
    (hA : 0 < c.dimsP → c.out0 ≤ c.A.length ∧ ∀ r ∈ c.A, r.length = p.length) :
    ∃ y1 y2 y3, mccTrigger c ho lo f p = some (y1, y2, y3) ∧
      y1.length = c.out0 ∧ y2.length = c.out1 ∧ y3.length = c.out2 ∧
      (∀ i, i < c.out0 → y1.getD i 0 =
        (if i < c.lo0 then lo.getD i 0 else if i < c.lo0 + c.dimsF then f.getD (i - c.lo0) 0 else ho.getD (i - c.lo0 - c.dimsF) 0) +
        (if c.lo0 ≤ i ∧ i < c.lo0 + c.lo2 then c.k.getD (i - c.lo0) 0 * lo.getD i 0 else 0) +
        (if 0 < c.dimsP then (List.zipWith (· * ·) (c.A.getD i []) p).sum else 0)) ∧
      (∀ i, i < c.out1 → y2.getD i 0 = ho.getD (c.out0 - c.lo0 - c.dimsF + i) 0) ∧
      (∀ i, i < c.out2 → y3.getD i 0 =
        if i < c.lo2 then lo.getD (c.lo0 + i) 0 else ho.getD (c.out0 - c.lo0 - c.dimsF + c.out1 + (i - c.lo2)) 0) := by
  have hok : c.ok = true := by simp [MccCfg.ok, h1, h2, h3, h4]
  set h0 := c.out0 - c.lo0 - c.dimsF with hh0
  have lA : (pySub lo 0 c.lo0).length = c.lo0 := by rw [pySub_length, hlo]; omega
  have lC : (pySub lo (c.lo0 + c.lo1) (c.lo0 + c.lo1 + c.lo2)).length = c.lo2 := by rw [pySub_length, hlo]; omega
  have hA' : (pySub ho 0 h0).length = h0 := by rw [pySub_length, hho]; omega
  have hB : (pySub ho h0 (h0 + (c.out1 - c.lo1))).length = c.out1 := by rw [pySub_length, hho]; omega
  have hC : (pySub ho (h0 + (c.out1 - c.lo1)) (h0 + (c.out1 - c.lo1) + (c.out2 - c.lo2))).length = c.out2 - c.lo2 := by
    rw [pySub_length, hho]; omega
  have e1 : ∀ g : K → K → K, bcastOp g c.k (pySub lo (c.lo0 + c.lo1) (c.lo0 + c.lo1 + c.lo2)) = _ :=
    fun g => bcastOp_eq g _ _ (by rw [hk, lC])
  have l11 : (pySub lo 0 c.lo0 ++ f ++ pySub ho 0 h0).length = c.out0 := by
    simp only [List.length_append, lA, hf, hA']; omega
  have l12 : (List.replicate c.lo0 (0 : K) ++ List.zipWith (· * ·) c.k (pySub lo (c.lo0 + c.lo1) (c.lo0 + c.lo1 + c.lo2)) ++
      List.replicate (c.out0 - c.lo0 - c.lo2) 0).length = c.out0 := by
    simp only [List.length_append, List.length_replicate, List.length_zipWith, hk, lC]; omega
  have e2 := bcastOp_eq (fun a b : K => a + b) _ _ (l11.trans l12.symm)
  set y := List.zipWith (fun a b : K => a + b) (pySub lo 0 c.lo0 ++ f ++ pySub ho 0 h0)
    (List.replicate c.lo0 (0 : K) ++ List.zipWith (· * ·) c.k (pySub lo (c.lo0 + c.lo1) (c.lo0 + c.lo1 + c.lo2)) ++
      List.replicate (c.out0 - c.lo0 - c.lo2) 0) with hy
  have ly : y.length = c.out0 := by rw [hy, List.length_zipWith, l11, l12, min_self]
  have gy : ∀ i, i < c.out0 → y.getD i 0 =
        (if i < c.lo0 then lo.getD i 0 else if i < c.lo0 + c.dimsF then f.getD (i - c.lo0) 0 else ho.getD (i - c.lo0 - c.dimsF) 0) +
        (if c.lo0 ≤ i ∧ i < c.lo0 + c.lo2 then c.k.getD (i - c.lo0) 0 * lo.getD i 0 else 0) := by
    intro i hi
    rw [hy, zipWith_getD _ _ _ _ (by omega) (by omega)]
    congr 1
    · rw [getD_append_split, getD_append_split, List.length_append, lA, hf]
      split_ifs <;> first | (exfalso; omega) | rfl | (rw [pySub_getD _ _ _ _ (by omega)]; congr 1; omega)
    · rw [getD_append_split, getD_append_split, List.length_append, List.length_zipWith, List.length_replicate, lC, hk, min_self]
      split_ifs <;> first
        | (exfalso; omega)
        | exact replicate_getD _ _
        | (rw [zipWith_getD _ _ _ _ (by omega) (by omega), pySub_getD _ _ _ _ (by omega)]; congr 2; omega)
  obtain ⟨y1, e3, ly1, gy1⟩ : ∃ y1, (if c.dimsP > 0 then (matTimes (c.A.take c.out0) p).bind fun q => (fillAll y.length q).map fun q =>
      List.zipWith (· + ·) y q else some y) = some y1 ∧ y1.length = c.out0 ∧
      ∀ i, i < c.out0 → y1.getD i 0 = y.getD i 0 + (if 0 < c.dimsP then (List.zipWith (· * ·) (c.A.getD i []) p).sum else 0) := by
    by_cases hP : 0 < c.dimsP
    · obtain ⟨hA1, hA2⟩ := hA hP
      have hall : ((c.A.take c.out0).all fun r => r.length == p.length) = true := by
        simp only [List.all_eq_true, beq_iff_eq]
        exact fun r hr => hA2 r (List.mem_of_mem_take hr)
      refine ⟨List.zipWith (· + ·) y ((c.A.take c.out0).map fun r => (List.zipWith (· * ·) r p).sum), ?_, ?_, fun i hi => ?_⟩
      · rw [if_pos hP, matTimes, if_pos hall, Option.bind_some, fillAll_eq _ _ (by simp [ly, hA1])]; rfl
      · simp [ly, hA1]
      · rw [zipWith_getD _ _ _ _ (by omega) (by simp; omega), if_pos hP]
        congr 1
        have : i < c.A.length := by omega
        simp [List.getD_eq_getElem?_getD, hi, this]
    · exact ⟨y, if_neg hP, ly, fun i _ => by rw [if_neg hP, add_zero]⟩
  refine ⟨y1, _, pySub lo (c.lo0 + c.lo1) (c.lo0 + c.lo1 + c.lo2) ++
    pySub ho (h0 + (c.out1 - c.lo1)) (h0 + (c.out1 - c.lo1) + (c.out2 - c.lo2)), ?_, ly1, hB, ?_,
    fun i hi => by rw [gy1 i hi, gy i hi], fun i hi => ?_, ?_⟩
  · unfold mccTrigger
    simp only [if_pos hok, ← hh0, e1, Option.bind_some]
    rw [e2, Option.bind_some, e3, Option.bind_some, fillAll_eq _ _ ly1, Option.bind_some, fillAll_eq _ _ hB, Option.bind_some,
      fillAll_eq _ _ (by rw [List.length_append, lC, hC]; omega)]
    rfl
  · rw [List.length_append, lC, hC]; omega
  · rw [pySub_getD _ _ _ _ (by omega)]
  · intro i hi
    rw [getD_append_split, lC]
    split_ifs with g
    · rw [pySub_getD _ _ _ _ (by omega)]; congr 1
      omega
    · rw [pySub_getD _ _ _ _ (by omega)]; congr 1
      omega

example : mccTrigger (K := ℚ) ⟨[10, 20], [[1], [2], [3], [4]], 1, 0, 2, 1, 1, 4, 1, 3⟩ [5, 6, 7, 8] [1, 2, 3] [9] [100]
    = some ([101, 229, 365, 406], [7], [2, 3, 8]) := by decide +kernel

omit [LinearOrder K] in
/-- Low orders for the second mirror do not fit in its output: with the sizes the constructor computes the trigger raises (unless a
single high order command is left, which is repeated). -/
theorem C59_no_second_low_orders (c : MccCfg K) (ho lo f p : List K) (h2 : 0 < c.lo1) (h3 : c.lo1 ≤ c.out1)
    (hho : (c.out0 - c.lo0 - c.dimsF) + (c.out1 - c.lo1) ≤ ho.length) (hone : c.out1 - c.lo1 ≠ 1) :
    mccTrigger c ho lo f p = none := by
  unfold mccTrigger
  split
  · have hB : (pySub ho (c.out0 - c.lo0 - c.dimsF) (c.out0 - c.lo0 - c.dimsF + (c.out1 - c.lo1))).length = c.out1 - c.lo1 := by
      rw [pySub_length]; omega
    have : fillAll c.out1 (pySub ho (c.out0 - c.lo0 - c.dimsF) (c.out0 - c.lo0 - c.dimsF + (c.out1 - c.lo1))) = none := by
      unfold fillAll
      rw [if_neg (by omega)]
      split
      · rename_i x hx; rw [hx] at hB; simp at hB; omega
      · rfl
    simp only [this, Option.bind_none, Option.bind_fun_none]
  · rfl

omit [Field K] [LinearOrder K] in
/-- The number of inputs is the number of the vectors used, and no other number is accepted. -/
theorem C59_inputs (c : LinCfg K) (n : Nat) :
    linInputsOk c n = true ↔ n = 2 + (if c.noFocus then 0 else 1) + (if c.noLift then 0 else 1) := by
  unfold linInputsOk
  cases c.noFocus <;> cases c.noLift <;> simp <;> omega

omit [LinearOrder K] in
theorem pySubSet_spec (x : List K) (a b : Nat) (vals : List K) (hab : a ≤ b) (hb : b ≤ x.length) (hv : vals.length = b - a) :
    ∃ r, pySubSet x a b vals = some r ∧ r.length = x.length ∧
      ∀ i, r.getD i 0 = if a ≤ i ∧ i < b then vals.getD (i - a) 0 else x.getD i 0 := by
  refine ⟨x.take a ++ vals ++ x.drop b, ?_, ?_, fun i => ?_⟩
  · unfold pySubSet
    rw [fillAll_eq _ _ (by rw [pySub_length]; omega)]
    have : max (min a x.length) b = b := by omega
    rw [this]; rfl
  · simp; omega
  · have ht : (x.take a).length = a := by simp; omega
    rw [getD_append_split, getD_append_split, List.length_append, ht, hv]
    split_ifs <;> first
      | (exfalso; omega)
      | rfl
      | (simp only [List.getD_eq_getElem?_getD, List.getElem?_drop]; congr 2; omega)
      | (have : i < a := by omega
         simp [List.getD_eq_getElem?_getD, this])

omit [LinearOrder K] in
/-- The combined vector, element by element: tip and tilt from the natural stars; the focus from its own loop when there is one; with a
plate scale correction the elements 2 to 4 are reduced by it and three elements are replaced; lift at the end. -/
theorem C59_linear (c : LinCfg K) (lgs focus lift ngs : List K) (n : Nat)
    (hn : n = lgs.length + lift.length) (hl : c.noLift = true → lift = []) (h5 : 5 ≤ lgs.length) (hng : 2 ≤ ngs.length)
    (hfo : c.noFocus = false → focus ≠ []) (hps : ∀ k, c.psIdx = some k → 5 ≤ k ∧ k + 3 ≤ lgs.length ∧ ngs.length = 5 ∧ c.psCoeff.length = 3)
    (ins : List (List K)) (hins : ins = [lgs] ++ (if c.noFocus then [] else [focus]) ++ (if c.noLift then [] else [lift]) ++ [ngs]) :
    linSetup c ins = some n ∧
    ∃ out, linTrigger c n ins = some out ∧ out.length = n ∧ ∀ i, out.getD i 0 =
      if i < 2 then ngs.getD i 0
      else if i < lgs.length then
        match c.psIdx with
        | some k =>
          if k ≤ i ∧ i < k + 3 then ngs.getD (i - k + 2) 0
          else (if i = 2 ∧ c.noFocus = false then focus.getD 0 0 else lgs.getD i 0) -
            (if i < 5 then ngs.getD i 0 * c.psCoeff.getD (i - 2) 0 else 0)
        | none => if i = 2 ∧ c.noFocus = false then focus.getD 0 0 else lgs.getD i 0
      else lift.getD (i - lgs.length) 0 := by
  have hin : linInputs c ins = some (lgs, if c.noFocus then [] else focus, lift, ngs) := by
    subst hins
    unfold linInputs
    cases hF : c.noFocus <;> cases hL : c.noLift <;> simp
    · exact hl hL
    · exact hl hL
  constructor
  · unfold linSetup
    rw [if_pos, hin, hn]
    · rfl
    · rw [C59_inputs, hins]
      cases c.noFocus <;> cases c.noLift <;> simp
  · unfold linTrigger
    rw [hin, Option.bind_some]
    dsimp only
    obtain ⟨l1, e1, n1, g1⟩ := pySubSet_spec lgs 0 2 (pySub ngs 0 2) (by omega) (by omega) (by rw [pySub_length]; omega)
    rw [e1, Option.bind_some]
    obtain ⟨l2, e2, n2, g2⟩ : ∃ l2, (if c.noFocus then some l1 else ((if c.noFocus then [] else focus)[0]?).bind fun f =>
        if 2 < l1.length then some (l1.set 2 f) else none) = some l2 ∧ l2.length = lgs.length ∧
        ∀ i, l2.getD i 0 = if i = 2 ∧ c.noFocus = false then focus.getD 0 0 else l1.getD i 0 := by
      cases hF : c.noFocus
      · obtain ⟨f, rest, hf⟩ : ∃ f rest, focus = f :: rest := by
          cases focus with
          | nil => exact absurd rfl (hfo hF)
          | cons f rest => exact ⟨f, rest, rfl⟩
        refine ⟨l1.set 2 f, ?_, by simp [n1], fun i => ?_⟩
        · subst hf
          have : 2 < l1.length := by omega
          simp [this]
        · subst hf
          by_cases hi : i = 2
          · subst hi
            have : 2 < l1.length := by omega
            simp [List.getD_eq_getElem?_getD, this]
          · rw [if_neg (by tauto), List.getD_eq_getElem?_getD, List.getElem?_set_ne (by omega), ← List.getD_eq_getElem?_getD]
      · exact ⟨l1, rfl, n1, fun i => by simp⟩
    rw [e2, Option.bind_some]
    obtain ⟨l3, e3, n3, g3⟩ : ∃ l3, linPlate c l2 ngs = some l3 ∧
        l3.length = lgs.length ∧ ∀ i, l3.getD i 0 = match c.psIdx with
          | none => l2.getD i 0
          | some k => if k ≤ i ∧ i < k + 3 then ngs.getD (i - k + 2) 0
              else if 2 ≤ i ∧ i < 5 then l2.getD i 0 - ngs.getD i 0 * c.psCoeff.getD (i - 2) 0 else l2.getD i 0 := by
      unfold linPlate
      cases hk : c.psIdx with
      | none => exact ⟨l2, rfl, n2, fun i => rfl⟩
      | some k =>
        obtain ⟨hk1, hk2, hk3, hk4⟩ := hps k hk
        have ld : (List.zipWith (fun a b : K => a * b) (ngs.drop 2) c.psCoeff).length = 3 := by simp [hk3, hk4]
        have lp : (pySub l2 2 5).length = 3 := by rw [pySub_length]; omega
        obtain ⟨m1, a1, a2, a3⟩ := pySubSet_spec l2 2 5 (List.zipWith (fun a b : K => a - b) (pySub l2 2 5)
          (List.zipWith (fun a b : K => a * b) (ngs.drop 2) c.psCoeff)) (by omega) (by omega) (by rw [List.length_zipWith, ld, lp]; rfl)
        obtain ⟨m2, b1, b2, b3⟩ := pySubSet_spec m1 k (k + 3) (ngs.drop 2) (by omega) (by omega) (by simp [hk3])
        refine ⟨m2, ?_, by omega, fun i => ?_⟩
        · dsimp only
          rw [bcastOp_eq _ _ _ (by simp [hk3, hk4]), Option.bind_some, fillAll_eq _ _ (by omega), Option.bind_some, a1,
            Option.bind_some, b1]
        · rw [b3]
          dsimp only
          split_ifs with q1 q2
          · simp only [List.getD_eq_getElem?_getD, List.getElem?_drop]
            congr 2; omega
          · rw [a3, if_pos q2, zipWith_getD _ _ _ _ (by omega) (by omega), zipWith_getD _ _ _ _ (by simp; omega) (by omega),
              pySub_getD _ _ _ _ (by omega)]
            have : 2 + (i - 2) = i := by omega
            simp only [List.getD_eq_getElem?_getD, List.getElem?_drop, this]
          · rw [a3, if_neg q2]
    rw [e3, Option.bind_some]
    have hcat : (if c.noLift then l3 else l3 ++ lift) = l3 ++ lift := by
      cases hL : c.noLift
      · rfl
      · rw [hl hL]; simp
    rw [hcat]
    obtain ⟨r, f1, f2, f3⟩ := pySubSet_spec (List.replicate n (0 : K)) 0 (l3 ++ lift).length (l3 ++ lift) (by omega)
      (by simp [n3, hn]) (by simp)
    refine ⟨r, f1, by simp [f2], fun i => ?_⟩
    rw [f3]
    have hr : (if 0 ≤ i ∧ i < (l3 ++ lift).length then (l3 ++ lift).getD (i - 0) 0 else (List.replicate n (0 : K)).getD i 0)
        = (l3 ++ lift).getD i 0 := by
      split_ifs with q
      · rfl
      · rw [replicate_getD]
        have : (l3 ++ lift).length ≤ i := by omega
        simp [List.getD_eq_getElem?_getD, List.getElem?_eq_none this]
    rw [hr, getD_append_split, n3]
    by_cases q1 : i < 2
    · rw [if_pos q1, if_pos (by omega), g3]
      have t1 : l2.getD i 0 = ngs.getD i 0 := by
        rw [g2, if_neg (by omega), g1, if_pos (by omega), pySub_getD _ _ _ _ (by omega)]
        congr 1; omega
      cases hk : c.psIdx with
      | none => exact t1
      | some k =>
        obtain ⟨hk1, _⟩ := hps k hk
        dsimp only
        rw [if_neg (by omega), if_neg (by omega), t1]
    · rw [if_neg q1]
      have t2 : l2.getD i 0 = if i = 2 ∧ c.noFocus = false then focus.getD 0 0 else lgs.getD i 0 := by
        rw [g2, g1, if_neg (c := 0 ≤ i ∧ i < 2) (by omega)]
      by_cases q2 : i < lgs.length
      · rw [if_pos q2, if_pos q2, g3]
        cases hk : c.psIdx with
        | none => exact t2
        | some k =>
          dsimp only
          rw [t2]
          split_ifs <;> first | rfl | omega | simp
      · rw [if_neg q2, if_neg q2]

example : linTrigger (K := ℚ) ⟨false, false, some 5, [1, 2, 3]⟩ 9 [[1, 2, 3, 4, 5, 6, 7, 8], [10], [20], [30, 31, 32, 33, 34]]
    = some [30, 31, 10 - 32, 4 - 66, 5 - 102, 32, 33, 34, 20] := by decide +kernel

end

end Specula
