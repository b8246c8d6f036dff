import Mathlib.Tactic.Ring
import Mathlib.Tactic.Linarith
import Mathlib.Tactic.FieldSimp
import Mathlib.Tactic.Positivity
import Mathlib.Tactic.NormNum
import Mathlib.Algebra.BigOperators.Fin
import Mathlib.Algebra.BigOperators.Ring.Finset
import Mathlib.Algebra.Order.BigOperators.Ring.Finset
import Verif.Model.Sprint
import Verif.Props.Demod
/-
C93: the estimation of mis-registrations.
-/
namespace Specula

theorem spEps_pos : 0 < spEps := by unfold spEps; norm_num

/-! ### When estimates are made, and from what -/

section
variable {ns nm np : ℕ} {V : Type} (c : SprintCfg ns nm np) (demod : List V → SpMat ns nm)

/-- What may be said of the state after the slopes `xs`: they are cut in batches `bs` (with the times of the estimates), of at least ten
elements each and at least `dt` apart; the rest is waiting.  The parameters come from estimates with these batches, one after the other. -/
def SpBatches (p0 : Fin np → ℝ) (xs : List V) (st : SprintSt ns nm np V) : Prop :=
  ∃ bs : List (ℤ × List V),
    xs = (bs.map Prod.snd).flatten ++ st.hist ∧ (∀ b ∈ bs, 10 ≤ b.2.length) ∧
    List.IsChain (fun a b => c.dt ≤ b - a) (0 :: bs.map Prod.fst) ∧ st.last = (bs.map Prod.fst).getLastD 0 ∧
    bs.foldlM (fun (r : (Fin np → ℝ) × ℝ) b => spEstimate c (demod b.2) r) (p0, 0) = some (st.par, st.err) ∧
    st.outPar = st.par ∧ st.outErr = st.err ∧
    (bs = [] → st.outIm = none ∧ st.genT = none) ∧ (bs ≠ [] → st.outIm = some (c.nominal st.par) ∧ st.genT = some st.last)

theorem spBatches_step (p0 : Fin np → ℝ) (xs : List V) (st st' : SprintSt ns nm np V) (t : ℤ) (x : V) (h : SpBatches c demod p0 xs st)
    (hs : sprintTrigger c demod st t x = some st') : SpBatches c demod p0 (xs ++ [x]) st' := by
  obtain ⟨bs, h1, h2, h3, h4, h5, h6, h7, h8, h9⟩ := h
  unfold sprintTrigger at hs
  dsimp only at hs
  have keep : some { st with hist := st.hist ++ [x] } = some st' → SpBatches c demod p0 (xs ++ [x]) st' := by
    intro e
    rw [Option.some_inj] at e
    subst e
    exact ⟨bs, by rw [h1, List.append_assoc], h2, h3, h4, h5, h6, h7, h8, h9⟩
  split_ifs at hs with a b
  · exact keep hs
  · exact keep hs
  · rw [Option.map_eq_some_iff] at hs
    obtain ⟨r, hr, e⟩ := hs
    subst e
    refine ⟨bs ++ [(t, st.hist ++ [x])], ?_, ?_, ?_, ?_, ?_, rfl, rfl, ?_, ?_⟩
    · rw [h1]; simp
    · intro y hy
      rw [List.mem_append, List.mem_singleton] at hy
      rcases hy with hy | hy
      · exact h2 y hy
      · subst hy; exact Nat.le_of_not_lt b
    · rw [List.map_append, ← List.cons_append]
      refine List.isChain_append.2 ⟨h3, by simp, ?_⟩
      intro u hu v hv
      have hu' : u = st.last := by
        rw [h4]
        rw [List.getLast?_cons] at hu
        simp only [Option.mem_def, Option.some_inj] at hu
        rw [← hu]; simp [List.getLastD_eq_getLast?]
      simp only [List.map_cons, List.map_nil, List.head?_cons, Option.mem_def, Option.some_inj] at hv
      subst hu' hv
      omega
    · simp
    · rw [List.foldlM_append, h5]
      simpa using hr
    · intro e; simp at e
    · intro _; exact ⟨rfl, rfl⟩

/-- Every vector of slopes is used in exactly one estimate, in order; estimates are made from at least ten vectors, at least `dt`
apart (and from the time zero); parameters, error and interaction matrix are those of the last estimate and change only there. -/
theorem C93_run (p0 : Fin np → ℝ) (es : List (ℤ × V)) (st : SprintSt ns nm np V)
    (h : sprintRun c demod es (sprintInit p0) = some st) : SpBatches c demod p0 (es.map Prod.snd) st := by
  have gen : ∀ (es : List (ℤ × V)) (xs : List V) (s0 : SprintSt ns nm np V), SpBatches c demod p0 xs s0 →
      sprintRun c demod es s0 = some st → SpBatches c demod p0 (xs ++ es.map Prod.snd) st := by
    intro es
    induction es with
    | nil => intro xs s0 h0 hr; simp only [sprintRun, Option.some_inj] at hr; subst hr; simpa using h0
    | cons e es ih =>
      intro xs s0 h0 hr
      simp only [sprintRun] at hr
      rw [Option.bind_eq_some_iff] at hr
      obtain ⟨s1, h1, h2⟩ := hr
      have := ih _ s1 (spBatches_step c demod p0 xs s0 s1 e.1 e.2 h0 h1) h2
      simpa using this
  have h0 : SpBatches c demod p0 ([] : List V) (sprintInit p0 : SprintSt ns nm np V) :=
    ⟨[], rfl, by simp, by simp, rfl, rfl, rfl, rfl, fun _ => ⟨rfl, rfl⟩, fun e => absurd rfl e⟩
  simpa using gen es [] _ h0 h

/-- The triggers of a simulation with time step `τ`. -/
def spTicks (τ : ℤ) (x : ℕ → V) (n : ℕ) : List (ℤ × V) := (List.range n).map fun k : ℕ => ((k : ℤ) * τ, x k)

theorem sprintRun_append (es fs : List (ℤ × V)) (st : SprintSt ns nm np V) :
    sprintRun c demod (es ++ fs) st = (sprintRun c demod es st).bind (sprintRun c demod fs) := by
  induction es generalizing st with
  | nil => rfl
  | cons e es ih =>
    simp only [List.cons_append, sprintRun]
    cases h : sprintTrigger c demod st e.1 e.2 with
    | none => rfl
    | some s => simp [ih]

/-- In a simulation with a fixed time step, if `q` steps are needed for the interval between estimates: the first estimate is made at the
step `max 9 q` (steps are counted from zero), the others `max 10 q` steps apart, with all slopes since the previous one. -/
theorem C93_regular (p0 : Fin np → ℝ) (τ : ℤ) (hτ : 0 < τ) (q : ℕ) (hq1 : c.dt ≤ q * τ) (hq2 : ((q : ℤ) - 1) * τ < c.dt) (x : ℕ → V) (n : ℕ)
    (st : SprintSt ns nm np V) (h : sprintRun c demod (spTicks τ x n) (sprintInit p0) = some st) :
    (n ≤ max 9 q → st.genT = none ∧ st.hist.length = n) ∧
    (∀ j r : ℕ, r < max 10 q → n = max 9 q + 1 + j * max 10 q + r →
      st.genT = some (((max 9 q + j * max 10 q : ℕ) : ℤ) * τ) ∧ st.hist.length = r) := by
  have key : ∀ n (st : SprintSt ns nm np V), sprintRun c demod (spTicks τ x n) (sprintInit p0) = some st →
      (n ≤ max 9 q → st.genT = none ∧ st.hist.length = n ∧ st.last = 0) ∧
      (∀ j r : ℕ, r < max 10 q → n = max 9 q + 1 + j * max 10 q + r →
        st.genT = some (((max 9 q + j * max 10 q : ℕ) : ℤ) * τ) ∧ st.hist.length = r ∧ st.last = ((max 9 q + j * max 10 q : ℕ) : ℤ) * τ) := by
    intro n
    induction n with
    | zero =>
      intro st h
      simp only [spTicks, List.range_zero, List.map_nil, sprintRun, Option.some_inj] at h
      subst h
      refine ⟨fun _ => ⟨rfl, rfl, rfl⟩, fun j r _ e => ?_⟩
      omega
    | succ n ih =>
      intro st' h
      have hsplit : spTicks τ x (n + 1) = spTicks τ x n ++ [((n : ℤ) * τ, x n)] := by simp [spTicks, List.range_succ]
      rw [hsplit, sprintRun_append, Option.bind_eq_some_iff] at h
      obtain ⟨st, h1, h2⟩ := h
      simp only [sprintRun] at h2
      rw [Option.bind_eq_some_iff] at h2
      obtain ⟨s2, h3, h4⟩ := h2
      rw [Option.some_inj] at h4
      subst h4
      obtain ⟨i1, i2⟩ := ih st h1
      have cmp : ∀ a : ℕ, ((a : ℤ) * τ < c.dt ↔ a < q) := by
        intro a
        constructor
        · intro hh
          by_contra hc
          have : (q : ℤ) ≤ a := by exact_mod_cast Nat.le_of_not_lt hc
          nlinarith
        · intro hh
          have : (a : ℤ) ≤ (q : ℤ) - 1 := by omega
          nlinarith
      -- a step that waits
      have wait : ∀ a : ℕ, (n : ℤ) * τ - st.last = (a : ℤ) * τ → (a < q ∨ st.hist.length + 1 < 10) →
          s2 = { st with hist := st.hist ++ [x n] } := by
        intro a ha hor
        unfold sprintTrigger at h3
        dsimp only at h3
        rw [ha] at h3
        simp only [cmp] at h3
        split_ifs at h3 with u v
        · exact (Option.some_inj.1 h3).symm
        · exact (Option.some_inj.1 h3).symm
        · rw [List.length_append, List.length_singleton] at v
          omega
      have fire : ∀ a : ℕ, (n : ℤ) * τ - st.last = (a : ℤ) * τ → q ≤ a → 10 ≤ st.hist.length + 1 →
          s2.genT = some ((n : ℤ) * τ) ∧ s2.hist.length = 0 ∧ s2.last = (n : ℤ) * τ := by
        intro a ha h5 h6
        unfold sprintTrigger at h3
        dsimp only at h3
        rw [ha] at h3
        simp only [cmp] at h3
        rw [if_neg (by omega), if_neg (by rw [List.length_append, List.length_singleton]; omega), Option.map_eq_some_iff] at h3
        obtain ⟨r, -, e⟩ := h3
        subst e
        exact ⟨rfl, rfl, rfl⟩
      refine ⟨?_, ?_⟩
      · intro hn
        obtain ⟨a1, a2, a3⟩ := i1 (by omega)
        have := wait n (by rw [a3]; ring) (by omega)
        subst this
        refine ⟨a1, ?_, a3⟩
        simp [a2]
      · intro j r hr hn
        rcases Nat.eq_zero_or_pos r with hr0 | hr0
        · subst hr0
          cases j with
          | zero =>
            obtain ⟨a1, a2, a3⟩ := i1 (by omega)
            have hnn : n = max 9 q := by omega
            have := fire n (by rw [a3]; ring) (by omega) (by omega)
            rw [hnn] at this
            simpa using this
          | succ j =>
            have e1 : (j + 1) * max 10 q = j * max 10 q + max 10 q := by ring
            obtain ⟨a1, a2, a3⟩ := i2 j (max 10 q - 1) (by omega) (by omega)
            have hnn : n = max 9 q + (j + 1) * max 10 q := by omega
            have := fire (max 10 q) (by rw [a3, hnn, e1]; push_cast; ring) (by omega) (by omega)
            rw [hnn] at this
            exact this
        · obtain ⟨a1, a2, a3⟩ := i2 j (r - 1) (by omega) (by omega)
          have hnn : n = max 9 q + j * max 10 q + r := by omega
          have := wait r (by rw [a3, hnn]; push_cast; ring) (by omega)
          subst this
          refine ⟨a1, ?_, a3⟩
          rw [List.length_append, List.length_singleton]
          omega
  obtain ⟨k1, k2⟩ := key n st h
  exact ⟨fun hn => ⟨(k1 hn).1, (k1 hn).2.1⟩, fun j r hr hn => ⟨(k2 j r hr hn).1, (k2 j r hr hn).2.1⟩⟩

/-- If no measured matrix is zero, the simulation never stops. -/
theorem C93_no_error (h : ∀ xs, spRms (demod xs) ≠ 0) (es : List (ℤ × V)) (st : SprintSt ns nm np V) :
    (sprintRun c demod es st).isSome := by
  induction es generalizing st with
  | nil => rfl
  | cons e es ih =>
    have : ∃ s, sprintTrigger c demod st e.1 e.2 = some s := by
      unfold sprintTrigger
      dsimp only
      split_ifs
      · exact ⟨_, rfl⟩
      · exact ⟨_, rfl⟩
      · unfold spEstimate
        rw [if_neg (fun hh => h _ hh.2)]
        exact ⟨_, rfl⟩
    obtain ⟨s, hs⟩ := this
    simp only [sprintRun, hs, Option.bind_some]
    exact ih s

-- Time step 2, an estimate every 25: thirteen steps are needed.
example : (25 : ℤ) ≤ (13 : ℕ) * 2 ∧ (((13 : ℕ) : ℤ) - 1) * 2 < 25 := by decide

end

/-! ### Sensitivities -/

section
variable {ns nm np : ℕ} (c : SprintCfg ns nm np)

/-- If the elements of the matrix are polynomials of the second degree in each parameter, the sensitivities are the partial derivatives,
whatever the size of the perturbation. -/
theorem C93_sensitivity (p : Fin np → ℝ) (i : Fin np) (d : ℝ) (hd : d ≠ 0) (hp : c.pert i = some d) (s : Fin ns) (m : Fin nm) (a b e : ℝ)
    (hquad : ∀ v : ℝ, c.nominal (Function.update p i v) s m = a + b * (v - p i) + e * (v - p i) ^ 2) : spSens c p i s m = b := by
  unfold spSens
  rw [hp]
  simp only [spPushed, hquad]
  field_simp
  ring

/-- Parameters that are not perturbed are never estimated: they only decay. -/
theorem C93_unperturbed (M : SpMat ns nm) (p : Fin np → ℝ) (i : Fin np) (hp : c.pert i = none) : spUpdate c M p i = p i * c.forget := by
  have : ∀ s m, spSens c p i s m = 0 := by intro s m; unfold spSens; rw [hp]
  simp [spUpdate, spDelta, spModeDelta, this]

/-! ### Optical gains -/

/-- First and third Penrose condition: `N P N = N`, and `N P` is symmetric. -/
def SpPenrose (N : SpMat ns nm) (P : SpMat nm ns) : Prop :=
  (∀ s m, ∑ k, N s k * (∑ t, P k t * N t m) = N s m) ∧ ∀ s t, ∑ k, N s k * P k t = ∑ k, N t k * P k s

/-- A matrix whose columns are independent. -/
def SpIndep (N : SpMat ns nm) : Prop := ∀ v : Fin nm → ℝ, (∀ s, ∑ k, N s k * v k = 0) → ∀ k, v k = 0

theorem pinv_left (N : SpMat ns nm) (P : SpMat nm ns) (h : SpPenrose N P) (hi : SpIndep N) (k m : Fin nm) :
    ∑ t, P k t * N t m = if k = m then 1 else 0 := by
  have := hi (fun k => (∑ t, P k t * N t m) - if k = m then 1 else 0) (by
    intro s
    simp only [mul_sub]
    rw [Finset.sum_sub_distrib, h.1 s m]
    simp) k
  linarith

/-- If every column of the measured matrix is the nominal one times a gain, the gains are found. -/
theorem C93_gains (N : SpMat ns nm) (g : Fin nm → ℝ) (h : SpPenrose N (c.pinv N)) (hi : SpIndep N) :
    spGain c (fun s m => N s m * g m) N = g := by
  funext m
  have h1 := pinv_left N _ h hi m m
  rw [if_pos rfl] at h1
  unfold spGain
  simp only [← mul_assoc]
  rw [← Finset.sum_mul, h1, one_mul]

/-- A common factor of the measured matrix, such as amplitude and sign of the modulation, only changes the weight of the small constant. -/
theorem C93_carrier (A N : SpMat ns nm) (k : ℝ) (hk : k ≠ 0) (s : Fin ns) (m : Fin nm) :
    spCorrect (fun s m => k * A s m) (spGain c (fun s m => k * A s m) N) s m = A s m / (spGain c A N m + spEps / k) := by
  have : spGain c (fun s m => k * A s m) N m = k * spGain c A N m := by
    simp only [spGain, Finset.mul_sum]
    refine Finset.sum_congr rfl fun t _ => by ring
  unfold spCorrect
  rw [this]
  have e : k * spGain c A N m + spEps = k * (spGain c A N m + spEps / k) := by field_simp
  rw [e, mul_one_div, mul_div_mul_left _ _ hk]

/-- At the true parameters, and with any optical gains, the difference is the matrix itself times a constant of the order of 1e-12. -/
theorem C93_truth (p : Fin np → ℝ) (g : Fin nm → ℝ) (hg : ∀ m, g m + spEps ≠ 0) (h : SpPenrose (c.nominal p) (c.pinv (c.nominal p)))
    (hi : SpIndep (c.nominal p)) (s : Fin ns) (m : Fin nm) :
    spDiff c (fun s m => c.nominal p s m * g m) p s m = -(spEps / (g m + spEps)) * c.nominal p s m := by
  have := hg m
  unfold spDiff spCorrect
  rw [C93_gains c _ g h hi]
  field_simp
  ring

/-! ### Corrections -/

/-- Corrections when the difference is a combination of the sensitivities: every parameter gets also the errors of those whose
sensitivities are not orthogonal to its own. -/
theorem C93_correction (S : Fin np → Fin ns → Fin nm → ℝ) (e : Fin np → ℝ) (i : Fin np) :
    spDelta S (fun s m => ∑ j, e j * S j s m) i =
      (∑ m, (∑ j, e j * ∑ s, S i s m * S j s m) / ((∑ s, S i s m * S i s m) + spEps)) / nm := by
  unfold spDelta spModeDelta
  congr 1
  refine Finset.sum_congr rfl fun m _ => ?_
  congr 1
  simp only [Finset.mul_sum]
  rw [Finset.sum_comm]
  refine Finset.sum_congr rfl fun j _ => Finset.sum_congr rfl fun s _ => by ring

/-- Independent parameters: with sensitivities that are orthogonal for every mode the correction of a parameter is its error times a
factor below one, which differs from one by 1e-12 over the square of the sensitivity. -/
theorem C93_orthogonal (hm : 0 < nm) (S : Fin np → Fin ns → Fin nm → ℝ) (e : Fin np → ℝ) (i : Fin np) (b : ℝ)
    (horth : ∀ j m, j ≠ i → ∑ s, S i s m * S j s m = 0) (hb : ∀ m, ∑ s, S i s m * S i s m = b) :
    spDelta S (fun s m => ∑ j, e j * S j s m) i = e i * (b / (b + spEps)) := by
  rw [C93_correction]
  have : ∀ m : Fin nm, (∑ j, e j * ∑ s, S i s m * S j s m) = e i * b := by
    intro m
    rw [Finset.sum_eq_single i]
    · rw [hb]
    · intro j _ hj; rw [horth j m hj, mul_zero]
    · intro h; exact absurd (Finset.mem_univ i) h
  simp only [this, hb]
  rw [Finset.sum_const, Finset.card_univ, Fintype.card_fin, nsmul_eq_mul]
  have : (nm : ℝ) ≠ 0 := by exact_mod_cast hm.ne'
  field_simp

/-- Parameters with the same effect are each given the whole correction: with `np` of them the error is multiplied by one minus `np`
times the gain (up to the small constant), so that it grows if `np` times the gain is more than two. -/
theorem C93_overlap (hm : 0 < nm) (S : Fin ns → Fin nm → ℝ) (e : Fin np → ℝ) (b : ℝ) (hb : ∀ m, ∑ s, S s m * S s m = b) :
    (∑ i, (e i - c.gain * spDelta (fun _ => S) (fun s m => ∑ j, e j * S s m) i)) =
      (1 - np * c.gain * (b / (b + spEps))) * ∑ i, e i := by
  have h1 : ∀ i : Fin np, spDelta (fun _ : Fin np => S) (fun s m => ∑ j, e j * S s m) i = (∑ j, e j) * (b / (b + spEps)) := by
    intro i
    rw [C93_correction (fun _ : Fin np => S) e i]
    simp only [hb, ← Finset.sum_mul]
    rw [Finset.sum_const, Finset.card_univ, Fintype.card_fin, nsmul_eq_mul]
    have : (nm : ℝ) ≠ 0 := by exact_mod_cast hm.ne'
    field_simp
  simp only [h1]
  rw [Finset.sum_sub_distrib, Finset.sum_const, Finset.card_univ, Fintype.card_fin, nsmul_eq_mul]
  ring

/-- With forgetting, parameters at rest are not those for which there is no difference (unless these are zero). -/
theorem C93_forgetting (M : SpMat ns nm) (p : Fin np → ℝ) (hg : 0 < c.gain) (h : spUpdate c M p = p) (i : Fin np) :
    spDelta (spSens c p) (spDiff c M p) i = (1 - c.forget) / c.gain * p i := by
  have := congrFun h i
  unfold spUpdate at this
  field_simp
  linarith

/-- Slopes that are all zero stop the simulation. -/
theorem C93_dark (st : (Fin np → ℝ) × ℝ) (h : 0 < c.maxIter) : spEstimate c (fun _ _ => 0) st = none := by
  unfold spEstimate
  rw [if_pos]
  refine ⟨h, ?_⟩
  simp [spRms]

/-! ### Iterations -/

/-- The criterion to stop. -/
def SpSmall (M : SpMat ns nm) (p : Fin np → ℝ) : Prop := spError c M p * spGainMean c M p < c.thr

/-- An estimate makes a number of iterations, up to the given maximum, and fewer only if the criterion is met; the error given is that of
the parameters before the last iteration. -/
theorem C93_iterations (M : SpMat ns nm) (st st' : (Fin np → ℝ) × ℝ) (h : spEstimate c M st = some st') :
    ∃ k ≤ c.maxIter, st'.1 = (spUpdate c M)^[k] st.1 ∧ (k < c.maxIter → ∃ j, k = j + 1 ∧ SpSmall c M ((spUpdate c M)^[j] st.1)) ∧
      (∀ j, j + 1 < k → ¬ SpSmall c M ((spUpdate c M)^[j] st.1)) ∧ (k = 0 → st'.2 = st.2) ∧
      ∀ j, k = j + 1 → st'.2 = spError c M ((spUpdate c M)^[j] st.1) := by
  have gen : ∀ (n : ℕ) (st : (Fin np → ℝ) × ℝ), ∃ k ≤ n, (spLoop c M n st).1 = (spUpdate c M)^[k] st.1 ∧
      (k < n → ∃ j, k = j + 1 ∧ SpSmall c M ((spUpdate c M)^[j] st.1)) ∧
      (∀ j, j + 1 < k → ¬ SpSmall c M ((spUpdate c M)^[j] st.1)) ∧ (k = 0 → (spLoop c M n st).2 = st.2) ∧
      ∀ j, k = j + 1 → (spLoop c M n st).2 = spError c M ((spUpdate c M)^[j] st.1) := by
    intro n
    induction n with
    | zero => intro st; exact ⟨0, le_rfl, rfl, by omega, by intro j hj; omega, fun _ => rfl, by intro j hj; omega⟩
    | succ n ih =>
      intro st
      by_cases hs : SpSmall c M st.1
      · have e : spLoop c M (n + 1) st = (spUpdate c M st.1, spError c M st.1) := by
          unfold SpSmall at hs
          simp only [spLoop]
          rw [if_pos hs]
        refine ⟨1, by omega, by rw [e]; rfl, fun _ => ⟨0, rfl, hs⟩, by intro j hj; omega, by intro h; omega, ?_⟩
        intro j hj
        have : j = 0 := by omega
        subst this
        rw [e]; rfl
      · have e : spLoop c M (n + 1) st = spLoop c M n (spUpdate c M st.1, spError c M st.1) := by
          unfold SpSmall at hs
          simp only [spLoop]
          rw [if_neg hs]
        obtain ⟨k, h1, h2, h3, h4, h5, h6⟩ := ih (spUpdate c M st.1, spError c M st.1)
        refine ⟨k + 1, by omega, ?_, ?_, ?_, by intro h; omega, ?_⟩
        · rw [e, h2, Function.iterate_succ_apply]
        · intro hk
          obtain ⟨j, hj, hj'⟩ := h3 (by omega)
          exact ⟨k, rfl, by subst hj; rw [Function.iterate_succ_apply]; exact hj'⟩
        · intro j hj
          cases j with
          | zero => exact hs
          | succ j => rw [Function.iterate_succ_apply]; exact h4 j (by omega)
        · intro j hj
          have : j = k := by omega
          subst this
          rw [e]
          cases j with
          | zero => rw [h5 rfl]; rfl
          | succ j => rw [h6 j rfl, Function.iterate_succ_apply]
  unfold spEstimate at h
  split_ifs at h
  rw [Option.some_inj] at h
  subst h
  exact gen c.maxIter st

end

/-! ### Convergence for one mode and one parameter -/

section
variable {ns : ℕ} (c : SprintCfg ns 1 1)

/-- One mode, one parameter: the column is `n0 + p b` with a sensitivity `b` orthogonal to `n0`. -/
structure SpLine (c : SprintCfg ns 1 1) (n0 b : Fin ns → ℝ) (a B : ℝ) : Prop where
  nominal : ∀ p s, c.nominal p s 0 = n0 s + p 0 * b s
  orth : ∑ s, n0 s * b s = 0
  norm0 : ∑ s, n0 s * n0 s = a
  normB : ∑ s, b s * b s = B
  posA : 0 < a
  posB : 0 < B
  pinv : ∀ N, SpPenrose N (c.pinv N)
  pert : ∃ d, d ≠ 0 ∧ c.pert 0 = some d

/-- The matrix measured with the misregistration `q` and the optical gain `g`. -/
noncomputable def spLineMeas (n0 b : Fin ns → ℝ) (g q : ℝ) : SpMat ns 1 := fun s _ => g * (n0 s + q * b s)

theorem spLine_update {n0 b : Fin ns → ℝ} {a B : ℝ} (h : SpLine c n0 b a B) (g q : ℝ) (p : Fin 1 → ℝ) :
    spUpdate c (spLineMeas n0 b g q) p 0 =
      p 0 * c.forget + (g * q * B / (g * (a + p 0 * q * B) / (a + p 0 ^ 2 * B) + spEps) - p 0 * B) / (B + spEps) * c.gain := by
  obtain ⟨d, hd, hp⟩ := h.pert
  have hS : ∀ s, spSens c p 0 s 0 = b s := by
    intro s
    refine C93_sensitivity c p 0 d hd hp s 0 (n0 s + p 0 * b s) (b s) 0 fun v => ?_
    rw [h.nominal]; simp; ring
  have inner : ∀ x y : ℝ, ∑ s, (n0 s + x * b s) * (n0 s + y * b s) = a + x * y * B := by
    intro x y
    have : ∀ s, (n0 s + x * b s) * (n0 s + y * b s) = n0 s * n0 s + (x + y) * (n0 s * b s) + x * y * (b s * b s) := fun s => by ring
    simp only [this, Finset.sum_add_distrib, ← Finset.mul_sum]
    rw [h.orth, h.norm0, h.normB]; ring
  have innerB : ∀ x : ℝ, ∑ s, b s * (n0 s + x * b s) = x * B := by
    intro x
    have : ∀ s, b s * (n0 s + x * b s) = n0 s * b s + x * (b s * b s) := fun s => by ring
    simp only [this, Finset.sum_add_distrib, ← Finset.mul_sum]
    rw [h.orth, h.normB]; ring
  have hpos : 0 < a + p 0 ^ 2 * B := by have := h.posA; have := h.posB; positivity
  -- the pseudo-inverse of one column
  have hpinv : ∀ t, c.pinv (c.nominal p) 0 t * (a + p 0 ^ 2 * B) = n0 t + p 0 * b t := by
    intro t
    obtain ⟨P1, P2⟩ := h.pinv (c.nominal p)
    have hn := inner (p 0) (p 0)
    have e1 : ∀ s, c.nominal p s 0 * (∑ t, c.pinv (c.nominal p) 0 t * c.nominal p t 0) = c.nominal p s 0 := by
      intro s; simpa using P1 s 0
    have one : ∑ t, c.pinv (c.nominal p) 0 t * c.nominal p t 0 = 1 := by
      have : (a + p 0 * p 0 * B) * (∑ t, c.pinv (c.nominal p) 0 t * c.nominal p t 0) = a + p 0 * p 0 * B := by
        rw [← hn, Finset.sum_mul]
        refine Finset.sum_congr rfl fun s _ => ?_
        have := e1 s
        rw [← h.nominal, mul_assoc, this]
      have hne : a + p 0 * p 0 * B ≠ 0 := by nlinarith
      exact mul_left_cancel₀ hne (by rw [this, mul_one])
    have sym : ∀ s, c.nominal p s 0 * c.pinv (c.nominal p) 0 t = c.nominal p t 0 * c.pinv (c.nominal p) 0 s := by
      intro s; simpa using P2 s t
    calc c.pinv (c.nominal p) 0 t * (a + p 0 ^ 2 * B) = ∑ s, (n0 s + p 0 * b s) * (c.nominal p s 0 * c.pinv (c.nominal p) 0 t) := by
          rw [pow_two, ← hn, Finset.mul_sum]
          refine Finset.sum_congr rfl fun s _ => by rw [h.nominal]; ring
      _ = c.nominal p t 0 * ∑ s, c.pinv (c.nominal p) 0 s * c.nominal p s 0 := by
          rw [Finset.mul_sum]
          refine Finset.sum_congr rfl fun s _ => by rw [sym, ← h.nominal]; ring
      _ = n0 t + p 0 * b t := by rw [one, mul_one, h.nominal]
  have hG : spGain c (spLineMeas n0 b g q) (c.nominal p) 0 = g * (a + p 0 * q * B) / (a + p 0 ^ 2 * B) := by
    rw [eq_div_iff hpos.ne', ← inner (p 0) q]
    unfold spGain spLineMeas
    rw [Finset.sum_mul, Finset.mul_sum]
    refine Finset.sum_congr rfl fun s _ => ?_
    rw [← hpinv s]; ring
  unfold spUpdate spDelta spModeDelta
  simp only [hS, Finset.univ_unique, Fin.default_eq_zero, Finset.sum_singleton, Nat.cast_one, div_one]
  rw [h.normB]
  congr 3
  unfold spDiff spCorrect
  rw [hG]
  simp only [h.nominal, mul_sub, Finset.sum_sub_distrib]
  rw [innerB]
  congr 1
  have : ∀ s, b s * (spLineMeas n0 b g q s 0 * (1 / (g * (a + p 0 * q * B) / (a + p 0 ^ 2 * B) + spEps))) =
      (b s * (n0 s + q * b s)) * (g / (g * (a + p 0 * q * B) / (a + p 0 ^ 2 * B) + spEps)) := by
    intro s; unfold spLineMeas; ring
  simp only [this]
  rw [← Finset.sum_mul, innerB]
  ring

theorem spLine_scalar (a B g q p γ : ℝ) (ha : 0 < a) (hB : 0 < B) (hg : 0 < g) (hp : 0 ≤ p) (hpq : p ≤ q) (hγ : 0 < γ) (hγ1 : γ ≤ 1) :
    let p' := p * 1 + (g * q * B / (g * (a + p * q * B) / (a + p ^ 2 * B) + spEps) - p * B) / (B + spEps) * γ
    let γ' := γ * (B / (B + spEps))
    0 ≤ p' ∧ p' ≤ q ∧ q - p' ≤ (1 - γ' * (a / (a + q ^ 2 * B))) * (q - p) + γ' * (q * spEps / g) := by
  intro p' γ'
  have hε := spEps_pos
  have hq : 0 ≤ q := hp.trans hpq
  have hγ0 : 0 ≤ γ' := by positivity
  have hγ'1 : γ' ≤ 1 := by
    have : B / (B + spEps) ≤ 1 := by rw [div_le_one (by positivity)]; linarith
    calc γ' ≤ 1 * 1 := mul_le_mul hγ1 this (by positivity) (by norm_num)
      _ = 1 := one_mul 1
  set G := g * (a + p * q * B) / (a + p ^ 2 * B) with hG
  have hd1 : 0 < a + p * q * B := by positivity
  have hd2 : 0 < a + p ^ 2 * B := by positivity
  have hd3 : 0 < a + q ^ 2 * B := by positivity
  have hGg : g ≤ G := by
    rw [hG, le_div_iff₀ hd2]
    refine mul_le_mul_of_nonneg_left ?_ hg.le
    nlinarith [mul_nonneg (mul_nonneg hp (sub_nonneg.2 hpq)) hB.le]
  have hG0 : 0 < G := hg.trans_le hGg
  set X := g * q / (G + spEps) with hX
  have hp' : p' = p + γ' * (X - p) := by
    show p * 1 + (g * q * B / (G + spEps) - p * B) / (B + spEps) * γ = p + γ * (B / (B + spEps)) * (g * q / (G + spEps) - p)
    ring
  have hX0 : 0 ≤ X := by positivity
  -- value without the small constant
  have hY : g * q / G - p = a * (q - p) / (a + p * q * B) := by
    rw [hG]; field_simp; ring
  have hXY : X ≤ g * q / G := by
    rw [hX]; exact div_le_div_of_nonneg_left (by positivity) hG0 (by linarith)
  have hYX : g * q / G - X ≤ q * spEps / g := by
    have : g * q / G - X = g * q * spEps / (G * (G + spEps)) := by rw [hX]; field_simp; ring
    rw [this, div_le_div_iff₀ (by positivity) hg]
    have h1 : g * g ≤ G * (G + spEps) := mul_le_mul hGg (by linarith) hg.le hG0.le
    have h2 : 0 ≤ q * spEps := by positivity
    nlinarith [mul_le_mul_of_nonneg_left h1 h2]
  have hup : X - p ≤ q - p := by
    have : a * (q - p) / (a + p * q * B) ≤ q - p := by
      rw [div_le_iff₀ hd1]
      have h1 : 0 ≤ q - p := by linarith
      have h2 : 0 ≤ p * q * B := by positivity
      nlinarith [mul_nonneg h1 h2]
    linarith
  have hlow : (q - p) * (a / (a + q ^ 2 * B)) - q * spEps / g ≤ X - p := by
    have : (q - p) * (a / (a + q ^ 2 * B)) ≤ a * (q - p) / (a + p * q * B) := by
      rw [mul_div_assoc', mul_comm (q - p) a]
      refine div_le_div_of_nonneg_left (mul_nonneg ha.le (by linarith)) hd1 ?_
      nlinarith [mul_nonneg (mul_nonneg hq (sub_nonneg.2 hpq)) hB.le]
    linarith
  refine ⟨?_, ?_, ?_⟩
  · rw [hp']
    have : p + γ' * (X - p) = p * (1 - γ') + γ' * X := by ring
    rw [this]
    exact add_nonneg (mul_nonneg hp (by linarith)) (mul_nonneg hγ0 hX0)
  · rw [hp']
    have h1 := mul_le_mul_of_nonneg_left hup hγ0
    have h2 : γ' * (q - p) ≤ 1 * (q - p) := mul_le_mul_of_nonneg_right hγ'1 (by linarith)
    linarith
  · rw [hp']
    have h1 := mul_le_mul_of_nonneg_left hlow hγ0
    nlinarith [h1]

/-- From zero, and without forgetting, the estimate goes towards the true value, whatever the optical gain, without ever passing it; the
error decreases geometrically, down to the true value times 1e-12 over the optical gain, times the largest relative change of the column. -/
theorem C93_converges {n0 b : Fin ns → ℝ} {a B : ℝ} (h : SpLine c n0 b a B) (g q : ℝ) (hg : 0 < g) (hq : 0 ≤ q) (hf : c.forget = 1)
    (hγ : 0 < c.gain) (hγ1 : c.gain ≤ 1) (k : ℕ) :
    let p := (spUpdate c (spLineMeas n0 b g q))^[k] (fun _ => 0) 0
    0 ≤ p ∧ p ≤ q ∧
      q - p ≤ (1 - c.gain * (B / (B + spEps)) * (a / (a + q ^ 2 * B))) ^ k * q + q * (spEps / g) * ((a + q ^ 2 * B) / a) := by
  have ha := h.posA
  have hB := h.posB
  have hε := spEps_pos
  have hd3 : 0 < a + q ^ 2 * B := by positivity
  induction k with
  | zero =>
    simp only [Function.iterate_zero, id_eq, pow_zero, one_mul, sub_zero]
    refine ⟨le_rfl, hq, ?_⟩
    have : 0 ≤ q * (spEps / g) * ((a + q ^ 2 * B) / a) := by positivity
    linarith
  | succ k ih =>
    dsimp only at ih ⊢
    rw [Function.iterate_succ_apply', spLine_update c h, hf]
    set p := (spUpdate c (spLineMeas n0 b g q))^[k] (fun _ => 0) 0 with hp
    obtain ⟨i1, i2, i3⟩ := ih
    obtain ⟨s1, s2, s3⟩ := spLine_scalar a B g q p c.gain ha hB hg i1 i2 hγ hγ1
    refine ⟨s1, s2, s3.trans ?_⟩
    set γ' := c.gain * (B / (B + spEps)) with hγ'
    set u := a / (a + q ^ 2 * B) with hu
    have hu1 : u ≤ 1 := by rw [hu, div_le_one hd3]; nlinarith [mul_nonneg (sq_nonneg q) hB.le]
    have hγ0 : 0 ≤ γ' := by positivity
    have hγ'1 : γ' ≤ 1 := by
      have : B / (B + spEps) ≤ 1 := by rw [div_le_one (by positivity)]; linarith
      calc γ' ≤ 1 * 1 := mul_le_mul hγ1 this (by positivity) (by norm_num)
        _ = 1 := one_mul 1
    have hu0 : 0 < u := by positivity
    have hr : 0 ≤ 1 - γ' * u := by nlinarith
    have h1 := mul_le_mul_of_nonneg_left i3 hr
    have h2 : (a + q ^ 2 * B) / a = 1 / u := by rw [hu]; field_simp
    rw [h2] at h1 ⊢
    rw [pow_succ]
    have h3 : γ' * u * (q * (spEps / g) * (1 / u)) = γ' * (q * spEps / g) := by field_simp
    nlinarith [h1, h3]

/-- From a starting point beyond the point where the columns are orthogonal, the estimate moves away from the true value. -/
theorem C93_wrong_way {n0 b : Fin ns → ℝ} {a B : ℝ} (h : SpLine c n0 b a B) (g q : ℝ) (hg : 0 < g) (hf : c.forget = 1) (hγ : 0 < c.gain)
    (p : Fin 1 → ℝ) (hpq : p 0 < q) (hq : 0 < q) (hfar : g * (a + p 0 * q * B) / (a + p 0 ^ 2 * B) < -spEps) :
    spUpdate c (spLineMeas n0 b g q) p 0 < p 0 := by
  have ha := h.posA
  have hB := h.posB
  have hε := spEps_pos
  have hd2 : 0 < a + p 0 ^ 2 * B := by positivity
  rw [spLine_update c h, hf]
  set G := g * (a + p 0 * q * B) / (a + p 0 ^ 2 * B) with hG
  have hG0 : G < 0 := by linarith
  have hnum : a + p 0 * q * B < 0 := by
    by_contra hc
    have : 0 ≤ G := by rw [hG]; exact div_nonneg (mul_nonneg hg.le (not_lt.1 hc)) hd2.le
    linarith
  have h1 : g * q / (G + spEps) ≤ g * q / G := by
    have h0 : 1 / (G + spEps) ≤ 1 / G := one_div_le_one_div_of_neg_of_le (by linarith) (by linarith)
    have := mul_le_mul_of_nonneg_left h0 (by positivity : 0 ≤ g * q)
    rwa [mul_one_div, mul_one_div] at this
  have h2 : g * q / G - p 0 = a * (q - p 0) / (a + p 0 * q * B) := by
    have h5 : a + p 0 * q * B ≠ 0 := hnum.ne
    have h6 : g * q / G = q * (a + p 0 ^ 2 * B) / (a + p 0 * q * B) := by
      rw [hG, div_div_eq_mul_div, mul_assoc, mul_div_mul_left _ _ hg.ne']
    rw [h6, div_sub' h5]
    congr 1
    ring
  have h3 : a * (q - p 0) / (a + p 0 * q * B) < 0 := div_neg_of_pos_of_neg (mul_pos ha (by linarith)) hnum
  have h4 : (g * q * B / (G + spEps) - p 0 * B) / (B + spEps) < 0 := by
    refine div_neg_of_neg_of_pos ?_ (by positivity)
    have : g * q * B / (G + spEps) - p 0 * B = (g * q / (G + spEps) - p 0) * B := by ring
    rw [this]
    exact mul_neg_of_neg_of_pos (by linarith) hB
  have := mul_neg_of_neg_of_pos h4 hγ
  linarith

end

/-! ### The measured matrix -/

section
theorem avgOf_smul (n : ℕ) (a : ℝ) (x : ℕ → ℝ) : avgOf n (fun i => a * x i) = a * avgOf n x := by
  unfold avgOf; rw [← Finset.mul_sum, mul_div_assoc]

theorem detrended_smul (n : ℕ) (d a : ℝ) (x : ℕ → ℝ) : detrended n d (fun i => a * x i) = fun i => a * detrended n d x i := by
  funext i
  simpa using detrended_linear n d a 0 x x i

theorem arctan2_smul (a y x : ℝ) (ha : 0 < a) : arctan2 (a * y) (a * x) = arctan2 y x := by
  unfold arctan2
  have : (⟨a * x, a * y⟩ : ℂ) = (a : ℂ) * ⟨x, y⟩ := by apply Complex.ext <;> simp
  rw [this, Complex.arg_real_mul _ ha]

theorem demodPhase_pos (nt : ℕ) (w dt a : ℝ) (x : ℕ → ℝ) (ha : 0 < a) : demodPhase nt w dt (fun i => a * x i) = demodPhase nt w dt x := by
  unfold demodPhase
  simp only [detrended_smul, mul_assoc, avgOf_smul]
  exact arctan2_smul _ _ _ ha

theorem demodCumPhase_pos (nt n4 : ℕ) (w dt a : ℝ) (x : ℕ → ℝ) (ha : 0 < a) :
    demodCumPhase nt n4 w dt (fun i => a * x i) = demodCumPhase nt n4 w dt x := by
  have h1 : ∀ j, cumArg nt w dt (fun i => a * x i) j = cumArg nt w dt x j := by
    intro j
    unfold cumArg
    rw [demodPhase_pos _ _ _ _ _ ha]
    simp only [detrended_smul, mul_assoc, avgOf_smul]
    exact arctan2_smul _ _ _ ha
  unfold demodCumPhase
  rw [demodPhase_pos _ _ _ _ _ ha]
  simp only [h1]

/-- With the opposite signal the reference phase changes by half a turn and the windows see the same. -/
theorem demodCumPhase_neg (nt n4 : ℕ) (w dt : ℝ) (x : ℕ → ℝ) (h : demodSimple nt w dt x ≠ 0) :
    ∃ k : ℤ, demodCumPhase nt n4 w dt (fun i => -1 * x i) = demodCumPhase nt n4 w dt x + Real.pi + k * (2 * Real.pi) := by
  have hne : (⟨avgOf nt fun i => detrended nt nt x i * Real.cos (w * (i * dt)), avgOf nt fun i => detrended nt nt x i * Real.sin (w * (i * dt))⟩ : ℂ) ≠ 0 := by
    intro h0
    apply h
    unfold demodSimple
    rw [windowAmp_eq]
    have hz := window_complex nt w dt 0 (detrended nt nt x)
    simp only [sub_zero] at hz
    have h1 := congrArg Complex.re h0
    have h2 := congrArg Complex.im h0
    simp only [Complex.zero_re, Complex.zero_im] at h1 h2
    rw [h1, h2] at hz
    simp only [Complex.ofReal_zero, zero_mul, add_zero, neg_zero, Complex.exp_zero, mul_one] at hz
    have hz' := hz.symm
    rw [div_eq_zero_iff] at hz'
    rcases hz' with hz' | hz'
    · rw [hz', norm_zero, mul_zero]
    · have : (nt : ℝ) = 0 := by exact_mod_cast hz'
      rw [this]; simp
  have hphase : ∃ k : ℤ, demodPhase nt w dt (fun i => -1 * x i) = demodPhase nt w dt x + Real.pi + k * (2 * Real.pi) := by
    have e : demodPhase nt w dt (fun i => -1 * x i) =
        Complex.arg (-(⟨avgOf nt fun i => detrended nt nt x i * Real.cos (w * (i * dt)), avgOf nt fun i => detrended nt nt x i * Real.sin (w * (i * dt))⟩ : ℂ)) := by
      unfold demodPhase
      simp only [detrended_smul, mul_assoc, avgOf_smul]
      unfold arctan2
      congr 1
      apply Complex.ext <;> simp
    have h1 := Complex.arg_neg_coe_angle hne
    rw [← e] at h1
    have h2 : ((demodPhase nt w dt (fun i => -1 * x i) : ℝ) : Real.Angle) = ((demodPhase nt w dt x + Real.pi : ℝ) : Real.Angle) := by
      rw [h1, Real.Angle.coe_add]; rfl
    obtain ⟨k, hk⟩ := Real.Angle.angle_eq_iff_two_pi_dvd_sub.1 h2
    exact ⟨k, by linarith⟩
  obtain ⟨k, hk⟩ := hphase
  have hcos : ∀ θ : ℝ, Real.cos (θ - demodPhase nt w dt (fun i => -1 * x i)) = -Real.cos (θ - demodPhase nt w dt x) := by
    intro θ
    rw [hk, ← sub_sub, Real.cos_sub_int_mul_two_pi, ← sub_sub, Real.cos_sub_pi]
  have hsin : ∀ θ : ℝ, Real.sin (θ - demodPhase nt w dt (fun i => -1 * x i)) = -Real.sin (θ - demodPhase nt w dt x) := by
    intro θ
    rw [hk, ← sub_sub, Real.sin_sub_int_mul_two_pi, ← sub_sub, Real.sin_sub_pi]
  have h1 : ∀ j, cumArg nt w dt (fun i => -1 * x i) j = cumArg nt w dt x j := by
    intro j
    unfold cumArg
    simp only [hcos, hsin, detrended_smul]
    congr 1 <;> (congr 1; funext i; ring)
  refine ⟨k, ?_⟩
  unfold demodCumPhase
  simp only [h1]
  rw [hk]
  ring

/-- Slopes that follow the same modulation, each with its own amplitude and sign: the column of the measured matrix is proportional to
these, with one factor for all, provided the modulation has a component at the carrier frequency. -/
theorem C93_column (nt n4 : ℕ) (w dt a : ℝ) (x : ℕ → ℝ) (h : demodSimple nt w dt x ≠ 0) :
    spSigned nt n4 w dt (fun i => a * x i) = a * spSigned nt n4 w dt x := by
  have amp : ∀ b : ℝ, demodCumulated nt n4 w dt (fun i => b * x i) = |b| * demodCumulated nt n4 w dt x :=
    fun b => (C61_seminorm nt n4 w dt x x b).1.2
  rcases lt_trichotomy a 0 with ha | ha | ha
  · obtain ⟨k, hk⟩ := demodCumPhase_neg nt n4 w dt x h
    have e : (fun i => a * x i) = fun i => -a * (-1 * x i) := by funext i; ring
    have hph : demodCumPhase nt n4 w dt (fun i => a * x i) = demodCumPhase nt n4 w dt x + Real.pi + k * (2 * Real.pi) := by
      rw [e, demodCumPhase_pos nt n4 w dt (-a) (fun i => -1 * x i) (by linarith), hk]
    unfold spSigned
    rw [amp, abs_of_neg ha, hph, Real.cos_add_int_mul_two_pi, Real.cos_add_pi, Left.sign_neg]
    push_cast
    ring
  · subst ha
    unfold spSigned
    rw [amp]; simp
  · unfold spSigned
    rw [amp, abs_of_pos ha, demodCumPhase_pos _ _ _ _ _ _ ha]
    ring

end

/-! ### Arguments of SynIM -/

/-- Six parameters are those of the four-parameter case only if the two factors of anamorphosis are one; by default they are zero. -/
theorem C93_six_params (x y r m a b : ℚ) :
    (synimArgs [x, y, r, m, a, b] = synimArgs [x, y, r, m] ↔ a = 1 ∧ b = 1) ∧
    synimArgs (List.replicate 6 (0 : ℚ)) ≠ synimArgs (List.replicate 4 (0 : ℚ)) := by
  constructor
  · simp [synimArgs]
  · decide +kernel

/-! ### Cases -/

/-- Two slopes, one mode, one parameter: the column is `(1, p)`. -/
noncomputable def spDemo : SprintCfg 2 1 1 where
  nominal p s _ := if s = 0 then 1 else p 0
  pinv N _ s := N s 0 / (N 0 0 ^ 2 + N 1 0 ^ 2)
  pert _ := some 1
  gain := 1 / 2
  forget := 1
  thr := 1e-3
  maxIter := 10
  dt := 1000

theorem spDemo_line : SpLine spDemo (fun s => if s = 0 then 1 else 0) (fun s => if s = 0 then 0 else 1) 1 1 where
  nominal p s := by fin_cases s <;> simp [spDemo]
  orth := by simp [Fin.sum_univ_two]
  norm0 := by simp [Fin.sum_univ_two]
  normB := by simp [Fin.sum_univ_two]
  posA := one_pos
  posB := one_pos
  pert := ⟨1, one_ne_zero, rfl⟩
  pinv N := by
    have key : N 0 0 ^ 2 + N 1 0 ^ 2 = 0 → N 0 0 = 0 ∧ N 1 0 = 0 := by
      intro h
      constructor <;> nlinarith [sq_nonneg (N 0 0), sq_nonneg (N 1 0)]
    constructor
    · intro s m
      have hm : m = 0 := Subsingleton.elim _ _
      subst hm
      simp only [spDemo, Finset.univ_unique, Fin.default_eq_zero, Finset.sum_singleton, Fin.sum_univ_two]
      by_cases hz : N 0 0 ^ 2 + N 1 0 ^ 2 = 0
      · obtain ⟨h1, h2⟩ := key hz
        have : N s 0 = 0 := by fin_cases s <;> assumption
        rw [this, zero_mul]
      · field_simp
    · intro s t
      simp only [spDemo, Finset.univ_unique, Fin.default_eq_zero, Finset.sum_singleton]
      ring

-- A true value of 3, seen with an optical gain of 0.4: after sixty iterations with gain 1/2 the error is below 0.4.
example : 3 - (spUpdate spDemo (spLineMeas (fun s => if s = 0 then 1 else 0) (fun s => if s = 0 then 0 else 1) 0.4 3))^[60] (fun _ => 0) 0 < 0.4 := by
  have := (C93_converges spDemo spDemo_line 0.4 3 (by norm_num) (by norm_num) rfl (by norm_num [spDemo]) (by norm_num [spDemo]) 60).2.2
  refine lt_of_le_of_lt this ?_
  have hg : spDemo.gain = 1 / 2 := rfl
  rw [hg]
  unfold spEps
  norm_num

-- Starting from -1 with a true value of 3 the estimate moves away.
example : spUpdate spDemo (spLineMeas (fun s => if s = 0 then 1 else 0) (fun s => if s = 0 then 0 else 1) 1 3) (fun _ => -1) 0 < -1 :=
  C93_wrong_way spDemo spDemo_line 1 3 one_pos rfl (by norm_num [spDemo]) (fun _ => -1) (by norm_num) (by norm_num) (by unfold spEps; norm_num)

-- Columns of `spDemo` are independent.
example : SpIndep (spDemo.nominal fun _ => 3) := by
  intro v h k
  have := h 0
  have hk : k = 0 := Subsingleton.elim _ _
  subst hk
  simpa [spDemo] using this

-- Two parameters with orthogonal sensitivities of two slopes.
example : ∀ j (m : Fin 1), j ≠ (0 : Fin 2) → ∑ s : Fin 2, (if s = 0 then (1 : ℝ) else 0) * (if s = j then (1 : ℝ) else 0) = 0 := by
  intro j m hj
  have : j = 1 := by omega
  subst this
  simp

-- Four samples of a sine: one period.
example : demodSimple 4 (Real.pi / 2) 1 (fun i => 1 * Real.cos (Real.pi / 2 * (i * 1) - -(Real.pi / 4))) ≠ 0 := by
  rw [(C61_sine_exact 4 1 (Real.pi / 2) 1 1 (-(Real.pi / 4)) (by norm_num) one_pos ⟨by linarith [Real.pi_pos], by linarith [Real.pi_pos]⟩
    (by push_cast; ring) ?_ ?_).1]
  · norm_num
  · rw [← Complex.exp_nat_mul]
    have : ((2 : ℕ) : ℂ) * (((Real.pi / 2 * 1 : ℝ) : ℂ) * Complex.I) = Real.pi * Complex.I := by push_cast; ring
    rw [this, Complex.exp_pi_mul_I]; norm_num
  · have : Real.pi / 2 * (((4 - 1 : ℕ) : ℝ) * 1) - -(Real.pi / 4) = -(Real.pi / 4) + 2 * Real.pi := by push_cast; ring
    rw [this, Real.cos_add_two_pi]

/-- Which arguments the constructor accepts. -/
theorem C93_constructor (nModes nCarriers nParams : ℕ) (gain forget : ℚ) (initial : Option (List ℚ)) (p : List ℚ)
    (h : sprintCheck nModes nCarriers nParams gain forget initial = some p) :
    nCarriers = nModes ∧ 0 < gain ∧ gain ≤ 1 ∧ 0 < forget ∧ forget ≤ 1 ∧ p.length = nParams ∧
      (initial = some p ∨ initial = none ∧ ∀ x ∈ p, x = 0) := by
  unfold sprintCheck at h
  split_ifs at h with h1 h2 h3
  push Not at h1
  refine ⟨h1, h2.1, h2.2, h3.1, h3.2, ?_⟩
  cases initial with
  | none =>
    simp only [Option.some_inj] at h
    subst h
    refine ⟨by simp, Or.inr ⟨rfl, fun x hx => List.eq_of_mem_replicate hx⟩⟩
  | some l =>
    dsimp only at h
    split_ifs at h with h4
    push Not at h4
    rw [Option.some_inj] at h
    subst h
    exact ⟨h4, Or.inl rfl⟩

example : sprintCheck 2 2 4 (1 / 2) 1 none = some [0, 0, 0, 0] := by decide +kernel

end Specula
