import Verif.Model.MmseGen
import Verif.Props.Mmse
import Verif.Props.ModalBase
/-!
# C126: reconstructors of minimum mean square error from interaction matrices
-/
namespace Specula

open Matrix Finset

noncomputable section

/-! ### Specification -/

/-- Covariance of the projections of the turbulent phase on two functions of the pupil. -/
def turbCov (m : MaskPx) (diam r0 L0 : ℝ) (f g : ℕ → ℝ) : ℝ :=
  (∑ i ∈ range (m.side 2), ∑ j ∈ range (m.side 2), ∑ i' ∈ range (m.side 2), ∑ j' ∈ range (m.side 2),
    m.support f i j * m.support g i' j' * phaseCov m 2 diam r0 L0 ((i : ℤ) - i') ((j : ℤ) - j')) / (m.count : ℝ) ^ 2

/-- Number of modes, and the shape made by one unit of mode `j`: a combination of influence functions, or one of them. -/
def shapesOf {a : ℕ} (F : Fin a → ℕ → ℝ) : Option (Σ k : ℕ, Matrix (Fin a) (Fin k) ℝ) → ℕ × (ℕ → ℕ → ℝ)
  | some ⟨k, M⟩ => (k, fun j p => if h : j < k then ∑ i, M i ⟨j, h⟩ * F i p else 0)
  | none => (a, fun j p => if h : j < a then F ⟨j, h⟩ p else 0)

/-- The numbers an element of a list of variances stands for, if it can be read. -/
def elemVals : NoiseElem → Option (List ℝ)
  | .num x => some [x]
  | .zeroDim _ => none
  | .arr l => some l

/-- The covariance a noise argument stands for: one variance for all slopes, given as a number or as list or array with one element; one variance
for each slope as a list; a square array. -/
inductive NoiseIs (m : ℕ) : NoiseArg → Matrix (Fin m) (Fin m) ℝ → Prop
  | num (v : ℝ) : NoiseIs m (.num v) (diagonal fun _ => v)
  | one (e : NoiseElem) (v : ℝ) (h : e = .num v ∨ e = .zeroDim v ∨ e = .arr [v]) : NoiseIs m (.list [e]) (diagonal fun _ => v)
  | vecOne (v : ℝ) : NoiseIs m (.vec [v]) (diagonal fun _ => v)
  | matOne (C : Matrix (Fin 1) (Fin 1) ℝ) : NoiseIs m (.mat 1 C) (diagonal fun _ => C 0 0)
  | list (l : List NoiseElem) (d : List ℝ) (hl : l.length = m) (h1 : m ≠ 1) (hd : ∃ vs : List (List ℝ), l.map elemVals = vs.map some ∧ vs.flatten = d) (hm : d.length = m) :
      NoiseIs m (.list l) (diagonal fun i : Fin m => d.getD i 0)
  | mat (C : Matrix (Fin m) (Fin m) ℝ) (h1 : m ≠ 1) : NoiseIs m (.mat m C) C

/-! ### Lemmas -/

theorem covEntry_turbCov (m : MaskPx) (diam r0 L0 : ℝ) (f g : ℕ → ℝ) : covEntry m 2 diam r0 L0 f g = turbCov m diam r0 L0 f g :=
  C106_projected m 2 diam r0 L0 f g

theorem shapesOf_spec (b : MmseBase) : (shapesOf b.F b.m2c).1 = b.count ∧ ∀ j : Fin b.count, (shapesOf b.F b.m2c).2 j = b.modes j := by
  obtain ⟨mask, a, F, m2c⟩ := b
  match m2c with
  | some ⟨k, M⟩ =>
    refine ⟨rfl, fun j => ?_⟩
    have hj : (j : ℕ) < k := j.2
    funext p
    show (if h : (j : ℕ) < k then ∑ i, M i ⟨j, h⟩ * F i p else 0) = ∑ i, M i j * F i p
    rw [dif_pos hj]; rfl
  | none =>
    refine ⟨rfl, fun j => ?_⟩
    have hj : (j : ℕ) < a := j.2
    funext p
    show (if h : (j : ℕ) < a then F ⟨j, h⟩ p else 0) = F j p
    rw [dif_pos hj]; rfl

theorem diagElements_vals : ∀ (l : List NoiseElem) (vs : List (List ℝ)), l.map elemVals = vs.map some → diagElements l = some vs.flatten
  | [], [], _ => rfl
  | [], v :: vs, h => by simp at h
  | e :: l, [], h => by simp at h
  | .num x :: l, v :: vs, h => by
    simp only [List.map_cons, List.cons.injEq, elemVals, Option.some.injEq] at h
    rw [diagElements, diagElements_vals l vs h.2, ← h.1]; rfl
  | .zeroDim x :: l, v :: vs, h => by simp [elemVals] at h
  | .arr a :: l, v :: vs, h => by
    simp only [List.map_cons, List.cons.injEq, elemVals, Option.some.injEq] at h
    rw [diagElements, diagElements_vals l vs h.2, ← h.1]; rfl

theorem diagElements_zeroDim : ∀ (l : List NoiseElem) (x : ℝ), NoiseElem.zeroDim x ∈ l → diagElements l = none
  | [], _, h => absurd h List.not_mem_nil
  | .zeroDim _ :: _, _, _ => rfl
  | .num y :: l, x, h => by
    have : NoiseElem.zeroDim x ∈ l := by simpa using h
    rw [diagElements, diagElements_zeroDim l x this]; rfl
  | .arr y :: l, x, h => by
    have : NoiseElem.zeroDim x ∈ l := by simpa using h
    rw [diagElements, diagElements_zeroDim l x this]; rfl

theorem noiseSel_list (m : ℕ) (l : List NoiseElem) (h : l.length ≠ 1) :
    noiseSel m (.list l) = if l.length ≠ m then none else (diagElements l).bind (diagNoise m) := by
  match l with
  | [] => rfl
  | [e] => exact absurd rfl h
  | _ :: _ :: _ => rfl

theorem noiseSel_vec (m : ℕ) (l : List ℝ) (h : l.length ≠ 1) : noiseSel m (.vec l) = if l.length ≠ m then none else some .vector := by
  match l with
  | [] => rfl
  | [e] => exact absurd rfl h
  | _ :: _ :: _ => rfl

/-- What the argument is turned into: its covariance, or the one variance. -/
theorem noiseSel_is (m : ℕ) (arg : NoiseArg) (Cz : Matrix (Fin m) (Fin m) ℝ) (h : NoiseIs m arg Cz) :
    noiseSel m arg = some (.full Cz) ∨ ∃ v, noiseSel m arg = some (.variance v) ∧ Cz = diagonal fun _ => v := by
  cases h with
  | num v => exact Or.inr ⟨v, rfl, rfl⟩
  | one e v h => rcases h with rfl | rfl | rfl <;> exact Or.inr ⟨v, rfl, rfl⟩
  | vecOne v => exact Or.inr ⟨v, rfl, rfl⟩
  | matOne C => exact Or.inr ⟨C 0 0, rfl, rfl⟩
  | list l d hl h1 hd hm =>
    obtain ⟨vs, e1, e2⟩ := hd
    refine Or.inl ?_
    rw [noiseSel_list m l (by omega), if_neg (by simpa using hl), diagElements_vals l vs e1, e2, Option.bind_some, diagNoise, if_pos hm]
  | mat C h1 => exact Or.inl (by rw [noiseSel, dif_neg h1, dif_pos rfl])

/-! ### Theorems -/

/-- C126: for a base of linearly independent modes, at least as many as are asked for, the result is the reconstructor with the smallest
mean square error for the turbulence projected on the first modes and the noise given. -/
theorem C126_optimal {m n : ℕ} (pinv : ∀ k, Matrix (Fin k) (Fin k) ℝ → Matrix (Fin k) (Fin k) ℝ) (A : Matrix (Fin m) (Fin n) ℝ)
    (r0 L0 diam : ℝ) (hr : 0 < r0) (hL : 0 < L0) (hdm : 0 < diam) (base : MmseBase) (arg : NoiseArg) (nmodes : Option ℕ) (hm : 0 < m)
    (n' : ℕ) (hn : n' = min (nmodes.getD n) n) (hcount : n' ≤ (shapesOf base.F base.m2c).1)
    (Cz : Matrix (Fin m) (Fin m) ℝ) (hz : NoiseIs m arg Cz) (pz : PosDefK Cz) (qz : Plain Cz)
    (Cx : Matrix (Fin n') (Fin n') ℝ)
    (hx : Cx = fun (i j : Fin n') => turbCov base.mask diam r0 L0 ((shapesOf base.F base.m2c).2 i) ((shapesOf base.F base.m2c).2 j))
    (hind : ∀ v : Fin n' → ℝ, (∀ k < base.mask.count, ∑ j, v j * (shapesOf base.F base.m2c).2 j k = 0) → v = 0) (qx : Plain Cx) :
    ∃ (e : cutN nmodes n = n') (W : Matrix (Fin n') (Fin m) ℝ), generateMmse pinv A r0 L0 diam base arg nmodes = some (e ▸ .mat W) ∧
      ∀ V x, meanSquare (fun i (j : Fin n') => A i ⟨j, by omega⟩) Cx Cz W x ≤ meanSquare (fun i (j : Fin n') => A i ⟨j, by omega⟩) Cx Cz V x := by
  have e : cutN nmodes n = n' := by rw [hn]; unfold cutN; cases nmodes <;> simp
  subst e
  refine ⟨rfl, ?_⟩
  obtain ⟨s1, s2⟩ := shapesOf_spec base
  rw [s1] at hcount
  have hx' : Cx = Matrix.of fun i j : Fin (cutN nmodes n) => covEntry base.mask 2 diam r0 L0 ((shapesOf base.F base.m2c).2 i) ((shapesOf base.F base.m2c).2 j) := by
    rw [hx]; ext i j; exact (covEntry_turbCov _ _ _ _ _ _).symm
  have hC : ifsCovmat base.mask 2 diam r0 L0 (fun j : Fin (cutN nmodes n) => (shapesOf base.F base.m2c).2 j) = some Cx := by
    rw [hx']; unfold ifsCovmat; rw [if_neg (by norm_num)]
  obtain ⟨-, c1, c2, c3⟩ := C106_covmat base.mask 2 diam r0 L0 hdm hr hL _ Cx hC
  have px : PosDefK Cx := by
    refine ⟨c1, fun x hx0 => lt_of_le_of_ne (c2 x) fun h0 => hx0 (hind x (c3 x h0.symm))⟩
  have hcut : (ifsCovmat base.mask 2 diam r0 L0 base.modes).bind (fun C => cutCov (cutN nmodes n) C) = some Cx := by
    unfold ifsCovmat
    rw [if_neg (by norm_num), Option.bind_some, cutCov, dif_pos hcount, hx']
    congr 1
    funext i j
    have ei := s2 ⟨i, lt_of_lt_of_le i.2 hcount⟩
    have ej := s2 ⟨j, lt_of_lt_of_le j.2 hcount⟩
    simp only [Matrix.of_apply]
    rw [← ei, ← ej]
  have hgen : ∀ s, noiseSel m arg = some s → generateMmse pinv A r0 L0 diam base arg nmodes = runMmse pinv (cutCols nmodes A) Cx s := by
    intro s hs
    unfold generateMmse
    rw [hs]
    simp only [Option.bind_some]
    rw [← Option.bind_assoc, hcut, Option.bind_some]
  rcases noiseSel_is m arg Cz hz with h | ⟨v, h, rfl⟩
  · obtain ⟨W, w1, -, w3⟩ := C68_optimal pinv (cutCols nmodes A) Cx Cz px pz qx qz none
    exact ⟨W, by rw [hgen _ h, runMmse, w1]; rfl, w3⟩
  · have hv : 0 < v := by
      have h1 := pz.2 (Pi.single ⟨0, hm⟩ 1) (by simp)
      simpa [Matrix.mulVec_diagonal] using h1
    obtain ⟨W, w1, w2⟩ := C68_variance pinv (cutCols nmodes A) Cx px qx [v] m (by simp) hm (by simp) (by simpa using hv)
    refine ⟨W, by rw [hgen _ h, runMmse, w1]; rfl, ?_⟩
    have ez : (diagonal fun i : Fin m => [v].getD ((i : ℕ) / m) 0) = diagonal fun _ : Fin m => v := by
      congr 1; funext i; rw [Nat.div_eq_of_lt i.2]; rfl
    rw [ez] at w2
    exact w2

/-- C126: noise arguments that raise: a list or square array of another size, a list with an element without dimensions. -/
theorem C126_noise_raises {m n : ℕ} (pinv : ∀ k, Matrix (Fin k) (Fin k) ℝ → Matrix (Fin k) (Fin k) ℝ) (A : Matrix (Fin m) (Fin n) ℝ)
    (r0 L0 diam : ℝ) (base : MmseBase) (nmodes : Option ℕ) :
    (∀ l : List NoiseElem, l.length ≠ 1 → (l.length ≠ m ∨ ∃ x, NoiseElem.zeroDim x ∈ l) → generateMmse pinv A r0 L0 diam base (.list l) nmodes = none) ∧
    ∀ (k : ℕ) (C : Matrix (Fin k) (Fin k) ℝ), k ≠ 1 → k ≠ m → generateMmse pinv A r0 L0 diam base (.mat k C) nmodes = none := by
  have key : ∀ arg, noiseSel m arg = none → generateMmse pinv A r0 L0 diam base arg nmodes = none := by
    intro arg h
    unfold generateMmse
    rw [h]
    simp
  refine ⟨fun l h1 h => key _ ?_, fun k C h1 h2 => key _ ?_⟩
  · rw [noiseSel_list m l h1]
    rcases h with h | ⟨x, h⟩
    · rw [if_pos h]
    · rw [diagElements_zeroDim l x h]; simp
  · rw [noiseSel, dif_neg h1, dif_neg h2]

/-- C126: one variance for each slope given as array never makes a reconstructor. -/
theorem C126_vector {m n : ℕ} (pinv : ∀ k, Matrix (Fin k) (Fin k) ℝ → Matrix (Fin k) (Fin k) ℝ) (A : Matrix (Fin m) (Fin n) ℝ)
    (r0 L0 diam : ℝ) (base : MmseBase) (nmodes : Option ℕ) (l : List ℝ) (h1 : l.length ≠ 1) :
    (cutN nmodes n ≠ m → generateMmse pinv A r0 L0 diam base (.vec l) nmodes = none) ∧
    ∀ W, generateMmse pinv A r0 L0 diam base (.vec l) nmodes ≠ some (.mat W) := by
  have h : ∀ cAtm : Matrix (Fin (cutN nmodes n)) (Fin (cutN nmodes n)) ℝ,
      ((noiseSel m (.vec l)).bind fun s => runMmse pinv (cutCols nmodes A) cAtm s) = if l.length = m ∧ cutN nmodes n = m then some .vector else none := by
    intro cAtm
    rw [noiseSel_vec m l h1]
    by_cases h2 : l.length = m
    · rw [if_neg (by simpa using h2), Option.bind_some, runMmse]; simp [h2]
    · rw [if_pos h2]; simp [h2]
  constructor
  · intro hm
    unfold generateMmse
    simp only [h, if_neg (fun h' : l.length = m ∧ cutN nmodes n = m => hm h'.2)]
    simp
  · intro W hW
    unfold generateMmse at hW
    simp only [h, Option.bind_eq_some_iff] at hW
    obtain ⟨-, -, -, -, hW⟩ := hW
    split at hW
    · exact absurd hW (by simp)
    · exact absurd hW (by simp)

/-- C126: fewer modes than columns of the interaction matrix raise. -/
theorem C126_few_modes {m n : ℕ} (pinv : ∀ k, Matrix (Fin k) (Fin k) ℝ → Matrix (Fin k) (Fin k) ℝ) (A : Matrix (Fin m) (Fin n) ℝ)
    (r0 L0 diam : ℝ) (base : MmseBase) (arg : NoiseArg) (nmodes : Option ℕ) (h : (shapesOf base.F base.m2c).1 < min (nmodes.getD n) n) :
    generateMmse pinv A r0 L0 diam base arg nmodes = none := by
  have e : cutN nmodes n = min (nmodes.getD n) n := by unfold cutN; cases nmodes <;> simp
  rw [(shapesOf_spec base).1, ← e] at h
  unfold generateMmse ifsCovmat cutCov
  rw [if_neg (by norm_num), Option.bind_some, dif_neg (by omega), Option.bind_none]

/-- C126: the calibrator does the same for the pupil of the mirror, except that numbers in a list of two or more raise; no noise raises. -/
theorem C126_calibrator {m n : ℕ} (pinv : ∀ k, Matrix (Fin k) (Fin k) ℝ → Matrix (Fin k) (Fin k) ℝ) (A : Matrix (Fin m) (Fin n) ℝ)
    (r0 L0 pitch : ℝ) (pixels : ℕ) (base : MmseBase) (nmodes : ℕ) :
    (∀ arg, (∀ l, arg = .list l → ∀ x, NoiseElem.num x ∈ l → l.length = 1) →
      calMmse pinv A r0 L0 pitch pixels base (some arg) nmodes = generateMmse pinv A r0 L0 (pitch * pixels) base arg (some nmodes)) ∧
    (∀ l x, NoiseElem.num x ∈ l → l.length ≠ 1 → calMmse pinv A r0 L0 pitch pixels base (some (.list l)) nmodes = none) ∧
    calMmse pinv A r0 L0 pitch pixels base none nmodes = none := by
  refine ⟨fun arg h => ?_, fun l x hx h1 => ?_, rfl⟩
  · match arg with
    | .num x => rfl
    | .vec l => rfl
    | .mat k C => rfl
    | .list l =>
      by_cases h1 : l.length = 1
      · obtain ⟨e, rfl⟩ := List.length_eq_one_iff.1 h1
        cases e <;> rfl
      · have : l.map NoiseElem.toXp = l := by
          conv_rhs => rw [← List.map_id l]
          refine List.map_congr_left fun e he => ?_
          match e with
          | .num x => exact absurd (h l rfl x he) h1
          | .zeroDim x => rfl
          | .arr a => rfl
        show generateMmse pinv A r0 L0 (pitch * pixels) base (.list (l.map NoiseElem.toXp)) (some nmodes) = _
        rw [this]
  · refine (C126_noise_raises pinv A r0 L0 (pitch * pixels) base (some nmodes)).1 _ (by simpa using h1) (Or.inr ⟨x, ?_⟩)
    exact List.mem_map.2 ⟨_, hx, rfl⟩

/-! ### Concrete cases -/

/-- Two actuators moving one pixel each, one mode moving both. -/
def pistonBase : MmseBase := ⟨⟨1, 2, fun _ _ => true⟩, 2, fun i k => if (i : ℕ) = k then 1 else 0, some ⟨1, fun _ _ => 1⟩⟩

example (pinv : ∀ k, Matrix (Fin k) (Fin k) ℝ → Matrix (Fin k) (Fin k) ℝ) (A : Matrix (Fin 2) (Fin 3) ℝ) :
    ∃ (e : cutN (some 1) 3 = 1) (W : Matrix (Fin 1) (Fin 2) ℝ),
      generateMmse pinv A (1 / 10) 25 8 pistonBase (.list [.num 1, .num 2]) (some 1) = some (e ▸ .mat W) := by
  have h := C126_optimal pinv A (1 / 10) 25 8 (by norm_num) (by norm_num) (by norm_num) pistonBase (.list [.num 1, .num 2]) (some 1) (by norm_num) 1 rfl
    (le_refl 1) _ (NoiseIs.list _ [1, 2] rfl (by norm_num) ⟨[[1], [2]], rfl, rfl⟩ rfl) (posDefK_diagonal _ (by
      intro i; fin_cases i <;> simp)) (plain_diagonal _) _ rfl ?_ (Or.inl fun i j h => absurd (Subsingleton.elim (α := Fin 1) i j) h)
  · obtain ⟨e, W, h1, -⟩ := h
    exact ⟨e, W, h1⟩
  · intro v hv
    have h0 := hv 0 (by decide)
    have h1 : (shapesOf pistonBase.F pistonBase.m2c).2 0 0 = 1 := by
      show (if h : 0 < 1 then ∑ i : Fin 2, (1 : ℝ) * (if (i : ℕ) = 0 then 1 else 0) else 0) = 1
      simp
    funext j
    have hj : j = 0 := Subsingleton.elim _ _
    subst hj
    simpa [h1] using h0

/-- The calibrator cannot use a variance for each slope. -/
example (pinv : ∀ k, Matrix (Fin k) (Fin k) ℝ → Matrix (Fin k) (Fin k) ℝ) (A : Matrix (Fin 2) (Fin 3) ℝ) :
    calMmse pinv A (1 / 10) 25 1 8 pistonBase (some (.list [.num 1, .num 2])) 1 = none :=
  (C126_calibrator pinv A _ _ _ _ _ _).2.1 _ 1 (by simp) (by simp)

end

end Specula
