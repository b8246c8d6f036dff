import Verif.Model.ImGen
import Mathlib.Algebra.BigOperators.Field
import Mathlib.Tactic.FieldSimp
/-
C121: interaction and reconstruction matrices from mis-registration parameters.
-/
namespace Specula

section
variable {ns nm np nr : ℕ} (c : ImGenCfg ns nm np nr)

/-- Registration that a trigger stands for (specification): perfect if nothing is connected; shifts, rotation and magnification; the
anamorphosis if all six are given. -/
noncomputable def registration : Option (List ℝ) → SynimArgs ℝ
  | none => ⟨0, 0, 0, 1, 1, 1⟩
  | some (x :: y :: r :: m :: [a, b]) => ⟨x, y, r, 1 + m, a, b⟩
  | some (x :: y :: r :: m :: _) => ⟨x, y, r, 1 + m, 1, 1⟩
  | some _ => ⟨0, 0, 0, 1, 1, 1⟩

theorem registration_spec (p : Option (List ℝ)) (h : ¬(p.getD [0, 0, 0, 0]).length < 4) :
    synimArgs (p.getD [0, 0, 0, 0]) = registration p := by
  cases p with
  | none => simp [synimArgs, registration]
  | some l =>
    match l, h with
    | [], h => simp at h
    | [_], h => simp at h
    | [_, _], h => simp at h
    | [_, _, _], h => simp at h
    | [x, y, r, m], _ => simp [synimArgs, registration]
    | [x, y, r, m, a], _ => simp [synimArgs, registration]
    | [x, y, r, m, a, b], _ => simp [synimArgs, registration]
    | x :: y :: r :: m :: a :: b :: d :: l, _ => simp [synimArgs, registration]

/-- SynIM is linear in the amplitude of a shape. -/
def ImGenCfg.Homog : Prop := ∀ (a : SynimArgs ℝ) (f : Fin np → ℝ) (x : ℝ) (s : Fin ns), c.syn a (fun i => x * f i) s = x * c.syn a f s

/-- Slopes of the mirror (specification): commands on its first modes, each moved with its own influence function; `σ` is the sign between
the convention of SynIM and that of the mirror. -/
noncomputable def mirrorSlopes (a : SynimArgs ℝ) (σ : ℝ) (h : nr ≤ nm) (x : Fin nr → ℝ) (s : Fin ns) : ℝ :=
  ∑ k, σ * x k * c.syn a (c.ifn (Fin.castLE h k)) s

theorem syn_unit (hs : c.Homog) (a : SynimArgs ℝ) (f : Fin np → ℝ) (hf : shapeRms f ≠ 0) (s : Fin ns) :
    c.syn a f s = shapeRms f * c.syn a (unitShape f) s := by
  rw [← hs a (unitShape f) (shapeRms f) s]
  congr 1
  funext i
  unfold unitShape
  field_simp

/-- `ρ` is the root mean square of a shape (specification). -/
def IsRms (f : Fin np → ℝ) (ρ : ℝ) : Prop := 0 < ρ ∧ 0 < np ∧ np * ρ ^ 2 = ∑ i, f i ^ 2

theorem shapeRms_eq (f : Fin np → ℝ) (ρ : ℝ) (h : IsRms f ρ) : shapeRms f = ρ := by
  obtain ⟨h1, h2, h3⟩ := h
  have hn : (np : ℝ) ≠ 0 := by exact_mod_cast h2.ne'
  unfold shapeRms
  rw [← h3, mul_div_cancel_left₀ _ hn, Real.sqrt_sq h1.le]

theorem imGenRun_snoc (s : ImGenOut ns nm nr) (es : List (ℤ × Option (List ℝ))) (e : ℤ × Option (List ℝ)) :
    imGenRun c s (es ++ [e]) = (imGenRun c s es).bind fun s' => imGenTrigger c s' e := by
  induction es generalizing s with
  | nil =>
    simp only [List.nil_append, imGenRun, Option.bind_some]
    cases imGenTrigger c s e <;> rfl
  | cons x es ih =>
    simp only [List.cons_append, imGenRun]
    cases imGenTrigger c s x with
    | none => rfl
    | some u => exact ih u

/-- **C121** (interaction matrix): after any triggers, the matrix is the one of the last parameters: column `k` is the slopes that mode `k`
gives with those parameters, for an amplitude of unit root mean square (not for a unit command). -/
theorem C121_intmat (hs : c.Homog) (s t : ImGenOut ns nm nr) (es : List (ℤ × Option (List ℝ))) (e : ℤ × Option (List ℝ))
    (h : imGenRun c s (es ++ [e]) = some t) :
    t.imTime = e.1 ∧ ∀ i k ρ, IsRms (c.ifn k) ρ → ρ * t.intmat i k = c.syn (registration e.2) (c.ifn k) i := by
  rw [imGenRun_snoc] at h
  obtain ⟨u, -, h⟩ := Option.bind_eq_some_iff.1 h
  unfold imGenTrigger at h
  dsimp only at h
  by_cases hl : (e.2.getD [0, 0, 0, 0]).length < 4
  · rw [if_pos hl] at h; cases h
  · rw [if_neg hl] at h
    have hreg := registration_spec e.2 hl
    have key : t.imTime = e.1 ∧ t.intmat = genIm c (e.2.getD [0, 0, 0, 0]) := by
      by_cases hr : c.computeRec = true
      · rw [if_pos hr] at h
        obtain ⟨R, -, rfl⟩ := Option.map_eq_some_iff.1 h
        exact ⟨rfl, rfl⟩
      · rw [if_neg hr] at h
        obtain rfl := Option.some.inj h
        exact ⟨rfl, rfl⟩
    refine ⟨key.1, fun i k ρ hρ => ?_⟩
    have hk := shapeRms_eq _ _ hρ
    rw [key.2, syn_unit c hs _ _ (by rw [hk]; exact hρ.1.ne'), ← hreg, hk]
    rfl

/-- **C121** (reconstruction matrix): applied to the slopes of the mirror with the last parameters, it gives each command times the root mean square of the
influence function: the commands themselves only for influence functions of unit root mean square. -/
theorem C121_recmat (hs : c.Homog) (hp : ∀ D : Matrix (Fin ns) (Fin nr) ℝ, Function.Injective D.mulVec → c.pinv D * D = 1)
    (s t : ImGenOut ns nm nr) (es : List (ℤ × Option (List ℝ))) (e : ℤ × Option (List ℝ)) (h : imGenRun c s (es ++ [e]) = some t)
    (hc : c.computeRec = true) (hn : nr ≤ nm) (ρ : Fin nm → ℝ) (hρ : ∀ k, IsRms (c.ifn k) (ρ k)) (σ : ℝ)
    (hind : Function.Injective fun x : Fin nr → ℝ => mirrorSlopes c (registration e.2) 1 hn x) (x : Fin nr → ℝ) (k : Fin nr) :
    t.recmat.mulVec (mirrorSlopes c (registration e.2) σ hn x) k = σ * ρ (Fin.castLE hn k) * x k := by
  have hrms : ∀ k, shapeRms (c.ifn k) ≠ 0 := fun k => by rw [shapeRms_eq _ _ (hρ k)]; exact (hρ k).1.ne'
  rw [← shapeRms_eq _ _ (hρ (Fin.castLE hn k))]
  rw [imGenRun_snoc] at h
  obtain ⟨u, -, h⟩ := Option.bind_eq_some_iff.1 h
  unfold imGenTrigger at h
  dsimp only at h
  by_cases hl : (e.2.getD [0, 0, 0, 0]).length < 4
  · rw [if_pos hl] at h; cases h
  · rw [if_neg hl, if_pos hc] at h
    have hreg := registration_spec e.2 hl
    obtain ⟨R, hR, rfl⟩ := Option.map_eq_some_iff.1 h
    unfold genRec at hR
    by_cases hm : c.mmse = true
    · rw [if_pos hm] at hR; cases hR
    · rw [if_neg hm, dif_pos hn] at hR
      obtain rfl := Option.some.inj hR
      have hD : ∀ y : Fin nr → ℝ, ((genIm c (e.2.getD [0, 0, 0, 0])).submatrix id (Fin.castLE hn)).mulVec y =
          mirrorSlopes c (registration e.2) 1 hn fun j => y j / shapeRms (c.ifn (Fin.castLE hn j)) := by
        intro y
        funext i
        unfold mirrorSlopes Matrix.mulVec dotProduct
        refine Finset.sum_congr rfl fun j _ => ?_
        rw [syn_unit c hs _ _ (hrms _), ← hreg]
        simp only [genIm, Matrix.submatrix_apply, Matrix.of_apply, id]
        have := hrms (Fin.castLE hn j)
        field_simp
      have hinj : Function.Injective ((genIm c (e.2.getD [0, 0, 0, 0])).submatrix id (Fin.castLE hn)).mulVec := by
        intro y z hyz
        rw [hD, hD] at hyz
        have := hind hyz
        funext j
        have hj := congrFun this j
        exact (div_left_inj' (hrms _)).1 hj
      have hx : mirrorSlopes c (registration e.2) σ hn x = ((genIm c (e.2.getD [0, 0, 0, 0])).submatrix id (Fin.castLE hn)).mulVec
          fun j => σ * shapeRms (c.ifn (Fin.castLE hn j)) * x j := by
        rw [hD]
        funext i
        unfold mirrorSlopes
        refine Finset.sum_congr rfl fun j _ => ?_
        have := hrms (Fin.castLE hn j)
        field_simp
      dsimp only
      rw [hx, Matrix.mulVec_mulVec, hp _ hinj, Matrix.one_mulVec]

/-- **C121** (no memory): the outputs depend on the last parameters only. -/
theorem C121_no_memory (hc : c.computeRec = true) (s s' t t' : ImGenOut ns nm nr) (es es' : List (ℤ × Option (List ℝ)))
    (e : ℤ × Option (List ℝ)) (h : imGenRun c s (es ++ [e]) = some t) (h' : imGenRun c s' (es' ++ [e]) = some t') : t = t' := by
  rw [imGenRun_snoc] at h h'
  obtain ⟨u, -, h⟩ := Option.bind_eq_some_iff.1 h
  obtain ⟨u', -, h'⟩ := Option.bind_eq_some_iff.1 h'
  unfold imGenTrigger at h h'
  dsimp only at h h'
  rw [if_pos hc] at h h'
  rw [h] at h'
  exact Option.some.inj h'

/-- **C121** (failures): the reconstruction matrix can be asked for exactly without `mmse` and for not more modes than the mirror has; else every
trigger fails. -/
theorem C121_works_iff (hc : c.computeRec = true) (s : ImGenOut ns nm nr) (e : ℤ × Option (List ℝ)) (hl : ∀ p, e.2 = some p → 4 ≤ p.length) :
    imGenTrigger c s e ≠ none ↔ c.mmse = false ∧ nr ≤ nm := by
  have h4 : ¬(e.2.getD [0, 0, 0, 0]).length < 4 := by
    cases he : e.2 with
    | none => simp
    | some p => have := hl p he; simp; omega
  unfold imGenTrigger
  dsimp only
  rw [if_neg h4, if_pos hc]
  unfold genRec
  by_cases hm : c.mmse = true
  · simp [hm]
  · by_cases hn : nr ≤ nm
    · simp [hm, hn]
    · simp [hm, hn]

end

/-- **C121** (subapertures): the pairs given to SynIM are row and column of each subaperture in the map with `nx` columns, in the order of the slopes. -/
theorem C121_subaps (d : List ℕ) (nx : ℕ) (hx : 0 < nx) :
    (validSubaps d nx).length = d.length ∧
    ∀ (i : ℕ) (hi : i < (validSubaps d nx).length) (hd : i < d.length),
      (validSubaps d nx)[i].1 * nx + (validSubaps d nx)[i].2 = d[i] ∧ (validSubaps d nx)[i].2 < nx := by
  refine ⟨by simp [validSubaps], fun i hi hd => ?_⟩
  simp only [validSubaps, List.getElem_map]
  exact ⟨by rw [Nat.mul_comm]; exact Nat.div_add_mod _ _, Nat.mod_lt _ hx⟩

/-! ### Concrete cases -/

/-- A mirror with one mode of amplitude 2 on one pixel, one slope. -/
noncomputable def imGenExample : ImGenCfg 1 1 1 1 :=
  ⟨fun _ _ => 2, fun a f _ => a.magGlobal * f 0, fun D => Matrix.of fun _ _ => (D 0 0)⁻¹, true, false⟩

theorem imGenExample_rms (k : Fin 1) : IsRms (imGenExample.ifn k) 2 := by
  refine ⟨by norm_num, by norm_num, ?_⟩
  simp [imGenExample]

/-- The reconstruction matrix gives twice the command. -/
example (s : ImGenOut 1 1 1) : ∃ t, imGenRun imGenExample s [(5, some [0, 0, 0, 1])] = some t ∧
    t.recmat.mulVec (mirrorSlopes imGenExample (registration (some [0, 0, 0, 1])) 1 (Nat.le_refl 1) fun _ => 3) 0 = 6 := by
  have hs : imGenExample.Homog := by
    intro a f x s
    simp only [imGenExample]
    ring
  obtain ⟨t, ht⟩ : ∃ t, imGenRun imGenExample s ([] ++ [(5, some [0, 0, 0, 1])]) = some t := by
    simp [imGenRun, imGenTrigger, genRec, imGenExample]
  refine ⟨t, ht, ?_⟩
  rw [C121_recmat imGenExample hs ?_ s t [] (5, some [0, 0, 0, 1]) ht rfl (Nat.le_refl 1) (fun _ => 2) imGenExample_rms 1 ?_]
  · norm_num
  · intro D hD
    have h0 : D 0 0 ≠ 0 := by
      intro h
      have : (fun _ : Fin 1 => (1 : ℝ)) = fun _ => 0 := hD (by
        funext i
        rw [Subsingleton.elim i 0]
        simp [Matrix.mulVec, dotProduct, h])
      have := congrFun this 0
      norm_num at this
    ext i j
    rw [Subsingleton.elim i 0, Subsingleton.elim j 0]
    simp [imGenExample, Matrix.mul_apply, h0]
  · intro x y hxy
    have h := congrFun hxy 0
    simp only [mirrorSlopes, imGenExample, registration, Finset.univ_unique, Finset.sum_singleton] at h
    funext i
    rw [Subsingleton.elim i default]
    linarith

end Specula
