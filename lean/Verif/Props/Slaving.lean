import Verif.Model.Slaving
import Mathlib.Analysis.Convex.SpecificFunctions.Deriv
import Mathlib.LinearAlgebra.Matrix.ToLinearEquiv
import Mathlib.LinearAlgebra.Matrix.DotProduct
import Mathlib.Data.List.GetD
import Mathlib.Analysis.SpecialFunctions.Trigonometric.Bounds
import Mathlib.Analysis.Convex.SpecificFunctions.Deriv

/-!
# C101: zonal influence functions, coupling and slaving
-/

namespace Specula

open Finset

noncomputable section

theorem planeRow_dot (p : ℝ × ℝ) (q : Fin 3 → ℝ) : planeRow p ⬝ᵥ q = p.1 * q 0 + p.2 * q 1 + q 2 := by
  simp [planeRow, dotProduct, Fin.sum_univ_three]

/-! ### Least squares -/

/-- The sum of the squares of the residuals of the plane `q` on rows with data. -/
def fitCost (l : List ((Fin 3 → ℝ) × ℝ)) (q : Fin 3 → ℝ) : ℝ := (l.map fun r => (r.1 ⬝ᵥ q - r.2) ^ 2).sum

def fitRhs (l : List ((Fin 3 → ℝ) × ℝ)) : Fin 3 → ℝ := (l.map fun r => r.2 • r.1).sum

theorem normalMat_quad (l : List (Fin 3 → ℝ)) (u q : Fin 3 → ℝ) :
    u ⬝ᵥ (normalMat l).mulVec q = (l.map fun r => (r ⬝ᵥ u) * (r ⬝ᵥ q)).sum := by
  unfold normalMat
  induction l with
  | nil => simp
  | cons a l ih =>
    rw [List.map_cons, List.sum_cons, Matrix.add_mulVec, dotProduct_add, ih, List.map_cons, List.sum_cons, Matrix.vecMulVec_mulVec]
    congr 1
    simp [dotProduct, Fin.sum_univ_three]
    ring

theorem normalMat_symm (l : List (Fin 3 → ℝ)) (u q : Fin 3 → ℝ) : u ⬝ᵥ (normalMat l).mulVec q = (normalMat l).mulVec u ⬝ᵥ q := by
  rw [normalMat_quad, dotProduct_comm, normalMat_quad]
  congr 1
  exact List.map_congr_left fun r _ => mul_comm _ _

theorem fitRhs_dot (l : List ((Fin 3 → ℝ) × ℝ)) (u : Fin 3 → ℝ) : u ⬝ᵥ fitRhs l = (l.map fun r => r.2 * (r.1 ⬝ᵥ u)).sum := by
  unfold fitRhs
  induction l with
  | nil => simp
  | cons a l ih =>
    rw [List.map_cons, List.sum_cons, dotProduct_add, ih, List.map_cons, List.sum_cons, dotProduct_smul, smul_eq_mul, dotProduct_comm]

theorem list_sum_sub {α : Type} (l : List α) (f g : α → ℝ) : (l.map f).sum - (l.map g).sum = (l.map fun a => f a - g a).sum := by
  induction l with
  | nil => simp
  | cons a l ih => simp only [List.map_cons, List.sum_cons]; rw [← ih]; ring

theorem list_sum_nonneg_map {α : Type} (l : List α) (f : α → ℝ) (h : ∀ a ∈ l, 0 ≤ f a) : 0 ≤ (l.map f).sum := by
  apply List.sum_nonneg
  intro x hx
  obtain ⟨a, ha, rfl⟩ := List.mem_map.1 hx
  exact h a ha

/-- A solution of the normal equations minimises the cost. -/
theorem fit_minimal (l : List ((Fin 3 → ℝ) × ℝ)) (q : Fin 3 → ℝ) (h : (normalMat (l.map Prod.fst)).mulVec q = fitRhs l) (q' : Fin 3 → ℝ) :
    fitCost l q ≤ fitCost l q' := by
  have h1 : (q' - q) ⬝ᵥ (normalMat (l.map Prod.fst)).mulVec q = (q' - q) ⬝ᵥ fitRhs l := by rw [h]
  rw [normalMat_quad, fitRhs_dot, List.map_map] at h1
  have h2 : (l.map fun r => (r.1 ⬝ᵥ (q' - q)) * (r.1 ⬝ᵥ q - r.2)).sum = 0 := by
    have : (l.map fun r => (r.1 ⬝ᵥ (q' - q)) * (r.1 ⬝ᵥ q - r.2)).sum =
        (l.map fun r => (r.1 ⬝ᵥ (q' - q)) * (r.1 ⬝ᵥ q)).sum - (l.map fun r => r.2 * (r.1 ⬝ᵥ (q' - q))).sum := by
      rw [list_sum_sub]
      congr 1
      exact List.map_congr_left fun r _ => by ring
    rw [this, sub_eq_zero]
    simpa [Function.comp_def] using h1
  have h3 : fitCost l q' - fitCost l q = 2 * (l.map fun r => (r.1 ⬝ᵥ (q' - q)) * (r.1 ⬝ᵥ q - r.2)).sum + (l.map fun r => (r.1 ⬝ᵥ (q' - q)) ^ 2).sum := by
    unfold fitCost
    rw [list_sum_sub]
    clear h h1 h2
    induction l with
    | nil => simp
    | cons a l ih =>
      simp only [List.map_cons, List.sum_cons]
      rw [ih, dotProduct_sub]; ring
  have h4 : 0 ≤ (l.map fun r => (r.1 ⬝ᵥ (q' - q)) ^ 2).sum := list_sum_nonneg_map _ _ fun r _ => sq_nonneg _
  rw [h2] at h3
  linarith

/-! ### Linear weights -/

/-- The rows of the fit with their data: the commands of the near masters, and zero at the virtual actuator. -/
def fitData (n : ℕ) (xy : ℕ → ℝ × ℝ) (masters : List ℕ) (step edge radiusSteps : ℝ) (s : ℕ) (c : ℕ → ℝ) : List ((Fin 3 → ℝ) × ℝ) :=
  let a := (nearMasters xy masters (radiusSteps * step) s).map fun i => (planeRow (xy (masters.getD i 0)), c (masters.getD i 0))
  if edge > 0 then a ++ [(edge • planeRow (virtualAct n xy step s), 0)] else a

theorem fitData_fst (n : ℕ) (xy : ℕ → ℝ × ℝ) (masters : List ℕ) (step edge radiusSteps : ℝ) (s : ℕ) (c : ℕ → ℝ) :
    (fitData n xy masters step edge radiusSteps s c).map Prod.fst = fitRows n xy masters step edge radiusSteps s := by
  unfold fitData fitRows
  dsimp only
  split <;> simp [Function.comp_def]

theorem nearMasters_spec (xy : ℕ → ℝ × ℝ) (masters : List ℕ) (radius : ℝ) (s : ℕ) :
    (nearMasters xy masters radius s).Nodup ∧ ∀ i ∈ nearMasters xy masters radius s, i < masters.length := by
  unfold nearMasters
  dsimp only
  split
  · constructor
    · refine List.Nodup.sublist (List.take_sublist _ _) ?_
      exact (List.mergeSort_perm _ _).nodup_iff.2 List.nodup_range
    · intro i hi
      have := (List.mergeSort_perm _ _).subset (List.mem_of_mem_take hi)
      exact List.mem_range.1 this
  · constructor
    · exact List.nodup_range.filter _
    · intro i hi
      exact List.mem_range.1 (List.mem_filter.1 hi).1

theorem sum_range_ite_mem (l : List ℕ) (hl : l.Nodup) (n : ℕ) (hn : ∀ i ∈ l, i < n) (f : ℕ → ℝ) :
    ∑ i ∈ range n, (if i ∈ l then f i else 0) = (l.map f).sum := by
  rw [← sum_filter]
  have : (range n).filter (fun i => i ∈ l) = l.toFinset := by
    ext i; simp only [mem_filter, mem_range, List.mem_toFinset]
    exact ⟨fun h => h.2, fun h => ⟨hn i h, h⟩⟩
  rw [this, List.sum_toFinset _ hl]

/-- The command of a slave: the sum over the masters of weight times command. -/
def slaveCommand (masters : List ℕ) (w : ℕ → ℕ → ℝ) (c : ℕ → ℝ) (j : ℕ) : ℝ := ∑ i ∈ range masters.length, w i j * c (masters.getD i 0)

variable (lstsq : Matrix (Fin 3) (Fin 3) ℝ → (Fin 3 → ℝ) → Fin 3 → ℝ)

theorem slaveCommand_linear (n : ℕ) (xy : ℕ → ℝ × ℝ) (masters slaves : List ℕ) (step edge radiusSteps : ℝ) (c : ℕ → ℝ) (j : ℕ) :
    slaveCommand masters (weightsLinear lstsq n xy masters slaves step edge radiusSteps) c j =
      solveOr lstsq (normalMat (fitRows n xy masters step edge radiusSteps (slaves.getD j 0))) (planeRow (xy (slaves.getD j 0))) ⬝ᵥ
        fitRhs (fitData n xy masters step edge radiusSteps (slaves.getD j 0) c) := by
  obtain ⟨h1, h2⟩ := nearMasters_spec xy masters (radiusSteps * step) (slaves.getD j 0)
  unfold slaveCommand weightsLinear
  dsimp only
  simp only [ite_mul, zero_mul]
  rw [sum_range_ite_mem _ h1 _ h2, fitRhs_dot]
  set v := solveOr lstsq (normalMat (fitRows n xy masters step edge radiusSteps (slaves.getD j 0))) (planeRow (xy (slaves.getD j 0)))
  have e : ((nearMasters xy masters (radiusSteps * step) (slaves.getD j 0)).map fun i => planeRow (xy (masters.getD i 0)) ⬝ᵥ v * c (masters.getD i 0)).sum =
      (((nearMasters xy masters (radiusSteps * step) (slaves.getD j 0)).map fun i => (planeRow (xy (masters.getD i 0)), c (masters.getD i 0))).map
        fun r => r.2 * (r.1 ⬝ᵥ v)).sum := by
    rw [List.map_map]; congr 1
    exact List.map_congr_left fun i _ => by simp [mul_comm]
  rw [e]
  unfold fitData
  dsimp only
  split
  · rw [List.map_append, List.sum_append]; simp
  · rfl

/-- **C101** (plane fit): with linear slaving and near masters that are not on a line, the command that a slave gets is the value at the slave of the
plane that best fits, in the least squares sense, the commands of the near masters and, if an edge weight is given, zero at the virtual actuator with
that weight. -/
theorem C101_plane_fit (n : ℕ) (xy : ℕ → ℝ × ℝ) (masters slaves : List ℕ) (step edge radiusSteps : ℝ) (c : ℕ → ℝ) (j : ℕ)
    (hdet : (normalMat (fitRows n xy masters step edge radiusSteps (slaves.getD j 0))).det ≠ 0) :
    ∃ q : Fin 3 → ℝ, slaveCommand masters (weightsLinear lstsq n xy masters slaves step edge radiusSteps) c j =
        q 0 * (xy (slaves.getD j 0)).1 + q 1 * (xy (slaves.getD j 0)).2 + q 2 ∧
      ∀ q', fitCost (fitData n xy masters step edge radiusSteps (slaves.getD j 0) c) q ≤
        fitCost (fitData n xy masters step edge radiusSteps (slaves.getD j 0) c) q' := by
  set M := normalMat (fitRows n xy masters step edge radiusSteps (slaves.getD j 0)) with hM
  set b := fitRhs (fitData n xy masters step edge radiusSteps (slaves.getD j 0) c) with hb
  set p := planeRow (xy (slaves.getD j 0)) with hp
  have hu : IsUnit M.det := isUnit_iff_ne_zero.2 hdet
  have hq : M.mulVec (M⁻¹.mulVec b) = b := by rw [Matrix.mulVec_mulVec, Matrix.mul_nonsing_inv _ hu, Matrix.one_mulVec]
  have hv : M.mulVec (M⁻¹.mulVec p) = p := by rw [Matrix.mulVec_mulVec, Matrix.mul_nonsing_inv _ hu, Matrix.one_mulVec]
  refine ⟨M⁻¹.mulVec b, ?_, fun q' => fit_minimal _ _ ?_ q'⟩
  · rw [slaveCommand_linear, ← hM, ← hb, ← hp]
    have e1 : solveOr lstsq M p = M⁻¹.mulVec p := by unfold solveOr; rw [if_pos hdet]
    rw [e1]
    have e2 : (M⁻¹.mulVec p) ⬝ᵥ b = (M⁻¹.mulVec p) ⬝ᵥ M.mulVec (M⁻¹.mulVec b) := by rw [hq]
    rw [e2, hM, normalMat_symm, ← hM, hv]
    set q := M⁻¹.mulVec b
    rw [hp]
    simp [planeRow, dotProduct, Fin.sum_univ_three]
    ring
  · rw [fitData_fst, ← hM, hq]

theorem normalMat_kernel (l : List (Fin 3 → ℝ)) (q : Fin 3 → ℝ) (h : (normalMat l).mulVec q = 0) : ∀ r ∈ l, r ⬝ᵥ q = 0 := by
  have h1 : q ⬝ᵥ (normalMat l).mulVec q = 0 := by rw [h, dotProduct_zero]
  rw [normalMat_quad] at h1
  intro r hr
  by_contra hne
  have h2 : 0 < (l.map fun r => r ⬝ᵥ q * (r ⬝ᵥ q)).sum := by
    clear h h1
    induction l with
    | nil => simp at hr
    | cons a l ih =>
      rw [List.map_cons, List.sum_cons]
      rcases List.mem_cons.1 hr with rfl | hr
      · have := list_sum_nonneg_map l (fun r => r ⬝ᵥ q * (r ⬝ᵥ q)) fun r _ => mul_self_nonneg _
        have h3 : 0 < r ⬝ᵥ q * (r ⬝ᵥ q) := mul_self_pos.2 hne
        linarith
      · have := ih hr
        have h3 := mul_self_nonneg (a ⬝ᵥ q)
        linarith
  rw [h1] at h2
  exact lt_irrefl _ h2

/-- Three near masters that are not on a line make the fit regular. -/
theorem C101_not_collinear (n : ℕ) (xy : ℕ → ℝ × ℝ) (masters : List ℕ) (step edge radiusSteps : ℝ) (s : ℕ) (i k m : ℕ)
    (hi : i ∈ nearMasters xy masters (radiusSteps * step) s) (hk : k ∈ nearMasters xy masters (radiusSteps * step) s)
    (hm : m ∈ nearMasters xy masters (radiusSteps * step) s)
    (hne : ((xy (masters.getD k 0)).1 - (xy (masters.getD i 0)).1) * ((xy (masters.getD m 0)).2 - (xy (masters.getD i 0)).2) ≠
      ((xy (masters.getD m 0)).1 - (xy (masters.getD i 0)).1) * ((xy (masters.getD k 0)).2 - (xy (masters.getD i 0)).2)) :
    (normalMat (fitRows n xy masters step edge radiusSteps s)).det ≠ 0 := by
  intro h0
  obtain ⟨q, hq, hz⟩ := Matrix.exists_mulVec_eq_zero_iff.2 h0
  have hker := normalMat_kernel _ q hz
  have hmem : ∀ a ∈ nearMasters xy masters (radiusSteps * step) s, planeRow (xy (masters.getD a 0)) ⬝ᵥ q = 0 := by
    intro a ha
    apply hker
    unfold fitRows
    dsimp only
    split
    · exact List.mem_append_left _ (List.mem_map_of_mem ha)
    · exact List.mem_map_of_mem ha
  have e1 := hmem i hi
  have e2 := hmem k hk
  have e3 := hmem m hm
  rw [planeRow_dot] at e1 e2 e3
  generalize (xy (masters.getD i 0)) = a at *
  generalize (xy (masters.getD k 0)) = b at *
  generalize (xy (masters.getD m 0)) = d at *
  have hd : (b.1 - a.1) * (d.2 - a.2) - (d.1 - a.1) * (b.2 - a.2) ≠ 0 := sub_ne_zero.2 hne
  have h1 : q 0 = 0 := by
    have : ((b.1 - a.1) * (d.2 - a.2) - (d.1 - a.1) * (b.2 - a.2)) * q 0 = 0 := by
      linear_combination (d.2 - a.2) * (e2 - e1) - (b.2 - a.2) * (e3 - e1)
    exact (mul_eq_zero.1 this).resolve_left hd
  have h2 : q 1 = 0 := by
    have : ((b.1 - a.1) * (d.2 - a.2) - (d.1 - a.1) * (b.2 - a.2)) * q 1 = 0 := by
      linear_combination (b.1 - a.1) * (e3 - e1) - (d.1 - a.1) * (e2 - e1)
    exact (mul_eq_zero.1 this).resolve_left hd
  have h3 : q 2 = 0 := by rw [h1, h2] at e1; linarith
  apply hq
  funext t
  fin_cases t
  · exact h1
  · exact h2
  · exact h3

/-- The normal equations in terms of the rows. -/
theorem normalMat_mulVec (l : List (Fin 3 → ℝ)) (q : Fin 3 → ℝ) : (normalMat l).mulVec q = (l.map fun r => (r ⬝ᵥ q) • r).sum := by
  unfold normalMat
  induction l with
  | nil => simp
  | cons a l ih =>
    rw [List.map_cons, List.sum_cons, Matrix.add_mulVec, ih, List.map_cons, List.sum_cons, Matrix.vecMulVec_mulVec]
    congr 1
    simp

/-- A vector that is a combination of the rows is reached by the solution. -/
theorem solve_reaches (l : List (Fin 3 → ℝ)) (p : Fin 3 → ℝ) (k : (Fin 3 → ℝ) → ℝ)
    (h : (normalMat l).det ≠ 0 ∨ (∀ (M : Matrix (Fin 3) (Fin 3) ℝ) (p : Fin 3 → ℝ), M.transpose.mulVec (M.mulVec (lstsq M p)) = M.transpose.mulVec p) ∧
      p = (l.map fun r => k r • r).sum) : (normalMat l).mulVec (solveOr lstsq (normalMat l) p) = p := by
  by_cases hd : (normalMat l).det ≠ 0
  · unfold solveOr
    rw [if_pos hd, Matrix.mulVec_mulVec, Matrix.mul_nonsing_inv _ (isUnit_iff_ne_zero.2 hd), Matrix.one_mulVec]
  · obtain ⟨hl, hp⟩ := h.resolve_left hd
    unfold solveOr
    rw [if_neg hd]
    set v := lstsq (normalMat l) p
    have hsym : (normalMat l).transpose = normalMat l := by
      unfold normalMat
      clear hd hp h v
      induction l with
      | nil => simp
      | cons a l ih => rw [List.map_cons, List.sum_cons, Matrix.transpose_add, ih, Matrix.transpose_vecMulVec]
    have h1 := hl (normalMat l) p
    rw [hsym] at h1
    set d := (normalMat l).mulVec v - p with hdd
    have h2 : (normalMat l).mulVec d = 0 := by rw [hdd, Matrix.mulVec_sub, h1, sub_self]
    have h3 := normalMat_kernel l d h2
    have h4 : ∀ g : (Fin 3 → ℝ) → ℝ, d ⬝ᵥ (l.map fun r => g r • r).sum = 0 := by
      intro g
      clear hd hp h h1 h2 hsym hdd
      clear_value d
      induction l with
      | nil => simp
      | cons a l ih =>
        rw [List.map_cons, List.sum_cons, dotProduct_add, ih (fun r hr => h3 r (List.mem_cons_of_mem _ hr)), dotProduct_smul, dotProduct_comm,
          h3 a List.mem_cons_self]
        simp
    have h5 : d ⬝ᵥ d = 0 := by
      have e : d ⬝ᵥ d = d ⬝ᵥ (normalMat l).mulVec v - d ⬝ᵥ p := (dotProduct_sub d _ _)
      rw [e, normalMat_mulVec, h4, hp, h4, sub_self]
    have h6 : d = 0 := dotProduct_self_eq_zero.1 h5
    exact sub_eq_zero.1 h6

/-- **C101** (planes): linear slaving extrapolates exactly the commands of the masters that lie on a plane, if the slave is in the plane figure spanned by its near
masters (which is so when three of them are not on a line) and, with an edge weight, the plane is zero at the virtual actuator. -/
theorem C101_planes (n : ℕ) (xy : ℕ → ℝ × ℝ) (masters slaves : List ℕ) (step edge radiusSteps : ℝ) (c : ℕ → ℝ) (j : ℕ) (α β γ : ℝ)
    (hc : ∀ i ∈ nearMasters xy masters (radiusSteps * step) (slaves.getD j 0),
      c (masters.getD i 0) = α * (xy (masters.getD i 0)).1 + β * (xy (masters.getD i 0)).2 + γ)
    (hedge : 0 < edge → α * (virtualAct n xy step (slaves.getD j 0)).1 + β * (virtualAct n xy step (slaves.getD j 0)).2 + γ = 0)
    (k : (Fin 3 → ℝ) → ℝ)
    (hspan : (normalMat (fitRows n xy masters step edge radiusSteps (slaves.getD j 0))).det ≠ 0 ∨ (∀ (M : Matrix (Fin 3) (Fin 3) ℝ) (p : Fin 3 → ℝ), M.transpose.mulVec (M.mulVec (lstsq M p)) = M.transpose.mulVec p) ∧
      planeRow (xy (slaves.getD j 0)) = ((fitRows n xy masters step edge radiusSteps (slaves.getD j 0)).map fun r => k r • r).sum) :
    slaveCommand masters (weightsLinear lstsq n xy masters slaves step edge radiusSteps) c j =
      α * (xy (slaves.getD j 0)).1 + β * (xy (slaves.getD j 0)).2 + γ := by
  rw [slaveCommand_linear]
  set s := slaves.getD j 0 with hs
  set q : Fin 3 → ℝ := ![α, β, γ] with hq
  have e : fitRhs (fitData n xy masters step edge radiusSteps s c) = (normalMat (fitRows n xy masters step edge radiusSteps s)).mulVec q := by
    rw [normalMat_mulVec, ← fitData_fst n xy masters step edge radiusSteps s c, List.map_map]
    unfold fitRhs
    congr 1
    refine List.map_congr_left fun r hr => ?_
    simp only [Function.comp_apply]
    congr 1
    have hnear : ∀ r ∈ (nearMasters xy masters (radiusSteps * step) s).map fun i => (planeRow (xy (masters.getD i 0)), c (masters.getD i 0)), r.2 = r.1 ⬝ᵥ q := by
      intro r hr
      obtain ⟨i, hi, rfl⟩ := List.mem_map.1 hr
      simp only
      rw [hc i hi, planeRow_dot, hq]
      simp; ring
    unfold fitData at hr
    dsimp only at hr
    split at hr
    · rename_i hpos
      rcases List.mem_append.1 hr with h | h
      · exact hnear r h
      · rw [List.mem_singleton] at h
        subst h
        simp only
        rw [smul_dotProduct, planeRow_dot, hq]
        have := hedge hpos
        simp
        right; linarith
    · exact hnear r hr
  rw [e, normalMat_symm, solve_reaches lstsq _ _ k hspan, planeRow_dot, hq]
  simp; ring

/-! ### Standard weights -/

/-- **C101** (averages): with the standard slaving the masters within 1.1 steps of a slave have equal weights that add to one, the others weight zero; a
slave with no master so near has all weights zero. -/
theorem C101_standard (xy : ℕ → ℝ × ℝ) (masters slaves : List ℕ) (step : ℝ) (j : ℕ) (near : Finset ℕ)
    (hnear : near = (range masters.length).filter fun i => sqDist (xy (slaves.getD j 0)) (xy (masters.getD i 0)) ≤ 1.1 * step) :
    (∀ i ∈ near, weightsStandard xy masters slaves step i j = 1 / near.card) ∧
    (∀ i, i < masters.length → i ∉ near → weightsStandard xy masters slaves step i j = 0) ∧
    (near.Nonempty → ∀ c : ℕ → ℝ, slaveCommand masters (weightsStandard xy masters slaves step) c j = (∑ i ∈ near, c (masters.getD i 0)) / near.card) ∧
    (near = ∅ → ∀ c : ℕ → ℝ, slaveCommand masters (weightsStandard xy masters slaves step) c j = 0) := by
  have hsum : ∑ i ∈ range masters.length, (if sqDist (xy (slaves.getD j 0)) (xy (masters.getD i 0)) ≤ 1.1 * step then (1 : ℝ) else 0) = near.card := by
    rw [← sum_filter, ← hnear, sum_const, nsmul_eq_mul, mul_one]
  have hden : near.Nonempty → (if ((near.card : ℕ) : ℝ) > 1 then ((near.card : ℕ) : ℝ) else 1) = near.card := by
    intro h
    have h1 : 1 ≤ near.card := h.card_pos
    split
    · rfl
    · rename_i h2
      have : (near.card : ℝ) ≤ 1 := not_lt.1 h2
      have h3 : (1 : ℝ) ≤ near.card := by exact_mod_cast h1
      linarith
  have hin : ∀ i ∈ near, weightsStandard xy masters slaves step i j = 1 / near.card := by
    intro i hi
    unfold weightsStandard
    dsimp only
    rw [hsum, hden ⟨i, hi⟩, if_pos]
    rw [hnear] at hi
    exact (mem_filter.1 hi).2
  have hout : ∀ i, i < masters.length → i ∉ near → weightsStandard xy masters slaves step i j = 0 := by
    intro i hi hn
    unfold weightsStandard
    dsimp only
    rw [if_neg, zero_div]
    intro h
    exact hn (by rw [hnear]; exact mem_filter.2 ⟨mem_range.2 hi, h⟩)
  have hcmd : ∀ c : ℕ → ℝ, slaveCommand masters (weightsStandard xy masters slaves step) c j = ∑ i ∈ near, 1 / near.card * c (masters.getD i 0) := by
    intro c
    unfold slaveCommand
    have hsub : near ⊆ range masters.length := by rw [hnear]; exact filter_subset _ _
    rw [← sum_subset hsub]
    · exact sum_congr rfl fun i hi => by rw [hin i hi]
    · intro i hi hn
      rw [hout i (mem_range.1 hi) hn, zero_mul]
  refine ⟨hin, hout, fun _ c => ?_, fun h c => ?_⟩
  · rw [hcmd, ← mul_sum]; ring
  · rw [hcmd, h]; simp

/-! ### Surfaces -/

theorem sum_list_positions (l : List ℕ) (hl : l.Nodup) (F : ℕ → ℕ → ℝ) :
    ∑ i ∈ range l.length, F i (l.getD i 0) = ∑ a ∈ l.toFinset, F (l.idxOf a) a := by
  refine sum_bij' (fun i _ => l.getD i 0) (fun a _ => l.idxOf a) ?_ ?_ ?_ ?_ ?_
  · intro i hi
    have := mem_range.1 hi
    rw [List.getD_eq_getElem _ _ this]
    simp
  · intro a ha
    exact mem_range.2 (List.idxOf_lt_length_iff.2 (List.mem_toFinset.1 ha))
  · intro i hi
    have := mem_range.1 hi
    rw [List.getD_eq_getElem _ _ this]
    exact hl.idxOf_getElem i this
  · intro a ha
    have h := List.idxOf_lt_length_iff.2 (List.mem_toFinset.1 ha)
    rw [List.getD_eq_getElem _ _ h]
    exact List.getElem_idxOf h
  · intro i hi
    have := mem_range.1 hi
    rw [List.getD_eq_getElem _ _ this, hl.idxOf_getElem i this]

theorem mapM_range_some {β : Type} (f : ℕ → Option β) (d : β) (n : ℕ) (l : List β) (h : (List.range n).mapM f = some l) :
    l.length = n ∧ ∀ a, a < n → f a = some (l.getD a d) := by
  induction n generalizing l with
  | zero => simp at h; subst h; simp
  | succ n ih =>
    rw [List.range_succ, List.mapM_append] at h
    cases h1 : (List.range n).mapM f with
    | none => rw [h1] at h; simp at h
    | some l1 =>
      rw [h1] at h
      cases h2 : f n with
      | none => simp [h2] at h
      | some b =>
        simp [h2] at h
        subst h
        obtain ⟨hl, hv⟩ := ih l1 h1
        refine ⟨by simp [hl], fun a ha => ?_⟩
        rcases Nat.lt_succ_iff_lt_or_eq.1 ha with h3 | rfl
        · rw [hv a h3, List.getD_append _ _ _ _ (by omega)]
        · rw [h2, List.getD_append_right _ _ _ _ (by omega)]; simp [hl]

/-- **C101** (surface): `apply_slaving` keeps as actuators those whose influence function reaches, inside the mask, the given fraction of its maximum; they give, for
every command, the surface that the complete mirror takes when the masters get the command and the slaves the combination of it given by
`slave_mat`. -/
theorem C101_surface {P : Type} (all valid : List P) (thr : ℝ) (n : ℕ) (xy : ℕ → ℝ × ℝ)
    (weights : List ℕ → List ℕ → ℕ → ℕ → ℝ) (ifs : ℕ → P → ℝ) (r : Slaved P)
    (h : applySlaving all valid thr n xy weights ifs = some r) :
    ∃ masters slaves : List ℕ, masters.Nodup ∧ slaves.Nodup ∧
      (∀ a, a ∈ masters ↔ a < n ∧ isMaster all valid thr ifs a = some true) ∧
      (∀ a, a ∈ slaves ↔ a < n ∧ isMaster all valid thr ifs a = some false) ∧
      r.nAct = masters.length ∧ r.ifs.length = masters.length ∧ r.coords = masters.map xy ∧
      (∀ j, j < slaves.length → ∀ i, i < masters.length → r.slaveMat (masters.getD i 0) (slaves.getD j 0) = weights masters slaves i j) ∧
      ∀ (c : ℕ → ℝ) (p : P), ∑ i ∈ range r.nAct, c (masters.getD i 0) * (r.ifs.getD i fun _ => 0) p =
        ∑ a ∈ range n, ((if a ∈ masters then c a else 0) + ∑ b ∈ range n, if b ∈ masters then r.slaveMat b a * c b else 0) * ifs a p := by
  unfold applySlaving at h
  cases hf : (List.range n).mapM (isMaster all valid thr ifs) with
  | none => rw [hf] at h; simp at h
  | some flags =>
  rw [hf] at h
  obtain ⟨hlen, hflag⟩ := mapM_range_some _ false n flags hf
  simp only [Option.bind_eq_bind, Option.bind_some] at h
  set masters := (List.range n).filter fun a => flags.getD a false with hms
  set slaves := (List.range n).filter fun a => !flags.getD a false with hss
  have hmn : masters.Nodup := List.nodup_range.filter _
  have hsn : slaves.Nodup := List.nodup_range.filter _
  have hmm : ∀ a, a ∈ masters ↔ a < n ∧ isMaster all valid thr ifs a = some true := by
    intro a
    rw [hms, List.mem_filter, List.mem_range]
    constructor
    · rintro ⟨h1, h2⟩; exact ⟨h1, by rw [hflag a h1, h2]⟩
    · rintro ⟨h1, h2⟩; rw [hflag a h1] at h2; exact ⟨h1, Option.some.inj h2⟩
  have hsm : ∀ a, a ∈ slaves ↔ a < n ∧ isMaster all valid thr ifs a = some false := by
    intro a
    rw [hss, List.mem_filter, List.mem_range]
    constructor
    · rintro ⟨h1, h2⟩; exact ⟨h1, by rw [hflag a h1]; simpa using h2⟩
    · rintro ⟨h1, h2⟩; rw [hflag a h1] at h2; exact ⟨h1, by rw [Option.some.inj h2]; rfl⟩
  have hmsub : masters.toFinset ⊆ range n := fun a ha => mem_range.2 ((hmm a).1 (List.mem_toFinset.1 ha)).1
  have hssub : slaves.toFinset ⊆ range n := fun a ha => mem_range.2 ((hsm a).1 (List.mem_toFinset.1 ha)).1
  have hrest : ∀ (f : ℕ → ℝ), ∑ a ∈ range n, (if a ∈ masters then f a else 0) = ∑ a ∈ masters.toFinset, f a := by
    intro f
    rw [← sum_subset hmsub (f := fun a => if a ∈ masters then f a else 0)]
    · exact sum_congr rfl fun a ha => if_pos (List.mem_toFinset.1 ha)
    · intro a _ ha; exact if_neg fun h => ha (List.mem_toFinset.2 h)
  refine ⟨masters, slaves, hmn, hsn, hmm, hsm, ?_⟩
  by_cases h0 : slaves.length = 0
  · rw [if_pos h0] at h
    have hr := Option.some.inj h
    rw [← hr]
    refine ⟨rfl, by simp, rfl, fun j hj => by omega, fun c p => ?_⟩
    simp only [zero_mul, ite_self, sum_const_zero, add_zero, ite_mul]
    rw [hrest, ← sum_list_positions masters hmn (fun _ a => c a * ifs a p)]
    refine sum_congr rfl fun i hi => ?_
    have hi' := mem_range.1 hi
    rw [List.getD_eq_getElem (List.map ifs masters) _ (by simpa using hi'), List.getElem_map, List.getD_eq_getElem _ _ hi']
  · rw [if_neg h0] at h
    have hr := Option.some.inj h
    rw [← hr]
    refine ⟨rfl, by simp, rfl, ?_, fun c p => ?_⟩
    · intro j hj i hi
      dsimp only
      rw [List.getD_eq_getElem _ _ hj, List.getD_eq_getElem _ _ hi, if_pos ⟨List.getElem_mem hi, List.getElem_mem hj⟩, hmn.idxOf_getElem i hi, hsn.idxOf_getElem j hj]
    · dsimp only
      have hL : ∑ i ∈ range masters.length, c (masters.getD i 0) * (((List.range masters.length).map fun i p =>
          ifs (masters.getD i 0) p + ∑ j ∈ range slaves.length, weights masters slaves i j * ifs (slaves.getD j 0) p).getD i fun _ => 0) p =
          ∑ a ∈ masters.toFinset, c a * (ifs a p + ∑ b ∈ slaves.toFinset, weights masters slaves (masters.idxOf a) (slaves.idxOf b) * ifs b p) := by
        rw [← sum_list_positions masters hmn (fun i a => c a * (ifs a p + ∑ b ∈ slaves.toFinset, weights masters slaves i (slaves.idxOf b) * ifs b p))]
        refine sum_congr rfl fun i hi => ?_
        have hi' := mem_range.1 hi
        rw [List.getD_eq_getElem (List.map _ _) _ (by simpa using hi'), List.getElem_map, List.getElem_range,
          sum_list_positions slaves hsn (fun j b => weights masters slaves i j * ifs b p)]
      rw [hL]
      simp only [add_mul, ite_mul, zero_mul, sum_add_distrib, mul_add]
      rw [hrest]
      congr 1
      have hR : ∀ a, (∑ b ∈ range n, if b ∈ masters then (if b ∈ masters ∧ a ∈ slaves then weights masters slaves (masters.idxOf b) (slaves.idxOf a) * c b else 0) else 0) * ifs a p =
          if a ∈ slaves then ∑ b ∈ masters.toFinset, weights masters slaves (masters.idxOf b) (slaves.idxOf a) * c b * ifs a p else 0 := by
        intro a
        rw [hrest, sum_mul]
        split
        · rename_i ha
          exact sum_congr rfl fun b hb => by rw [if_pos ⟨List.mem_toFinset.1 hb, ha⟩]
        · rename_i ha
          exact sum_eq_zero fun b _ => by rw [if_neg fun h => ha h.2, zero_mul]
      simp only [hR]
      have hS : ∑ a ∈ range n, (if a ∈ slaves then ∑ b ∈ masters.toFinset, weights masters slaves (masters.idxOf b) (slaves.idxOf a) * c b * ifs a p else 0) =
          ∑ a ∈ slaves.toFinset, ∑ b ∈ masters.toFinset, weights masters slaves (masters.idxOf b) (slaves.idxOf a) * c b * ifs a p := by
        rw [← sum_subset hssub (f := fun a => if a ∈ slaves then ∑ b ∈ masters.toFinset, weights masters slaves (masters.idxOf b) (slaves.idxOf a) * c b * ifs a p else 0)]
        · exact sum_congr rfl fun a ha => if_pos (List.mem_toFinset.1 ha)
        · intro a _ ha; exact if_neg fun h => ha (List.mem_toFinset.2 h)
      rw [hS, sum_comm]
      refine sum_congr rfl fun a _ => ?_
      rw [mul_sum]
      exact sum_congr rfl fun b _ => by ring

/-! ### Coupling -/

theorem list_filter_sum (n : ℕ) (P : ℕ → Prop) [DecidablePred P] (f : ℕ → ℝ) :
    (((List.range n).filter fun k => P k).map f).sum = ∑ k ∈ range n, if P k then f k else 0 := by
  rw [← sum_filter, ← List.sum_toFinset _ (List.nodup_range.filter _)]
  congr 1
  ext k; simp

theorem sqDist_comm (p q : ℝ × ℝ) : sqDist p q = sqDist q p := by
  unfold sqDist; congr 1; ring

theorem couple_swap (n : ℕ) (Q : ℕ → ℕ → Prop) [∀ a b, Decidable (Q a b)] (hQ : ∀ a b, Q a b ↔ Q b a) (d : ℝ) (c f : ℕ → ℝ) :
    ∑ j ∈ range n, c j * (d * ∑ k ∈ range n, if Q k j then f k else 0) = ∑ k ∈ range n, d * (∑ j ∈ range n, if Q j k then c j else 0) * f k := by
  simp only [mul_sum, sum_mul]
  rw [sum_comm]
  refine sum_congr rfl fun k _ => sum_congr rfl fun j _ => ?_
  by_cases h : Q j k
  · rw [if_pos h, if_pos ((hQ _ _).1 h)]; ring
  · rw [if_neg h, if_neg (fun h' => h ((hQ _ _).1 h'))]; ring

/-- **C101** (coupling): the surface of a coupled mirror for a command is the surface of the mirror without coupling for the command to which the
commands of the neighbours are added: those up to one step away times the first coefficient, those from one to two steps away times the
second. -/
theorem C101_coupling {P : Type} (n : ℕ) (xy : ℕ → ℝ × ℝ) (step c1 c2 : ℝ) (ifs : ℕ → P → ℝ) (c : ℕ → ℝ) (p : P) :
    ∑ j ∈ range n, c j * mechCouple n xy step c1 c2 ifs j p =
      ∑ k ∈ range n, (c k + c1 * ∑ j ∈ (range n).filter (fun j => 0 < sqDist (xy j) (xy k) ∧ sqDist (xy j) (xy k) ≤ step), c j +
        c2 * ∑ j ∈ (range n).filter (fun j => step < sqDist (xy j) (xy k) ∧ sqDist (xy j) (xy k) ≤ 2 * step), c j) * ifs k p := by
  unfold mechCouple
  dsimp only
  simp only [list_filter_sum, mul_add, add_mul, sum_add_distrib, sum_filter]
  rw [couple_swap n (fun j k => 0 < sqDist (xy j) (xy k) ∧ sqDist (xy j) (xy k) ≤ step) (fun a b => by rw [sqDist_comm]),
    couple_swap n (fun j k => step < sqDist (xy j) (xy k) ∧ sqDist (xy j) (xy k) ≤ 2 * step) (fun a b => by rw [sqDist_comm])]

/-! ### Positions -/

/-- **C101** (square): the square geometry puts `n²` actuators on the nodes of a grid of step `(dim − 1)/(n − 1)`, from the centre of the first pixel to the
centre of the last; two different actuators are a step apart or more. -/
theorem C101_square (dim n : ℕ) (hn : 2 ≤ n) (hd : 1 ≤ dim) :
    ∃ step, zonalStep dim n = some step ∧ 0 ≤ step ∧ (n - 1 : ℝ) * step = dim - 1 ∧ (squareActs dim n).length = n ^ 2 ∧
      (∀ r c, r < n → c < n → (squareActs dim n)[r * n + c]? = some (c * step, r * step)) ∧
      (∀ p ∈ squareActs dim n, 0 ≤ p.1 ∧ p.1 ≤ dim - 1 ∧ 0 ≤ p.2 ∧ p.2 ≤ dim - 1) ∧
      ∀ i j, i < n ^ 2 → j < n ^ 2 → i ≠ j → step ≤ sqDist ((squareActs dim n).getD i 0) ((squareActs dim n).getD j 0) := by
  have hn' : (2 : ℝ) ≤ n := by exact_mod_cast hn
  have hd' : (1 : ℝ) ≤ dim := by exact_mod_cast hd
  have hs : 0 ≤ ((dim : ℝ) - 1) / ((n : ℝ) - 1) := div_nonneg (by linarith) (by linarith)
  have hm : ((n : ℝ) - 1) * (((dim : ℝ) - 1) / ((n : ℝ) - 1)) = dim - 1 := by
    field_simp [show (n : ℝ) - 1 ≠ 0 by linarith]
  set step := ((dim : ℝ) - 1) / ((n : ℝ) - 1) with hst
  have hlin : ∀ i, zonalLin dim n i = i * step := fun i => rfl
  refine ⟨step, by rw [zonalStep, if_neg (by omega)], hs, hm, by simp [squareActs, pow_two], ?_, ?_, ?_⟩
  · intro r c hr hc
    have h1 : r * n + c < n * n := by nlinarith
    rw [squareActs, List.getElem?_map, List.getElem?_range h1]
    simp only [Option.map_some, hlin]
    rw [Nat.add_comm, Nat.add_mul_mod_self_right, Nat.mod_eq_of_lt hc, Nat.add_mul_div_right _ _ (by omega), Nat.div_eq_of_lt hc, zero_add]
  · intro p hp
    rw [squareActs, List.mem_map] at hp
    obtain ⟨k, hk, rfl⟩ := hp
    have hk' : k < n * n := List.mem_range.1 hk
    have ha : k % n < n := Nat.mod_lt _ (by omega)
    have hb : k / n < n := Nat.div_lt_of_lt_mul hk'
    have ha' : ((k % n : ℕ) : ℝ) ≤ n - 1 := by
      have : ((k % n + 1 : ℕ) : ℝ) ≤ n := by exact_mod_cast ha
      push_cast at this; push_cast; linarith
    have hb' : ((k / n : ℕ) : ℝ) ≤ n - 1 := by
      have : ((k / n + 1 : ℕ) : ℝ) ≤ n := by exact_mod_cast hb
      rw [Nat.cast_add] at this; push_cast at this ⊢; linarith
    simp only [hlin]
    rw [← hm]
    exact ⟨mul_nonneg (Nat.cast_nonneg _) hs, mul_le_mul_of_nonneg_right ha' hs, mul_nonneg (Nat.cast_nonneg _) hs, mul_le_mul_of_nonneg_right hb' hs⟩
  · intro i j hi hj hij
    have hg : ∀ k, k < n ^ 2 → (squareActs dim n).getD k 0 = ((k % n : ℕ) * step, (k / n : ℕ) * step) := by
      intro k hk
      rw [List.getD_eq_getElem _ _ (by simpa [squareActs, pow_two] using hk)]
      simp [squareActs, hlin]
    rw [hg i hi, hg j hj]
    unfold sqDist
    apply Real.le_sqrt_of_sq_le
    dsimp only
    have hdiff : i % n ≠ j % n ∨ i / n ≠ j / n := by
      by_contra hc
      push Not at hc
      apply hij
      rw [← Nat.div_add_mod i n, ← Nat.div_add_mod j n, hc.1, hc.2]
    have hone : ∀ a b : ℕ, a ≠ b → (1 : ℝ) ≤ ((a : ℝ) - b) ^ 2 := by
      intro a b hab
      have : (1 : ℤ) ≤ ((a : ℤ) - b) ^ 2 := by
        have h0 : (a : ℤ) - b ≠ 0 := by omega
        have := sq_pos_of_ne_zero h0 |> fun h => h
        omega
      exact_mod_cast this
    rcases hdiff with h | h
    · have := hone _ _ h
      nlinarith [sq_nonneg (((i / n : ℕ) * step : ℝ) - (j / n : ℕ) * step), sq_nonneg step]
    · have := hone _ _ h
      nlinarith [sq_nonneg (((i % n : ℕ) * step : ℝ) - (j % n : ℕ) * step), sq_nonneg step]

theorem actRadius_eq (n : ℕ) : actRadius n = n / 2 + 1 := by
  unfold actRadius
  split
  · rename_i h
    rw [Nat.ceil_eq_iff (by omega)]
    obtain ⟨k, rfl⟩ : ∃ k, n = 2 * k := ⟨n / 2, by omega⟩
    have : 2 * k / 2 = k := by omega
    rw [this]; push_cast
    constructor <;> linarith
  · rename_i h
    rw [Nat.ceil_eq_iff (by omega)]
    obtain ⟨k, rfl⟩ : ∃ k, n = 2 * k + 1 := ⟨n / 2, by omega⟩
    have : (2 * k + 1) / 2 = k := by omega
    rw [this]; push_cast
    constructor <;> linarith

theorem ringCounts_eq (n : ℕ) : ringCounts n = 1 :: (List.range (n / 2)).map fun r => 6 * (r + 1) := by
  unfold ringCounts
  rw [actRadius_eq, List.range_succ_eq_map]
  simp [Nat.mul_comm]

theorem sqDist_ringAct (dim : ℕ) (step offset : ℝ) (hs : 0 ≤ step) (m r j : ℕ) :
    sqDist (ringAct dim step offset m r j) (((dim : ℝ) - 1) / 2, ((dim : ℝ) - 1) / 2) = r * step := by
  unfold sqDist ringAct
  dsimp only
  rw [add_sub_cancel_right, add_sub_cancel_right, mul_pow ((r : ℝ) * step), mul_pow ((r : ℝ) * step), ← mul_add, Real.cos_sq_add_sin_sq, mul_one]
  exact Real.sqrt_sq (mul_nonneg (Nat.cast_nonneg _) hs)

/-- **C101** (circular): the circular geometry has `1 + 3R(R − 1)` actuators with `R = ⌊n/2⌋ + 1`, so an even number of actuators on the diameter gives the
mirror of the next odd number; there is one actuator at the centre and `6r` at `r` steps from it, all within the pixels. -/
theorem C101_circular (dim n : ℕ) (hn : 2 ≤ n) (hd : 1 ≤ dim) (offset : ℝ) :
    ∃ step acts, circularStep dim n = some step ∧ circularActs dim n offset = some acts ∧ 0 ≤ step ∧ (n / 2 : ℕ) * step = ((dim : ℝ) - 1) / 2 ∧
      acts.length = 1 + 3 * (n / 2 + 1) * (n / 2) ∧
      acts = (ringAct dim step offset 1 0 0) :: ((List.range (n / 2)).map fun r => (List.range (6 * (r + 1))).map fun j =>
        ringAct dim step offset (6 * (r + 1)) (r + 1) j).flatten ∧
      ∀ p ∈ acts, sqDist p (((dim : ℝ) - 1) / 2, ((dim : ℝ) - 1) / 2) ≤ ((dim : ℝ) - 1) / 2 := by
  have hd' : (1 : ℝ) ≤ dim := by exact_mod_cast hd
  have h1 : 1 ≤ n / 2 := by omega
  have h1' : (1 : ℝ) ≤ (n / 2 : ℕ) := by exact_mod_cast h1
  set h := n / 2 with hh
  have hstep : circularStep dim n = some (((dim : ℝ) - 1) / (2 * h)) := by
    unfold circularStep zonalStep
    rw [actRadius_eq, ← hh, if_neg (by omega), show 2 * (h + 1) - 1 = 2 * h + 1 by omega]
    push_cast
    rw [add_sub_cancel_right]
  have hs : 0 ≤ ((dim : ℝ) - 1) / (2 * h) := div_nonneg (by linarith) (by linarith)
  have hm : (h : ℝ) * (((dim : ℝ) - 1) / (2 * h)) = ((dim : ℝ) - 1) / 2 := by
    field_simp
  set step := ((dim : ℝ) - 1) / (2 * h)
  have hacts : ∀ k : ℕ, (((1 :: (List.range k).map fun r => 6 * (r + 1)).zipIdx.map fun p => (List.range p.1).map fun j => ringAct dim step offset p.1 p.2 j).flatten) =
      (ringAct dim step offset 1 0 0) :: ((List.range k).map fun r => (List.range (6 * (r + 1))).map fun j =>
        ringAct dim step offset (6 * (r + 1)) (r + 1) j).flatten := by
    intro k
    rw [List.zipIdx_cons, List.map_cons, List.flatten_cons]
    simp only [List.range_one, List.map_cons, List.map_nil, List.cons_append, List.nil_append, zero_add]
    congr 2
    apply List.ext_getElem (by simp)
    intro i h1 h2
    simp [Nat.add_comm]
  have hlen : ∀ k : ℕ, ((List.range k).map fun r => (List.range (6 * (r + 1))).map fun j =>
        ringAct dim step offset (6 * (r + 1)) (r + 1) j).flatten.length = 3 * (k + 1) * k := by
    intro k
    induction k with
    | zero => simp
    | succ k ih => rw [List.range_succ, List.map_append, List.flatten_append, List.length_append, ih]; simp; ring
  refine ⟨step, _, hstep, ?_, hs, hm, ?_, rfl, ?_⟩
  · unfold circularActs
    rw [hstep, Option.map_some, ringCounts_eq, ← hh, hacts]
  · rw [List.length_cons, hlen]; ring
  · intro p hp
    have hr : ∃ m r j, r ≤ h ∧ p = ringAct dim step offset m r j := by
      rcases List.mem_cons.1 hp with rfl | hp
      · exact ⟨1, 0, 0, by omega, rfl⟩
      · obtain ⟨l, hl, hp⟩ := List.mem_flatten.1 hp
        obtain ⟨r, hr, rfl⟩ := List.mem_map.1 hl
        obtain ⟨j, _, rfl⟩ := List.mem_map.1 hp
        exact ⟨_, r + 1, j, List.mem_range.1 hr, rfl⟩
    obtain ⟨m, r, j, hr, rfl⟩ := hr
    rw [sqDist_ringAct _ _ _ hs, ← hm]
    exact mul_le_mul_of_nonneg_right (by exact_mod_cast hr) hs

theorem ring_gap_sq (dim : ℕ) (step offset : ℝ) (hs : 0 ≤ step) (r j : ℕ) (hr : 1 ≤ r) :
    sqDist (ringAct dim step offset (6 * r) r (j + 1)) (ringAct dim step offset (6 * r) r j) = 2 * r * step * Real.sin (Real.pi / (6 * r)) := by
  have hr' : (1 : ℝ) ≤ r := by exact_mod_cast hr
  have hpos : 0 ≤ Real.sin (Real.pi / (6 * r)) := by
    apply Real.sin_nonneg_of_nonneg_of_le_pi (by positivity)
    rw [div_le_iff₀ (by positivity)]
    nlinarith [Real.pi_pos]
  unfold sqDist ringAct
  dsimp only
  set φ := (360 / ((6 * r : ℕ) : ℝ) * j + offset) * (Real.pi / 180) with hφ
  set δ := Real.pi / (6 * (r : ℝ)) with hδ
  have hφ' : (360 / ((6 * r : ℕ) : ℝ) * ((j + 1 : ℕ) : ℝ) + offset) * (Real.pi / 180) = φ + 2 * δ := by
    rw [hφ, hδ]; push_cast; field_simp; ring
  rw [hφ']
  have : (r * step * Real.cos (φ + 2 * δ) + ((dim : ℝ) - 1) / 2 - (r * step * Real.cos φ + ((dim : ℝ) - 1) / 2)) ^ 2 +
      (r * step * Real.sin (φ + 2 * δ) + ((dim : ℝ) - 1) / 2 - (r * step * Real.sin φ + ((dim : ℝ) - 1) / 2)) ^ 2 =
      (2 * r * step * Real.sin δ) ^ 2 := by
    rw [Real.cos_add, Real.sin_add, Real.cos_two_mul, Real.sin_two_mul]
    have h1 := Real.sin_sq_add_cos_sq φ
    have h2 := Real.sin_sq_add_cos_sq δ
    have e1 : Real.sin φ ^ 2 = 1 - Real.cos φ ^ 2 := by linarith
    have e2 : Real.cos δ ^ 2 = 1 - Real.sin δ ^ 2 := by linarith
    have : ∀ cφ sφ cδ sδ : ℝ, sφ ^ 2 = 1 - cφ ^ 2 → cδ ^ 2 = 1 - sδ ^ 2 →
        (cφ * (2 * cδ ^ 2 - 1) - sφ * (2 * sδ * cδ) - cφ) ^ 2 + (sφ * (2 * cδ ^ 2 - 1) + cφ * (2 * sδ * cδ) - sφ) ^ 2 = 4 * sδ ^ 2 := by
      intro cφ sφ cδ sδ h1 h2
      rw [h2]
      have : (cφ * (2 * (1 - sδ ^ 2) - 1) - sφ * (2 * sδ * cδ) - cφ) ^ 2 + (sφ * (2 * (1 - sδ ^ 2) - 1) + cφ * (2 * sδ * cδ) - sφ) ^ 2 =
          (cφ ^ 2 + sφ ^ 2) * (4 * sδ ^ 4 + 4 * sδ ^ 2 * cδ ^ 2) := by ring
      rw [this, h1, h2]; ring
    have h3 := this _ _ _ _ e1 e2
    linear_combination (r * step) ^ 2 * h3
  rw [this]
  exact Real.sqrt_sq (by positivity)

/-- **C101** (ring neighbours): in the circular geometry two neighbours of the first ring are exactly one step apart, but those of every other ring are farther
than one step (and closer than two), so that the mechanical coupling gives them the second coefficient; the next actuator along the radius at angle zero is exactly one step
away. -/
theorem C101_ring_gap (dim : ℕ) (step offset : ℝ) (hs : 0 < step) (r j : ℕ) :
    sqDist (ringAct dim step offset 6 1 (j + 1)) (ringAct dim step offset 6 1 j) = step ∧
    (2 ≤ r → step < sqDist (ringAct dim step offset (6 * r) r (j + 1)) (ringAct dim step offset (6 * r) r j) ∧
      sqDist (ringAct dim step offset (6 * r) r (j + 1)) (ringAct dim step offset (6 * r) r j) < 2 * step) ∧
    sqDist (ringAct dim step offset (6 * (r + 1)) (r + 1) 0) (ringAct dim step offset (6 * r) r 0) = step := by
  refine ⟨?_, fun hr => ?_, ?_⟩
  · have := ring_gap_sq dim step offset hs.le 1 j le_rfl
    rw [show 6 * 1 = 6 from rfl] at this
    rw [this, Nat.cast_one, mul_one, mul_one, Real.sin_pi_div_six]; ring
  · have hr' : (2 : ℝ) ≤ r := by exact_mod_cast hr
    rw [ring_gap_sq dim step offset hs.le r j (by omega)]
    have hlt : Real.sin (Real.pi / (6 * r)) < Real.pi / (6 * r) := Real.sin_lt (by positivity)
    constructor
    · have hpi := Real.pi_pos
      have hc := strictConcaveOn_sin_Icc.2 (show (0 : ℝ) ∈ Set.Icc 0 Real.pi from ⟨le_rfl, hpi.le⟩)
        (show Real.pi / 6 ∈ Set.Icc 0 Real.pi from ⟨by positivity, by linarith⟩) (by positivity)
        (show (0 : ℝ) < 1 - 1 / r by rw [sub_pos, div_lt_one (by linarith)]; linarith) (show (0 : ℝ) < 1 / r by positivity) (by ring)
      simp only [smul_eq_mul, Real.sin_zero, mul_zero, zero_add, Real.sin_pi_div_six] at hc
      rw [show 1 / (r : ℝ) * (Real.pi / 6) = Real.pi / (6 * r) by field_simp] at hc
      have : 2 * (r : ℝ) * step * (1 / r * (1 / 2)) = step := by field_simp
      calc step = 2 * (r : ℝ) * step * (1 / r * (1 / 2)) := this.symm
        _ < _ := mul_lt_mul_of_pos_left hc (by positivity)
    · calc 2 * r * step * Real.sin (Real.pi / (6 * r)) < 2 * r * step * (Real.pi / (6 * r)) := mul_lt_mul_of_pos_left hlt (by positivity)
        _ = step * (Real.pi / 3) := by field_simp; ring
        _ ≤ 2 * step := by nlinarith [Real.pi_le_four]
  · unfold sqDist ringAct
    dsimp only
    simp only [Nat.cast_zero, mul_zero, zero_add]
    have h1 := Real.sin_sq_add_cos_sq (offset * (Real.pi / 180))
    rw [show ∀ c s k : ℝ, (((r + 1 : ℕ) : ℝ) * step * c + k - (r * step * c + k)) ^ 2 + (((r + 1 : ℕ) : ℝ) * step * s + k - (r * step * s + k)) ^ 2 =
      step ^ 2 * (s ^ 2 + c ^ 2) from fun c s k => by push_cast; ring, h1, mul_one]
    exact Real.sqrt_sq hs.le

/-- **C101** (alpao): the geometry `alpao` keeps the nodes of the square grid within a radius that falls with the number of actuators: the corners are always left
out; above 48 actuators the radius is smaller than that of the pixels and the actuators at the ends of the axes are left out too; above 432 no actuator
is left. -/
theorem C101_alpao (dim n : ℕ) (hd : 2 ≤ dim) :
    (∀ p, p ∈ alpaoActs dim n ↔ p ∈ squareActs dim n ∧ sqDist p (((dim : ℝ) - 1) / 2, ((dim : ℝ) - 1) / 2) ≤ alpaoRadius dim n) ∧
    ((0, 0) ∉ alpaoActs dim n) ∧ (((dim : ℝ) - 1) / 2 ≤ alpaoRadius dim n ↔ n ≤ 48) ∧
    (48 < n → (((dim : ℝ) - 1) / 2, 0) ∉ alpaoActs dim n) ∧ (432 < n → alpaoActs dim n = []) := by
  have hd' : (2 : ℝ) ≤ dim := by exact_mod_cast hd
  have h1 : ∀ p, p ∈ alpaoActs dim n ↔ p ∈ squareActs dim n ∧ sqDist p (((dim : ℝ) - 1) / 2, ((dim : ℝ) - 1) / 2) ≤ alpaoRadius dim n := by
    intro p
    simp [alpaoActs, sqDist]
  have h2 : (((dim : ℝ) - 1) / 2 ≤ alpaoRadius dim n ↔ n ≤ 48) := by
    have : (n : ℝ) ≤ 48 ↔ n ≤ 48 := by exact_mod_cast Iff.rfl
    rw [← this]
    unfold alpaoRadius
    constructor <;> intro h <;> nlinarith
  refine ⟨h1, ?_, h2, ?_, ?_⟩
  · intro h
    have h3 := ((h1 _).1 h).2
    unfold sqDist alpaoRadius at h3
    dsimp only at h3
    have hn : (0 : ℝ) ≤ n := Nat.cast_nonneg _
    have h4 : √((0 - ((dim : ℝ) - 1) / 2) ^ 2 + (0 - ((dim : ℝ) - 1) / 2) ^ 2) ≤ ((dim : ℝ) - 1) / 2 * (9 / 8) := by
      refine h3.trans ?_
      nlinarith
    rw [Real.sqrt_le_left (by linarith)] at h4
    nlinarith [mul_self_nonneg ((dim : ℝ) - 1)]
  · intro hn h
    have h3 := ((h1 _).1 h).2
    have h4 : ((dim : ℝ) - 1) / 2 ≤ sqDist (((dim : ℝ) - 1) / 2, 0) (((dim : ℝ) - 1) / 2, ((dim : ℝ) - 1) / 2) := by
      unfold sqDist
      apply Real.le_sqrt_of_sq_le
      dsimp only
      nlinarith
    have := h2.1 (h4.trans h3)
    omega
  · intro hn
    rw [List.eq_nil_iff_forall_not_mem]
    intro p hp
    have h3 := ((h1 _).1 hp).2
    have h4 : (0 : ℝ) ≤ sqDist p (((dim : ℝ) - 1) / 2, ((dim : ℝ) - 1) / 2) := Real.sqrt_nonneg _
    have h5 := h4.trans h3
    have h6 : (432 : ℝ) < n := by exact_mod_cast hn
    unfold alpaoRadius at h5
    nlinarith

/-! ### The cut -/

/-- **C101** (cut): up to 18 actuators an influence function is the interpolation on all pixels; above, it is zero more than `7.2 · dim / n` pixels away from
its actuator.  If the interpolation passes by its nodes, the influence function is one at its actuator and zero at the others. -/
theorem C101_influence (dim nAct : ℕ) (hd : 1 ≤ dim) (hn : 1 ≤ nAct) (rbf : List ((ℝ × ℝ) × ℝ) → ℝ × ℝ → ℝ) (acts : List (ℝ × ℝ)) (i : ℕ) (hi : i < acts.length) (p : Pixel dim) :
    (nAct ≤ 18 → zonalIf dim nAct rbf acts i p = rbf (acts.zipIdx.map fun a => (a.1, if a.2 = i then (1 : ℝ) else 0)) (pixPos p)) ∧
    (18 < nAct → 7.2 * dim / nAct < sqDist (pixPos p) acts[i] → zonalIf dim nAct rbf acts i p = 0) ∧
    ((∀ l : List ((ℝ × ℝ) × ℝ), (l.map (·.1)).Nodup → ∀ a ∈ l, rbf l a.1 = a.2) → acts.Nodup → ∀ k (hk : k < acts.length), acts[k] = pixPos p →
      zonalIf dim nAct rbf acts i p = if k = i then 1 else 0) := by
  have hd' : (1 : ℝ) ≤ dim := by exact_mod_cast hd
  have hn' : (1 : ℝ) ≤ nAct := by exact_mod_cast hn
  have hc : (9 * (dim : ℝ) / nAct ≥ dim / 2) ↔ nAct ≤ 18 := by
    have : (nAct : ℝ) ≤ 18 ↔ nAct ≤ 18 := by exact_mod_cast Iff.rfl
    rw [← this, ge_iff_le, div_le_div_iff₀ (by norm_num) (by linarith)]
    constructor <;> intro h <;> nlinarith
  have hxi : acts.getD i (0, 0) = acts[i] := List.getD_eq_getElem _ _ hi
  refine ⟨fun h => ?_, fun h hfar => ?_, fun hrbf hnd k hk hpk => ?_⟩
  · unfold zonalIf
    dsimp only
    rw [if_pos (hc.2 h)]
  · unfold zonalIf
    dsimp only
    rw [if_neg (fun h' => by have := hc.1 h'; omega), hxi, if_pos]
    refine lt_of_eq_of_lt ?_ hfar
    ring
  · have hnode : (acts[k], if k = i then (1 : ℝ) else 0) ∈ acts.zipIdx.map fun a => (a.1, if a.2 = i then (1 : ℝ) else 0) := by
      rw [List.mem_map]
      exact ⟨(acts[k], k), by rw [List.mem_zipIdx_iff_getElem?]; simp [hk], rfl⟩
    have hfst : ((acts.zipIdx.map fun a => (a.1, if a.2 = i then (1 : ℝ) else 0)).map (·.1)).Nodup := by
      rw [List.map_map]
      have : (acts.zipIdx.map ((fun x : (ℝ × ℝ) × ℝ => x.1) ∘ fun a => (a.1, if a.2 = i then (1 : ℝ) else 0))) = acts := by
        have := List.zipIdx_map_fst 0 acts
        exact this
      rw [this]; exact hnd
    unfold zonalIf
    dsimp only
    by_cases h1 : 9 * (dim : ℝ) / nAct ≥ dim / 2
    · rw [if_pos h1, ← hpk]; exact hrbf _ hfst _ hnode
    rw [if_neg h1]
    by_cases h2 : sqDist (pixPos p) (acts.getD i (0, 0)) > 0.8 * (9 * (dim : ℝ) / nAct)
    · rw [if_pos h2]
      rw [hxi] at h2
      rw [if_neg]
      intro hki
      subst hki
      rw [← hpk] at h2
      have : sqDist acts[k] acts[k] = 0 := by simp [sqDist]
      rw [this] at h2
      have : (0 : ℝ) ≤ 0.8 * (9 * dim / nAct) := by positivity
      linarith
    · rw [if_neg h2]
      conv_lhs => rw [← hpk]
      refine hrbf _ ?_ (acts[k], if k = i then (1 : ℝ) else 0) ?_
      · exact (List.Sublist.map _ List.filter_sublist).nodup hfst
      · rw [List.mem_filter]
        refine ⟨hnode, decide_eq_true ?_⟩
        rw [hxi, hpk]
        rw [hxi] at h2
        push Not at h2
        have : (0 : ℝ) ≤ 9 * dim / nAct := by positivity
        linarith

/-! ### Masters, near masters, virtual actuator -/

/-- **C101** (near masters): the plane is fitted to the masters within the search radius when there are three or more, and otherwise to the three nearest (all of
them when there are fewer than three). -/
theorem C101_near (xy : ℕ → ℝ × ℝ) (masters : List ℕ) (radius : ℝ) (s : ℕ) :
    (nearMasters xy masters radius s).Nodup ∧
    (3 ≤ ((range masters.length).filter fun i => sqDist (xy (masters.getD i 0)) (xy s) ≤ radius).card →
      ∀ i, i ∈ nearMasters xy masters radius s ↔ i < masters.length ∧ sqDist (xy (masters.getD i 0)) (xy s) ≤ radius) ∧
    (((range masters.length).filter fun i => sqDist (xy (masters.getD i 0)) (xy s) ≤ radius).card < 3 →
      (nearMasters xy masters radius s).length = min 3 masters.length ∧ ∀ i ∈ nearMasters xy masters radius s, i < masters.length ∧
        ∀ k, k < masters.length → k ∉ nearMasters xy masters radius s → sqDist (xy (masters.getD i 0)) (xy s) ≤ sqDist (xy (masters.getD k 0)) (xy s)) := by
  obtain ⟨h1, h2⟩ := nearMasters_spec xy masters radius s
  have hcard : ((List.range masters.length).filter fun i => sqDist (xy (masters.getD i 0)) (xy s) ≤ radius).length =
      ((range masters.length).filter fun i => sqDist (xy (masters.getD i 0)) (xy s) ≤ radius).card := by
    rw [← List.toFinset_card_of_nodup (List.nodup_range.filter _)]
    congr 1
    ext i; simp
  refine ⟨h1, fun h i => ?_, fun h => ?_⟩
  · unfold nearMasters
    dsimp only
    rw [if_neg (by rw [hcard]; omega), List.mem_filter, List.mem_range, decide_eq_true_iff]
  · set m := (List.range masters.length).mergeSort fun i k => decide (sqDist (xy (masters.getD i 0)) (xy s) ≤ sqDist (xy (masters.getD k 0)) (xy s)) with hm
    have e : nearMasters xy masters radius s = m.take 3 := by
      unfold nearMasters
      dsimp only
      rw [if_pos (by rw [hcard]; omega)]
    have hp : m.Perm (List.range masters.length) := List.mergeSort_perm _ _
    have hs : m.Pairwise fun i k => sqDist (xy (masters.getD i 0)) (xy s) ≤ sqDist (xy (masters.getD k 0)) (xy s) := by
      have := List.pairwise_mergeSort (le := fun i k => decide (sqDist (xy (masters.getD i 0)) (xy s) ≤ sqDist (xy (masters.getD k 0)) (xy s)))
        (by intro a b c hab hbc; simp only [decide_eq_true_iff] at *; exact hab.trans hbc)
        (by intro a b; simp only [Bool.or_eq_true, decide_eq_true_iff]; exact le_total _ _) (List.range masters.length)
      exact this.imp fun h => of_decide_eq_true h
    refine ⟨by rw [e, List.length_take, hp.length_eq, List.length_range], fun i hi => ⟨h2 i hi, fun k hk hkn => ?_⟩⟩
    rw [e] at hi hkn
    have hkm : k ∈ m := hp.mem_iff.2 (List.mem_range.2 hk)
    rw [← List.take_append_drop 3 m] at hkm hs
    rcases List.mem_append.1 hkm with h | h
    · exact absurd h hkn
    · exact (List.pairwise_append.1 hs).2.2 i hi k h

/-- **C101** (virtual actuator): it is one step from the slave, on the prolongation of the line from the centre of the actuators to the slave. -/
theorem C101_virtual (n : ℕ) (xy : ℕ → ℝ × ℝ) (step : ℝ) (hs : 0 ≤ step) (s : ℕ) (c : ℝ × ℝ)
    (hc : c = ((∑ k ∈ range n, (xy k).1) / n, (∑ k ∈ range n, (xy k).2) / n)) :
    sqDist (virtualAct n xy step s) (xy s) = step ∧
    (1e-10 < sqDist (xy s) c → ∃ t : ℝ, 1 ≤ t ∧ virtualAct n xy step s = (c.1 + t * ((xy s).1 - c.1), c.2 + t * ((xy s).2 - c.2)) ∧
      sqDist (virtualAct n xy step s) c = sqDist (xy s) c + step) := by
  have hv : virtualAct n xy step s = ((xy s).1 + step * (if sqDist (xy s) c > 1e-10 then (((xy s).1 - c.1) / sqDist (xy s) c, ((xy s).2 - c.2) / sqDist (xy s) c) else (1, 0)).1,
      (xy s).2 + step * (if sqDist (xy s) c > 1e-10 then (((xy s).1 - c.1) / sqDist (xy s) c, ((xy s).2 - c.2) / sqDist (xy s) c) else (1, 0)).2) := by
    subst hc; rfl
  have hd : sqDist (xy s) c ^ 2 = ((xy s).1 - c.1) ^ 2 + ((xy s).2 - c.2) ^ 2 := Real.sq_sqrt (by positivity)
  rw [hv]
  by_cases h : sqDist (xy s) c > 1e-10
  · rw [if_pos h]
    set d := sqDist (xy s) c with hdd
    have hd0 : 0 < d := lt_trans (by norm_num) h
    dsimp only
    constructor
    · unfold sqDist
      dsimp only
      rw [show ((xy s).1 + step * (((xy s).1 - c.1) / d) - (xy s).1) ^ 2 + ((xy s).2 + step * (((xy s).2 - c.2) / d) - (xy s).2) ^ 2 =
        step ^ 2 * (((xy s).1 - c.1) ^ 2 + ((xy s).2 - c.2) ^ 2) / d ^ 2 by field_simp; ring, ← hd, mul_div_assoc, div_self (by positivity), mul_one]
      exact Real.sqrt_sq hs
    · intro _
      refine ⟨1 + step / d, ?_, ?_, ?_⟩
      · have : 0 ≤ step / d := by positivity
        linarith
      · ext <;> dsimp only <;> ring
      · unfold sqDist
        dsimp only
        rw [show ((xy s).1 + step * (((xy s).1 - c.1) / d) - c.1) ^ 2 + ((xy s).2 + step * (((xy s).2 - c.2) / d) - c.2) ^ 2 =
          (d + step) ^ 2 * (((xy s).1 - c.1) ^ 2 + ((xy s).2 - c.2) ^ 2) / d ^ 2 by field_simp; ring, ← hd, mul_div_assoc, div_self (by positivity), mul_one]
        exact Real.sqrt_sq (by positivity)
  · rw [if_neg h]
    refine ⟨?_, fun h' => absurd h' h⟩
    unfold sqDist
    dsimp only
    rw [show ((xy s).1 + step * 1 - (xy s).1) ^ 2 + ((xy s).2 + step * 0 - (xy s).2) ^ 2 = step ^ 2 by ring]
    exact Real.sqrt_sq hs

theorem max?_real (l : List ℝ) (m : ℝ) (h : l.max? = some m) : m ∈ l ∧ ∀ a ∈ l, a ≤ m := by
  exact List.max?_eq_some_iff.1 h

/-- **C101** (masters): an actuator is a master exactly when on some pixel of the mask it moves as much as the threshold times its largest motion on all the pixels. -/
theorem C101_masters {P : Type} (all valid : List P) (thr : ℝ) (ht : 0 ≤ thr) (ifs : ℕ → P → ℝ) (a : ℕ) (ha : all ≠ []) (hv : valid ≠ []) :
    ∃ b, isMaster all valid thr ifs a = some b ∧ (b = true ↔ ∃ p ∈ valid, ∀ q ∈ all, thr * ifs a q ≤ ifs a p) := by
  have hmax : ∀ l : List P, l ≠ [] → ∃ m, (l.map (ifs a)).max? = some m ∧ (∃ p ∈ l, ifs a p = m) ∧ ∀ q ∈ l, ifs a q ≤ m := by
    intro l hl
    cases h : (l.map (ifs a)).max? with
    | none => rw [List.max?_eq_none_iff, List.map_eq_nil_iff] at h; exact absurd h hl
    | some m =>
      obtain ⟨h1, h2⟩ := max?_real _ _ h
      exact ⟨m, rfl, by simpa using h1, fun q hq => h2 _ (List.mem_map_of_mem hq)⟩
  obtain ⟨m, hm, ⟨p, hp, hpm⟩, hm2⟩ := hmax all ha
  obtain ⟨m', hm', ⟨p', hp', hpm'⟩, hm2'⟩ := hmax valid hv
  refine ⟨decide (m' ≥ thr * m), by unfold isMaster; rw [hm, hm']; rfl, ?_⟩
  rw [decide_eq_true_iff]
  constructor
  · intro h
    exact ⟨p', hp', fun q hq => by rw [hpm']; exact (mul_le_mul_of_nonneg_left (hm2 q hq) ht).trans h⟩
  · rintro ⟨r, hr, h⟩
    have := h p hp
    rw [hpm] at this
    exact this.trans (hm2' r hr)

/-! ### Cases -/

/-- Four actuators at the corners of a square, each moving one pixel; the last pixel is not in the mask. -/
def exIfs (a : ℕ) (p : Fin 4) : ℝ := if a = (p : ℕ) then 1 else 0

def exXy (a : ℕ) : ℝ × ℝ := ((a % 2 : ℕ), (a / 2 : ℕ))

theorem exMaster (a : ℕ) (ha : a < 4) : isMaster [0, 1, 2, 3] [0, 1, 2] (1 / 10) exIfs a = some (decide (a < 3)) := by
  unfold isMaster
  interval_cases a <;> simp [exIfs] <;> norm_num

example (w) : ∃ r : Slaved (Fin 4), applySlaving [0, 1, 2, 3] [0, 1, 2] (1 / 10) 4 exXy w exIfs = some r ∧ r.nAct = 3 ∧ r.coords = [(0, 0), (1, 0), (0, 1)] := by
  have hf : (List.range 4).mapM (isMaster [0, 1, 2, 3] [0, 1, 2] (1 / 10) exIfs) = some [true, true, true, false] := by
    simp only [List.range_succ, List.range_zero, List.nil_append, List.cons_append, List.mapM_cons, List.mapM_nil]
    rw [exMaster 0 (by omega), exMaster 1 (by omega), exMaster 2 (by omega), exMaster 3 (by omega)]
    rfl
  unfold applySlaving
  rw [hf]
  simp [List.range_succ, exXy]

theorem exNear : nearMasters exXy [0, 1, 2] (5 / 2 * 1) 3 = [0, 1, 2] := by
  have h : ∀ i, i < 3 → sqDist (exXy ([0, 1, 2].getD i 0)) (exXy 3) ≤ 5 / 2 * 1 := by
    intro i hi
    unfold sqDist
    rw [Real.sqrt_le_left (by norm_num)]
    interval_cases i <;> norm_num [exXy]
  unfold nearMasters
  dsimp only
  have : (List.range [0, 1, 2].length).filter (fun i => decide (sqDist (exXy ([0, 1, 2].getD i 0)) (exXy 3) ≤ 5 / 2 * 1)) = [0, 1, 2] := by
    rw [List.filter_eq_self.2]
    · rfl
    · intro i hi
      exact decide_eq_true (h i (by simpa using hi))
  rw [this]
  rfl

theorem exDet (edge : ℝ) : (normalMat (fitRows 4 exXy [0, 1, 2] 1 edge (5 / 2) 3)).det ≠ 0 := by
  refine C101_not_collinear 4 exXy [0, 1, 2] 1 edge (5 / 2) 3 0 1 2 ?_ ?_ ?_ ?_
  · rw [exNear]; simp
  · rw [exNear]; simp
  · rw [exNear]; simp
  · simp [exXy]

/-- The command of the slave is that of the plane by the three masters. -/
example (c : ℕ → ℝ) : slaveCommand [0, 1, 2] (weightsLinear lstsq 4 exXy [0, 1, 2] [3] 1 0 (5 / 2)) c 0 = c 1 + c 2 - c 0 := by
  rw [C101_planes lstsq 4 exXy [0, 1, 2] [3] 1 0 (5 / 2) c 0 (c 1 - c 0) (c 2 - c 0) (c 0) ?_ (fun h => absurd h (lt_irrefl _)) (fun _ => 0) (Or.inl (exDet 0))]
  · simp [exXy]; ring
  · intro i hi
    rw [show ([3] : List ℕ).getD 0 0 = 3 from rfl, exNear] at hi
    rcases (by simpa using hi : i = 0 ∨ i = 1 ∨ i = 2) with rfl | rfl | rfl <;> simp [exXy]

/-- With an edge weight the hypothesis of the fit is met too. -/
example (c : ℕ → ℝ) : ∃ q : Fin 3 → ℝ, slaveCommand [0, 1, 2] (weightsLinear lstsq 4 exXy [0, 1, 2] [3] 1 (1 / 2) (5 / 2)) c 0 = q 0 * 1 + q 1 * 1 + q 2 := by
  obtain ⟨q, hq, _⟩ := C101_plane_fit lstsq 4 exXy [0, 1, 2] [3] 1 (1 / 2) (5 / 2) c 0 (exDet _)
  exact ⟨q, by rw [hq]; simp [exXy]⟩

example : ∃ acts, circularActs 64 8 0 = some acts ∧ acts.length = 61 := by
  obtain ⟨_, acts, _, h, _, _, hl, _⟩ := C101_circular 64 8 (by norm_num) (by norm_num) 0
  exact ⟨acts, h, hl⟩

example : ∃ acts, circularActs 64 9 0 = some acts ∧ acts.length = 61 := by
  obtain ⟨_, acts, _, h, _, _, hl, _⟩ := C101_circular 64 9 (by norm_num) (by norm_num) 0
  exact ⟨acts, h, hl⟩

example : (31.5, 0) ∈ squareActs 64 65 ∧ (31.5, 0) ∉ alpaoActs 64 65 := by
  constructor
  · unfold squareActs
    refine List.mem_map.2 ⟨32, List.mem_range.2 (by norm_num), ?_⟩
    norm_num [zonalLin]
  · have := (C101_alpao 64 65 (by norm_num)).2.2.2.1 (by norm_num)
    norm_num at this ⊢
    exact this

end

end Specula
