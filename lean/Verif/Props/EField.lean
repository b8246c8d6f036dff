import Verif.Model.EField
import Verif.Props.Select
import Mathlib.Algebra.BigOperators.Group.List.Basic
/-
C42: combining electric fields.
-/
namespace Specula

/-- `x[a:a+m]` inside a vector of `n` elements. -/
theorem sliceIdx_window (n a m : Nat) (h : a + m ≤ n) :
    sliceIdx n ⟨some (a : Int), some ((a : Int) + m), none⟩ = some ((List.range m).map (a + ·)) := by
  have hadj : ∀ x : Int, 0 ≤ x → x ≤ n → adjustBound n 0 n x = x := by
    intro x h0 hx
    unfold adjustBound
    rw [if_neg (by omega)]
    split <;> omega
  simp only [sliceIdx, sliceRange, Option.getD_none, Option.map_some, Option.getD_some]
  rw [if_neg (by decide), if_neg (by decide), hadj a (by omega) (by omega), hadj (a + m) (by omega) (by omega)]
  simp only [Option.map_some, Option.some.injEq]
  have hlen : (if (a : Int) < a + m then ((((a : Int) + m - a - 1) / 1) + 1).toNat else 0) = m := by
    rw [Int.ediv_one]
    split <;> omega
  rw [hlen]
  refine List.map_congr_left fun k _ => ?_
  omega

theorem bcast_window (a m i : Nat) (h : i < m) : bcast ((List.range m).map (a + ·)) i = a + i := by
  unfold bcast
  rw [List.length_map, List.length_range]
  have hget : ∀ k, k < m → ((List.range m).map (a + ·)).getD k 0 = a + k := by
    intro k hk
    rw [List.getD_eq_getElem?_getD, List.getElem?_map, List.getElem?_range hk]
    rfl
  split
  · next h1 =>
    subst h1
    rw [hget 0 (by omega)]
    omega
  · exact hget i h

section
variable {V : Type}

/-! ### What a layer contributes (specification) -/

/-- A square pupil of `n` pixels sees the centre of the layer, or what the interpolator gives. -/
def seen (n : Nat) (layer : EF V × View V) : EF V :=
  match layer.2 with
  | .cut => ⟨n, n, fun i j => layer.1.A ((layer.1.rows - n) / 2 + i) ((layer.1.cols - n) / 2 + j),
      fun i j => layer.1.phase ((layer.1.rows - n) / 2 + i) ((layer.1.cols - n) / 2 + j), layer.1.S0⟩
  | .interp f => ⟨n, n, f layer.1.A, f layer.1.phase, layer.1.S0⟩

/-- Layers that are cut must be at least as large as the pupil. -/
def LayerFits (n : Nat) (layer : EF V × View V) : Prop :=
  match layer.2 with
  | .cut => n ≤ layer.1.rows ∧ n ≤ layer.1.cols
  | .interp _ => True

theorem propLayer_ok [CommRing V] (out : EF V) (hsq : out.cols = out.rows) (layer : EF V × View V) (h : LayerFits out.rows layer) :
    ∃ res, propLayer out layer = some res ∧ res.rows = out.rows ∧ res.cols = out.cols ∧ res.S0 = out.S0 ∧
      ∀ i < out.rows, ∀ j < out.rows, res.A i j = out.A i j * (seen out.rows layer).A i j ∧
        res.phase i j = out.phase i j + (seen out.rows layer).phase i j := by
  obtain ⟨e, v⟩ := layer
  cases v with
  | interp f => exact ⟨_, rfl, rfl, rfl, rfl, fun i _ j _ => ⟨rfl, rfl⟩⟩
  | cut =>
    have hr : out.rows ≤ e.rows := h.1
    have hc : out.rows ≤ e.cols := h.2
    have er : ((e.rows : Int) - out.rows) / 2 = (((e.rows - out.rows) / 2 : Nat) : Int) := by omega
    have ec : ((e.cols : Int) - out.rows) / 2 = (((e.cols - out.rows) / 2 : Nat) : Int) := by omega
    have hsub : subWindow out.rows out.cols e.rows e.cols (((e.rows : Int) - out.rows) / 2) (((e.cols : Int) - out.rows) / 2) =
        some ((List.range out.rows).map ((e.rows - out.rows) / 2 + ·), (List.range out.rows).map ((e.cols - out.rows) / 2 + ·)) := by
      unfold subWindow
      rw [er, ec, hsq, sliceIdx_window _ _ _ (by omega), sliceIdx_window _ _ _ (by omega)]
      simp
    simp only [propLayer, efProduct, hsub, Option.map_some]
    refine ⟨_, rfl, rfl, rfl, rfl, fun i hi j hj => ?_⟩
    simp only [seen, bcast_window _ _ _ hi, bcast_window _ _ _ hj, and_self]

theorem propFold_ok [CommRing V] (layers : List (EF V × View V)) (out : EF V) (hsq : out.cols = out.rows)
    (h : ∀ l ∈ layers, LayerFits out.rows l) :
    ∃ res, layers.foldlM propLayer out = some res ∧ res.rows = out.rows ∧ res.cols = out.cols ∧ res.S0 = out.S0 ∧
      ∀ i < out.rows, ∀ j < out.rows, res.A i j = out.A i j * (layers.map fun l => (seen out.rows l).A i j).prod ∧
        res.phase i j = out.phase i j + (layers.map fun l => (seen out.rows l).phase i j).sum := by
  induction layers generalizing out with
  | nil => exact ⟨out, rfl, rfl, rfl, rfl, fun i _ j _ => by simp⟩
  | cons l layers ih =>
    obtain ⟨o1, h1, h2, h3, h4, h5⟩ := propLayer_ok out hsq l (h l List.mem_cons_self)
    obtain ⟨o2, g1, g2, g3, g4, g5⟩ := ih o1 (by rw [h3, h2]; exact hsq) fun l hl => by rw [h2]; exact h l (List.mem_cons_of_mem _ hl)
    refine ⟨o2, by rw [List.foldlM_cons, h1]; exact g1, by rw [g2, h2], by rw [g3, h3], by rw [g4, h4], fun i hi j hj => ?_⟩
    rw [h2] at g5
    rw [(g5 i hi j hj).1, (g5 i hi j hj).2, (h5 i hi j hj).1, (h5 i hi j hj).2, List.map_cons, List.map_cons, List.prod_cons, List.sum_cons]
    exact ⟨by ring, by ring⟩

/-- **C42**: the field at the pupil is the product of the amplitudes and the sum of the phases of the layers as they are seen, in any
order of propagation and whatever was in the output before. -/
theorem C42_merged [CommRing V] (upwards : Bool) (common atmo : List (EF V × View V)) (out : EF V) (hsq : out.cols = out.rows)
    (h : ∀ l ∈ common ++ atmo, LayerFits out.rows l) :
    ∃ res, propTrigger upwards common atmo out = some res ∧ res.rows = out.rows ∧ res.cols = out.cols ∧ res.S0 = out.S0 ∧
      ∀ i < out.rows, ∀ j < out.rows, res.A i j = ((common ++ atmo).map fun l => (seen out.rows l).A i j).prod ∧
        res.phase i j = ((common ++ atmo).map fun l => (seen out.rows l).phase i j).sum := by
  have hperm : (propOrder upwards common atmo).Perm (common ++ atmo) := by
    unfold propOrder
    split
    · exact List.Perm.refl _
    · exact List.reverse_perm _
  obtain ⟨res, h1, h2, h3, h4, h5⟩ := propFold_ok (propOrder upwards common atmo) (efReset out) hsq
    fun l hl => h l (hperm.mem_iff.1 hl)
  refine ⟨res, h1, h2, h3, h4, fun i hi j hj => ?_⟩
  rw [(h5 i hi j hj).1, (h5 i hi j hj).2]
  simp only [efReset, mul_zero, zero_add, one_mul]
  exact ⟨(hperm.map _).prod_eq, (hperm.map _).sum_eq⟩

/-- **C42** (order): any reordering of the layers, in either direction, gives the same field. -/
theorem C42_order [CommRing V] (up₁ up₂ : Bool) (common₁ atmo₁ common₂ atmo₂ : List (EF V × View V)) (out₁ out₂ : EF V)
    (hp : (common₁ ++ atmo₁).Perm (common₂ ++ atmo₂)) (h1 : out₁.cols = out₁.rows) (h2 : out₂.cols = out₂.rows)
    (h12 : out₁.rows = out₂.rows) (h : ∀ l ∈ common₁ ++ atmo₁, LayerFits out₁.rows l) :
    ∃ r₁ r₂, propTrigger up₁ common₁ atmo₁ out₁ = some r₁ ∧ propTrigger up₂ common₂ atmo₂ out₂ = some r₂ ∧
      ∀ i < out₁.rows, ∀ j < out₁.rows, r₁.A i j = r₂.A i j ∧ r₁.phase i j = r₂.phase i j := by
  obtain ⟨r₁, a1, -, -, -, a2⟩ := C42_merged up₁ common₁ atmo₁ out₁ h1 h
  obtain ⟨r₂, b1, -, -, -, b2⟩ := C42_merged up₂ common₂ atmo₂ out₂ h2 fun l hl => by rw [← h12]; exact h l (hp.mem_iff.2 hl)
  refine ⟨r₁, r₂, a1, b1, fun i hi j hj => ?_⟩
  rw [← h12] at b2
  rw [(a2 i hi j hj).1, (a2 i hi j hj).2, (b2 i hi j hj).1, (b2 i hi j hj).2]
  exact ⟨(hp.map _).prod_eq, (hp.map _).sum_eq⟩

/-! ### Complex fields -/

theorem efAtLambda_mul (a b c : EF ℝ) (w : ℝ) (i j : Nat) (hA : c.A i j = a.A i j * b.A i j) (hp : c.phase i j = a.phase i j + b.phase i j) :
    efAtLambda c w i j = efAtLambda a w i j * efAtLambda b w i j := by
  unfold efAtLambda
  have hA' : ((c.A i j : ℝ) : ℂ) = (a.A i j : ℂ) * (b.A i j : ℂ) := by rw [hA, Complex.ofReal_mul]
  rw [hA', hp, add_mul, Complex.ofReal_add, mul_add, Complex.exp_add]
  ring

theorem efAtLambda_list (l : List (EF ℝ)) (c : EF ℝ) (w : ℝ) (i j : Nat) (hA : c.A i j = (l.map fun e => e.A i j).prod)
    (hp : c.phase i j = (l.map fun e => e.phase i j).sum) : efAtLambda c w i j = (l.map fun e => efAtLambda e w i j).prod := by
  induction l generalizing c with
  | nil =>
    unfold efAtLambda
    rw [hA, hp]
    simp
  | cons e l ih =>
    rw [List.map_cons, List.prod_cons, ← ih ⟨0, 0, fun i j => (l.map fun e => e.A i j).prod, fun i j => (l.map fun e => e.phase i j).sum, 0⟩ rfl rfl]
    refine efAtLambda_mul e _ c w i j ?_ ?_
    · rw [hA, List.map_cons, List.prod_cons]
    · rw [hp, List.map_cons, List.sum_cons]

/-- **C42** (complex fields): at every wavelength the complex field of the output is the product of the complex fields of the layers,
and its intensity the product of the squared amplitudes: phases do not change the intensity. -/
theorem C42_complex (upwards : Bool) (common atmo : List (EF ℝ × View ℝ)) (out : EF ℝ) (hsq : out.cols = out.rows)
    (h : ∀ l ∈ common ++ atmo, LayerFits out.rows l) :
    ∃ res, propTrigger upwards common atmo out = some res ∧ ∀ w : ℝ, ∀ i < out.rows, ∀ j < out.rows,
      efAtLambda res w i j = ((common ++ atmo).map fun l => efAtLambda (seen out.rows l) w i j).prod ∧
      efIntensity res w i j = (((common ++ atmo).map fun l => (seen out.rows l).A i j).prod) ^ 2 := by
  obtain ⟨res, h1, -, -, -, h2⟩ := C42_merged upwards common atmo out hsq h
  refine ⟨res, h1, fun w i hi j hj => ⟨?_, ?_⟩⟩
  · have := efAtLambda_list ((common ++ atmo).map (seen out.rows)) res w i j
      (by rw [(h2 i hi j hj).1, List.map_map]; rfl) (by rw [(h2 i hi j hj).2, List.map_map]; rfl)
    rw [this, List.map_map]
    rfl
  · rw [← (h2 i hi j hj).1]
    unfold efIntensity efAtLambda
    rw [Complex.mul_conj, Complex.ofReal_re, Complex.normSq_mul, Complex.normSq_ofReal, mul_comm Complex.I, Complex.normSq_eq_norm_sq,
      Complex.norm_exp_ofReal_mul_I]
    ring

/-! ### Not finite values -/

theorem nan_mul {K : Type} [Mul K] (x : NanNum K) : (none : NanNum K) * x = none := rfl
theorem nan_add {K : Type} [Add K] (x : NanNum K) : (none : NanNum K) + x = none := rfl

theorem propLayer_nan {K : Type} [Mul K] [Add K] (out res : EF (NanNum K)) (layer : EF (NanNum K) × View (NanNum K))
    (h : propLayer out layer = some res) (i j : Nat) :
    (out.A i j = none → res.A i j = none) ∧ (out.phase i j = none → res.phase i j = none) := by
  unfold propLayer at h
  obtain ⟨e, v⟩ := layer
  cases v with
  | interp f =>
    simp only [Option.some.injEq] at h
    subst h
    exact ⟨fun h => by simp only [h, nan_mul], fun h => by simp only [h, nan_add]⟩
  | cut =>
    simp only [efProduct, Option.map_eq_some_iff] at h
    obtain ⟨a, -, rfl⟩ := h
    exact ⟨fun h => by simp only [h, nan_mul], fun h => by simp only [h, nan_add]⟩

/-- A frame of the propagation: layers of one step. -/
def propRun {V : Type} [Zero V] [One V] [Add V] [Mul V] (upwards : Bool) (frames : List (List (EF V × View V) × List (EF V × View V)))
    (out : EF V) : Option (EF V) := frames.foldlM (fun o f => propTrigger upwards f.1 f.2 o) out

/-- A value that is not finite stays in the output for ever: the reset before each propagation multiplies by zero, and no later
layers clear it. -/
theorem C42_not_finite_for_ever {K : Type} [Zero K] [One K] [Mul K] [Add K] (upwards : Bool)
    (frames : List (List (EF (NanNum K) × View (NanNum K)) × List (EF (NanNum K) × View (NanNum K)))) (out res : EF (NanNum K))
    (h : propRun upwards frames out = some res) (i j : Nat) :
    (out.A i j = none → res.A i j = none) ∧ (out.phase i j = none → res.phase i j = none) := by
  have hfold : ∀ (l : List (EF (NanNum K) × View (NanNum K))) (o r : EF (NanNum K)), l.foldlM propLayer o = some r →
      (o.A i j = none → r.A i j = none) ∧ (o.phase i j = none → r.phase i j = none) := by
    intro l
    induction l with
    | nil => intro o r hr; cases hr; exact ⟨id, id⟩
    | cons a l ih =>
      intro o r hr
      rw [List.foldlM_cons] at hr
      obtain ⟨o1, h1, h2⟩ := Option.bind_eq_some_iff.1 hr
      have p := propLayer_nan o o1 a h1 i j
      have q := ih o1 r h2
      exact ⟨fun h => q.1 (p.1 h), fun h => q.2 (p.2 h)⟩
  unfold propRun at h
  induction frames generalizing out with
  | nil => cases h; exact ⟨id, id⟩
  | cons f frames ih =>
    rw [List.foldlM_cons] at h
    obtain ⟨o1, h1, h2⟩ := Option.bind_eq_some_iff.1 h
    have p := hfold _ _ _ h1
    have q := ih o1 h2
    refine ⟨fun hn => q.1 (p.1 ?_), fun hn => q.2 (p.2 ?_)⟩
    · simp only [efReset, hn, nan_mul, nan_add]
    · simp only [efReset, hn, nan_mul]

/-! ### Layers smaller than the pupil -/

/-- A layer one or two pixels smaller than the pupil is accepted, and its last pixel is used everywhere. -/
theorem C42_small_layer [CommRing V] (out e : EF V) (hsq : out.cols = out.rows) (d : Nat) (hd : d = 1 ∨ d = 2) (hr : e.rows + d = out.rows)
    (hc : e.cols = e.rows) (hpos : 0 < e.rows) :
    ∃ res, propLayer out (e, View.cut) = some res ∧
      ∀ i j, res.A i j = out.A i j * e.A (e.rows - 1) (e.rows - 1) ∧ res.phase i j = out.phase i j + e.phase (e.rows - 1) (e.rows - 1) := by
  have hs : sliceIdx e.rows ⟨some (-1), some (-1 + out.rows), none⟩ = some [e.rows - 1] := by
    have h1 : adjustBound e.rows 0 e.rows (-1) = e.rows - 1 := by
      unfold adjustBound
      rw [if_pos (by omega), if_neg (by omega)]
      omega
    have h2 : adjustBound e.rows 0 e.rows (-1 + out.rows) = e.rows := by
      unfold adjustBound
      rw [if_neg (by omega), if_pos (by omega)]
    simp only [sliceIdx, sliceRange, Option.getD_none, Option.map_some, Option.getD_some]
    rw [if_neg (by decide), if_neg (by decide), h1, h2]
    simp only [Option.map_some, Option.some.injEq]
    have hlen : (if (e.rows : Int) - 1 < e.rows then (((e.rows : Int) - (e.rows - 1) - 1) / 1 + 1).toNat else 0) = 1 := by
      rw [Int.ediv_one, if_pos (by omega)]
      omega
    rw [hlen]
    simp
  have er : ((e.rows : Int) - out.rows) / 2 = -1 := by omega
  have hsub : subWindow out.rows out.cols e.rows e.cols (((e.rows : Int) - out.rows) / 2) (((e.cols : Int) - out.rows) / 2) =
      some ([e.rows - 1], [e.rows - 1]) := by
    unfold subWindow
    rw [hc, er, hsq, hs]
    simp
  simp only [propLayer, efProduct, hsub, Option.map_some]
  exact ⟨_, rfl, fun i j => ⟨rfl, rfl⟩⟩

/-! ### Separate outputs -/

/-- Without `mergeLayersContrib` the trigger raises whenever there is a common layer, and one is required. -/
theorem C42_split_raises [Zero V] [One V] [Add V] [Mul V] (upwards : Bool) (common atmo : List (EF V × View V)) (outs : List (EF V))
    (hl : outs.length = atmo.length) (hc : common ≠ []) : propTriggerSplit upwards common atmo outs = none := by
  have hfold : ∀ (l : List (Nat × (EF V × View V))) (outs : List (EF V)), (∃ x ∈ l, outs.length ≤ x.1) →
      l.foldlM (fun outs (x : Nat × (EF V × View V)) => (outs[x.1]?).bind fun o => (propLayer (efReset o) x.2).map fun o' => outs.set x.1 o') outs = none := by
    intro l
    induction l with
    | nil => intro outs ⟨x, hx, _⟩; cases hx
    | cons a l ih =>
      intro outs ⟨x, hx, hlen⟩
      rw [List.foldlM_cons]
      cases ha : ((outs[a.1]?).bind fun o => (propLayer (efReset o) a.2).map fun o' => outs.set a.1 o') with
      | none => rfl
      | some o1 =>
        obtain ⟨o, ho, hm⟩ := Option.bind_eq_some_iff.1 ha
        obtain ⟨o', -, rfl⟩ := Option.map_eq_some_iff.1 hm
        rcases List.mem_cons.1 hx with rfl | hx
        · rw [List.getElem?_eq_none hlen] at ho
          cases ho
        · exact ih _ ⟨x, hx, by rw [List.length_set]; exact hlen⟩
  have hcl : 0 < common.length := List.length_pos_iff.2 hc
  have hlen : (propOrder upwards common atmo).length = common.length + atmo.length := by
    unfold propOrder
    split
    · rw [List.length_append]
    · rw [List.length_reverse, List.length_append]
  unfold propTriggerSplit
  refine hfold _ outs ⟨(atmo.length, (propOrder upwards common atmo)[atmo.length]'(by omega)), ?_, by omega⟩
  rw [List.mem_iff_getElem]
  refine ⟨atmo.length, by simp [hlen]; omega, ?_⟩
  rw [List.getElem_zip, List.getElem_range]

/-! ### The combinator -/

theorem comb_fold [CommRing V] (rest : List (EF V)) (o : EF V) (h : ∀ e ∈ rest, e.rows = o.rows ∧ e.cols = o.cols) :
    ∃ res, rest.foldlM (fun o e => if e.rows = o.rows ∧ e.cols = o.cols then
        some { o with A := fun i j => o.A i j * e.A i j, phase := fun i j => o.phase i j + e.phase i j, S0 := o.S0 + e.S0 }
      else none) o = some res ∧ res.rows = o.rows ∧ res.cols = o.cols ∧ res.S0 = o.S0 + (rest.map (·.S0)).sum ∧
      ∀ i j, res.A i j = o.A i j * (rest.map fun e => e.A i j).prod ∧ res.phase i j = o.phase i j + (rest.map fun e => e.phase i j).sum := by
  induction rest generalizing o with
  | nil => exact ⟨o, rfl, rfl, rfl, by simp, fun i j => by simp⟩
  | cons e rest ih =>
    obtain ⟨res, h1, h2, h3, h4, h5⟩ := ih { o with A := fun i j => o.A i j * e.A i j, phase := fun i j => o.phase i j + e.phase i j, S0 := o.S0 + e.S0 }
      fun x hx => h x (List.mem_cons_of_mem _ hx)
    refine ⟨res, ?_, h2, h3, ?_, fun i j => ?_⟩
    · rw [List.foldlM_cons, if_pos (h e List.mem_cons_self)]
      exact h1
    · rw [h4, List.map_cons, List.sum_cons, add_assoc]
    · rw [(h5 i j).1, (h5 i j).2, List.map_cons, List.map_cons, List.prod_cons, List.sum_cons, mul_assoc, add_assoc]
      exact ⟨rfl, rfl⟩

/-- **C42** (combinator): for square inputs of equal shape, at every trigger after the setup the output has the product of the
amplitudes, the sum of the phases and the sum of the fluxes, whatever it held before. -/
theorem C42_combinator [CommRing V] (out : EF V) (first efs : List (EF V)) (n : Nat) (hne : first ≠ []) (hne' : efs ≠ [])
    (hf : ∀ e ∈ first, e.rows = n ∧ e.cols = n) (he : ∀ e ∈ efs, e.rows = n ∧ e.cols = n) :
    ∃ o, combSetup out first = some o ∧ ∀ prev : EF V, prev.rows = o.rows → prev.cols = o.cols →
      ∃ res, combTrigger prev efs = some res ∧ res.rows = n ∧ res.cols = n ∧ res.S0 = (efs.map (·.S0)).sum ∧
        ∀ i j, res.A i j = (efs.map fun e => e.A i j).prod ∧ res.phase i j = (efs.map fun e => e.phase i j).sum := by
  obtain ⟨f, rest, rfl⟩ := List.exists_cons_of_ne_nil hne
  obtain ⟨g, rest', rfl⟩ := List.exists_cons_of_ne_nil hne'
  have hf0 := hf f List.mem_cons_self
  have hg0 := he g List.mem_cons_self
  refine ⟨efResize out f.rows f.cols, ?_, fun prev hr hc => ?_⟩
  · unfold combSetup
    dsimp only
    rw [if_pos]
    rw [List.all_eq_true]
    intro x hx
    have := hf x (List.mem_cons_of_mem _ hx)
    simp [this, hf0]
  · have hr : prev.rows = n := by rw [hr]; exact hf0.2
    have hc : prev.cols = n := by rw [hc]; exact hf0.1
    obtain ⟨res, h1, h2, h3, h4, h5⟩ := comb_fold rest' { prev with A := g.A, phase := g.phase, S0 := g.S0 } fun e h => by
      rw [hr, hc]; exact he e (List.mem_cons_of_mem _ h)
    refine ⟨res, ?_, by rw [h2, hr], by rw [h3, hc], ?_, fun i j => ?_⟩
    · unfold combTrigger combFirst
      dsimp only
      rw [if_pos ⟨by rw [hg0.1, hr], by rw [hg0.2, hc]⟩, Option.bind_some]
      exact h1
    · rw [h4, List.map_cons, List.sum_cons]
    · rw [(h5 i j).1, (h5 i j).2, List.map_cons, List.map_cons, List.prod_cons, List.sum_cons]
      exact ⟨rfl, rfl⟩

/-- The combinator accepts inputs that are not square at setup, and then raises at every trigger. -/
theorem C42_combinator_not_square [CommRing V] (out : EF V) (efs : List (EF V)) (r c : Nat) (hrc : r ≠ c) (hne : efs ≠ [])
    (he : ∀ e ∈ efs, e.rows = r ∧ e.cols = c) : ∃ o, combSetup out efs = some o ∧ combTrigger o efs = none := by
  obtain ⟨f, rest, rfl⟩ := List.exists_cons_of_ne_nil hne
  have hf0 := he f List.mem_cons_self
  refine ⟨efResize out f.rows f.cols, ?_, ?_⟩
  · unfold combSetup
    dsimp only
    rw [if_pos]
    rw [List.all_eq_true]
    intro x hx
    have := he x (List.mem_cons_of_mem _ hx)
    simp [this, hf0]
  · unfold combTrigger combFirst
    dsimp only
    rw [if_neg, Option.bind_none]
    rintro ⟨h1, -⟩
    have : f.rows = f.cols := h1
    rw [hf0.1, hf0.2] at this
    exact hrc this

/-- Inputs of different shapes are refused at setup. -/
theorem C42_combinator_mismatch [CommRing V] (out f : EF V) (rest : List (EF V)) (e : EF V) (he : e ∈ rest)
    (hne : e.rows ≠ f.rows ∨ e.cols ≠ f.cols) : combSetup out (f :: rest) = none := by
  unfold combSetup
  dsimp only
  rw [if_neg]
  rw [List.all_eq_true]
  intro h
  have := h e he
  simp only [decide_eq_true_eq] at this
  omega

end

/-! ### Concrete cases -/

/-- A layer of four pixels and one of three pixels seen by a pupil of two. -/
def efExample (n : Nat) : EF ℚ := ⟨n, n, fun i j => i + 2 * j + 1, fun i j => 10 * i + j, 5⟩

example : ∀ l ∈ [(efExample 4, View.cut)] ++ [(efExample 3, View.interp fun p i j => p j i)], LayerFits 2 l := by
  intro l hl
  simp only [List.cons_append, List.nil_append, List.mem_cons, List.not_mem_nil, or_false] at hl
  rcases hl with rfl | rfl
  · exact ⟨by decide, by decide⟩
  · trivial

example : (propTrigger false [(efExample 4, View.cut)] [(efExample 3, View.interp fun p i j => p j i)] (efExample 2)).map
    (fun e => (e.A 0 1, e.phase 0 1, e.S0)) = some (6 * 2, 12 + 10, 5) := by decide +kernel

/-- A not finite pixel survives the next frame. -/
example : (propTrigger (V := NanNum ℚ) true [] [(⟨1, 1, fun _ _ => some 1, fun _ _ => some 3, some 1⟩, View.cut)]
    ⟨1, 1, fun _ _ => some 1, fun _ _ => none, some 1⟩).map (fun e => (e.A 0 0, e.phase 0 0)) = some (some 1, none) := by decide +kernel

/-- A layer of two pixels under a pupil of three. -/
example : (propLayer (efExample 3) (efExample 2, View.cut)).map (fun e => e.phase 0 0) = some 11 := by decide +kernel

example : ((combSetup (efExample 1) [efExample 2, efExample 2]).bind fun o => combTrigger o [efExample 2, efExample 2]).map
    (fun e => (e.A 1 1, e.phase 1 1, e.S0)) = some (16, 22, 10) := by decide +kernel

end Specula
