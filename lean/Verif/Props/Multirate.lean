import Verif.Model.Multirate
import Verif.Props.Filter
import Mathlib.Tactic.FieldSimp

/-!
# C56: multirate reconstruction, C57: fusion of fast and slow sensors
-/

namespace Specula

section
variable {K : Type} [Field K]

/-! ### C56 -/

/-- Specification: the measurements of a sensor that count at time `now`. -/
def freshSlopes (now : Int) (s : SensorIn K) : List K := if s.time = now then s.slopes else List.replicate s.slopes.length 0

/-- Specification: the vector of all sensors, with zeros for the sensors without a new measurement. -/
def stuffedSlopes (now : Int) (sensors : List (SensorIn K)) : List K := sensors.flatMap (freshSlopes now)

/-- Specification: a row of a matrix, from column `o` on, times a vector. -/
def rowTimes (m : Img K) (j o : Nat) (v : List K) : K := ∑ k ∈ Finset.range v.length, m.px j (o + k) * v.getD k 0

/-- Specification: first column of sensor `i`. -/
def firstColumn (sizes : List Nat) (i : Nat) : Nat := (sizes.take i).sum

theorem rowTimes_append (m : Img K) (j o : Nat) (a b : List K) : rowTimes m j o (a ++ b) = rowTimes m j o a + rowTimes m j (o + a.length) b := by
  unfold rowTimes
  rw [List.length_append, Finset.sum_range_add]
  congr 1
  · refine Finset.sum_congr rfl fun k hk => ?_
    rw [List.getD_append _ _ _ _ (Finset.mem_range.1 hk)]
  · refine Finset.sum_congr rfl fun k _ => ?_
    rw [List.getD_append_right _ _ _ _ (by omega), Nat.add_sub_cancel_left, add_assoc]

theorem rowTimes_zero (m : Img K) (j o n : Nat) : rowTimes m j o (List.replicate n (0 : K)) = 0 := by
  unfold rowTimes
  refine Finset.sum_eq_zero fun k hk => ?_
  rw [List.length_replicate, Finset.mem_range] at hk
  rw [List.getD_eq_getElem _ _ (by simpa using hk)]
  simp

theorem freshSlopes_length (now : Int) (s : SensorIn K) : (freshSlopes now s).length = s.slopes.length := by
  unfold freshSlopes; split <;> simp

theorem offsets_eq (sizes : List Nat) : sizes.foldl (fun o n => o ++ [o.getLastD 0 + n]) [0] = (List.range (sizes.length + 1)).map (firstColumn sizes) := by
  induction sizes using List.reverseRecOn with
  | nil => rfl
  | append_singleton l n ih =>
    rw [List.foldl_append, ih, List.foldl_cons, List.foldl_nil, List.length_append, List.length_singleton, List.range_succ (n := l.length + 1), List.map_append]
    congr 1
    · refine List.map_congr_left fun i hi => ?_
      rw [List.mem_range] at hi
      unfold firstColumn
      rw [List.take_append_of_le_length (by omega)]
    · rw [List.range_succ, List.map_append]
      simp [firstColumn]

theorem multirateOutputs_eq (m : Img K) (nModes : Nat) (hm : m.rows = nModes) (sizes : List Nat) (offsets : List Nat)
    (ho : ∀ i, i ≤ sizes.length → offsets.getD i 0 = firstColumn sizes i) (now : Int) (rest : List (SensorIn K)) (i : Nat)
    (hlen : i + rest.length = sizes.length) (hs : ∀ k (h : k < rest.length), (rest[k]).slopes.length = sizes.getD (i + k) 0) :
    multirateOutputs m nModes offsets now i rest =
      some ((List.range rest.length).map fun k => (List.range nModes).map fun j => rowTimes m j (firstColumn sizes (i + k)) (freshSlopes now (rest.getD k ⟨[], 0⟩))) := by
  induction rest generalizing i with
  | nil => rfl
  | cons s rest ih =>
    have hi : i < sizes.length := by simp at hlen; omega
    have hsz : s.slopes.length = sizes.getD i 0 := hs 0 (by simp)
    have hnext : firstColumn sizes (i + 1) = firstColumn sizes i + sizes.getD i 0 := by
      unfold firstColumn
      rw [List.take_add_one, List.sum_append, List.getElem?_eq_getElem hi, List.getD_eq_getElem _ _ hi]
      simp
    have ih' := ih (i + 1) (by simp at hlen; omega) (fun k h => by
      have := hs (k + 1) (by simp; omega)
      simp only [List.getElem_cons_succ] at this
      rw [this]; congr 1; omega)
    have hfirst : (if s.time = now then blockTimes m (offsets.getD i 0) (offsets.getD (i + 1) 0) s.slopes else some (List.replicate nModes 0)) =
        some ((List.range nModes).map fun j => rowTimes m j (firstColumn sizes i) (freshSlopes now s)) := by
      unfold freshSlopes
      split
      · unfold blockTimes
        have h1 := ho i (by omega)
        have h2 := ho (i + 1) (by omega)
        rw [hnext] at h2
        have h3 : offsets.getD (i + 1) 0 - offsets.getD i 0 = s.slopes.length := by rw [h1, h2, hsz]; omega
        rw [if_pos h3.symm, h3, h1, hm]
        rfl
      · congr 1
        symm
        rw [List.eq_replicate_iff]
        refine ⟨by simp, fun b hb => ?_⟩
        obtain ⟨j, -, rfl⟩ := List.mem_map.1 hb
        exact rowTimes_zero ..
    unfold multirateOutputs
    rw [hfirst, ih', Option.bind_some, Option.map_some, List.length_cons, List.range_succ_eq_map, List.map_cons, List.map_map]
    simp only [Nat.add_zero, List.getD_cons_zero, Option.some.injEq, List.cons.injEq, true_and]
    refine List.map_congr_left fun k _ => ?_
    simp only [Function.comp, List.getD_cons_succ]
    rw [show i + 1 + k = i + (k + 1) by omega]

omit [Field K] in
/-- What the constructor and `setup` guarantee. -/
theorem multirate_ready (mats : List (Img K)) (masks : List (List Bool)) (nModes : Nat) (r : MultirateRec K) (hb : multirateBuild mats masks nModes = some r)
    (sizes offsets : List Nat) (hs : multirateSetup r sizes = some offsets) :
    r.nModes = nModes ∧ sizes.length = r.nSensors ∧ r.table = masks.zip mats ∧ masks.length = mats.length ∧ masks.Nodup ∧ (∀ m ∈ mats, m.rows = nModes) ∧
      (∀ m ∈ mats, m.cols = sizes.sum) ∧ (∀ k ∈ masks, k.length = r.nSensors) ∧ 0 < r.nSensors ∧ offsets = (List.range (sizes.length + 1)).map (firstColumn sizes) := by
  unfold multirateBuild at hb
  split at hb
  · cases hb
  split at hb
  · cases hb
  rename_i h1 h2
  split at hb
  · cases hb
  rename_i h3
  split at hb
  · cases hb
  rename_i h4
  dsimp only at hb
  split at hb
  · cases hb
  rename_i h5
  split at hb
  · cases hb
  rename_i h6
  cases hb
  unfold multirateSetup at hs
  split at hs
  · cases hs
  rename_i h7
  split at hs
  · cases hs
  rename_i h8
  cases hs
  push Not at h2 h7
  simp only [not_not] at h3
  simp only [not_not, List.all_eq_true, decide_eq_true_eq] at h4 h5 h8
  refine ⟨rfl, h7, rfl, h2.symm, h3, h4, ?_, h5, by show 0 < (masks.headD []).length; omega, offsets_eq sizes⟩
  intro m hm
  obtain ⟨i, hi, rfl⟩ := List.getElem_of_mem hm
  refine h8 (masks[i]'(by omega), mats[i]) ?_
  rw [List.mem_iff_getElem]
  exact ⟨i, by simp; omega, by simp⟩

/-- The mask of the sensors that have a new measurement. -/
def freshMask (now : Int) (sensors : List (SensorIn K)) : List Bool := sensors.map fun s => decide (s.time = now)

theorem find_mask {α : Type} (masks : List (List Bool)) (mats : List α) (hnd : masks.Nodup) (t : Nat) (h1 : t < masks.length) (h2 : t < mats.length) :
    (masks.zip mats).find? (fun p => p.1 == masks[t]) = some (masks[t], mats[t]) := by
  induction masks generalizing mats t with
  | nil => simp at h1
  | cons a masks ih =>
    cases mats with
    | nil => simp at h2
    | cons b mats =>
      cases t with
      | zero => simp
      | succ t =>
        have hne : a ≠ masks[t]'(by simpa using h1) := by
          intro h
          exact (List.nodup_cons.1 hnd).1 (h ▸ List.getElem_mem _)
        rw [List.zip_cons_cons, List.find?_cons_of_neg (by simpa using hne)]
        simpa using ih mats (List.nodup_cons.1 hnd).2 t (by simpa using h1) (by simpa using h2)

section
variable (mats : List (Img K)) (masks : List (List Bool)) (nModes : Nat) (r : MultirateRec K) (hb : multirateBuild mats masks nModes = some r)
  (sizes offsets : List Nat) (hs : multirateSetup r sizes = some offsets) (now : Int) (sensors : List (SensorIn K))
  (hsens : sensors.map (fun s => s.slopes.length) = sizes)

include hb hs hsens

/-- **C56** (outputs): when the matrix number `t` is the one of the sensors that have a new measurement, output `i` is that matrix times the measurements of
sensor `i` at the columns of that sensor, and zero if it has no new measurement. -/
theorem C56_outputs (t : Nat) (h1 : t < masks.length) (h2 : t < mats.length) (hmask : masks[t] = freshMask now sensors) (hany : true ∈ freshMask now sensors) :
    multirateTrigger r offsets now sensors = some ((List.range sensors.length).map fun i => (List.range nModes).map fun j =>
      rowTimes mats[t] j (firstColumn sizes i) (freshSlopes now (sensors.getD i ⟨[], 0⟩))) := by
  obtain ⟨e1, e2, e3, e4, e5, e6, e7, e8, e9, e10⟩ := multirate_ready mats masks nModes r hb sizes offsets hs
  unfold multirateTrigger
  dsimp only
  have hv : (sensors.map fun s => decide (s.time = now)).any id = true := by
    rw [List.any_eq_true]
    exact ⟨true, hany, rfl⟩
  rw [if_neg (by rw [hv]; simp), e3]
  change (((masks.zip mats).find? fun p => p.1 == freshMask now sensors).map _).bind _ = _
  rw [← hmask, find_mask masks mats e5 t h1 h2, Option.map_some, Option.bind_some, e1]
  have hsl : sensors.length = sizes.length := by rw [← hsens]; simp
  rw [multirateOutputs_eq mats[t] nModes (e6 _ (List.getElem_mem _)) sizes offsets ?_ now sensors 0 (by omega) ?_]
  · simp only [Nat.zero_add]
  · intro i hi
    rw [e10, List.getD_eq_getElem _ _ (by simp; omega)]
    simp
  · intro k hk
    rw [List.getD_eq_getElem _ _ (by omega)]
    simp [← hsens]

/-- **C56** (the parts add up): the sum of the outputs is the selected matrix times the full vector of measurements with zeros for the sensors without a
new one. -/
theorem C56_sum (t : Nat) (h1 : t < masks.length) (h2 : t < mats.length) (hmask : masks[t] = freshMask now sensors) (hany : true ∈ freshMask now sensors)
    (outs : List (List K)) (ho : multirateTrigger r offsets now sensors = some outs) (j : Nat) (hj : j < nModes) :
    (outs.map fun o => o.getD j 0).sum = rowTimes mats[t] j 0 (stuffedSlopes now sensors) := by
  rw [C56_outputs mats masks nModes r hb sizes offsets hs now sensors hsens t h1 h2 hmask hany, Option.some.injEq] at ho
  subst ho
  rw [List.map_map]
  have e : ((fun o : List K => o.getD j 0) ∘ fun i => (List.range nModes).map fun j => rowTimes mats[t] j (firstColumn sizes i) (freshSlopes now (sensors.getD i ⟨[], 0⟩))) =
      fun i => rowTimes mats[t] j (firstColumn sizes i) (freshSlopes now (sensors.getD i ⟨[], 0⟩)) := by
    funext i
    simp only [Function.comp]
    rw [List.getD_eq_getElem _ _ (by simpa using hj)]
    simp
  rw [e]
  clear e hmask hany hs hb
  subst hsens
  induction sensors using List.reverseRecOn with
  | nil => simp [stuffedSlopes, rowTimes]
  | append_singleton l s ih =>
    rw [List.length_append, List.length_singleton, List.range_succ, List.map_append, List.sum_append]
    unfold stuffedSlopes at *
    rw [List.flatMap_append, rowTimes_append, ← ih]
    congr 1
    · congr 1
      refine List.map_congr_left fun i hi => ?_
      rw [List.mem_range] at hi
      unfold firstColumn
      rw [List.map_append, List.take_append_of_le_length (by simp; omega), List.getD_append _ _ _ _ hi]
    · have hcol : firstColumn ((l ++ [s]).map fun s => s.slopes.length) l.length = (l.flatMap (freshSlopes now)).length := by
        unfold firstColumn
        rw [List.map_append, List.take_left' (by simp), List.length_flatMap]
        simp [freshSlopes_length]
      simp only [List.map_cons, List.map_nil, List.sum_singleton, hcol, Nat.zero_add, List.flatMap_singleton]
      rw [List.getD_append_right _ _ _ _ le_rfl]
      simp

/-- **C56** (no new measurement): all outputs are zero, whatever the matrices. -/
theorem C56_idle (hnone : true ∉ freshMask now sensors) :
    multirateTrigger r offsets now sensors = some (List.replicate sensors.length (List.replicate nModes 0)) := by
  obtain ⟨e1, e2, -⟩ := multirate_ready mats masks nModes r hb sizes offsets hs
  have hsl : sensors.length = sizes.length := by rw [← hsens]; simp
  unfold multirateTrigger
  dsimp only
  rw [if_pos, e1, hsl, e2]
  intro h
  rw [List.any_eq_true] at h
  obtain ⟨x, hx, hx2⟩ := h
  exact hnone ((show x = true from hx2) ▸ hx)

omit hsens in
/-- **C56** (no silent choice): a combination of new measurements without a matrix raises. -/
theorem C56_unknown_raises (hany : true ∈ freshMask now sensors) (hno : freshMask now sensors ∉ masks) : multirateTrigger r offsets now sensors = none := by
  obtain ⟨-, -, e3, -⟩ := multirate_ready mats masks nModes r hb sizes offsets hs
  unfold multirateTrigger
  dsimp only
  have hv : (sensors.map fun s => decide (s.time = now)).any id = true := by
    rw [List.any_eq_true]
    exact ⟨true, hany, rfl⟩
  rw [if_neg (by rw [hv]; simp), e3]
  change (((masks.zip mats).find? fun p => p.1 == freshMask now sensors).map _).bind _ = _
  rw [List.find?_eq_none.2, Option.map_none, Option.bind_none]
  rintro ⟨a, b⟩ hp
  simp only [beq_iff_eq]
  rintro rfl
  exact hno (List.of_mem_zip hp).1

end

end

/-- Hypotheses met: two sensors of 1 and 2 slopes, the second one without a new measurement. -/
example : ∃ r offsets, multirateBuild [(⟨1, 3, fun _ j => (j : ℚ) + 1⟩ : Img ℚ), ⟨1, 3, fun _ _ => 0⟩] [[true, false], [true, true]] 1 = some r ∧
    multirateSetup r [1, 2] = some offsets ∧ offsets = [0, 1, 3] ∧ freshMask 5 [(⟨[7], 5⟩ : SensorIn ℚ), ⟨[1, 1], 3⟩] = [true, false] ∧
    multirateTrigger r offsets 5 [⟨[7], 5⟩, ⟨[1, 1], 3⟩] = some [[7], [0]] := by
  exact ⟨_, _, rfl, by decide, rfl, by decide, by decide +kernel⟩

/-! ### C57 -/

theorem count_multiples (N m : ℕ) (hN : 0 < N) : ((Finset.range (N * m)).filter fun k => N ∣ k + 1).card = m := by
  induction m with
  | zero => simp
  | succ m ih =>
    have : (Finset.range (N * (m + 1))).filter (fun k => N ∣ k + 1) = insert (N * m + (N - 1)) ((Finset.range (N * m)).filter fun k => N ∣ k + 1) := by
      ext k
      simp only [Finset.mem_filter, Finset.mem_range, Finset.mem_insert]
      constructor
      · rintro ⟨h1, h2⟩
        obtain ⟨q, hq⟩ := h2
        rcases Nat.lt_or_ge k (N * m) with h | h
        · exact Or.inr ⟨h, ⟨q, hq⟩⟩
        · left
          have h3 : m < q := by
            by_contra hle
            have := Nat.mul_le_mul_left N (show q ≤ m by omega)
            omega
          have h4 : q ≤ m + 1 := by
            by_contra hle
            have := Nat.mul_le_mul_left N (show m + 2 ≤ q by omega)
            rw [Nat.mul_add] at this
            rw [Nat.mul_add] at h1
            omega
          have : q = m + 1 := by omega
          subst this
          rw [Nat.mul_add] at hq
          omega
      · rintro (rfl | ⟨h1, h2⟩)
        · rw [Nat.mul_add]
          refine ⟨by omega, ⟨m + 1, by rw [Nat.mul_add]; omega⟩⟩
        · rw [Nat.mul_add]
          exact ⟨by omega, h2⟩
    rw [this, Finset.card_insert_of_notMem (by simp), ih]

section
variable {K : Type} [Field K]

/-- Specification: the normalised weights. -/
def fusionWeight (weights : List K) (i : Nat) : K := weights.getD i 0 / weights.sum

theorem foldl_add (l : List K) (x : K) : l.foldl (· + ·) x = x + l.sum := by
  induction l generalizing x with
  | nil => simp
  | cons a l ih => rw [List.foldl_cons, ih, List.sum_cons, add_assoc]

theorem sum_zipWith_range (f : Nat → K) (l : List K) (n : Nat) (h : l = (List.range n).map f) : l.sum = ∑ i ∈ Finset.range n, f i := by
  subst h
  induction n with
  | zero => simp
  | succ n ih => rw [List.range_succ, List.map_append, List.sum_append, ih, Finset.sum_range_succ]; simp

variable (gTrack : K) (weights : List K) (factors : List Nat) (f : FusionCoef K) (hf : fusionBuild gTrack weights factors = some f)
  (yf : ℕ → K) (ys : ℕ → List K) (hys : ∀ n, (ys n).length = factors.length)

omit [Field K] in
theorem fusionState_eq [Field K] (n : ℕ) : fusionState f yf ys n = ⟨if n = 0 then 0 else yf (n - 1), n⟩ := by
  induction n with
  | zero => rfl
  | succ n ih => unfold fusionState; rw [ih]; rfl

include hf hys

/-- **C57** (mixing): at frame number `n + 1` the input of the controller is the increment of the fast sensor plus the tracking gain times the fast sensor
with its weight plus, for the slow sensors due at this frame, the tracking gain times weight and downsampling factor times the measurement. -/
theorem C57_mixed (n : ℕ) : fusionMixed f yf ys n = yf n - (if n = 0 then 0 else yf (n - 1)) + gTrack * fusionWeight weights 0 * yf n +
    ∑ i ∈ Finset.range factors.length, if factors.getD i 0 ∣ n + 1 then gTrack * fusionWeight weights (i + 1) * (factors.getD i 0 : K) * (ys n).getD i 0 else 0 := by
  unfold fusionBuild at hf
  split at hf
  · cases hf
  rename_i hl
  push Not at hl
  cases hf
  unfold fusionMixed
  rw [fusionState_eq]
  unfold fusionStep
  dsimp only
  rw [foldl_add]
  obtain ⟨w0, wt, rfl⟩ : ∃ a l, weights = a :: l := by
    cases weights with
    | nil => simp at hl
    | cons a l => exact ⟨a, l, rfl⟩
  have hwl : wt.length = factors.length := by simpa using hl
  have hz : (List.zipWith (fun (p : K × ℕ) (y : K) => p.1 * (y * if (n + 1) % p.2 = 0 then 1 else 0))
      (List.zipWith (fun (x : K) (n : ℕ) => (gTrack * x * (n : K), n)) ((w0 :: wt).map fun x => x / (w0 :: wt).sum).tail factors) (ys n)).sum =
      ∑ i ∈ Finset.range factors.length, if factors.getD i 0 ∣ n + 1 then gTrack * fusionWeight (w0 :: wt) (i + 1) * (factors.getD i 0 : K) * (ys n).getD i 0 else 0 := by
    apply sum_zipWith_range
    apply List.ext_getElem
    · simp [hwl, hys]
    · intro i h1 h2
      have hi : i < factors.length := by simpa using h2
      have hi2 : i < (ys n).length := by rw [hys]; exact hi
      have hi3 : i < wt.length := by omega
      simp only [List.getElem_zipWith, List.map_cons, List.tail_cons, List.getElem_map, List.getElem_range, fusionWeight, List.getD_cons_succ,
        List.getD_eq_getElem _ _ hi, List.getD_eq_getElem _ _ hi2, List.getD_eq_getElem _ _ hi3]
      by_cases hd : factors[i] ∣ n + 1
      · rw [if_pos hd, if_pos (Nat.mod_eq_zero_of_dvd hd)]; ring
      · rw [if_neg hd, if_neg (fun h => hd (Nat.dvd_of_mod_eq_zero h))]; ring
  rw [hz]
  simp only [fusionWeight, List.map_cons, List.headD_cons, List.getD_cons_zero]
  ring

/-- **C57** (telescoping): the sum of the controller inputs over the first `n` frames is the last fast measurement plus the tracking gain times the weighted sums
of the measurements, each slow measurement counted with its downsampling factor. -/
theorem C57_sum (n : ℕ) : ∑ k ∈ Finset.range n, fusionMixed f yf ys k = (if n = 0 then 0 else yf (n - 1)) +
    gTrack * (fusionWeight weights 0 * ∑ k ∈ Finset.range n, yf k +
      ∑ i ∈ Finset.range factors.length, fusionWeight weights (i + 1) * (factors.getD i 0 : K) *
        ∑ k ∈ (Finset.range n).filter fun k => factors.getD i 0 ∣ k + 1, (ys k).getD i 0) := by
  have step : ∀ k, ∑ i ∈ Finset.range factors.length, (if factors.getD i 0 ∣ k + 1 then gTrack * fusionWeight weights (i + 1) * (factors.getD i 0 : K) * (ys k).getD i 0 else 0) =
      gTrack * ∑ i ∈ Finset.range factors.length, fusionWeight weights (i + 1) * (factors.getD i 0 : K) * (if factors.getD i 0 ∣ k + 1 then (ys k).getD i 0 else 0) := by
    intro k
    rw [Finset.mul_sum]
    refine Finset.sum_congr rfl fun i _ => ?_
    split <;> ring
  simp only [Finset.sum_filter]
  induction n with
  | zero => simp
  | succ n ih =>
    rw [Finset.sum_range_succ, ih, C57_mixed gTrack weights factors f hf yf ys hys, step, Finset.sum_range_succ]
    simp only [Finset.sum_range_succ (n := n)]
    simp only [mul_add, Finset.sum_add_distrib]
    simp only [Nat.succ_ne_zero, if_false, Nat.add_sub_cancel]
    ring

/-- **C57** (unbiased fusion): with constant measurements, over any number `M` of frames that all downsampling factors divide, the controller receives the fast measurement
once plus `M` times the tracking gain times the barycentre of all measurements with the normalised weights. -/
theorem C57_barycentre [CharZero K] (a : K) (b : List K) (hyf : ∀ n, yf n = a) (hyc : ∀ n, ys n = b) (M : ℕ) (hM : 0 < M)
    (hpos : ∀ N ∈ factors, 0 < N) (hdvd : ∀ N ∈ factors, N ∣ M) :
    ∑ k ∈ Finset.range M, fusionMixed f yf ys k =
      a + M * gTrack * (fusionWeight weights 0 * a + ∑ i ∈ Finset.range factors.length, fusionWeight weights (i + 1) * b.getD i 0) := by
  rw [C57_sum gTrack weights factors f hf yf ys hys, if_neg hM.ne', hyf]
  simp only [hyf, hyc, Finset.sum_const, Finset.card_range, nsmul_eq_mul]
  have : ∀ i ∈ Finset.range factors.length, fusionWeight weights (i + 1) * (factors.getD i 0 : K) *
      (((Finset.range M).filter fun k => factors.getD i 0 ∣ k + 1).card * b.getD i 0) = M * (fusionWeight weights (i + 1) * b.getD i 0) := by
    intro i hi
    rw [Finset.mem_range] at hi
    have hmem : factors.getD i 0 ∈ factors := by rw [List.getD_eq_getElem _ _ hi]; exact List.getElem_mem _
    obtain ⟨m, rfl⟩ := hdvd _ hmem
    rw [count_multiples _ _ (hpos _ hmem)]
    push_cast
    ring
  rw [Finset.sum_congr rfl this, ← Finset.mul_sum]
  ring

omit hf hys in
/-- The normalised weights add up to one. -/
theorem C57_weights_normalised (h : weights.sum ≠ 0) (hl : weights.length = factors.length + 1) :
    fusionWeight weights 0 + ∑ i ∈ Finset.range factors.length, fusionWeight weights (i + 1) = 1 := by
  rw [add_comm, ← Finset.sum_range_succ' (fusionWeight weights) factors.length, ← hl]
  unfold fusionWeight
  simp only [div_eq_mul_inv]
  rw [← Finset.sum_mul, ← sum_zipWith_range (fun i => weights.getD i 0) weights weights.length, mul_inv_cancel₀ h]
  apply List.ext_getElem
  · simp
  · intro i h1 h2; simp [List.getElem?_eq_getElem h1]

omit hf hys in
/-- **C57** (integrator): with an integrator of gain `k` the command after `n` frames is `k` times the sum of the controller inputs, so `C57_sum` and `C57_barycentre` give
the command. -/
theorem C57_integrator (k : K) (n : ℕ) :
    fusionCommand f (integratorCoef k 1) (fun _ => 1) yf ys n = k * ∑ i ∈ Finset.range (n + 1), fusionMixed f yf ys i := by
  induction n with
  | zero =>
    unfold fusionCommand
    rw [iirOut_eq _ (by simp [integratorCoef]) (by simp [integratorCoef])]
    simp [integratorCoef, Finset.sum_range_succ, back]
  | succ n ih =>
    rw [Finset.sum_range_succ, mul_add, ← ih]
    unfold fusionCommand
    rw [iirOut_eq _ (by simp [integratorCoef]) (by simp [integratorCoef])]
    simp [integratorCoef, Finset.sum_range_succ, back]
    ring

omit hf hys in
omit [Field K] in
/-- **C57** (synchronisation check): a frame is accepted exactly when the slow sensors that are new are those due at that frame. -/
theorem C57_sync (counter : ℕ) (tFast : Int) (tSlow : List Int) (hl : tSlow.length = factors.length) :
    syncOk factors counter tFast tSlow = true ↔ ∀ i (h : i < factors.length), (tSlow[i] = tFast ↔ factors[i] ∣ counter + 1) := by
  unfold syncOk
  rw [List.all_eq_true]
  constructor
  · intro h i hi
    have hmem : (List.zipWith (fun n t => if (counter + 1) % n = 0 then decide (t = tFast) else decide (t ≠ tFast)) factors tSlow)[i]'(by simp; omega) = true :=
      h _ (List.getElem_mem _)
    rw [List.getElem_zipWith] at hmem
    by_cases hd : (counter + 1) % factors[i] = 0
    · rw [if_pos hd] at hmem
      exact ⟨fun _ => Nat.dvd_of_mod_eq_zero hd, fun _ => by simpa using hmem⟩
    · rw [if_neg hd] at hmem
      have hne : tSlow[i] ≠ tFast := by simpa using hmem
      exact ⟨fun h => absurd h hne, fun h => absurd (Nat.mod_eq_zero_of_dvd h) hd⟩
  · intro h x hx
    obtain ⟨i, hi, rfl⟩ := List.getElem_of_mem hx
    rw [List.length_zipWith] at hi
    rw [List.getElem_zipWith]
    have := h i (by omega)
    by_cases hd : (counter + 1) % factors[i] = 0
    · rw [if_pos hd]
      simpa using this.2 (Nat.dvd_of_mod_eq_zero hd)
    · rw [if_neg hd]
      have : tSlow[i] ≠ tFast := fun h => hd (Nat.mod_eq_zero_of_dvd (this.1 h))
      simpa using this

end

/-- Hypotheses met: a fast sensor and two slow ones every 2 and 3 frames. -/
example : ∃ f, fusionBuild (1 / 10 : ℚ) [1, 2, 1] [2, 3] = some f ∧
    (∑ k ∈ Finset.range 6, fusionMixed f (fun _ => 4) (fun _ => [1, 8]) k) = 4 + 6 * (1 / 10) * (1 / 4 * 4 + (2 / 4 * 1 + 1 / 4 * 8)) ∧
    syncOk [2, 3] 1 100 [100, 40] = true ∧ syncOk [2, 3] 2 150 [100, 40] = false := by
  exact ⟨_, rfl, by decide +kernel, by decide, by decide⟩

end Specula
