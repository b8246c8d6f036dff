import Verif.Model.Playback
import Mathlib.Data.List.Basic
import Mathlib.Data.Nat.Log
import Mathlib.Tactic.Ring
import Mathlib.Tactic.NormNum
/-
C26: replaying stored data reproduces the signal.
-/
namespace Specula

variable {V : Type}

/-- What the original output was at time `t`, given the samples it was refreshed with: the last one not later than `t`. -/
def heldAt (stored : List (Nat × V)) (t : Int) : SourceOut V :=
  match (stored.filter fun p => decide ((p.1 : Int) ≤ t)).getLast? with
  | some p => ⟨some p.2, p.1⟩
  | none => SourceOut.init

theorem filter_eq_of_mem {stored : List (Nat × V)} (hinc : (stored.map (·.1)).Pairwise (· < ·)) {t : Nat} {v : V}
    (h : (t, v) ∈ stored) : sourceLookup stored t = some v ∧ heldAt stored t = ⟨some v, t⟩ := by
  obtain ⟨l1, l2, rfl⟩ := List.append_of_mem h
  rw [List.map_append, List.pairwise_append, List.map_cons, List.pairwise_cons] at hinc
  obtain ⟨-, ⟨hl2, -⟩, hl1⟩ := hinc
  have h2 : ∀ p ∈ l2, t < p.1 := fun p hp => hl2 p.1 (List.mem_map.2 ⟨p, hp, rfl⟩)
  have h1 : ∀ p ∈ l1, p.1 < t := fun p hp => hl1 p.1 (List.mem_map.2 ⟨p, hp, rfl⟩) t (by simp)
  constructor
  · unfold sourceLookup
    rw [List.filter_append, List.filter_cons]
    have e2 : l2.filter (fun p => decide (p.1 = t)) = [] := by
      rw [List.filter_eq_nil_iff]; intro p hp; have := h2 p hp; simp; omega
    rw [e2]; simp
  · unfold heldAt
    rw [List.filter_append, List.filter_cons]
    have e2 : l2.filter (fun p => decide ((p.1 : Int) ≤ (t : Int))) = [] := by
      rw [List.filter_eq_nil_iff]; intro p hp; have := h2 p hp; simp; omega
    rw [e2]; simp

theorem sourceLookup_none {stored : List (Nat × V)} {t : Nat} (h : ∀ p ∈ stored, p.1 ≠ t) : sourceLookup stored t = none := by
  unfold sourceLookup
  have e : stored.filter (fun p => decide (p.1 = t)) = [] := by
    rw [List.filter_eq_nil_iff]; intro p hp; simpa using h p hp
  rw [e]; rfl

theorem heldAt_same {stored : List (Nat × V)} {lo t : Int} (hlt : lo ≤ t) (h : ∀ p ∈ stored, lo < (p.1 : Int) → t < (p.1 : Int)) :
    heldAt stored t = heldAt stored lo := by
  unfold heldAt
  have e : stored.filter (fun p => decide ((p.1 : Int) ≤ t)) = stored.filter (fun p => decide ((p.1 : Int) ≤ lo)) := by
    apply List.filter_congr
    intro p hp
    have := h p hp
    rw [decide_eq_decide]
    omega
  rw [e]

theorem sourceRun_held (stored : List (Nat × V)) (hinc : (stored.map (·.1)).Pairwise (· < ·)) (ts : List Nat)
    (hts : ts.Pairwise (· < ·)) (lo : Int) (hlo : ∀ t ∈ ts, lo < (t : Int)) (hcov : ∀ p ∈ stored, lo < (p.1 : Int) → p.1 ∈ ts) :
    sourceRun stored ts (heldAt stored lo) = ts.map fun (t : Nat) => heldAt stored t := by
  induction ts generalizing lo with
  | nil => rfl
  | cons t ts ih =>
    rw [List.pairwise_cons] at hts
    have hstep : sourceTrigger stored t (heldAt stored lo) = heldAt stored t := by
      by_cases hm : ∃ v, (t, v) ∈ stored
      · obtain ⟨v, hv⟩ := hm
        have := filter_eq_of_mem hinc hv
        rw [sourceTrigger, this.1, this.2]
      · rw [sourceTrigger, sourceLookup_none (fun p hp he => hm ⟨p.2, by rw [← he]; exact hp⟩)]
        refine (heldAt_same (by have := hlo t (by simp); omega) ?_).symm
        intro p hp hp2
        have h3 := hcov p hp hp2
        rcases List.mem_cons.1 h3 with h4 | h4
        · exact absurd ⟨p.2, by rw [← h4]; exact hp⟩ hm
        · have := hts.1 p.1 h4; omega
    rw [sourceRun, List.map_cons, hstep]
    congr 1
    apply ih hts.2
    · intro t' ht'; have := hts.1 t' ht'; omega
    · intro p hp hp2
      have h5 := hlo t (by simp)
      rcases List.mem_cons.1 (hcov p hp (by omega)) with h4 | h4
      · omega
      · exact h4

/-- **C26**: samples stored with strictly increasing times that the file format keeps exactly are replayed exactly: driven at
increasing times that include the stored ones, the output of the data source has at each time the value and the generation time
of the last stored sample up to then. -/
theorem C26_replay (f : FileFormat) (stored : List (Nat × V)) (hinc : (stored.map (·.1)).Pairwise (· < ·))
    (hexact : ∀ p ∈ stored, f.time p.1 = some p.1) (ts : List Nat) (hts : ts.Pairwise (· < ·)) (hcov : ∀ p ∈ stored, p.1 ∈ ts) :
    sourceRun (sourceDict f stored) ts SourceOut.init = ts.map fun (t : Nat) => heldAt stored t := by
  have hd : sourceDict f stored = stored := by
    have h : ∀ l : List (Nat × V), (∀ p ∈ l, f.time p.1 = some p.1) → sourceDict f l = l := by
      intro l hl
      induction l with
      | nil => rfl
      | cons p l ih =>
        have h1 := hl p (by simp)
        unfold sourceDict at ih ⊢
        rw [List.filterMap_cons, h1]
        simp only [Option.map_some]
        rw [ih (fun q hq => hl q (by simp [hq]))]
    exact h stored hexact
  have h0 : heldAt stored (-1) = SourceOut.init := by
    unfold heldAt
    have e : stored.filter (fun p => decide ((p.1 : Int) ≤ -1)) = [] := by
      rw [List.filter_eq_nil_iff]; intro p hp; simp; omega
    rw [e]; rfl
  rw [hd, ← h0]
  exact sourceRun_held stored hinc ts hts (-1) (fun t _ => by omega) (fun p hp _ => hcov p hp)

/-- **C26** (refreshes): consumers see a refresh exactly at the stored times, with the stored value. -/
theorem C26_refresh (stored : List (Nat × V)) (hinc : (stored.map (·.1)).Pairwise (· < ·)) (t : Nat) (v : V) :
    ((heldAt stored t).time = t ∧ (heldAt stored t).value = some v) ↔ (t, v) ∈ stored := by
  constructor
  · rintro ⟨h1, h2⟩
    unfold heldAt at h1 h2
    rcases hg : (stored.filter fun p => decide ((p.1 : Int) ≤ (t : Int))).getLast? with _ | p
    · rw [hg] at h2; simp [SourceOut.init] at h2
    · rw [hg] at h1 h2
      simp only [Option.some.injEq] at h1 h2
      have hm := (List.mem_filter.1 (List.mem_of_getLast? hg)).1
      have : p = (t, v) := by
        rw [← h2, ← Int.ofNat.inj h1]
      rw [← this]; exact hm
  · intro h
    rw [(filter_eq_of_mem hinc h).2]
    exact ⟨rfl, rfl⟩

/-- The FITS format keeps all times below 2^64 ns (584 years). -/
theorem C26_fits_exact (t : Nat) (h : t < 2 ^ 64) : FileFormat.fits.time t = some t := by
  rw [FileFormat.time, if_pos h]

/-- The pickle format keeps the times that have at most `p` significant bits. -/
theorem C26_pickle_exact (p q e : Nat) (hq : q < 2 ^ p) : (FileFormat.pickle p).time (q * 2 ^ e) = some (q * 2 ^ e) := by
  simp only [FileFormat.time, Option.some.injEq]
  unfold toFloatBits
  by_cases h : q * 2 ^ e < 2 ^ p
  · rw [if_pos h]
  · rw [if_neg h]
    have hlt : q * 2 ^ e < 2 ^ (p + e) := by
      rw [Nat.pow_add]; exact Nat.mul_lt_mul_of_pos_right hq (Nat.two_pow_pos e)
    have hne : q * 2 ^ e ≠ 0 := by
      intro h0
      rw [h0] at h
      exact h (Nat.two_pow_pos p)
    have hlog : Nat.log2 (q * 2 ^ e) < p + e := (Nat.log2_lt hne).2 hlt
    have hdvd : 2 ^ (Nat.log2 (q * 2 ^ e) + 1 - p) ∣ q * 2 ^ e :=
      Dvd.dvd.mul_left (Nat.pow_dvd_pow 2 (by omega)) q
    have hmod := Nat.mod_eq_zero_of_dvd hdvd
    have hpos := Nat.two_pow_pos (Nat.log2 (q * 2 ^ e) + 1 - p)
    simp only [hmod, Nat.mul_zero, hpos, if_true]
    exact Nat.div_mul_cancel hdvd

/-- In double precision all times below 2^53 ns (104 days) are kept. -/
theorem C26_double_exact (t : Nat) (h : t < 2 ^ 53) : (FileFormat.pickle 53).time t = some t := by
  simpa using C26_pickle_exact 53 t 0 h

/-- In single precision, with a time step of 1 ms, the times of the first 1073 steps are kept. -/
theorem C26_single_exact_ms (k : Nat) (h : k ≤ 1073) : (FileFormat.pickle 24).time (k * 1000000) = some (k * 1000000) := by
  have := C26_pickle_exact 24 (k * 15625) 6 (by norm_num; omega)
  have e : k * 15625 * 2 ^ 6 = k * 1000000 := by ring
  rwa [e] at this

/-- In single precision (the default of `main`) the sample of step 1075 is not found when replaying: the output keeps the
previous value, and no consumer sees a refresh. -/
theorem C26_single_loses_sample (v w : V) :
    sourceRun (sourceDict (.pickle 24) [(1074000000, v), (1075000000, w)]) [1074000000, 1075000000] SourceOut.init =
      [⟨some v, 1074000000⟩, ⟨some v, 1074000000⟩] := by
  have h1 : toFloatBits 24 1074000000 = 1074000000 := by decide
  have h2 : toFloatBits 24 1075000000 = 1075000064 := by decide
  simp [sourceDict, FileFormat.time, h1, h2, sourceRun, sourceTrigger, sourceLookup]

example : sourceRun (sourceDict .fits [(20, "x"), (40, "y")]) [0, 20, 30, 40, 50] SourceOut.init =
    [⟨none, -1⟩, ⟨some "x", 20⟩, ⟨some "x", 20⟩, ⟨some "y", 40⟩, ⟨some "y", 40⟩] := by
  rw [C26_replay .fits _ (by simp) (by simp [FileFormat.time]) _ (by simp) (by simp)]
  rfl

end Specula
