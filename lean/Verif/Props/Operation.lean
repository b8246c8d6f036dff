import Verif.Model.Operation
import Verif.Props.Select
/-
C58: BaseOperation computes one elementwise operation.
-/
namespace Specula

section
variable {K : Type} [Field K] [LinearOrder K]

omit [Field K] [LinearOrder K] in
theorem fillAll_eq (n : Nat) (l : List K) (h : l.length = n) : fillAll n l = some l := by
  unfold fillAll; rw [if_pos h]

omit [Field K] [LinearOrder K] in
theorem fillAll_length {n : Nat} {l r : List K} (h : fillAll n l = some r) : r.length = n := by
  unfold fillAll at h
  split at h
  · rename_i hl; cases h; exact hl
  · split at h
    · cases h; simp
    · cases h

theorem opTriggers_map (o : OpObj K) (st : OpSt K) (Q : OpSt K → Prop) (P : List K × Option (List K) → Prop)
    (g : List K × Option (List K) → List K) (h0 : Q st)
    (hstep : ∀ s p, Q s → P p → ∃ s', opTrigger o s p.1 p.2 = some s' ∧ s'.out = g p ∧ Q s')
    (ins : List (List K × Option (List K))) (hins : ∀ p ∈ ins, P p) : opTriggers o st ins = some (ins.map g) := by
  induction ins generalizing st with
  | nil => rfl
  | cons p ins ih =>
    obtain ⟨s', h1, h2, h3⟩ := hstep st p h0 (hins p (by simp))
    obtain ⟨x, y⟩ := p
    simp only [opTriggers, h1, Option.bind_some, ih s' h3 fun q hq => hins q (by simp [hq]), Option.map_some, List.map_cons, h2]

/-- A run with one constant number: every output is the operation applied to every element of the current input, whatever the second
input.  `constant_max` is a lower bound and `constant_min` an upper bound. -/
theorem C58_constant (c : K) (junk : Nat → List K) (x₀ : List K) (y₀ : Option (List K)) (ins : List (List K × Option (List K)))
    (hins : ∀ p ∈ ins, p.1.length = x₀.length) :
    opRun { cmul := some (.scalar c) } junk x₀ y₀ ins = some (ins.map fun p => p.1.map (· * c)) ∧
    (c ≠ 0 → opRun { cdiv := some (.scalar c) } junk x₀ y₀ ins = some (ins.map fun p => p.1.map (· / c))) ∧
    (c = 0 → opRun { cdiv := some (.scalar c) } junk x₀ y₀ ins = none) ∧
    opRun { csum := some (.scalar c) } junk x₀ y₀ ins = some (ins.map fun p => p.1.map (· + c)) ∧
    opRun { csub := some (.scalar c) } junk x₀ y₀ ins = some (ins.map fun p => p.1.map (· - c)) ∧
    opRun { cmax := some (.scalar c) } junk x₀ y₀ ins = some (ins.map fun p => p.1.map fun a => if c ≤ a then a else c) ∧
    opRun { cmin := some (.scalar c) } junk x₀ y₀ ins = some (ins.map fun p => p.1.map fun a => if a ≤ c then a else c) := by
  have key : ∀ (o : OpObj K) (st : OpSt K) (g : List K × Option (List K) → List K), st.out.length = x₀.length →
      (∀ s p, s.out.length = x₀.length → p.1.length = x₀.length →
        ∃ s', opTrigger o s p.1 p.2 = some s' ∧ s'.out = g p ∧ s'.out.length = x₀.length) →
      opTriggers o st ins = some (ins.map g) := fun o st g h0 hs =>
    opTriggers_map o st (fun s => s.out.length = x₀.length) (fun p => p.1.length = x₀.length) g h0 hs ins hins
  refine ⟨?_, ?_, ?_, ?_, ?_, ?_, ?_⟩
  · simp only [opRun, opInit, opSetup]
    refine key _ _ _ (by simp) fun s p hs hp => ⟨{ s with out := p.1.map (· * c) }, ?_, rfl, by simpa using hp⟩
    simp [opTrigger, OpConst.apply, fillAll_eq, hs, hp]
  · intro hc
    simp only [opRun, opInit, opSetup, OpConst.recip, if_neg hc]
    refine key _ _ _ (by simp) fun s p hs hp => ⟨{ s with out := p.1.map (· / c) }, ?_, rfl, by simpa using hp⟩
    simp [opTrigger, OpConst.apply, fillAll_eq, hs, hp, div_eq_mul_inv]
  · intro hc
    simp [opRun, opInit, OpConst.recip, hc]
  · simp only [opRun, opInit, opSetup]
    refine key _ _ _ (by simp) fun s p hs hp => ⟨{ s with out := p.1.map (· + c) }, ?_, rfl, by simpa using hp⟩
    simp [opTrigger, OpConst.apply, fillAll_eq, hs, hp]
  · simp only [opRun, opInit, opSetup, OpConst.map]
    refine key _ _ _ (by simp) fun s p hs hp => ⟨{ s with out := p.1.map (· - c) }, ?_, rfl, by simpa using hp⟩
    simp [opTrigger, OpConst.apply, fillAll_eq, hs, hp, sub_eq_add_neg]
  · simp only [opRun, opInit, opSetup, OpConst.largest]
    refine opTriggers_map _ _ (fun _ => True) (fun p => p.1.length = x₀.length) _ trivial (fun s p _ hp => ?_) ins hins
    refine ⟨{ s with out := p.1.map fun a => max a c }, by simp [opTrigger], ?_, trivial⟩
    refine List.map_congr_left fun a _ => ?_
    rcases le_total c a with h | h
    · rw [max_eq_left h, if_pos h]
    · rw [max_eq_right h]; split
      · exact le_antisymm ‹_› h
      · rfl
  · simp only [opRun, opInit, opSetup, OpConst.smallest]
    refine opTriggers_map _ _ (fun _ => True) (fun p => p.1.length = x₀.length) _ trivial (fun s p _ hp => ?_) ins hins
    refine ⟨{ s with out := p.1.map fun a => min a c }, by simp [opTrigger], ?_, trivial⟩
    refine List.map_congr_left fun a _ => ?_
    rcases le_total a c with h | h
    · rw [min_eq_left h, if_pos h]
    · rw [min_eq_right h]; split
      · exact le_antisymm h ‹_›
      · rfl

example : opRun (K := ℚ) { cmax := some (.scalar 2) } (fun n => List.replicate n 7) [0, 0] none [([1, 5], none), ([3, -4], none)]
    = some [[2, 5], [3, 2]] := by decide +kernel

/-- A run with one constant vector of the size of the input, or a largest or smallest element of a vector. -/
theorem C58_constant_vector (l : List K) (junk : Nat → List K) (x₀ : List K) (y₀ : Option (List K))
    (ins : List (List K × Option (List K))) (hl : l.length = x₀.length) (hins : ∀ p ∈ ins, p.1.length = x₀.length) :
    opRun { cmul := some (.vec l) } junk x₀ y₀ ins = some (ins.map fun p => List.zipWith (· * ·) p.1 l) ∧
    opRun { cdiv := some (.vec l) } junk x₀ y₀ ins = some (ins.map fun p => List.zipWith (· / ·) p.1 l) ∧
    opRun { csum := some (.vec l) } junk x₀ y₀ ins = some (ins.map fun p => List.zipWith (· + ·) p.1 l) ∧
    opRun { csub := some (.vec l) } junk x₀ y₀ ins = some (ins.map fun p => List.zipWith (· - ·) p.1 l) := by
  have key : ∀ (o : OpObj K) (st : OpSt K) (g : List K × Option (List K) → List K), st.out.length = x₀.length →
      (∀ s p, s.out.length = x₀.length → p.1.length = x₀.length →
        ∃ s', opTrigger o s p.1 p.2 = some s' ∧ s'.out = g p ∧ s'.out.length = x₀.length) →
      opTriggers o st ins = some (ins.map g) := fun o st g h0 hs =>
    opTriggers_map o st (fun s => s.out.length = x₀.length) (fun p => p.1.length = x₀.length) g h0 hs ins hins
  refine ⟨?_, ?_, ?_, ?_⟩
  · simp only [opRun, opInit, opSetup]
    refine key _ _ _ (by simp) fun s p hs hp => ⟨{ s with out := List.zipWith (· * ·) p.1 l }, ?_, rfl, by simp [hp, hl]⟩
    simp [opTrigger, OpConst.apply, bcastOp, fillAll_eq, hs, hp, hl]
  · simp only [opRun, opInit, opSetup, OpConst.recip]
    refine key _ _ _ (by simp) fun s p hs hp => ⟨{ s with out := List.zipWith (· / ·) p.1 l }, ?_, rfl, by simp [hp, hl]⟩
    simp [opTrigger, OpConst.apply, bcastOp, fillAll_eq, hs, hp, hl, List.zipWith_map_right, div_eq_mul_inv]
  · simp only [opRun, opInit, opSetup]
    refine key _ _ _ (by simp) fun s p hs hp => ⟨{ s with out := List.zipWith (· + ·) p.1 l }, ?_, rfl, by simp [hp, hl]⟩
    simp [opTrigger, OpConst.apply, bcastOp, fillAll_eq, hs, hp, hl]
  · simp only [opRun, opInit, opSetup, OpConst.map]
    refine key _ _ _ (by simp) fun s p hs hp => ⟨{ s with out := List.zipWith (· - ·) p.1 l }, ?_, rfl, by simp [hp, hl]⟩
    simp [opTrigger, OpConst.apply, bcastOp, fillAll_eq, hs, hp, hl, List.zipWith_map_right, sub_eq_add_neg]

example : opRun (K := ℚ) { cdiv := some (.vec [2, 4]) } (fun n => List.replicate n 7) [0, 0] none [([1, 5], none)]
    = some [[1/2, 5/4]] := by decide +kernel

set_option linter.unusedSimpArgs false in
/-- Only one operation is made: a constant to multiply with silences every other operation, then one to add, then `constant_max`, then
`constant_min`.  `constant_div` and `constant_sub` replace `constant_mul` and `constant_sum`. -/
theorem C58_one_operation (cfg : OpCfg K) (junk : Nat → List K) (x₀ y₀ : List K) (ins : List (List K × Option (List K))) (a b c d e f : K) :
    opRun { cfg with cmul := some (.scalar a), cdiv := none, csum := some (.scalar b), csub := none, cmax := some (.scalar c), cmin := some (.scalar d) } junk x₀ (some y₀) ins = opRun { cmul := some (.scalar a) } junk x₀ (some y₀) ins ∧
    opRun { cfg with cmul := none, cdiv := none, csum := some (.scalar b), csub := none, cmax := some (.scalar c), cmin := some (.scalar d) } junk x₀ (some y₀) ins = opRun { csum := some (.scalar b) } junk x₀ (some y₀) ins ∧
    opRun { cfg with cmul := none, cdiv := none, csum := none, csub := none, cmax := some (.scalar c), cmin := some (.scalar d) } junk x₀ (some y₀) ins = opRun { cmax := some (.scalar c) } junk x₀ (some y₀) ins ∧
    opRun { cfg with cmul := none, cdiv := none, csum := none, csub := none, cmax := none, cmin := some (.scalar d) } junk x₀ (some y₀) ins = opRun { cmin := some (.scalar d) } junk x₀ (some y₀) ins ∧
    (e ≠ 0 → opRun { cfg with cmul := some (.scalar a), cdiv := some (.scalar e), cmax := none, cmin := none } junk x₀ (some y₀) ins
      = opRun { cdiv := some (.scalar e) } junk x₀ (some y₀) ins) ∧
    opRun { cfg with cmul := none, cdiv := none, csum := some (.scalar b), csub := some (.scalar f), cmax := none, cmin := none }
      junk x₀ (some y₀) ins = opRun { csub := some (.scalar f) } junk x₀ (some y₀) ins := by
  have same : ∀ (o o' : OpObj K) (st st' : OpSt K), (∀ (s s' : OpSt K) (p : List K × Option (List K)), s.out = s'.out →
      (opTrigger o s p.1 p.2).map OpSt.out = (opTrigger o' s' p.1 p.2).map OpSt.out) → st.out = st'.out →
      opTriggers o st ins = opTriggers o' st' ins := by
    intro o o' st st' h h0
    induction ins generalizing st st' with
    | nil => rfl
    | cons p ins ih =>
      obtain ⟨x, y⟩ := p
      have := h st st' (x, y) h0
      simp only [opTriggers]
      cases h1 : opTrigger o st x y <;> cases h2 : opTrigger o' st' x y <;> rw [h1, h2] at this <;> simp at this
      · rfl
      · simp only [Option.bind_some, ih _ _ this, this]
  refine ⟨?_, ?_, ?_, ?_, ?_, ?_⟩
  · simp only [opRun, opInit, opSetup, OpConst.largest, OpConst.smallest, Bool.and_false, Option.isNone_some, Bool.false_eq_true, if_false, Option.bind_some, Option.map_some, Option.isSome_some, Option.isSome_none, Bool.or_true, Bool.true_or, Bool.or_false, if_true]
    refine same _ _ _ _ (fun s s' p h => ?_) rfl
    simp [opTrigger, OpConst.apply, h, Function.comp_def]
  · simp only [opRun, opInit, opSetup, OpConst.largest, OpConst.smallest, Bool.and_false, Option.isNone_some, Bool.false_eq_true, if_false, Option.bind_some, Option.map_some, Option.isSome_some, Option.isSome_none, Bool.or_true, Bool.true_or, Bool.or_false, if_true]
    refine same _ _ _ _ (fun s s' p h => ?_) rfl
    simp [opTrigger, OpConst.apply, h, Function.comp_def]
  · simp only [opRun, opInit, opSetup, OpConst.largest, OpConst.smallest, Bool.and_false, Option.isNone_some, Bool.false_eq_true, if_false, Option.bind_some, Option.map_some, Option.isSome_some, Option.isSome_none, Bool.or_true, Bool.true_or, Bool.or_false, if_true]
    refine same _ _ _ _ (fun s s' p h => ?_) rfl
    simp [opTrigger, OpConst.apply, h, Function.comp_def]
  · simp only [opRun, opInit, opSetup, OpConst.largest, OpConst.smallest, Bool.and_false, Option.isNone_some, Bool.false_eq_true, if_false, Option.bind_some, Option.map_some, Option.isSome_some, Option.isSome_none, Bool.or_true, Bool.true_or, Bool.or_false, if_true]
    refine same _ _ _ _ (fun s s' p h => ?_) rfl
    simp [opTrigger, OpConst.apply, h, Function.comp_def]
  · intro he
    simp only [opRun, opInit, opSetup, OpConst.recip, if_neg he, Bool.and_false, Option.isNone_some, Bool.false_eq_true, if_false, Option.bind_some, Option.map_some, Option.isSome_some, Option.isSome_none, Bool.or_true, Bool.true_or, Bool.or_false, if_true]
    refine same _ _ _ _ (fun s s' p h => ?_) rfl
    simp [opTrigger, OpConst.apply, h, Function.comp_def]
  · simp only [opRun, opInit, opSetup, OpConst.map, Bool.and_false, Option.isNone_some, Bool.false_eq_true, if_false, Option.bind_some, Option.map_some, Option.isSome_some, Option.isSome_none, Bool.or_true, Bool.true_or, Bool.or_false, if_true]
    refine same _ _ _ _ (fun s s' p h => ?_) rfl
    simp [opTrigger, OpConst.apply, h, Function.comp_def]

/-- The specification of the operation of two inputs: the flags in their order. -/
def FlagOp (cfg : OpCfg K) (f : K → K → K) : Prop :=
  (cfg.mul = true ∧ f = fun a b => a * b) ∨ (cfg.mul = false ∧ cfg.div = true ∧ f = fun a b => a / b) ∨
  (cfg.mul = false ∧ cfg.div = false ∧ cfg.sum = true ∧ f = fun a b => a + b) ∨
  (cfg.mul = false ∧ cfg.div = false ∧ cfg.sum = false ∧ cfg.sub = true ∧ f = fun a b => a - b)

/-- No constants, no concatenation. -/
def OpCfg.Plain (cfg : OpCfg K) : Prop :=
  cfg.cmul = none ∧ cfg.cdiv = none ∧ cfg.csum = none ∧ cfg.csub = none ∧ cfg.cmax = none ∧ cfg.cmin = none ∧ cfg.concat = false

/-- What stands for missing elements of the second input: one for a division, zero for everything else. -/
def filler (cfg : OpCfg K) : K := if cfg.div then 1 else 0

theorem opRun_binary (cfg : OpCfg K) (f : K → K → K) (hf : FlagOp cfg f) (hp : cfg.Plain) (junk : Nat → List K)
    (hjunk : ∀ n, (junk n).length = n) (x₀ y₀ : List K) (ins : List (List K × List K))
    (Q : List K → Prop) (P : List K → Prop) (v : List K → Nat → K)
    (h0 : Q (List.replicate x₀.length (filler cfg)))
    (hstep : ∀ (o : OpObj K), o.cfg = cfg → ∀ w y, Q w → P y → ∃ w', opLoad o w y = some w' ∧ Q w' ∧ w' = (List.range x₀.length).map (v y))
    (hins : ∀ p ∈ ins, p.1.length = x₀.length ∧ P p.2) :
    opRun cfg junk x₀ (some y₀) (ins.map fun p => (p.1, some p.2))
      = some (ins.map fun p => (List.range x₀.length).map fun i => f (p.1.getD i 0) (v p.2 i)) := by
  obtain ⟨c1, c2, c3, c4, c5, c6, c7⟩ := hp
  have hinit : opInit cfg = some ⟨none, none, none, none, cfg⟩ := by
    simp [opInit, c1, c2, c3, c4, c5, c6]
  have hset : opSetup ⟨none, none, none, none, cfg⟩ junk x₀ (some y₀) = some ⟨junk x₀.length, List.replicate x₀.length (filler cfg)⟩ := by
    simp [opSetup, c7, filler]
  rw [opRun, hinit, Option.bind_some, hset, Option.bind_some]
  have := opTriggers_map (⟨none, none, none, none, cfg⟩ : OpObj K) ⟨junk x₀.length, List.replicate x₀.length (filler cfg)⟩
    (fun s => s.out.length = x₀.length ∧ Q s.v2) (fun p => p.1.length = x₀.length ∧ ∃ y, p.2 = some y ∧ P y)
    (fun p => (List.range x₀.length).map fun i => f (p.1.getD i 0) (v (p.2.getD []) i)) ⟨hjunk _, h0⟩ ?_
    (ins.map fun p => (p.1, some p.2)) ?_
  · rw [this]; simp [Function.comp_def]
  · rintro s ⟨x, y'⟩ ⟨hs1, hs2⟩ ⟨hx, y, rfl, hy⟩
    obtain ⟨w', hw1, hw2, hw3⟩ := hstep ⟨none, none, none, none, cfg⟩ rfl s.v2 y hs2 hy
    have hfl : (if cfg.mul then some (fun a b : K => a * b) else if cfg.div then some (fun a b : K => a / b)
        else if cfg.sum then some (fun a b : K => a + b) else if cfg.sub then some (fun a b : K => a - b) else none) = some f := by
      rcases hf with ⟨h1, rfl⟩ | ⟨h1, h2, rfl⟩ | ⟨h1, h2, h3, rfl⟩ | ⟨h1, h2, h3, h4, rfl⟩ <;> simp [*]
    have hx' : x.length = x₀.length := hx
    have hz : List.zipWith f x w' = (List.range x₀.length).map fun i => f (x.getD i 0) (v y i) := by
      rw [hw3]
      refine List.ext_getElem (by simp [hx']) fun i h1 h2 => ?_
      have : i < x.length := by simp at h1; exact h1.1
      simp [List.getD_eq_getElem?_getD, this]
    refine ⟨⟨(List.range x₀.length).map fun i => f (x.getD i 0) (v y i), w'⟩, ?_, by simp, by simp, hw2⟩
    have hwl : w'.length = x₀.length := by rw [hw3]; simp
    simp only [opTrigger, Option.bind_some, c7, Bool.false_eq_true, if_false, hw1, hfl, bcastOp, hx', hwl, if_true, hz]
    rw [fillAll_eq _ _ (by simp [hs1])]
    rfl
  · simp only [List.mem_map]
    rintro _ ⟨p, hp, rfl⟩
    exact ⟨(hins p hp).1, p.2, rfl, (hins p hp).2⟩

/-- Two inputs of the same size: at every trigger the operation of corresponding elements, whatever came before. -/
theorem C58_same_size (cfg : OpCfg K) (f : K → K → K) (hf : FlagOp cfg f) (hp : cfg.Plain) (hs : cfg.shorter = false)
    (hr : cfg.remap = none) (junk : Nat → List K) (hjunk : ∀ n, (junk n).length = n) (x₀ y₀ : List K) (ins : List (List K × List K))
    (hins : ∀ p ∈ ins, p.1.length = x₀.length ∧ p.2.length = x₀.length) :
    opRun cfg junk x₀ (some y₀) (ins.map fun p => (p.1, some p.2)) = some (ins.map fun p => List.zipWith f p.1 p.2) := by
  rw [opRun_binary cfg f hf hp junk hjunk x₀ y₀ ins (fun w => w.length = x₀.length) (fun y => y.length = x₀.length)
    (fun y i => y.getD i 0) (by simp) ?_ hins]
  · congr 1
    refine List.map_congr_left fun p hpm => ?_
    obtain ⟨h1, h2⟩ := hins p hpm
    refine List.ext_getElem (by simp [h1, h2]) fun i h3 h4 => ?_
    have h5 : i < x₀.length := by simpa using h3
    simp [List.getD_eq_getElem?_getD, h1 ▸ h5, h2 ▸ h5]
  · intro o ho w y hw hy
    refine ⟨y, by simp [opLoad, ho, hs, hr, fillAll_eq, hw, hy], hy, ?_⟩
    refine List.ext_getElem (by simp [hy]) fun i h3 h4 => ?_
    simp [List.getD_eq_getElem?_getD, h3]

example : opRun (K := ℚ) { sub := true } (fun n => List.replicate n 7) [0, 0] (some [0, 0]) [([1, 5], some [4, 2]), ([3, -4], some [1, 1])]
    = some [[-3, 3], [2, -5]] := by decide +kernel

/-- A shorter second input of constant size is filled up: with ones for a division, with zeros otherwise. -/
theorem C58_shorter (cfg : OpCfg K) (f : K → K → K) (hf : FlagOp cfg f) (hp : cfg.Plain) (hs : cfg.shorter = true)
    (junk : Nat → List K) (hjunk : ∀ n, (junk n).length = n) (x₀ y₀ : List K) (m : Nat) (hm : m ≤ x₀.length) (ins : List (List K × List K))
    (hins : ∀ p ∈ ins, p.1.length = x₀.length ∧ p.2.length = m) :
    opRun cfg junk x₀ (some y₀) (ins.map fun p => (p.1, some p.2))
      = some (ins.map fun p => (List.range x₀.length).map fun i => f (p.1.getD i 0) (if i < m then p.2.getD i 0 else filler cfg)) := by
  refine opRun_binary cfg f hf hp junk hjunk x₀ y₀ ins
    (fun w => w.length = x₀.length ∧ ∀ i, m ≤ i → i < x₀.length → w.getD i 0 = filler cfg) (fun y => y.length = m)
    (fun y i => if i < m then y.getD i 0 else filler cfg) ?_ ?_ hins
  · refine ⟨by simp, fun i _ hi => by simp [List.getD_eq_getElem?_getD, hi]⟩
  · intro o ho w y ⟨hw1, hw2⟩ hy
    have hk : min y.length w.length = m := by rw [hy, hw1]; exact min_eq_left hm
    refine ⟨y ++ w.drop m, ?_, ⟨by simp [hy, hw1]; omega, fun i h1 h2 => ?_⟩, ?_⟩
    · simp only [opLoad, ho, hs, if_true, hk]
      rw [fillAll_eq _ _ hy]; rfl
    · rw [← hw2 i h1 h2, List.getD_eq_getElem?_getD, List.getElem?_append_right (by omega), List.getD_eq_getElem?_getD,
        List.getElem?_drop]
      congr 2; omega
    · refine List.ext_getElem (by simp [hy, hw1]; omega) fun i h3 h4 => ?_
      simp only [List.getElem_map, List.getElem_range]
      have h5 : i < x₀.length := by simpa using h4
      split
      · rename_i h
        rw [List.getElem_append_left (by omega)]
        simp [List.getD_eq_getElem?_getD, hy, h]
      · rename_i h
        rw [List.getElem_append_right (by omega), ← hw2 i (by omega) h5]
        simp only [List.getElem_drop, List.getD_eq_getElem?_getD]
        rw [List.getElem?_eq_getElem (by omega)]
        simp only [Option.getD_some]
        congr 1; omega

example : opRun (K := ℚ) { sum := true, shorter := true } (fun n => List.replicate n 7) [0, 0, 0] (some [0, 0])
    [([1, 5, 6], some [4, 2])] = some [[5, 7, 6]] := by decide +kernel

omit [LinearOrder K] in
/-- With a shorter second input a sum, a difference and a division leave the other elements alone; a product makes them zero. -/
theorem C58_filler (cfg : OpCfg K) (f : K → K → K) (hf : FlagOp cfg f) (a : K) :
    f a (filler cfg) = if cfg.mul then a * (if cfg.div then 1 else 0) else a := by
  rcases hf with ⟨h1, rfl⟩ | ⟨h1, h2, rfl⟩ | ⟨h1, h2, h3, rfl⟩ | ⟨h1, h2, h3, h4, rfl⟩ <;> simp [filler, *]

/-- A second input of constant size placed at given distinct positions; the rest as above. -/
theorem C58_remap (cfg : OpCfg K) (f : K → K → K) (hf : FlagOp cfg f) (hp : cfg.Plain) (hs : cfg.shorter = false) (idx : List Int)
    (hr : cfg.remap = some idx) (junk : Nat → List K) (hjunk : ∀ n, (junk n).length = n) (x₀ y₀ : List K) (pos : List Nat)
    (hpos : (Selector.indices idx).positions x₀.length = some pos) (hnd : pos.Nodup) (ins : List (List K × List K))
    (hins : ∀ p ∈ ins, p.1.length = x₀.length ∧ p.2.length = pos.length) :
    opRun cfg junk x₀ (some y₀) (ins.map fun p => (p.1, some p.2))
      = some (ins.map fun p => (List.range x₀.length).map fun i =>
          f (p.1.getD i 0) (if i ∈ pos then p.2.getD (pos.idxOf i) 0 else filler cfg)) := by
  have hlt : ∀ q ∈ pos, q < x₀.length := positions_lt _ _ _ hpos
  refine opRun_binary cfg f hf hp junk hjunk x₀ y₀ ins
    (fun w => w.length = x₀.length ∧ ∀ i, i ∉ pos → i < x₀.length → w.getD i 0 = filler cfg) (fun y => y.length = pos.length)
    (fun y i => if i ∈ pos then y.getD (pos.idxOf i) 0 else filler cfg) ?_ ?_ hins
  · refine ⟨by simp, fun i _ hi => by simp [List.getD_eq_getElem?_getD, hi]⟩
  · intro o ho w y ⟨hw1, hw2⟩ hy
    refine ⟨scatter w pos y, ?_, ⟨by rw [scatter_length, hw1], fun i h1 h2 => ?_⟩, ?_⟩
    · simp only [opLoad, ho, hs, Bool.false_eq_true, if_false, hr, assignTo, hw1, hpos, Option.bind_some, hy, if_true]
    · rw [List.getD_eq_getElem?_getD, scatter_other _ _ _ _ h1, ← List.getD_eq_getElem?_getD, hw2 i h1 h2]
    · refine List.ext_getElem (by simp [scatter_length, hw1]) fun i h3 h4 => ?_
      simp only [List.getElem_map, List.getElem_range]
      have h5 : i < x₀.length := by simpa using h4
      refine Option.some_injective _ ?_
      rw [← List.getElem?_eq_getElem h3]
      split
      · rename_i h
        have hik : pos.idxOf i < pos.length := List.idxOf_lt_length_iff.2 h
        rw [scatter_last w pos y hy (by rw [hw1]; exact hlt) (pos.idxOf i) i
          (by rw [List.getElem?_eq_getElem hik, List.getElem_idxOf hik]) fun j hj hcon => ?_]
        · rw [List.getElem?_eq_getElem (by omega), List.getD_eq_getElem?_getD, List.getElem?_eq_getElem (by omega)]; rfl
        · obtain ⟨hj2, hj3⟩ := List.getElem?_eq_some_iff.1 hcon
          have := List.Nodup.idxOf_getElem hnd j hj2
          rw [hj3] at this; omega
      · rename_i h
        rw [scatter_other _ _ _ _ h, List.getElem?_eq_getElem (by omega), ← hw2 i h h5, List.getD_eq_getElem?_getD,
          List.getElem?_eq_getElem (by omega)]
        rfl

example : opRun (K := ℚ) { div := true, remap := some [-1, 0] } (fun n => List.replicate n 7) [0, 0, 0] (some [0, 0])
    [([1, 5, 6], some [4, 2])] = some [[1/2, 5, 3/2]] := by decide +kernel

/-- Concatenation, for inputs of the sizes seen by setup. -/
theorem C58_concat (cfg : OpCfg K) (hc : cfg.concat = true) (h1 : cfg.cmul = none) (h2 : cfg.cdiv = none) (h3 : cfg.csum = none)
    (h4 : cfg.csub = none) (h5 : cfg.cmax = none) (h6 : cfg.cmin = none) (junk : Nat → List K) (hjunk : ∀ n, (junk n).length = n)
    (x₀ y₀ : List K) (ins : List (List K × List K)) (hins : ∀ p ∈ ins, p.1.length = x₀.length ∧ p.2.length = y₀.length) :
    opRun cfg junk x₀ (some y₀) (ins.map fun p => (p.1, some p.2)) = some (ins.map fun p => p.1 ++ p.2) := by
  have hinit : opInit cfg = some ⟨none, none, none, none, cfg⟩ := by
    simp [opInit, h1, h2, h3, h4, h5, h6]
  have hset : ∃ w, opSetup ⟨none, none, none, none, cfg⟩ junk x₀ (some y₀) = some ⟨junk (x₀.length + y₀.length), w⟩ := by
    simp [opSetup, hc]
  obtain ⟨w, hset⟩ := hset
  rw [opRun, hinit, Option.bind_some, hset, Option.bind_some]
  have := opTriggers_map (⟨none, none, none, none, cfg⟩ : OpObj K) ⟨junk (x₀.length + y₀.length), w⟩
    (fun s => s.out.length = x₀.length + y₀.length) (fun p => p.1.length = x₀.length ∧ ∃ y, p.2 = some y ∧ y.length = y₀.length)
    (fun p => p.1 ++ p.2.getD []) (hjunk _) ?_ (ins.map fun p => (p.1, some p.2)) ?_
  · rw [this]; simp [Function.comp_def]
  · rintro s ⟨x, y'⟩ hs ⟨hx, y, rfl, hy⟩
    have hx' : x.length = x₀.length := hx
    refine ⟨{ s with out := x ++ y }, ?_, rfl, by simp [hx', hy]⟩
    have hk : min x.length s.out.length = x.length := by rw [hs, hx']; omega
    simp only [opTrigger, Option.bind_some, hc, if_true, hk]
    rw [fillAll_eq _ _ rfl, Option.bind_some, fillAll_eq _ _ (by omega)]
    rfl
  · simp only [List.mem_map]
    rintro _ ⟨p, hp, rfl⟩
    exact ⟨(hins p hp).1, p.2, rfl, (hins p hp).2⟩

/-- Without the second input an operation of two inputs is refused before running; without any operation the first trigger raises. -/
theorem C58_raises (cfg : OpCfg K) (junk : Nat → List K) (x₀ : List K) :
    ((cfg.mul ∨ cfg.div ∨ cfg.sum ∨ cfg.sub ∨ cfg.concat) → ∀ ins, opRun cfg junk x₀ none ins = none) ∧
    (∀ y₀ p ins, opRun ({} : OpCfg K) junk x₀ y₀ (p :: ins) = none) := by
  constructor
  · intro h ins
    unfold opRun
    cases hi : opInit cfg with
    | none => rfl
    | some o =>
      have : o.cfg = cfg := by
        unfold opInit at hi
        obtain ⟨_, _, hi⟩ := Option.bind_eq_some_iff.1 hi
        obtain ⟨_, _, hi⟩ := Option.bind_eq_some_iff.1 hi
        obtain ⟨_, _, hi⟩ := Option.bind_eq_some_iff.1 hi
        cases hi
        rfl
      rw [Option.bind_some]
      unfold opSetup
      rw [this, if_pos (by simpa [or_assoc] using h)]
      rfl
  · rintro y₀ ⟨x, y⟩ ins
    unfold opRun
    have : opInit ({} : OpCfg K) = some ⟨none, none, none, none, {}⟩ := rfl
    rw [this, Option.bind_some]
    cases hs : opSetup (⟨none, none, none, none, {}⟩ : OpObj K) junk x₀ y₀ with
    | none => rfl
    | some st =>
      have : opTrigger (⟨none, none, none, none, {}⟩ : OpObj K) st x y = none := by
        simp only [opTrigger]
        cases y with
        | none => rfl
        | some y =>
          simp only [Option.bind_some, Bool.false_eq_true, if_false, Option.bind_none]
          cases opLoad (⟨none, none, none, none, {}⟩ : OpObj K) st.v2 y <;> rfl
      simp [opTriggers, this]

/-- A second input that shrinks leaves its old elements behind, so the output then depends on the past. -/
theorem C58_stale :
    opRun (K := ℚ) { sum := true, shorter := true } (fun n => List.replicate n 0) [0, 0] (some [0, 0])
      [([1, 1], some [5, 5]), ([1, 1], some [])] = some [[6, 6], [6, 6]] ∧
    opRun (K := ℚ) { sum := true, shorter := true } (fun n => List.replicate n 0) [0, 0] (some [0, 0])
      [([1, 1], some [])] = some [[1, 1]] := by decide +kernel

end

end Specula
