import Verif.Spec.Dataflow
/-
Specification vocabulary for refresh rates.  `st k` is the state of every object after `k` iterations.
-/
namespace Specula
variable {σ ν : Type}

/-- Object `c` is triggered in iteration `k` (there is something new for it). -/
def TriggersAt (sim : Sim σ ν) (t0 dt : Int) (st : Nat → String → σ) (k : Nat) (c : String) : Prop :=
  SomethingNew (sim.beh c).decls (syncInputs sim (st k) (st (k + 1)) c) (t0 + k * dt)

/-- The output `key` of `a` is refreshed in iteration `k`: at its end it holds an item generated at the time of the
iteration (or later). -/
def RefreshedAt (sim : Sim σ ν) (t0 dt : Int) (st : Nat → String → σ) (k : Nat) (a : String) (key : Option String) : Prop :=
  ∃ x ∈ (sim.beh a).out (st (k + 1) a) key, ∃ g, x.gen = some g ∧ t0 + k * dt ≤ g

/-- Objects stamp what they output with the current time, or leave the time stamp it had. -/
def StampsNow (b : Behaviour σ ν) : Prop :=
  ∀ t ins s key, ∀ x ∈ b.out (b.post t ins (b.trigger t ins (b.prepare t ins s))) key,
    x.gen = some t ∨ ∃ y ∈ b.out s key, y.gen = x.gen

/-- All items of all outputs of `a` have a time stamp before `t` (or none): true of new data objects for `t = 0`
(their generation time is -1, base_data_obj.py 33). -/
def StaleBefore (b : Behaviour σ ν) (s : σ) (t : Int) : Prop := ∀ key, ∀ x ∈ b.out s key, ∀ g, x.gen = some g → g < t

/-- `b` has one input, required, of a single value, and refreshes output `key` (a single item) whenever it is triggered. -/
structure Relay (sim : Sim σ ν) (c : String) (r : OutRef) (key : Option String) : Prop where
  input : ∃ d, (sim.beh c).decls = [d] ∧ d.optional = false ∧ d.isList = false ∧ refsOf (sim.pars c) d = [r]
  undelayed : r.delay = 0
  refresh : ∀ t ins s, ∃ v, (sim.beh c).out
    ((sim.beh c).post t ins ((sim.beh c).trigger t ins ((sim.beh c).prepare t ins s))) key = [{ gen := some t, val := v }]

end Specula
