import Verif.Model.Loop
import Verif.Spec.Protocol
import Verif.Spec.Graph
/-
Specification: synchronous dataflow.  No notion of trigger order, buckets, phases or memory: only the states of all
objects at the end of an iteration (`cur`) and at the end of the previous one (`prev`).
-/
namespace Specula
variable {σ ν : Type}

/-- The inputs of `c`: undelayed references see the producer at the end of this iteration, delayed ones at the end of
the previous iteration. -/
def syncInputs (sim : Sim σ ν) (prev cur : String → σ) (c : String) : InDecl → Local ν := fun d =>
  gather (sim.pars c) d fun r => (sim.beh r.obj).out (if r.delay = 0 then cur r.obj else prev r.obj) r.key

open Classical in
/-- New state of `c` when its inputs are `ins`: the three methods applied once each if there is something new, or
nothing. -/
noncomputable def objStep (sim : Sim σ ν) (t : Int) (c : String) (ins : InDecl → Local ν) (s : σ) : σ :=
  if SomethingNew (sim.beh c).decls ins t then
    (sim.beh c).post t ins ((sim.beh c).trigger t ins ((sim.beh c).prepare t ins s))
  else s

/-- The synchronous dataflow equation for one iteration at time `t`. `running c`: `c` is triggered in the loop. -/
def SyncStep (sim : Sim σ ν) (running : String → Prop) (t : Int) (prev cur : String → σ) : Prop :=
  (∀ c, running c → cur c = objStep sim t c (syncInputs sim prev cur c) (prev c)) ∧
  (∀ c, ¬ running c → cur c = prev c)

/-- No object reads its inputs in `post_trigger`, and preparing an object does not change its outputs; or at least
this holds where it matters: at every delayed link between two objects of the same trigger index on the same device. -/
def SameIndexSafe (sim : Sim σ ν) (order : List (String × Nat)) : Prop :=
  ∀ c a i, (c, i) ∈ order → (a, i) ∈ order → ReadsDelayed sim.params c a →
    (sim.beh a).device = (sim.beh c).device →
    (∀ t ins ins' s, (sim.beh c).post t ins s = (sim.beh c).post t ins' s) ∧
    (∀ t ins s, (sim.beh a).out ((sim.beh a).prepare t ins s) = (sim.beh a).out s)

end Specula
