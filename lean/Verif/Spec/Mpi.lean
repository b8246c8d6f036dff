import Verif.Model.Mpi
/-
Specification vocabulary for distributed runs (C15).
-/
namespace Specula

/-- The objects are wired consistently: every channel has exactly one sending object and one receiving object, an undelayed
link goes from a smaller to a larger trigger index, a delayed one from a larger or equal to a smaller index (these are the
guarantees of C01, C02 and C14), ranks are below `R` and indices below `B`. -/
structure Wired (es : List MElem) (R B : Nat) : Prop where
  sendOnce : (es.flatMap fun e => e.sends.map (·.1)).Nodup
  recvOnce : (es.flatMap fun e => e.recvs).Nodup
  paired : ∀ c, c ∈ (es.flatMap fun e => e.sends.map (·.1)) ↔ c ∈ es.flatMap fun e => e.recvs
  order : ∀ p ∈ es, ∀ d ∈ es, ∀ c delay, (c, delay) ∈ p.sends → c ∈ d.recvs →
    (delay < 0 → d.idx ≤ p.idx) ∧ (0 ≤ delay → p.idx < d.idx)
  ranks : ∀ e ∈ es, e.rank < R
  idxs : ∀ e ∈ es, e.idx < B

/-- Channel `c` is a delayed link. -/
def DelayedChan (es : List MElem) (c : Nat) : Prop := ∃ p ∈ es, ∃ delay : Int, (c, delay) ∈ p.sends ∧ delay < 0

/-- The value that a link should deliver: during setup the initial value; in iteration `k` the value of iteration `k`
(undelayed) or of iteration `k - 1`, the value left by the setup of the producer if `k = 0` (delayed). -/
def Delivers (delayed : Prop) (w s : Stamp) : Prop :=
  match w with
  | .init => False
  | .setup => s = .init
  | .iter 0 => (delayed → s = .setup) ∧ (¬ delayed → s = .iter 0)
  | .iter (k + 1) => (delayed → s = .iter k) ∧ (¬ delayed → s = .iter (k + 1))

/-- Nothing is left to do. -/
def Net.done (R : Nat) (n : Net) : Prop := ∀ r < R, n.rem r = []

/-- The flags of a run of `N` iterations whose last one is recognised: `false` except for the last. -/
def goodFlags : Nat → List Bool
  | 0 => []
  | N + 1 => List.replicate N false ++ [true]

end Specula
