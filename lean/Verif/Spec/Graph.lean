import Verif.Model.Params
/-
Specification vocabulary for the object graph of a parameter file.
-/
namespace Specula

/-- In the file `ps`, object `c` has an input entry (single or list) containing the reference `r`. -/
def Reads (ps : Params) (c : String) (r : OutRef) : Prop :=
  ∃ p, (c, p) ∈ ps ∧ ∃ e ∈ p.ins, r ∈ e.2.refs

/-- `c` reads an output of `a` in the current iteration (no delay). -/
def ReadsNow (ps : Params) (c a : String) : Prop :=
  ∃ r, Reads ps c r ∧ r.obj = a ∧ r.delay = 0

/-- `c` reads an output of `a` with a `:-n` suffix, `n ≥ 1`. -/
def ReadsDelayed (ps : Params) (c a : String) : Prop :=
  ∃ r, Reads ps c r ∧ r.obj = a ∧ r.delay < 0

/-- The object names of a file. -/
def names (ps : Params) : List String := ps.map (·.1)

/-- A Python dictionary cannot contain a key twice. -/
def IsDict (ps : Params) : Prop := (names ps).Nodup

/-- All references of the file have delay 0 or negative (`:-n`), the documented syntax. -/
def DelaysOk (ps : Params) : Prop := ∀ c r, Reads ps c r → r.delay ≤ 0

/-- The objects that can be scheduled: the least set such that an object whose current-iteration producers are all
schedulable, and all of whose delayed consumers are schedulable (they must run before it overwrites its output),
is schedulable.  Independent of the order of the file. -/
inductive Schedulable (ps : Params) : String → Prop
  | mk (n : String) (hn : n ∈ names ps)
      (hnow : ∀ a, ReadsNow ps n a → Schedulable ps a)
      (hdel : ∀ c, ReadsDelayed ps c n → Schedulable ps c) : Schedulable ps n

/-- `a` occurs before `b` in a list. -/
def Before {α : Type _} (l : List α) (a b : α) : Prop := ∃ l1 l2 l3, l = l1 ++ a :: l2 ++ b :: l3

end Specula
