import Verif.Model.Raw
import Verif.Spec.Graph
/-
Specification vocabulary: object references (`…_ref` parameters) of a parameter file.
-/
namespace Specula

/-- The parameter value `v` mentions the text `s`: it is that text, or a list containing it. -/
def Mentions (v : Value) (s : String) : Prop :=
  v = .str s ∨ ∃ vs, v = .list vs ∧ .str s ∈ vs

/-- Object `a` of the file has a parameter whose name ends with `_ref` and which mentions (an output of) object `b`. -/
def RefersTo (ps : RawParams) (a b : String) : Prop :=
  ∃ pars name v s r, (a, Value.dict pars) ∈ ps ∧ (name, v) ∈ pars ∧ endsWith name "_ref" = true ∧ Mentions v s ∧
    splitOutput s = some r ∧ r.obj = b

/-- Every object is a dictionary, and each of its `_ref` parameters is a text or a list of texts naming objects of the file. -/
def RefsOk (ps : RawParams) : Prop :=
  ∀ a p, (a, p) ∈ ps → ∃ pars, p = Value.dict pars ∧
    ∀ name v, (name, v) ∈ pars → endsWith name "_ref" = true →
      ∃ ss : List String, (v = .list (ss.map .str) ∨ ∃ s, ss = [s] ∧ v = .str s) ∧
        ∀ s ∈ ss, ∃ r, splitOutput s = some r ∧ r.obj ∈ ps.keys

end Specula
