import Verif.Model.Raw
/-
Specification vocabulary for editing parameter files (C08, C09, C10).
-/
namespace Specula

/-- All reference texts of an input entry, in order. -/
def texts : Value → List String
  | .str s => [s]
  | .list vs => vs.filterMap fun v => match v with | .str s => some s | _ => none
  | _ => []

/-- The reference texts connected to input `i` of an object; empty when there is no such input. -/
def inputTexts (obj : Value) (i : String) : List String :=
  match obj with
  | .dict pars =>
    match Dict.get? pars "inputs" with
    | some (.dict ins) => ((Dict.get? ins i).map texts).getD []
    | _ => []
  | _ => []

/-- The text refers to (an output of) object `o`. -/
def RefersText (s o : String) : Prop := (splitOutput s).map (·.obj) = some o

instance (s o : String) : Decidable (RefersText s o) := by unfold RefersText; infer_instance

/-- `v'` is the object `v` after the disappearance of the objects `os`: same parameters, but its inputs have lost exactly
the references to `os`, the others keeping their order. -/
structure WithoutRefs (os : List String) (v v' : Value) : Prop where
  pars : v' = v ∨ ∃ pars pars', v = .dict pars ∧ v' = .dict pars' ∧ Dict.keys pars' = Dict.keys pars ∧
    ∀ k, k ≠ "inputs" → Dict.get? pars' k = Dict.get? pars k
  inputs : ∀ i, inputTexts v' i = (inputTexts v i).filter fun s => ∀ o ∈ os, ¬ RefersText s o

/-- The `inputs` of an object form a Python dictionary (no key twice). -/
def InputsOk (v : Value) : Prop :=
  ∀ pars ins, v = .dict pars → Dict.get? pars "inputs" = some (.dict ins) → (Dict.keys ins).Nodup

/-- `ps` is a Python dictionary of objects whose `inputs` are dictionaries. -/
def FileOk (ps : RawParams) : Prop := ps.keys.Nodup ∧ ∀ n v, (n, v) ∈ ps → InputsOk v

/-- The name ends with an underscore followed by the decimal digits of `n`. -/
def HasIndex (name base : String) (n : Nat) : Prop :=
  ∃ ds : List Char, ds ≠ [] ∧ (∀ c ∈ ds, c.isDigit = true) ∧ name.toList = base.toList ++ '_' :: ds ∧
    n = Nat.ofDigitChars 10 ds 0

/-- An entry called `name` of the additional file is an entry for `base` in simulation number `idx`: either it carries that
very index, or no index at all. -/
def Effective (idx : Nat) (name base : String) : Prop :=
  HasIndex name base idx ∨ (base = name ∧ ∀ b n, ¬ HasIndex name b n)

/-- The names over which Python iterates: elements of a list of texts, keys of a dictionary, characters of a text. -/
inductive Lists : Value → List String → Prop
  | list (os : List String) : Lists (.list (os.map .str)) os
  | dict (kvs : List (String × Value)) : Lists (.dict kvs) (kvs.map (·.1))
  | str (s : String) : Lists (.str s) (s.toList.map fun c => String.ofList [c])

/-- One object is removed. -/
structure Removed (o : String) (ps ps' : RawParams) : Prop where
  existed : o ∈ ps.keys
  keys : ps'.keys = ps.keys.filter (· ≠ o)
  others : ∀ n v, n ≠ o → ps.get? n = some v → ∃ v', ps'.get? n = some v' ∧ WithoutRefs [o] v v'

/-- Several objects are removed, one after the other. -/
inductive RemovedAll : List String → RawParams → RawParams → Prop
  | nil (ps : RawParams) : RemovedAll [] ps ps
  | cons {o : String} {os : List String} {ps ps1 ps' : RawParams} (h : Removed o ps ps1) (t : RemovedAll os ps1 ps') :
      RemovedAll (o :: os) ps ps'

/-- The parameters of one object are updated from `kvs`. -/
structure Overridden (o : String) (kvs : Dict Value) (ps ps' : RawParams) : Prop where
  keys : ps'.keys = ps.keys
  others : ∀ n, n ≠ o → ps'.get? n = ps.get? n
  obj : ∃ pars pars', ps.get? o = some (.dict pars) ∧ ps'.get? o = some (.dict pars') ∧
    ∀ k, Dict.get? pars' k = if k ∈ kvs.keys then kvs.get? k else Dict.get? pars k

/-- The result of combining a file with the entries of an additional one, entry by entry. -/
inductive Combined (idx : Nat) : RawParams → Dict Value → RawParams → Prop
  | done (ps : RawParams) : Combined idx ps [] ps
  /-- entry for another simulation: no effect -/
  | skip {ps ps' : RawParams} {name base : String} {n : Nat} {v : Value} {rest : Dict Value}
      (hi : HasIndex name base n) (hn : n ≠ idx) (t : Combined idx ps rest ps') : Combined idx ps ((name, v) :: rest) ps'
  | remove {ps ps1 ps' : RawParams} {name : String} {v : Value} {os : List String} {rest : Dict Value}
      (he : Effective idx name "remove") (hl : Lists v os) (h : RemovedAll os ps ps1) (t : Combined idx ps1 rest ps') :
      Combined idx ps ((name, v) :: rest) ps'
  | override {ps ps1 ps' : RawParams} {name o : String} {kvs : List (String × Value)} {rest : Dict Value}
      (he : Effective idx name (o ++ "_override")) (h : Overridden o kvs ps ps1) (t : Combined idx ps1 rest ps') :
      Combined idx ps ((name, .dict kvs) :: rest) ps'
  /-- a new object: added at the end, never replacing one -/
  | add {ps ps' : RawParams} {name o : String} {v : Value} {rest : Dict Value} (he : Effective idx name o)
      (hr : o ≠ "remove") (ho : ∀ b, o ≠ b ++ "_override") (hnew : o ∉ ps.keys)
      (t : Combined idx (ps ++ [(o, v)]) rest ps') : Combined idx ps ((name, v) :: rest) ps'

/-- Value found by following the keys of a path through nested dictionaries. -/
def valueAt : List String → Value → Option Value
  | [], v => some v
  | k :: ks, .dict kvs => match Dict.get? kvs k with | some v => valueAt ks v | none => none
  | _ :: _, _ => none

end Specula
