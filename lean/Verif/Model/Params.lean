/-
Model of the parameter dictionary handled by `specula/simul.py`.

A YAML parameter file is a Python dictionary  object name → (parameter name → value).  The entry `inputs` of an
object is itself a dictionary  input name → text or list of texts;  each text is parsed by `Simul.split_output`
(see `Verif/Model/SplitOutput.lean` for the parser itself).
-/
namespace Specula

/-- Result of `Simul.split_output` (simul.py 129-171, namedtuple `Output`): the reference `input_name-obj.key:delay`.
The field `ref` (a Python reference to the live output object) is not part of the text and is not kept. -/
structure OutRef where
  alias : Option String := none
  obj : String
  key : Option String := none
  delay : Int := 0
deriving DecidableEq, Repr

/-- Value of one entry of the `inputs` dictionary: either a text or a list of texts
(the two cases distinguished with `isinstance` in simul.py 212-218, 232-237, 871-880).
Any other type makes the code raise and is not represented.  Texts are kept in parsed form. -/
inductive Input where
  | single (r : OutRef)
  | list (rs : List OutRef)
deriving DecidableEq, Repr

/-- All references of an input entry, in order (simul.py 232-239: `outputs_list`). -/
def Input.refs : Input → List OutRef
  | .single r => [r]
  | .list rs => rs

/-- YAML values of the parameters other than `inputs`. -/
inductive Value where
  | null
  | bool (b : Bool)
  | num (n : Int)
  | str (s : String)
  | list (vs : List Value)
  | dict (kvs : List (String × Value))

/-- Parameters of one object: the optional `inputs` dictionary, and everything else. -/
structure ObjPars where
  cls : String := ""
  inputs : Option (List (String × Input)) := none
  rest : List (String × Value) := []

/-- A parameter file, in insertion order (Python dictionaries preserve it). -/
abbrev Params := List (String × ObjPars)

/-- The input entries of an object; `[]` when the key `inputs` is missing. -/
def ObjPars.ins (p : ObjPars) : List (String × Input) := p.inputs.getD []

end Specula
