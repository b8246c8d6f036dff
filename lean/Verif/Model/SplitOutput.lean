import Verif.Model.Params
/-
Model of `Simul.split_output`, `specula/simul.py` 129-171 (with `get_ref=False`), on lists of characters.
-/
namespace Specula

/-- Python `text.split(c)` for a one-character separator (used in simul.py 134, 139, 144 and 924). -/
def pySplit (c : Char) : List Char → List (List Char)
  | [] => [[]]
  | x :: xs =>
    if x = c then [] :: pySplit c xs
    else match pySplit c xs with
      | [] => [[x]]
      | h :: t => (x :: h) :: t

/-- The blanks that Python `int()` strips (ASCII ones only). -/
def isBlank (c : Char) : Bool :=
  c = ' ' || c = '\t' || c = '\n' || c = '\r' || c = '\x0b' || c = '\x0c'

/-- Digits with single underscores between them, as accepted by Python `int()`.  ASCII digits only (Python also accepts
other Unicode digits). -/
def digitsOk : List Char → Bool
  | [] => false
  | [c] => c.isDigit
  | c :: d :: rest => c.isDigit && (if d = '_' then digitsOk rest else digitsOk (d :: rest))

/-- Python `int(text)` as used in simul.py 135; `none` is `ValueError`. -/
def pyInt (s : List Char) : Option Int :=
  let t := ((s.dropWhile isBlank).reverse.dropWhile isBlank).reverse
  let val (ds : List Char) : Option Nat :=
    if digitsOk ds then some (Nat.ofDigitChars 10 (ds.filter (·.isDigit)) 0) else none
  match t with
  | '-' :: ds => (val ds).map fun n : Nat => -(n : Int)
  | '+' :: ds => (val ds).map fun n : Nat => (n : Int)
  | ds => (val ds).map fun n : Nat => (n : Int)

/-- The first step of `split_output`, simul.py 133-137: text before `':'`, delay. -/
def splitDelay (s : List Char) : Option (List Char × Int) :=
  if ':' ∈ s then
    match pySplit ':' s with
    | [a, b] => (pyInt b).map fun d => (a, d)
    | _ => none
  else some (s, 0)

/-- An optional prefix or suffix: simul.py 138-142 (`'-'`) and 144-148 (`'.'`) both do "if the separator occurs,
unpack `split(sep)` into exactly two parts". -/
def splitPair (c : Char) (s : List Char) : Option (List Char × Option (List Char)) :=
  if c ∈ s then
    match pySplit c s with
    | [a, b] => some (a, some b)
    | _ => none
  else some (s, none)

/-- `Simul.split_output`, simul.py 129-171, without the look-up of the live reference (`get_ref=False`).
`none` is the `ValueError` of an unpacking or of `int()`. -/
def splitOutput (s : String) : Option OutRef :=
  match splitDelay s.toList with
  | none => none
  | some (s1, delay) =>
    match splitPair '-' s1 with
    | none => none
    | some (a, b) =>
      -- with a '-' the first part is the input name, the second one the output
      let aliasName := b.map fun _ => String.ofList a
      let out := b.getD a
      match splitPair '.' out with
      | none => none
      | some (o, k) => some { alias := aliasName, obj := String.ofList o, key := k.map String.ofList, delay := delay }

end Specula
