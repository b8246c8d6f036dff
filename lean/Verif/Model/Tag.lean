/-
Model of the message tags: `computeTag`, `specula/simul.py` 69-72.
-/
namespace Specula

/-- The text that is hashed, simul.py 70.  `key = none` is the output `None` (a data object itself), written `None`. -/
def tagText (p d : String) (key : Option String) (i : String) : String :=
  p ++ "%" ++ d ++ "%" ++ key.getD "None" ++ "%" ++ i

/-- `computeTag`, simul.py 69-72; `sha` is the SHA-256 hash read as an integer. -/
def computeTag (sha : String → Nat) (p d : String) (key : Option String) (i : String) : Nat :=
  sha (tagText p d key i) % 10 ^ 6

end Specula
