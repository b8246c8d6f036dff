import Verif.Model.Atmo
import Verif.Model.Ccd
import Mathlib.Analysis.SpecialFunctions.Pow.Real
/-
Model of `specula/processing_objects/atmo_random_phase.py` (155-220), of the store of phase screens on disk, `specula/lib/phasescreen_manager.py`, and of
`specula/processing_objects/atmo_evolution_up_down.py` (137-177) on top of `Atmo`.

Numbers are exact.  The names of the files are modelled by the numbers written in them, which are rounded to the digits printed.  The computation of a
screen is a parameter (it is `PhaseScreen`).  Not modelled: the pupil stop, names of outputs, devices and precision.
-/
namespace Specula

/-! ### Random phase -/

/-- The reshape of a square of `ns * p` pixels into tiles, atmo_random_phase.py 169-175: element `[k, i, j]` of
`x.reshape(ns, p, ns, p).swapaxes(1, 2).reshape(-1, p, p)`. -/
def rpTile {V : Type} (ns p : ℕ) (x : ℕ → ℕ → V) (k i j : ℕ) : V :=
  let four := fun a i b j => let flat := ((a * p + i) * ns + b) * p + j; x (flat / (ns * p)) (flat % (ns * p))
  let swapped := fun a b i j => four a i b j
  let flat := (k * p + i) * p + j
  swapped (flat / (ns * (p * p))) (flat / (p * p) % ns) (flat / p % p) (flat % p)

/-- State of the object. -/
structure RpState where
  seed : ℕ
  last : ℕ
  new : ℕ
  steps : ℕ
deriving DecidableEq, Repr

/-- `__init__` -/
def rpInit (seed : ℕ) : RpState := ⟨seed, 0, 0, 0⟩

/-- `prepare_trigger`, atmo_random_phase.py 193-198; `n` tiles. -/
def rpPrepare (n : ℕ) (s : RpState) : RpState :=
  let s := { s with new := s.last }
  if s.new ≥ n then { s with seed := s.seed + 1, new := 0 } else s

/-- `post_trigger`, atmo_random_phase.py 218-220. -/
def rpPost (u : ℕ) (s : RpState) : RpState :=
  let s := { s with steps := s.steps + 1 }
  if s.steps % u = 0 then { s with last := s.new + 1 } else s

/-- State before trigger number `t`. -/
def rpAt (n u seed : ℕ) : ℕ → RpState
  | 0 => rpInit seed
  | t + 1 => rpPost u (rpPrepare n (rpAt n u seed t))

/-- What trigger number `t` shows: the seed and the number of the tile. -/
def rpShown (n u seed t : ℕ) : ℕ × ℕ := let s := rpPrepare n (rpAt n u seed t); (s.seed, s.new)

/-- `r0`, atmo_random_phase.py 188-189. -/
noncomputable def rpR0 (seeing airmass : ℝ) : ℝ := 0.9759 * 0.5 / (seeing * 4.848) * airmass ^ (-3 / 5 : ℝ)

/-- The phase written for a pixel of the computed screen, atmo_random_phase.py 178, 190-191, 201. -/
noncomputable def rpPhase (pitch wavelength seeing airmass x : ℝ) : ℝ :=
  let r0w := rpR0 seeing airmass * (wavelength / 500) ^ (6 / 5 : ℝ)
  x * (wavelength / (2 * Real.pi)) * (pitch / r0w) ^ (5 / 6 : ℝ)

/-! ### Screens on disk -/

/-- A request of a screen. -/
structure ScreenReq where
  seed : ℤ
  dim : ℕ
  pitch : ℚ
  l0 : ℚ
  single : Bool
deriving DecidableEq

/-- The numbers written in the name of a file: whether the seed is written with a decimal point, the seed, the dimension, the pitch in thousandths, the outer
scale in ten thousandths, the precision. -/
structure ScreenName where
  point : Bool
  seed : ℤ
  dim : ℕ
  pitch : ℤ
  l0 : ℤ
  single : Bool
deriving DecidableEq

/-- The four names that are looked for, phasescreen_manager.py 30-33. -/
def screenNames (q : ScreenReq) : List ScreenName :=
  let p := roundEvenF (q.pitch * 1000)
  let l := roundEvenF (q.l0 * 10000)
  let l' := 10000 * roundEvenF q.l0
  [⟨false, q.seed, q.dim, p, l, q.single⟩, ⟨false, q.seed, q.dim, p, l', q.single⟩, ⟨true, q.seed, q.dim, p, l, q.single⟩,
    ⟨true, q.seed, q.dim, p, l', q.single⟩]

/-- One screen, phasescreen_manager.py 36-49: the first name found is read, otherwise the screen is computed and written with the first name. -/
def getScreen {S : Type} (compute : ScreenReq → S) (disk : ScreenName → Option S) (q : ScreenReq) : S × (ScreenName → Option S) :=
  if let some s := (screenNames q).findSome? disk then (s, disk)
  else
    let s := compute q
    (s, fun n => if some n = (screenNames q).head? then some s else disk n)

/-- `phasescreens_manager`, phasescreen_manager.py 20-54: `none` when the numbers of outer scales and seeds do not fit. -/
def screenManager {S : Type} (compute : ScreenReq → S) (disk : ScreenName → Option S) (l0 : List ℚ) (dim : ℕ) (pitch : ℚ) (single : Bool) (seeds : List ℤ) :
    Option (List S × (ScreenName → Option S)) :=
  (seeds.zipIdx.foldlM (fun (st : List S × (ScreenName → Option S)) e =>
    (if l0.length = seeds.length then l0[e.2]? else if l0.length = 1 then l0[0]? else none).map fun l =>
      let r := getScreen compute st.2 ⟨e.1, dim, pitch, l, single⟩
      (st.1 ++ [r.1], r.2)) ([], disk))

/-- A history of requests: the screens given, in order, and the disk at the end. -/
def screenRun {S : Type} (compute : ScreenReq → S) (disk : ScreenName → Option S) : List ScreenReq → List S × (ScreenName → Option S)
  | [] => ([], disk)
  | q :: qs =>
    let r := getScreen compute disk q
    let rest := screenRun compute r.2 qs
    (r.1 :: rest.1, rest.2)

/-! ### Up and down -/

section
variable {K : Type} [Field K] [LinearOrder K] [IsStrictOrderedRing K] [FloorRing K]

/-- `trigger_code`, atmo_evolution_up_down.py 137-177: the same layer, with the extra time `up` in the second list. -/
def evoUpDown (rotFn : K → Img K → Img K) (l : AtmoLayer K) (up pitch : K) (pos : K × K) (inp : AtmoIn K) :
    Option ((K × K) × (Nat → Nat → K) × (Nat → Nat → K)) :=
  (atmoTrigger rotFn l pitch pos.1 inp).bind fun d =>
  (atmoTrigger rotFn { l with extra := up } pitch pos.2 inp).map fun u => ((d.1, u.1), d.2, u.2)

/-- A history of triggers. -/
def evoUpDownRun (rotFn : K → Img K → Img K) (l : AtmoLayer K) (up pitch : K) (st : (K × K) × (Nat → Nat → K) × (Nat → Nat → K)) (inps : List (AtmoIn K)) :
    Option ((K × K) × (Nat → Nat → K) × (Nat → Nat → K)) := inps.foldlM (fun st i => evoUpDown rotFn l up pitch st.1 i) st

end

end Specula
