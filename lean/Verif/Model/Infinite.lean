import Verif.Model.Atmo
import Mathlib.Analysis.SpecialFunctions.Pow.Real
/-
Infinite phase screens: `specula/data_objects/infinite_phase_screen.py`,
`specula/processing_objects/atmo_infinite_evolution.py` and `atmo_infinite_evolution_up_down.py`.

Real numbers, one layer.  The random number generator is a fixed sequence of draws.  The matrices computed from the covariances are
parameters; the cosine and sine of the wind direction are inputs.
-/
namespace Specula

/-- What an InfinitePhaseScreen does not change after the construction: the size of the stencil (and of the screen held), the size asked
for, the coordinates of the two stencils, the matrices `A` and `B` and the draws of the generator. -/
structure ScreenPar where
  S : ℕ
  n : ℕ
  coords : Bool → List (ℕ × ℕ)
  A : Bool → ℕ → ℕ → ℝ
  B : ℕ → ℕ → ℝ
  rng : ℕ → ℕ → ℝ

/-- The attributes that change: `full_scrn`, number of draws made, `random_data_col`, `random_data_row`. -/
structure Screen where
  scrn : ℕ → ℕ → ℝ
  draws : ℕ
  colData : Option (ℕ → ℝ)
  rowData : Option (ℕ → ℝ)

/-- `prepare_random_data_row` and `prepare_random_data_col`, infinite_phase_screen.py 172-186. -/
def prepRandom (p : ScreenPar) (row : Bool) (st : Screen) : Screen :=
  if row then
    if st.rowData.isNone then { st with rowData := some (p.rng st.draws), draws := st.draws + 1 } else st
  else
    if st.colData.isNone then { st with colData := some (p.rng st.draws), draws := st.draws + 1 } else st

/-- The values of the screen on the stencil, infinite_phase_screen.py 194 and 198. -/
def stencilData (p : ScreenPar) (row after : Bool) (scrn : ℕ → ℕ → ℝ) : List ℝ :=
  (p.coords after).map fun c => if row then scrn c.2 c.1 else scrn c.1 c.2

/-- `get_new_line` with the random numbers `rnd`, infinite_phase_screen.py 188-197. -/
noncomputable def newLine (p : ScreenPar) (row after : Bool) (scrn : ℕ → ℕ → ℝ) (rnd : ℕ → ℝ) : ℕ → ℝ :=
  let data := stencilData p row after scrn
  fun i => (∑ k ∈ Finset.range data.length, p.A after i k * data.getD k 0) + ∑ k ∈ Finset.range p.S, p.B i k * rnd k

/-- The concatenation and cut of `add_line`, infinite_phase_screen.py 201-220. -/
def pushLine (S : ℕ) (row after : Bool) (scrn : ℕ → ℕ → ℝ) (line : ℕ → ℝ) : ℕ → ℕ → ℝ :=
  if row then
    if after then fun i j => if j + 1 < S then scrn i (j + 1) else line i
    else fun i j => if j = 0 then line i else scrn i (j - 1)
  else
    if after then fun i j => if i + 1 < S then scrn (i + 1) j else line j
    else fun i j => if i = 0 then line j else scrn (i - 1) j

/-- `add_line`, infinite_phase_screen.py 199-223. -/
noncomputable def addLine (p : ScreenPar) (row after flush : Bool) (st : Screen) : Screen :=
  let st := prepRandom p row st
  let rnd := ((if row then st.rowData else st.colData).getD fun _ => 0)
  let st := { st with scrn := pushLine p.S row after st.scrn (newLine p row after st.scrn rnd) }
  if flush then { st with colData := none, rowData := none } else st

/-- Screen and accumulated fractions of one layer. -/
structure InfState where
  screen : Screen
  accR : ℝ
  accC : ℝ

/-- The loop over the lines to add, atmo_infinite_evolution.py 266-272. -/
noncomputable def addLines (p : ScreenPar) (row after : Bool) (m : ℕ) (st : Screen) : Screen := (addLine p row after true)^[m] st

/-- One layer of `_process_propagation_direction`, atmo_infinite_evolution.py 250-305: the new state and the phase before the scaling. -/
noncomputable def infStep (p : ScreenPar) (eps wy wx : ℝ) (st : InfState) (d : ℝ) : InfState × (ℕ → ℕ → ℝ) :=
  let rows := truncPart (d * wy + st.accR)
  let fracR := d * wy + st.accR - rows
  let cols := truncPart (d * wx + st.accC)
  let fracC := d * wx + st.accC - cols
  let s0 := if |wy| > eps then addLines p true (decide (rows > 0)) rows.natAbs st.screen else st.screen
  let s0 := if |wx| > eps then addLines p false (decide (cols > 0)) cols.natAbs s0 else s0
  let s1 := if |fracR| > eps then addLine p true (decide (fracR > 0)) false s0 else s0
  let s1 := if |fracC| > eps then addLine p false (decide (fracC > 0)) false s1 else s1
  let f := Real.sqrt (fracR ^ 2 + fracC ^ 2)
  ({ screen := { s1 with scrn := s0.scrn }, accR := fracR, accC := fracC }, fun i j => f * s1.scrn i j + (1 - f) * s0.scrn i j)

/-- Positions of one layer: `last_position` and `last_effective_position`. -/
structure InfPos where
  pos : ℝ
  eff : ℝ

/-- Inputs of a trigger for one layer: wind speed, time since the last trigger in seconds, cosine and sine of the direction, factor of
the phase (`scale_coeff * sqrt(Cn2)`). -/
structure InfIn where
  wind : ℝ
  dt : ℝ
  wy : ℝ
  wx : ℝ
  scale : ℝ

/-- `trigger_code` for one layer, atmo_infinite_evolution.py 225-317. -/
noncomputable def infTrigger (p : ScreenPar) (eps pitch extra : ℝ) (st : InfState × InfPos) (inp : InfIn) :
    (InfState × InfPos) × (ℕ → ℕ → ℝ) :=
  let delta := inp.wind * inp.dt / pitch
  let off := inp.wind * extra / pitch
  let eff := st.2.pos + delta + off
  let r := infStep p eps inp.wy inp.wx st.1 (eff - st.2.eff)
  ((r.1, ⟨st.2.pos + delta, eff⟩), fun i j => r.2 i j * inp.scale)

/-- State after construction: no movement yet, no random numbers drawn for lines. -/
def infInit (scrn : ℕ → ℕ → ℝ) : InfState × InfPos := (⟨⟨scrn, 0, none, none⟩, 0, 0⟩, ⟨0, 0⟩)

/-- The state after the inputs of a list. -/
noncomputable def infRun (p : ScreenPar) (eps pitch extra : ℝ) (scrn : ℕ → ℕ → ℝ) (inps : List InfIn) : InfState × InfPos :=
  inps.foldl (fun st inp => (infTrigger p eps pitch extra st inp).1) (infInit scrn)

/-- `scale_coeff`, atmo_infinite_evolution.py 178-181 (`ref_r0`, seeing 1) and 204-223. -/
noncomputable def infScale (airmass seeing : ℝ) : ℝ :=
  let refR0 := 0.9759 * 0.5 / (1 * 4.848) * airmass ^ (-3 / 5 : ℝ) * (500 / 500 : ℝ) ^ (6 / 5 : ℝ)
  let scaleR0 := if seeing > 0 then (refR0 / (0.9759 * 0.5 / (seeing * 4.848) * airmass ^ (-3 / 5 : ℝ) * (500 / 500 : ℝ) ^ (6 / 5 : ℝ))) ^ (5 / 6 : ℝ)
    else 0
  scaleR0 * (500 / (2 * Real.pi))

/-! ### Upward and downward propagation through the same screen -/

/-- Down and up trackers of AtmoInfiniteEvolutionUpDown around one screen. -/
structure UpDown where
  screen : Screen
  accD : ℝ × ℝ
  posD : InfPos
  accU : ℝ × ℝ
  posU : InfPos

/-- `trigger_code` for one layer, atmo_infinite_evolution_up_down.py 126-180: phases of the down and of the up layer. -/
noncomputable def upDownTrigger (p : ScreenPar) (eps pitch extraD extraU : ℝ) (st : UpDown) (inp : InfIn) :
    UpDown × (ℕ → ℕ → ℝ) × (ℕ → ℕ → ℝ) :=
  if extraD ≤ extraU then
    let d := infTrigger p eps pitch extraD (⟨st.screen, st.accD.1, st.accD.2⟩, st.posD) inp
    let u := infTrigger p eps pitch extraU (⟨d.1.1.screen, st.accU.1, st.accU.2⟩, st.posU) inp
    (⟨{ d.1.1.screen with draws := u.1.1.screen.draws }, (d.1.1.accR, d.1.1.accC), d.1.2, (u.1.1.accR, u.1.1.accC), u.1.2⟩, d.2, u.2)
  else
    let u := infTrigger p eps pitch extraU (⟨st.screen, st.accU.1, st.accU.2⟩, st.posU) inp
    let d := infTrigger p eps pitch extraD (⟨u.1.1.screen, st.accD.1, st.accD.2⟩, st.posD) inp
    (⟨d.1.1.screen, (d.1.1.accR, d.1.1.accC), d.1.2, (u.1.1.accR, u.1.1.accC), u.1.2⟩, d.2, u.2)

def upDownInit (scrn : ℕ → ℕ → ℝ) : UpDown := ⟨⟨scrn, 0, none, none⟩, (0, 0), ⟨0, 0⟩, (0, 0), ⟨0, 0⟩⟩

/-! ### Geometry of the stencils -/

/-- `mx_size` and `stencil_size`, infinite_phase_screen.py 39-52, for `stencil_size_factor = 1` and `k = ceil(log2(mx_size))`. -/
def mxSize (k : ℕ) : ℕ := 2 ^ k + 1
def stencilSize (k : ℕ) : ℕ := max (mxSize k / 2 * 2 + 1) 257

/-- `round(linspace(0, S - 1, n_points))`: the points of the head of the stencil.  `max_n = floor(log2(S))`. -/
def headPoints (S maxN lvl : ℕ) : List ℕ :=
  (List.range (2 ^ (maxN - lvl) + 1)).map fun i : ℕ => (roundEven ((i : ℚ) * (((S - 1 : ℕ) : ℚ) / ((2 ^ (maxN - lvl) : ℕ) : ℚ)))).toNat

/-- `int(2 ** (n - 1) + 1) - 1`: the line of the points of level `n`. -/
def headLine (lvl : ℕ) : ℕ := if lvl = 0 then 0 else 2 ^ (lvl - 1)

/-- `stencil[i, j] == 1`, infinite_phase_screen.py 100-118 with `stencil_size_factor = 1`. -/
def inStencil (S mx : ℕ) (c : ℕ × ℕ) : Bool :=
  ((List.range (Nat.log2 S + 1)).any fun lvl => c.1 == headLine lvl && (headPoints S (Nat.log2 S) lvl).contains c.2) ||
  (c.1 == mx - 1 && c.2 == S / 2)

/-- `stencilF[i, j] == 1`. -/
def inStencilF (S mx : ℕ) (c : ℕ × ℕ) : Bool :=
  ((List.range (Nat.log2 S + 1)).any fun lvl => c.1 == S - 1 - headLine lvl && (headPoints S (Nat.log2 S) lvl).contains c.2) ||
  (c.1 == S - 1 - (mx - 1) && c.2 == S / 2)

/-- `where(a == 1)` of a square array, as a list of pairs. -/
def whereSquare (S : ℕ) (a : ℕ × ℕ → Bool) : List (ℕ × ℕ) :=
  (((List.range S).map fun i : ℕ => (List.range S).map fun j : ℕ => (i, j)).flatten).filter a

/-- `stencil_coords`. -/
def stencilCoords (S mx : ℕ) : Bool → List (ℕ × ℕ)
  | false => whereSquare S (inStencil S mx)
  | true => whereSquare S (inStencilF S mx)

/-- `fliplr(flipud(A))` of a matrix with `S` rows and `m` columns, infinite_phase_screen.py 160. -/
def flipBoth (S m : ℕ) (A : ℕ → ℕ → ℝ) : ℕ → ℕ → ℝ := fun i k => A (S - 1 - i) (m - 1 - k)

end Specula
