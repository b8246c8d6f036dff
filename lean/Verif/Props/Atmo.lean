import Verif.Model.Atmo
import Verif.Props.Interp
import Mathlib.Tactic.Linarith
import Mathlib.Tactic.NormNum
/-
C43: frozen flow of the atmosphere.
-/
namespace Specula

section
variable {K : Type} [Field K] [LinearOrder K] [IsStrictOrderedRing K] [FloorRing K]

/-- A layer that fits its screen. -/
def AtmoLayer.Fits (l : AtmoLayer K) : Prop := l.size ≤ l.screen.rows

/-- Inputs with wind and time going forward, and an extra offset that leaves room for the layer. -/
def AtmoIn.Ok (l : AtmoLayer K) (pitch : K) (i : AtmoIn K) : Prop :=
  0 ≤ i.wind ∧ 0 ≤ i.dt ∧ atmoOffset l pitch i.wind + l.size < l.screen.cols

/-- The cut of a screen at an effective position inside it. -/
theorem atmoCut_ok (l : AtmoLayer K) (hl : l.Fits) (eff : K) (h0 : 0 ≤ eff) (h1 : eff + l.size < l.screen.cols) :
    ∃ cut, atmoCut l eff = some cut ∧ cut.rows = l.size ∧ cut.cols = l.size ∧ ⌊eff⌋₊ + l.size + 1 ≤ l.screen.cols ∧
      ∀ i < l.size, ∀ j < l.size, cut.px i j =
        (1 - (eff - ⌊eff⌋₊)) * l.screen.px i (⌊eff⌋₊ + j) + (eff - ⌊eff⌋₊) * l.screen.px i (⌊eff⌋₊ + j + 1) := by
  have hfl : ⌊eff⌋ = ((⌊eff⌋₊ : Nat) : Int) := (Int.natCast_floor_eq_floor h0).symm
  set p := ⌊eff⌋₊ with hp
  have hple : (p : K) ≤ eff := Nat.floor_le h0
  have hbound : p + l.size + 1 ≤ l.screen.cols := by
    have : ((p + l.size : Nat) : K) < (l.screen.cols : K) := by push_cast; linarith
    have := Nat.cast_lt.1 this
    omega
  have s0 : sliceIdx l.screen.rows ⟨some 0, some (l.size : Int), none⟩ = some ((List.range l.size).map (0 + ·)) := by
    have := sliceIdx_window l.screen.rows 0 l.size (by have := hl; unfold AtmoLayer.Fits at this; omega)
    simpa using this
  have s1 := sliceIdx_window l.screen.cols p l.size (by omega)
  have s2 := sliceIdx_window l.screen.cols (p + 1) l.size (by omega)
  have e2 : ((p : Int) + l.size + 1) = ((p + 1 : Nat) : Int) + l.size := by push_cast; ring
  have e1 : ((p : Int) + 1) = ((p + 1 : Nat) : Int) := by push_cast; ring
  unfold atmoCut
  dsimp only
  rw [hfl, s0, s1, e2, e1, s2]
  simp only [Option.bind_some, List.length_map, List.length_range, bcastLen, if_true, Option.map_some]
  refine ⟨_, rfl, rfl, rfl, hbound, fun i hi j hj => ?_⟩
  have hget : ((List.range l.size).map (0 + ·)).getD i 0 = i := by
    rw [List.getD_eq_getElem?_getD, List.getElem?_map, List.getElem?_range hi]
    simp
  dsimp only
  rw [hget, bcast_window _ _ _ hj, bcast_window _ _ _ hj, Int.cast_natCast, show p + 1 + j = p + j + 1 by omega]

omit [FloorRing K] in
/-- The position stays inside, for any state and inputs going forward. -/
theorem atmoMove_inside (l : AtmoLayer K) (pitch pos : K) (hp : 0 < pitch) (hx : 0 ≤ l.extra) (h0 : 0 ≤ pos) (i : AtmoIn K) (hi : i.Ok l pitch) :
    0 ≤ atmoMove l pitch pos i.wind i.dt ∧ 0 ≤ atmoMove l pitch pos i.wind i.dt + atmoOffset l pitch i.wind ∧
      atmoMove l pitch pos i.wind i.dt + atmoOffset l pitch i.wind + l.size < l.screen.cols := by
  obtain ⟨hw, hd, ho⟩ := hi
  have off0 : 0 ≤ atmoOffset l pitch i.wind := div_nonneg (mul_nonneg hw hx) hp.le
  have d0 : 0 ≤ i.wind * i.dt / pitch := div_nonneg (mul_nonneg hw hd) hp.le
  unfold atmoMove
  dsimp only
  split
  · exact ⟨le_refl _, by linarith, by linarith⟩
  · next h =>
    push Not at h
    exact ⟨by linarith, by linarith, h⟩

/-! ### Quarter turns -/

omit [Field K] [LinearOrder K] [IsStrictOrderedRing K] [FloorRing K] in
theorem rot90_shape (n : Nat) (k : Nat) (m : Img K) (h : m.rows = n ∧ m.cols = n) : (Img.rot90^[k] m).rows = n ∧ (Img.rot90^[k] m).cols = n := by
  induction k generalizing m with
  | zero => exact h
  | succ k ih =>
    rw [Function.iterate_succ_apply]
    exact ih m.rot90 ⟨h.2, h.1⟩

omit [Field K] [LinearOrder K] [IsStrictOrderedRing K] [FloorRing K] in
/-- **C43** (wind direction): four quarter turns leave the layer as it is, so directions that differ by full turns give the same layer. -/
theorem C43_full_turn (n : Nat) (m : Img K) (h : m.rows = n ∧ m.cols = n) (k : Int) :
    m.rot90k (k + 4) = m.rot90k k ∧ ∀ i < n, ∀ j < n, (Img.rot90^[4] m).px i j = m.px i j := by
  refine ⟨by unfold Img.rot90k; rw [Int.add_emod_right], fun i hi j hj => ?_⟩
  simp only [Function.iterate_succ_apply, Function.iterate_zero, id_eq, Img.rot90, h.1, h.2]
  congr 1 <;> omega

/-! ### Histories -/

theorem atmo_step (rotFn : K → Img K → Img K) (hrot : ∀ a m, (rotFn a m).rows = m.rows ∧ (rotFn a m).cols = m.cols) (l : AtmoLayer K)
    (hl : l.Fits) (pitch pos : K) (hp : 0 < pitch) (hx : 0 ≤ l.extra) (h0 : 0 ≤ pos) (i : AtmoIn K) (hi : i.Ok l pitch) :
    ∃ ph, atmoTrigger rotFn l pitch pos i = some (atmoMove l pitch pos i.wind i.dt, ph) := by
  obtain ⟨a1, a2, a3⟩ := atmoMove_inside l pitch pos hp hx h0 i hi
  obtain ⟨cut, c1, c2, c3, -, -⟩ := atmoCut_ok l hl _ a2 a3
  unfold atmoTrigger
  dsimp only
  rw [c1, Option.bind_some]
  have ht := rot90_shape l.size ((truncPart (i.dir / 90)) % 4).toNat cut ⟨c2, c3⟩
  have hsh : ∀ t : Img K, (t.rows = l.size ∧ t.cols = l.size) → ∃ f, assignSquare l.size t = some f := by
    intro t h
    unfold assignSquare
    rw [if_pos ⟨Or.inl h.1, Or.inl h.2⟩]
    exact ⟨_, rfl⟩
  have ht' : (cut.rot90k (truncPart (i.dir / 90))).rows = l.size ∧ (cut.rot90k (truncPart (i.dir / 90))).cols = l.size := ht
  have : ∃ f, assignSquare l.size (if (i.dir / 90 - truncPart (i.dir / 90)) * 90 = 0 then cut.rot90k (truncPart (i.dir / 90))
      else rotFn ((i.dir / 90 - truncPart (i.dir / 90)) * 90) (cut.rot90k (truncPart (i.dir / 90)))) = some f := by
    apply hsh
    split
    · exact ht'
    · rw [(hrot _ _).1, (hrot _ _).2]
      exact ht'
  obtain ⟨f, hf⟩ := this
  rw [hf]
  exact ⟨_, rfl⟩

/-- **C43** (inside the screen): with wind, time steps and extra time not negative and room for the layer after the extra offset, no
trigger of any history raises: every pixel taken lies inside the screen. -/
theorem C43_inside (rotFn : K → Img K → Img K) (hrot : ∀ a m, (rotFn a m).rows = m.rows ∧ (rotFn a m).cols = m.cols) (l : AtmoLayer K)
    (hl : l.Fits) (pitch : K) (hp : 0 < pitch) (hx : 0 ≤ l.extra) (inps : List (AtmoIn K)) (hi : ∀ i ∈ inps, i.Ok l pitch)
    (st : K × (Nat → Nat → K)) (h0 : 0 ≤ st.1) :
    ∃ res, atmoRun rotFn l pitch st inps = some res ∧ 0 ≤ res.1 ∧
      ∀ i : AtmoIn K, i.Ok l pitch → ⌊atmoMove l pitch res.1 i.wind i.dt + atmoOffset l pitch i.wind⌋₊ + l.size + 1 ≤ l.screen.cols := by
  induction inps generalizing st with
  | nil =>
    refine ⟨st, rfl, h0, fun i hi => ?_⟩
    obtain ⟨-, a2, a3⟩ := atmoMove_inside l pitch st.1 hp hx h0 i hi
    obtain ⟨cut, -, -, -, c4, -⟩ := atmoCut_ok l hl _ a2 a3
    exact c4
  | cons i inps ih =>
    obtain ⟨ph, h1⟩ := atmo_step rotFn hrot l hl pitch st.1 hp hx h0 i (hi i List.mem_cons_self)
    obtain ⟨a1, -, -⟩ := atmoMove_inside l pitch st.1 hp hx h0 i (hi i List.mem_cons_self)
    obtain ⟨res, r1, r2⟩ := ih (fun x hx => hi x (List.mem_cons_of_mem _ hx)) (_, ph) a1
    refine ⟨res, ?_, r2⟩
    unfold atmoRun at r1 ⊢
    rw [List.foldlM_cons, h1]
    exact r1

/-- The pixel of the screen seen by pixel `(i, j)` of a layer turned by a quarter anticlockwise: with respect to the centre, row offset
`v` and column offset `-u` (specification). -/
def quarterSrc (n : Nat) (p : Nat × Nat) : Nat × Nat := (p.2, n - 1 - p.1)

theorem quarterSrc_centred (n : Nat) (p : Nat × Nat) (h : p.1 < n) :
    2 * ((quarterSrc n p).1 : Int) - (n - 1) = 2 * p.2 - (n - 1) ∧ 2 * ((quarterSrc n p).2 : Int) - (n - 1) = -(2 * p.1 - (n - 1)) := by
  unfold quarterSrc
  dsimp only
  omega

theorem quarterSrc_lt (n k : Nat) (p : Nat × Nat) (h : p.1 < n ∧ p.2 < n) : ((quarterSrc n)^[k] p).1 < n ∧ ((quarterSrc n)^[k] p).2 < n := by
  induction k generalizing p with
  | zero => exact h
  | succ k ih =>
    rw [Function.iterate_succ_apply]
    exact ih _ ⟨h.2, by unfold quarterSrc; dsimp only; omega⟩

omit [Field K] [LinearOrder K] [IsStrictOrderedRing K] [FloorRing K] in
theorem rot90_px (n k : Nat) (m : Img K) (h : m.rows = n ∧ m.cols = n) (i j : Nat) :
    (Img.rot90^[k] m).px i j = m.px ((quarterSrc n)^[k] (i, j)).1 ((quarterSrc n)^[k] (i, j)).2 := by
  induction k generalizing m with
  | zero => rfl
  | succ k ih =>
    rw [Function.iterate_succ_apply, ih m.rot90 ⟨h.2, h.1⟩, Function.iterate_succ_apply']
    simp only [Img.rot90, quarterSrc, h.2]

/-- **C43** (what is seen): for wind along an axis (direction a multiple of 90 degrees), each pixel of the layer is the screen, turned by
quarters, interpolated at the position of the pixel plus the effective position, times the scale. -/
theorem C43_value (rotFn : K → Img K → Img K) (l : AtmoLayer K) (hl : l.Fits) (hs2 : 2 ≤ l.size) (pitch pos : K) (hp : 0 < pitch) (hx : 0 ≤ l.extra)
    (h0 : 0 ≤ pos) (i : AtmoIn K) (hi : i.Ok l pitch) (q : Int) (hdir : i.dir = 90 * q) :
    ∃ ph, atmoTrigger rotFn l pitch pos i = some (atmoMove l pitch pos i.wind i.dt, ph) ∧
      ∀ a < l.size, ∀ b < l.size, ∃ k : Nat, ∃ rem : K, 0 ≤ rem ∧ rem < 1 ∧
        atmoMove l pitch pos i.wind i.dt + atmoOffset l pitch i.wind + ((quarterSrc l.size)^[(q % 4).toNat] (a, b)).2 = k + rem ∧
        k + 1 < l.screen.cols ∧
        ph a b = ((1 - rem) * l.screen.px ((quarterSrc l.size)^[(q % 4).toNat] (a, b)).1 k +
          rem * l.screen.px ((quarterSrc l.size)^[(q % 4).toNat] (a, b)).1 (k + 1)) * i.scale := by
  obtain ⟨a1, a2, a3⟩ := atmoMove_inside l pitch pos hp hx h0 i hi
  obtain ⟨cut, c1, c2, c3, c4, c5⟩ := atmoCut_ok l hl _ a2 a3
  have h90 : i.dir / 90 = (q : K) := by rw [hdir]; field_simp
  have ht : truncPart (i.dir / 90) = q := by
    rw [h90]
    unfold truncPart
    split <;> simp
  have hsh := rot90_shape l.size (q % 4).toNat cut ⟨c2, c3⟩
  have hne : l.size ≠ 1 := by omega
  have hass : assignSquare l.size (cut.rot90k q) = some fun i j => (cut.rot90k q).px i j := by
    unfold assignSquare
    rw [show (cut.rot90k q).rows = l.size from hsh.1, show (cut.rot90k q).cols = l.size from hsh.2]
    simp only [true_or, and_self, if_true, if_neg hne]
  unfold atmoTrigger
  dsimp only
  rw [c1, Option.bind_some, ht, h90, sub_self, zero_mul, if_pos rfl, hass, Option.map_some]
  refine ⟨_, rfl, fun a ha b hb => ?_⟩
  obtain ⟨s1, s2⟩ := quarterSrc_lt l.size (q % 4).toNat (a, b) ⟨ha, hb⟩
  have hpx : (cut.rot90k q).px a b = cut.px ((quarterSrc l.size)^[(q % 4).toNat] (a, b)).1 ((quarterSrc l.size)^[(q % 4).toNat] (a, b)).2 :=
    rot90_px l.size _ cut ⟨c2, c3⟩ a b
  dsimp only
  rw [hpx]
  generalize (quarterSrc l.size)^[(q % 4).toNat] (a, b) = ab at s1 s2 ⊢
  refine ⟨⌊atmoMove l pitch pos i.wind i.dt + atmoOffset l pitch i.wind⌋₊ + ab.2,
    atmoMove l pitch pos i.wind i.dt + atmoOffset l pitch i.wind - ⌊atmoMove l pitch pos i.wind i.dt + atmoOffset l pitch i.wind⌋₊, ?_, ?_, ?_, by omega, ?_⟩
  · have := Nat.floor_le a2
    linarith
  · have := Nat.lt_floor_add_one (atmoMove l pitch pos i.wind i.dt + atmoOffset l pitch i.wind)
    linarith
  · push_cast
    ring
  · rw [c5 _ s1 _ s2]

/-! ### Advance and cycle -/

/-- Positions after a history. -/
def atmoPositions (l : AtmoLayer K) (pitch : K) (pos : K) (inps : List (AtmoIn K)) : K :=
  inps.foldl (fun p i => atmoMove l pitch p i.wind i.dt) pos

omit [IsStrictOrderedRing K] in
/-- The position of a run is that of the sequence of moves. -/
theorem atmoRun_position (rotFn : K → Img K → Img K) (l : AtmoLayer K) (pitch : K) (inps : List (AtmoIn K)) (st res : K × (Nat → Nat → K))
    (h : atmoRun rotFn l pitch st inps = some res) : res.1 = atmoPositions l pitch st.1 inps := by
  induction inps generalizing st with
  | nil => cases h; rfl
  | cons i inps ih =>
    unfold atmoRun at h
    rw [List.foldlM_cons] at h
    obtain ⟨s1, h1, h2⟩ := Option.bind_eq_some_iff.1 h
    have e : s1.1 = atmoMove l pitch st.1 i.wind i.dt := by
      unfold atmoTrigger at h1
      obtain ⟨cut, -, h1⟩ := Option.bind_eq_some_iff.1 h1
      obtain ⟨f, -, rfl⟩ := Option.map_eq_some_iff.1 h1
      rfl
    rw [ih s1 h2, e]
    rfl

/-- **C43** (advance): with constant wind, as long as the end of the screen is not reached the position is the wind times the elapsed
time, however the time is divided into steps. -/
theorem C43_advance (rotFn : K → Img K → Img K) (l : AtmoLayer K) (pitch wind : K) (hp : 0 < pitch) (hw : 0 ≤ wind) (inps : List (AtmoIn K))
    (hi : ∀ i ∈ inps, i.wind = wind ∧ 0 ≤ i.dt) (ph0 : Nat → Nat → K) (pos : K) (res : K × (Nat → Nat → K))
    (hrun : atmoRun rotFn l pitch (pos, ph0) inps = some res)
    (htot : pos + wind * (inps.map (·.dt)).sum / pitch + atmoOffset l pitch wind + l.size < l.screen.cols) :
    res.1 = pos + wind * (inps.map (·.dt)).sum / pitch := by
  rw [atmoRun_position rotFn l pitch inps _ res hrun]
  clear hrun
  dsimp only
  induction inps generalizing pos with
  | nil => simp [atmoPositions]
  | cons i inps ih =>
    have hi0 := hi i List.mem_cons_self
    have hsum : 0 ≤ (inps.map (·.dt)).sum := by
      refine List.sum_nonneg fun x hx => ?_
      obtain ⟨y, hy, rfl⟩ := List.mem_map.1 hx
      exact (hi y (List.mem_cons_of_mem _ hy)).2
    have hs' : 0 ≤ wind * (inps.map (·.dt)).sum / pitch := div_nonneg (mul_nonneg hw hsum) hp.le
    rw [List.map_cons, List.sum_cons, mul_add, add_div] at htot
    have hm : atmoMove l pitch pos i.wind i.dt = pos + wind * i.dt / pitch := by
      unfold atmoMove
      dsimp only
      rw [hi0.1, if_neg (by linarith)]
    have := ih (fun x hx => hi x (List.mem_cons_of_mem _ hx)) (pos + wind * i.dt / pitch) (by linarith)
    unfold atmoPositions at this ⊢
    rw [List.foldl_cons, hm, this, List.map_cons, List.sum_cons, mul_add, add_div]
    ring

omit [FloorRing K] in
/-- **C43** (cycle): with constant wind and constant steps of `d` pixels the position is periodic: `N` is the first number of steps that
would reach the end of the screen, and there the position jumps back to zero whatever the distance that was left. -/
theorem C43_cycle (l : AtmoLayer K) (pitch : K) (i : AtmoIn K) (d : K) (hd : i.wind * i.dt / pitch = d) (hd0 : 0 ≤ d) (N : Nat) (hN : 1 ≤ N)
    (hbefore : ((N - 1 : Nat) : K) * d + atmoOffset l pitch i.wind + l.size < l.screen.cols)
    (hat : (l.screen.cols : K) ≤ (N : K) * d + atmoOffset l pitch i.wind + l.size) (n : Nat) :
    atmoPositions l pitch 0 (List.replicate n i) = ((n % N : Nat) : K) * d := by
  induction n with
  | zero => simp [atmoPositions]
  | succ n ih =>
    have : atmoPositions l pitch 0 (List.replicate (n + 1) i) = atmoMove l pitch (atmoPositions l pitch 0 (List.replicate n i)) i.wind i.dt := by
      rw [List.replicate_succ']
      unfold atmoPositions
      rw [List.foldl_append]
      rfl
    rw [this, ih]
    unfold atmoMove
    dsimp only
    rw [hd]
    have hlt := Nat.mod_lt n (show N > 0 by omega)
    rcases Nat.lt_or_ge (n % N + 1) N with h | h
    · have hmod : (n + 1) % N = n % N + 1 := by
        rw [Nat.add_mod, Nat.mod_eq_of_lt (show 1 < N by omega), Nat.mod_eq_of_lt h]
      rw [hmod, if_neg]
      · push_cast
        ring
      · push Not
        have : ((n % N + 1 : Nat) : K) ≤ ((N - 1 : Nat) : K) := by exact_mod_cast (by omega : n % N + 1 ≤ N - 1)
        have := mul_le_mul_of_nonneg_right this hd0
        push_cast at this hbefore ⊢
        linarith
    · have e : n % N + 1 = N := by omega
      have hmod : (n + 1) % N = 0 := by
        rw [Nat.add_mod]
        rcases Nat.lt_or_ge 1 N with h1 | h1
        · rw [Nat.mod_eq_of_lt h1, e, Nat.mod_self]
        · have : N = 1 := by omega
          rw [this, Nat.mod_one]
      rw [hmod, if_pos]
      · simp
      · have e' : ((n % N : Nat) : K) + 1 = (N : K) := by rw [← e]; push_cast; rw [e]
        rw [ge_iff_le, show ((n % N : Nat) : K) * d + d = (N : K) * d by rw [← e']; ring]
        exact hat

/-- Effective positions below zero by at most the size of the layer (wind or extra time negative) raise: the slices are empty. -/
theorem C43_negative_raises (rotFn : K → Img K → Img K) (l : AtmoLayer K) (hl : l.Fits) (hc : l.size ≤ l.screen.cols) (hs : 2 ≤ l.size)
    (pitch pos : K) (i : AtmoIn K) (hdir : i.dir = 0) (hneg : atmoMove l pitch pos i.wind i.dt + atmoOffset l pitch i.wind < 0)
    (hmin : -(l.size : K) ≤ atmoMove l pitch pos i.wind i.dt + atmoOffset l pitch i.wind) :
    atmoTrigger rotFn l pitch pos i = none := by
  set eff := atmoMove l pitch pos i.wind i.dt + atmoOffset l pitch i.wind with heff
  have hf : ⌊eff⌋ < 0 := by
    rw [Int.floor_lt]
    simpa using hneg
  have hf' : -(l.size : Int) ≤ ⌊eff⌋ := by
    rw [Int.le_floor]
    push_cast
    exact hmin
  set p := ⌊eff⌋ with hp
  have hempty : ∀ q : Int, q < 0 → -(l.size : Int) ≤ q → ∃ c, sliceIdx l.screen.cols ⟨some q, some (q + l.size), none⟩ = some c ∧ c.length = 0 := by
    intro q hq hq'
    have hlen : (if adjustBound l.screen.cols 0 l.screen.cols q < adjustBound l.screen.cols 0 l.screen.cols (q + l.size) then
        ((adjustBound l.screen.cols 0 l.screen.cols (q + l.size) - adjustBound l.screen.cols 0 l.screen.cols q - 1) / 1 + 1).toNat else 0) = 0 := by
      rw [if_neg]
      unfold adjustBound
      split <;> split <;> (try split) <;> (try split) <;> omega
    simp only [sliceIdx, sliceRange, Option.getD_none, Option.map_some, Option.getD_some]
    rw [if_neg (by decide), if_neg (by decide)]
    refine ⟨_, rfl, ?_⟩
    simp only [List.length_map, List.length_range]
    exact hlen
  obtain ⟨c1, h1, l1⟩ := hempty p hf hf'
  have s0 : sliceIdx l.screen.rows ⟨some 0, some (l.size : Int), none⟩ = some ((List.range l.size).map (0 + ·)) := by
    have := sliceIdx_window l.screen.rows 0 l.size (by have := hl; unfold AtmoLayer.Fits at this; omega)
    simpa using this
  have htr : truncPart (i.dir / 90) = 0 := by rw [hdir]; simp [truncPart]
  have hcut : ∀ cut, atmoCut l eff = some cut → cut.cols = 0 := by
    intro cut hcut
    unfold atmoCut at hcut
    dsimp only at hcut
    rw [s0, Option.bind_some, ← hp, h1, Option.bind_some] at hcut
    obtain ⟨c2, h2, hcut⟩ := Option.bind_eq_some_iff.1 hcut
    obtain ⟨n, hn, rfl⟩ := Option.map_eq_some_iff.1 hcut
    dsimp only
    unfold bcastLen at hn
    rw [l1] at hn
    rcases lt_or_ge (p + 1) 0 with hq | hq
    · obtain ⟨c2', h2', l2⟩ := hempty (p + 1) hq (by omega)
      rw [show p + l.size + 1 = p + 1 + l.size by ring, h2', Option.some.injEq] at h2
      rw [← h2, l2] at hn
      simpa using hn.symm
    · have hq0 : p + 1 = ((0 : Nat) : Int) := by omega
      have := sliceIdx_window l.screen.cols 0 l.size (by omega)
      rw [show p + l.size + 1 = p + 1 + l.size by ring, hq0, this, Option.some.injEq] at h2
      rw [← h2, List.length_map, List.length_range, if_neg (by omega), if_neg (by omega), if_neg (by omega)] at hn
      cases hn
  unfold atmoTrigger
  dsimp only
  rw [← heff]
  cases hc' : atmoCut l eff with
  | none => rfl
  | some cut =>
    rw [Option.bind_some, htr, hdir]
    simp only [zero_div, Int.cast_zero, sub_zero, zero_mul, if_true, Img.rot90k, Int.zero_emod, Int.toNat_zero, Function.iterate_zero, id_eq, assignSquare,
      hcut cut hc']
    rw [if_neg (by omega)]
    rfl

end

/-! ### Strips of the square screens -/

theorem stripLoop_eq (m px n : Nat) (hm : 1 ≤ m) : stripLoop m px n = (List.range n).map fun i => (((i / m : Nat) : Int), px * (i % m)) := by
  have key : ∀ n, (List.range n).foldl (fun (st : Int × Nat × List (Int × Nat)) i =>
      let (sq, ps) := if i % m = 0 then (st.1 + 1, 0) else (st.1, st.2.1)
      (sq, ps + 1, st.2.2 ++ [(sq, px * ps)])) (-1, 0, []) =
      (if n = 0 then -1 else (((n - 1) / m : Nat) : Int), if n = 0 then 0 else (n - 1) % m + 1, (List.range n).map fun i => (((i / m : Nat) : Int), px * (i % m))) := by
    intro n
    induction n with
    | zero => rfl
    | succ n ih =>
      rw [List.range_succ, List.foldl_append, ih, List.foldl_cons, List.foldl_nil]
      dsimp only
      have hn1 : n + 1 ≠ 0 := by omega
      rw [if_neg hn1, if_neg hn1, Nat.add_sub_cancel, List.map_append, List.map_cons, List.map_nil]
      rcases Nat.eq_zero_or_pos n with rfl | hpos
      · simp
      · have hn0 : n ≠ 0 := by omega
        rw [if_neg hn0, if_neg hn0]
        have hdm := Nat.div_add_mod n m
        have hdm' := Nat.div_add_mod (n - 1) m
        have hlt := Nat.mod_lt (n - 1) (show m > 0 by omega)
        by_cases h : n % m = 0
        · rw [if_pos h]
          have hdiv : (n - 1) / m + 1 = n / m := by
            rw [h, Nat.add_zero] at hdm
            have hq : 1 ≤ n / m := by
              rcases Nat.eq_zero_or_pos (n / m) with h0 | h0
              · rw [h0, Nat.mul_zero] at hdm; omega
              · exact h0
            have : (n - 1) / m = n / m - 1 := by
              rw [Nat.div_eq_of_lt_le]
              · rw [Nat.sub_mul, Nat.mul_comm (n / m), hdm]; omega
              · rw [Nat.sub_add_cancel hq, Nat.mul_comm (n / m), hdm]; omega
            omega
          have : (((n - 1) / m : Nat) : Int) + 1 = ((n / m : Nat) : Int) := by rw [← hdiv]; push_cast; ring
          dsimp only
          rw [this, h]
        · rw [if_neg h]
          have hdiv : (n - 1) / m = n / m := by
            rw [Nat.div_eq_of_lt_le]
            · rw [Nat.mul_comm]; omega
            · rw [Nat.add_mul, Nat.one_mul, Nat.mul_comm]
              have := Nat.mod_lt n (show m > 0 by omega)
              omega
          have hmod : (n - 1) % m + 1 = n % m := by
            rw [hdiv] at hdm'
            omega
          dsimp only
          rw [hdiv, hmod]
  unfold stripLoop
  rw [key n]

/-- **C43** (strips): each layer gets its own strip: the square screen exists, the strip lies inside it, and two layers never share rows
of a square screen. -/
theorem C43_strips (square px n : Nat) (hpx : 1 ≤ px) (hsq : px ≤ square) :
    let strips := stripLoop (stripsPerSquare square px) px n
    strips.length = n ∧ ∀ i (hi : i < strips.length), 0 ≤ strips[i].1 ∧ strips[i].1 < nSquares n (stripsPerSquare square px) ∧
      strips[i].2 + px ≤ square ∧ ∀ j (hj : j < strips.length), i ≠ j → strips[i].1 = strips[j].1 →
        strips[i].2 + px ≤ strips[j].2 ∨ strips[j].2 + px ≤ strips[i].2 := by
  have hm : 1 ≤ stripsPerSquare square px := (Nat.one_le_div_iff (by omega)).2 hsq
  have hmpx : px * stripsPerSquare square px ≤ square := Nat.mul_div_le square px
  set m := stripsPerSquare square px with hmdef
  intro strips
  have hst : strips = (List.range n).map fun i => (((i / m : Nat) : Int), px * (i % m)) := stripLoop_eq m px n hm

  have hlen : strips.length = n := by rw [hst]; simp
  refine ⟨hlen, fun i hi => ?_⟩
  have hget : ∀ k (hk : k < strips.length), strips[k] = (((k / m : Nat) : Int), px * (k % m)) := by
    intro k hk
    simp only [hst, List.getElem_map, List.getElem_range]
  rw [hget i hi]
  have hlt := Nat.mod_lt i (show m > 0 by omega)
  have hin : i < n := by omega
  have hrow : ∀ a b, a < b → px * a + px ≤ px * b := by
    intro a b hab
    calc px * a + px = px * (a + 1) := by ring
      _ ≤ px * b := Nat.mul_le_mul_left px hab
  refine ⟨Int.natCast_nonneg _, ?_, le_trans (hrow _ _ hlt) hmpx, fun j hj hij he => ?_⟩
  · have : i / m < nSquares n m := by
      unfold nSquares
      rw [Nat.div_lt_iff_lt_mul (by omega)]
      have h1 := Nat.div_add_mod (n + m - 1) m
      have h2 := Nat.mod_lt (n + m - 1) (show m > 0 by omega)
      have h3 : (n + m - 1) / m * m = m * ((n + m - 1) / m) := Nat.mul_comm _ _
      omega
    dsimp only
    exact_mod_cast this
  · rw [hget j hj] at he ⊢
    have he' : i / m = j / m := by
      dsimp only at he
      exact_mod_cast he
    have h1 := Nat.div_add_mod i m
    have h2 := Nat.div_add_mod j m
    rw [he'] at h1
    have hne : i % m ≠ j % m := by omega
    rcases Nat.lt_or_gt_of_ne hne with h | h
    · exact Or.inl (hrow _ _ h)
    · exact Or.inr (hrow _ _ h)

/-! ### Size of the layers and field of view -/

/-- **C43** (field of view): with the pupil at the centre, the layers are even and large enough that every source within half of the
field of view is accepted by the propagation, and sees the inside of the layer (C53). -/
theorem C43_field_of_view (pupil : Nat) (pitch airmass fov height : ℝ) (hp : 0 < pitch) (ha : 0 < airmass) (hh : 0 ≤ height) (L : Nat)
    (hL : pixelLayer pupil pitch (0, 0) (height * airmass) fov = L) (s : SrcGeom ℝ) (hr0 : 0 ≤ s.r) (hr : s.r ≤ fov / 2)
    (hc : |s.cosPhi| ≤ 1) (hs : |s.sinPhi| ≤ 1) (l : LayerGeom ℝ) (hl : l.rows = L ∧ l.cols = L) (hlp : l.pitch = pitch) (hlh : l.height = height) :
    2 ∣ L ∧ pupil ≤ L ∧ (layerInterp airmass pupil none s l).isSome := by
  have hfov : 0 ≤ fov := by linarith
  have hdist : |height * airmass| = height * airmass := abs_of_nonneg (mul_nonneg hh ha.le)
  have hsz : (pupil : ℝ) + height * airmass / pitch * fov ≤ L := by
    have h1 := Int.le_ceil (((pupil : ℝ) + 2 * Real.sqrt ((0 : ℝ) * 2 + 0 * 2) / pitch + |height * airmass| / pitch * fov) / 2)
    have h2 : ((⌈((pupil : ℝ) + 2 * Real.sqrt ((0 : ℝ) * 2 + 0 * 2) / pitch + |height * airmass| / pitch * fov) / 2⌉ * 2 : ℤ) : ℝ) = (L : ℝ) := by
      have : pixelLayer pupil pitch (0, 0) (height * airmass) fov = (L : ℤ) := hL
      unfold pixelLayer at this
      dsimp only at this
      rw [this]
      simp
    push_cast at h2
    have h0 : (0 : ℝ) * 2 + 0 * 2 = 0 := by ring
    rw [h0, Real.sqrt_zero, mul_zero, zero_div, add_zero, hdist] at h1 h2
    linarith
  have hspan : 0 ≤ height * airmass / pitch * fov := mul_nonneg (div_nonneg (mul_nonneg hh ha.le) hp.le) hfov
  refine ⟨?_, ?_, ?_⟩
  · have : (2 : ℤ) ∣ (L : ℤ) := by rw [← hL]; exact Dvd.intro_left _ rfl
    exact_mod_cast this
  · have : (pupil : ℝ) ≤ L := by linarith
    exact_mod_cast this
  · have hpos : ∀ c : ℝ, |c| ≤ 1 → |s.r * l.height * airmass / l.pitch * c| ≤ ((L : ℝ) - pupil) / 2 := by
      intro c hc
      have hd : 0 ≤ s.r * l.height * airmass / l.pitch := by rw [hlp, hlh]; positivity
      rw [abs_mul, abs_of_nonneg hd]
      have e : s.r * l.height * airmass / l.pitch = height * airmass / pitch * s.r := by rw [hlp, hlh]; ring
      have : s.r * l.height * airmass / l.pitch * |c| ≤ s.r * l.height * airmass / l.pitch := mul_le_of_le_one_right hd hc
      have h2 : height * airmass / pitch * s.r ≤ height * airmass / pitch * (fov / 2) :=
        mul_le_mul_of_nonneg_left hr (div_nonneg (mul_nonneg hh ha.le) hp.le)
      rw [e] at this
      rw [e]
      linarith
    unfold layerInterp
    dsimp only
    rw [if_pos]
    · rfl
    · rw [hl.1, hl.2]
      have eb : beamPos airmass pupil none s l = (s.r * l.height * airmass / l.pitch * s.cosPhi, s.r * l.height * airmass / l.pitch * s.sinPhi) := by
        unfold beamPos
        cases s.height <;> rfl
      rw [eb]
      exact ⟨hpos _ hc, hpos _ hs⟩

/-- With the pupil away from the centre the layers are too small (the coordinates are doubled instead of squared): a pupil at (4, 0)
metres does not fit on a layer at the ground, and the propagation refuses it. -/
theorem C43_pupil_position_too_small (l : LayerGeom ℝ) (s : SrcGeom ℝ) (hinf : s.height = none) (hl : (l.rows : ℤ) = pixelLayer 10 1 (4, 0) 0 0)
    (hlp : l.pitch = 1) (hlh : l.height = 0) : l.rows = 16 ∧ layerInterp 1 10 (some (4, 0)) s l = none := by
  have hc : ⌈(((10 : Nat) : ℝ) + 2 * Real.sqrt (4 * 2 + 0 * 2) / 1 + |(0 : ℝ)| / 1 * 0) / 2⌉ = 8 := by
    rw [Int.ceil_eq_iff]
    have h1 : (2 : ℝ) < Real.sqrt (4 * 2 + 0 * 2) := by
      rw [Real.lt_sqrt (by norm_num)]; norm_num
    have h2 : Real.sqrt (4 * 2 + 0 * 2) ≤ 3 := by
      rw [Real.sqrt_le_left (by norm_num)]; norm_num
    push_cast
    norm_num at h1 h2 ⊢
    constructor <;> linarith
  have h16 : l.rows = 16 := by
    unfold pixelLayer at hl
    dsimp only at hl
    rw [hc] at hl
    omega
  refine ⟨h16, ?_⟩
  unfold layerInterp
  dsimp only
  rw [if_neg]
  rintro ⟨h1, -⟩
  unfold beamPos at h1
  rw [hinf] at h1
  dsimp only at h1
  rw [h16, if_pos (by decide), hlp, hlh] at h1
  norm_num at h1

/-! ### Concrete cases -/

/-- A layer of two pixels on a screen of three rows and eight columns. -/
def atmoExample : AtmoLayer ℚ := ⟨2, ⟨3, 8, fun i j => 100 * i + j * j⟩, 1⟩

example : atmoExample.Fits ∧ (AtmoIn.mk (3 / 2 : ℚ) 0 1 2).Ok atmoExample 1 := by
  refine ⟨by unfold AtmoLayer.Fits; decide, ?_⟩
  unfold AtmoIn.Ok
  decide +kernel

/-- Second trigger: position 3, effective position 4.5, between columns 4 and 5. -/
example : (atmoRun (fun _ m => m) atmoExample 1 (0, fun _ _ => 0) [⟨3 / 2, 0, 1, 2⟩, ⟨3 / 2, 0, 1, 2⟩]).map (fun r => (r.1, r.2 0 0, r.2 1 1)) =
    some (3, 41, 261) := by decide +kernel

/-- Third trigger: the end is reached and the position restarts from zero. -/
example : (atmoRun (fun _ m => m) atmoExample 1 (0, fun _ _ => 0) (List.replicate 3 ⟨3 / 2, 0, 1, 2⟩)).map (fun r => r.1) = some 0 := by decide +kernel

/-- A quarter turn. -/
example : (atmoTrigger (fun _ m => m) atmoExample 1 0 ⟨1, 90, 1, 1⟩).map (fun r => (r.2 0 0, r.2 0 1, r.2 1 0)) = some (9, 109, 4) := by decide +kernel

example : stripLoop (stripsPerSquare 10 3) 3 5 = [(0, 0), (0, 3), (0, 6), (1, 0), (1, 3)] ∧ nSquares 5 (stripsPerSquare 10 3) = 2 := by decide

end Specula
