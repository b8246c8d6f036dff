import Verif.Model.Fits
import Mathlib.Tactic.Linarith
import Mathlib.Tactic.Ring
import Mathlib.Tactic.NormNum

/-!
# C48: saved data objects restore to equal objects
-/

namespace Specula

section
variable {K : Type}

/-- Specification: the array survives the conversion to the global precision. -/
def NdArr.Fixed (c : Codec K) (a : NdArr K) : Prop := ∀ x ∈ a.data, c.cast x = x

/-- Specification: the value is finite and survives the header. -/
def FixedCard (c : Codec K) (x : Option K) : Prop := ∃ y, x = some y ∧ c.card y = y

theorem NdArr.cast_fixed (c : Codec K) (a : NdArr K) (h : a.Fixed c) : a.cast c = a := by
  unfold NdArr.cast
  have : a.data.map c.cast = a.data := by
    conv_rhs => rw [← List.map_id a.data]
    exact List.map_congr_left fun x hx => h x hx
  rw [this]

theorem fltCard_fixed (c : Codec K) (x : Option K) (h : FixedCard c x) : ∃ y, x = some y ∧ fltCard c x = some (.flt y) := by
  obtain ⟨y, rfl, hy⟩ := h
  exact ⟨y, rfl, by simp [fltCard, hy]⟩

/-- Headers: what a key gives. -/
theorem Header.get_cons (k : String) (v : Card K) (h : Header K) (key : String) :
    Header.get ((k, v) :: h) key = if k = key then some v else Header.get h key := by
  unfold Header.get
  by_cases hk : k = key <;> simp [hk]

/-- Transposing twice gives the array back. -/
theorem NdArr.T_T {α : Type} (a : NdArr α) (m n : ℕ) (hs : a.shape = [m, n]) (hl : a.data.length = m * n) : a.T.T = a := by
  obtain ⟨shape, data⟩ := a
  dsimp only at hs hl
  subst hs
  -- the transpose as a list
  have hT : ∀ (m n : ℕ) (d : List α) (hd : d.length = m * n),
      ((List.range (n * m)).filterMap fun k => d[k % m * n + k / m]?) = List.ofFn (n := n * m) fun k =>
        d[k.val % m * n + k.val / m]'(by
          have hk := k.isLt
          have hm : 0 < m := by rcases Nat.eq_zero_or_pos m with h | h; · subst h; simp at hk
                                · exact h
          have h1 : k.val % m < m := Nat.mod_lt _ hm
          have h2 : k.val / m < n := by rw [Nat.div_lt_iff_lt_mul hm]; exact hk
          rw [hd]
          calc k.val % m * n + k.val / m < k.val % m * n + n := by omega
            _ = (k.val % m + 1) * n := by ring
            _ ≤ m * n := Nat.mul_le_mul_right _ h1) := by
    intro m n d hd
    have hin : ∀ k ∈ List.range (n * m), k % m * n + k / m < d.length := by
      intro k hk
      rw [List.mem_range] at hk
      have hm : 0 < m := by rcases Nat.eq_zero_or_pos m with h | h; · subst h; simp at hk
                            · exact h
      have h1 : k % m < m := Nat.mod_lt _ hm
      have h2 : k / m < n := by rw [Nat.div_lt_iff_lt_mul hm]; exact hk
      rw [hd]
      calc k % m * n + k / m < k % m * n + n := by omega
        _ = (k % m + 1) * n := by ring
        _ ≤ m * n := Nat.mul_le_mul_right _ h1
    apply List.ext_getElem?
    intro i
    have hfm : ((List.range (n * m)).filterMap fun k => d[k % m * n + k / m]?) =
        (List.range (n * m)).attach.map fun k => d[k.1 % m * n + k.1 / m]'(hin k.1 k.2) := by
      have : ∀ (l : List ℕ) (hl : ∀ k ∈ l, k % m * n + k / m < d.length),
          (l.filterMap fun k => d[k % m * n + k / m]?) = l.attach.map fun k => d[k.1 % m * n + k.1 / m]'(hl k.1 k.2) := by
        intro l
        induction l with
        | nil => intro _; rfl
        | cons a l ih =>
          intro hl
          have ha : d[a % m * n + a / m]? = some (d[a % m * n + a / m]'(hl a (List.mem_cons_self ..))) := List.getElem?_eq_getElem _
          rw [List.filterMap_cons, ha]
          simp only [List.attach_cons, List.map_cons, List.map_map]
          rw [ih fun k hk => hl k (List.mem_cons_of_mem _ hk)]
          rfl
      exact this _ hin
    rw [hfm]
    by_cases hi : i < n * m
    · rw [List.getElem?_eq_getElem (by simpa using hi), List.getElem?_eq_getElem (by simpa using hi)]
      simp
    · rw [List.getElem?_eq_none (by simpa using hi), List.getElem?_eq_none (by simpa using hi)]
  have hlen : ∀ (m n : ℕ) (d : List α) (hd : d.length = m * n),
      ((List.range (n * m)).filterMap fun k => d[k % m * n + k / m]?).length = n * m := by
    intro m n d hd
    rw [hT m n d hd]
    simp
  show (NdArr.T ⟨[n, m], _⟩ : NdArr α) = _
  unfold NdArr.T
  dsimp only
  congr 1
  rw [hT n m _ (hlen m n data hl)]
  apply List.ext_getElem
  · simp [hl]
  · intro i h1 h2
    rw [List.getElem_ofFn]
    have hi : i < m * n := by simpa using h1
    have hn : 0 < n := by
      rcases Nat.eq_zero_or_pos n with h | h
      · subst h; simp at hi
      · exact h
    have key : ∀ (l : List α) (hl' : l = List.ofFn (n := n * m) fun k => data[k.val % m * n + k.val / m]'(by
          have hk := k.isLt
          have hm : 0 < m := by rcases Nat.eq_zero_or_pos m with h | h; · subst h; simp at hk
                                · exact h
          have h1 : k.val % m < m := Nat.mod_lt _ hm
          have h2 : k.val / m < n := by rw [Nat.div_lt_iff_lt_mul hm]; exact hk
          rw [hl]
          calc k.val % m * n + k.val / m < k.val % m * n + n := by omega
            _ = (k.val % m + 1) * n := by ring
            _ ≤ m * n := Nat.mul_le_mul_right _ h1)) (j : ℕ) (hj : j < l.length) (hji : j % m * n + j / m = i), l[j] = data[i] := by
      intro l hl' j hj hji
      subst hl'
      rw [List.getElem_ofFn]
      simp only [hji]
    refine key _ (hT m n data hl) _ _ ?_
    have hq : i / n < m := by rw [Nat.div_lt_iff_lt_mul hn]; exact hi
    have h3 : (i % n * m + i / n) % m = i / n := by
      rw [Nat.add_comm, Nat.add_mul_mod_self_right, Nat.mod_eq_of_lt hq]
    have h4 : (i % n * m + i / n) / m = i % n := by
      have hm : 0 < m := by omega
      rw [Nat.add_comm, Nat.add_mul_div_right _ _ hm, Nat.div_eq_of_lt hq, Nat.zero_add]
    show (i % n * m + i / n) % m * n + (i % n * m + i / n) / m = i
    rw [h3, h4]
    exact Nat.div_add_mod' i n

/-- Simplification of headers on the keys written. -/
syntax "hdr_simp" : tactic
macro_rules
  | `(tactic| hdr_simp) => `(tactic| simp [Header.int, Header.flt, Header.str, Header.get, Card.toInt, Card.toFlt, Card.toStr, Fits.arr, Fits.iarr, Hdu.toF, Hdu.toI, storeArr])

/-- Electric fields come back whole. -/
theorem C48_electric_field (c : Codec K) (o : EfObj K) (ny nx : ℕ) (ha : o.amp.shape = [ny, nx]) (hp : o.phase.shape = [ny, nx])
    (h1 : o.amp.Fixed c) (h2 : o.phase.Fixed c) (h3 : FixedCard c o.pitch) (h4 : FixedCard c o.s0) :
    ∃ f, o.save c = some f ∧ EfObj.restore c f = some o := by
  obtain ⟨amp, phase, pitch, s0⟩ := o
  dsimp only at *
  obtain ⟨p, rfl, hp1⟩ := fltCard_fixed c _ h3
  obtain ⟨s, rfl, hs1⟩ := fltCard_fixed c _ h4
  refine ⟨_, by simp only [EfObj.save, ha, hp1, hs1]; rfl, ?_⟩
  simp only [EfObj.restore]
  hdr_simp
  simp [ha, hp, NdArr.cast_fixed c _ h1, NdArr.cast_fixed c _ h2]

/-- Layers come back with their geometry, except that `S0` becomes zero. -/
theorem C48_layer [Zero K] (c : Codec K) (o : LayerObj K) (ny nx : ℕ) (ha : o.amp.shape = [ny, nx]) (hp : o.phase.shape = [ny, nx])
    (h1 : o.amp.Fixed c) (h2 : o.phase.Fixed c) (h3 : FixedCard c o.pitch) (h4 : FixedCard c o.height) (h5 : FixedCard c o.shiftX)
    (h6 : FixedCard c o.shiftY) (h7 : FixedCard c o.rot) (h8 : FixedCard c o.magnification) (hx : ∀ x, o.shiftX = some x → c.cast x = x)
    (hy : ∀ x, o.shiftY = some x → c.cast x = x) :
    ∃ f, o.save c = some f ∧ LayerObj.restore c f = some { o with s0 := some 0 } := by
  obtain ⟨amp, phase, pitch, s0, height, sx, sy, rot, mag⟩ := o
  dsimp only at *
  obtain ⟨v3, rfl, e3⟩ := fltCard_fixed c _ h3
  obtain ⟨v4, rfl, e4⟩ := fltCard_fixed c _ h4
  obtain ⟨v5, rfl, e5⟩ := fltCard_fixed c _ h5
  obtain ⟨v6, rfl, e6⟩ := fltCard_fixed c _ h6
  obtain ⟨v7, rfl, e7⟩ := fltCard_fixed c _ h7
  obtain ⟨v8, rfl, e8⟩ := fltCard_fixed c _ h8
  refine ⟨_, by simp only [LayerObj.save, ha, e3, e4, e5, e6, e7, e8]; rfl, ?_⟩
  simp only [LayerObj.restore]
  hdr_simp
  simp [ha, hp, NdArr.cast_fixed c _ h1, NdArr.cast_fixed c _ h2, hx v5 rfl, hy v6 rfl]

/-- Pupil stops come back with their mask and geometry; the phase and `S0` become zero. -/
theorem C48_pupilstop [Zero K] (c : Codec K) (o : LayerObj K) (n : ℕ) (ha : o.amp.shape = [n, n]) (h0 : o.height = some 0)
    (h1 : o.amp.Fixed c) (h3 : FixedCard c o.pitch) (h5 : FixedCard c o.shiftX)
    (h6 : FixedCard c o.shiftY) (h7 : FixedCard c o.rot) (h8 : FixedCard c o.magnification) (hx : ∀ x, o.shiftX = some x → c.cast x = x)
    (hy : ∀ x, o.shiftY = some x → c.cast x = x) :
    ∃ f, pupilstopSave c o = some f ∧ pupilstopRestore c f = some { o with phase := NdArr.zeros [n, n], s0 := some 0 } := by
  obtain ⟨amp, phase, pitch, s0, height, sx, sy, rot, mag⟩ := o
  dsimp only at *
  obtain ⟨v3, rfl, e3⟩ := fltCard_fixed c _ h3
  obtain ⟨v5, rfl, e5⟩ := fltCard_fixed c _ h5
  obtain ⟨v6, rfl, e6⟩ := fltCard_fixed c _ h6
  obtain ⟨v7, rfl, e7⟩ := fltCard_fixed c _ h7
  obtain ⟨v8, rfl, e8⟩ := fltCard_fixed c _ h8
  subst h0
  refine ⟨_, by simp only [pupilstopSave, ha, e3, e5, e6, e7, e8]; rfl, ?_⟩
  simp only [pupilstopRestore]
  hdr_simp
  simp [ha, NdArr.cast_fixed c _ h1, hx v5 rfl, hy v6 rfl]

/-- Intensities come back whole. -/
theorem C48_intensity (c : Codec K) (a : NdArr K) (ny nx : ℕ) (ha : a.shape = [ny, nx]) (h1 : a.Fixed c) :
    ∃ f, intensitySave a = some f ∧ intensityRestore c f = some a := by
  refine ⟨_, by simp only [intensitySave, ha]; rfl, ?_⟩
  simp only [intensityRestore]
  hdr_simp
  simp [ha, NdArr.cast_fixed c _ h1]

/-- Pixels come back whole, for every number of bits that can be constructed. -/
theorem C48_pixels (c : Codec K) (o : PixObj K) (ny nx : ℕ) (ha : o.pixels.shape = [ny, nx]) (h1 : o.pixels.Fixed c) (hb : o.bpp ≤ 64) :
    ∃ f, o.save = some f ∧ PixObj.restore c f = some o := by
  obtain ⟨px, bpp, signed⟩ := o
  dsimp only at *
  refine ⟨_, by simp only [PixObj.save, ha]; rfl, ?_⟩
  simp only [PixObj.restore]
  hdr_simp
  simp [ha, NdArr.cast_fixed c _ h1, hb]

/-- Slopes come back with their order; tags that are not set come back as empty strings, others without trailing blanks. -/
theorem C48_slopes (c : Codec K) (o : SlopesObj K) (ha : o.slopes.shape = [o.slopes.data.length]) (h1 : o.slopes.Fixed c)
    (hp : (o.pupTag.getD []).all printable = true) (hs : (o.subapTag.getD []).all printable = true) :
    ∃ f, o.save = some f ∧
      SlopesObj.restore c f = some { o with pupTag := some (rstrip (o.pupTag.getD [])), subapTag := some (rstrip (o.subapTag.getD [])) } := by
  obtain ⟨sl, il, pt, st⟩ := o
  dsimp only at *
  refine ⟨_, by simp only [SlopesObj.save, strCard, hp, hs, if_true]; rfl, ?_⟩
  simp only [SlopesObj.restore]
  hdr_simp
  rw [if_pos ha]
  simp [NdArr.cast_fixed c _ h1]

/-- Sources at a finite height come back whole (band without trailing blanks). -/
theorem C48_source [Add K] (c : Codec K) (orig error : K × K) (mag wl height zp : Option K) (band : List Char)
    (ho : c.card orig.1 = orig.1 ∧ c.card orig.2 = orig.2) (he : c.card error.1 = error.1 ∧ c.card error.2 = error.2)
    (h1 : FixedCard c mag) (h2 : FixedCard c wl) (h3 : FixedCard c height) (h4 : FixedCard c zp) (hb : band.all printable = true)
    (hb' : rstrip band = band) :
    ∃ f, (mkSource c orig error mag wl height band zp).save c = some f ∧
      SourceObj.restore c f = some (mkSource c orig error mag wl height band zp) := by
  obtain ⟨v1, rfl, e1⟩ := fltCard_fixed c _ h1
  obtain ⟨v2, rfl, e2⟩ := fltCard_fixed c _ h2
  obtain ⟨v3, rfl, e3⟩ := fltCard_fixed c _ h3
  obtain ⟨v4, rfl, e4⟩ := fltCard_fixed c _ h4
  refine ⟨_, by simp only [SourceObj.save, mkSource, e1, e2, e3, e4, strCard, hb, if_true]; rfl, ?_⟩
  simp only [SourceObj.restore]
  hdr_simp
  simp [ho, he, hb']

/-- A source at infinity, the default, cannot be saved. -/
theorem C48_source_at_infinity (c : Codec K) (o : SourceObj K) (h : o.height = none) : o.save c = none := by
  unfold SourceObj.save
  cases fltCard c o.magnitude with
  | none => simp
  | some a =>
    cases fltCard c o.wavelength with
    | none => simp
    | some b => simp [h, fltCard]

/-- Laser launch telescopes come back with the focus already multiplied by the airmass (airmass 1, zenith angle 0); a position that was
not given comes back as the origin. -/
theorem C48_llt [MulOneClass K] [Zero K] (c : Codec K) (o : LltObj K) (pos : List K)
    (hpos : pos = if o.telPos = [] then [0, 0, 0] else o.telPos) (hl : pos.length = 3) (hc : ∀ x ∈ pos, c.card x = x)
    (h1 : FixedCard c o.spotSize) (h2 : FixedCard c o.beaconFocus) (ht : c.card o.beaconTt.1 = o.beaconTt.1 ∧ c.card o.beaconTt.2 = o.beaconTt.2) :
    ∃ f, o.save c = some f ∧ LltObj.restore f = some { o with telPos := pos, airmass := 1 } := by
  obtain ⟨spot, telPos, foc, tt, am⟩ := o
  dsimp only at *
  obtain ⟨v1, rfl, e1⟩ := fltCard_fixed c _ h1
  obtain ⟨v2, rfl, e2⟩ := fltCard_fixed c _ h2
  have hpos' : (if telPos.isEmpty = true then [0, 0, 0] else telPos) = pos := by
    rw [hpos]; cases telPos <;> simp
  match pos, hl with
  | [x, y, z], _ =>
    have hx := hc x (by simp)
    have hy := hc y (by simp)
    have hz := hc z (by simp)
    refine ⟨_, by simp only [LltObj.save, hpos', e1, e2]; rfl, ?_⟩
    simp only [LltObj.restore]
    hdr_simp
    simp [mkLlt, hx, hy, hz, ht]

/-- Reconstruction matrices come back with their normalisation; the layer map is in the file but dropped. -/
theorem C48_recmat (c : Codec K) (o : RecmatObj K) (h : FixedCard c o.normFactor) :
    ∃ f, o.save c = some f ∧ RecmatObj.restore f = some { o with modes2recLayer := none } ∧
      (∀ m, o.modes2recLayer = some m → f.arr 1 = some m) := by
  obtain ⟨m, nf, ml⟩ := o
  dsimp only at *
  obtain ⟨v, rfl, e⟩ := fltCard_fixed c _ h
  refine ⟨_, by simp only [RecmatObj.save, e]; rfl, ?_, ?_⟩
  · simp only [RecmatObj.restore, mkRecmat]
    hdr_simp
  · intro m' hm
    subst hm
    rfl

/-- Interaction matrices: the matrix comes back, but the tags come back as slope statistics and the normalisation as the pupil tag,
whatever was saved; and what comes back cannot be saved again. -/
theorem C48_intmat [Zero K] (c : Codec K) (m : NdArr K) (mm rms : Option (NdArr K)) (pt st : List Char) (nf : K)
    (hp : pt.all printable = true) (hs : st.all printable = true) (hn : c.card nf = nf) :
    let opt : Option (NdArr K) → AttrVal K := fun a => a.elim .none .arr
    ∃ f o', (IntmatObj.mk m (opt mm) (opt rms) (.str pt) (.str st) (.flt nf)).save c = some f ∧ IntmatObj.restore f = some o' ∧ o'.intmat = m ∧
      o'.normFactor = .flt 0 ∧ o'.pupTag = .flt nf ∧ o'.subapTag = .str [] ∧ o'.slopeMm = .str (rstrip pt) ∧ o'.slopeRms = .str (rstrip st) ∧
      o'.save c = none := by
  intro opt
  have hopt : ∀ a, (opt a).hdu = some (a.map Hdu.f).toList := by
    intro a
    cases a <;> rfl
  obtain ⟨f, hf⟩ : ∃ f, (IntmatObj.mk m (opt mm) (opt rms) (.str pt) (.str st) (.flt nf)).save c = some f :=
    ⟨_, by simp only [IntmatObj.save, AttrVal.card, strCard, hp, hs, if_true, hopt, hn]; rfl⟩
  refine ⟨f, { intmat := m, slopeMm := .str (rstrip pt), slopeRms := .str (rstrip st), pupTag := .flt nf, subapTag := .str [], normFactor := .flt 0 },
    hf, ?_, rfl, rfl, rfl, rfl, rfl, rfl, ?_⟩
  · simp only [IntmatObj.save, AttrVal.card, strCard, hp, hs, if_true, hopt, hn] at hf
    cases hf
    simp only [IntmatObj.restore]
    hdr_simp
  · simp only [IntmatObj.save, AttrVal.card, AttrVal.hdu, strCard]
    simp

/-- So the normalisation is lost unless it was zero. -/
theorem C48_intmat_normalisation_lost : ∃ (o o' : IntmatObj ℚ) (f : Fits ℚ), o.normFactor = .flt 2 ∧ o.save ⟨id, id⟩ = some f ∧ IntmatObj.restore f = some o' ∧
    o'.normFactor = .flt 0 ∧ o'.pupTag = .flt 2 := by
  obtain ⟨f, o', h1, h2, -, h4, h5, -⟩ := C48_intmat (K := ℚ) ⟨id, id⟩ ⟨[1, 1], [7]⟩ none none [] [] 2 rfl rfl rfl
  exact ⟨_, o', f, rfl, h1, h2, h4, h5⟩

/-- Influence functions and their inverses come back whole, though the file holds the transpose. -/
theorem C48_ifunc (c : Codec K) (conv : Bool) (ifunc mask : NdArr K) (m n : ℕ) (hs : ifunc.shape = [m, n]) (hl : ifunc.data.length = m * n)
    (h : ifunc.Fixed c) : ifuncRestore c conv (ifuncSave ifunc mask) = some (ifunc, mask) := by
  simp only [ifuncRestore, ifuncSave]
  hdr_simp
  rw [NdArr.T_T ifunc m n hs hl, NdArr.cast_fixed c _ h]
  cases conv <;> rfl

/-- Mode to command matrices come back, without their normalisation. -/
theorem C48_m2c (c : Codec K) (o : M2cObj K) (h : o.m2c.Fixed c) : M2cObj.restore c o.save = some { o with normFactor := none } := by
  simp only [M2cObj.restore, M2cObj.save]
  hdr_simp
  exact NdArr.cast_fixed c _ h

/-- Sub-aperture data come back whole. -/
theorem C48_subapdata (c : Codec K) (o : SubapObj K) (m n : ℕ) (hs : o.idxs.shape = [m, n]) (hl : o.idxs.data.length = m * n)
    (h : FixedCard c o.energyTh) : ∃ f, o.save c = some f ∧ SubapObj.restore f = some o := by
  obtain ⟨idxs, dm, nx, ny, th⟩ := o
  dsimp only at *
  obtain ⟨v, rfl, e⟩ := fltCard_fixed c _ h
  refine ⟨_, by simp only [SubapObj.save, e]; rfl, ?_⟩
  simp only [SubapObj.restore]
  hdr_simp
  exact NdArr.T_T idxs m n hs hl

/-- Pupil data come back, with the choice of slopes from intensities switched off. -/
theorem C48_pupdata (c : Codec K) (o : PupObj K) (h1 : o.radius.Fixed c) (h2 : o.cx.Fixed c) (h3 : o.cy.Fixed c) :
    PupObj.restore c o.save = some { o with slopesFromIntensity := false } := by
  simp only [PupObj.restore, PupObj.save]
  hdr_simp
  simp [NdArr.cast_fixed c _ h1, NdArr.cast_fixed c _ h2, NdArr.cast_fixed c _ h3]

end

section
variable {K : Type} [_root_.Field K] [DecidableEq K]

/-- Aligning twice is aligning once, if the highest of the declared coefficients is not zero. -/
theorem align_twice (ord : ℕ) (row : List K) (h : 0 < ord → ord < row.length → row.getD (ord - 1) 0 ≠ 0) :
    alignCoef ord (alignCoef ord row) = alignCoef ord row := by
  by_cases h0 : ord = 0
  · subst h0
    simp only [alignCoef, List.drop_zero, List.take_zero, List.append_nil, ite_self]
  by_cases hc : ord < row.length ∧ (row.drop ord).all (· = 0) = true
  · have e1 : alignCoef ord row = row.drop ord ++ row.take ord := by unfold alignCoef; rw [if_pos hc]
    rw [e1]
    unfold alignCoef
    rw [if_neg]
    rintro ⟨-, h2⟩
    have hne := h (by omega) hc.1
    apply hne
    rw [List.all_eq_true] at h2
    have hmem : row.getD (ord - 1) 0 ∈ (row.drop ord ++ row.take ord).drop ord := by
      rw [List.mem_iff_getElem]
      refine ⟨row.length - ord - 1, ?_, ?_⟩
      · have := hc.1
        simp only [List.length_drop, List.length_append, List.length_take]; omega
      · have := hc.1
        rw [List.getElem_drop, List.getElem_append_right (by simp only [List.length_drop]; omega)]
        rw [List.getElem_take]
        rw [List.getD_eq_getElem?_getD, List.getElem?_eq_getElem (by omega), Option.getD_some]
        congr 1
        simp only [List.length_drop]; omega
    simpa using h2 _ hmem
  · have e1 : alignCoef ord row = row := by unfold alignCoef; rw [if_neg hc]
    rw [e1, e1]

/-- IIR filters come back whole if the highest declared coefficient of every row is not zero. -/
theorem C48_iir (ordnum ordden : List ℕ) (num den : List (List K))
    (hn : ∀ p ∈ ordnum.zip num, 0 < p.1 → p.1 < p.2.length → p.2.getD (p.1 - 1) 0 ≠ 0)
    (hd : ∀ p ∈ ordden.zip den, 0 < p.1 → p.1 < p.2.length → p.2.getD (p.1 - 1) 0 ≠ 0) :
    (mkIir ordnum ordden num den).saveRestore = mkIir ordnum ordden num den := by
  have key : ∀ (o : List ℕ) (l : List (List K)), (∀ p ∈ o.zip l, 0 < p.1 → p.1 < p.2.length → p.2.getD (p.1 - 1) 0 ≠ 0) →
      List.zipWith alignCoef o (List.zipWith alignCoef o l) = List.zipWith alignCoef o l := by
    intro o
    induction o with
    | nil => intro l _; rfl
    | cons a o ih =>
      intro l h
      cases l with
      | nil => rfl
      | cons r l =>
        simp only [List.zipWith_cons_cons]
        rw [align_twice a r (h (a, r) (by simp)), ih l fun p hp => h p (by simp [hp])]
  unfold IirObj.saveRestore mkIir
  dsimp only
  rw [key ordnum num hn, key ordden den hd]

end

/-- The condition is needed: with two coefficients declared for `[1/2, 0, 0]`, every restore shifts the filter once more (delay lost). -/
theorem C48_iir_shifts : ∃ f : IirObj ℚ, f = mkIir [2] [3] [[1/2, 0, 0]] [[0, 0, 1]] ∧ f.num = [[0, 1/2, 0]] ∧ f.saveRestore.num = [[0, 0, 1/2]] := by
  refine ⟨_, rfl, ?_, ?_⟩ <;> decide +kernel

section
variable {K : Type}

/-- Spatio-temporal arrays come back whole, whichever axis was time when they were built. -/
theorem C48_spatio_temporal (array time : NdArr K) (timeLast : Bool) (o : StaObj K) (h : mkSta array time timeLast = some o) :
    StaObj.restore o.save = some o := by
  simp only [StaObj.restore, StaObj.save]
  hdr_simp
  unfold mkSta at h
  split at h
  · cases h
  · rename_i hne
    split at h
    · cases h
    · rename_i ht
      cases h
      unfold mkSta
      dsimp only
      by_cases hc : timeLast = true ∧ 1 < array.shape.length
      · rw [if_pos hc]
        obtain ⟨t, ht'⟩ : ∃ t, array.shape.getLast? = some t := by
          cases hg : array.shape.getLast? with
          | none => exact absurd (List.getLast?_eq_none_iff.1 hg) hne
          | some t => exact ⟨t, rfl⟩
        have hml : (moveLast array).shape = t :: array.shape.dropLast := by
          unfold moveLast
          rw [ht']
        rw [if_neg (by rw [hml]; simp), if_neg]
        · simp
        · simp only [timeDim, hc.1, if_true, ht'] at ht
          simpa [timeDim, hml] using ht
      · rw [if_neg hc, if_neg hne, if_neg]
        · simp
        · cases timeLast with
          | false => exact ht
          | true =>
            -- one dimension: first and last axis are the same
            have hlen : array.shape.length = 1 := by
              have : array.shape.length ≠ 0 := by rw [ne_eq, List.length_eq_zero_iff]; exact hne
              simp only [true_and, not_lt] at hc
              omega
            match hsh : array.shape, hlen with
            | [a], _ =>
              simp only [timeDim, hsh] at ht ⊢
              simpa using ht

/-- Setting a value given time last is the same as building the object from it, if the layouts can be told apart by their shapes. -/
theorem C48_set_value_time_last (array v time : NdArr K) (o : StaObj K) (h : mkSta array time true = some o) (hs : v.shape = array.shape)
    (hd : 1 < array.shape.length) (hamb : array.shape ≠ (moveLast array).shape) :
    o.setValue v = mkSta v time true := by
  have hne : array.shape ≠ [] := by rintro h; rw [h] at hd; simp at hd
  unfold mkSta at h ⊢
  rw [if_neg hne] at h
  have htd : timeDim v true = timeDim array true := by simp [timeDim, hs]
  rw [hs, if_neg hne, htd]
  split at h
  · cases h
  rename_i ht
  rw [if_neg ht]
  simp only [hd, and_self, if_true, Option.some.injEq] at h ⊢
  subst h
  obtain ⟨t, ht'⟩ : ∃ t, array.shape.getLast? = some t := by
    cases hg : array.shape.getLast? with
    | none => exact absurd (List.getLast?_eq_none_iff.1 hg) hne
    | some t => exact ⟨t, rfl⟩
  have hml : (moveLast array).shape = t :: array.shape.dropLast := by unfold moveLast; rw [ht']
  have hmv : (moveLast v).shape = t :: array.shape.dropLast := by unfold moveLast; rw [hs, ht']
  unfold StaObj.setValue
  dsimp only
  rw [hs, if_neg hamb, if_pos, if_pos]
  · rw [hmv, hml]
  · refine ⟨?_, hd, ?_⟩
    · rw [hml, List.length_cons, List.length_dropLast]; omega
    · rw [hml, ht']; rfl

/-- If they cannot, the value is taken as time first: setting the very array the object was built from transposes the content. -/
theorem C48_set_value_ambiguous : ∃ (a t : NdArr ℕ) (o o' : StaObj ℕ), mkSta a t true = some o ∧ o.setValue a = some o' ∧
    o.array.data = [1, 3, 2, 4] ∧ o'.array.data = [1, 2, 3, 4] := by
  refine ⟨⟨[2, 2], [1, 2, 3, 4]⟩, ⟨[2], [0, 1]⟩, _, _, rfl, rfl, ?_, ?_⟩ <;> decide

end

-- Concrete cases.
example : (EfObj.save ⟨id, id⟩ (⟨⟨[1, 2], [1, 1]⟩, ⟨[1, 2], [5, -3]⟩, some (1/2), some 10⟩ : EfObj ℚ)).isSome = true := by decide +kernel

example : (ifuncSave (⟨[2, 3], [1, 2, 3, 4, 5, 6]⟩ : NdArr ℚ) ⟨[1], [1]⟩).arr 0 = some ⟨[3, 2], [1, 4, 2, 5, 3, 6]⟩ := by decide +kernel

example : rstrip "K ".toList = "K".toList ∧ rstrip "K".toList = "K".toList ∧ "K".toList.all printable = true := by decide

example : (mkIir [1] [2] [[1/2, 0]] [[-1, 1]] : IirObj ℚ).num = [[0, 1/2]] := by decide +kernel

end Specula
