import Verif.Model.Device
import Mathlib.Data.List.GetD
import Mathlib.Tactic.ByContra
/-
C119: device and precision of the objects; arrays that are shared or copied.
-/
namespace Specula

/-! ### Device and precision -/

theorem sessRun_append (m : Machine) (a b : List SessOp) (s : Session) :
    sessRun m s (a ++ b) = (sessRun m s a).bind fun t => sessRun m t b := by
  induction a generalizing s with
  | nil => rfl
  | cons o a ih =>
    simp only [List.cons_append, sessRun]
    cases sessStep m s o with
    | none => rfl
    | some t => exact ih t

theorem sess_copied_fixed (m : Machine) (ops : List SessOp) (s t : Session) (g : SpecGlobals) (hs : s.copied = some g)
    (h : sessRun m s ops = some t) : t.copied = some g := by
  induction ops generalizing s with
  | nil => cases h; exact hs
  | cons o ops ih =>
    unfold sessRun at h
    obtain ⟨u, h1, h2⟩ := Option.bind_eq_some_iff.1 h
    refine ih u ?_ h2
    cases o with
    | init dev prec =>
      obtain ⟨g', -, rfl⟩ := Option.map_eq_some_iff.1 h1
      exact hs
    | load => cases h1; rw [hs]; rfl

/-- **C119** (default place): objects made after `init(device, precision)` and the first import get that precision and, if the machine
has cupy and does not forbid it, that device, else the CPU; whatever `init` is called with afterwards. -/
theorem C119_default (m : Machine) (s₀ : Session) (h₀ : s₀.copied = none) (dev : ℤ) (prec : ℕ) (later : List SessOp) (t : Session)
    (h : sessRun m s₀ (.init dev prec :: .load :: later) = some t) :
    newObj m t none none = some ⟨if (m.disable = none ∨ m.disable = some "FALSE") ∧ m.cupy = true then dev else -1, prec == 0⟩ := by
  unfold sessRun at h
  obtain ⟨u, h1, h2⟩ := Option.bind_eq_some_iff.1 h
  obtain ⟨g, hg, rfl⟩ := Option.map_eq_some_iff.1 h1
  unfold sessRun at h2
  obtain ⟨w, h3, h4⟩ := Option.bind_eq_some_iff.1 h2
  cases h3
  have hc := sess_copied_fixed m later _ t g (by rw [h₀]; rfl) h4
  have hal : m.allowed = true ↔ m.disable = none ∨ m.disable = some "FALSE" := by
    unfold Machine.allowed
    cases m.disable with
    | none => simp
    | some x => simp
  have hg' := hg
  unfold specInit at hg'
  dsimp only at hg'
  by_cases hgpu : (m.allowed && m.cupy) = true
  · have hcond : (m.disable = none ∨ m.disable = some "FALSE") ∧ m.cupy = true := by
      rw [Bool.and_eq_true] at hgpu
      exact ⟨hal.1 hgpu.1, hgpu.2⟩
    rw [if_pos hcond]
    simp only [hgpu, if_true] at hg'
    by_cases hn : 0 ≤ dev ∧ m.gpus ≤ dev.toNat
    · rw [if_pos hn] at hg'; cases hg'
    · rw [if_neg hn] at hg'
      by_cases hp : 1 < prec
      · rw [if_pos hp] at hg'; cases hg'
      · rw [if_neg hp] at hg'
        obtain rfl := Option.some.inj hg'
        unfold newObj
        rw [hc]
        simp only [Option.bind_some, Option.orElse_none]
        rw [if_neg hp]
        by_cases hd : 0 ≤ dev
        · rw [if_pos hd, if_pos ⟨trivial, by omega⟩]
        · rw [if_neg hd]
  · have hcond : ¬((m.disable = none ∨ m.disable = some "FALSE") ∧ m.cupy = true) := by
      intro hx
      exact hgpu (by rw [Bool.and_eq_true]; exact ⟨hal.2 hx.1, hx.2⟩)
    rw [if_neg hcond]
    simp only [hgpu] at hg'
    rw [if_neg (by simp)] at hg'
    by_cases hp : 1 < prec
    · rw [if_pos hp] at hg'; cases hg'
    · rw [if_neg hp] at hg'
      obtain rfl := Option.some.inj hg'
      unfold newObj
      rw [hc]
      simp only [Option.bind_some, Option.orElse_none]
      rw [if_neg hp]
      simp

/-- **C119** (once): after the first import, no later `init` changes where objects go. -/
theorem C119_later_init_ignored (m : Machine) (s t : Session) (ops : List SessOp) (hs : s.copied ≠ none)
    (h : sessRun m s ops = some t) (target : Option ℤ) (prec : Option ℕ) : newObj m t target prec = newObj m s target prec := by
  obtain ⟨g, hg⟩ := Option.ne_none_iff_exists'.1 hs
  unfold newObj
  rw [sess_copied_fixed m ops s t g hg h, hg]

/-- **C119** (import first): if the import comes before the first `init`, objects without an explicit precision and device can never be made. -/
theorem C119_import_before_init (m : Machine) (ops : List SessOp) (t : Session) (h : sessRun m ⟨specFresh, none⟩ (.load :: ops) = some t)
    (target : Option ℤ) (prec : Option ℕ) (hd : target = none ∨ prec = none) : newObj m t target prec = none := by
  unfold sessRun at h
  obtain ⟨u, h1, h2⟩ := Option.bind_eq_some_iff.1 h
  cases h1
  have hc := sess_copied_fixed m ops _ t specFresh rfl h2
  unfold newObj
  rw [hc]
  rcases hd with rfl | rfl
  · cases prec <;> simp [specFresh]
  · simp [specFresh]

/-- **C119** (explicit place): a device and precision that are asked for are honoured or refused, never replaced: the CPU always works,
a GPU only if it exists and cupy was there at the import. -/
theorem C119_explicit (m : Machine) (s : Session) (g : SpecGlobals) (hs : s.copied = some g) (d : ℤ) (p : ℕ) :
    newObj m s (some d) (some p) =
      if p ≤ 1 ∧ (d < 0 ∨ g.cp = true ∧ d.toNat < m.gpus) then some ⟨d, p == 0⟩ else none := by
  unfold newObj
  rw [hs]
  simp only [Option.bind_some, Option.orElse_some]
  by_cases hp : 1 < p
  · rw [if_pos hp, if_neg (by omega)]
  · rw [if_neg hp]
    by_cases hd : 0 ≤ d
    · rw [if_pos hd]
      by_cases hg : g.cp = true ∧ d.toNat < m.gpus
      · rw [if_pos hg, if_pos ⟨by omega, Or.inr hg⟩]
      · rw [if_neg hg, if_neg]
        rintro ⟨-, h | h⟩
        · omega
        · exact hg h
    · rw [if_neg hd, if_pos ⟨by omega, Or.inl (by omega)⟩]

/-- **C119** (the variable): any value of SPECULA_DISABLE_GPU but `FALSE`, also `false`, `0` or nothing, forbids the GPU. -/
theorem C119_disable (m : Machine) (x : String) (hm : m.disable = some x) (hx : x ≠ "FALSE") (dev : ℤ) (prec : ℕ) (g g' : SpecGlobals)
    (h : specInit m dev prec g = some g') : g'.devIdx = some (-1) ∧ g'.cp = false := by
  have ha : m.allowed = false := by
    unfold Machine.allowed
    rw [hm]
    simpa using hx
  unfold specInit at h
  simp only [ha, Bool.false_and] at h
  rw [if_neg (by simp)] at h
  by_cases hp : 1 < prec
  · rw [if_pos hp] at h; cases h
  · rw [if_neg hp] at h
    obtain rfl := Option.some.inj h
    simp

/-! ### Arrays -/

section
variable {V : Type} (cast : NumType → V → V)

/-- The argument exists. -/
def PyArg.InHeap (h : Heap V) : PyArg V → Prop
  | .arr a => a < h.length
  | .nums _ _ => True

/-- Values of an argument (specification). -/
def PyArg.valsIn (h : Heap V) : PyArg V → List V
  | .arr a => ((h[a]?).map (·.vals)).getD []
  | .nums _ vals => vals

/-- Type of an argument (specification). -/
def PyArg.tyIn (h : Heap V) : PyArg V → NumType
  | .arr a => ((h[a]?).map (·.ty)).getD .f64
  | .nums ty _ => ty

/-- Whether an argument is an array on the given side. -/
def PyArg.onGpu (h : Heap V) (gpu : Bool) : PyArg V → Prop
  | .arr a => (h[a]?).map (·.gpu) = some gpu
  | .nums _ _ => False

theorem getElem?_old {α : Type} (h : List α) (b : α) (i : ℕ) (hi : i < h.length) : (h ++ [b])[i]? = h[i]? :=
  List.getElem?_append_left hi

theorem onSide_spec (h : Heap V) (gpu force : Bool) (v : PyArg V) (hv : v.InHeap h) :
    ∃ h' a, onSide h gpu force v = some (h', a) ∧ h'[a]? = some ⟨gpu, v.tyIn h, v.valsIn h⟩ ∧
      ((∃ i, v = .arr i ∧ v.onGpu h gpu ∧ force = false ∧ h' = h ∧ a = i) ∨
        ((force = true ∨ ¬v.onGpu h gpu) ∧ a = h.length ∧ h' = h ++ [⟨gpu, v.tyIn h, v.valsIn h⟩])) := by
  cases v with
  | nums ty vals =>
    refine ⟨_, _, rfl, ?_, Or.inr ⟨Or.inr (fun x => x), rfl, rfl⟩⟩
    simp [PyArg.tyIn, PyArg.valsIn]
  | arr i =>
    have hi : i < h.length := hv
    have e : h[i]? = some h[i] := List.getElem?_eq_getElem hi
    by_cases hc : h[i].gpu = gpu ∧ force = false
    · refine ⟨h, i, ?_, ?_, Or.inl ⟨i, rfl, ?_, hc.2, rfl, rfl⟩⟩
      · simp only [onSide, e, Option.map_some, if_pos hc]
      · simp only [PyArg.tyIn, PyArg.valsIn, e, Option.map_some, Option.getD_some]
        rw [← hc.1]
      · simp [PyArg.onGpu, e, hc.1]
    · refine ⟨h ++ [⟨gpu, h[i].ty, h[i].vals⟩], h.length, ?_, ?_, Or.inr ⟨?_, rfl, ?_⟩⟩
      · simp only [onSide, e, Option.map_some, if_neg hc, alloc]
      · simp [PyArg.tyIn, PyArg.valsIn, e]
      · by_cases hg : h[i].gpu = gpu
        · left
          cases force with
          | true => rfl
          | false => exact absurd ⟨hg, rfl⟩ hc
        · right
          simp [PyArg.onGpu, e, hg]
      · simp [PyArg.tyIn, PyArg.valsIn, e]

/-- What `to_xp` gives: the values, converted if a type or a copy was asked for; all buffers that existed are as before, and the result
is one of them exactly if the argument is an array on the right side, of the right type, and no copy was asked for. -/
theorem toXp_spec (h : Heap V) (gpu force : Bool) (v : PyArg V) (hv : v.InHeap h) (ty : Option NumType) :
    ∃ h' a, toXp cast h gpu v ty force = some (h', a) ∧ (∀ i < h.length, h'[i]? = h[i]?) ∧ h.length ≤ h'.length ∧
      h'[a]? = some (if ty = none ∧ force = false then ⟨gpu, v.tyIn h, v.valsIn h⟩
        else if v.tyIn h = ty.getD .f64 ∧ force = false then ⟨gpu, v.tyIn h, v.valsIn h⟩
        else ⟨gpu, ty.getD .f64, (v.valsIn h).map (cast (ty.getD .f64))⟩) ∧
      (a < h.length ↔ v.onGpu h gpu ∧ force = false ∧ (ty = none ∨ ty = some (v.tyIn h))) ∧
      (a < h.length → v = .arr a ∧ h' = h) := by
  obtain ⟨h1, a1, e1, b1, c1⟩ := onSide_spec h gpu force v hv
  have hold : ∀ i < h.length, h1[i]? = h[i]? := by
    rcases c1 with ⟨i, -, -, -, rfl, -⟩ | ⟨-, -, rfl⟩
    · exact fun _ _ => rfl
    · exact fun i hi => getElem?_old h _ i hi
  have hlen : h.length ≤ h1.length := by
    rcases c1 with ⟨i, -, -, -, rfl, -⟩ | ⟨-, -, rfl⟩
    · exact Nat.le_refl _
    · simp
  have ha1 : a1 < h1.length := by
    by_contra hn
    rw [List.getElem?_eq_none (by omega)] at b1
    cases b1
  by_cases hc : ty = none ∧ force = false
  · refine ⟨h1, a1, ?_, hold, hlen, ?_, ?_, ?_⟩
    · simp only [toXp, e1, Option.bind_some, if_pos hc]
    · rw [if_pos hc, b1]
    · rcases c1 with ⟨i, rfl, g1, g2, -, rfl⟩ | ⟨g1, rfl, -⟩
      · exact ⟨fun _ => ⟨g1, g2, Or.inl hc.1⟩, fun _ => hv⟩
      · constructor
        · intro hx; omega
        · rintro ⟨g, f, -⟩
          rcases g1 with g1 | g1
          · rw [f] at g1; cases g1
          · exact absurd g g1
    · intro hx
      rcases c1 with ⟨i, rfl, g1, g2, rfl, rfl⟩ | ⟨g1, rfl, -⟩
      · exact ⟨rfl, rfl⟩
      · omega
  · by_cases ht : v.tyIn h = ty.getD .f64 ∧ force = false
    · refine ⟨h1, a1, ?_, hold, hlen, ?_, ?_, ?_⟩
      · simp only [toXp, e1, Option.bind_some, if_neg hc, asType, b1, Option.map_some, if_pos ht]
      · rw [if_neg hc, if_pos ht, b1]
      · have hty : ty = some (v.tyIn h) := by
          cases ty with
          | none => exact absurd ⟨rfl, ht.2⟩ hc
          | some t => rw [ht.1]; rfl
        rcases c1 with ⟨i, rfl, g1, g2, -, rfl⟩ | ⟨g1, rfl, -⟩
        · exact ⟨fun _ => ⟨g1, g2, Or.inr hty⟩, fun _ => hv⟩
        · constructor
          · intro hx; omega
          · rintro ⟨g, f, -⟩
            rcases g1 with g1 | g1
            · rw [f] at g1; cases g1
            · exact absurd g g1
      · intro hx
        rcases c1 with ⟨i, rfl, g1, g2, rfl, rfl⟩ | ⟨g1, rfl, -⟩
        · exact ⟨rfl, rfl⟩
        · omega
    · refine ⟨h1 ++ [⟨gpu, ty.getD .f64, (v.valsIn h).map (cast (ty.getD .f64))⟩], h1.length, ?_, ?_, ?_, ?_, ?_, ?_⟩
      · simp only [toXp, e1, Option.bind_some, if_neg hc, asType, b1, Option.map_some, if_neg ht, alloc]
      · intro i hi
        rw [getElem?_old h1 _ i (by omega), hold i hi]
      · rw [List.length_append]; omega
      · rw [if_neg hc, if_neg ht]
        simp
      · constructor
        · intro hx; omega
        · rintro ⟨-, f, g | g⟩
          · exact absurd ⟨g, f⟩ hc
          · exact absurd ⟨by rw [g]; rfl, f⟩ ht
      · intro hx; omega

/-- **C119** (conversion): `to_xp` never changes an array that exists; its result is the caller's own array exactly if this is on the
right device, has the type asked for (or none was asked for), and no copy was asked for. -/
theorem C119_shared (h : Heap V) (gpu force : Bool) (v : PyArg V) (hv : v.InHeap h) (ty : Option NumType) :
    ∃ h' a, toXp cast h gpu v ty force = some (h', a) ∧ (∀ i < h.length, h'[i]? = h[i]?) ∧
      ((a < h.length ∧ v = .arr a) ↔ v.onGpu h gpu ∧ force = false ∧ (ty = none ∨ ty = some (v.tyIn h))) := by
  obtain ⟨h', a, e, h1, -, -, h4, h5⟩ := toXp_spec cast h gpu force v hv ty
  exact ⟨h', a, e, h1, ⟨fun x => h4.1 x.1, fun x => ⟨h4.2 x, (h5 (h4.2 x)).1⟩⟩⟩

/-- **C119** (values): the result is on the device asked for, with the values of the argument converted to the type asked for; without
a type and a copy they are as they were, but a copy without a type is always in double precision. -/
theorem C119_values (h : Heap V) (gpu force : Bool) (v : PyArg V) (hv : v.InHeap h) (ty : Option NumType)
    (hcast : ∀ x ∈ v.valsIn h, cast (v.tyIn h) x = x) :
    ∃ h' a, toXp cast h gpu v ty force = some (h', a) ∧
      h'[a]? = some ⟨gpu, ty.getD (if force then .f64 else v.tyIn h),
        (v.valsIn h).map (cast (ty.getD (if force then .f64 else v.tyIn h)))⟩ := by
  obtain ⟨h', a, e, -, -, h3, -, -⟩ := toXp_spec cast h gpu force v hv ty
  have hid : (v.valsIn h).map (cast (v.tyIn h)) = v.valsIn h := by
    rw [List.map_congr_left hcast, List.map_id']
  refine ⟨h', a, e, ?_⟩
  rw [h3]
  congr 1
  by_cases hc : ty = none ∧ force = false
  · rw [if_pos hc, hc.1, hc.2]
    simp [hid]
  · rw [if_neg hc]
    have key : ty.getD (if force then .f64 else v.tyIn h) = ty.getD .f64 := by
      cases ty with
      | some t => rfl
      | none =>
        cases force with
        | true => rfl
        | false => exact absurd ⟨rfl, rfl⟩ hc
    rw [key]
    split
    · next ht => rw [← ht.1, hid]
    · rfl

/-! ### Values that objects hold -/

/-- What a history means: contents of the caller's arrays, and the value that was set last. -/
structure ValWorld (V : Type) where
  mine : Heap V
  value : Option (List V)

/-- One step of the meaning. -/
def ValWorld.step (ty : NumType) (w : ValWorld V) : ValOp V → ValWorld V
  | .set v => ⟨w.mine, some ((v.valsIn w.mine).map (cast ty))⟩
  | .write a vals => ⟨w.mine.modify a fun b => ⟨b.gpu, b.ty, vals.map (cast b.ty)⟩, w.value⟩

/-- The caller uses arrays that existed before the object was made. -/
def ValOp.Own (n : ℕ) : ValOp V → Prop
  | .set (.arr a) => a < n
  | .set (.nums _ _) => True
  | .write a _ => a < n

/-- The memory is as the history says. -/
structure ValRel (gpu : Bool) (ty : NumType) (n : ℕ) (s : Heap V × ValObj) (w : ValWorld V) : Prop where
  size : w.mine.length = n
  big : n ≤ s.1.length
  mine : ∀ i < n, s.1[i]? = w.mine[i]?
  held : match s.2 with
    | none => w.value = none
    | some a => n ≤ a ∧ ∃ vals, w.value = some vals ∧ s.1[a]? = some ⟨gpu, ty, vals⟩

theorem ValOp.valsIn_same (n : ℕ) (h w : Heap V) (hm : ∀ i < n, h[i]? = w[i]?) (v : PyArg V) (hv : (ValOp.set v).Own n) :
    v.valsIn h = v.valsIn w := by
  cases v with
  | nums ty vals => rfl
  | arr a =>
    have ha : a < n := hv
    simp only [PyArg.valsIn, hm a ha]

theorem val_step (gpu : Bool) (ty : NumType) (n : ℕ) (s t : Heap V × ValObj) (w : ValWorld V) (o : ValOp V) (ho : o.Own n)
    (hr : ValRel gpu ty n s w) (h : valStep cast gpu ty s o = some t) : ValRel gpu ty n t (w.step cast ty o) := by
  obtain ⟨hp, ob⟩ := s
  cases o with
  | write a vals =>
    have ha : a < n := ho
    cases h
    refine ⟨by simp [ValWorld.step, hr.size], by simpa [writeBuf] using hr.big, fun i hi => ?_, ?_⟩
    · simp only [writeBuf, ValWorld.step, List.getElem?_modify, hr.mine i hi]
    · have hh := hr.held
      cases ob with
      | none => exact hh
      | some b =>
        obtain ⟨h1, x, h2, h3⟩ := hh
        refine ⟨h1, x, h2, ?_⟩
        have hne : ¬a = b := by omega
        simp only [writeBuf, List.getElem?_modify, if_neg hne]
        rw [h3]
        rfl
  | set v =>
    have hin : v.InHeap hp := by
      cases v with
      | nums _ _ => trivial
      | arr a => exact Nat.lt_of_lt_of_le ho hr.big
    have hsame := ValOp.valsIn_same n hp w.mine hr.mine v ho
    change valSet cast hp gpu ty ob v = some t at h
    cases ob with
    | none =>
      unfold valSet valNew at h
      dsimp only at h
      obtain ⟨h', a, e, h1, h2, h3, h4, -⟩ := toXp_spec cast hp gpu true v hin (some ty)
      rw [e] at h
      obtain rfl := Option.some.inj h
      have hna : hp.length ≤ a := by
        by_contra hn
        have := (h4.1 (by omega)).2.1
        cases this
      refine ⟨hr.size, Nat.le_trans hr.big h2, fun i hi => ?_, ?_⟩
      · change h'[i]? = w.mine[i]?
        rw [h1 i (Nat.lt_of_lt_of_le hi hr.big), hr.mine i hi]
      · refine ⟨Nat.le_trans hr.big hna, _, rfl, ?_⟩
        change h'[a]? = _
        rw [h3, hsame]
        simp
    | some b =>
      obtain ⟨hb, x, hx, hbv⟩ := hr.held
      dsimp only at hbv
      have hbl : b < hp.length := by
        by_contra hn
        rw [List.getElem?_eq_none (by omega)] at hbv
        cases hbv
      obtain ⟨h', a, e, h1, h2, h3, -, -⟩ := toXp_spec cast hp gpu false v hin none
      unfold valSet at h
      dsimp only at h
      rw [e] at h
      simp only [Option.bind_some] at h
      rw [h3, h1 b hbl, hbv] at h
      simp only [and_self, if_true, Option.bind_some] at h
      split at h
      · obtain rfl := Option.some.inj h
        refine ⟨hr.size, ?_, fun i hi => ?_, ?_⟩
        · have : (writeBuf cast h' b (v.valsIn hp)).length = h'.length := by simp [writeBuf]
          exact Nat.le_trans hr.big (this ▸ h2)
        · have hne : ¬b = i := by omega
          change (writeBuf cast h' b (v.valsIn hp))[i]? = w.mine[i]?
          simp only [writeBuf, List.getElem?_modify, if_neg hne]
          rw [h1 i (Nat.lt_of_lt_of_le hi hr.big), hr.mine i hi]
          cases w.mine[i]? <;> rfl
        · refine ⟨hb, _, rfl, ?_⟩
          change (writeBuf cast h' b (v.valsIn hp))[b]? = _
          simp only [writeBuf, List.getElem?_modify, if_true, h1 b hbl, hbv, hsame]
          rfl
      · cases h

theorem val_run (gpu : Bool) (ty : NumType) (n : ℕ) (ops : List (ValOp V)) (s t : Heap V × ValObj) (w : ValWorld V)
    (ho : ∀ o ∈ ops, o.Own n) (hr : ValRel gpu ty n s w) (h : valRun cast gpu ty s ops = some t) :
    ValRel gpu ty n t (ops.foldl (ValWorld.step cast ty) w) := by
  induction ops generalizing s w with
  | nil => cases h; exact hr
  | cons o ops ih =>
    unfold valRun at h
    obtain ⟨u, h1, h2⟩ := Option.bind_eq_some_iff.1 h
    exact ih u _ (fun x hx => ho x (List.mem_cons_of_mem _ hx))
      (val_step cast gpu ty n s u w o (ho o List.mem_cons_self) hr h1) h2

/-- **C119** (values are copies): whatever its users do with their own arrays, before and after, a `BaseValue` holds the value that was
set last as it was then, in its own type; and setting it never changes the arrays of the users. -/
theorem C119_value_is_copy (gpu : Bool) (ty : NumType) (h : Heap V) (ops : List (ValOp V)) (ho : ∀ o ∈ ops, o.Own h.length)
    (t : Heap V × ValObj) (ht : valRun cast gpu ty (h, none) ops = some t) :
    (∀ i < h.length, t.1[i]? = (ops.foldl (ValWorld.step cast ty) ⟨h, none⟩).mine[i]?) ∧
    (t.2.bind fun a => t.1[a]?) = (ops.foldl (ValWorld.step cast ty) ⟨h, none⟩).value.map fun vals => ⟨gpu, ty, vals⟩ := by
  have hr := val_run cast gpu ty h.length ops (h, none) t ⟨h, none⟩ ho ⟨rfl, Nat.le_refl _, fun _ _ => rfl, rfl⟩ ht
  refine ⟨hr.mine, ?_⟩
  have hh := hr.held
  cases ht2 : t.2 with
  | none =>
    rw [ht2] at hh
    dsimp only at hh
    rw [hh]
    rfl
  | some a =>
    rw [ht2] at hh
    obtain ⟨-, vals, h1, h2⟩ := hh
    rw [h1]
    exact h2

/-- **C119** (same place): once a value has been set, every later value is written into the same array, so whoever holds the array sees it. -/
theorem C119_same_array (gpu : Bool) (ty : NumType) (h : Heap V) (a : ℕ) (ops : List (ValOp V)) (t : Heap V × ValObj)
    (ht : valRun cast gpu ty (h, some a) ops = some t) : t.2 = some a := by
  induction ops generalizing h with
  | nil => cases ht; rfl
  | cons o ops ih =>
    unfold valRun at ht
    obtain ⟨⟨h', ob⟩, h1, h2⟩ := Option.bind_eq_some_iff.1 ht
    have : ob = some a := by
      cases o with
      | write x vals => cases h1; rfl
      | set v =>
        change valSet cast h gpu ty (some a) v = some (h', ob) at h1
        unfold valSet at h1
        dsimp only at h1
        obtain ⟨r, -, h1⟩ := Option.bind_eq_some_iff.1 h1
        obtain ⟨src, -, h1⟩ := Option.bind_eq_some_iff.1 h1
        obtain ⟨dst, -, h1⟩ := Option.bind_eq_some_iff.1 h1
        split at h1
        · cases h1; rfl
        · cases h1
    subst this
    exact ih h' h2

/-- **C119** (histories are shared): a `TimeHistory` or `Recmat` made from an array on its device is that array: what its owner writes
into it later is in the object. -/
theorem C119_history_shared (h : Heap V) (gpu : Bool) (a : ℕ) (b : Buf V) (hb : h[a]? = some b) (hg : b.gpu = gpu) (vals : List V) :
    ∃ h' k, keepNew cast h gpu (.arr a) = some (h', k) ∧ (writeBuf cast h' a vals)[k]? = some ⟨gpu, b.ty, vals.map (cast b.ty)⟩ := by
  refine ⟨h, a, ?_, ?_⟩
  · simp [keepNew, toXp, onSide, hb, hg]
  · simp [writeBuf, hb, hg]

end

/-! ### Concrete cases -/

/-- A GPU that is asked for and exists, and one that does not. -/
example : newObj ⟨true, 2, none⟩ ⟨specFresh, some ⟨true, true, some 0, some (-1)⟩⟩ (some 1) (some 1) = some ⟨1, false⟩ ∧
    newObj ⟨true, 2, none⟩ ⟨specFresh, some ⟨true, true, some 0, some (-1)⟩⟩ (some 2) (some 1) = none := by decide

/-- Two GPUs: the second of two calls to `init` has no effect on objects. -/
example : (sessRun ⟨true, 2, none⟩ ⟨specFresh, none⟩ [.init 1 1, .load, .init (-1) 0]).bind (fun s => newObj ⟨true, 2, none⟩ s none none) =
    some ⟨1, false⟩ := by decide

example : (sessRun ⟨true, 2, some "0"⟩ ⟨specFresh, none⟩ [.init 1 1, .load]).bind (fun s => newObj ⟨true, 2, some "0"⟩ s none none) =
    some ⟨-1, false⟩ := by decide

/-- Conversion to integers by division by ten; the others keep the value. -/
def castExample : NumType → ℕ → ℕ
  | .int, x => x / 10 * 10
  | _, x => x

/-- The user's array is set, changed, set again, changed. -/
example : (valRun castExample false .f64 ([⟨false, .int, [10, 20]⟩], none)
    [.set (.arr 0), .write 0 [33, 44], .set (.arr 0), .write 0 [55, 66]]).map (fun s => (s.2, s.1.map (·.vals))) =
    some (some 2, [[50, 60], [10, 20], [30, 40]]) := by decide

end Specula
