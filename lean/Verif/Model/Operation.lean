import Verif.Model.Select
import Mathlib.Algebra.Order.Field.Rat
/-
Elementwise operations on vectors: `specula/processing_objects/base_operation.py`, and the assembly of command vectors in
`specula/processing_objects/linear_combination.py` and `specula/processing_objects/mirror_commands_combinator.py`.

Values are one-dimensional vectors over a field with an order; exceptions are `none`.  Rounding, generation times and devices are not
modelled.  Assignments follow numpy: as many values as positions, or one value that is repeated.
-/
namespace Specula

section
variable {K : Type}

/-- `a[:] = vals` for an array `a` of `n` elements. -/
def fillAll (n : Nat) (vals : List K) : Option (List K) :=
  if vals.length = n then some vals else match vals with | [x] => some (List.replicate n x) | _ => none

/-- `x op y` of two vectors with numpy broadcasting. -/
def bcastOp (f : K → K → K) (x y : List K) : Option (List K) :=
  if x.length = y.length then some (List.zipWith f x y)
  else match x, y with
    | _, [b] => some (x.map fun a => f a b)
    | [a], _ => some (y.map fun b => f a b)
    | _, _ => none

/-- A constant parameter: a number or a list of numbers. -/
inductive OpConst (K : Type) where
  | scalar (c : K)
  | vec (l : List K)

def OpConst.map (f : K → K) : OpConst K → OpConst K
  | .scalar c => .scalar (f c)
  | .vec l => .vec (l.map f)

/-- `value1 op constant`. -/
def OpConst.apply (f : K → K → K) (x : List K) : OpConst K → Option (List K)
  | .scalar c => some (x.map fun a => f a c)
  | .vec l => bcastOp f x l

/-- The parameters of BaseOperation, base_operation.py 11-26. -/
structure OpCfg (K : Type) where
  cmul : Option (OpConst K) := none
  cdiv : Option (OpConst K) := none
  csum : Option (OpConst K) := none
  csub : Option (OpConst K) := none
  cmax : Option (OpConst K) := none
  cmin : Option (OpConst K) := none
  mul : Bool := false
  div : Bool := false
  sum : Bool := false
  sub : Bool := false
  concat : Bool := false
  shorter : Bool := false
  remap : Option (List Int) := none

variable [Field K] [LinearOrder K]

/-- `numpy.max` of a list, which must not be empty; a number stays, base_operation.py 76-80. -/
def OpConst.largest : OpConst K → Option K
  | .scalar c => some c
  | .vec [] => none
  | .vec (x :: l) => some (l.foldl max x)

/-- `numpy.min`, base_operation.py 83-87. -/
def OpConst.smallest : OpConst K → Option K
  | .scalar c => some c
  | .vec [] => none
  | .vec (x :: l) => some (l.foldl min x)

/-- The attributes set by the constructor, base_operation.py 51-90: `constant_div` and `constant_sub` replace `constant_mul` and
`constant_sum`. -/
structure OpObj (K : Type) where
  cmul : Option (OpConst K)
  csum : Option (OpConst K)
  cmax : Option K
  cmin : Option K
  cfg : OpCfg K

/-- `1.0 / constant_div`, base_operation.py 67-70: the division of a number by zero raises. -/
def OpConst.recip : OpConst K → Option (OpConst K)
  | .scalar c => if c = 0 then none else some (.scalar (1 / c))
  | .vec l => some (.vec (l.map fun a => 1 / a))

def opInit (cfg : OpCfg K) : Option (OpObj K) :=
  (match cfg.cdiv with | some c => c.recip.map some | none => some cfg.cmul).bind fun cm =>
  (match cfg.cmax with | some c => c.largest.map some | none => some none).bind fun mx =>
  (match cfg.cmin with | some c => c.smallest.map some | none => some none).bind fun mn =>
  some {
    cmul := cm
    csum := match cfg.csub with | some c => some (c.map fun a => -a) | none => cfg.csum
    cmax := mx
    cmin := mn
    cfg := cfg }

/-- Output and, when there is a second input, the work array `v2`. -/
structure OpSt (K : Type) where
  out : List K
  v2 : List K

/-- `setup`, base_operation.py 114-145.  What `numpy.empty` contains is given by `junk`. -/
def opSetup (o : OpObj K) (junk : Nat → List K) (x : List K) (y : Option (List K)) : Option (OpSt K) :=
  if (o.cfg.mul || o.cfg.div || o.cfg.sum || o.cfg.sub || o.cfg.concat) && y.isNone then none
  else
    let out : List K :=
      if o.cmul.isSome || o.csum.isSome then x.map fun a => a * 0
      else match o.cmax, o.cmin with
        | some c, _ => [c]
        | none, some c => [c]
        | none, none => if o.cfg.concat then junk (x.length + (y.getD []).length) else junk x.length
    some ⟨out, List.replicate x.length (if o.cfg.div then 1 else 0)⟩

/-- Loading the second input into `v2`, base_operation.py 176-181. -/
def opLoad (o : OpObj K) (v2 y : List K) : Option (List K) :=
  if o.cfg.shorter then
    -- a slice that ends beyond the array is shorter than the values
    let k := min y.length v2.length
    (fillAll k y).map fun z => z ++ v2.drop k
  else match o.cfg.remap with
    | some idx => assignTo v2 (.indices idx) y
    | none => fillAll v2.length y

/-- `trigger_code`, base_operation.py 147-193. -/
def opTrigger (o : OpObj K) (st : OpSt K) (x : List K) (y : Option (List K)) : Option (OpSt K) :=
  match o.cmul, o.csum, o.cmax, o.cmin with
  | some c, _, _, _ => (c.apply (· * ·) x).bind fun r => (fillAll st.out.length r).map fun out => { st with out := out }
  | none, some c, _, _ => (c.apply (· + ·) x).bind fun r => (fillAll st.out.length r).map fun out => { st with out := out }
  | none, none, some c, _ => some { st with out := x.map fun a => max a c }
  | none, none, none, some c => some { st with out := x.map fun a => min a c }
  | none, none, none, none =>
    y.bind fun y =>
    if o.cfg.concat then
      let k := min x.length st.out.length
      (fillAll k x).bind fun a => (fillAll (st.out.length - k) y).map fun b => { st with out := a ++ b }
    else
      (opLoad o st.v2 y).bind fun v2 =>
      let f : Option (K → K → K) :=
        if o.cfg.mul then some (· * ·) else if o.cfg.div then some (· / ·)
        else if o.cfg.sum then some (· + ·) else if o.cfg.sub then some (· - ·) else none
      f.bind fun f => (bcastOp f x v2).bind fun r => (fillAll st.out.length r).map fun out => ⟨out, v2⟩

/-- A run: setup with the first values, then one trigger for each pair of values; all outputs. -/
def opTriggers (o : OpObj K) (st : OpSt K) : List (List K × Option (List K)) → Option (List (List K))
  | [] => some []
  | (x, y) :: rest => (opTrigger o st x y).bind fun st' => (opTriggers o st' rest).map fun l => st'.out :: l

def opRun (cfg : OpCfg K) (junk : Nat → List K) (x₀ : List K) (y₀ : Option (List K)) (ins : List (List K × Option (List K))) :
    Option (List (List K)) :=
  (opInit cfg).bind fun o => (opSetup o junk x₀ y₀).bind fun st => opTriggers o st ins

/-! ### Assembly of command vectors -/

/-- `x[a:b]` for `0 ≤ a` and `0 ≤ b`. -/
def pySub (x : List K) (a b : Nat) : List K := (x.take b).drop a

/-- `x[a:b] = vals` for `0 ≤ a` and `0 ≤ b`. -/
def pySubSet (x : List K) (a b : Nat) (vals : List K) : Option (List K) :=
  (fillAll (pySub x a b).length vals).map fun z => x.take a ++ z ++ x.drop (max (min a x.length) b)

/-- `A @ p`. -/
def matTimes (A : List (List K)) (p : List K) : Option (List K) :=
  if A.all fun r => r.length == p.length then some (A.map fun r => (List.zipWith (· * ·) r p).sum) else none

/-- Parameters of MirrorCommandsCombinator, mirror_commands_combinator.py 12-62.  `lo` and `out` have three elements. -/
structure MccCfg (K : Type) where
  k : List K
  A : List (List K)
  lo0 : Nat
  lo1 : Nat
  lo2 : Nat
  dimsP : Nat
  dimsF : Nat
  out0 : Nat
  out1 : Nat
  out2 : Nat

/-- The sizes computed by the constructor must not be negative: the slices with negative bounds that the code would use otherwise are
not modelled, and `numpy.zeros` of a negative size raises. -/
def MccCfg.ok (c : MccCfg K) : Bool :=
  decide (c.lo0 + c.dimsF ≤ c.out0) && decide (c.lo1 ≤ c.out1) && decide (c.lo2 ≤ c.out2) && decide (c.lo0 + c.lo2 ≤ c.out0)

/-- `trigger_code`, mirror_commands_combinator.py 77-108. -/
def mccTrigger (c : MccCfg K) (ho lo f p : List K) : Option (List K × List K × List K) :=
  if c.ok then
    let h0 := c.out0 - c.lo0 - c.dimsF
    let h1 := h0 + (c.out1 - c.lo1)
    let h2 := h1 + (c.out2 - c.lo2)
    let loA := pySub lo 0 c.lo0
    let loC := pySub lo (c.lo0 + c.lo1) (c.lo0 + c.lo1 + c.lo2)
    let hoA := pySub ho 0 h0
    let hoB := pySub ho h0 h1
    let hoC := pySub ho h1 h2
    let v11 := loA ++ f ++ hoA
    (bcastOp (· * ·) c.k loC).bind fun kl =>
    let v12 := List.replicate c.lo0 0 ++ kl ++ List.replicate (c.out0 - c.lo0 - c.lo2) 0
    (bcastOp (· + ·) v11 v12).bind fun y1 =>
    (if c.dimsP > 0 then (matTimes (c.A.take c.out0) p).bind fun q => (fillAll y1.length q).map fun q => List.zipWith (· + ·) y1 q
     else some y1).bind fun y1 =>
    (fillAll c.out0 y1).bind fun r1 => (fillAll c.out1 hoB).bind fun r2 => (fillAll c.out2 (loC ++ hoC)).map fun r3 => (r1, r2, r3)
  else none

/-- Parameters of LinearCombination, linear_combination.py 13-23, with the plate scale coefficients (zeros without mirrors). -/
structure LinCfg (K : Type) where
  noFocus : Bool
  noLift : Bool
  psIdx : Option Nat
  psCoeff : List K

/-- The number of inputs accepted by `setup`, linear_combination.py 84-104. -/
def linInputsOk (c : LinCfg K) (n : Nat) : Bool :=
  if n = 4 then !(c.noFocus || c.noLift)
  else if n = 3 then !(c.noFocus == c.noLift)
  else if n = 2 then !(!c.noFocus || !c.noLift)
  else false

/-- The inputs by name: the first, then focus and lift when used, then the last, linear_combination.py 51-61. -/
def linInputs (c : LinCfg K) (ins : List (List K)) : Option (List K × List K × List K × List K) :=
  (ins[0]?).bind fun lgs =>
  (if c.noFocus then some ([], 1) else (ins[1]?).map fun f => (f, 2)).bind fun (focus, i) =>
  (if c.noLift then some ([], i) else (ins[i]?).map fun l => (l, i + 1)).bind fun (lift, i) =>
  (ins[i]?).map fun ngs => (lgs, focus, lift, ngs)

/-- `setup`, linear_combination.py 78-119: size of the output. -/
def linSetup (c : LinCfg K) (ins : List (List K)) : Option Nat :=
  if linInputsOk c ins.length then (linInputs c ins).map fun (lgs, _, lift, _) => lgs.length + lift.length else none

/-- The correction of the plate scale, linear_combination.py 67-69. -/
def linPlate (c : LinCfg K) (l ngs : List K) : Option (List K) :=
  match c.psIdx with
  | none => some l
  | some k =>
    (bcastOp (· * ·) (ngs.drop 2) c.psCoeff).bind fun d =>
    (fillAll (pySub l 2 5).length d).bind fun d =>
    (pySubSet l 2 5 (List.zipWith (· - ·) (pySub l 2 5) d)).bind fun l => pySubSet l k (k + 3) (ngs.drop 2)

/-- `trigger_code`, linear_combination.py 48-76, for an output of `n` elements. -/
def linTrigger (c : LinCfg K) (n : Nat) (ins : List (List K)) : Option (List K) :=
  (linInputs c ins).bind fun (lgs, focus, lift, ngs) =>
  (pySubSet lgs 0 2 (pySub ngs 0 2)).bind fun l =>
  (if c.noFocus then some l else (focus[0]?).bind fun f => if 2 < l.length then some (l.set 2 f) else none).bind fun l =>
  (linPlate c l ngs).bind fun l =>
  let l := if c.noLift then l else l ++ lift
  pySubSet (List.replicate n 0) 0 l.length l

end

end Specula
