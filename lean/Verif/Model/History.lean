import Verif.Model.Select
/-
Model of the displays that show values against time: `specula/display/plot_display.py` (`PlotDisplay`),
`specula/display/plot_vector_display.py` (`PlotVectorDisplay`), the part of `specula/display/base_display.py` that handles errors, and
`plot_history` of `specula/display/data_plotter.py`.

A line of a plot is its two coordinate vectors and whether it is still among the artists of the axes: `Axes.clear()` removes it, and
nothing adds it again.  Arrays of `histlen` rows are lists of rows, `histlen` at least 1.  A value that has no scalar (`.item()` of an
array with more than one element, `None`) is `none`: the exception is caught by `BaseDisplay.trigger_code`.  Not modelled: colours,
labels, legend, limits of the axes, drawing.
-/
namespace Specula

/-- A line of the plot. -/
structure PlotLine (T K : Type) where
  xs : List T
  ys : List K
  onAxes : Bool

section
variable {T K : Type}

/-- `ax.clear()` in `_show_error`, base_display.py 98-104. -/
def clearAxes (ls : List (PlotLine T K)) : List (PlotLine T K) := ls.map fun l => { l with onAxes := false }

/-- `h[:-1] = h[1:]`: all rows up by one, the last one stays. -/
def scrollUp {R : Type} (h : List R) : List R := h.tail ++ h.getLast?.toList

/-! ### PlotDisplay -/

/-- State of PlotDisplay, plot_display.py 17-32.  `hist` has `histlen` rows with `width` elements; `flat` is `_history.ndim == 1`. -/
structure PlotSt (T K : Type) where
  hist : List (List K)
  flat : Bool
  width : Nat
  count : Nat
  times : List T
  lines : Option (List (PlotLine T K))

/-- Constructor, plot_display.py 17-32. -/
def plotInit [Zero K] (histlen : Nat) : PlotSt T K :=
  { hist := List.replicate histlen [0], flat := true, width := 1, count := 0, times := [], lines := none }

/-- A history of zeros for another number of values, plot_display.py 60-64.  `count` is not changed. -/
def plotReshape [Zero K] (st : PlotSt T K) (n : Nat) : PlotSt T K :=
  if (st.flat ∧ 1 < n) ∨ (st.flat = false ∧ st.width ≠ n) then
    { st with hist := List.replicate st.hist.length (List.replicate n 0), flat := false, width := n }
  else st

/-- Room for one more, plot_display.py 66-73. -/
def plotScroll (st : PlotSt T K) : PlotSt T K :=
  if st.hist.length ≤ st.count then { st with hist := scrollUp st.hist, count := st.hist.length - 1, times := st.times.tail } else st

/-- Column `i` of the first `count + 1` rows. -/
def histColumn [Zero K] (h : List (List K)) (count i : Nat) : List K := (h.take (count + 1)).map fun r => r.getD i 0

/-- The loop on the values, plot_display.py 83-124: state and whether an exception was raised.  A new line with vectors of different
lengths is refused by matplotlib (ValueError); an existing line is not checked. -/
def plotLoop [Zero K] (st : PlotSt T K) (i : Nat) : List (Option K) → PlotSt T K × Bool
  | [] => (st, false)
  | none :: _ => (st, true)
  | some a :: vs =>
    let h := st.hist.set st.count ((st.hist.getD st.count []).set i a)
    let y := histColumn h st.count i
    let ls := st.lines.getD []
    if i < ls.length then plotLoop { st with hist := h, lines := some (ls.modify i fun l => { l with xs := st.times, ys := y }) } (i + 1) vs
    else if st.times.length = y.length then plotLoop { st with hist := h, lines := some (ls ++ [⟨st.times, y, true⟩]) } (i + 1) vs
    else ({ st with hist := h, lines := some ls }, true)

/-- `_update_display`, plot_display.py 54-155, with the new element `t` of the x axis: state and whether an exception was raised.
Without values `lines` is `None` and `len(self.lines)` raises. -/
def plotUpdate [Zero K] (st : PlotSt T K) (t : T) (vs : List (Option K)) : PlotSt T K × Bool :=
  let st := plotScroll (plotReshape st vs.length)
  let r := plotLoop { st with times := st.times ++ [t] } 0 vs
  if r.2 = true ∨ r.1.lines.isNone then (r.1, true) else ({ r.1 with count := r.1.count + 1 }, false)

/-- `BaseDisplay.trigger_code` of a PlotDisplay, base_display.py 58-68. -/
def plotTrigger [Zero K] (st : PlotSt T K) (t : T) (vs : List (Option K)) : PlotSt T K × Bool :=
  let r := plotUpdate st t vs
  if r.2 then ({ r.1 with lines := r.1.lines.map clearAxes }, true) else r

/-- The x axis of the iterations: the last number plus one, plot_display.py 78-79. -/
def nextIteration (times : List Nat) : Nat := match times.getLast? with | none => 1 | some k => k + 1

/-- A sequence of updates: the final state and which of them raised. -/
def plotRun [Zero K] (st : PlotSt T K) : List (T × List (Option K)) → PlotSt T K × List Bool
  | [] => (st, [])
  | (t, vs) :: rest =>
    let r := plotTrigger st t vs
    let q := plotRun r.1 rest
    (q.1, r.2 :: q.2)

/-- A sequence of updates with the number of the iteration on the x axis. -/
def plotRunIter [Zero K] (st : PlotSt Nat K) : List (List (Option K)) → PlotSt Nat K × List Bool
  | [] => (st, [])
  | vs :: rest =>
    let r := plotTrigger st (nextIteration (plotScroll (plotReshape st vs.length)).times) vs
    let q := plotRunIter r.1 rest
    (q.1, r.2 :: q.2)

/-! ### PlotVectorDisplay -/

/-- State of PlotVectorDisplay, plot_vector_display.py 63-99.  `hist = none` before the first vector. -/
structure VecSt (T K : Type) where
  hist : Option (List (List K))
  width : Nat
  count : Nat
  times : List T
  lines : Option (List (PlotLine T K))

def vecInit : VecSt T K := { hist := none, width := 0, count := 0, times := [], lines := none }

/-- Parameters of PlotVectorDisplay that select elements, plot_vector_display.py 38-43. -/
structure VecSel where
  histlen : Nat
  indices : Option (List Int)
  slice : Option PySlice
  maxElements : Option Nat

/-- Both selections are refused, plot_vector_display.py 60-62. -/
def vecSelOk (s : VecSel) : Bool := !(s.indices.isSome && s.slice.isSome)

/-- `_get_plot_indices`, plot_vector_display.py 139-171. -/
def plotIndices (s : VecSel) (n : Nat) : Option (List Nat) :=
  (match s.slice with
    | some sl => sliceIdx n sl
    | none => match s.indices with
      | some is => some ((is.filter fun i : Int => 0 ≤ i ∧ i < n).map Int.toNat)
      | none => some (List.range n)).map fun l => match s.maxElements with | none => l | some m => l.take m

/-- The loop on the lines, plot_vector_display.py 240-256; `x` and `y` have the same length. -/
def vecLoop [Zero K] (h : List (List K)) (count : Nat) (times : List T) (ls : List (PlotLine T K)) (i : Nat) : List Nat → List (PlotLine T K)
  | [] => ls
  | idx :: rest =>
    let y := histColumn h count idx
    if i < ls.length then vecLoop h count times (ls.modify i fun l => { l with xs := times, ys := y }) (i + 1) rest
    else vecLoop h count times (ls ++ [⟨times, y, true⟩]) (i + 1) rest

/-- `_update_display`, plot_vector_display.py 189-270, and the handling of errors in base_display.py 58-68: state and whether an error
was shown. -/
def vecTrigger [Zero K] (s : VecSel) (st : VecSt T K) (t : T) (v : List K) : VecSt T K × Bool :=
  let fail (st : VecSt T K) := ({ st with lines := st.lines.map clearAxes }, true)
  let st1 := if st.hist.isNone then { hist := some (List.replicate s.histlen (List.replicate v.length 0)), width := v.length, count := 0, times := [], lines := none } else st
  if st1.width ≠ v.length then fail st1
  else match plotIndices s v.length with
    | none => fail st1
    | some [] => fail st1
    | some idx =>
      let h := st1.hist.getD []
      let full := s.histlen ≤ st1.count
      let h := if full then scrollUp h else h
      let count := if full then s.histlen - 1 else st1.count
      let times := (if full then st1.times.tail else st1.times) ++ [t]
      let h := h.set count v
      ({ hist := some h, width := st1.width, count := count + 1, times := times, lines := some (vecLoop h count times (st1.lines.getD []) 0 idx) }, false)

def vecRun [Zero K] (s : VecSel) (st : VecSt T K) : List (T × List K) → VecSt T K × List Bool
  | [] => (st, [])
  | (t, v) :: rest =>
    let r := vecTrigger s st t v
    let q := vecRun s r.1 rest
    (q.1, r.2 :: q.2)

/-! ### DataPlotter -/

/-- `_history` and `_count` of DataPlotter, data_plotter.py 18-22. -/
structure DpHist (K : Type) where
  hist : List K
  count : Nat

/-- `plot_history`, data_plotter.py 88-99: the new state and the values plotted; the x axis is `0, 1, ...`. -/
def dpHistory (st : DpHist K) (v : K) : DpHist K × List K :=
  let full := st.hist.length ≤ st.count
  let h := if full then scrollUp st.hist else st.hist
  let c := if full then st.hist.length - 1 else st.count
  let h := h.set c v
  ({ hist := h, count := c + 1 }, h.take (c + 1))

def dpRun (st : DpHist K) (shown : List K) : List K → DpHist K × List K
  | [] => (st, shown)
  | v :: vs => let r := dpHistory st v; dpRun r.1 r.2 vs

end
end Specula
