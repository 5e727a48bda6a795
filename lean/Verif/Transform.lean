import Verif.Base

/-!
# Data behind the plots of the base chain ladder (`trikit/estimators/base.py`, `_data_transform`)
-/

set_option linter.unusedSectionVars false

namespace Trikit

variable {K : Type}

/-- A row of the combined table `df` (base.py:372-405): a cell of the squared triangle with the latest
value of its origin and `actual_ind`. -/
structure PlotCell (K : Type) where
  origin : Int
  dev : Int
  value : Num K
  latest : Num K
  actual : Bool

/-- A row of the result (base.py:430-447); `origin = none` is the label "total", `fcst` tells
`rectype == "forecast"` from `"actual"`. -/
structure PlotRow (K : Type) where
  index : ℕ
  origin : Option Int
  dev : Int
  loss : Num K
  reserve : Num K
  fcst : Bool

section
variable [Field K] [LinearOrder K]

/-- Left merge with `self.latest`, the column of the summary (base.py:375-378). -/
def BaseResult.latestOf (b : BaseResult K) (o : Int) : Num K :=
  match b.rows.find? (fun r => decide (r.origin = o)) with
  | some r => r.latest
  | none => .nan

/-- The melted squared triangle (column by column) merged with the latest values and the indicator
(base.py:371-396).  Simplification: the merge on the (unique) labels of the same frame is written as the
cell lookup it performs; `triind` is taken as computed from the triangle, not from a stale cache. -/
def plotCells (t : Tri K) (b : BaseResult K) : List (PlotCell K) :=
  (List.range t.nc).flatMap (fun j => (List.range t.nr).map (fun i =>
    ⟨t.oAt i, t.dAt j, b.sqr.tri.cell i j, b.latestOf (t.oAt i), !t.triindAt i j⟩))

/-- `max_actual` of an origin (base.py:399-403). -/
def maxActual (cells : List (PlotCell K)) (o : Int) : Option Int :=
  ((cells.filter (fun c => decide (c.origin = o) && c.actual)).map PlotCell.dev).max?

/-- Row of an origin; `reserve` is `loss - latest` for forecasts and 0 otherwise (base.py:441-444). -/
def plotRow (t : Tri K) (f : Bool) (c : PlotCell K) : PlotRow K :=
  ⟨(labels t.origins).idxOf c.origin, some c.origin, c.dev, c.value,
    if f then c.value - c.latest else 0, f⟩

/-- Row "total" of one development period (base.py:421-427): sums over a group of rows. -/
def plotTotal (t : Tri K) (d : Int) (g : List (PlotCell K)) : PlotRow K :=
  ⟨(labels t.origins).length, none, d, Num.sumSkip (g.map PlotCell.value),
    Num.sumSkip (g.map PlotCell.value) - Num.sumSkip (g.map PlotCell.latest), true⟩

/-- `BaseChainLadderResult._data_transform` (base.py:362-447).  The label of the ultimates is the largest
label of the factors plus the smallest step (lines 381-382). -/
def plotData (t : Tri K) (b : BaseResult K) : Except PyErr (List (PlotRow K)) := do
  let lab ← tailLabel (b.ldfs.map Prod.fst)
  let cells := plotCells t b
  let act := cells.filter (fun c => c.actual)
  let pred := cells.filter (fun c => !c.actual || decide (some c.dev = maxActual cells c.origin))
  let ult : List (PlotCell K) := (List.range t.nr).map (fun i =>
    ⟨t.oAt i, lab, b.sqr.ultimate.getD i .nan, b.latestOf (t.oAt i), false⟩)
  .ok (act.map (plotRow t false) ++ pred.map (plotRow t true) ++ ult.map (plotRow t true) ++
    ((labels (pred.map PlotCell.dev)).map (fun d =>
      plotTotal t d (pred.filter (fun c => decide (c.dev = d)))) ++ [plotTotal t lab ult]))

end

end Trikit
