import Verif.Bootstrap
import Verif.Transform
import Verif.Quantile

/-!
# Data behind the plot of the bootstrap

Models of `_get_quantiles_by_devp` (bootstrap.py:1037-1085), `_bs_data_transform` (bootstrap.py:989-1034) and of the
table drawn by `plot` (bootstrap.py:1201-1204).  Whether `GroupBy.quantile` of pandas takes an argument `method` is a
parameter `acc`; it does not in the pinned version (its argument is called `interpolation`).
-/

set_option linter.unusedSectionVars false

namespace Trikit

section
variable {K : Type} [Field K] [LinearOrder K] [FloorRing K]

/-- Row of `dfsims` (bootstrap.py:1053). -/
structure SimVal (K : Type) where
  origin : Int
  dev : Int
  value : Num K

/-- The simulated values followed by those of the last period again, at the label of the ultimates
(bootstrap.py:1053-1057). -/
def simVals (lab : Int) (proc : List (ProcRow K)) : List (SimVal K) :=
  let vals : List (SimVal K) := proc.map (fun r => ⟨r.base.origin, r.base.dev, r.ultimate⟩)
  vals ++ (vals.filter (fun v => decide (some v.dev = (vals.map SimVal.dev).max?))).map (fun v => { v with dev := lab })

/-- `GroupBy.quantile` of one group: missing values are skipped. -/
def groupQtl (q : K) (l : List (Num K)) : Num K := percentile .linear (l.filter (fun v => !v.isNaN)) q

/-- Row of the result of `_get_quantiles_by_devp`; the origin `"total"` is `none`. -/
structure QtlRow (K : Type) where
  origin : Option Int
  dev : Int
  qtls : List (Num K)
  deriving DecidableEq

/-- `_get_quantiles_by_devp` (bootstrap.py:1037-1085): one row per origin and period, and one per period of the smallest
origin with the label "total", for which the values of all origins form one group (lines 1065-1067).  `ldfDevs` are
the labels of the factors.  Simplification: the headers of the quantiles are taken to be distinct (C62). -/
def quantilesByDevp (acc : Bool) (ldfDevs : List Int) (proc : List (ProcRow K)) (qs : List K) :
    Except PyErr (List (QtlRow K)) := do
  let lab ← tailLabel ldfDevs
  let sims := simVals lab proc
  if acc = false ∧ qs ≠ [] then .error .typeError
  else
    .ok ((dropDups (sims.map (fun v => (v.origin, v.dev)))).map (fun k =>
        { origin := some k.1, dev := k.2, qtls := qs.map (fun q => groupQtl q
          ((sims.filter (fun v => decide (v.origin = k.1) && decide (v.dev = k.2))).map SimVal.value)) }) ++
      (dropDups ((sims.filter (fun v => decide (some v.origin = (sims.map SimVal.origin).min?))).map SimVal.dev)).map
        (fun d => { origin := none, dev := d, qtls := qs.map (fun q => groupQtl q
          ((sims.filter (fun v => decide (v.dev = d))).map SimVal.value)) }))

/-- `rectype` of the table drawn by `plot`: the two headers are `lower` and `upper`. -/
inductive BandKind
  | actual | forecast | lower | upper
  deriving DecidableEq

/-- Row of the table drawn by `plot`. -/
structure BandRow (K : Type) where
  origin : Int
  dev : Int
  kind : BandKind
  loss : Num K
  deriving DecidableEq

/-- `_minf` of an origin (bootstrap.py:1011-1015): the first forecast period; rows with observed amounts count as the
largest label plus the smallest step. -/
def firstForecast (rows : List (PlotRow K)) (inc : Int) (o : Option Int) : Option Int :=
  ((rows.filter (fun r => decide (r.origin = o))).map (fun r =>
    if r.fcst then r.dev else ((rows.map PlotRow.dev).max?.getD 0) + inc)).min?

/-- The quantile number `k` of a row (left merge, bootstrap.py:1003). -/
def qtlAt (qt : List (QtlRow K)) (k : ℕ) (r : PlotRow K) : Num K :=
  match qt.find? (fun x => decide (x.origin = r.origin) && decide (x.dev = r.dev)) with
  | some x => x.qtls.getD k .nan
  | none => .nan

/-- The value of a band at a row (bootstrap.py:1005-1023): missing for observed amounts, the loss in the first forecast
period, otherwise the quantile. -/
def bandAt (rows : List (PlotRow K)) (inc : Int) (qt : List (QtlRow K)) (k : ℕ) (r : PlotRow K) : Num K :=
  if r.fcst = false then .nan
  else if firstForecast rows inc r.origin = some r.dev then r.loss
  else qtlAt qt k r

/-- `_bs_data_transform` (bootstrap.py:989-1034).  Without quantiles `qtlhdrs[0]` raises.  Simplification: the three rows
with the same index after `concat` are kept in the order written; `sort_index` may exchange them, which does not
matter because they differ in `rectype`. -/
def bandData (acc : Bool) (t : Tri K) (b : BaseResult K) (proc : List (ProcRow K)) (qs : List K) :
    Except PyErr (List (BandRow K)) := do
  let all ← plotData t b
  let rows := all.filter (fun r => r.origin.isSome)
  let qt ← quantilesByDevp acc (b.ldfs.map Prod.fst) proc qs
  let inc ← minIncrement (b.ldfs.map Prod.fst)
  if qs = [] then .error .indexError
  else .ok (rows.flatMap (fun r =>
    [⟨r.origin.getD 0, r.dev, if r.fcst then .forecast else .actual, r.loss⟩,
     ⟨r.origin.getD 0, r.dev, .lower, bandAt rows inc qt 0 r⟩,
     ⟨r.origin.getD 0, r.dev, .upper, bandAt rows inc qt (qs.length - 1) r⟩]))

/-- The table drawn by `plot` (bootstrap.py:1201-1202): `_bs_data_transform` less the rows without loss.  `two` tells
whether `_qtls_formatter` of the result takes an argument `two_sided`; in the code (base.py:660) it does not. -/
def bandPlot (two acc : Bool) (t : Tri K) (b : BaseResult K) (proc : List (ProcRow K)) (q : List (Num K)) :
    Except PyErr (List (BandRow K)) :=
  if two = false then .error .typeError
  else do
    let qs ← qtlsFormatter q true
    let d ← bandData acc t b proc qs
    .ok (d.filter (fun r => !r.loss.isNaN))

end

end Trikit
