import Verif.BootPlot
import Verif.Exhibits

/-!
# Panels of the bootstrap plot

What `BootstrapChainLadderResult.plot` (bootstrap.py:1202-1272) hands to the drawing library, from the table modelled by
`bandPlot`.  Colours, markers and fonts are left out.
-/

set_option linter.unusedSectionVars false

namespace Trikit

section
variable {K : Type} [Field K] [LinearOrder K] [FloorRing K]

/-- One panel: the origin written on it and shown in it, its lines, the ticks of its y axis, and the filled region as
period, lower and upper edge. -/
structure BandPanel (K : Type) where
  label : Int
  lines : List (BandKind × List (Int × Num K))
  yticks : List K
  fill : List (Int × Num K × Num K)

/-- Whether rows of kind `k'` are drawn by the line of kind `k`: if the headers of both bands are the same text, the line
of either band takes the rows of both (bootstrap.py:1223-1230). -/
def drawnBy (same : Bool) (k k' : BandKind) : Bool :=
  decide (k' = k) || (same && decide (k ∈ [BandKind.lower, .upper]) && decide (k' ∈ [BandKind.lower, .upper]))

/-- The points of a line of an origin, in the order of the table. -/
def bandLine (same : Bool) (rows : List (BandRow K)) (o : Int) (k : BandKind) : List (Int × Num K) :=
  (rows.filter (fun r => decide (r.origin = o) && drawnBy same k r.kind)).map (fun r => (r.dev, r.loss))

/-- The lines of an origin in the order of `hue_order` (bootstrap.py:1223-1230); kinds without rows are not drawn. -/
def bandLines (same : Bool) (rows : List (BandRow K)) (o : Int) : List (BandKind × List (Int × Num K)) :=
  ([BandKind.forecast, .actual, .lower, .upper].map (fun k => (k, bandLine same rows o k))).filter
    (fun p => !p.2.isEmpty)

/-- The filled region (bootstrap.py:1267-1272): the periods of the first line with the values of the last two.  Arrays
of different lengths raise.  Simplification: arrays of length one, which numpy would stretch, count as different, too. -/
def fillBetween (ls : List (BandKind × List (Int × Num K))) : Except PyErr (List (Int × Num K × Num K)) :=
  match ls.head?, ls.reverse with
  | some x, u :: l :: _ =>
    if x.2.length = l.2.length ∧ l.2.length = u.2.length then
      .ok ((x.2.map Prod.fst).zip ((l.2.map Prod.snd).zip (u.2.map Prod.snd)))
    else .error .valueError
  | _, _ => .error .indexError

/-- The panels (bootstrap.py:1223-1272).  The column of the origins is numeric, so the grid fills its panels in sorted
order, and the loop pairs them with the sorted origins. -/
def bandPanels (same : Bool) (rows : List (BandRow K)) : Except PyErr (List (BandPanel K)) :=
  (labels (rows.map BandRow.origin)).mapM (fun o => do
    let y ← lossTicks (numMax ((rows.filter (fun r => decide (r.origin = o))).map BandRow.loss))
    let f ← fillBetween (bandLines same rows o)
    .ok ⟨o, bandLines same rows o, y, f⟩)

/-- The ticks of the x axis (bootstrap.py:1231-1236); "ult" is `none`. -/
def bandTicks (rows : List (BandRow K)) : List (Int × Option Int) :=
  let ds := labels (rows.map BandRow.dev)
  ds.map (fun d => (d, if some d = ds.max? then none else some d))

/-- Whether the headers of the smallest and the largest level are the same text (base.py:629-631). -/
def sameHdr (qs : List K) : Bool :=
  decide (hdrPct (hdrNum (qs.getD 0 0)) = hdrPct (hdrNum (qs.getD (qs.length - 1) 0)))

/-- `BootstrapChainLadderResult.plot` (bootstrap.py:1202-1272); `two` and `acc` as in `bandPlot`. -/
def bootPlot (two acc : Bool) (t : Tri K) (b : BaseResult K) (proc : List (ProcRow K)) (q : List (Num K)) :
    Except PyErr (List (BandPanel K) × List (Int × Option Int)) := do
  let rows ← bandPlot two acc t b proc q
  let qs ← qtlsFormatter q true
  let ps ← bandPanels (sameHdr qs) rows
  .ok (ps, bandTicks rows)

end

end Trikit
