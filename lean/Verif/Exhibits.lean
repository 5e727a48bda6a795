import Verif.Dist
import Verif.Transform
import Verif.Utils
import Verif.Density
import Verif.MackTests
import Verif.Quantile

/-!
# Data of the exhibits of the chain ladder and Mack results

What `BaseChainLadderResult.plot` (base.py:534-573), `MackChainLadderResult.plot` (mack.py:907-945) and
`MackChainLadderResult.diagnostics` (mack.py:957-1086) hand to the drawing library.  Colours, markers and fonts are
left out.
-/

set_option linter.unusedSectionVars false

namespace Trikit

section
variable {K : Type} [Field K] [LinearOrder K]

/-! ### chain ladder -/

/-- One panel of the chain ladder plot: the name written on it, the origin whose rows it holds, these rows and the ticks
of its y axis. -/
structure BasePanel (K : Type) where
  label : Option Int
  shows : Option Int
  points : List (PlotRow K)
  yticks : List K

/-- `origin_order` (base.py:546-547): distinct pairs of index and origin, sorted by index. -/
def originOrder (rows : List (PlotRow K)) : List (Option Int) :=
  ((dropDups (rows.map (fun r => (r.index, r.origin)))).insertionSort (fun a b => a.1 ≤ b.1)).map Prod.snd

/-- `_get_yticks` of the largest loss of a panel (base.py:563-564).  Without a finite maximum one of the two searches
(base.py:350, 356) finds nothing and raises. -/
def lossTicks : Num K → Except PyErr (List K)
  | .fin x => getYticks x
  | _ => .error .valueError

/-- The ticks of the x axis (base.py:540-545): the development labels in order, the largest one is called "ult"
(`none`). -/
def xTicks (rows : List (PlotRow K)) : List (Int × Option Int) :=
  let ds := labels (rows.map PlotRow.dev)
  ds.map (fun d => (d, if some d = ds.max? then none else some d))

/-- The panels of `plot` (base.py:534-573).  The grid fills its panels in order of first appearance (the column is not
numeric), the loop pairs them with `origin_order`.  No drawing function is applied to the rows of a panel. -/
def basePanels (rows : List (PlotRow K)) : Except PyErr (List (BasePanel K)) :=
  ((originOrder rows).zip (dropDups (rows.map PlotRow.origin))).mapM (fun p => do
    let y ← lossTicks (numMax ((rows.filter (fun r => decide (r.origin = p.1))).map PlotRow.loss))
    .ok ⟨p.1, p.2, rows.filter (fun r => decide (r.origin = p.2)), y⟩)

/-! ### development paths of the Mack result -/

/-- Row of `cl_data` (mack.py:979-980); the development label `"ultimate"` is `none`. -/
structure PathRow (K : Type) where
  origin : Int
  dev : Option Int
  value : Num K
  deriving DecidableEq

/-- `cl_data` (mack.py:979-980): the squared triangle column by column, the ultimates last. -/
def clData (t : Tri K) (s : Sqr K) : List (PathRow K) :=
  (List.range t.nc).flatMap (fun j => (List.range t.nr).map (fun i => ⟨t.oAt i, some (t.dAt j), s.tri.cell i j⟩)) ++
    (List.range t.nr).map (fun i => ⟨t.oAt i, none, s.ultimate.getD i .nan⟩)

/-- `[grps.get_group(ii) for ii in self.tri.origins]` (mack.py:981-982). -/
def pathGroups (cl : List (PathRow K)) (os : List Int) : Except PyErr (List (List (PathRow K))) :=
  os.mapM (fun o => match cl.filter (fun r => decide (r.origin = o)) with
    | [] => .error .keyError
    | g => .ok g)

/-- The ticks of the development paths (mack.py:1038-1039): `min` and `np.sort` of labels of which some are numbers and
some are strings raise `TypeError`. -/
def pathTicks (cl : List (PathRow K)) : Except PyErr (List Int) :=
  if cl.any (fun r => r.dev.isSome) ∧ cl.any (fun r => r.dev.isNone) then .error .typeError
  else .ok (labels (cl.filterMap PathRow.dev))

end

/-! ### Mack -/

/-- `rv.mean()`: NaN unless the scale (and the shape) is positive. -/
noncomputable def RV.mean : RV → Num ℝ
  | .norm loc scale => if Num.lt 0 scale then loc else .nan
  | .lognorm scale s => if Num.lt 0 s ∧ Num.lt 0 scale then scale * Num.exp (s.pow 2 / .fin 2) else .nan

/-- One panel of the Mack plot: the position in `rvs` of the origin written on it, that of the distribution whose curve
it shows, the curve, and the vertical lines at the mean and at the quantiles. -/
structure MackPanel where
  label : ℕ
  shows : ℕ
  points : List (Num ℝ × Num ℝ)
  mean : Num ℝ
  lines : List (Num ℝ)

/-- The panels (mack.py:911-945): filled in order of first appearance in the table of density curves, paired with all
positions but the first. -/
noncomputable def mackPanels (r : MackResult) (z : ℝ → Num ℝ) (qs : List ℝ) : List MackPanel :=
  ((List.range r.rvs.length).tail.zip (dropDups ((mackDensity r z).map Prod.fst))).map (fun p =>
    { label := p.1, shows := p.2
      points := ((mackDensity r z).filter (fun x => decide (x.1 = p.2))).map Prod.snd
      mean := (r.rvs[p.1]?.elim .nan RV.mean)
      lines := qs.map (fun q => r.rvs[p.1]?.elim .nan (RV.ppf z q)) })

/-- The Mack result as a chain ladder result (mack.py:532-533). -/
def MackCore.toBase {K : Type} (m : MackCore K) : BaseResult K :=
  { ldfs := m.ldfs, cldfs := m.cldfs, rows := m.rows, totLatest := m.totLatest, totUltimate := m.totUltimate
    totReserve := m.totReserve, sqr := m.sqr }

/-- `MackChainLadderResult.plot` (mack.py:907-945).  `fixed` tells whether the table is that of `_mack_data_transform`;
the code (line 907) uses the inherited `_data_transform`, whose table has no columns `x` and `y`, so that the first panel
raises `KeyError`. -/
noncomputable def mackPlot (fixed : Bool) (t : Tri ℝ) (r : MackResult) (z : ℝ → Num ℝ) (q : List (Num ℝ)) :
    Except PyErr (List MackPanel) :=
  if fixed then do
    let qs ← qtlsFormatterRes q
    .ok (mackPanels r z qs)
  else do
    let rows ← plotData t r.core.toBase
    let _ ← qtlsFormatterRes q
    if rows = [] then .ok [] else .error .keyError

/-- The four facets of `diagnostics`: curve of the total with the line at its mean, development paths, and the points of
the two residual plots. -/
structure DiagExhibit where
  density : List (Num ℝ × Num ℝ)
  mean : Num ℝ
  paths : List (List (PathRow ℝ))
  residDevp : List (Int × Num ℝ)
  residOrigin : List (Int × Num ℝ)

/-- The facets (mack.py:975-982, 992-995, 1018-1029, 1050-1054, 1069-1073). -/
noncomputable def diagFacets (t : Tri ℝ) (r : MackResult) (z : ℝ → Num ℝ) (paths : List (List (PathRow ℝ))) :
    DiagExhibit :=
  { density := ((mackDensity r z).filter (fun x => decide (x.1 = r.rvs.length - 1))).map Prod.snd
    mean := r.core.totReserve
    paths := paths
    residDevp := (residualsByDevp t r.core.ldfs).map (fun x => (x.dev, x.std))
    residOrigin := (residualsByOrigin t r.core.ldfs).map (fun x => (x.origin, x.std)) }

/-- `MackChainLadderResult.diagnostics` (mack.py:957-1086).  `fixed` tells whether the column of the development labels is
read under its name `dev`; the code (lines 1019, 1038) asks for `devp`: `KeyError`. -/
noncomputable def diagnostics (fixed : Bool) (t : Tri ℝ) (r : MackResult) (z : ℝ → Num ℝ) :
    Except PyErr DiagExhibit := do
  let cl := clData t r.core.sqr
  let gs ← pathGroups cl t.origins
  if fixed = false then .error .keyError
  else do
    let _ ← pathTicks cl
    .ok (diagFacets t r z gs)

end Trikit
