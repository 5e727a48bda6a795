import Verif.Num

/-!
# Triangles: construction, accessors, conversions (`trikit/triangle.py`)

A tabular data set is a list of records `(origin, dev, value)`; labels are integers
(simplification: `to_tbl`, triangle.py:354, casts both label columns to `int` anyway).
A triangle is a labelled rectangle with positional cells.
-/

set_option linter.unusedSectionVars false

namespace Trikit

/-- One row of a tabular data set: the three columns the library reads. -/
structure Rec (K : Type) where
  origin : Int
  dev : Int
  value : Num K
  deriving DecidableEq, Repr

/-- A triangle DataFrame: index labels, column labels, positional cells (`.iat`).
Positions outside the label lists carry no information. -/
structure Tri (K : Type) where
  origins : List Int
  devs : List Int
  cell : ℕ → ℕ → Num K

variable {K : Type}

namespace Tri

/-- Number of origins. -/
def nr (t : Tri K) : ℕ := t.origins.length
/-- Number of development periods. -/
def nc (t : Tri K) : ℕ := t.devs.length
/-- Origin label at a position (`self.index[i]`, only used for `i < nr`). -/
def oAt (t : Tri K) (i : ℕ) : Int := t.origins.getD i 0
/-- Development label at a position (`self.columns[j]`, only used for `j < nc`). -/
def dAt (t : Tri K) (j : ℕ) : Int := t.devs.getD j 0
/-- Row `i` as a list. -/
def row (t : Tri K) (i : ℕ) : List (Num K) := (List.range t.nc).map (t.cell i)
/-- Column `j` as a list. -/
def col (t : Tri K) (j : ℕ) : List (Num K) := (List.range t.nr).map (fun i => t.cell i j)

/-- Two triangles with equal labels and equal cells (what `DataFrame.equals` compares). -/
def Same (a b : Tri K) : Prop :=
  a.origins = b.origins ∧ a.devs = b.devs ∧
    ∀ i < a.nr, ∀ j < a.nc, a.cell i j = b.cell i j

end Tri

/-- Insert a label into a strictly increasing list, dropping duplicates. -/
def insLabel (x : Int) : List Int → List Int
  | [] => [x]
  | y :: ys => if x < y then x :: y :: ys else if x = y then y :: ys else y :: insLabel x ys

/-- Sorted distinct labels: the index produced by `groupby(...).sum()`, `sort_values` and `pivot`
(triangle.py:51-53). -/
def labels (l : List Int) : List Int := l.foldr insLabel []

section construct
variable [Field K] [LinearOrder K]

/-- `_BaseTriangle._neg_handler` (triangle.py:115-123): in the smallest development period values
`<= 0` become 1.  (The in-place assignment to the passed frame is modelled in `Verif.Frame`.) -/
def negHandler (recs : List (Rec K)) : List (Rec K) :=
  match (recs.map Rec.dev).min? with
  | none => recs
  | some m =>
    recs.map (fun r => if r.dev = m ∧ Num.le r.value 0 = true then { r with value := 1 } else r)

/-- Values recorded for one cell, in table order. -/
def cellValues (recs : List (Rec K)) (o d : Int) : List (Num K) :=
  (recs.filter (fun r => decide (r.origin = o ∧ r.dev = d))).map Rec.value

/-- `groupby([origin, dev]).sum()` followed by `pivot` for one cell (triangle.py:51-53):
no record gives NaN (pivot), otherwise the skipna sum (all-missing group: `0.0`). -/
def groupCell (recs : List (Rec K)) (o d : Int) : Num K :=
  if cellValues recs o d = [] then .nan else Num.sumSkip (cellValues recs o d)

/-- Pivot of a record list into a triangle (triangle.py:50-58). -/
def pivot (recs : List (Rec K)) : Tri K :=
  let os := labels (recs.map Rec.origin)
  let ds := labels (recs.map Rec.dev)
  { origins := os, devs := ds,
    cell := fun i j =>
      match os[i]?, ds[j]? with
      | some o, some d => groupCell recs o d
      | _, _ => .nan }

/-- `_BaseTriangle.__init__` after validation (triangle.py:49-60).  An empty table raises
`ValueError` (`data.apply(axis=1)` on an empty frame returns a frame, which cannot be assigned to
the single column `value`). -/
def baseInit (recs : List (Rec K)) : Except PyErr (Tri K) :=
  if recs = [] then .error .valueError else .ok (pivot (negHandler recs))

/-- `IncrTriangle(data)` on the record level (triangle.py:422-424). -/
def incrTri (recs : List (Rec K)) : Except PyErr (Tri K) := baseInit recs

/-- `data.groupby([origin])[value].cumsum()` (triangle.py:465): running totals per origin in row
order; missing values stay missing and do not contribute. `acc` holds the totals so far. -/
def cumGo (acc : Int → Num K) : List (Rec K) → List (Rec K)
  | [] => []
  | r :: rs =>
    if r.value.isNaN then r :: cumGo acc rs
    else
      let s := acc r.origin + r.value
      { r with value := s } :: cumGo (fun o => if o = r.origin then s else acc o) rs

/-- The table with `value` replaced by `cumval` (triangle.py:465-467). -/
def cumRecs (recs : List (Rec K)) : List (Rec K) := cumGo (fun _ => 0) recs

/-- `_BaseCumTriangle.__init__` (triangle.py:462-468): accumulate in row order, then build. -/
def cumTri (recs : List (Rec K)) : Except PyErr (Tri K) := baseInit (cumRecs recs)

end construct

/-! ### Accessors -/

/-- Last position below `n` with a non-missing value (`last_valid_index`, positional). -/
def lastValid (f : ℕ → Num K) : ℕ → Option ℕ
  | 0 => none
  | n + 1 => if (f n).isNaN then lastValid f n else some n

namespace Tri

/-- `clvi` row offset of column `j` (triangle.py:178-194); `none` for an all-missing column, where
the code raises `KeyError` (`self.index.get_loc(None)`). -/
def clvi (t : Tri K) (j : ℕ) : Option ℕ := lastValid (fun i => t.cell i j) t.nr

/-- `rlvi` column offset of row `i` (triangle.py:159-175); `none`: `KeyError`. -/
def rlvi (t : Tri K) (i : ℕ) : Option ℕ := lastValid (t.cell i) t.nc

/-- One entry of `triind`: `true` stands for 1, i.e. below the last valid row of its column
(triangle.py:150-155). -/
def triindAt (t : Tri K) (i j : ℕ) : Bool :=
  match t.clvi j with
  | some r => decide (r < i)
  | none => false

/-- `_BaseTriangle.triind` (triangle.py:140-156): `KeyError` when some column is entirely missing. -/
def triind (t : Tri K) : Except PyErr (ℕ → ℕ → Bool) :=
  if (List.range t.nc).all (fun j => (t.clvi j).isSome) then .ok t.triindAt else .error .keyError

/-- `nbr_cells` (triangle.py:126-137): number of non-missing cells. -/
def nbrCells (t : Tri K) : ℕ :=
  ((List.range t.nc).map (fun j => ((t.col j).filter (fun v => !v.isNaN)).length)).sum

/-- `_BaseTriangle.latest` (triangle.py:197-217) with default column names: for each origin the
last non-missing cell, as (origin, dev, value).  Simplification: the merge with `to_tbl()` on the
(unique) labels is written as the cell lookup it performs; rows without any value drop out of the
inner merge. -/
def latest (t : Tri K) : List (Rec K) :=
  (List.range t.nr).filterMap (fun i =>
    match t.rlvi i with
    | some j => some ⟨t.oAt i, t.dAt j, t.cell i j⟩
    | none => none)

/-- `latest_by_origin` (triangle.py:220-233): values in origin order (`latest` is already in index
order, so the final `sort_index` does nothing). -/
def latestByOrigin (t : Tri K) : List (Int × Num K) :=
  t.latest.map (fun r => (r.origin, r.value))

/-- Largest column position below `n` with indicator 0 (`nonzero()[0].max()`). -/
def lastZero (ind : ℕ → Bool) : ℕ → Option ℕ
  | 0 => none
  | n + 1 => if ind n then lastZero ind n else some n

/-- `_BaseTriangle.maturity` (triangle.py:280-297): per origin the label of the last column whose
`triind` is 0; `max()` of an empty array raises `ValueError`. -/
def maturity (t : Tri K) : Except PyErr (List Int) := do
  let ind ← t.triind
  (List.range t.nr).mapM (fun i =>
    match lastZero (ind i) t.nc with
    | some j => .ok (t.dAt j)
    | none => .error .valueError)

/-- `_BaseTriangle.diagonal` (triangle.py:301-333).  `origin_indx` runs over the rows of `latest`,
`dev_indx` is the reversed row number plus `offset`; negative positions are filtered out; a
position beyond the last column raises `KeyError` (`self.devp[v]`); an empty selection raises
`ValueError` (assignment of an empty frame to one column). -/
def diagonal (t : Tri K) (offset : Int) : Except PyErr (List (Rec K)) :=
  if (t.nc : Int) - 1 < |offset| then .error .valueError
  else
    let L := t.latest.length
    let pairs := (List.range L).map (fun k => (k, ((L - 1 - k : ℕ) : Int) + offset))
    let kept := pairs.filter (fun p => decide (0 ≤ p.2))
    if kept = [] then .error .valueError
    else kept.mapM (fun p =>
      if p.2.toNat < t.nc then .ok ⟨t.oAt p.1, t.dAt p.2.toNat, t.cell p.1 p.2.toNat⟩
      else .error .keyError)

/-- `_BaseTriangle.to_tbl` (triangle.py:337-356) with `dropna=True`: the non-missing cells as
records sorted by origin and development period. -/
def toTbl (t : Tri K) : List (Rec K) :=
  (List.range t.nr).flatMap (fun i =>
    (List.range t.nc).filterMap (fun j =>
      if (t.cell i j).isNaN then none else some ⟨t.oAt i, t.dAt j, t.cell i j⟩))

/-- `to_tbl(dropna=False)`. -/
def toTblAll (t : Tri K) : List (Rec K) :=
  (List.range t.nr).flatMap (fun i =>
    (List.range t.nc).map (fun j => ⟨t.oAt i, t.dAt j, t.cell i j⟩))

end Tri

/-! ### Conversions -/

section convert
variable [Field K] [LinearOrder K]

namespace Tri

/-- `diff(axis=1)` with the first column restored (triangle.py:888-889, bootstrap.py:360-361). -/
def diffCell (f : ℕ → Num K) : ℕ → Num K
  | 0 => f 0
  | j + 1 => f (j + 1) - f j

/-- The frame of increments before it is turned into records. -/
def diffTri (t : Tri K) : Tri K := { t with cell := fun i => diffCell (t.cell i) }

/-- `CumTriangle.to_incr` (triangle.py:869-894): difference along rows, drop missing increments,
rebuild an incremental triangle. -/
def toIncr (t : Tri K) : Except PyErr (Tri K) := incrTri t.diffTri.toTbl

/-- `IncrTriangle.to_cum` (triangle.py:427-435) with default column names. -/
def toCum (t : Tri K) : Except PyErr (Tri K) := cumTri t.toTbl

end Tri

/-- One row of the fill loop of `totri` (triangle.py:1396-1406): a missing first cell becomes 1;
a missing later cell with `triind == 0` takes the (already filled) value to its left. -/
def fillRow (f : ℕ → Num K) (ind : ℕ → Bool) : ℕ → Num K
  | 0 => if (f 0).isNaN then 1 else f 0
  | j + 1 => if ind (j + 1) = false ∧ (f (j + 1)).isNaN = true then fillRow f ind j else f (j + 1)

/-- The triangle object after the fill loop: the frame and the `triind` cached in it (`none`: not yet
computed). -/
structure FilledObj (K : Type) where
  tri : Tri K
  triindC : Option (ℕ → ℕ → Bool)

/-- The fill loop of `totri` (triangle.py:1395-1406).  `tri.triind` is first read (and cached)
after cell (0,0) has been filled; with a single column it is never read.  The cache is not
invalidated by the later assignments. -/
def fillObj (t : Tri K) : Except PyErr (FilledObj K) :=
  if t.nc ≤ 1 then .ok ⟨{ t with cell := fun i => fillRow (t.cell i) (fun _ => true) }, none⟩
  else do
    let t0 : Tri K := { t with cell := fun i j =>
      if i = 0 ∧ j = 0 ∧ (t.cell 0 0).isNaN = true then 1 else t.cell i j }
    let ind ← t0.triind
    .ok ⟨{ t with cell := fun i => fillRow (t.cell i) (ind i) }, some ind⟩

/-- What reading `triind` returns on the object (triangle.py:149-156). -/
def FilledObj.triind (o : FilledObj K) : Except PyErr (ℕ → ℕ → Bool) :=
  match o.triindC with
  | some ind => .ok ind
  | none => o.tri.triind

/-- The frame after the fill loop. -/
def fillTri (t : Tri K) : Except PyErr (Tri K) := (fillObj t).map FilledObj.tri

/-- `totri(data, tri_type="incr")` on records (triangle.py:1386-1390). -/
def totriIncr (recs : List (Rec K)) : Except PyErr (Tri K) := incrTri recs

/-- `totri(data, tri_type="cum")` on records (triangle.py:1392-1407). -/
def totriCum (recs : List (Rec K)) : Except PyErr (Tri K) := do
  let t ← cumTri recs
  fillTri t

/-- The object returned by `totri(data, tri_type="cum")`, cached indicator included. -/
def totriCumObj (recs : List (Rec K)) : Except PyErr (FilledObj K) := do
  let t ← cumTri recs
  fillObj t

/-- `np.where(np.isnan(incr), cum, incr)` for one row (triangle.py:1378-1379), `prev` being the value
of the previous row of the same origin (`none`: no earlier row, `diff` gives NaN). -/
def decumValue (prev : Option (Num K)) (v : Num K) : Num K :=
  match prev with
  | none => v
  | some p => if (v - p).isNaN then v else v - p

/-- `df.groupby([origin])["cum"].diff(periods=1)` then `np.where(isnan(incr), cum, incr)`
(triangle.py:1377-1380): difference to the previous row of the same origin in row order; where that
is missing (first row, or a missing operand) the cumulative value itself is used.
`prev` holds the previous value per origin. -/
def decumGo (prev : Int → Option (Num K)) : List (Rec K) → List (Rec K)
  | [] => []
  | r :: rs =>
    { r with value := decumValue (prev r.origin) r.value } ::
      decumGo (fun o => if o = r.origin then some r.value else prev o) rs

/-- Tabular input with `data_format="cum"`: incremental records. -/
def decumRecs (recs : List (Rec K)) : List (Rec K) := decumGo (fun _ => none) recs

/-- `pd.melt(..., id_vars=["origin"], var_name="dev", value_name="value")` (triangle.py:1358, 1365):
the cells column by column. -/
def meltCol (x : Tri K) : List (Rec K) :=
  (List.range x.nc).flatMap (fun j =>
    (List.range x.nr).map (fun i => ⟨x.oAt i, x.dAt j, x.cell i j⟩))

/-- `df[~pd.isnull(df["value"])]` (triangle.py:1366, 1371). -/
def dropMissing (l : List (Rec K)) : List (Rec K) := l.filter (fun r => !r.value.isNaN)

/-- Row order of `sort_values(by=["origin", "dev"])`. -/
def keyLe (r s : Rec K) : Bool :=
  decide (r.origin < s.origin) || (decide (r.origin = s.origin) && decide (r.dev ≤ s.dev))

/-- Insertion of a record into a sorted list (first position whose successors are not smaller). -/
def insRec (r : Rec K) : List (Rec K) → List (Rec K)
  | [] => [r]
  | s :: l => if keyLe r s then r :: s :: l else s :: insRec r l

/-- `df.sort_values(by=["origin", "dev"])` (triangle.py:1372), a stable sort. -/
def sortRecs (l : List (Rec K)) : List (Rec K) := l.foldr insRec []

/-- Triangle-shaped input with `data_format="incr"` (triangle.py:1356-1358, 1371-1372): melt, drop
missing, sort. -/
def meltIncr (x : Tri K) : List (Rec K) := sortRecs (dropMissing (meltCol x))

/-- Triangle-shaped input with `data_format="cum"` (triangle.py:1362-1366, 1371-1372): difference
along rows first. -/
def meltCum (x : Tri K) : List (Rec K) := sortRecs (dropMissing (meltCol x.diffTri))

end convert

end Trikit
