import Verif.Rounded
import Verif.Triangle

/-!
# Construction of triangles in rounded arithmetic

The functions of `Triangle.lean` for columns of float64 values, every operation rounded by `rd`.  pandas adds within groups
with compensation (Kahan): `group_sum` and `group_cumsum`.  Simplification: no overflow.
-/

set_option linter.unusedSectionVars false

namespace Trikit

section
variable {K : Type} [Field K] [LinearOrder K]

/-- One step of the compensated sum: total, compensation, next value (a NaN compensation is reset to 0). -/
def kahanStep (rd : K → K) (s : Num K × Num K) (v : Num K) : Num K × Num K :=
  let y := (v - s.2).rounded rd
  let t := (s.1 + y).rounded rd
  let c := ((t - s.1).rounded rd - y).rounded rd
  (t, if c.isNaN then 0 else c)

/-- `groupby(...).sum()` of the values of one group, missing values left out. -/
def kahanSum (rd : K → K) (l : List (Num K)) : Num K :=
  ((l.filter (fun v => !v.isNaN)).foldl (kahanStep rd) (0, 0)).1

/-- See `groupCell` (triangle.py:51-53). -/
def groupCellR (rd : K → K) (recs : List (Rec K)) (o d : Int) : Num K :=
  if cellValues recs o d = [] then .nan else kahanSum rd (cellValues recs o d)

/-- See `pivot` (triangle.py:50-58). -/
def pivotR (rd : K → K) (recs : List (Rec K)) : Tri K :=
  let os := labels (recs.map Rec.origin)
  let ds := labels (recs.map Rec.dev)
  { origins := os, devs := ds,
    cell := fun i j =>
      match os[i]?, ds[j]? with
      | some o, some d => groupCellR rd recs o d
      | _, _ => .nan }

/-- See `baseInit` (triangle.py:49-60). -/
def baseInitR (rd : K → K) (recs : List (Rec K)) : Except PyErr (Tri K) :=
  if recs = [] then .error .valueError else .ok (pivotR rd (negHandler recs))

/-- `IncrTriangle(data)` and `totri(data, tri_type="incr")` (triangle.py:422-424, 1386-1390). -/
def totriIncrR (rd : K → K) (recs : List (Rec K)) : Except PyErr (Tri K) := baseInitR rd recs

/-- `groupby([origin])[value].cumsum()` (triangle.py:465), see `cumGo`; `acc` holds total and compensation. -/
def cumGoR (rd : K → K) (acc : Int → Num K × Num K) : List (Rec K) → List (Rec K)
  | [] => []
  | r :: rs =>
    if r.value.isNaN then r :: cumGoR rd acc rs
    else
      let s := kahanStep rd (acc r.origin) r.value
      { r with value := s.1 } :: cumGoR rd (fun o => if o = r.origin then s else acc o) rs

/-- See `cumRecs` (triangle.py:465-467). -/
def cumRecsR (rd : K → K) (recs : List (Rec K)) : List (Rec K) := cumGoR rd (fun _ => (0, 0)) recs

/-- See `cumTri` (triangle.py:462-468). -/
def cumTriR (rd : K → K) (recs : List (Rec K)) : Except PyErr (Tri K) := baseInitR rd (cumRecsR rd recs)

/-- `totri(data, tri_type="cum")` (triangle.py:1392-1407), see `totriCum`; the fill loop does not compute. -/
def totriCumR (rd : K → K) (recs : List (Rec K)) : Except PyErr (Tri K) := do
  let t ← cumTriR rd recs
  fillTri t

/-- See `Tri.diffCell` (triangle.py:888-889). -/
def diffCellR (rd : K → K) (f : ℕ → Num K) : ℕ → Num K
  | 0 => f 0
  | j + 1 => (f (j + 1) - f j).rounded rd

/-- See `Tri.diffTri`. -/
def Tri.diffTriR (rd : K → K) (t : Tri K) : Tri K := { t with cell := fun i => diffCellR rd (t.cell i) }

/-- `CumTriangle.to_incr` (triangle.py:869-894). -/
def Tri.toIncrR (rd : K → K) (t : Tri K) : Except PyErr (Tri K) := baseInitR rd (t.diffTriR rd).toTbl

/-- `IncrTriangle.to_cum` (triangle.py:427-435). -/
def Tri.toCumR (rd : K → K) (t : Tri K) : Except PyErr (Tri K) := cumTriR rd t.toTbl

/-- See `decumValue` (triangle.py:1378-1379). -/
def decumValueR (rd : K → K) (prev : Option (Num K)) (v : Num K) : Num K :=
  match prev with
  | none => v
  | some p => if ((v - p).rounded rd).isNaN then v else (v - p).rounded rd

/-- See `decumGo` (triangle.py:1377-1380). -/
def decumGoR (rd : K → K) (prev : Int → Option (Num K)) : List (Rec K) → List (Rec K)
  | [] => []
  | r :: rs =>
    { r with value := decumValueR rd (prev r.origin) r.value } ::
      decumGoR rd (fun o => if o = r.origin then some r.value else prev o) rs

/-- Tabular input with `data_format="cum"`, see `decumRecs`. -/
def decumRecsR (rd : K → K) (recs : List (Rec K)) : List (Rec K) := decumGoR rd (fun _ => none) recs

end

end Trikit
