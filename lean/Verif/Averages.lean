import Verif.Triangle

/-!
# Link ratios and averages (`trikit/triangle.py`, `_BaseCumTriangle`)
-/

set_option linter.unusedSectionVars false

namespace Trikit

variable {K : Type}

namespace Tri

/-- Positions below `n` that satisfy `p`, in order. -/
def keepIdx (n : ℕ) (p : ℕ → Bool) : List ℕ := (List.range n).filter p

/-- `dropna(axis=1, how="all")`. -/
def dropNaNCols (t : Tri K) : Tri K :=
  let keep := keepIdx t.nc (fun j => (List.range t.nr).any (fun i => !(t.cell i j).isNaN))
  { origins := t.origins, devs := keep.map t.dAt,
    cell := fun i j => match keep[j]? with
      | some j' => t.cell i j'
      | none => .nan }

/-- `dropna(axis=0, how="all")`. -/
def dropNaNRows (t : Tri K) : Tri K :=
  let keep := keepIdx t.nr (fun i => (List.range t.nc).any (fun j => !(t.cell i j).isNaN))
  { origins := keep.map t.oAt, devs := t.devs,
    cell := fun i j => match keep[i]? with
      | some i' => t.cell i' j
      | none => .nan }

/-- Cell with given labels (`.at` / label alignment); `nan` when a label is absent, which is what
alignment of two frames inserts. -/
def at' (t : Tri K) (o d : Int) : Num K :=
  if o ∈ t.origins ∧ d ∈ t.devs then t.cell (t.origins.idxOf o) (t.devs.idxOf d) else .nan

variable [Field K] [LinearOrder K]

/-- `self.shift(periods=-1, axis=1) / self` (triangle.py:587): the last column divides NaN. -/
def linkRatios (t : Tri K) : Tri K :=
  { t with cell := fun i j => (if j + 1 < t.nc then t.cell i (j + 1) else .nan) / t.cell i j }

/-- `_BaseCumTriangle.a2a` (triangle.py:577-589). -/
def a2a (t : Tri K) : Tri K := t.linkRatios.dropNaNCols.dropNaNRows

/-- Initial `a2aind` (triangle.py:592-605): 0 for a missing link ratio, 1 otherwise. -/
def a2aind0 (t : Tri K) : Tri K :=
  { t.a2a with cell := fun i j => if (t.a2a.cell i j).isNaN then 0 else 1 }

/-- Elementwise operation on two frames with alignment on both axes: equal label lists are kept,
otherwise the sorted union is used and absent cells are NaN (pandas `DataFrame._align_frame`). -/
def alignOp (f : Num K → Num K → Num K) (a b : Tri K) : Tri K :=
  if a.origins = b.origins ∧ a.devs = b.devs then
    { a with cell := fun i j => f (a.cell i j) (b.cell i j) }
  else
    let os := labels (a.origins ++ b.origins)
    let ds := labels (a.devs ++ b.devs)
    { origins := os, devs := ds,
      cell := fun i j => match os[i]?, ds[j]? with
        | some o, some d => f (a.at' o d) (b.at' o d)
        | _, _ => .nan }

end Tri

section avgs
variable [Field K] [LinearOrder K]

/-- `arr.mean()` of a non-empty array. -/
def npMean (l : List (Num K)) : Num K := l.sum / .fin (l.length : K)

/-- `_BaseCumTriangle._simple` (triangle.py:501-520). -/
def simpleAvg (l : List (Num K)) : Num K := if l = [] then .nan else npMean l

/-- `_BaseCumTriangle._geometric` (triangle.py:479-498); `gm` stands for `scipy.stats.gmean`. -/
def geometricAvg (gm : List (Num K) → Num K) (l : List (Num K)) : Num K :=
  if l = [] then .nan else gm l

/-- Smallest element of a non-empty NaN-free array (`arr.min()`). -/
def npMin : Num K → List (Num K) → Num K
  | a, [] => a
  | a, b :: l => npMin (if Num.lt b a then b else a) l

/-- Largest element of a non-empty NaN-free array (`arr.max()`). -/
def npMax : Num K → List (Num K) → Num K
  | a, [] => a
  | a, b :: l => npMax (if Num.lt a b then b else a) l

/-- Insertion into an ascending array. -/
def insNum (x : Num K) : List (Num K) → List (Num K)
  | [] => [x]
  | y :: l => if Num.lt y x then y :: insNum x l else x :: y :: l

/-- `np.sort` of a NaN-free array. -/
def npSort (l : List (Num K)) : List (Num K) := l.foldr insNum []

/-- `_BaseCumTriangle._medial` (triangle.py:523-574) with `weights=None` (the only way it is
called), so that `w` consists of ones and `(w * arr).sum() / w.sum()` is the mean.  An empty list
raises `IndexError` (`arr_all[0]`). -/
def medialAvg (vals : List (Num K)) : Except PyErr (Num K) :=
  match npSort vals with
  | [] => .error .indexError
  | a :: rest =>
    if (a :: rest).all (fun b => Num.eqF b a) then .ok a
    else if (a :: rest).length = 1 then .ok a
    else if (a :: rest).length = 2 then .ok (npMean (a :: rest))
    else
      let mn := npMin a rest
      let mx := npMax a rest
      let mid := (a :: rest).filter (fun v => !(Num.eqF v mn) && !(Num.eqF v mx))
      if mid = [] then .ok .nan else .ok (npMean mid)

/-- The four average types (triangle.py:791-792). -/
inductive AvgKind
  | simple | geometric | medial | weighted
  deriving DecidableEq, Repr

/-- Names used in row labels. -/
def AvgKind.name : AvgKind → String
  | .simple => "simple"
  | .geometric => "geometric"
  | .medial => "medial"
  | .weighted => "weighted"

/-- Row label of `a2a_avgs` (triangle.py:797-800); duration 0 means all periods. -/
def avgLabel (k : AvgKind) (dur : ℕ) : String :=
  if dur = 0 then "all-" ++ k.name else k.name ++ "-" ++ toString dur

/-- `_nbr_periods` (triangle.py:787). -/
def avgPeriods (rows : ℕ) : List ℕ := (List.range rows).tail ++ [0]

/-- All (type, duration) pairs in `itertools.product` order (triangle.py:795). -/
def avgGrid (rows : ℕ) : List (AvgKind × ℕ) :=
  [AvgKind.simple, .geometric, .medial, .weighted].flatMap (fun k => (avgPeriods rows).map (fun d => (k, d)))

/-- Positions `[first:final]` of a column. -/
def pySlice (l : List (Num K)) (first final : ℕ) : List (Num K) := (l.take final).drop first

/-- Link ratios entering a non-weighted average (triangle.py:836-852): the last `dur` (0: all)
entries before the first missing one, positive ones only. -/
def avgWindow (col : List (Num K)) (dur : ℕ) : List (Num K) :=
  let final := col.findIdx Num.isNaN
  let first := if dur = 0 then 0 else final - dur
  (pySlice col first final).filter (fun v => Num.lt 0 v)

/-- Weighted average of one column (triangle.py:813-832): sums of the two adjacent triangle columns
over the last `dur` rows before position `count(next column)`; if the next column has no missing
value `t_ic_2.index[count:][0]` raises `IndexError`. -/
def weightedAvg (t : Tri K) (dur : ℕ) (j : ℕ) : Except PyErr (Num K) :=
  let c1 := t.col j
  let c2 := t.col (j + 1)
  let final := (c2.filter (fun v => !v.isNaN)).length
  if t.nr ≤ final then .error .indexError
  else
    let first := if dur = 0 then 0 else final - dur
    .ok (Num.sumSkip (pySlice c2 first final) / Num.sumSkip (pySlice c1 first final))

/-- One entry of `a2a_avgs` (triangle.py:809-855); `adj` is `a2a * a2aind`. -/
def avgCell (gm : List (Num K) → Num K) (t adj : Tri K) (k : AvgKind) (dur : ℕ) (j : ℕ) :
    Except PyErr (Num K) :=
  match k with
  | .simple => .ok (simpleAvg (avgWindow (adj.col j) dur))
  | .geometric => .ok (geometricAvg gm (avgWindow (adj.col j) dur))
  | .medial => medialAvg (avgWindow (adj.col j) dur)
  | .weighted => weightedAvg t dur j

/-- The frame returned by `a2a_avgs`: column labels and labelled rows. -/
structure AvgTable (K : Type) where
  devs : List Int
  rows : List (String × List (Num K))

/-- `_BaseCumTriangle.a2a_avgs` (triangle.py:777-856) for a triangle with indicator `ind`. -/
def a2aAvgs (gm : List (Num K) → Num K) (t ind : Tri K) : Except PyErr (AvgTable K) := do
  let adj := Tri.alignOp (· * ·) t.a2a ind
  let rows ← (avgGrid t.a2a.nr).mapM (fun p => do
    let vals ← (List.range adj.nc).mapM (fun j => avgCell gm t adj p.1 p.2 j)
    pure (avgLabel p.1 p.2, vals))
  pure { devs := t.a2a.devs, rows := rows }

end avgs

end Trikit
