import Verif.Averages

/-!
# Base chain ladder (`trikit/estimators/base.py`)

A pandas `Series` with integer index is a list of (label, value) pairs.
-/

set_option linter.unusedSectionVars false

namespace Trikit

variable {K : Type}

/-- A `Series` with integer labels. -/
abbrev Ser (K : Type) := List (Int × Num K)

/-- Label lookup in a `Series` (first match; `NaN` when absent, as in a left merge / reindex). -/
def Ser.get (s : Ser K) (d : Int) : Num K :=
  match s.find? (fun p => p.1 == d) with
  | some p => p.2
  | none => .nan

/-- Differences of consecutive labels `index[1:] - index[:-1]`. -/
def labelDiffs (l : List Int) : List Int := List.zipWith (fun b a => b - a) l.tail l

/-- `np.unique(index[1:] - index[:-1])[0]` (base.py:107, 175; mack.py:270): the smallest difference;
`IndexError` when there are fewer than two labels. -/
def minIncrement (l : List Int) : Except PyErr Int :=
  match (labelDiffs l).min? with
  | some d => .ok d
  | none => .error .indexError

/-- The label under which the tail is stored: `index.max() + increment`. -/
def tailLabel (l : List Int) : Except PyErr Int := do
  let inc ← minIncrement l
  match l.max? with
  | some m => .ok (m + inc)
  | none => .error .valueError

/-- `series.loc[label] = v`: overwrite when the label exists, append otherwise. -/
def Ser.locSet (s : Ser K) (d : Int) (v : Num K) : Ser K :=
  if d ∈ s.map Prod.fst then s.map (fun p => if p.1 = d then (d, v) else p) else s ++ [(d, v)]

section
variable [Field K] [LinearOrder K]

/-- `BaseChainLadder._ldfs` (base.py:156-177): the selected row of `a2a_avgs()` (`KeyError` for an
unknown name) followed by the tail. The final `sort_index` does nothing: the label of the tail is
larger than all others and the columns are sorted. -/
def ldfsByName (gm : List (Num K) → Num K) (t ind : Tri K) (sel : String) (tail : Num K) :
    Except PyErr (Ser K) := do
  let tab ← a2aAvgs gm t ind
  match tab.rows.lookup sel with
  | none => .error .keyError
  | some vals => do
    let lab ← tailLabel tab.devs
    .ok (Ser.locSet (tab.devs.zip vals) lab tail)

/-- `sel` given as list or ndarray (base.py:110-123).  The explicit length check can never fire
(its two conditions exclude each other); a wrong length fails in `pd.Series(sel, index=devp)` with
`ValueError`. -/
def ldfsByArray (t : Tri K) (sel : List (Num K)) (tail : Num K) : Except PyErr (Ser K) :=
  if (sel ++ [tail]).length = t.nc then .ok (t.devs.zip (sel ++ [tail])) else .error .valueError

/-- `sel` given as a `Series` (base.py:97-108, 123).  Returns the caller's Series after the call
(the tail is appended to it in place) and the factors.  `pd.Series(sel, index=devp)` reindexes by
label; duplicate labels raise `ValueError`. -/
def ldfsBySeries (t : Tri K) (sel : Ser K) (tail : Num K) : Ser K × Except PyErr (Ser K) :=
  if sel.length ≠ t.nc - 1 then (sel, .error .valueError)
  else
    match tailLabel (sel.map Prod.fst) with
    | .error e => (sel, .error e)
    | .ok lab =>
      let sel' := Ser.locSet sel lab tail
      if (sel'.map Prod.fst).Nodup then (sel', .ok (t.devs.map (fun d => (d, Ser.get sel' d))))
      else (sel', .error .valueError)

/-- `np.cumprod(ldfs.values[::-1])[::-1]` (base.py:198). -/
def cumprodRev : List (Num K) → List (Num K)
  | [] => []
  | x :: xs =>
    match cumprodRev xs with
    | [] => [x]
    | c :: cs => (c * x) :: c :: cs

/-- `BaseChainLadder._cldfs` (base.py:180-200); labels are in increasing order already. -/
def cldfsOf (ldfs : Ser K) : Ser K := (ldfs.map Prod.fst).zip (cumprodRev (ldfs.map Prod.snd))

/-- `BaseChainLadder._ultimates` (base.py:203-225): positional product of the latest values and the
reversed cumulative factors with numpy broadcasting of length-one arrays; other length mismatches
raise `ValueError`. -/
def ultimatesOf (t : Tri K) (cldfs : Ser K) : Except PyErr (List (Num K)) :=
  let a := t.latestByOrigin.map Prod.snd
  let b := (cldfs.map Prod.snd).reverse
  if a.length = b.length ∧ b.length = t.nr then .ok (List.zipWith (· * ·) a b)
  else if b.length = 1 ∧ a.length = t.nr then .ok (a.map (fun x => x * b.headD .nan))
  else if a.length = 1 ∧ b.length = t.nr then .ok (b.map (fun x => a.headD .nan * x))
  else .error .valueError

/-- `BaseChainLadder._reserves` (base.py:228-252): difference aligned on origin labels. -/
def reservesOf (t : Tri K) (ults : List (Num K)) : List (Num K) :=
  (t.origins.zip ults).map (fun p => p.2 - Ser.get t.latestByOrigin p.1)

/-- Cells of the squared triangle (base.py:271-277): columns are processed left to right, rows below
the last valid row of a column are the projected left neighbour times the factor. -/
def sqrCell (t : Tri K) (ldf : ℕ → Num K) (i : ℕ) : ℕ → Num K
  | 0 => t.cell i 0
  | j + 1 => if t.triindAt i (j + 1) then sqrCell t ldf i j * ldf j else t.cell i (j + 1)

/-- The squared triangle: cells plus the `ultimate` column. -/
structure Sqr (K : Type) where
  tri : Tri K
  ultimate : List (Num K)

/-- `BaseChainLadder._trisqrd` (base.py:255-281).  `clvi` raises `KeyError` for an all-missing
column, `ldfs.values[ii-1]` raises `IndexError` when there are too few factors. -/
def trisqrdOf (t : Tri K) (ldfs : Ser K) : Except PyErr (Sqr K) := do
  let _ ← t.triind
  if ldfs.length < t.nc - 1 ∨ ldfs = [] then .error .indexError
  else
    let f : ℕ → Num K := fun j => (ldfs.map Prod.snd).getD j .nan
    let last := (ldfs.map Prod.snd).getLastD .nan
    .ok { tri := { t with cell := fun i j => sqrCell t f i j },
          ultimate := (List.range t.nr).map (fun i => sqrCell t f i (t.nc - 1) * last) }

/-- One row of the summary (base.py:133-143). -/
structure SummRow (K : Type) where
  origin : Int
  maturity : Int
  cldf : Num K
  emergence : Num K
  latest : Num K
  ultimate : Num K
  reserve : Num K

/-- Result of `base_cl` (base.py:149-151): factors, cumulative factors, summary rows and the total
row (its `cldf` and `emergence` are NaN, base.py:145-147), squared triangle. -/
structure BaseResult (K : Type) where
  ldfs : Ser K
  cldfs : Ser K
  rows : List (SummRow K)
  totLatest : Num K
  totUltimate : Num K
  totReserve : Num K
  sqr : Sqr K

/-- `BaseChainLadder.__call__` after the factors are known (base.py:125-153).  The merge of
maturities with cumulative factors compares labels as strings, i.e. compares labels. -/
def baseFromLdfs (t : Tri K) (ldfs : Ser K) : Except PyErr (BaseResult K) := do
  let cldfs := cldfsOf ldfs
  let ults ← ultimatesOf t cldfs
  let res := reservesOf t ults
  let mat ← t.maturity
  let sqr ← trisqrdOf t ldfs
  let rows : List (SummRow K) := (List.range t.nr).map (fun i =>
    { origin := t.oAt i
      maturity := mat.getD i 0
      cldf := Ser.get cldfs (mat.getD i 0)
      emergence := 1 / Ser.get cldfs (mat.getD i 0)
      latest := Ser.get t.latestByOrigin (t.oAt i)
      ultimate := ults.getD i .nan
      reserve := res.getD i .nan })
  .ok { ldfs := ldfs, cldfs := cldfs, rows := rows
        totLatest := Num.sumSkip (rows.map SummRow.latest)
        totUltimate := Num.sumSkip (rows.map SummRow.ultimate)
        totReserve := Num.sumSkip (rows.map SummRow.reserve)
        sqr := sqr }

/-- `tri.base_cl(sel=<name>, tail=...)` (triangle.py:1101-1139, base.py:93-94). -/
def baseCL (gm : List (Num K) → Num K) (t ind : Tri K) (sel : String) (tail : Num K) :
    Except PyErr (BaseResult K) := do
  let ldfs ← ldfsByName gm t ind sel tail
  baseFromLdfs t ldfs

/-- `tri.base_cl(sel=<array>, tail=...)`. -/
def baseCLArray (t : Tri K) (sel : List (Num K)) (tail : Num K) : Except PyErr (BaseResult K) := do
  let ldfs ← ldfsByArray t sel tail
  baseFromLdfs t ldfs

/-- `tri.base_cl(sel=<Series>, tail=...)`: the caller's Series afterwards and the result. -/
def baseCLSeries (t : Tri K) (sel : Ser K) (tail : Num K) : Ser K × Except PyErr (BaseResult K) :=
  let r := ldfsBySeries t sel tail
  (r.1, r.2.bind (baseFromLdfs t))

end

end Trikit
