import Verif.Base

/-!
# Base chain ladder in rounded arithmetic

The models in `Averages.lean` and `Base.lean` compute with exact numbers.  Here the same functions round the result of
every operation with a function `rd`, as float64 arithmetic does.  The order in which numpy adds the terms of a sum is
given by `br`, a bracketing for every number of terms.  Simplifications: `rd` is total (no overflow), additions of the
zeros that replace missing values are exact and left out, and so is the initial zero of a sum.  With `rd = id` these
functions are those of the exact model (`C142_exact`).
-/

set_option linter.unusedSectionVars false

namespace Trikit

/-- Order of the additions in a sum; a leaf is the position of a term. -/
inductive SumTree
  | leaf (i : ℕ)
  | node (l r : SumTree)

/-- The positions in order. -/
def SumTree.leaves : SumTree → List ℕ
  | .leaf i => [i]
  | .node l r => l.leaves ++ r.leaves

/-- Left to right. -/
def seqTree : ℕ → SumTree
  | 0 => .leaf 0
  | n + 1 => .node (seqTree n) (.leaf (n + 1))

section
variable {K : Type} [Field K] [LinearOrder K]

/-- A sum in the given order, rounded after every addition. -/
def SumTree.eval (rd : K → K) (a : ℕ → K) : SumTree → K
  | .leaf i => a i
  | .node l r => rd (l.eval rd a + r.eval rd a)

/-- `np.sum` of a float array: the order of the additions depends on the number of terms only. -/
def roundedSum (br : ℕ → SumTree) (rd : K → K) (l : List K) : K :=
  if l = [] then 0 else (br l.length).eval rd (fun i => l.getD i 0)

/-- Rounding of a float64 value; NaN and infinities stay. -/
def Num.rounded (rd : K → K) : Num K → Num K
  | .fin x => .fin (rd x)
  | v => v

/-- Sum of float64 values; rounding does not matter if one of them is NaN or infinite. -/
def sumR (br : ℕ → SumTree) (rd : K → K) (l : List (Num K)) : Num K :=
  if l.all Num.isFin then .fin (roundedSum br rd (l.filterMap Num.toFin)) else l.sum

/-- pandas `sum()`: NaNs are skipped. -/
def sumSkipR (br : ℕ → SumTree) (rd : K → K) (l : List (Num K)) : Num K := sumR br rd (l.filter (fun v => !v.isNaN))

/-! ### averages -/

/-- `a2a` (triangle.py:577-589), see `Tri.a2a`. -/
def Tri.a2aR (rd : K → K) (t : Tri K) : Tri K :=
  Tri.dropNaNRows (Tri.dropNaNCols { t.linkRatios with cell := fun i j => (t.linkRatios.cell i j).rounded rd })

/-- `arr.mean()`, see `npMean`. -/
def npMeanR (br : ℕ → SumTree) (rd : K → K) (l : List (Num K)) : Num K :=
  (sumR br rd l / .fin (l.length : K)).rounded rd

/-- `_simple` (triangle.py:501-520), see `simpleAvg`. -/
def simpleAvgR (br : ℕ → SumTree) (rd : K → K) (l : List (Num K)) : Num K :=
  if l = [] then .nan else npMeanR br rd l

/-- `_medial` (triangle.py:523-574), see `medialAvg`. -/
def medialAvgR (br : ℕ → SumTree) (rd : K → K) (vals : List (Num K)) : Except PyErr (Num K) :=
  match npSort vals with
  | [] => .error .indexError
  | a :: rest =>
    if (a :: rest).all (fun b => Num.eqF b a) then .ok a
    else if (a :: rest).length = 1 then .ok a
    else if (a :: rest).length = 2 then .ok (npMeanR br rd (a :: rest))
    else
      let mn := npMin a rest
      let mx := npMax a rest
      let mid := (a :: rest).filter (fun v => !(Num.eqF v mn) && !(Num.eqF v mx))
      if mid = [] then .ok .nan else .ok (npMeanR br rd mid)

/-- Weighted average of one column (triangle.py:813-832), see `weightedAvg`. -/
def weightedAvgR (br : ℕ → SumTree) (rd : K → K) (t : Tri K) (dur : ℕ) (j : ℕ) : Except PyErr (Num K) :=
  let c1 := t.col j
  let c2 := t.col (j + 1)
  let final := (c2.filter (fun v => !v.isNaN)).length
  if t.nr ≤ final then .error .indexError
  else
    let first := if dur = 0 then 0 else final - dur
    .ok ((sumSkipR br rd (pySlice c2 first final) / sumSkipR br rd (pySlice c1 first final)).rounded rd)

/-- One entry of `a2a_avgs` (triangle.py:809-855), see `avgCell`; `gm` stands for `scipy.stats.gmean` as it rounds. -/
def avgCellR (br : ℕ → SumTree) (rd : K → K) (gm : List (Num K) → Num K) (t adj : Tri K) (k : AvgKind) (dur : ℕ)
    (j : ℕ) : Except PyErr (Num K) :=
  match k with
  | .simple => .ok (simpleAvgR br rd (avgWindow (adj.col j) dur))
  | .geometric => .ok (geometricAvg gm (avgWindow (adj.col j) dur))
  | .medial => medialAvgR br rd (avgWindow (adj.col j) dur)
  | .weighted => weightedAvgR br rd t dur j

/-- `a2a_avgs` (triangle.py:777-856), see `a2aAvgs`. -/
def a2aAvgsR (br : ℕ → SumTree) (rd : K → K) (gm : List (Num K) → Num K) (t ind : Tri K) :
    Except PyErr (AvgTable K) := do
  let adj := Tri.alignOp (fun a b => (a * b).rounded rd) (t.a2aR rd) ind
  let rows ← (avgGrid (t.a2aR rd).nr).mapM (fun p => do
    let vals ← (List.range adj.nc).mapM (fun j => avgCellR br rd gm t adj p.1 p.2 j)
    pure (avgLabel p.1 p.2, vals))
  pure { devs := (t.a2aR rd).devs, rows := rows }

/-! ### estimator -/

/-- `_ldfs` (base.py:156-177), see `ldfsByName`. -/
def ldfsByNameR (br : ℕ → SumTree) (rd : K → K) (gm : List (Num K) → Num K) (t ind : Tri K) (sel : String)
    (tail : Num K) : Except PyErr (Ser K) := do
  let tab ← a2aAvgsR br rd gm t ind
  match tab.rows.lookup sel with
  | none => .error .keyError
  | some vals => do
    let lab ← tailLabel tab.devs
    .ok (Ser.locSet (tab.devs.zip vals) lab tail)

/-- `np.cumprod(ldfs.values[::-1])[::-1]` (base.py:198), see `cumprodRev`. -/
def cumprodRevR (rd : K → K) : List (Num K) → List (Num K)
  | [] => []
  | x :: xs =>
    match cumprodRevR rd xs with
    | [] => [x]
    | c :: cs => (c * x).rounded rd :: c :: cs

/-- `_cldfs` (base.py:180-200), see `cldfsOf`. -/
def cldfsOfR (rd : K → K) (ldfs : Ser K) : Ser K := (ldfs.map Prod.fst).zip (cumprodRevR rd (ldfs.map Prod.snd))

/-- `_ultimates` (base.py:203-225), see `ultimatesOf`. -/
def ultimatesOfR (rd : K → K) (t : Tri K) (cldfs : Ser K) : Except PyErr (List (Num K)) :=
  let a := t.latestByOrigin.map Prod.snd
  let b := (cldfs.map Prod.snd).reverse
  if a.length = b.length ∧ b.length = t.nr then .ok (List.zipWith (fun x y => (x * y).rounded rd) a b)
  else if b.length = 1 ∧ a.length = t.nr then .ok (a.map (fun x => (x * b.headD .nan).rounded rd))
  else if a.length = 1 ∧ b.length = t.nr then .ok (b.map (fun x => (a.headD .nan * x).rounded rd))
  else .error .valueError

/-- `_reserves` (base.py:228-252), see `reservesOf`. -/
def reservesOfR (rd : K → K) (t : Tri K) (ults : List (Num K)) : List (Num K) :=
  (t.origins.zip ults).map (fun p => (p.2 - Ser.get t.latestByOrigin p.1).rounded rd)

/-- Cells of the squared triangle (base.py:271-277), see `sqrCell`. -/
def sqrCellR (rd : K → K) (t : Tri K) (ldf : ℕ → Num K) (i : ℕ) : ℕ → Num K
  | 0 => t.cell i 0
  | j + 1 => if t.triindAt i (j + 1) then (sqrCellR rd t ldf i j * ldf j).rounded rd else t.cell i (j + 1)

/-- `_trisqrd` (base.py:255-281), see `trisqrdOf`. -/
def trisqrdOfR (rd : K → K) (t : Tri K) (ldfs : Ser K) : Except PyErr (Sqr K) := do
  let _ ← t.triind
  if ldfs.length < t.nc - 1 ∨ ldfs = [] then .error .indexError
  else
    let f : ℕ → Num K := fun j => (ldfs.map Prod.snd).getD j .nan
    let last := (ldfs.map Prod.snd).getLastD .nan
    .ok { tri := { t with cell := fun i j => sqrCellR rd t f i j },
          ultimate := (List.range t.nr).map (fun i => (sqrCellR rd t f i (t.nc - 1) * last).rounded rd) }

/-- `__call__` after the factors are known (base.py:125-153), see `baseFromLdfs`. -/
def baseFromLdfsR (br : ℕ → SumTree) (rd : K → K) (t : Tri K) (ldfs : Ser K) : Except PyErr (BaseResult K) := do
  let cldfs := cldfsOfR rd ldfs
  let ults ← ultimatesOfR rd t cldfs
  let res := reservesOfR rd t ults
  let mat ← t.maturity
  let sqr ← trisqrdOfR rd t ldfs
  let rows : List (SummRow K) := (List.range t.nr).map (fun i =>
    { origin := t.oAt i
      maturity := mat.getD i 0
      cldf := Ser.get cldfs (mat.getD i 0)
      emergence := (1 / Ser.get cldfs (mat.getD i 0)).rounded rd
      latest := Ser.get t.latestByOrigin (t.oAt i)
      ultimate := ults.getD i .nan
      reserve := res.getD i .nan })
  .ok { ldfs := ldfs, cldfs := cldfs, rows := rows
        totLatest := sumSkipR br rd (rows.map SummRow.latest)
        totUltimate := sumSkipR br rd (rows.map SummRow.ultimate)
        totReserve := sumSkipR br rd (rows.map SummRow.reserve)
        sqr := sqr }

/-- `tri.base_cl(sel=<name>, tail=...)` (triangle.py:1101-1139, base.py:93-94), see `baseCL`. -/
def baseCLR (br : ℕ → SumTree) (rd : K → K) (gm : List (Num K) → Num K) (t ind : Tri K) (sel : String)
    (tail : Num K) : Except PyErr (BaseResult K) := do
  let ldfs ← ldfsByNameR br rd gm t ind sel tail
  baseFromLdfsR br rd t ldfs

end

end Trikit
