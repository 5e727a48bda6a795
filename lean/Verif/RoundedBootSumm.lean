import Verif.RoundedSim
import Verif.BootTable

/-!
# Summary of the bootstrap in rounded arithmetic

Means, standard errors and totals of `boot_cl` with every operation rounded by `rd`, in the order in which pandas 2.1.4
performs them: means and sums of groups are compensated, standard deviations of groups use one pass with a running mean,
that of a series two passes with sums in the order `br`.  Simplifications: as in `RoundedSim.lean`.
-/

set_option linter.unusedSectionVars false

namespace Trikit

section
variable {K : Type} [Field K] [LinearOrder K]

/-- `groupby(...).mean()` of one group, see `meanSkip`. -/
def groupMeanR (rd : K → K) (l : List (Num K)) : Num K :=
  Num.divR rd (kahanSum rd l) (.fin ((l.filter (fun v => !v.isNaN)).length : K))

/-- One step of the running mean and sum of squares: count, mean, sum of squares, next value. -/
def welfordStep (rd : K → K) (s : ℕ × Num K × Num K) (v : Num K) : ℕ × Num K × Num K :=
  let m := Num.addR rd s.2.1 (Num.divR rd (Num.subR rd v s.2.1) (.fin ((s.1 + 1 : ℕ) : K)))
  (s.1 + 1, m, Num.addR rd s.2.2 (Num.mulR rd (Num.subR rd v m) (Num.subR rd v s.2.1)))

/-- `groupby(...).std(ddof=1)` of one group, see `stdL`. -/
def groupStdR (rd : K → K) (sq : Num K → Num K) (l : List (Num K)) : Num K :=
  let v := l.filter (fun v => !v.isNaN)
  if v.length ≤ 1 then .nan
  else sq (Num.divR rd (v.foldl (welfordStep rd) (0, 0, 0)).2.2 (.fin ((v.length - 1 : ℕ) : K)))

/-- `Series.std(ddof=1)`, see `stdL`. -/
def seriesStdR (br : ℕ → SumTree) (rd : K → K) (sq : Num K → Num K) (l : List (Num K)) : Num K :=
  let v := l.filter (fun v => !v.isNaN)
  if v.length ≤ 1 then .nan
  else
    let avg := Num.divR rd (sumR br rd v) (.fin (v.length : K))
    sq (Num.divR rd (sumR br rd (v.map (fun x => (Num.subR rd avg x).powR rd 2))) (.fin ((v.length - 1 : ℕ) : K)))

/-- Reported `ultimate` per origin (bootstrap.py:182-183), see `bootUltimates`. -/
def bootUltimatesR (rd : K → K) (t : Tri K) (res : List (ResRow K)) : List (Num K) :=
  (List.range t.nr).map (fun i =>
    if i = 0 then Ser.get t.latestByOrigin (t.oAt 0)
    else groupMeanR rd ((res.filter (fun r => r.origin = t.oAt i)).map ResRow.ultimate))

/-- Reported `reserve` per origin (bootstrap.py:184), see `bootReserves`. -/
def bootReservesR (rd : K → K) (t : Tri K) (res : List (ResRow K)) : List (Num K) :=
  List.zipWith (fun i u => Num.subR rd u (Ser.get t.latestByOrigin (t.oAt i))) (List.range t.nr) (bootUltimatesR rd t res)

/-- Totals of the simulations (bootstrap.py:211, 732), see `bootTotals`. -/
def bootTotalsR (rd : K → K) (sims : ℕ) (res : List (ResRow K)) : List (Num K) :=
  (List.range sims).map (fun s => kahanSum rd ((res.filter (fun r => r.sim = s)).map ResRow.reserve))

/-- `_bs_std_error` (bootstrap.py:714-736), see `bootStdErr`. -/
def bootStdErrR (br : ℕ → SumTree) (rd : K → K) (sq : Num K → Num K) (t : Tri K) (sims : ℕ) (res : List (ResRow K)) :
    List (Num K) :=
  t.origins.map (fun o => groupStdR rd sq ((res.filter (fun r => r.origin = o)).map ResRow.reserve)) ++
    [seriesStdR br rd sq (bootTotalsR rd sims res)]

/-- Row `i` of the summary (bootstrap.py:189-203), see `bootRowAt`. -/
def bootRowAtR (rd : K → K) (t : Tri K) (cl : Ser K) (mat : List Int) (ults res se : List (Num K)) (i : ℕ) : BootRow K :=
  { origin := some (t.oAt i)
    maturity := some (mat.getD i 0)
    cldf := Ser.get cl (mat.getD i 0)
    emergence := Num.divR rd 1 (Ser.get cl (mat.getD i 0))
    latest := Ser.get t.latestByOrigin (t.oAt i)
    ultimate := ults.getD i .nan
    reserve := res.getD i .nan
    stdErr := se.getD i .nan
    cv := Num.divR rd (se.getD i .nan) (res.getD i .nan) }

/-- The row "total" (bootstrap.py:204-213), see `bootTotalRow`. -/
def bootTotalRowR (br : ℕ → SumTree) (rd : K → K) (se : Num K) (rows : List (BootRow K)) : BootRow K :=
  { origin := none
    maturity := none
    cldf := .nan
    emergence := .nan
    latest := sumSkipR br rd (rows.map BootRow.latest)
    ultimate := sumSkipR br rd (rows.map BootRow.ultimate)
    reserve := sumSkipR br rd (rows.map BootRow.reserve)
    stdErr := se
    cv := Num.divR rd se (sumSkipR br rd (rows.map BootRow.reserve)) }

/-- All rows of the summary (bootstrap.py:189-213), see `bootSummaryRows`. -/
def bootSummaryRowsR (br : ℕ → SumTree) (rd : K → K) (t : Tri K) (cl : Ser K) (mat : List Int) (ults res se : List (Num K)) :
    List (BootRow K) :=
  let rows := (List.range t.nr).map (bootRowAtR rd t cl mat ults res se)
  rows ++ [bootTotalRowR br rd (se.getD t.nr .nan) rows]

/-- Summary of `BootstrapChainLadder.__call__` without quantile columns, see `bootSummary`. -/
def bootSummaryR (br : ℕ → SumTree) (rd : K → K) (t : Tri K) (ldfs : Ser K) (ults res se : List (Num K)) :
    Except PyErr (List (BootRow K)) := do
  let mat ← t.maturity
  .ok (bootSummaryRowsR br rd t (cldfsOfR rd ldfs) mat ults res se)

end

end Trikit
