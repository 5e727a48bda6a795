import Verif.Bootstrap

/-!
# Summary table of the bootstrap (`trikit/estimators/bootstrap.py`:156-213)
-/

set_option linter.unusedSectionVars false

namespace Trikit

section
variable {K : Type} [Field K] [LinearOrder K]

/-- One row of the summary (bootstrap.py:189-213) without quantile columns.  `origin = none` is the row
"total", whose maturity is the empty string (`none`). -/
structure BootRow (K : Type) where
  origin : Option Int
  maturity : Option Int
  cldf : Num K
  emergence : Num K
  latest : Num K
  ultimate : Num K
  reserve : Num K
  stdErr : Num K
  cv : Num K

/-- Row `i` of the summary (bootstrap.py:189-203) for cumulative factors `cl` and maturities `mat`: maturities are
merged with the factors by label; `cv` divides standard errors by reserves.  `ults`, `res` and `se` are the columns
of bootstrap.py:181-185. -/
def bootRowAt (t : Tri K) (cl : Ser K) (mat : List Int) (ults res se : List (Num K)) (i : ℕ) : BootRow K :=
  { origin := some (t.oAt i)
    maturity := some (mat.getD i 0)
    cldf := Ser.get cl (mat.getD i 0)
    emergence := 1 / Ser.get cl (mat.getD i 0)
    latest := Ser.get t.latestByOrigin (t.oAt i)
    ultimate := ults.getD i .nan
    reserve := res.getD i .nan
    stdErr := se.getD i .nan
    cv := se.getD i .nan / res.getD i .nan }

/-- The row "total" (bootstrap.py:204-213): columns are added (missing values are skipped), factors are NaN, the
standard error is that of the simulated totals. -/
def bootTotalRow (se : Num K) (rows : List (BootRow K)) : BootRow K :=
  { origin := none
    maturity := none
    cldf := .nan
    emergence := .nan
    latest := Num.sumSkip (rows.map BootRow.latest)
    ultimate := Num.sumSkip (rows.map BootRow.ultimate)
    reserve := Num.sumSkip (rows.map BootRow.reserve)
    stdErr := se
    cv := se / Num.sumSkip (rows.map BootRow.reserve) }

/-- All rows of the summary (bootstrap.py:189-213). -/
def bootSummaryRows (t : Tri K) (cl : Ser K) (mat : List Int) (ults res se : List (Num K)) : List (BootRow K) :=
  let rows := (List.range t.nr).map (bootRowAt t cl mat ults res se)
  rows ++ [bootTotalRow (se.getD t.nr .nan) rows]

/-- Summary of `BootstrapChainLadder.__call__` (bootstrap.py:156-159, 184-213) without quantile columns. -/
def bootSummary (t : Tri K) (ldfs : Ser K) (ults res se : List (Num K)) : Except PyErr (List (BootRow K)) := do
  let mat ← t.maturity
  .ok (bootSummaryRows t (cldfsOf ldfs) mat ults res se)

/-- The summary of a run. -/
def BootResult.summary (t : Tri K) (r : BootResult K) : Except PyErr (List (BootRow K)) :=
  bootSummary t r.fit.ldfs r.ultimates r.reserves r.stdErr

end

end Trikit
