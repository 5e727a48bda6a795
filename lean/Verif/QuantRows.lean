import Verif.RoundedBootSumm
import Verif.Quantile

/-!
# Samples behind the quantile columns in rounded arithmetic

Counterpart of `reserveRows` with the totals of the simulations computed in rounded arithmetic.
-/

set_option linter.unusedSectionVars false

namespace Trikit

/-- Reserves per row of the summary (bootstrap.py:211-213), see `reserveRows`; the totals are sums of `groupby`, that is
compensated sums (`bootTotalsR`). -/
def reserveRowsR {K : Type} [Field K] [LinearOrder K] (rd : K → K) (t : Tri K) (sims : ℕ) (res : List (ResRow K)) :
    List (List (Num K)) :=
  t.origins.map (fun o => (res.filter (fun r => r.origin = o)).map ResRow.reserve) ++ [bootTotalsR rd sims res]

end Trikit
