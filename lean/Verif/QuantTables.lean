import Verif.Mack
import Verif.Quantile

/-!
# Quantile columns of the summaries and of `get_quantiles`

Models of the quantile columns of `BootstrapChainLadder.__call__` (bootstrap.py:187, 214-221), of
`MackChainLadder.__call__` (mack.py:198-206) and of `MackChainLadderResult.get_quantiles` (mack.py:837-863).
-/

set_option linter.unusedSectionVars false

namespace Trikit

/-- Quantile columns of the bootstrap summary, in order (bootstrap.py:187, 214-221): assignment to an existing
column replaces it.  The other columns of the summary have no `%` in their names. -/
def bootQuantCols {K : Type} [Field K] [LinearOrder K] [FloorRing K] (m : Interp) (rows : List (List (Num K)))
    (q : List (Num K)) (twoSided : Bool) : Except PyErr (List (List Char × List (Num K))) := do
  let qs ← qtlsFormatter q twoSided
  .ok ((qs.map (fun x => (hdrPct (hdrNum x), x))).foldl
    (fun d p => dictSet p.1 (quantileColumn m none rows p.2) d) [])

/-- Quantile columns of the Mack summary, in order (mack.py:198-206); the entry of the first origin is
set to NaN. -/
noncomputable def mackQuantCols (r : MackResult) (z : ℝ → Num ℝ) (q : List (Num ℝ)) (twoSided : Bool) :
    Except PyErr (List (List Char × List (Num ℝ))) := do
  let qs ← qtlsFormatter q twoSided
  .ok ((qs.map (fun x => (hdrPct (hdrNum x), x))).foldl (fun d p => dictSet p.1 (r.qtlColumn z p.2) d) [])

/-- `MackChainLadderResult.get_quantiles` (mack.py:853-863).  As in the bootstrap the check of line 854 never
fires, and without quantiles `set_index` raises. -/
noncomputable def mackGetQuantiles (r : MackResult) (z : ℝ → Num ℝ) (q : List (Num ℝ)) :
    Except PyErr (List (List Char × List (Num ℝ))) := do
  let qs ← qtlsFormatterRes q
  let hs ← qs.mapM (fun x => hdrOrd (hdrNum x))
  if qs.isEmpty && !r.rvs.isEmpty then .error .valueError
  else .ok ((hs.zip qs).foldl (fun d p => dictSet p.1 (r.getQuantile z p.2) d) [])

end Trikit
