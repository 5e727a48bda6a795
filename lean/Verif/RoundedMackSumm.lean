import Verif.RoundedMack
import Verif.RoundedQuant

/-!
# Standard errors, distributions and quantiles of Mack chain ladder in rounded arithmetic

The functions of `Mack.lean` and `QuantTables.lean` after the mean squared errors, every operation rounded by `rd`.  The
rounded functions `np.sqrt`, `np.log`, `np.exp` are the parameters `sq`, `lg`, `ex`, the standard normal quantile
`scipy.special.ndtri` is the parameter `z`.  Simplifications: as in `RoundedMack.lean`.
-/

set_option linter.unusedSectionVars false

namespace Trikit

section
variable {K : Type} [Field K] [LinearOrder K]

/-- Parameters of the distribution attached to a reserve, see `RV`. -/
inductive RVR (K : Type)
  | norm (loc scale : Num K)
  | lognorm (scale s : Num K)

/-- Result of `mack_cl`, see `MackResult`. -/
structure MackResultR (K : Type) where
  core : MackCore K
  stdErr : List (Num K)
  cv : List (Num K)
  rvs : List (RVR K)

/-- `np.clip(x, a_min=0, a_max=None)`, see `clip0`. -/
def clip0R (x : Num K) : Num K := if x.isNaN then .nan else if Num.lt x 0 then 0 else x

/-- `std_params` of the lognormal (mack.py:189), see `logSigma`. -/
def logSigmaR (rd : K → K) (sq lg : Num K → Num K) (se r : Num K) : Num K :=
  nanTo0 (sq (lg (Num.addR rd 1 ((Num.divR rd se r).powR rd 2))))

/-- `mean_params` of the lognormal (mack.py:190), see `logMu`. -/
def logMuR (rd : K → K) (sq lg : Num K → Num K) (se r : Num K) : Num K :=
  Num.subR rd (clip0R (lg r)) (Num.mulR rd (.fin (1 / 2)) ((logSigmaR rd sq lg se r).powR rd 2))

/-- Distribution of a reserve (mack.py:183-195), see `mackRV`. -/
def mackRVR (rd : K → K) (sq lg ex : Num K → Num K) (dist : String) (se r : Num K) : Except PyErr (RVR K) :=
  if dist = "norm" then .ok (.norm r se)
  else if dist = "lognorm" then .ok (.lognorm (ex (logMuR rd sq lg se r)) (logSigmaR rd sq lg se r))
  else .error .valueError

/-- `MackChainLadder.__call__` up to the distributions (mack.py:59-197, 206), see `mackCall`. -/
def mackCallR (br : ℕ → SumTree) (rd : K → K) (sq lg ex : Num K → Num K) (alpha : ℕ) (t ind : Tri K) (dist : String) :
    Except PyErr (MackResultR K) := do
  let core ← mackCoreR br rd alpha t ind
  let se := core.mse.map sq ++ [sq core.totMse]
  let res := core.rows.map SummRow.reserve ++ [core.totReserve]
  let cv := (List.zipWith (Num.divR rd) se res).set 0 .nan
  let rvs ← (se.zip res).mapM (fun p => mackRVR rd sq lg ex dist p.1 p.2)
  .ok { core := core, stdErr := se, cv := cv, rvs := rvs }

/-- `rv.ppf(q)` of scipy 1.11.4, see `RV.ppf`: `_ppf(q) * scale + loc`, where `_ppf(q)` is `ndtri(q)` for the normal and
`exp(s * ndtri(q))` for the lognormal, whose location is 0. -/
def RVR.ppf (rd : K → K) (ex : Num K → Num K) (z : K → Num K) (q : K) : RVR K → Num K
  | .norm loc scale => if Num.lt 0 scale then Num.addR rd (Num.mulR rd (z q) scale) loc else .nan
  | .lognorm scale s =>
    if Num.lt 0 s ∧ Num.lt 0 scale then Num.addR rd (Num.mulR rd (ex (Num.mulR rd s (z q))) scale) 0 else .nan

/-- Quantile column of the summary (mack.py:201-206), see `MackResult.qtlColumn`. -/
def MackResultR.qtlColumn (r : MackResultR K) (rd : K → K) (ex : Num K → Num K) (z : K → Num K) (q : K) : List (Num K) :=
  (r.rvs.map (RVR.ppf rd ex z q)).set 0 .nan

/-- Column of `get_quantiles` (mack.py:837-862), see `MackResult.getQuantile`. -/
def MackResultR.getQuantile (r : MackResultR K) (rd : K → K) (ex : Num K → Num K) (z : K → Num K) (q : K) :
    List (Num K) :=
  r.rvs.map (RVR.ppf rd ex z q)

/-- Quantile columns of the summary (mack.py:198-206), see `mackQuantCols`. -/
def mackQuantColsR [FloorRing K] (rd : K → K) (ex : Num K → Num K) (r : MackResultR K) (z : K → Num K) (q : List (Num K))
    (twoSided : Bool) : Except PyErr (List (List Char × List (Num K))) := do
  let qs ← qtlsFormatterR rd q twoSided
  .ok ((qs.map (fun x => (hdrPct (hdrNumR rd x), x))).foldl (fun d p => dictSet p.1 (r.qtlColumn rd ex z p.2) d) [])

end

end Trikit
