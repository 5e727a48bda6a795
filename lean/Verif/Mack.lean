import Verif.Base
import Verif.RealFun

/-!
# Mack chain ladder (`trikit/estimators/mack.py`)

Everything up to the mean squared errors is over an arbitrary ordered field; standard errors and
distributions (square root, logarithm) are over the reals.  `alpha` is a natural number
(documented values: 0, 1, 2).  Simplification: the triangle has as many origins as development
periods and every origin has a value, so that `latest` has one row per origin
(mack.py:359-361, 411-413 number origins and periods by position).
-/

set_option linter.unusedSectionVars false

namespace Trikit

variable {K : Type}

/-- Positional access `.iloc[k]` (`nan` outside; the code is only modelled where it is in range). -/
def Ser.iloc (s : Ser K) (k : ℕ) : Num K := (s.map Prod.snd).getD k .nan

namespace Tri

/-- `MackChainLadder.mod_tri` (mack.py:218-233): the latest value of every origin is removed, then
empty rows and empty columns. -/
def modTri (t : Tri K) : Tri K :=
  ({ t with cell := fun i j => if t.rlvi i = some j then .nan else t.cell i j } : Tri K).dropNaNRows.dropNaNCols

variable [Field K] [LinearOrder K]

/-- `MackChainLadder.mod_a2aind` (mack.py:237-247): indicator with 0 replaced by NaN. -/
def modInd (ind : Tri K) : Tri K :=
  { ind with cell := fun i j => if Num.eqF (ind.cell i j) 0 then .nan else ind.cell i j }

/-- `C**alpha` elementwise (`nan ** 0 = 1`). -/
def powT (t : Tri K) (alpha : ℕ) : Tri K := { t with cell := fun i j => (t.cell i j).pow alpha }

/-- `frame.sum(axis=0)`: labelled column sums, missing values skipped. -/
def colSums (t : Tri K) : Ser K :=
  (List.range t.nc).map (fun j => (t.dAt j, Num.sumSkip (t.col j)))

end Tri

section
variable [Field K] [LinearOrder K]

/-- Division of two Series with alignment on labels. -/
def Ser.divS (a b : Ser K) : Ser K :=
  if a.map Prod.fst = b.map Prod.fst then
    List.zipWith (fun p q => (p.1, p.2 / q.2)) a b
  else (labels (a.map Prod.fst ++ b.map Prod.fst)).map (fun d => (d, Ser.get a d / Ser.get b d))

/-- `MackChainLadder._ldfs` (mack.py:250-272). -/
def mackLdfs (alpha : ℕ) (t ind : Tri K) (tail : Num K) : Except PyErr (Ser K) := do
  let c := t.modTri.powT alpha
  let w := ind.modInd
  let num := (Tri.alignOp (· * ·) (Tri.alignOp (· * ·) t.a2a w) c).colSums
  let den := (Tri.alignOp (· * ·) w c).colSums
  let ldfs := Ser.divS num den
  let lab ← tailLabel (ldfs.map Prod.fst)
  .ok (Ser.locSet ldfs lab tail)

/-- The smaller of two numbers as `np.min` computes it: NaN if one of them is NaN. -/
def npMin2 (a b : Num K) : Num K :=
  if a.isNaN ∨ b.isNaN then .nan else if Num.lt b a then b else a

/-- `(w[jj] * (C[jj]**alpha) * (F[jj] - ldfs[jj])**2).sum()` (mack.py:327): origins missing in one of the
frames give NaN on alignment and are skipped, so the sum runs over the origins of `F`. -/
def devpSum (alpha : ℕ) (t ind : Tri K) (f : Num K) (d : Int) : Num K :=
  Num.sumSkip (t.a2a.origins.map (fun o =>
    ind.modInd.at' o d * (t.modTri.powT alpha).at' o d * (t.a2a.at' o d - f).pow 2))

/-- `MackChainLadder._devp_variance` (mack.py:301-334).  A label missing in one of the frames raises
`KeyError`, fewer than three entries raise `IndexError` (`iloc[-3]`). -/
def devpVariance (alpha : ℕ) (t ind : Tri K) (ldfs : Ser K) : Except PyErr (Ser K) :=
  let labs := (ldfs.map Prod.fst).dropLast
  let devs := t.devs.dropLast.dropLast
  if devs.all (fun d => decide (d ∈ ind.devs ∧ d ∈ t.modTri.devs ∧ d ∈ t.a2a.devs ∧
      d ∈ ldfs.map Prod.fst)) = false then .error .keyError
  else
    let vals : List (Num K) := labs.map (fun d =>
      if d ∈ devs then
        devpSum alpha t ind (Ser.get ldfs d) d / .fin (((t.nr : Int) - (devs.idxOf d : Int) - 2 : Int) : K)
      else .nan)
    if vals.length < 3 then .error .indexError
    else
      let m := vals.length
      let a := vals.getD (m - 2) .nan
      let b := vals.getD (m - 3) .nan
      .ok (labs.zip (vals.dropLast ++ [npMin2 (a.pow 2 / b) (npMin2 a b)]))

/-- `MackChainLadder._ldf_variance` (mack.py:275-298): indexed like the variances; a column of the
indicator without variance raises `KeyError`, columns without indicator stay NaN. -/
def ldfVariance (alpha : ℕ) (t ind : Tri K) (devpvar : Ser K) : Except PyErr (Ser K) :=
  if ind.devs.all (fun d => decide (d ∈ devpvar.map Prod.fst ∧ d ∈ t.modTri.devs)) = false then
    .error .keyError
  else .ok (devpvar.map (fun p => (p.1,
    if p.1 ∈ ind.devs then
      p.2 / Num.sumSkip (ind.origins.map (fun o =>
        ind.modInd.at' o p.1 * (t.modTri.powT alpha).at' o p.1))
    else .nan)))

/-- One row of `_process_error` (mack.py:375-383): entry `m` belongs to column `n - i + m` (0-based) of
row `i >= 1`; `c` are the cells of the squared triangle. -/
def peRow (c : ℕ → ℕ → Num K) (f s : ℕ → Num K) (n i : ℕ) : ℕ → Num K
  | 0 => c i (n - 1 - i) * s (n - 1 - i)
  | m + 1 => (f (n - i + m)).pow 2 * peRow c f s n i m + c i (n - i + m) * s (n - i + m)

/-- One row of `_parameter_error` (mack.py:427-436). -/
def paRow (c : ℕ → ℕ → Num K) (f v : ℕ → Num K) (n i : ℕ) : ℕ → Num K
  | 0 => (c i (n - 1 - i)).pow 2 * v (n - 1 - i)
  | m + 1 => (f (n - i + m)).pow 2 * paRow c f v n i m + (c i (n - i + m)).pow 2 * v (n - i + m) +
      v (n - i + m) * paRow c f v n i m

/-- `.replace(np.NaN, 0)`. -/
def nanTo0 (x : Num K) : Num K := if x.isNaN then 0 else x

/-- Last column of `_process_error` with missing values replaced by 0 (mack.py:123-126): the first row
is never assigned. -/
def processError (c : ℕ → ℕ → Num K) (f s : ℕ → Num K) (n : ℕ) : List (Num K) :=
  (List.range n).map (fun i => if i = 0 then 0 else nanTo0 (peRow c f s n i (i - 1)))

/-- Last column of `_parameter_error` with missing values replaced by 0 (mack.py:127-130). -/
def parameterError (c : ℕ → ℕ → Num K) (f v : ℕ → Num K) (n : ℕ) : List (Num K) :=
  (List.range n).map (fun i => if i = 0 then 0 else nanTo0 (paRow c f v n i (i - 1)))

/-- Entry of `mse_total` for row `i >= 1` (mack.py:165-176). -/
def mseTotalRow (c : ℕ → ℕ → Num K) (f s : ℕ → Num K) (n : ℕ) (os : List Int) (mse ults : List (Num K))
    (i : ℕ) : Num K :=
  let later := Num.sumSkip (((os.zip ults).filter (fun p => decide (os.getD i 0 < p.1))).map Prod.snd)
  let rh := ((List.range i).map (fun k =>
    let p := n - 1 - i + k
    (s p / (f p).pow 2) / ((List.range (n - 1 - p)).map (fun r => c r p)).sum)).sum
  mse.getD i .nan + .fin 2 * ults.getD i .nan * later * rh

/-- The part of `MackChainLadder.__call__` that needs no square root (mack.py:115-180). -/
structure MackCore (K : Type) where
  ldfs : Ser K
  cldfs : Ser K
  rows : List (SummRow K)
  totLatest : Num K
  totUltimate : Num K
  totReserve : Num K
  sqr : Sqr K
  devpvar : Ser K
  ldfvar : Ser K
  procErr : List (Num K)
  paramErr : List (Num K)
  mse : List (Num K)
  totMse : Num K

/-- `MackChainLadder.__call__`, mack.py:115-180 (`tail` is ignored: line 115 passes 1.0).  The
variances are positional (`iloc`); fewer than `n - 1` of them raise `IndexError`. -/
def mackCore (alpha : ℕ) (t ind : Tri K) : Except PyErr (MackCore K) := do
  let ldfs ← mackLdfs alpha t ind 1
  let b ← baseFromLdfs t ldfs
  let dv ← devpVariance alpha t ind ldfs
  let lv ← ldfVariance alpha t ind dv
  if dv.length < t.nc - 1 then .error .indexError
  else
    let n := t.nc
    let c := b.sqr.tri.cell
    let pe := processError c ldfs.iloc dv.iloc n
    let pa := parameterError c ldfs.iloc lv.iloc n
    let mse := List.zipWith (· + ·) pe pa
    let ults := b.rows.map SummRow.ultimate
    .ok { ldfs := ldfs, cldfs := b.cldfs, rows := b.rows, totLatest := b.totLatest
          totUltimate := b.totUltimate, totReserve := b.totReserve, sqr := b.sqr
          devpvar := dv, ldfvar := lv, procErr := pe, paramErr := pa, mse := mse
          totMse := Num.sumSkip ((List.range (n - 1)).map (fun k =>
            mseTotalRow c ldfs.iloc dv.iloc n t.origins mse ults (k + 1))) }

end

/-! ### Standard errors and distributions -/

/-- Parameters of the distribution attached to a reserve. -/
inductive RV
  | norm (loc scale : Num ℝ)
  | lognorm (scale s : Num ℝ)

/-- Result of `mack_cl`: the core results, standard errors, coefficients of variation and
distributions per origin and (last) for the total. -/
structure MackResult where
  core : MackCore ℝ
  stdErr : List (Num ℝ)
  cv : List (Num ℝ)
  rvs : List RV

/-- `np.clip(x, a_min=0, a_max=None)` (NaN stays NaN). -/
noncomputable def clip0 (x : Num ℝ) : Num ℝ := if x.isNaN then .nan else if Num.lt x 0 then 0 else x

/-- `std_params` of the lognormal (mack.py:189). -/
noncomputable def logSigma (se r : Num ℝ) : Num ℝ := nanTo0 (Num.sqrt (Num.log (1 + (se / r).pow 2)))

/-- `mean_params` of the lognormal (mack.py:190). -/
noncomputable def logMu (se r : Num ℝ) : Num ℝ :=
  clip0 (Num.log r) - .fin (1 / 2) * (logSigma se r).pow 2

/-- Distribution of a reserve `r` with standard error `se` (mack.py:183-195). -/
noncomputable def mackRV (dist : String) (se r : Num ℝ) : Except PyErr RV :=
  if dist = "norm" then .ok (.norm r se)
  else if dist = "lognorm" then .ok (.lognorm (Num.exp (logMu se r)) (logSigma se r))
  else .error .valueError

/-- `MackChainLadder.__call__` up to the distributions (mack.py:59-197).  The `cv` of the first origin is
set to NaN at the end (mack.py:206; the first index label is the smallest). -/
noncomputable def mackCall (alpha : ℕ) (t ind : Tri ℝ) (dist : String) : Except PyErr MackResult := do
  let core ← mackCore alpha t ind
  let se := core.mse.map Num.sqrt ++ [Num.sqrt core.totMse]
  let res := core.rows.map SummRow.reserve ++ [core.totReserve]
  let cv := (List.zipWith (· / ·) se res).set 0 .nan
  let rvs ← (se.zip res).mapM (fun p => mackRV dist p.1 p.2)
  .ok { core := core, stdErr := se, cv := cv, rvs := rvs }

/-- `rv.ppf(q)`; `z` is the standard normal quantile function.  scipy returns NaN unless the scale
(`norm`) or the shape (`lognorm`) is positive. -/
noncomputable def RV.ppf (z : ℝ → Num ℝ) (q : ℝ) : RV → Num ℝ
  | .norm loc scale => if Num.lt 0 scale then loc + scale * z q else .nan
  | .lognorm scale s => if Num.lt 0 s ∧ Num.lt 0 scale then scale * Num.exp (s * z q) else .nan

/-- Quantile column `q` of the summary (mack.py:201-206): one entry per origin and the total; the entry
of the smallest origin label, the first row, is set to NaN. -/
noncomputable def MackResult.qtlColumn (r : MackResult) (z : ℝ → Num ℝ) (q : ℝ) : List (Num ℝ) :=
  (r.rvs.map (RV.ppf z q)).set 0 .nan

/-- Column `q` of `MackChainLadderResult.get_quantiles` (mack.py:837-862); no entry is overwritten. -/
noncomputable def MackResult.getQuantile (r : MackResult) (z : ℝ → Num ℝ) (q : ℝ) : List (Num ℝ) :=
  r.rvs.map (RV.ppf z q)

end Trikit
