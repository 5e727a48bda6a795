import Verif.Rounded
import Verif.Mack

/-!
# Mack chain ladder in rounded arithmetic

The functions of `Mack.lean` up to the mean squared errors, every operation rounded by `rd`, sums in the order `br`;
the built-in `sum` adds from left to right.  Simplifications: as in `Rounded.lean`; powers are computed exactly and
rounded once.
-/

set_option linter.unusedSectionVars false

namespace Trikit

section
variable {K : Type} [Field K] [LinearOrder K]

/-- Rounded operations on float64 values. -/
def Num.mulR (rd : K → K) (a b : Num K) : Num K := (a * b).rounded rd
/-- See `Num.mulR`. -/
def Num.addR (rd : K → K) (a b : Num K) : Num K := (a + b).rounded rd
/-- See `Num.mulR`. -/
def Num.subR (rd : K → K) (a b : Num K) : Num K := (a - b).rounded rd
/-- See `Num.mulR`. -/
def Num.divR (rd : K → K) (a b : Num K) : Num K := (a / b).rounded rd
/-- See `Num.mulR`. -/
def Num.powR (rd : K → K) (a : Num K) (k : ℕ) : Num K := (a.pow k).rounded rd

/-- The built-in `sum`: from left to right. -/
def pySumR (rd : K → K) (l : List (Num K)) : Num K := sumR (fun k => seqTree (k - 1)) rd l

/-- `C**alpha`, see `Tri.powT`. -/
def Tri.powTR (rd : K → K) (t : Tri K) (alpha : ℕ) : Tri K := { t with cell := fun i j => (t.cell i j).powR rd alpha }

/-- `frame.sum(axis=0)`, see `Tri.colSums`. -/
def Tri.colSumsR (br : ℕ → SumTree) (rd : K → K) (t : Tri K) : Ser K :=
  (List.range t.nc).map (fun j => (t.dAt j, sumSkipR br rd (t.col j)))

/-- See `Ser.divS`. -/
def Ser.divSR (rd : K → K) (a b : Ser K) : Ser K :=
  if a.map Prod.fst = b.map Prod.fst then
    List.zipWith (fun p q => (p.1, Num.divR rd p.2 q.2)) a b
  else (labels (a.map Prod.fst ++ b.map Prod.fst)).map (fun d => (d, Num.divR rd (Ser.get a d) (Ser.get b d)))

/-- `MackChainLadder._ldfs` (mack.py:250-272), see `mackLdfs`. -/
def mackLdfsR (br : ℕ → SumTree) (rd : K → K) (alpha : ℕ) (t ind : Tri K) (tail : Num K) : Except PyErr (Ser K) := do
  let c := t.modTri.powTR rd alpha
  let w := ind.modInd
  let num := (Tri.alignOp (Num.mulR rd) (Tri.alignOp (Num.mulR rd) (t.a2aR rd) w) c).colSumsR br rd
  let den := (Tri.alignOp (Num.mulR rd) w c).colSumsR br rd
  let ldfs := Ser.divSR rd num den
  let lab ← tailLabel (ldfs.map Prod.fst)
  .ok (Ser.locSet ldfs lab tail)

/-- Sum of the weighted squared deviations (mack.py:327), see `devpSum`. -/
def devpSumR (br : ℕ → SumTree) (rd : K → K) (alpha : ℕ) (t ind : Tri K) (f : Num K) (d : Int) : Num K :=
  sumSkipR br rd ((t.a2aR rd).origins.map (fun o =>
    Num.mulR rd (Num.mulR rd (ind.modInd.at' o d) ((t.modTri.powTR rd alpha).at' o d))
      ((Num.subR rd ((t.a2aR rd).at' o d) f).powR rd 2)))

/-- `MackChainLadder._devp_variance` (mack.py:301-334), see `devpVariance`. -/
def devpVarianceR (br : ℕ → SumTree) (rd : K → K) (alpha : ℕ) (t ind : Tri K) (ldfs : Ser K) : Except PyErr (Ser K) :=
  let labs := (ldfs.map Prod.fst).dropLast
  let devs := t.devs.dropLast.dropLast
  if devs.all (fun d => decide (d ∈ ind.devs ∧ d ∈ t.modTri.devs ∧ d ∈ (t.a2aR rd).devs ∧
      d ∈ ldfs.map Prod.fst)) = false then .error .keyError
  else
    let vals : List (Num K) := labs.map (fun d =>
      if d ∈ devs then
        Num.divR rd (devpSumR br rd alpha t ind (Ser.get ldfs d) d)
          (.fin (((t.nr : Int) - (devs.idxOf d : Int) - 2 : Int) : K))
      else .nan)
    if vals.length < 3 then .error .indexError
    else
      let m := vals.length
      let a := vals.getD (m - 2) .nan
      let b := vals.getD (m - 3) .nan
      .ok (labs.zip (vals.dropLast ++ [npMin2 (Num.divR rd (a.powR rd 2) b) (npMin2 a b)]))

/-- `MackChainLadder._ldf_variance` (mack.py:275-298), see `ldfVariance`. -/
def ldfVarianceR (br : ℕ → SumTree) (rd : K → K) (alpha : ℕ) (t ind : Tri K) (devpvar : Ser K) :
    Except PyErr (Ser K) :=
  if ind.devs.all (fun d => decide (d ∈ devpvar.map Prod.fst ∧ d ∈ t.modTri.devs)) = false then
    .error .keyError
  else .ok (devpvar.map (fun p => (p.1,
    if p.1 ∈ ind.devs then
      Num.divR rd p.2 (sumSkipR br rd (ind.origins.map (fun o =>
        Num.mulR rd (ind.modInd.at' o p.1) ((t.modTri.powTR rd alpha).at' o p.1))))
    else .nan)))

/-- One row of `_process_error` (mack.py:375-383), see `peRow`. -/
def peRowR (rd : K → K) (c : ℕ → ℕ → Num K) (f s : ℕ → Num K) (n i : ℕ) : ℕ → Num K
  | 0 => Num.mulR rd (c i (n - 1 - i)) (s (n - 1 - i))
  | m + 1 => Num.addR rd (Num.mulR rd ((f (n - i + m)).powR rd 2) (peRowR rd c f s n i m))
      (Num.mulR rd (c i (n - i + m)) (s (n - i + m)))

/-- One row of `_parameter_error` (mack.py:427-436), see `paRow`. -/
def paRowR (rd : K → K) (c : ℕ → ℕ → Num K) (f v : ℕ → Num K) (n i : ℕ) : ℕ → Num K
  | 0 => Num.mulR rd ((c i (n - 1 - i)).powR rd 2) (v (n - 1 - i))
  | m + 1 => Num.addR rd
      (Num.addR rd (Num.mulR rd ((f (n - i + m)).powR rd 2) (paRowR rd c f v n i m))
        (Num.mulR rd ((c i (n - i + m)).powR rd 2) (v (n - i + m))))
      (Num.mulR rd (v (n - i + m)) (paRowR rd c f v n i m))

/-- See `processError` (mack.py:123-126). -/
def processErrorR (rd : K → K) (c : ℕ → ℕ → Num K) (f s : ℕ → Num K) (n : ℕ) : List (Num K) :=
  (List.range n).map (fun i => if i = 0 then 0 else nanTo0 (peRowR rd c f s n i (i - 1)))

/-- See `parameterError` (mack.py:127-130). -/
def parameterErrorR (rd : K → K) (c : ℕ → ℕ → Num K) (f v : ℕ → Num K) (n : ℕ) : List (Num K) :=
  (List.range n).map (fun i => if i = 0 then 0 else nanTo0 (paRowR rd c f v n i (i - 1)))

/-- Entry of `mse_total` for row `i >= 1` (mack.py:165-176), see `mseTotalRow`. -/
def mseTotalRowR (br : ℕ → SumTree) (rd : K → K) (c : ℕ → ℕ → Num K) (f s : ℕ → Num K) (n : ℕ) (os : List Int)
    (mse ults : List (Num K)) (i : ℕ) : Num K :=
  let later := sumSkipR br rd (((os.zip ults).filter (fun p => decide (os.getD i 0 < p.1))).map Prod.snd)
  let rh := pySumR rd ((List.range i).map (fun k =>
    let p := n - 1 - i + k
    Num.divR rd (Num.divR rd (s p) ((f p).powR rd 2)) (pySumR rd ((List.range (n - 1 - p)).map (fun r => c r p)))))
  Num.addR rd (mse.getD i .nan)
    (Num.mulR rd (Num.mulR rd (Num.mulR rd (.fin 2) (ults.getD i .nan)) later) rh)

/-- `MackChainLadder.__call__`, mack.py:115-180, see `mackCore`. -/
def mackCoreR (br : ℕ → SumTree) (rd : K → K) (alpha : ℕ) (t ind : Tri K) : Except PyErr (MackCore K) := do
  let ldfs ← mackLdfsR br rd alpha t ind 1
  let b ← baseFromLdfsR br rd t ldfs
  let dv ← devpVarianceR br rd alpha t ind ldfs
  let lv ← ldfVarianceR br rd alpha t ind dv
  if dv.length < t.nc - 1 then .error .indexError
  else
    let n := t.nc
    let c := b.sqr.tri.cell
    let pe := processErrorR rd c ldfs.iloc dv.iloc n
    let pa := parameterErrorR rd c ldfs.iloc lv.iloc n
    let mse := List.zipWith (Num.addR rd) pe pa
    let ults := b.rows.map SummRow.ultimate
    .ok { ldfs := ldfs, cldfs := b.cldfs, rows := b.rows, totLatest := b.totLatest
          totUltimate := b.totUltimate, totReserve := b.totReserve, sqr := b.sqr
          devpvar := dv, ldfvar := lv, procErr := pe, paramErr := pa, mse := mse
          totMse := sumSkipR br rd ((List.range (n - 1)).map (fun k =>
            mseTotalRowR br rd c ldfs.iloc dv.iloc n t.origins mse ults (k + 1))) }

end

end Trikit
