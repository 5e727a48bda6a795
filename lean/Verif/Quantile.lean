import Verif.Bootstrap
import Mathlib.Data.Nat.Digits.Defs
import Mathlib.Data.List.Sort
import Mathlib.Algebra.Order.Floor.Ring

/-!
# Quantile arguments, headers and percentiles

Models of `_qtls_formatter` (base.py:599-632 and 660-686), the quantile columns of
`BootstrapChainLadder.__call__` (bootstrap.py:187, 214-221), `get_quantiles` (bootstrap.py:1088-1130) and
`np.percentile` of numpy 1.26.2 for the documented interpolation methods.
-/

set_option linter.unusedSectionVars false

namespace Trikit

section
variable {K : Type} [Field K] [LinearOrder K]

/-! ### arguments -/

/-- `np.sort(np.unique(l))`. -/
def sortUnique (l : List K) : List K := l.dedup.insertionSort (· ≤ ·)

/-- `np.all(np.logical_and(qtls <= 1, qtls >= 0))` (base.py:622, 673); false on NaN, true on no values. -/
def qtlsInRange (q : List (Num K)) : Bool := q.all (fun v => Num.le v 1 && Num.le 0 v)

/-- Finite values of a list. -/
def finVals (q : List (Num K)) : List K := q.filterMap Num.toFin

/-- The quantiles returned by `BaseRangeEstimator._qtls_formatter` (base.py:621-628).  A scalar argument
is a list of length one. -/
def qtlsFormatter (q : List (Num K)) (twoSided : Bool) : Except PyErr (List K) :=
  if qtlsInRange q then
    let v := finVals q
    .ok (if twoSided then sortUnique (v.map (fun x => (1 - x) / 2) ++ v.map (fun x => (1 + x) / 2))
         else sortUnique v)
  else .error .valueError

/-- The quantiles returned by `BaseRangeEstimatorResult._qtls_formatter` (base.py:672-676). -/
def qtlsFormatterRes (q : List (Num K)) : Except PyErr (List K) := qtlsFormatter q false

/-! ### percentiles -/

/-- `interpolation=` of bootstrap.py:140-143.  Other values accepted by numpy are not modelled. -/
inductive Interp
  | linear | lower | higher | midpoint | nearest
  deriving DecidableEq, Repr

variable [FloorRing K]

/-- `np.around`: to the nearest integer, ties to the even one. -/
def roundHalfEven (x : K) : ℤ :=
  if x - (⌊x⌋ : K) < 1 / 2 then ⌊x⌋
  else if 1 / 2 < x - (⌊x⌋ : K) then ⌊x⌋ + 1
  else if ⌊x⌋ % 2 = 0 then ⌊x⌋ else ⌊x⌋ + 1

/-- `take(arr, i)` for an index that is not negative. -/
def takeAt (a : List (Num K)) (i : ℤ) : Num K := a.getD i.toNat .nan

/-- Interpolation at a real index: `_get_indexes`, `_get_gamma` and `_lerp` of numpy's `_quantile`.
At and above the last position both neighbours are the last value. -/
def lerpAt (a : List (Num K)) (v gamma : K) : Num K :=
  if (a.length : K) - 1 ≤ v then takeAt a ((a.length : ℤ) - 1)
  else takeAt a ⌊v⌋ + (takeAt a (⌊v⌋ + 1) - takeAt a ⌊v⌋) * .fin gamma

/-- `np.percentile(a, 100 * q, method=m)` for a one-dimensional non-empty array: NaN if a value is NaN,
otherwise taken from the sorted array. -/
def percentile (m : Interp) (l : List (Num K)) (q : K) : Num K :=
  if l.any Num.isNaN then .nan
  else
    let a := l.insertionSort (fun x y => Num.le x y = true)
    let h : K := ((a.length : K) - 1) * q
    match m with
    | .linear => lerpAt a h (h - (⌊h⌋ : K))
    | .lower => takeAt a ⌊h⌋
    | .higher => takeAt a ⌈h⌉
    | .nearest => takeAt a (roundHalfEven h)
    | .midpoint =>
      let v : K := 1 / 2 * ((⌊h⌋ : K) + (⌈h⌉ : K))
      lerpAt a v (if v = (⌊v⌋ : K) then 0 else 1 / 2)

/-- `lb` of `get_quantiles` (bootstrap.py:1128-1129). -/
def applyLb (lb : Option K) (v : Num K) : Num K :=
  match lb with
  | none => v
  | some b => if Num.lt v (.fin b) then .fin b else v

/-- One column of `get_quantiles` (bootstrap.py:1120-1129): one percentile per row of the summary, the
reserves of that row given as a list. -/
def quantileColumn (m : Interp) (lb : Option K) (rows : List (List (Num K))) (q : K) : List (Num K) :=
  rows.map (fun l => applyLb lb (percentile m l q))

end

/-! ### headers -/

/-- Decimal digit. -/
def dchar (d : ℕ) : Char := Char.ofNat (48 + d)

/-- `str(n)`. -/
def natStr (n : ℕ) : List Char := if n = 0 then ['0'] else (Nat.digits 10 n).reverse.map dchar

/-- Five digits of a number below 100000. -/
def pad5 (r : ℕ) : List Char :=
  [dchar (r / 10000), dchar (r / 1000 % 10), dchar (r / 100 % 10), dchar (r / 10 % 10), dchar (r % 10)]

/-- `"{:.5f}".format(v)` where `n` is `100000 v` rounded to an integer. -/
def fmt5 (n : ℕ) : List Char := natStr (n / 100000) ++ '.' :: pad5 (n % 100000)

/-- `str.rstrip(c)`. -/
def rstrip (c : Char) (l : List Char) : List Char := (l.reverse.dropWhile (· = c)).reverse

/-- `"{:.5f}".format(v).rstrip("0").rstrip(".")`. -/
def hdrCore (n : ℕ) : List Char := rstrip '.' (rstrip '0' (fmt5 n))

/-- `dsuffix` (base.py:651-654). -/
def dsuffix (c : Char) : Except PyErr (List Char) :=
  if c = '1' then .ok ['s', 't'] else if c = '2' then .ok ['n', 'd'] else if c = '3' then .ok ['r', 'd']
  else if c ∈ ['0', '4', '5', '6', '7', '8', '9'] then .ok ['t', 'h'] else .error .keyError

/-- Header of `BaseRangeEstimatorResult._qtls_formatter` (base.py:678-683). -/
def hdrOrd (n : ℕ) : Except PyErr (List Char) :=
  let h := hdrCore n
  if '.' ∈ h then .ok (h ++ ['t', 'h'])
  else match h.getLast? with
    | none => .error .indexError
    | some c => (dsuffix c).map (fun s => h ++ s)

/-- Header of `BaseRangeEstimator._qtls_formatter` (base.py:629-631). -/
def hdrPct (n : ℕ) : List Char := hdrCore n ++ ['%']

/-- `100000 * (100 q)` rounded, the number behind the header of the quantile `q` in [0, 1]. -/
def hdrNum {K : Type} [Field K] [LinearOrder K] [FloorRing K] (q : K) : ℕ :=
  (roundHalfEven (100000 * (100 * q))).toNat

/-- Assignment to a column of a dict: an existing key keeps its place. -/
def dictSet {α : Type} (k : List Char) (v : α) : List (List Char × α) → List (List Char × α)
  | [] => [(k, v)]
  | (k', v') :: l => if k' = k then (k', v) :: l else (k', v') :: dictSet k v l

/-- `BootstrapChainLadderResult.get_quantiles` (bootstrap.py:1114-1130); `rows` are the reserves of the
rows of the summary.  The check of line 1115 never fires (`q > 1` and `q < 0`); the range is checked in
`_qtls_formatter`.  Without quantiles the frame has no rows and `set_index` raises (line 1127). -/
def getQuantiles {K : Type} [Field K] [LinearOrder K] [FloorRing K] (m : Interp) (lb : Option K)
    (rows : List (List (Num K))) (q : List (Num K)) : Except PyErr (List (List Char × List (Num K))) := do
  let qs ← qtlsFormatterRes q
  let hs ← qs.mapM (fun x => hdrOrd (hdrNum x))
  if qs.isEmpty && !rows.isEmpty then .error .valueError
  else .ok ((hs.zip qs).foldl (fun d p => dictSet p.1 (quantileColumn m lb rows p.2) d) [])

/-- Reserves per row of the summary (bootstrap.py:211-213): the simulations of each origin, then the totals. -/
def reserveRows {K : Type} [Field K] [LinearOrder K] (t : Tri K) (sims : ℕ) (res : List (ResRow K)) :
    List (List (Num K)) :=
  t.origins.map (fun o => (res.filter (fun r => r.origin = o)).map ResRow.reserve) ++ [bootTotals sims res]

end Trikit
