import Verif.Bootstrap
import Verif.Diagnostics

/-! # `BootstrapChainLadderResult.residuals_detail` (bootstrap.py:923-986) -/

set_option linter.unusedSectionVars false

namespace Trikit

section
variable {K : Type} [Field K] [LinearOrder K]

/-- `values.ravel()` without missing values and zeros (bootstrap.py:933-938). -/
def detailVals (r : Tri K) : List (Num K) :=
  (((List.range r.nr).flatMap (fun i => (List.range r.nc).map (fun j => r.cell i j))).filter
    (fun v => !v.isNaN)).filter (fun v => !Num.eqF v 0)

/-- Central moment of order `k` of `stats.skew` and `stats.kurtosis` (called in bootstrap.py:945-948, 958-961), array without NaN. -/
def momentL (k : ℕ) (l : List (Num K)) : Num K := meanL (l.map (fun x => (x - meanL l).pow k))

/-- scipy calls the second moment of a constant array zero: `m2 <= (eps * mean) ** 2`, `eps` is
`np.finfo(float).resolution` (bootstrap.py:945, 948, 958, 961). -/
def constL (eps : K) (l : List (Num K)) : Bool := Num.le (momentL 2 l) ((.fin eps * meanL l).pow 2)

/-- `stats.skew` (bootstrap.py:945, 958). -/
def skewL (sq : Num K → Num K) (eps : K) (l : List (Num K)) : Num K :=
  if constL eps l then .nan else momentL 3 l / (momentL 2 l * sq (momentL 2 l))

/-- `stats.kurtosis`, Fisher's definition (bootstrap.py:948, 961). -/
def kurtL (eps : K) (l : List (Num K)) : Num K :=
  if constL eps l then .nan else momentL 4 l / (momentL 2 l).pow 2 - .fin 3

/-- `stats.variation` (bootstrap.py:947, 960). -/
def variationL (sq : Num K → Num K) (l : List (Num K)) : Num K := sq (momentL 2 l) / meanL l

/-- `stats.mode(...).mode`: the smallest of the most frequent values (bootstrap.py:946, 959). -/
def modeL (l : List (Num K)) : Num K := ((npSort l).argmax (fun v => l.count v)).getD .nan

/-- `var(ddof=1)` (bootstrap.py:949, 962). -/
def varL (l : List (Num K)) : Num K :=
  (l.map (fun x => (x - meanL l).pow 2)).sum / .fin ((l.length - 1 : ℕ) : K)

/-- One column of the table (bootstrap.py:965-984), in the order of its labels. -/
structure ResidStats (K : Type) where
  size : ℕ
  sum : Num K
  ssqr : Num K
  min : Num K
  max : Num K
  mean : Num K
  skew : Num K
  mode : Num K
  cvar : Num K
  kurt : Num K
  var : Num K
  std : Num K
  med : Num K

/-- Statistics of one array (bootstrap.py:939-951, 952-964).  `min` of an empty array raises `ValueError`.  `idx` is `.mode[0]`: arrays before
scipy 1.11, numbers (which have no index) since. -/
def residStats (sq : Num K → Num K) (eps : K) (idx : Num K → Except PyErr (Num K)) :
    List (Num K) → Except PyErr (ResidStats K)
  | [] => .error .valueError
  | x :: xs => do
    let l := x :: xs
    let mode ← idx (modeL l)
    .ok { size := l.length, sum := l.sum, ssqr := (l.map (fun v => v.pow 2)).sum, min := npMin x xs,
          max := npMax x xs, mean := meanL l, skew := skewL sq eps l, mode := mode, cvar := variationL sq l,
          kurt := kurtL eps l, var := varL l, std := stdL sq l, med := npMedian l }

/-- `.mode[0]` with scipy 1.11.4: indexing a number raises `IndexError` (bootstrap.py:946, 959). -/
def modeIdx : Num K → Except PyErr (Num K) := fun _ => .error .indexError

/-- `residuals_detail` (bootstrap.py:923-986); `None` for parametric runs.  The cache is left out. -/
def residualsDetail (sq : Num K → Num K) (eps : K) (idx : Num K → Except PyErr (Num K)) (parametric : Bool)
    (unscaled adjusted : Tri K) : Except PyErr (Option (ResidStats K × ResidStats K)) :=
  if parametric then .ok none
  else do
    let a ← residStats sq eps idx (detailVals unscaled)
    let b ← residStats sq eps idx (detailVals adjusted)
    .ok (some (a, b))

end

end Trikit
