import Verif.Mack

/-!
# Diagnostics of the Mack model (`trikit/triangle.py`:700-773, `trikit/estimators/mack.py`:550-815)

Rank correlation between development periods, calendar year effects, link ratio assignment and
standardized residuals.  Not modelled: the solver and normal quantile that turn the statistics into a
confidence interval (`scipy.optimize.root`, `norm.ppf`).
-/

set_option linter.unusedSectionVars false

namespace Trikit

variable {K : Type}

section
variable [Field K] [LinearOrder K]

/-- `Series.rank()` (method "average", missing values stay missing): the rank of `v` is the number of
smaller values plus the mean position `(e + 1) / 2` within its group of `e` equal values. -/
def rankAvg (l : List (Num K)) : List (Num K) :=
  l.map (fun v => if v.isNaN then .nan else
    .fin (((l.filter (fun u => Num.lt u v)).length : K) +
      (((l.filter (fun u => Num.eqF u v)).length : K) + 1) / 2))

/-- `_BaseCumTriangle.a2a_lvi` (triangle.py:700-716): label of the last origin with a link ratio, per
column of `a2a`.  Every column of `a2a` has a link ratio, so the lookup never fails. -/
def a2aLvi (t : Tri K) : List Int :=
  (List.range t.a2a.nc).map (fun j => t.a2a.oAt ((t.a2a.clvi j).getD 0))

/-- `row_offset` of `a2a_lvi` (triangle.py:714): position of that origin in the triangle. -/
def a2aLviOffset (t : Tri K) : List ℕ := (a2aLvi t).map (fun o => t.origins.idxOf o)

/-- One column of `ranked_a2a`: `isS` tells `s_k` from `r_k`; the values are indexed by the rows of
`a2a`, rows that are not part of the column being missing (outer join of `pd.concat`). -/
structure RankCol (K : Type) where
  isS : Bool
  k : ℕ
  vals : List (Num K)

/-- `r_{d+1}` (triangle.py:733). -/
def rankR (t : Tri K) (d : ℕ) : RankCol K := ⟨false, d + 1, rankAvg (t.a2a.col d)⟩

/-- `s_{d+2}` (triangle.py:734-736): column `d` without the rows from its last link ratio on. -/
def rankS (t : Tri K) (d : ℕ) : RankCol K :=
  ⟨true, d + 2, rankAvg ((List.range t.a2a.nr).map (fun i =>
    if t.a2a.oAt i < (a2aLvi t).getD d 0 then t.a2a.cell i d else .nan))⟩

/-- Rows in which some column has a value (`dropna(how="all")`). -/
def rankRows (n : ℕ) (cols : List (RankCol K)) : List ℕ :=
  (List.range n).filter (fun i => cols.any (fun c => !(c.vals.getD i .nan).isNaN))

/-- `_BaseCumTriangle.ranked_a2a` (triangle.py:719-742): `rank_list[1:-1]`; concatenating no frame at
all raises `ValueError`. -/
def rankedA2a (t : Tri K) : Except PyErr (List (RankCol K)) :=
  let lst := (List.range (t.a2a.nc - 1)).flatMap (fun d => [rankR t d, rankS t d])
  match lst.tail.dropLast with
  | [] => .error .valueError
  | cs => .ok (cs.map (fun c => { c with
      vals := (rankRows t.a2a.nr cs).map (fun i => c.vals.getD i .nan) }))

/-- A row of `_spearman_corr_coeffs`. -/
structure Coeff (K : Type) where
  k : ℕ
  w : Int
  T : Num K

/-- `T_k` of one pair of columns (mack.py:643-645), `n` being the number of development periods. -/
def spearman (n k : ℕ) (s r : List (Num K)) : Num K :=
  let den : Int := ((n : Int) - k) ^ 3 - n + k
  .fin 1 - .fin 6 * Num.sumSkip (List.zipWith (fun a b => (b - a).pow 2 / .fin ((den : Int) : K)) s r)

/-- Pairs of neighbouring columns (mack.py:636-639). -/
def pairUp {α : Type} : List α → List (α × α)
  | a :: b :: l => (a, b) :: pairUp l
  | _ => []

/-- `MackChainLadderResult._spearman_corr_coeffs` (mack.py:601-647). -/
def spearmanCoeffs (t : Tri K) : Except PyErr (List (Coeff K)) := do
  let cs ← rankedA2a t
  .ok ((pairUp cs).map (fun p =>
    ⟨p.1.k, (t.nc : Int) - p.1.k - 1, spearman t.nc p.1.k p.1.vals p.2.vals⟩))

/-- `MackChainLadderResult._spearman_corr_total` (mack.py:650-659). -/
def spearmanTotal (t : Tri K) : Except PyErr (Num K) := do
  let cs ← spearmanCoeffs t
  .ok (Num.sumSkip (cs.map (fun c => .fin ((c.w : Int) : K) * c.T)) /
    .fin (((cs.map Coeff.w).sum : Int) : K))

/-- `MackChainLadderResult._devp_corr_test_var` (mack.py:662-670). -/
def devpCorrVar (t : Tri K) : K := ((((t.nc : Int) - 2) * ((t.nc : Int) - 3) : Int) : K) / 2

/-- Median of a column (`DataFrame.median`, missing values skipped): the middle value, or the mean of
the two middle values.  Simplification: in the presence of `+inf` numpy's masked sort may mix infinities
with missing values. -/
def npMedian (l : List (Num K)) : Num K :=
  let s := npSort (l.filter (fun v => !v.isNaN))
  if s.length % 2 = 1 then s.getD (s.length / 2) .nan
  else (s.getD (s.length / 2 - 1) .nan + s.getD (s.length / 2) .nan) / .fin 2

/-- `np.isclose(a, b)` with the default tolerances `rtol=1e-05`, `atol=1e-08`; infinities are close to
themselves only, NaN to nothing. -/
def isclose : Num K → Num K → Bool
  | .fin a, .fin b => decide (|a - b| ≤ 1 / 10 ^ 8 + 1 / 10 ^ 5 * |b|)
  | .pinf, .pinf => true
  | .ninf, .ninf => true
  | _, _ => false

/-- One entry of `a2a_assignment` (triangle.py:764-772); `none`: left missing. -/
def assignOne (v med : Num K) : Option Int :=
  if v.isNaN then none
  else if isclose v med then some 0
  else if Num.lt med v then some 1
  else some (-1)

/-- `_BaseCumTriangle.a2a_assignment` (triangle.py:745-773). -/
def a2aAssignment (t : Tri K) (i j : ℕ) : Option Int :=
  assignOne (t.a2a.cell i j) (npMedian (t.a2a.col j))

/-! ### calendar year effects -/

/-- `special.binom` at the arguments used (mack.py:778,783): `n - 1` and `floor((n - 1) / 2)`.  For
`n = 0` scipy returns NaN (binomial coefficient of a negative integer). -/
def cyBinom (n : ℕ) : Num K :=
  if n = 0 then .nan else .fin (((n - 1).choose ((n - 1) / 2) : ℕ) : K)

/-- `E_Z` (mack.py:778-779). -/
def cyMean (n : ℕ) : Num K :=
  .fin (1 / 2) * .fin (n : K) - cyBinom n * (.fin (n : K) / .fin (2 ^ n))

/-- `V_Z` (mack.py:782-785). -/
def cyVar (n : ℕ) : Num K :=
  .fin (1 / 4) * .fin (n : K) * .fin ((n : K) - 1)
    - cyBinom n * (.fin (n : K) * .fin ((n : K) - 1) / .fin (2 ^ n))
    + cyMean n - (cyMean n).pow 2

/-- `Series.diff(1).dropna().unique().item()` on labels (mack.py:755-756): `ValueError` unless there is
exactly one difference. -/
def uniqueStep (l : List Int) : Except PyErr Int :=
  match (List.zipWith (fun a b => b - a) l l.tail).dedup with
  | [d] => .ok d
  | _ => .error .valueError

/-- Number of entries with assignment `v` among the (origin, dev) pairs of `lvi` (merge with the melted
assignment and `value_counts`, mack.py:763-764). -/
def cyCount (t : Tri K) (lvi : List (Int × Int)) (v : Int) : ℕ :=
  (lvi.filter (fun p =>
    decide (p.1 ∈ t.a2a.origins ∧ p.2 ∈ t.a2a.devs ∧
      a2aAssignment t (t.a2a.origins.idxOf p.1) (t.a2a.devs.idxOf p.2) = some v))).length

/-- A row of `_cy_effects_table`. -/
structure CyRow (K : Type) where
  j : ℕ
  S : ℕ
  L : ℕ
  Z : ℕ
  n : ℕ
  E : Num K
  V : Num K

/-- Shift of the origins against the development periods (mack.py:769-771): `shift(-1)` and removal of
the last record. -/
def cyShift (lvi : List (Int × Int)) : List (Int × Int) :=
  List.zipWith (fun p q => (q.1, p.2)) lvi lvi.tail

/-- The loop over the diagonals (mack.py:762-771), latest first; `fuel` counts the remaining `j`. -/
def cyLoop (t : Tri K) : ℕ → List (Int × Int) → List (CyRow K)
  | 0, _ => []
  | m + 1, lvi =>
    let S := cyCount t lvi (-1)
    let L := cyCount t lvi 1
    ⟨m + 2, S, L, min S L, S + L, cyMean (S + L), cyVar (S + L)⟩ :: cyLoop t m (cyShift lvi)

/-- `MackChainLadderResult._cy_effects_table` (mack.py:705-788), sorted by `j`. -/
def cyTable (t : Tri K) : Except PyErr (List (CyRow K)) := do
  let lvi := (a2aLvi t).zip t.a2a.devs
  let _ ← uniqueStep (lvi.map Prod.snd)
  let _ ← uniqueStep (lvi.map Prod.fst)
  .ok (cyLoop t (t.a2a.nc - 1) lvi).reverse

/-- `Z`, `E_Z` and `V_Z` summed over the diagonals (mack.py:808-811); missing values are skipped. -/
def cyTotals (t : Tri K) : Except PyErr (ℕ × Num K × Num K) := do
  let rows ← cyTable t
  .ok ((rows.map CyRow.Z).sum, Num.sumSkip (rows.map CyRow.E), Num.sumSkip (rows.map CyRow.V))

end

/-! ### residuals -/

/-- A row of the residual tables. -/
structure ResidRow where
  origin : Int
  dev : Int
  resid : Num ℝ
  sigma : Num ℝ
  std : Num ℝ

/-- `sigma` and `std_residuals` from the residuals of one group (mack.py:571-572, 593-594), written with
the precedence of the code: `sqrt(sum / n - 1)`. -/
noncomputable def stdGroup (l : List (Int × Int × Num ℝ)) : List ResidRow :=
  let n : ℝ := (l.length : ℝ)
  let sigma := Num.sqrt (Num.sumSkip (l.map (fun p => p.2.2.pow 2)) / .fin n - .fin 1)
  l.map (fun p => ⟨p.1, p.2.1, p.2.2, sigma, p.2.2 / (sigma * Num.sqrt (.fin (n - 1) / .fin n))⟩)

/-- `MackChainLadderResult._residuals_by_devp` (mack.py:550-576): periods `x = d_0 .. d_{m-3}`, the
residual of an origin observed at the next period `y` is `C_x * f_x - C_y`. -/
noncomputable def residualsByDevp (t : Tri ℝ) (ldfs : Ser ℝ) : List ResidRow :=
  (List.range (t.nc - 2)).flatMap (fun j =>
    stdGroup (((List.range t.nr).filter (fun i => !(t.cell i (j + 1)).isNaN)).map (fun i =>
      (t.oAt i, t.dAt j, t.cell i j * Ser.get ldfs (t.dAt j) - t.cell i (j + 1)))))

end Trikit
