import Verif.Diagnostics
import Verif.RoundedMack

/-!
# Tests of the Mack model in rounded arithmetic

Models of `ranked_a2a`, `a2a_assignment` (triangle.py:719-773), `_spearman_corr_coeffs`, `_spearman_corr_total`
(mack.py:601-659), `_cy_effects_table` and the totals of `cy_effects_test` (mack.py:705-811) with every operation rounded.
Link ratios are those of `Tri.a2aR`.  Ranks are whole or half numbers; pandas computes them without error.  Whole numbers
(`w`, `n`, `k`, `2**n`) are converted to floats without error.  Overflow is left out.
-/

set_option linter.unusedSectionVars false

namespace Trikit

variable {K : Type}

section
variable [Field K] [LinearOrder K]

/-! ### ranks -/

/-- `a2a_lvi` (triangle.py:700-716) from the table of link ratios, see `a2aLvi`. -/
def lviOf (a : Tri K) : List Int := (List.range a.nc).map (fun j => a.oAt ((a.clvi j).getD 0))

/-- `r_{d+1}` (triangle.py:733), see `rankR`. -/
def rankROf (a : Tri K) (d : ℕ) : RankCol K := ⟨false, d + 1, rankAvg (a.col d)⟩

/-- `s_{d+2}` (triangle.py:734-736), see `rankS`. -/
def rankSOf (a : Tri K) (d : ℕ) : RankCol K :=
  ⟨true, d + 2, rankAvg ((List.range a.nr).map (fun i => if a.oAt i < (lviOf a).getD d 0 then a.cell i d else .nan))⟩

/-- `ranked_a2a` (triangle.py:719-742), see `rankedA2a`. -/
def rankedOf (a : Tri K) : Except PyErr (List (RankCol K)) :=
  let lst := (List.range (a.nc - 1)).flatMap (fun d => [rankROf a d, rankSOf a d])
  match lst.tail.dropLast with
  | [] => .error .valueError
  | cs => .ok (cs.map (fun c => { c with vals := (rankRows a.nr cs).map (fun i => c.vals.getD i .nan) }))

/-- `T_k` (mack.py:643-645), see `spearman`. -/
def spearmanR (br : ℕ → SumTree) (rd : K → K) (n k : ℕ) (s r : List (Num K)) : Num K :=
  let den : Int := ((n : Int) - k) ^ 3 - n + k
  Num.subR rd (.fin 1) (Num.mulR rd (.fin 6) (sumSkipR br rd (List.zipWith (fun a b =>
    Num.divR rd ((Num.subR rd b a).powR rd 2) (.fin ((den : Int) : K))) s r)))

/-- `_spearman_corr_coeffs` (mack.py:601-647), see `spearmanCoeffs`. -/
def spearmanCoeffsR (br : ℕ → SumTree) (rd : K → K) (t : Tri K) : Except PyErr (List (Coeff K)) := do
  let cs ← rankedOf (t.a2aR rd)
  .ok ((pairUp cs).map (fun p =>
    ⟨p.1.k, (t.nc : Int) - p.1.k - 1, spearmanR br rd t.nc p.1.k p.1.vals p.2.vals⟩))

/-- `_spearman_corr_total` (mack.py:650-659), see `spearmanTotal`. -/
def spearmanTotalR (br : ℕ → SumTree) (rd : K → K) (t : Tri K) : Except PyErr (Num K) := do
  let cs ← spearmanCoeffsR br rd t
  .ok (Num.divR rd (sumSkipR br rd (cs.map (fun c => Num.mulR rd (.fin ((c.w : Int) : K)) c.T)))
    (.fin (((cs.map Coeff.w).sum : Int) : K)))

/-! ### high and low link ratios -/

/-- `DataFrame.median`, see `npMedian`. -/
def npMedianR (rd : K → K) (l : List (Num K)) : Num K :=
  let s := npSort (l.filter (fun v => !v.isNaN))
  if s.length % 2 = 1 then s.getD (s.length / 2) .nan
  else Num.divR rd (Num.addR rd (s.getD (s.length / 2 - 1) .nan) (s.getD (s.length / 2) .nan)) (.fin 2)

/-- `np.isclose(a, b)`, see `isclose`; the constants `1e-08` and `1e-05` are rounded as well. -/
def iscloseR (rd : K → K) : Num K → Num K → Bool
  | .fin a, .fin b => decide (|rd (a - b)| ≤ rd (rd (1 / 10 ^ 8) + rd (rd (1 / 10 ^ 5) * |b|)))
  | .pinf, .pinf => true
  | .ninf, .ninf => true
  | _, _ => false

/-- One entry of `a2a_assignment` (triangle.py:764-772), see `assignOne`. -/
def assignOneR (rd : K → K) (v med : Num K) : Option Int :=
  if v.isNaN then none
  else if iscloseR rd v med then some 0
  else if Num.lt med v then some 1
  else some (-1)

/-- `a2a_assignment` (triangle.py:745-773), see `a2aAssignment`. -/
def a2aAssignmentR (rd : K → K) (t : Tri K) (i j : ℕ) : Option Int :=
  assignOneR rd ((t.a2aR rd).cell i j) (npMedianR rd ((t.a2aR rd).col j))

/-! ### calendar year effects -/

/-- Step `i + 1` of the loop of scipy's `binom`: `num *= i + n - k`, `den *= i`, with a division when `num` is huge. -/
def binomStep (rd : K → K) (n k : ℕ) (s : K × K) (i : ℕ) : K × K :=
  let num := rd (s.1 * (((i : K) + 1) + n - k))
  let den := rd (s.2 * ((i : K) + 1))
  if 10 ^ 50 < |num| then (rd (num / den), 1) else (num, den)

/-- `special.binom(n, k)` of scipy for whole `n ≥ 0`, `k ≤ n / 2`; `big` stands for the other branch of scipy, which is
taken from `k = 20` on. -/
def binomR (rd : K → K) (big : ℕ → ℕ → K) (n k : ℕ) : K :=
  if k < 20 then
    let s := (List.range k).foldl (binomStep rd n k) (1, 1)
    rd (s.1 / s.2)
  else big n k

/-- `special.binom` as called in mack.py:778, 783, see `cyBinom`. -/
def cyBinomR (rd : K → K) (big : ℕ → ℕ → K) (n : ℕ) : Num K :=
  if n = 0 then .nan else .fin (binomR rd big (n - 1) ((n - 1) / 2))

/-- `E_Z` (mack.py:778-779), see `cyMean`. -/
def cyMeanR (rd : K → K) (big : ℕ → ℕ → K) (n : ℕ) : Num K :=
  Num.subR rd (Num.mulR rd (.fin (1 / 2)) (.fin (n : K)))
    (Num.mulR rd (cyBinomR rd big n) (Num.divR rd (.fin (n : K)) (.fin (2 ^ n))))

/-- `V_Z` (mack.py:782-785), see `cyVar`; `n * (n - 1)` is a product of integers. -/
def cyVarR (rd : K → K) (big : ℕ → ℕ → K) (n : ℕ) : Num K :=
  Num.subR rd (Num.addR rd (Num.subR rd
    (Num.mulR rd (Num.mulR rd (.fin (1 / 4)) (.fin (n : K))) (.fin ((n : K) - 1)))
    (Num.mulR rd (cyBinomR rd big n) (Num.divR rd (.fin ((n : K) * ((n : K) - 1))) (.fin (2 ^ n)))))
    (cyMeanR rd big n)) ((cyMeanR rd big n).powR rd 2)

/-- Counts of one diagonal (mack.py:763-764), see `cyCount`. -/
def cyCountR (rd : K → K) (t : Tri K) (lvi : List (Int × Int)) (v : Int) : ℕ :=
  (lvi.filter (fun p =>
    decide (p.1 ∈ (t.a2aR rd).origins ∧ p.2 ∈ (t.a2aR rd).devs ∧
      a2aAssignmentR rd t ((t.a2aR rd).origins.idxOf p.1) ((t.a2aR rd).devs.idxOf p.2) = some v))).length

/-- The loop over the diagonals (mack.py:762-771), see `cyLoop`. -/
def cyLoopR (rd : K → K) (big : ℕ → ℕ → K) (t : Tri K) : ℕ → List (Int × Int) → List (CyRow K)
  | 0, _ => []
  | m + 1, lvi =>
    let S := cyCountR rd t lvi (-1)
    let L := cyCountR rd t lvi 1
    ⟨m + 2, S, L, min S L, S + L, cyMeanR rd big (S + L), cyVarR rd big (S + L)⟩ :: cyLoopR rd big t m (cyShift lvi)

/-- `_cy_effects_table` (mack.py:705-788), see `cyTable`. -/
def cyTableR (rd : K → K) (big : ℕ → ℕ → K) (t : Tri K) : Except PyErr (List (CyRow K)) := do
  let lvi := (lviOf (t.a2aR rd)).zip (t.a2aR rd).devs
  let _ ← uniqueStep (lvi.map Prod.snd)
  let _ ← uniqueStep (lvi.map Prod.fst)
  .ok (cyLoopR rd big t ((t.a2aR rd).nc - 1) lvi).reverse

/-- Totals of the calendar year test (mack.py:808-811), see `cyTotals`; `.sum()` of the table adds the columns in any
order `br`. -/
def cyTotalsR (br : ℕ → SumTree) (rd : K → K) (big : ℕ → ℕ → K) (t : Tri K) : Except PyErr (ℕ × Num K × Num K) := do
  let rows ← cyTableR rd big t
  .ok ((rows.map CyRow.Z).sum, sumSkipR br rd (rows.map CyRow.E), sumSkipR br rd (rows.map CyRow.V))

end

end Trikit
