import Verif.RoundedDiag
import Verif.MackTests

/-!
# Decisions of the two tests of the Mack result in rounded arithmetic (mack.py:662-701, 791-815)

The square root `sq`, the root `z` found by the solver and the value `q` of `norm.ppf(p / 2)` are parameters.
-/

set_option linter.unusedSectionVars false

namespace Trikit

section
variable {K : Type} [Field K] [LinearOrder K]

/-- `devp_corr_test` (mack.py:673-701) with every operation rounded, see `devpCorrTest`. -/
def devpCorrTestR (br : ℕ → SumTree) (rd : K → K) (sq : Num K → Num K) (t : Tri K) (z : K) :
    Except PyErr ((Num K × Num K) × Num K) := do
  let s := sq (.fin (rd (devpCorrVar t)))
  let total ← spearmanTotalR br rd t
  .ok ((Num.divR rd (.fin (-z)) s, Num.divR rd (.fin z) s), total)

/-- `cy_effects_test` (mack.py:791-815) with every operation rounded, see `cyTest`. -/
def cyTestR (br : ℕ → SumTree) (rd : K → K) (big : ℕ → ℕ → K) (sq : Num K → Num K) (t : Tri K) (q : K) :
    Except PyErr ((Num K × Num K) × ℕ) := do
  let tot ← cyTotalsR br rd big t
  let half := Num.mulR rd (.fin |q|) (sq tot.2.2)
  .ok ((Num.subR rd tot.2.1 half, Num.addR rd tot.2.1 half), tot.1)

end

end Trikit
