import Verif.Rounded

/-!
# Geometric averages in rounded arithmetic
-/

set_option linter.unusedSectionVars false

namespace Trikit

variable {K : Type} [Field K] [LinearOrder K]

/-- `scipy.stats.gmean` (called in triangle.py:498): `np.exp(np.average(np.log(a)))`.  `lg` and `ex` stand for `np.log` and
`np.exp` as they round; `np.average` without weights is the mean. -/
def gmeanR (br : ℕ → SumTree) (rd : K → K) (lg ex : Num K → Num K) (l : List (Num K)) : Num K :=
  ex (npMeanR br rd (l.map lg))

end Trikit
