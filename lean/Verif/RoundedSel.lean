import Verif.Rounded

/-!
# `base_cl` with given factors in rounded arithmetic
-/

set_option linter.unusedSectionVars false

namespace Trikit

variable {K : Type} [Field K] [LinearOrder K]

/-- `tri.base_cl(sel=<list or array>, tail=...)` (triangle.py:1101-1139, base.py:110-123) with every operation rounded, see
`baseCLArray`.  The factors are taken as they are. -/
def baseCLArrayR (br : ℕ → SumTree) (rd : K → K) (t : Tri K) (sel : List (Num K)) (tail : Num K) :
    Except PyErr (BaseResult K) := do
  let ldfs ← ldfsByArray t sel tail
  baseFromLdfsR br rd t ldfs

/-- `tri.base_cl(sel=<Series>, tail=...)` (base.py:97-108, 123) with every operation rounded, see `baseCLSeries`. -/
def baseCLSeriesR (br : ℕ → SumTree) (rd : K → K) (t : Tri K) (sel : Ser K) (tail : Num K) :
    Ser K × Except PyErr (BaseResult K) :=
  let r := ldfsBySeries t sel tail
  (r.1, r.2.bind (baseFromLdfsR br rd t))

end Trikit
