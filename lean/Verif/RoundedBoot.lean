import Verif.RoundedMack
import Verif.RoundedTri
import Verif.Bootstrap

/-!
# Fit of the bootstrap chain ladder in rounded arithmetic

The functions of `Bootstrap.lean` up to the sampling distribution, every operation rounded by `rd`, sums in the order
`br`.  `sq` stands for `np.sqrt` as it rounds.  Simplifications: as in `Rounded.lean`.
-/

set_option linter.unusedSectionVars false

namespace Trikit

section
variable {K : Type} [Field K] [LinearOrder K]

/-- Backward recursion (bootstrap.py:338-342), see `fitBack`. -/
def fitBackR (rd : K → K) (f : ℕ → Num K) (ldf : ℕ → Num K) (k : ℕ) : ℕ → Num K
  | 0 => f k
  | m + 1 => Num.divR rd (fitBackR rd f ldf k m) (ldf (k - m - 1))

/-- `_tri_fit_cum` (bootstrap.py:306-343), see `triFitCum`. -/
def triFitCumR (rd : K → K) (t : Tri K) (ldf : ℕ → Num K) : Tri K :=
  { t with cell := fun i j =>
      if j ≤ fitInit t i then fitBackR rd (t.cell i) ldf (fitInit t i) (fitInit t i - j) else t.cell i j }

/-- `_tri_fit_incr` (bootstrap.py:347-362), see `triFitIncr`. -/
def triFitIncrR (rd : K → K) (fit : Tri K) : Tri K := fit.diffTriR rd

/-- `_resid_us` (bootstrap.py:365-384), see `residUs`. -/
def residUsR (rd : K → K) (sq : Num K → Num K) (obs m : Tri K) : Tri K :=
  Tri.alignOp (fun a b => Num.divR rd (Num.subR rd a b) (sq b.abs')) obs m

/-- `_resid_adj` (bootstrap.py:387-403), see `residAdj`. -/
def residAdjR (rd : K → K) (sq : Num K → Num K) (t r : Tri K) : Tri K :=
  { r with cell := fun i j =>
      Num.mulR rd (sq (.fin (rd ((t.nbrCells : K) / ((bootDof t : Int) : K))))) (r.cell i j) }

/-- `_scale_param` (bootstrap.py:287-303), see `scaleParam`. -/
def scaleParamR (br : ℕ → SumTree) (rd : K → K) (t r : Tri K) : Num K :=
  Num.divR rd (sumSkipR br rd ((List.range r.nc).map (fun j =>
      sumSkipR br rd ((r.col j).map (fun v => v.powR rd 2))))) (.fin ((bootDof t : Int) : K))

/-- The fit in the order of `__call__` (bootstrap.py:156-168), see `bootFit`. -/
def bootFitR (br : ℕ → SumTree) (rd : K → K) (sq : Num K → Num K) (gm : List (Num K) → Num K) (t ind : Tri K) :
    Except PyErr (BootFit K) := do
  let ldfs ← ldfsByNameR br rd gm t ind "all-weighted" 1
  let _ ← t.maturity
  let sqr ← trisqrdOfR rd t ldfs
  let fc := triFitCumR rd t (fun j => (ldfs.map Prod.snd).getD j .nan)
  let fi := triFitIncrR rd fc
  let obs ← t.toIncrR rd
  let ru := residUsR rd sq obs fi
  let ra := residAdjR rd sq t ru
  .ok { ldfs := ldfs, sqr := sqr, fitCum := fc, fitIncr := fi, residUs := ru, residAdj := ra,
        scale := scaleParamR br rd t ru, sampling := samplingDist ra }

end

end Trikit
