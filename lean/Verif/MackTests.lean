import Verif.Diagnostics

/-!
# Residuals by origin and the two tests of the Mack result (`trikit/estimators/mack.py`)

Not modelled: `scipy.optimize.root` (its result is a parameter) and `norm.ppf` (its value is a parameter).
-/

set_option linter.unusedSectionVars false

namespace Trikit

section
variable {K : Type} [Field K] [LinearOrder K]

/-- `self.tri.loc[origin] * self.ldfs` at a label (mack.py:590): a product is missing at labels that
are not on both sides. -/
def originProd (t : Tri K) (ldfs : Ser K) (i : ℕ) (d : Int) : Num K :=
  if d ∈ t.devs then t.cell i (t.devs.idxOf d) * Ser.get ldfs d else .nan

/-- Labels of that product: sorted union of both indexes. -/
def originLabels (t : Tri K) (ldfs : Ser K) : List Int := labels (t.devs ++ ldfs.map Prod.fst)

/-- `yhat` of a development period (mack.py:590): `shift(1)` moves along the labels of the product, the
assignment to the frame picks the label `d`. -/
def originHat (t : Tri K) (ldfs : Ser K) (i : ℕ) (d : Int) : Num K :=
  (shiftOne ((originLabels t ldfs).map (originProd t ldfs i))).getD ((originLabels t ldfs).idxOf d) .nan
where
  /-- `shift(1)`. -/
  shiftOne (l : List (Num K)) : List (Num K) := (.nan :: l).dropLast

/-- Residuals of one origin (mack.py:589-592), with the label of the later period. -/
def originResids (t : Tri K) (ldfs : Ser K) (i : ℕ) : List (Int × Int × Num K) :=
  ((List.range t.nc).filter (fun j => !(t.cell i j).isNaN && !(originHat t ldfs i (t.dAt j)).isNaN)).map
    (fun j => (t.oAt i, t.dAt j, originHat t ldfs i (t.dAt j) - t.cell i j))

end

/-- `MackChainLadderResult._residuals_by_origin` (mack.py:579-598): all origins but the last. -/
noncomputable def residualsByOrigin (t : Tri ℝ) (ldfs : Ser ℝ) : List ResidRow :=
  (List.range (t.nr - 1)).flatMap (fun i => stdGroup (originResids t ldfs i))

/-- `MackChainLadderResult.devp_corr_test` (mack.py:673-701); `z` is what the solver returns for
`cdf(x) - cdf(-x) = p` from a random start. -/
noncomputable def devpCorrTest (t : Tri ℝ) (z : ℝ) : Except PyErr ((Num ℝ × Num ℝ) × Num ℝ) := do
  let s := Num.sqrt (.fin (devpCorrVar t))
  let total ← spearmanTotal t
  .ok ((.fin (-z) / s, .fin z / s), total)

/-- `MackChainLadderResult.cy_effects_test` (mack.py:791-815); `q` is the value of `norm.ppf(p / 2)`. -/
noncomputable def cyTest (t : Tri ℝ) (q : ℝ) : Except PyErr ((Num ℝ × Num ℝ) × ℕ) := do
  let tot ← cyTotals t
  let half := Num.fin |q| * Num.sqrt tot.2.2
  .ok ((tot.2.1 - half, tot.2.1 + half), tot.1)

end Trikit
