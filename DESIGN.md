# Formal model of trikit: design

## Scope

`/repo` (trikit 0.3.3, Python on pandas 2.1.4 / numpy 1.26.2 / scipy 1.11.4) is read as text.
`/verif/lean` contains a Lean 4 model of its computations, function by function, and proofs of the
properties in `properties.jsonl`.  Nothing of the Python code is executed; the correspondence
between a definition and the cited lines is by reading.  Every definition cites file and lines.

### Representation

* Scalars: a linearly ordered field `K`.  Executable examples use `ℚ`; where square roots,
  logarithms or exponentials occur `K = ℝ`.  Overflow and signed zero are NOT
  modelled, rounding only in the files whose names start with `Rounded`: elsewhere a finite float is an exact number.
* `Num K` = `nan | pinf | ninf | fin x`: float values with NaN and infinities, IEEE rules for
  `+ - * /`, comparisons false on NaN, `x/0 = ±inf`, `0/0 = nan`, `nan**0 = 1`.
* Tables: lists of records `(origin, dev, value)` (integer labels), plus `Frame` (column names and
  rows) where column naming or column presence matters, plus a small heap of frames where aliasing matters.
* Triangles: `Tri K` = list of origin labels, list of development labels, cell function on positions.
* Python exceptions are values: functions return `Except PyErr α`, branch by branch in source order.
* Loops are structural recursions or list maps/folds. Random draws, gamma draws, the geometric mean and
  distribution quantile functions are parameters (arbitrary functions) unless stated otherwise.
* Drawing methods of the generator do not raise in the model, except `choice` from an empty array. numpy also
  rejects negative shapes and scales of the gamma distribution; `C112_params` and `C112_run` show that the
  code never passes any.

### Trusted base

* Lean 4.33.0 kernel; Mathlib definitions. Axioms allowed: `propext`, `Classical.choice`, `Quot.sound`.
  No own axioms, no `sorry`, no `native_decide`/`bv_decide`.
* The reading of pandas/numpy primitives (groupby sum with skipna, pivot, melt, shift, cumsum with
  skipna, cumprod, `.loc`/`.iloc`, alignment by label, merges, `np.percentile` methods), stated at
  the model definition.
* Exact arithmetic instead of floats; labels are integers (the library itself casts them with
  `astype(int)` in `to_tbl`).

### Axioms

`#print axioms` for every theorem named in `MANIFEST.json`: all depend on `propext`, `Classical.choice` and
`Quot.sound` at most.  These depend on `propext` and `Quot.sound` only: `C01_empty`, `C16_methods_partial`,
`C21_cache_partial`, `C23_unread_fails`, `C27_base_cl`, `C54_dof`, `C54_fails`, `C57_process`, `C59_seed`,
`C59_other`, `C59_state`, `C60_reported`, `C73_partial`, `C73_gamma_partial`.

### Which code is modelled

| code | Lean definitions |
|------|------------------|
| `triangle.py` construction (41-60, 115-123, 422-424, 462-468) | `Triangle.lean`: `negHandler`, `pivot`, `baseInit`, `incrTri`, `cumRecs`, `cumTri`; with column names and aliasing `Frame.lean`: `baseInitH`, `cumInitH` |
| `nbr_cells`, `triind`, `rlvi`, `clvi`, `latest`, `latest_by_origin`, `latest_by_devp`, `devp`, `origins`, `maturity` (126-297) | `Triangle.lean` (values), `Cache.lean` (lazy attributes as a state machine) |
| `diagonal`, `to_tbl` (301-356) | `diagonal`, `toTbl`, `toTblAll`, `TriObj.toTbl` |
| data of `plot`, `_combined_view`, `_faceted_view` (932-940, 968-1006, 1052-1074) | `Views.lean` |
| `to_cum`, `to_incr` (427-435, 869-894) | `toCum`, `toIncr`, `TriObj.toCum` |
| `_geometric`, `_simple`, `_medial`, `a2a`, `a2aind`, `a2a_avgs` (479-605, 777-856) | `Averages.lean` |
| `a2aind` setter (608-697) | `Exclude.lean`: `IndState.assign` |
| `a2a_lvi`, `ranked_a2a`, `a2a_assignment` (700-773) | `Diagnostics.lean` |
| `base_cl`, `boot_cl`, `mack_cl` (1101-1275) | entry points `baseCL*`, `bootCall`, `mackCall` |
| `totri` (1289-1407) | `totriIncr`, `totriCum`, `fillObj`, `decumRecs`, `meltIncr`, `meltCum`; dispatch on strings and frames `Frame.lean`: `totri` |
| `estimators/base.py` 97-281 | `Base.lean` |
| `_get_yticks`, `_data_transform` (335-447) | `Utils.lean`: `getYticks`; `Transform.lean` |
| `_qtls_formatter` (599-686) | `Quantile.lean` |
| `estimators/mack.py` 59-523 | `Mack.lean`, `QuantTables.lean`; the estimator with its stored indicator `MackObj.lean` |
| `_residuals_by_devp`, `_residuals_by_origin`, `_spearman_*`, `_devp_corr_test_var`, `devp_corr_test`, `_cy_effects_table`, `cy_effects_test` (550-815) | `Diagnostics.lean`, `MackTests.lean` |
| `_mack_data_transform`, `get_quantiles` (818-863) | `Density.lean`, `QuantTables.lean` |
| `estimators/bootstrap.py` 104-736 | `Bootstrap.lean`, `BootTable.lean`, `QuantTables.lean` |
| `residuals_detail` (923-986) | `ResidDetail.lean` |
| `origin_dist`, `get_quantiles`, data of `hist` (907-919, 1088-1130, 1338-1376) | `Dist.lean`, `Quantile.lean` |
| `_bs_data_transform`, `_get_quantiles_by_devp`, data of `plot` (989-1085, 1201-1272) | `BootPlot.lean`, `BootPanels.lean` |
| data of the chain ladder `plot` (base.py 534-573), of the Mack `plot` and of `diagnostics` (mack.py 907-945, 957-1086) | `Exhibits.lean` |
| `__str__`, `__repr__` (triangle.py 359-367, base.py 327-331, 585-590), texts of amounts only | `Print.lean` |
| `base_cl` with simple or weighted averages, every operation rounded (triangle.py 479-605, 777-856, base.py 97-281) | `Rounded.lean`; rounding to `p` binary digits `FloatRd.lean` |
| `base_cl` with factors given as list, array or Series, every operation rounded (base.py 97-281) | `RoundedSel.lean` |
| `totri`, `to_cum`, `to_incr` with compensated sums, every operation rounded (51-60, 427-435, 462-468, 869-894, 1377-1407) | `RoundedTri.lean` |
| `mack_cl` before square roots and distributions, every operation rounded (mack.py 115-180, 250-450) | `RoundedMack.lean` |
| standard errors, distributions and quantiles of `mack_cl`, every operation rounded (mack.py 134-135, 180-206) | `RoundedMackSumm.lean` |
| `scipy.stats.gmean`, every operation rounded (called in triangle.py 498) | `RoundedGeo.lean` |
| the fit of `boot_cl`, every operation rounded (bootstrap.py 156-168, 270-424) | `RoundedBoot.lean` |
| the simulations of `boot_cl`, every operation rounded (bootstrap.py 169-181, 427-710) | `RoundedSim.lean` |
| means, standard errors, totals and summary of `boot_cl`, every operation rounded (bootstrap.py 181-213, 714-736) | `RoundedBootSumm.lean`, `QuantRows.lean` |
| `np.percentile` as called for quantiles, levels and headers, every operation rounded (bootstrap.py 187, 216-222, 1114-1130, base.py 621-631, 672-683) | `RoundedQuant.lean` |
| the tests of the Mack model, every operation rounded, with scipy's loop for binomial coefficients (triangle.py 719-773, mack.py 601-701, 705-815) | `RoundedDiag.lean`, `RoundedTests.lean` |
| `utils.py` | `Utils.lean` |

Files named `*Lemmas.lean`, `Boot{Core,Fit,List,Sim}.lean`, `MackCore.lean`, `AvgTable.lean` hold lemmas, `Spec.lean` and the
`Spec` namespace hold specifications, `Props/` holds the property theorems.

Simplifications, beyond those above:

* `np.percentile`: the interpolation methods "linear", "lower", "higher", "midpoint", "nearest"; numbers of simulations are
  positive where quantiles are taken (an empty array raises in numpy).
* `gmean` over the reals is the concrete `exp (mean (log x))`; in theorems over other fields the geometric mean is an
  arbitrary function.
* `scipy.optimize.root` and `norm.ppf` of the Mack tests are parameters with the stated property (a root; the inverse
  distribution function).  The lognormal and normal laws are Mathlib measures.
* Integer overflow of `np.power` on integer arrays does not occur: numbers are exact.
* `scipy.stats.mode`, `skew`, `kurtosis`, `variation` are written out for arrays without NaN; indexing a mode is a parameter,
  `modeIdx` for the pinned scipy.
* `Frame`: columns are names with rows of cells; index and dtypes are left out.

### Not modelled

* Drawing: colours, axes and the calls of the drawing library (the data of the views of a triangle, of `hist`, of the base,
  bootstrap and Mack plots and of `diagnostics` are modelled).
* Layout of printed tables (`to_string`; the texts of amounts are modelled), CSV parsing, warnings, performance.
* The PRNG bit stream (a parameter), pandas dtype conversions (object or float).
* Float rounding, except in `Rounded.lean` and `RoundedGeo.lean` (`base_cl`), `RoundedTri.lean` (construction of
  triangles), `RoundedMack.lean`, `RoundedMackSumm.lean`, `RoundedDiag.lean` and `RoundedTests.lean` (`mack_cl` and its tests), `RoundedBoot.lean`, `RoundedSim.lean` and `RoundedBootSumm.lean` (fit, simulations and summary of `boot_cl`) and `RoundedQuant.lean` (its quantiles): there every sum, product and quotient is rounded, sums in any order of additions; overflow, underflow and the doubled rounding of extended registers are left out, and C197 gives a range of sizes outside of which nothing happens in `base_cl`.  All other theorems are
  about exact numbers.
* `glm` (raises `NotImplementedError`), `glm.py` (empty classes).

### Found by reading only

Not covered by a theorem, because only the call of an outside library decides the outcome.

* `BaseChainLadderResult.plot` never maps a drawing function to its grid, so it draws empty panels; its check of `hue_kws`
  asks for four values although there are two hues.
* `MackChainLadderResult.plot` looks for columns `x` and `y` in the table of `_data_transform`, and `diagnostics` reads
  `dforg["devp"]`: these columns do not exist.  The models `mackPlot false` and `diagnostics false` contain the `KeyError`
  as a branch; C134_fails and the first half of C135_fails only add that this branch is always reached.
* `hist` adds a column `origin_index` to the table `reserve_dist` of the result.
* The check `np.logical_and(q > 1, q < 0)` is never true: levels outside [0, 1] pass it and are rejected only by `_qtls_formatter`, which is called next (C61).
* `get_quantiles` of the bootstrap interpolates linearly by default, whatever the run used.
* `mack_cl(tail=...)` reports the tail but does not use it (its documentation says it is not implemented).

## Properties

"witness" = the stated property is false of the code; the negation is proved with a concrete
input and a `_partial` theorem proves the part that does hold.

| id | model | how proved |
|----|-------|-----------|
| C01 | `incrTri` on record lists | cell/label characterisation, induction on record list |
| C02 | same | permutation invariance of sums and of sorted label lists |
| C03 | `cumTri` | witness (two rows swapped); partial: permutations keeping each origin's rows in order; for positive amounts, one per cell, exactly these |
| C04 | `cumTri` | invariant of the accumulator over the record list |
| C05 | `cumTri` | witness; partial: no duplicates; value of every recorded cell for positive tables, right exactly for cells with one record |
| C06 | `incrTri`, `totriCum` | witness (a missing value recorded in the first period becomes 0); partial: recorded values present, and exactly then |
| C07 | `toIncr`, `toCum` | telescoping induction over columns, rows with arbitrary prefix lengths |
| C08 | `toCum`, `toIncr` | same |
| C09 | `toTbl`, `incrTri` | witness (missing value in the first period); partial: records of a triangle have one record per non-missing cell; exactly when recorded first-period values are present |
| C10 | `totri` triangle branch | reduction to record lists |
| C11 | `totri` tabular/cum branch | difference then accumulate cancels per origin |
| C12 | `fillTri` | recursion over columns equals declarative carry-forward spec |
| C13 | `totri` | witness (gap double counts); partial: gap in the last observed period; tabular: value of every present cell, right exactly when no origin runs present, missing, present |
| C14 | heap of frames | frame at caller's reference unchanged on every path; contrast: direct constructors mutate |
| C15 | `totri` dispatch on strings | case analysis over all strings |
| C16 | `Frame` model | witness (latest raises KeyError); partial: cells unchanged |
| C17 | `latest` | last-valid search |
| C18 (partial) | `triind`, `maturity` | last-valid search, staircase computation; witness for cumulative triangles with late-starting origins (`triind` cached before the first column is filled); right exactly when the latest origin starts in the first period |
| C19 | `diagonal` | positional computation |
| C20 | `diagonal` | witnesses 3x2 and 2x3; partial: shapes whose last observed period runs down one step per origin, and exactly these |
| C21 | state machine of caches | witness (stale `triind` after `totri`); partial: invariant over read sequences; right exactly when the latest origin starts in the first period |
| C22 | `a2a` | dropna computation on staircase, telescoping product |
| C23 (partial) | state machine of `a2aind` | induction over assignment sequence |
| C24 | `a2aAvgs` | window computation, mean bounds |
| C25 | `a2aAvgs` weighted | window computation, mediant inequality |
| C26 | `a2aAvgs` | witness for weighted; partial for simple/geometric/medial on the excluded cell |
| C27 | `a2aAvgs` | witness (IndexError); partial: no exclusions |
| C28 | `medial` | filter characterisation and bounds |
| C29 | `a2aAvgs` | window arithmetic |
| C30 | `cldfs` | induction on factor list |
| C31 | `baseCL` | positional/label bookkeeping on staircase |
| C32 | `trisqrd` | induction on columns |
| C33 | `baseCL` | product scaling |
| C34 | `baseCL` | homogeneity through the whole pipeline |
| C35 | `baseCL` | product of factors >= 1 |
| C36 | `baseCL` | corollary of C31 |
| C37 | `baseCL` with array | length case analysis |
| C38 | `baseCL` with Series | witness (second call raises); partial: first call with matching labels |
| C39 | `baseCL` | witness (labels 1,2,4); partial: every origin but the oldest, exact condition on the labels for the oldest |
| C40 | `a2aAvgs`, `trisqrd` | constant link ratio columns |
| C41 | `mackLdfs` | sums agree termwise |
| C42 | `mackLdfs` | completing the square |
| C43 | `devpVariance` | non-negativity of weighted squares; witness (every origin doubles in every period) and partial: the last variance is NaN exactly when the two before it are 0 |
| C44 | `processError` | induction on horizon |
| C45 | `parameterError` | induction on horizon |
| C46 | `mackCall` | sums of non-negative terms |
| C47 | `mackCall` | witness (0/0 in last variance zeroes everything); general condition `C47_all_zero`; partial: one of the two periods before the last deviates |
| C48 | `mackRV` over ℝ, law of `a exp(σ Z)` as a Mathlib measure | moment generating function of the normal law; below 1 the mean is 1 |
| C49 | quantile assembly with arbitrary monotone ppf | monotonicity |
| C50 | `mackCall`, `baseCL` | from C41 |
| C51 | `triFitCum` | backward recursion |
| C52 | `triFitIncr` | induction over columns with all-weighted factors |
| C53 | residual functions over ℝ | filter characterisation |
| C54 (partial) | `bootDof` | witness; the code adds the number of origins instead of subtracting it; value on staircases |
| C55 | bootstrap pipeline | composition of C51 with zero residuals |
| C56 | flattened-table pipeline | witness (negative fitted increment: the shift of `_bs_ldfs` crosses simulations); partial: closed form per simulation |
| C57 | `bsProcess`, `bsReserves` | case analysis for every triangle; reserve identity: witness without label 1, partial with first label 1 (telescoping) |
| C58 | pipeline | witness (labels 12, 24, 36); partial: label 1 at the same place; exact change otherwise |
| C59 | PRNG-passing semantics | determinism for ints, error branch |
| C60 | `bsReserves` | case analysis |
| C61 | `qtlsFormatter` | sort/dedup characterisation |
| C62 | header formatting | witness 11 -> "11st"; partial |
| C63 | `percentile` | order statistics on sorted lists |
| C64 | `rankedA2a`, Spearman | rank algebra |
| C65 | `cyTable` moments | binomial sums |
| C66 | `a2aAssignment` | witness (+inf and -inf in one column, NaN median); partial: columns without infinities |
| C67 | `loadLrdb` | filter composition |
| C68 | `getDatasets`, `load` | sort/filter |
| C69 | `getYticks` | case analysis |
| C70 | `a2aAvgs` geometric over ℝ | product/log identities with the concrete `gmean` |
| C71 | `baseCL` | witness (two origins: IndexError); partial: at least three |
| C72 | bootstrap pipeline | witness (exactly fitted triangle: nothing to sample from); partial |
| C73 (partial) | PRNG-passing semantics | the gamma stage restarts an integer seed; partial: everything before it |
| C74 | `samplingDist` | witness (zero fitted increment); partial |
| C75 (partial) | `assignOne` | witness (tolerance of `np.allclose`); exact thresholds |
| C76 | `cyTable` | induction over the diagonals |
| C77 (partial) | `uniqueStep` | witness (3, 6, 12, 24); exact condition |
| C78 | `residualsByDevp` | witness over ℝ (`sqrt(SS/n - 1)`); partial: residuals and proportions |
| C79 | heap of frames | witness for both constructors; partial: exactly which cells change |
| C80 | `totri` on triangle-shaped input | witness (KeyError, transposition); partial: every non-default name raises |
| C81 | `totri` on `Frame` | witness (further column `cum`); partial: result is a function of the three columns |
| C82 | `lrdbLobs`, `lrdbSpecs` | membership and order of the sorted distinct lists |
| C83 | `plotData` | witness (labels 1, 2, 4); partial: evenly spaced labels, filter computations on the melted table; for any labels the rows and the exact condition on the last step |
| C84 | `plotData` | witness (first period of a 4 x 4 triangle); partial: exact set of summed origins |
| C85 | `bootSims` | witness; partial: exact difference of reported and mean simulated reserve |
| C86 | `residualsByOrigin`, `residualsByDevp` | witness (six rows against five); partial: permutation of the rows, condition for the extra row |
| C87 | `devpCorrTest`, normal law of Mathlib | probability of the interval, strict monotonicity of the distribution function |
| C88 | `cyTest`, normal law | same |
| C89 | `bootSims`, `bsReserves` | keys (sim, origin, dev) followed through every step, one factor per simulation at the last label; exchange of sums |
| C90 | `totriIncr`, `totriCum` | composition of C01/C04/C11 with the shape of the records |
| C91 | `totriCum`, `baseCL`, `mackCore` | composition of C90, C31, C50 |
| C92 | `mackCore`, `mackCall` | witness (alpha 2, factor 10); partial: exact power of the constant for each part, standard errors for alpha 1 |
| C93 | `mackCall`, lognormal and normal laws | witness (reserve below 1); partial: normal, lognormal with reserves of at least 1 |
| C94 | `mackCore` | recursion of conditional moments as specification; witness for alpha 0 and 2; partial: alpha 1 |
| C95 | `mackCore` | witness (alpha 2; an excluded link ratio); partial: alpha 1 without exclusions |
| C96 | `mackCore` | witness; partial: exact ratio of the two divisors |
| C97 | `baseCL*`, `mackCore`, `bootCall` | every triangle, every strictly increasing renumbering of origins |
| C98 | `baseCL*`, `mackCore` | every triangle, every conversion `a*x + b` of development labels |
| C99 | `mackCore`, `baseCL` | two staircases that differ on the latest diagonal |
| C100 | `mackCore`, `baseCL` | a staircase and the one a period later |
| C101 | `mackCore`, `baseCL` | two staircases that agree on the older origins |
| C102 | `bootQuantCols`, `mackQuantCols`, `getQuantiles`, `mackGetQuantiles` | levels and simulated reserves of any number |
| C103 | `bootFit`, `bootCall` | a staircase and its multiple; generators that scale (`Spec.ScalesBy`) |
| C104 | `bootFit`, `bootSims` | two staircases that agree except in the youngest origin; same draws |
| C105 | `bootSims`, `reserveDist`, `originDist` | staircases of any size without negative fitted increments, any number of simulations |
| C106 | `histPanels` | the same |
| C107 | `mackDensity`, `mackCall` | positive staircases from 4 origins |
| C108, C110 | `bootCall`, `BootResult.summary` | positive staircases without negative fitted increments after the first period, finite residuals, at least 2 simulations |
| C109 (partial) | `mackCall` | alpha 1; false for alpha 0 and 2 |
| C110 | `bootStdErr` | also for every triangle and all draws: reserves are finite numbers (C89), triangle inequality |
| C111 (partial) | `TriObj.combinedView` | rows of the sorted table grouped by origin; witness: another column name |
| C112 | `bsProcess`, `scaleParam`, `bootDof`, `Spec.gammaLaw` | columns are never empty, squares are not negative; moments of the gamma law by Euler's integral |
| C113 | `bootSims` | closed form of a run; mean and variance of a sum of independent signed draws |
| C114 | `mackCore` | moments of a weighted mean of uncorrelated ratios |
| C115 (partial) | `mackCore` | squares around a weighted mean; false with exclusions: the divisor counts excluded link ratios; exact mean for all exclusions |
| C116 | `mackCore` | each factor is a sum of known shares times next values; pull-out and tower along the filtration |
| C117 | `baseCL`, `mackCore` | induction over periods with the tower property; integrability from positivity |
| C118 | `bsSamples`, `Spec.choiceLaw` | closed form of the samples; moments of uniform and normal laws |
| C119 (partial) | `residualsDetail` | witness: `.mode[0]` of a number raises with scipy 1.11.4; otherwise closed forms of the moments, sorted lists, uniqueness of mode and median |
| C120 (partial) | `processError` | witness for `alpha` 0 and 2 (one step ahead); else conditional variances along a filtration (`MackPath.lean`), with claims for all parameters |
| C121 | `parameterError` | moments of products of independent factors (`MackFactors.lean`) |
| C122 (partial) | `mackCore` (mse, total) | witness: cross terms are linearised; else covariances of products, `prod_linear` |
| C123 (partial) | `bandPlot` | witness: two calls raise `TypeError`; otherwise rows of the simulations, filtered by cell, and `percentile_eq` |
| C124 (partial) | `quantilesByDevp` | witness with two simulations; in general the rows are quantiles of the pooled amounts |
| C125 | `bootFit`, `baseCL` | margins of the fit and `log x <= x - 1` give a maximum; derivatives along one parameter give the margins of any maximum, downward induction its factors |
| C126 | `bootSims`, `bootUltimates`, `bootReserves`, `bootStdErr`, `percentile` | a simulation is a measurable function of its own `n * n` draws, so simulations are independent with one law; strong law for means, squares and shares below a level; a quantile is caught between shares |
| C127 (partial) | `ultimatesOf`, `baseFromLdfs`, `trisqrdOf` on shapes `Spec.Young` (any non-increasing lengths) | witness from records; in general the product pairs positions, not maturities |
| C128 (partial) | `baseCL`, `baseCLArray`, `baseCLSeries`, `mackCore`, `bootFit` | the lengths of the two factors differ, or the averages have a column without weights; partial: `n = m` |
| C129 (partial) | `bsLdfs`, `bsSamples` | blocks of the stacked table; the shifted pairs are right iff the shape is a square staircase |
| C130 | `bsForecasts` | witness; partial: closed form of the completed table |
| C131 (partial) | `mackCore` on shapes `Spec.Young` | witness; in general factors and sums of squares in closed form, the divisor comes from the position |
| C132 (partial) | `processError`, `parameterError` | witness; closed form of both recursions for any start, strictly monotone in the start |
| C133 | `originOrder`, `basePanels`, `xTicks` | witness (all losses 100); partial: panels exist exactly when every largest loss is in (1, 10^10) and no power of ten |
| C134 (partial) | `mackPlot`, `mackPanels` | as written `KeyError`; with the table of density curves: names right when all distributions exist, witness for shifted names |
| C135 (partial) | `clData`, `pathGroups`, `diagnostics` | as written `KeyError`, with the right column name `TypeError`; partial: curve, line and paths |
| C136 | `TriObj.plotView`, `facetedView` | witness (other column names); partial: both views are the same picture |
| C137 | `byDevpFrom`, `readByDevp` | permutation of the latest values and sorted by label; exact list on staircases |
| C138 | `baseCL`, weighted rows of `a2aAvgs` | factor of the pool is a mediant; ultimates linear in the amounts for equal factors |
| C139 | `baseCL`, all rows of `a2aAvgs` | witness (medial average removes ties of the largest ratio); partial: simple, weighted, geometric; medial without such ties (`Props/MedialRaise.lean`) |
| C140 | `fmtAmount`, `Tri.printed`, `BaseResult.printed` | induction over the digits for the commas, reading back gives the rounded amount |
| C141 | `bootPlot`, `bandPanels`, `bandTicks` | the lines of C123 per origin; witnesses: formatter, level 0 (same header for both bands); partial |
| C142 | `baseCLR`, `floatRd` | relative errors carried through sums (any bracketing), quotients and products; `floatRd 53` is within 2⁻⁵³ |
| C143 | `baseCLR` | monotone rounding that fixes the format and whole numbers up to the number of periods; `floatRd p` is such a rounding |
| C144 | `baseCLR` | two runs, monotone rounding |
| C145 | `baseCLR` | witness in double precision (one factor at a time against the rounded product); partial: distance from C142, exact for the oldest origin |
| C146 | `totriIncrR`, `totriCumR`, `decumRecsR`, `Tri.toIncrR`, `Tri.toCumR` | invariant of the compensated sum: total whole, compensation 0 |
| C147 | `Tri.toIncrR`, `Tri.toCumR` | witness in double precision; partial: C146 and C07; error of a compensated sum (`KahanError.lean`) |
| C148 | `totriIncrR` | witness in double precision; partial: C146 and C02; error of a compensated sum |
| C149 (partial) | `baseCLR` | `floatRd p` commutes with powers of two; every step of `base_cl` is homogeneous; witness for the scale 3 |
| C150 | `totriCumR`, `baseCLR` | C146 makes the triangle exact, C142 bounds the rest |
| C151 | `mackCoreR` | monotone rounding; nonnegative sums and products; a missing last variance replaces all errors by zero |
| C152 | `mackCoreR` | witness in double precision; partial: sums of whole numbers are exact for every bracketing |
| C153 | `mackCoreR`, `baseCLR` | witness in double precision; partial: relative error of a factor, then the bounds of C142 |
| C154 (partial) | `mackCoreR` | every step is homogeneous of degree 0, 1 or 2; witness for the scale 3 |
| C155 (partial) | `Tri.setAt`, `Tri.alignOp`, `a2aAvgs` | the sorted union of labels puts a missing row before the later origins, and averages stop at the first missing value; an all-missing column has no medial average |
| C156 (partial) | `MackObj`, `IndState.mackCl` | the core results only depend on the stored indicator, which no later step changes (induction on the steps); a new estimator reads the last assignment of every link ratio |
| C157 (partial) | `Tri.setAt`, `a2aAvgs`, `mackCore`, `mackLdfs` | every use of the indicator multiplies it with a missing link ratio or a missing loss; `nan ** 0 = 1` is the exception |
| C158 | `mackCoreR` | relative errors are counted through the recursions for numbers that may be zero; squared deviations are bounded against sums instead of differences; `min(a²/b, a, b)` changes by at most twice the change of `a` plus that of `b`; the formulas increase with the variances |
| C159 | `bootFitR`, `triFitCumR`, `triFitIncrR` | closed form of the rounded fit on staircases; one division and one factor more per period backwards |
| C160 (partial) | `bootFitR`, `residUsR`, `residAdjR`, `samplingDist` | a residual is zero exactly if the two increments agree, as rounding keeps nonzero numbers nonzero; whole ratios make sums, factors and divisions exact; witness 30, 33, 36 |
| C161 (partial) | `bootFitR`, `scaleParamR` | closed forms of both fits with rounding that commutes with the scale; witness 10, 11, 12 times 3 |
| C162 (partial) | `baseCLR`, `medialAvgR` | rounding is monotone, so the kept positions agree when different ratios stay different; whole numbers up to N give ratios at least 1/N² apart relative to their size; witness found by search, checked by evaluation |
| C163 | `baseCLR`, `gmeanR` | errors of the logarithms and of their rounded mean are absolute errors of the logarithm of the average, which become relative errors of the average |
| C164 | `bootSimsR` | closed forms of both runs; sampled increments and compensated sums have errors relative to the absolute values, which the condition number turns into relative errors of the simulated values; products and quotients of near numbers from there |
| C165 (partial) | `bsProcessR`, `bsReservesR` | error of the compensated sum, telescoping of the observed increments; witness by evaluation |
| C166 | `bootFitR`, `bootSimsR` | closed forms with rounding that commutes with the scale, on top of C161 |
| C167 | `baseCL`, `totriCum` | sums over the first origins grow by the factor of the period as soon as they contain the rows behind the factor; so rows and columns of these block sums are proportional, which determines them from the observed cells in the same way in both readings |
| C168 | `bootFit` | fitted increments as products of marginal block sums (C167); sums of squares and pool as permutations |
| C169 | `baseCL`, `mackCore` | remaining development times column sum satisfies a recursion in which the column sums occur as divisors only; induction from the last period |
| C170 | `bootFit`, `bootSims` | closed form of the run, then C167 for each simulated triangle and C168 for the fit |
| C171 | `percentile`, `getQuantiles`, `bootQuantCols`, `meanL`, `stdL` | order statistics by counting; interpolation is monotone in the values; standard error as a norm of deviations |
| C172 | `percentileR` | every method reads a position; at weight one half the rounded difference exceeds the difference by at most what the weight below one half loses (binade argument) |
| C173 | `percentileR`, `percentile` | Lipschitz bound of exact interpolation at the rounded rank, plus the errors of `_lerp` |
| C174 (partial) | `percentileR`, `percentile` | rounded rank within `5u` of the exact one; counterexamples in double precision |
| C175 | `getQuantilesR`, `getQuantiles` | headers of rounded levels equal those of the levels; columns as in C172, C173 |
| C176 | `bootQuantColsR`, `bootQuantCols` | levels of two-sided intervals as one increasing function of the header number; 1e-7 apart, errors below 2^-25 |
| C177 | `bootQuantColsR`, `getQuantilesR` | triangle inequality of C171 and C175, C176 |
| C178 | `mackCallR`, `RVR.ppf`, `mackQuantColsR` | order facts of C151 through a monotone root; each quantile is a composition of monotone roundings; headers by C176 |
| C179 (partial) | `logSigmaR`, `RVR.ppf` | witness with relative standard error 3e-10; exact condition: one plus a number rounds to one exactly if the number is at most 2^-p, ties to even |
| C180 | `bootStdErrR`, `groupStdR`, `seriesStdR` | the running mean stays between the old mean and the new value, so the products added have no negative sign; without rounding Welford's identity |
| C181 | `groupStdR` | induction on the simulations: error of the mean, size of the sum of squares, error of the sum of squares |
| C182 (partial) | `groupStdR` | exact condition from rounding to nearest: a third of a gap never reaches the other end; witness by two neighbouring floats |
| C183 | `seriesStdR`, `bootTotalsR` | squares about the computed mean are those about the mean plus S times the squared error of the mean |
| C184 (partial) | `seriesStdR` | sums of equal numbers in any order; witness with five simulations |
| C185 | `bootSummaryR` | columns from the table of simulated reserves; compensated mean by C164 |
| C186 | `bootSimsR`, `bootSims`, `bootUltimatesR` | both runs read off the process error tables (C165 with and without rounding), triangle inequality; compensated mean |
| C187 | `groupStdR`, `seriesStdR` | C181 and C183 for the rounding of the error itself, norms of deviation vectors for the change of the sample |
| C188 | `reserveRowsR`, `bootQuantColsR` | rows of floats with bounded gaps, C177; totals by the compensated sum |
| C189 (partial) | `rankROf`, `rankedOf`, `spearmanR`, `spearmanCoeffsR`, `spearmanTotalR` | ranks depend on the order only; relative errors of terms, sum and mean; two close link ratios tied in double precision make the statistic 1/2 instead of -1 |
| C190 (partial) | `spearmanCoeffsR`, `spearmanTotalR` | monotone rounding for the upper limit, C189 on the rounded link ratios for the lower; 13 periods in opposite orders give a coefficient below -1 in numpy's order of additions |
| C191 | `binomR`, `cyMeanR`, `cyVarR`, `cyLoopR`, `cyTotalsR` | invariant of the binomial loop; every intermediate value is a multiple of a power of two and fits; differs at 27 link ratios |
| C192 (partial) | `npMedianR`, `iscloseR`, `a2aAssignmentR` | sorting commutes with monotone rounding; relative errors of median and tolerance; a link ratio at the limit of the tolerance differs |
| C193 (partial) | `devpCorrTestR` | odd rounding for the symmetry, C189 and C190 for the statistic, error of the rounded quotient; the witness of C189 is accepted at the default level only in double precision |
| C194 | `cyTestR` | C191 for centre and variance, errors of root, product and bounds; monotonicity |
| C195 (partial) | `spearmanCoeffs`, `spearmanTotal`, `devpCorrVar` | sums over all permutations of a product of centred ranks, one permutation per period; with ties a period of equal link ratios gives 1/2 in every order |
| C196 (partial) | `a2aAssignment`, `cyTable`, `cyTotals` | signs on a diagonal come from different periods and may be flipped one by one, so their counts are binomial; for four periods the variance of the total is 3/2 times the one used; for all sizes the deviations of two diagonals are expanded in sums and differences over the sign of one period after the other (`SignWalk`): the signs of a period are negatively correlated and differences of `-|x|` alternate in sign with super Catalan numbers, so no covariance is negative, and that of the first two diagonals is positive |
| C197 | `baseCLR` | sums, factors, products and projections before rounding are within a factor four of exact numbers of moderate size; reserves and their sums may cancel, but are multiples of one power of two |
| C198 | `bootSims`, `bootFit` | the reserve is a product of three independent amounts; Jensen's inequality for the inverse with the variance as a lower bound of the gap. Other origins (`BootJensen`): the chain ladder reserve is convex in every single increment (`DevConvex`), and Jensen's inequality is applied to one residual after the other |
| C199 | `bootSims`, `bootFit` | the divisor is a sum of independent normal variates; the inverse of a normal variate is not integrable around 0 |
| C200 | `baseCL`, `mackCore` | in one amount the later factors are convex and falling, products of such are; a factor with the amount in its numerator only is taken together with all later ones (`DevConvex`) |
| C201 | `bootSims`, `bootReserves`, `bootSummary`, `baseCL` | law of large numbers (C126) with the means of C198; the mean resampled claims of an origin are its latest value |
| C202 | `bootSims`, `bootSummary`, `bootStdErr` | second Borel-Cantelli lemma for the blocks of draws of the simulations, with C199 (`Unbounded`) |
| C203 | `bootSims`, `bootSummary`, `bootStdErr` | conditional on all draws but that of the first cell, reserves are rational functions of a normal variate with a simple pole where the last divisor vanishes (`Pole`); Fubini, then as C202 |
| C204 (partial) | `baseCL`, all rows of `a2aAvgs` | sums, quotients and products of numbers that agree up to a factor; witness family for medial averages (a tie of the smallest ratio leaves nothing to average) |
| C205 (partial) | `mackCall` | continuity of Mack's formulas, the extrapolated variance included; the reported numbers are these formulas or zero; one amount changed slightly makes the extrapolated variance a number |
| C206 (partial) | `IndState`, `baseCL`, `mackCore` | a term taken out of a weighted mean moves the mean away from it; products of positive factors; medial averages of different ratios by the second largest or smallest (`ExcludeMedial.lean`) |
| C207 (partial) | `a2aAvgs`, `baseCL`, `mackCore`, `Tri.scaleRows` | link ratios of one origin do not change; all else by congruence, exceptions included |
| C208 | `a2aAvgs`, `baseCL` | origins of a window lie on the last diagonals; exceptions depend on the indicator alone |
| C209 | `mackCore` | closed form of the parameter error divided by the square of the ultimate |
| C210 | `a2aAvgs`, `baseCL`, `mackCore` | every kind of average is between its smallest and largest term; products of bounds |
| C211 (partial) | `totriIncr`, `totriCum` | cells as functions of the rows of an origin; carried values by induction over columns |
| C212 (partial) | `mackCall`, `getQuantile` | closed form of the quantile of a line; algebra of the exponent |
| C213 (partial) | `mackCore`, `baseCL` | column sums with a vanishing last term; product of factors split at the last period |
| C214 | `baseCL`, `a2aAvgs` | inequality of arithmetic and geometric means with its case of equality; sums of products of deviations |
| C215 (partial) | `mackCore`, `mackCall` | missing values through cumulative products, the squared triangle and the error recursions; sums split at the first origin left out |
| C216 (partial) | `bootCall`, `bootFit`, `baseCL` | rows of weighted averages do not mention the indicator; sums split into kept and excluded origins |
| C217 (partial) | `mackCall`, `MackResult.getQuantile`, `bootSims`, `reserveRows`, `quantileColumn` | common sorting of simulations that move together; quantiles read off the sorted values; bound of the total standard error |
| C218 (partial) | `bootSims` | the simulation as an explicit function of the draws; limits of sums, products and quotients |
| C219 | `mackCore` | double sum over pairs of origins; monotone products |
| C220 (partial) | `baseCL`, `baseCLArray`, `baseCLSeries` | products with missing factors; sums that skip missing values |
| C221 (partial) | `baseCL`, `a2aAvgs` | every estimate is u + v z + w / (s + z) in the amount z |
| C222 | `baseCLArrayR`, `baseCLSeriesR` | products with roundings by induction; sums over trees |
| C223 | `mackCore` | term by term comparison of the two closed forms |
| C224 (partial) | `bootFit` | fitted values cancel the new factor; lists of kept residuals |
| C225 (partial) | `baseCL`, `avgEntry` | an average added to its list leaves the average unchanged; the medial one by cases on its extremes |
| C226 | `baseCLArray`, `baseCLArrayR` | monotone rounded products, suffixes of the list of factors |
| C227 | `baseCLArray` | products over the factors still to come |
| C228 | `baseCL`, `avgEntry`, `mackCore` | each kind of average moves towards the added number; sums of deviations for the medial one |
| C229 | `baseCL`, `avgEntry` | new factor less old one (for the geometric average: of the logarithms) is a positive multiple of old factor less leaving ratio |
| C230 | `baseCL`, `medialAvg` | all orders of three ratios; missing factors by C220; longer windows keep a ratio strictly between the extremes (`C230_longer`, in `WindowUpdate.lean`) |
| C231 | `baseCLArrayR` | C222 at both evaluations, exact movement as in C227 |
| C232 | `mackCore` | weighted sums of squares about a shifted centre |
| C233 | `baseCL`, `avgEntry` | the two windows differ in their first and last element |
| C234 | `mackCore`, `ldfVariance` | C232 and the weights of the period |
| C235 | `baseCL`, `avgEntry` | the new window is the old one and the joining ratio |
| C236 | `baseCL`, `medialAvg` | the factor stays strictly between the ratios that stay; C206 for medial averages |
| C237 | `mackCore` | the sums lose one term each; squared deviations about another centre |
| C238 | `baseCL`, `medialAvg` | one more number counts like the nearest one between the ends of the others ; `C238_ties`: a new extreme brings back all copies of the old one |
| C239 | `mackCore`, `devpVariance` | C237 and the cases of the minimum |
| C240 | `IndState.avgs`, `medialAvg` | C238's lemma on one more number, read backwards |
