{
 "claims": [
  {
   "property": "C01",
   "status": "proved",
   "theorems": [
    "Trikit.C01_incr_cells",
    "Trikit.C01_empty"
   ],
   "note": ""
  },
  {
   "property": "C02",
   "status": "proved",
   "theorems": [
    "Trikit.C02_incr_order"
   ],
   "note": ""
  },
  {
   "property": "C03",
   "status": "partial",
   "theorems": [
    "Trikit.C03_cum_order_fails",
    "Trikit.C03_cum_order_partial",
    "Trikit.C03_exactly_partial"
   ],
   "note": "The code violates the full statement (witness proved); holds when the row order within each origin is kept. For positive amounts with one record per cell, a reordering gives the same triangle exactly when it keeps the rows of each origin in development order."
  },
  {
   "property": "C04",
   "status": "proved",
   "theorems": [
    "Trikit.C04_cum_cells"
   ],
   "note": ""
  },
  {
   "property": "C05",
   "status": "partial",
   "theorems": [
    "Trikit.C05_duplicates_fail",
    "Trikit.C05_duplicates_partial",
    "Trikit.C05_value",
    "Trikit.C05_exactly_partial"
   ],
   "note": "The code violates the full statement (witness proved); holds for cells with a single record. The value the code computes is given for all positive tables; it is the running total exactly when the cell has a single record."
  },
  {
   "property": "C06",
   "status": "partial",
   "theorems": [
    "Trikit.C06_first_column_fails",
    "Trikit.C06_first_column_partial",
    "Trikit.C06_exactly_partial"
   ],
   "note": "The code violates the full statement for a missing value recorded in the first period (witness proved); holds otherwise. Holds exactly when every origin recorded in the first period has a present value there."
  },
  {
   "property": "C07",
   "status": "proved",
   "theorems": [
    "Trikit.C07_cum_incr_cum"
   ],
   "note": ""
  },
  {
   "property": "C08",
   "status": "proved",
   "theorems": [
    "Trikit.C08_incr_cum_incr"
   ],
   "note": ""
  },
  {
   "property": "C09",
   "status": "partial",
   "theorems": [
    "Trikit.C09_export_import_fails",
    "Trikit.C09_export_import_partial",
    "Trikit.C09_exactly_partial"
   ],
   "note": "The code violates the full statement for a missing value recorded in the first period (witness proved); holds otherwise. Holds exactly when every origin recorded in the first period has a present value there."
  },
  {
   "property": "C10",
   "status": "proved",
   "theorems": [
    "Trikit.C10_triangle_input",
    "Trikit.C10_triangle_values",
    "Trikit.C10_cum_format"
   ],
   "note": ""
  },
  {
   "property": "C100",
   "status": "proved",
   "theorems": [
    "Trikit.C100_mack",
    "Trikit.C100_base"
   ],
   "note": "mack_cl from 4 origins, base_cl from 3 with the tail becoming development"
  },
  {
   "property": "C101",
   "status": "proved",
   "theorems": [
    "Trikit.C101_mack",
    "Trikit.C101_base"
   ],
   "note": "mack_cl from 4 origins, base_cl from 3; the error of the second origin does depend on the third (example exYoung)"
  },
  {
   "property": "C102",
   "status": "proved",
   "theorems": [
    "Trikit.C102_bootstrap",
    "Trikit.C102_errors",
    "Trikit.C102_empty",
    "Trikit.C102_mack"
   ],
   "note": "one or more levels and the same interpolation passed to both; mack_cl from 4 origins; without levels get_quantiles raises (C102_empty)"
  },
  {
   "property": "C103",
   "status": "proved",
   "theorems": [
    "Trikit.C103_fit",
    "Trikit.C103_call",
    "Trikit.C103_real",
    "Trikit.stepPrng_scales"
   ],
   "note": "C103_real is the claim for every positive multiplier with real square roots; stepPrng is a generator with the assumed scaling"
  },
  {
   "property": "C104",
   "status": "proved",
   "theorems": [
    "Trikit.C104_fit",
    "Trikit.C104_sims"
   ],
   "note": "same draws; the process errors of different cells are drawn independently"
  },
  {
   "property": "C105",
   "status": "proved",
   "theorems": [
    "Trikit.C105_dist"
   ],
   "note": "negative fitted increments make simulated amounts NaN (C56_fails) and are outside the stated domain"
  },
  {
   "property": "C106",
   "status": "proved",
   "theorems": [
    "Trikit.C106_hist"
   ],
   "note": "same inputs as C105; drawing itself is not modelled"
  },
  {
   "property": "C107",
   "status": "proved",
   "theorems": [
    "Trikit.C107_points"
   ],
   "note": "from 4 origins; the standard normal quantile function is a parameter with z(.001) < z(.999)"
  },
  {
   "property": "C108",
   "status": "proved",
   "theorems": [
    "Trikit.C108_summary",
    "Trikit.C108_call"
   ],
   "note": "for runs that end; with fewer than two simulations standard errors are missing"
  },
  {
   "property": "C109",
   "status": "partial",
   "theorems": [
    "Trikit.C109_partial",
    "Trikit.C109_real_partial",
    "Trikit.C109_fails"
   ],
   "note": "proved for alpha 1 and exclusions with weights at most 1; with alpha 0 or 2 the total can exceed the sum of the standard errors (growing origins)"
  },
  {
   "property": "C11",
   "status": "proved",
   "theorems": [
    "Trikit.C11_cum_format_tabular"
   ],
   "note": ""
  },
  {
   "property": "C110",
   "status": "proved",
   "theorems": [
    "Trikit.C110_total",
    "Trikit.C110_every",
    "Trikit.stepPrng_finite"
   ],
   "note": "over the reals; C110_total for runs of boot_cl on the domain of C108, C110_every for the standard errors on every triangle and all draws"
  },
  {
   "property": "C111",
   "status": "partial",
   "theorems": [
    "Trikit.C111_partial",
    "Trikit.C111_fails"
   ],
   "note": "proved with the default column names; other names make the plot raise"
  },
  {
   "property": "C112",
   "status": "proved",
   "theorems": [
    "Trikit.C112_params",
    "Trikit.C112_run",
    "Trikit.C112_row",
    "Trikit.exists_gammaDraws"
   ],
   "note": "over the reals; C112_run for every triangle totri builds; shape 0 is the constant 0 as in numpy"
  },
  {
   "property": "C113",
   "status": "proved",
   "theorems": [
    "Trikit.C113_reserve",
    "Trikit.exists_gammaDraws"
   ],
   "note": "over the reals; the run without process error has every draw replaced by its mean"
  },
  {
   "property": "C114",
   "status": "proved",
   "theorems": [
    "Trikit.C114_factor",
    "Trikit.exists_mackStep"
   ],
   "note": "over the reals; the period is fixed, the next one is random"
  },
  {
   "property": "C115",
   "status": "partial",
   "theorems": [
    "Trikit.C115_variance_partial",
    "Trikit.C115_exactly_partial",
    "Trikit.C115_excluded_fails"
   ],
   "note": "proved without exclusions; the mean for any exclusions is given, right exactly when there are none; with a link ratio of the period excluded the estimate is too small on average, because the divisor counts all link ratios"
  },
  {
   "property": "C116",
   "status": "proved",
   "theorems": [
    "Trikit.C116_factors",
    "Trikit.exists_mackProcess"
   ],
   "note": "over the reals; conditional expectations along a filtration of periods"
  },
  {
   "property": "C117",
   "status": "proved",
   "theorems": [
    "Trikit.C117_mack",
    "Trikit.C117_base",
    "Trikit.exists_mackProcess"
   ],
   "note": "over the reals; conditional expectations along a filtration of periods"
  },
  {
   "property": "C118",
   "status": "proved",
   "theorems": [
    "Trikit.C118_samples",
    "Trikit.exists_residDraws",
    "Trikit.C118_bias_witness"
   ],
   "note": "over the reals; C118_bias_witness: the residuals of a fit need not have mean 0, so nonparametric samples can be biased"
  },
  {
   "property": "C119",
   "status": "partial",
   "theorems": [
    "Trikit.C119_fails",
    "Trikit.C119_partial",
    "Trikit.C119_stair_partial"
   ],
   "note": "witness: with the pinned scipy residuals_detail raises for every resampling run; partial: with a scipy whose modes are arrays, over the reals"
  },
  {
   "property": "C12",
   "status": "proved",
   "theorems": [
    "Trikit.C12_fill"
   ],
   "note": "Finite or missing values (infinities excluded)."
  },
  {
   "property": "C120",
   "status": "partial",
   "theorems": [
    "Trikit.C120_fails",
    "Trikit.C120_partial",
    "Trikit.C120_one_step",
    "Trikit.exists_mackPath"
   ],
   "note": "witness: for alpha 0 and 2 the recursion still uses s C instead of s C^(2-alpha); partial: alpha 1, over the reals"
  },
  {
   "property": "C121",
   "status": "proved",
   "theorems": [
    "Trikit.C121_param",
    "Trikit.exists_factors"
   ],
   "note": "over the reals; when the last variance is missing there is no claim (C43)"
  },
  {
   "property": "C122",
   "status": "partial",
   "theorems": [
    "Trikit.C122_fails",
    "Trikit.C122_partial",
    "Trikit.exists_mackWorld"
   ],
   "note": "witness: the total is linearised, so it is too small as soon as the last two factors vary; partial: alpha 1, equality for every origin, lower bound for the total, strict in that case"
  },
  {
   "property": "C123",
   "status": "partial",
   "theorems": [
    "Trikit.C123_fails",
    "Trikit.C123_partial"
   ],
   "note": "witness: plot raises for every input, because the formatter of levels takes no two_sided and the pinned pandas no method; partial: both accepted, staircases with fitted increments that are not negative after the first period"
  },
  {
   "property": "C124",
   "status": "partial",
   "theorems": [
    "Trikit.C124_fails",
    "Trikit.C124_partial"
   ],
   "note": "witness: a run whose totals are about 900 has total quantiles of about 300; partial: the rows pool the amounts of all origins"
  },
  {
   "property": "C125",
   "status": "proved",
   "theorems": [
    "Trikit.C125_mle"
   ],
   "note": "over the reals"
  },
  {
   "property": "C126",
   "status": "proved",
   "theorems": [
    "Trikit.C126_runs",
    "Trikit.exists_seeds"
   ],
   "note": "over the reals; the moments are assumed, and proved to exist when residuals come from a finite set and gamma variates have second moments"
  },
  {
   "property": "C127",
   "status": "partial",
   "theorems": [
    "Trikit.C127_partial",
    "Trikit.C127_fails"
   ],
   "note": "witness: an origin that did not report its latest amount gets 181.5 instead of 217.8; partial: the ultimate uses the factor of the position, which is the right one exactly for origins observed n - i periods"
  },
  {
   "property": "C128",
   "status": "partial",
   "theorems": [
    "Trikit.C128_fails",
    "Trikit.C128_array_fails",
    "Trikit.C128_avgs_fail",
    "Trikit.C128_partial"
   ],
   "note": "base_cl and mack_cl raise on every triangle with n != m, and all three by-name methods on every one whose latest origin has two periods; partial: n = m"
  },
  {
   "property": "C129",
   "status": "partial",
   "theorems": [
    "Trikit.C129_partial",
    "Trikit.C129_fails"
   ],
   "note": "holds exactly on square staircases; witness: late reporting origin, four origins with three periods"
  },
  {
   "property": "C13",
   "status": "partial",
   "theorems": [
    "Trikit.C13_gap_tabular_fails",
    "Trikit.C13_gap_triangle_fails",
    "Trikit.C13_gap_partial",
    "Trikit.C13_value",
    "Trikit.C13_exactly_partial"
   ],
   "note": "The code violates the full statement (witnesses proved); holds when a missing value is followed only by missing values in its origin. Tabular input: the value the code computes is given; all present values are kept exactly when no origin runs present, missing, present."
  },
  {
   "property": "C130",
   "status": "partial",
   "theorems": [
    "Trikit.C130_fails",
    "Trikit.C130_partial"
   ],
   "note": "witness: four origins with three periods; partial: square staircases"
  },
  {
   "property": "C131",
   "status": "partial",
   "theorems": [
    "Trikit.C131_partial",
    "Trikit.C131_fails"
   ],
   "note": "witness: two link ratios, divisor 2; partial: the divisor is n - j - 2, right exactly for periods with n - 1 - j link ratios"
  },
  {
   "property": "C132",
   "status": "partial",
   "theorems": [
    "Trikit.C132_partial",
    "Trikit.C132_fails"
   ],
   "note": "witness: an origin with three periods to come gets the error of two; partial: right exactly for origins observed n - i periods, too small for late, too large for early ones"
  },
  {
   "property": "C133",
   "status": "partial",
   "theorems": [
    "Trikit.C133_partial",
    "Trikit.C133_fails"
   ],
   "note": "witness: all losses 100, ValueError; partial: an exhibit exists exactly when every largest loss is between 1 and 10^10 and no power of ten, and then panels, names and ticks are right. That nothing is drawn into the panels is found by reading only"
  },
  {
   "property": "C134",
   "status": "partial",
   "theorems": [
    "Trikit.C134_partial",
    "Trikit.C134_shift",
    "Trikit.C134_fails",
    "Trikit.C134_fails_names"
   ],
   "note": "as written the plot raises KeyError; the branch itself is written into the model from the column names read in the code. With the table of density curves: names are right if all distributions exist, shifted if the second origin has none (witness)"
  },
  {
   "property": "C135",
   "status": "partial",
   "theorems": [
    "Trikit.C135_partial",
    "Trikit.C135_fails"
   ],
   "note": "as written diagnostics raises KeyError (branch written into the model from the column names), with the right name TypeError; partial: the curve, line and paths it would show"
  },
  {
   "property": "C136",
   "status": "partial",
   "theorems": [
    "Trikit.C136_partial",
    "Trikit.C136_empty_row",
    "Trikit.C136_fails"
   ],
   "note": "witness: other column names raise KeyError; partial: default names"
  },
  {
   "property": "C137",
   "status": "proved",
   "theorems": [
    "Trikit.C137_by_devp",
    "Trikit.C137_staircase"
   ],
   "note": "order among equal labels left open, as sort_index is not stable"
  },
  {
   "property": "C138",
   "status": "proved",
   "theorems": [
    "Trikit.C138_pool"
   ],
   "note": ""
  },
  {
   "property": "C139",
   "status": "partial",
   "theorems": [
    "Trikit.C139_partial",
    "Trikit.C139_geometric_partial",
    "Trikit.C139_medial_partial",
    "Trikit.C139_medial_fails"
   ],
   "note": "witness: medial averages remove every occurrence of the largest ratio, so a higher latest value can lower the average; partial: simple, weighted and geometric averages, all windows; medial averages when the raised ratio ties neither with the smallest nor with the largest of the others"
  },
  {
   "property": "C14",
   "status": "proved",
   "theorems": [
    "Trikit.C14"
   ],
   "note": "all objects of the heap, all arguments, all outcomes"
  },
  {
   "property": "C140",
   "status": "proved",
   "theorems": [
    "Trikit.C140_amount",
    "Trikit.C140_triangle",
    "Trikit.C140_summary"
   ],
   "note": "texts of the cells; the padding by to_string is not modelled"
  },
  {
   "property": "C141",
   "status": "partial",
   "theorems": [
    "Trikit.C141_partial",
    "Trikit.C141_fails",
    "Trikit.C141_zero_fails"
   ],
   "note": "the code raises because of the formatter (C123); with that repaired it still raises at level 0, where both bands have the same header; partial: levels above 1/10^7 and amounts for which ticks exist"
  },
  {
   "property": "C142",
   "status": "proved",
   "theorems": [
    "Trikit.C142_exact",
    "Trikit.C142_error",
    "Trikit.C142_float64"
   ],
   "note": "rounding with unlimited exponent range; simple and weighted averages"
  },
  {
   "property": "C143",
   "status": "proved",
   "theorems": [
    "Trikit.C143_order",
    "Trikit.C143_float64"
   ],
   "note": "rounding with unlimited exponent range"
  },
  {
   "property": "C144",
   "status": "proved",
   "theorems": [
    "Trikit.C144_raised",
    "Trikit.floatRd_monoRd"
   ],
   "note": "any monotone rounding; floatRd_monoRd gives rounding to binary digits"
  },
  {
   "property": "C145",
   "status": "partial",
   "theorems": [
    "Trikit.C145_partial",
    "Trikit.C145_fails"
   ],
   "note": "witness on four origins: the squared triangle multiplies and rounds one factor at a time, the summary multiplies by the rounded product; partial: equal up to 4(i^2+3i+1) 2^-53, exactly for the oldest origin"
  },
  {
   "property": "C146",
   "status": "proved",
   "theorems": [
    "Trikit.C146_incr",
    "Trikit.C146_cum",
    "Trikit.C146_cum_format",
    "Trikit.C146_toIncr",
    "Trikit.C146_toCum",
    "Trikit.floatRd_exactInt"
   ],
   "note": "compensated sums; no overflow; floatRd_exactInt gives rounding to binary digits"
  },
  {
   "property": "C147",
   "status": "partial",
   "theorems": [
    "Trikit.C147_partial",
    "Trikit.C147_near_partial",
    "Trikit.C147_fails"
   ],
   "note": "witness: amounts 0.2 and 0.9; partial: equality for whole increments of at most 2^53 units altogether; any float64 amounts come back within 10u times the variation of the row"
  },
  {
   "property": "C148",
   "status": "partial",
   "theorems": [
    "Trikit.C148_partial",
    "Trikit.C148_error_partial",
    "Trikit.C148_near_partial",
    "Trikit.C148_fails"
   ],
   "note": "witness: amounts 1.8, 7.3, 9.8 in one cell; partial: equality for whole amounts of at most 2^53 units altogether; any finite amounts within 16u times the absolute amounts of the cell"
  },
  {
   "property": "C149",
   "status": "partial",
   "theorems": [
    "Trikit.C149_partial",
    "Trikit.C149_fails"
   ],
   "note": "witness: scale 3; partial: powers of two, for every triangle"
  },
  {
   "property": "C15",
   "status": "proved",
   "theorems": [
    "Trikit.C15_sound",
    "Trikit.C15_shape",
    "Trikit.C15_format",
    "Trikit.C15_type",
    "Trikit.C15_table",
    "Trikit.C15_grid"
   ],
   "note": "a returned triangle implies admissible arguments; each inadmissible class raises its error; admissible arguments on well-formed non-empty input are accepted"
  },
  {
   "property": "C150",
   "status": "proved",
   "theorems": [
    "Trikit.C150_incr",
    "Trikit.C150_cum"
   ],
   "note": "rounding with unlimited exponent range; volume weighted factors"
  },
  {
   "property": "C151",
   "status": "proved",
   "theorems": [
    "Trikit.C151_exact",
    "Trikit.C151_order",
    "Trikit.C151_increasing",
    "Trikit.C151_float64"
   ],
   "note": "rounding with unlimited exponent range; mean squared errors before the square root is taken"
  },
  {
   "property": "C152",
   "status": "partial",
   "theorems": [
    "Trikit.C152_partial",
    "Trikit.C152_float64_partial",
    "Trikit.C152_fails"
   ],
   "note": "witness: four identical origins 21, 27, 54, 108; partial: whole amounts and whole ratios, weighted totals of at most 2^53"
  },
  {
   "property": "C153",
   "status": "partial",
   "theorems": [
    "Trikit.C153_partial",
    "Trikit.C153_error",
    "Trikit.C153_fails"
   ],
   "note": "witness: four identical origins 21, 27, 54, 108; partial: both within the error bounds of C142 of the same exact estimates, excluded link ratios allowed for the first"
  },
  {
   "property": "C154",
   "status": "partial",
   "theorems": [
    "Trikit.C154_partial",
    "Trikit.C154_fails"
   ],
   "note": "witness: scale 3; partial: powers of two, for every triangle"
  },
  {
   "property": "C155",
   "status": "partial",
   "theorems": [
    "Trikit.C155_late_partial",
    "Trikit.C155_value",
    "Trikit.C155_early_fails",
    "Trikit.C155_between_fails",
    "Trikit.C155_unknown_dev_fails"
   ],
   "note": "fails: labels before the first origin and unknown periods make a2a_avgs raise IndexError, a label between origins drops the later link ratios; partial: labels after all origins with link ratios"
  },
  {
   "property": "C156",
   "status": "partial",
   "theorems": [
    "Trikit.C156_partial",
    "Trikit.C156_stale_fails",
    "Trikit.C156_differs_fails"
   ],
   "note": "fails: an estimator that is called again keeps the exclusions of its first call; partial: mack_cl of the triangle, which makes a new estimator"
  },
  {
   "property": "C157",
   "status": "partial",
   "theorems": [
    "Trikit.C157_avgs",
    "Trikit.C157_mack_partial",
    "Trikit.C157_alpha0_fails"
   ],
   "note": "fails for alpha 0: nan ** 0 is 1 and enters the denominator; holds for the averages and for alpha >= 1"
  },
  {
   "property": "C158",
   "status": "proved",
   "theorems": [
    "Trikit.C158_errors",
    "Trikit.C158_variances",
    "Trikit.C158_between",
    "Trikit.C158_float64"
   ],
   "note": "alpha 1; the bound on the last variance needs the last but two to exceed its own bound; where the last variance is missing all errors are zero"
  },
  {
   "property": "C159",
   "status": "proved",
   "theorems": [
    "Trikit.C159_exact",
    "Trikit.C159_fit",
    "Trikit.C159_float64"
   ],
   "note": "the square root is a parameter and not used by these values"
  },
  {
   "property": "C16",
   "status": "partial",
   "theorems": [
    "Trikit.C16_fails",
    "Trikit.C16_cumval_fails",
    "Trikit.C16_partial",
    "Trikit.C16_methods_partial",
    "Trikit.C16_toCum_default"
   ],
   "note": "violated: to_tbl, latest and to_cum raise KeyError for other names, and cumval cannot be used as a name; C16_partial: same cells or same exception for all names that avoid the working names"
  },
  {
   "property": "C160",
   "status": "partial",
   "theorems": [
    "Trikit.C160_iff",
    "Trikit.C160_exact",
    "Trikit.C160_partial",
    "Trikit.C160_float64_partial",
    "Trikit.C160_fails"
   ],
   "note": "witness: three identical origins 30, 33, 36; partial: whole amounts and ratios with sums up to 2^53; C160_iff says when there is nothing to sample"
  },
  {
   "property": "C161",
   "status": "partial",
   "theorems": [
    "Trikit.C161_partial",
    "Trikit.C161_float64_partial",
    "Trikit.C161_fails"
   ],
   "note": "witness: identical origins 10, 11, 12 and scale 3; partial: powers of four"
  },
  {
   "property": "C162",
   "status": "partial",
   "theorems": [
    "Trikit.C162_entries",
    "Trikit.C162_partial",
    "Trikit.C162_whole_partial",
    "Trikit.C162_fails",
    "Trikit.C162_fails_bounds"
   ],
   "note": "witness: whole amounts just above 2^26 for which two different link ratios round to the same number and the medial factor becomes NaN; partial: different link ratios stay different, for instance whole amounts up to 2^26"
  },
  {
   "property": "C163",
   "status": "proved",
   "theorems": [
    "Trikit.C163_error",
    "Trikit.C163_float64"
   ],
   "note": "np.log and np.exp enter as functions with a bounded relative error"
  },
  {
   "property": "C164",
   "status": "proved",
   "theorems": [
    "Trikit.C164_exact",
    "Trikit.C164_error",
    "Trikit.C164_float64"
   ],
   "note": "np.sqrt enters with a bounded relative error; kappa is part of the statement"
  },
  {
   "property": "C165",
   "status": "partial",
   "theorems": [
    "Trikit.C165_partial",
    "Trikit.C165_fails"
   ],
   "note": "witness: latest value 200 and one forecast increment 0.1; partial: within 10 unit roundoffs of the first simulated value, the variation of the simulated row and the absolute values of the forecast increments"
  },
  {
   "property": "C166",
   "status": "proved",
   "theorems": [
    "Trikit.C166_homog",
    "Trikit.C166_float64"
   ],
   "note": ""
  },
  {
   "property": "C167",
   "status": "proved",
   "theorems": [
    "Trikit.C167_swap",
    "Trikit.C167_records"
   ],
   "note": ""
  },
  {
   "property": "C168",
   "status": "proved",
   "theorems": [
    "Trikit.C168_fit"
   ],
   "note": ""
  },
  {
   "property": "C169",
   "status": "proved",
   "theorems": [
    "Trikit.C169_earlier",
    "Trikit.C169_mack"
   ],
   "note": "not true of simple averages, see the example beside the theorem"
  },
  {
   "property": "C17",
   "status": "proved",
   "theorems": [
    "Trikit.C17_latest"
   ],
   "note": ""
  },
  {
   "property": "C170",
   "status": "proved",
   "theorems": [
    "Trikit.C170_sims",
    "Trikit.C170_run"
   ],
   "note": "labels from 1 because simulated reserves depend on the label 1 (C58)"
  },
  {
   "property": "C171",
   "status": "proved",
   "theorems": [
    "Trikit.C171_table",
    "Trikit.C171_summary",
    "Trikit.C171_percentile",
    "Trikit.C171_monotone",
    "Trikit.C171_mean",
    "Trikit.C171_std",
    "Trikit.C171_std_sharp"
   ],
   "note": ""
  },
  {
   "property": "C172",
   "status": "proved",
   "theorems": [
    "Trikit.C172_percentile"
   ],
   "note": "no overflow or underflow in the model of rounding"
  },
  {
   "property": "C173",
   "status": "proved",
   "theorems": [
    "Trikit.C173_linear",
    "Trikit.C173_midpoint"
   ],
   "note": ""
  },
  {
   "property": "C174",
   "status": "partial",
   "theorems": [
    "Trikit.C174_partial",
    "Trikit.C174_fails"
   ],
   "note": "true when the rank is away from whole numbers (nearest: from odd halves) by five relative unit roundoffs; otherwise it fails, e.g. the level 0.57 of 101 simulations"
  },
  {
   "property": "C175",
   "status": "proved",
   "theorems": [
    "Trikit.C175_table",
    "Trikit.C175_increasing",
    "Trikit.C175_error"
   ],
   "note": ""
  },
  {
   "property": "C176",
   "status": "proved",
   "theorems": [
    "Trikit.C176_two_sided",
    "Trikit.C176_one_sided",
    "Trikit.C176_increasing",
    "Trikit.C176_error",
    "Trikit.C176_missing"
   ],
   "note": ""
  },
  {
   "property": "C177",
   "status": "proved",
   "theorems": [
    "Trikit.C177_run"
   ],
   "note": ""
  },
  {
   "property": "C178",
   "status": "proved",
   "theorems": [
    "Trikit.C178_exact",
    "Trikit.C178_errors",
    "Trikit.C178_norm",
    "Trikit.C178_norm_error",
    "Trikit.C178_lognorm",
    "Trikit.C178_two_sided",
    "Trikit.C178_one_sided",
    "Trikit.C178_float64"
   ],
   "note": ""
  },
  {
   "property": "C179",
   "status": "partial",
   "theorems": [
    "Trikit.C179_partial",
    "Trikit.C179_fails"
   ],
   "note": "The code violates the claim: 1 + cv**2 is rounded to 1 when the computed square of the coefficient of variation is at most 2^-53, the shape parameter is then 0 and scipy returns NaN (C179_fails). Proved: that condition is exact, and quantiles are numbers when the standard error is at least 2^-26 times the reserve."
  },
  {
   "property": "C18",
   "status": "partial",
   "theorems": [
    "Trikit.C18_triind_incr",
    "Trikit.C18_triind_cum_fails",
    "Trikit.C18_triind_cum_partial",
    "Trikit.C18_staircase",
    "Trikit.C18_exactly_partial"
   ],
   "note": "The code violates the statement for cumulative triangles with origins lacking a first-period record (stale cached indicator, witness proved). Holds exactly when the latest origin has a record in the first period."
  },
  {
   "property": "C180",
   "status": "proved",
   "theorems": [
    "Trikit.C180_run",
    "Trikit.C180_std",
    "Trikit.C180_exact"
   ],
   "note": ""
  },
  {
   "property": "C181",
   "status": "proved",
   "theorems": [
    "Trikit.C181_accuracy",
    "Trikit.C181_float64"
   ],
   "note": ""
  },
  {
   "property": "C182",
   "status": "partial",
   "theorems": [
    "Trikit.C182_partial",
    "Trikit.C182_iff",
    "Trikit.C182_fails"
   ],
   "note": "The code violates the claim: the running mean of two neighbouring floats can be rounded to the second one, and the sum of squares is then 0 (C182_fails, reserves about 260 that differ in the last bit). Proved: 0 if all are the same; the exact condition for 0; it forces all reserves but the first to be the same and the first to be within 3u of them."
  },
  {
   "property": "C183",
   "status": "proved",
   "theorems": [
    "Trikit.C183_total"
   ],
   "note": ""
  },
  {
   "property": "C184",
   "status": "partial",
   "theorems": [
    "Trikit.C184_partial",
    "Trikit.C184_fails"
   ],
   "note": "The code violates the claim: the computed mean of five equal totals differs from them in the last bit (C184_fails). Proved: 0 when the multiples of the total up to the number of simulations are floats, and in general the square is at most 12 S^3/(S-1) u^2 x^2."
  },
  {
   "property": "C185",
   "status": "proved",
   "theorems": [
    "Trikit.C185_summary"
   ],
   "note": ""
  },
  {
   "property": "C186",
   "status": "proved",
   "theorems": [
    "Trikit.C186_reserves",
    "Trikit.C186_means"
   ],
   "note": ""
  },
  {
   "property": "C187",
   "status": "proved",
   "theorems": [
    "Trikit.C187_origin",
    "Trikit.C187_total"
   ],
   "note": ""
  },
  {
   "property": "C188",
   "status": "proved",
   "theorems": [
    "Trikit.C188_columns"
   ],
   "note": "Linear interpolation; one-sided levels k/10^7 and two-sided levels k/(5*10^6)."
  },
  {
   "property": "C189",
   "status": "partial",
   "theorems": [
    "Trikit.C189_ranks",
    "Trikit.C189_partial",
    "Trikit.C189_fails"
   ],
   "note": "Violated: link ratios closer than the rounding are tied and the statistic changes from -1 to 1/2. Proved when different link ratios of a period differ by a factor above (1+u)/(1-u)."
  },
  {
   "property": "C19",
   "status": "proved",
   "theorems": [
    "Trikit.C19_diagonal"
   ],
   "note": ""
  },
  {
   "property": "C190",
   "status": "partial",
   "theorems": [
    "Trikit.C190_partial",
    "Trikit.C190_same",
    "Trikit.C190_digits",
    "Trikit.C190_fails"
   ],
   "note": "Violated: a coefficient can be below -1. Proved: the upper limit, and the lower one up to rounding errors."
  },
  {
   "property": "C191",
   "status": "proved",
   "theorems": [
    "Trikit.C191_moments",
    "Trikit.C191_double",
    "Trikit.C191_totals",
    "Trikit.C191_totals_double",
    "Trikit.C191_same",
    "Trikit.C191_limit"
   ],
   "note": "C191_limit: at 27 counted link ratios the variance is rounded. The branch of scipy for 20 or more factors is a parameter."
  },
  {
   "property": "C192",
   "status": "partial",
   "theorems": [
    "Trikit.C192_partial",
    "Trikit.C192_fails"
   ],
   "note": "Violated: a link ratio at the limit of the tolerance is high in double precision only. Proved outside a margin around the limit, and that assignments are never opposite."
  },
  {
   "property": "C193",
   "status": "partial",
   "theorems": [
    "Trikit.C193_interval",
    "Trikit.C193_partial",
    "Trikit.C193_fails",
    "Trikit.default_level"
   ],
   "note": "Violated for link ratios that round to the same number (C193_fails, default_level: the bound of the default level is between 1/2 and 1); proved when different link ratios stay apart and the statistic is not within rounding errors of a bound."
  },
  {
   "property": "C194",
   "status": "proved",
   "theorems": [
    "Trikit.C194_accuracy",
    "Trikit.C194_double",
    "Trikit.C194_nested"
   ],
   "note": "norm.ppf is a parameter; the square root is correctly rounded"
  },
  {
   "property": "C195",
   "status": "partial",
   "theorems": [
    "Trikit.C195_coeffs",
    "Trikit.C195_partial",
    "Trikit.C195_ties",
    "Trikit.C195_fails"
   ],
   "note": "Violated with ties: a period of equal link ratios has coefficient 1/2 in every order (C195_fails), and the mean is 0 exactly without ties (C195_ties). Proved without ties."
  },
  {
   "property": "C196",
   "status": "partial",
   "theorems": [
    "Trikit.C196_diag",
    "Trikit.C196_partial",
    "Trikit.C196_fails",
    "Trikit.C196_larger"
   ],
   "note": "Violated: variances of dependent diagonals are added (C196_larger: too small for every triangle with four or more periods; C196_fails: by a third for four). Proved: expectation and variance of every diagonal and expectation of the statistic."
  },
  {
   "property": "C197",
   "status": "proved",
   "theorems": [
    "Trikit.C197_same",
    "Trikit.C197_double"
   ],
   "note": "For every rounding that agrees with rounding to p digits inside the range."
  },
  {
   "property": "C198",
   "status": "proved",
   "theorems": [
    "Trikit.C198_mean",
    "Trikit.C198_bias",
    "Trikit.C198_all",
    "Trikit.C198_all_bias"
   ],
   "note": "For independent draws by position; variates of the process error need not be gamma, only have mean shape times scale. C198_bias is the whole method from the fit on. C198_all and C198_all_bias: every origin but the oldest, under positive resampled increments in all observed cells."
  },
  {
   "property": "C199",
   "status": "proved",
   "theorems": [
    "Trikit.C199_no_mean",
    "Trikit.C199_fit"
   ],
   "note": "For independent draws by position; C199_fit is the whole method from the fit on."
  },
  {
   "property": "C20",
   "status": "partial",
   "theorems": [
    "Trikit.C20_nonsquare_fails",
    "Trikit.C20_wide_fails",
    "Trikit.C20_diagonal_partial",
    "Trikit.C20_exactly_partial"
   ],
   "note": "The code violates the full statement (witnesses proved). Holds exactly when the k-th of n origins is last observed in the (n-k)-th period."
  },
  {
   "property": "C200",
   "status": "proved",
   "theorems": [
    "Trikit.C200_convex",
    "Trikit.C200_mack"
   ],
   "note": "Strict for the first amount of the oldest origin. The example after the theorems shows that two amounts at once can behave otherwise."
  },
  {
   "property": "C201",
   "status": "proved",
   "theorems": [
    "Trikit.C201_limit",
    "Trikit.C201_exceeds"
   ],
   "note": "The reserves of the summary table and of the table of base_cl are compared."
  },
  {
   "property": "C202",
   "status": "proved",
   "theorems": [
    "Trikit.C202_unbounded"
   ],
   "note": "Variates without a mean exceed every multiple of their number infinitely often."
  },
  {
   "property": "C203",
   "status": "proved",
   "theorems": [
    "Trikit.C203_no_mean",
    "Trikit.C203_unbounded"
   ],
   "note": "C203_no_mean: any set of origins. C203_unbounded: the rows of the summary, the total included."
  },
  {
   "property": "C204",
   "status": "partial",
   "theorems": [
    "Trikit.C204_partial",
    "Trikit.C204_geometric_partial",
    "Trikit.C204_medial_partial",
    "Trikit.C204_medial_fails"
   ],
   "note": "witness for every r > 1: a tie of link ratios turns the medial factor into NaN; partial: simple, weighted and geometric averages, all windows; medial averages when the ratios of each window keep their order"
  },
  {
   "property": "C205",
   "status": "partial",
   "theorems": [
    "Trikit.C205_partial",
    "Trikit.C205_exact",
    "Trikit.C205_jump",
    "Trikit.C205_fails"
   ],
   "note": "violated where the two variances before the last vanish and an earlier one does not: all reported errors are zero there, those of arbitrarily close triangles are not (C205_jump gives their limit); C205_exact: without exclusions these are the only triangles, C205_partial covers exclusions"
  },
  {
   "property": "C206",
   "status": "partial",
   "theorems": [
    "Trikit.C206_partial",
    "Trikit.C206_geometric_partial",
    "Trikit.C206_mack",
    "Trikit.C206_weighted_fails",
    "Trikit.C206_medial_fails",
    "Trikit.C206_medial_partial",
    "Trikit.C206_medial_three_fails"
   ],
   "note": "weighted averages ignore exclusions, a medial average may become missing; holds for simple and geometric averages and for the factors of mack_cl, and for medial averages of different link ratios unless the middle one of three is excluded; most recent link ratios cannot be excluded before a2a_avgs (C27)"
  },
  {
   "property": "C207",
   "status": "partial",
   "theorems": [
    "Trikit.C207_averages_partial",
    "Trikit.C207_partial",
    "Trikit.C207_mack_partial",
    "Trikit.C207_weighted_fails"
   ],
   "note": "weighted averages, and mack_cl with alpha other than 0, give large origins more weight; holds for the other averages and for alpha = 0"
  },
  {
   "property": "C208",
   "status": "proved",
   "theorems": [
    "Trikit.C208_window",
    "Trikit.C208_sharp"
   ],
   "note": ""
  },
  {
   "property": "C209",
   "status": "proved",
   "theorems": [
    "Trikit.C209_relative"
   ],
   "note": ""
  },
  {
   "property": "C21",
   "status": "partial",
   "theorems": [
    "Trikit.C21_stale_cache",
    "Trikit.C21_cache_partial",
    "Trikit.C21_cache_totri_partial",
    "Trikit.C21_exactly_partial"
   ],
   "note": "The code violates the full statement for cumulative triangles with origins lacking a first-period record (witness proved). Holds exactly when the latest origin has a record in the first period."
  },
  {
   "property": "C210",
   "status": "proved",
   "theorems": [
    "Trikit.C210_base",
    "Trikit.C210_mack"
   ],
   "note": "over the real numbers for base_cl, with the geometric mean of scipy as exp of the mean of logs"
  },
  {
   "property": "C211",
   "status": "partial",
   "theorems": [
    "Trikit.C211_incr_partial",
    "Trikit.C211_cum_partial",
    "Trikit.C211_first_fails",
    "Trikit.C211_younger_fails"
   ],
   "note": "the smallest period of the whole table decides which values are replaced by 1, and records of younger origins decide which missing cells are filled; with the same smallest period incremental cells, cumulative cells with a record, and all cells present in both triangles are the same"
  },
  {
   "property": "C212",
   "status": "partial",
   "theorems": [
    "Trikit.C212_norm",
    "Trikit.C212_lognorm_partial",
    "Trikit.C212_lognorm_fails",
    "Trikit.C212_lognorm_bound"
   ],
   "note": "holds for the normal distribution; for the lognormal one only while the logarithmic standard deviation is at most the standard normal quantile of the level; beyond that the quantile falls with the standard error, and it is always at most the reserve times exp(x^2/2)"
  },
  {
   "property": "C213",
   "status": "partial",
   "theorems": [
    "Trikit.C213_mack_partial",
    "Trikit.C213_variance_fails",
    "Trikit.C213_last_fails",
    "Trikit.C213_base_fails"
   ],
   "note": "base_cl raises IndexError for every triangle; mack_cl has no factor for the last period and reports errors of 0 beside missing ultimates; with the link ratio of the last period kept its factors are those of the year before, but variance parameters divide by a count that includes excluded link ratios"
  },
  {
   "property": "C214",
   "status": "proved",
   "theorems": [
    "Trikit.C214_geometric",
    "Trikit.C214_weighted"
   ],
   "note": "weighted minus simple factor is the covariance of amounts and link ratios divided by the sum of amounts; proved without exclusions for the weighted average"
  },
  {
   "property": "C215",
   "status": "partial",
   "theorems": [
    "Trikit.C215_missing_partial",
    "Trikit.C215_errors_fail",
    "Trikit.C215_totals_fail",
    "Trikit.C215_stderr_fails"
   ],
   "note": "ultimates and reserves are missing for exactly these origins; but the standard error is then 0 for every one of them but possibly the second oldest (an example has an infinite one), and totals of ultimates and reserves omit them while the total of latest amounts does not"
  },
  {
   "property": "C216",
   "status": "partial",
   "theorems": [
    "Trikit.C216_factor_partial",
    "Trikit.C216_boot_fails",
    "Trikit.C216_base_fails",
    "Trikit.C216_boot_raises"
   ],
   "note": "exclusions either change nothing at all in boot_cl and in base_cl with weighted averages, or raise IndexError (newest link ratio of a period excluded); the factor is the one of the kept link ratios exactly when the excluded origins together developed like the kept ones"
  },
  {
   "property": "C217",
   "status": "partial",
   "theorems": [
    "Trikit.C217_norm",
    "Trikit.C217_norm_partial",
    "Trikit.C217_lognorm_fails",
    "Trikit.C217_boot_partial",
    "Trikit.C217_boot_fails"
   ],
   "note": "normal distribution: the difference is the standard normal quantile times the difference of the standard errors, so the claim holds with alpha = 1; lognormal: violated at the median when the total is relatively less uncertain than every origin; bootstrap: holds at level 1, with equality at every level when origins move together, violated at level .6 by three simulations"
  },
  {
   "property": "C218",
   "status": "partial",
   "theorems": [
    "Trikit.C218_partial",
    "Trikit.C218_fails"
   ],
   "note": "holds unless a column sum that a simulated factor divides by vanishes; near draws for which the claims of the oldest origin before the last period add up to zero the reserve of the second oldest origin is unbounded"
  },
  {
   "property": "C219",
   "status": "proved",
   "theorems": [
    "Trikit.C219_alpha",
    "Trikit.C219_order"
   ],
   "note": "C219_alpha decides the direction without the assumption on the order, from a sum over pairs of origins; an example shows that the factor need not move in one direction"
  },
  {
   "property": "C22",
   "status": "proved",
   "theorems": [
    "Trikit.C22_a2a"
   ],
   "note": ""
  },
  {
   "property": "C220",
   "status": "partial",
   "theorems": [
    "Trikit.C220_missing_partial",
    "Trikit.C220_totals_fail"
   ],
   "note": "holds for origins and cells; the totals of ultimates and reserves omit the origins without estimate while the total of latest amounts does not, so that total ultimate less total latest is below the total reserve"
  },
  {
   "property": "C221",
   "status": "partial",
   "theorems": [
    "Trikit.C221_simple_partial",
    "Trikit.C221_weighted_partial",
    "Trikit.C221_weighted_window_fails",
    "Trikit.C221_medial_fails"
   ],
   "note": "proved for simple averages of every window and volume weighted averages of all years; false for volume weighted averages of a window and for medial averages (witnesses)"
  },
  {
   "property": "C222",
   "status": "proved",
   "theorems": [
    "Trikit.C222_array",
    "Trikit.C222_series",
    "Trikit.C222_order",
    "Trikit.C222_float64"
   ],
   "note": "arithmetic without overflow and underflow; the Series theorem is for calls that return and have a number for every period"
  },
  {
   "property": "C223",
   "status": "proved",
   "theorems": [
    "Trikit.C223_expected"
   ],
   "note": "exact arithmetic; nonnegative exponents alpha; the errors of the total are not compared"
  },
  {
   "property": "C224",
   "status": "partial",
   "theorems": [
    "Trikit.C224_fit_partial",
    "Trikit.C224_fails"
   ],
   "note": "fit, residuals and scale parameter are proved; the sampled residuals are those of before, in the same order, times a number above one on every triangle, because the degrees of freedom of C54 exceed the number of cells; exact arithmetic"
  },
  {
   "property": "C225",
   "status": "partial",
   "theorems": [
    "Trikit.C225_all_partial",
    "Trikit.C225_window_partial",
    "Trikit.C225_window_fails"
   ],
   "note": "proved for the simple, geometric, medial and weighted averages of all years; false for averages of the last years, where the oldest ratio drops out: for simple ones the new factors are given exactly; exact arithmetic, factors that are numbers"
  },
  {
   "property": "C226",
   "status": "proved",
   "theorems": [
    "Trikit.C226_higher",
    "Trikit.C226_passed",
    "Trikit.C226_factor"
   ],
   "note": "factors given as list or array; for higher factors none may be negative; no overflow or underflow"
  },
  {
   "property": "C227",
   "status": "proved",
   "theorems": [
    "Trikit.C227_actual"
   ],
   "note": "factors given as list or array; exact arithmetic"
  },
  {
   "property": "C228",
   "status": "proved",
   "theorems": [
    "Trikit.C228_follows",
    "Trikit.C228_mack",
    "Trikit.C228_missing"
   ],
   "note": "the medial factor can become missing (C228_missing), which the proviso excludes; averages of the last years do not have the property (C225); exact arithmetic"
  },
  {
   "property": "C229",
   "status": "proved",
   "theorems": [
    "Trikit.C229_window"
   ],
   "note": "exact arithmetic; medial windows are not covered; with C225_window_fails it says which triangles keep their ultimates"
  },
  {
   "property": "C23",
   "status": "partial",
   "theorems": [
    "Trikit.C23_a2aind_partial",
    "Trikit.C26_history_partial",
    "Trikit.C23_unread_fails"
   ],
   "note": "The code violates the full statement: an assignment before the first read of a2aind raises AttributeError; holds after one read."
  },
  {
   "property": "C230",
   "status": "proved",
   "theorems": [
    "Trikit.C230_medial",
    "Trikit.C230_longer"
   ],
   "note": "exact arithmetic; a finding about the code: the medial average drops every ratio equal to the extremes, so that a triangle that develops exactly as expected loses its factor; for longer windows see also C236"
  },
  {
   "property": "C231",
   "status": "proved",
   "theorems": [
    "Trikit.C231_float64"
   ],
   "note": "factors given as list or array; arithmetic rounded to 53 binary digits without limits of the exponent, as in C222"
  },
  {
   "property": "C232",
   "status": "proved",
   "theorems": [
    "Trikit.C232_update"
   ],
   "note": "exact arithmetic; weights of old link ratios are the same at both evaluations; an excluded newest ratio has z = 0 and so lowers the variance parameter"
  },
  {
   "property": "C233",
   "status": "proved",
   "theorems": [
    "Trikit.C233_window"
   ],
   "note": "exact arithmetic; the medial average is not covered (see C230)"
  },
  {
   "property": "C234",
   "status": "proved",
   "theorems": [
    "Trikit.C234_error"
   ],
   "note": "exact arithmetic; the last variance, which is extrapolated from the two before it, is not covered"
  },
  {
   "property": "C235",
   "status": "proved",
   "theorems": [
    "Trikit.C235_all"
   ],
   "note": "exact arithmetic; the medial average is not covered (see C230)"
  },
  {
   "property": "C236",
   "status": "proved",
   "theorems": [
    "Trikit.C236_medial"
   ],
   "note": "exact arithmetic; three years: C230; shorter windows have no ratio to remove"
  },
  {
   "property": "C237",
   "status": "proved",
   "theorems": [
    "Trikit.C237_exclude"
   ],
   "note": "exact arithmetic; the last period has one ratio and cannot lose it"
  },
  {
   "property": "C238",
   "status": "proved",
   "theorems": [
    "Trikit.C238_all",
    "Trikit.C238_window",
    "Trikit.C238_ties"
   ],
   "note": "exact arithmetic; C238_ties for equal ratios when none leaves"
  },
  {
   "property": "C239",
   "status": "proved",
   "theorems": [
    "Trikit.C239_last",
    "Trikit.C239_single"
   ],
   "note": "exact arithmetic"
  },
  {
   "property": "C24",
   "status": "proved",
   "theorems": [
    "Trikit.C24_simple"
   ],
   "note": ""
  },
  {
   "property": "C240",
   "status": "proved",
   "theorems": [
    "Trikit.C240_medial"
   ],
   "note": "exact arithmetic; three ratios and ties: C206_medial_three_fails, C206_medial_fails"
  },
  {
   "property": "C25",
   "status": "proved",
   "theorems": [
    "Trikit.C25_weighted"
   ],
   "note": ""
  },
  {
   "property": "C26",
   "status": "partial",
   "theorems": [
    "Trikit.C26_weighted_fails",
    "Trikit.C26_excluded_partial",
    "Trikit.C26_history_partial"
   ],
   "note": "The code violates the full statement for weighted averages (witness proved); holds for the other kinds."
  },
  {
   "property": "C27",
   "status": "partial",
   "theorems": [
    "Trikit.C27_exclusion_fails",
    "Trikit.C27_exclusion_partial",
    "Trikit.C27_base_cl"
   ],
   "note": "The code violates the full statement (witness proved); a2a_avgs returns iff the most recent link ratio of each period is kept."
  },
  {
   "property": "C28",
   "status": "proved",
   "theorems": [
    "Trikit.C28_medial",
    "Trikit.C28_medial_table"
   ],
   "note": ""
  },
  {
   "property": "C29",
   "status": "proved",
   "theorems": [
    "Trikit.C29_long_window"
   ],
   "note": ""
  },
  {
   "property": "C30",
   "status": "proved",
   "theorems": [
    "Trikit.C30_cldfs",
    "Trikit.C30_cldfs_array"
   ],
   "note": ""
  },
  {
   "property": "C31",
   "status": "proved",
   "theorems": [
    "Trikit.C31_summary"
   ],
   "note": "Selected rows of numbers."
  },
  {
   "property": "C32",
   "status": "proved",
   "theorems": [
    "Trikit.C32_trisqrd"
   ],
   "note": ""
  },
  {
   "property": "C33",
   "status": "proved",
   "theorems": [
    "Trikit.C33_tail"
   ],
   "note": ""
  },
  {
   "property": "C34",
   "status": "proved",
   "theorems": [
    "Trikit.C34_scale"
   ],
   "note": "Proved for every triangle, not only staircases."
  },
  {
   "property": "C35",
   "status": "proved",
   "theorems": [
    "Trikit.C35_reserves",
    "Trikit.C35_averages"
   ],
   "note": ""
  },
  {
   "property": "C36",
   "status": "proved",
   "theorems": [
    "Trikit.C36_oldest"
   ],
   "note": ""
  },
  {
   "property": "C37",
   "status": "proved",
   "theorems": [
    "Trikit.C37_array"
   ],
   "note": ""
  },
  {
   "property": "C38",
   "status": "partial",
   "theorems": [
    "Trikit.C38_series_fails",
    "Trikit.C38_series_partial"
   ],
   "note": "The code violates the full statement: the Series is modified and the repeated call raises ValueError (proved for every Series with increasing labels); the first call gives the result of the array."
  },
  {
   "property": "C39",
   "status": "partial",
   "theorems": [
    "Trikit.C39_irregular_fails",
    "Trikit.C39_irregular_partial"
   ],
   "note": "The code violates the full statement (witness proved); every origin but the oldest has them whatever the labels; exact condition for the oldest proved."
  },
  {
   "property": "C40",
   "status": "proved",
   "theorems": [
    "Trikit.C40_exact",
    "Trikit.C40_exact_real"
   ],
   "note": ""
  },
  {
   "property": "C41",
   "status": "proved",
   "theorems": [
    "Trikit.C41_factors"
   ],
   "note": "Mack factors for alpha 0, 1, 2 equal the base link ratio averages (regression, weighted, simple); both computed on every staircase triangle."
  },
  {
   "property": "C42",
   "status": "proved",
   "theorems": [
    "Trikit.C42_least_squares"
   ],
   "note": "The factor minimises the weighted sum of squares, among all candidate factors."
  },
  {
   "property": "C43",
   "status": "partial",
   "theorems": [
    "Trikit.C43_last_fails",
    "Trikit.C43_variances_partial"
   ],
   "note": "Variances equal the unbiased weighted residual variance and are nonnegative; the last one is NaN when the two previous are zero, and fewer than 4 development periods raise IndexError."
  },
  {
   "property": "C44",
   "status": "proved",
   "theorems": [
    "Trikit.C44_process_error",
    "Trikit.C44_mack"
   ],
   "note": ""
  },
  {
   "property": "C45",
   "status": "proved",
   "theorems": [
    "Trikit.C45_parameter_error",
    "Trikit.C45_mack"
   ],
   "note": ""
  },
  {
   "property": "C46",
   "status": "proved",
   "theorems": [
    "Trikit.C46_mse",
    "Trikit.C46_total",
    "Trikit.C46_std_errors"
   ],
   "note": ""
  },
  {
   "property": "C47",
   "status": "partial",
   "theorems": [
    "Trikit.C47_fails",
    "Trikit.C47_all_zero",
    "Trikit.C47_partial"
   ],
   "note": "The code violates the full statement (witness and general condition proved): all standard errors are 0 when the two periods before the last show no deviation. Holds when one of these periods deviates."
  },
  {
   "property": "C48",
   "status": "proved",
   "theorems": [
    "Trikit.C48_lognormal",
    "Trikit.C48_mack",
    "Trikit.C48_small_reserve"
   ],
   "note": "Moments as integrals against the law; reserves below 1 get mean 1 (proved)."
  },
  {
   "property": "C49",
   "status": "proved",
   "theorems": [
    "Trikit.C49_quantiles",
    "Trikit.C49_probability"
   ],
   "note": "The standard normal quantile function is an arbitrary nondecreasing function."
  },
  {
   "property": "C50",
   "status": "proved",
   "theorems": [
    "Trikit.C50_point_estimates"
   ],
   "note": ""
  },
  {
   "property": "C51",
   "status": "proved",
   "theorems": [
    "Trikit.C51_fit"
   ],
   "note": "positive staircases with at least three periods"
  },
  {
   "property": "C52",
   "status": "proved",
   "theorems": [
    "Trikit.C52_marginals"
   ],
   "note": "row and column totals of fitted and observed increments"
  },
  {
   "property": "C53",
   "status": "proved",
   "theorems": [
    "Trikit.C53_residuals"
   ],
   "note": "over the reals with the real square root"
  },
  {
   "property": "C54",
   "status": "partial",
   "theorems": [
    "Trikit.C54_dof",
    "Trikit.C54_fails",
    "Trikit.C54_stair_partial"
   ],
   "note": "violated: the code computes cells - (periods - 1) + origins; C54_fails is a witness, C54_stair_partial gives the value on staircases"
  },
  {
   "property": "C55",
   "status": "proved",
   "theorems": [
    "Trikit.C55_zero_residuals"
   ],
   "note": "all positive staircases with non-negative fitted increments, any number of simulations"
  },
  {
   "property": "C56",
   "status": "partial",
   "theorems": [
    "Trikit.C56_fails",
    "Trikit.C56_partial"
   ],
   "note": "violated when a fitted increment is negative (witness C56_fails); proved for staircases with non-negative fitted increments and finite draws"
  },
  {
   "property": "C57",
   "status": "partial",
   "theorems": [
    "Trikit.C57_process",
    "Trikit.C57_fails",
    "Trikit.C57_reserve_partial"
   ],
   "note": "the parts on observed increments and signs hold for every triangle; the reserve identity is violated without a development label 1 (C57_fails) and proved when the first label is 1"
  },
  {
   "property": "C58",
   "status": "partial",
   "theorems": [
    "Trikit.C58_fails",
    "Trikit.C58_partial",
    "Trikit.C58_shift",
    "Trikit.C58_fit"
   ],
   "note": "violated: C58_fails; equal reserves proved when label 1 is at the same place, C58_shift gives the exact change otherwise"
  },
  {
   "property": "C59",
   "status": "proved",
   "theorems": [
    "Trikit.C59_seed",
    "Trikit.C59_other",
    "Trikit.C59_state"
   ],
   "note": "all generators, seeds and histories"
  },
  {
   "property": "C60",
   "status": "proved",
   "theorems": [
    "Trikit.C60_reserve",
    "Trikit.C60_reported"
   ],
   "note": "every triangle with increasing origins and all draws"
  },
  {
   "property": "C61",
   "status": "proved",
   "theorems": [
    "Trikit.C61_plain",
    "Trikit.C61_two_sided"
   ],
   "note": "all lists of requested quantiles"
  },
  {
   "property": "C62",
   "status": "partial",
   "theorems": [
    "Trikit.C62_fails",
    "Trikit.C62_ordinal_partial",
    "Trikit.C62_distinct"
   ],
   "note": "violated: 11, 12, 13 get the suffixes st, nd, rd; C62_ordinal_partial shows that exactly the numbers ending in these are wrong; distinctness proved for all quantiles with at most seven decimals"
  },
  {
   "property": "C63",
   "status": "proved",
   "theorems": [
    "Trikit.C63_percentile",
    "Trikit.C63_lower_bound",
    "Trikit.C63_table"
   ],
   "note": "all non-empty finite samples, all documented interpolation methods"
  },
  {
   "property": "C64",
   "status": "proved",
   "theorems": [
    "Trikit.C64_value",
    "Trikit.C64_bounds",
    "Trikit.C64_correlation"
   ],
   "note": "all non-zero staircase triangles with n >= 4, ties included"
  },
  {
   "property": "C65",
   "status": "proved",
   "theorems": [
    "Trikit.C65_mean",
    "Trikit.C65_var",
    "Trikit.C65_empty"
   ],
   "note": "every n >= 1; an empty diagonal contributes nothing"
  },
  {
   "property": "C66",
   "status": "partial",
   "theorems": [
    "Trikit.C66_fails",
    "Trikit.C66_partial"
   ],
   "note": "violated when a column contains +inf and -inf (NaN median); proved for columns without infinite link ratios"
  },
  {
   "property": "C67",
   "status": "proved",
   "theorems": [
    "Trikit.C67_table",
    "Trikit.C67_triangle"
   ],
   "note": "all databases and arguments"
  },
  {
   "property": "C68",
   "status": "proved",
   "theorems": [
    "Trikit.C68_list",
    "Trikit.C68_load"
   ],
   "note": "every registry whose files have the three columns, the loss reserving database having none called value"
  },
  {
   "property": "C69",
   "status": "proved",
   "theorems": [
    "Trikit.C69_ticks",
    "Trikit.C69_raises",
    "Trikit.C69_iff"
   ],
   "note": "exact condition for success; upper limit is the smallest multiple"
  },
  {
   "property": "C70",
   "status": "proved",
   "theorems": [
    "Trikit.C70_geometric"
   ],
   "note": ""
  },
  {
   "property": "C71",
   "status": "partial",
   "theorems": [
    "Trikit.C71_two_origins_fails",
    "Trikit.C71_returns_partial"
   ],
   "note": "The code violates the full statement for two origins (IndexError, proved for all values); holds for three or more."
  },
  {
   "property": "C72",
   "status": "partial",
   "theorems": [
    "Trikit.C72_fails",
    "Trikit.C72_partial",
    "Trikit.C72_empty"
   ],
   "note": "violated: an exactly fitted triangle leaves nothing to sample and boot_cl raises ValueError; C72_partial says exactly when it returns (gamma process error, usable seed, at least one simulation)"
  },
  {
   "property": "C73",
   "status": "partial",
   "theorems": [
    "Trikit.C73_fails",
    "Trikit.C73_partial",
    "Trikit.C73_gamma_partial"
   ],
   "note": "violated: the gamma stage restarts an integer seed; C73_partial: fit, samples, factors and forecasts agree"
  },
  {
   "property": "C74",
   "status": "partial",
   "theorems": [
    "Trikit.C74_fails",
    "Trikit.C74_partial"
   ],
   "note": "violated: a vanishing fitted increment gives infinite residuals; C74_partial says exactly when all residuals are finite"
  },
  {
   "property": "C75",
   "status": "partial",
   "theorems": [
    "Trikit.C75_fails",
    "Trikit.C75_partial"
   ],
   "note": "violated: np.allclose treats link ratios within 1e-8 + 1e-5 |median| as the median; C75_partial gives the exact thresholds"
  },
  {
   "property": "C76",
   "status": "proved",
   "theorems": [
    "Trikit.C76"
   ],
   "note": "all non-zero staircase triangles for which the table is produced"
  },
  {
   "property": "C77",
   "status": "partial",
   "theorems": [
    "Trikit.C77_fails",
    "Trikit.C77_partial"
   ],
   "note": "violated: unequally spaced labels raise ValueError; C77_partial: the table is produced exactly for equally spaced labels"
  },
  {
   "property": "C78",
   "status": "partial",
   "theorems": [
    "Trikit.C78_fails",
    "Trikit.C78_partial"
   ],
   "note": "violated: sigma is sqrt(SS/n - 1) instead of sqrt(SS/(n-1)), NaN for small amounts"
  },
  {
   "property": "C79",
   "status": "partial",
   "theorems": [
    "Trikit.C79_fails",
    "Trikit.C79_incr_partial",
    "Trikit.C79_cum_partial"
   ],
   "note": "violated: both constructors write into the table passed in; the partial theorems say which cells can change"
  },
  {
   "property": "C80",
   "status": "partial",
   "theorems": [
    "Trikit.C80_fails",
    "Trikit.C80_partial"
   ],
   "note": "violated: other names raise, swapped default names transpose; C80_partial: every non-default name raises"
  },
  {
   "property": "C81",
   "status": "partial",
   "theorems": [
    "Trikit.C81_fails",
    "Trikit.C81_partial"
   ],
   "note": "violated: a further column cum with cumulative input raises ValueError; C81_partial: all other columns"
  },
  {
   "property": "C82",
   "status": "proved",
   "theorems": [
    "Trikit.C82_lobs",
    "Trikit.C82_specs"
   ],
   "note": "all databases"
  },
  {
   "property": "C83",
   "status": "partial",
   "theorems": [
    "Trikit.C83_fails",
    "Trikit.C83_partial",
    "Trikit.C83_exactly_partial"
   ],
   "note": "violated: with labels 1, 2, 4 the ultimate shares the label of the last period; C83_partial: evenly spaced labels; C83_exactly_partial: any labels, the ultimate is later than all periods exactly when the last step is less than twice the smallest before"
  },
  {
   "property": "C84",
   "status": "partial",
   "theorems": [
    "Trikit.C84_fails",
    "Trikit.C84_partial"
   ],
   "note": "violated: the totals omit the observed amounts of older origins; C84_partial: exactly which origins are summed, complete for the last period and the ultimate"
  },
  {
   "property": "C85",
   "status": "partial",
   "theorems": [
    "Trikit.C85_fails",
    "Trikit.C85_partial"
   ],
   "note": "violated: the simulated triangle has its own latest diagonal; C85_partial: exact difference of the two"
  },
  {
   "property": "C86",
   "status": "partial",
   "theorems": [
    "Trikit.C86_fails",
    "Trikit.C86_partial"
   ],
   "note": "violated: the oldest origin has one more residual by origin; C86_partial: otherwise the same rows, exact condition for the extra one"
  },
  {
   "property": "C87",
   "status": "proved",
   "theorems": [
    "Trikit.C87_interval",
    "Trikit.C87_unique"
   ],
   "note": "exact solution of the equation given to the root solver"
  },
  {
   "property": "C88",
   "status": "proved",
   "theorems": [
    "Trikit.C88_totals",
    "Trikit.C88_interval",
    "Trikit.C88_nested"
   ],
   "note": "exact normal quantile"
  },
  {
   "property": "C89",
   "status": "proved",
   "theorems": [
    "Trikit.C89_totals"
   ],
   "note": "every triangle with distinct origins and increasing development labels, any missing values, all draws; exact arithmetic, so no overflow in the sums"
  },
  {
   "property": "C90",
   "status": "proved",
   "theorems": [
    "Trikit.C90_incr",
    "Trikit.C90_cum",
    "Trikit.C90_cum_format"
   ],
   "note": "C90_cum: rows of each origin by period (other orders violate C03)"
  },
  {
   "property": "C91",
   "status": "proved",
   "theorems": [
    "Trikit.C91_base",
    "Trikit.C91_base_cum",
    "Trikit.C91_mack"
   ],
   "note": "all-weighted factors, no exclusions, tail 1"
  },
  {
   "property": "C92",
   "status": "partial",
   "theorems": [
    "Trikit.C92_fails",
    "Trikit.C92_partial",
    "Trikit.C92_exact"
   ],
   "note": "violated for alpha 0 and 2: the process error (mack.py:375-383) is written for alpha = 1; C92_partial covers alpha = 1, C92_exact the exact powers for every alpha"
  },
  {
   "property": "C93",
   "status": "partial",
   "theorems": [
    "Trikit.C93_fails",
    "Trikit.C93_partial",
    "Trikit.C93_small"
   ],
   "note": "violated: the lognormal clips reserves below 1 (mack.py); holds for the normal and for reserves of at least 1 in both currencies, alpha = 1"
  },
  {
   "property": "C94",
   "status": "partial",
   "theorems": [
    "Trikit.C94_fails",
    "Trikit.C94_partial",
    "Trikit.C94_one_step"
   ],
   "note": "violated for alpha 0 and 2; C94_partial covers alpha = 1, C94_one_step the value for every alpha of the second origin"
  },
  {
   "property": "C95",
   "status": "partial",
   "theorems": [
    "Trikit.C95_fails",
    "Trikit.C95_partial"
   ],
   "note": "violated for alpha 2 and with exclusions (mack.py:165-176 ignores both); holds for alpha = 1 without exclusions"
  },
  {
   "property": "C96",
   "status": "partial",
   "theorems": [
    "Trikit.C96_fails",
    "Trikit.C96_partial"
   ],
   "note": "violated: the divisor (mack.py:329-331) is the number of all link ratios less one; C96_partial gives the exact ratio, equality when none is excluded"
  },
  {
   "property": "C97",
   "status": "proved",
   "theorems": [
    "Trikit.C97_estimates",
    "Trikit.C97_bootstrap"
   ],
   "note": "every triangle; base_cl by name, array and Series, mack_cl and boot_cl"
  },
  {
   "property": "C98",
   "status": "proved",
   "theorems": [
    "Trikit.C98_unit"
   ],
   "note": "every triangle; base_cl by name, array and Series (the Series with converted labels) and mack_cl; boot_cl depends on the label 1, see C58"
  },
  {
   "property": "C99",
   "status": "proved",
   "theorems": [
    "Trikit.C99_mack",
    "Trikit.C99_base"
   ],
   "note": "mack_cl from 4 origins, base_cl from 3"
  }
 ]
}