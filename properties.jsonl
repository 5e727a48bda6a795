{"id": "C01", "title": "Incremental triangle cells are sums of the records", "statement": "totri(data, tri_type='incr') on tabular incremental records yields a triangle whose index is the strictly increasing list of distinct origins, whose columns are the strictly increasing list of distinct development periods, and whose cell (o,d) is NaN when no record carries (o,d) and otherwise the sum of the non-missing values recorded at (o,d), where records of the smallest development period with a value <= 0 count as 1.", "quantifier": "for every non-empty list of (origin, dev, value) records, any order, any duplicates, any missing values", "why_tests_cant": "the set of record lists (order, multiplicity, gaps) is infinite; tests only look at shipped datasets with one record per cell", "anchors": ["trikit/triangle.py::_BaseTriangle.__init__", "trikit/triangle.py::_BaseTriangle._neg_handler", "trikit/triangle.py::IncrTriangle", "trikit/triangle.py::totri"]}
{"id": "C02", "title": "Incremental triangle does not depend on record order", "statement": "Two tables holding the same records in a different row order produce identical incremental triangles.", "quantifier": "for every record list and every permutation of it", "why_tests_cant": "n! orders per table", "anchors": ["trikit/triangle.py::_BaseTriangle.__init__", "trikit/triangle.py::totri"]}
{"id": "C03", "title": "Cumulative triangle does not depend on record order", "statement": "Two tables holding the same incremental records in a different row order produce the same cumulative triangle.", "quantifier": "for every record list and every permutation of it", "why_tests_cant": "tests use tables already sorted by development period; the claim is about all orders", "anchors": ["trikit/triangle.py::_BaseCumTriangle.__init__", "trikit/triangle.py::totri"]}
{"id": "C04", "title": "Cumulative cells are running totals", "statement": "For records with at most one record per (origin, dev), listed in increasing dev within each origin, with a positive first-period value wherever present, every cell (o,d) of the cumulative triangle that has a record equals the sum of the values recorded for o at periods <= d.", "quantifier": "for every such record list", "why_tests_cant": "needs all list lengths and all interleavings of origins", "anchors": ["trikit/triangle.py::_BaseCumTriangle.__init__", "trikit/triangle.py::CumTriangle"]}
{"id": "C05", "title": "Several records for one cell are added, not double counted, in cumulative triangles", "statement": "When several records share (origin, dev), the cumulative cell equals the cumulative total of all records of that origin up to that dev, exactly as if the records had first been added together.", "quantifier": "for every record list with duplicates", "why_tests_cant": "shipped data has no duplicates; duplicates occur when loading several companies at once", "anchors": ["trikit/triangle.py::_BaseCumTriangle.__init__", "trikit/triangle.py::totri", "trikit/utils.py::_load_lrdb"]}
{"id": "C06", "title": "First development period of a built triangle is positive or missing", "statement": "After totri, no cell in the first development column is <= 0: in an incremental triangle it is NaN or > 0 and in a cumulative triangle it is > 0.", "quantifier": "for every record list without infinite values (negative, zero and missing values included)", "why_tests_cant": "depends on all combinations of signs, duplicates and gaps", "anchors": ["trikit/triangle.py::_BaseTriangle._neg_handler", "trikit/triangle.py::totri"]}
{"id": "C07", "title": "Cumulative to incremental and back is the identity", "statement": "For a cumulative triangle in which every origin is observed from the first period without gaps and starts with a positive value, tri.to_incr().to_cum() has the same labels and the same cells.", "quantifier": "for every such triangle of any size and any values", "why_tests_cant": "tests compare one dataset to two decimals", "anchors": ["trikit/triangle.py::CumTriangle.to_incr", "trikit/triangle.py::IncrTriangle.to_cum"]}
{"id": "C08", "title": "Incremental to cumulative and back is the identity", "statement": "For an incremental triangle in which every origin is observed from the first period without gaps and starts with a positive value, tri.to_cum().to_incr() has the same labels and the same cells.", "quantifier": "for every such triangle of any size and any values (negative increments after the first period allowed)", "why_tests_cant": "infinitely many triangles", "anchors": ["trikit/triangle.py::CumTriangle.to_incr", "trikit/triangle.py::IncrTriangle.to_cum"]}
{"id": "C09", "title": "Tabular export and reimport is the identity", "statement": "For an incremental triangle built by the library, exporting with to_tbl() and rebuilding with totri(..., tri_type='incr') returns the same triangle; no cell is lost, invented or moved, even when the triangle has gaps.", "quantifier": "for every incremental triangle built from any record list", "why_tests_cant": "infinitely many gap patterns", "anchors": ["trikit/triangle.py::_BaseTriangle.to_tbl", "trikit/triangle.py::totri", "trikit/triangle.py::IncrTriangle"]}
{"id": "C10", "title": "Triangle-shaped input equals tabular input", "statement": "totri(X, data_shape='triangle', data_format='incr') gives the same triangle as listing the non-missing cells of X as records and calling totri on them; with data_format='cum' and gap-free rows it gives the triangle of the differenced rows.", "quantifier": "for every rectangular array with distinct sorted labels, both values of tri_type", "why_tests_cant": "infinitely many arrays", "anchors": ["trikit/triangle.py::totri"]}
{"id": "C11", "title": "Cumulative-format tabular input reproduces the given cumulative values", "statement": "If the input lists cumulative values, one record per (origin, dev), no gaps, in increasing dev per origin and positive first values, totri(data, tri_type='cum', data_format='cum') has exactly these values as cells.", "quantifier": "for every such record list, in any order of the origins", "why_tests_cant": "difference-then-accumulate must cancel for all lists", "anchors": ["trikit/triangle.py::totri"]}
{"id": "C12", "title": "Missing entries inside the observed part are carried forward, nothing else changes", "statement": "In a cumulative triangle returned by totri each cell equals: the accumulated value where a record exists; 1 for a missing first-period cell; the cell to its left for a missing later cell lying at or above the last observed origin of its column; NaN otherwise.", "quantifier": "for every list of records with finite or missing values", "why_tests_cant": "depends on all gap patterns", "anchors": ["trikit/triangle.py::totri", "trikit/triangle.py::_BaseTriangle.triind", "trikit/triangle.py::_BaseTriangle.clvi"]}
{"id": "C13", "title": "Missing values in cumulative-format input do not change other cells", "statement": "If one cumulative value in cumulative-format input (tabular or triangle shaped) is missing, every other cell of the resulting cumulative triangle keeps its given value.", "quantifier": "for every cumulative input and every missing position", "why_tests_cant": "all gap positions and values", "anchors": ["trikit/triangle.py::totri"]}
{"id": "C14", "title": "totri leaves the caller's data unchanged", "statement": "Calling totri never modifies the DataFrame passed in, whatever the arguments and whether or not the call raises.", "quantifier": "for every input frame and every combination of arguments", "why_tests_cant": "aliasing has to be excluded on every code path", "anchors": ["trikit/triangle.py::totri", "trikit/triangle.py::_BaseTriangle._neg_handler", "trikit/triangle.py::_BaseCumTriangle.__init__"]}
{"id": "C15", "title": "totri argument dispatch", "statement": "totri accepts exactly data_shape in {'triangle','tabular'}, data_format starting (after trimming, case-insensitively) with i or c when data_shape='triangle', and tri_type starting case-insensitively with i or c; every other combination raises NameError or UnboundLocalError and never silently returns a triangle; the type returned is the one asked for.", "quantifier": "for all argument strings", "why_tests_cant": "string arguments are unbounded", "anchors": ["trikit/triangle.py::totri"]}
{"id": "C16", "title": "Column names are only names", "statement": "Renaming the three columns of the table and passing the new names as origin=, dev=, value= changes neither the cells of the triangle nor which methods work on it (latest, to_tbl, base_cl ...).", "quantifier": "for every table and every choice of three distinct column names", "why_tests_cant": "all names and all methods", "anchors": ["trikit/triangle.py::_BaseTriangle.__init__", "trikit/triangle.py::_BaseTriangle.latest", "trikit/triangle.py::_BaseTriangle.to_tbl"]}
{"id": "C17", "title": "Latest diagonal", "statement": "tri.latest_by_origin gives, for every origin in index order, the value of the cell in the last development period with a non-missing value for that origin; tri.latest gives the matching period; all cells to the right of it are missing.", "quantifier": "for every triangle built from records with finite or missing values", "why_tests_cant": "all shapes and gap patterns", "anchors": ["trikit/triangle.py::_BaseTriangle.latest", "trikit/triangle.py::_BaseTriangle.latest_by_origin", "trikit/triangle.py::_BaseTriangle.rlvi"]}
{"id": "C18", "title": "Triangle indicator and maturity", "statement": "triind is 0 exactly for cells with a non-missing value in the same column at the same or a later origin; hence every observed cell has triind 0, and in a staircase triangle triind is 1 exactly on the missing cells and maturity of the k-th origin is the (n-k)-th development label.", "quantifier": "for every triangle built from records / every n x n staircase triangle", "why_tests_cant": "all sizes and gap patterns", "anchors": ["trikit/triangle.py::_BaseTriangle.triind", "trikit/triangle.py::_BaseTriangle.clvi", "trikit/triangle.py::_BaseTriangle.maturity"]}
{"id": "C19", "title": "Diagonals of a square triangle", "statement": "On an n x n staircase triangle diagonal(offset) with -n < offset <= 0 returns exactly the cells with origin position + dev position = n-1+offset, in origin order, each non-missing; |offset| >= n raises ValueError; diagonal(0) agrees with latest.", "quantifier": "for all n, all staircase triangles, all integer offsets", "why_tests_cant": "all sizes and offsets", "anchors": ["trikit/triangle.py::_BaseTriangle.diagonal"]}
{"id": "C20", "title": "Diagonal of a non-square triangle", "statement": "tri.diagonal(0) returns the latest diagonal for every triangle, also when the numbers of origins and development periods differ.", "quantifier": "for every triangle built from records", "why_tests_cant": "tests only use square triangles", "anchors": ["trikit/triangle.py::_BaseTriangle.diagonal"]}
{"id": "C21", "title": "Cached attributes never change the answer", "statement": "Reading the lazily computed attributes in any order and any number of times gives the same values as computing them afresh.", "quantifier": "for every triangle and every finite sequence of attribute reads", "why_tests_cant": "all interleavings of reads", "anchors": ["trikit/triangle.py::_BaseTriangle.triind", "trikit/triangle.py::_BaseTriangle.clvi", "trikit/triangle.py::_BaseTriangle.latest", "trikit/triangle.py::_BaseTriangle.maturity"]}
{"id": "C22", "title": "Age-to-age factors", "statement": "On a staircase triangle with nonzero cells tri.a2a has the first n-1 origins and the first n-1 development labels and its cell (i,j) is cell(i,j+1)/cell(i,j) when both are observed and NaN otherwise; multiplying a row's factors recovers the ratio of its latest to its first value.", "quantifier": "for all n >= 2 and all staircase triangles", "why_tests_cant": "all sizes and values", "anchors": ["trikit/triangle.py::_BaseCumTriangle.a2a"]}
{"id": "C23", "title": "Exclusion indicator behaves like a map", "statement": "tri.a2aind starts as 1 on observed and 0 on missing link ratios; after any sequence of assignments tri.a2aind = (origin, dev, v) with existing labels, each entry equals the value most recently assigned to it, or its initial value, and all other attributes are unaffected.", "quantifier": "for every triangle and every finite sequence of assignments", "why_tests_cant": "all histories", "anchors": ["trikit/triangle.py::_BaseCumTriangle.a2aind"]}
{"id": "C24", "title": "Simple averages", "statement": "Without exclusions on a staircase triangle of positive values, the 'simple-k' (resp. 'all-simple') entry of a2a_avgs() for a development period is the arithmetic mean of its last min(k, available) (resp. all) link ratios and lies between their minimum and maximum.", "quantifier": "for all n, all positive staircase triangles, all k and periods", "why_tests_cant": "all sizes, windows and values", "anchors": ["trikit/triangle.py::_BaseCumTriangle.a2a_avgs", "trikit/triangle.py::_BaseCumTriangle._simple"]}
{"id": "C25", "title": "Weighted averages", "statement": "Without exclusions on a staircase triangle of positive values, 'weighted-k' / 'all-weighted' equals sum of next-period values over sum of current-period values on the last min(k, available) / all origins observed in both, which is the value-weighted mean of the link ratios and lies between the smallest and largest of them.", "quantifier": "for all n, all positive staircase triangles, all k and periods", "why_tests_cant": "all sizes, windows and values", "anchors": ["trikit/triangle.py::_BaseCumTriangle.a2a_avgs"]}
{"id": "C26", "title": "Excluded link ratios do not influence averages", "statement": "If a link ratio is excluded through tri.a2aind = (origin, dev, 0), then no entry of a2a_avgs() depends on that link ratio.", "quantifier": "for every triangle, every excluded cell and every average type", "why_tests_cant": "needs all triangles and all averages", "anchors": ["trikit/triangle.py::_BaseCumTriangle.a2a_avgs", "trikit/triangle.py::_BaseCumTriangle.a2aind"]}
{"id": "C27", "title": "Averages exist under any exclusion", "statement": "a2a_avgs() and base_cl() return a result for every set of excluded link ratios that leaves at least one link ratio per development period.", "quantifier": "for every staircase triangle and every such exclusion set", "why_tests_cant": "exponentially many exclusion sets", "anchors": ["trikit/triangle.py::_BaseCumTriangle.a2a_avgs", "trikit/triangle.py::_BaseCumTriangle._medial"]}
{"id": "C28", "title": "Medial averages", "statement": "On link ratios the medial average removes every occurrence of the smallest and of the largest value and averages the rest when at least three values with something in between are present, is the plain mean for at most two values, and always lies between the minimum and the maximum of the values when it is a number.", "quantifier": "for every non-empty list of numbers", "why_tests_cant": "all lists with all tie patterns", "anchors": ["trikit/triangle.py::_BaseCumTriangle._medial"]}
{"id": "C29", "title": "Long windows equal the all-year average", "statement": "For each average type, an average over at least as many years as there are link ratios in that column equals the 'all-' average of that column.", "quantifier": "for all staircase triangles, columns and windows", "why_tests_cant": "all sizes and windows", "anchors": ["trikit/triangle.py::_BaseCumTriangle.a2a_avgs"]}
{"id": "C30", "title": "Cumulative development factors are tail products", "statement": "In base_cl results the cumulative factor of the j-th development period is the product of the selected factors of periods j..last and the tail, so cldf_j = ldf_j * cldf_{j+1} and the last one equals the tail.", "quantifier": "for every triangle for which base_cl returns, every selection and tail", "why_tests_cant": "all sizes, selections and tails", "anchors": ["trikit/estimators/base.py::BaseChainLadder._cldfs", "trikit/estimators/base.py::BaseChainLadder.__call__"]}
{"id": "C31", "title": "Ultimates, reserves and totals", "statement": "For every origin of a staircase triangle ultimate = latest * cldf(maturity), reserve = ultimate - latest, emergence = 1/cldf, and the total row holds the sums of latest, ultimate and reserve.", "quantifier": "for all n >= 3, all positive staircase triangles with evenly spaced development labels, all selections and tails", "why_tests_cant": "all sizes and values", "anchors": ["trikit/estimators/base.py::BaseChainLadder.__call__", "trikit/estimators/base.py::BaseChainLadder._ultimates", "trikit/estimators/base.py::BaseChainLadder._reserves"]}
{"id": "C32", "title": "Squared triangle keeps actuals and projects with the factors", "statement": "trisqrd equals the triangle on observed cells, every projected cell is the cell to its left times the factor of the left period, and its ultimate column equals the ultimates of the summary.", "quantifier": "for all n, staircase triangles and factors", "why_tests_cant": "all sizes and values", "anchors": ["trikit/estimators/base.py::BaseChainLadder._trisqrd", "trikit/estimators/base.py::BaseChainLadder.__call__"]}
{"id": "C33", "title": "Tail factor scales ultimates", "statement": "Changing tail from t1 to t2 multiplies every ultimate by t2/t1 and leaves the age-to-age selection unchanged.", "quantifier": "for all staircase triangles, selections and nonzero tails", "why_tests_cant": "all values", "anchors": ["trikit/estimators/base.py::BaseChainLadder.__call__", "trikit/estimators/base.py::BaseChainLadder._ldfs"]}
{"id": "C34", "title": "Scaling losses scales reserves", "statement": "Multiplying every cell of a positive cumulative triangle by c > 0 leaves all link ratios, averages and development factors unchanged and multiplies latest, ultimate, reserve and every projected cell by c.", "quantifier": "for all staircase triangles, all c > 0 and all selections", "why_tests_cant": "all values", "anchors": ["trikit/triangle.py::_BaseCumTriangle.a2a_avgs", "trikit/estimators/base.py::BaseChainLadder.__call__"]}
{"id": "C35", "title": "Factors at least one give non-negative reserves", "statement": "If all selected factors and the tail are >= 1 and latest values are non-negative then every reserve is >= 0 and cumulative factors decrease with maturity; if the triangle's rows are nondecreasing then all its simple, weighted and medial averages are >= 1.", "quantifier": "for all staircase triangles and selections", "why_tests_cant": "all sizes and values", "anchors": ["trikit/estimators/base.py::BaseChainLadder.__call__", "trikit/triangle.py::_BaseCumTriangle.a2a_avgs"]}
{"id": "C36", "title": "Fully developed origin has no reserve", "statement": "With tail 1 the oldest origin of a staircase triangle has cldf 1, ultimate = latest and reserve 0; with tail t its ultimate is latest * t.", "quantifier": "for all n and staircase triangles", "why_tests_cant": "all sizes and values", "anchors": ["trikit/estimators/base.py::BaseChainLadder.__call__"]}
{"id": "C37", "title": "User supplied factor arrays", "statement": "base_cl(sel=array) on a staircase triangle succeeds iff the array has one factor per development period but the last; the factors are then used in order followed by the tail; any other length raises ValueError.", "quantifier": "for every array of every length", "why_tests_cant": "all lengths", "anchors": ["trikit/estimators/base.py::BaseChainLadder.__call__"]}
{"id": "C38", "title": "User supplied factor Series", "statement": "base_cl(sel=Series) uses the factors of the Series without modifying the Series, so that repeating the call gives the same result.", "quantifier": "for every Series of the right length and every index", "why_tests_cant": "mutation and alignment depend on the index", "anchors": ["trikit/estimators/base.py::BaseChainLadder.__call__"]}
{"id": "C39", "title": "Irregularly spaced development labels", "statement": "base_cl reports cldf and emergence for every origin whatever the spacing of the development labels.", "quantifier": "for every staircase triangle with increasing labels", "why_tests_cant": "tests use consecutive labels", "anchors": ["trikit/estimators/base.py::BaseChainLadder._ldfs", "trikit/estimators/base.py::BaseChainLadder.__call__"]}
{"id": "C40", "title": "Exact chain-ladder data is reproduced", "statement": "If every row of a staircase triangle develops with the same positive factors f_j, then every average type returns f_j for every window, the projected triangle is the full product triangle, and deviations of the link ratios from the factors are zero.", "quantifier": "for all n, first-column values and factor sequences", "why_tests_cant": "all sizes and values", "anchors": ["trikit/triangle.py::_BaseCumTriangle.a2a_avgs", "trikit/estimators/base.py::BaseChainLadder.__call__"]}
{"id": "C41", "title": "Mack factors match the documented averages", "statement": "mack_cl(alpha=1) uses the same factors as base_cl(sel='all-weighted') and alpha=0 the same as sel='all-simple'; alpha=2 gives the least squares slope through the origin.", "quantifier": "for all n, all positive staircase triangles", "why_tests_cant": "all sizes and values", "anchors": ["trikit/estimators/mack.py::MackChainLadder._ldfs", "trikit/triangle.py::_BaseCumTriangle.a2a_avgs"]}
{"id": "C42", "title": "Mack factors are weighted least squares estimates", "statement": "For each period the Mack factor with weight exponent alpha minimises sum C^alpha (F - f)^2 over f, and the normal equation sum C^alpha (F - f) = 0 holds.", "quantifier": "for all positive staircase triangles, all alpha, all competing f", "why_tests_cant": "a minimum over all reals", "anchors": ["trikit/estimators/mack.py::MackChainLadder._ldfs"]}
{"id": "C43", "title": "Development period variances", "statement": "Mack's variance parameters are non-negative, zero exactly when all link ratios of the period coincide with the factor, and the last one obeys min(s_{n-2}^2/s_{n-3}, s_{n-2}, s_{n-3}); fewer than four development periods raise IndexError.", "quantifier": "for all staircase triangles with positive values", "why_tests_cant": "all sizes and values", "anchors": ["trikit/estimators/mack.py::MackChainLadder._devp_variance"]}
{"id": "C44", "title": "Mack process error formula", "statement": "The recursively computed process error of an origin equals sum over future periods k of C_k * sigma_k^2 * prod_{l>k} f_l^2 with C_k the projected values, and is non-negative.", "quantifier": "for all n, origins, factors and variances", "why_tests_cant": "closed form for all horizons needs induction", "anchors": ["trikit/estimators/mack.py::MackChainLadder._process_error"]}
{"id": "C45", "title": "Mack parameter error formula", "statement": "The recursively computed parameter error of an origin equals latest^2 * (prod (f_k^2 + v_k) - prod f_k^2) over its future periods and is non-negative.", "quantifier": "for all n, origins, factors and variances", "why_tests_cant": "closed form for all horizons needs induction", "anchors": ["trikit/estimators/mack.py::MackChainLadder._parameter_error"]}
{"id": "C46", "title": "Mack mean squared errors and total", "statement": "mse = process error + parameter error per origin, the oldest origin has standard error 0, and with positive factors, non-negative reserves and variances the total mean squared error is at least the sum of the origins' mean squared errors.", "quantifier": "for all staircase triangles with positive values", "why_tests_cant": "all sizes and values", "anchors": ["trikit/estimators/mack.py::MackChainLadder.__call__", "trikit/estimators/mack.py::MackChainLadder._mean_squared_error"]}
{"id": "C47", "title": "Standard errors vanish only when nothing varies", "statement": "If some link ratio deviates from its factor then mack_cl reports a positive total standard error.", "quantifier": "for all positive staircase triangles with n >= 4", "why_tests_cant": "the failure needs a specific degenerate pattern of zero variances in late periods", "anchors": ["trikit/estimators/mack.py::MackChainLadder._devp_variance", "trikit/estimators/mack.py::MackChainLadder.__call__"]}
{"id": "C48", "title": "Lognormal parameters match reserve moments", "statement": "With dist='lognorm', the lognormal distribution attached to an origin with reserve R >= 1 and standard error s has mean R and standard deviation s.", "quantifier": "for all reserves and standard errors", "why_tests_cant": "identity over all reals", "anchors": ["trikit/estimators/mack.py::MackChainLadder.__call__"]}
{"id": "C49", "title": "Mack quantiles are ordered", "statement": "get_quantiles(q) and the quantile columns of the summary are nondecreasing in q for each origin, and dist other than 'norm'/'lognorm' raises ValueError.", "quantifier": "for all q in [0,1], all reserves and standard errors", "why_tests_cant": "all pairs of quantiles", "anchors": ["trikit/estimators/mack.py::MackChainLadder.__call__", "trikit/estimators/mack.py::MackChainLadderResult.get_quantiles"]}
{"id": "C50", "title": "Mack point estimates equal base chain ladder", "statement": "mack_cl(alpha=1) has the same cldf, latest, ultimate and reserve columns (total included) and squared triangle as base_cl().", "quantifier": "for all positive staircase triangles without exclusions", "why_tests_cant": "all sizes and values", "anchors": ["trikit/estimators/mack.py::MackChainLadder.__call__", "trikit/estimators/base.py::BaseChainLadder.__call__"]}
{"id": "C51", "title": "Fitted triangle reproduces the latest diagonal and the factors", "statement": "The fitted cumulative triangle of boot_cl has the shape of the data, agrees with it on the latest diagonal and develops each row exactly with the all-weighted factors.", "quantifier": "for all n and positive staircase triangles", "why_tests_cant": "all sizes and values", "anchors": ["trikit/estimators/bootstrap.py::BootstrapChainLadder._tri_fit_cum"]}
{"id": "C52", "title": "Fitted triangle preserves marginal totals", "statement": "The fitted incremental triangle has the same row totals and the same column totals as the observed incremental triangle.", "quantifier": "for all n and positive staircase triangles", "why_tests_cant": "the column identity holds only through an induction over the all-weighted factors", "anchors": ["trikit/estimators/bootstrap.py::BootstrapChainLadder._tri_fit_cum", "trikit/estimators/bootstrap.py::BootstrapChainLadder._tri_fit_incr"]}
{"id": "C53", "title": "Residuals", "statement": "Unscaled residuals are (observed - fitted)/sqrt|fitted| on observed cells, adjusted ones a common multiple of them; the sampling distribution consists of adjusted residuals only, never contains 0 or a missing value and never uses the last origin or last development period; the scale parameter is the sum of squares over the degrees of freedom.", "quantifier": "for all positive staircase triangles", "why_tests_cant": "all sizes and values", "anchors": ["trikit/estimators/bootstrap.py::BootstrapChainLadder._resid_us", "trikit/estimators/bootstrap.py::BootstrapChainLadder._resid_adj", "trikit/estimators/bootstrap.py::BootstrapChainLadder._sampling_dist", "trikit/estimators/bootstrap.py::BootstrapChainLadder._scale_param"]}
{"id": "C54", "title": "Degrees of freedom", "statement": "Bootstrap degrees of freedom equal the number of observed cells minus the number of fitted parameters (origins + development periods - 1).", "quantifier": "for every staircase triangle", "why_tests_cant": "formula over all sizes; tests do not touch it", "anchors": ["trikit/estimators/bootstrap.py::BootstrapChainLadder.dof"]}
{"id": "C55", "title": "Bootstrap sample with zero residuals reproduces the fit", "statement": "If all resampled residuals are 0 then every simulated cumulative triangle equals the fitted one, its development factors equal the all-weighted factors and its forecasts equal the base chain ladder projection.", "quantifier": "for all positive staircase triangles with positive fitted increments and any number of simulations", "why_tests_cant": "all sizes", "anchors": ["trikit/estimators/bootstrap.py::BootstrapChainLadder._bs_samples", "trikit/estimators/bootstrap.py::BootstrapChainLadder._bs_ldfs", "trikit/estimators/bootstrap.py::BootstrapChainLadder._bs_forecasts"]}
{"id": "C56", "title": "Simulations do not influence each other", "statement": "The factors, forecasts and reserves of simulation s are functions of the residuals drawn for simulation s only.", "quantifier": "for every number of simulations, every triangle and all residual draws", "why_tests_cant": "the implementation works on one flattened table with global shifts; independence must hold for all draws", "anchors": ["trikit/estimators/bootstrap.py::BootstrapChainLadder._bs_ldfs", "trikit/estimators/bootstrap.py::BootstrapChainLadder._bs_forecasts"]}
{"id": "C57", "title": "Process error only touches forecasts", "statement": "Applying process error leaves increments of observed periods unchanged, keeps the sign of each forecast increment, and each simulated reserve is the sum of that origin's forecast increments.", "quantifier": "for all simulations and all non-negative gamma draws", "why_tests_cant": "all random draws", "anchors": ["trikit/estimators/bootstrap.py::BootstrapChainLadder._bs_process_error", "trikit/estimators/bootstrap.py::BootstrapChainLadder._bs_reserves"]}
{"id": "C58", "title": "Bootstrap does not depend on development labels", "statement": "Relabelling the development periods by an increasing map leaves bootstrap reserves unchanged.", "quantifier": "for every triangle and every increasing relabelling", "why_tests_cant": "tests only use data whose first development label is 1", "anchors": ["trikit/estimators/bootstrap.py::BootstrapChainLadder._bs_forecasts"]}
{"id": "C59", "title": "Reproducibility with an integer seed", "statement": "With an integer random_state, boot_cl is a function of its arguments: repeated calls give identical results regardless of what other random numbers were drawn in between, and a non-int, non-RandomState, non-None value raises instead of silently using an unseeded generator.", "quantifier": "for all seeds, triangles and histories of generator use", "why_tests_cant": "all histories", "anchors": ["trikit/estimators/bootstrap.py::BootstrapChainLadder._bs_samples", "trikit/estimators/bootstrap.py::BootstrapChainLadder._bs_process_error"]}
{"id": "C60", "title": "Oldest origin has zero bootstrap reserve", "statement": "In every simulation the oldest origin has reserve 0 and its reported ultimate is its latest value.", "quantifier": "for all simulations and all draws", "why_tests_cant": "all random draws", "anchors": ["trikit/estimators/bootstrap.py::BootstrapChainLadder._bs_reserves", "trikit/estimators/bootstrap.py::BootstrapChainLadder.__call__"]}
{"id": "C61", "title": "Quantile argument normalisation", "statement": "The quantiles used are the requested ones, sorted and without duplicates; two_sided replaces q by the symmetric pair (1-q)/2,(1+q)/2; they stay within [0,1]; any value outside [0,1] (or NaN) raises ValueError.", "quantifier": "for every list of requested quantiles", "why_tests_cant": "all lists", "anchors": ["trikit/estimators/base.py::BaseRangeEstimator._qtls_formatter", "trikit/estimators/base.py::BaseRangeEstimatorResult._qtls_formatter"]}
{"id": "C62", "title": "Quantile headers", "statement": "The header produced for a whole percentage p is p followed by the correct English ordinal suffix (11th, 12th, 13th, 21st ...), and different headers are produced for quantiles that differ by at least 0.0000001.", "quantifier": "for all whole percentages / all quantiles with at most seven decimals", "why_tests_cant": "tests look at a handful of headers", "anchors": ["trikit/estimators/base.py::BaseRangeEstimatorResult._qtls_formatter", "trikit/estimators/base.py::BaseRangeEstimator._qtls_formatter"]}
{"id": "C63", "title": "Bootstrap quantiles are monotone and within the sample", "statement": "For each interpolation method the reported quantile lies between the smallest and largest simulated reserve, equals them at q=0 and q=1 and does not decrease when q increases; with lb given every reported value is >= lb and values >= lb are unchanged.", "quantifier": "for all samples, all q and all interpolation methods", "why_tests_cant": "all samples and pairs q1 <= q2", "anchors": ["trikit/estimators/bootstrap.py::BootstrapChainLadderResult.get_quantiles", "trikit/estimators/bootstrap.py::BootstrapChainLadder.__call__"]}
{"id": "C64", "title": "Rank correlation coefficients are correlations", "statement": "Each rank correlation T_k used by devp_corr_test lies in [-1,1], and so does the weighted total.", "quantifier": "for all positive staircase triangles with n >= 4, ties included", "why_tests_cant": "all triangles and tie patterns", "anchors": ["trikit/estimators/mack.py::MackChainLadderResult._spearman_corr_coeffs", "trikit/estimators/mack.py::MackChainLadderResult._spearman_corr_total", "trikit/triangle.py::_BaseCumTriangle.ranked_a2a"]}
{"id": "C65", "title": "Calendar year test moments", "statement": "The expectation and variance used by cy_effects_test for a diagonal with n counted elements are the exact mean and variance of min(S, n-S) for S binomial(n, 1/2).", "quantifier": "for every n >= 1", "why_tests_cant": "identity for all n", "anchors": ["trikit/estimators/mack.py::MackChainLadderResult._cy_effects_table"]}
{"id": "C66", "title": "Link ratio assignment", "statement": "Every observed link ratio is assigned exactly one of -1, 0, 1; 1 only if it is above and -1 only if below the column median, the median itself gets 0; missing ones get nothing.", "quantifier": "for all triangles", "why_tests_cant": "all triangles", "anchors": ["trikit/triangle.py::_BaseCumTriangle.a2a_assignment"]}
{"id": "C67", "title": "load_lrdb filters", "statement": "load_lrdb returns exactly the rows matching all given filters (lob, grcode, grname, training indicator) in file order with the loss column chosen by loss_type, raises ValueError iff a given filter value does not occur among the rows left by the previous filters or an argument is invalid.", "quantifier": "for every table content and every argument combination", "why_tests_cant": "all tables and arguments", "anchors": ["trikit/utils.py::_load_lrdb"]}
{"id": "C68", "title": "get_datasets", "statement": "get_datasets lists each available dataset except the loss reserving database exactly once in alphabetical order; load accepts exactly the known names and raises KeyError otherwise.", "quantifier": "for every dataset registry and every name", "why_tests_cant": "all registries", "anchors": ["trikit/utils.py::_get_datasets", "trikit/utils.py::_load"]}
{"id": "C69", "title": "Axis ticks", "statement": "For 1 < x < 10^10 not a power of ten the y-axis tick computation returns five equally spaced ticks from 0 to an upper limit strictly above x and at most 10 times the leading power of ten; for x <= 1 it raises.", "quantifier": "for all x", "why_tests_cant": "all magnitudes", "anchors": ["trikit/estimators/base.py::BaseChainLadderResult._get_yticks"]}
{"id": "C70", "title": "Geometric averages", "statement": "The geometric average over the last k link ratios of a period is the positive number whose k-th power is their product; it lies between the smallest and the largest of them and never exceeds the simple average of the same window.", "quantifier": "for all positive staircase triangles over the reals, all windows and periods", "why_tests_cant": "all triangles and windows, exact arithmetic", "anchors": ["trikit/triangle.py::_BaseCumTriangle._geometric", "trikit/triangle.py::_BaseCumTriangle.a2a_avgs"]}
{"id": "C71", "title": "base_cl returns on every staircase", "statement": "base_cl returns for every positive staircase triangle with at least two origins and every average listed in a2a_avgs.", "quantifier": "for all n >= 2, positive staircase triangles, average types and windows", "why_tests_cant": "all sizes and values", "anchors": ["trikit/estimators/base.py::BaseChainLadder.__call__", "trikit/estimators/base.py::BaseChainLadder._ldfs"]}
{"id": "C72", "title": "boot_cl returns on every staircase", "statement": "boot_cl returns for every positive staircase triangle with at least three origins whatever its amounts are, for any seed and number of simulations.", "quantifier": "for all positive staircase triangles and all random generators", "why_tests_cant": "degenerate triangles (exactly fitted by the chain ladder) are not in the shipped datasets", "anchors": ["trikit/estimators/bootstrap.py::BootstrapChainLadder.__call__", "trikit/estimators/bootstrap.py::BootstrapChainLadder._sampling_dist", "trikit/estimators/bootstrap.py::BootstrapChainLadder._bs_samples"]}
{"id": "C73", "title": "An integer seed stands for its generator", "statement": "boot_cl(random_state=k) and boot_cl(random_state=RandomState(k)) draw the same random numbers and give the same results.", "quantifier": "for all staircase triangles, generators and seeds", "why_tests_cant": "all generators", "anchors": ["trikit/estimators/bootstrap.py::BootstrapChainLadder.__call__", "trikit/estimators/bootstrap.py::BootstrapChainLadder._bs_samples", "trikit/estimators/bootstrap.py::BootstrapChainLadder._bs_process_error"]}
{"id": "C74", "title": "Residuals are finite", "statement": "Every residual offered for resampling by boot_cl on a positive staircase triangle is a finite number.", "quantifier": "for all positive staircase triangles", "why_tests_cant": "needs a fitted increment that vanishes", "anchors": ["trikit/estimators/bootstrap.py::BootstrapChainLadder._resid_us", "trikit/estimators/bootstrap.py::BootstrapChainLadder._resid_adj", "trikit/estimators/bootstrap.py::BootstrapChainLadder._sampling_dist"]}
{"id": "C75", "title": "High and low link ratios", "statement": "Link ratios in excess of the median of their development period are assigned +1, those less than the median -1, and only the median itself 0.", "quantifier": "for all triangles", "why_tests_cant": "differences below the comparison tolerance", "anchors": ["trikit/triangle.py::_BaseCumTriangle.a2a_assignment"]}
{"id": "C76", "title": "Calendar year counts", "statement": "The table behind cy_effects_test has one row per calendar year diagonal j = 2..n-1; its S and L are the numbers of low and high link ratios on that diagonal, Z their minimum, n their sum, and E_Z, V_Z the exact moments of Z under the null hypothesis.", "quantifier": "for all staircase triangles without zero values", "why_tests_cant": "all triangles and sizes", "anchors": ["trikit/estimators/mack.py::MackChainLadderResult._cy_effects_table", "trikit/triangle.py::_BaseCumTriangle.a2a_lvi"]}
{"id": "C77", "title": "Labels do not matter to the calendar year test", "statement": "Renaming origins and development periods by increasing labels does not change the calendar year table.", "quantifier": "for all staircase triangles and all increasing labels", "why_tests_cant": "all label choices", "anchors": ["trikit/estimators/mack.py::MackChainLadderResult._cy_effects_table"]}
{"id": "C78", "title": "Standardized residuals have no unit", "statement": "The standardized residuals of the Mack model are predicted minus actual amounts divided by their standard deviation; expressing the triangle in another currency unit leaves them unchanged.", "quantifier": "for all staircase triangles and all positive scale factors", "why_tests_cant": "all scales", "anchors": ["trikit/estimators/mack.py::MackChainLadderResult._residuals_by_devp"]}
{"id": "C79", "title": "Constructors leave the caller's data unchanged", "statement": "Building IncrTriangle(data) or CumTriangle(data) does not modify the DataFrame passed in.", "quantifier": "for every table", "why_tests_cant": "in-place assignments on every path", "anchors": ["trikit/triangle.py::_BaseTriangle.__init__", "trikit/triangle.py::_BaseTriangle._neg_handler", "trikit/triangle.py::_BaseCumTriangle.__init__"]}
{"id": "C80", "title": "Column names are ignored for triangle-shaped data", "statement": "When data_shape='triangle' the arguments origin, dev and value of totri are ignored (as documented): the result does not depend on them.", "quantifier": "for every triangle-shaped frame and all names", "why_tests_cant": "all names", "anchors": ["trikit/triangle.py::totri"]}
{"id": "C81", "title": "Other columns do not matter", "statement": "Columns of the table other than the three named ones have no influence on the result of totri.", "quantifier": "for every table, every further column and all arguments", "why_tests_cant": "all column names", "anchors": ["trikit/triangle.py::totri"]}
{"id": "C82", "title": "Listed data can be loaded", "statement": "get_lrdb_lobs and get_lrdb_specs list, once each and in order, exactly the lines of business and the combinations of line of business, company code and company name that load_lrdb accepts.", "quantifier": "for every content of the loss reserving database", "why_tests_cant": "all databases", "anchors": ["trikit/utils.py::_get_lrdb_lobs", "trikit/utils.py::_get_lrdb_specs", "trikit/utils.py::_load_lrdb"]}
{"id": "C83", "title": "Plot data has one point per cell", "statement": "The table behind the plots holds one actual point per observed cell and, per origin, one forecast point per period from the latest observation on and one for the ultimate at a later development label; reserves are losses less the latest value.", "quantifier": "for all staircase triangles, all labels, all factor choices and tails", "why_tests_cant": "all labels", "anchors": ["trikit/estimators/base.py::BaseChainLadderResult._data_transform"]}
{"id": "C84", "title": "Totals of the plot data cover all origins", "statement": "The rows \"total\" of the table behind the plots are the sums over all origins of the (squared) triangle, for every development period and the ultimate.", "quantifier": "for all staircase triangles and all development periods", "why_tests_cant": "all sizes", "anchors": ["trikit/estimators/base.py::BaseChainLadderResult._data_transform"]}
{"id": "C85", "title": "Reported bootstrap reserve is the mean of the simulated ones", "statement": "The reserve in the bootstrap summary is, for every origin, the mean of the simulated reserves of that origin.", "quantifier": "for all staircase triangles, all numbers of simulations and all draws", "why_tests_cant": "depends on random draws", "anchors": ["trikit/estimators/bootstrap.py::BootstrapChainLadder.__call__", "trikit/estimators/bootstrap.py::BootstrapChainLadder._bs_reserves"]}
{"id": "C86", "title": "Residuals by origin are the residuals by period", "statement": "Listing the Mack residuals by origin and by development period gives the same residuals, one for each pair of consecutive observations.", "quantifier": "for all staircase triangles, labels, weights and alpha", "why_tests_cant": "all sizes and labels", "anchors": ["trikit/estimators/mack.py::MackChainLadderResult._residuals_by_devp", "trikit/estimators/mack.py::MackChainLadderResult._residuals_by_origin"]}
{"id": "C87", "title": "Correlation test interval", "statement": "The interval of the development period correlation test is symmetric about 0, has under the normal law with Mack's variance 1/((I-2)(I-3)/2) exactly the probability asked for, and does not depend on the random starting point of the root search; the statistic lies in [-1, 1].", "quantifier": "for all staircase triangles with at least four periods and all probabilities", "why_tests_cant": "all probabilities; the starting point is random", "anchors": ["trikit/estimators/mack.py::MackChainLadderResult.devp_corr_test"]}
{"id": "C88", "title": "Calendar year test interval", "statement": "The interval of the calendar year test is centered at the sum of the expected values of the diagonals, has probability 1 - p under the normal law with the summed variances, is wider for smaller p, and its totals are finite with non-negative variance.", "quantifier": "for all staircase triangles and all probabilities", "why_tests_cant": "all probabilities", "anchors": ["trikit/estimators/mack.py::MackChainLadderResult.cy_effects_test"]}
{"id": "C89", "title": "Bootstrap totals", "statement": "In every simulation each origin has exactly one reserve, the total is their sum, and the mean of the totals is the sum of the mean reserves.", "quantifier": "for all staircase triangles, numbers of simulations and draws", "why_tests_cant": "depends on random draws", "anchors": ["trikit/estimators/bootstrap.py::BootstrapChainLadder._bs_reserves"]}
{"id": "C90", "title": "From records to the staircase", "statement": "A table with exactly one amount per cell of a staircase becomes exactly that staircase: rows and columns are the sorted origins and periods, observed cells hold the amounts (or their running totals for a cumulative triangle), all other cells are NaN.", "quantifier": "for all amounts with positive first period, all labels and sizes, and every row order (rows of an origin by period when running totals are taken)", "why_tests_cant": "all sizes and row orders", "anchors": ["trikit/triangle.py::_BaseTriangle.__init__", "trikit/triangle.py::_BaseCumTriangle.__init__", "trikit/triangle.py::totri"]}
{"id": "C91", "title": "From records to reserves", "statement": "totri(data).base_cl() and .mack_cl() return, per origin and in total, the chain ladder latest amounts, ultimates and reserves computed directly from the records: the total of the origin times the remaining volume weighted factors.", "quantifier": "for all tables with one amount per staircase cell, positive running totals, evenly spaced periods, of any size (three periods, four for Mack)", "why_tests_cant": "all sizes, labels and row orders", "anchors": ["trikit/triangle.py::totri", "trikit/triangle.py::CumTriangle.base_cl", "trikit/estimators/base.py::BaseChainLadder.__call__", "trikit/estimators/mack.py::MackChainLadder.__call__"]}
{"id": "C92", "title": "Mack errors scale with the currency", "statement": "Expressing all losses in another currency (multiplying by a positive constant) multiplies ultimates, reserves and standard errors by it and leaves factors and coefficients of variation unchanged.", "quantifier": "for all staircase triangles, positive constants, weights and alpha in {0, 1, 2}", "why_tests_cant": "all constants and alphas", "anchors": ["trikit/estimators/mack.py::MackChainLadder.__call__", "trikit/estimators/mack.py::MackChainLadder._process_error", "trikit/estimators/mack.py::MackChainLadder._parameter_error"]}
{"id": "C93", "title": "Mack quantiles scale with the currency", "statement": "Expressing all losses in another currency multiplies the quantiles of every reserve by the constant, for both distributions.", "quantifier": "for all staircase triangles, positive constants, probabilities and distributions", "why_tests_cant": "all constants", "anchors": ["trikit/estimators/mack.py::MackChainLadder.__call__", "trikit/estimators/mack.py::MackChainLadderResult.get_quantiles"]}
{"id": "C94", "title": "Process error follows the model of the chosen alpha", "statement": "The process error of an origin is the variance that the recursion of Mack's model Var(C[k+1] | C[k]) = sigma2[k] * C[k]^(2-alpha) gives, started at the latest observation, with the estimated factors and variances.", "quantifier": "for all staircase triangles and alpha in {0, 1, 2}", "why_tests_cant": "all alphas", "anchors": ["trikit/estimators/mack.py::MackChainLadder._process_error"]}
{"id": "C95", "title": "Total error uses the reported factor variances", "statement": "The covariance part of the total mean squared error is built with the same factor variances as the parameter error of the single origins.", "quantifier": "for all staircase triangles, alpha in {0, 1, 2} and all exclusions", "why_tests_cant": "all alphas and exclusions", "anchors": ["trikit/estimators/mack.py::MackChainLadder.__call__", "trikit/estimators/mack.py::MackChainLadder._ldf_variance"]}
{"id": "C96", "title": "Excluded link ratios reduce the degrees of freedom", "statement": "The variance estimate of a period divides the weighted squared deviations of the link ratios kept by their number less one.", "quantifier": "for all staircase triangles, exclusions and alpha", "why_tests_cant": "all exclusions", "anchors": ["trikit/estimators/mack.py::MackChainLadder._devp_variance"]}
{"id": "C97", "title": "Origin labels do not matter", "statement": "Renumbering the origins without changing their order leaves every factor, reserve, error and simulated value unchanged; the results carry the new numbers, or the same exception is raised.", "quantifier": "for all triangles, staircase or not, all strictly increasing renumberings, selections, exclusions, alphas, seeds and generators", "why_tests_cant": "all renumberings and all triangles", "anchors": ["trikit/estimators/mack.py::MackChainLadder.__call__", "trikit/estimators/base.py::BaseChainLadder.__call__", "trikit/estimators/bootstrap.py::BootstrapChainLadder.__call__"]}
{"id": "C98", "title": "The unit of the development labels does not matter", "statement": "Counting development periods in another unit or from another start leaves every factor, reserve and error of base_cl and mack_cl unchanged; the results carry the converted periods, or the same exception is raised.", "quantifier": "for all triangles, staircase or not, all conversions x -> a*x + b with a > 0, selections, exclusions and alphas", "why_tests_cant": "all conversions and all triangles", "anchors": ["trikit/estimators/mack.py::MackChainLadder.__call__", "trikit/estimators/base.py::BaseChainLadder.__call__"]}
{"id": "C99", "title": "Higher latest values never lower an ultimate", "statement": "If some values of the latest diagonal are raised and all other values are kept, no ultimate and no total falls, and the ultimate of each origin whose own latest value is raised rises.", "quantifier": "for all positive staircase triangles; mack_cl with every alpha and all exclusions; base_cl with the averages over all years and any positive tail", "why_tests_cant": "relates the estimates of two triangles, all sizes and values", "anchors": ["trikit/estimators/mack.py::MackChainLadder.__call__", "trikit/estimators/base.py::BaseChainLadder.__call__"]}
{"id": "C100", "title": "Development as expected leaves the ultimates unchanged", "statement": "If every origin develops by exactly the factors of the last estimate, the estimate one period later has the same factors and the same ultimates, whatever the new origin is.", "quantifier": "for all positive staircase triangles; mack_cl with every alpha and all exclusions; base_cl with the averages over all years and any positive tail", "why_tests_cant": "relates the estimates of two successive evaluations, all sizes and values", "anchors": ["trikit/estimators/mack.py::MackChainLadder.__call__", "trikit/estimators/base.py::BaseChainLadder.__call__"]}
{"id": "C101", "title": "An estimate of an origin uses only itself and older origins", "statement": "Changing losses or exclusions of younger origins changes neither the ultimate nor the reserve of an origin; from the third origin on it changes no error either.", "quantifier": "for all positive staircase triangles; mack_cl with every alpha and all exclusions; base_cl with the averages over all years and any tail", "why_tests_cant": "relates the estimates of two triangles, all sizes and values", "anchors": ["trikit/estimators/mack.py::MackChainLadder.__call__", "trikit/estimators/base.py::BaseChainLadder.__call__"]}
{"id": "C102", "title": "Quantile columns agree with get_quantiles", "statement": "Every quantile column of the summary holds the values get_quantiles returns for that level and the interpolation of the run; an empty list of levels gives a summary without such columns while get_quantiles raises.", "quantifier": "for all lists of simulated reserves, all levels, one- and two-sided, all interpolations; for mack_cl for all positive staircase triangles", "why_tests_cant": "all levels and all simulated reserves", "anchors": ["trikit/estimators/bootstrap.py::BootstrapChainLadder.__call__", "trikit/estimators/bootstrap.py::BootstrapChainLadderResult.get_quantiles", "trikit/estimators/mack.py::MackChainLadder.__call__", "trikit/estimators/mack.py::MackChainLadderResult.get_quantiles"]}
{"id": "C103", "title": "Bootstrap estimates do not depend on the currency", "statement": "Multiplying all amounts by a positive factor multiplies the scale parameter and all fitted and simulated amounts, ultimates, reserves and standard errors by it, leaves the factors unchanged and multiplies residuals by its square root.", "quantifier": "for all positive staircase triangles with weighted factors of at least 1 and a finite pool of residuals, all positive multipliers, numbers of simulations, seeds and generators whose process errors scale with the amounts", "why_tests_cant": "relates the results of two triangles for every factor", "anchors": ["trikit/estimators/bootstrap.py::BootstrapChainLadder.__call__"]}
{"id": "C104", "title": "In the bootstrap the youngest origin does not influence the others", "statement": "With the same draws, changing the value of the youngest origin changes neither the fitted nor any simulated amount of the other origins, and no residual.", "quantifier": "for all positive staircase triangles (simulations: with weighted factors of at least 1), numbers of simulations, finite draws and process errors drawn cell by cell", "why_tests_cant": "relates the results of two triangles, all sizes and draws", "anchors": ["trikit/estimators/bootstrap.py::BootstrapChainLadder.__call__"]}
{"id": "C105", "title": "reserve_dist and origin_dist list the same simulations", "statement": "reserve_dist lists the amounts of every origin and simulation, then one total per simulation that is their sum; origin_dist has the same rows ordered by simulation, origins ascending and the total last; in every row the reserve is the ultimate less the latest value.", "quantifier": "for all staircase triangles without negative fitted increments after the first period, numbers of simulations and finite draws", "why_tests_cant": "all sizes, draws and numbers of simulations", "anchors": ["trikit/estimators/bootstrap.py::BootstrapChainLadder.__call__", "trikit/estimators/bootstrap.py::BootstrapChainLadderResult.origin_dist"]}
{"id": "C106", "title": "Histogram panels carry the right labels", "statement": "hist draws one panel per origin and one for the total; each panel is labelled with the origin whose reserves it shows, and its median line is at the median of these reserves (0 if negative) and inside the axis.", "quantifier": "for all staircase triangles without negative fitted increments after the first period, numbers of simulations and finite draws", "why_tests_cant": "panels and labels are ordered by different rules; all sizes and draws", "anchors": ["trikit/estimators/bootstrap.py::BootstrapChainLadderResult.hist"]}
{"id": "C107", "title": "Density curves of Mack reserves", "statement": "The plotted points of an origin (or the total) with positive standard error and, for the lognormal, positive reserve are 100 equally spaced points from the .1 % to the 99.9 % quantile with positive heights equal to the density of the reported distribution; all others, the oldest origin among them, have no points.", "quantifier": "for all positive staircase triangles, exclusions, alphas and both distributions", "why_tests_cant": "all triangles; real-valued densities", "anchors": ["trikit/estimators/mack.py::MackChainLadderResult._mack_data_transform"]}
{"id": "C108", "title": "The bootstrap summary follows from the simulated reserves", "statement": "In the summary of boot_cl maturities, factors and latest values are those of base_cl; the ultimate is the mean of the simulated ultimates (the latest value for the oldest origin), the reserve is the ultimate less the latest value, the standard error is the sample standard deviation of the simulated reserves, cv is their quotient; the total adds the columns and takes its standard error from the totals of the simulations.", "quantifier": "for all positive staircase triangles without negative fitted increments after the first period and with finite residuals, numbers of simulations from 2, seeds and generators", "why_tests_cant": "joins several tables by label; all sizes, draws and numbers of simulations", "anchors": ["trikit/estimators/bootstrap.py::BootstrapChainLadder.__call__", "trikit/estimators/bootstrap.py::BootstrapChainLadder._bs_std_error"]}
{"id": "C109", "title": "Standard error of the total Mack reserve against those of the origins", "statement": "The standard error of the total reserve is at most the sum of the standard errors of the origins and at least the root of the sum of their squares.", "quantifier": "for all positive staircase triangles, alphas and exclusions", "why_tests_cant": "an inequality between nested sums for all sizes and values", "anchors": ["trikit/estimators/mack.py::MackChainLadder._mean_squared_error", "trikit/estimators/mack.py::MackChainLadder.__call__"]}
{"id": "C110", "title": "Standard error of the total bootstrap reserve against those of the origins", "statement": "The standard error of the total is at most the sum of the standard errors of the origins, and none is negative or missing.", "quantifier": "for all positive staircase triangles without negative fitted increments after the first period and with finite residuals, numbers of simulations from 2, seeds and generators", "why_tests_cant": "an inequality between standard deviations for all draws", "anchors": ["trikit/estimators/bootstrap.py::BootstrapChainLadder._bs_std_error"]}
{"id": "C111", "title": "The development plot shows the triangle", "statement": "The combined view of a cumulative triangle draws one line per origin, labelled with it, through exactly its non-missing cells in order of development; the ticks are the development labels.", "quantifier": "for all non-empty tables without infinite values and all column names", "why_tests_cant": "all tables, gaps and column names", "anchors": ["trikit/triangle.py::CumTriangle._combined_view", "trikit/triangle.py::_BaseTriangle.to_tbl"]}
{"id": "C112", "title": "Process error has the documented mean and variance", "statement": "A process error draw replaces a forecast increment x by a value with mean x and variance |x| times the scale parameter; the degrees of freedom are positive and the shapes and scale handed to the gamma generator are never negative; the scale is positive whenever there is a residual to sample from.", "quantifier": "for all triangles without infinite values, all residuals, samples and factors", "why_tests_cant": "a statement about probability laws for all triangles and draws", "anchors": ["trikit/estimators/bootstrap.py::BootstrapChainLadder._bs_process_error", "trikit/estimators/bootstrap.py::BootstrapChainLadder._scale_param", "trikit/estimators/bootstrap.py::BootstrapChainLadder.dof"]}
{"id": "C113", "title": "Process error adds variance but no bias to reserves", "statement": "Over the process error draws the mean of a simulated reserve is the reserve of the same simulation without process error, and with independent draws its variance is the scale parameter times the sum of the absolute forecast increments of the origin.", "quantifier": "for all staircase triangles without negative fitted increments after the first period, any labels, all finite residuals and positive scales", "why_tests_cant": "a statement about probability laws for all sizes and residuals", "anchors": ["trikit/estimators/bootstrap.py::BootstrapChainLadder._bs_process_error", "trikit/estimators/bootstrap.py::BootstrapChainLadder._bs_reserves"]}
{"id": "C114", "title": "Mack factors are unbiased with the variance of the model", "statement": "Given a period, when the next values of the origins are independent with mean f C and variance s^2 C^(2-alpha), the estimated factor has mean f and variance s^2 over the sum of C^alpha over the kept origins.", "quantifier": "for all random positive staircase triangles that follow the model, all alphas and exclusions of link ratios that keep one in every period", "why_tests_cant": "a statement about expectations for all probability laws and sizes", "anchors": ["trikit/estimators/mack.py::MackChainLadder._ldfs"]}
{"id": "C115", "title": "Mack variance estimates are unbiased", "statement": "Under the same model the estimated variance parameter of every period but the last has mean s^2, and the estimated variance of the factor has as mean the variance of the factor.", "quantifier": "for all random positive staircase triangles that follow the model, all alphas and exclusions of link ratios that keep one in every period", "why_tests_cant": "a statement about expectations for all probability laws and sizes", "anchors": ["trikit/estimators/mack.py::MackChainLadder._devp_variance", "trikit/estimators/mack.py::MackChainLadder._ldf_variance"]}
{"id": "C116", "title": "Mack factors of different periods are uncorrelated", "statement": "When the claims of every origin develop on average by the factor of the period, whatever happened before, each estimated factor has the mean of its parameter, factors of different periods are uncorrelated, and each cumulative factor has as mean the product of the parameters still to come.", "quantifier": "for all random positive staircase triangles that follow the assumption, all alphas and exclusions of link ratios that keep one in every period", "why_tests_cant": "a statement about conditional expectations for all probability laws and sizes", "anchors": ["trikit/estimators/mack.py::MackChainLadder._ldfs", "trikit/estimators/mack.py::MackChainLadder.__call__"]}
{"id": "C117", "title": "Chain ladder ultimates are unbiased predictors", "statement": "Under the same assumption the ultimate of every origin has, given all that is known in its latest period, the same mean as the claims that finally emerge; the reserve and the total ultimate are unbiased too.", "quantifier": "for all random positive staircase triangles that follow the assumption, base_cl with all-simple and all-weighted averages, mack_cl with all alphas and exclusions", "why_tests_cant": "a statement about conditional expectations for all probability laws and sizes", "anchors": ["trikit/estimators/base.py::BaseChainLadder._ultimates", "trikit/estimators/mack.py::MackChainLadder.__call__"]}
{"id": "C118", "title": "Mean and variance of resampled increments", "statement": "A resampled increment of an observed cell has mean a + mu sqrt(a) and variance tau a, where a is the fitted increment (1 when a first increment is negative) and mu, tau are the mean and variance of the residuals drawn; cumulative samples are sums of independent such increments. Parametric residuals have mean 0, so parametric samples are centred at the fitted triangle.", "quantifier": "for all staircases of fitted increments that are not negative after the first period, all lists of residuals and numbers of simulations", "why_tests_cant": "a statement about probability laws for all sizes and residuals", "anchors": ["trikit/estimators/bootstrap.py::BootstrapChainLadder._bs_samples", "trikit/estimators/bootstrap.py::BootstrapChainLadder._sampling_dist"]}
{"id": "C119", "title": "Residual statistics", "statement": "The table of a resampling run has size, sum, sum of squares, extremes, mean, skewness, mode (the smallest of the most frequent values), variation, kurtosis, variance, standard deviation and median of the non-zero unscaled and adjusted residuals. The adjusted column is the unscaled one scaled by sqrt(cells / dof), so skewness, variation and kurtosis agree; the sum of squares over dof is the scale parameter.", "quantifier": "for all triangles for which the fit succeeds, without infinite residuals and with a residual that is not zero", "why_tests_cant": "no test calls the property; it raises with the pinned scipy, and the relations hold for all lists of residuals", "anchors": ["trikit/estimators/bootstrap.py::BootstrapChainLadderResult.residuals_detail", "trikit/estimators/bootstrap.py::BootstrapChainLadder._resid_adj", "trikit/estimators/bootstrap.py::BootstrapChainLadder._scale_param"]}
{"id": "C120", "title": "Process error is the variance of the ultimate", "statement": "If the claims of an origin develop from its latest value on as Mack's model says (given the past, the next value has mean f C and variance s C^(2-alpha)), with the reported factors f and variances s, then the reported ultimate is the mean of its last value and the reported process error is its variance.", "quantifier": "for all positive staircase triangles, alphas, exclusion weights and probability laws of the claims", "why_tests_cant": "a statement about all probability laws; numeric tests compare with fixed numbers for alpha 1 only", "anchors": ["trikit/estimators/mack.py::MackChainLadder._process_error", "trikit/estimators/mack.py::MackChainLadder._devp_variance"]}
{"id": "C121", "title": "Parameter error is the variance of the projection", "statement": "If the true factors are independent, with the reported factors as means and the reported factor variances, the ultimate projected with them has the reported ultimate as mean and the reported parameter error as variance.", "quantifier": "for all positive staircase triangles, alphas, exclusion weights and probability laws of the factors", "why_tests_cant": "a statement about all probability laws and sizes", "anchors": ["trikit/estimators/mack.py::MackChainLadder._parameter_error", "trikit/estimators/mack.py::MackChainLadder._ldf_variance"]}
{"id": "C122", "title": "Mean squared errors are mean squared distances", "statement": "Under both assumptions, with independent origins, the reported mean squared error of an origin is the mean squared distance of its ultimate and its prediction, and the total is that of the sums.", "quantifier": "for all positive staircase triangles, exclusion weights and probability laws of claims and factors", "why_tests_cant": "a statement about all probability laws and sizes; the total is linearised, which no numeric test shows", "anchors": ["trikit/estimators/mack.py::MackChainLadder.__call__", "trikit/estimators/mack.py::MackChainLadder._mean_squared_error"]}
{"id": "C123", "title": "Bands of the bootstrap plot", "statement": "The plot of an origin has its observed amounts, the chain ladder forecasts from the latest amount on, and two bands which start at the latest amount and then are the quantiles (1-q)/2 and (1+q)/2 of the simulated cumulative amounts of each later period, repeated for the ultimate.", "quantifier": "for all evenly spaced staircases with positive amounts, all numbers of simulations, draws and levels q in [0, 1]", "why_tests_cant": "no test draws the plot; it raises before any data is drawn", "anchors": ["trikit/estimators/bootstrap.py::BootstrapChainLadderResult.plot", "trikit/estimators/bootstrap.py::BootstrapChainLadderResult._bs_data_transform", "trikit/estimators/bootstrap.py::BootstrapChainLadderResult._get_quantiles_by_devp"]}
{"id": "C124", "title": "Total quantiles by period are quantiles of sums", "statement": "In the table of quantiles by development period, the rows of the total are the quantiles, over the simulations, of the sum of the origins.", "quantifier": "for all tables of simulated amounts and all levels", "why_tests_cant": "a statement about all tables; no test computes the table", "anchors": ["trikit/estimators/bootstrap.py::BootstrapChainLadderResult._get_quantiles_by_devp"]}
{"id": "C125", "title": "Chain ladder is the maximum likelihood fit", "statement": "The over-dispersed Poisson model, where the increment of origin i in period j has mean a_i b_j, has a maximum likelihood estimate exactly if all factors are above 1. Then the fitted increments of the bootstrap are its means of the observed cells, and the ultimates and reserves of base_cl with all-weighted averages are the sums of its means over all and over the future cells, whichever maximum is taken.", "quantifier": "for all staircases with positive amounts and at least three origins, any labels", "why_tests_cant": "a statement about the maximum of a function of 2n real variables, for all sizes", "anchors": ["trikit/estimators/bootstrap.py::BootstrapChainLadder._tri_fit_cum", "trikit/estimators/bootstrap.py::BootstrapChainLadder._tri_fit_incr", "trikit/estimators/base.py::BaseChainLadder._ultimates", "trikit/estimators/base.py::BaseChainLadder._reserves"]}
{"id": "C126", "title": "Long runs of the bootstrap settle", "statement": "With a growing number of simulations the reported ultimates, reserves, standard errors and quantiles of the bootstrap, the ones of the total included, tend almost surely to the mean, standard deviation and quantile of the law of a single simulation.", "quantifier": "for all staircases, fitted increments that are not negative after the first period, scales, residual laws and gamma laws with draws that are independent between positions", "why_tests_cant": "a limit over the number of simulations under every law of the draws", "anchors": ["trikit/estimators/bootstrap.py::BootstrapChainLadder._bs_reserves", "trikit/estimators/bootstrap.py::BootstrapChainLadder.__call__", "trikit/estimators/bootstrap.py::BootstrapChainLadderResult.get_quantiles"]}
{"id": "C127", "title": "Ultimates match the maturity of the origin", "statement": "The ultimate of an origin is its latest amount times the cumulative factor shown in its row, the one of its own maturity, and equals the ultimate of the squared triangle.", "quantifier": "for all triangles of n origins and m periods in which later origins are observed for at most as long as earlier ones, all factors", "why_tests_cant": "every shipped triangle has one period less per origin; the claim is about all shapes", "anchors": ["trikit/estimators/base.py::BaseChainLadder._ultimates", "trikit/estimators/base.py::BaseChainLadder._trisqrd", "trikit/estimators/base.py::BaseChainLadder.__call__"]}
{"id": "C128", "title": "Triangles with more origins than periods", "statement": "base_cl, mack_cl and boot_cl return a result on triangles with more or fewer origins than development periods.", "quantifier": "for all triangles of n origins and m periods in which later origins are observed for at most as long as earlier ones, all ways of choosing factors", "why_tests_cant": "no test uses such a triangle", "anchors": ["trikit/estimators/base.py::BaseChainLadder._ultimates", "trikit/estimators/base.py::BaseChainLadder.__call__", "trikit/estimators/mack.py::MackChainLadder.__call__", "trikit/triangle.py::_BaseCumTriangle.a2a_avgs"]}
{"id": "C129", "title": "Simulated factors are the factors of the simulation", "statement": "In every simulation of the bootstrap and every period but the last, the simulated factor is the sum of the amounts of the origins observed in the next period over the sum of the amounts of the same origins in this one, all of that simulation; there are no other factors.", "quantifier": "for all triangle shapes, draws with positive amounts and numbers of simulations above one", "why_tests_cant": "the factors are built by shifting a stacked table, and only the shape decides which rows are paired", "anchors": ["trikit/estimators/bootstrap.py::BootstrapChainLadder._bs_ldfs", "trikit/estimators/bootstrap.py::BootstrapChainLadder._bs_samples"]}
{"id": "C130", "title": "Completing a simulated triangle keeps observed cells", "statement": "In every simulation the cells that are observed have the same amount after the triangle is completed as before.", "quantifier": "for all triangle shapes, draws and numbers of simulations", "why_tests_cant": "no test looks at the completed table", "anchors": ["trikit/estimators/bootstrap.py::BootstrapChainLadder._bs_forecasts"]}
{"id": "C131", "title": "Variance parameters divide by the number of link ratios", "statement": "The variance parameter of a period but the last is the weighted sum of squared deviations of its link ratios from the factor, divided by their number minus one.", "quantifier": "for all triangles with as many origins as periods in which later origins are observed for at most as long as earlier ones, all weights", "why_tests_cant": "every shipped triangle has the same number of link ratios in a given period; the claim is about all shapes", "anchors": ["trikit/estimators/mack.py::MackChainLadder._devp_variance", "trikit/estimators/mack.py::MackChainLadder._ldfs"]}
{"id": "C132", "title": "Mack errors start at the latest period of the origin", "statement": "The process error and the parameter error of an origin accumulate the variances of all periods after its own latest one.", "quantifier": "for all triangles with as many origins as periods in which later origins are observed for at most as long as earlier ones, all weights", "why_tests_cant": "every shipped triangle has one period less per origin; the claim is about all shapes", "anchors": ["trikit/estimators/mack.py::MackChainLadder._process_error", "trikit/estimators/mack.py::MackChainLadder._parameter_error"]}
{"id": "C133", "title": "Panels of the chain ladder plot", "statement": "The exhibit of the chain ladder has one panel per origin and one for the total; each is named after the origin it shows and its axis has five equally spaced ticks from 0 to an amount above every loss of the panel; the x axis is marked with the development periods and the ultimate.", "quantifier": "for all staircase triangles and lists of factors", "why_tests_cant": "tests do not draw, and whether an axis can be drawn depends on the largest loss of every panel", "anchors": ["trikit/estimators/base.py::BaseChainLadderResult.plot", "trikit/estimators/base.py::BaseChainLadderResult._get_yticks"]}
{"id": "C134", "title": "Panels of the Mack plot", "statement": "The exhibit of the reserve distributions has a panel for each origin but the oldest and for the total; each is named after the distribution whose curve it shows, with lines at its mean and at the requested quantiles.", "quantifier": "for all positive staircase triangles with at least four origins, weights, distributions and levels", "why_tests_cant": "tests do not draw, and which panels exist depends on which reserves are positive", "anchors": ["trikit/estimators/mack.py::MackChainLadderResult.plot", "trikit/estimators/mack.py::MackChainLadderResult._mack_data_transform"]}
{"id": "C135", "title": "Diagnostics exhibit of the Mack result", "statement": "The diagnostics show the distribution of the total with a line at its reserve, and for each origin the path of observed values, projections and ultimate.", "quantifier": "for all positive staircase triangles with at least four origins, weights and distributions", "why_tests_cant": "tests do not draw", "anchors": ["trikit/estimators/mack.py::MackChainLadderResult.diagnostics"]}
{"id": "C136", "title": "Both views of the development plot show the triangle", "statement": "Whatever display is asked for, the plot of a cumulative triangle shows for each origin exactly its non-missing cells in order of development, under the name of the origin; the ticks are the development labels.", "quantifier": "for all non-empty tables without infinite values, all column names and all values of display", "why_tests_cant": "all tables, gaps and column names; tests do not draw", "anchors": ["trikit/triangle.py::CumTriangle._faceted_view", "trikit/triangle.py::CumTriangle.plot"]}
{"id": "C137", "title": "Latest diagonal by development period", "statement": "latest_by_devp has one entry per origin, namely the last non-missing value of that origin under the label of the period of that value, in increasing order of the labels, whatever attributes were read before; on a staircase every period appears exactly once.", "quantifier": "for every triangle built by totri from records with finite or missing values, every order of reads", "why_tests_cant": "all shapes, ties of labels and read orders", "anchors": ["trikit/triangle.py::_BaseTriangle.latest_by_devp"]}
{"id": "C138", "title": "Pooling two books", "statement": "When the cumulative amounts of a triangle are the sums of those of two triangles with the same origins and periods, every weighted factor (all years or the last k) lies between the factors of the two; when the two have the same factors, ultimates and reserves are the sums, by origin and in total, with any tail factor.", "quantifier": "for all positive staircases of at least three origins, all windows and tails", "why_tests_cant": "relates three runs on arbitrary amounts", "anchors": ["trikit/triangle.py::_BaseCumTriangle.a2a_avgs", "trikit/triangle.py::CumTriangle.base_cl", "trikit/estimators/base.py::BaseChainLadder.__call__"]}
{"id": "C139", "title": "Higher latest values never lower an ultimate, whatever average is selected", "statement": "Raising values of the latest diagonal never lowers an ultimate or the total, and raises the ultimate of each origin whose own latest value is raised, for each kind of average over all or over the last k years.", "quantifier": "for all positive staircases of at least three origins, all averages of a2a_avgs, all positive tails", "why_tests_cant": "relates two runs on arbitrary amounts", "anchors": ["trikit/triangle.py::_BaseCumTriangle._medial", "trikit/triangle.py::_BaseCumTriangle.a2a_avgs", "trikit/triangle.py::CumTriangle.base_cl"]}
{"id": "C140", "title": "Printed amounts", "statement": "The text of every amount in a printed triangle or summary is a whole number in groups of three digits, with a minus sign exactly for negative amounts, and within 1/2 of the amount (the even number in the middle); missing cells are written NaN. In a printed summary of n origins latest amounts, ultimates and reserves add up to the printed totals up to (n + 1) / 2.", "quantifier": "for all amounts, triangles and staircase summaries", "why_tests_cant": "all amounts; tests do not read the text", "anchors": ["trikit/triangle.py::_BaseTriangle.__str__", "trikit/triangle.py::_BaseTriangle.__repr__", "trikit/estimators/base.py::BaseChainLadderResult.__str__", "trikit/estimators/base.py::BaseChainLadderResult.__repr__"]}
{"id": "C141", "title": "Panels of the bootstrap plot", "statement": "plot draws one panel per origin, in order and under its own name. A panel has the forecasts, the observed amounts and the two quantile bands of its origin; the filled region lies exactly between the bands, from the latest amount to the ultimate, lower edge nowhere above the upper. Five ticks from 0 to an amount above all amounts and below twice the largest; the x axis has the development periods and ult.", "quantifier": "for all staircases with positive amounts, draws, numbers of simulations and levels in [0, 1]", "why_tests_cant": "all levels; tests do not draw", "anchors": ["trikit/estimators/bootstrap.py::BootstrapChainLadderResult.plot", "trikit/estimators/base.py::BaseChainLadderResult._get_yticks"]}
{"id": "C142", "title": "Rounding errors of the chain ladder", "statement": "With every operation of base_cl rounded to double precision (any order of additions, no overflow or underflow) the estimator returns with the same labels as in exact arithmetic. Factors, ultimates, totals and the last column of the squared triangle differ from the exact numbers by at most stated multiples of 2^-53, relative to the exact number; reserves relative to ultimate or the sum of totals.", "quantifier": "for all positive staircases of three to 2^25 periods, simple and weighted averages over all or the last k origins, positive tails", "why_tests_cant": "a bound over all inputs and orders of addition; tests compare a few numbers", "anchors": ["trikit/triangle.py::_BaseCumTriangle.a2a_avgs", "trikit/triangle.py::CumTriangle.base_cl", "trikit/estimators/base.py::BaseChainLadder.__call__"]}
{"id": "C143", "title": "Order facts survive rounding", "statement": "In double precision (any order of additions, no overflow or underflow), for amounts that do not decrease along the rows and a tail of at least 1: factors and cumulative factors are at least 1, cumulative factors do not increase, no ultimate is below its latest amount, no reserve is negative, a reserve is 0 exactly when ultimate and latest amount are equal, emergence is in (0, 1], the totals are ordered likewise, the squared triangle does not decrease along the rows; without tail the oldest origin has exactly reserve 0 and emergence 1.", "quantifier": "for all such staircases of at least three evenly spaced periods with amounts of the format, simple and weighted averages over all or the last k origins", "why_tests_cant": "all amounts and orders of addition", "anchors": ["trikit/triangle.py::_BaseCumTriangle.a2a_avgs", "trikit/triangle.py::CumTriangle.base_cl", "trikit/estimators/base.py::BaseChainLadder.__call__"]}
{"id": "C144", "title": "Higher latest values never lower an ultimate in rounded arithmetic", "statement": "In double precision too, raising values of the latest diagonal never lowers a factor, an ultimate or a total.", "quantifier": "for all positive staircases of at least three periods, simple and weighted averages over all or the last k origins, positive tails, all orders of addition", "why_tests_cant": "relates two runs on arbitrary amounts", "anchors": ["trikit/triangle.py::_BaseCumTriangle.a2a_avgs", "trikit/triangle.py::CumTriangle.base_cl"]}
{"id": "C145", "title": "Last column of the squared triangle in double precision", "statement": "In double precision the last column of the squared triangle is the list of ultimates of the summary.", "quantifier": "for all positive staircases of at least three periods", "why_tests_cant": "depends on rounding; tests compare with a tolerance", "anchors": ["trikit/triangle.py::CumTriangle.base_cl", "trikit/estimators/base.py::BaseChainLadder.__call__", "trikit/estimators/base.py::BaseChainLadder._trisqrd", "trikit/estimators/base.py::BaseChainLadder._ultimates"]}
{"id": "C146", "title": "Whole amounts are added without error", "statement": "In double precision (within groups pandas adds with compensation) triangles of whole amounts are built without any error: totri for incremental and cumulative triangles, from incremental or cumulative records, to_incr and to_cum give what exact arithmetic gives.", "quantifier": "for all records with whole amounts of at most 2^53 units altogether, duplicates allowed for incremental triangles, one record per cell otherwise; triangles likewise", "why_tests_cant": "all amounts; tests use one data set", "anchors": ["trikit/triangle.py::_BaseTriangle.__init__", "trikit/triangle.py::IncrTriangle.to_cum", "trikit/triangle.py::CumTriangle.to_incr", "trikit/triangle.py::totri"]}
{"id": "C147", "title": "cum to incr to cum in double precision", "statement": "In double precision a cumulative triangle survives to_incr().to_cum().", "quantifier": "for all cumulative triangles without gaps and with positive first amounts", "why_tests_cant": "rounding differs from amount to amount; tests use whole amounts", "anchors": ["trikit/triangle.py::CumTriangle.to_incr", "trikit/triangle.py::IncrTriangle.to_cum"]}
{"id": "C148", "title": "Record order in double precision", "statement": "In double precision the order of the records does not change the incremental triangle.", "quantifier": "for all records", "why_tests_cant": "sums depend on the order in which rounding takes place", "anchors": ["trikit/triangle.py::_BaseTriangle.__init__", "trikit/triangle.py::totri"]}
{"id": "C149", "title": "Change of scale in double precision", "statement": "In double precision, multiplying all losses by a factor keeps all development factors and multiplies all amounts of base_cl by it.", "quantifier": "for all triangles, averages, tails and positive scales", "why_tests_cant": "depends on rounding; tests compare with a tolerance", "anchors": ["trikit/triangle.py::_BaseCumTriangle.a2a_avgs", "trikit/triangle.py::CumTriangle.base_cl", "trikit/estimators/base.py::BaseChainLadder.__call__"]}
{"id": "C150", "title": "From records to reserves in double precision", "statement": "With every operation in double precision, totri(data).base_cl() on whole amounts returns the exact latest amounts and labels, and ultimates, reserves and totals that differ from the chain ladder of the records by stated multiples of 2^-53.", "quantifier": "for all tables with one record per cell of a staircase of three to 2^25 evenly spaced periods, positive cumulative amounts, incremental records in the order of periods or cumulative records in any order, whole increments of at most 2^53 units altogether", "why_tests_cant": "a bound over all tables; tests compare a few numbers", "anchors": ["trikit/triangle.py::totri", "trikit/triangle.py::CumTriangle.base_cl", "trikit/estimators/base.py::BaseChainLadder.__call__"]}
{"id": "C151", "title": "Order facts of Mack chain ladder in double precision", "statement": "With every operation in double precision mack_cl returns positive factors, variances that are not negative, a last variance that does not exceed the two before, a mean squared error per origin that is at least its process error and at least its parameter error, none for the oldest origin, and a total that is at least the error of every origin; with rows that do not decrease factors are at least one and no reserve is negative.", "quantifier": "for all positive triangles with at least four periods, all alphas, all excluded link ratios that keep one per period, and any order of additions", "why_tests_cant": "rounding could turn a difference negative for some triangle; tests use a few", "anchors": ["trikit/estimators/mack.py::MackChainLadder.__call__", "trikit/estimators/mack.py::MackChainLadder._ldfs", "trikit/estimators/mack.py::MackChainLadder._devp_variance", "trikit/estimators/mack.py::MackChainLadder._process_error", "trikit/estimators/mack.py::MackChainLadder._parameter_error", "trikit/estimators/mack.py::MackChainLadder._mean_squared_error"]}
{"id": "C152", "title": "No variation, no error, in double precision", "statement": "When all origins develop by the same ratios, mack_cl in double precision reports standard errors of zero.", "quantifier": "for all triangles whose link ratios do not vary between origins", "why_tests_cant": "for most triangles tried by hand the ratios are exact", "anchors": ["trikit/estimators/mack.py::MackChainLadder._ldfs", "trikit/estimators/mack.py::MackChainLadder._devp_variance", "trikit/estimators/mack.py::MackChainLadder._process_error", "trikit/estimators/mack.py::MackChainLadder._mean_squared_error"]}
{"id": "C153", "title": "Mack and base point estimates in double precision", "statement": "In double precision mack_cl with alpha 1 and base_cl with all-weighted averages return the same factors, ultimates and reserves.", "quantifier": "for all positive triangles with at least four periods", "why_tests_cant": "two formulas for the same average round differently; tests compare with a tolerance", "anchors": ["trikit/estimators/mack.py::MackChainLadder._ldfs", "trikit/estimators/mack.py::MackChainLadder.__call__", "trikit/estimators/base.py::BaseChainLadder.__call__"]}
{"id": "C154", "title": "Change of scale of Mack chain ladder in double precision", "statement": "In double precision, multiplying all losses by a factor keeps the factors of mack_cl, multiplies its amounts by it and its mean squared errors by its square.", "quantifier": "for all triangles, exclusions and positive scales, alpha 1", "why_tests_cant": "depends on rounding; tests compare with a tolerance", "anchors": ["trikit/estimators/mack.py::MackChainLadder.__call__", "trikit/estimators/mack.py::MackChainLadder._devp_variance", "trikit/estimators/mack.py::MackChainLadder._process_error", "trikit/estimators/mack.py::MackChainLadder._parameter_error", "trikit/estimators/mack.py::MackChainLadder._mean_squared_error"]}
{"id": "C155", "title": "Exclusions with labels that have no link ratio", "statement": "An assignment to a2aind with a label that has no link ratio is rejected or leaves the averages of a2a_avgs as they were.", "quantifier": "for all positive staircase triangles, labels and values", "why_tests_cant": "every position of a label between the origins behaves differently; tests use existing labels", "anchors": ["trikit/triangle.py::_BaseCumTriangle.a2aind", "trikit/triangle.py::_BaseCumTriangle.a2a_avgs"]}
{"id": "C156", "title": "A Mack estimator uses the exclusions in force when it is called", "statement": "The factors of a Mack chain ladder are the averages, weighted with the losses to the power alpha, of exactly the link ratios that a2aind does not exclude at the time of the call.", "quantifier": "for all positive staircase triangles with at least four periods, histories of exclusions that keep a link ratio per period, and exponents", "why_tests_cant": "depends on what was called before; tests use a new estimator without exclusions", "anchors": ["trikit/estimators/mack.py::MackChainLadder.mod_a2aind", "trikit/estimators/mack.py::MackChainLadder._ldfs", "trikit/estimators/mack.py::MackChainLadder.__call__", "trikit/triangle.py::CumTriangle.mack_cl", "trikit/triangle.py::_BaseCumTriangle.a2aind"]}
{"id": "C157", "title": "Indicators of link ratios that do not exist have no effect", "statement": "Values assigned to a2aind where the triangle has no link ratio change neither a2a_avgs nor any result of mack_cl.", "quantifier": "for all positive staircase triangles, histories of assignments within the table of link ratios, and exponents", "why_tests_cant": "needs assignments in the lower right half, in any order with others; tests only use existing link ratios", "anchors": ["trikit/triangle.py::_BaseCumTriangle.a2aind", "trikit/triangle.py::_BaseCumTriangle.a2a_avgs", "trikit/estimators/mack.py::MackChainLadder.mod_a2aind", "trikit/estimators/mack.py::MackChainLadder._ldfs", "trikit/estimators/mack.py::MackChainLadder._devp_variance", "trikit/estimators/mack.py::MackChainLadder._ldf_variance"]}
{"id": "C158", "title": "Rounding errors of Mack's variances and mean squared errors", "statement": "With every operation in double precision each variance of mack_cl with alpha 1 is off by at most a multiple of n times the unit roundoff times the size of its terms, and the mean squared errors of the origins and of the total are those of Mack's formulas at variances within these bounds, up to 8 n^2 relative errors.", "quantifier": "for all positive triangles with at least four periods whose amounts are double precision numbers, all excluded link ratios that keep one per period, and any order of additions", "why_tests_cant": "a bound over all triangles; differences of nearly equal link ratios lose digits only for particular data", "anchors": ["trikit/estimators/mack.py::MackChainLadder.__call__", "trikit/estimators/mack.py::MackChainLadder._ldfs", "trikit/estimators/mack.py::MackChainLadder._devp_variance", "trikit/estimators/mack.py::MackChainLadder._ldf_variance", "trikit/estimators/mack.py::MackChainLadder._process_error", "trikit/estimators/mack.py::MackChainLadder._parameter_error", "trikit/estimators/mack.py::MackChainLadder._mean_squared_error"]}
{"id": "C159", "title": "Rounding errors of the bootstrap fit", "statement": "With every operation in double precision, boot_cl reproduces the latest diagonal exactly in the fitted cumulative triangle; its other fitted values are positive and off by at most 2((n-j)(n-j+1)-(i+1)(i+2)) relative unit roundoffs, the fitted increments by that multiple of the two values they come from.", "quantifier": "for all positive triangles with at least three periods whose first amounts are double precision numbers, and any order of additions", "why_tests_cant": "a bound over all triangles; tests compare a few values with a tolerance", "anchors": ["trikit/estimators/bootstrap.py::BootstrapChainLadder._tri_fit_cum", "trikit/estimators/bootstrap.py::BootstrapChainLadder._tri_fit_incr", "trikit/estimators/bootstrap.py::BootstrapChainLadder.__call__", "trikit/estimators/base.py::BaseChainLadder._ldfs"]}
{"id": "C160", "title": "Nothing to sample without variation in double precision", "statement": "When all origins develop by the same ratios, boot_cl has no residuals to sample, in double precision as in exact arithmetic.", "quantifier": "for all positive triangles with the same link ratios in every row", "why_tests_cant": "whether a quotient is rounded depends on the last bits of the data", "anchors": ["trikit/estimators/bootstrap.py::BootstrapChainLadder._resid_us", "trikit/estimators/bootstrap.py::BootstrapChainLadder._resid_adj", "trikit/estimators/bootstrap.py::BootstrapChainLadder._sampling_dist", "trikit/estimators/bootstrap.py::BootstrapChainLadder.__call__"]}
{"id": "C161", "title": "Change of scale of the bootstrap fit in double precision", "statement": "In double precision, multiplying all losses by a factor keeps the factors of boot_cl, multiplies fitted values and the scale parameter by it and the sampled residuals by its square root.", "quantifier": "for all positive triangles with at least three periods and positive scales", "why_tests_cant": "depends on rounding; tests compare with a tolerance", "anchors": ["trikit/estimators/bootstrap.py::BootstrapChainLadder._tri_fit_cum", "trikit/estimators/bootstrap.py::BootstrapChainLadder._tri_fit_incr", "trikit/estimators/bootstrap.py::BootstrapChainLadder._resid_us", "trikit/estimators/bootstrap.py::BootstrapChainLadder._resid_adj", "trikit/estimators/bootstrap.py::BootstrapChainLadder._sampling_dist", "trikit/estimators/bootstrap.py::BootstrapChainLadder._scale_param"]}
{"id": "C162", "title": "Rounding errors of base_cl with medial averages", "statement": "With every operation in double precision, base_cl with medial averages returns factors, ultimates and reserves within the bounds that hold for simple and weighted averages, whenever the exact medial averages are numbers.", "quantifier": "for all positive triangles with at least three periods, all windows, positive tails and any order of additions", "why_tests_cant": "the average leaves out the extreme link ratios; whether two ratios count as equal depends on their last bits", "anchors": ["trikit/triangle.py::_BaseCumTriangle._medial", "trikit/triangle.py::_BaseCumTriangle.a2a_avgs", "trikit/estimators/base.py::BaseChainLadder._ldfs", "trikit/estimators/base.py::BaseChainLadder._ultimates", "trikit/estimators/base.py::BaseChainLadder._reserves"]}
{"id": "C163", "title": "Rounding errors of base_cl with geometric averages", "statement": "With every operation in double precision, logarithm and exponential included, base_cl with geometric averages returns factors, ultimates and reserves off by at most the multiples of the unit roundoff that hold for simple averages, times 3(1+L) when the logarithms of the link ratios are at most L in size.", "quantifier": "for all positive triangles with at least three periods, all windows, positive tails and any order of additions", "why_tests_cant": "a bound over all triangles; tests compare a few values with a tolerance", "anchors": ["trikit/triangle.py::_BaseCumTriangle._geometric", "trikit/triangle.py::_BaseCumTriangle.a2a_avgs", "trikit/estimators/base.py::BaseChainLadder._ldfs", "trikit/estimators/base.py::BaseChainLadder._ultimates", "trikit/estimators/base.py::BaseChainLadder._reserves"]}
{"id": "C164", "title": "Rounding errors of the simulated triangles", "statement": "With every operation in double precision, boot_cl completes the simulated triangles with the same rows, labels and forecast flags as in exact arithmetic; values k periods beyond the diagonal are off by at most (12k+4)*14*kappa relative unit roundoffs, increments by (12k+5)*14*kappa unit roundoffs of the two values they come from, where kappa bounds the ratio of the absolute values of fitted increments and noise to the simulated values.", "quantifier": "for all staircase triangles, fitted increments, numbers of simulations and residual draws with positive simulated values", "why_tests_cant": "a bound over all triangles and draws; tests compare a few values with a tolerance", "anchors": ["trikit/estimators/bootstrap.py::BootstrapChainLadder._bs_samples", "trikit/estimators/bootstrap.py::BootstrapChainLadder._bs_ldfs", "trikit/estimators/bootstrap.py::BootstrapChainLadder._bs_forecasts"]}
{"id": "C165", "title": "Simulated reserves are sums of forecast increments in double precision", "statement": "In double precision, the simulated reserve of an origin is the sum of its forecast increments after process error, as in exact arithmetic.", "quantifier": "for all staircase triangles, fitted increments, draws and simulations", "why_tests_cant": "reserves come from a compensated sum minus the latest value; whether digits cancel depends on the draws", "anchors": ["trikit/estimators/bootstrap.py::BootstrapChainLadder._bs_process_error", "trikit/estimators/bootstrap.py::BootstrapChainLadder._bs_reserves"]}
{"id": "C166", "title": "Change of scale of the simulations in double precision", "statement": "In double precision, a run of boot_cl on amounts four to any power times as large, with the same positions drawn and the same standard gamma draws, gives the same simulated factors, and completed triangles, process errors and reserves multiplied by that power, bit by bit.", "quantifier": "for all positive triangles with at least three periods whose first amounts are double precision numbers and whose fitted increments are not negative, all powers, draws and numbers of simulations", "why_tests_cant": "tests compare with a tolerance on a few scales", "anchors": ["trikit/estimators/bootstrap.py::BootstrapChainLadder._bs_samples", "trikit/estimators/bootstrap.py::BootstrapChainLadder._bs_ldfs", "trikit/estimators/bootstrap.py::BootstrapChainLadder._bs_forecasts", "trikit/estimators/bootstrap.py::BootstrapChainLadder._bs_process_error", "trikit/estimators/bootstrap.py::BootstrapChainLadder._bs_reserves"]}
{"id": "C167", "title": "Exchanging origins and development periods", "statement": "base_cl with volume weighted averages of all years completes the increments of a triangle and of the triangle with the label columns of origin and period exchanged in the same way: the increments of the squared triangles are exchanged, the ultimate of an origin is the sum of the completed increments of the corresponding period in the exchanged triangle, and total latest, total ultimate and total reserve are equal.", "quantifier": "for all staircases with at least three periods and positive cumulative amounts in both readings, all tail factors; also from records through totri", "why_tests_cant": "symmetry of the whole projection; unit tests have one orientation of a triangle only", "anchors": ["trikit/triangle.py::CumTriangle.base_cl", "trikit/triangle.py::totri", "trikit/triangle.py::_BaseCumTriangle.a2a_avgs", "trikit/estimators/base.py::BaseChainLadder._trisqrd", "trikit/estimators/base.py::BaseChainLadder._ultimates", "trikit/estimators/base.py::BaseChainLadder._reserves"]}
{"id": "C168", "title": "Exchanging origins and development periods in the bootstrap fit", "statement": "Fitted increments, unscaled and adjusted residuals of the exchanged triangle are the exchanged fitted increments and residuals, the scale parameter is the same and the pool of residuals is the same up to order.", "quantifier": "for all staircases with at least three periods and positive cumulative amounts in both readings", "why_tests_cant": "relates two fits cell by cell for every size", "anchors": ["trikit/estimators/bootstrap.py::BootstrapChainLadder._tri_fit_cum", "trikit/estimators/bootstrap.py::BootstrapChainLadder._tri_fit_incr", "trikit/estimators/bootstrap.py::BootstrapChainLadder._resid_us", "trikit/estimators/bootstrap.py::BootstrapChainLadder._resid_adj", "trikit/estimators/bootstrap.py::BootstrapChainLadder._scale_param", "trikit/estimators/bootstrap.py::BootstrapChainLadder._sampling_dist"]}
{"id": "C169", "title": "Amounts recorded earlier never raise an ultimate", "statement": "base_cl with volume weighted averages of all years, and mack_cl with alpha=1: when the latest amounts stay the same but earlier cumulative amounts are higher, no ultimate, reserve or total reserve is higher, and the ultimate of an origin is lower as soon as an amount in its latest period or later is higher.", "quantifier": "for all positive staircases with at least three (Mack: four) periods, all sets of raised amounts, all positive tail factors", "why_tests_cant": "comparison of two whole runs; the averages of two periods move in opposite directions", "anchors": ["trikit/triangle.py::CumTriangle.base_cl", "trikit/triangle.py::CumTriangle.mack_cl", "trikit/estimators/base.py::BaseChainLadder._ultimates", "trikit/estimators/base.py::BaseChainLadder._cldfs"]}
{"id": "C170", "title": "Exchanging origins and development periods in the simulations", "statement": "When origins and periods are exchanged and the residual and gamma draws of each cell move along, every simulated total reserve of boot_cl is the same and the final increments of forecast cells are exchanged.", "quantifier": "for all staircases with at least three periods and positive cumulative amounts in both readings, with fitted increments that are not negative, labels of periods and origins starting at 1, all draws for which no simulated column sum vanishes, all numbers of simulations", "why_tests_cant": "symmetry of the resampled projections for arbitrary draws", "anchors": ["trikit/estimators/bootstrap.py::BootstrapChainLadder._bs_samples", "trikit/estimators/bootstrap.py::BootstrapChainLadder._bs_ldfs", "trikit/estimators/bootstrap.py::BootstrapChainLadder._bs_forecasts", "trikit/estimators/bootstrap.py::BootstrapChainLadder._bs_process_error", "trikit/estimators/bootstrap.py::BootstrapChainLadder._bs_reserves"]}
{"id": "C171", "title": "Quantiles react no more than the simulations", "statement": "When the simulated reserves of two runs of boot_cl differ by at most e, simulation by simulation, the quantile tables (summary columns and get_quantiles, every interpolation method, with or without lower bound) have the same headers and differ by at most e, or both calls raise the same exception; the means differ by at most e and the standard errors by at most e*sqrt(S/(S-1)); simulations that are nowhere higher have no higher quantiles.", "quantifier": "for all numbers of rows and simulations, all values, levels, methods, lower bounds and e", "why_tests_cant": "order statistics of arbitrary samples; sorting permutes the simulations of the two runs differently", "anchors": ["trikit/estimators/bootstrap.py::BootstrapChainLadder.__call__", "trikit/estimators/bootstrap.py::BootstrapChainLadderResult.get_quantiles", "trikit/estimators/bootstrap.py::BootstrapChainLadder._bs_std_error"]}
{"id": "C172", "title": "Quantiles in double precision stay in order", "statement": "With every operation rounded to double precision in the order of numpy's percentile, the quantiles of a sample lie between its smallest and largest value, are these at the levels 0 and 1, and do not decrease with the level.", "quantifier": "for all interpolation methods, samples of at most 2^52 doubles and pairs of levels; more generally for p binary digits, p at least 7", "why_tests_cant": "the interpolation formula changes at weight one half, where a rounded difference could let it jump down; random levels never hit the neighbouring doubles", "anchors": ["trikit/estimators/bootstrap.py::BootstrapChainLadder.__call__", "trikit/estimators/bootstrap.py::BootstrapChainLadderResult.get_quantiles"]}
{"id": "C173", "title": "Rounding errors of quantiles", "statement": "In double precision, a quantile by linear interpolation is off by at most u*((5(n-1)q+3)G+M), where u is the unit roundoff, n the number of simulations, q the level, G the largest gap between consecutive simulated values and M the largest absolute value; by midpoint interpolation by u*(3G+M) when the rank is not too close to a whole number.", "quantifier": "for all samples of doubles and all levels, the level itself rounded", "why_tests_cant": "a bound over all samples and levels", "anchors": ["trikit/estimators/bootstrap.py::BootstrapChainLadder.__call__", "trikit/estimators/bootstrap.py::BootstrapChainLadderResult.get_quantiles"]}
{"id": "C174", "title": "Ranks in double precision", "statement": "In double precision, the interpolation methods lower, higher and nearest return the simulated value of the rank that the level asks for.", "quantifier": "for all samples of doubles and all levels", "why_tests_cant": "depends on the rounding of 100*q, its quotient by 100 and the product with n-1; fails for a few levels only", "anchors": ["trikit/estimators/bootstrap.py::BootstrapChainLadder.__call__", "trikit/estimators/bootstrap.py::BootstrapChainLadderResult.get_quantiles"]}
{"id": "C175", "title": "Quantile tables in double precision", "statement": "For levels given in units of 1e-7, get_quantiles in double precision has the same columns, in the same order and with the same headers, as in exact arithmetic, its entries do not decrease along a row, and by linear interpolation differ from the exact ones by the bound for quantiles.", "quantifier": "for all lists of levels, rows of simulated values, lower bounds and methods", "why_tests_cant": "relates whole tables for every list of levels", "anchors": ["trikit/estimators/bootstrap.py::BootstrapChainLadderResult.get_quantiles", "trikit/estimators/base.py::BaseRangeEstimatorResult._qtls_formatter"]}
{"id": "C176", "title": "Quantile columns of the summary in double precision", "statement": "For two-sided intervals with probabilities given in units of 2e-7, and for single levels in units of 1e-7, the quantile columns of the bootstrap summary in double precision have the headers and the order of exact arithmetic, each level is within two unit roundoffs, the entries do not decrease along a row, by linear interpolation they are off by at most u*((7(n-1)+3)G+M), and a row with a missing reserve has missing quantiles in every column.", "quantifier": "for all lists of levels, rows of simulated values and methods", "why_tests_cant": "levels (1-x)/2 and (1+x)/2 are rounded twice before they are sorted, made unique and printed", "anchors": ["trikit/estimators/bootstrap.py::BootstrapChainLadder.__call__", "trikit/estimators/base.py::BaseRangeEstimator._qtls_formatter"]}
{"id": "C177", "title": "Rounded simulations give quantiles near the exact ones", "statement": "When the simulated reserves computed in double precision differ from those of exact arithmetic by at most d, the quantile columns of the summary and the table of get_quantiles by linear interpolation have the headers and order of exact arithmetic and differ by at most d plus the bound for rounded quantiles.", "quantifier": "for all numbers of rows and simulations, all values, levels and d", "why_tests_cant": "combines perturbed order statistics with rounded interpolation", "anchors": ["trikit/estimators/bootstrap.py::BootstrapChainLadder.__call__", "trikit/estimators/bootstrap.py::BootstrapChainLadderResult.get_quantiles"]}
{"id": "C178", "title": "Standard errors and quantiles of Mack chain ladder in double precision", "statement": "In rounded arithmetic with square root, logarithm and exponential that keep the order of numbers, mack_cl returns on every positive staircase; standard errors are not negative, that of the oldest origin is 0, that of the total is at least that of each origin, coefficients of variation are not negative; normal quantiles are missing exactly where the standard error is 0, do not decrease with the level, lie on the correct side of the reserve and are off by at most u|R|+(2u+u^2)|z|S; lognormal quantiles are missing at all levels or positive and not decreasing; the columns have the headers of exact arithmetic.", "quantifier": "for all triangles, exclusions, alpha, orders of additions, roundings, levels", "why_tests_cant": "a statement about every triangle and every rounding", "anchors": ["trikit/estimators/mack.py::MackChainLadder.__call__", "trikit/estimators/base.py::BaseRangeEstimator._qtls_formatter"]}
{"id": "C179", "title": "Lognormal quantiles exist in double precision", "statement": "Wherever standard error and reserve are positive, the lognormal quantiles of the Mack summary computed in double precision are numbers.", "quantifier": "for all triangles, exclusions, alpha, orders of additions, levels", "why_tests_cant": "a relative standard error below 1e-8 has to be constructed", "anchors": ["trikit/estimators/mack.py::MackChainLadder.__call__"]}
{"id": "C180", "title": "Standard errors of the bootstrap in double precision", "statement": "In rounded arithmetic, with group standard deviations by a running mean and that of the total in two passes, every standard error of the bootstrap is a number that is not negative; that of an origin whose simulated reserves are all the same is 0, in particular that of the oldest origin; without rounding the columns of the summary are those of exact arithmetic.", "quantifier": "for all triangles, numbers of simulations, draws, orders of additions and roundings", "why_tests_cant": "a running mean leaves the range of the values for bad roundings; no sample shows that it never does", "anchors": ["trikit/estimators/bootstrap.py::BootstrapChainLadder._bs_std_error", "trikit/estimators/bootstrap.py::BootstrapChainLadder.__call__"]}
{"id": "C181", "title": "Accuracy of the standard error of an origin in double precision", "statement": "The square of the standard error of an origin as computed differs from the sample variance of its simulated reserves by at most u*((S^2+21S)(b-a)^2+(S^2+2S)/2*M(b-a))/(S-1), where S is the number of simulations, a and b bound the reserves, M bounds their absolute values and u is the unit roundoff.", "quantifier": "for all triangles, numbers of simulations up to 1/(2u)-3, draws and roundings", "why_tests_cant": "an error bound over all samples", "anchors": ["trikit/estimators/bootstrap.py::BootstrapChainLadder._bs_std_error"]}
{"id": "C182", "title": "Standard error 0 means equal reserves", "statement": "In double precision the standard error of an origin is 0 exactly if its simulated reserves are all the same.", "quantifier": "for all triangles, numbers of simulations and draws", "why_tests_cant": "only fails for reserves that differ in the last bit, in one order of two", "anchors": ["trikit/estimators/bootstrap.py::BootstrapChainLadder._bs_std_error"]}
{"id": "C183", "title": "Accuracy of the standard error of the total in double precision", "statement": "In double precision the standard error of the total is 0 only if all simulated totals as computed are the same; its square differs from their sample variance by at most (2S+16)u times that variance plus 12 S^3/(S-1) u^2 M^2, where M bounds the totals.", "quantifier": "for all triangles, numbers of simulations, draws, orders of additions and roundings", "why_tests_cant": "an error bound over all samples", "anchors": ["trikit/estimators/bootstrap.py::BootstrapChainLadder._bs_std_error"]}
{"id": "C184", "title": "Equal totals have standard error 0", "statement": "In double precision the standard error of the total is 0 when all simulated totals are the same.", "quantifier": "for all triangles, numbers of simulations and draws", "why_tests_cant": "fails only when the computed mean of equal numbers is not that number", "anchors": ["trikit/estimators/bootstrap.py::BootstrapChainLadder._bs_std_error"]}
{"id": "C185", "title": "Summary of the bootstrap in double precision", "statement": "In rounded arithmetic the summary of the bootstrap has the labels of exact arithmetic; each ultimate is within 16u times the mean absolute value of the mean of the simulated ultimates, the oldest origin shows its latest value with reserve and standard error 0 and a missing coefficient of variation, reserves are ultimates less latest values, standard errors are not negative and the total adds the columns.", "quantifier": "for all triangles, numbers of simulations, draws, orders of additions and roundings", "why_tests_cant": "a statement about every triangle and every rounding", "anchors": ["trikit/estimators/bootstrap.py::BootstrapChainLadder.__call__"]}
{"id": "C186", "title": "Simulated reserves in double precision beside exact arithmetic", "statement": "If the forecast increments of an origin in a bootstrap run in rounded arithmetic and in a run in exact arithmetic differ by at most d, its simulated reserves differ by at most d for each forecast period plus 10u times the first simulated value, the variation of the observed part and the absolute forecast increments; its ultimates differ by the difference of the latest values in addition, and the reported ultimates by at most the largest difference plus 16u times the mean absolute ultimate.", "quantifier": "for all triangles whose first development period is 1, draws, process errors and roundings", "why_tests_cant": "compares two arithmetics over all runs", "anchors": ["trikit/estimators/bootstrap.py::BootstrapChainLadder._bs_reserves", "trikit/estimators/bootstrap.py::BootstrapChainLadder.__call__"]}
{"id": "C187", "title": "Standard errors in double precision beside exact arithmetic", "statement": "If the simulated reserves of a run in rounded arithmetic and a run in exact arithmetic differ by at most d, the standard error of an origin differs by at most d*sqrt(S/(S-1)) plus the root of the bound of its rounding error; for the total the same holds with n*d plus the rounding error of the sums in place of d.", "quantifier": "for all triangles, numbers of simulations, simulated reserves, orders of additions and roundings", "why_tests_cant": "an error bound over all samples", "anchors": ["trikit/estimators/bootstrap.py::BootstrapChainLadder._bs_std_error"]}
{"id": "C188", "title": "Quantile columns in double precision beside exact arithmetic", "statement": "If the simulated reserves of a run in p digits and a run in exact arithmetic differ by at most d, the quantile columns of the two summaries (linear interpolation) have the same headers in the same order and their entries, totals included, differ by at most 2^-p * 28 * S * A + n*d, where A bounds the sums of absolute reserves.", "quantifier": "for all triangles, numbers of simulations, simulated reserves, one-sided levels k/10^7, two-sided levels k/(5*10^6) and precisions of at least 26 digits", "why_tests_cant": "an error bound over all samples and levels", "anchors": ["trikit/estimators/bootstrap.py::BootstrapChainLadder.__call__"]}
{"id": "C189", "title": "Rank correlation of the development periods in double precision", "statement": "With every operation rounded the ranks of link ratios never reverse an order, and the rank correlations of adjacent development periods and their weighted mean differ from those of exact arithmetic only by rounding errors: at most 4(n+3)u for a coefficient and 10nu for the mean (n periods, unit roundoff u). The code violates this for link ratios that differ by less than the rounding: they become ties.", "quantifier": "all triangles in staircase shape with positive amounts and n >= 4 periods, all monotone roundings with relative error u where 2(n+3)u <= 1, all orders of additions", "why_tests_cant": "link ratios that round to the same float are rare and random triangles do not produce them", "anchors": ["trikit/estimators/mack.py::MackChainLadderResult._spearman_corr_coeffs", "trikit/estimators/mack.py::MackChainLadderResult._spearman_corr_total", "trikit/triangle.py::_BaseCumTriangle.ranked_a2a"]}
{"id": "C190", "title": "Rank correlations in double precision stay in [-1, 1]", "statement": "With every operation rounded each rank correlation and the weighted mean lie between -1 and 1, and equal orders give exactly 1. The code violates the lower limit: a coefficient can fall below -1 by a rounding error.", "quantifier": "all triangles in staircase shape with positive amounts and n >= 4 periods, all monotone roundings that keep whole numbers up to n^2, all orders of additions", "why_tests_cant": "needs a particular permutation of ranks and the order of additions of numpy", "anchors": ["trikit/estimators/mack.py::MackChainLadderResult._spearman_corr_coeffs", "trikit/estimators/mack.py::MackChainLadderResult._spearman_corr_total"]}
{"id": "C191", "title": "Moments of the calendar year test in double precision", "statement": "With every operation rounded to p digits the expectation and variance of the smaller count of a diagonal, and their totals over the diagonals, are computed without any error as long as the numbers fit: in double precision for up to 22 counted link ratios on a diagonal and triangles of up to 21 periods. When all link ratios get the same assignment as in exact arithmetic, table and totals are the same.", "quantifier": "all triangles, all digits p, all orders of additions of the totals", "why_tests_cant": "equality without tolerance for all counts and all orders of additions", "anchors": ["trikit/estimators/mack.py::MackChainLadderResult._cy_effects_table", "trikit/estimators/mack.py::MackChainLadderResult.cy_effects_test"]}
{"id": "C192", "title": "High and low link ratios in double precision", "statement": "With every operation rounded a positive link ratio is called high, low or neither as in exact arithmetic. The code violates this for link ratios at the limit of the tolerance around the median; outside a margin of 9u(x + m + tolerance) around the limit the assignments agree, and they are never opposite.", "quantifier": "all columns of positive or missing link ratios, all monotone roundings with relative error at most 10^-6", "why_tests_cant": "needs a link ratio at the limit of the tolerance up to the last digits", "anchors": ["trikit/triangle.py::_BaseCumTriangle.a2a_assignment"]}
{"id": "C193", "title": "Decision of the correlation test in double precision", "statement": "With every operation rounded the interval of devp_corr_test is exactly symmetric about 0 and wider for larger normal quantiles, and the test decides as in exact arithmetic. The code violates the last part for link ratios that round to the same number: a triangle with statistic -1, rejected at every level whose bound is below 1 (the default one included), has statistic 1/2 and is accepted in double precision. When different link ratios stay apart the bounds are right up to 3u and the decisions agree unless the statistic is within 10nu + 3ub of a bound b.", "quantifier": "all triangles in staircase shape with positive amounts and n >= 4 periods, all odd monotone roundings that keep whole numbers up to n^2, all orders of additions, all normal quantiles", "why_tests_cant": "needs link ratios that differ by less than the rounding", "anchors": ["trikit/estimators/mack.py::MackChainLadderResult.devp_corr_test", "trikit/estimators/mack.py::MackChainLadderResult._devp_corr_test_var"]}
{"id": "C194", "title": "Decision of the calendar year test in double precision", "statement": "With every operation rounded the interval of cy_effects_test contains the expected value and is wider for smaller probabilities. When the link ratios get the assignments of exact arithmetic, statistic and centre are without error for up to 21 periods, the bounds E - d and E + d are right up to u(E + 4d), and the decision is the same unless the statistic is that close to a bound.", "quantifier": "all triangles in staircase shape without zero amounts, all orders of additions, all normal quantiles", "why_tests_cant": "an error bound for all triangles and probabilities", "anchors": ["trikit/estimators/mack.py::MackChainLadderResult.cy_effects_test"]}
{"id": "C195", "title": "Mean and variance of the correlation test statistic", "statement": "When every order of the link ratios of each development period is equally likely, independently of the other periods, each rank correlation with k link ratios has mean 0 and variance 1/(k-1), and the weighted statistic has mean 0 and exactly the variance 1/devpCorrVar that the test uses. The code violates this with ties, for which its formula has no correction: a period of equal link ratios has coefficient 1/2 in every order.", "quantifier": "all triangles in staircase shape with positive amounts and n >= 4 periods, all different link ratios within each period", "why_tests_cant": "an average over all orders of all link ratios", "anchors": ["trikit/estimators/mack.py::MackChainLadderResult._spearman_corr_coeffs", "trikit/estimators/mack.py::MackChainLadderResult._spearman_corr_total", "trikit/estimators/mack.py::MackChainLadderResult._devp_corr_test_var"]}
{"id": "C196", "title": "Mean and variance of the calendar year test statistic", "statement": "When every order of the link ratios of each development period is equally likely, independently of the other periods, and only the median itself counts as the median, the smaller count of each diagonal has on average the expectation and the squared deviation the variance of the table, and the statistic has on average the expectation and squared deviation the test uses. The code violates the last part: it adds the variances of the diagonals as if they were independent. For four periods the variance of the statistic is 1/2 and not 1/3, and for all larger triangles it is larger than the one used.", "quantifier": "all triangles in staircase shape with positive amounts and equally spaced periods, all different link ratios within each period", "why_tests_cant": "an average over all orders of all link ratios", "anchors": ["trikit/estimators/mack.py::MackChainLadderResult._cy_effects_table", "trikit/estimators/mack.py::MackChainLadderResult.cy_effects_test", "trikit/triangle.py::_BaseCumTriangle.a2a_assignment"]}
{"id": "C197", "title": "No overflow and no underflow in base_cl", "statement": "With every operation of base_cl rounded to p binary digits the results do not depend on how numbers outside a range of sizes are rounded: factors, cumulative factors, all columns of the summary, totals and the squared triangle are the same for every rounding that agrees within the range. The range is given by the smallest and largest amount, the largest change from one period to the next and the number of periods. In double precision the normal numbers are enough for up to 80 periods, amounts between 2^-20 and 2^60 and changes by at most a factor of 1000.", "quantifier": "all positive staircases of three or more periods whose amounts have p digits, simple and weighted averages over all or the last k origins, all tails, all orders of additions", "why_tests_cant": "all roundings outside the range and all amounts", "anchors": ["trikit/triangle.py::_BaseCumTriangle.a2a_avgs", "trikit/triangle.py::CumTriangle.base_cl", "trikit/estimators/base.py::BaseChainLadder.__call__"]}
{"id": "C198", "title": "Mean of a simulated reserve", "statement": "The simulated reserve of the second oldest origin has a mean, the product of the mean resampled claims of that origin, the mean resampled last increment of the oldest origin and the mean inverse of its resampled claims before. It is the chain ladder reserve of the mean resampled increments only if all residuals are equal, otherwise the mean inverse is larger than the inverse of the mean. So for residuals with mean 0 the mean simulated reserve is larger than the chain ladder reserve: the bootstrap is not centred at it. Process error does not change this. The same bound and the same condition for equality hold for every origin but the oldest, when all resampled increments are positive: the reserve is a convex function of every single increment, strictly in the first one.", "quantifier": "all positive triangles in staircase shape whose columns do not shrink in total, first development label 1, residuals drawn with replacement that leave the resampled increments of the oldest origin positive, all process variates with mean shape times scale, all numbers of simulations", "why_tests_cant": "an average over all draws", "anchors": ["trikit/estimators/bootstrap.py::BootstrapChainLadder._bs_samples", "trikit/estimators/bootstrap.py::BootstrapChainLadder._bs_ldfs", "trikit/estimators/bootstrap.py::BootstrapChainLadder._bs_forecasts", "trikit/estimators/bootstrap.py::BootstrapChainLadder._bs_process_error", "trikit/estimators/bootstrap.py::BootstrapChainLadder._bs_reserves"]}
{"id": "C199", "title": "Simulated reserves of the parametric bootstrap have no mean", "statement": "With normal residuals of positive variance the resampled claims of the oldest origin, which is the divisor of the last simulated factor, are normal, and the simulated reserve of the second oldest origin is not integrable: it has no mean, with or without process error.", "quantifier": "all positive triangles in staircase shape whose columns do not shrink in total, first development label 1, last factor other than 1, residuals not all equal, all process variates with mean shape times scale, all numbers of simulations", "why_tests_cant": "an average over all draws", "anchors": ["trikit/estimators/bootstrap.py::BootstrapChainLadder._bs_samples", "trikit/estimators/bootstrap.py::BootstrapChainLadder._bs_ldfs", "trikit/estimators/bootstrap.py::BootstrapChainLadder._bs_forecasts", "trikit/estimators/bootstrap.py::BootstrapChainLadder._bs_reserves"]}
{"id": "C200", "title": "One uncertain amount", "statement": "Take two triangles that differ in a single observed amount, and a third with an average of the two amounts. With volume weighted averages of all years the ultimates and reserves of all origins and the total reserve of the third are at most the same averages of those of the two: the estimates are convex functions of every single amount. For the first amount of the oldest origin and every other origin they are less. The same holds of Mack chain ladder with alpha 1. So putting the expected value in for an uncertain amount understates the expected reserve. It fails for two amounts at once.", "quantifier": "all triangles of positive amounts in staircase shape, all cells, all pairs of positive amounts and weights, all positive tail factors", "why_tests_cant": "a relation between three runs over all amounts and weights", "anchors": ["trikit/triangle.py::_BaseCumTriangle.a2a_avgs", "trikit/triangle.py::CumTriangle.base_cl", "trikit/estimators/base.py::BaseChainLadder.__call__", "trikit/estimators/base.py::BaseChainLadder._ultimates", "trikit/estimators/base.py::BaseChainLadder._reserves", "trikit/estimators/mack.py::MackChainLadder._ldfs"]}
{"id": "C201", "title": "Reported reserves of long bootstrap runs", "statement": "With the number of simulations growing, the reserves in the summary of the bootstrap almost surely settle at numbers that are larger than the reserves of base_cl, for every origin but the oldest and in total. So from some number of simulations on all of them are larger: more simulations do not bring the two methods together.", "quantifier": "all positive triangles in staircase shape whose columns do not shrink in total, first development label 1, residuals with mean 0 that leave all resampled increments positive, all process variates with mean shape times scale", "why_tests_cant": "a limit over all numbers of simulations and almost all draws", "anchors": ["trikit/estimators/bootstrap.py::BootstrapChainLadder.__call__", "trikit/estimators/bootstrap.py::BootstrapChainLadder._bs_samples", "trikit/estimators/bootstrap.py::BootstrapChainLadder._bs_ldfs", "trikit/estimators/bootstrap.py::BootstrapChainLadder._bs_forecasts", "trikit/estimators/bootstrap.py::BootstrapChainLadder._bs_process_error", "trikit/estimators/bootstrap.py::BootstrapChainLadder._bs_reserves", "trikit/estimators/base.py::BaseChainLadder.__call__"]}
{"id": "C202", "title": "Long runs of the parametric bootstrap do not settle", "statement": "With normal residuals the reserve and the standard error in the summary for the second oldest origin do not settle. Almost surely, for every bound and every number of simulations there is a larger number of simulations with a reserve beyond the bound, and one with a standard error beyond it.", "quantifier": "all positive triangles in staircase shape whose columns do not shrink in total, first development label 1, last factor other than 1, residuals not all equal, all process variates with mean shape times scale", "why_tests_cant": "a statement about all numbers of simulations and almost all draws", "anchors": ["trikit/estimators/bootstrap.py::BootstrapChainLadder.__call__", "trikit/estimators/bootstrap.py::BootstrapChainLadder._bs_samples", "trikit/estimators/bootstrap.py::BootstrapChainLadder._bs_ldfs", "trikit/estimators/bootstrap.py::BootstrapChainLadder._bs_forecasts", "trikit/estimators/bootstrap.py::BootstrapChainLadder._bs_reserves", "trikit/estimators/bootstrap.py::BootstrapChainLadder._bs_std_error"]}
{"id": "C203", "title": "No origin and no total of the parametric bootstrap settles", "statement": "With normal residuals no simulated reserve of an origin but the oldest has a mean, and neither has a sum of those of several origins, such as the total. Almost surely, for every bound and every number of simulations there is a larger number of simulations with which the summary shows a reserve beyond the bound, and one with a standard error beyond it, in every row but that of the oldest origin.", "quantifier": "all positive triangles in staircase shape whose columns do not shrink in total, first development label 1, last factor other than 1, residuals not all equal, all process variates with mean shape times scale", "why_tests_cant": "a statement about all numbers of simulations and almost all draws", "anchors": ["trikit/estimators/bootstrap.py::BootstrapChainLadder.__call__", "trikit/estimators/bootstrap.py::BootstrapChainLadder._bs_samples", "trikit/estimators/bootstrap.py::BootstrapChainLadder._bs_ldfs", "trikit/estimators/bootstrap.py::BootstrapChainLadder._bs_forecasts", "trikit/estimators/bootstrap.py::BootstrapChainLadder._bs_process_error", "trikit/estimators/bootstrap.py::BootstrapChainLadder._bs_reserves", "trikit/estimators/bootstrap.py::BootstrapChainLadder._bs_std_error"]}
{"id": "C204", "title": "Relative errors of the amounts", "statement": "If the amounts of two triangles agree up to a factor r, the development factors of base_cl agree up to r^2, the ultimate of the origin i places after the oldest up to r^(2i+1), the total up to r^(2n-1), and reserves are off by no more than these relative errors of ultimate and latest value, for each kind of average over all or over the last k years and every positive tail factor.", "quantifier": "all pairs of positive triangles in staircase shape, all r of at least 1, all averages and windows", "why_tests_cant": "a bound over all pairs of triangles", "anchors": ["trikit/estimators/base.py::BaseChainLadder.__call__", "trikit/triangle.py::_BaseCumTriangle.a2a_avgs", "trikit/triangle.py::_BaseCumTriangle._medial"]}
{"id": "C205", "title": "Small changes and standard errors", "statement": "When the amounts of triangles tend to those of a triangle with positive amounts, the standard errors mack_cl reports tend to the ones it reports for that triangle, for all origins and the total.", "quantifier": "all triangles in staircase shape with at least four periods and positive amounts, all sequences that tend to them, all alpha, any labels", "why_tests_cant": "a statement about limits of all sequences of inputs", "anchors": ["trikit/estimators/mack.py::MackChainLadder.__call__", "trikit/estimators/mack.py::MackChainLadder._devp_variance", "trikit/estimators/mack.py::MackChainLadder._process_error", "trikit/estimators/mack.py::MackChainLadder._parameter_error"]}
{"id": "C206", "title": "Excluding a link ratio moves the factor away from it", "statement": "Excluding one more link ratio lowers the factor of its period, the ultimates that use the factor and the total when the link ratio is above the factor, raises them when it is below, leaves them when it equals the factor or is not in the window, and changes no other factor or ultimate.", "quantifier": "all triangles in staircase shape with positive amounts, all histories of exclusions, all average types and windows of base_cl, all alpha of mack_cl, all positive tails, any labels", "why_tests_cant": "compares two runs on every triangle and every history", "anchors": ["trikit/triangle.py::_BaseCumTriangle.a2aind", "trikit/triangle.py::_BaseCumTriangle.a2a_avgs", "trikit/estimators/base.py::BaseChainLadder.__call__", "trikit/estimators/mack.py::MackChainLadder._ldfs"]}
{"id": "C207", "title": "The size of an origin does not matter to the others", "statement": "Multiplying all amounts of each origin by its own positive number leaves link ratios, averages, factors and ages unchanged, and multiplies latest, ultimate, reserve and projections of each origin by its number; in mack_cl also the parameter error by the square of it and the process error by it.", "quantifier": "all triangles, all positive multipliers one for each origin, all indicators, all average types and windows, all tails; all alpha of mack_cl", "why_tests_cant": "compares two runs on every triangle with every choice of multipliers", "anchors": ["trikit/triangle.py::_BaseCumTriangle.a2a", "trikit/triangle.py::_BaseCumTriangle.a2a_avgs", "trikit/estimators/base.py::BaseChainLadder.__call__", "trikit/estimators/mack.py::MackChainLadder._ldfs"]}
{"id": "C208", "title": "Averages of the last k years look only at the last k + 1 calendar years", "statement": "Two triangles with the same labels and the same amounts on the last k + 1 diagonals give the same base_cl factors, summary, total and projections when the average is one of the last k years; an exception in one is the same exception in the other.", "quantifier": "all pairs of triangles in staircase shape with positive amounts, all k from 1 to one less than the number of link ratios, all four kinds of average, all indicators of exclusions, all tails", "why_tests_cant": "compares runs on arbitrary pairs of triangles that agree on recent years only", "anchors": ["trikit/triangle.py::_BaseCumTriangle.a2a_avgs", "trikit/estimators/base.py::BaseChainLadder.__call__"]}
{"id": "C209", "title": "Relative parameter errors do not fall from an origin to the next younger one", "statement": "In mack_cl the parameter error divided by the square of the ultimate never falls from an origin to the next younger one; one plus it grows by exactly 1 + v / f^2 for the factor f and the factor variance v of the additional period, so it stays only when that variance is 0; all are 0 when the variance of the last period is missing.", "quantifier": "all triangles in staircase shape with positive amounts and at least 4 periods, all exclusions that keep a link ratio in every period, all alpha", "why_tests_cant": "a statement on products over any number of periods for every triangle", "anchors": ["trikit/estimators/mack.py::MackChainLadder._parameter_error", "trikit/estimators/mack.py::MackChainLadder._ldf_variance"]}
{"id": "C210", "title": "Factors and ultimates lie in the range of the link ratios", "statement": "Each factor of base_cl that is a number lies between the smallest and the largest link ratio it looks at: those of the window that are not excluded, and for weighted averages all of the window. Each ultimate lies between the latest amount times the smallest link ratios and the tail, and the latest amount times the largest ones and the tail. The same holds of mack_cl with the link ratios that are not excluded.", "quantifier": "all triangles in staircase shape with positive amounts, all exclusions, all four kinds of average, all windows, all positive tails; all alpha of mack_cl", "why_tests_cant": "ranges over all triangles and all exclusions, with products of any length", "anchors": ["trikit/triangle.py::_BaseCumTriangle.a2a_avgs", "trikit/estimators/base.py::BaseChainLadder.__call__", "trikit/estimators/base.py::BaseChainLadder._ultimates", "trikit/estimators/mack.py::MackChainLadder._ldfs"]}
{"id": "C211", "title": "Records of other origins do not change the cells of an origin", "statement": "Two tables with the same rows of an origin give triangles with the same cells of that origin in all periods the triangles have in common, whatever the rows of other origins are.", "quantifier": "all pairs of non-empty tables with the same rows of an origin, incremental and cumulative triangles", "why_tests_cant": "ranges over everything other origins may contain", "anchors": ["trikit/triangle.py::totri", "trikit/triangle.py::_BaseTriangle.__init__", "trikit/triangle.py::_BaseTriangle._neg_handler", "trikit/triangle.py::_BaseCumTriangle.__init__"]}
{"id": "C212", "title": "A larger standard error never lowers an upper quantile", "statement": "Of two lines of Mack summaries with the same reserve, the one with the larger standard error has the larger quantile at every level above the median.", "quantifier": "all pairs of calls and lines with the same reserve of at least 1 and positive standard errors, all levels, both distributions", "why_tests_cant": "ranges over all pairs of standard errors and levels", "anchors": ["trikit/estimators/mack.py::MackChainLadder.__call__", "trikit/estimators/mack.py::MackChainLadderResult.get_quantiles"]}
{"id": "C213", "title": "Excluding the newest calendar year gives last year's factors", "statement": "With all link ratios of the newest calendar year excluded, the factors and variance parameters are those of the triangle one year earlier.", "quantifier": "all positive staircases with more than four periods, all exclusions of the year before, every alpha; for base_cl all averages and tails", "why_tests_cant": "ranges over all triangles and their predecessors", "anchors": ["trikit/estimators/mack.py::MackChainLadder._ldfs", "trikit/estimators/mack.py::MackChainLadder._devp_variance", "trikit/estimators/base.py::BaseChainLadder.__call__", "trikit/triangle.py::_BaseCumTriangle.a2a_avgs"]}
{"id": "C214", "title": "How the choice of the average moves the estimates", "statement": "The geometric average never gives larger factors, ultimates and reserves than the simple average of the same window, with equality exactly when all link ratios used are equal; the weighted average lies above the simple one when larger origins have larger link ratios, and below when they have smaller ones.", "quantifier": "all positive staircases, windows and positive tails; for geometric averages all exclusions that keep the newest link ratio of every period", "why_tests_cant": "ranges over all triangles, windows and exclusions", "anchors": ["trikit/triangle.py::_BaseCumTriangle.a2a_avgs", "trikit/triangle.py::_BaseCumTriangle._geometric", "trikit/estimators/base.py::BaseChainLadder.__call__"]}
{"id": "C215", "title": "Missing estimates have missing standard errors and are not left out of totals", "statement": "When all link ratios of a development period are excluded, mack_cl reports ultimates, reserves and standard errors as missing for the origins that still have to pass the period, and does not leave these origins out of the totals.", "quantifier": "all positive staircases with at least four periods, all exclusions, every alpha, both distributions", "why_tests_cant": "ranges over all triangles and all combinations of excluded link ratios", "anchors": ["trikit/estimators/mack.py::MackChainLadder.__call__", "trikit/estimators/mack.py::MackChainLadder._ldfs", "trikit/estimators/mack.py::MackChainLadder._process_error", "trikit/estimators/mack.py::MackChainLadder._parameter_error", "trikit/estimators/base.py::BaseChainLadder._trisqrd"]}
{"id": "C216", "title": "Excluded link ratios do not enter the bootstrap", "statement": "With link ratios excluded, the factors of boot_cl, and so its fitted values, residuals and simulations, are computed from the remaining link ratios.", "quantifier": "all positive staircases, all exclusions, every generator, seed and number of simulations; for base_cl all weighted windows and tails", "why_tests_cant": "ranges over all triangles, exclusions and random draws", "anchors": ["trikit/estimators/bootstrap.py::BootstrapChainLadder.__call__", "trikit/triangle.py::_BaseCumTriangle.a2a_avgs", "trikit/triangle.py::_BaseCumTriangle.a2aind", "trikit/estimators/base.py::BaseChainLadder.__call__"]}
{"id": "C217", "title": "Quantiles of the total against those of the origins", "statement": "At every level from the median on, the reported quantile of the total reserve is at most the sum of the reported quantiles of the origins.", "quantifier": "all positive staircases, exclusions and levels for Mack chain ladder; all triangles, draws, interpolation methods and levels for the bootstrap", "why_tests_cant": "ranges over all triangles, draws and levels", "anchors": ["trikit/estimators/mack.py::MackChainLadderResult.get_quantiles", "trikit/estimators/mack.py::MackChainLadder.__call__", "trikit/estimators/bootstrap.py::BootstrapChainLadderResult.get_quantiles", "trikit/estimators/bootstrap.py::BootstrapChainLadder.__call__"]}
{"id": "C218", "title": "Simulated reserves and small changes of the draws", "statement": "When the residual draws of a simulation tend to given ones, with the same gamma draws, the simulated reserves and their total tend to those of the given draws.", "quantifier": "all staircases, fitted increments, numbers of simulations and sequences of draws; gamma draws continuous in the shape", "why_tests_cant": "a statement about limits of draws", "anchors": ["trikit/estimators/bootstrap.py::BootstrapChainLadder._bs_samples", "trikit/estimators/bootstrap.py::BootstrapChainLadder._bs_ldfs", "trikit/estimators/bootstrap.py::BootstrapChainLadder._bs_forecasts", "trikit/estimators/bootstrap.py::BootstrapChainLadder._bs_process_error", "trikit/estimators/bootstrap.py::BootstrapChainLadder._bs_reserves"]}
{"id": "C219", "title": "How alpha moves the estimates of Mack chain ladder", "statement": "When no larger origin has a smaller link ratio in a period, a larger alpha never gives a smaller factor, ultimate, reserve or total, and the same ones exactly when origins of different size have the same link ratio in all periods that matter; when no larger origin has a larger link ratio it is the other way round.", "quantifier": "all positive staircases with at least four periods, all excluded link ratios that keep one per period, all pairs of exponents", "why_tests_cant": "a comparison for all triangles and exponents", "anchors": ["trikit/estimators/mack.py::MackChainLadder._ldfs", "trikit/estimators/mack.py::MackChainLadder.__call__"]}
{"id": "C220", "title": "Missing factors in base_cl", "statement": "When a development factor is missing, base_cl reports ultimate and reserve as missing for exactly the origins that still have to pass the period, leaves these cells of the squared triangle missing, and does not leave the origins out of the totals.", "quantifier": "all positive staircases with at least three periods; factors selected by name with any exclusions, or given as array or Series, all tails", "why_tests_cant": "a statement about all results with missing factors", "anchors": ["trikit/estimators/base.py::BaseChainLadder.__call__", "trikit/estimators/base.py::BaseChainLadder._ultimates", "trikit/estimators/base.py::BaseChainLadder._reserves", "trikit/estimators/base.py::BaseChainLadder._trisqrd"]}
{"id": "C221", "title": "One uncertain cumulative amount", "statement": "Take two triangles that differ in one cumulative amount only, and a third with an average of the two amounts in that place. The ultimates and reserves of all origins and the totals that base_cl gives for the third are at most the same averages of those for the two, with any of the simple, volume weighted and medial averages.", "quantifier": "all positive staircases with at least three periods, all cells, all pairs of positive amounts and weights, all windows, all positive tail factors", "why_tests_cant": "a relation between three runs over all amounts, weights, cells and windows", "anchors": ["trikit/triangle.py::_BaseCumTriangle.a2a_avgs", "trikit/estimators/base.py::BaseChainLadder.__call__", "trikit/estimators/base.py::BaseChainLadder._ultimates", "trikit/estimators/base.py::BaseChainLadder._reserves"]}
{"id": "C222", "title": "Rounding errors of base_cl with given factors", "statement": "With factors given as list, array or Series, every operation rounded with a relative error of at most u and sums added in any order, the ultimate of origin i is off by at most the share (1+u)^(i+1) - 1 of its amount, the cumulative factor of period j by (1+u)^(n-1-j) - 1, each projected cell by as many roundings as periods passed, and reserves and totals by the corresponding amounts, whatever the signs of amounts and factors; in double precision the ultimate is off by at most (i+1) 2^-52 of its amount. Given factors of at least one never produce an ultimate below the latest amount or a negative reserve.", "quantifier": "all staircases, all factors and tails of any sign, all rounding functions with relative error below one, all orders of additions, all sizes", "why_tests_cant": "a bound over all amounts, factors, sizes and orders of additions", "anchors": ["trikit/estimators/base.py::BaseChainLadder.__call__", "trikit/estimators/base.py::BaseChainLadder._cldfs", "trikit/estimators/base.py::BaseChainLadder._ultimates", "trikit/estimators/base.py::BaseChainLadder._reserves", "trikit/estimators/base.py::BaseChainLadder._trisqrd"]}
{"id": "C223", "title": "Development as expected never raises a Mack error", "statement": "When every origin develops from one evaluation to the next with the factors mack_cl has estimated (the oldest one not at all), the next estimate has as variance parameter of each period j with at least two link ratios before the old one times (n-j-2)/(n-j-1), and zero for the last old period; the process error, the parameter error and the mean squared error of every origin present before are not higher than they were, and the mean squared error is lower unless it was zero, whatever the new origin is and whether or not the new link ratios are excluded.", "quantifier": "all positive staircases of at least four origins, all alpha, all exclusion weights that keep a link ratio in every period", "why_tests_cant": "an inequality between two runs over all triangles and weights, through the extrapolated last variance and its degenerate case", "anchors": ["trikit/estimators/mack.py::MackChainLadder._devp_variance", "trikit/estimators/mack.py::MackChainLadder._ldf_variance", "trikit/estimators/mack.py::MackChainLadder._process_error", "trikit/estimators/mack.py::MackChainLadder._parameter_error", "trikit/estimators/mack.py::MackChainLadder._mean_squared_error"]}
{"id": "C224", "title": "Development as expected does not raise the residuals of the bootstrap", "statement": "When every origin develops from one evaluation to the next with the factors boot_cl has fitted (the oldest one with any positive factor), the next fit has the same fitted values and residuals in the old cells, the new cells have residual zero (or none, where the increment is zero), the scale parameter is the old one times the old over the new degrees of freedom, and the adjusted residuals that are sampled are not larger than before.", "quantifier": "all positive staircases of at least three origins, all new origins, all positive tail factors", "why_tests_cant": "an identity between two fits over all triangles and sizes", "anchors": ["trikit/estimators/bootstrap.py::BootstrapChainLadder._tri_fit_cum", "trikit/estimators/bootstrap.py::BootstrapChainLadder._resid_us", "trikit/estimators/bootstrap.py::BootstrapChainLadder._resid_adj", "trikit/estimators/bootstrap.py::BootstrapChainLadder._sampling_dist", "trikit/estimators/bootstrap.py::BootstrapChainLadder._scale_param"]}
{"id": "C225", "title": "Development as expected leaves the estimate of base_cl unchanged, whatever average is selected", "statement": "When every origin develops from one evaluation to the next with the factors base_cl has selected (the oldest one with the tail factor), the next estimate with the same selection, made without tail factor, has the same factors, the former tail as factor of the new period, and the same ultimates for the old origins, for every kind of average and every window of years.", "quantifier": "all positive staircases of at least three origins, all kinds of average, all windows, all positive tail factors, all new origins", "why_tests_cant": "an identity between two estimates over all triangles, sizes and averages, the medial one with case distinctions on ties", "anchors": ["trikit/triangle.py::_BaseCumTriangle.a2a_avgs", "trikit/triangle.py::_BaseCumTriangle._medial", "trikit/triangle.py::_BaseCumTriangle._geometric", "trikit/estimators/base.py::BaseChainLadder.__call__"]}
{"id": "C226", "title": "Changing a selected factor moves the estimate the right way", "statement": "When the factors are given, a selection with higher factors never gives a lower ultimate, reserve, forecast or total where no latest amount is negative (the opposite for an origin with a negative one), also in rounded arithmetic; the results of an origin depend only on factors of periods it has not passed, to the last digit; and multiplying one factor by q multiplies exactly the ultimates of the origins that have not passed it by q.", "quantifier": "all staircases with amounts of any sign, all selections and tails, all monotone roundings and orders of summation", "why_tests_cant": "a comparison of two estimates for all triangles, selections and roundings", "anchors": ["trikit/estimators/base.py::BaseChainLadder.__call__", "trikit/estimators/base.py::BaseChainLadder._cldfs", "trikit/estimators/base.py::BaseChainLadder._ultimates", "trikit/estimators/base.py::BaseChainLadder._reserves", "trikit/estimators/base.py::BaseChainLadder._trisqrd"]}
{"id": "C227", "title": "With fixed factors the estimate moves by actual less expected development", "statement": "When base_cl is called with the same given factors at two evaluations one period apart (the tail of the first being the last factor of the second), the ultimate of every old origin moves by the actual amount of the new diagonal less the one forecast in the first squared triangle, times the cumulative factor still to come; the old reserve is the amount that emerged, the new reserve and the fall of the ultimate together; and the total ultimate moves by the sum of these and the ultimate of the new origin.", "quantifier": "all pairs of staircases with n and n + 1 origins, amounts of any sign, all selections and tails", "why_tests_cant": "an identity between two estimates for all triangles, sizes and selections", "anchors": ["trikit/estimators/base.py::BaseChainLadder.__call__", "trikit/estimators/base.py::BaseChainLadder._cldfs", "trikit/estimators/base.py::BaseChainLadder._ultimates", "trikit/estimators/base.py::BaseChainLadder._reserves", "trikit/estimators/base.py::BaseChainLadder._trisqrd"]}
{"id": "C228", "title": "Development above expectation never lowers an ultimate", "statement": "When no origin develops less from one evaluation to the next than base_cl with an average of all years expects (the oldest one: than the tail factor says), then at the next evaluation no selected factor and no ultimate of an old origin is lower than before, provided the factors are numbers; when no origin develops more, none is higher. The same holds for the ultimates of mack_cl, whose oldest origin is expected not to develop, and they move strictly for origins that deviate.", "quantifier": "all positive staircases of at least three origins, all positive new diagonals, simple, geometric, medial and weighted averages of all years, all positive tail factors; for mack_cl at least four origins, every alpha and all exclusions", "why_tests_cant": "a comparison of two estimates over all triangles, sizes and averages; the medial average with all ties of link ratios", "anchors": ["trikit/estimators/mack.py::MackChainLadder.__call__", "trikit/triangle.py::_BaseCumTriangle.a2a_avgs", "trikit/triangle.py::_BaseCumTriangle._medial", "trikit/triangle.py::_BaseCumTriangle._geometric", "trikit/estimators/base.py::BaseChainLadder.__call__", "trikit/estimators/base.py::BaseChainLadder._ultimates"]}
{"id": "C229", "title": "A factor of the last years moves away from the link ratio that leaves", "statement": "When every origin develops from one evaluation to the next with the factors of base_cl with the simple, geometric or weighted average of the last k years, then at the next evaluation a factor with fewer than k link ratios is unchanged; any other one rises exactly when the link ratio that leaves its window was below it, and falls exactly when it was above. So no ultimate falls when no leaving ratio was above its factor, and none rises when none was below.", "quantifier": "all positive staircases of at least three origins, all windows the table of averages offers, all positive tail factors", "why_tests_cant": "an equivalence about two evaluations over all triangles, sizes and windows", "anchors": ["trikit/triangle.py::_BaseCumTriangle.a2a_avgs", "trikit/estimators/base.py::BaseChainLadder.__call__", "trikit/estimators/base.py::BaseChainLadder._ultimates"]}
{"id": "C230", "title": "The medial average of three years after development as expected", "statement": "When every origin develops from one evaluation to the next with the factors of base_cl with medial-3, and the last three link ratios of a period differ, then at the next evaluation the factor of the period is unchanged if the ratio that leaves the window was the middle one, and missing otherwise; ultimate and reserve of every origin that has yet to pass the period are then missing. With a window of four years or more the factor at the next evaluation is a number whenever the last three link ratios differ, whatever the new diagonal.", "quantifier": "all positive staircases of at least five origins, all periods with three link ratios, all positive tail factors", "why_tests_cant": "a statement about two evaluations over all triangles and sizes; the missing factor comes from ties that development as expected creates", "anchors": ["trikit/triangle.py::_BaseCumTriangle._medial", "trikit/triangle.py::_BaseCumTriangle.a2a_avgs", "trikit/estimators/base.py::BaseChainLadder.__call__"]}
{"id": "C231", "title": "Actual against expected development in double precision", "statement": "In double precision base_cl with the same given factors at two evaluations moves the ultimate of old origin i by the actual less the expected amount times the factors to come, up to (i + 1) 2^-52 of the two exact ultimates; when the exact movement is larger than that, the computed ultimate moves in the right direction.", "quantifier": "all staircases of fewer than 2^52 origins, all given factors and tails, all orders of summation", "why_tests_cant": "a bound for all amounts and factors, and a direction that only holds when the movement exceeds the bound", "anchors": ["trikit/estimators/base.py::BaseChainLadder.__call__", "trikit/estimators/base.py::BaseChainLadder._ultimates", "trikit/estimators/base.py::BaseChainLadder._cldfs"]}
{"id": "C232", "title": "What one more diagonal does to the parameters of Mack chain ladder", "statement": "From one evaluation of mack_cl to the next, every factor moves by the share z of the newest link ratio in the weights times the distance of that ratio from the factor, and the variance parameter of period j is updated as the old one times n - j - 2 and 1 - z times the weighted square of the distance, over n - j - 1; so it rises exactly when the second term exceeds it, and falls exactly when it is smaller.", "quantifier": "all positive staircases of at least four origins, all positive new diagonals, every alpha, all exclusion weights; variance parameters of all periods but the last of the first evaluation", "why_tests_cant": "an identity between two evaluations over all triangles and weights", "anchors": ["trikit/estimators/mack.py::MackChainLadder._ldfs", "trikit/estimators/mack.py::MackChainLadder._devp_variance", "trikit/estimators/mack.py::MackChainLadder.__call__"]}
{"id": "C233", "title": "How a factor of the last years moves with a new diagonal", "statement": "From one evaluation to the next a factor of base_cl that averages a full window of k years moves by the joining and the leaving link ratio alone: the simple average by a k-th of their difference, the geometric by the k-th root of their quotient, the weighted by their distances from the factor, each weighted with its amount, over the amounts of the new window. A simple or geometric factor rises exactly when the joining ratio exceeds the leaving one.", "quantifier": "all positive staircases of at least three origins, all positive new diagonals, all windows the table of averages offers, all tail factors", "why_tests_cant": "an identity between two evaluations over all triangles and windows", "anchors": ["trikit/triangle.py::_BaseCumTriangle.a2a_avgs", "trikit/triangle.py::_BaseCumTriangle._geometric", "trikit/estimators/base.py::BaseChainLadder.__call__"]}
{"id": "C234", "title": "How one more diagonal moves the standard errors of the Mack factors", "statement": "From one evaluation to the next, whatever the new diagonal, the squared standard error of a factor of mack_cl over m + 1 degrees of freedom is m times the old one plus z d^2, all times 1 - z, divided by m + 1; z is the share of the newest link ratio in the weights and d its distance from the old factor. The error falls, or rises, exactly when z (1 - z) d^2 is below, or above, 1 + m z times the old square, and a positive error falls whenever the newest ratio equals the factor.", "quantifier": "all positive staircases of at least four origins, all positive new diagonals, all alpha, all exclusion weights, all periods with at least two link ratios", "why_tests_cant": "an identity between two evaluations over all triangles, exponents and weights", "anchors": ["trikit/estimators/mack.py::MackChainLadder._ldf_variance", "trikit/estimators/mack.py::MackChainLadder._devp_variance", "trikit/estimators/mack.py::MackChainLadder._ldfs"]}
{"id": "C235", "title": "How a factor of all years moves with a new diagonal", "statement": "From one evaluation to the next, whatever the new diagonal, a factor of base_cl that averages all years, or a window longer than the ratios a period has, moves towards the joining link ratio: the simple average by one over the new number of ratios times the distance, the weighted by the share of the joining amount times the distance, and the m-th power of the geometric average, m the new number of ratios, is the joining ratio times the power m - 1 of the old average. Each factor rises, or falls, exactly when the joining ratio is above, or below, it.", "quantifier": "all positive staircases of at least three origins, all positive new diagonals, all periods, all such windows, all tail factors", "why_tests_cant": "an identity between two evaluations over all triangles and windows", "anchors": ["trikit/triangle.py::_BaseCumTriangle.a2a_avgs", "trikit/triangle.py::_BaseCumTriangle._geometric", "trikit/estimators/base.py::BaseChainLadder.__call__"]}
{"id": "C236", "title": "Longer windows of the medial average after development as expected", "statement": "When every origin develops from one evaluation to the next with the factors of base_cl with a medial average of the last k years, k at least four, and the last k link ratios of a period differ, then the factor of the period at the next evaluation is (f + (k - 3) g) / (k - 2), f the old factor and g the medial average of the k - 1 ratios that stay; it falls exactly when the ratio that leaves was above f and rises exactly when it was below.", "quantifier": "all positive staircases of at least six origins, all windows of at least four years the table of averages offers, all periods with at least k link ratios, all positive tail factors", "why_tests_cant": "a statement about two evaluations over all triangles, sizes, windows and orders of the ratios", "anchors": ["trikit/triangle.py::_BaseCumTriangle._medial", "trikit/triangle.py::_BaseCumTriangle.a2a_avgs", "trikit/estimators/base.py::BaseChainLadder.__call__"]}
{"id": "C237", "title": "One more exclusion never raises the variance parameter of mack_cl", "statement": "When one more link ratio is excluded, z its share in the weights of its period and d its distance from the factor, then the factor of mack_cl moves by z / (1 - z) * d away from it, n - j - 2 times the variance parameter falls by the weighted d^2 over 1 - z (the divisor still counts the excluded ratio), so that the parameter never rises and falls exactly when d is not zero, and the squared error s of the factor becomes s' with (n - j - 2) (1 - z) s' = (n - j - 2) s - z / (1 - z) * d^2.", "quantifier": "all positive staircases of at least four origins, all alpha, all exclusion weights that leave a ratio in every period, all ratios outside the last period", "why_tests_cant": "a statement about two indicators over all triangles, sizes and weights", "anchors": ["trikit/estimators/mack.py::MackChainLadder._ldfs", "trikit/estimators/mack.py::MackChainLadder._devp_variance", "trikit/estimators/mack.py::MackChainLadder._ldf_variance"]}
{"id": "C238", "title": "A new diagonal moves a medial factor no further than the ends of the other ratios", "statement": "When a link ratio joins the at least three of a period, all different, and none leaves, the factor of base_cl with a medial average moves towards the joining ratio, cut off at the smallest and the largest of the others, by one over the number of ratios that count; it rises exactly when the joining ratio exceeds it and falls exactly when it is below. When one leaves a full window of at least four years, the factor moves by the difference of the two cut-off ratios over k - 2, and stays exactly when the two are equal or both below or both above all that stay. With equal ratios and none leaving, the new factor averages the old one, as often as ratios lie strictly between the ends, with the joining ratio if it lies between them, with nothing if it equals an end, and with all copies of the end it exceeds.", "quantifier": "all pairs of positive staircases one period apart, all years and all windows the table of averages offers, all periods whose ratios differ, or, when none leaves, with a ratio strictly between the ends", "why_tests_cant": "a statement about two evaluations over all triangles, sizes, windows and orders of the ratios", "anchors": ["trikit/triangle.py::_BaseCumTriangle._medial", "trikit/triangle.py::_BaseCumTriangle.a2a_avgs", "trikit/estimators/base.py::BaseChainLadder.__call__"]}
{"id": "C239", "title": "When an exclusion raises the last variance parameter of mack_cl", "statement": "When one more link ratio, not equal to the factor, is excluded in the third period from the end, the variance parameter of that period falls from a to a' and the one of the next period stays at b, but the last parameter, which the code takes from the two, rises exactly when a a' exceeds b^2 and falls exactly when a a' is below b^2. When one of the two ratios of the next period is excluded, its parameter becomes 0, and the last one 0 as well, or missing if a is 0.", "quantifier": "all positive staircases of at least four origins, all alpha, all exclusion weights that leave a ratio in every period, b positive", "why_tests_cant": "a statement about two indicators over all triangles, sizes and weights", "anchors": ["trikit/estimators/mack.py::MackChainLadder._devp_variance"]}
{"id": "C240", "title": "How far one exclusion moves a medial average", "statement": "When one more link ratio x is excluded from a window of m kept ratios, m at least four and all different, the medial average moves away from x, cut off at the smallest and the largest of the ratios that stay, by the distance over m - 3.", "quantifier": "all positive staircases, all histories of assignments of 0 and 1 that leave the recent ratios, all windows the table of averages offers and all years, all ratios kept so far in the window outside the latest diagonal", "why_tests_cant": "a statement about two histories over all triangles, sizes, windows and orders of the ratios", "anchors": ["trikit/triangle.py::_BaseCumTriangle._medial", "trikit/triangle.py::_BaseCumTriangle.a2a_avgs", "trikit/triangle.py::_BaseCumTriangle.a2aind"]}
