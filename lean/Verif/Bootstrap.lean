import Verif.Base

/-!
# Model of `trikit/estimators/bootstrap.py`

`sq` stands for `np.sqrt` (over `ℝ` it is `Num.sqrt`); residual draws and gamma draws are arbitrary
sequences indexed by the row position in the table at the time of the draw.  Tables with one row per
(simulation, origin, development period) are lists in the order (sim, origin, dev) in which the code
keeps them.
-/

set_option linter.unusedSectionVars false

namespace Trikit

/-! ### pandas primitives -/

section prim
variable {α β κ : Type}

/-- Rows of `groupby(key).transform(f)`, `f` applied to the rows of each group in table order; the
result keeps the row positions. -/
def gtGo [DecidableEq κ] [Inhabited β] (key : α → κ) (f : List α → List β) (all : List α) :
    List α → List α → List β
  | _, [] => []
  | seen, r :: rs =>
    (f (all.filter (fun x => key x = key r))).getD (seen.filter (fun x => key x = key r)).length default
      :: gtGo key f all (seen ++ [r]) rs

/-- `df.groupby(key)[...].transform(f)`, also `.cumsum()` and `.diff()` (positional results). -/
def groupTransform [DecidableEq κ] [Inhabited β] (key : α → κ) (f : List α → List β) (rows : List α) :
    List β := gtGo key f rows [] rows

/-- `Series.shift(periods=1)`; `fill` stands for the missing first entry. -/
def shift1 (fill : β) (l : List β) : List β := (fill :: l).dropLast

end prim

section
variable {K : Type} [Field K] [LinearOrder K]

/-- `cumsum()` with `skipna=True`: NaN stays NaN and is skipped in the sum. -/
def cumsumGo (acc : Num K) : List (Num K) → List (Num K)
  | [] => []
  | v :: l => if v.isNaN then .nan :: cumsumGo acc l else (acc + v) :: cumsumGo (acc + v) l

/-- `Series.cumsum()`, used per simulation and origin (bootstrap.py:513, 681). -/
def cumsumL (l : List (Num K)) : List (Num K) := cumsumGo 0 l

/-- `cumprod` with `skipna=True`. -/
def cumprodGo (acc : Num K) : List (Num K) → List (Num K)
  | [] => []
  | v :: l => if v.isNaN then .nan :: cumprodGo acc l else (acc * v) :: cumprodGo (acc * v) l

/-- `Series.cumprod()` (bootstrap.py:585-586). -/
def cumprodL (l : List (Num K)) : List (Num K) := cumprodGo 1 l

/-- `diff(periods=1)`: the first entry is NaN. -/
def diffL (l : List (Num K)) : List (Num K) := List.zipWith (· - ·) l (shift1 .nan l)

/-- Largest finite float64, `(2^53 - 1) * 2^971`. -/
def maxFloat : K := (2 ^ 53 - 1) * 2 ^ 971

/-- `np.nan_to_num`: NaN becomes 0, infinities the largest finite floats. -/
def nanToNum : Num K → Num K
  | .nan => 0
  | .pinf => .fin maxFloat
  | .ninf => .fin (-maxFloat)
  | .fin x => .fin x

/-! ### fit and residuals -/

/-- `BootstrapChainLadder.dof` (bootstrap.py:274-284), as written. -/
def bootDof (t : Tri K) : Int := (t.nbrCells : Int) - ((t.nc : Int) - 1) + (t.nr : Int)

/-- Position of the first missing cell of a row (bootstrap.py:325-328). -/
def firstNaN (f : ℕ → Num K) (n : ℕ) : Option ℕ := (List.range n).find? (fun j => (f j).isNaN)

/-- Column whose value is kept: `init_idx` of bootstrap.py:325-332.  A row whose first cell is missing
has `init_idx = -1`, and `iloc[ii, :-1]` are all columns but the last. -/
def fitInit (t : Tri K) (i : ℕ) : ℕ :=
  match firstNaN (t.cell i) t.nc with
  | some 0 => t.nc - 1
  | some j => j - 1
  | none => t.nc - 1

/-- Backward recursion of bootstrap.py:338-342: the value `m` columns left of column `k`. -/
def fitBack (f : ℕ → Num K) (ldf : ℕ → Num K) (k : ℕ) : ℕ → Num K
  | 0 => f k
  | m + 1 => fitBack f ldf k m / ldf (k - m - 1)

/-- `_tri_fit_cum` (bootstrap.py:306-343). -/
def triFitCum (t : Tri K) (ldf : ℕ → Num K) : Tri K :=
  { t with cell := fun i j =>
      if j ≤ fitInit t i then fitBack (t.cell i) ldf (fitInit t i) (fitInit t i - j) else t.cell i j }

/-- `_tri_fit_incr` (bootstrap.py:347-362). -/
def triFitIncr (fit : Tri K) : Tri K := fit.diffTri

/-- `_resid_us` (bootstrap.py:365-384): observed increments minus fitted ones over the root of the
absolute fitted one, aligned on labels. -/
def residUs (sq : Num K → Num K) (obs m : Tri K) : Tri K :=
  Tri.alignOp (fun a b => (a - b) / sq b.abs') obs m

/-- `_resid_adj` (bootstrap.py:387-403). -/
def residAdj (sq : Num K → Num K) (t r : Tri K) : Tri K :=
  { r with cell := fun i j => sq (.fin ((t.nbrCells : K) / ((bootDof t : Int) : K))) * r.cell i j }

/-- `_sampling_dist` (bootstrap.py:407-424): all but the last row and column, row by row, without
missing and zero values. -/
def samplingDist (r : Tri K) : List (Num K) :=
  ((List.range (r.nr - 1)).flatMap (fun i => (List.range (r.nc - 1)).map (fun j => r.cell i j))).filter
    (fun v => !v.isNaN && !Num.eqF v 0)

/-- `_scale_param` (bootstrap.py:287-303): column sums, then their sum, over `dof`. -/
def scaleParam (t r : Tri K) : Num K :=
  Num.sumSkip ((List.range r.nc).map (fun j => Num.sumSkip ((r.col j).map (fun v => v.pow 2)))) /
    .fin ((bootDof t : Int) : K)

/-! ### simulations -/

/-- One row of the samples table. -/
structure SampRow (K : Type) where
  sim : ℕ
  origin : Int
  dev : Int
  incr : Num K
  fcst : Bool
  incrSqrt : Num K
  resid : Num K
  sampIncr : Num K
  sampCum : Num K

/-- Smallest development period with a fitted increment (`min_devp`, bootstrap.py:480). -/
def minDevp (m : Tri K) : Option Int := (m.toTbl.map Rec.dev).min?

/-- `incr` column: negative first fitted increments are replaced by 1 (bootstrap.py:481-484). -/
def bootIncr (m : Tri K) (i j : ℕ) : Num K :=
  if some (m.dAt j) = minDevp m ∧ Num.lt (m.cell i j) 0 = true then 1 else m.cell i j

/-- Rows before accumulation (bootstrap.py:486-512).  The outer merge sorts by (origin, dev); the table
is tiled `sims` times, residuals are drawn by row position and removed from forecast rows; the rows
are already in the order of the following `sort_values`. -/
def sampRows (sq : Num K → Num K) (m : Tri K) (sims : ℕ) (draw : ℕ → Num K) : List (SampRow K) :=
  (List.range sims).flatMap (fun s => (List.range m.nr).flatMap (fun i => (List.range m.nc).map (fun j =>
    let v := bootIncr m i j
    let r := if v.isNaN then Num.nan else draw (s * (m.nr * m.nc) + (i * m.nc + j))
    { sim := s, origin := m.oAt i, dev := m.dAt j, incr := v, fcst := v.isNaN, incrSqrt := sq v,
      resid := r, sampIncr := v + r * sq v, sampCum := .nan })))

/-- `_bs_samples` (bootstrap.py:427-514). -/
def bsSamples (sq : Num K → Num K) (m : Tri K) (sims : ℕ) (draw : ℕ → Num K) : List (SampRow K) :=
  let rows := sampRows sq m sims draw
  List.zipWith (fun r c => { r with sampCum := c }) rows
    (groupTransform (fun r : SampRow K => (r.sim, r.origin)) (fun l => cumsumL (l.map SampRow.sampIncr)) rows)

/-- One row of the table of simulated factors. -/
structure LdfRow (K : Type) where
  sim : ℕ
  dev : Int
  ldf : Num K

/-- `last_origin` of a development period (bootstrap.py:532-534). -/
def lastOrigin (t : Tri K) (d : Int) : Option Int :=
  ((List.range t.nc).find? (fun j => t.dAt j = d)).bind (fun j => (t.clvi j).map t.oAt)

/-- One row of `df2` (bootstrap.py:538): the sums of a (sim, dev) group. -/
structure AggRow (K : Type) where
  sim : ℕ
  dev : Int
  agg1 : Num K
  agg2 : Num K

/-- Groups of bootstrap.py:535-539 in key order: rows with a value, the column sum and the column sum
without the last origin of the period.  Groups without rows do not appear. -/
def aggRows (t : Tri K) (sims : ℕ) (samples : List (SampRow K)) : List (AggRow K) :=
  (List.range sims).flatMap (fun s => t.devs.filterMap (fun d =>
    let g := samples.filter (fun r => r.sim = s ∧ r.dev = d ∧ r.sampCum.isNaN = false)
    if g = [] then none
    else some { sim := s, dev := d, agg1 := Num.sumSkip (g.map SampRow.sampCum),
                agg2 := Num.sumSkip (g.map (fun r =>
                  if some r.origin = lastOrigin t d then 0 else r.sampCum)) }))

/-- `_bs_ldfs` (bootstrap.py:517-545): `_aggdev2` and `dev` are shifted by one row over the whole table,
rows with `_aggdev2 = 0` or a missing entry are dropped. -/
def bsLdfs (t : Tri K) (sims : ℕ) (samples : List (SampRow K)) : List (LdfRow K) :=
  let g := aggRows t sims samples
  (List.zip g (shift1 none (g.map some))).filterMap (fun p =>
    match p.2 with
    | none => none
    | some q =>
      if Num.eqF q.agg2 0 || q.agg2.isNaN || p.1.agg1.isNaN then none
      else some { sim := p.1.sim, dev := q.dev, ldf := p.1.agg1 / q.agg2 })

/-- One row of `dfcombined` (bootstrap.py:268-270): the sample row, its factor (NaN if none) and the last
observed development period of its origin. -/
structure CombRow (K : Type) where
  samp : SampRow K
  ldf : Num K
  lactDev : Option Int

/-- `_get_dfcombined` (bootstrap.py:252-270): left merges; several matching factors repeat the row. -/
def bsCombined (t : Tri K) (samples : List (SampRow K)) (ldfs : List (LdfRow K)) : List (CombRow K) :=
  samples.flatMap (fun r =>
    let la := ((List.range t.nr).find? (fun i => t.oAt i = r.origin)).bind (fun i => (t.rlvi i).map t.dAt)
    match ldfs.filter (fun l => l.sim = r.sim ∧ l.dev = r.dev) with
    | [] => [{ samp := r, ldf := .nan, lactDev := la }]
    | ms => ms.map (fun l => { samp := r, ldf := l.ldf, lactDev := la }))

/-- Not in `dfacts` (bootstrap.py:573-580): not the first origin and at or beyond the last observed
period. -/
def isFcstRow (minO : Option Int) (r : CombRow K) : Bool :=
  !(decide (some r.samp.origin = minO) || !(match r.lactDev with | some d => decide (d ≤ r.samp.dev) | none => false))

/-- One row of the forecast table: `samp_cum`, `l_act_cum` (NaN outside `dffcst`). -/
structure FcRow (K : Type) where
  sim : ℕ
  origin : Int
  dev : Int
  fcst : Bool
  sampCum : Num K
  lactCum : Num K

/-- Rows of `dffcst` with new cumulative values (bootstrap.py:580-597); entries carry their index label. -/
def fcstRows (fc : List (CombRow K × ℕ)) : List (FcRow K) :=
  let key := fun p : CombRow K × ℕ => (p.1.samp.sim, p.1.samp.origin)
  let lidx : List ℕ := groupTransform key (fun l => l.map (fun _ => ((l.map Prod.snd).min?).getD 0)) fc
  let lact : List (Num K) := lidx.map (fun k =>
    match fc.find? (fun p => p.2 = k) with | some p => p.1.samp.sampCum | none => .nan)
  let cl : List (Num K) := shift1 .nan (groupTransform key (fun l => cumprodL (l.map (fun p => p.1.ldf))) fc)
  List.zipWith (fun p q =>
    { sim := p.1.samp.sim, origin := p.1.samp.origin, dev := p.1.samp.dev, fcst := p.1.samp.fcst,
      sampCum := (if p.1.samp.sampCum.isNaN then 0 else p.1.samp.sampCum) +
        (if (q.1 * q.2).isNaN then 0 else q.1 * q.2),
      lactCum := q.1 }) fc (lact.zip cl)

/-- Put the updated rows back in their places: the `concat` and `sort_values` of bootstrap.py:598-599
restore the order (sim, origin, dev). -/
def mergeBack (p : CombRow K × ℕ → Bool) : List (CombRow K × ℕ) → List (FcRow K) → List (FcRow K)
  | [], _ => []
  | r :: rs, new =>
    if p r then
      match new with
      | v :: vs => v :: mergeBack p rs vs
      | [] => mergeBack p rs []
    else
      { sim := r.1.samp.sim, origin := r.1.samp.origin, dev := r.1.samp.dev, fcst := r.1.samp.fcst,
        sampCum := r.1.samp.sampCum, lactCum := .nan } :: mergeBack p rs new

/-- One row of the squared table (bootstrap.py:600-608). -/
structure SqrdRow (K : Type) where
  sim : ℕ
  origin : Int
  dev : Int
  fcst : Bool
  sampCum : Num K
  lactCum : Num K
  sampIncr : Num K
  sign : Num K

/-- `_bs_forecasts` (bootstrap.py:548-611).  The first period is recognised by the literal label 1. -/
def bsForecasts (t : Tri K) (samples : List (SampRow K)) (ldfs : List (LdfRow K)) : List (SqrdRow K) :=
  let comb := (bsCombined t samples ldfs).zipIdx
  let minO := (comb.map (fun p => p.1.samp.origin)).min?
  let pred := fun p : CombRow K × ℕ => isFcstRow minO p.1
  let rows := mergeBack pred comb (fcstRows (comb.filter pred))
  let d2 := groupTransform (fun r : FcRow K => (r.sim, r.origin)) (fun l => diffL (l.map FcRow.sampCum)) rows
  List.zipWith (fun r d =>
    let inc : Num K := (if r.dev = 1 then 1 else 0) * r.sampCum + (if d.isNaN then 0 else d)
    { sim := r.sim, origin := r.origin, dev := r.dev, fcst := r.fcst, sampCum := r.sampCum,
      lactCum := r.lactCum, sampIncr := inc, sign := if Num.lt 0 inc then 1 else .fin (-1) }) rows d2

/-- One row after process error. -/
structure ProcRow (K : Type) where
  base : SqrdRow K
  finalIncr : Num K
  ultimate : Num K

/-- `_bs_process_error` (bootstrap.py:615-683); `gam p a b` is the gamma draw of row `p` with shape `a`
and scale `b`. -/
def bsProcess (scale : Num K) (gam : ℕ → Num K → Num K → Num K) (rows : List (SqrdRow K)) :
    List (ProcRow K) :=
  let fin := rows.zipIdx.map (fun p =>
    (p.1, if p.1.fcst then gam p.2 (p.1.sampIncr / scale).abs' scale * p.1.sign else p.1.sampIncr))
  let cum := groupTransform (fun p : SqrdRow K × Num K => (p.1.sim, p.1.origin))
    (fun l => cumsumL (l.map Prod.snd)) fin
  List.zipWith (fun p c => { base := p.1, finalIncr := p.2, ultimate := c }) fin cum

/-- One row of the reserve distribution. -/
structure ResRow (K : Type) where
  sim : ℕ
  origin : Int
  latest : Num K
  ultimate : Num K
  reserve : Num K
  deriving DecidableEq

/-- `drop_duplicates` keeps first occurrences. -/
def dropDups {α : Type} [DecidableEq α] : List α → List α
  | [] => []
  | a :: l => a :: (dropDups l).filter (fun b => b ≠ a)

/-- Sort by (origin, sim), stable (bootstrap.py:710). -/
def insRes (r : ResRow K) : List (ResRow K) → List (ResRow K)
  | [] => [r]
  | s :: l => if r.origin < s.origin ∨ (r.origin = s.origin ∧ r.sim ≤ s.sim) then r :: s :: l
    else s :: insRes r l

/-- `sort_values(["origin", "sim"])` (bootstrap.py:710); the insertion sort is stable. -/
def sortRes (l : List (ResRow K)) : List (ResRow K) := l.foldr insRes []

/-- `_bs_reserves` (bootstrap.py:687-710).  Simplification: `drop_duplicates` compares NaN entries as
equal, as here. -/
def bsReserves (rows : List (ProcRow K)) : List (ResRow K) :=
  let maxD := (rows.map (fun r => r.base.dev)).max?
  let sel : List (ResRow K) := (rows.filter (fun r => some r.base.dev = maxD)).map (fun r =>
    { sim := r.base.sim, origin := r.base.origin, latest := r.base.lactCum, ultimate := r.ultimate,
      reserve := r.ultimate - r.base.lactCum })
  sortRes ((dropDups sel).map (fun r =>
    { r with latest := if r.latest.isNaN then r.ultimate else r.latest, reserve := nanToNum r.reserve }))

/-- The simulation part of `__call__` (bootstrap.py:169-181) for given draws. -/
structure SimResult (K : Type) where
  samples : List (SampRow K)
  ldfs : List (LdfRow K)
  forecasts : List (SqrdRow K)
  proc : List (ProcRow K)
  reserves : List (ResRow K)

/-- Samples, factors, forecasts, process error and reserves in the order of `__call__`
(bootstrap.py:169-181); the draws of both kinds are parameters. -/
def bootSims (sq : Num K → Num K) (t m : Tri K) (scale : Num K) (sims : ℕ) (draw : ℕ → Num K)
    (gam : ℕ → Num K → Num K → Num K) : SimResult K :=
  let samples := bsSamples sq m sims draw
  let ldfs := bsLdfs t sims samples
  let fc := bsForecasts t samples ldfs
  let pr := bsProcess scale gam fc
  { samples := samples, ldfs := ldfs, forecasts := fc, proc := pr, reserves := bsReserves pr }

/-! ### the call -/

/-- The fit of `__call__` (bootstrap.py:156-168). -/
structure BootFit (K : Type) where
  ldfs : Ser K
  sqr : Sqr K
  fitCum : Tri K
  fitIncr : Tri K
  residUs : Tri K
  residAdj : Tri K
  scale : Num K
  sampling : List (Num K)

/-- The fit in the order of `__call__` (bootstrap.py:156-168): the first failing step decides the error. -/
def bootFit (sq : Num K → Num K) (gm : List (Num K) → Num K) (t ind : Tri K) : Except PyErr (BootFit K) := do
  let ldfs ← ldfsByName gm t ind "all-weighted" 1
  let _ ← t.maturity
  let sqr ← trisqrdOf t ldfs
  let fc := triFitCum t (fun j => (ldfs.map Prod.snd).getD j .nan)
  let fi := triFitIncr fc
  let obs ← t.toIncr
  let ru := residUs sq obs fi
  let ra := residAdj sq t ru
  .ok { ldfs := ldfs, sqr := sqr, fitCum := fc, fitIncr := fi, residUs := ru, residAdj := ra,
        scale := scaleParam t ru, sampling := samplingDist ra }

/-- Mean of an array (NaN if a value is NaN). -/
def meanL (l : List (Num K)) : Num K := l.sum / .fin (l.length : K)

/-- `mean` of a group: missing values are skipped, without any other the mean is NaN. -/
def meanSkip (l : List (Num K)) : Num K := meanL (l.filter (fun v => !v.isNaN))

/-- `std(ddof=1)`; the divisor is `max(len - 1, 0)`, so fewer than two values give NaN. -/
def stdL (sq : Num K → Num K) (l : List (Num K)) : Num K :=
  sq ((l.map (fun x => (x - meanL l).pow 2)).sum / .fin ((l.length - 1 : ℕ) : K))

/-- Reported `ultimate` per origin (bootstrap.py:181-182): means over the simulations, the entry of the
first origin replaced by its latest value. -/
def bootUltimates (t : Tri K) (res : List (ResRow K)) : List (Num K) :=
  (List.range t.nr).map (fun i =>
    if i = 0 then Ser.get t.latestByOrigin (t.oAt 0)
    else meanSkip ((res.filter (fun r => r.origin = t.oAt i)).map ResRow.ultimate))

/-- Reported `reserve` per origin (bootstrap.py:184). -/
def bootReserves (t : Tri K) (res : List (ResRow K)) : List (Num K) :=
  List.zipWith (fun i u => u - Ser.get t.latestByOrigin (t.oAt i)) (List.range t.nr) (bootUltimates t res)

/-- Totals of the simulations (bootstrap.py:211, 732). -/
def bootTotals (sims : ℕ) (res : List (ResRow K)) : List (Num K) :=
  (List.range sims).map (fun s => Num.sumSkip ((res.filter (fun r => r.sim = s)).map ResRow.reserve))

/-- `_bs_std_error` (bootstrap.py:714-736): per origin, and for the total. -/
def bootStdErr (sq : Num K → Num K) (t : Tri K) (sims : ℕ) (res : List (ResRow K)) : List (Num K) :=
  t.origins.map (fun o => stdL sq ((res.filter (fun r => r.origin = o)).map ResRow.reserve)) ++
    [stdL sq (bootTotals sims res)]

/-- The `random_state` argument. -/
inductive RandArg
  | none
  | int (k : Int)
  | state (ref : ℕ)
  | other

/-- A pseudo random number generator with state `S`: `RandomState(seed)` (may raise), and the three
drawing methods used by the code. -/
structure Prng (S K : Type) where
  seed : Int → Except PyErr S
  choice : List (Num K) → ℕ → S → List (Num K) × S
  normal : Num K → ℕ → S → List (Num K) × S
  gamma : List (Num K) → Num K → S → List (Num K) × S

/-- Generators in existence: those held by the caller, and the stream of fresh operating system seeds. -/
structure World (S : Type) where
  gens : ℕ → S
  fresh : ℕ → S
  used : ℕ

/-- Selection of the generator (bootstrap.py:466-472, 655-661): state to draw from and what happens to
the world when the state after drawing is known.  Any other argument leaves `prng` unbound. -/
def getGen {S : Type} (P : Prng S K) (w : World S) : RandArg → Except PyErr (S × (S → World S))
  | .none => .ok (w.fresh w.used, fun _ => { w with used := w.used + 1 })
  | .int k => (P.seed k).map (fun s => (s, fun _ => w))
  | .state r => .ok (w.gens r, fun s => { w with gens := fun x => if x = r then s else w.gens x })
  | .other => .error .unboundLocalError

/-- Result of `boot_cl` before quantiles are attached. -/
structure BootResult (K : Type) where
  fit : BootFit K
  sim : SimResult K
  ultimates : List (Num K)
  reserves : List (Num K)
  stdErr : List (Num K)

/-- `BootstrapChainLadder.__call__` (bootstrap.py:104-213) without quantiles.  `isGamma` is the outcome of
`procdist.strip().lower() == "gamma"`.  `choice` from an empty array raises `ValueError`. -/
def bootCall {S : Type} (P : Prng S K) (sq : Num K → Num K) (gm : List (Num K) → Num K) (t ind : Tri K)
    (sims : ℕ) (isGamma parametric : Bool) (arg : RandArg) (w : World S) :
    Except PyErr (BootResult K × World S) := do
  let fit ← bootFit sq gm t ind
  let size := sims * (t.nr * t.nc)
  let (s1, put1) ← getGen P w arg
  let (draws, s1') ←
    if parametric then Except.ok (P.normal (stdL sq fit.sampling) size s1)
    else if fit.sampling = [] ∧ size ≠ 0 then .error .valueError
    else .ok (P.choice fit.sampling size s1)
  let w1 := put1 s1'
  let samples := bsSamples sq fit.fitIncr sims (fun p => draws.getD p .nan)
  let ldfs := bsLdfs t sims samples
  let fc := bsForecasts t samples ldfs
  let (s2, put2) ← getGen P w1 arg
  if isGamma = false then .error .valueError
  else
    let (gs, s2') := P.gamma (fc.map (fun r => (r.sampIncr / fit.scale).abs')) fit.scale s2
    let sim := bootSims sq t fit.fitIncr fit.scale sims (fun p => draws.getD p .nan)
      (fun p _ _ => gs.getD p .nan)
    .ok ({ fit := fit, sim := sim, ultimates := bootUltimates t sim.reserves,
           reserves := bootReserves t sim.reserves, stdErr := bootStdErr sq t sims sim.reserves },
      put2 s2')

end

end Trikit
