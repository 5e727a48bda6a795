import Verif.RoundedBoot

/-!
# Simulations of the bootstrap chain ladder in rounded arithmetic

The functions of `Bootstrap.lean` after the fit, every operation rounded by `rd`.  pandas adds within groups with
compensation (`group_sum`, `group_cumsum`) and multiplies without (`group_cumprod`).  `sq` stands for `np.sqrt` as it
rounds; residual draws and gamma draws are arbitrary, the gamma draws may depend on the shape as computed.
Simplifications: as in `Rounded.lean` and `RoundedTri.lean`, no overflow.
-/

set_option linter.unusedSectionVars false

namespace Trikit

section
variable {K : Type} [Field K] [LinearOrder K]

/-- `cumsum()` of a group, see `cumsumGo`; the state holds total and compensation.  Simplification: a compensation that is
NaN (after infinite values) is reset as in `kahanStep`. -/
def kcumsumGo (rd : K → K) (s : Num K × Num K) : List (Num K) → List (Num K)
  | [] => []
  | v :: l =>
    if v.isNaN then .nan :: kcumsumGo rd s l
    else (kahanStep rd s v).1 :: kcumsumGo rd (kahanStep rd s v) l

/-- `groupby(...).cumsum()` within one group (bootstrap.py:513, 681), see `cumsumL`. -/
def kcumsumL (rd : K → K) (l : List (Num K)) : List (Num K) := kcumsumGo rd (0, 0) l

/-- `cumprod` of a group, see `cumprodGo`. -/
def cumprodGoR (rd : K → K) (acc : Num K) : List (Num K) → List (Num K)
  | [] => []
  | v :: l => if v.isNaN then .nan :: cumprodGoR rd acc l else Num.mulR rd acc v :: cumprodGoR rd (Num.mulR rd acc v) l

/-- `groupby(...).transform("cumprod")` within one group (bootstrap.py:585-586), see `cumprodL`. -/
def cumprodLR (rd : K → K) (l : List (Num K)) : List (Num K) := cumprodGoR rd 1 l

/-- `diff(periods=1)` within one group (bootstrap.py:602), see `diffL`. -/
def diffLR (rd : K → K) (l : List (Num K)) : List (Num K) := List.zipWith (Num.subR rd) l (shift1 .nan l)

/-- Rows before accumulation (bootstrap.py:486-512), see `sampRows`. -/
def sampRowsR (rd : K → K) (sq : Num K → Num K) (m : Tri K) (sims : ℕ) (draw : ℕ → Num K) : List (SampRow K) :=
  (List.range sims).flatMap (fun s => (List.range m.nr).flatMap (fun i => (List.range m.nc).map (fun j =>
    let v := bootIncr m i j
    let r := if v.isNaN then Num.nan else draw (s * (m.nr * m.nc) + (i * m.nc + j))
    { sim := s, origin := m.oAt i, dev := m.dAt j, incr := v, fcst := v.isNaN, incrSqrt := sq v,
      resid := r, sampIncr := Num.addR rd v (Num.mulR rd r (sq v)), sampCum := .nan })))

/-- `_bs_samples` (bootstrap.py:427-514), see `bsSamples`. -/
def bsSamplesR (rd : K → K) (sq : Num K → Num K) (m : Tri K) (sims : ℕ) (draw : ℕ → Num K) : List (SampRow K) :=
  let rows := sampRowsR rd sq m sims draw
  List.zipWith (fun r c => { r with sampCum := c }) rows
    (groupTransform (fun r : SampRow K => (r.sim, r.origin)) (fun l => kcumsumL rd (l.map SampRow.sampIncr)) rows)

/-- Groups of bootstrap.py:535-539, see `aggRows`.  The rows of a group are in the order of the origins
(bootstrap.py:536). -/
def aggRowsR (rd : K → K) (t : Tri K) (sims : ℕ) (samples : List (SampRow K)) : List (AggRow K) :=
  (List.range sims).flatMap (fun s => t.devs.filterMap (fun d =>
    let g := samples.filter (fun r => r.sim = s ∧ r.dev = d ∧ r.sampCum.isNaN = false)
    if g = [] then none
    else some { sim := s, dev := d, agg1 := kahanSum rd (g.map SampRow.sampCum),
                agg2 := kahanSum rd (g.map (fun r =>
                  if some r.origin = lastOrigin t d then 0 else r.sampCum)) }))

/-- `_bs_ldfs` (bootstrap.py:517-545), see `bsLdfs`. -/
def bsLdfsR (rd : K → K) (t : Tri K) (sims : ℕ) (samples : List (SampRow K)) : List (LdfRow K) :=
  let g := aggRowsR rd t sims samples
  (List.zip g (shift1 none (g.map some))).filterMap (fun p =>
    match p.2 with
    | none => none
    | some q =>
      if Num.eqF q.agg2 0 || q.agg2.isNaN || p.1.agg1.isNaN then none
      else some { sim := p.1.sim, dev := q.dev, ldf := Num.divR rd p.1.agg1 q.agg2 })

/-- Rows of `dffcst` with new cumulative values (bootstrap.py:580-597), see `fcstRows`. -/
def fcstRowsR (rd : K → K) (fc : List (CombRow K × ℕ)) : List (FcRow K) :=
  let key := fun p : CombRow K × ℕ => (p.1.samp.sim, p.1.samp.origin)
  let lidx : List ℕ := groupTransform key (fun l => l.map (fun _ => ((l.map Prod.snd).min?).getD 0)) fc
  let lact : List (Num K) := lidx.map (fun k =>
    match fc.find? (fun p => p.2 = k) with | some p => p.1.samp.sampCum | none => .nan)
  let cl : List (Num K) := shift1 .nan (groupTransform key (fun l => cumprodLR rd (l.map (fun p => p.1.ldf))) fc)
  List.zipWith (fun p q =>
    { sim := p.1.samp.sim, origin := p.1.samp.origin, dev := p.1.samp.dev, fcst := p.1.samp.fcst,
      sampCum := Num.addR rd (if p.1.samp.sampCum.isNaN then 0 else p.1.samp.sampCum)
        (if (Num.mulR rd q.1 q.2).isNaN then 0 else Num.mulR rd q.1 q.2),
      lactCum := q.1 }) fc (lact.zip cl)

/-- `_bs_forecasts` (bootstrap.py:548-611), see `bsForecasts`. -/
def bsForecastsR (rd : K → K) (t : Tri K) (samples : List (SampRow K)) (ldfs : List (LdfRow K)) : List (SqrdRow K) :=
  let comb := (bsCombined t samples ldfs).zipIdx
  let minO := (comb.map (fun p => p.1.samp.origin)).min?
  let pred := fun p : CombRow K × ℕ => isFcstRow minO p.1
  let rows := mergeBack pred comb (fcstRowsR rd (comb.filter pred))
  let d2 := groupTransform (fun r : FcRow K => (r.sim, r.origin)) (fun l => diffLR rd (l.map FcRow.sampCum)) rows
  List.zipWith (fun r d =>
    let inc : Num K := Num.addR rd (Num.mulR rd (if r.dev = 1 then 1 else 0) r.sampCum) (if d.isNaN then 0 else d)
    { sim := r.sim, origin := r.origin, dev := r.dev, fcst := r.fcst, sampCum := r.sampCum,
      lactCum := r.lactCum, sampIncr := inc, sign := if Num.lt 0 inc then 1 else .fin (-1) }) rows d2

/-- `_bs_process_error` (bootstrap.py:615-683), see `bsProcess`. -/
def bsProcessR (rd : K → K) (scale : Num K) (gam : ℕ → Num K → Num K → Num K) (rows : List (SqrdRow K)) :
    List (ProcRow K) :=
  let fin := rows.zipIdx.map (fun p =>
    (p.1, if p.1.fcst then Num.mulR rd (gam p.2 (Num.divR rd p.1.sampIncr scale).abs' scale) p.1.sign
      else p.1.sampIncr))
  let cum := groupTransform (fun p : SqrdRow K × Num K => (p.1.sim, p.1.origin))
    (fun l => kcumsumL rd (l.map Prod.snd)) fin
  List.zipWith (fun p c => { base := p.1, finalIncr := p.2, ultimate := c }) fin cum

/-- `_bs_reserves` (bootstrap.py:687-710), see `bsReserves`. -/
def bsReservesR (rd : K → K) (rows : List (ProcRow K)) : List (ResRow K) :=
  let maxD := (rows.map (fun r => r.base.dev)).max?
  let sel : List (ResRow K) := (rows.filter (fun r => some r.base.dev = maxD)).map (fun r =>
    { sim := r.base.sim, origin := r.base.origin, latest := r.base.lactCum, ultimate := r.ultimate,
      reserve := Num.subR rd r.ultimate r.base.lactCum })
  sortRes ((dropDups sel).map (fun r =>
    { r with latest := if r.latest.isNaN then r.ultimate else r.latest, reserve := nanToNum r.reserve }))

/-- The simulation part of `__call__` (bootstrap.py:169-181) for given draws, see `bootSims`. -/
def bootSimsR (rd : K → K) (sq : Num K → Num K) (t m : Tri K) (scale : Num K) (sims : ℕ) (draw : ℕ → Num K)
    (gam : ℕ → Num K → Num K → Num K) : SimResult K :=
  let samples := bsSamplesR rd sq m sims draw
  let ldfs := bsLdfsR rd t sims samples
  let fc := bsForecastsR rd t samples ldfs
  let pr := bsProcessR rd scale gam fc
  { samples := samples, ldfs := ldfs, forecasts := fc, proc := pr, reserves := bsReservesR rd pr }

end

end Trikit
