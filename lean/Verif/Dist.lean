import Verif.Bootstrap
import Verif.Diagnostics

/-!
# Tables of simulated reserves

Models of `reserve_dist` (bootstrap.py:210-213), `origin_dist` (bootstrap.py:906-919) and of the numbers behind
`hist` (bootstrap.py:1338-1376).  Drawing, tick labels and annotations are not modelled.
-/

set_option linter.unusedSectionVars false

namespace Trikit

section
variable {K : Type} [Field K] [LinearOrder K]

/-- Row of `reserve_dist`; the origin `"total"` is `none`. -/
structure DistRow (K : Type) where
  sim : ℕ
  origin : Option Int
  latest : Num K
  ultimate : Num K
  reserve : Num K
  deriving DecidableEq

/-- A simulated reserve as row of `reserve_dist`. -/
def ResRow.toDist (r : ResRow K) : DistRow K := ⟨r.sim, some r.origin, r.latest, r.ultimate, r.reserve⟩

/-- Sums of the three amounts (`sum` skips missing values). -/
def sumDist (sim : ℕ) (origin : Option Int) (l : List (DistRow K)) : DistRow K :=
  ⟨sim, origin, Num.sumSkip (l.map DistRow.latest), Num.sumSkip (l.map DistRow.ultimate),
    Num.sumSkip (l.map DistRow.reserve)⟩

/-- `reserve_dist` (bootstrap.py:210-213): the simulated reserves followed by one row per simulation with the
sums, in order of the simulations. -/
def reserveDist (res : List (ResRow K)) : List (DistRow K) :=
  let d := res.map ResRow.toDist
  d ++ (labels (res.map (fun r => (r.sim : Int)))).map (fun s =>
    sumDist s.toNat none (d.filter (fun r => (r.sim : Int) = s)))

/-- Distinct origins in sorting order: pandas sorts a mixed column with numbers before strings. -/
def originKeys (l : List (DistRow K)) : List (Option Int) :=
  (labels (l.filterMap DistRow.origin)).map some ++ (if l.any (fun r => r.origin.isNone) then [none] else [])

/-- `origin_dist` (bootstrap.py:915-918): grouped by simulation and origin, in sorting order. -/
def originDist (d : List (DistRow K)) : List (DistRow K) :=
  (labels (d.map (fun r => (r.sim : Int)))).flatMap (fun s =>
    (originKeys (d.filter (fun r => (r.sim : Int) = s))).map (fun o =>
      sumDist s.toNat o (d.filter (fun r => decide ((r.sim : Int) = s) && decide (r.origin = o)))))

/-- `max` of a group (missing values skipped). -/
def numMax (l : List (Num K)) : Num K :=
  match l.filter (fun v => !v.isNaN) with
  | [] => .nan
  | a :: l => l.foldl (fun m v => if Num.le m v then v else m) a

/-- `0 if v < 0 else v` (bootstrap.py:1346). -/
def clipNeg (v : Num K) : Num K := if Num.lt v 0 then 0 else v

/-- One panel of `hist`: its label, the origin whose reserves it shows, those reserves, the upper end of its axis (the
lower end is 0) and the position of the line at the median. -/
structure HistPanel (K : Type) where
  label : Option Int
  shows : Option Int
  data : List (Num K)
  xmax : Num K
  xmed : Num K
  deriving DecidableEq

/-- Reserves of an origin. -/
def reservesOf' (d : List (DistRow K)) (o : Option Int) : List (Num K) :=
  (d.filter (fun r => decide (r.origin = o))).map DistRow.reserve

/-- The panels of `hist` (bootstrap.py:1338-1376).  Panels are filled in order of first appearance (the column is not
numeric) and labelled in the order of `origin_order`; without numeric origins `max` raises.  `npMedian`
is the median of the present values. -/
def histPanels (d : List (DistRow K)) : Except PyErr (List (HistPanel K)) :=
  if d.filterMap DistRow.origin = [] then .error .valueError
  else .ok (((originKeys d).zip (dropDups (d.map DistRow.origin))).map (fun p =>
    { label := p.1, shows := p.2, data := reservesOf' d p.2,
      xmax := clipNeg (numMax (reservesOf' d p.1)) * .fin (41 / 40),
      xmed := clipNeg (npMedian (reservesOf' d p.1)) }))

end

end Trikit
