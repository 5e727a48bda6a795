import Verif.Averages

/-!
# Lazily computed attributes (`trikit/triangle.py:126-297, 577-605`)

Each property of a triangle computes its value once, stores it on the object and returns the stored
value from then on.  `ObjState` is the object: the frame and the stored values.  Tables are lists of
the right length, so that equality of stored and recomputed values is equality of the frames.

Simplification: modelled for frames without an entirely missing row or column (all triangles built
from finite or missing records); otherwise `clvi`/`rlvi` raise half way through.
-/

set_option linter.unusedSectionVars false

namespace Trikit

variable {K : Type}

/-- The attributes modelled. -/
inductive Attr
  | nbrCells | triind | rlvi | clvi | latest | latestByOrigin | latestByDevp | devp | origins
  | maturity | a2a | a2aind
  deriving DecidableEq, Repr

/-- Values of attributes. -/
inductive AttrVal (K : Type)
  | count (n : ℕ)
  | ind (l : List (List Bool))
  | offs (l : List (Option ℕ))
  | recs (l : List (Rec K))
  | ser (l : List (Int × Num K))
  | labs (l : List Int)
  | mat (r : Except PyErr (List Int))
  | frame (origins devs : List Int) (rows : List (List (Num K)))
  deriving DecidableEq

/-- A triangle object with its stored attributes. -/
structure ObjState (K : Type) where
  tri : Tri K
  nbrCells : Option ℕ := none
  triind : Option (List (List Bool)) := none
  rlvi : Option (List (Option ℕ)) := none
  clvi : Option (List (Option ℕ)) := none
  latest : Option (List (Rec K)) := none
  latestByOrigin : Option (List (Int × Num K)) := none
  latestByDevp : Option (List (Int × Num K)) := none
  devp : Option (List Int) := none
  origins : Option (List Int) := none
  maturity : Option (List Int) := none
  a2a : Option (Tri K) := none
  a2aind : Option (Tri K) := none

/-- `clvi["row_offset"]` as a column. -/
def Tri.clviL (t : Tri K) : List (Option ℕ) := (List.range t.nc).map t.clvi

/-- `rlvi["col_offset"]` as a column. -/
def Tri.rlviL (t : Tri K) : List (Option ℕ) := (List.range t.nr).map t.rlvi

/-- `triind` computed from the stored `clvi` (triangle.py:150-155). -/
def triindFrom (nr : ℕ) (cl : List (Option ℕ)) : List (List Bool) :=
  (List.range nr).map (fun i => cl.map (fun r => match r with
    | some r => decide (r < i)
    | none => false))

/-- `maturity` computed from the stored `triind` (triangle.py:290-296). -/
def maturityFrom (t : Tri K) (ind : List (List Bool)) : Except PyErr (List Int) :=
  ind.mapM (fun row =>
    match Tri.lastZero (fun j => row.getD j true) t.nc with
    | some j => .ok (t.dAt j)
    | none => .error .valueError)

/-- Series (dev, latest) of triangle.py:245-249; `sort_index` by development period. -/
def insSer (p : Int × Num K) : List (Int × Num K) → List (Int × Num K)
  | [] => [p]
  | q :: l => if p.1 ≤ q.1 then p :: q :: l else q :: insSer p l

/-- `latest_by_devp` from the stored `latest`. -/
def byDevpFrom (l : List (Rec K)) : List (Int × Num K) :=
  (l.map (fun r => (r.dev, r.value))).foldr insSer []

/-- `latest_by_origin` from the stored `latest`. -/
def byOriginFrom (l : List (Rec K)) : List (Int × Num K) := l.map (fun r => (r.origin, r.value))

section
variable [Field K] [LinearOrder K]

/-- `a2aind` from the stored `a2a` (triangle.py:604). -/
def a2aindFrom (a : Tri K) : Tri K :=
  { a with cell := fun i j => if (a.cell i j).isNaN then 0 else 1 }

/-- A frame as data. -/
def frameVal (t : Tri K) : AttrVal K :=
  .frame t.origins t.devs ((List.range t.nr).map t.row)

/-- The value computed from scratch. -/
def fresh (t : Tri K) : Attr → AttrVal K
  | .nbrCells => .count t.nbrCells
  | .triind => .ind ((List.range t.nr).map (fun i => (List.range t.nc).map (t.triindAt i)))
  | .rlvi => .offs t.rlviL
  | .clvi => .offs t.clviL
  | .latest => .recs t.latest
  | .latestByOrigin => .ser t.latestByOrigin
  | .latestByDevp => .ser (byDevpFrom t.latest)
  | .devp => .labs t.devs
  | .origins => .labs t.origins
  | .maturity => .mat ((List.range t.nr).mapM (fun i =>
      match Tri.lastZero (t.triindAt i) t.nc with
      | some j => .ok (t.dAt j)
      | none => .error .valueError))
  | .a2a => frameVal t.a2a
  | .a2aind => frameVal t.a2aind0

/-- Reading `clvi`. -/
def readClvi (s : ObjState K) : List (Option ℕ) × ObjState K :=
  match s.clvi with
  | some v => (v, s)
  | none => (s.tri.clviL, { s with clvi := some s.tri.clviL })

/-- Reading `triind`: reads `clvi`. -/
def readTriind (s : ObjState K) : List (List Bool) × ObjState K :=
  match s.triind with
  | some v => (v, s)
  | none =>
    let r := readClvi s
    let v := triindFrom s.tri.nr r.1
    (v, { r.2 with triind := some v })

/-- Reading `latest`. -/
def readLatest (s : ObjState K) : List (Rec K) × ObjState K :=
  match s.latest with
  | some v => (v, s)
  | none => (s.tri.latest, { s with latest := some s.tri.latest })

/-- Reading `a2a`. -/
def readA2a (s : ObjState K) : Tri K × ObjState K :=
  match s.a2a with
  | some v => (v, s)
  | none => (s.tri.a2a, { s with a2a := some s.tri.a2a })

/-- Reading `nbr_cells`. -/
def readNbr (s : ObjState K) : ℕ × ObjState K :=
  match s.nbrCells with
  | some v => (v, s)
  | none => (s.tri.nbrCells, { s with nbrCells := some s.tri.nbrCells })

/-- Reading `rlvi`. -/
def readRlvi (s : ObjState K) : List (Option ℕ) × ObjState K :=
  match s.rlvi with
  | some v => (v, s)
  | none => (s.tri.rlviL, { s with rlvi := some s.tri.rlviL })

/-- Reading `latest_by_origin`: reads `latest`. -/
def readByOrigin (s : ObjState K) : List (Int × Num K) × ObjState K :=
  match s.latestByOrigin with
  | some v => (v, s)
  | none =>
    (byOriginFrom (readLatest s).1,
      { (readLatest s).2 with latestByOrigin := some (byOriginFrom (readLatest s).1) })

/-- Reading `latest_by_devp`: reads `latest`. -/
def readByDevp (s : ObjState K) : List (Int × Num K) × ObjState K :=
  match s.latestByDevp with
  | some v => (v, s)
  | none =>
    (byDevpFrom (readLatest s).1,
      { (readLatest s).2 with latestByDevp := some (byDevpFrom (readLatest s).1) })

/-- Reading `devp`. -/
def readDevp (s : ObjState K) : List Int × ObjState K :=
  match s.devp with
  | some v => (v, s)
  | none => (s.tri.devs, { s with devp := some s.tri.devs })

/-- Reading `origins`. -/
def readOrigins (s : ObjState K) : List Int × ObjState K :=
  match s.origins with
  | some v => (v, s)
  | none => (s.tri.origins, { s with origins := some s.tri.origins })

/-- Reading `maturity`: reads `triind`; nothing is stored when the computation raises. -/
def readMaturity (s : ObjState K) : Except PyErr (List Int) × ObjState K :=
  match s.maturity with
  | some v => (.ok v, s)
  | none =>
    match maturityFrom s.tri (readTriind s).1 with
    | .ok v => (.ok v, { (readTriind s).2 with maturity := some v })
    | .error e => (.error e, (readTriind s).2)

/-- Reading `a2aind`: reads `a2a`. -/
def readA2aind (s : ObjState K) : Tri K × ObjState K :=
  match s.a2aind with
  | some v => (v, s)
  | none =>
    (a2aindFrom (readA2a s).1, { (readA2a s).2 with a2aind := some (a2aindFrom (readA2a s).1) })

/-- Reading an attribute: the value returned and the object afterwards. -/
def readAttr (s : ObjState K) : Attr → AttrVal K × ObjState K
  | .nbrCells => (.count (readNbr s).1, (readNbr s).2)
  | .triind => (.ind (readTriind s).1, (readTriind s).2)
  | .rlvi => (.offs (readRlvi s).1, (readRlvi s).2)
  | .clvi => (.offs (readClvi s).1, (readClvi s).2)
  | .latest => (.recs (readLatest s).1, (readLatest s).2)
  | .latestByOrigin => (.ser (readByOrigin s).1, (readByOrigin s).2)
  | .latestByDevp => (.ser (readByDevp s).1, (readByDevp s).2)
  | .devp => (.labs (readDevp s).1, (readDevp s).2)
  | .origins => (.labs (readOrigins s).1, (readOrigins s).2)
  | .maturity => (.mat (readMaturity s).1, (readMaturity s).2)
  | .a2a => (frameVal (readA2a s).1, (readA2a s).2)
  | .a2aind => (frameVal (readA2aind s).1, (readA2aind s).2)

/-- A sequence of reads: the values returned and the object afterwards. -/
def readAll (s : ObjState K) : List Attr → List (AttrVal K) × ObjState K
  | [] => ([], s)
  | a :: l =>
    let r := readAttr s a
    let rs := readAll r.2 l
    (r.1 :: rs.1, rs.2)

/-- The object returned by `totri(data, tri_type="cum")` with everything its fill loop has stored
(triangle.py:1395-1406 reads `triind`, hence `clvi`, when there are two or more columns). -/
def totriCumState (recs : List (Rec K)) : Except PyErr (ObjState K) := do
  let u ← cumTri recs
  let o ← fillObj u
  let u0 : Tri K := { u with cell := fun i j =>
    if i = 0 ∧ j = 0 ∧ (u.cell 0 0).isNaN = true then 1 else u.cell i j }
  pure { tri := o.tri
         clvi := if u.nc ≤ 1 then none else some u0.clviL
         triind := o.triindC.map (fun ind =>
           (List.range u.nr).map (fun i => (List.range u.nc).map (ind i))) }

end

end Trikit
