import Verif.Averages

/-!
# The exclusion indicator `a2aind` as mutable state (`trikit/triangle.py:592-697`)
-/

set_option linter.unusedSectionVars false

namespace Trikit

variable {K : Type}

/-- A cumulative triangle object: its cells and the stored `_a2aind` (`None` until first read,
triangle.py:462-476). -/
structure IndState (K : Type) where
  tri : Tri K
  ind : Option (Tri K) := none

/-- `frame.at[o, d] = v`: overwrites an existing cell; absent labels are appended, the other new
cells are NaN. -/
def Tri.setAt (f : Tri K) (o d : Int) (v : Num K) : Tri K :=
  let os := if o ∈ f.origins then f.origins else f.origins ++ [o]
  let ds := if d ∈ f.devs then f.devs else f.devs ++ [d]
  { origins := os, devs := ds,
    cell := fun i j => if os[i]? = some o ∧ ds[j]? = some d then v
      else if i < f.nr ∧ j < f.nc then f.cell i j else .nan }

/-- An assignment `tri.a2aind = (origin, dev, value)`. -/
structure Assign (K : Type) where
  origin : Int
  dev : Int
  value : Num K

/-- Setter of `a2aind` (triangle.py:608-697): `None.at` raises `AttributeError` when the attribute
has never been read. -/
def IndState.assign (s : IndState K) (a : Assign K) : Except PyErr (IndState K) :=
  match s.ind with
  | none => .error .attributeError
  | some f => .ok { s with ind := some (f.setAt a.origin a.dev a.value) }

/-- A sequence of assignments. -/
def IndState.assignAll (s : IndState K) (l : List (Assign K)) : Except PyErr (IndState K) :=
  l.foldlM IndState.assign s

variable [Field K] [LinearOrder K]

/-- Reading `a2aind` (triangle.py:592-605). -/
def IndState.read (s : IndState K) : IndState K × Tri K :=
  match s.ind with
  | some f => (s, f)
  | none => ({ s with ind := some s.tri.a2aind0 }, s.tri.a2aind0)

/-- `a2a_avgs` on an object: reads `a2aind` (triangle.py:803). -/
def IndState.avgs (gm : List (Num K) → Num K) (s : IndState K) :
    IndState K × Except PyErr (AvgTable K) :=
  (s.read.1, a2aAvgs gm s.tri s.read.2)

end Trikit
