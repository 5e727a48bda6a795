import Verif.Frame

/-!
# Data of the development plot

The numbers `_combined_view` (triangle.py:943-1012) and `_faceted_view` (triangle.py:1015-1098) hand to the drawing
library.  Colours, markers and axes are left out.
-/

set_option linter.unusedSectionVars false

namespace Trikit

section
variable {K : Type} [Field K] [LinearOrder K]

/-- One line of the combined view: its label and its points (triangle.py:985-995). -/
structure ViewLine (K : Type) where
  label : Int
  points : List (Int × Num K)
  deriving DecidableEq

/-- `grps.get_group(o)` (triangle.py:970): the rows of an origin, `KeyError` without any. -/
def getGroup (data : List (Rec K)) (o : Int) : Except PyErr (List (Rec K)) :=
  match data.filter (fun r => decide (r.origin = o)) with
  | [] => .error .keyError
  | r :: l => .ok (r :: l)

/-- `[grps.get_group(ii) for ii in self.origins]` (triangle.py:970). -/
def getGroups (data : List (Rec K)) : List Int → Except PyErr (List (List (Rec K)))
  | [] => .ok []
  | o :: os => do
    let g ← getGroup data o
    let gs ← getGroups data os
    .ok (g :: gs)

/-- The line of a group: the label is the origin of its first row (triangle.py:986-995). -/
def viewLine (g : List (Rec K)) : ViewLine K :=
  ⟨(g.map Rec.origin).headD 0, g.map (fun r => (r.dev, r.value))⟩

/-- `_combined_view` (triangle.py:968-1006): the lines and the ticks.  The columns are read under the default
names: `data.dev` raises `AttributeError` and `dforg["value"]` `KeyError` under others.  Simplification: the three
names of the object are distinct.  Only cumulative triangles have the method (triangle.py:860). -/
def TriObj.combinedView (x : TriObj K) : Except PyErr (List (ViewLine K) × List Int) := do
  if x.cum = false then .error .attributeError
  let data ← x.toTbl
  let gs ← getGroups data x.tri.origins
  if x.d ≠ "dev" then .error .attributeError
  else if x.v ≠ "value" ∧ gs ≠ [] then .error .keyError
  else .ok (gs.map viewLine, labels (data.map Rec.dev))

/-- `_faceted_view` (triangle.py:1052-1074): one panel per origin of the table, in ascending order (the column is
numeric), with its title, its points and the common ticks.  A missing column raises `KeyError` in `g.map`.
Simplification: the texts of the y ticks (triangle.py:1076-1085) are left out; an empty table has no panels. -/
def TriObj.facetedView (x : TriObj K) : Except PyErr (List (ViewLine K) × List Int) := do
  if x.cum = false then .error .attributeError
  let data ← x.toTbl
  if (x.d ≠ "dev" ∨ x.v ≠ "value") ∧ data ≠ [] then .error .keyError
  else if x.d ≠ "dev" then .error .attributeError
  else .ok ((labels (data.map Rec.origin)).map (fun o =>
      ⟨o, (data.filter (fun r => decide (r.origin = o))).map (fun r => (r.dev, r.value))⟩),
    labels (data.map Rec.dev))

/-- `CumTriangle.plot(display)` (triangle.py:932-940): every text that starts with "f" means the faceted view. -/
def TriObj.plotView (x : TriObj K) (display : String) : Except PyErr (List (ViewLine K) × List Int) :=
  if display.startsWith "f" then x.facetedView else x.combinedView

end

end Trikit
