import Verif.Frame
import Mathlib.Data.List.Sort
import Mathlib.Data.String.Basic

/-!
# Sample data (`trikit/utils.py`) and axis ticks (`trikit/estimators/base.py`:335-359)

A file is its parsed content: CSV parsing is not modelled.
-/

set_option linter.unusedSectionVars false

namespace Trikit

variable {K : Type}

/-- One row of the loss reserving database, restricted to the columns the code reads
(utils.py:109-111). -/
structure LrdbRow (K : Type) where
  lossKey : String
  grcode : Int
  grname : String
  origin : Int
  dev : Int
  incrd : Num K
  paid : Num K
  train : Int

/-- What the loaders return: a table or a triangle. -/
inductive Loaded (K : Type) where
  | table (l : List (Rec K))
  | tri (x : TriObj K)

/-- `s.startswith("c")` for one character. -/
def beginsWith (c : Char) (s : String) : Bool := s.toList.head? == some c

section
variable [Field K] [LinearOrder K]

/-- The last step of both loaders (utils.py:38-44, 140-147): optional conversion with `totri`, all other
arguments at their defaults.  The check is case sensitive. -/
def asLoaded (l : List (Rec K)) : Option String → Except PyErr (Loaded K)
  | none => .ok (.table l)
  | some ty =>
    if beginsWith 'c' ty || beginsWith 'i' ty then
      (totri (fun _ _ => .error .keyError) [.table (Frame.ofRecs "origin" "dev" "value" l)] 0 ty "incr"
        "tabular" "origin" "dev" "value").2.map .tri
    else .error .valueError

/-- One `if x is not None: ... not in unique(): raise ValueError ... else: filter` block
(utils.py:113-129). -/
def lrdbFilter {α : Type} [DecidableEq α] (key : LrdbRow K → α) (x : Option α)
    (rows : List (LrdbRow K)) : Except PyErr (List (LrdbRow K)) :=
  match x with
  | none => .ok rows
  | some a =>
    if a ∈ rows.map key then .ok (rows.filter (fun r => decide (key r = a))) else .error .valueError

/-- `_load_lrdb` (utils.py:50-149). -/
def loadLrdb (rows : List (LrdbRow K)) (triType : Option String) (lossType : String)
    (lob : Option String) (grcode : Option Int) (grname : Option String) (trainOnly : Bool) :
    Except PyErr (Loaded K) := do
  if !(beginsWith 'p' lossType || beginsWith 'i' lossType) then .error .valueError
  else
    let r1 ← lrdbFilter LrdbRow.lossKey lob rows
    let r2 ← lrdbFilter LrdbRow.grcode grcode r1
    let r3 ← lrdbFilter LrdbRow.grname grname r2
    let r4 := if trainOnly then r3.filter (fun r => decide (r.train = 1)) else r3
    let recs := r4.map (fun r =>
      (⟨r.origin, r.dev, if beginsWith 'i' lossType then r.incrd else r.paid⟩ : Rec K))
    asLoaded recs triType

/-- `_load` (utils.py:10-46): the registry maps names to file contents. -/
def load (reg : List (String × Frame K)) (name : String) (triType : Option String) :
    Except PyErr (Loaded K) :=
  match reg.lookup name with
  | none => .error .keyError
  | some f =>
    if "origin" ∈ f.cols ∧ "dev" ∈ f.cols ∧ "value" ∈ f.cols then
      asLoaded (f.recs "origin" "dev" "value") triType
    else .error .keyError

end

/-- `_get_datasets` (utils.py:153-167). -/
def getDatasets {ρ : Type} (reg : List (String × ρ)) : List String :=
  ((reg.map Prod.fst).filter (fun k => decide (k ≠ "lrdb"))).insertionSort (· ≤ ·)

/-- First occurrences (`unique()`, `drop_duplicates()`). -/
def firsts {α : Type} [DecidableEq α] : List α → List α
  | [] => []
  | a :: l => a :: (firsts l).filter (fun b => decide (b ≠ a))

/-- `_get_lrdb_lobs` (utils.py:171-187). -/
def lrdbLobs (rows : List (LrdbRow K)) : List String :=
  (firsts (rows.map LrdbRow.lossKey)).insertionSort (· ≤ ·)

/-- Order of the specs: line of business, then company code. -/
def specLe (a b : String × Int × String) : Prop := a.1 < b.1 ∨ a.1 = b.1 ∧ a.2.1 ≤ b.2.1

instance : DecidableRel specLe := fun a b => inferInstanceAs (Decidable (a.1 < b.1 ∨ a.1 = b.1 ∧ a.2.1 ≤ b.2.1))

/-- `_get_lrdb_specs` (utils.py:191-209); sorting by several columns is stable. -/
def lrdbSpecs (rows : List (LrdbRow K)) : List (String × Int × String) :=
  (firsts (rows.map (fun r => (r.lossKey, r.grcode, r.grname)))).insertionSort specLe

/-! ### axis ticks -/

section
variable [Field K] [LinearOrder K]

/-- `ref_divs[np.where((x / ref_divs) > 1)[0].max()]` (base.py:349-351): the positions increase, so the
largest one is the last one; none at all makes `max()` raise. -/
def xDiv (x : K) : Except PyErr K :=
  match (((List.range 10).map (fun k => (10 : K) ^ k)).filter (fun p => decide (1 < x / p))).getLast? with
  | none => .error .valueError
  | some p => .ok p

/-- `_get_yticks` (base.py:335-359) for a finite maximum, without the labels: first multiple of `x_div`
among ten exceeding `x`, then `np.linspace(0, yul, num=5)`. -/
def getYticks (x : K) : Except PyErr (List K) := do
  let p ← xDiv x
  match ((List.range 10).map (fun k : ℕ => p * ((k : K) + 1))).find? (fun y => decide (0 < y - x)) with
  | none => .error .valueError
  | some yul => .ok ((List.range 5).map (fun k : ℕ => (k : K) * (yul / 4)))

end

end Trikit
