import Verif.Triangle

/-!
# Specifications

Small definitions used to state the properties.  They do not use the helper functions of the model
(only the data types), so that a property is a comparison of the code with something independent.
-/

set_option linter.unusedSectionVars false

namespace Trikit

variable {K : Type}

/-- A present, finite, non-infinite value or a missing one. -/
def FiniteOrMissing (v : Num K) : Prop := v = .nan ∨ ∃ x, v = .fin x

namespace Spec
section
variable [Field K] [LinearOrder K]

/-- The value a record contributes to an incremental triangle: non-positive values of the smallest
development period count as 1. -/
def contribution (recs : List (Rec K)) (r : Rec K) : Num K :=
  if (∀ s ∈ recs, r.dev ≤ s.dev) ∧ Num.le r.value 0 = true then 1 else r.value

/-- The records of one cell. -/
def recordsAt (recs : List (Rec K)) (o d : Int) : List (Rec K) :=
  recs.filter (fun r => r.origin == o && r.dev == d)

/-- Cell of an incremental triangle: missing without records, otherwise the sum of the present
contributions. -/
def incrCell (recs : List (Rec K)) (o d : Int) : Num K :=
  if recordsAt recs o d = [] then .nan
  else (((recordsAt recs o d).map (contribution recs)).filter (fun v => v ≠ .nan)).sum

/-- Total of everything recorded for origin `o` up to development period `d`. -/
def runningTotal (recs : List (Rec K)) (o d : Int) : Num K :=
  ((recs.filter (fun r => decide (r.origin = o ∧ r.dev ≤ d))).map Rec.value).sum

end

/-- Strictly increasing labels. -/
def Increasing (l : List Int) : Prop := l.Pairwise (· < ·)

/-- `t` has the origins of the records as index and their development periods as columns, both
strictly increasing. -/
def HasLabelsOf (t : Tri K) (recs : List (Rec K)) : Prop :=
  Increasing t.origins ∧ Increasing t.devs ∧
  (∀ o, o ∈ t.origins ↔ ∃ r ∈ recs, r.origin = o) ∧
  (∀ d, d ∈ t.devs ↔ ∃ r ∈ recs, r.dev = d)

/-- The cell of `t` carrying labels `o`, `d` has value `v`. -/
def CellIs (t : Tri K) (o d : Int) (v : Num K) : Prop :=
  ∃ i j, t.origins[i]? = some o ∧ t.devs[j]? = some d ∧ t.cell i j = v

/-- Every origin is observed from the first period on without gaps; `len i` periods are observed. -/
def GapFree (t : Tri K) (len : ℕ → ℕ) : Prop :=
  ∀ i < t.nr, 1 ≤ len i ∧ len i ≤ t.nc ∧
    ∀ j < t.nc, (j < len i → ∃ x, t.cell i j = .fin x) ∧ (len i ≤ j → t.cell i j = .nan)

/-- Every column has an observed cell. -/
def ColsObserved (t : Tri K) : Prop := ∀ j < t.nc, ∃ i < t.nr, t.cell i j ≠ .nan

/-- Every row has an observed cell. -/
def RowsObserved (t : Tri K) : Prop := ∀ i < t.nr, ∃ j < t.nc, t.cell i j ≠ .nan

/-- An `n x n` triangle whose upper left half (`i + j < n`) is observed and finite. -/
def Staircase (t : Tri K) (n : ℕ) : Prop :=
  t.nr = n ∧ t.nc = n ∧ Increasing t.origins ∧ Increasing t.devs ∧
    ∀ i < n, ∀ j < n, (i + j < n → ∃ x, t.cell i j = .fin x) ∧ (n ≤ i + j → t.cell i j = .nan)

/-- An `n x n` staircase with observed values `c`. -/
structure Stair (t : Tri K) (n : ℕ) (c : ℕ → ℕ → K) : Prop where
  nr : t.nr = n
  nc : t.nc = n
  origins : Increasing t.origins
  devs : Increasing t.devs
  obs : ∀ i j, i + j < n → t.cell i j = .fin (c i j)
  miss : ∀ i j, i < n → j < n → n ≤ i + j → t.cell i j = .nan

/-- All observed values are positive. -/
def Positive [Zero K] [LT K] (n : ℕ) (c : ℕ → ℕ → K) : Prop := ∀ i j, i + j < n → 0 < c i j

/-- The link ratios of development period `j`, oldest origin first. -/
def ratios [Div K] (n : ℕ) (c : ℕ → ℕ → K) (j : ℕ) : List K :=
  (List.range (n - 1 - j)).map (fun i => c i (j + 1) / c i j)

/-- The last `k` entries of a list (all of them if there are fewer); `k = 0` stands for "all". -/
def lastN {α : Type} (k : ℕ) (l : List α) : List α := if k = 0 then l else l.drop (l.length - k)

/-- Arithmetic mean. -/
def mean [Add K] [Zero K] [Div K] [NatCast K] (l : List K) : K := l.sum / (l.length : K)

end Spec

/-- All labels and cells as data, for evaluating concrete cases. -/
def Tri.dump (t : Tri K) : List Int × List Int × List (List (Num K)) :=
  (t.origins, t.devs, (List.range t.nr).map t.row)

/-- `dump` of a result. -/
def dumpE (r : Except PyErr (Tri K)) : Except PyErr (List Int × List Int × List (List (Num K))) :=
  r.map Tri.dump

end Trikit
