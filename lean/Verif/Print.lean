import Verif.Base
import Verif.Quantile

/-!
# Printed tables

Models of the texts of the cells written by `__str__` and `__repr__` of triangles (triangle.py:359-367) and of results
(base.py:327-331 and 585-590).  The format `"{:,.0f}"` rounds the exact value half to even, writes a minus sign in front
of every negative value (also when it rounds to 0) and separates groups of three digits by commas.  Cells without a value are
written by pandas as `NaN` (`format_with_na_rep`).

Simplification: only the texts of the cells; the padding of the columns by `to_string` is left out.
-/

set_option linter.unusedSectionVars false

namespace Trikit

/-- Commas between groups of three digits; the digits are given from the right, `k` of them have been written. -/
def commas : ℕ → List Char → List Char
  | _, [] => []
  | k, c :: l => if k ≠ 0 ∧ k % 3 = 0 then ',' :: c :: commas (k + 1) l else c :: commas (k + 1) l

/-- `"{:,}".format(n)` for a natural number. -/
def commaStr (n : ℕ) : List Char := (commas 0 (natStr n).reverse).reverse

section
variable {K : Type} [Field K] [LinearOrder K] [FloorRing K]

/-- `"{:,.0f}".format(v)`; `NaN` for a missing value. -/
def fmtAmount : Num K → List Char
  | .nan => "NaN".toList
  | .pinf => "inf".toList
  | .ninf => "-inf".toList
  | .fin x => (if x < 0 then ['-'] else []) ++ commaStr (roundHalfEven |x|).toNat

/-- Texts of the cells of a printed triangle, row by row (triangle.py:359-361). -/
def Tri.printed (t : Tri K) : List (List (List Char)) :=
  (List.range t.nr).map (fun i => (List.range t.nc).map (fun j => fmtAmount (t.cell i j)))

/-- Texts of the columns `latest`, `ultimate` and `reserve` of a printed summary, origin by origin and then the total
(base.py:327-331, 585-586). -/
structure PrintedAmounts where
  latest : List (List Char)
  ultimate : List (List Char)
  reserve : List (List Char)
  deriving DecidableEq

/-- The amounts of a printed summary. -/
def BaseResult.printed (r : BaseResult K) : PrintedAmounts :=
  { latest := (r.rows.map (fun row => fmtAmount row.latest)) ++ [fmtAmount r.totLatest]
    ultimate := (r.rows.map (fun row => fmtAmount row.ultimate)) ++ [fmtAmount r.totUltimate]
    reserve := (r.rows.map (fun row => fmtAmount row.reserve)) ++ [fmtAmount r.totReserve] }

end

end Trikit
