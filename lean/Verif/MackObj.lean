import Verif.Exclude
import Verif.Mack

/-!
# A `MackChainLadder` object and the triangle it refers to (`trikit/estimators/mack.py:49-55, 236-247`)

The estimator keeps a reference to the triangle (base.py:50) and stores the indicator it has read once.
-/

set_option linter.unusedSectionVars false

namespace Trikit

variable {K : Type} [Field K] [LinearOrder K]

/-- The estimator: its triangle with the exclusions made so far, and `_mod_a2aind` (`None` until first read,
mack.py:54).  `_mod_tri` (mack.py:55) is left out: the cells of the triangle do not change. -/
structure MackObj (K : Type) where
  tri : IndState K
  modInd : Option (Tri K) := none

/-- Reading `mod_a2aind` (mack.py:236-247); this reads `a2aind` of the triangle at the first time. -/
def MackObj.readInd (m : MackObj K) : MackObj K × Tri K :=
  match m.modInd with
  | some w => (m, w)
  | none => ({ tri := m.tri.read.1, modInd := some m.tri.read.2.modInd }, m.tri.read.2.modInd)

/-- A call of the estimator (mack.py:59-215) before square roots and distributions; all steps use `mod_a2aind`. -/
def MackObj.call (m : MackObj K) (alpha : ℕ) : MackObj K × Except PyErr (MackCore K) :=
  (m.readInd.1, mackCore alpha m.tri.tri m.readInd.2)

/-- What a program can do with the two objects. -/
inductive MackOp (K : Type)
  | exclude (a : Assign K)
  | read
  | call (alpha : ℕ)

/-- One step; an assignment that raises changes nothing. -/
def MackObj.step (m : MackObj K) : MackOp K → MackObj K
  | .exclude a =>
    match m.tri.assign a with
    | .ok s => { m with tri := s }
    | .error _ => m
  | .read => { m with tri := m.tri.read.1 }
  | .call alpha => (m.call alpha).1

/-- `tri.mack_cl(alpha=...)` (triangle.py:1274-1275): a new estimator for every call. -/
def IndState.mackCl (s : IndState K) (alpha : ℕ) : IndState K × Except PyErr (MackCore K) :=
  let r := ({ tri := s } : MackObj K).call alpha
  (r.1.tri, r.2)

end Trikit
