import Mathlib.Analysis.SpecialFunctions.Log.Basic
import Mathlib.Analysis.SpecialFunctions.Pow.Real
import Verif.Averages

/-!
# Real functions on float-like numbers

`np.log`, `np.exp`, `np.sqrt` over the reals (exact, no rounding) with the IEEE conventions for the
special values, and `scipy.stats.gmean`.
-/

namespace Trikit

namespace Num

/-- `np.log`: negative numbers give NaN, 0 gives `-inf`. -/
noncomputable def log : Num ℝ → Num ℝ
  | nan => nan
  | pinf => pinf
  | ninf => nan
  | fin x => if x < 0 then nan else if x = 0 then ninf else fin (Real.log x)

/-- `np.exp`. -/
noncomputable def exp : Num ℝ → Num ℝ
  | nan => nan
  | pinf => pinf
  | ninf => fin 0
  | fin x => fin (Real.exp x)

/-- `np.sqrt`: negative numbers give NaN. -/
noncomputable def sqrt : Num ℝ → Num ℝ
  | nan => nan
  | pinf => pinf
  | ninf => nan
  | fin x => if x < 0 then nan else fin (Real.sqrt x)

theorem log_fin {x : ℝ} (h : 0 < x) : log (fin x) = fin (Real.log x) := by
  simp only [log]
  rw [if_neg (not_lt.2 h.le), if_neg h.ne']

theorem sqrt_fin {x : ℝ} (h : 0 ≤ x) : sqrt (fin x) = fin (Real.sqrt x) := by
  simp only [sqrt]
  rw [if_neg (not_lt.2 h)]

@[simp] theorem exp_fin (x : ℝ) : exp (fin x) = fin (Real.exp x) := rfl

end Num

/-- `scipy.stats.gmean(vals, axis=None)` (called in triangle.py:498): `exp` of the mean of `log`. -/
noncomputable def gmean (l : List (Num ℝ)) : Num ℝ := Num.exp (npMean (l.map Num.log))

end Trikit
