import Mathlib.Analysis.SpecialFunctions.Pow.Real
import Mathlib.Analysis.Real.Pi.Bounds
import Verif.Mack

/-!
# Points of the reserve distributions of Mack's method

Model of `_mack_data_transform` (mack.py:818-834), the points of the density curves.
-/

namespace Trikit

/-- `rv.pdf(x)` of `scipy.stats.norm(loc, scale)` and `lognorm(s, scale=scale)`: NaN unless the scale (and the shape)
is positive; the lognormal density is 0 at and below 0.  Simplification: NaN whenever a
parameter or `x` is infinite. -/
noncomputable def RV.pdf (x : Num ℝ) : RV → Num ℝ
  | .norm (.fin m) (.fin s) =>
    match x with
    | .fin x => if 0 < s then .fin (Real.exp (-((x - m) / s) ^ 2 / 2) / Real.sqrt (2 * Real.pi) / s) else .nan
    | _ => .nan
  | .lognorm (.fin a) (.fin s) =>
    match x with
    | .fin x => if 0 < s ∧ 0 < a then
        (if x ≤ 0 then 0
         else .fin (Real.exp (-(Real.log (x / a) / s) ^ 2 / 2) / (s * (x / a) * Real.sqrt (2 * Real.pi)) / a))
      else .nan
    | _ => .nan
  | _ => .nan

/-- `np.linspace(a, b, 100)`; the last point is `b` itself. -/
noncomputable def linspace100 (a b : Num ℝ) : List (Num ℝ) :=
  (List.range 100).map (fun k => if k = 99 then b else .fin k * ((b - a) / .fin 99) + a)

/-- Points of one distribution; `dropna(how="all")` removes points with neither coordinate. -/
noncomputable def densityRows (z : ℝ → Num ℝ) (v : RV) : List (Num ℝ × Num ℝ) :=
  ((linspace100 (v.ppf z (1 / 1000)) (v.ppf z (999 / 1000))).map (fun x => (x, v.pdf x))).filter
    (fun p => !(p.1.isNaN && p.2.isNaN))

/-- `_mack_data_transform` (mack.py:818-834): the points of each distribution in the order of `rvs` (origins, then the
total), each with the position of its distribution. -/
noncomputable def mackDensity (r : MackResult) (z : ℝ → Num ℝ) : List (ℕ × Num ℝ × Num ℝ) :=
  (List.range r.rvs.length).flatMap (fun i =>
    (r.rvs[i]?.elim [] (densityRows z)).map (fun p => (i, p)))

end Trikit
