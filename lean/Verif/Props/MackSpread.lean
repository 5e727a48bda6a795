import Mathlib.Analysis.Complex.ExponentialBounds
import Verif.Props.MackReal

/-!
# Mack chain ladder: quantiles and the size of the standard error (C212)

A quantile of a reserve is read as a safety margin: with the same reserve and a larger standard error, the
quantile of a level above the median should be larger.  The normal distribution behaves like that.  The lognormal
one does so only while the standard error is small compared to the level; beyond that the reported quantile falls,
never exceeds a bound which does not depend on the standard error, and is finally smaller than the reserve.
-/

set_option linter.unusedSectionVars false

namespace Trikit

variable {t t' ind ind' : Tri ℝ}

/-- Line `i` of the summary reports the reserve `R` with standard error `s` (the line after the origins is the
total). -/
def Spec.Reports (r : MackResult) (i : ℕ) (R s : ℝ) : Prop :=
  r.stdErr[i]? = some (.fin s) ∧ (r.core.rows.map SummRow.reserve ++ [r.core.totReserve])[i]? = some (.fin R)

/-- Squared logarithmic standard deviation of a lognormal with mean `R` and standard deviation `s`. -/
noncomputable def Spec.logVar (R s : ℝ) : ℝ := Real.log (1 + (s / R) ^ 2)

theorem reports_rv {alpha : ℕ} {dist : String} (hd : dist = "norm" ∨ dist = "lognorm") {r : MackResult}
    (h : mackCall alpha t ind dist = .ok r) {i : ℕ} {R s : ℝ} (hr : Spec.Reports r i R s) :
    ∃ v, mackRV dist (.fin s) (.fin R) = .ok v ∧
      ∀ z q, (r.getQuantile z q)[i]? = some (v.ppf z q) := by
  cases hc : mackCore alpha t ind with
  | error e =>
    unfold mackCall at h
    rw [hc] at h
    exact absurd h (by rintro ⟨⟩)
  | ok core =>
    obtain ⟨r', hr', hcore, -, -, hv⟩ := mackCall_ok hc hd
    rw [h] at hr'
    obtain rfl := Except.ok.inj hr'
    obtain ⟨h1, h2⟩ := hr
    rw [hcore] at h2
    obtain ⟨v, hv1, hv2⟩ := hv i _ _ h1 h2
    refine ⟨v, hv1, fun z q => ?_⟩
    unfold MackResult.getQuantile
    rw [List.getElem?_map, hv2]; rfl

theorem logVar_pos {R s : ℝ} (hR : 0 < R) (hs : 0 < s) : 0 < Spec.logVar R s := by
  apply Real.log_pos
  have : 0 < (s / R) ^ 2 := by positivity
  linarith

theorem logVar_lt {R s s' : ℝ} (hR : 0 < R) (hs : 0 < s) (h : s < s') : Spec.logVar R s < Spec.logVar R s' := by
  unfold Spec.logVar
  apply Real.log_lt_log (by positivity)
  have : s / R < s' / R := by gcongr
  have : (s / R) ^ 2 < (s' / R) ^ 2 := by
    have : 0 < s / R := by positivity
    gcongr
  linarith

/-- Value of the quantile under the normal distribution. -/
theorem norm_quantile {alpha : ℕ} {r : MackResult} (h : mackCall alpha t ind "norm" = .ok r) {i : ℕ} {R s : ℝ}
    (hr : Spec.Reports r i R s) (hs : 0 < s) {z : ℝ → Num ℝ} {q x : ℝ} (hz : z q = .fin x) :
    (r.getQuantile z q)[i]? = some (.fin (R + s * x)) := by
  obtain ⟨v, hv, hq⟩ := reports_rv (Or.inl rfl) h hr
  unfold mackRV at hv
  rw [if_pos rfl] at hv
  obtain rfl := Except.ok.inj hv
  rw [hq]
  have hs' : Num.lt 0 (.fin s) = true := by simpa [Num.zero_def, Num.lt_fin] using hs
  simp only [RV.ppf, if_pos hs', hz]
  rfl

/-- Value of the quantile under the lognormal distribution. -/
theorem lognorm_quantile {alpha : ℕ} {r : MackResult} (h : mackCall alpha t ind "lognorm" = .ok r) {i : ℕ}
    {R s : ℝ} (hr : Spec.Reports r i R s) (hR : 1 ≤ R) (hs : 0 < s) {z : ℝ → Num ℝ} {q x : ℝ}
    (hz : z q = .fin x) :
    (r.getQuantile z q)[i]? =
      some (.fin (R * Real.exp (√(Spec.logVar R s) * x - Spec.logVar R s / 2))) := by
  have hR0 : 0 < R := by linarith
  obtain ⟨v, hv, hq⟩ := reports_rv (Or.inr rfl) h hr
  rw [lognorm_params hR0] at hv
  obtain rfl := Except.ok.inj hv
  rw [hq]
  have h1 : Num.lt 0 (.fin (√(Real.log (1 + (s / R) ^ 2)))) = true := by
    have := logVar_pos hR0 hs
    unfold Spec.logVar at this
    simpa [Num.zero_def, Num.lt_fin] using Real.sqrt_pos.2 this
  have h2 : Num.lt 0 (.fin (Real.exp (max (Real.log R) 0 - Real.log (1 + (s / R) ^ 2) / 2))) = true := by
    simpa [Num.zero_def, Num.lt_fin] using Real.exp_pos _
  simp only [RV.ppf, if_pos (And.intro h1 h2), hz]
  rw [Num.fin_mul, Num.exp_fin, Num.fin_mul, max_eq_left (Real.log_nonneg hR), ← Real.exp_add]
  congr 2
  show _ = R * Real.exp (√(Real.log (1 + (s / R) ^ 2)) * x - Real.log (1 + (s / R) ^ 2) / 2)
  generalize Real.log (1 + (s / R) ^ 2) = a
  rw [show Real.log R - a / 2 + √a * x = Real.log R + (√a * x - a / 2) by ring, Real.exp_add, Real.exp_log hR0]

/-- **C212** for the normal distribution.  Lines with the same reserve `R` and standard errors `s` and `s'` differ
in their quantiles by `s' - s` times the standard normal quantile, which is not negative from the median upwards;
and quantiles from the median upwards are not below the reserve. -/
theorem C212_norm {alpha alpha' : ℕ} {r r' : MackResult} (h : mackCall alpha t ind "norm" = .ok r)
    (h' : mackCall alpha' t' ind' "norm" = .ok r') {i i' : ℕ} {R s s' : ℝ} (hr : Spec.Reports r i R s)
    (hr' : Spec.Reports r' i' R s') (hs : 0 < s) (hss : s ≤ s') {z : ℝ → Num ℝ} {q x : ℝ} (hz : z q = .fin x)
    (hx : 0 ≤ x) :
    ∃ y y', (r.getQuantile z q)[i]? = some (.fin y) ∧ (r'.getQuantile z q)[i']? = some (.fin y') ∧
      R ≤ y ∧ y ≤ y' ∧ y' - y = (s' - s) * x := by
  refine ⟨_, _, norm_quantile h hr hs hz, norm_quantile h' hr' (by linarith) hz, ?_, ?_, ?_⟩
  · nlinarith
  · nlinarith [mul_nonneg (sub_nonneg.2 hss) hx]
  · ring

/-- **C212** for the lognormal distribution, what holds: for a reserve of at least 1 the quantile grows with the
standard error as long as the logarithmic standard deviation does not exceed the standard normal quantile of the
level.  The full statement would have no such condition. -/
theorem C212_lognorm_partial {alpha alpha' : ℕ} {r r' : MackResult} (h : mackCall alpha t ind "lognorm" = .ok r)
    (h' : mackCall alpha' t' ind' "lognorm" = .ok r') {i i' : ℕ} {R s s' : ℝ} (hr : Spec.Reports r i R s)
    (hr' : Spec.Reports r' i' R s') (hR : 1 ≤ R) (hs : 0 < s) (hss : s < s') {z : ℝ → Num ℝ} {q x : ℝ}
    (hz : z q = .fin x) (hx : 0 ≤ x) (hsmall : Spec.logVar R s' ≤ x ^ 2) :
    ∃ y y', (r.getQuantile z q)[i]? = some (.fin y) ∧ (r'.getQuantile z q)[i']? = some (.fin y') ∧
      y < y' := by
  have hR0 : 0 < R := by linarith
  refine ⟨_, _, lognorm_quantile h hr hR hs hz, lognorm_quantile h' hr' hR (by linarith) hz, ?_⟩
  have h1 := logVar_pos hR0 hs
  have h2 := logVar_lt hR0 hs hss
  generalize Spec.logVar R s = a at *
  generalize Spec.logVar R s' = b at *
  have ha : √a ^ 2 = a := Real.sq_sqrt h1.le
  have hb : √b ^ 2 = b := Real.sq_sqrt (by linarith)
  have hab : √a < √b := Real.sqrt_lt_sqrt h1.le h2
  have hbx : √b ≤ x := by
    rw [show x = √(x ^ 2) from (Real.sqrt_sq hx).symm]
    exact Real.sqrt_le_sqrt hsmall
  apply mul_lt_mul_of_pos_left _ hR0
  apply Real.exp_lt_exp.2
  nlinarith [mul_pos (sub_pos.2 hab) (by linarith : 0 < x - √a / 2 - √b / 2)]

/-- **C212**, the code violates it under the lognormal distribution: of two lines with the same reserve, the one
with the larger standard error has the smaller quantile, for every level whose standard normal quantile is at most
the logarithmic standard deviation of the other line. -/
theorem C212_lognorm_fails {alpha alpha' : ℕ} {r r' : MackResult} (h : mackCall alpha t ind "lognorm" = .ok r)
    (h' : mackCall alpha' t' ind' "lognorm" = .ok r') {i i' : ℕ} {R s s' : ℝ} (hr : Spec.Reports r i R s)
    (hr' : Spec.Reports r' i' R s') (hR : 1 ≤ R) (hs : 0 < s) (hss : s < s') {z : ℝ → Num ℝ} {q x : ℝ}
    (hz : z q = .fin x) (hlarge : x ≤ √(Spec.logVar R s)) :
    ∃ y y', (r.getQuantile z q)[i]? = some (.fin y) ∧ (r'.getQuantile z q)[i']? = some (.fin y') ∧
      y' < y := by
  have hR0 : 0 < R := by linarith
  refine ⟨_, _, lognorm_quantile h hr hR hs hz, lognorm_quantile h' hr' hR (by linarith) hz, ?_⟩
  have h1 := logVar_pos hR0 hs
  have h2 := logVar_lt hR0 hs hss
  generalize Spec.logVar R s = a at *
  generalize Spec.logVar R s' = b at *
  have ha : √a ^ 2 = a := Real.sq_sqrt h1.le
  have hb : √b ^ 2 = b := Real.sq_sqrt (by linarith)
  have hab : √a < √b := Real.sqrt_lt_sqrt h1.le h2
  apply mul_lt_mul_of_pos_left _ hR0
  apply Real.exp_lt_exp.2
  nlinarith [mul_pos (sub_pos.2 hab) (by linarith : 0 < √a / 2 + √b / 2 - x)]

/-- **C212**, the bound: whatever the standard error, the lognormal quantile of a level is at most the reserve
times `exp (x² / 2)`, where `x` is the standard normal quantile of the level.  It lies below the reserve exactly
when the logarithmic standard deviation exceeds `2 x`, and the median always does: it is the reserve divided by
`√(1 + cv²)`. -/
theorem C212_lognorm_bound {alpha : ℕ} {r : MackResult} (h : mackCall alpha t ind "lognorm" = .ok r) {i : ℕ}
    {R s : ℝ} (hr : Spec.Reports r i R s) (hR : 1 ≤ R) (hs : 0 < s) {z : ℝ → Num ℝ} {q x : ℝ}
    (hz : z q = .fin x) :
    ∃ y, (r.getQuantile z q)[i]? = some (.fin y) ∧ y ≤ R * Real.exp (x ^ 2 / 2) ∧
      (y < R ↔ 2 * x < √(Spec.logVar R s)) ∧ (x = 0 → y = R / √(1 + (s / R) ^ 2)) := by
  have hR0 : 0 < R := by linarith
  refine ⟨_, lognorm_quantile h hr hR hs hz, ?_, ?_, ?_⟩
  · have h1 := logVar_pos hR0 hs
    generalize Spec.logVar R s = a at *
    have ha : √a ^ 2 = a := Real.sq_sqrt h1.le
    apply mul_le_mul_of_nonneg_left _ hR0.le
    apply Real.exp_le_exp.2
    nlinarith [sq_nonneg (x - √a)]
  · have h1 := logVar_pos hR0 hs
    generalize Spec.logVar R s = a at *
    have ha : √a ^ 2 = a := Real.sq_sqrt h1.le
    have h0 : 0 < √a := Real.sqrt_pos.2 h1
    rw [mul_lt_iff_lt_one_right hR0, Real.exp_lt_one_iff]
    constructor
    · intro h
      by_contra hc
      nlinarith [mul_nonneg h0.le (by linarith : 0 ≤ 2 * x - √a)]
    · intro h
      nlinarith [mul_pos h0 (by linarith : 0 < √a - 2 * x)]
  · rintro rfl
    have h1 : 0 < 1 + (s / R) ^ 2 := by positivity
    have h2 : Real.exp (Spec.logVar R s / 2) = √(1 + (s / R) ^ 2) := by
      unfold Spec.logVar
      rw [← Real.log_sqrt h1.le, Real.exp_log (Real.sqrt_pos.2 h1)]
    rw [mul_zero, zero_sub, Real.exp_neg, h2, ← div_eq_mul_inv]

/-! ### concrete cases -/

/-- A volatile triangle. -/
def exSpread : ℕ → ℕ → ℚ := fun i j =>
  match i, j with
  | 0, 0 => 100 | 0, 1 => 150 | 0, 2 => 300 | 0, 3 => 330
  | 1, 0 => 100 | 1, 1 => 400 | 1, 2 => 420
  | 2, 0 => 100 | 2, 1 => 120
  | 3, 0 => 100
  | _, _ => 0

/-- Computed over `ℚ`: the second origin has the reserve 42 and a mean squared error of more than 23 times its
square, so a logarithmic variance above `log 24 > 1.7²`.  At the 95% level (`x < 1.65`) its quantile would be larger
if the standard error were smaller, and its 80% quantile (`x < 0.85`) is smaller than the reserve. -/
example : (mackCore 1 (stairTri (K := ℚ) 4 exSpread) (stairTri (K := ℚ) 4 exSpread).a2aind0).toOption.map
      (fun r => (r.rows.map SummRow.reserve, r.mse)) =
    some ([0, .fin 42, .fin (264 / 5), .fin (1108 / 5)],
      [0, .fin (3546816336 / 85789), .fin (650762542242 / 23591975), .fin (3719806507841 / 28310370)]) ∧
    (23 : ℚ) * 42 ^ 2 < 3546816336 / 85789 := by
  decide +kernel

/-- The logarithmic variance of that line. -/
example {s : ℝ} (hs : s ^ 2 = 3546816336 / 85789) : 2 * (17 / 20) < √(Spec.logVar 42 s) := by
  rw [Real.lt_sqrt (by norm_num)]
  unfold Spec.logVar
  rw [Real.lt_log_iff_exp_lt (by positivity), div_pow, hs]
  have h1 : Real.exp ((2 * (17 / 20)) ^ 2) ≤ Real.exp 1 ^ 3 := by
    rw [← Real.exp_nat_mul]
    apply Real.exp_le_exp.2
    norm_num
  have h2 : Real.exp 1 ^ 3 < 2.7182818286 ^ 3 := by
    have := Real.exp_one_lt_d9
    gcongr
  refine lt_of_le_of_lt h1 (lt_trans h2 ?_)
  norm_num

end Trikit
