import Mathlib.Probability.Distributions.Gamma
import Mathlib.Probability.Moments.Variance
import Mathlib.Analysis.SpecialFunctions.Gaussian.GaussianIntegral

/-! # Mean and variance of the gamma distribution

Mathlib has the density and the distribution function; the first two moments are computed here. -/

set_option linter.unusedSectionVars false

open MeasureTheory ProbabilityTheory Set

namespace Trikit

/-- Law of numpy's `RandomState.gamma(shape, scale)` for finite arguments: the gamma distribution with rate
`1 / scale`; shape 0 gives the constant 0. -/
noncomputable def Spec.gammaLaw (shape scale : ℝ) : Measure ℝ :=
  if shape = 0 then Measure.dirac 0 else gammaMeasure shape (1 / scale)

theorem gamma_mul_pow {a r x : ℝ} (k : ℕ) (hx : 0 < x) :
    gammaPDFReal a r x * x ^ k = r ^ a / Real.Gamma a * (x ^ (a + k - 1) * Real.exp (-(r * x))) := by
  unfold gammaPDFReal
  rw [if_pos hx.le, show a + (k : ℝ) - 1 = (a - 1) + k by ring, Real.rpow_add hx, Real.rpow_natCast]
  ring

theorem gammaMeasure_integrable {a r : ℝ} (ha : 0 < a) (hr : 0 < r) (k : ℕ) :
    Integrable (fun x : ℝ => x ^ k) (gammaMeasure a r) := by
  unfold gammaMeasure gammaPDF
  rw [integrable_withDensity_iff_integrable_smul' (by fun_prop) (by simp)]
  have h0 : ∀ x, (ENNReal.ofReal (gammaPDFReal a r x)).toReal • x ^ k = gammaPDFReal a r x * x ^ k := by
    intro x
    rw [ENNReal.toReal_ofReal (gammaPDFReal_nonneg ha hr x)]; rfl
  simp only [h0]
  rw [← integrableOn_univ, ← Iic_union_Ioi (a := (0 : ℝ)), integrableOn_union]
  constructor
  · rw [integrableOn_Iic_iff_integrableOn_Iio]
    refine (integrableOn_zero (ε' := ℝ)).congr_fun (fun x hx => ?_) measurableSet_Iio
    rw [gammaPDFReal, if_neg (not_le.2 hx), zero_mul]
  · have h := (integrableOn_rpow_mul_exp_neg_mul_rpow (p := 1) (s := a + k - 1) (b := r)
      (by have := Nat.cast_nonneg (α := ℝ) k; linarith) one_pos hr).const_mul (r ^ a / Real.Gamma a)
    refine IntegrableOn.congr_fun h (fun x hx => ?_) measurableSet_Ioi
    rw [gamma_mul_pow k hx]
    simp

theorem gammaMeasure_moment {a r : ℝ} (ha : 0 < a) (hr : 0 < r) (k : ℕ) :
    ∫ x, x ^ k ∂(gammaMeasure a r) = r ^ a / Real.Gamma a * ((1 / r) ^ (a + k) * Real.Gamma (a + k)) := by
  have hk := Nat.cast_nonneg (α := ℝ) k
  unfold gammaMeasure gammaPDF
  rw [integral_withDensity_eq_integral_toReal_smul (by fun_prop) (by simp)]
  have h0 : ∀ x, (ENNReal.ofReal (gammaPDFReal a r x)).toReal • x ^ k = gammaPDFReal a r x * x ^ k := by
    intro x
    rw [ENNReal.toReal_ofReal (gammaPDFReal_nonneg ha hr x)]; rfl
  simp only [h0]
  rw [← Real.integral_rpow_mul_exp_neg_mul_Ioi (by linarith) hr, ← integral_const_mul,
    ← integral_indicator measurableSet_Ioi]
  apply integral_congr_ae
  have hne : ∀ᵐ x : ℝ, x ≠ 0 := by
    rw [ae_iff]; simp
  filter_upwards [hne] with x hx0
  by_cases hx : 0 < x
  · rw [indicator_of_mem (show x ∈ Ioi 0 from hx), gamma_mul_pow k hx]
  · rw [indicator_of_notMem (show x ∉ Ioi 0 from hx), gammaPDFReal,
      if_neg (fun h => hx (lt_of_le_of_ne h (Ne.symm hx0))), zero_mul]

theorem gammaMeasure_mean {a r : ℝ} (ha : 0 < a) (hr : 0 < r) : ∫ x, x ∂(gammaMeasure a r) = a / r := by
  have h := gammaMeasure_moment ha hr 1
  simp only [pow_one, Nat.cast_one] at h
  rw [h, Real.Gamma_add_one ha.ne', Real.rpow_add (by positivity), Real.rpow_one, one_div,
    Real.inv_rpow hr.le]
  have := (Real.Gamma_pos_of_pos ha).ne'
  have := (Real.rpow_pos_of_pos hr a).ne'
  field_simp

theorem gammaMeasure_sq {a r : ℝ} (ha : 0 < a) (hr : 0 < r) :
    ∫ x, x ^ 2 ∂(gammaMeasure a r) = a * (a + 1) / r ^ 2 := by
  have h := gammaMeasure_moment ha hr 2
  rw [h, show a + ((2 : ℕ) : ℝ) = (a + 1) + 1 by push_cast; ring, Real.Gamma_add_one (by positivity),
    Real.Gamma_add_one ha.ne', Real.rpow_add (by positivity), Real.rpow_add (by positivity), Real.rpow_one, one_div,
    Real.inv_rpow hr.le]
  have := (Real.Gamma_pos_of_pos ha).ne'
  have := (Real.rpow_pos_of_pos hr a).ne'
  field_simp

section
variable {a b : ℝ}

theorem gammaLaw_probability (ha : 0 ≤ a) (hb : 0 < b) : IsProbabilityMeasure (Spec.gammaLaw a b) := by
  unfold Spec.gammaLaw
  split
  · infer_instance
  · rename_i h
    exact isProbabilityMeasure_gammaMeasure (lt_of_le_of_ne ha (Ne.symm h)) (by positivity)

theorem gammaLaw_integrable (ha : 0 ≤ a) (hb : 0 < b) (k : ℕ) :
    Integrable (fun x : ℝ => x ^ k) (Spec.gammaLaw a b) := by
  unfold Spec.gammaLaw
  split
  · exact integrable_dirac (by simp)
  · rename_i h
    exact gammaMeasure_integrable (lt_of_le_of_ne ha (Ne.symm h)) (by positivity) k

theorem gammaLaw_mean (ha : 0 ≤ a) (hb : 0 < b) : ∫ x, x ∂(Spec.gammaLaw a b) = a * b := by
  unfold Spec.gammaLaw
  split
  · rename_i h
    rw [integral_dirac, h, zero_mul]
  · rename_i h
    rw [gammaMeasure_mean (lt_of_le_of_ne ha (Ne.symm h)) (by positivity)]
    field_simp

theorem gammaLaw_sq (ha : 0 ≤ a) (hb : 0 < b) : ∫ x, x ^ 2 ∂(Spec.gammaLaw a b) = a * (a + 1) * b ^ 2 := by
  unfold Spec.gammaLaw
  split
  · rename_i h
    rw [integral_dirac, h]; simp
  · rename_i h
    rw [gammaMeasure_sq (lt_of_le_of_ne ha (Ne.symm h)) (by positivity)]
    field_simp

/-- Draws are never negative. -/
theorem gammaLaw_nonneg : ∀ᵐ x ∂(Spec.gammaLaw a b), 0 ≤ x := by
  unfold Spec.gammaLaw
  split
  · rw [ae_dirac_iff measurableSet_Ici]
  · unfold gammaMeasure
    rw [ae_withDensity_iff (by unfold gammaPDF; fun_prop)]
    refine ae_of_all _ (fun x hx => ?_)
    by_contra h
    exact hx (gammaPDF_of_neg (not_le.1 h))

end

end Trikit
