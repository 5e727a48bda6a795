import Verif.Props.MackErrors
import Mathlib.Probability.Moments.Variance
import Mathlib.Probability.HasLaw
import Mathlib.Probability.Independence.InfinitePi

/-! # Mack's estimators under Mack's model -/

set_option linter.unusedSectionVars false

open MeasureTheory ProbabilityTheory

namespace Trikit

section regression
variable {Ω : Type} [MeasurableSpace Ω] {P : Measure Ω} [IsProbabilityMeasure P]

/-- Weighted squares around the weighted mean. -/
theorem sq_around_mean {ι : Type} (s : Finset ι) (v R : ι → ℝ) (f : ℝ) (hW : ∑ i ∈ s, v i ≠ 0) :
    ∑ i ∈ s, v i * (R i - (∑ k ∈ s, v k * R k) / ∑ k ∈ s, v k) ^ 2 =
      ∑ i ∈ s, v i * (R i - f) ^ 2 -
        (∑ i ∈ s, v i) * ((∑ k ∈ s, v k * R k) / (∑ k ∈ s, v k) - f) ^ 2 := by
  generalize hF : (∑ k ∈ s, v k * R k) / ∑ k ∈ s, v k = F
  have hF' : ∑ k ∈ s, v k * R k = F * ∑ k ∈ s, v k := by rw [← hF]; field_simp
  have e : ∀ g : ℝ, ∑ i ∈ s, v i * (R i - g) ^ 2 =
      ∑ i ∈ s, v i * R i ^ 2 - 2 * g * ∑ i ∈ s, v i * R i + g ^ 2 * ∑ i ∈ s, v i := by
    intro g
    rw [Finset.mul_sum, Finset.mul_sum, ← Finset.sum_sub_distrib, ← Finset.sum_add_distrib]
    exact Finset.sum_congr rfl (fun i _ => by ring)
  rw [e, e, hF']
  ring

variable {ι : Type} {s : Finset ι} {w y : ι → ℝ} {R : ι → Ω → ℝ} {f s2 : ℝ}

/-- Moments of a weighted mean of uncorrelated ratios whose variances are inverse to the weights. -/
theorem weighted_mean (hw : ∀ i ∈ s, w i = 0 ∨ w i = 1) (hy : ∀ i ∈ s, 0 < y i)
    (hW : ∑ i ∈ s, w i * y i ≠ 0) (hL : ∀ i ∈ s, MemLp (R i) 2 P) (hm : ∀ i ∈ s, ∫ ω, R i ω ∂P = f)
    (hv : ∀ i ∈ s, variance (R i) P = s2 / y i)
    (hi : Set.Pairwise (↑s : Set ι) fun i k => IndepFun (R i) (R k) P) :
    MemLp (fun ω => (∑ i ∈ s, w i * y i * R i ω) / ∑ i ∈ s, w i * y i) 2 P ∧
    ∫ ω, (∑ i ∈ s, w i * y i * R i ω) / (∑ i ∈ s, w i * y i) ∂P = f ∧
    variance (fun ω => (∑ i ∈ s, w i * y i * R i ω) / ∑ i ∈ s, w i * y i) P = s2 / ∑ i ∈ s, w i * y i ∧
    ∫ ω, (∑ i ∈ s, w i * y i * (R i ω - (∑ k ∈ s, w k * y k * R k ω) / ∑ k ∈ s, w k * y k) ^ 2) ∂P =
      s2 * (∑ i ∈ s, w i - 1) := by
  have hL' : ∀ i ∈ s, MemLp (fun ω => w i * y i * R i ω) 2 P := fun i hi => (hL i hi).const_mul _
  have hLs : MemLp (fun ω => ∑ i ∈ s, w i * y i * R i ω) 2 P := memLp_finsetSum _ hL'
  have hLF : MemLp (fun ω => (∑ i ∈ s, w i * y i * R i ω) / ∑ i ∈ s, w i * y i) 2 P := by
    simp only [div_eq_mul_inv]
    exact hLs.mul_const _
  have hint : ∀ i ∈ s, Integrable (fun ω => w i * y i * R i ω) P :=
    fun i hi => (hL' i hi).integrable (by norm_num)
  have hmean : ∫ ω, (∑ i ∈ s, w i * y i * R i ω) / (∑ i ∈ s, w i * y i) ∂P = f := by
    simp only [div_eq_mul_inv]
    rw [integral_mul_const, integral_finsetSum _ hint,
      Finset.sum_congr rfl (fun i hi => by rw [integral_const_mul, hm i hi]), ← Finset.sum_mul]
    field_simp
  have hvar : variance (fun ω => (∑ i ∈ s, w i * y i * R i ω) / ∑ i ∈ s, w i * y i) P =
      s2 / ∑ i ∈ s, w i * y i := by
    simp only [div_eq_mul_inv]
    rw [variance_mul_const]
    have hp : Set.Pairwise (↑s : Set ι) fun i k =>
        IndepFun (fun ω => w i * y i * R i ω) (fun ω => w k * y k * R k ω) P := by
      intro i hi' k hk hne
      exact (hi hi' hk hne).comp (φ := fun r => w i * y i * r) (ψ := fun r => w k * y k * r)
        (by fun_prop) (by fun_prop)
    have hsum := IndepFun.variance_sum hL' hp
    rw [Finset.sum_fn] at hsum
    rw [hsum]
    have e : ∀ i ∈ s, variance (fun ω => w i * y i * R i ω) P = w i * y i * s2 := by
      intro i hi
      rw [variance_const_mul, hv i hi]
      have := (hy i hi).ne'
      rcases hw i hi with h | h <;> rw [h] <;> field_simp
      ring
    rw [Finset.sum_congr rfl e, ← Finset.sum_mul]
    field_simp
  refine ⟨hLF, hmean, hvar, ?_⟩
  simp only [sq_around_mean s (fun i => w i * y i) (fun i => R i _) f hW]
  have hsq : ∀ i ∈ s, Integrable (fun ω => (R i ω - f) ^ 2) P :=
    fun i hi => ((hL i hi).sub (memLp_const f)).integrable_sq
  have hsqF : Integrable (fun ω => ((∑ i ∈ s, w i * y i * R i ω) / (∑ i ∈ s, w i * y i) - f) ^ 2) P :=
    (hLF.sub (memLp_const f)).integrable_sq
  rw [integral_sub (integrable_finsetSum _ (fun i hi => (hsq i hi).const_mul _)) (hsqF.const_mul _),
    integral_finsetSum _ (fun i hi => (hsq i hi).const_mul _), integral_const_mul]
  have e1 : ∀ i ∈ s, ∫ ω, w i * y i * (R i ω - f) ^ 2 ∂P = w i * s2 := by
    intro i hi
    have := variance_eq_integral (hL i hi).aemeasurable
    rw [hm i hi, hv i hi] at this
    rw [integral_const_mul, ← this]
    have := (hy i hi).ne'
    field_simp
  have e2 : ∫ ω, ((∑ i ∈ s, w i * y i * R i ω) / (∑ i ∈ s, w i * y i) - f) ^ 2 ∂P =
      s2 / ∑ i ∈ s, w i * y i := by
    have := variance_eq_integral hLF.aemeasurable
    rw [hmean, hvar] at this
    exact this.symm
  rw [Finset.sum_congr rfl e1, e2, ← Finset.sum_mul]
  field_simp

end regression

section mack
variable {Ω : Type} [MeasurableSpace Ω] {P : Measure Ω} [IsProbabilityMeasure P]

/-- Mack's model for the step from period `j` to the next, given the values `x` of period `j`: the origins are
independent, with mean `f x` and variance `s2 * x ^ (2 - alpha)`. -/
structure Spec.MackStep (P : Measure Ω) (alpha n j : ℕ) (c : Ω → ℕ → ℕ → ℝ) (x : ℕ → ℝ) (f s2 : ℝ) : Prop where
  given : ∀ ω i, i + j + 1 < n → c ω i j = x i
  memLp : ∀ i, i + j + 1 < n → MemLp (fun ω => c ω i (j + 1)) 2 P
  mean : ∀ i, i + j + 1 < n → ∫ ω, c ω i (j + 1) ∂P = f * x i
  var : ∀ i, i + j + 1 < n → variance (fun ω => c ω i (j + 1)) P = s2 * x i ^ ((2 : ℝ) - alpha)
  indep : ∀ i k, i + j + 1 < n → k + j + 1 < n → i ≠ k →
    IndepFun (fun ω => c ω i (j + 1)) (fun ω => c ω k (j + 1)) P

variable {n j : ℕ} {tr ind : Ω → Tri ℝ} {c : Ω → ℕ → ℕ → ℝ} {w : ℕ → ℕ → ℝ} {x : ℕ → ℝ} {f s2 : ℝ}

/-- Moments of the estimates of one period. -/
theorem mack_estimators (h : ∀ ω, Spec.Stair (tr ω) n (c ω)) (hp : ∀ ω, Spec.Positive n (c ω))
    (hi : ∀ ω, IndW (tr ω) (ind ω) n w) (hw : Spec.Weights n w) (h01 : ∀ i j, w i j = 0 ∨ w i j = 1)
    (hn : 4 ≤ n) (alpha : ℕ) (hj : j < n - 1) (hM : Spec.MackStep P alpha n j c x f s2) :
    ∃ F S : Ω → ℝ,
      (∀ ω, ∃ r, mackCore alpha (tr ω) (ind ω) = .ok r ∧ r.ldfs[j]? = some ((tr ω).dAt j, .fin (F ω)) ∧
        (j + 2 < n → r.devpvar[j]? = some ((tr ω).dAt j, .fin (S ω)) ∧
          r.ldfvar[j]? = some ((tr ω).dAt j,
            .fin (S ω / ∑ i ∈ Finset.range (n - 1 - j), w i j * x i ^ alpha)))) ∧
      ∫ ω, F ω ∂P = f ∧
      variance F P = s2 / ∑ i ∈ Finset.range (n - 1 - j), w i j * x i ^ alpha ∧
      ∫ ω, S ω ∂P = s2 * ((∑ i ∈ Finset.range (n - 1 - j), w i j) - 1) / ((n - j - 2 : ℕ) : ℝ) := by
  have hlt : ∀ i ∈ Finset.range (n - 1 - j), i + j + 1 < n := fun i hi => by
    rw [Finset.mem_range] at hi; omega
  have hx : ∀ i ∈ Finset.range (n - 1 - j), 0 < x i := by
    intro i hi
    obtain ⟨ω⟩ : Nonempty Ω := P.nonempty_of_neZero
    rw [← hM.given ω i (hlt i hi)]
    exact hp ω i j (by have := hlt i hi; omega)
  have hWω : ∀ ω, Spec.mackW alpha n (c ω) w j = ∑ i ∈ Finset.range (n - 1 - j), w i j * x i ^ alpha := by
    intro ω
    unfold Spec.mackW Spec.colSum
    exact Finset.sum_congr rfl (fun i hi => by simp only [hM.given ω i (hlt i hi)])
  have hWpos : 0 < ∑ i ∈ Finset.range (n - 1 - j), w i j * x i ^ alpha := by
    obtain ⟨ω⟩ : Nonempty Ω := P.nonempty_of_neZero
    rw [← hWω ω]
    exact mackW_pos (hp ω) hw alpha hj
  have hFω : ∀ ω, Spec.mackF alpha n (c ω) w j =
      (∑ i ∈ Finset.range (n - 1 - j), w i j * x i ^ alpha * (c ω i (j + 1) / x i)) /
        ∑ i ∈ Finset.range (n - 1 - j), w i j * x i ^ alpha := by
    intro ω
    unfold Spec.mackF
    rw [hWω]
    unfold Spec.colSum
    congr 1
    exact Finset.sum_congr rfl (fun i hi => by simp only [hM.given ω i (hlt i hi)])
  have hSω : ∀ ω, Spec.sig0 alpha n (c ω) w j =
      (∑ i ∈ Finset.range (n - 1 - j), w i j * x i ^ alpha * (c ω i (j + 1) / x i -
        (∑ k ∈ Finset.range (n - 1 - j), w k j * x k ^ alpha * (c ω k (j + 1) / x k)) /
        ∑ k ∈ Finset.range (n - 1 - j), w k j * x k ^ alpha) ^ 2) / ((n - j - 2 : ℕ) : ℝ) := by
    intro ω
    unfold Spec.sig0 Spec.sqDev
    rw [hFω]
    unfold Spec.colSum
    congr 1
    exact Finset.sum_congr rfl (fun i hi => by simp only [hM.given ω i (hlt i hi)])
  obtain ⟨-, e1, e2, e3⟩ := weighted_mean (P := P) (s := Finset.range (n - 1 - j)) (w := fun i => w i j)
    (y := fun i => x i ^ alpha) (R := fun i ω => c ω i (j + 1) / x i) (f := f) (s2 := s2)
    (fun i _ => h01 i j) (fun i hi => pow_pos (hx i hi) _) hWpos.ne'
    (fun i hi => by
      simp only [div_eq_mul_inv]
      exact (hM.memLp i (hlt i hi)).mul_const _)
    (fun i hi => by
      simp only [div_eq_mul_inv]
      rw [integral_mul_const, hM.mean i (hlt i hi)]
      have := (hx i hi).ne'
      field_simp)
    (fun i hi => by
      simp only [div_eq_mul_inv]
      rw [variance_mul_const, hM.var i (hlt i hi), Real.rpow_sub (hx i hi), Real.rpow_natCast]
      have := (hx i hi).ne'
      rw [show ((2 : ℝ)) = ((2 : ℕ) : ℝ) by norm_num, Real.rpow_natCast]
      field_simp)
    (by
      intro i hi' k hk hne
      exact (hM.indep i k (hlt i hi') (hlt k hk) hne).comp (φ := fun r => r / x i) (ψ := fun r => r / x k)
        (by fun_prop) (by fun_prop))
  refine ⟨_, fun ω => (∑ i ∈ Finset.range (n - 1 - j), w i j * x i ^ alpha * (c ω i (j + 1) / x i -
        (∑ k ∈ Finset.range (n - 1 - j), w k j * x k ^ alpha * (c ω k (j + 1) / x k)) /
        ∑ k ∈ Finset.range (n - 1 - j), w k j * x k ^ alpha) ^ 2) / ((n - j - 2 : ℕ) : ℝ), ?_, e1, e2, ?_⟩
  · intro ω
    obtain ⟨r, b, lab, hr, p⟩ := mack_parts (h ω) (hp ω) (hi ω) hw hn alpha
    refine ⟨r, hr, ?_, ?_⟩
    · rw [p.factors]
      unfold mackSer
      rw [(h ω).take_devs, List.getElem?_zip_eq_some]
      constructor
      · rw [List.getElem?_append_left (by simp; omega), List.getElem?_map,
          List.getElem?_range (by omega)]; rfl
      · rw [List.getElem?_map, List.getElem?_range (by omega), Option.map_some,
          Spec.mackAll_lt (by omega), hFω]
    · intro hj2
      have hst : storedVar alpha n (c ω) w j = .fin (Spec.sig0 alpha n (c ω) w j) := by
        unfold storedVar
        rw [if_pos (by omega)]
      constructor
      · rw [p.devpvar, List.getElem?_map, List.getElem?_range hj, Option.map_some, hst, hSω]
      · rw [p.ldfvar, List.getElem?_map, List.getElem?_range hj, Option.map_some, hst, hSω, hWω,
          Num.fin_div _ _ hWpos.ne']
  · simp only [div_eq_mul_inv _ ((n - j - 2 : ℕ) : ℝ)]
    rw [integral_mul_const, e3]

/-- **C114** For all random positive staircases that follow Mack's model, every alpha and every exclusion of
link ratios: the factor that `mack_cl` estimates is unbiased, and its variance is the variance parameter over the
weighted sum of the kept values of the period. -/
theorem C114_factor (h : ∀ ω, Spec.Stair (tr ω) n (c ω)) (hp : ∀ ω, Spec.Positive n (c ω))
    (hi : ∀ ω, IndW (tr ω) (ind ω) n w) (hw : Spec.Weights n w) (h01 : ∀ i j, w i j = 0 ∨ w i j = 1)
    (hn : 4 ≤ n) (alpha : ℕ) (hj : j < n - 1) (hM : Spec.MackStep P alpha n j c x f s2) :
    ∃ F : Ω → ℝ,
      (∀ ω, ∃ r, mackCore alpha (tr ω) (ind ω) = .ok r ∧ r.ldfs[j]? = some ((tr ω).dAt j, .fin (F ω))) ∧
      ∫ ω, F ω ∂P = f ∧
      variance F P = s2 / ∑ i ∈ Finset.range (n - 1 - j), w i j * x i ^ alpha := by
  obtain ⟨F, S, h1, h2, h3, -⟩ := mack_estimators h hp hi hw h01 hn alpha hj hM
  exact ⟨F, fun ω => (h1 ω).imp fun r hr => ⟨hr.1, hr.2.1⟩, h2, h3⟩

/-- **C115, partial**: the estimated variance parameter of every period but the last is unbiased, and the estimated
variance of the factor is an unbiased estimate of the variance the factor has.  Missing: this holds when no link
ratio is excluded; see `C115_excluded_fails`. -/
theorem C115_variance_partial (h : ∀ ω, Spec.Stair (tr ω) n (c ω)) (hp : ∀ ω, Spec.Positive n (c ω))
    (hn : 4 ≤ n) (alpha : ℕ) (hj : j + 2 < n) (hM : Spec.MackStep P alpha n j c x f s2) :
    ∃ F S V : Ω → ℝ,
      (∀ ω, ∃ r, mackCore alpha (tr ω) (tr ω).a2aind0 = .ok r ∧
        r.ldfs[j]? = some ((tr ω).dAt j, .fin (F ω)) ∧ r.devpvar[j]? = some ((tr ω).dAt j, .fin (S ω)) ∧
          r.ldfvar[j]? = some ((tr ω).dAt j, .fin (V ω))) ∧
      ∫ ω, S ω ∂P = s2 ∧ ∫ ω, V ω ∂P = variance F P := by
  obtain ⟨F, S, h1, h2, h3, h4⟩ := mack_estimators (w := fun _ _ => 1) h hp
    (fun ω => (h ω).indW0 (hp ω).ne_zero)
    ⟨fun _ _ _ => zero_le_one, fun j hj => ⟨0, by omega, one_pos⟩⟩ (fun _ _ => Or.inr rfl) hn alpha
    (by omega : j < n - 1) hM
  have hc : (((n - 1 - j : ℕ) : ℝ) - 1) / ((n - j - 2 : ℕ) : ℝ) = 1 := by
    rw [show n - 1 - j = (n - j - 2) + 1 by omega]
    have : ((n - j - 2 : ℕ) : ℝ) ≠ 0 := by
      rw [Nat.cast_ne_zero]; omega
    push_cast
    field_simp
    ring
  have hS : ∫ ω, S ω ∂P = s2 := by
    rw [h4]
    simp only [Finset.sum_const, Finset.card_range, nsmul_eq_mul, mul_one]
    rw [mul_div_assoc, hc, mul_one]
  refine ⟨F, S, _, fun ω => (h1 ω).imp fun r hr => ⟨hr.1, hr.2.1, (hr.2.2 hj).1, (hr.2.2 hj).2⟩, hS, ?_⟩
  simp only [div_eq_mul_inv]
  rw [integral_mul_const, hS, h3, div_eq_mul_inv]

/-- **C115, exact part**: with any link ratios excluded beforehand, the mean of the estimated variance parameter is the
parameter times (number of link ratios kept - 1) / (number of all - 1), and the mean of the estimated variance of the
factor is the variance of the factor times the same number.  A positive parameter is met on average exactly when no link
ratio of the period is excluded. -/
theorem C115_exactly_partial (h : ∀ ω, Spec.Stair (tr ω) n (c ω)) (hp : ∀ ω, Spec.Positive n (c ω))
    (hi : ∀ ω, IndW (tr ω) (ind ω) n w) (hw : Spec.Weights n w) (h01 : ∀ i j, w i j = 0 ∨ w i j = 1)
    (hn : 4 ≤ n) (alpha : ℕ) (hj : j + 2 < n) (hM : Spec.MackStep P alpha n j c x f s2) :
    ∃ F S V : Ω → ℝ,
      (∀ ω, ∃ r, mackCore alpha (tr ω) (ind ω) = .ok r ∧
        r.ldfs[j]? = some ((tr ω).dAt j, .fin (F ω)) ∧ r.devpvar[j]? = some ((tr ω).dAt j, .fin (S ω)) ∧
          r.ldfvar[j]? = some ((tr ω).dAt j, .fin (V ω))) ∧
      ∫ ω, S ω ∂P = s2 * ((((Finset.range (n - 1 - j)).filter (fun i => w i j = 1)).card - 1 : ℝ) /
        ((n - 1 - j : ℕ) - 1 : ℝ)) ∧
      ∫ ω, V ω ∂P = variance F P * ((((Finset.range (n - 1 - j)).filter (fun i => w i j = 1)).card - 1 : ℝ) /
        ((n - 1 - j : ℕ) - 1 : ℝ)) ∧
      (0 < s2 → (∫ ω, S ω ∂P = s2 ↔ ∀ i, i + j + 1 < n → w i j = 1)) := by
  obtain ⟨F, S, h1, h2, h3, h4⟩ := mack_estimators h hp hi hw h01 hn alpha (by omega : j < n - 1) hM
  have hsum : ∑ i ∈ Finset.range (n - 1 - j), w i j =
      (((Finset.range (n - 1 - j)).filter (fun i => w i j = 1)).card : ℝ) := by
    rw [Finset.card_filter, Nat.cast_sum]
    refine Finset.sum_congr rfl (fun i _ => ?_)
    rcases h01 i j with e | e <;> simp [e]
  have hd : ((n - j - 2 : ℕ) : ℝ) = ((n - 1 - j : ℕ) : ℝ) - 1 := by
    rw [show n - 1 - j = (n - j - 2) + 1 by omega]
    push_cast; ring
  have hdpos : (0 : ℝ) < ((n - 1 - j : ℕ) : ℝ) - 1 := by
    rw [← hd, Nat.cast_pos]; omega
  have hS : ∫ ω, S ω ∂P = s2 * ((((Finset.range (n - 1 - j)).filter (fun i => w i j = 1)).card - 1 : ℝ) /
        ((n - 1 - j : ℕ) - 1 : ℝ)) := by
    rw [h4, hsum, hd, mul_div_assoc]
  refine ⟨F, S, _, fun ω => (h1 ω).imp fun r hr => ⟨hr.1, hr.2.1, (hr.2.2 hj).1, (hr.2.2 hj).2⟩, hS, ?_, ?_⟩
  · simp only [div_eq_mul_inv]
    rw [integral_mul_const, hS, h3]
    simp only [div_eq_mul_inv]
    ring
  · intro hs
    rw [hS]
    constructor
    · intro he i hi'
      have h5 : ((((Finset.range (n - 1 - j)).filter (fun i => w i j = 1)).card : ℝ) - 1) /
          (((n - 1 - j : ℕ) : ℝ) - 1) = 1 := by
        exact mul_left_cancel₀ hs.ne' (by rw [mul_one]; exact he)
      rw [div_eq_one_iff_eq hdpos.ne'] at h5
      have h6 : ((Finset.range (n - 1 - j)).filter (fun i => w i j = 1)).card = (Finset.range (n - 1 - j)).card := by
        rw [Finset.card_range]
        exact_mod_cast (by linarith : (((Finset.range (n - 1 - j)).filter (fun i => w i j = 1)).card : ℝ) =
          ((n - 1 - j : ℕ) : ℝ))
      exact (Finset.card_filter_eq_iff.1 h6) i (by rw [Finset.mem_range]; omega)
    · intro hall
      rw [Finset.filter_true_of_mem (fun i hi' => hall i (by have := Finset.mem_range.1 hi'; omega)), Finset.card_range,
        div_self hdpos.ne', mul_one]

/-- **C115 is false of the code** when link ratios are excluded: with at least one link ratio of the period
excluded the estimate of a positive variance parameter is too small on average, since the code divides by the
number of all link ratios less one. -/
theorem C115_excluded_fails (h : ∀ ω, Spec.Stair (tr ω) n (c ω)) (hp : ∀ ω, Spec.Positive n (c ω))
    (hi : ∀ ω, IndW (tr ω) (ind ω) n w) (hw : Spec.Weights n w) (h01 : ∀ i j, w i j = 0 ∨ w i j = 1)
    (hn : 4 ≤ n) (alpha : ℕ) (hj : j + 2 < n) (hM : Spec.MackStep P alpha n j c x f s2) (hs : 0 < s2)
    {i0 : ℕ} (hi0 : i0 + j + 1 < n) (hex : w i0 j = 0) :
    ∃ S : Ω → ℝ,
      (∀ ω, ∃ r, mackCore alpha (tr ω) (ind ω) = .ok r ∧ r.devpvar[j]? = some ((tr ω).dAt j, .fin (S ω))) ∧
      ∫ ω, S ω ∂P < s2 := by
  obtain ⟨F, S, h1, h2, h3, h4⟩ := mack_estimators h hp hi hw h01 hn alpha (by omega : j < n - 1) hM
  refine ⟨S, fun ω => (h1 ω).imp fun r hr => ⟨hr.1, (hr.2.2 hj).1⟩, ?_⟩
  have hlt : ∑ i ∈ Finset.range (n - 1 - j), w i j < ∑ i ∈ Finset.range (n - 1 - j), (1 : ℝ) := by
    refine Finset.sum_lt_sum (fun i _ => ?_) ⟨i0, by rw [Finset.mem_range]; omega, ?_⟩
    · rcases h01 i j with e | e <;> rw [e] <;> norm_num
    · rw [hex]; norm_num
  simp only [Finset.sum_const, Finset.card_range, nsmul_eq_mul, mul_one] at hlt
  have hd : (0 : ℝ) < ((n - j - 2 : ℕ) : ℝ) := by
    rw [Nat.cast_pos]; omega
  rw [show n - 1 - j = (n - j - 2) + 1 by omega] at hlt h4
  push_cast at hlt
  rw [h4, div_lt_iff₀ hd]
  exact mul_lt_mul_of_pos_left (by linarith) hs

end mack

/-! Triangles that follow the model exist. -/

/-- A fair sign. -/
noncomputable def coin : Measure ℝ := (2⁻¹ : ENNReal) • Measure.dirac 1 + (2⁻¹ : ENNReal) • Measure.dirac (-1)

theorem coin_probability : IsProbabilityMeasure coin := by
  constructor
  unfold coin
  simp [ENNReal.inv_two_add_inv_two]

/-- Sign of a number. -/
noncomputable def sgn (z : ℝ) : ℝ := if 0 ≤ z then 1 else -1

theorem measurable_sgn : Measurable sgn :=
  Measurable.ite measurableSet_Ici measurable_const measurable_const

theorem sgn_sq (z : ℝ) : sgn z ^ 2 = 1 := by unfold sgn; split <;> norm_num

theorem sgn_abs (z : ℝ) : |sgn z| ≤ 1 := by unfold sgn; split <;> norm_num

theorem coin_mean : ∫ z, sgn z ∂coin = 0 := by
  unfold coin
  have hi : ∀ a : ℝ, Integrable sgn ((2⁻¹ : ENNReal) • Measure.dirac a) := fun a =>
    (integrable_dirac (by simp)).smul_measure (by simp)
  rw [integral_add_measure (hi 1) (hi (-1)), integral_smul_measure, integral_smul_measure,
    integral_dirac, integral_dirac]
  unfold sgn
  norm_num

/-- Independent fair signs exist. -/
theorem exists_coins : ∃ (Ω : Type) (_ : MeasurableSpace Ω) (P : Measure Ω) (_ : IsProbabilityMeasure P)
    (Z : ℕ → Ω → ℝ), (∀ i, Measurable (Z i)) ∧ (∀ i ω, |Z i ω| ≤ 1) ∧ (∀ i ω, Z i ω ^ 2 = 1) ∧
      (∀ i, ∫ ω, Z i ω ∂P = 0) ∧ iIndepFun Z P := by
  have hp := coin_probability
  refine ⟨ℕ → ℝ, inferInstance, Measure.infinitePi (fun _ => coin), inferInstance,
    fun i ω => sgn (ω i), fun i => measurable_sgn.comp (measurable_pi_apply i), fun i ω => sgn_abs _,
    fun i ω => sgn_sq _, fun i => ?_, ?_⟩
  · have := (measurePreserving_eval_infinitePi (fun _ : ℕ => coin) i).hasLaw
    rw [← coin_mean, ← this.integral_comp]
    · rfl
    · exact measurable_sgn.aestronglyMeasurable
  · exact iIndepFun_infinitePi (X := fun _ => sgn) (fun _ => measurable_sgn)

/-- Random columns that follow the model, for all known columns, factors and variance parameters that leave the
values positive. -/
theorem exists_mackStep (alpha n j : ℕ) {x : ℕ → ℝ} (hx : ∀ i, 0 < x i) {f s2 : ℝ} (hf : 0 < f) (hs : 0 ≤ s2)
    (hfs : ∀ i, s2 * x i ^ ((2 : ℝ) - alpha) < (f * x i) ^ 2) :
    ∃ (Ω : Type) (_ : MeasurableSpace Ω) (P : Measure Ω) (_ : IsProbabilityMeasure P) (c : Ω → ℕ → ℕ → ℝ),
      (∀ ω, Spec.Positive n (c ω)) ∧ Spec.MackStep P alpha n j c x f s2 := by
  obtain ⟨Ω, _, P, hP, Z, hZm, hZ1, hZ2, hZ0, hZi⟩ := exists_coins
  obtain ⟨d, hd⟩ : ∃ d : ℕ → ℝ, ∀ i, 0 ≤ d i ∧ d i ^ 2 = s2 * x i ^ ((2 : ℝ) - alpha) ∧ d i < f * x i :=
    ⟨fun i => √(s2 * x i ^ ((2 : ℝ) - alpha)), fun i => ⟨Real.sqrt_nonneg _,
      Real.sq_sqrt (mul_nonneg hs (Real.rpow_nonneg (hx i).le _)),
      by rw [Real.sqrt_lt' (mul_pos hf (hx i))]; exact hfs i⟩⟩
  have hZL : ∀ i, MemLp (Z i) 2 P := fun i =>
    MemLp.of_bound (hZm i).aestronglyMeasurable 1 (Filter.Eventually.of_forall (hZ1 i))
  refine ⟨Ω, _, P, hP, fun ω i k => if k = j + 1 then f * x i + d i * Z i ω else x i, ?_, ?_, ?_, ?_, ?_, ?_⟩
  · intro ω i k _
    dsimp only
    split
    · have h1 := abs_le.1 (hZ1 i ω)
      nlinarith [(hd i).1, (hd i).2.2, h1.1]
    · exact hx i
  · intro ω i _
    simp
  · intro i _
    simp only [if_true]
    exact MemLp.add (f := fun _ => f * x i) (g := fun ω => d i * Z i ω) (memLp_const _) ((hZL i).const_mul _)
  · intro i _
    simp only [if_true]
    rw [integral_add (integrable_const _) (((hZL i).integrable (by norm_num)).const_mul _),
      integral_const_mul (d i), hZ0]
    simp
  · intro i _
    simp only [if_true]
    rw [variance_const_add ((hZL i).aestronglyMeasurable.const_mul _), variance_const_mul,
      variance_of_integral_eq_zero (hZm i).aemeasurable (hZ0 i)]
    simp only [hZ2]
    rw [(hd i).2.1]
    simp
  · intro i k _ _ hne
    simp only [if_true]
    exact (hZi.indepFun hne).comp (φ := fun z => f * x i + d i * z) (ψ := fun z => f * x k + d k * z)
      (by fun_prop) (by fun_prop)

/-- The statements of this file apply: 5 x 5 triangles with known first column 100, 110, …, factor 3/2 and variance
parameter 1. -/
example : ∃ (Ω : Type) (_ : MeasurableSpace Ω) (P : Measure Ω) (tr : Ω → Tri ℝ) (F S V : Ω → ℝ),
    (∀ ω, ∃ r, mackCore 1 (tr ω) (tr ω).a2aind0 = .ok r ∧
      r.ldfs[0]? = some ((tr ω).dAt 0, .fin (F ω)) ∧ r.devpvar[0]? = some ((tr ω).dAt 0, .fin (S ω)) ∧
        r.ldfvar[0]? = some ((tr ω).dAt 0, .fin (V ω))) ∧
    ∫ ω, S ω ∂P = 1 ∧ ∫ ω, V ω ∂P = variance F P := by
  obtain ⟨Ω, _, P, hP, c, hc, hM⟩ := exists_mackStep 1 5 0 (x := fun i => 100 + 10 * i) (f := 3 / 2) (s2 := 1)
    (fun i => by positivity) (by norm_num) (by norm_num) (fun i => by
      rw [show (2 : ℝ) - (1 : ℕ) = ((1 : ℕ) : ℝ) by norm_num, Real.rpow_natCast]
      have : (0 : ℝ) ≤ i := by positivity
      nlinarith)
  obtain ⟨F, S, V, h1, h2, h3⟩ := C115_variance_partial (P := P) (fun ω => stairTri_stair 5 (c ω)) hc
    (by norm_num) 1 (by norm_num) hM
  exact ⟨Ω, _, P, fun ω => stairTri 5 (c ω), F, S, V, h1, h2, h3⟩

end Trikit
