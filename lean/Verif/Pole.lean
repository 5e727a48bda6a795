import Verif.Props.BootJensen

/-!
# The chain ladder reserve around the pole of its last factor

As a function of the first increment of the oldest origin, reserves have a simple pole where the last divisor vanishes.
-/

set_option linter.unusedSectionVars false

namespace Trikit

open MeasureTheory ProbabilityTheory Finset

/-- Integrable functions of a normal variate are integrable on bounded intervals. -/
theorem gaussian_local {m : ℝ} {V : NNReal} (hV : V ≠ 0) {f : ℝ → ℝ} (h : Integrable f (gaussianReal m V)) (a b : ℝ) :
    IntegrableOn f (Set.Icc a b) volume := by
  rw [gaussianReal_of_var_ne_zero _ hV] at h
  rw [integrable_withDensity_iff_integrable_smul' (measurable_gaussianPDF m V)
    (ae_of_all _ fun _ => gaussianPDF_lt_top)] at h
  simp only [toReal_gaussianPDF] at h
  have h1 : IntegrableOn (fun x => gaussianPDFReal m V x • f x) (Set.Icc a b) volume := h.integrableOn
  have hc : ContinuousOn (fun x => (gaussianPDFReal m V x)⁻¹) (Set.Icc a b) := by
    have : Continuous (gaussianPDFReal m V) := by unfold gaussianPDFReal; fun_prop
    exact (this.inv₀ (fun x => (gaussianPDFReal_pos m V x hV).ne')).continuousOn
  have h2 := h1.continuousOn_mul hc isCompact_Icc
  have e : (fun x => (gaussianPDFReal m V x)⁻¹ * (gaussianPDFReal m V x • f x)) = f := by
    funext x
    have := (gaussianPDFReal_pos m V x hV).ne'
    simp only [smul_eq_mul]
    field_simp
  rwa [e] at h2

/-- A function of a normal variate with a simple pole has no mean. -/
theorem gaussian_pole {m : ℝ} {V : NNReal} (hV : V ≠ 0) {f g : ℝ → ℝ} {l a L κ : ℝ} (hg : ContinuousOn g (Set.Ioi l))
    (hg0 : ∀ x, l < x → g x ≠ 0) (hl : l < -a) (hL : L ≠ 0)
    (hf : ∀ x, l < x → x + a ≠ 0 → f x = g x * ((x + a + L) / (x + a)) - κ) : ¬ Integrable f (gaussianReal m V) := by
  intro h
  obtain ⟨d, hd, hld⟩ : ∃ d, 0 < d ∧ l < -a - d := ⟨(-a - l) / 2, by linarith, by linarith⟩
  have h1 := gaussian_local hV h (-a - d) (-a + d)
  have hsub : Set.Icc (-a - d) (-a + d) ⊆ Set.Ioi l := fun x hx => lt_of_lt_of_le hld hx.1
  have h2 : IntegrableOn (fun x => (g x)⁻¹ * (f x + κ)) (Set.Icc (-a - d) (-a + d)) volume :=
    (h1.add (integrableOn_const (by simp))).continuousOn_mul
      ((hg.mono hsub).inv₀ (fun x hx => hg0 x (hsub hx))) isCompact_Icc
  have h3 : IntegrableOn (fun x => L⁻¹ * ((g x)⁻¹ * (f x + κ) - 1)) (Set.Icc (-a - d) (-a + d)) volume :=
    (h2.sub (integrableOn_const (by simp))).const_mul _
  have h4 : IntegrableOn (fun x : ℝ => (x - -a)⁻¹) (Set.Icc (-a - d) (-a + d)) volume := by
    refine h3.congr_fun_ae ?_
    have hne : ∀ᵐ x ∂(volume.restrict (Set.Icc (-a - d) (-a + d))), x ≠ -a := Measure.ae_ne _ _
    filter_upwards [hne, ae_restrict_mem measurableSet_Icc] with x hx hxm
    have hx' : x + a ≠ 0 := fun e => hx (by linarith)
    have hgx := hg0 x (hsub hxm)
    rw [hf x (hsub hxm) hx', sub_neg_eq_add]
    field_simp
    ring
  have h5 : IntervalIntegrable (fun x : ℝ => (x - -a)⁻¹) volume (-a - d) (-a + d) := by
    rw [intervalIntegrable_iff_integrableOn_Icc_of_le (by linarith)]
    exact h4
  rw [intervalIntegrable_sub_inv_iff] at h5
  rcases h5 with h5 | h5
  · linarith
  · exact h5 (by rw [Set.uIcc_of_le (by linarith)]; constructor <;> linarith)

/-! ## The reserve -/

section
variable {n i j r : ℕ} {D : ℕ → ℕ → ℝ} {x : ℝ}

/-- Increments for which the pole of the last factor is not one of an earlier factor. -/
structure PoleIncr (n : ℕ) (D : ℕ → ℕ → ℝ) : Prop where
  nonneg : ∀ r k, r + k < n → 0 < r ∨ 0 < k → 0 ≤ D r k
  first : ∀ r, 0 < r → r < n → 0 < D r 0
  small : ∑ k ∈ Ico 1 (n - 1), D 0 k < D 1 0
  last : 0 < D 0 (n - 1)

theorem devCum_first (D : ℕ → ℕ → ℝ) (x : ℝ) (j : ℕ) :
    Spec.devCum (repl D 0 0 x) 0 j = x + ∑ k ∈ Ico 1 (j + 1), D 0 k := by
  unfold Spec.devCum
  rw [range_eq_Ico, sum_eq_sum_Ico_succ_bot (by omega)]
  unfold repl
  rw [if_pos ⟨rfl, rfl⟩]
  congr 1
  refine sum_congr rfl (fun k hk => ?_)
  rw [mem_Ico] at hk
  rw [if_neg (by omega)]

theorem devCum_later (D : ℕ → ℕ → ℝ) (x : ℝ) (hr : 0 < r) (j : ℕ) :
    Spec.devCum (repl D 0 0 x) r j = Spec.devCum D r j := by
  unfold Spec.devCum repl
  refine sum_congr rfl (fun k _ => ?_)
  rw [if_neg (by omega)]

theorem PoleIncr.devCum_ge (h : PoleIncr n D) (hr : 0 < r) (hrj : r + j < n) : D r 0 ≤ Spec.devCum D r j := by
  unfold Spec.devCum
  exact single_le_sum (f := fun k => D r k) (fun k hk => h.nonneg r k (by rw [mem_range] at hk; omega) (.inl hr))
    (by rw [mem_range]; omega)

theorem PoleIncr.column_pos (h : PoleIncr n D) {N : ℕ} (hN : 2 ≤ N) (hj : N - 1 + j < n) (hx : -D 1 0 < x) :
    0 < ∑ r ∈ range N, Spec.devCum (repl D 0 0 x) r j := by
  rw [range_eq_Ico, sum_eq_sum_Ico_succ_bot (by omega), sum_eq_sum_Ico_succ_bot (by omega), devCum_first,
    devCum_later _ _ (by omega)]
  have h1 : 0 ≤ ∑ k ∈ Ico 1 (j + 1), D 0 k := sum_nonneg (fun k hk => by
    rw [mem_Ico] at hk
    exact h.nonneg 0 k (by omega) (.inr (by omega)))
  have h2 := h.devCum_ge (r := 1) (j := j) one_pos (by omega)
  have h3 : 0 ≤ ∑ r ∈ Ico (0 + 1 + 1) N, Spec.devCum (repl D 0 0 x) r j := sum_nonneg (fun r hr => by
    rw [mem_Ico] at hr
    rw [devCum_later _ _ (by omega)]
    exact le_trans (h.first r (by omega) (by omega)).le (h.devCum_ge (by omega) (by omega)))
  have e : Spec.devCum D (0 + 1) j = Spec.devCum D 1 j := rfl
  rw [e]
  linarith

theorem devCum_cont (r j : ℕ) : Continuous (fun x => Spec.devCum (repl D 0 0 x) r j) := by
  unfold Spec.devCum repl
  refine continuous_finsetSum _ (fun k _ => ?_)
  by_cases h : r = 0 ∧ k = 0
  · simp only [h, and_self, if_true]; exact continuous_id
  · simp only [h, if_false]; exact continuous_const

/-- Factors before the last one are positive and continuous. -/
theorem PoleIncr.factor (h : PoleIncr n D) (hj : j + 2 < n) :
    (∀ x, -D 1 0 < x → 0 < Spec.devFactor n (repl D 0 0 x) j) ∧
    ContinuousOn (fun x => Spec.devFactor n (repl D 0 0 x) j) (Set.Ioi (-D 1 0)) := by
  have hd : ∀ x, -D 1 0 < x → 0 < ∑ r ∈ range (n - 1 - j), Spec.devCum (repl D 0 0 x) r j :=
    fun x hx => h.column_pos (by omega) (by omega) hx
  refine ⟨fun x hx => div_pos (h.column_pos (by omega) (by omega) hx) (hd x hx), ?_⟩
  refine ContinuousOn.div ?_ ?_ (fun x hx => (hd x hx).ne')
  · exact (continuous_finsetSum _ (fun r _ => devCum_cont r _)).continuousOn
  · exact (continuous_finsetSum _ (fun r _ => devCum_cont r _)).continuousOn

/-- The divisor and the numerator of the last factor. -/
theorem last_factor (hn : 2 ≤ n) (x : ℝ) : Spec.devFactor n (repl D 0 0 x) (n - 2) =
    (x + ∑ k ∈ Ico 1 (n - 1), D 0 k + D 0 (n - 1)) / (x + ∑ k ∈ Ico 1 (n - 1), D 0 k) := by
  unfold Spec.devFactor
  rw [show n - 1 - (n - 2) = 1 by omega, sum_range_one, sum_range_one, devCum_first, devCum_first,
    show n - 2 + 1 = n - 1 by omega, sum_Ico_succ_top (by omega), add_assoc]

/-- Part of the reserves that multiplies the last factor. -/
noncomputable def poleCoef (n : ℕ) (I : Finset ℕ) (D : ℕ → ℕ → ℝ) (x : ℝ) : ℝ :=
  ∑ i ∈ I, Spec.devCum D i (n - 1 - i) * ∏ j ∈ Ico (n - 1 - i) (n - 2), Spec.devFactor n (repl D 0 0 x) j

theorem PoleIncr.coef (h : PoleIncr n D) {I : Finset ℕ} (hI : ∀ i ∈ I, 0 < i ∧ i < n) (h0 : I.Nonempty) :
    (∀ x, -D 1 0 < x → 0 < poleCoef n I D x) ∧ ContinuousOn (poleCoef n I D) (Set.Ioi (-D 1 0)) := by
  constructor
  · intro x hx
    refine sum_pos (fun i hi => mul_pos ?_ (prod_pos (fun j hj => ?_))) h0
    · obtain ⟨i0, i1⟩ := hI i hi
      exact lt_of_lt_of_le (h.first i i0 i1) (h.devCum_ge i0 (by omega))
    · rw [mem_Ico] at hj
      exact (h.factor (by omega)).1 x hx
  · unfold poleCoef
    refine continuousOn_finsetSum _ (fun i hi => continuousOn_const.mul (continuousOn_finsetProd _ (fun j hj => ?_)))
    rw [mem_Ico] at hj
    exact (h.factor (by omega)).2

/-- Reserves as a function of the first increment. -/
theorem PoleIncr.reserve (hn : 2 ≤ n) {I : Finset ℕ} (hI : ∀ i ∈ I, 0 < i ∧ i < n) (x : ℝ) :
    ∑ i ∈ I, Spec.clReserve n i (repl D 0 0 x) = poleCoef n I D x *
      ((x + ∑ k ∈ Ico 1 (n - 1), D 0 k + D 0 (n - 1)) / (x + ∑ k ∈ Ico 1 (n - 1), D 0 k)) -
      ∑ i ∈ I, Spec.devCum D i (n - 1 - i) := by
  unfold poleCoef
  rw [sum_mul, ← sum_sub_distrib]
  refine sum_congr rfl (fun i hi => ?_)
  obtain ⟨i0, i1⟩ := hI i hi
  unfold Spec.clReserve
  obtain ⟨N, hN⟩ : ∃ N, n - 1 = N + 1 := ⟨n - 2, by omega⟩
  have hl := last_factor (D := D) hn x
  rw [show n - 2 = N by omega] at hl ⊢
  rw [← hl, devCum_later _ _ i0]
  conv_lhs => rw [show Ico (n - 1 - i) (n - 1) = Ico (n - 1 - i) (N + 1) by rw [hN]]
  rw [prod_Ico_succ_top (by omega)]
  ring

end

end Trikit
