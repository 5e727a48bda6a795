import Verif.Props.MackModel
import Verif.Props.Influence
import Mathlib.MeasureTheory.Function.ConditionalExpectation.PullOut
import Mathlib.Probability.Process.Filtration
import Mathlib.Probability.ConditionalExpectation

/-! # Chain ladder ultimates as predictors -/

set_option linter.unusedSectionVars false

open MeasureTheory ProbabilityTheory Filter

namespace Trikit

theorem stronglyMeasurable_min {Ω : Type} [MeasurableSpace Ω] {X : Ω → ℝ} (hX : StronglyMeasurable X) (k : ℝ) :
    StronglyMeasurable (fun ω => min (X ω) k) :=
  (hX.measurable.min measurable_const).stronglyMeasurable

section pull
variable {Ω : Type} {m m0 : MeasurableSpace Ω} {P : Measure Ω} [IsProbabilityMeasure P]

/-- A product is integrable when its conditional expectation is. -/
theorem integrable_mul_of_condExp (hm : m ≤ m0) {X Y : Ω → ℝ} (hX : StronglyMeasurable[m] X)
    (hX0 : ∀ ω, 0 ≤ X ω) (hY : Integrable Y P) (hY0 : ∀ ω, 0 ≤ Y ω)
    (hXY : Integrable (fun ω => X ω * (P[Y | m]) ω) P) : Integrable (fun ω => X ω * Y ω) P := by
  have hXm : Measurable X := (hX.mono hm).measurable
  let T : ℕ → Ω → ℝ := fun k ω => min (X ω) k
  have hTm : ∀ k, StronglyMeasurable[m] (T k) := fun k =>
    @stronglyMeasurable_min Ω m X hX k
  have hT0 : ∀ k ω, 0 ≤ T k ω := fun k ω => le_min (hX0 ω) (Nat.cast_nonneg k)
  have hTb : ∀ k ω, ‖T k ω‖ ≤ k := fun k ω => by
    rw [Real.norm_of_nonneg (hT0 k ω)]; exact min_le_right _ _
  have hint : ∀ k, Integrable (fun ω => T k ω * Y ω) P := fun k =>
    hY.bdd_mul ((hTm k).mono hm).aestronglyMeasurable (Eventually.of_forall (hTb k))
  have hle : ∀ k, ∫ ω, T k ω * Y ω ∂P ≤ ∫ ω, X ω * (P[Y | m]) ω ∂P := by
    intro k
    have h1 : P[fun ω => T k ω * Y ω | m] =ᵐ[P] fun ω => T k ω * (P[Y | m]) ω :=
      condExp_mul_of_stronglyMeasurable_left (hTm k) (hint k) hY
    rw [← integral_condExp hm, integral_congr_ae h1]
    refine integral_mono_ae ?_ hXY ?_
    · exact (integrable_condExp (m := m) (f := fun ω => T k ω * Y ω) (μ := P)).congr h1
    · filter_upwards [condExp_nonneg (m := m) (μ := P) (Eventually.of_forall hY0)] with ω hω
      exact mul_le_mul_of_nonneg_right (min_le_left _ _) hω
  refine ⟨(hXm.aestronglyMeasurable).mul hY.aestronglyMeasurable, ?_⟩
  rw [hasFiniteIntegral_iff_ofReal (Eventually.of_forall fun ω => mul_nonneg (hX0 ω) (hY0 ω))]
  have hlim : Tendsto (fun k => ∫⁻ ω, ENNReal.ofReal (T k ω * Y ω) ∂P) atTop
      (nhds (∫⁻ ω, ENNReal.ofReal (X ω * Y ω) ∂P)) := by
    refine lintegral_tendsto_of_tendsto_of_monotone
      (fun k => ((hint k).aestronglyMeasurable.aemeasurable).ennreal_ofReal) ?_ ?_
    · refine Eventually.of_forall fun ω k l hkl => ENNReal.ofReal_le_ofReal ?_
      exact mul_le_mul_of_nonneg_right (min_le_min_left _ (Nat.cast_le.2 hkl)) (hY0 ω)
    · refine Eventually.of_forall fun ω => ?_
      refine tendsto_const_nhds.congr' ?_
      obtain ⟨K, hK⟩ := exists_nat_ge (X ω)
      filter_upwards [eventually_ge_atTop K] with k hk
      have : T k ω = X ω := min_eq_left (hK.trans (Nat.cast_le.2 hk))
      rw [this]
  refine lt_of_le_of_lt (le_of_tendsto' hlim fun k => ?_) ENNReal.ofReal_lt_top
    (b := ENNReal.ofReal (∫ ω, X ω * (P[Y | m]) ω ∂P))
  rw [← ofReal_integral_eq_lintegral_ofReal (hint k)
    (Eventually.of_forall fun ω => mul_nonneg (hT0 k ω) (hY0 ω))]
  exact ENNReal.ofReal_le_ofReal (hle k)

/-- Pulling out a known factor from a variable whose conditional expectation is known. -/
theorem condExp_pull (hm : m ≤ m0) {X Y M : Ω → ℝ} (hX : StronglyMeasurable[m] X) (hX0 : ∀ ω, 0 ≤ X ω)
    (hY : Integrable Y P) (hY0 : ∀ ω, 0 ≤ Y ω) (hM : P[Y | m] =ᵐ[P] M)
    (hXM : Integrable (fun ω => X ω * M ω) P) :
    Integrable (fun ω => X ω * Y ω) P ∧ P[fun ω => X ω * Y ω | m] =ᵐ[P] fun ω => X ω * M ω := by
  have h0 : Integrable (fun ω => X ω * (P[Y | m]) ω) P :=
    hXM.congr (by filter_upwards [hM] with ω h; rw [h])
  have h1 := integrable_mul_of_condExp hm hX hX0 hY hY0 h0
  refine ⟨h1, ?_⟩
  have h2 := condExp_mul_of_stronglyMeasurable_left hX h1 hY
  filter_upwards [h2, hM] with ω e1 e2
  have : (P[fun ω => X ω * Y ω | m]) ω = X ω * (P[Y | m]) ω := e1
  rw [this, e2]

end pull

section process
variable {Ω : Type} {m0 : MeasurableSpace Ω} {P : Measure Ω} [IsProbabilityMeasure P]

/-- Mack's first assumption on the claims `D` of `n` origins over `n` periods: they are positive, known in their
period, and on average develop by the factor `f` of the period whatever happened before. -/
structure Spec.MackProcess (P : Measure Ω) (ℱ : Filtration ℕ m0) (n : ℕ) (D : Ω → ℕ → ℕ → ℝ) (f : ℕ → ℝ) :
    Prop where
  known : ∀ i < n, ∀ j < n, StronglyMeasurable[ℱ j] (fun ω => D ω i j)
  integrable : ∀ i < n, ∀ j < n, Integrable (fun ω => D ω i j) P
  pos : ∀ ω, ∀ i < n, ∀ j < n, 0 < D ω i j
  step : ∀ i < n, ∀ j, j + 1 < n → P[fun ω => D ω i (j + 1) | ℱ j] =ᵐ[P] fun ω => f j * D ω i j

variable {ℱ : Filtration ℕ m0} {n : ℕ} {D : Ω → ℕ → ℕ → ℝ} {f : ℕ → ℝ} {w : ℕ → ℕ → ℝ}

theorem Spec.MackProcess.positive (h : Spec.MackProcess P ℱ n D f) (ω : Ω) : Spec.Positive n (D ω) :=
  fun i j hij => h.pos ω i (by omega) j (by omega)

theorem Spec.MackProcess.develop (h : Spec.MackProcess P ℱ n D f) {i : ℕ} (hi : i < n) {a b : ℕ} (hab : a ≤ b)
    (hb : b < n) :
    P[fun ω => D ω i b | ℱ a] =ᵐ[P] fun ω => D ω i a * ∏ k ∈ Finset.Ico a b, f k := by
  induction b, hab using Nat.le_induction with
  | base =>
    rw [condExp_of_stronglyMeasurable (ℱ.le a) (h.known i hi a hb) (h.integrable i hi a hb)]
    simp
  | succ b hab ih =>
    have h1 := condExp_condExp_of_le (μ := P) (f := fun ω => D ω i (b + 1)) (ℱ.mono hab) (ℱ.le b)
    have h2 := condExp_congr_ae (m := ℱ a) (h.step i hi b hb)
    have h3 : P[fun ω => f b * D ω i b | ℱ a] =ᵐ[P] fun ω => f b * (P[fun ω => D ω i b | ℱ a]) ω :=
      condExp_smul (f b) (fun ω => D ω i b) (ℱ a)
    filter_upwards [h1, h2, h3, ih (by omega)] with ω e1 e2 e3 e4
    rw [← e1, e2, e3, e4, Finset.prod_Ico_succ_top hab]
    ring

/-- Weight of origin `i` in the factor of period `j`. -/
noncomputable def Spec.share (alpha n : ℕ) (c w : ℕ → ℕ → ℝ) (j i : ℕ) : ℝ :=
  w i j * c i j ^ alpha / c i j / Spec.mackW alpha n c w j

theorem mackF_share (alpha n : ℕ) (c w : ℕ → ℕ → ℝ) (j : ℕ) :
    Spec.mackF alpha n c w j = ∑ i ∈ Finset.range (n - 1 - j), Spec.share alpha n c w j i * c i (j + 1) := by
  unfold Spec.mackF Spec.share
  rw [Spec.colSum, Finset.sum_div]
  exact Finset.sum_congr rfl fun i _ => by ring

theorem share_sum {c : ℕ → ℕ → ℝ} (hp : Spec.Positive n c) (hw : Spec.Weights n w) (alpha : ℕ) {j : ℕ}
    (hj : j < n - 1) : ∑ i ∈ Finset.range (n - 1 - j), Spec.share alpha n c w j i * c i j = 1 := by
  have hW := (mackW_pos hp hw alpha hj).ne'
  rw [← div_self hW]
  conv_rhs => rw [Spec.mackW, Spec.colSum, Finset.sum_div]
  refine Finset.sum_congr rfl fun i hi => ?_
  have : c i j ≠ 0 := (hp i j (by rw [Finset.mem_range] at hi; omega)).ne'
  unfold Spec.share Spec.mackW Spec.colSum
  field_simp

theorem share_nonneg {c : ℕ → ℕ → ℝ} (hp : Spec.Positive n c) (hw : Spec.Weights n w) (alpha : ℕ) {j i : ℕ}
    (hij : i + j + 1 < n) : 0 ≤ Spec.share alpha n c w j i := by
  have h1 := hp i j (by omega)
  have h2 := hw.nonneg i j hij
  have h3 := mackW_pos hp hw alpha (j := j) (by omega)
  unfold Spec.share
  positivity

theorem Spec.MackProcess.share_meas (h : Spec.MackProcess P ℱ n D f) (alpha : ℕ) {j i : ℕ} (hij : i + j + 1 < n) :
    StronglyMeasurable[ℱ j] (fun ω => Spec.share alpha n (D ω) w j i) := by
  unfold Spec.share Spec.mackW Spec.colSum
  have hD : ∀ i, i + j + 1 < n → StronglyMeasurable[ℱ j] (fun ω => D ω i j) :=
    fun i hi => h.known i (by omega) j (by omega)
  refine ((((hD i hij).pow alpha).const_mul _).div (hD i hij)).div ?_
  refine Finset.stronglyMeasurable_fun_sum _ fun k hk => ?_
  rw [Finset.mem_range] at hk
  exact ((hD k (by omega)).pow alpha).const_mul _

theorem Spec.MackProcess.factor_meas (h : Spec.MackProcess P ℱ n D f) (alpha : ℕ) {j : ℕ} (hj : j < n - 1) :
    StronglyMeasurable[ℱ (j + 1)] (fun ω => Spec.mackF alpha n (D ω) w j) := by
  simp only [mackF_share]
  refine Finset.stronglyMeasurable_fun_sum _ fun k hk => ?_
  rw [Finset.mem_range] at hk
  exact ((h.share_meas alpha (by omega)).mono (ℱ.mono (by omega))).mul (h.known k (by omega) _ (by omega))

/-- One factor: multiplied by anything known in its period it has the mean of its parameter. -/
theorem Spec.MackProcess.factor_step (h : Spec.MackProcess P ℱ n D f) (hw : Spec.Weights n w) (alpha : ℕ) {j : ℕ}
    (hj : j < n - 1) {G : Ω → ℝ} (hG : StronglyMeasurable[ℱ j] G) (hG0 : ∀ ω, 0 ≤ G ω) (hGi : Integrable G P) :
    Integrable (fun ω => G ω * Spec.mackF alpha n (D ω) w j) P ∧
      P[fun ω => G ω * Spec.mackF alpha n (D ω) w j | ℱ j] =ᵐ[P] fun ω => G ω * f j := by
  have hone : ∀ i ∈ Finset.range (n - 1 - j),
      Integrable (fun ω => G ω * Spec.share alpha n (D ω) w j i * D ω i (j + 1)) P ∧
      P[fun ω => G ω * Spec.share alpha n (D ω) w j i * D ω i (j + 1) | ℱ j] =ᵐ[P]
        fun ω => G ω * Spec.share alpha n (D ω) w j i * (f j * D ω i j) := by
    intro i hi
    rw [Finset.mem_range] at hi
    have hs0 : ∀ ω, ∀ k ∈ Finset.range (n - 1 - j), 0 ≤ Spec.share alpha n (D ω) w j k * D ω k j := by
      intro ω k hk
      rw [Finset.mem_range] at hk
      exact mul_nonneg (share_nonneg (h.positive ω) hw alpha (by omega)) (h.pos ω k (by omega) j (by omega)).le
    refine condExp_pull (ℱ.le j) (hG.mul (h.share_meas alpha (by omega)))
      (fun ω => mul_nonneg (hG0 ω) (share_nonneg (h.positive ω) hw alpha (by omega)))
      (h.integrable i (by omega) _ (by omega)) (fun ω => (h.pos ω i (by omega) _ (by omega)).le)
      (h.step i (by omega) j (by omega)) ?_
    refine Integrable.mono (hGi.const_mul (f j)) ?_ (Eventually.of_forall fun ω => ?_)
    · exact (((hG.mul (h.share_meas alpha (by omega))).mul
        ((h.known i (by omega) j (by omega)).const_mul (f j))).mono (ℱ.le j)).aestronglyMeasurable
    · have h1 : Spec.share alpha n (D ω) w j i * D ω i j ≤ 1 := by
        rw [← share_sum (h.positive ω) hw alpha hj]
        exact Finset.single_le_sum (hs0 ω) (Finset.mem_range.2 hi)
      have h0 := hs0 ω i (Finset.mem_range.2 hi)
      rw [show G ω * Spec.share alpha n (D ω) w j i * (f j * D ω i j) =
        f j * G ω * (Spec.share alpha n (D ω) w j i * D ω i j) by ring, norm_mul]
      refine mul_le_of_le_one_right (norm_nonneg _) ?_
      rwa [Real.norm_of_nonneg h0]
  have e : (fun ω => G ω * Spec.mackF alpha n (D ω) w j) =
      ∑ i ∈ Finset.range (n - 1 - j), fun ω => G ω * Spec.share alpha n (D ω) w j i * D ω i (j + 1) := by
    funext ω
    rw [mackF_share, Finset.sum_apply, Finset.mul_sum]
    exact Finset.sum_congr rfl fun i _ => by ring
  rw [e]
  refine ⟨integrable_finsetSum' _ fun i hi => (hone i hi).1, ?_⟩
  refine (condExp_finsetSum (fun i hi => (hone i hi).1) (ℱ j)).trans ?_
  have hall : ∀ᵐ ω ∂P, ∀ i ∈ Finset.range (n - 1 - j),
      (P[fun ω => G ω * Spec.share alpha n (D ω) w j i * D ω i (j + 1) | ℱ j]) ω =
        G ω * Spec.share alpha n (D ω) w j i * (f j * D ω i j) :=
    (ae_ball_iff (Finset.countable_toSet _)).2 fun i hi => (hone i hi).2
  filter_upwards [hall] with ω hω
  rw [Finset.sum_apply, Finset.sum_congr rfl hω,
    Finset.sum_congr rfl (fun i _ => show G ω * Spec.share alpha n (D ω) w j i * (f j * D ω i j) =
      G ω * f j * (Spec.share alpha n (D ω) w j i * D ω i j) by ring), ← Finset.mul_sum,
    share_sum (h.positive ω) hw alpha hj, mul_one]

/-- Products of factors. -/
theorem Spec.MackProcess.factors (h : Spec.MackProcess P ℱ n D f) (hw : Spec.Weights n w) (alpha : ℕ) {a b : ℕ}
    (hab : a ≤ b) (hb : b < n) {G : Ω → ℝ} (hG : StronglyMeasurable[ℱ a] G) (hG0 : ∀ ω, 0 ≤ G ω)
    (hGi : Integrable G P) :
    StronglyMeasurable[ℱ b] (fun ω => G ω * ∏ k ∈ Finset.Ico a b, Spec.mackF alpha n (D ω) w k) ∧
    (∀ ω, 0 ≤ G ω * ∏ k ∈ Finset.Ico a b, Spec.mackF alpha n (D ω) w k) ∧
    Integrable (fun ω => G ω * ∏ k ∈ Finset.Ico a b, Spec.mackF alpha n (D ω) w k) P ∧
      P[fun ω => G ω * ∏ k ∈ Finset.Ico a b, Spec.mackF alpha n (D ω) w k | ℱ a] =ᵐ[P]
        fun ω => G ω * ∏ k ∈ Finset.Ico a b, f k := by
  induction b, hab using Nat.le_induction with
  | base =>
    simp only [Finset.Ico_self, Finset.prod_empty, mul_one]
    refine ⟨hG, hG0, hGi, ?_⟩
    rw [condExp_of_stronglyMeasurable (ℱ.le a) hG hGi]
  | succ b hab ih =>
    obtain ⟨i1, i2, i3, i4⟩ := ih (by omega)
    have e : ∀ g : ℕ → ℝ, ∀ y : ℝ, y * ∏ k ∈ Finset.Ico a (b + 1), g k = (y * ∏ k ∈ Finset.Ico a b, g k) * g b :=
      fun g y => by rw [Finset.prod_Ico_succ_top hab]; ring
    simp only [e]
    obtain ⟨s1, s2⟩ := h.factor_step hw alpha (j := b) (by omega) i1 i2 i3
    refine ⟨(i1.mono (ℱ.mono (by omega))).mul (h.factor_meas alpha (by omega)), ?_, s1, ?_⟩
    · intro ω
      refine mul_nonneg (i2 ω) ?_
      rw [mackF_share]
      refine Finset.sum_nonneg fun k hk => ?_
      rw [Finset.mem_range] at hk
      exact mul_nonneg (share_nonneg (h.positive ω) hw alpha (by omega)) (h.pos ω k (by omega) _ (by omega)).le
    · have h1 := condExp_condExp_of_le (μ := P)
        (f := fun ω => G ω * (∏ k ∈ Finset.Ico a b, Spec.mackF alpha n (D ω) w k) * Spec.mackF alpha n (D ω) w b)
        (ℱ.mono hab) (ℱ.le b)
      have h2 := condExp_congr_ae (m := ℱ a) s2
      have h3 : P[fun ω => G ω * (∏ k ∈ Finset.Ico a b, Spec.mackF alpha n (D ω) w k) * f b | ℱ a] =ᵐ[P]
          fun ω => f b * (P[fun ω => G ω * ∏ k ∈ Finset.Ico a b, Spec.mackF alpha n (D ω) w k | ℱ a]) ω := by
        simp only [mul_comm _ (f b)]
        exact condExp_smul (μ := P) (f b)
          (fun ω => G ω * ∏ k ∈ Finset.Ico a b, Spec.mackF alpha n (D ω) w k) (ℱ a)
      filter_upwards [h1, h2, h3, i4] with ω e1 e2 e3 e4
      rw [← e1, e2, e3, e4]
      ring

variable {tr ind : Ω → Tri ℝ}

/-- **C116** For all random positive triangles whose claims develop by fixed factors on average, every alpha and
every exclusion of link ratios: each factor that `mack_cl` estimates is unbiased, factors of different periods are
uncorrelated, and each cumulative factor is an unbiased estimate of the product of the factors still to come. -/
theorem C116_factors (h : ∀ ω, Spec.Stair (tr ω) n (D ω)) (hi : ∀ ω, IndW (tr ω) (ind ω) n w)
    (hw : Spec.Weights n w) (hn : 4 ≤ n) (alpha : ℕ) (hM : Spec.MackProcess P ℱ n D f) :
    ∃ F C : ℕ → Ω → ℝ,
      (∀ ω, ∃ r, mackCore alpha (tr ω) (ind ω) = .ok r ∧
        (∀ j < n - 1, r.ldfs[j]? = some ((tr ω).dAt j, .fin (F j ω))) ∧
        (∀ j < n - 1, r.cldfs[j]? = some ((tr ω).dAt j, .fin (C j ω)))) ∧
      (∀ j < n - 1, ∫ ω, F j ω ∂P = f j) ∧
      (∀ j < n - 1, ∀ k < n - 1, j ≠ k → Integrable (fun ω => F j ω * F k ω) P ∧
        ∫ ω, F j ω * F k ω ∂P = (∫ ω, F j ω ∂P) * ∫ ω, F k ω ∂P) ∧
      (∀ j < n - 1, ∫ ω, C j ω ∂P = ∏ k ∈ Finset.Ico j (n - 1), f k) := by
  have hone : ∀ j < n - 1, Integrable (fun ω => Spec.mackF alpha n (D ω) w j) P ∧
      ∫ ω, Spec.mackF alpha n (D ω) w j ∂P = f j := by
    intro j hj
    obtain ⟨h1, h2⟩ := hM.factor_step hw alpha hj (G := fun _ => 1) stronglyMeasurable_const
      (fun _ => zero_le_one) (integrable_const _)
    simp only [one_mul] at h1 h2
    refine ⟨h1, ?_⟩
    rw [← integral_condExp (ℱ.le j), integral_congr_ae h2]
    simp
  have htwo : ∀ j k, j < k → k < n - 1 →
      Integrable (fun ω => Spec.mackF alpha n (D ω) w j * Spec.mackF alpha n (D ω) w k) P ∧
      ∫ ω, Spec.mackF alpha n (D ω) w j * Spec.mackF alpha n (D ω) w k ∂P = f j * f k := by
    intro j k hjk hk
    obtain ⟨h1, h2⟩ := hM.factor_step hw alpha hk (G := fun ω => Spec.mackF alpha n (D ω) w j)
      ((hM.factor_meas alpha (by omega)).mono (ℱ.mono (by omega)))
      (fun ω => (mackF_pos (hM.positive ω) hw alpha (by omega)).le) (hone j (by omega)).1
    refine ⟨h1, ?_⟩
    rw [← integral_condExp (ℱ.le k), integral_congr_ae h2, integral_mul_const, (hone j (by omega)).2]
  refine ⟨fun j ω => Spec.mackF alpha n (D ω) w j,
    fun j ω => ∏ k ∈ Finset.Ico j (n - 1), Spec.mackF alpha n (D ω) w k, ?_, fun j hj => (hone j hj).2, ?_, ?_⟩
  · intro ω
    obtain ⟨r, b, lab, hr, p⟩ := mack_parts (h ω) (hM.positive ω) (hi ω) hw hn alpha
    have hl : ∀ j < n - 1, r.ldfs[j]? = some ((tr ω).dAt j, .fin (Spec.mackF alpha n (D ω) w j)) := by
      intro j hj
      rw [p.factors]
      unfold mackSer
      rw [(h ω).take_devs, List.getElem?_zip_eq_some]
      constructor
      · rw [List.getElem?_append_left (by simp; omega), List.getElem?_map,
          List.getElem?_range (by omega)]; rfl
      · rw [List.getElem?_map, List.getElem?_range (by omega), Option.map_some,
          Spec.mackAll_lt (by omega)]
    refine ⟨r, hr, hl, ?_⟩
    intro j hj
    have h1 := congrArg (fun l => l[j]?) p.spec.cldfs_labels
    have h2 := congrArg (fun l => l[j]?) p.spec.cldfs_values
    simp only [List.getElem?_map, ← p.cldfs, hl j hj, List.getElem?_range (by omega : j < n),
      Option.map_some] at h1 h2
    obtain ⟨q, hq, hq1⟩ := Option.map_eq_some_iff.1 h1
    rw [hq, Option.map_some, Option.some_inj] at h2
    rw [hq, Option.some_inj]
    refine Prod.ext hq1 ?_
    rw [h2]
    unfold Spec.mackAll
    rw [tailProd_withTail _ _ (by omega), mul_one]
  · intro j hj k hk hne
    rw [(hone j hj).2, (hone k hk).2]
    rcases lt_or_gt_of_ne hne with hlt | hlt
    · exact htwo j k hlt hk
    · have := htwo k j hlt hj
      simp only [mul_comm (Spec.mackF alpha n (D _) w j), mul_comm (f j)]
      exact this
  · intro j hj
    obtain ⟨-, -, h3, h4⟩ := hM.factors hw alpha (a := j) (b := n - 1) (by omega) (by omega) (G := fun _ => 1)
      stronglyMeasurable_const (fun _ => zero_le_one) (integrable_const _)
    simp only [one_mul] at h3 h4
    rw [← integral_condExp (ℱ.le j), integral_congr_ae h4]
    simp

/-- Projected and actual final claims have the same conditional mean. -/
theorem Spec.MackProcess.ult_mean (hM : Spec.MackProcess P ℱ n D f) (hw : Spec.Weights n w) (alpha : ℕ)
    {i : ℕ} (hi : i < n) :
    Integrable (fun ω => Spec.ult n (D ω) (Spec.mackF alpha n (D ω) w) i) P ∧
    P[fun ω => Spec.ult n (D ω) (Spec.mackF alpha n (D ω) w) i | ℱ (n - 1 - i)] =ᵐ[P]
      P[fun ω => D ω i (n - 1) | ℱ (n - 1 - i)] ∧
    ∫ ω, Spec.ult n (D ω) (Spec.mackF alpha n (D ω) w) i ∂P = ∫ ω, D ω i (n - 1) ∂P := by
  obtain ⟨-, -, h3, h4⟩ := hM.factors hw alpha (a := n - 1 - i) (b := n - 1) (by omega) (by omega)
    (G := fun ω => D ω i (n - 1 - i)) (hM.known i hi _ (by omega)) (fun ω => (hM.pos ω i hi _ (by omega)).le)
    (hM.integrable i hi _ (by omega))
  have h5 := hM.develop hi (a := n - 1 - i) (b := n - 1) (by omega) (by omega)
  have h6 := h4.trans h5.symm
  refine ⟨h3, h6, ?_⟩
  rw [← integral_condExp (ℱ.le (n - 1 - i)), ← integral_condExp (ℱ.le (n - 1 - i)) (f := fun ω => D ω i (n - 1))]
  exact integral_congr_ae h6

/-- **C117** Under the same assumption, for every origin the ultimate of `mack_cl` has, given everything up to the
latest observed period, the same mean as the claims that finally emerge; so it is an unbiased predictor, and so are
the reserve and the total. -/
theorem C117_mack (h : ∀ ω, Spec.Stair (tr ω) n (D ω)) (hi : ∀ ω, IndW (tr ω) (ind ω) n w)
    (hw : Spec.Weights n w) (hn : 4 ≤ n) (alpha : ℕ) (hM : Spec.MackProcess P ℱ n D f) :
    ∃ (U R : ℕ → Ω → ℝ) (T : Ω → ℝ),
      (∀ ω, ∃ r, mackCore alpha (tr ω) (ind ω) = .ok r ∧
        (∀ i < n, ∃ row, r.rows[i]? = some row ∧ row.origin = (tr ω).oAt i ∧ row.ultimate = .fin (U i ω) ∧
          row.reserve = .fin (R i ω)) ∧ r.totUltimate = .fin (T ω)) ∧
      (∀ i < n, P[U i | ℱ (n - 1 - i)] =ᵐ[P] P[fun ω => D ω i (n - 1) | ℱ (n - 1 - i)]) ∧
      (∀ i < n, Integrable (U i) P ∧ ∫ ω, U i ω ∂P = ∫ ω, D ω i (n - 1) ∂P ∧
        ∫ ω, R i ω ∂P = ∫ ω, D ω i (n - 1) - D ω i (n - 1 - i) ∂P) ∧
      ∫ ω, T ω ∂P = ∫ ω, ∑ i ∈ Finset.range n, D ω i (n - 1) ∂P := by
  refine ⟨fun i ω => Spec.ult n (D ω) (Spec.mackF alpha n (D ω) w) i,
    fun i ω => Spec.ult n (D ω) (Spec.mackF alpha n (D ω) w) i - D ω i (n - 1 - i),
    fun ω => ∑ i ∈ Finset.range n, Spec.ult n (D ω) (Spec.mackF alpha n (D ω) w) i, ?_, ?_, ?_, ?_⟩
  · intro ω
    obtain ⟨r, h1, h2, h3, -⟩ := mack_ults (h ω) (hM.positive ω) (hi ω) hw hn alpha
    exact ⟨r, h1, h2, h3⟩
  · exact fun i hi => (hM.ult_mean hw alpha hi).2.1
  · intro i hi
    obtain ⟨h1, -, h3⟩ := hM.ult_mean hw alpha hi
    refine ⟨h1, h3, ?_⟩
    rw [integral_sub h1 (hM.integrable i hi _ (by omega)), h3,
      integral_sub (hM.integrable i hi _ (by omega)) (hM.integrable i hi _ (by omega))]
  · rw [integral_finsetSum _ (fun i hi => (hM.ult_mean hw alpha (Finset.mem_range.1 hi)).1),
      integral_finsetSum _ (fun i hi => hM.integrable i (Finset.mem_range.1 hi) _ (by
        have := Finset.mem_range.1 hi; omega))]
    exact Finset.sum_congr rfl fun i hi => (hM.ult_mean hw alpha (Finset.mem_range.1 hi)).2.2

/-- **C117** for `base_cl` with `all-simple` and `all-weighted` and no tail. -/
theorem C117_base (gm : List (Num ℝ) → Num ℝ) (h : ∀ ω, Spec.Stair (tr ω) n (D ω)) (hn : 3 ≤ n) {alpha : ℕ}
    (ha : alpha ≤ 1) (hM : Spec.MackProcess P ℱ n D f) :
    ∃ (U R : ℕ → Ω → ℝ) (T : Ω → ℝ),
      (∀ ω, ∃ r, baseCL gm (tr ω) (tr ω).a2aind0 (Spec.allName alpha) (.fin 1) = .ok r ∧
        (∀ i < n, ∃ row, r.rows[i]? = some row ∧ row.origin = (tr ω).oAt i ∧ row.ultimate = .fin (U i ω) ∧
          row.reserve = .fin (R i ω)) ∧ r.totUltimate = .fin (T ω)) ∧
      (∀ i < n, P[U i | ℱ (n - 1 - i)] =ᵐ[P] P[fun ω => D ω i (n - 1) | ℱ (n - 1 - i)]) ∧
      (∀ i < n, Integrable (U i) P ∧ ∫ ω, U i ω ∂P = ∫ ω, D ω i (n - 1) ∂P ∧
        ∫ ω, R i ω ∂P = ∫ ω, D ω i (n - 1) - D ω i (n - 1 - i) ∂P) ∧
      ∫ ω, T ω ∂P = ∫ ω, ∑ i ∈ Finset.range n, D ω i (n - 1) ∂P := by
  have hw : Spec.Weights n (fun _ _ => (1 : ℝ)) :=
    ⟨fun _ _ _ => zero_le_one, fun j hj => ⟨0, by omega, one_pos⟩⟩
  refine ⟨fun i ω => Spec.ult n (D ω) (Spec.mackF alpha n (D ω) (fun _ _ => 1)) i,
    fun i ω => Spec.ult n (D ω) (Spec.mackF alpha n (D ω) (fun _ _ => 1)) i - D ω i (n - 1 - i),
    fun ω => ∑ i ∈ Finset.range n, Spec.ult n (D ω) (Spec.mackF alpha n (D ω) (fun _ _ => 1)) i, ?_, ?_, ?_, ?_⟩
  · intro ω
    have := base_ults gm (h ω) (hM.positive ω) hn ha 1
    simpa only [mul_one] using this
  · exact fun i hi => (hM.ult_mean hw alpha hi).2.1
  · intro i hi
    obtain ⟨h1, -, h3⟩ := hM.ult_mean hw alpha hi
    refine ⟨h1, h3, ?_⟩
    rw [integral_sub h1 (hM.integrable i hi _ (by omega)), h3,
      integral_sub (hM.integrable i hi _ (by omega)) (hM.integrable i hi _ (by omega))]
  · rw [integral_finsetSum _ (fun i hi => (hM.ult_mean hw alpha (Finset.mem_range.1 hi)).1),
      integral_finsetSum _ (fun i hi => hM.integrable i (Finset.mem_range.1 hi) _ (by
        have := Finset.mem_range.1 hi; omega))]
    exact Finset.sum_congr rfl fun i hi => (hM.ult_mean hw alpha (Finset.mem_range.1 hi)).2.2

end process

/-- Claims that develop by `f` plus or minus half of it, with a sign for every origin and period. -/
noncomputable def coinClaims (x f : ℕ → ℝ) (ω : ℕ → ℕ → ℝ) (i j : ℕ) : ℝ :=
  x i * ∏ k ∈ Finset.range j, f k * (1 + sgn (ω (k + 1) i) / 2)

/-- Claims that follow the assumption exist, for all start values and factors that are positive. -/
theorem exists_mackProcess (n : ℕ) {x f : ℕ → ℝ} (hx : ∀ i, 0 < x i) (hf : ∀ j, 0 < f j) :
    ∃ (Ω : Type) (_ : MeasurableSpace Ω) (P : Measure Ω) (_ : IsProbabilityMeasure P) (ℱ : Filtration ℕ ‹_›)
      (D : Ω → ℕ → ℕ → ℝ), Spec.MackProcess P ℱ n D f ∧ ∀ ω i, D ω i 0 = x i := by
  have hp := coin_probability
  let μ : Measure (ℕ → ℝ) := Measure.infinitePi (fun _ => coin)
  let P : Measure (ℕ → ℕ → ℝ) := Measure.infinitePi (fun _ => μ)
  have hYm : ∀ k, StronglyMeasurable (fun (ω : ℕ → ℕ → ℝ) => ω k) :=
    fun k => (measurable_pi_apply k).stronglyMeasurable
  have hYi : iIndepFun (fun (k : ℕ) (ω : ℕ → ℕ → ℝ) => ω k) P :=
    iIndepFun_infinitePi (X := fun _ => id) (fun _ => measurable_id)
  let ℱ := Filtration.natural (fun (k : ℕ) (ω : ℕ → ℕ → ℝ) => ω k) hYm
  have hsgn : ∀ z, (1 : ℝ) / 2 ≤ 1 + sgn z / 2 ∧ 1 + sgn z / 2 ≤ 3 / 2 := by
    intro z
    have := abs_le.1 (sgn_abs z)
    constructor <;> linarith [this.1, this.2]
  have hpos : ∀ ω i j, 0 < coinClaims x f ω i j := by
    intro ω i j
    refine mul_pos (hx i) (Finset.prod_pos fun k _ => mul_pos (hf k) ?_)
    linarith [(hsgn (ω (k + 1) i)).1]
  have hYF : ∀ k j, k ≤ j → StronglyMeasurable[ℱ j] (fun (ω : ℕ → ℕ → ℝ) => ω k) := fun k j hkj =>
    (Filtration.stronglyAdapted_natural hYm k).mono (ℱ.mono hkj)
  have hmeas : ∀ i j, StronglyMeasurable[ℱ j] (fun ω => coinClaims x f ω i j) := by
    intro i j
    unfold coinClaims
    refine StronglyMeasurable.const_mul ?_ _
    refine Finset.stronglyMeasurable_fun_prod _ fun k hk => ?_
    refine StronglyMeasurable.const_mul ?_ _
    refine Measurable.stronglyMeasurable ?_
    have h1 : Measurable[ℱ j] (fun (ω : ℕ → ℕ → ℝ) => ω (k + 1)) :=
      (hYF (k + 1) j (by rw [Finset.mem_range] at hk; omega)).measurable
    have h2 : Measurable (fun z : ℕ → ℝ => 1 + sgn (z i) / 2) :=
      ((measurable_sgn.comp (measurable_pi_apply i)).div_const 2).const_add 1
    exact h2.comp h1
  have hint : ∀ i j, Integrable (fun ω => coinClaims x f ω i j) P := by
    intro i j
    refine Integrable.of_bound ((hmeas i j).mono (ℱ.le j)).aestronglyMeasurable
      (x i * ∏ k ∈ Finset.range j, f k * (3 / 2)) (Eventually.of_forall fun ω => ?_)
    rw [Real.norm_of_nonneg (hpos ω i j).le]
    refine mul_le_mul_of_nonneg_left (Finset.prod_le_prod (fun k _ => ?_) fun k _ => ?_) (hx i).le
    · exact mul_nonneg (hf k).le (by linarith [(hsgn (ω (k + 1) i)).1])
    · exact mul_le_mul_of_nonneg_left (hsgn _).2 (hf k).le
  have hmean : ∀ i j, P[fun ω => f j * (1 + sgn (ω (j + 1) i) / 2) | ℱ j] =ᵐ[P] fun _ => f j := by
    intro i j
    have hind : Indep (MeasurableSpace.comap (fun (ω : ℕ → ℕ → ℝ) => ω (j + 1)) MeasurableSpace.pi) (ℱ j) P := by
      suffices Indep (⨆ k ∈ ({j + 1} : Set ℕ), MeasurableSpace.comap (fun (ω : ℕ → ℕ → ℝ) => ω k) MeasurableSpace.pi)
          (⨆ k ∈ {k | k ≤ j}, MeasurableSpace.comap (fun (ω : ℕ → ℕ → ℝ) => ω k) MeasurableSpace.pi) P by
        rwa [iSup_singleton] at this
      exact indep_iSup_of_disjoint (fun k => (hYm k).measurable.comap_le) hYi (by simp)
    have hle : MeasurableSpace.comap (fun (ω : ℕ → ℕ → ℝ) => ω (j + 1)) MeasurableSpace.pi ≤ MeasurableSpace.pi :=
      (measurable_pi_apply (j + 1)).comap_le
    have hg : Measurable (fun z : ℕ → ℝ => f j * (1 + sgn (z i) / 2)) :=
      (((measurable_sgn.comp (measurable_pi_apply i)).div_const 2).const_add 1).const_mul _
    have hm : StronglyMeasurable[MeasurableSpace.comap (fun (ω : ℕ → ℕ → ℝ) => ω (j + 1)) MeasurableSpace.pi]
        (fun ω : ℕ → ℕ → ℝ => f j * (1 + sgn (ω (j + 1) i) / 2)) :=
      Measurable.stronglyMeasurable (hg.comp (comap_measurable _))
    refine (condExp_indep_eq hle (ℱ.le j) hm hind).trans (Eventually.of_forall fun _ => ?_)
    have hs : Integrable (fun ω : ℕ → ℕ → ℝ => sgn (ω (j + 1) i)) P :=
      Integrable.of_bound ((measurable_sgn.comp ((measurable_pi_apply i).comp
        (measurable_pi_apply (j + 1)))).aestronglyMeasurable) 1 (Eventually.of_forall fun ω => sgn_abs _)
    have h0 : ∫ ω : ℕ → ℕ → ℝ, sgn (ω (j + 1) i) ∂P = 0 := by
      have l1 := (measurePreserving_eval_infinitePi (fun _ : ℕ => μ) (j + 1))
      have l2 := (measurePreserving_eval_infinitePi (fun _ : ℕ => coin) i)
      have := (l2.comp l1).hasLaw
      rw [← coin_mean, ← this.integral_comp measurable_sgn.aestronglyMeasurable]
      rfl
    dsimp only
    rw [integral_const_mul, integral_add (integrable_const _) (hs.div_const 2), integral_div, h0]
    simp
  refine ⟨ℕ → ℕ → ℝ, inferInstance, P, inferInstance, ℱ, coinClaims x f, ⟨fun i _ j _ => hmeas i j,
    fun i _ j _ => hint i j, fun ω i _ j _ => hpos ω i j, ?_⟩, ?_⟩
  · intro i _ j _
    have e : (fun ω => coinClaims x f ω i (j + 1)) =
        fun ω => coinClaims x f ω i j * (f j * (1 + sgn (ω (j + 1) i) / 2)) := by
      funext ω
      unfold coinClaims
      rw [Finset.prod_range_succ]
      ring
    rw [e]
    have hY : Integrable (fun ω : ℕ → ℕ → ℝ => f j * (1 + sgn (ω (j + 1) i) / 2)) P := by
      refine ((integrable_const (1 : ℝ)).add (Integrable.div_const ?_ 2)).const_mul _
      exact Integrable.of_bound ((measurable_sgn.comp ((measurable_pi_apply i).comp
        (measurable_pi_apply (j + 1)))).aestronglyMeasurable) 1 (Eventually.of_forall fun ω => sgn_abs _)
    have := (condExp_pull (ℱ.le j) (hmeas i j) (fun ω => (hpos ω i j).le) hY
      (fun ω => mul_nonneg (hf j).le (by linarith [(hsgn (ω (j + 1) i)).1])) (hmean i j)
      ((hint i j).mul_const _)).2
    filter_upwards [this] with ω e
    rw [e, mul_comm]
  · intro ω i
    simp [coinClaims]

/-- The statements of this file apply: 6 x 6 triangles that start at 100, 110, … and develop by 2, 3/2, 4/3, …. -/
example : ∃ (Ω : Type) (_ : MeasurableSpace Ω) (P : Measure Ω) (D : Ω → ℕ → ℕ → ℝ) (T : Ω → ℝ),
    (∀ ω, ∃ r, mackCore 1 (stairTri 6 (D ω)) (stairTri 6 (D ω)).a2aind0 = .ok r ∧ r.totUltimate = .fin (T ω)) ∧
    ∫ ω, T ω ∂P = ∫ ω, ∑ i ∈ Finset.range 6, D ω i 5 ∂P ∧ ∀ ω, D ω 1 0 = 110 := by
  obtain ⟨Ω, _, P, hP, ℱ, D, hM, h0⟩ := exists_mackProcess 6 (x := fun i => 100 + 10 * i)
    (f := fun j => (j + 2) / (j + 1)) (fun i => by positivity) (fun j => by positivity)
  obtain ⟨U, R, T, h1, -, -, h4⟩ := C117_mack (P := P) (fun ω => stairTri_stair 6 (D ω))
    (fun ω => (stairTri_stair 6 (D ω)).indW0 (hM.positive ω).ne_zero)
    ⟨fun _ _ _ => zero_le_one, fun j hj => ⟨0, by omega, one_pos⟩⟩ (by norm_num) 1 hM
  refine ⟨Ω, _, P, D, T, fun ω => (h1 ω).imp fun r hr => ⟨hr.1, hr.2.2⟩, h4, fun ω => ?_⟩
  rw [h0]; norm_num

end Trikit
