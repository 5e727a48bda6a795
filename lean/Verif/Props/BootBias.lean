import Verif.Props.Resample
import Verif.Props.Converge
import Mathlib.Analysis.SpecialFunctions.NonIntegrable

/-!
# The mean of the simulated reserves

The mean of a simulated reserve is not the reserve of the chain ladder (C198), and simulated reserves of a parametric
bootstrap have no mean at all (C199).
-/

set_option linter.unusedSectionVars false

namespace Trikit

open MeasureTheory ProbabilityTheory Filter Topology

/-! ## Independent groups of draws -/

section
variable {Ω E : Type} [MeasurableSpace Ω] [MeasurableSpace E] {μ : Measure Ω} {seed : ℕ → Ω → E}

/-- `F` only depends on the draws of positions in `T`. -/
def Spec.Local {β : Type} (T : Finset ℕ) (F : (ℕ → E) → β) : Prop := ∀ e e', (∀ p ∈ T, e p = e' p) → F e = F e'

/-- Functions of different draws are independent. -/
theorem indep_local (h : Spec.Seeds μ seed) {β γ : Type} [MeasurableSpace β] [MeasurableSpace γ] {T U : Finset ℕ}
    (hTU : Disjoint T U) {F : (ℕ → E) → β} {H : (ℕ → E) → γ} (hF : Measurable F) (hH : Measurable H)
    (lF : Spec.Local T F) (lH : Spec.Local U H) :
    IndepFun (fun ω => F (fun p => seed p ω)) (fun ω => H (fun p => seed p ω)) μ := by
  have hP : IsProbabilityMeasure μ := h.indep.isProbabilityMeasure
  obtain ⟨ω0⟩ : Nonempty Ω := nonempty_of_isProbabilityMeasure μ
  let ext : (T : Finset ℕ) → (T → E) → ℕ → E := fun T y p => if hp : p ∈ T then y ⟨p, hp⟩ else seed p ω0
  have hext : ∀ T, Measurable (ext T) := by
    intro T
    refine measurable_pi_lambda _ (fun p => ?_)
    simp only [ext]
    by_cases hp : p ∈ T
    · simp only [hp, dif_pos]; exact measurable_pi_apply _
    · simp only [hp, dif_neg, not_false_eq_true]; exact measurable_const
  have := (h.indep.indepFun_finset T U hTU h.meas).comp (hF.comp (hext T)) (hH.comp (hext U))
  have e1 : (F ∘ ext T) ∘ (fun a (i : T) => seed i a) = fun ω => F (fun p => seed p ω) := by
    funext ω
    exact lF _ _ (fun p hp => by simp [ext, hp])
  have e2 : (H ∘ ext U) ∘ (fun a (i : U) => seed i a) = fun ω => H (fun p => seed p ω) := by
    funext ω
    exact lH _ _ (fun p hp => by simp [ext, hp])
  rw [e1, e2] at this
  exact this

/-- Variates `G` of shape `a` and scale `b` that are not negative and have mean `a b`, as gamma variates have. -/
structure Spec.MeanDraws (μ : Measure Ω) (seed : ℕ → Ω → E) (G : E → ℝ → ℝ → ℝ) (b : ℝ) : Prop where
  meas : Measurable (fun q : E × ℝ => G q.1 q.2 b)
  nonneg : ∀ e a, 0 ≤ a → 0 ≤ G e a b
  integrable : ∀ a, 0 ≤ a → Integrable (fun ω => G (seed 0 ω) a b) μ
  mean : ∀ a, 0 ≤ a → ∫ ω, G (seed 0 ω) a b ∂μ = a * b

/-- Process error changes neither the mean of an amount nor whether it has one. -/
theorem process_mean (h : Spec.Seeds μ seed) {G : E → ℝ → ℝ → ℝ} {b : ℝ} (hb : 0 < b) (hG : Spec.MeanDraws μ seed G b)
    {T : Finset ℕ} {F : (ℕ → E) → ℝ} (hF : Measurable F) (lF : Spec.Local T F) {p : ℕ} (hp : p ∉ T) :
    let y := fun ω => F (fun q => seed q ω)
    let R := fun ω => G (seed p ω) (|y ω| / b) b * (if 0 < y ω then 1 else -1)
    (Integrable R μ ↔ Integrable y μ) ∧ ∫ ω, R ω ∂μ = ∫ ω, y ω ∂μ := by
  intro y R
  have hP : IsProbabilityMeasure μ := h.indep.isProbabilityMeasure
  have hy : Measurable y := hF.comp (measurable_pi_lambda _ h.meas)
  have hi : IndepFun (seed p) y μ := by
    have := indep_local h (T := {p}) (U := T) (Finset.disjoint_singleton_left.2 hp) (F := fun e => e p) (H := F)
      (measurable_pi_apply p) hF (fun e e' he => he p (Finset.mem_singleton_self p)) lF
    exact this
  let H : E × ℝ → ℝ := fun q => G q.1 (|q.2| / b) b * (if 0 < q.2 then 1 else -1)
  have hH : Measurable H := by
    refine Measurable.mul ?_ (Measurable.ite (measurableSet_lt measurable_const measurable_snd) measurable_const
      measurable_const)
    exact hG.meas.comp (measurable_fst.prodMk ((measurable_snd.abs).div_const b))
  let sg : ℝ → ℝ := fun r => if 0 < r then 1 else -1
  have hHr : ∀ r, (fun e => H (e, r)) = fun e => G e (|r| / b) b * sg r := fun r => rfl
  have hmap : μ.map (fun ω => (seed p ω, y ω)) = (μ.map (seed 0)).prod (μ.map y) := by
    rw [(indepFun_iff_map_prod_eq_prod_map_map (h.meas p).aemeasurable hy.aemeasurable).1 hi, h.law p]
  have hpair : Measurable (fun ω => (seed p ω, y ω)) := (h.meas p).prodMk hy
  have hP0 : IsProbabilityMeasure (μ.map (seed 0)) := Measure.isProbabilityMeasure_map (h.meas 0).aemeasurable
  have hPy : IsProbabilityMeasure (μ.map y) := Measure.isProbabilityMeasure_map hy.aemeasurable
  have ha : ∀ r : ℝ, 0 ≤ |r| / b := fun r => by positivity
  have hGr : ∀ r : ℝ, Measurable (fun e => G e (|r| / b) b) := fun r =>
    hG.meas.comp (measurable_id.prodMk measurable_const)
  have hint : ∀ r : ℝ, Integrable (fun e => G e (|r| / b) b) (μ.map (seed 0)) := fun r =>
    (integrable_map_measure (hGr r).aestronglyMeasurable (h.meas 0).aemeasurable).2 (hG.integrable _ (ha r))
  have hmean : ∀ r : ℝ, ∫ e, G e (|r| / b) b ∂(μ.map (seed 0)) = |r| := by
    intro r
    rw [integral_map (h.meas 0).aemeasurable (hGr r).aestronglyMeasurable, hG.mean _ (ha r)]
    field_simp
  have hRH : R = H ∘ (fun ω => (seed p ω, y ω)) := rfl
  have i1 : Integrable R μ ↔ Integrable H ((μ.map (seed 0)).prod (μ.map y)) := by
    rw [hRH, ← hmap, integrable_map_measure hH.aestronglyMeasurable hpair.aemeasurable]
  have i2 : Integrable H ((μ.map (seed 0)).prod (μ.map y)) ↔ Integrable y μ := by
    rw [integrable_prod_iff' hH.aestronglyMeasurable]
    have e : (fun r : ℝ => ∫ e, ‖H (e, r)‖ ∂(μ.map (seed 0))) = fun r => |r| := by
      funext r
      rw [← hmean r]
      congr 1
      funext e
      simp only [H, norm_mul, Real.norm_eq_abs, abs_of_nonneg (hG.nonneg e _ (ha r))]
      split <;> simp
    rw [e]
    constructor
    · rintro ⟨-, h2⟩
      have := (integrable_map_measure h2.aestronglyMeasurable hy.aemeasurable).1 h2
      exact (integrable_norm_iff hy.aestronglyMeasurable).1 this
    · intro h2
      refine ⟨ae_of_all _ (fun r => by rw [hHr r]; exact (hint r).mul_const _), ?_⟩
      refine (integrable_map_measure (measurable_id.abs).aestronglyMeasurable hy.aemeasurable).2 ?_
      exact h2.abs
  refine ⟨i1.trans i2, ?_⟩
  by_cases hy' : Integrable y μ
  · have hH' := i2.2 hy'
    have e1 : ∫ ω, R ω ∂μ = ∫ q, H q ∂((μ.map (seed 0)).prod (μ.map y)) := by
      rw [← hmap, integral_map hpair.aemeasurable hH.aestronglyMeasurable]
    rw [e1, integral_prod_symm _ hH']
    have e2 : (fun r : ℝ => ∫ e, H (e, r) ∂(μ.map (seed 0))) = fun r => r := by
      funext r
      rw [hHr r, integral_mul_const, hmean r]
      simp only [sg]
      split
      · rw [abs_of_pos ‹_›, mul_one]
      · rw [abs_of_nonpos (not_lt.1 ‹_›)]; ring
    rw [e2]
    exact integral_map hy.aemeasurable measurable_id.aestronglyMeasurable
  · rw [integral_undef hy', integral_undef (fun hR => hy' (i2.1 (i1.1 hR)))]

end

/-! ## Means of inverses -/

section
variable {Ω : Type} [MeasurableSpace Ω] {μ : Measure Ω} [IsProbabilityMeasure μ]

/-- The mean of the inverse of a positive amount exceeds the inverse of its mean. -/
theorem inv_mean {C : Ω → ℝ} (hC : MemLp C 2 μ) {δ M : ℝ} (hδ : 0 < δ) (h1 : ∀ᵐ ω ∂μ, δ ≤ C ω) (h2 : ∀ᵐ ω ∂μ, C ω ≤ M) :
    Integrable (fun ω => (C ω)⁻¹) μ ∧ 0 < ∫ ω, C ω ∂μ ∧ 0 < M ∧
    (∫ ω, C ω ∂μ)⁻¹ + variance C μ / (M * (∫ ω, C ω ∂μ) ^ 2) ≤ ∫ ω, (C ω)⁻¹ ∂μ := by
  have hCi : Integrable C μ := hC.integrable (by norm_num)
  have hinv : Integrable (fun ω => (C ω)⁻¹) μ := by
    refine Integrable.of_bound (hC.aestronglyMeasurable.aemeasurable.inv.aestronglyMeasurable) δ⁻¹ ?_
    filter_upwards [h1] with ω hω
    rw [Real.norm_eq_abs, abs_of_nonneg (by have := hδ.trans_le hω; positivity)]
    exact inv_anti₀ hδ hω
  have hm : δ ≤ ∫ ω, C ω ∂μ := by
    have := integral_mono_ae (integrable_const δ) hCi h1
    simpa using this
  set m := ∫ ω, C ω ∂μ with hmdef
  have hm0 : 0 < m := hδ.trans_le hm
  have hM : 0 < M := by
    obtain ⟨ω, a, b⟩ := (h1.and h2).exists
    linarith
  refine ⟨hinv, hm0, hM, ?_⟩
  have hv : variance C μ = ∫ ω, (C ω - m) ^ 2 ∂μ := variance_eq_integral hC.aestronglyMeasurable.aemeasurable
  have hsq : Integrable (fun ω => (C ω - m) ^ 2) μ := (hC.sub (memLp_const m)).integrable_sq
  have e : ∀ᵐ ω ∂μ, (2 * m⁻¹ - C ω * (m ^ 2)⁻¹) + (C ω - m) ^ 2 * (M * m ^ 2)⁻¹ ≤ (C ω)⁻¹ := by
    filter_upwards [h1, h2] with ω a b
    have hc : 0 < C ω := hδ.trans_le a
    have e1 : (C ω)⁻¹ - (2 * m⁻¹ - C ω * (m ^ 2)⁻¹) = (C ω - m) ^ 2 * (C ω * m ^ 2)⁻¹ := by
      field_simp
      ring
    have e2 : (C ω - m) ^ 2 * (M * m ^ 2)⁻¹ ≤ (C ω - m) ^ 2 * (C ω * m ^ 2)⁻¹ := by
      refine mul_le_mul_of_nonneg_left (inv_anti₀ (by positivity) ?_) (sq_nonneg _)
      exact mul_le_mul_of_nonneg_right b (by positivity)
    linarith
  have i1 : Integrable (fun ω => 2 * m⁻¹ - C ω * (m ^ 2)⁻¹) μ := (integrable_const _).sub (hCi.mul_const _)
  have i2 : Integrable (fun ω => (C ω - m) ^ 2 * (M * m ^ 2)⁻¹) μ := hsq.mul_const _
  have := integral_mono_ae (i1.add i2) hinv e
  have e3 : ∫ ω, ((fun ω => 2 * m⁻¹ - C ω * (m ^ 2)⁻¹) + fun ω => (C ω - m) ^ 2 * (M * m ^ 2)⁻¹) ω ∂μ =
      m⁻¹ + variance C μ / (M * m ^ 2) := by
    simp only [Pi.add_apply]
    rw [integral_add i1 i2, integral_sub (integrable_const _) (hCi.mul_const _), integral_mul_const _ C,
      integral_mul_const _ (fun ω => (C ω - m) ^ 2), ← hv, ← hmdef, integral_const, probReal_univ, one_smul]
    field_simp
    ring
  rw [e3] at this
  exact this

/-- A normal variate that is not constant has no mean inverse. -/
theorem gaussian_inv {m : ℝ} {V : NNReal} (hV : V ≠ 0) : ¬ Integrable (fun x : ℝ => x⁻¹) (gaussianReal m V) := by
  intro h
  rw [gaussianReal_of_var_ne_zero _ hV] at h
  rw [integrable_withDensity_iff_integrable_smul' (measurable_gaussianPDF m V)
    (ae_of_all _ fun _ => gaussianPDF_lt_top)] at h
  simp only [toReal_gaussianPDF] at h
  have h1 : IntegrableOn (fun x => gaussianPDFReal m V x • x⁻¹) (Set.Icc (-1) 1) volume := h.integrableOn
  have hc : ContinuousOn (fun x => (gaussianPDFReal m V x)⁻¹) (Set.Icc (-1) 1) := by
    have : Continuous (gaussianPDFReal m V) := by unfold gaussianPDFReal; fun_prop
    exact (this.inv₀ (fun x => (gaussianPDFReal_pos m V x hV).ne')).continuousOn
  have h2 := h1.continuousOn_mul hc isCompact_Icc
  have e : (fun x => (gaussianPDFReal m V x)⁻¹ * (gaussianPDFReal m V x • x⁻¹)) = fun x : ℝ => x⁻¹ := by
    funext x
    have := (gaussianPDFReal_pos m V x hV).ne'
    simp only [smul_eq_mul]
    field_simp
  rw [e] at h2
  have h3 : IntervalIntegrable (fun x : ℝ => x⁻¹) volume (-1) 1 := by
    rw [intervalIntegrable_iff_integrableOn_Icc_of_le (by norm_num)]
    exact h2
  rw [intervalIntegrable_inv_iff] at h3
  rcases h3 with h3 | h3
  · norm_num at h3
  · exact h3 (by rw [Set.uIcc_of_le (by norm_num)]; constructor <;> norm_num)

end

/-! ## The second oldest origin -/

section
variable {Ω E : Type} [MeasurableSpace Ω] [MeasurableSpace E] {μ : Measure Ω} [IsProbabilityMeasure μ]
variable {t m : Tri ℝ} {n S s : ℕ} {c v : ℕ → ℕ → ℝ} {Z : E → ℝ} {G : E → ℝ → ℝ → ℝ} {b : ℝ} {seed : ℕ → Ω → E}

/-- Sum of the resampled increments of the first `K` periods of origin `i` in simulation `s`. -/
noncomputable def Spec.resampled (v : ℕ → ℕ → ℝ) (Z : E → ℝ) (n s i K : ℕ) (e : ℕ → E) : ℝ :=
  ∑ k ∈ Finset.range K, (Spec.startIncr v i k + Z (e (s * (n * n) + (i * n + k))) * √(Spec.startIncr v i k))

/-- The resampled increment of the oldest origin in the last period. -/
noncomputable def lastSamp (v : ℕ → ℕ → ℝ) (Z : E → ℝ) (n s : ℕ) (e : ℕ → E) : ℝ :=
  Spec.startIncr v 0 (n - 1) + Z (e (s * (n * n) + (0 * n + (n - 1)))) * √(Spec.startIncr v 0 (n - 1))

/-- Forecast increment of the second oldest origin. -/
noncomputable def secondIncr (v : ℕ → ℕ → ℝ) (Z : E → ℝ) (n s : ℕ) (e : ℕ → E) : ℝ :=
  if Spec.resampled v Z n s 0 (n - 1) e = 0 then - Spec.resampled v Z n s 1 (n - 1) e
  else Spec.resampled v Z n s 1 (n - 1) e * lastSamp v Z n s e * (Spec.resampled v Z n s 0 (n - 1) e)⁻¹

theorem resampled_meas (hZ : Measurable Z) (i K : ℕ) : Measurable (Spec.resampled v Z n s i K) := by
  unfold Spec.resampled
  refine Finset.measurable_fun_sum _ (fun k _ => measurable_const.add (Measurable.mul_const ?_ _))
  exact hZ.comp (measurable_pi_apply _)

theorem lastSamp_meas (hZ : Measurable Z) : Measurable (lastSamp v Z n s) :=
  measurable_const.add (Measurable.mul_const (hZ.comp (measurable_pi_apply _)) _)

theorem secondIncr_meas (hZ : Measurable Z) : Measurable (secondIncr v Z n s) := by
  unfold secondIncr
  refine Measurable.ite ?_ (resampled_meas hZ _ _).neg
    (((resampled_meas hZ _ _).mul (lastSamp_meas hZ)).mul (resampled_meas hZ _ _).inv)
  exact measurableSet_eq_fun (resampled_meas hZ _ _) measurable_const

theorem simIncr_second (ht : Spec.Stair t n c) (hn : 2 ≤ n) (h1 : t.dAt 0 = 1) (e : ℕ → E) :
    Spec.simIncr t n (Spec.simCum n (Spec.startIncr v) (fun i j => √(Spec.startIncr v i j)) (fun p => Z (e p))) s 1
      (n - 1) = secondIncr v Z n s e := by
  set x := Spec.simCum n (Spec.startIncr v) (fun i j => √(Spec.startIncr v i j)) (fun p => Z (e p)) with hx
  have hd : t.dAt (n - 1) ≠ 1 := by
    intro e
    have := ht.dAt_inj (show n - 1 < n by omega) (show 0 < n by omega) (by rw [e, h1])
    omega
  have hx0 : x s 0 (n - 2) = Spec.resampled v Z n s 0 (n - 1) e := by
    rw [hx]; unfold Spec.simCum Spec.resampled
    rw [show n - 2 + 1 = n - 1 by omega]
  have hx1 : x s 1 (n - 2) = Spec.resampled v Z n s 1 (n - 1) e := by
    rw [hx]; unfold Spec.simCum Spec.resampled
    rw [show n - 2 + 1 = n - 1 by omega]
  have hxl : x s 0 (n - 1) = Spec.resampled v Z n s 0 (n - 1) e + lastSamp v Z n s e := by
    rw [hx]; unfold Spec.simCum
    rw [Finset.sum_range_succ]
    rfl
  have hA2 : Spec.simA2 n x s (n - 2) = Spec.resampled v Z n s 0 (n - 1) e := by
    unfold Spec.simA2
    rw [show n - 1 - (n - 2) = 1 by omega, Finset.sum_range_one, hx0]
  have hA1 : Spec.simA1 n x s (n - 2 + 1) = Spec.resampled v Z n s 0 (n - 1) e + lastSamp v Z n s e := by
    unfold Spec.simA1
    rw [show n - (n - 2 + 1) = 1 by omega, Finset.sum_range_one, show n - 2 + 1 = n - 1 by omega, hxl]
  have hf1 : Spec.simFull n x s 1 (n - 1 - 1) = x s 1 (n - 2) := by
    unfold Spec.simFull
    rw [if_pos (by omega), show n - 1 - 1 = n - 2 by omega]
  have hf2 : Spec.simFull n x s 1 (n - 1) = Spec.simProj n x s 1 (n - 1) := by
    unfold Spec.simFull
    rw [if_neg (by omega)]
  unfold Spec.simIncr secondIncr
  rw [if_neg hd, if_neg (show n - 1 ≠ 0 by omega), hf1, hf2, hx1, zero_add]
  unfold Spec.simProj
  rw [show 1 + (n - 1) + 1 - n = 1 by omega, Finset.prod_range_one, Nat.add_zero, show n - 1 - 1 = n - 2 by omega, hx1]
  unfold Spec.simLdf
  rw [hA2, hA1]
  by_cases h0 : Spec.resampled v Z n s 0 (n - 1) e = 0
  · simp [h0]
  · rw [if_neg h0, if_neg h0]
    simp only [Option.isNone_some, Bool.false_eq_true, if_false, Option.getD_some]
    field_simp
    ring

/-- The simulated reserve of the second oldest origin. -/
theorem second_reserve (ht : Spec.Stair t n c) (hn : 2 ≤ n) (h1 : t.dAt 0 = 1) (hm : Spec.Stair m n v)
    (ho : m.origins = t.origins) (hd : m.devs = t.devs) (hv : ∀ i j, i + j < n → 0 < j → 0 ≤ v i j) (hb : 0 < b)
    (hs : s < S) (ω : Ω) :
    ∃ q ∈ (bootSims Num.sqrt t m (.fin b) S (Spec.residOf Z seed ω) (Spec.gammaOf G seed ω)).reserves,
      q.sim = s ∧ q.origin = t.oAt 1 ∧ q.reserve = .fin (G (seed (s * (n * n) + (1 * n + (n - 1))) ω)
        (|secondIncr v Z n s (fun p => seed p ω)| / b) b *
        (if 0 < secondIncr v Z n s (fun p => seed p ω) then 1 else -1)) := by
  have ha : ∀ i j, i + j < n → 0 ≤ Spec.startIncr v i j := by
    intro i j hij
    unfold Spec.startIncr
    split
    · exact zero_le_one
    · rename_i h
      rcases Nat.eq_zero_or_pos j with rfl | hj
      · rw [not_and] at h; exact not_lt.1 (h rfl)
      · exact hv i j hij hj
  have hsim := bootSims_stair' (S := S) ht (by omega) (by omega) hm ho hd (sq := Num.sqrt)
    (rt := fun i j => √(Spec.startIncr v i j)) (fun i j hij => Num.sqrt_fin (ha i j hij))
    (draw := Spec.residOf Z seed ω) (fun _ _ => rfl) (scale := .fin b) (gam := Spec.gammaOf G seed ω) (by
      intro p _ y
      rw [abs_div_fin hb]; rfl)
  have hfin : finD (Spec.residOf Z seed ω) = fun p => Z (seed p ω) := rfl
  rw [hfin] at hsim
  refine ⟨_, hsim.mem_reserves.2 ⟨s, 1, hs, by omega, rfl⟩, rfl, rfl, ?_⟩
  rw [reserve_eq (by omega), if_neg one_ne_zero, label_one_sum ht h1 (by omega), sub_add_cancel]
  congr 1
  rw [show Finset.Ico (n - 1) n = {n - 1} by ext k; simp; omega, Finset.sum_singleton]
  unfold Spec.finalIncr gamD
  rw [if_pos (by omega), simIncr_second ht hn h1 (fun p => seed p ω), abs_div_fin hb]
  rfl

/-- Positions of the draws of the first `K` periods of origin `i`. -/
def posSet (n s i K : ℕ) : Finset ℕ := (Finset.range K).image (fun k => s * (n * n) + (i * n + k))

theorem resampled_local (i K : ℕ) : Spec.Local (posSet n s i K) (Spec.resampled v Z n s i K) := by
  intro e e' h
  unfold Spec.resampled
  refine Finset.sum_congr rfl (fun k hk => ?_)
  rw [h _ (Finset.mem_image_of_mem _ hk)]

theorem lastSamp_local : Spec.Local {s * (n * n) + (0 * n + (n - 1))} (lastSamp v Z n s) := by
  intro e e' h
  unfold lastSamp
  rw [h _ (Finset.mem_singleton_self _)]

theorem Spec.Local.mono {β : Type} {T U : Finset ℕ} (hTU : T ⊆ U) {F : (ℕ → E) → β} (h : Spec.Local T F) :
    Spec.Local U F := fun e e' he => h e e' (fun p hp => he p (hTU hp))

/-- The positions the forecast of the second oldest origin depends on. -/
def secondSet (n s : ℕ) : Finset ℕ :=
  posSet n s 0 (n - 1) ∪ (posSet n s 1 (n - 1) ∪ {s * (n * n) + (0 * n + (n - 1))})

theorem secondIncr_local : Spec.Local (secondSet n s) (secondIncr v Z n s) := by
  intro e e' h
  unfold secondIncr
  rw [resampled_local 0 (n - 1) e e' (fun p hp => h p (by unfold secondSet; exact Finset.mem_union_left _ hp)),
    resampled_local 1 (n - 1) e e' (fun p hp => h p (by
      unfold secondSet; exact Finset.mem_union_right _ (Finset.mem_union_left _ hp))),
    lastSamp_local e e' (fun p hp => h p (by
      unfold secondSet; exact Finset.mem_union_right _ (Finset.mem_union_right _ hp)))]

theorem second_notMem (hn : 2 ≤ n) : s * (n * n) + (1 * n + (n - 1)) ∉ secondSet n s := by
  unfold secondSet posSet
  simp only [Finset.mem_union, Finset.mem_image, Finset.mem_range, Finset.mem_singleton, not_or, not_exists, not_and]
  refine ⟨fun k hk => by omega, fun k hk => by omega, by omega⟩

theorem second_disjoint : Disjoint (posSet n s 1 (n - 1) ∪ {s * (n * n) + (0 * n + (n - 1))}) (posSet n s 0 (n - 1)) := by
  rw [Finset.disjoint_left]
  unfold posSet
  simp only [Finset.mem_union, Finset.mem_image, Finset.mem_range, Finset.mem_singleton, not_exists, not_and]
  rintro p (⟨k, hk, rfl⟩ | rfl) l hl
  · omega
  · omega

theorem second_disjoint' (hn : 2 ≤ n) : Disjoint (posSet n s 1 (n - 1)) {s * (n * n) + (0 * n + (n - 1))} := by
  rw [Finset.disjoint_singleton_right]
  unfold posSet
  simp only [Finset.mem_image, Finset.mem_range, not_exists, not_and]
  intro k hk
  omega

/-- Residuals drawn by position. -/
structure Spec.Resid (μ : Measure Ω) (parametric : Bool) (xs : List ℝ) (Z : E → ℝ) (seed : ℕ → Ω → E) : Prop where
  meas : Measurable Z
  law : HasLaw (fun ω => Z (seed 0 ω)) (Spec.residLaw parametric xs) μ

theorem Spec.Resid.all {parametric : Bool} {xs : List ℝ} (h : Spec.Resid μ parametric xs Z seed)
    (hs : Spec.Seeds μ seed) (p : ℕ) : HasLaw (fun ω => Z (seed p ω)) (Spec.residLaw parametric xs) μ := by
  refine ⟨(h.meas.comp (hs.meas p)).aemeasurable, ?_⟩
  have e : ∀ p, μ.map (fun ω => Z (seed p ω)) = (μ.map (seed p)).map Z := fun p =>
    (Measure.map_map h.meas (hs.meas p)).symm
  rw [e, hs.law p, ← e, h.law.map_eq]

/-- Mean of a resampled increment, when residuals have mean `ρ`. -/
noncomputable def Spec.meanIncr (v : ℕ → ℕ → ℝ) (ρ : ℝ) (i k : ℕ) : ℝ :=
  Spec.startIncr v i k + ρ * √(Spec.startIncr v i k)

theorem samp_moments {parametric : Bool} {xs : List ℝ} (h : Spec.Resid μ parametric xs Z seed) (hs : Spec.Seeds μ seed)
    (hx : xs ≠ []) (h2 : parametric = true → 2 ≤ xs.length) (p : ℕ) (a : ℝ) (ha : 0 ≤ a) :
    MemLp (fun ω => a + Z (seed p ω) * √a) 2 μ ∧
    ∫ ω, (a + Z (seed p ω) * √a) ∂μ = a + Spec.residMean parametric xs * √a ∧
    variance (fun ω => a + Z (seed p ω) * √a) μ = Spec.residVar parametric xs * a := by
  obtain ⟨-, h3, h4, h5⟩ := residLaw_moments parametric hx h2
  have hl := h.all hs p
  have z1 : MemLp (fun ω => Z (seed p ω)) 2 μ := by
    have := hl.map_eq
    rw [← this] at h3
    exact (memLp_map_measure_iff measurable_id.aestronglyMeasurable hl.aemeasurable).1 h3
  have z2 : ∫ ω, Z (seed p ω) ∂μ = Spec.residMean parametric xs := by rw [hl.integral_eq, h4]
  have z3 : variance (fun ω => Z (seed p ω)) μ = Spec.residVar parametric xs := by rw [hl.variance_eq, h5]
  refine ⟨MemLp.add (f := fun _ => a) (memLp_const _) (z1.mul_const _), ?_, ?_⟩
  · rw [integral_add (integrable_const _) ((z1.integrable (by norm_num)).mul_const _), integral_mul_const, z2]
    simp
  · rw [variance_const_add (z1.aestronglyMeasurable.mul_const _), variance_mul_const, z3, Real.sq_sqrt ha]

theorem resampled_moments {parametric : Bool} {xs : List ℝ} (h : Spec.Resid μ parametric xs Z seed)
    (hs : Spec.Seeds μ seed) (hx : xs ≠ []) (h2 : parametric = true → 2 ≤ xs.length) (i K : ℕ)
    (ha : ∀ k < K, 0 ≤ Spec.startIncr v i k) :
    MemLp (fun ω => Spec.resampled v Z n s i K (fun p => seed p ω)) 2 μ ∧
    ∫ ω, Spec.resampled v Z n s i K (fun p => seed p ω) ∂μ =
      ∑ k ∈ Finset.range K, Spec.meanIncr v (Spec.residMean parametric xs) i k ∧
    variance (fun ω => Spec.resampled v Z n s i K (fun p => seed p ω)) μ =
      Spec.residVar parametric xs * ∑ k ∈ Finset.range K, Spec.startIncr v i k := by
  have hk := fun k (hk : k ∈ Finset.range K) => samp_moments h hs hx h2 (s * (n * n) + (i * n + k))
    (Spec.startIncr v i k) (ha k (Finset.mem_range.1 hk))
  unfold Spec.resampled
  refine ⟨memLp_finsetSum _ (fun k h => (hk k h).1), ?_, ?_⟩
  · rw [integral_finsetSum _ (fun k h => (hk k h).1.integrable (by norm_num))]
    exact Finset.sum_congr rfl (fun k h => (hk k h).2.1)
  · have hp : Set.Pairwise (↑(Finset.range K) : Set ℕ) fun k l =>
        IndepFun (fun ω => Spec.startIncr v i k + Z (seed (s * (n * n) + (i * n + k)) ω) * √(Spec.startIncr v i k))
          (fun ω => Spec.startIncr v i l + Z (seed (s * (n * n) + (i * n + l)) ω) * √(Spec.startIncr v i l)) μ := by
      intro k _ l _ hkl
      have hZm := h.meas
      exact (hs.indep.indepFun (i := s * (n * n) + (i * n + k)) (j := s * (n * n) + (i * n + l)) (by omega)).comp
        (φ := fun z => Spec.startIncr v i k + Z z * √(Spec.startIncr v i k))
        (ψ := fun z => Spec.startIncr v i l + Z z * √(Spec.startIncr v i l)) (by fun_prop) (by fun_prop)
    have := IndepFun.variance_sum (fun k h => (hk k h).1) hp
    rw [Finset.sum_fn] at this
    rw [this, Finset.mul_sum]
    exact Finset.sum_congr rfl (fun k h => (hk k h).2.2)

theorem startIncr_nonneg' (hv : ∀ i j, i + j < n → 0 < j → 0 ≤ v i j) {i j : ℕ} (hij : i + j < n) :
    0 ≤ Spec.startIncr v i j := by
  unfold Spec.startIncr
  split
  · exact zero_le_one
  · rename_i h
    rcases Nat.eq_zero_or_pos j with rfl | hj
    · rw [not_and] at h; exact not_lt.1 (h rfl)
    · exact hv i j hij hj

/-- The mean of the reserve when the mean of the inverse exists, and whether it exists. -/
theorem second_mean {parametric : Bool} {xs : List ℝ} (h : Spec.Resid μ parametric xs Z seed)
    (hs : Spec.Seeds μ seed) (hx : xs ≠ []) (h2 : parametric = true → 2 ≤ xs.length) (hn : 2 ≤ n)
    (hv : ∀ i j, i + j < n → 0 < j → 0 ≤ v i j) (hb : 0 < b) (hG : Spec.MeanDraws μ seed G b)
    (h0 : ∀ᵐ ω ∂μ, Spec.resampled v Z n s 0 (n - 1) (fun p => seed p ω) ≠ 0) :
    let R := fun ω => G (seed (s * (n * n) + (1 * n + (n - 1))) ω) (|secondIncr v Z n s (fun p => seed p ω)| / b) b *
        (if 0 < secondIncr v Z n s (fun p => seed p ω) then 1 else -1)
    let ρ := Spec.residMean parametric xs
    let I := fun ω => (Spec.resampled v Z n s 0 (n - 1) (fun p => seed p ω))⁻¹
    ∫ ω, R ω ∂μ = (∑ k ∈ Finset.range (n - 1), Spec.meanIncr v ρ 1 k) * Spec.meanIncr v ρ 0 (n - 1) * ∫ ω, I ω ∂μ ∧
    (Integrable I μ → Integrable R μ) ∧
    ((∑ k ∈ Finset.range (n - 1), Spec.meanIncr v ρ 1 k) * Spec.meanIncr v ρ 0 (n - 1) ≠ 0 → Integrable R μ →
      Integrable I μ) := by
  intro R ρ I
  have hse : Measurable (fun ω (p : ℕ) => seed p ω) := measurable_pi_lambda _ hs.meas
  let A : Ω → ℝ := fun ω => Spec.resampled v Z n s 1 (n - 1) (fun p => seed p ω)
  let B : Ω → ℝ := fun ω => lastSamp v Z n s (fun p => seed p ω)
  have hIm : Measurable I := ((resampled_meas h.meas 0 (n - 1)).comp hse).inv
  have hAm : Measurable A := (resampled_meas h.meas 1 (n - 1)).comp hse
  have hBm : Measurable B := (lastSamp_meas h.meas).comp hse
  have hAB : IndepFun A B μ := indep_local hs (second_disjoint' hn) (resampled_meas h.meas _ _) (lastSamp_meas h.meas)
    (resampled_local _ _) lastSamp_local
  have hABI : IndepFun (fun ω => A ω * B ω) I μ := by
    refine indep_local hs (second_disjoint (n := n) (s := s)) (F := fun e => Spec.resampled v Z n s 1 (n - 1) e * lastSamp v Z n s e)
      (H := fun e => (Spec.resampled v Z n s 0 (n - 1) e)⁻¹)
      ((resampled_meas h.meas _ _).mul (lastSamp_meas h.meas)) (resampled_meas h.meas _ _).inv ?_ ?_
    · intro e e' he
      simp only
      rw [resampled_local 1 (n - 1) e e' (fun p hp => he p (Finset.mem_union_left _ hp)),
        lastSamp_local e e' (fun p hp => he p (Finset.mem_union_right _ hp))]
    · intro e e' he
      simp only
      rw [resampled_local 0 (n - 1) e e' he]
  obtain ⟨a1, a2, -⟩ := resampled_moments (v := v) (n := n) (s := s) h hs hx h2 1 (n - 1)
    (fun k hk => startIncr_nonneg' hv (by omega))
  obtain ⟨b1, b2, -⟩ := samp_moments h hs hx h2 (s * (n * n) + (0 * n + (n - 1))) (Spec.startIncr v 0 (n - 1))
    (startIncr_nonneg' hv (by omega))
  have hEAB : ∫ ω, A ω * B ω ∂μ = (∑ k ∈ Finset.range (n - 1), Spec.meanIncr v ρ 1 k) * Spec.meanIncr v ρ 0 (n - 1) := by
    rw [hAB.integral_fun_mul_eq_mul_integral hAm.aestronglyMeasurable hBm.aestronglyMeasurable]
    exact congrArg₂ _ a2 b2
  obtain ⟨p1, p2⟩ := process_mean hs hb hG (secondIncr_meas (v := v) (n := n) (s := s) h.meas) secondIncr_local
    (second_notMem hn)
  have hae : (fun ω => secondIncr v Z n s (fun p => seed p ω)) =ᵐ[μ] fun ω => (A ω * B ω) * I ω := by
    filter_upwards [h0] with ω hω
    simp only [secondIncr, if_neg hω, A, B, I]
  refine ⟨?_, ?_, ?_⟩
  · rw [← hEAB]
    refine p2.trans ?_
    rw [integral_congr_ae hae]
    exact hABI.integral_fun_mul_eq_mul_integral (hAm.mul hBm).aestronglyMeasurable hIm.aestronglyMeasurable
  · intro hI
    refine p1.2 ((integrable_congr hae).2 ?_)
    exact hABI.integrable_mul (hAB.integrable_mul (a1.integrable (by norm_num)) (b1.integrable (by norm_num))) hI
  · intro hne hR
    have := (integrable_congr hae).1 (p1.1 hR)
    refine IndepFun.integrable_right_of_integrable_op hABI (fun x y => x * y) 1 one_ne_zero
      (fun x y => by simp [enorm_mul]) this (hAm.mul hBm).aestronglyMeasurable hIm.aestronglyMeasurable ?_
    intro hz
    apply hne
    rw [← hEAB, integral_congr_ae hz]
    simp

end

/-! ## Residuals drawn from a list -/

theorem choiceLaw_mem {xs : List ℝ} : ∀ᵐ x ∂(Spec.choiceLaw xs), x ∈ xs := by
  unfold Spec.choiceLaw
  refine Measure.ae_smul_measure ?_ _
  rw [ae_iff]
  have : ∀ ys : List ℝ, ys ⊆ xs → (ys.map Measure.dirac).sum {x | x ∉ xs} = 0 := by
    intro ys
    induction ys with
    | nil => simp
    | cons y ys ih =>
      intro h
      rw [List.map_cons, List.sum_cons, Measure.add_apply, ih (fun z hz => h (List.mem_cons_of_mem _ hz)), add_zero]
      have hm : MeasurableSet {x : ℝ | x ∉ xs} := by
        have : {x : ℝ | x ∉ xs} = (↑(xs.toFinset) : Set ℝ)ᶜ := by ext x; simp
        rw [this]
        exact (Finset.measurableSet _).compl
      rw [Measure.dirac_apply' _ hm]
      simp [h List.mem_cons_self]
  exact this xs (fun x h => h)

theorem list_bounds (f : ℝ → ℝ) (xs : List ℝ) (h : ∀ z ∈ xs, 0 < f z) :
    ∃ δ M, 0 < δ ∧ ∀ z ∈ xs, δ ≤ f z ∧ f z ≤ M := by
  induction xs with
  | nil => exact ⟨1, 0, one_pos, by simp⟩
  | cons x xs ih =>
    obtain ⟨δ, M, h1, h2⟩ := ih (fun z hz => h z (List.mem_cons_of_mem _ hz))
    refine ⟨min δ (f x), max M (f x), lt_min h1 (h x List.mem_cons_self), ?_⟩
    intro z hz
    rcases List.mem_cons.1 hz with rfl | hz
    · exact ⟨min_le_right _ _, le_max_right _ _⟩
    · exact ⟨(min_le_left _ _).trans (h2 z hz).1, (h2 z hz).2.trans (le_max_left _ _)⟩

theorem sqList_zero {xs : List ℝ} : Spec.sqList xs = 0 ↔ ∀ z ∈ xs, z = Spec.meanList xs := by
  unfold Spec.sqList
  generalize Spec.meanList xs = a
  induction xs with
  | nil => simp
  | cons x xs ih =>
    have h1 : 0 ≤ (xs.map (fun x => (x - a) ^ 2)).sum := List.sum_nonneg (by
      intro y hy
      rw [List.mem_map] at hy
      obtain ⟨x, -, rfl⟩ := hy
      positivity)
    rw [List.map_cons, List.sum_cons, List.forall_mem_cons, ← ih]
    constructor
    · intro h
      have h2 := sq_nonneg (x - a)
      have h3 : (x - a) ^ 2 = 0 := by linarith
      exact ⟨sub_eq_zero.1 (pow_eq_zero_iff (two_ne_zero) |>.1 h3), by linarith⟩
    · rintro ⟨rfl, h⟩
      rw [h]; simp

section
variable {Ω E : Type} [MeasurableSpace Ω] [MeasurableSpace E] {μ : Measure Ω} [IsProbabilityMeasure μ]
variable {t m : Tri ℝ} {n S s : ℕ} {c v : ℕ → ℕ → ℝ} {Z : E → ℝ} {G : E → ℝ → ℝ → ℝ} {b : ℝ} {seed : ℕ → Ω → E}

/-- **C198** For all staircases of at least two origins whose first development label is 1, all fitted increments that
are not negative after the first period, every positive scale, process variates that are not negative and have mean
shape times scale, and residuals drawn from a list with which the resampled increments of the oldest origin before the
last period are positive: the simulated reserve of the second oldest origin has a mean.  It is at least the reserve of
the chain ladder on the means of the resampled increments, up to the sign of the increments: the mean of the inverse of
the volume takes the place of the inverse of its mean.  They agree exactly if all residuals of the list are equal. -/
theorem C198_mean (ht : Spec.Stair t n c) (hn : 2 ≤ n) (h1 : t.dAt 0 = 1) (hm : Spec.Stair m n v)
    (ho : m.origins = t.origins) (hd : m.devs = t.devs) (hv : ∀ i j, i + j < n → 0 < j → 0 ≤ v i j) (hb : 0 < b)
    {xs : List ℝ} (hx : xs ≠ []) (hpos : ∀ k < n - 1, ∀ z ∈ xs, 0 < Spec.startIncr v 0 k + z * √(Spec.startIncr v 0 k))
    (hs : Spec.Seeds μ seed) (hZ : Spec.Resid μ false xs Z seed) (hG : Spec.MeanDraws μ seed G b) (hsS : s < S) :
    ∃ (R : Ω → ℝ) (h : ℝ), (∀ ω, ∃ q ∈
        (bootSims Num.sqrt t m (.fin b) S (Spec.residOf Z seed ω) (Spec.gammaOf G seed ω)).reserves,
        q.sim = s ∧ q.origin = t.oAt 1 ∧ q.reserve = .fin (R ω)) ∧
      Integrable R μ ∧
      ∫ ω, R ω ∂μ = (∑ k ∈ Finset.range (n - 1), Spec.meanIncr v (Spec.meanList xs) 1 k) *
        Spec.meanIncr v (Spec.meanList xs) 0 (n - 1) * h ∧
      0 < ∑ k ∈ Finset.range (n - 1), Spec.meanIncr v (Spec.meanList xs) 0 k ∧
      (∑ k ∈ Finset.range (n - 1), Spec.meanIncr v (Spec.meanList xs) 0 k)⁻¹ ≤ h ∧
      (h = (∑ k ∈ Finset.range (n - 1), Spec.meanIncr v (Spec.meanList xs) 0 k)⁻¹ ↔
        ∀ z ∈ xs, z = Spec.meanList xs) := by
  have hb' : ∀ k, ∃ δ M, 0 < δ ∧ (k < n - 1 → ∀ z ∈ xs, δ ≤ Spec.startIncr v 0 k + z * √(Spec.startIncr v 0 k) ∧
      Spec.startIncr v 0 k + z * √(Spec.startIncr v 0 k) ≤ M) := by
    intro k
    by_cases hk : k < n - 1
    · obtain ⟨δ, M, a, b⟩ := list_bounds (fun z => Spec.startIncr v 0 k + z * √(Spec.startIncr v 0 k)) xs (hpos k hk)
      exact ⟨δ, M, a, fun _ => b⟩
    · exact ⟨1, 1, one_pos, fun h => absurd h hk⟩
  choose δ M hδ hδM using hb'
  have hmem : ∀ᵐ ω ∂μ, ∀ p : ℕ, Z (seed p ω) ∈ xs := by
    rw [ae_all_iff]
    intro p
    have hl := hZ.all hs p
    have : ∀ᵐ x ∂(μ.map (fun ω => Z (seed p ω))), x ∈ xs := by
      rw [hl.map_eq]
      exact choiceLaw_mem
    exact ae_of_ae_map hl.aemeasurable this
  let C : Ω → ℝ := fun ω => Spec.resampled v Z n s 0 (n - 1) (fun p => seed p ω)
  have hlo : ∀ᵐ ω ∂μ, (∑ k ∈ Finset.range (n - 1), δ k) ≤ C ω := by
    filter_upwards [hmem] with ω hω
    exact Finset.sum_le_sum (fun k hk => (hδM k (Finset.mem_range.1 hk) _ (hω _)).1)
  have hhi : ∀ᵐ ω ∂μ, C ω ≤ ∑ k ∈ Finset.range (n - 1), M k := by
    filter_upwards [hmem] with ω hω
    exact Finset.sum_le_sum (fun k hk => (hδM k (Finset.mem_range.1 hk) _ (hω _)).2)
  have hsum : 0 < ∑ k ∈ Finset.range (n - 1), δ k :=
    Finset.sum_pos (fun k _ => hδ k) ⟨0, Finset.mem_range.2 (by omega)⟩
  have h2 : false = true → 2 ≤ xs.length := by simp
  obtain ⟨c1, c2, c3⟩ := resampled_moments (v := v) (n := n) (s := s) hZ hs hx h2 0 (n - 1)
    (fun k hk => startIncr_nonneg' hv (by omega))
  obtain ⟨i1, i2, i3, i4⟩ := inv_mean c1 hsum hlo hhi
  have hρ : Spec.residMean false xs = Spec.meanList xs := rfl
  have hτ : Spec.residVar false xs = Spec.sqList xs / xs.length := rfl
  rw [hρ] at c2
  rw [hτ] at c3
  rw [c2] at i2 i4
  rw [c3] at i4
  obtain ⟨r1, r2, -⟩ := second_mean (s := s) (v := v) hZ hs hx h2 hn hv hb hG (by
    filter_upwards [hlo] with ω hω
    exact (hsum.trans_le hω).ne')
  have hlen : (0 : ℝ) < xs.length := by
    have := List.length_pos_of_ne_nil hx
    exact_mod_cast this
  have hvol : 0 < ∑ k ∈ Finset.range (n - 1), Spec.startIncr v 0 k := by
    obtain ⟨z, hz⟩ := List.exists_mem_of_ne_nil xs hx
    refine Finset.sum_pos (fun k hk => ?_) ⟨0, Finset.mem_range.2 (by omega)⟩
    have hk' := Finset.mem_range.1 hk
    refine (startIncr_nonneg' hv (by omega)).lt_of_ne (fun e => ?_)
    have := hpos k hk' z hz
    rw [← e] at this
    simp at this
  have hge : 0 ≤ Spec.sqList xs / xs.length * (∑ k ∈ Finset.range (n - 1), Spec.startIncr v 0 k) /
      ((∑ k ∈ Finset.range (n - 1), M k) *
        (∑ k ∈ Finset.range (n - 1), Spec.meanIncr v (Spec.meanList xs) 0 k) ^ 2) := by
    have := sqList_nonneg xs
    positivity
  refine ⟨_, _, fun ω => second_reserve ht hn h1 hm ho hd hv hb hsS ω, r2 i1, r1, i2, ?_, ?_⟩
  · linarith
  · constructor
    · intro e
      rw [e] at i4
      rw [← sqList_zero]
      by_contra hne
      have h3 : 0 < Spec.sqList xs := (sqList_nonneg xs).lt_of_ne (Ne.symm hne)
      have h4 : 0 < Spec.sqList xs / xs.length * (∑ k ∈ Finset.range (n - 1), Spec.startIncr v 0 k) /
          ((∑ k ∈ Finset.range (n - 1), M k) *
          (∑ k ∈ Finset.range (n - 1), Spec.meanIncr v (Spec.meanList xs) 0 k) ^ 2) := by positivity
      linarith
    · intro hall
      have : (fun ω => (Spec.resampled v Z n s 0 (n - 1) (fun p => seed p ω))⁻¹) =ᵐ[μ]
          fun _ => (∑ k ∈ Finset.range (n - 1), Spec.meanIncr v (Spec.meanList xs) 0 k)⁻¹ := by
        filter_upwards [hmem] with ω hω
        congr 1
        refine Finset.sum_congr rfl (fun k _ => ?_)
        unfold Spec.meanIncr
        rw [hall _ (hω _)]
      rw [integral_congr_ae this, integral_const, probReal_univ, one_smul]

/-- Fitted increments of positive triangles that do not shrink in total. -/
theorem fit_incr (hp : Spec.Positive n c) (hn : 2 ≤ n)
    (hg : ∀ j, j + 1 < n → ∑ i ∈ Finset.range (n - 1 - j), c i j ≤ ∑ i ∈ Finset.range (n - 1 - j), c i (j + 1)) :
    (∀ i j, i + j < n → 0 < j → 0 ≤ Spec.incr (Spec.fitCum n c) i j) ∧
    (∀ i j, i + j < n → Spec.startIncr (Spec.incr (Spec.fitCum n c)) i j = Spec.incr (Spec.fitCum n c) i j) ∧
    Spec.fitCum n c 0 (n - 2) = c 0 (n - 2) ∧
    ∑ k ∈ Finset.range (n - 1), Spec.startIncr (Spec.incr (Spec.fitCum n c)) 0 k = c 0 (n - 2) ∧
    ∑ k ∈ Finset.range (n - 1), Spec.startIncr (Spec.incr (Spec.fitCum n c)) 1 k = c 1 (n - 2) ∧
    Spec.startIncr (Spec.incr (Spec.fitCum n c)) 0 (n - 1) = c 0 (n - 1) - c 0 (n - 2) := by
  have h1 : ∀ i j, i + j < n → 0 < j → 0 ≤ Spec.incr (Spec.fitCum n c) i j := by
    intro i j hij hj
    obtain ⟨k, rfl⟩ : ∃ k, j = k + 1 := ⟨j - 1, by omega⟩
    unfold Spec.incr
    rw [if_neg (by omega), Nat.add_sub_cancel, fitCum_succ hp (by omega)]
    have hw : 1 ≤ Spec.wFactor n c k := by
      have h0 : 0 < ∑ i ∈ Finset.range (n - 1 - k), c i k := wSum_pos (k := 0) hp (by omega) (by omega)
      unfold Spec.wFactor
      rw [le_div_iff₀ h0, one_mul]
      exact hg k (by omega)
    have := fitCum_pos hp (i := i) (j := k) (by omega)
    nlinarith
  have h2 : ∀ i j, i + j < n → Spec.startIncr (Spec.incr (Spec.fitCum n c)) i j = Spec.incr (Spec.fitCum n c) i j := by
    intro i j hij
    unfold Spec.startIncr
    rw [if_neg]
    rintro ⟨rfl, h⟩
    have := fitCum_pos hp (i := i) (j := 0) (by omega)
    simp only [Spec.incr, if_true] at h
    linarith
  have h3 : Spec.fitCum n c 0 (n - 1) = c 0 (n - 1) := fitCum_latest (n := n) (c := c) 0
  have h4 : Spec.fitCum n c 0 (n - 2) = c 0 (n - 2) := by
    have h5 := fitCum_succ hp (i := 0) (j := n - 2) (by omega)
    rw [show n - 2 + 1 = n - 1 by omega, h3] at h5
    unfold Spec.wFactor at h5
    rw [show n - 1 - (n - 2) = 1 by omega, Finset.sum_range_one, Finset.sum_range_one,
      show n - 2 + 1 = n - 1 by omega] at h5
    have p1 := (hp 0 (n - 1) (by omega)).ne'
    have p2 := (hp 0 (n - 2) (by omega)).ne'
    field_simp at h5
    exact h5.symm
  have h5 : Spec.fitCum n c 1 (n - 2) = c 1 (n - 2) := by
    have := fitCum_latest (n := n) (c := c) 1
    rwa [show n - 1 - 1 = n - 2 by omega] at this
  have hsum : ∀ i < 2, ∑ k ∈ Finset.range (n - 1), Spec.startIncr (Spec.incr (Spec.fitCum n c)) i k =
      Spec.fitCum n c i (n - 2) := by
    intro i hi
    rw [Finset.sum_congr rfl (fun k hk => h2 i k (by rw [Finset.mem_range] at hk; omega)),
      show n - 1 = n - 2 + 1 by omega, incr_sum]
  refine ⟨h1, h2, h4, by rw [hsum 0 (by norm_num), h4], by rw [hsum 1 (by norm_num), h5], ?_⟩
  rw [h2 0 (n - 1) (by omega)]
  unfold Spec.incr
  rw [if_neg (by omega), h3, show n - 1 - 1 = n - 2 by omega, h4]

/-- **C198**, the whole method: the fit of a positive triangle of at least three origins whose columns do not shrink in
total and whose last factor exceeds 1.  When its residuals have mean 0 and resampled increments of the oldest origin
before the last period are positive, the mean of the simulated reserve of the second oldest origin is larger than its
chain ladder reserve. -/
theorem C198_bias (gm : List (Num ℝ) → Num ℝ) (ht : Spec.Stair t n c) (hp : Spec.Positive n c) (hn : 3 ≤ n)
    (h1 : t.dAt 0 = 1) {fit : BootFit ℝ} (hf : bootFit Num.sqrt gm t t.a2aind0 = .ok fit)
    (hg : ∀ j, j + 1 < n → ∑ i ∈ Finset.range (n - 1 - j), c i j ≤ ∑ i ∈ Finset.range (n - 1 - j), c i (j + 1))
    (hlast : c 0 (n - 2) < c 0 (n - 1)) {xs : List ℝ} (hxs : fit.sampling = xs.map Num.fin) (hx : xs ≠ [])
    (hx0 : xs.sum = 0) (hpos : ∀ k < n - 1, ∀ x, fit.fitIncr.cell 0 k = .fin x → ∀ z ∈ xs, 0 < x + z * √x)
    (hb : 0 < b) (hsc : fit.scale = .fin b)
    (hs : Spec.Seeds μ seed) (hZ : Spec.Resid μ false xs Z seed) (hG : Spec.MeanDraws μ seed G b) (hsS : s < S) :
    ∃ R : Ω → ℝ, (∀ ω, ∃ q ∈
        (bootSims Num.sqrt t fit.fitIncr fit.scale S (Spec.residOf Z seed ω) (Spec.gammaOf G seed ω)).reserves,
        q.sim = s ∧ q.origin = t.oAt 1 ∧ q.reserve = .fin (R ω)) ∧ Integrable R μ ∧
      c 1 (n - 2) * (c 0 (n - 1) / c 0 (n - 2)) - c 1 (n - 2) < ∫ ω, R ω ∂μ := by
  obtain ⟨fit', hf', hfs⟩ := bootFit_stair Num.sqrt gm ht hp hn
  obtain rfl : fit' = fit := by
    rw [hf] at hf'
    exact (Except.ok.inj hf').symm
  obtain ⟨f1, f2, -, f4, f5, f6⟩ := fit_incr hp (by omega) hg
  have hmean : Spec.meanList xs = 0 := by unfold Spec.meanList; rw [hx0, zero_div]
  obtain ⟨R, h, r1, r2, r3, -, r5, r6⟩ := C198_mean (s := s) (S := S) ht (by omega) h1 hfs.incr hfs.incr_origins
    hfs.incr_devs f1 hb hx (by
      intro k hk z hz
      rw [f2 0 k (by omega)]
      exact hpos k hk _ (hfs.incr.obs 0 k (by omega)) z hz) hs hZ hG hsS
  have hmi : ∀ i k, Spec.meanIncr (Spec.incr (Spec.fitCum n c)) 0 i k =
      Spec.startIncr (Spec.incr (Spec.fitCum n c)) i k := by
    intro i k; unfold Spec.meanIncr; ring
  rw [hmean] at r3 r5 r6
  simp only [hmi] at r3 r5 r6
  rw [f5, f6] at r3
  rw [f4] at r5 r6
  have p0 := hp 0 (n - 2) (by omega)
  have p1 := hp 1 (n - 2) (by omega)
  have e : c 1 (n - 2) * (c 0 (n - 1) / c 0 (n - 2)) - c 1 (n - 2) =
      c 1 (n - 2) * (c 0 (n - 1) - c 0 (n - 2)) * (c 0 (n - 2))⁻¹ := by
    field_simp
  have hq : 0 < c 1 (n - 2) * (c 0 (n - 1) - c 0 (n - 2)) := mul_pos p1 (by linarith)
  refine ⟨R, by rw [hsc]; exact r1, r2, ?_⟩
  rw [e, r3]
  refine mul_lt_mul_of_pos_left (r5.lt_of_ne (fun h => ?_)) hq
  obtain ⟨z, hz⟩ := List.exists_mem_of_ne_nil xs hx
  have hz0 := r6.1 h.symm z hz
  subst hz0
  have hmem : (Num.fin 0 : Num ℝ) ∈ fit'.sampling := by rw [hxs]; exact List.mem_map_of_mem hz
  rw [hfs.sampling] at hmem
  unfold samplingDist at hmem
  rw [List.mem_filter] at hmem
  have := hmem.2
  simp [Num.zero_def] at this

/-! ## Normal residuals -/

theorem resampled_gaussian {xs : List ℝ} (hZ : Spec.Resid μ true xs Z seed) (hs : Spec.Seeds μ seed) (K : ℕ)
    (ha : ∀ k < K, 0 ≤ Spec.startIncr v 0 k) :
    μ.map (fun ω => Spec.resampled v Z n s 0 K (fun p => seed p ω)) =
      gaussianReal (∑ k ∈ Finset.range K, Spec.startIncr v 0 k)
        (Real.toNNReal (Spec.sqList xs / ((xs.length : ℝ) - 1)) *
          Real.toNNReal (∑ k ∈ Finset.range K, Spec.startIncr v 0 k)) := by
  induction K with
  | zero =>
    simp [Spec.resampled, Measure.map_const]
  | succ K ih =>
    have ih := ih (fun k hk => ha k (by omega))
    have hK := ha K (by omega)
    have hl := hZ.all hs (s * (n * n) + (0 * n + K))
    have hlaw : Spec.residLaw true xs = gaussianReal 0 (Real.toNNReal (Spec.sqList xs / ((xs.length : ℝ) - 1))) := rfl
    rw [hlaw] at hl
    have h1 := gaussianReal_const_add (gaussianReal_mul_const hl (√(Spec.startIncr v 0 K))) (Spec.startIncr v 0 K)
    have hind : IndepFun (fun ω => Spec.resampled v Z n s 0 K (fun p => seed p ω))
        (fun ω => Spec.startIncr v 0 K + Z (seed (s * (n * n) + (0 * n + K)) ω) * √(Spec.startIncr v 0 K)) μ := by
      refine indep_local hs (T := posSet n s 0 K) (U := {s * (n * n) + (0 * n + K)}) ?_ (resampled_meas hZ.meas _ _)
        (H := fun e => Spec.startIncr v 0 K + Z (e (s * (n * n) + (0 * n + K))) * √(Spec.startIncr v 0 K)) ?_
        (resampled_local _ _) ?_
      · rw [Finset.disjoint_singleton_right]
        unfold posSet
        simp only [Finset.mem_image, Finset.mem_range, not_exists, not_and]
        intro k hk
        omega
      · exact measurable_const.add (Measurable.mul_const (hZ.meas.comp (measurable_pi_apply _)) _)
      · intro e e' h
        simp only
        rw [h _ (Finset.mem_singleton_self _)]
    have := gaussianReal_add_gaussianReal_of_indepFun hind ih h1.map_eq
    have e : (fun ω => Spec.resampled v Z n s 0 (K + 1) (fun p => seed p ω)) =
        (fun ω => Spec.resampled v Z n s 0 K (fun p => seed p ω)) +
        (fun ω => Spec.startIncr v 0 K + Z (seed (s * (n * n) + (0 * n + K)) ω) * √(Spec.startIncr v 0 K)) := by
      funext ω
      unfold Spec.resampled
      rw [Finset.sum_range_succ]
      rfl
    rw [e, this]
    congr 1
    · rw [Finset.sum_range_succ]; simp
    · rw [Finset.sum_range_succ, Real.toNNReal_add (Finset.sum_nonneg (fun k hk => ha k (by
        rw [Finset.mem_range] at hk; omega))) hK, mul_add]
      congr 1
      rw [mul_comm]
      congr 1
      ext
      simp [Real.sq_sqrt hK, hK]

/-- **C199** For all staircases of at least two origins whose first development label is 1, all fitted increments that
are not negative after the first period and do not vanish in the cells that decide the second oldest origin, every
positive scale and process variates that are not negative and have mean shape times scale: with normal residuals of
positive variance the simulated reserve of the second oldest origin has no mean. -/
theorem C199_no_mean (ht : Spec.Stair t n c) (hn : 2 ≤ n) (h1 : t.dAt 0 = 1) (hm : Spec.Stair m n v)
    (ho : m.origins = t.origins) (hd : m.devs = t.devs) (hv : ∀ i j, i + j < n → 0 < j → 0 ≤ v i j) (hb : 0 < b)
    {xs : List ℝ} (hx : 2 ≤ xs.length) (hne : ∃ z ∈ xs, z ≠ Spec.meanList xs)
    (h0 : ∑ k ∈ Finset.range (n - 1), Spec.startIncr v 0 k ≠ 0)
    (h0' : ∑ k ∈ Finset.range (n - 1), Spec.startIncr v 1 k ≠ 0) (hl : Spec.startIncr v 0 (n - 1) ≠ 0)
    (hs : Spec.Seeds μ seed) (hZ : Spec.Resid μ true xs Z seed) (hG : Spec.MeanDraws μ seed G b) (hsS : s < S) :
    ∃ R : Ω → ℝ, (∀ ω, ∃ q ∈
        (bootSims Num.sqrt t m (.fin b) S (Spec.residOf Z seed ω) (Spec.gammaOf G seed ω)).reserves,
        q.sim = s ∧ q.origin = t.oAt 1 ∧ q.reserve = .fin (R ω)) ∧ ¬ Integrable R μ := by
  have hxs : xs ≠ [] := by rintro rfl; simp at hx
  have hlaw := resampled_gaussian (n := n) (s := s) (v := v) hZ hs (n - 1) (fun k hk => startIncr_nonneg' hv (by omega))
  have hV : Real.toNNReal (Spec.sqList xs / ((xs.length : ℝ) - 1)) *
      Real.toNNReal (∑ k ∈ Finset.range (n - 1), Spec.startIncr v 0 k) ≠ 0 := by
    refine mul_ne_zero ?_ ?_
    · rw [Ne, Real.toNNReal_eq_zero, not_le]
      have h3 : 0 < Spec.sqList xs := by
        refine (sqList_nonneg xs).lt_of_ne (fun e => ?_)
        obtain ⟨z, hz, hz'⟩ := hne
        exact hz' (sqList_zero.1 e.symm z hz)
      have : (2 : ℝ) ≤ xs.length := by exact_mod_cast hx
      exact div_pos h3 (by linarith)
    · rw [Ne, Real.toNNReal_eq_zero, not_le]
      exact (Finset.sum_nonneg (fun k hk => startIncr_nonneg' hv (by
        rw [Finset.mem_range] at hk; omega))).lt_of_ne (Ne.symm h0)
  have hCm : Measurable (fun ω => Spec.resampled v Z n s 0 (n - 1) (fun p => seed p ω)) :=
    (resampled_meas hZ.meas 0 (n - 1)).comp (measurable_pi_lambda _ hs.meas)
  have hae : ∀ᵐ ω ∂μ, Spec.resampled v Z n s 0 (n - 1) (fun p => seed p ω) ≠ 0 := by
    have : ∀ᵐ x ∂(μ.map (fun ω => Spec.resampled v Z n s 0 (n - 1) (fun p => seed p ω))), x ≠ 0 := by
      rw [hlaw]
      have := nullSingletonClass_gaussianReal (μ := ∑ k ∈ Finset.range (n - 1), Spec.startIncr v 0 k) hV
      exact Measure.ae_ne _ 0
    exact ae_of_ae_map hCm.aemeasurable this
  obtain ⟨-, -, r3⟩ := second_mean (s := s) (v := v) hZ hs hxs (fun _ => hx) hn hv hb hG hae
  refine ⟨_, fun ω => second_reserve ht hn h1 hm ho hd hv hb hsS ω, fun hR => ?_⟩
  have hmi : ∀ i k, Spec.meanIncr v (Spec.residMean true xs) i k = Spec.startIncr v i k := by
    intro i k
    have : Spec.residMean true xs = 0 := rfl
    unfold Spec.meanIncr
    rw [this]; ring
  simp only [hmi] at r3
  have hI := r3 (mul_ne_zero h0' hl) hR
  refine gaussian_inv hV (m := ∑ k ∈ Finset.range (n - 1), Spec.startIncr v 0 k) ?_
  rw [← hlaw]
  exact (integrable_map_measure measurable_inv.aestronglyMeasurable hCm.aemeasurable).2 hI

/-- **C199**, the whole method: the parametric bootstrap of a positive triangle of at least three origins whose columns
do not shrink in total, whose last factor is not 1 and whose residuals are not all equal. -/
theorem C199_fit (gm : List (Num ℝ) → Num ℝ) (ht : Spec.Stair t n c) (hp : Spec.Positive n c) (hn : 3 ≤ n)
    (h1 : t.dAt 0 = 1) {fit : BootFit ℝ} (hf : bootFit Num.sqrt gm t t.a2aind0 = .ok fit)
    (hg : ∀ j, j + 1 < n → ∑ i ∈ Finset.range (n - 1 - j), c i j ≤ ∑ i ∈ Finset.range (n - 1 - j), c i (j + 1))
    (hlast : c 0 (n - 2) ≠ c 0 (n - 1)) {xs : List ℝ} (hxs : fit.sampling = xs.map Num.fin) {z z' : ℝ} (hz : z ∈ xs)
    (hz' : z' ∈ xs) (hzz : z ≠ z') (hb : 0 < b) (hsc : fit.scale = .fin b)
    (hs : Spec.Seeds μ seed) (hZ : Spec.Resid μ true xs Z seed) (hG : Spec.MeanDraws μ seed G b) (hsS : s < S) :
    ∃ R : Ω → ℝ, (∀ ω, ∃ q ∈
        (bootSims Num.sqrt t fit.fitIncr fit.scale S (Spec.residOf Z seed ω) (Spec.gammaOf G seed ω)).reserves,
        q.sim = s ∧ q.origin = t.oAt 1 ∧ q.reserve = .fin (R ω)) ∧ ¬ Integrable R μ := by
  obtain ⟨fit', hf', hfs⟩ := bootFit_stair Num.sqrt gm ht hp hn
  obtain rfl : fit' = fit := by
    rw [hf] at hf'
    exact (Except.ok.inj hf').symm
  obtain ⟨f1, f2, -, f4, f5, f6⟩ := fit_incr hp (by omega) hg
  rw [hsc]
  refine C199_no_mean ht (by omega) h1 hfs.incr hfs.incr_origins hfs.incr_devs f1 hb (xs := xs) ?_ ?_ ?_ ?_ ?_ hs hZ hG hsS
  · match xs, hz, hz' with
    | [a], hz, hz' =>
      rw [List.mem_singleton] at hz hz'
      exact absurd (hz.trans hz'.symm) hzz
    | _ :: _ :: _, _, _ => simp
  · by_contra hall
    push Not at hall
    exact hzz ((hall z hz).trans (hall z' hz').symm)
  · rw [f4]; exact (hp 0 (n - 2) (by omega)).ne'
  · rw [f5]; exact (hp 1 (n - 2) (by omega)).ne'
  · rw [f6]; exact sub_ne_zero.2 (Ne.symm hlast)

end

/-! ## The statements apply -/

/-- Draws of any law of residuals, with process variates half or one and a half times their mean. -/
theorem exists_bootDraws (parametric : Bool) {xs : List ℝ} (hx : xs ≠ []) (h2 : parametric = true → 2 ≤ xs.length) :
    ∃ (Ω E : Type) (_ : MeasurableSpace Ω) (_ : MeasurableSpace E) (μ : Measure Ω) (_ : IsProbabilityMeasure μ)
      (seed : ℕ → Ω → E) (Z : E → ℝ) (G : E → ℝ → ℝ → ℝ), Spec.Seeds μ seed ∧ Spec.Resid μ parametric xs Z seed ∧
      ∀ b, 0 < b → Spec.MeanDraws μ seed G b := by
  have hp := (residLaw_moments parametric hx h2).1
  have hq := choiceLaw_probability (xs := [1 / 2, 3 / 2]) (by simp)
  let ν := (Spec.residLaw parametric xs).prod (Spec.choiceLaw [1 / 2, 3 / 2])
  obtain ⟨hs, hl⟩ := exists_seeds ν
  have hi : Integrable (fun x : ℝ => |x|) (Spec.choiceLaw [1 / 2, 3 / 2]) ∧
      ∫ x, |x| ∂(Spec.choiceLaw [1 / 2, 3 / 2]) = 1 := by
    obtain ⟨a, b⟩ := choiceLaw_integral [1 / 2, 3 / 2] (by simp) (g := fun x => |x|) (by fun_prop)
    refine ⟨a, ?_⟩
    rw [b]
    norm_num [abs_of_pos]
  have hsnd : (Measure.infinitePi (fun _ : ℕ => ν)).map (fun ω : ℕ → ℝ × ℝ => (ω 0).2) = Spec.choiceLaw [1 / 2, 3 / 2] := by
    have : (Measure.infinitePi (fun _ : ℕ => ν)).map (fun ω : ℕ → ℝ × ℝ => (ω 0).2) =
        ((Measure.infinitePi (fun _ : ℕ => ν)).map (fun ω : ℕ → ℝ × ℝ => ω 0)).map Prod.snd :=
      (Measure.map_map measurable_snd (measurable_pi_apply 0)).symm
    rw [this, hl]
    exact Measure.snd_prod
  have hfst : (Measure.infinitePi (fun _ : ℕ => ν)).map (fun ω : ℕ → ℝ × ℝ => (ω 0).1) = Spec.residLaw parametric xs := by
    have : (Measure.infinitePi (fun _ : ℕ => ν)).map (fun ω : ℕ → ℝ × ℝ => (ω 0).1) =
        ((Measure.infinitePi (fun _ : ℕ => ν)).map (fun ω : ℕ → ℝ × ℝ => ω 0)).map Prod.fst :=
      (Measure.map_map measurable_fst (measurable_pi_apply 0)).symm
    rw [this, hl]
    exact Measure.fst_prod
  have hm2 : Measurable (fun ω : ℕ → ℝ × ℝ => (ω 0).2) := measurable_snd.comp (measurable_pi_apply 0)
  have habs : Measurable (fun x : ℝ => |x|) := by fun_prop
  refine ⟨ℕ → ℝ × ℝ, ℝ × ℝ, inferInstance, inferInstance, Measure.infinitePi (fun _ => ν), inferInstance,
    fun p ω => ω p, Prod.fst, fun e a b => a * b * |e.2|, hs, ⟨measurable_fst, ?_⟩, fun b hb => ⟨?_, ?_, ?_, ?_⟩⟩
  · exact ⟨(measurable_fst.comp (measurable_pi_apply 0)).aemeasurable, hfst⟩
  · fun_prop
  · intro e a ha
    positivity
  · intro a _
    refine Integrable.const_mul ?_ _
    have := hi.1
    rw [← hsnd] at this
    exact (integrable_map_measure habs.aestronglyMeasurable hm2.aemeasurable).1 this
  · intro a _
    rw [integral_const_mul]
    have : ∫ ω : ℕ → ℝ × ℝ, |(ω 0).2| ∂(Measure.infinitePi (fun _ => ν)) = 1 := by
      rw [← hi.2, ← hsnd, integral_map hm2.aemeasurable habs.aestronglyMeasurable]
    rw [this, mul_one]

/-- Claims of the example: fitted increments of 10000, observed ones 100 above or below. -/
def biasVals : ℕ → ℕ → ℝ := fun i j =>
  (([[9900, 20000, 30000], [10100, 20000], [10000]] : List (List ℝ)).getD i []).getD j 0

theorem biasVals_pos : Spec.Positive 3 biasVals := by
  intro i j hij
  have : (i = 0 ∧ (j = 0 ∨ j = 1 ∨ j = 2)) ∨ (i = 1 ∧ (j = 0 ∨ j = 1)) ∨ (i = 2 ∧ j = 0) := by omega
  rcases this with ⟨rfl, rfl | rfl | rfl⟩ | ⟨rfl, rfl | rfl⟩ | ⟨rfl, rfl⟩ <;> norm_num [biasVals]

theorem biasVals_factors : Spec.wFactor 3 biasVals 0 = 2 ∧ Spec.wFactor 3 biasVals 1 = 3 / 2 := by
  constructor <;> norm_num [Spec.wFactor, Finset.sum_range_succ, biasVals]

/-- Fit of the example. -/
theorem biasVals_fit (gm : List (Num ℝ) → Num ℝ) : ∃ (fit : BootFit ℝ) (q b : ℝ),
    bootFit Num.sqrt gm (stairTri 3 biasVals) (stairTri 3 biasVals).a2aind0 = .ok fit ∧ 0 < q ∧ q ≤ 1 ∧
    fit.sampling = [-q, q, q, -q].map Num.fin ∧ 0 < b ∧ fit.scale = .fin b ∧
    ∀ i k, i + k < 3 → fit.fitIncr.cell i k = .fin 10000 := by
  have ht := stairTri_stair 3 biasVals
  obtain ⟨fit, hf, c1, c2, c3, ⟨a, a0, a2, c4⟩, -, c6⟩ := C53_residuals gm ht biasVals_pos (by norm_num)
  obtain ⟨fit', hf', hs⟩ := bootFit_stair Num.sqrt gm ht biasVals_pos (by norm_num)
  obtain rfl : fit' = fit := by
    rw [hf] at hf'
    exact (Except.ok.inj hf').symm
  obtain ⟨w0, w1⟩ := biasVals_factors
  have hcum : ∀ i j, i + j < 3 → Spec.fitCum 3 biasVals i j = 10000 * (j + 1) := by
    intro i j hij
    have : (i = 0 ∧ (j = 0 ∨ j = 1 ∨ j = 2)) ∨ (i = 1 ∧ (j = 0 ∨ j = 1)) ∨ (i = 2 ∧ j = 0) := by omega
    rcases this with ⟨rfl, rfl | rfl | rfl⟩ | ⟨rfl, rfl | rfl⟩ | ⟨rfl, rfl⟩ <;>
      norm_num [biasVals, Spec.fitCum, Finset.prod_Ico_eq_prod_range, Finset.prod_range_succ, w0, w1]
  have hinc : ∀ i j, i + j < 3 → Spec.fitIncr 3 biasVals i j = 10000 := by
    intro i j hij
    unfold Spec.fitIncr Spec.incr
    split
    · rw [hcum i 0 (by omega)]; norm_num
    · next h =>
      obtain ⟨k, rfl⟩ : ∃ k, j = k + 1 := ⟨j - 1, by omega⟩
      rw [Nat.add_sub_cancel, hcum i (k + 1) hij, hcum i k (by omega)]
      push_cast
      ring
  have hne : ∀ i j, i + j < 3 → Spec.fitIncr 3 biasVals i j ≠ 0 := fun i j hij => by rw [hinc i j hij]; norm_num
  have h100 : √|(10000 : ℝ)| = 100 := by
    rw [abs_of_pos (by norm_num), show (10000 : ℝ) = 100 ^ 2 by norm_num]; exact Real.sqrt_sq (by norm_num)
  have hus : ∀ i j, i + j < 3 → fit'.residUs.cell i j = .fin ((Spec.incr biasVals i j - 10000) / 100) := by
    intro i j hij
    rw [c2 i j hij (hne i j hij), hinc i j hij, h100]
  have hadj : ∀ i j, i + j < 3 → fit'.residAdj.cell i j = .fin (a * ((Spec.incr biasVals i j - 10000) / 100)) := by
    intro i j hij
    rw [c4, hus i j hij]; rfl
  have hnr : fit'.residAdj.nr = 3 := by
    rw [hs.adj]; show fit'.residUs.origins.length = 3; rw [hs.us_origins]; rfl
  have hnc : fit'.residAdj.nc = 3 := by
    rw [hs.adj]; show fit'.residUs.devs.length = 3; rw [hs.us_devs]; rfl
  have hdof := dof_pos ht
  have ha1 : a ≤ 1 := by
    have h1 : (stairTri 3 biasVals).nbrCells = 6 := by rw [nbrCells_stair ht]; rfl
    have h2 := C54_stair_partial ht
    have h3 : bootDof (stairTri 3 biasVals) = 7 := by
      norm_num at h2; omega
    rw [h1, h3] at a2
    norm_num at a2
    nlinarith
  have i00 : a * ((Spec.incr biasVals 0 0 - 10000) / 100) = -a := by norm_num [Spec.incr, biasVals]
  have i01 : a * ((Spec.incr biasVals 0 1 - 10000) / 100) = a := by norm_num [Spec.incr, biasVals]
  have i10 : a * ((Spec.incr biasVals 1 0 - 10000) / 100) = a := by norm_num [Spec.incr, biasVals]
  have i11 : a * ((Spec.incr biasVals 1 1 - 10000) / 100) = -a := by norm_num [Spec.incr, biasVals]
  refine ⟨fit', a, _, hf, a0, ha1, ?_, ?_, c6 hne, ?_⟩
  · rw [hs.sampling]
    unfold samplingDist
    rw [hnr, hnc]
    show (List.filter _ [fit'.residAdj.cell 0 0, fit'.residAdj.cell 0 1, fit'.residAdj.cell 1 0,
      fit'.residAdj.cell 1 1]) = _
    rw [hadj 0 0 (by norm_num), hadj 0 1 (by norm_num), hadj 1 0 (by norm_num), hadj 1 1 (by norm_num), i00, i01, i10,
      i11]
    rw [List.filter_eq_self.2]
    · rfl
    · intro x hx
      simp only [List.mem_cons, List.not_mem_nil, or_false] at hx
      rcases hx with rfl | rfl | rfl | rfl <;> simp [Num.zero_def, a0.ne']
  · refine div_pos ?_ hdof
    refine Finset.sum_pos' (fun j _ => Finset.sum_nonneg (fun i _ => sq_nonneg _)) ⟨0, by simp, ?_⟩
    refine Finset.sum_pos' (fun i _ => sq_nonneg _) ⟨0, by simp, ?_⟩
    rw [hinc 0 0 (by norm_num), h100]
    norm_num [Spec.incr, biasVals]
  · intro i k hk
    rw [c1 i k hk, hinc i k hk]

theorem biasVals_grow : ∀ j, j + 1 < 3 → ∑ i ∈ Finset.range (3 - 1 - j), biasVals i j ≤
    ∑ i ∈ Finset.range (3 - 1 - j), biasVals i (j + 1) := by
  intro j hj
  have : j = 0 ∨ j = 1 := by omega
  rcases this with rfl | rfl <;> norm_num [biasVals, Finset.sum_range_succ]

/-- The bootstrap of the example overstates the reserve of 10000 of the second oldest origin. -/
example : ∃ (Ω : Type) (_ : MeasurableSpace Ω) (P : Measure Ω) (fit : BootFit ℝ) (draw : Ω → ℕ → Num ℝ)
    (gam : Ω → ℕ → Num ℝ → Num ℝ → Num ℝ) (R : Ω → ℝ),
    bootFit Num.sqrt (fun _ => .nan) (stairTri 3 biasVals) (stairTri 3 biasVals).a2aind0 = .ok fit ∧
    (∀ ω, ∃ q ∈ (bootSims Num.sqrt (stairTri 3 biasVals) fit.fitIncr fit.scale 10 (draw ω) (gam ω)).reserves,
      q.sim = 7 ∧ q.origin = 2002 ∧ q.reserve = .fin (R ω)) ∧ Integrable R P ∧ 10000 < ∫ ω, R ω ∂P := by
  obtain ⟨fit, q, b, hf, hq, hq1, hxs, hb, hsc, hcell⟩ := biasVals_fit (fun _ => .nan)
  obtain ⟨Ω, E, _, _, μ, _, seed, Z, G, hs, hZ, hG⟩ := exists_bootDraws false (xs := [-q, q, q, -q]) (by simp) (by simp)
  obtain ⟨R, h1, h2, h3⟩ := C198_bias (s := 7) (S := 10) _ (stairTri_stair 3 biasVals) biasVals_pos (by norm_num)
    rfl hf biasVals_grow (by norm_num [biasVals]) hxs (by simp) (by simp) (by
      intro k hk x hx z hz
      rw [hcell 0 k (by omega)] at hx
      obtain rfl := Num.fin.inj hx
      have h100 : √(10000 : ℝ) = 100 := by
        rw [show (10000 : ℝ) = 100 ^ 2 by norm_num]; exact Real.sqrt_sq (by norm_num)
      rw [h100]
      simp only [List.mem_cons, List.not_mem_nil, or_false] at hz
      rcases hz with rfl | rfl | rfl | rfl <;> linarith) hb hsc hs hZ (hG b hb) (by norm_num)
  refine ⟨Ω, _, μ, fit, _, _, R, hf, h1, h2, ?_⟩
  have : biasVals 1 (3 - 2) * (biasVals 0 (3 - 1) / biasVals 0 (3 - 2)) - biasVals 1 (3 - 2) = 10000 := by
    norm_num [biasVals]
  rw [this] at h3
  exact h3

/-- With normal residuals the same reserve has no mean. -/
example : ∃ (Ω : Type) (_ : MeasurableSpace Ω) (P : Measure Ω) (fit : BootFit ℝ) (draw : Ω → ℕ → Num ℝ)
    (gam : Ω → ℕ → Num ℝ → Num ℝ → Num ℝ) (R : Ω → ℝ),
    bootFit Num.sqrt (fun _ => .nan) (stairTri 3 biasVals) (stairTri 3 biasVals).a2aind0 = .ok fit ∧
    (∀ ω, ∃ q ∈ (bootSims Num.sqrt (stairTri 3 biasVals) fit.fitIncr fit.scale 10 (draw ω) (gam ω)).reserves,
      q.sim = 7 ∧ q.origin = 2002 ∧ q.reserve = .fin (R ω)) ∧ ¬ Integrable R P := by
  obtain ⟨fit, q, b, hf, hq, hq1, hxs, hb, hsc, hcell⟩ := biasVals_fit (fun _ => .nan)
  obtain ⟨Ω, E, _, _, μ, _, seed, Z, G, hs, hZ, hG⟩ := exists_bootDraws true (xs := [-q, q, q, -q]) (by simp) (by simp)
  obtain ⟨R, h1, h2⟩ := C199_fit (s := 7) (S := 10) _ (stairTri_stair 3 biasVals) biasVals_pos (by norm_num)
    rfl hf biasVals_grow (by norm_num [biasVals]) hxs (z := -q) (z' := q) (by simp) (by simp) (by linarith) hb hsc hs hZ
    (hG b hb) (by norm_num)
  exact ⟨Ω, _, μ, fit, _, _, R, hf, h1, h2⟩

end Trikit
