import Verif.Props.BootTable
import Verif.Props.Quantile
import Mathlib.Probability.StrongLaw
import Mathlib.Probability.Independence.InfinitePi

/-! # Long runs of independent simulations -/

set_option linter.unusedSectionVars false

namespace Trikit

open MeasureTheory ProbabilityTheory Filter Topology

/-! ## Blocks of independent draws -/

section
variable {Ω E : Type} [MeasurableSpace Ω] [MeasurableSpace E] {μ : Measure Ω} [IsProbabilityMeasure μ]

/-- Independent draws with the same law. -/
structure Spec.Seeds (μ : Measure Ω) (seed : ℕ → Ω → E) : Prop where
  meas : ∀ p, Measurable (seed p)
  indep : iIndepFun seed μ
  law : ∀ p, μ.map (seed p) = μ.map (seed 0)

theorem Spec.Seeds.blockIndep {seed : ℕ → Ω → E} (h : Spec.Seeds μ seed) {F : (ℕ → E) → ℝ} (hF : Measurable F) {N : ℕ}
    (hN : 0 < N) (hc : ∀ e e' : ℕ → E, (∀ p < N, e p = e' p) → F e = F e') :
    Pairwise (Function.onFun (fun f g => IndepFun f g μ) (fun s ω => F (fun p => seed (s * N + p) ω))) := by
  intro s s' hs
  have hmem : ∀ s p, s * N + p % N ∈ Finset.Ico (s * N) ((s + 1) * N) := by
    intro s p
    have := Nat.mod_lt p hN
    rw [Finset.mem_Ico, Nat.succ_mul]
    omega
  have hdis : Disjoint (Finset.Ico (s * N) ((s + 1) * N)) (Finset.Ico (s' * N) ((s' + 1) * N)) := by
    rw [Finset.disjoint_left]
    intro p hp hp'
    rw [Finset.mem_Ico] at hp hp'
    apply hs
    have e : ∀ k, k * N ≤ p → p < (k + 1) * N → p / N = k := by
      intro k h1 h2
      rw [Nat.div_eq_iff hN]
      rw [Nat.succ_mul] at h2
      omega
    rw [← e s hp.1 hp.2, ← e s' hp'.1 hp'.2]
  have hi := h.indep.indepFun_finset _ _ hdis h.meas
  have hm : ∀ s, Measurable (fun y : Finset.Ico (s * N) ((s + 1) * N) → E =>
      F (fun p => y ⟨s * N + p % N, hmem s p⟩)) :=
    fun s => hF.comp (measurable_pi_lambda _ (fun p => measurable_pi_apply _))
  have := hi.comp (hm s) (hm s')
  have e : ∀ s, (fun ω => F (fun p => seed (s * N + p) ω)) =
      (fun y : Finset.Ico (s * N) ((s + 1) * N) → E => F (fun p => y ⟨s * N + p % N, hmem s p⟩)) ∘
        (fun ω i => seed i ω) := by
    intro s
    funext ω
    apply hc
    intro p hp
    show seed (s * N + p) ω = seed (s * N + p % N) ω
    rw [Nat.mod_eq_of_lt hp]
  show IndepFun _ _ μ
  simp only
  rw [e s, e s']
  exact this

theorem Spec.Seeds.blockLaw {seed : ℕ → Ω → E} (h : Spec.Seeds μ seed) {F : (ℕ → E) → ℝ} (hF : Measurable F) (N s : ℕ) :
    IdentDistrib (fun ω => F (fun p => seed (s * N + p) ω)) (fun ω => F (fun p => seed (0 * N + p) ω)) μ μ := by
  have key : ∀ a, IdentDistrib (fun ω p => seed (a + p) ω) (fun ω p => seed p ω) μ μ := by
    intro a
    refine ⟨(measurable_pi_lambda _ (fun p => h.meas _)).aemeasurable,
      (measurable_pi_lambda _ (fun p => h.meas _)).aemeasurable, ?_⟩
    have h1 : iIndepFun (fun p => seed (a + p)) μ := h.indep.precomp (fun p q hpq => by simpa using hpq)
    rw [(iIndepFun_iff_map_fun_eq_infinitePi_map (fun p => h.meas _)).1 h1,
      (iIndepFun_iff_map_fun_eq_infinitePi_map (fun p => h.meas _)).1 h.indep]
    congr 1
    funext p
    rw [h.law, h.law p]
  exact ((key (s * N)).comp hF).trans ((key (0 * N)).comp hF).symm

/-! ## Averages, standard deviations and frequencies -/

variable {X : ℕ → Ω → ℝ}

theorem lim_mean (hi : Pairwise (Function.onFun (fun f g => IndepFun f g μ) X)) (hl : ∀ s, IdentDistrib (X s) (X 0) μ μ)
    (h : Integrable (X 0) μ) :
    ∀ᵐ ω ∂μ, Tendsto (fun S : ℕ => (∑ s ∈ Finset.range S, X s ω) / S) atTop (𝓝 (∫ ω, X 0 ω ∂μ)) :=
  strong_law_ae_real X h hi hl

theorem sampleVar_expand {S : ℕ} (hS : 2 ≤ S) (y : ℕ → ℝ) :
    Spec.sampleVar S y = ((S : ℝ) / ((S : ℝ) - 1)) *
      ((∑ s ∈ Finset.range S, y s ^ 2) / S - ((∑ s ∈ Finset.range S, y s) / S) ^ 2) := by
  have h2 : (2 : ℝ) ≤ S := by exact_mod_cast hS
  have h0 : (S : ℝ) ≠ 0 := by linarith
  have h1 : (S : ℝ) - 1 ≠ 0 := by linarith
  unfold Spec.sampleVar Spec.meanOf
  have e : ∀ m : ℝ, ∑ s ∈ Finset.range S, (y s - m) ^ 2 =
      ∑ s ∈ Finset.range S, y s ^ 2 - 2 * m * ∑ s ∈ Finset.range S, y s + S * m ^ 2 := by
    intro m
    rw [Finset.mul_sum, ← Finset.sum_sub_distrib]
    have : (S : ℝ) * m ^ 2 = ∑ s ∈ Finset.range S, m ^ 2 := by simp
    rw [this, ← Finset.sum_add_distrib]
    exact Finset.sum_congr rfl (fun s _ => by ring)
  rw [e]
  field_simp
  ring

theorem lim_ratio : Tendsto (fun S : ℕ => (S : ℝ) / ((S : ℝ) - 1)) atTop (𝓝 1) := by
  have h : Tendsto (fun S : ℕ => 1 + 1 / ((S : ℝ) - 1)) atTop (𝓝 (1 + 0)) := by
    apply Tendsto.const_add
    apply Tendsto.div_atTop tendsto_const_nhds
    exact tendsto_atTop_add_const_right _ _ tendsto_natCast_atTop_atTop
  rw [add_zero] at h
  refine h.congr' ?_
  filter_upwards [eventually_ge_atTop 2] with S hS
  have h2 : (2 : ℝ) ≤ S := by exact_mod_cast hS
  have h1 : (S : ℝ) - 1 ≠ 0 := by linarith
  field_simp
  ring

theorem lim_sd (hi : Pairwise (Function.onFun (fun f g => IndepFun f g μ) X)) (hl : ∀ s, IdentDistrib (X s) (X 0) μ μ)
    (h : MemLp (X 0) 2 μ) :
    ∀ᵐ ω ∂μ, Tendsto (fun S : ℕ => Real.sqrt (Spec.sampleVar S (fun s => X s ω))) atTop
      (𝓝 (Real.sqrt (variance (X 0) μ))) := by
  have h1 := lim_mean hi hl (h.integrable one_le_two)
  have h2 := lim_mean (X := fun s ω => X s ω ^ 2) (fun s s' hs => (hi hs).comp (measurable_id.pow_const 2)
    (measurable_id.pow_const 2)) (fun s => (hl s).comp (measurable_id.pow_const 2)) h.integrable_sq
  filter_upwards [h1, h2] with ω e1 e2
  have e3 := lim_ratio.mul (e2.sub (e1.pow 2))
  rw [one_mul] at e3
  have hv : variance (X 0) μ = ∫ ω, X 0 ω ^ 2 ∂μ - (∫ ω, X 0 ω ∂μ) ^ 2 := by
    rw [variance_eq_sub h]
    rfl
  rw [hv]
  apply Tendsto.sqrt
  refine e3.congr' ?_
  filter_upwards [eventually_ge_atTop 2] with S hS
  rw [sampleVar_expand hS]

/-- Share of the first `S` values that are at most `x`. -/
noncomputable def Spec.shareBelow (y : ℕ → ℝ) (x : ℝ) (S : ℕ) : ℝ :=
  (((Finset.range S).filter (fun s => y s ≤ x)).card : ℝ) / S

theorem lim_share (hi : Pairwise (Function.onFun (fun f g => IndepFun f g μ) X)) (hl : ∀ s, IdentDistrib (X s) (X 0) μ μ)
    (x : ℝ) : ∀ᵐ ω ∂μ, Tendsto (Spec.shareBelow (fun s => X s ω) x) atTop (𝓝 (μ.real {ω | X 0 ω ≤ x})) := by
  have hm : Measurable (fun y : ℝ => if y ≤ x then (1 : ℝ) else 0) :=
    Measurable.ite measurableSet_Iic measurable_const measurable_const
  have h0 : AEMeasurable (X 0) μ := (hl 0).aemeasurable_fst
  have hint : Integrable (fun ω => if X 0 ω ≤ x then (1 : ℝ) else 0) μ := by
    refine Integrable.of_bound (hm.comp_aemeasurable h0).aestronglyMeasurable 1 (ae_of_all _ fun ω => ?_)
    split <;> simp
  have h1 := lim_mean (X := fun s ω => if X s ω ≤ x then (1 : ℝ) else 0) (fun s s' hs => (hi hs).comp hm hm)
    (fun s => (hl s).comp hm) hint
  have e : ∫ ω, (if X 0 ω ≤ x then (1 : ℝ) else 0) ∂μ = μ.real {ω | X 0 ω ≤ x} := by
    have hs : NullMeasurableSet {ω | X 0 ω ≤ x} μ := h0.nullMeasurableSet_preimage measurableSet_Iic
    have : (fun ω => if X 0 ω ≤ x then (1 : ℝ) else 0) = Set.indicator {ω | X 0 ω ≤ x} 1 := by
      funext ω
      simp [Set.indicator_apply]
    rw [this, integral_indicator₀ hs]
    simp
  rw [e] at h1
  filter_upwards [h1] with ω hω
  refine hω.congr (fun S => ?_)
  unfold Spec.shareBelow
  rw [Finset.sum_boole]

end

/-! ## Quantiles -/

theorem sorted_countP {l : List ℝ} (h : l.Pairwise (· ≤ ·)) (x : ℝ) {i : ℕ} (hi : i < l.length) :
    l.getD i 0 ≤ x ↔ i < l.countP (fun y => decide (y ≤ x)) := by
  induction l generalizing i with
  | nil => simp at hi
  | cons a l ih =>
    rw [List.pairwise_cons] at h
    have hz : ¬ a ≤ x → l.countP (fun y => decide (y ≤ x)) = 0 := by
      intro ha
      rw [List.countP_eq_zero]
      intro y hy
      have := h.1 y hy
      simp only [decide_eq_true_eq, not_le]
      linarith [not_le.1 ha]
    cases i with
    | zero =>
      by_cases ha : a ≤ x
      · simp [ha]
      · simp [ha, hz ha]
    | succ i =>
      have hi' : i < l.length := by simpa using hi
      have := ih h.2 hi'
      rw [List.getD_cons_succ, this]
      by_cases ha : a ≤ x
      · simp [ha]
      · simp [ha, hz ha]

theorem countP_range (y : ℕ → ℝ) (x : ℝ) (S : ℕ) :
    (((List.range S).map y).insertionSort (· ≤ ·)).countP (fun v => decide (v ≤ x)) =
      ((Finset.range S).filter (fun s => y s ≤ x)).card := by
  rw [(List.perm_insertionSort _ _).countP_eq, List.countP_map]
  induction S with
  | zero => simp
  | succ S ih =>
    rw [List.range_succ, List.countP_append, ih, Finset.range_add_one, Finset.filter_insert]
    by_cases h : y S ≤ x
    · rw [if_pos h, Finset.card_insert_of_notMem (by simp)]
      simp [h]
    · rw [if_neg h]
      simp [h]

theorem pos_bounds (m : Interp) (n : ℕ) (q : ℝ) :
    ((⌊((n : ℝ) - 1) * q⌋ : ℤ) : ℝ) ≤ Spec.pos m n q ∧ Spec.pos m n q ≤ ((⌈((n : ℝ) - 1) * q⌉ : ℤ) : ℝ) := by
  generalize hh : ((n : ℝ) - 1) * q = h
  have h1 := Int.floor_le h
  have h2 := Int.le_ceil h
  have h3 := Int.lt_floor_add_one h
  cases m <;> simp only [Spec.pos, hh]
  · exact ⟨h1, h2⟩
  · exact ⟨le_rfl, by linarith⟩
  · exact ⟨by linarith, le_rfl⟩
  · constructor <;> linarith
  · constructor
    · apply Int.cast_le.2
      unfold roundHalfEven
      split_ifs <;> omega
    · apply Int.cast_le.2
      have hc : 0 < h - (⌊h⌋ : ℝ) → ⌊h⌋ + 1 ≤ ⌈h⌉ := by
        intro hp
        have : ((⌊h⌋ : ℤ) : ℝ) < ((⌈h⌉ : ℤ) : ℝ) := by linarith
        have := Int.cast_lt.1 this
        omega
      have hf : ⌊h⌋ ≤ ⌈h⌉ := Int.floor_le_ceil h
      unfold roundHalfEven
      split_ifs
      all_goals first | exact hf | exact hc (by linarith)

/-- Quantile of the first `S` values, read off the sorted values. -/
noncomputable def Spec.sampleQuantile (m : Interp) (y : ℕ → ℝ) (q : ℝ) (S : ℕ) : ℝ :=
  Spec.interp (fun i => (((List.range S).map y).insertionSort (· ≤ ·)).getD i 0) S (Spec.pos m S q)

theorem percentile_range (m : Interp) (y : ℕ → ℝ) {q : ℝ} (h0 : 0 ≤ q) (h1 : q ≤ 1) {S : ℕ} (hS : 0 < S) :
    percentile m ((List.range S).map (fun s => Num.fin (y s))) q = .fin (Spec.sampleQuantile m y q S) := by
  have := percentile_eq m (fs := (List.range S).map y) (by
    intro h
    have := congrArg List.length h
    simp at this
    omega) h0 h1
  rw [List.map_map, List.length_map, List.length_range] at this
  exact this

theorem quantile_bounds (m : Interp) (y : ℕ → ℝ) {q : ℝ} (h0 : 0 ≤ q) (h1 : q ≤ 1) {S : ℕ} (hS : 0 < S) (x : ℝ) :
    ((((Finset.range S).filter (fun s => y s ≤ x)).card : ℝ) ≤ ((S : ℝ) - 1) * q - 1 → x < Spec.sampleQuantile m y q S) ∧
    (((S : ℝ) - 1) * q + 1 < (((Finset.range S).filter (fun s => y s ≤ x)).card : ℝ) →
      Spec.sampleQuantile m y q S ≤ x) := by
  have hS1 : (1 : ℝ) ≤ S := by exact_mod_cast hS
  obtain ⟨b1, b2⟩ := pos_bounds m S q
  have hlen : (((List.range S).map y).insertionSort (· ≤ ·)).length = S := by
    rw [List.length_insertionSort, List.length_map, List.length_range]
  have hsort : (((List.range S).map y).insertionSort (· ≤ ·)).Pairwise (· ≤ ·) := List.pairwise_insertionSort _ _
  have hmono : ∀ i j, i ≤ j → j < S → (((List.range S).map y).insertionSort (· ≤ ·)).getD i 0 ≤
      (((List.range S).map y).insertionSort (· ≤ ·)).getD j 0 := by
    intro i j hij hj
    rw [sorted_countP hsort _ (by omega)]
    have := (sorted_countP hsort ((((List.range S).map y).insertionSort (· ≤ ·)).getD j 0) (by omega : j < _)).1 le_rfl
    omega
  have hh0 : 0 ≤ ((S : ℝ) - 1) * q := mul_nonneg (by linarith) h0
  have hh1 : ((S : ℝ) - 1) * q ≤ (S : ℝ) - 1 := by nlinarith
  have hf0 : 0 ≤ ⌊((S : ℝ) - 1) * q⌋ := Int.floor_nonneg.2 hh0
  have hc1 : ⌈((S : ℝ) - 1) * q⌉ ≤ (S : ℤ) - 1 := Int.ceil_le.2 (by push_cast; exact hh1)
  have hfc : ⌊((S : ℝ) - 1) * q⌋ ≤ ⌈((S : ℝ) - 1) * q⌉ := Int.floor_le_ceil _
  have hf0' : (0 : ℝ) ≤ ((⌊((S : ℝ) - 1) * q⌋ : ℤ) : ℝ) := by exact_mod_cast hf0
  have hfl := Int.lt_floor_add_one (((S : ℝ) - 1) * q)
  have hcl := Int.ceil_lt_add_one (((S : ℝ) - 1) * q)
  unfold Spec.sampleQuantile
  constructor
  · intro hk
    have e := interp_mono hmono hf0' b1
    rw [interp_int hf0 (by omega)] at e
    refine lt_of_lt_of_le ?_ e
    rw [← not_le, sorted_countP hsort _ (by omega), countP_range, not_lt]
    have : ((((Finset.range S).filter (fun s => y s ≤ x)).card : ℤ) : ℝ) ≤ ((⌊((S : ℝ) - 1) * q⌋ : ℤ) : ℝ) := by
      push_cast
      linarith
    have := Int.cast_le.1 this
    omega
  · intro hk
    have e := interp_mono hmono (le_trans hf0' b1) b2
    rw [interp_int (by omega) hc1] at e
    refine le_trans e ?_
    rw [sorted_countP hsort _ (by omega), countP_range]
    have : ((⌈((S : ℝ) - 1) * q⌉ : ℤ) : ℝ) < ((((Finset.range S).filter (fun s => y s ≤ x)).card : ℤ) : ℝ) := by
      push_cast
      linarith
    have := Int.cast_lt.1 this
    omega

theorem lim_quantile_gt (m : Interp) {y : ℕ → ℝ} {q x F : ℝ} (h0 : 0 ≤ q) (h1 : q ≤ 1)
    (h : Tendsto (Spec.shareBelow y x) atTop (𝓝 F)) (hF : F < q) : ∀ᶠ S in atTop, x < Spec.sampleQuantile m y q S := by
  have hmid : F < (F + q) / 2 := by linarith
  obtain ⟨N, hN⟩ := exists_nat_gt ((q + 1) / (q - (F + q) / 2))
  filter_upwards [h.eventually_lt_const hmid, eventually_ge_atTop (N + 1)] with S h2 hS
  have hS0 : (0 : ℝ) < S := by
    have : 0 < S := by omega
    exact_mod_cast this
  apply (quantile_bounds m y h0 h1 (by omega) x).1
  unfold Spec.shareBelow at h2
  rw [div_lt_iff₀ hS0] at h2
  have hNS : (N : ℝ) ≤ S := by exact_mod_cast (by omega : N ≤ S)
  have h3 : q + 1 < S * (q - (F + q) / 2) := by
    rw [div_lt_iff₀ (by linarith)] at hN
    nlinarith
  nlinarith

theorem lim_quantile_le (m : Interp) {y : ℕ → ℝ} {q x F : ℝ} (h0 : 0 ≤ q) (h1 : q ≤ 1)
    (h : Tendsto (Spec.shareBelow y x) atTop (𝓝 F)) (hF : q < F) : ∀ᶠ S in atTop, Spec.sampleQuantile m y q S ≤ x := by
  have hmid : (F + q) / 2 < F := by linarith
  obtain ⟨N, hN⟩ := exists_nat_gt (1 / ((F + q) / 2 - q))
  filter_upwards [h.eventually_const_lt hmid, eventually_ge_atTop (N + 1)] with S h2 hS
  have hS0 : (0 : ℝ) < S := by
    have : 0 < S := by omega
    exact_mod_cast this
  apply (quantile_bounds m y h0 h1 (by omega) x).2
  unfold Spec.shareBelow at h2
  rw [lt_div_iff₀ hS0] at h2
  have hNS : (N : ℝ) ≤ S := by exact_mod_cast (by omega : N ≤ S)
  have h3 : 1 < S * ((F + q) / 2 - q) := by
    rw [div_lt_iff₀ (by linarith)] at hN
    nlinarith
  nlinarith

/-- `x` is the only quantile of level `q` of the law of `Y`. -/
def Spec.IsQuantile {Ω : Type} [MeasurableSpace Ω] (μ : Measure Ω) (Y : Ω → ℝ) (q x : ℝ) : Prop :=
  (∀ z < x, μ.real {ω | Y ω ≤ z} < q) ∧ ∀ z > x, q < μ.real {ω | Y ω ≤ z}

theorem lim_quantile {Ω : Type} [MeasurableSpace Ω] {μ : Measure Ω} [IsProbabilityMeasure μ] {X : ℕ → Ω → ℝ}
    (hi : Pairwise (Function.onFun (fun f g => IndepFun f g μ) X)) (hl : ∀ s, IdentDistrib (X s) (X 0) μ μ) {q x : ℝ}
    (h0 : 0 ≤ q) (h1 : q ≤ 1) (h : Spec.IsQuantile μ (X 0) q x) (m : Interp) :
    ∀ᵐ ω ∂μ, Tendsto (Spec.sampleQuantile m (fun s => X s ω) q) atTop (𝓝 x) := by
  have e : ∀ᵐ ω ∂μ, ∀ k : ℕ, Tendsto (Spec.shareBelow (fun s => X s ω) (x - 1 / (k + 1))) atTop
      (𝓝 (μ.real {ω | X 0 ω ≤ x - 1 / (k + 1)})) ∧ Tendsto (Spec.shareBelow (fun s => X s ω) (x + 1 / (k + 1))) atTop
      (𝓝 (μ.real {ω | X 0 ω ≤ x + 1 / (k + 1)})) := by
    rw [ae_all_iff]
    intro k
    filter_upwards [lim_share hi hl (x - 1 / (k + 1)), lim_share hi hl (x + 1 / (k + 1))] with ω a b
    exact ⟨a, b⟩
  filter_upwards [e] with ω hω
  rw [Metric.tendsto_atTop']
  intro ε hε
  obtain ⟨k, hk⟩ := exists_nat_one_div_lt hε
  have hpos : (0 : ℝ) < 1 / (k + 1) := by positivity
  have a := lim_quantile_gt m h0 h1 (hω k).1 (h.1 _ (by linarith))
  have b := lim_quantile_le m h0 h1 (hω k).2 (h.2 _ (by linarith))
  obtain ⟨N, hN⟩ := eventually_atTop.1 (a.and b)
  refine ⟨N, fun S hS => ?_⟩
  obtain ⟨c1, c2⟩ := hN S hS.le
  rw [Real.dist_eq, abs_lt]
  constructor <;> linarith

end Trikit
