import Verif.Props.BootBias
import Mathlib.Probability.BorelCantelli

/-!
# Averages of variates without a mean

The average and the standard deviation of independent draws of a law without a mean do not stay bounded.
-/

set_option linter.unusedSectionVars false

namespace Trikit

open MeasureTheory ProbabilityTheory Filter Topology

section
variable {Ω E : Type} [MeasurableSpace Ω] [MeasurableSpace E] {μ : Measure Ω} {seed : ℕ → Ω → E}

/-- Events of different draws are independent. -/
theorem indep_sets (h : Spec.Seeds μ seed) {T : ℕ → Finset ℕ} (hT : Pairwise (Function.onFun Disjoint T))
    {B : ℕ → Set (ℕ → E)} (hB : ∀ s, MeasurableSet (B s))
    (lB : ∀ s e e', (∀ p ∈ T s, e p = e' p) → (e ∈ B s ↔ e' ∈ B s)) :
    iIndepSet (fun s => {ω | (fun p => seed p ω) ∈ B s}) μ := by
  have hP : IsProbabilityMeasure μ := h.indep.isProbabilityMeasure
  have hm : Measurable (fun ω p => seed p ω) := measurable_pi_lambda _ h.meas
  classical
  have hms : ∀ s, MeasurableSet {ω | (fun p => seed p ω) ∈ B s} := fun s => hm (hB s)
  rw [iIndepSet_iff_meas_biInter hms]
  intro S
  induction S using Finset.induction_on with
  | empty => simp
  | insert s S hs ih =>
    rw [Finset.set_biInter_insert, Finset.prod_insert hs, ← ih]
    have hI : MeasurableSet (⋂ x ∈ S, B x) := Finset.measurableSet_biInter _ (fun x _ => hB x)
    have ind := indep_local h (T := T s) (U := S.biUnion T) (by
        rw [Finset.disjoint_biUnion_right]
        intro x hx
        exact hT (fun e => hs (e ▸ hx)))
      (F := (B s).indicator (fun _ => (1 : ℝ))) (H := (⋂ x ∈ S, B x).indicator (fun _ => (1 : ℝ)))
      (measurable_const.indicator (hB s)) (measurable_const.indicator hI)
      (fun e e' he => by
        have := lB s e e' he
        by_cases h1 : e ∈ B s
        · rw [Set.indicator_of_mem h1, Set.indicator_of_mem (this.1 h1)]
        · rw [Set.indicator_of_notMem h1, Set.indicator_of_notMem (fun h => h1 (this.2 h))])
      (fun e e' he => by
        have : e ∈ ⋂ x ∈ S, B x ↔ e' ∈ ⋂ x ∈ S, B x := by
          simp only [Set.mem_iInter]
          refine forall₂_congr (fun x hx => lB x e e' (fun p hp => he p ?_))
          exact Finset.mem_biUnion.2 ⟨x, hx, hp⟩
        by_cases h1 : e ∈ ⋂ x ∈ S, B x
        · rw [Set.indicator_of_mem h1, Set.indicator_of_mem (this.1 h1)]
        · rw [Set.indicator_of_notMem h1, Set.indicator_of_notMem (fun h => h1 (this.2 h))])
    have key := ind.measure_inter_preimage_eq_mul {1} {1} (measurableSet_singleton _) (measurableSet_singleton _)
    have e1 : (fun ω => (B s).indicator (fun _ => (1 : ℝ)) (fun p => seed p ω)) ⁻¹' {1} =
        {ω | (fun p => seed p ω) ∈ B s} := by
      ext ω
      by_cases h1 : (fun p => seed p ω) ∈ B s <;> simp [h1]
    have e2 : (fun ω => (⋂ x ∈ S, B x).indicator (fun _ => (1 : ℝ)) (fun p => seed p ω)) ⁻¹' {1} =
        ⋂ x ∈ S, {ω | (fun p => seed p ω) ∈ B x} := by
      ext ω
      rw [show (⋂ x ∈ S, {ω | (fun p => seed p ω) ∈ B x}) = {ω | (fun p => seed p ω) ∈ ⋂ x ∈ S, B x} by
        ext ω; simp]
      by_cases h1 : (fun p => seed p ω) ∈ ⋂ x ∈ S, B x
      · simp only [Set.mem_preimage, Set.indicator_of_mem h1, Set.mem_singleton_iff, Set.mem_ofPred_eq, h1]
      · simp only [Set.mem_preimage, Set.indicator_of_notMem h1, Set.mem_singleton_iff, Set.mem_ofPred_eq, h1]
        norm_num
    rw [e1, e2] at key
    exact key

/-- A variate without a mean exceeds the multiples of any number too often for a finite sum of probabilities. -/
theorem tail_sum {X : Ω → ℝ} (hX : Measurable X) (hn : ¬ Integrable X μ) {κ : ℝ} (hκ : 0 < κ) :
    ∑' s : ℕ, μ {ω | κ * s < |X ω|} = ⊤ := by
  by_contra hne
  apply hn
  refine ⟨hX.aestronglyMeasurable, ?_⟩
  have hle : ∀ ω, ‖X ω‖ₑ ≤ ENNReal.ofReal κ * ∑' s : ℕ, ({ω | κ * s < |X ω|}.indicator 1 ω : ENNReal) := by
    intro ω
    have hf : ∑ s ∈ Finset.range ⌈|X ω| / κ⌉₊, ({ω | κ * s < |X ω|}.indicator 1 ω : ENNReal) = (⌈|X ω| / κ⌉₊ : ENNReal) := by
      rw [Finset.sum_congr rfl (g := fun _ => 1)]
      · simp
      · intro s hs
        rw [Finset.mem_range, Nat.lt_ceil, lt_div_iff₀ hκ] at hs
        rw [Set.indicator_of_mem]
        · rfl
        · rw [Set.mem_ofPred_eq, mul_comm]; exact hs
    calc ‖X ω‖ₑ = ENNReal.ofReal |X ω| := by rw [← Real.enorm_abs, Real.enorm_of_nonneg (abs_nonneg _)]
      _ ≤ ENNReal.ofReal (κ * (⌈|X ω| / κ⌉₊ : ℝ)) := by
          refine ENNReal.ofReal_le_ofReal ?_
          have := Nat.le_ceil (|X ω| / κ)
          rw [div_le_iff₀ hκ] at this
          linarith
      _ = ENNReal.ofReal κ * (⌈|X ω| / κ⌉₊ : ENNReal) := by
          rw [ENNReal.ofReal_mul hκ.le, ENNReal.ofReal_natCast]
      _ ≤ _ := by
          rw [← hf]
          gcongr
          exact ENNReal.sum_le_tsum _
  have hms : ∀ s : ℕ, MeasurableSet {ω | κ * s < |X ω|} := fun s => measurableSet_lt measurable_const hX.abs
  refine (lintegral_mono hle).trans_lt ?_
  rw [lintegral_const_mul' _ _ ENNReal.ofReal_ne_top, lintegral_tsum (fun s => (measurable_one.indicator (hms s)).aemeasurable)]
  simp only [lintegral_indicator_one (hms _)]
  exact ENNReal.mul_lt_top ENNReal.ofReal_lt_top (lt_top_iff_ne_top.2 hne)

variable {X : ℕ → Ω → ℝ}

/-- Draws of a law without a mean: almost surely, for every bound, one of the later draws exceeds the multiple of its
number. -/
theorem draws_large [IsProbabilityMeasure μ] (hm : ∀ s, Measurable (X s)) (hl : ∀ s, IdentDistrib (X s) (X 0) μ μ)
    (hi : ∀ κ : ℝ, iIndepSet (fun s : ℕ => {ω | κ * s < |X s ω|}) μ) (hn : ¬ Integrable (X 0) μ) :
    ∀ᵐ ω ∂μ, ∀ κ : ℝ, ∀ s0 : ℕ, ∃ s ≥ s0, κ * s < |X s ω| := by
  have h1 : ∀ k : ℕ, ∀ᵐ ω ∂μ, ∀ s0 : ℕ, ∃ s ≥ s0, ((k : ℝ) + 1) * s < |X s ω| := by
    intro k
    have hms : ∀ s : ℕ, MeasurableSet {ω | ((k : ℝ) + 1) * s < |X s ω|} := fun s =>
      measurableSet_lt measurable_const (hm s).abs
    have hsum : ∑' s : ℕ, μ {ω | ((k : ℝ) + 1) * s < |X s ω|} = ⊤ := by
      rw [← tail_sum (hm 0) hn (κ := (k : ℝ) + 1) (by positivity)]
      refine tsum_congr (fun s => ?_)
      exact (hl s).measure_mem_eq (s := {x : ℝ | ((k : ℝ) + 1) * s < |x|})
        (measurableSet_lt measurable_const measurable_id.abs)
    have := measure_limsup_eq_one hms (hi _) hsum
    have hae : ∀ᵐ ω ∂μ, ω ∈ limsup (fun s : ℕ => {ω | ((k : ℝ) + 1) * s < |X s ω|}) atTop := by
      rw [← prob_compl_eq_zero_iff (MeasurableSet.measurableSet_limsup hms)] at this
      exact this
    filter_upwards [hae] with ω hω s0
    rw [mem_limsup_iff_frequently_mem, frequently_atTop] at hω
    exact hω s0
  filter_upwards [ae_all_iff.2 h1] with ω hω κ s0
  obtain ⟨k, hk⟩ := exists_nat_ge κ
  obtain ⟨s, hs, hlt⟩ := hω k s0
  refine ⟨s, hs, lt_of_le_of_lt ?_ hlt⟩
  exact mul_le_mul_of_nonneg_right (by linarith) (Nat.cast_nonneg _)

/-- Averages of such draws are not bounded. -/
theorem averages_large {y : ℕ → ℝ} (h : ∀ κ : ℝ, ∀ s0 : ℕ, ∃ s ≥ s0, κ * s < |y s|) (B : ℝ) (S0 : ℕ) :
    ∃ S ≥ S0, B < |(∑ s ∈ Finset.range S, y s) / S| := by
  by_contra hb
  push Not at hb
  obtain ⟨s, hs, hlt⟩ := h (3 * B) (max S0 1)
  have hs1 : (1 : ℝ) ≤ s := by exact_mod_cast (le_trans (le_max_right _ _) hs)
  have b1 := hb s (le_trans (le_max_left _ _) hs)
  have b2 := hb (s + 1) (le_trans (le_trans (le_max_left _ _) hs) (Nat.le_succ s))
  rw [abs_div, Nat.abs_cast, div_le_iff₀ (by linarith)] at b1
  rw [abs_div, Nat.abs_cast, div_le_iff₀ (by push_cast; linarith), Finset.sum_range_succ] at b2
  push_cast at b2
  have b3 := abs_sub (∑ k ∈ Finset.range s, y k + y s) (∑ k ∈ Finset.range s, y k)
  rw [add_sub_cancel_left] at b3
  have hB : 0 ≤ B := by
    by_contra hB
    push Not at hB
    nlinarith [abs_nonneg (∑ k ∈ Finset.range s, y k)]
  nlinarith

/-- Neither are their standard deviations. -/
theorem deviations_large {y : ℕ → ℝ} (h : ∀ κ : ℝ, ∀ s0 : ℕ, ∃ s ≥ s0, κ * s < |y s|) (B : ℝ) (S0 : ℕ) :
    ∃ S ≥ S0, B < √(Spec.sampleVar S y) := by
  by_contra hb
  push Not at hb
  obtain ⟨s, hs, hlt⟩ := h (|y 0| + 2 * B ^ 2 + 3) (max S0 1)
  have hs1 : (1 : ℝ) ≤ s := by exact_mod_cast (le_trans (le_max_right _ _) hs)
  have b2 := hb (s + 1) (le_trans (le_trans (le_max_left _ _) hs) (Nat.le_succ s))
  have hv : Spec.sampleVar (s + 1) y ≤ B ^ 2 := by
    have hB : 0 ≤ B := (Real.sqrt_nonneg _).trans b2
    exact (Real.sqrt_le_left hB).1 b2
  unfold Spec.sampleVar at hv
  generalize Spec.meanOf (s + 1) y = M at hv
  rw [div_le_iff₀ (by push_cast; linarith)] at hv
  push_cast at hv
  have h1 : (y s - M) ^ 2 + (y 0 - M) ^ 2 ≤ ∑ k ∈ Finset.range (s + 1), (y k - M) ^ 2 := by
    have hne : s ≠ 0 := by rintro rfl; norm_num at hs1
    rw [← Finset.sum_pair (f := fun k => (y k - M) ^ 2) hne]
    refine Finset.sum_le_sum_of_subset_of_nonneg ?_ (fun k _ _ => sq_nonneg _)
    intro k hk
    rw [Finset.mem_insert, Finset.mem_singleton] at hk
    rw [Finset.mem_range]
    omega
  have h2 : (y s - y 0) ^ 2 ≤ 2 * (B ^ 2 * s) := by nlinarith [sq_nonneg (y s - M + (y 0 - M))]
  have h3 : |y s - y 0| ≤ B ^ 2 + s := by
    refine abs_le_of_sq_le_sq (by nlinarith [sq_nonneg (B ^ 2 - (s : ℝ)), sq_nonneg (B ^ 2), sq_nonneg (s : ℝ)]) (by positivity)
  have h4 : |y s| ≤ |y s - y 0| + |y 0| := by
    have := abs_add_le (y s - y 0) (y 0)
    rwa [sub_add_cancel] at this
  nlinarith [abs_nonneg (y 0), sq_nonneg B]

end

end Trikit
