import Verif.MackPath

/-! # Independent factors and the errors they cause -/

set_option linter.unusedSectionVars false

open MeasureTheory ProbabilityTheory Filter

namespace Trikit

theorem condExp_comp_preserving {Ω Ω' : Type} {m m0 : MeasurableSpace Ω} {m' : MeasurableSpace Ω'} {P : Measure Ω}
    {P' : Measure Ω'} [IsProbabilityMeasure P] [IsProbabilityMeasure P'] {pr : Ω' → Ω}
    (hpr : MeasurePreserving pr P' P) (hm : m ≤ m0) {X : Ω → ℝ}
    (hX : Integrable X P) : P'[X ∘ pr | m.comap pr] =ᵐ[P'] (P[X | m]) ∘ pr := by
  have hle : m.comap pr ≤ m' := (MeasurableSpace.comap_mono hm).trans hpr.measurable.comap_le
  symm
  refine ae_eq_condExp_of_forall_setIntegral_eq hle (hpr.integrable_comp_of_integrable hX)
    (fun s _ _ => (hpr.integrable_comp_of_integrable integrable_condExp).integrableOn) ?_ ?_
  · rintro _ ⟨s, hs, rfl⟩ -
    have hs' : MeasurableSet s := hm s hs
    have key : ∀ Y : Ω → ℝ, Integrable Y P → ∫ ω in pr ⁻¹' s, (Y ∘ pr) ω ∂P' = ∫ ω in s, Y ω ∂P := fun Y hY => by
      rw [← hpr.map_eq, setIntegral_map hs' (by rw [hpr.map_eq]; exact hY.aestronglyMeasurable)
        hpr.measurable.aemeasurable]
      rfl
    rw [key _ integrable_condExp, key _ hX, setIntegral_condExp hm hX hs]
  · exact (stronglyMeasurable_condExp.comp_measurable (comap_measurable pr)).aestronglyMeasurable

section
variable {Ω : Type} {m0 : MeasurableSpace Ω} {P : Measure Ω} [IsProbabilityMeasure P]

/-! Claims that start from a known value -/

section
variable {ℱ : Filtration ℕ m0} {alpha a b : ℕ} {E : ℕ → Ω → ℝ} {f s : ℕ → ℝ} {x : ℝ}

theorem Spec.MackPath.mean_from (h : Spec.MackPath P ℱ alpha a b E f s) (hx : ∀ᵐ ω ∂P, E a ω = x) {k : ℕ}
    (hak : a ≤ k) (hkb : k ≤ b) : ∫ ω, E k ω ∂P = x * ∏ l ∈ Finset.Ico a k, f l := by
  rw [← integral_condExp (ℱ.le a)]
  have : P[E k | ℱ a] =ᵐ[P] fun _ => x * ∏ l ∈ Finset.Ico a k, f l := by
    filter_upwards [h.develop hak hkb, hx] with ω h1 h2
    rw [h1, h2]
  rw [integral_congr_ae this]
  simp

theorem Spec.MackPath.var_from (h : Spec.MackPath P ℱ 1 a b E f s) (hx : ∀ᵐ ω ∂P, E a ω = x) {k : ℕ}
    (hak : a ≤ k) (hkb : k ≤ b) : Var[E k; P] = x * Spec.pathVar f s a k := by
  rw [variance_eq_integral (h.square k hak hkb).aemeasurable, h.mean_from hx hak hkb]
  have e : ∫ ω, (E k ω - x * ∏ l ∈ Finset.Ico a k, f l) ^ 2 ∂P =
      ∫ ω, (E k ω - E a ω * ∏ l ∈ Finset.Ico a k, f l) ^ 2 ∂P := by
    refine integral_congr_ae ?_
    filter_upwards [hx] with ω h2
    rw [h2]
  rw [e, ← integral_condExp (ℱ.le a)]
  have : P[fun ω => (E k ω - E a ω * ∏ l ∈ Finset.Ico a k, f l) ^ 2 | ℱ a] =ᵐ[P]
      fun _ => x * Spec.pathVar f s a k := by
    filter_upwards [h.cond_sq hak hkb, hx] with ω h1 h2
    rw [h1, h2]
  rw [integral_congr_ae this]
  simp

/-- Variance of the first step, for every `alpha`. -/
theorem Spec.MackPath.var_step (h : Spec.MackPath P ℱ alpha a b E f s) (hx : ∀ᵐ ω ∂P, E a ω = x) (hab : a < b) :
    Var[E (a + 1); P] = s a * x ^ (2 - alpha) := by
  rw [variance_eq_integral (h.square (a + 1) (by omega) hab).aemeasurable,
    h.mean_from hx (Nat.le_succ a) hab]
  have e : ∫ ω, (E (a + 1) ω - x * ∏ l ∈ Finset.Ico a (a + 1), f l) ^ 2 ∂P =
      ∫ ω, (E (a + 1) ω - (P[E (a + 1) | ℱ a]) ω) ^ 2 ∂P := by
    refine integral_congr_ae ?_
    filter_upwards [hx, h.mean a le_rfl hab] with ω h2 h3
    rw [h3, h2]
    simp [mul_comm]
  rw [e, ← integral_condExp (ℱ.le a)]
  have : P[fun ω => (E (a + 1) ω - (P[E (a + 1) | ℱ a]) ω) ^ 2 | ℱ a] =ᵐ[P] fun _ => s a * x ^ (2 - alpha) := by
    have hv := h.var a le_rfl hab
    filter_upwards [hv, hx] with ω h1 h2
    rw [h2] at h1
    exact h1
  rw [integral_congr_ae this]
  simp

end

/-! Claims on a larger space -/

section
variable {Ω' : Type} {m' : MeasurableSpace Ω'} {P' : Measure Ω'} [IsProbabilityMeasure P'] {pr : Ω' → Ω}

theorem iIndepFun_comp_preserving {X : ℕ → Ω → ℝ} (h : iIndepFun X P) (hm : ∀ k, Measurable (X k))
    (hpr : MeasurePreserving pr P' P) : iIndepFun (fun k => X k ∘ pr) P' := by
  rw [iIndepFun_iff_map_fun_eq_infinitePi_map (fun k => (hm k).comp hpr.measurable)]
  rw [iIndepFun_iff_map_fun_eq_infinitePi_map hm] at h
  have e1 : (fun ω k => (X k ∘ pr) ω) = (fun ω k => X k ω) ∘ pr := rfl
  have e2 : ∀ k, P'.map (X k ∘ pr) = P.map (X k) := fun k => by
    rw [← Measure.map_map (hm k) hpr.measurable, hpr.map_eq]
  rw [e1, ← Measure.map_map (measurable_pi_iff.2 hm) hpr.measurable, hpr.map_eq, h]
  simp only [e2]

/-- The past, seen from the larger space. -/
def pastComap (ℱ : Filtration ℕ m0) (hpr : Measurable pr) : Filtration ℕ m' where
  seq k := (ℱ k).comap pr
  mono' _ _ h := MeasurableSpace.comap_mono (ℱ.mono h)
  le' k := (MeasurableSpace.comap_mono (ℱ.le k)).trans hpr.comap_le

theorem Spec.MackPath.comp {ℱ : Filtration ℕ m0} {alpha a b : ℕ} {E : ℕ → Ω → ℝ} {f s : ℕ → ℝ}
    (h : Spec.MackPath P ℱ alpha a b E f s) (hpr : MeasurePreserving pr P' P) :
    Spec.MackPath P' (pastComap ℱ hpr.measurable) alpha a b (fun k => E k ∘ pr) f s where
  known k h1 h2 := (h.known k h1 h2).comp_measurable (comap_measurable pr)
  square k h1 h2 := (h.square k h1 h2).comp_measurePreserving hpr
  mean k h1 h2 := by
    refine (condExp_comp_preserving hpr (ℱ.le k) ((h.square _ (by omega) h2).integrable one_le_two)).trans ?_
    exact hpr.quasiMeasurePreserving.ae_eq_comp (h.mean k h1 h2)
  var k h1 h2 := by
    have h3 := condExp_comp_preserving hpr (ℱ.le k) ((h.square (k + 1) (by omega) h2).integrable one_le_two)
    have hc : MemLp (E (k + 1) - P[E (k + 1) | ℱ k]) 2 P :=
      (h.square (k + 1) (by omega) h2).sub ((h.square (k + 1) (by omega) h2).condExp one_le_two)
    have h4 : Var[E (k + 1) ∘ pr; P' | pastComap ℱ hpr.measurable k] =ᵐ[P']
        P'[(fun ω => (E (k + 1) - P[E (k + 1) | ℱ k]) ω ^ 2) ∘ pr | (ℱ k).comap pr] := by
      refine condExp_congr_ae ?_
      filter_upwards [h3] with ω hω
      simp only [Pi.pow_apply, Pi.sub_apply, Function.comp]
      congr 2
    refine h4.trans ((condExp_comp_preserving hpr (ℱ.le k) hc.integrable_sq).trans ?_)
    exact hpr.quasiMeasurePreserving.ae_eq_comp (h.var k h1 h2)

end

/-! Products of independent variables -/

theorem indep_prod {G : ℕ → Ω → ℝ} (hi : iIndepFun G P) (hm : ∀ k, Measurable (G k)) (hG : ∀ k, Integrable (G k) P)
    (A : Finset ℕ) : Integrable (fun ω => ∏ k ∈ A, G k ω) P ∧ ∫ ω, ∏ k ∈ A, G k ω ∂P = ∏ k ∈ A, ∫ ω, G k ω ∂P := by
  induction A using Finset.induction_on with
  | empty => simp
  | insert k A hk ih =>
    have h1 : IndepFun (fun ω => ∏ j ∈ A, G j ω) (G k) P := by
      have := hi.indepFun_finsetProd_of_notMem hm hk
      have e : (∏ j ∈ A, G j) = fun ω => ∏ j ∈ A, G j ω := by
        funext ω; rw [Finset.prod_apply]
      rwa [e] at this
    have e : (fun ω => ∏ j ∈ insert k A, G j ω) = (fun ω => ∏ j ∈ A, G j ω) * G k := by
      funext ω
      rw [Finset.prod_insert hk, mul_comm]; rfl
    constructor
    · rw [e]
      exact h1.integrable_mul ih.1 (hG k)
    · rw [Finset.prod_insert hk, e, h1.integral_mul_eq_mul_integral ih.1.aestronglyMeasurable
        (hG k).aestronglyMeasurable, ih.2, mul_comm]

/-- Independent factors `F` with means `f` and variances `v` in the first periods. -/
structure Spec.Factors (P : Measure Ω) (m : ℕ) (F : ℕ → Ω → ℝ) (f v : ℕ → ℝ) : Prop where
  meas : ∀ k, Measurable (F k)
  square : ∀ k, MemLp (F k) 2 P
  indep : iIndepFun F P
  mean : ∀ k < m, ∫ ω, F k ω ∂P = f k
  var : ∀ k < m, Var[F k; P] = v k

variable {m : ℕ} {F : ℕ → Ω → ℝ} {f v : ℕ → ℝ}

theorem Spec.Factors.sq (h : Spec.Factors P m F f v) {k : ℕ} (hk : k < m) :
    ∫ ω, F k ω ^ 2 ∂P = f k ^ 2 + v k := by
  have := variance_eq_sub (h.square k)
  rw [h.var k hk, h.mean k hk] at this
  have e : P[F k ^ 2] = ∫ ω, F k ω ^ 2 ∂P := rfl
  rw [e] at this
  linarith

theorem Spec.Factors.prod (h : Spec.Factors P m F f v) {A : Finset ℕ} (hA : ∀ k ∈ A, k < m) :
    ∫ ω, ∏ k ∈ A, F k ω ∂P = ∏ k ∈ A, f k := by
  rw [(indep_prod h.indep h.meas (fun k => (h.square k).integrable one_le_two) A).2]
  exact Finset.prod_congr rfl fun k hk => h.mean k (hA k hk)

/-- Mean of the product of two projections. -/
theorem Spec.Factors.prod_mul (h : Spec.Factors P m F f v) {A B : Finset ℕ} (hAB : A ⊆ B) (hB : ∀ k ∈ B, k < m) :
    Integrable (fun ω => (∏ k ∈ A, F k ω) * ∏ k ∈ B, F k ω) P ∧
      ∫ ω, (∏ k ∈ A, F k ω) * ∏ k ∈ B, F k ω ∂P = (∏ k ∈ A, (f k ^ 2 + v k)) * ∏ k ∈ B \ A, f k := by
  have hi : iIndepFun (fun k => (fun z : ℝ => if k ∈ A then z ^ 2 else z) ∘ F k) P :=
    h.indep.comp _ fun k => by
      by_cases hk : k ∈ A
      · simp only [if_pos hk]; exact measurable_id.pow_const 2
      · simp only [if_neg hk]; exact measurable_id
  have hm : ∀ k, Measurable ((fun z : ℝ => if k ∈ A then z ^ 2 else z) ∘ F k) := fun k => by
    by_cases hk : k ∈ A
    · simp only [if_pos hk]; exact (h.meas k).pow_const 2
    · simp only [if_neg hk]; exact h.meas k
  have hG : ∀ k, Integrable ((fun z : ℝ => if k ∈ A then z ^ 2 else z) ∘ F k) P := fun k => by
    by_cases hk : k ∈ A
    · simp only [if_pos hk]; exact (h.square k).integrable_sq
    · simp only [if_neg hk]; exact (h.square k).integrable one_le_two
  have key := indep_prod hi hm hG B
  have e : (fun ω => ∏ k ∈ B, ((fun z : ℝ => if k ∈ A then z ^ 2 else z) ∘ F k) ω) =
      fun ω => (∏ k ∈ A, F k ω) * ∏ k ∈ B, F k ω := by
    funext ω
    rw [← Finset.sdiff_union_of_subset hAB, Finset.prod_union Finset.sdiff_disjoint,
      Finset.prod_union Finset.sdiff_disjoint]
    have e1 : ∏ k ∈ B \ A, ((fun z : ℝ => if k ∈ A then z ^ 2 else z) ∘ F k) ω = ∏ k ∈ B \ A, F k ω :=
      Finset.prod_congr rfl fun k hk => by
        simp only [Function.comp, if_neg (Finset.mem_sdiff.1 hk).2]
    have e2 : ∏ k ∈ A, ((fun z : ℝ => if k ∈ A then z ^ 2 else z) ∘ F k) ω = (∏ k ∈ A, F k ω) ^ 2 := by
      rw [← Finset.prod_pow]
      exact Finset.prod_congr rfl fun k hk => by simp only [Function.comp, if_pos hk]
    rw [e1, e2]
    ring
  refine ⟨by rw [← e]; exact key.1, ?_⟩
  rw [← e, key.2, ← Finset.sdiff_union_of_subset hAB, Finset.prod_union Finset.sdiff_disjoint, mul_comm]
  congr 1
  · exact Finset.prod_congr rfl fun k hk => by
      simp only [Function.comp, if_pos hk]
      exact h.sq (hB k (hAB hk))
  · rw [Finset.sdiff_union_of_subset hAB]
    exact Finset.prod_congr rfl fun k hk => by
      simp only [Function.comp, if_neg (Finset.mem_sdiff.1 hk).2]
      exact h.mean k (hB k (Finset.mem_sdiff.1 hk).1)

theorem Spec.Factors.prod_memLp (h : Spec.Factors P m F f v) {A : Finset ℕ} (hA : ∀ k ∈ A, k < m) :
    MemLp (fun ω => ∏ k ∈ A, F k ω) 2 P := by
  rw [memLp_two_iff_integrable_sq
    (Finset.measurable_fun_prod A fun k _ => h.meas k).aestronglyMeasurable]
  have := (h.prod_mul (Finset.Subset.refl A) hA).1
  refine this.congr (Eventually.of_forall fun ω => ?_)
  exact (pow_two _).symm

/-- Covariance of two projections. -/
theorem Spec.Factors.prod_cov (h : Spec.Factors P m F f v) {A B : Finset ℕ} (hAB : A ⊆ B) (hB : ∀ k ∈ B, k < m)
    (x y : ℝ) : cov[fun ω => x * ∏ k ∈ A, F k ω, fun ω => y * ∏ k ∈ B, F k ω; P] =
      x * y * (∏ k ∈ B \ A, f k) * (∏ k ∈ A, (f k ^ 2 + v k) - ∏ k ∈ A, f k ^ 2) := by
  have hA : ∀ k ∈ A, k < m := fun k hk => hB k (hAB hk)
  rw [covariance_const_mul_left, covariance_const_mul_right,
    covariance_eq_sub (h.prod_memLp hA) (h.prod_memLp hB)]
  have e1 : P[(fun ω => ∏ k ∈ A, F k ω) * fun ω => ∏ k ∈ B, F k ω] =
      (∏ k ∈ A, (f k ^ 2 + v k)) * ∏ k ∈ B \ A, f k := (h.prod_mul hAB hB).2
  rw [e1, h.prod hA, h.prod hB, ← Finset.sdiff_union_of_subset hAB, Finset.prod_union Finset.sdiff_disjoint,
    Finset.sdiff_union_of_subset hAB, Finset.prod_pow]
  ring

theorem Spec.Factors.prod_var (h : Spec.Factors P m F f v) {A : Finset ℕ} (hA : ∀ k ∈ A, k < m) (x : ℝ) :
    Var[fun ω => x * ∏ k ∈ A, F k ω; P] = x ^ 2 * (∏ k ∈ A, (f k ^ 2 + v k) - ∏ k ∈ A, f k ^ 2) := by
  have hm : AEMeasurable (fun ω => x * ∏ k ∈ A, F k ω) P := ((h.prod_memLp hA).const_mul x).aemeasurable
  rw [← covariance_self hm, h.prod_cov (Finset.Subset.refl A) hA, Finset.sdiff_self,
    Finset.prod_empty, mul_one, ← pow_two]

theorem Spec.Factors.comp {Ω' : Type} {m' : MeasurableSpace Ω'} {P' : Measure Ω'} [IsProbabilityMeasure P']
    {pr : Ω' → Ω} (h : Spec.Factors P m F f v) (hpr : MeasurePreserving pr P' P) :
    Spec.Factors P' m (fun k => F k ∘ pr) f v := by
  have hint : ∀ g : Ω → ℝ, AEStronglyMeasurable g P → ∫ ω, (g ∘ pr) ω ∂P' = ∫ ω, g ω ∂P := fun g hg => by
    rw [← hpr.map_eq, integral_map hpr.measurable.aemeasurable (by rw [hpr.map_eq]; exact hg)]
    rfl
  refine ⟨fun k => (h.meas k).comp hpr.measurable, fun k => (h.square k).comp_measurePreserving hpr,
    iIndepFun_comp_preserving h.indep h.meas hpr, fun k hk => ?_, fun k hk => ?_⟩
  · rw [hint _ (h.meas k).aestronglyMeasurable, h.mean k hk]
  · rw [variance_eq_integral ((h.meas k).comp hpr.measurable).aemeasurable,
      hint _ (h.meas k).aestronglyMeasurable, ← h.var k hk, variance_eq_integral (h.meas k).aemeasurable]
    exact hint (fun ω => (F k ω - ∫ ω, F k ω ∂P) ^ 2) (((h.meas k).sub_const _).pow_const 2).aestronglyMeasurable

end

/-- Such factors exist for all means and variances. -/
theorem exists_factors (m : ℕ) (f : ℕ → ℝ) {v : ℕ → ℝ} (hv : ∀ k, 0 ≤ v k) :
    ∃ (Ω : Type) (_ : MeasurableSpace Ω) (P : Measure Ω) (_ : IsProbabilityMeasure P) (F : ℕ → Ω → ℝ),
      Spec.Factors P m F f v := by
  obtain ⟨Ω, _, P, hP, Z, hZm, hZ1, hZ2, hZ0, hZi⟩ := exists_coins
  have hZL : ∀ i, MemLp (Z i) 2 P := fun i =>
    MemLp.of_bound (hZm i).aestronglyMeasurable 1 (Eventually.of_forall (hZ1 i))
  have hmean : ∀ k, ∫ ω, (f k + √(v k) * Z k ω) ∂P = f k := fun k => by
    rw [integral_add (integrable_const _) (((hZL k).integrable one_le_two).const_mul _), integral_const_mul, hZ0]
    simp
  have hmem : ∀ k, MemLp (fun ω => f k + √(v k) * Z k ω) 2 P := fun k =>
    (memLp_const (f k)).add ((hZL k).const_mul _)
  refine ⟨Ω, _, P, hP, fun k ω => f k + √(v k) * Z k ω, fun k => ((hZm k).const_mul _).const_add _, hmem,
    hZi.comp (fun k z => f k + √(v k) * z) (fun k => (measurable_id.const_mul _).const_add _),
    fun k _ => hmean k, fun k _ => ?_⟩
  rw [variance_eq_integral (hmem k).aemeasurable, hmean]
  have : ∀ ω, (f k + √(v k) * Z k ω - f k) ^ 2 = v k := fun ω => by
    rw [add_sub_cancel_left, mul_pow, hZ2, Real.sq_sqrt (hv k), mul_one]
  simp only [this]
  simp

end Trikit
