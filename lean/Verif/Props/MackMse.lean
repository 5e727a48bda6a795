import Verif.MackFactors

/-! # C120-C122: what the reported errors of Mack chain ladder mean -/

set_option linter.unusedSectionVars false

open MeasureTheory ProbabilityTheory Filter

namespace Trikit

section
variable {t ind : Tri ℝ} {n : ℕ} {c w : ℕ → ℕ → ℝ}

/-! Reading factors and variances off the results -/

theorem MackParts.read {alpha : ℕ} {r : MackCore ℝ} {b : BaseResult ℝ} {lab : Int} (h : Spec.Stair t n c)
    (hp : Spec.Positive n c) (hw : Spec.Weights n w) (hn : 4 ≤ n) (p : MackParts alpha t ind n c w r b lab)
    {f s : ℕ → ℝ} (hfs : ∀ j < n - 1, r.ldfs.iloc j = .fin (f j) ∧ r.devpvar.iloc j = .fin (s j)) :
    ¬ Spec.Degenerate alpha n c w ∧ (∀ j < n - 1, f j = Spec.mackF alpha n c w j) ∧
      ∀ j < n - 1, s j = Spec.sigma2 alpha n c w j := by
  have hd : ¬ Spec.Degenerate alpha n c w := by
    intro hd
    have h1 := (hfs (n - 2) (by omega)).2
    rw [p.dv _ (by omega), storedVar_degenerate hp hw (by omega) hd] at h1
    cases h1
  refine ⟨hd, fun j hj => ?_, fun j hj => ?_⟩
  · have h1 := (hfs j hj).1
    rw [p.ldf h j hj] at h1
    exact (Num.fin.inj h1).symm
  · have h1 := (hfs j hj).2
    rw [p.dv j hj, storedVar_fin hp hw hd] at h1
    exact (Num.fin.inj h1).symm

theorem procVar_path {f s f' s' : ℕ → ℝ} (hf : ∀ j < n - 1, f j = f' j) (hs : ∀ j < n - 1, s j = s' j) (i : ℕ) :
    c i (n - 1 - i) * Spec.pathVar f s (n - 1 - i) (n - 1) = Spec.procVar n c f' s' i := by
  unfold Spec.pathVar Spec.procVar Spec.proj
  rw [Finset.mul_sum]
  refine Finset.sum_congr rfl fun k hk => ?_
  rw [Finset.mem_Ico] at hk
  have e1 : ∏ l ∈ Finset.Ico (n - 1 - i) k, f l = ∏ l ∈ Finset.Ico (n - 1 - i) k, f' l :=
    Finset.prod_congr rfl fun l hl => hf l (by rw [Finset.mem_Ico] at hl; omega)
  have e2 : ∏ l ∈ Finset.Ico (k + 1) (n - 1), f l ^ 2 = ∏ l ∈ Finset.Ico (k + 1) (n - 1), f' l ^ 2 :=
    Finset.prod_congr rfl fun l hl => by rw [hf l (by rw [Finset.mem_Ico] at hl; omega)]
  rw [hs k hk.2, e1, e2]
  ring

theorem paramVar_congr {f v f' v' : ℕ → ℝ} (hf : ∀ j < n - 1, f j = f' j) (hv : ∀ j < n - 1, v j = v' j) (i : ℕ) :
    Spec.paramVar n c f v i = Spec.paramVar n c f' v' i := by
  unfold Spec.paramVar
  congr 2
  · refine Finset.prod_congr rfl fun l hl => ?_
    rw [Finset.mem_Ico] at hl
    rw [hf l hl.2, hv l hl.2]
  · refine Finset.prod_congr rfl fun l hl => ?_
    rw [Finset.mem_Ico] at hl
    rw [hf l hl.2]

theorem ult_congr {f f' : ℕ → ℝ} (hf : ∀ j < n - 1, f j = f' j) (i : ℕ) :
    Spec.ult n c f i = Spec.ult n c f' i := by
  unfold Spec.ult Spec.proj
  congr 1
  refine Finset.prod_congr rfl fun l hl => ?_
  rw [Finset.mem_Ico] at hl
  exact hf l hl.2

theorem getElem?_range_fin (g : ℕ → ℝ) {i : ℕ} (hi : i < n) :
    ((List.range n).map (fun i => (Num.fin (g i) : Num ℝ)))[i]? = some (.fin (g i)) := by
  rw [List.getElem?_map, List.getElem?_range hi]; rfl

/-! ## C120 -/

/-- **C120, partial** (only `alpha = 1`).  On every positive staircase with any exclusion weights: if the claims of
an origin develop from its latest value on as Mack's model says, with the reported factors and variances, then the
reported ultimate is the mean of the last value and the reported process error is its variance. -/
theorem C120_partial (h : Spec.Stair t n c) (hp : Spec.Positive n c) (hi : IndW t ind n w) (hw : Spec.Weights n w)
    (hn : 4 ≤ n) :
    ∃ r, mackCore 1 t ind = .ok r ∧ ∀ f s : ℕ → ℝ,
      (∀ j < n - 1, r.ldfs.iloc j = .fin (f j) ∧ r.devpvar.iloc j = .fin (s j)) → ∀ i < n,
      ∀ (Ω : Type) (m0 : MeasurableSpace Ω) (P : Measure Ω) [IsProbabilityMeasure P] (ℱ : Filtration ℕ m0)
        (E : ℕ → Ω → ℝ), Spec.MackPath P ℱ 1 (n - 1 - i) (n - 1) E f s →
        (∀ᵐ ω ∂P, E (n - 1 - i) ω = c i (n - 1 - i)) →
        (r.rows.map SummRow.ultimate)[i]? = some (.fin (∫ ω, E (n - 1) ω ∂P)) ∧
        r.procErr[i]? = some (.fin Var[E (n - 1); P]) := by
  obtain ⟨r, b, lab, hr, p⟩ := mack_parts h hp hi hw hn 1
  refine ⟨r, hr, fun f s hfs i hi' Ω m0 P _ ℱ E hE hx => ?_⟩
  obtain ⟨hd, hf, hs⟩ := p.read h hp hw hn hfs
  rw [p.ults (by omega), p.procErr_eq h hp hw hd, getElem?_range_fin _ hi', getElem?_range_fin _ hi',
    hE.mean_from hx (by omega) le_rfl, hE.var_from hx (by omega) le_rfl, procVar_path hf hs, ← ult_congr hf]
  exact ⟨rfl, rfl⟩

/-- What is reported for the first origin that still develops, for every `alpha`: it has one step ahead, of variance
`s * latest ^ (2 - alpha)`, but `s * latest` is reported. -/
theorem C120_one_step (h : Spec.Stair t n c) (hp : Spec.Positive n c) (hi : IndW t ind n w) (hw : Spec.Weights n w)
    (hn : 4 ≤ n) (alpha : ℕ) :
    ∃ r, mackCore alpha t ind = .ok r ∧ ∀ f s : ℕ → ℝ,
      (∀ j < n - 1, r.ldfs.iloc j = .fin (f j) ∧ r.devpvar.iloc j = .fin (s j)) →
      r.procErr[1]? = some (.fin (s (n - 2) * c 1 (n - 2))) ∧
      ∀ (Ω : Type) (m0 : MeasurableSpace Ω) (P : Measure Ω) [IsProbabilityMeasure P] (ℱ : Filtration ℕ m0)
        (E : ℕ → Ω → ℝ), Spec.MackPath P ℱ alpha (n - 2) (n - 1) E f s →
        (∀ᵐ ω ∂P, E (n - 2) ω = c 1 (n - 2)) → Var[E (n - 1); P] = s (n - 2) * c 1 (n - 2) ^ (2 - alpha) := by
  obtain ⟨r, b, lab, hr, p⟩ := mack_parts h hp hi hw hn alpha
  refine ⟨r, hr, fun f s hfs => ?_⟩
  obtain ⟨hd, hf, hs⟩ := p.read h hp hw hn hfs
  constructor
  · rw [p.procErr_eq h hp hw hd, getElem?_range_fin _ (by omega), ← procVar_path hf hs]
    congr 2
    have e : n - 1 = n - 2 + 1 := by omega
    rw [show n - 1 - 1 = n - 2 by omega, e, pathVar_succ le_rfl]
    simp [Spec.pathVar, mul_comm]
  · intro Ω m0 P _ ℱ E hE hx
    have := hE.var_step hx (by omega)
    rwa [show n - 2 + 1 = n - 1 by omega] at this

/-! ## C121 -/

/-- **C121.** On every positive staircase, for every `alpha` and all exclusion weights: if the true factors are
independent, with the reported factors as means and the reported factor variances, then the ultimate projected with
them has the reported ultimate as its mean and the reported parameter error as its variance. -/
theorem C121_param (h : Spec.Stair t n c) (hp : Spec.Positive n c) (hi : IndW t ind n w) (hw : Spec.Weights n w)
    (hn : 4 ≤ n) (alpha : ℕ) :
    ∃ r, mackCore alpha t ind = .ok r ∧ ∀ f s v : ℕ → ℝ,
      (∀ j < n - 1, r.ldfs.iloc j = .fin (f j) ∧ r.devpvar.iloc j = .fin (s j)) →
      (∀ j < n - 1, r.ldfvar.iloc j = .fin (v j)) → ∀ i < n,
      ∀ (Ω : Type) (m0 : MeasurableSpace Ω) (P : Measure Ω) [IsProbabilityMeasure P] (F : ℕ → Ω → ℝ),
        Spec.Factors P (n - 1) F f v →
        (r.rows.map SummRow.ultimate)[i]? =
          some (.fin (∫ ω, c i (n - 1 - i) * ∏ k ∈ Finset.Ico (n - 1 - i) (n - 1), F k ω ∂P)) ∧
        r.paramErr[i]? =
          some (.fin Var[fun ω => c i (n - 1 - i) * ∏ k ∈ Finset.Ico (n - 1 - i) (n - 1), F k ω; P]) := by
  obtain ⟨r, b, lab, hr, p⟩ := mack_parts h hp hi hw hn alpha
  refine ⟨r, hr, fun f s v hfs hv i hi' Ω m0 P _ F hF => ?_⟩
  obtain ⟨hd, hf, hs⟩ := p.read h hp hw hn hfs
  have hv' : ∀ j < n - 1, v j = Spec.ldfVar alpha n c w j := fun j hj => by
    have h1 := hv j hj
    rw [p.lv j hj, stored_ldfvar hp hw hd hj] at h1
    exact (Num.fin.inj h1).symm
  have hA : ∀ k ∈ Finset.Ico (n - 1 - i) (n - 1), k < n - 1 := fun k hk => (Finset.mem_Ico.1 hk).2
  rw [p.ults (by omega), p.paramErr_eq h hp hw hd, getElem?_range_fin _ hi', getElem?_range_fin _ hi',
    integral_const_mul, hF.prod hA, hF.prod_var hA, ← paramVar_congr hf hv', ← ult_congr hf]
  exact ⟨rfl, rfl⟩

/-! ## C122 -/

end

/-- Claims of all origins and the true factors: every origin develops from its latest value on as Mack's model
(`alpha = 1`) says, the origins are independent of each other and of the factors. -/
structure Spec.MackWorld {Ω : Type} {m0 : MeasurableSpace Ω} (P : Measure Ω) (n : ℕ) (c : ℕ → ℕ → ℝ)
    (ℱ : ℕ → Filtration ℕ m0) (E : ℕ → ℕ → Ω → ℝ) (F : ℕ → Ω → ℝ) (f s v : ℕ → ℝ) : Prop where
  path : ∀ i < n, Spec.MackPath P (ℱ i) 1 (n - 1 - i) (n - 1) (E i) f s
  latest : ∀ i < n, ∀ᵐ ω ∂P, E i (n - 1 - i) ω = c i (n - 1 - i)
  origins : iIndepFun (fun i => E i (n - 1)) P
  factors : Spec.Factors P (n - 1) F f v
  apart : IndepFun (fun ω i => E i (n - 1) ω) (fun ω k => F k ω) P

/-- Mean squared distance of independent variables with the same mean. -/
theorem msd_indep {Ω : Type} {m0 : MeasurableSpace Ω} {P : Measure Ω} [IsProbabilityMeasure P] {X Y : Ω → ℝ}
    (hX : MemLp X 2 P) (hY : MemLp Y 2 P) (hXY : IndepFun X Y P) (hm : ∫ ω, X ω ∂P = ∫ ω, Y ω ∂P) :
    ∫ ω, (X ω - Y ω) ^ 2 ∂P = Var[X; P] + Var[Y; P] := by
  have h1 := variance_sub hX hY
  rw [hXY.covariance_eq_zero hX hY] at h1
  have h2 := variance_eq_integral (hX.sub hY).aemeasurable
  have h3 : ∫ ω, (X - Y) ω ∂P = 0 := by
    have := integral_sub (hX.integrable one_le_two) (hY.integrable one_le_two)
    rw [hm, sub_self] at this
    exact this
  rw [h3] at h2
  simp only [Pi.sub_apply, sub_zero] at h2
  rw [← h2, h1]
  ring

/-- A symmetric double sum. -/
theorem sum_symm (g : ℕ → ℕ → ℝ) (hg : ∀ i j, g i j = g j i) (n : ℕ) :
    ∑ i ∈ Finset.range n, ∑ j ∈ Finset.range n, g i j =
      ∑ i ∈ Finset.range n, (g i i + 2 * ∑ k ∈ Finset.Ico (i + 1) n, g i k) := by
  induction n with
  | zero => simp
  | succ n ih =>
    have e1 : ∑ i ∈ Finset.range n, ∑ j ∈ Finset.range (n + 1), g i j =
        ∑ i ∈ Finset.range n, ∑ j ∈ Finset.range n, g i j + ∑ i ∈ Finset.range n, g i n := by
      rw [← Finset.sum_add_distrib]
      exact Finset.sum_congr rfl fun i _ => Finset.sum_range_succ _ _
    have e2 : ∑ i ∈ Finset.range n, (g i i + 2 * ∑ k ∈ Finset.Ico (i + 1) (n + 1), g i k) =
        ∑ i ∈ Finset.range n, (g i i + 2 * ∑ k ∈ Finset.Ico (i + 1) n, g i k) +
          2 * ∑ i ∈ Finset.range n, g i n := by
      rw [Finset.mul_sum, ← Finset.sum_add_distrib]
      refine Finset.sum_congr rfl fun i hi => ?_
      rw [Finset.mem_range] at hi
      rw [Finset.sum_Ico_succ_top (by omega)]
      ring
    rw [Finset.sum_range_succ, e1, Finset.sum_range_succ (fun i => g i i + _), e2, ih, Finset.sum_range_succ]
    have e3 : ∑ j ∈ Finset.range n, g n j = ∑ j ∈ Finset.range n, g j n :=
      Finset.sum_congr rfl fun j _ => hg n j
    rw [e3]
    simp
    ring

/-- A product is at least its linear part. -/
theorem prod_linear {A : Finset ℕ} {f v : ℕ → ℝ} (hf : ∀ k ∈ A, f k ≠ 0) (hv : ∀ k ∈ A, 0 ≤ v k) :
    (∏ k ∈ A, f k ^ 2) * ∑ k ∈ A, v k / f k ^ 2 ≤ ∏ k ∈ A, (f k ^ 2 + v k) - ∏ k ∈ A, f k ^ 2 := by
  induction A using Finset.induction_on with
  | empty => simp
  | insert k A hk ih =>
    have ih' := ih (fun j hj => hf j (Finset.mem_insert_of_mem hj)) (fun j hj => hv j (Finset.mem_insert_of_mem hj))
    rw [Finset.prod_insert hk, Finset.prod_insert hk, Finset.sum_insert hk]
    have h1 : f k ≠ 0 := hf k (Finset.mem_insert_self _ _)
    have h2 : 0 ≤ v k := hv k (Finset.mem_insert_self _ _)
    have h3 : f k ^ 2 * (v k / f k ^ 2) = v k := by field_simp
    have h4 : ∏ j ∈ A, f j ^ 2 ≤ ∏ j ∈ A, (f j ^ 2 + v j) :=
      Finset.prod_le_prod (fun j _ => sq_nonneg _)
        (fun j hj => le_add_of_nonneg_right (hv j (Finset.mem_insert_of_mem hj)))
    have h5 := mul_le_mul_of_nonneg_left ih' (sq_nonneg (f k))
    have h6 := mul_le_mul_of_nonneg_left h4 h2
    calc f k ^ 2 * (∏ j ∈ A, f j ^ 2) * (v k / f k ^ 2 + ∑ j ∈ A, v j / f j ^ 2)
        = f k ^ 2 * (v k / f k ^ 2) * (∏ j ∈ A, f j ^ 2) +
          f k ^ 2 * ((∏ j ∈ A, f j ^ 2) * ∑ j ∈ A, v j / f j ^ 2) := by ring
      _ ≤ _ := by rw [h3]; linarith

section
variable {n : ℕ} {c : ℕ → ℕ → ℝ} {f s v : ℕ → ℝ}
variable {Ω : Type} {m0 : MeasurableSpace Ω} {P : Measure Ω} [IsProbabilityMeasure P]
  {ℱ : ℕ → Filtration ℕ m0} {E : ℕ → ℕ → Ω → ℝ} {F : ℕ → Ω → ℝ}

theorem Spec.MackWorld.msd (hW : Spec.MackWorld P n c ℱ E F f s v) {i : ℕ} (hi : i < n) :
    ∫ ω, (E i (n - 1) ω - c i (n - 1 - i) * ∏ k ∈ Finset.Ico (n - 1 - i) (n - 1), F k ω) ^ 2 ∂P =
      Spec.procVar n c f s i + Spec.paramVar n c f v i := by
  have hA : ∀ k ∈ Finset.Ico (n - 1 - i) (n - 1), k < n - 1 := fun k hk => (Finset.mem_Ico.1 hk).2
  rw [msd_indep ((hW.path i hi).square _ (by omega) le_rfl) ((hW.factors.prod_memLp hA).const_mul _),
    (hW.path i hi).var_from (hW.latest i hi) (by omega) le_rfl, hW.factors.prod_var hA,
    procVar_path (fun _ _ => rfl) (fun _ _ => rfl)]
  · rfl
  · exact hW.apart.comp (φ := fun x : ℕ → ℝ => x i)
      (ψ := fun y : ℕ → ℝ => c i (n - 1 - i) * ∏ k ∈ Finset.Ico (n - 1 - i) (n - 1), y k)
      (measurable_pi_apply i)
      ((Finset.measurable_fun_prod _ fun k _ => measurable_pi_apply k).const_mul _)
  · rw [(hW.path i hi).mean_from (hW.latest i hi) (by omega) le_rfl, integral_const_mul, hW.factors.prod hA]

/-- Mean squared distance of the totals. -/
theorem Spec.MackWorld.msd_total (hW : Spec.MackWorld P n c ℱ E F f s v) :
    ∫ ω, (∑ i ∈ Finset.range n, E i (n - 1) ω -
        ∑ i ∈ Finset.range n, c i (n - 1 - i) * ∏ k ∈ Finset.Ico (n - 1 - i) (n - 1), F k ω) ^ 2 ∂P =
      ∑ i ∈ Finset.range n, (Spec.procVar n c f s i + (Spec.paramVar n c f v i +
        2 * ∑ k ∈ Finset.Ico (i + 1) n, c i (n - 1 - i) * c k (n - 1 - k) *
          (∏ l ∈ Finset.Ico (n - 1 - k) (n - 1 - i), f l) *
          (∏ l ∈ Finset.Ico (n - 1 - i) (n - 1), (f l ^ 2 + v l) -
            ∏ l ∈ Finset.Ico (n - 1 - i) (n - 1), f l ^ 2))) := by
  have hA : ∀ i, ∀ k ∈ Finset.Ico (n - 1 - i) (n - 1), k < n - 1 := fun i k hk => (Finset.mem_Ico.1 hk).2
  have hX : ∀ i ∈ Finset.range n, MemLp (E i (n - 1)) 2 P := fun i hi =>
    (hW.path i (Finset.mem_range.1 hi)).square _ (by omega) le_rfl
  have hY : ∀ i ∈ Finset.range n,
      MemLp (fun ω => c i (n - 1 - i) * ∏ k ∈ Finset.Ico (n - 1 - i) (n - 1), F k ω) 2 P := fun i _ =>
    (hW.factors.prod_memLp (hA i)).const_mul _
  rw [msd_indep (memLp_finsetSum _ hX) (memLp_finsetSum _ hY)]
  rotate_left
  · exact hW.apart.comp (φ := fun x : ℕ → ℝ => ∑ i ∈ Finset.range n, x i)
      (ψ := fun y : ℕ → ℝ => ∑ i ∈ Finset.range n, c i (n - 1 - i) * ∏ k ∈ Finset.Ico (n - 1 - i) (n - 1), y k)
      (Finset.measurable_fun_sum _ fun i _ => measurable_pi_apply i)
      (Finset.measurable_fun_sum _ fun i _ =>
        (Finset.measurable_fun_prod _ fun k _ => measurable_pi_apply k).const_mul _)
  · rw [integral_finsetSum _ (fun i hi => (hX i hi).integrable one_le_two),
      integral_finsetSum _ (fun i hi => (hY i hi).integrable one_le_two)]
    refine Finset.sum_congr rfl fun i hi => ?_
    rw [Finset.mem_range] at hi
    rw [(hW.path i hi).mean_from (hW.latest i hi) (by omega) le_rfl, integral_const_mul, hW.factors.prod (hA i)]
  rw [Finset.sum_add_distrib]
  congr 1
  · have h1 := IndepFun.variance_sum hX (fun i _ j _ hij => hW.origins.indepFun hij)
    have e : (∑ i ∈ Finset.range n, E i (n - 1)) = fun ω => ∑ i ∈ Finset.range n, E i (n - 1) ω := by
      funext ω; rw [Finset.sum_apply]
    rw [e] at h1
    rw [h1]
    refine Finset.sum_congr rfl fun i hi => ?_
    rw [Finset.mem_range] at hi
    rw [(hW.path i hi).var_from (hW.latest i hi) (by omega) le_rfl, procVar_path (fun _ _ => rfl) (fun _ _ => rfl)]
  · rw [← covariance_self (memLp_finsetSum _ hY).aemeasurable, covariance_fun_sum_fun_sum' hY hY,
      sum_symm _ (fun i j => covariance_comm _ _)]
    refine Finset.sum_congr rfl fun i hi => ?_
    rw [Finset.mem_range] at hi
    congr 1
    · rw [hW.factors.prod_cov (Finset.Subset.refl _) (hA i), Finset.sdiff_self, Finset.prod_empty, mul_one, ← pow_two]
      rfl
    · congr 1
      refine Finset.sum_congr rfl fun k hk => ?_
      rw [Finset.mem_Ico] at hk
      have hsub : Finset.Ico (n - 1 - i) (n - 1) ⊆ Finset.Ico (n - 1 - k) (n - 1) :=
        Finset.Ico_subset_Ico (by omega) le_rfl
      have hdiff : Finset.Ico (n - 1 - k) (n - 1) \ Finset.Ico (n - 1 - i) (n - 1) =
          Finset.Ico (n - 1 - k) (n - 1 - i) := by
        ext l
        simp only [Finset.mem_sdiff, Finset.mem_Ico]
        omega
      rw [hW.factors.prod_cov hsub (hA k), hdiff]

/-- The closed total is at least what is reported. -/
theorem crossVar_le {i k : ℕ} (hik : i < k) (hk : k < n) (hci : 0 ≤ c i (n - 1 - i)) (hck : 0 ≤ c k (n - 1 - k))
    (hf : ∀ j < n - 1, 0 < f j) (hv : ∀ j < n - 1, 0 ≤ v j)
    (hsv : ∀ j < n - 1, s j / ∑ r ∈ Finset.range (n - 1 - j), c r j ≤ v j) :
    Spec.ult n c f i * Spec.ult n c f k *
        ∑ p ∈ Finset.Ico (n - 1 - i) (n - 1), s p / f p ^ 2 / ∑ r ∈ Finset.range (n - 1 - p), c r p ≤
      c i (n - 1 - i) * c k (n - 1 - k) * (∏ l ∈ Finset.Ico (n - 1 - k) (n - 1 - i), f l) *
        (∏ l ∈ Finset.Ico (n - 1 - i) (n - 1), (f l ^ 2 + v l) -
          ∏ l ∈ Finset.Ico (n - 1 - i) (n - 1), f l ^ 2) := by
  have hA : ∀ l ∈ Finset.Ico (n - 1 - i) (n - 1), l < n - 1 := fun l hl => (Finset.mem_Ico.1 hl).2
  have h1 := prod_linear (A := Finset.Ico (n - 1 - i) (n - 1)) (fun l hl => (hf l (hA l hl)).ne')
    (fun l hl => hv l (hA l hl))
  have h2 : ∑ p ∈ Finset.Ico (n - 1 - i) (n - 1), s p / f p ^ 2 / ∑ r ∈ Finset.range (n - 1 - p), c r p ≤
      ∑ p ∈ Finset.Ico (n - 1 - i) (n - 1), v p / f p ^ 2 := by
    refine Finset.sum_le_sum fun p hp => ?_
    rw [div_right_comm]
    exact div_le_div_of_nonneg_right (hsv p (hA p hp)) (sq_nonneg _)
  have h3 : 0 ≤ ∏ l ∈ Finset.Ico (n - 1 - i) (n - 1), f l ^ 2 := Finset.prod_nonneg fun _ _ => sq_nonneg _
  have h4 : 0 ≤ ∏ l ∈ Finset.Ico (n - 1 - k) (n - 1 - i), f l :=
    Finset.prod_nonneg fun l hl => (hf l (by rw [Finset.mem_Ico] at hl; omega)).le
  have e : Spec.ult n c f i * Spec.ult n c f k = c i (n - 1 - i) * c k (n - 1 - k) *
      (∏ l ∈ Finset.Ico (n - 1 - k) (n - 1 - i), f l) * ∏ l ∈ Finset.Ico (n - 1 - i) (n - 1), f l ^ 2 := by
    unfold Spec.ult Spec.proj
    rw [← Finset.prod_Ico_consecutive f (show n - 1 - k ≤ n - 1 - i by omega) (show n - 1 - i ≤ n - 1 by omega),
      Finset.prod_pow]
    ring
  rw [e, mul_assoc]
  refine mul_le_mul_of_nonneg_left ?_ (mul_nonneg (mul_nonneg hci hck) h4)
  exact (mul_le_mul_of_nonneg_left h2 h3).trans h1

/-- Two factors that vary make a difference. -/
theorem crossVar_lt (hn : 4 ≤ n) (hc2 : 0 < c 2 (n - 1 - 2)) (hc3 : 0 < c 3 (n - 1 - 3))
    (hf : ∀ j < n - 1, 0 < f j) (h1 : 0 < v (n - 3)) (h2 : 0 < v (n - 2))
    (hsv : ∀ j < n - 1, s j / ∑ r ∈ Finset.range (n - 1 - j), c r j ≤ v j) :
    Spec.ult n c f 2 * Spec.ult n c f 3 *
        ∑ p ∈ Finset.Ico (n - 1 - 2) (n - 1), s p / f p ^ 2 / ∑ r ∈ Finset.range (n - 1 - p), c r p <
      c 2 (n - 1 - 2) * c 3 (n - 1 - 3) * (∏ l ∈ Finset.Ico (n - 1 - 3) (n - 1 - 2), f l) *
        (∏ l ∈ Finset.Ico (n - 1 - 2) (n - 1), (f l ^ 2 + v l) -
          ∏ l ∈ Finset.Ico (n - 1 - 2) (n - 1), f l ^ 2) := by
  obtain ⟨m, rfl⟩ : ∃ m, n = m + 4 := ⟨n - 4, by omega⟩
  unfold Spec.ult Spec.proj
  have e1 : m + 4 - 1 = m + 3 := rfl
  have e2 : m + 3 - 2 = m + 1 := rfl
  have e3 : m + 3 - 3 = m := rfl
  have e4 : m + 4 - 3 = m + 1 := rfl
  have e5 : m + 4 - 2 = m + 2 := rfl
  have hA : Finset.Ico (m + 1) (m + 3) = {m + 1, m + 2} := by
    ext l; simp only [Finset.mem_Ico, Finset.mem_insert, Finset.mem_singleton]; omega
  have hB : Finset.Ico m (m + 3) = {m, m + 1, m + 2} := by
    ext l; simp only [Finset.mem_Ico, Finset.mem_insert, Finset.mem_singleton]; omega
  have hC : Finset.Ico m (m + 1) = {m} := by
    ext l; simp only [Finset.mem_Ico, Finset.mem_singleton]; omega
  rw [e1] at hf hsv hc2 hc3
  rw [e2] at hc2
  rw [e3] at hc3
  rw [e4] at h1
  rw [e5] at h2
  rw [e1, e2, e3, hA, hB, hC]
  have hs1 := hsv (m + 1) (by omega)
  have hs2 := hsv (m + 2) (by omega)
  have f0 := hf m (by omega)
  have f1 := hf (m + 1) (by omega)
  have f2 := hf (m + 2) (by omega)
  rw [Finset.sum_pair (by omega), Finset.prod_pair (by omega), Finset.prod_pair (by omega), Finset.prod_pair (by omega),
    Finset.prod_singleton, Finset.prod_insert (by simp), Finset.prod_pair (by omega), div_right_comm,
    div_right_comm (s (m + 2))]
  generalize s (m + 1) / _ = x at *
  generalize s (m + 2) / _ = y at *
  have g1 : f (m + 1) ^ 2 * (x / f (m + 1) ^ 2) = x := by field_simp
  have g2 : f (m + 2) ^ 2 * (y / f (m + 2) ^ 2) = y := by field_simp
  have k1 : 0 < c 2 (m + 1) * c 3 m * f m := by positivity
  calc c 2 (m + 1) * (f (m + 1) * f (m + 2)) * (c 3 m * (f m * (f (m + 1) * f (m + 2)))) *
        (x / f (m + 1) ^ 2 + y / f (m + 2) ^ 2)
      = c 2 (m + 1) * c 3 m * f m * (f (m + 2) ^ 2 * (f (m + 1) ^ 2 * (x / f (m + 1) ^ 2)) +
          f (m + 1) ^ 2 * (f (m + 2) ^ 2 * (y / f (m + 2) ^ 2))) := by ring
    _ < _ := by
        rw [g1, g2]
        refine mul_lt_mul_of_pos_left ?_ k1
        have := mul_le_mul_of_nonneg_left hs1 (sq_nonneg (f (m + 2)))
        have := mul_le_mul_of_nonneg_left hs2 (sq_nonneg (f (m + 1)))
        have := mul_pos h1 h2
        linarith

end

section
variable {t ind : Tri ℝ} {n : ℕ} {c w : ℕ → ℕ → ℝ}

/-- **C122, partial** (only `alpha = 1`; the total is only a lower bound).  On every positive staircase with exclusion
weights up to 1: if all origins develop as Mack's model says, with the reported factors and variances, and the
ultimates are predicted with independent factors that have the reported means and variances, then the reported mean
squared error of an origin is the mean squared distance of its ultimate and its prediction, and the reported mean
squared error of the total is at most the mean squared distance of the sum of the ultimates and its prediction. -/
theorem C122_partial (h : Spec.Stair t n c) (hp : Spec.Positive n c) (hi : IndW t ind n w) (hw : Spec.Weights n w)
    (hw1 : ∀ i j, i + j + 1 < n → w i j ≤ 1) (hn : 4 ≤ n) :
    ∃ r, mackCore 1 t ind = .ok r ∧ ∀ f s v : ℕ → ℝ,
      (∀ j < n - 1, r.ldfs.iloc j = .fin (f j) ∧ r.devpvar.iloc j = .fin (s j)) →
      (∀ j < n - 1, r.ldfvar.iloc j = .fin (v j)) →
      ∀ (Ω : Type) (m0 : MeasurableSpace Ω) (P : Measure Ω) [IsProbabilityMeasure P] (ℱ : ℕ → Filtration ℕ m0)
        (E : ℕ → ℕ → Ω → ℝ) (F : ℕ → Ω → ℝ), Spec.MackWorld P n c ℱ E F f s v →
        (∀ i < n, r.mse[i]? = some (.fin (∫ ω, (E i (n - 1) ω -
          c i (n - 1 - i) * ∏ k ∈ Finset.Ico (n - 1 - i) (n - 1), F k ω) ^ 2 ∂P))) ∧
        ∃ T, r.totMse = .fin T ∧ T ≤ ∫ ω, (∑ i ∈ Finset.range n, E i (n - 1) ω -
          ∑ i ∈ Finset.range n, c i (n - 1 - i) * ∏ k ∈ Finset.Ico (n - 1 - i) (n - 1), F k ω) ^ 2 ∂P ∧
          (0 < v (n - 3) → 0 < v (n - 2) → T < ∫ ω, (∑ i ∈ Finset.range n, E i (n - 1) ω -
          ∑ i ∈ Finset.range n, c i (n - 1 - i) * ∏ k ∈ Finset.Ico (n - 1 - i) (n - 1), F k ω) ^ 2 ∂P) := by
  obtain ⟨r, b, lab, hr, p⟩ := mack_parts h hp hi hw hn 1
  refine ⟨r, hr, fun f s v hfs hv Ω m0 P _ ℱ E F hW => ?_⟩
  obtain ⟨hd, hf, hs⟩ := p.read h hp hw hn hfs
  have hv' : ∀ j < n - 1, v j = Spec.ldfVar 1 n c w j := fun j hj => by
    have h1 := hv j hj
    rw [p.lv j hj, stored_ldfvar hp hw hd hj] at h1
    exact (Num.fin.inj h1).symm
  have hmse : ∀ i, Spec.mse 1 n c w i = Spec.procVar n c f s i + Spec.paramVar n c f v i := fun i => by
    unfold Spec.mse
    rw [← procVar_path hf hs, paramVar_congr hf hv', procVar_path (fun _ _ => rfl) (fun _ _ => rfl)]
  refine ⟨fun i hi' => ?_, _, p.total_eq (by omega) h hp hw hd, ?_⟩
  · rw [p.mse_eq h hp hw hd, getElem?_range_fin _ hi', hW.msd hi', hmse]
  have hfp : ∀ j < n - 1, 0 < f j := fun j hj => by rw [hf j hj]; exact mackF_pos hp hw 1 hj
  have hv0 : ∀ j < n - 1, 0 ≤ v j := fun j hj => by rw [hv' j hj]; exact ldfVar_nonneg hp hw 1 hj
  have hsv : ∀ j < n - 1, s j / ∑ r ∈ Finset.range (n - 1 - j), c r j ≤ v j := fun j hj => by
    rw [hv' j hj, hs j hj]
    unfold Spec.ldfVar
    refine div_le_div_of_nonneg_left (sigma2_nonneg hp hw 1 j) (mackW_pos hp hw 1 hj) ?_
    unfold Spec.mackW
    refine Finset.sum_le_sum fun q hq => ?_
    rw [Finset.mem_range] at hq
    rw [pow_one]
    exact mul_le_of_le_one_left (hp q j (by omega)).le (hw1 q j (by omega))
  have hcross : ∀ i < n, Spec.crossTerm n c (Spec.mackF 1 n c w) (Spec.sigma2 1 n c w) i =
      2 * ∑ k ∈ Finset.Ico (i + 1) n, Spec.ult n c f i * Spec.ult n c f k *
        ∑ p ∈ Finset.Ico (n - 1 - i) (n - 1), s p / f p ^ 2 / ∑ r ∈ Finset.range (n - 1 - p), c r p := fun i _ => by
    unfold Spec.crossTerm
    rw [← ult_congr hf, Finset.sum_congr rfl fun k _ => (ult_congr hf k).symm]
    have e : ∑ p ∈ Finset.Ico (n - 1 - i) (n - 1), Spec.sigma2 1 n c w p / Spec.mackF 1 n c w p ^ 2 /
        ∑ r ∈ Finset.range (n - 1 - p), c r p =
        ∑ p ∈ Finset.Ico (n - 1 - i) (n - 1), s p / f p ^ 2 / ∑ r ∈ Finset.range (n - 1 - p), c r p := by
      refine Finset.sum_congr rfl fun l hl => ?_
      rw [Finset.mem_Ico] at hl
      rw [hf l hl.2, hs l hl.2]
    rw [e, ← Finset.sum_mul, ← Finset.mul_sum]
    ring
  have hle : ∀ i < n, ∀ k ∈ Finset.Ico (i + 1) n, _ ≤ _ := fun i hi' k hk =>
    crossVar_le (n := n) (c := c) (f := f) (s := s) (v := v) (i := i) (k := k)
      (by rw [Finset.mem_Ico] at hk; omega) (by rw [Finset.mem_Ico] at hk; omega)
      (hp _ _ (by omega)).le (hp _ _ (by rw [Finset.mem_Ico] at hk; omega)).le hfp hv0 hsv
  have hle2 : ∀ i < n, Spec.mse 1 n c w i + Spec.crossTerm n c (Spec.mackF 1 n c w) (Spec.sigma2 1 n c w) i ≤
      Spec.procVar n c f s i + (Spec.paramVar n c f v i +
        2 * ∑ k ∈ Finset.Ico (i + 1) n, c i (n - 1 - i) * c k (n - 1 - k) *
          (∏ l ∈ Finset.Ico (n - 1 - k) (n - 1 - i), f l) *
          (∏ l ∈ Finset.Ico (n - 1 - i) (n - 1), (f l ^ 2 + v l) -
            ∏ l ∈ Finset.Ico (n - 1 - i) (n - 1), f l ^ 2)) := fun i hi' => by
    rw [hmse, hcross i hi', add_assoc]
    have := Finset.sum_le_sum (hle i hi')
    linarith
  have h0 : Spec.procVar n c f s 0 + (Spec.paramVar n c f v 0 +
        2 * ∑ k ∈ Finset.Ico (0 + 1) n, c 0 (n - 1 - 0) * c k (n - 1 - k) *
          (∏ l ∈ Finset.Ico (n - 1 - k) (n - 1 - 0), f l) *
          (∏ l ∈ Finset.Ico (n - 1 - 0) (n - 1), (f l ^ 2 + v l) -
            ∏ l ∈ Finset.Ico (n - 1 - 0) (n - 1), f l ^ 2)) = 0 := by
    unfold Spec.procVar Spec.paramVar
    simp
  rw [hW.msd_total]
  obtain ⟨m, rfl⟩ : ∃ m, n = m + 1 := ⟨n - 1, by omega⟩
  rw [Finset.sum_range_succ' _ m, h0, add_zero]
  simp only [Nat.add_sub_cancel] at *
  refine ⟨Finset.sum_le_sum fun k hk => hle2 (k + 1) (by rw [Finset.mem_range] at hk; omega), fun p1 p2 => ?_⟩
  refine Finset.sum_lt_sum (fun k hk => hle2 (k + 1) (by rw [Finset.mem_range] at hk; omega))
    ⟨1, Finset.mem_range.2 (by omega), ?_⟩
  rw [hmse, hcross 2 (by omega), add_assoc]
  have hlt : _ < _ := Finset.sum_lt_sum (hle 2 (by omega)) ⟨3, Finset.mem_Ico.2 ⟨le_rfl, by omega⟩, ?_⟩
  · have := mul_lt_mul_of_pos_left hlt (two_pos (α := ℝ))
    linarith
  · exact crossVar_lt (n := m + 1) hn (hp _ _ (by omega)) (hp _ _ (by omega)) hfp p1 p2 hsv

end

/-! Such claims and factors exist -/

theorem exists_mackPath_below (alpha a b : ℕ) {x : ℝ} {f s : ℕ → ℝ} (hx : 0 < x) (hf : ∀ k < b, 0 < f k)
    (hs : ∀ k < b, 0 ≤ s k) :
    ∃ (Ω : Type) (_ : MeasurableSpace Ω) (P : Measure Ω) (_ : IsProbabilityMeasure P) (ℱ : Filtration ℕ ‹_›)
      (E : ℕ → Ω → ℝ), Spec.MackPath P ℱ alpha a b E f s ∧ (∀ ω, E a ω = x) ∧ ∀ k ω, 0 < E k ω := by
  obtain ⟨Ω, i1, P, i2, ℱ, E, h, h1, h2⟩ := exists_mackPath (f := fun k => if k < b then f k else 1)
    (s := fun k => if k < b then s k else 0) alpha a b hx
    (fun k => by split; exacts [hf k ‹_›, one_pos])
    (fun k => by split; exacts [hs k ‹_›, le_rfl])
  refine ⟨Ω, i1, P, i2, ℱ, E, ⟨h.known, h.square, fun k k1 k2 => ?_, fun k k1 k2 => ?_⟩, h1, h2⟩
  · have := h.mean k k1 k2
    simp only [if_pos k2] at this
    exact this
  · have := h.var k k1 k2
    simp only [if_pos k2] at this
    exact this

/-- For all positive triangles, factors and variances there are independent origins that follow Mack's model, and
independent factors. -/
theorem exists_mackWorld {n : ℕ} {c : ℕ → ℕ → ℝ} {f s v : ℕ → ℝ} (hc : Spec.Positive n c)
    (hf : ∀ k < n - 1, 0 < f k) (hs : ∀ k < n - 1, 0 ≤ s k) (hv : ∀ k < n - 1, 0 ≤ v k) :
    ∃ (Ω : Type) (_ : MeasurableSpace Ω) (P : Measure Ω) (_ : IsProbabilityMeasure P) (ℱ : ℕ → Filtration ℕ ‹_›)
      (E : ℕ → ℕ → Ω → ℝ) (F : ℕ → Ω → ℝ), Spec.MackWorld P n c ℱ E F f s v := by
  have hpath : ∀ i : ℕ, ∃ (Ω : Type) (_ : MeasurableSpace Ω) (P : Measure Ω) (_ : IsProbabilityMeasure P)
      (ℱ : Filtration ℕ ‹_›) (E : ℕ → Ω → ℝ), Spec.MackPath P ℱ 1 (n - 1 - i) (n - 1) E f s ∧
        (∀ ω, E (n - 1 - i) ω = if i < n then c i (n - 1 - i) else 1) ∧ ∀ k ω, 0 < E k ω := fun i =>
    exists_mackPath_below 1 (n - 1 - i) (n - 1)
      (by split; exacts [hc i _ (by omega), one_pos]) hf hs
  choose Ω mΩ P hP ℱ E hE hx _ using hpath
  obtain ⟨Ω', m', P', hP', F, hF⟩ := exists_factors (n - 1) f (v := fun k => if k < n - 1 then v k else 0)
    (fun k => by split; exacts [hv k ‹_›, le_rfl])
  have hF' : Spec.Factors P' (n - 1) F f v := ⟨hF.meas, hF.square, hF.indep, hF.mean, fun k hk => by
    rw [hF.var k hk]; simp only [if_pos hk]⟩
  let Q : Measure (∀ i, Ω i) := Measure.infinitePi P
  have hfst : MeasurePreserving Prod.fst (Q.prod P') Q := measurePreserving_fst
  have hsnd : MeasurePreserving Prod.snd (Q.prod P') P' := measurePreserving_snd
  have hev : ∀ i, MeasurePreserving (fun ω : (∀ i, Ω i) × Ω' => ω.1 i) (Q.prod P') (P i) := fun i =>
    (measurePreserving_eval_infinitePi P i).comp hfst
  have hEm : ∀ i, Measurable (E i (n - 1)) := fun i =>
    (((hE i).known (n - 1) (by omega) le_rfl).mono ((ℱ i).le _)).measurable
  have hEm' : ∀ i, Measurable (fun ω : ∀ i, Ω i => E i (n - 1) (ω i)) := fun i =>
    (hEm i).comp (measurable_pi_apply i)
  refine ⟨(∀ i, Ω i) × Ω', inferInstance, Q.prod P', inferInstance, fun i => pastComap (ℱ i) (hev i).measurable,
    fun i k ω => E i k (ω.1 i), fun k ω => F k ω.2, fun i _ => (hE i).comp (hev i), fun i hi => ?_, ?_,
    hF'.comp hsnd, ?_⟩
  · refine Eventually.of_forall fun ω => ?_
    rw [hx i, if_pos hi]
  · have h1 : iIndepFun (fun i (ω : ∀ i, Ω i) => E i (n - 1) (ω i)) Q :=
      iIndepFun_infinitePi (X := fun i => E i (n - 1)) hEm
    exact iIndepFun_comp_preserving h1 hEm' hfst
  · exact indepFun_prod (X := fun (ω : ∀ i, Ω i) i => E i (n - 1) (ω i)) (Y := fun ω k => F k ω)
      (measurable_pi_iff.2 hEm') (measurable_pi_iff.2 hF.meas)

/-! An example, and what fails -/

/-- Claims of four origins. -/
def mseVals : ℕ → ℕ → ℝ
  | 0, 0 => 10 | 0, 1 => 20 | 0, 2 => 30 | 0, 3 => 36
  | 1, 0 => 10 | 1, 1 => 30 | 1, 2 => 40
  | 2, 0 => 10 | 2, 1 => 25
  | _, _ => 12

theorem mseVals_pos : Spec.Positive 4 mseVals := by
  intro i j _
  unfold mseVals
  split <;> norm_num

theorem mseVals_sig0 (alpha : ℕ) {j : ℕ} (hj : j < 2) : 0 < Spec.sig0 alpha 4 mseVals (fun _ _ => 1) j := by
  have hw : Spec.Weights (K := ℝ) 4 (fun _ _ => 1) := Spec.Weights.one (by norm_num)
  refine lt_of_le_of_ne (sig0_nonneg mseVals_pos hw alpha j) (Ne.symm fun h0 => ?_)
  rw [sig0_eq_zero mseVals_pos hw alpha (by omega)] at h0
  have h1 := h0 0 (by omega) one_ne_zero
  have h2 := h0 1 (by omega) one_ne_zero
  rw [← h2] at h1
  rcases (by omega : j = 0 ∨ j = 1) with rfl | rfl <;> norm_num [mseVals] at h1

theorem mseVals_sigma2 (alpha : ℕ) (j : ℕ) (hj : j < 3) : 0 < Spec.sigma2 alpha 4 mseVals (fun _ _ => 1) j := by
  have h0 := mseVals_sig0 alpha (j := 0) (by norm_num)
  have h1 := mseVals_sig0 alpha (j := 1) (by norm_num)
  unfold Spec.sigma2
  split
  · exact mseVals_sig0 alpha (by omega)
  · unfold Spec.sigLast
    exact lt_min (div_pos (pow_pos h1 2) h0) (lt_min h1 h0)

/-- The reported factors and variances of the example. -/
theorem mseVals_read (alpha : ℕ) : ∃ r, mackCore alpha (stairTri 4 mseVals) (stairTri 4 mseVals).a2aind0 = .ok r ∧
    ∃ f s v : ℕ → ℝ, (∀ j < 3, r.ldfs.iloc j = .fin (f j) ∧ r.devpvar.iloc j = .fin (s j)) ∧
      (∀ j < 3, r.ldfvar.iloc j = .fin (v j)) ∧ (∀ j < 3, 0 < f j) ∧ (∀ j < 3, 0 < s j) ∧ ∀ j < 3, 0 < v j := by
  have h := stairTri_stair 4 mseVals
  have hi := h.indW0 mseVals_pos.ne_zero
  have hw : Spec.Weights (K := ℝ) 4 (fun _ _ => 1) := Spec.Weights.one (by norm_num)
  obtain ⟨r, b, lab, hr, p⟩ := mack_parts h mseVals_pos hi hw le_rfl alpha
  have hd : ¬ Spec.Degenerate alpha 4 mseVals (fun _ _ => 1) := fun hd =>
    (mseVals_sig0 alpha (j := 1) (by norm_num)).ne' hd.1
  refine ⟨r, hr, Spec.mackF alpha 4 mseVals (fun _ _ => 1), Spec.sigma2 alpha 4 mseVals (fun _ _ => 1),
    Spec.ldfVar alpha 4 mseVals (fun _ _ => 1), fun j hj => ⟨p.ldf h j hj, ?_⟩, fun j hj => ?_,
    fun j hj => mackF_pos mseVals_pos hw alpha hj, fun j hj => mseVals_sigma2 alpha j hj,
    fun j hj => div_pos (mseVals_sigma2 alpha j hj) (mackW_pos mseVals_pos hw alpha hj)⟩
  · rw [p.dv j hj, storedVar_fin mseVals_pos hw hd]
  · rw [p.lv j hj, stored_ldfvar mseVals_pos hw hd hj]

/-- **C120 fails** for `alpha = 0` and `alpha = 2`: the process error of the second origin is not the variance of its
ultimate. -/
theorem C120_fails (alpha : ℕ) (ha : alpha = 0 ∨ alpha = 2) :
    ∃ r, mackCore alpha (stairTri 4 mseVals) (stairTri 4 mseVals).a2aind0 = .ok r ∧ ∃ f s : ℕ → ℝ,
      (∀ j < 3, r.ldfs.iloc j = .fin (f j) ∧ r.devpvar.iloc j = .fin (s j)) ∧
      ∃ (Ω : Type) (m0 : MeasurableSpace Ω) (P : Measure Ω) (_ : IsProbabilityMeasure P) (ℱ : Filtration ℕ m0)
        (E : ℕ → Ω → ℝ), Spec.MackPath P ℱ alpha 2 3 E f s ∧ (∀ ω, E 2 ω = mseVals 1 2) ∧
        r.procErr[1]? ≠ some (.fin Var[E 3; P]) := by
  have h := stairTri_stair 4 mseVals
  have hi := h.indW0 mseVals_pos.ne_zero
  have hw : Spec.Weights (K := ℝ) 4 (fun _ _ => 1) := Spec.Weights.one (by norm_num)
  obtain ⟨r, hr, f, s, v, h1, h2, h3, h4, -⟩ := mseVals_read alpha
  obtain ⟨r', hr', h5⟩ := C120_one_step h mseVals_pos hi hw le_rfl alpha
  rw [hr] at hr'; obtain rfl := Except.ok.inj hr'
  obtain ⟨h6, h7⟩ := h5 f s h1
  obtain ⟨Ω, m0, P, hP, ℱ, E, hE, hx, -⟩ := exists_mackPath_below alpha 2 3 (mseVals_pos 1 2 (by norm_num)) h3
    (fun k hk => (h4 k hk).le)
  refine ⟨r, hr, f, s, h1, Ω, m0, P, hP, ℱ, E, hE, hx, ?_⟩
  rw [h6]
  have h8 := h7 Ω m0 P ℱ E hE (Eventually.of_forall hx)
  intro h9
  have h10 := Num.fin.inj (Option.some.inj h9)
  have h11 : Var[E 3; P] = s 2 * mseVals 1 2 ^ (2 - alpha) := h8
  rw [h11] at h10
  have h12 : mseVals 1 2 = mseVals 1 2 ^ (2 - alpha) := mul_left_cancel₀ (h4 2 (by norm_num)).ne' h10
  rcases ha with rfl | rfl <;> norm_num [mseVals] at h12

/-- **C122 fails**: the mean squared error of the total is smaller than the mean squared distance. -/
theorem C122_fails :
    ∃ r, mackCore 1 (stairTri 4 mseVals) (stairTri 4 mseVals).a2aind0 = .ok r ∧ ∃ f s v : ℕ → ℝ,
      (∀ j < 3, r.ldfs.iloc j = .fin (f j) ∧ r.devpvar.iloc j = .fin (s j)) ∧
      (∀ j < 3, r.ldfvar.iloc j = .fin (v j)) ∧
      ∃ (Ω : Type) (m0 : MeasurableSpace Ω) (P : Measure Ω) (_ : IsProbabilityMeasure P) (ℱ : ℕ → Filtration ℕ m0)
        (E : ℕ → ℕ → Ω → ℝ) (F : ℕ → Ω → ℝ), Spec.MackWorld P 4 mseVals ℱ E F f s v ∧
        ∃ T, r.totMse = .fin T ∧ T < ∫ ω, (∑ i ∈ Finset.range 4, E i 3 ω -
          ∑ i ∈ Finset.range 4, mseVals i (3 - i) * ∏ k ∈ Finset.Ico (3 - i) 3, F k ω) ^ 2 ∂P := by
  have h := stairTri_stair 4 mseVals
  have hi := h.indW0 mseVals_pos.ne_zero
  have hw : Spec.Weights (K := ℝ) 4 (fun _ _ => 1) := Spec.Weights.one (by norm_num)
  obtain ⟨r, hr, f, s, v, h1, h2, h3, h4, h5⟩ := mseVals_read 1
  obtain ⟨r', hr', h6⟩ := C122_partial h mseVals_pos hi hw (fun _ _ _ => le_rfl) le_rfl
  rw [hr] at hr'; obtain rfl := Except.ok.inj hr'
  obtain ⟨Ω, m0, P, hP, ℱ, E, F, hW⟩ := exists_mackWorld (n := 4) mseVals_pos h3 (fun k hk => (h4 k hk).le)
    (fun k hk => (h5 k hk).le)
  obtain ⟨-, T, hT, -, hlt⟩ := h6 f s v h1 h2 Ω m0 P ℱ E F hW
  exact ⟨r, hr, f, s, v, h1, h2, Ω, m0, P, hP, ℱ, E, F, hW, T, hT, hlt (h5 1 (by norm_num)) (h5 2 (by norm_num))⟩

/-- Claims that follow the reported model exist for the example, so its process errors are variances. -/
example : ∃ r, mackCore 1 (stairTri 4 mseVals) (stairTri 4 mseVals).a2aind0 = .ok r ∧ ∀ i < 4,
    ∃ (Ω : Type) (m0 : MeasurableSpace Ω) (P : Measure Ω) (_ : IsProbabilityMeasure P) (X : Ω → ℝ),
      0 ≤ Var[X; P] ∧ r.procErr[i]? = some (.fin Var[X; P]) ∧
      (r.rows.map SummRow.ultimate)[i]? = some (.fin (∫ ω, X ω ∂P)) := by
  have h := stairTri_stair 4 mseVals
  have hi := h.indW0 mseVals_pos.ne_zero
  have hw : Spec.Weights (K := ℝ) 4 (fun _ _ => 1) := Spec.Weights.one (by norm_num)
  obtain ⟨r, hr, f, s, v, h1, h2, h3, h4, h5⟩ := mseVals_read 1
  obtain ⟨r', hr', h6⟩ := C120_partial h mseVals_pos hi hw le_rfl
  rw [hr] at hr'; obtain rfl := Except.ok.inj hr'
  refine ⟨r, hr, fun i hi' => ?_⟩
  obtain ⟨Ω, m0, P, hP, ℱ, E, hE, hx, -⟩ := exists_mackPath_below 1 (3 - i) 3 (mseVals_pos i (3 - i) (by omega)) h3
    (fun k hk => (h4 k hk).le)
  obtain ⟨e1, e2⟩ := h6 f s h1 i hi' Ω m0 P ℱ E hE (Eventually.of_forall hx)
  exact ⟨Ω, m0, P, hP, E 3, variance_nonneg _ _, e2, e1⟩

/-- Factors as in C121 exist for the example, for every `alpha`. -/
example (alpha : ℕ) : ∃ r, mackCore alpha (stairTri 4 mseVals) (stairTri 4 mseVals).a2aind0 = .ok r ∧
    ∃ (Ω : Type) (m0 : MeasurableSpace Ω) (P : Measure Ω) (_ : IsProbabilityMeasure P) (F : ℕ → Ω → ℝ),
      r.paramErr[3]? = some (.fin Var[fun ω => 12 * ∏ k ∈ Finset.Ico 0 3, F k ω; P]) := by
  have h := stairTri_stair 4 mseVals
  have hi := h.indW0 mseVals_pos.ne_zero
  have hw : Spec.Weights (K := ℝ) 4 (fun _ _ => 1) := Spec.Weights.one (by norm_num)
  obtain ⟨r, hr, f, s, v, h1, h2, h3, h4, h5⟩ := mseVals_read alpha
  obtain ⟨r', hr', h6⟩ := C121_param h mseVals_pos hi hw le_rfl alpha
  rw [hr] at hr'; obtain rfl := Except.ok.inj hr'
  obtain ⟨Ω, m0, P, hP, ℱ, E, F, hW⟩ := exists_mackWorld (n := 4) mseVals_pos h3 (fun k hk => (h4 k hk).le)
    (fun k hk => (h5 k hk).le)
  exact ⟨r, hr, Ω, m0, P, hP, F, (h6 f s v h1 h2 3 (by norm_num) Ω m0 P F hW.factors).2⟩

end Trikit
