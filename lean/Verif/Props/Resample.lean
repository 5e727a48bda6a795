import Verif.Props.Process
import Verif.Props.Boot
import Mathlib.Probability.Distributions.Gaussian.Real

/-! # Mean and variance of resampled increments -/

set_option linter.unusedSectionVars false

open MeasureTheory ProbabilityTheory

namespace Trikit

/-! Laws of the residuals. -/

/-- Law of one entry of `RandomState.choice(xs, size, replace=True)`: every entry is equally likely. -/
noncomputable def Spec.choiceLaw (xs : List ℝ) : Measure ℝ :=
  (xs.length : ENNReal)⁻¹ • (xs.map Measure.dirac).sum

/-- Mean of a list. -/
noncomputable def Spec.meanList (xs : List ℝ) : ℝ := xs.sum / xs.length

/-- Sum of squares around the mean. -/
noncomputable def Spec.sqList (xs : List ℝ) : ℝ := (xs.map (fun x => (x - Spec.meanList xs) ^ 2)).sum

/-- Law of a residual: one of the list, or normal with mean 0 and the standard deviation of the list (divisor one
less than the length). -/
noncomputable def Spec.residLaw (parametric : Bool) (xs : List ℝ) : Measure ℝ :=
  if parametric then gaussianReal 0 (Real.toNNReal (Spec.sqList xs / ((xs.length : ℝ) - 1))) else Spec.choiceLaw xs

/-- Mean of a residual. -/
noncomputable def Spec.residMean (parametric : Bool) (xs : List ℝ) : ℝ :=
  if parametric then 0 else Spec.meanList xs

/-- Variance of a residual. -/
noncomputable def Spec.residVar (parametric : Bool) (xs : List ℝ) : ℝ :=
  if parametric then Spec.sqList xs / ((xs.length : ℝ) - 1) else Spec.sqList xs / xs.length

theorem integral_diracs (xs : List ℝ) {g : ℝ → ℝ} (hg : Measurable g) :
    Integrable g (xs.map Measure.dirac).sum ∧ ∫ x, g x ∂(xs.map Measure.dirac).sum = (xs.map g).sum := by
  induction xs with
  | nil => simp
  | cons x xs ih =>
    have h1 : Integrable g (Measure.dirac x) := integrable_dirac (by simp)
    rw [List.map_cons, List.sum_cons, List.map_cons, List.sum_cons]
    refine ⟨h1.add_measure ih.1, ?_⟩
    rw [integral_add_measure h1 ih.1, ih.2, integral_dirac]

theorem diracs_univ (xs : List ℝ) : (xs.map Measure.dirac).sum Set.univ = (xs.length : ENNReal) := by
  induction xs with
  | nil => simp
  | cons x xs ih => simp [ih, add_comm]

theorem choiceLaw_probability {xs : List ℝ} (h : xs ≠ []) : IsProbabilityMeasure (Spec.choiceLaw xs) := by
  constructor
  unfold Spec.choiceLaw
  rw [Measure.smul_apply, diracs_univ, smul_eq_mul]
  refine ENNReal.inv_mul_cancel ?_ (by simp)
  simpa using h

theorem choiceLaw_integral (xs : List ℝ) (hx : xs ≠ []) {g : ℝ → ℝ} (hg : Measurable g) :
    Integrable g (Spec.choiceLaw xs) ∧ ∫ x, g x ∂(Spec.choiceLaw xs) = (xs.map g).sum / xs.length := by
  unfold Spec.choiceLaw
  obtain ⟨h1, h2⟩ := integral_diracs xs hg
  refine ⟨h1.smul_measure (by simpa using hx), ?_⟩
  rw [integral_smul_measure, h2]
  simp [div_eq_inv_mul]

theorem sqList_nonneg (xs : List ℝ) : 0 ≤ Spec.sqList xs := by
  unfold Spec.sqList
  refine List.sum_nonneg ?_
  intro y hy
  rw [List.mem_map] at hy
  obtain ⟨x, -, rfl⟩ := hy
  positivity

/-- The law is a probability law with the given mean and variance. -/
theorem residLaw_moments (parametric : Bool) {xs : List ℝ} (hx : xs ≠ []) (h2 : parametric = true → 2 ≤ xs.length) :
    IsProbabilityMeasure (Spec.residLaw parametric xs) ∧ MemLp id 2 (Spec.residLaw parametric xs) ∧
    ∫ x, x ∂(Spec.residLaw parametric xs) = Spec.residMean parametric xs ∧
    variance id (Spec.residLaw parametric xs) = Spec.residVar parametric xs := by
  unfold Spec.residLaw Spec.residMean Spec.residVar
  cases parametric with
  | true =>
    simp only [if_true]
    refine ⟨inferInstance, memLp_id_gaussianReal 2, integral_id_gaussianReal, ?_⟩
    rw [variance_id_gaussianReal, Real.coe_toNNReal]
    refine div_nonneg (sqList_nonneg xs) ?_
    have : (2 : ℝ) ≤ xs.length := by exact_mod_cast h2 rfl
    linarith
  | false =>
    simp only [Bool.false_eq_true, if_false]
    have hp := choiceLaw_probability hx
    obtain ⟨-, i1⟩ := choiceLaw_integral xs hx measurable_id
    have i2 := (choiceLaw_integral xs hx (g := fun x => x ^ 2) (by fun_prop)).1
    have hm : ∫ x, x ∂(Spec.choiceLaw xs) = Spec.meanList xs := by
      have : ∫ x, id x ∂(Spec.choiceLaw xs) = Spec.meanList xs := by rw [i1]; simp [Spec.meanList]
      exact this
    refine ⟨hp, ?_, hm, ?_⟩
    · rw [memLp_two_iff_integrable_sq measurable_id.aestronglyMeasurable]
      exact i2
    · rw [variance_eq_integral measurable_id.aemeasurable]
      simp only [id]
      rw [hm]
      exact (choiceLaw_integral xs hx (g := fun x => (x - Spec.meanList xs) ^ 2) (by fun_prop)).2

section
variable {Ω : Type} [MeasurableSpace Ω] {P : Measure Ω} [IsProbabilityMeasure P]

/-- Residuals drawn by `_bs_samples`: each has the law above, different ones are independent. -/
structure Spec.ResidDraws (P : Measure Ω) (parametric : Bool) (xs : List ℝ) (Z : ℕ → Ω → ℝ) : Prop where
  law : ∀ p, HasLaw (Z p) (Spec.residLaw parametric xs) P
  indep : ∀ p q, p ≠ q → IndepFun (Z p) (Z q) P

theorem Spec.ResidDraws.moments {parametric : Bool} {xs : List ℝ} {Z : ℕ → Ω → ℝ}
    (h : Spec.ResidDraws P parametric xs Z) (hx : xs ≠ []) (h2 : parametric = true → 2 ≤ xs.length) (p : ℕ) :
    MemLp (Z p) 2 P ∧ ∫ ω, Z p ω ∂P = Spec.residMean parametric xs ∧
      variance (Z p) P = Spec.residVar parametric xs := by
  obtain ⟨-, h3, h4, h5⟩ := residLaw_moments parametric hx h2
  refine ⟨?_, ?_, ?_⟩
  · have := (h.law p).map_eq
    rw [← this] at h3
    exact (memLp_map_measure_iff measurable_id.aestronglyMeasurable (h.law p).aemeasurable).1 h3
  · rw [(h.law p).integral_eq, h4]
  · rw [(h.law p).variance_eq, h5]

variable {t m : Tri ℝ} {n S : ℕ} {v : ℕ → ℕ → ℝ}

/-- **C118** For all staircases of fitted increments that are not negative after the first period, all numbers of
simulations and all lists of residuals: the resampled increment of an observed cell has mean `a + μ √a` and variance
`τ a`, where `a` is the fitted increment (1 when the first is negative), `μ` and `τ` are mean and variance of the
residuals that are drawn; resampled cumulative values are sums of independent resampled increments.  Parametric
residuals have mean 0, so resampling them adds no bias. -/
theorem C118_samples (hm : Spec.Stair m n v) (hv : ∀ i j, i + j < n → 0 < j → 0 ≤ v i j) {parametric : Bool}
    {xs : List ℝ} (hx : xs ≠ []) (h2 : parametric = true → 2 ≤ xs.length) {Z : ℕ → Ω → ℝ}
    (hZ : Spec.ResidDraws P parametric xs Z) {s i j : ℕ} (hs : s < S) (hij : i + j < n) :
    ∃ X C : Ω → ℝ,
      (∀ ω, ∃ row ∈ bsSamples Num.sqrt m S (fun p => .fin (Z p ω)), row.sim = s ∧ row.origin = m.oAt i ∧
        row.dev = m.dAt j ∧ row.fcst = false ∧ row.incr = .fin (Spec.startIncr v i j) ∧
        row.sampIncr = .fin (X ω) ∧ row.sampCum = .fin (C ω)) ∧
      ∫ ω, X ω ∂P = Spec.startIncr v i j + Spec.residMean parametric xs * √(Spec.startIncr v i j) ∧
      variance X P = Spec.residVar parametric xs * Spec.startIncr v i j ∧
      ∫ ω, C ω ∂P = ∑ k ∈ Finset.range (j + 1),
        (Spec.startIncr v i k + Spec.residMean parametric xs * √(Spec.startIncr v i k)) ∧
      variance C P = Spec.residVar parametric xs * ∑ k ∈ Finset.range (j + 1), Spec.startIncr v i k ∧
      (parametric = true → ∫ ω, X ω ∂P = Spec.startIncr v i j ∧
        ∫ ω, C ω ∂P = ∑ k ∈ Finset.range (j + 1), Spec.startIncr v i k) := by
  have ha : ∀ i j, i + j < n → 0 ≤ Spec.startIncr v i j := by
    intro i j hij
    unfold Spec.startIncr
    split
    · exact zero_le_one
    · rename_i h
      rcases Nat.eq_zero_or_pos j with rfl | hj
      · rw [not_and] at h; exact not_lt.1 (h rfl)
      · exact hv i j hij hj
  let pos : ℕ → ℕ := fun k => s * (n * n) + (i * n + k)
  let Y : ℕ → Ω → ℝ := fun k ω => Spec.startIncr v i k + Z (pos k) ω * √(Spec.startIncr v i k)
  have hL : ∀ k, MemLp (Y k) 2 P := fun k =>
    MemLp.add (f := fun _ => Spec.startIncr v i k) (g := fun ω => Z (pos k) ω * √(Spec.startIncr v i k))
      (memLp_const _) ((hZ.moments hx h2 _).1.mul_const _)
  have hYi : ∀ k, Integrable (Y k) P := fun k => (hL k).integrable (by norm_num)
  have hmean : ∀ k, ∫ ω, Y k ω ∂P =
      Spec.startIncr v i k + Spec.residMean parametric xs * √(Spec.startIncr v i k) := by
    intro k
    obtain ⟨z1, z2, -⟩ := hZ.moments hx h2 (pos k)
    simp only [Y]
    rw [integral_add (integrable_const _) ((z1.integrable (by norm_num)).mul_const _), integral_mul_const, z2]
    simp
  have hvar : ∀ k, i + k < n → variance (Y k) P = Spec.residVar parametric xs * Spec.startIncr v i k := by
    intro k hk
    obtain ⟨z1, -, z3⟩ := hZ.moments hx h2 (pos k)
    simp only [Y]
    rw [variance_const_add (z1.aestronglyMeasurable.mul_const _), variance_mul_const, z3,
      Real.sq_sqrt (ha i k hk)]
  refine ⟨Y j, fun ω => ∑ k ∈ Finset.range (j + 1), Y k ω, ?_, hmean j, hvar j hij, ?_, ?_, ?_⟩
  · intro ω
    obtain ⟨row, htab, hrow⟩ := bsSamples_tab (t := m) (S := S) hm rfl rfl (sq := Num.sqrt)
      (rt := fun i j => √(Spec.startIncr v i j)) (fun i j hij => Num.sqrt_fin (ha i j hij))
      (draw := fun p => .fin (Z p ω)) (z := fun p => Z p ω) (fun _ _ => rfl)
    refine ⟨row s i j, ?_, htab.sim s i j, htab.origin s i j, htab.dev s i j, ?_, ?_, (hrow s i j).2 hs hij, ?_⟩
    · rw [htab.eq]
      simp only [List.mem_flatMap, List.mem_map, List.mem_range]
      exact ⟨s, hs, i, by omega, j, by omega, rfl⟩
    · rw [htab.fcst s i j (by omega) (by omega)]; simp; omega
    · rw [(hrow s i j).1, bootIncr_obs hm hij]
    · rw [htab.obs s i j hs hij]; rfl
  · rw [integral_finsetSum _ (fun k _ => hYi k)]
    exact Finset.sum_congr rfl fun k _ => hmean k
  · have hp : Set.Pairwise (↑(Finset.range (j + 1)) : Set ℕ) fun k l => IndepFun (Y k) (Y l) P := by
      intro k _ l _ hkl
      exact (hZ.indep (pos k) (pos l) (by simp only [pos]; omega)).comp
        (φ := fun z => Spec.startIncr v i k + z * √(Spec.startIncr v i k))
        (ψ := fun z => Spec.startIncr v i l + z * √(Spec.startIncr v i l)) (by fun_prop) (by fun_prop)
    have := IndepFun.variance_sum (fun k _ => hL k) hp
    rw [Finset.sum_fn] at this
    rw [this, Finset.mul_sum]
    refine Finset.sum_congr rfl fun k hk => hvar k ?_
    rw [Finset.mem_range] at hk; omega
  · rintro rfl
    have h0 : Spec.residMean true xs = 0 := rfl
    rw [hmean j, integral_finsetSum _ (fun k _ => hYi k), h0]
    refine ⟨by ring, Finset.sum_congr rfl fun k _ => ?_⟩
    rw [hmean k, h0]; ring

end

/-- Such residuals exist. -/
theorem exists_residDraws (parametric : Bool) {xs : List ℝ} (hx : xs ≠ []) (h2 : parametric = true → 2 ≤ xs.length) :
    ∃ (Ω : Type) (_ : MeasurableSpace Ω) (P : Measure Ω) (_ : IsProbabilityMeasure P) (Z : ℕ → Ω → ℝ),
      Spec.ResidDraws P parametric xs Z := by
  have hp := (residLaw_moments parametric hx h2).1
  refine ⟨ℕ → ℝ, inferInstance, Measure.infinitePi (fun _ => Spec.residLaw parametric xs), inferInstance,
    fun p ω => ω p, ⟨fun p =>
      (measurePreserving_eval_infinitePi (fun _ : ℕ => Spec.residLaw parametric xs) p).hasLaw, fun p q hpq => ?_⟩⟩
  have : iIndepFun (fun (q : ℕ) (ω : ℕ → ℝ) => ω q) (Measure.infinitePi fun _ => Spec.residLaw parametric xs) :=
    iIndepFun_infinitePi (X := fun _ => id) (fun _ => measurable_id)
  exact this.indepFun hpq

/-- The statement applies, and sampling from the residuals themselves is biased when their mean is not 0: residuals
1, 2, 3 lift a fitted increment of 260 on average by twice its root. -/
example : ∃ (Ω : Type) (_ : MeasurableSpace Ω) (P : Measure Ω) (Z : ℕ → Ω → ℝ) (X : Ω → ℝ),
    (∀ ω, ∃ row ∈ bsSamples Num.sqrt (stairTri 3 procVals) 5 (fun p => .fin (Z p ω)), row.sim = 4 ∧
      row.sampIncr = .fin (X ω) ∧ row.incr = .fin 260) ∧ ∫ ω, X ω ∂P = 260 + 2 * √260 := by
  obtain ⟨Ω, _, P, hP, Z, hZ⟩ := exists_residDraws false (xs := [1, 2, 3]) (by simp) (by simp)
  obtain ⟨X, C, h1, h2, -⟩ := C118_samples (P := P) (S := 5) (s := 4) (i := 1) (j := 1) (stairTri_stair 3 procVals)
    (fun i j _ _ => by unfold procVals; positivity) (by simp) (by simp) hZ (by norm_num) (by norm_num)
  have e : Spec.startIncr procVals 1 1 = 260 := by
    unfold Spec.startIncr procVals; norm_num
  have e2 : Spec.residMean false [1, 2, 3] = 2 := by
    norm_num [Spec.residMean, Spec.meanList]
  rw [e, e2] at h2
  refine ⟨Ω, _, P, Z, X, fun ω => ?_, h2⟩
  obtain ⟨row, r1, r2, -, -, -, r6, r7, -⟩ := h1 ω
  exact ⟨row, r1, r2, r7, by rw [r6, e]⟩

/-- A 4 x 4 triangle whose fitted increments are 1, 4, 1 and 1 times 100, 400, 100 and 100. -/
def biasTri : Tri ℚ := stairTri 4 (fun i j =>
  ((([[90, 510, 600, 700], [410, 1990, 2400], [100, 500], [100]] : List (List ℚ)).getD i []).getD j 0))

/-- Residuals of a fit need not have mean 0, so sampling from them can be biased. -/
theorem C118_bias_witness : (bootFit exSqrt (fun _ => .nan) biasTri biasTri.a2aind0).map
    (fun f => (f.sampling.length, f.sampling.sum)) = .ok (6, .fin (-(1 / 2))) := by decide +kernel

end Trikit
