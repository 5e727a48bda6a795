import Verif.Props.MackPredict
import Mathlib.Probability.CondVar

/-! # Claims of one origin that follow Mack's model -/

set_option linter.unusedSectionVars false

open MeasureTheory ProbabilityTheory Filter

namespace Trikit

section
variable {Ω : Type} {m0 : MeasurableSpace Ω} {P : Measure Ω} [IsProbabilityMeasure P]

/-- Claims `E` of one origin from period `a` to period `b` that follow Mack's model: given everything up to period
`k`, the next value has mean `f k * E k` and variance `s k * E k ^ (2 - alpha)`. -/
structure Spec.MackPath (P : Measure Ω) (ℱ : Filtration ℕ m0) (alpha a b : ℕ) (E : ℕ → Ω → ℝ) (f s : ℕ → ℝ) :
    Prop where
  known : ∀ k, a ≤ k → k ≤ b → StronglyMeasurable[ℱ k] (E k)
  square : ∀ k, a ≤ k → k ≤ b → MemLp (E k) 2 P
  mean : ∀ k, a ≤ k → k < b → P[E (k + 1) | ℱ k] =ᵐ[P] fun ω => f k * E k ω
  var : ∀ k, a ≤ k → k < b → Var[E (k + 1); P | ℱ k] =ᵐ[P] fun ω => s k * E k ω ^ (2 - alpha)

variable {ℱ : Filtration ℕ m0} {alpha a b : ℕ} {E : ℕ → Ω → ℝ} {f s : ℕ → ℝ}

/-- Variance after some periods, as a multiple of the first value. -/
noncomputable def Spec.pathVar (f s : ℕ → ℝ) (a b : ℕ) : ℝ :=
  ∑ k ∈ Finset.Ico a b, (∏ l ∈ Finset.Ico a k, f l) * s k * ∏ l ∈ Finset.Ico (k + 1) b, f l ^ 2

theorem pathVar_succ (hab : a ≤ b) :
    Spec.pathVar f s a (b + 1) = f b ^ 2 * Spec.pathVar f s a b + s b * ∏ l ∈ Finset.Ico a b, f l := by
  unfold Spec.pathVar
  rw [Finset.sum_Ico_succ_top hab, Finset.Ico_self, Finset.prod_empty, mul_one, Finset.mul_sum]
  congr 1
  · refine Finset.sum_congr rfl fun k hk => ?_
    rw [Finset.mem_Ico] at hk
    rw [Finset.prod_Ico_succ_top (by omega : k + 1 ≤ b)]
    ring
  · ring

theorem Spec.MackPath.develop (h : Spec.MackPath P ℱ alpha a b E f s) {k : ℕ} (hak : a ≤ k) (hkb : k ≤ b) :
    P[E k | ℱ a] =ᵐ[P] fun ω => E a ω * ∏ l ∈ Finset.Ico a k, f l := by
  induction k, hak using Nat.le_induction with
  | base =>
    rw [condExp_of_stronglyMeasurable (ℱ.le a) (h.known a le_rfl hkb)
      ((h.square a le_rfl hkb).integrable one_le_two)]
    simp
  | succ k hak ih =>
    have h1 := condExp_condExp_of_le (μ := P) (f := E (k + 1)) (ℱ.mono hak) (ℱ.le k)
    have h2 := condExp_congr_ae (m := ℱ a) (h.mean k hak (by omega))
    have h3 : P[fun ω => f k * E k ω | ℱ a] =ᵐ[P] fun ω => f k * (P[E k | ℱ a]) ω :=
      condExp_smul (f k) (E k) (ℱ a)
    filter_upwards [h1, h2, h3, ih (by omega)] with ω e1 e2 e3 e4
    rw [← e1, e2, e3, e4, Finset.prod_Ico_succ_top hak]
    ring

theorem Spec.MackPath.cond_sq (h : Spec.MackPath P ℱ 1 a b E f s) {k : ℕ} (hak : a ≤ k) (hkb : k ≤ b) :
    P[fun ω => (E k ω - E a ω * ∏ l ∈ Finset.Ico a k, f l) ^ 2 | ℱ a] =ᵐ[P]
      fun ω => E a ω * Spec.pathVar f s a k := by
  induction k, hak using Nat.le_induction with
  | base =>
    have : (fun ω => (E a ω - E a ω * ∏ l ∈ Finset.Ico a a, f l) ^ 2) = fun _ => (0 : ℝ) := by
      funext ω; simp
    rw [this]
    have e : (fun ω => E a ω * Spec.pathVar f s a a) = fun _ => (0 : ℝ) := by
      funext ω; simp [Spec.pathVar]
    rw [e, condExp_const (ℱ.le a)]
  | succ k hak ih =>
    obtain ⟨m, hm⟩ : ∃ m : ℝ, m = ∏ l ∈ Finset.Ico a k, f l := ⟨_, rfl⟩
    rw [Finset.prod_Ico_succ_top hak, pathVar_succ hak]
    have ih' := ih (by omega)
    rw [← hm] at ih' ⊢
    have hEk := h.square k hak (by omega)
    have hEa := h.square a le_rfl (by omega)
    have hEs := h.square (k + 1) (by omega) hkb
    have hd : MemLp (fun ω => E (k + 1) ω - f k * E k ω) 2 P := hEs.sub (hEk.const_mul (f k))
    have hg : MemLp (fun ω => f k * (E k ω - E a ω * m)) 2 P := (hEk.sub (hEa.mul_const m)).const_mul (f k)
    have hgm : StronglyMeasurable[ℱ k] (fun ω => f k * (E k ω - E a ω * m)) :=
      (((h.known k hak (by omega)).sub (((h.known a le_rfl (by omega)).mono (ℱ.mono hak)).mul_const m)).const_mul _)
    have i1 : Integrable (fun ω => (E (k + 1) ω - f k * E k ω) ^ 2) P := hd.integrable_sq
    have i2 : Integrable (fun ω => f k * (E k ω - E a ω * m) * (E (k + 1) ω - f k * E k ω)) P :=
      hg.integrable_mul hd
    have i3 : Integrable (fun ω => (f k * (E k ω - E a ω * m)) ^ 2) P := hg.integrable_sq
    have e : (fun ω => (E (k + 1) ω - E a ω * (m * f k)) ^ 2) =
        ((fun ω => (E (k + 1) ω - f k * E k ω) ^ 2) +
          ((2 : ℝ) • fun ω => f k * (E k ω - E a ω * m) * (E (k + 1) ω - f k * E k ω))) +
          fun ω => (f k * (E k ω - E a ω * m)) ^ 2 := by
      funext ω
      simp only [Pi.add_apply, Pi.smul_apply, smul_eq_mul]
      ring
    rw [e]
    have s1 := condExp_add (i1.add (i2.smul (2 : ℝ))) i3 (ℱ a)
    have s2 := condExp_add i1 (i2.smul (2 : ℝ)) (ℱ a)
    have s3 := condExp_smul (μ := P) (2 : ℝ)
      (fun ω => f k * (E k ω - E a ω * m) * (E (k + 1) ω - f k * E k ω)) (ℱ a)
    -- the first square
    have v1 : P[fun ω => (E (k + 1) ω - f k * E k ω) ^ 2 | ℱ k] =ᵐ[P] fun ω => s k * E k ω := by
      have hv := h.var k hak (by omega)
      refine (condExp_congr_ae ?_).trans (hv.trans ?_)
      · filter_upwards [h.mean k hak (by omega)] with ω hω
        simp only [Pi.pow_apply, Pi.sub_apply]
        rw [hω]
      · exact Eventually.of_forall fun ω => by simp
    have v2 : P[fun ω => (E (k + 1) ω - f k * E k ω) ^ 2 | ℱ a] =ᵐ[P] fun ω => s k * (E a ω * m) := by
      have t1 := condExp_condExp_of_le (μ := P) (f := fun ω => (E (k + 1) ω - f k * E k ω) ^ 2)
        (ℱ.mono hak) (ℱ.le k)
      have t2 := condExp_congr_ae (m := ℱ a) v1
      have t3 : P[fun ω => s k * E k ω | ℱ a] =ᵐ[P] fun ω => s k * (P[E k | ℱ a]) ω :=
        condExp_smul (s k) (E k) (ℱ a)
      filter_upwards [t1, t2, t3, h.develop hak (by omega)] with ω e1 e2 e3 e4
      rw [← e1, e2, e3, e4, hm]
    -- the mixed term
    have w1 : P[fun ω => f k * (E k ω - E a ω * m) * (E (k + 1) ω - f k * E k ω) | ℱ k] =ᵐ[P] fun _ => 0 := by
      have t1 := condExp_mul_of_stronglyMeasurable_left (μ := P) hgm i2 (hd.integrable one_le_two)
      have t2 := condExp_sub (μ := P) (hEs.integrable one_le_two) ((hEk.integrable one_le_two).const_mul (f k)) (ℱ k)
      have t3 : P[fun ω => f k * E k ω | ℱ k] = fun ω => f k * E k ω :=
        condExp_of_stronglyMeasurable (ℱ.le k) ((h.known k hak (by omega)).const_mul _)
          ((hEk.integrable one_le_two).const_mul (f k))
      filter_upwards [t1, t2, h.mean k hak (by omega)] with ω e1 e2 e3
      refine e1.trans ?_
      rw [Pi.mul_apply]
      have e2' : (P[fun ω => E (k + 1) ω - f k * E k ω | ℱ k]) ω = 0 := by
        refine e2.trans ?_
        rw [Pi.sub_apply, e3, t3, sub_self]
      rw [e2', mul_zero]
    have w2 : P[fun ω => f k * (E k ω - E a ω * m) * (E (k + 1) ω - f k * E k ω) | ℱ a] =ᵐ[P] fun _ => 0 := by
      have t1 := condExp_condExp_of_le (μ := P)
        (f := fun ω => f k * (E k ω - E a ω * m) * (E (k + 1) ω - f k * E k ω)) (ℱ.mono hak) (ℱ.le k)
      have t2 := condExp_congr_ae (m := ℱ a) w1
      rw [condExp_const (ℱ.le a)] at t2
      exact t1.symm.trans t2
    have u1 : P[fun ω => (f k * (E k ω - E a ω * m)) ^ 2 | ℱ a] =ᵐ[P]
        fun ω => f k ^ 2 * (E a ω * Spec.pathVar f s a k) := by
      have t : (fun ω => (f k * (E k ω - E a ω * m)) ^ 2) = (f k ^ 2) • fun ω => (E k ω - E a ω * m) ^ 2 := by
        funext ω; simp only [Pi.smul_apply, smul_eq_mul]; ring
      rw [t]
      filter_upwards [condExp_smul (μ := P) (f k ^ 2) (fun ω => (E k ω - E a ω * m) ^ 2) (ℱ a), ih'] with ω e1 e2
      rw [e1, Pi.smul_apply, e2, smul_eq_mul]
    filter_upwards [s1, s2, s3, v2, w2, u1] with ω e1 e2 e3 e4 e5 e6
    rw [e1, Pi.add_apply, e2, Pi.add_apply, e3, Pi.smul_apply, e4, e5, e6]
    simp only [smul_eq_mul]
    ring

/-- Conditional variance of later claims, given the first ones. -/
theorem Spec.MackPath.cond_var (h : Spec.MackPath P ℱ 1 a b E f s) {k : ℕ} (hak : a ≤ k) (hkb : k ≤ b) :
    Var[E k; P | ℱ a] =ᵐ[P] fun ω => E a ω * Spec.pathVar f s a k := by
  refine (condExp_congr_ae ?_).trans (h.cond_sq hak hkb)
  filter_upwards [h.develop hak hkb] with ω hω
  simp only [Pi.pow_apply, Pi.sub_apply]
  rw [hω]

end

/-! Such claims exist for all parameters. -/

/-- Law of a sign that is positive with probability `e ^ 2 / (1 + e ^ 2)`. -/
noncomputable def tilted (e : ℝ) : Measure ℝ :=
  ENNReal.ofReal (e ^ 2 / (1 + e ^ 2)) • Measure.dirac 1 + ENNReal.ofReal (1 / (1 + e ^ 2)) • Measure.dirac (-1)

theorem tilted_probability (e : ℝ) : IsProbabilityMeasure (tilted e) := by
  constructor
  unfold tilted
  simp only [Measure.add_apply, Measure.smul_apply, measure_univ, smul_eq_mul, mul_one]
  rw [← ENNReal.ofReal_add (by positivity) (by positivity), ← add_div, add_comm, div_self (by positivity),
    ENNReal.ofReal_one]

/-- A value that is seldom large: `1 / e`, otherwise `-e`. -/
noncomputable def jump (e z : ℝ) : ℝ := if 0 ≤ z then 1 / e else -e

theorem measurable_jump (e : ℝ) : Measurable (jump e) :=
  Measurable.ite measurableSet_Ici measurable_const measurable_const

theorem integral_tilted (e : ℝ) (g : ℝ → ℝ) :
    ∫ z, g z ∂(tilted e) = e ^ 2 / (1 + e ^ 2) * g 1 + 1 / (1 + e ^ 2) * g (-1) := by
  unfold tilted
  have hi : ∀ (q a : ℝ), Integrable g (ENNReal.ofReal q • Measure.dirac a) := fun q a =>
    (integrable_dirac (by simp)).smul_measure (by simp)
  rw [integral_add_measure (hi _ 1) (hi _ (-1)), integral_smul_measure, integral_smul_measure,
    integral_dirac, integral_dirac, ENNReal.toReal_ofReal (by positivity), ENNReal.toReal_ofReal (by positivity)]
  rfl

theorem jump_mean {e : ℝ} (he : 0 < e) : ∫ z, jump e z ∂(tilted e) = 0 := by
  rw [integral_tilted]
  unfold jump
  rw [if_pos zero_le_one, if_neg (by norm_num)]
  field_simp
  ring

theorem jump_var {e : ℝ} (he : 0 < e) : ∫ z, jump e z ^ 2 ∂(tilted e) = 1 := by
  rw [integral_tilted]
  unfold jump
  rw [if_pos zero_le_one, if_neg (by norm_num)]
  field_simp

theorem jump_abs {e : ℝ} (he : 0 < e) (z : ℝ) : |jump e z| ≤ 1 / e + e ∧ -e ≤ jump e z ∧ jump e z ≤ 1 / e := by
  have : 0 < 1 / e := by positivity
  unfold jump
  split
  · rw [abs_of_pos this]
    exact ⟨by linarith, by linarith, le_rfl⟩
  · rw [abs_neg, abs_of_pos he]
    exact ⟨by linarith, le_rfl, by linarith⟩

section
variable (alpha a : ℕ) (x : ℝ) (f s : ℕ → ℝ)

/-- Bounds of the claims constructed below. -/
noncomputable def pathBounds : ℕ → ℝ × ℝ
  | 0 => (x, x)
  | k + 1 => if k < a then (x, x) else
      (f k * (pathBounds k).1 / 2, f k * (pathBounds k).2 + √(s k * (pathBounds k).2 ^ (2 - alpha)) /
        (f k * (pathBounds k).1 / (2 * (√(s k * (pathBounds k).2 ^ (2 - alpha)) + 1))))

/-- Size of the small steps down. -/
noncomputable def pathEps (k : ℕ) : ℝ :=
  f k * (pathBounds alpha a x f s k).1 / (2 * (√(s k * (pathBounds alpha a x f s k).2 ^ (2 - alpha)) + 1))

/-- Claims that start at `x` in period `a`. -/
noncomputable def pathOf (ω : ℕ → ℝ) : ℕ → ℝ
  | 0 => x
  | k + 1 => if k < a then x else
      f k * pathOf ω k + jump (pathEps alpha a x f s k) (ω (k + 1)) * √(s k * pathOf ω k ^ (2 - alpha))

variable {alpha a x f s}

theorem pathOf_start (ω : ℕ → ℝ) : ∀ k ≤ a, pathOf alpha a x f s ω k = x := by
  intro k hk
  cases k with
  | zero => rfl
  | succ k => rw [pathOf, if_pos (by omega)]

theorem pathOf_bounds (hx : 0 < x) (hf : ∀ k, 0 < f k) (hs : ∀ k, 0 ≤ s k) (ω : ℕ → ℝ) (k : ℕ) :
    0 < (pathBounds alpha a x f s k).1 ∧ (pathBounds alpha a x f s k).1 ≤ pathOf alpha a x f s ω k ∧
      pathOf alpha a x f s ω k ≤ (pathBounds alpha a x f s k).2 := by
  induction k with
  | zero => exact ⟨hx, le_rfl, le_rfl⟩
  | succ k ih =>
    by_cases hk : k < a
    · rw [pathBounds, if_pos hk, pathOf_start ω _ hk]
      exact ⟨hx, le_rfl, le_rfl⟩
    · obtain ⟨h1, h2, h3⟩ := ih
      have he : pathEps alpha a x f s k = f k * (pathBounds alpha a x f s k).1 /
        (2 * (√(s k * (pathBounds alpha a x f s k).2 ^ (2 - alpha)) + 1)) := rfl
      rw [pathBounds, if_neg hk, ← he, pathOf, if_neg hk]
      generalize hL : (pathBounds alpha a x f s k).1 = L at *
      generalize hU : (pathBounds alpha a x f s k).2 = U at *
      generalize pathOf alpha a x f s ω k = y at *
      generalize hev : pathEps alpha a x f s k = e at *
      have hfk := hf k
      have hsq : √(s k * y ^ (2 - alpha)) ≤ √(s k * U ^ (2 - alpha)) :=
        Real.sqrt_le_sqrt (mul_le_mul_of_nonneg_left (pow_le_pow_left₀ (by linarith) h3 _) (hs k))
      have h0 := Real.sqrt_nonneg (s k * y ^ (2 - alpha))
      generalize √(s k * y ^ (2 - alpha)) = r at *
      generalize hB : √(s k * U ^ (2 - alpha)) = B at *
      have hB0 : 0 ≤ B := by rw [← hB]; exact Real.sqrt_nonneg _
      have he0 : 0 < e := by rw [he]; positivity
      obtain ⟨-, j1, j2⟩ := jump_abs he0 (ω (k + 1))
      have heB : e * B ≤ f k * L / 2 := by
        rw [he]
        have : B / (B + 1) ≤ 1 := by rw [div_le_one (by positivity)]; linarith
        calc f k * L / (2 * (B + 1)) * B = f k * L / 2 * (B / (B + 1)) := by field_simp
          _ ≤ f k * L / 2 * 1 := mul_le_mul_of_nonneg_left this (by positivity)
          _ = _ := mul_one _
      refine ⟨by positivity, ?_, ?_⟩
      · have e1 : -(e * B) ≤ jump e (ω (k + 1)) * r := by
          have : -e * r ≤ jump e (ω (k + 1)) * r := mul_le_mul_of_nonneg_right j1 h0
          have : e * r ≤ e * B := mul_le_mul_of_nonneg_left hsq he0.le
          linarith
        have e2 : f k * L ≤ f k * y := mul_le_mul_of_nonneg_left h2 hfk.le
        linarith
      · have e1 : jump e (ω (k + 1)) * r ≤ B / e := by
          calc jump e (ω (k + 1)) * r ≤ 1 / e * r := mul_le_mul_of_nonneg_right j2 h0
            _ ≤ 1 / e * B := mul_le_mul_of_nonneg_left hsq (by positivity)
            _ = B / e := by ring
        have e2 : f k * y ≤ f k * U := mul_le_mul_of_nonneg_left h3 hfk.le
        linarith

/-- For all start values, factors and variances there are positive claims that follow Mack's model. -/
theorem exists_mackPath (alpha a b : ℕ) (hx : 0 < x) (hf : ∀ k, 0 < f k) (hs : ∀ k, 0 ≤ s k) :
    ∃ (Ω : Type) (_ : MeasurableSpace Ω) (P : Measure Ω) (_ : IsProbabilityMeasure P) (ℱ : Filtration ℕ ‹_›)
      (E : ℕ → Ω → ℝ), Spec.MackPath P ℱ alpha a b E f s ∧ (∀ ω, E a ω = x) ∧ ∀ k ω, 0 < E k ω := by
  have hb := fun ω k => pathOf_bounds (alpha := alpha) (a := a) hx hf hs ω k
  have heps : ∀ k, 0 < pathEps alpha a x f s k := by
    intro k
    have := (hb (fun _ => 0) k).1
    have := hf k
    unfold pathEps
    positivity
  generalize pathBounds alpha a x f s = bd at hb
  have hp : ∀ k : ℕ, IsProbabilityMeasure (tilted (pathEps alpha a x f s (k - 1))) := fun k => tilted_probability _
  let P : Measure (ℕ → ℝ) := Measure.infinitePi (fun k : ℕ => tilted (pathEps alpha a x f s (k - 1)))
  have hYm : ∀ k, StronglyMeasurable (fun (ω : ℕ → ℝ) => ω k) :=
    fun k => (measurable_pi_apply k).stronglyMeasurable
  have hYi : iIndepFun (fun (k : ℕ) (ω : ℕ → ℝ) => ω k) P :=
    iIndepFun_infinitePi (X := fun _ => id) (fun _ => measurable_id)
  let ℱ := Filtration.natural (fun (k : ℕ) (ω : ℕ → ℝ) => ω k) hYm
  have hYF : ∀ k j, k ≤ j → StronglyMeasurable[ℱ j] (fun (ω : ℕ → ℝ) => ω k) := fun k j hkj =>
    (Filtration.stronglyAdapted_natural hYm k).mono (ℱ.mono hkj)
  have hmeas : ∀ k, StronglyMeasurable[ℱ k] (fun ω => pathOf alpha a x f s ω k) := by
    intro k
    induction k with
    | zero => exact stronglyMeasurable_const
    | succ k ih =>
      by_cases hk : k < a
      · have : (fun ω => pathOf alpha a x f s ω (k + 1)) = fun _ => x := by
          funext ω; exact pathOf_start ω _ hk
        rw [this]; exact stronglyMeasurable_const
      · have e : (fun ω => pathOf alpha a x f s ω (k + 1)) = fun ω => f k * pathOf alpha a x f s ω k +
            jump (pathEps alpha a x f s k) (ω (k + 1)) * √(s k * pathOf alpha a x f s ω k ^ (2 - alpha)) := by
          funext ω; rw [pathOf, if_neg hk]
        rw [e]
        have ih' := ih.mono (ℱ.mono (Nat.le_succ k))
        refine (ih'.const_mul _).add (StronglyMeasurable.mul ?_ ?_)
        · exact Measurable.stronglyMeasurable ((measurable_jump _).comp (hYF (k + 1) (k + 1) le_rfl).measurable)
        · exact Real.continuous_sqrt.comp_stronglyMeasurable ((ih'.pow _).const_mul _)
  have hbd : ∀ k, ∀ᵐ ω ∂P, ‖pathOf alpha a x f s ω k‖ ≤ (bd k).2 := fun k => Eventually.of_forall fun ω => by
    obtain ⟨h1, h2, h3⟩ := hb ω k
    rw [Real.norm_of_nonneg (by linarith)]
    exact h3
  have hsq : ∀ k, MemLp (fun ω => pathOf alpha a x f s ω k) 2 P := fun k =>
    MemLp.of_bound ((hmeas k).mono (ℱ.le k)).aestronglyMeasurable _ (hbd k)
  have hrm : ∀ k, StronglyMeasurable[ℱ k] (fun ω => √(s k * pathOf alpha a x f s ω k ^ (2 - alpha))) := fun k =>
    Real.continuous_sqrt.comp_stronglyMeasurable (((hmeas k).pow _).const_mul _)
  have hfree : ∀ k, ∀ g : ℝ → ℝ, Measurable g →
      P[fun ω : ℕ → ℝ => g (ω (k + 1)) | ℱ k] =ᵐ[P] fun _ => ∫ z, g z ∂(tilted (pathEps alpha a x f s k)) := by
    intro k g hg
    have hind : Indep (MeasurableSpace.comap (fun (ω : ℕ → ℝ) => ω (k + 1)) inferInstance) (ℱ k) P := by
      suffices Indep (⨆ l ∈ ({k + 1} : Set ℕ), MeasurableSpace.comap (fun (ω : ℕ → ℝ) => ω l) inferInstance)
          (⨆ l ∈ {l | l ≤ k}, MeasurableSpace.comap (fun (ω : ℕ → ℝ) => ω l) inferInstance) P by
        rwa [iSup_singleton] at this
      exact indep_iSup_of_disjoint (fun l => (hYm l).measurable.comap_le) hYi (by simp)
    have hle : MeasurableSpace.comap (fun (ω : ℕ → ℝ) => ω (k + 1)) inferInstance ≤ MeasurableSpace.pi :=
      (measurable_pi_apply (k + 1)).comap_le
    have hm : StronglyMeasurable[MeasurableSpace.comap (fun (ω : ℕ → ℝ) => ω (k + 1)) inferInstance]
        (fun ω : ℕ → ℝ => g (ω (k + 1))) :=
      Measurable.stronglyMeasurable (hg.comp (comap_measurable _))
    refine (condExp_indep_eq hle (ℱ.le k) hm hind).trans (Eventually.of_forall fun _ => ?_)
    have l1 := measurePreserving_eval_infinitePi (fun k : ℕ => tilted (pathEps alpha a x f s (k - 1))) (k + 1)
    exact l1.hasLaw.integral_comp hg.aestronglyMeasurable
  have hJ : ∀ k, MemLp (fun ω : ℕ → ℝ => jump (pathEps alpha a x f s k) (ω (k + 1))) 2 P := fun k =>
    MemLp.of_bound ((measurable_jump _).comp (measurable_pi_apply (k + 1))).aestronglyMeasurable _
      (Eventually.of_forall fun ω => (jump_abs (heps k) _).1)
  have hrb : ∀ k, ∀ᵐ ω ∂P, ‖√(s k * pathOf alpha a x f s ω k ^ (2 - alpha))‖ ≤ √(s k * (bd k).2 ^ (2 - alpha)) :=
    fun k => Eventually.of_forall fun ω => by
      obtain ⟨h1, h2, h3⟩ := hb ω k
      rw [Real.norm_of_nonneg (Real.sqrt_nonneg _)]
      exact Real.sqrt_le_sqrt (mul_le_mul_of_nonneg_left (pow_le_pow_left₀ (by linarith) h3 _) (hs k))
  have hstep : ∀ k, a ≤ k → ∀ ω, pathOf alpha a x f s ω (k + 1) = f k * pathOf alpha a x f s ω k +
      √(s k * pathOf alpha a x f s ω k ^ (2 - alpha)) * jump (pathEps alpha a x f s k) (ω (k + 1)) := by
    intro k hk ω
    rw [pathOf, if_neg (by omega), mul_comm (jump _ _)]
  have hmean : ∀ k, a ≤ k → P[fun ω => pathOf alpha a x f s ω (k + 1) | ℱ k] =ᵐ[P]
      fun ω => f k * pathOf alpha a x f s ω k := by
    intro k hk
    have e : (fun ω => pathOf alpha a x f s ω (k + 1)) = (fun ω => f k * pathOf alpha a x f s ω k) +
        fun ω => √(s k * pathOf alpha a x f s ω k ^ (2 - alpha)) *
          jump (pathEps alpha a x f s k) (ω (k + 1)) := by
      funext ω; exact hstep k hk ω
    rw [e]
    have i2 : Integrable (fun ω => √(s k * pathOf alpha a x f s ω k ^ (2 - alpha)) *
          jump (pathEps alpha a x f s k) (ω (k + 1))) P :=
      ((hJ k).integrable one_le_two).bdd_mul ((hrm k).mono (ℱ.le k)).aestronglyMeasurable (hrb k)
    have i1 : Integrable (fun ω => f k * pathOf alpha a x f s ω k) P := ((hsq k).integrable one_le_two).const_mul _
    have t0 := condExp_add i1 i2 (ℱ k)
    have t1 : P[fun ω => f k * pathOf alpha a x f s ω k | ℱ k] = fun ω => f k * pathOf alpha a x f s ω k :=
      condExp_of_stronglyMeasurable (ℱ.le k) ((hmeas k).const_mul _) i1
    have t2 := condExp_mul_of_stronglyMeasurable_left (μ := P) (hrm k) i2 ((hJ k).integrable one_le_two)
    have t3 := hfree k _ (measurable_jump (pathEps alpha a x f s k))
    rw [jump_mean (heps k)] at t3
    filter_upwards [t0, t2, t3] with ω e0 e2 e3
    rw [e0, Pi.add_apply, t1]
    have : (P[fun ω => √(s k * pathOf alpha a x f s ω k ^ (2 - alpha)) *
          jump (pathEps alpha a x f s k) (ω (k + 1)) | ℱ k]) ω = 0 := by
      refine e2.trans ?_
      rw [Pi.mul_apply, e3, mul_zero]
    rw [this, add_zero]
  refine ⟨ℕ → ℝ, inferInstance, P, inferInstance, ℱ, fun k ω => pathOf alpha a x f s ω k,
    ⟨fun k _ _ => hmeas k, fun k _ _ => hsq k, fun k hk _ => hmean k hk, ?_⟩, fun ω => pathOf_start ω a le_rfl,
    fun k ω => lt_of_lt_of_le (hb ω k).1 (hb ω k).2.1⟩
  intro k hk _
  have i2 : Integrable (fun ω : ℕ → ℝ => jump (pathEps alpha a x f s k) (ω (k + 1)) ^ 2) P := (hJ k).integrable_sq
  have hr2 : StronglyMeasurable[ℱ k] (fun ω => s k * pathOf alpha a x f s ω k ^ (2 - alpha)) :=
    ((hmeas k).pow _).const_mul _
  have hb2 : ∀ᵐ ω ∂P, ‖s k * pathOf alpha a x f s ω k ^ (2 - alpha)‖ ≤ s k * (bd k).2 ^ (2 - alpha) :=
    Eventually.of_forall fun ω => by
      obtain ⟨h1, h2, h3⟩ := hb ω k
      have : 0 ≤ pathOf alpha a x f s ω k := by linarith
      rw [Real.norm_of_nonneg (mul_nonneg (hs k) (pow_nonneg this _))]
      exact mul_le_mul_of_nonneg_left (pow_le_pow_left₀ this h3 _) (hs k)
  have i3 : Integrable (fun ω => s k * pathOf alpha a x f s ω k ^ (2 - alpha) *
      jump (pathEps alpha a x f s k) (ω (k + 1)) ^ 2) P :=
    i2.bdd_mul (hr2.mono (ℱ.le k)).aestronglyMeasurable hb2
  have t2 := condExp_mul_of_stronglyMeasurable_left (μ := P) hr2 i3 i2
  have t3 := hfree k _ ((measurable_jump (pathEps alpha a x f s k)).pow_const 2)
  rw [jump_var (heps k)] at t3
  have t4 : Var[fun ω => pathOf alpha a x f s ω (k + 1); P | ℱ k] =ᵐ[P]
      P[fun ω => s k * pathOf alpha a x f s ω k ^ (2 - alpha) *
        jump (pathEps alpha a x f s k) (ω (k + 1)) ^ 2 | ℱ k] := by
    refine condExp_congr_ae ?_
    filter_upwards [hmean k hk] with ω hω
    simp only [Pi.pow_apply, Pi.sub_apply]
    rw [hω, hstep k hk ω]
    have : 0 ≤ pathOf alpha a x f s ω k := by linarith [(hb ω k).1, (hb ω k).2.1]
    have hs' := Real.sq_sqrt (mul_nonneg (hs k) (pow_nonneg this (2 - alpha)))
    rw [add_sub_cancel_left, mul_pow, hs']
  filter_upwards [t4, t2, t3] with ω e4 e2 e3
  rw [e4]
  refine e2.trans ?_
  rw [Pi.mul_apply, e3, mul_one]

end

end Trikit
