import Mathlib.Probability.Distributions.Gaussian.Real
import Verif.Props.MackErrors

/-!
# Mack chain ladder: standard errors, distributions and quantiles (C46, C47, C48, C49)
-/

set_option linter.unusedSectionVars false

namespace Trikit

open MeasureTheory ProbabilityTheory

variable {t ind : Tri ℝ} {n : ℕ} {c w : ℕ → ℕ → ℝ}

theorem mackRV_ok {dist : String} (hd : dist = "norm" ∨ dist = "lognorm") (se r : Num ℝ) :
    ∃ v, mackRV dist se r = .ok v := by
  unfold mackRV
  rcases hd with rfl | rfl
  · exact ⟨_, if_pos rfl⟩
  · rw [if_neg (by decide), if_pos rfl]; exact ⟨_, rfl⟩

theorem mapM_all_ok {α β : Type} {f : α → Except PyErr β} (h : ∀ a, ∃ b, f a = .ok b) (l : List α) :
    ∃ m, l.mapM f = .ok m ∧ m.length = l.length ∧
      ∀ (i : ℕ) a, l[i]? = some a → ∃ b, f a = .ok b ∧ m[i]? = some b := by
  induction l with
  | nil => exact ⟨[], rfl, rfl, by simp⟩
  | cons x l ih =>
    obtain ⟨b, hb⟩ := h x
    obtain ⟨m, hm, hl, hg⟩ := ih
    refine ⟨b :: m, ?_, by simp [hl], ?_⟩
    · rw [List.mapM_cons, hb, hm]; rfl
    · intro i a hi
      cases i with
      | zero =>
        rw [List.getElem?_cons_zero, Option.some_inj] at hi
        subst hi
        exact ⟨b, hb, rfl⟩
      | succ i => exact hg i a (by simpa using hi)

/-- What a successful call returns. -/
theorem mackCall_ok {alpha : ℕ} {core : MackCore ℝ} (h : mackCore alpha t ind = .ok core)
    {dist : String} (hd : dist = "norm" ∨ dist = "lognorm") :
    ∃ r : MackResult, mackCall alpha t ind dist = .ok r ∧ r.core = core ∧
      r.stdErr = core.mse.map Num.sqrt ++ [Num.sqrt core.totMse] ∧
      r.rvs.length = min (core.mse.length + 1) (core.rows.length + 1) ∧
      ∀ (i : ℕ) s R, r.stdErr[i]? = some s →
        (core.rows.map SummRow.reserve ++ [core.totReserve])[i]? = some R →
        ∃ v, mackRV dist s R = .ok v ∧ r.rvs[i]? = some v := by
  obtain ⟨m, hm, hl, hg⟩ := mapM_all_ok (f := fun p : Num ℝ × Num ℝ => mackRV dist p.1 p.2)
    (fun p => mackRV_ok hd p.1 p.2)
    ((core.mse.map Num.sqrt ++ [Num.sqrt core.totMse]).zip
      (core.rows.map SummRow.reserve ++ [core.totReserve]))
  refine ⟨{ core := core, stdErr := core.mse.map Num.sqrt ++ [Num.sqrt core.totMse], cv := (List.zipWith (· / ·) (core.mse.map Num.sqrt ++ [Num.sqrt core.totMse]) (core.rows.map SummRow.reserve ++ [core.totReserve])).set 0 .nan, rvs := m },
    ?_, rfl, rfl, ?_, ?_⟩
  · unfold mackCall
    simp only [h, hm, bind, Except.bind]
  · show m.length = _
    rw [hl]; simp
  · intro i s R hs hR
    exact hg i (s, R) (by rw [List.getElem?_zip_eq_some]; exact ⟨hs, hR⟩)

/-- Any other distribution name raises `ValueError`, once the errors have been computed. -/
theorem mackCall_bad {alpha : ℕ} {core : MackCore ℝ} (h : mackCore alpha t ind = .ok core)
    {dist : String} (h1 : dist ≠ "norm") (h2 : dist ≠ "lognorm") :
    mackCall alpha t ind dist = .error .valueError := by
  unfold mackCall
  have hb : ∀ p : Num ℝ × Num ℝ, mackRV dist p.1 p.2 = .error .valueError := by
    intro p
    unfold mackRV
    rw [if_neg h1, if_neg h2]
  simp only [h, bind, Except.bind]
  have : ((core.mse.map Num.sqrt ++ [Num.sqrt core.totMse]).zip
      (core.rows.map SummRow.reserve ++ [core.totReserve])) ≠ [] := by
    intro e
    have := congrArg List.length e
    simp at this
  cases e : ((core.mse.map Num.sqrt ++ [Num.sqrt core.totMse]).zip
      (core.rows.map SummRow.reserve ++ [core.totReserve])) with
  | nil => exact absurd e this
  | cons p l =>
    rw [List.mapM_cons, hb p]
    rfl

/-! ## C46: standard errors -/

/-- **C46**, standard errors: on every positive staircase the standard errors are finite, not negative,
square to the mean squared errors, are 0 for the oldest origin, and the squared total standard error is
at least the sum of the squared standard errors of the origins. -/
theorem C46_std_errors (h : Spec.Stair t n c) (hp : Spec.Positive n c) (hi : IndW t ind n w)
    (hw : Spec.Weights n w) (hn : 4 ≤ n) (alpha : ℕ) {dist : String}
    (hdist : dist = "norm" ∨ dist = "lognorm") :
    ∃ r, ∃ s : ℕ → ℝ, ∃ T : ℝ, mackCall alpha t ind dist = .ok r ∧ r.stdErr.length = n + 1 ∧
      (∀ i < n, r.stdErr[i]? = some (.fin (s i)) ∧ 0 ≤ s i ∧ r.core.mse[i]? = some (.fin (s i ^ 2))) ∧
      s 0 = 0 ∧ r.stdErr[n]? = some (.fin T) ∧ 0 ≤ T ∧ ∑ i ∈ Finset.range n, s i ^ 2 ≤ T ^ 2 := by
  obtain ⟨core, pe, pa, m, T, hc, hlen, hm, h0, hT, hle⟩ := C46_mse h hp hi hw hn alpha
  obtain ⟨r, hr, hcore, hs, -, -⟩ := mackCall_ok hc hdist
  have hT0 : 0 ≤ T := le_trans (Finset.sum_nonneg (fun i hi' => (hm i (Finset.mem_range.1 hi')).2.2.2.2)) hle
  refine ⟨r, fun i => Real.sqrt (m i), Real.sqrt T, hr, by rw [hs]; simp [hlen], ?_, ?_, ?_,
    Real.sqrt_nonneg _, ?_⟩
  · intro i hi'
    obtain ⟨_, _, h3, _, h5⟩ := hm i hi'
    refine ⟨?_, Real.sqrt_nonneg _, ?_⟩
    · rw [hs, List.getElem?_append_left (by simpa [hlen] using hi'), List.getElem?_map, h3]
      show some (Num.sqrt (.fin (m i))) = _
      rw [Num.sqrt_fin h5]
    · rw [hcore, h3, Real.sq_sqrt h5]
  · show Real.sqrt (m 0) = 0
    rw [h0, Real.sqrt_zero]
  · rw [hs, List.getElem?_append_right (by simp [hlen])]
    simp [hlen, hT, Num.sqrt_fin hT0]
  · rw [Real.sq_sqrt hT0]
    refine le_trans (le_of_eq ?_) hle
    apply Finset.sum_congr rfl
    intro i hi'
    exact Real.sq_sqrt (hm i (Finset.mem_range.1 hi')).2.2.2.2

/-! ## C47 -/

/-- **C47, the failure in general**: when the link ratios of the two periods before the last show no
deviation, every standard error is 0, however much the earlier periods vary. -/
theorem C47_all_zero (h : Spec.Stair t n c) (hp : Spec.Positive n c) (hi : IndW t ind n w)
    (hw : Spec.Weights n w) (hn : 4 ≤ n) (alpha : ℕ) {dist : String}
    (hdist : dist = "norm" ∨ dist = "lognorm") {g : ℕ → ℝ}
    (hflat : ∀ j, j = n - 3 ∨ j = n - 4 → ∀ i, i + j + 1 < n → w i j ≠ 0 → c i (j + 1) / c i j = g j) :
    ∃ r, mackCall alpha t ind dist = .ok r ∧ r.stdErr = List.replicate (n + 1) (.fin 0) := by
  obtain ⟨core, b, lab, hr, p⟩ := mack_parts h hp hi hw hn alpha
  have hz : ∀ j, j = n - 3 ∨ j = n - 4 → Spec.sig0 alpha n c w j = 0 := by
    intro j hj
    have hj2 : j + 2 < n := by omega
    rw [sig0_eq_zero hp hw alpha hj2]
    have hf : Spec.mackF alpha n c w j = g j := by
      unfold Spec.mackF
      rw [div_eq_iff (mackW_pos hp hw alpha (by omega)).ne']
      unfold Spec.mackW Spec.colSum
      rw [Finset.mul_sum]
      apply Finset.sum_congr rfl
      intro i hi'
      rw [Finset.mem_range] at hi'
      show w i j * c i j ^ alpha * (c i (j + 1) / c i j) = g j * (w i j * c i j ^ alpha)
      by_cases e : w i j = 0
      · rw [e]; ring
      · rw [hflat j hj i (by omega) e]; ring
    rw [hf]
    exact hflat j hj
  have hd : Spec.Degenerate alpha n c w := ⟨hz _ (Or.inl rfl), hz _ (Or.inr rfl)⟩
  obtain ⟨-, -, h3, h4⟩ := p.degenerate (by omega) hp hw hd
  obtain ⟨r, hr', -, hs, -, -⟩ := mackCall_ok hr hdist
  refine ⟨r, hr', ?_⟩
  rw [hs, h3, h4, List.replicate_succ', List.map_map]
  congr 1
  · rw [List.eq_replicate_iff]
    refine ⟨by simp, ?_⟩
    intro b hb
    rw [List.mem_map] at hb
    obtain ⟨_, _, rfl⟩ := hb
    show Num.sqrt (.fin 0) = _
    rw [Num.sqrt_fin (le_refl _), Real.sqrt_zero]
  · rw [Num.sqrt_fin (le_refl _), Real.sqrt_zero]

/-- Values of the witness: first link ratios 1.5, 1.6, 1.7, 1.8, every later one 2. -/
noncomputable def mackFlat (i j : ℕ) : ℝ := if j = 0 then 100 else (150 + 10 * i) * 2 ^ (j - 1)

theorem mackFlat_pos : Spec.Positive 5 mackFlat := by
  intro i j _
  unfold mackFlat
  split
  · norm_num
  · positivity

/-- **C47 is violated**: a 5 x 5 triangle whose first link ratios are 1.5, 1.6, 1.7 and 1.8 (so they
cannot all be equal to the factor) and whose total standard error is reported as 0. -/
theorem C47_fails : ¬ (∀ (t : Tri ℝ) (n : ℕ) (c : ℕ → ℕ → ℝ), 4 ≤ n → Spec.Stair t n c →
    Spec.Positive n c → ∀ r, mackCall 1 t t.a2aind0 "norm" = .ok r →
    (∃ i j f, i + j + 1 < n ∧ r.core.ldfs.iloc j = .fin f ∧ c i (j + 1) / c i j ≠ f) →
    ∃ s > 0, r.stdErr[n]? = some (.fin s)) := by
  intro hall
  have h := stairTri_stair 5 mackFlat
  have hi := h.indW0 mackFlat_pos.ne_zero
  have hw : Spec.Weights (K := ℝ) 5 (fun _ _ => 1) := Spec.Weights.one (by norm_num)
  obtain ⟨r, hr, hs⟩ := C47_all_zero h mackFlat_pos hi hw (by norm_num) 1 (Or.inl rfl : "norm" = "norm" ∨ _)
    (g := fun _ => 2) (by
      intro j hj i _ _
      have hj' : j = 1 ∨ j = 2 := by omega
      have hne : (150 + 10 * (i : ℝ)) ≠ 0 := by positivity
      unfold mackFlat
      rcases hj' with rfl | rfl
      · norm_num
        field_simp
      · norm_num
        field_simp
        norm_num)
  obtain ⟨s, hs0, hs1⟩ := hall _ 5 mackFlat (by norm_num) h mackFlat_pos r hr (by
    obtain ⟨core, b, lab, hc, p⟩ := mack_parts h mackFlat_pos hi hw (by norm_num) 1
    obtain ⟨r', hr', hcore, -⟩ := mackCall_ok hc (Or.inl rfl : "norm" = "norm" ∨ "norm" = "lognorm")
    rw [hr] at hr'
    obtain rfl := Except.ok.inj hr'
    have hf := p.ldf h 0 (by norm_num)
    rw [← hcore] at hf
    by_cases e : mackFlat 0 1 / mackFlat 0 0 = Spec.mackF 1 5 mackFlat (fun _ _ => 1) 0
    · refine ⟨1, 0, _, by norm_num, hf, ?_⟩
      rw [← e]
      unfold mackFlat
      norm_num
    · exact ⟨0, 0, _, by norm_num, hf, e⟩)
  rw [hs] at hs1
  simp at hs1
  exact hs0.ne hs1

/-- **C47, partial**: on every positive staircase the total standard error is positive when a kept link
ratio of one of the two periods before the last deviates from its factor.  (Full statement: a kept link
ratio of any period; false by `C47_fails`.) -/
theorem C47_partial (h : Spec.Stair t n c) (hp : Spec.Positive n c) (hi : IndW t ind n w)
    (hw : Spec.Weights n w) (hn : 4 ≤ n) (alpha : ℕ) {dist : String}
    (hdist : dist = "norm" ∨ dist = "lognorm") :
    ∃ r, mackCall alpha t ind dist = .ok r ∧
      ((∃ j, (j = n - 3 ∨ j = n - 4) ∧ ∃ i f, i + j + 1 < n ∧ w i j ≠ 0 ∧
        r.core.ldfs.iloc j = .fin f ∧ c i (j + 1) / c i j ≠ f) →
      ∃ s > 0, r.stdErr[n]? = some (.fin s)) := by
  obtain ⟨core, b, lab, hr, p⟩ := mack_parts h hp hi hw hn alpha
  obtain ⟨r, hr', hcore, hs, -, -⟩ := mackCall_ok hr hdist
  refine ⟨r, hr', ?_⟩
  rintro ⟨j, hj, i, f, hij, hwi, hf, hne⟩
  rw [hcore, p.ldf h j (by omega)] at hf
  obtain rfl := Num.fin.inj hf
  have hz : Spec.sig0 alpha n c w j ≠ 0 := by
    intro e
    exact hne ((sig0_eq_zero hp hw alpha (by omega)).1 e i hij hwi)
  have hd : ¬ Spec.Degenerate alpha n c w := by
    rintro ⟨h1, h2⟩
    rcases hj with rfl | rfl
    · exact hz h1
    · exact hz h2
  have hpos : 0 < Spec.sigma2 alpha n c w j := by
    unfold Spec.sigma2
    rw [if_pos (by omega)]
    exact lt_of_le_of_ne (sig0_nonneg hp hw alpha _) (Ne.symm hz)
  obtain ⟨core', T, hc', hT, hT0⟩ := total_pos h hp hi hw hn alpha hd (by omega) hpos
  rw [hr] at hc'
  obtain rfl := Except.ok.inj hc'
  have hlen : core.mse.length = n := by rw [p.mse_eq h hp hw hd]; simp
  refine ⟨Real.sqrt T, Real.sqrt_pos.2 hT0, ?_⟩
  rw [hs, List.getElem?_append_right (by simp [hlen])]
  simp [hlen, hT, Num.sqrt_fin hT0.le]

/-! ## C48 -/

/-- The law of a scipy `lognorm(s = σ, scale = a)` variable: `a * exp (σ Z)` with `Z` standard normal. -/
noncomputable def lognormalLaw (a σ : ℝ) : Measure ℝ :=
  (gaussianReal 0 1).map (fun z => a * Real.exp (σ * z))

theorem expZ_integral (s : ℝ) : ∫ z, Real.exp (s * z) ∂(gaussianReal 0 1) = Real.exp (s ^ 2 / 2) := by
  have h := congrFun (mgf_fun_id_gaussianReal (μ := 0) (v := 1)) s
  simp only [mgf] at h
  rw [h]
  simp

theorem expZ_integrable (s : ℝ) : Integrable (fun z => Real.exp (s * z)) (gaussianReal 0 1) :=
  integrable_exp_mul_gaussianReal s

theorem lognormal_measurable (a σ : ℝ) : Measurable (fun z : ℝ => a * Real.exp (σ * z)) := by fun_prop

/-- Mean and variance of the law, for all parameters. -/
theorem lognormal_mean (a σ : ℝ) : ∫ x, x ∂(lognormalLaw a σ) = a * Real.exp (σ ^ 2 / 2) := by
  unfold lognormalLaw
  rw [integral_map (lognormal_measurable a σ).aemeasurable (by fun_prop), integral_const_mul,
    expZ_integral]

theorem lognormal_var (a σ m : ℝ) : ∫ x, (x - m) ^ 2 ∂(lognormalLaw a σ) =
    a ^ 2 * Real.exp (2 * σ ^ 2) - 2 * m * (a * Real.exp (σ ^ 2 / 2)) + m ^ 2 := by
  unfold lognormalLaw
  rw [integral_map (lognormal_measurable a σ).aemeasurable (by fun_prop)]
  have e : ∀ z, (a * Real.exp (σ * z) - m) ^ 2 =
      a ^ 2 * Real.exp ((2 * σ) * z) - 2 * m * a * Real.exp (σ * z) + m ^ 2 := by
    intro z
    have : Real.exp ((2 * σ) * z) = Real.exp (σ * z) ^ 2 := by
      rw [← Real.exp_nat_mul]; congr 1; push_cast; ring
    rw [this]; ring
  simp only [e]
  have i1 := (expZ_integrable (2 * σ)).const_mul (a ^ 2)
  have i2 := (expZ_integrable σ).const_mul (2 * m * a)
  rw [integral_add (f := fun z => a ^ 2 * Real.exp (2 * σ * z) - 2 * m * a * Real.exp (σ * z))
    (i1.sub i2) (integrable_const _), integral_sub i1 i2, integral_const_mul,
    integral_const_mul, expZ_integral, expZ_integral, integral_const]
  have : (2 * σ) ^ 2 / 2 = 2 * σ ^ 2 := by ring
  rw [this]
  simp
  ring

/-- The parameters computed by the code for finite positive reserve and finite standard error. -/
theorem logSigma_fin {s R : ℝ} (hR : 0 < R) :
    logSigma (.fin s) (.fin R) = .fin (Real.sqrt (Real.log (1 + (s / R) ^ 2))) := by
  unfold logSigma
  have h1 : (1 : ℝ) ≤ 1 + (s / R) ^ 2 := by nlinarith [sq_nonneg (s / R)]
  rw [Num.fin_div _ _ hR.ne', Num.pow_fin, Num.one_def, Num.fin_add, Num.log_fin (by linarith),
    Num.sqrt_fin (Real.log_nonneg h1)]
  rfl

theorem logMu_fin {s R : ℝ} (hR : 0 < R) :
    logMu (.fin s) (.fin R) =
      .fin (max (Real.log R) 0 - Real.log (1 + (s / R) ^ 2) / 2) := by
  unfold logMu
  have h1 : (1 : ℝ) ≤ 1 + (s / R) ^ 2 := by nlinarith [sq_nonneg (s / R)]
  rw [logSigma_fin hR, Num.log_fin hR, Num.pow_fin, Real.sq_sqrt (Real.log_nonneg h1)]
  have : clip0 (.fin (Real.log R)) = .fin (max (Real.log R) 0) := by
    unfold clip0
    rw [if_neg (by simp [Num.isNaN]), Num.zero_def, Num.lt_fin]
    by_cases e : Real.log R < 0
    · rw [if_pos (by simpa using e), max_eq_right e.le]
    · rw [if_neg (by simpa using e), max_eq_left (not_lt.1 e)]
  rw [this, Num.fin_mul, Num.sub_def, Num.fin_neg, Num.fin_add]
  congr 1; ring

theorem lognorm_params {s R : ℝ} (hR : 0 < R) :
    mackRV "lognorm" (.fin s) (.fin R) = .ok (.lognorm
      (.fin (Real.exp (max (Real.log R) 0 - Real.log (1 + (s / R) ^ 2) / 2)))
      (.fin (Real.sqrt (Real.log (1 + (s / R) ^ 2))))) := by
  unfold mackRV
  rw [if_neg (by decide), if_pos rfl, logMu_fin hR, logSigma_fin hR, Num.exp_fin]

/-- Mean and variance attached to a positive reserve. -/
theorem lognorm_moments {s R : ℝ} (hR : 0 < R) :
    ∃ a σ, mackRV "lognorm" (.fin s) (.fin R) = .ok (.lognorm (.fin a) (.fin σ)) ∧ 0 < a ∧ 0 ≤ σ ∧
      (0 < σ ↔ s ≠ 0) ∧ ∫ x, x ∂(lognormalLaw a σ) = max R 1 ∧
      ∫ x, (x - max R 1) ^ 2 ∂(lognormalLaw a σ) = (max R 1 * s / R) ^ 2 := by
  refine ⟨_, _, lognorm_params hR, Real.exp_pos _, Real.sqrt_nonneg _, ?_, ?_, ?_⟩
  · rw [Real.sqrt_pos]
    constructor
    · rintro h rfl
      simp at h
    · intro h
      apply Real.log_pos
      have : 0 < (s / R) ^ 2 := by positivity
      linarith
  all_goals
    have h1 : (1 : ℝ) ≤ 1 + (s / R) ^ 2 := by nlinarith [sq_nonneg (s / R)]
    have hm : Real.exp (max (Real.log R) 0) = max R 1 := by
      rcases le_total R 1 with h | h
      · rw [max_eq_right (Real.log_nonpos hR.le h), max_eq_right h, Real.exp_zero]
      · rw [max_eq_left (Real.log_nonneg h), max_eq_left h, Real.exp_log hR]
    have hhalf : ∀ L : ℝ, Real.exp (max (Real.log R) 0 - L / 2) * Real.exp (L / 2) = max R 1 := by
      intro L
      rw [← Real.exp_add, sub_add_cancel, hm]
  · rw [lognormal_mean, Real.sq_sqrt (Real.log_nonneg h1), hhalf]
  · rw [lognormal_var, Real.sq_sqrt (Real.log_nonneg h1), hhalf]
    have e2 : Real.exp (max (Real.log R) 0 - Real.log (1 + (s / R) ^ 2) / 2) ^ 2 *
        Real.exp (2 * Real.log (1 + (s / R) ^ 2)) = (max R 1) ^ 2 * (1 + (s / R) ^ 2) := by
      rw [← hm, ← Real.exp_nat_mul, ← Real.exp_nat_mul, ← Real.exp_add]
      nth_rewrite 3 [← Real.exp_log (by linarith : 0 < 1 + (s / R) ^ 2)]
      rw [← Real.exp_add]
      congr 1; push_cast; ring
    rw [e2]
    field_simp
    ring

/-- **C48.** The lognormal law the code attaches to a reserve `R ≥ 1` with standard error `s` has mean
`R` and variance `s ^ 2`. -/
theorem C48_lognormal {s R : ℝ} (hR : 1 ≤ R) :
    ∃ a σ, mackRV "lognorm" (.fin s) (.fin R) = .ok (.lognorm (.fin a) (.fin σ)) ∧
      ∫ x, x ∂(lognormalLaw a σ) = R ∧ ∫ x, (x - R) ^ 2 ∂(lognormalLaw a σ) = s ^ 2 := by
  obtain ⟨a, σ, h1, -, -, -, h2, h3⟩ := lognorm_moments (s := s) (lt_of_lt_of_le one_pos hR)
  rw [max_eq_left hR] at h2 h3
  refine ⟨a, σ, h1, h2, ?_⟩
  rw [h3, mul_comm, mul_div_assoc, div_self (by linarith), mul_one]

/-- **C48**, the bound is sharp: a positive reserve below 1 gets a distribution with mean 1. -/
theorem C48_small_reserve {s R : ℝ} (h0 : 0 < R) (hR : R < 1) :
    ∃ a σ, mackRV "lognorm" (.fin s) (.fin R) = .ok (.lognorm (.fin a) (.fin σ)) ∧
      ∫ x, x ∂(lognormalLaw a σ) = 1 := by
  obtain ⟨a, σ, h1, -, -, -, h2, -⟩ := lognorm_moments (s := s) h0
  rw [max_eq_right hR.le] at h2
  exact ⟨a, σ, h1, h2⟩

/-- **C48** in a call: every row of the summary with a reserve of at least 1 and a finite standard
error, the total included. -/
theorem C48_mack {alpha : ℕ} {r : MackResult} (h : mackCall alpha t ind "lognorm" = .ok r) {i : ℕ}
    {s R : ℝ} (hs : r.stdErr[i]? = some (.fin s))
    (hR : (r.core.rows.map SummRow.reserve ++ [r.core.totReserve])[i]? = some (.fin R)) (h1 : 1 ≤ R) :
    ∃ a σ, r.rvs[i]? = some (.lognorm (.fin a) (.fin σ)) ∧
      ∫ x, x ∂(lognormalLaw a σ) = R ∧ ∫ x, (x - R) ^ 2 ∂(lognormalLaw a σ) = s ^ 2 := by
  cases hc : mackCore alpha t ind with
  | error e =>
    unfold mackCall at h
    rw [hc] at h
    exact absurd h (by rintro ⟨⟩)
  | ok core =>
    obtain ⟨r', hr', hcore, -, -, hv⟩ := mackCall_ok hc (Or.inr rfl : "lognorm" = "norm" ∨ "lognorm" = "lognorm")
    rw [h] at hr'
    obtain rfl := Except.ok.inj hr'
    rw [hcore] at hR
    obtain ⟨v, hv1, hv2⟩ := hv i _ _ hs hR
    obtain ⟨a, σ, h2, h3, h4⟩ := C48_lognormal (s := s) h1
    rw [h2] at hv1
    obtain rfl := Except.ok.inj hv1
    exact ⟨a, σ, hv2, h3, h4⟩

/-! ## C49 -/

theorem Num.le_mul_fin {a : ℝ} (ha : 0 < a) {x y : Num ℝ} (h : Num.le x y = true) :
    Num.le (.fin a * x) (.fin a * y) = true := by
  have e1 : (Num.fin a * Num.pinf : Num ℝ) = .pinf := by
    show Num.infTimes a = _
    rw [Num.infTimes, if_neg ha.ne', if_pos ha]
  have e2 : (Num.fin a * Num.ninf : Num ℝ) = .ninf := by
    show Num.infTimes (-a) = _
    rw [Num.infTimes, if_neg (by simpa using ha.ne'), if_neg (by simpa using ha.le)]
  cases x <;> cases y <;> simp_all [Num.le]

theorem Num.le_add_fin (a : ℝ) {x y : Num ℝ} (h : Num.le x y = true) :
    Num.le (.fin a + x) (.fin a + y) = true := by
  cases x <;> cases y <;> simp_all [Num.le, HAdd.hAdd, Add.add, Num.add]
  exact add_le_add_right h a

theorem Num.le_exp {x y : Num ℝ} (h : Num.le x y = true) : Num.le (Num.exp x) (Num.exp y) = true := by
  cases x <;> cases y <;> simp_all [Num.le, Num.exp]
  exact (Real.exp_pos _).le

/-- The quantiles of a distribution with finite parameters do not decrease; they are NaN at every `q`
exactly when the scale (`norm`) or shape (`lognorm`) is not positive. -/
theorem ppf_mono {z : ℝ → Num ℝ} {q1 q2 : ℝ} (hz : Num.le (z q1) (z q2) = true) (v : RV) {a b : ℝ}
    (hv : v = .norm (.fin a) (.fin b) ∨ (v = .lognorm (.fin a) (.fin b) ∧ 0 < a)) :
    (0 < b → Num.le (v.ppf z q1) (v.ppf z q2) = true) ∧
    (b ≤ 0 → v.ppf z q1 = .nan ∧ v.ppf z q2 = .nan) := by
  rcases hv with rfl | ⟨rfl, ha⟩
  · constructor
    · intro hb
      have hlt : Num.lt 0 (.fin b) = true := by simpa [Num.zero_def, Num.lt_fin] using hb
      simp only [RV.ppf, if_pos hlt]
      exact Num.le_add_fin a (Num.le_mul_fin hb hz)
    · intro hb
      have hlt : ¬ Num.lt 0 (.fin b) = true := by simpa [Num.zero_def, Num.lt_fin] using hb
      simp only [RV.ppf, if_neg hlt, and_self]
  · have ha' : Num.lt 0 (.fin a) = true := by simpa [Num.zero_def, Num.lt_fin] using ha
    constructor
    · intro hb
      have hlt : Num.lt 0 (.fin b) = true := by simpa [Num.zero_def, Num.lt_fin] using hb
      simp only [RV.ppf, if_pos (And.intro hlt ha')]
      exact Num.le_mul_fin ha (Num.le_exp (Num.le_mul_fin hb hz))
    · intro hb
      have hlt : ¬ Num.lt 0 (.fin b) = true := by simpa [Num.zero_def, Num.lt_fin] using hb
      have : ¬ (Num.lt 0 (.fin b) = true ∧ Num.lt 0 (.fin a) = true) := fun h => hlt h.1
      simp only [RV.ppf, if_neg this, and_self]

/-- The quantile functions reported for `norm` and `lognorm`, at any finite standard error and reserve
(negative and zero reserves included): at two levels both are NaN or they are ordered. -/
theorem mackRV_mono {z : ℝ → Num ℝ} {q1 q2 : ℝ} (hz : Num.le (z q1) (z q2) = true) {dist : String}
    {s R : ℝ} (hs : 0 ≤ s) {v : RV} (hv : mackRV dist (.fin s) (.fin R) = .ok v) :
    (v.ppf z q1 = .nan ∧ v.ppf z q2 = .nan) ∨ Num.le (v.ppf z q1) (v.ppf z q2) = true := by
  have key : ∀ a b, (v = .norm (.fin a) (.fin b) ∨ (v = .lognorm (.fin a) (.fin b) ∧ 0 < a)) →
      (v.ppf z q1 = .nan ∧ v.ppf z q2 = .nan) ∨ Num.le (v.ppf z q1) (v.ppf z q2) = true := by
    intro a b hab
    obtain ⟨h1, h2⟩ := ppf_mono hz v hab
    rcases lt_or_ge 0 b with h | h
    · exact Or.inr (h1 h)
    · exact Or.inl (h2 h)
  by_cases hd : dist = "norm"
  · unfold mackRV at hv
    rw [if_pos hd] at hv
    obtain rfl := Except.ok.inj hv
    exact key R s (Or.inl rfl)
  by_cases hd2 : dist = "lognorm"
  · rcases lt_trichotomy R 0 with hR | rfl | hR
    · unfold mackRV at hv
      rw [if_neg hd, if_pos hd2] at hv
      obtain rfl := Except.ok.inj hv
      have hm : logMu (.fin s) (.fin R) = .nan := by
        have : Num.log (.fin R) = .nan := by simp only [Num.log]; rw [if_pos hR]
        unfold logMu
        rw [this]; rfl
      left
      rw [hm]
      simp [RV.ppf, Num.exp, Num.zero_def, Num.lt]
    · unfold mackRV at hv
      rw [if_neg hd, if_pos hd2] at hv
      obtain rfl := Except.ok.inj hv
      left
      rcases hs.eq_or_lt with rfl | hs
      · have : logSigma (.fin 0) (.fin 0) = .fin 0 := by
          unfold logSigma
          rw [Num.fin_div_zero]
          simp only [Num.infTimes, if_pos]
          rfl
        rw [this]
        simp [RV.ppf, Num.zero_def, Num.lt]
      · have hsig : logSigma (.fin s) (.fin 0) = .pinf := by
          unfold logSigma
          rw [Num.fin_div_zero]
          simp only [Num.infTimes, if_neg hs.ne', if_pos hs]
          rfl
        have hlog : clip0 (Num.log (.fin 0)) = .fin 0 := by
          have : Num.log (.fin 0) = .ninf := by simp [Num.log]
          rw [this]
          simp [clip0, Num.isNaN, Num.zero_def, Num.lt]
        have hmu : logMu (.fin s) (.fin 0) = .ninf := by
          unfold logMu
          rw [hlog, hsig]
          show Num.fin 0 - Num.infTimes (1 / 2) = _
          unfold Num.infTimes
          norm_num
          rfl
        rw [hmu]
        simp [RV.ppf, Num.exp, Num.zero_def, Num.lt]
    · have := lognorm_params (s := s) hR
      rw [hd2, this] at hv
      obtain rfl := Except.ok.inj hv
      exact key _ _ (Or.inr ⟨rfl, Real.exp_pos _⟩)
  · unfold mackRV at hv
    rw [if_neg hd, if_neg hd2] at hv
    exact absurd hv (by rintro ⟨⟩)

/-- **C49.** On every positive staircase with at least four origins: an unknown distribution raises
`ValueError`; otherwise, for every nondecreasing standard normal quantile function and all levels
`q1 ≤ q2`, the entries of `get_quantiles` in each row (origins and total) are ordered, or NaN at both levels.  The same
holds for the summary columns, whose entry for the oldest origin is NaN.  With `dist="norm"` the entries
of a row with positive standard error are not NaN. -/
theorem C49_quantiles (h : Spec.Stair t n c) (hp : Spec.Positive n c) (hi : IndW t ind n w)
    (hw : Spec.Weights n w) (hn : 4 ≤ n) (alpha : ℕ) (dist : String) :
    (dist ≠ "norm" → dist ≠ "lognorm" → mackCall alpha t ind dist = .error .valueError) ∧
    (dist = "norm" ∨ dist = "lognorm" → ∃ r, mackCall alpha t ind dist = .ok r ∧
      ∀ (z : ℝ → Num ℝ) (q1 q2 : ℝ), Num.le (z q1) (z q2) = true →
        (r.getQuantile z q1).length = n + 1 ∧ (r.qtlColumn z q1).length = n + 1 ∧
        (r.qtlColumn z q1)[0]? = some .nan ∧ ∀ i < n + 1, ∃ x y x' y',
          (r.getQuantile z q1)[i]? = some x ∧ (r.getQuantile z q2)[i]? = some y ∧
          (r.qtlColumn z q1)[i]? = some x' ∧ (r.qtlColumn z q2)[i]? = some y' ∧
          ((x = .nan ∧ y = .nan) ∨ Num.le x y = true) ∧
          ((x' = .nan ∧ y' = .nan) ∨ Num.le x' y' = true) ∧
          (dist = "norm" → (∃ s > 0, r.stdErr[i]? = some (.fin s)) → Num.le x y = true)) := by
  obtain ⟨core, b, lab, hr, p⟩ := mack_parts h hp hi hw hn alpha
  refine ⟨mackCall_bad hr, ?_⟩
  intro hd
  obtain ⟨r, s, T, hr1, hlen, hse, hs0, hT, hT0, -⟩ := C46_std_errors h hp hi hw hn alpha hd
  obtain ⟨r', hr2, hcore, hstd, hrl, hv⟩ := mackCall_ok hr hd
  rw [hr1] at hr2
  obtain rfl := Except.ok.inj hr2
  refine ⟨r, hr1, ?_⟩
  intro z q1 q2 hz
  have hrows : core.rows.length = n := by rw [p.rows, p.spec.rows_length]
  have hmse : core.mse.length = n := by
    have := congrArg List.length hstd
    simp [hlen] at this
    omega
  have hrvs : r.rvs.length = n + 1 := by rw [hrl, hrows, hmse, min_self]
  have hall : ∀ i < n + 1, ∃ s R v, 0 ≤ s ∧ r.stdErr[i]? = some (.fin s) ∧ r.rvs[i]? = some v ∧
      mackRV dist (.fin s) (.fin R) = .ok v := by
    intro i hi'
    rcases Nat.lt_succ_iff_lt_or_eq.1 hi' with hlt | rfl
    · obtain ⟨row, hrow, -, -, -, -, -, -, hres⟩ := p.spec.rows i hlt
      obtain ⟨h1, h2, -⟩ := hse i hlt
      obtain ⟨v, hv1, hv2⟩ := hv i _ (.fin (c i (n - 1 - i) * Spec.tailProd (Spec.mackAll alpha n c w) n
        (n - 1 - i) - c i (n - 1 - i))) h1 (by
          rw [List.getElem?_append_left (by simpa [hrows] using hlt), List.getElem?_map, p.rows, hrow]
          show some row.reserve = _
          rw [hres])
      exact ⟨_, _, v, h2, h1, hv2, hv1⟩
    · obtain ⟨v, hv1, hv2⟩ := hv i _ _ hT (by
        rw [List.getElem?_append_right (by simp [hrows])]
        simp only [List.length_map, hrows, Nat.sub_self, List.getElem?_cons_zero]
        rw [p.totReserve, p.spec.totReserve])
      exact ⟨_, _, v, hT0, hT, hv2, hv1⟩
  have hcol0 : ∀ q, (r.qtlColumn z q)[0]? = some .nan := by
    intro q
    unfold MackResult.qtlColumn
    rw [List.getElem?_set_self (by simp [hrvs])]
  refine ⟨by simp [MackResult.getQuantile, hrvs], by simp [MackResult.qtlColumn, hrvs], hcol0 q1, ?_⟩
  intro i hi'
  obtain ⟨s', R, v, hs', hsi, hvi, hrv⟩ := hall i hi'
  have hget : ∀ q, (r.getQuantile z q)[i]? = some (v.ppf z q) := by
    intro q
    unfold MackResult.getQuantile
    rw [List.getElem?_map, hvi]; rfl
  have hmono := mackRV_mono hz hs' hrv
  have hnorm : dist = "norm" → (∃ s > 0, r.stdErr[i]? = some (.fin s)) →
      Num.le (v.ppf z q1) (v.ppf z q2) = true := by
    rintro rfl ⟨s2, hs2, hsi2⟩
    rw [hsi, Option.some_inj] at hsi2
    obtain rfl := Num.fin.inj hsi2
    unfold mackRV at hrv
    rw [if_pos rfl] at hrv
    obtain rfl := Except.ok.inj hrv
    exact (ppf_mono hz _ (Or.inl rfl)).1 hs2
  cases i with
  | zero =>
    exact ⟨_, _, _, _, hget q1, hget q2, hcol0 q1, hcol0 q2, hmono, Or.inl ⟨rfl, rfl⟩, hnorm⟩
  | succ i =>
    have hcol : ∀ q, (r.qtlColumn z q)[i + 1]? = some (v.ppf z q) := by
      intro q
      unfold MackResult.qtlColumn
      rw [List.getElem?_set_ne (by omega)]
      exact hget q
    exact ⟨_, _, _, _, hget q1, hget q2, hcol q1, hcol q2, hmono, hmono, hnorm⟩

/-- **C49**, meaning of the lognormal quantile: the reported value has the probability of the standard
normal quantile below it. -/
theorem C49_probability {a σ x : ℝ} (ha : 0 < a) (hσ : 0 < σ) {z : ℝ → Num ℝ} {q : ℝ}
    (hz : z q = .fin x) : ∃ y, (RV.lognorm (.fin a) (.fin σ)).ppf z q = .fin y ∧
      lognormalLaw a σ (Set.Iic y) = gaussianReal 0 1 (Set.Iic x) := by
  have ha' : Num.lt 0 (.fin a) = true := by simpa [Num.zero_def, Num.lt_fin] using ha
  have hs' : Num.lt 0 (.fin σ) = true := by simpa [Num.zero_def, Num.lt_fin] using hσ
  refine ⟨a * Real.exp (σ * x), ?_, ?_⟩
  · simp only [RV.ppf, if_pos (And.intro hs' ha'), hz]
    rfl
  · unfold lognormalLaw
    rw [Measure.map_apply (lognormal_measurable a σ) measurableSet_Iic]
    congr 1
    ext y
    simp only [Set.mem_preimage, Set.mem_Iic]
    rw [mul_le_mul_iff_right₀ ha, Real.exp_le_exp, mul_le_mul_iff_right₀ hσ]

/-! ### concrete cases -/

/-- The witness of C47 computed over `ℚ`: all mean squared errors are 0. -/
example : (mackCore 1 (stairTri (K := ℚ) 5 (fun i j => if j = 0 then 100 else (150 + 10 * i) * 2 ^ (j - 1)))
    (stairTri (K := ℚ) 5 (fun i j => if j = 0 then 100 else (150 + 10 * i) * 2 ^ (j - 1))).a2aind0).toOption.map
      (fun r => r.totMse :: r.mse) = some [0, 0, 0, 0, 0, 0] ∧
  (mackCore 1 (stairTri (K := ℚ) 5 (fun i j => if j = 0 then 100 else (150 + 10 * i) * 2 ^ (j - 1)))
    (stairTri (K := ℚ) 5 (fun i j => if j = 0 then 100 else (150 + 10 * i) * 2 ^ (j - 1))).a2aind0).toOption.map
      (fun r => r.devpvar.map Prod.snd) = some [.fin (5 / 3), 0, 0, .nan] := by
  decide +kernel

/-- A reserve of 1000 with standard error 1000: variance parameter `log 2`. -/
example : mackRV "lognorm" (.fin 1000) (.fin 1000) = .ok (.lognorm
    (.fin (Real.exp (max (Real.log 1000) 0 - Real.log 2 / 2))) (.fin (Real.sqrt (Real.log 2)))) := by
  rw [lognorm_params (by norm_num)]
  norm_num

/-- Normal quantiles of a reserve of 10 with standard error 3 at the levels where the standard normal
quantile is -1 and 2. -/
example : (RV.norm (.fin 10) (.fin 3)).ppf (fun q => .fin q) (-1) = .fin 7 ∧
    (RV.norm (.fin 10) (.fin 3)).ppf (fun q => .fin q) 2 = .fin 16 := by
  have h : Num.lt 0 (.fin (3 : ℝ)) = true := by simp [Num.zero_def, Num.lt_fin]
  simp only [RV.ppf, if_pos h, Num.fin_mul, Num.fin_add]
  norm_num

end Trikit
