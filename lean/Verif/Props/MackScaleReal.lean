import Verif.Props.MackScale
import Verif.Props.MackReal

/-! # C92, C93: standard errors and quantiles under a change of currency -/

set_option linter.unusedSectionVars false

namespace Trikit

section
variable {t ind : Tri ℝ} {n : ℕ} {c w : ℕ → ℕ → ℝ} {a : ℝ}

theorem mackCall_inv {alpha : ℕ} {core : MackCore ℝ} (h : mackCore alpha t ind = .ok core) {dist : String}
    (hd : dist = "norm" ∨ dist = "lognorm") :
    ∃ r : MackResult, mackCall alpha t ind dist = .ok r ∧ r.core = core ∧
      r.stdErr = core.mse.map Num.sqrt ++ [Num.sqrt core.totMse] ∧
      r.cv = (List.zipWith (· / ·) r.stdErr (core.rows.map SummRow.reserve ++ [core.totReserve])).set 0 .nan ∧
      (r.stdErr.zip (core.rows.map SummRow.reserve ++ [core.totReserve])).mapM
        (fun p => mackRV dist p.1 p.2) = .ok r.rvs := by
  obtain ⟨m, hm, -⟩ := mapM_all_ok (f := fun p : Num ℝ × Num ℝ => mackRV dist p.1 p.2)
    (fun p => mackRV_ok hd p.1 p.2)
    ((core.mse.map Num.sqrt ++ [Num.sqrt core.totMse]).zip
      (core.rows.map SummRow.reserve ++ [core.totReserve]))
  refine ⟨{ core := core, stdErr := core.mse.map Num.sqrt ++ [Num.sqrt core.totMse], cv := (List.zipWith (· / ·) (core.mse.map Num.sqrt ++ [Num.sqrt core.totMse]) (core.rows.map SummRow.reserve ++ [core.totReserve])).set 0 .nan, rvs := m },
    ?_, rfl, rfl, rfl, hm⟩
  unfold mackCall
  simp only [h, hm, bind, Except.bind]

theorem Num.sqrt_scale (ha : 0 < a) {x : ℝ} (hx : 0 ≤ x) :
    Num.sqrt (.fin (a ^ 2) * .fin x) = .fin a * Num.sqrt (.fin x) := by
  rw [Num.fin_mul, Num.sqrt_fin (by positivity), Num.sqrt_fin hx, Num.fin_mul, Real.sqrt_mul (by positivity),
    Real.sqrt_sq ha.le]

/-- **C92, partial** (`alpha = 1`): the standard errors of all origins and of the total go with the
currency, the coefficients of variation do not depend on it. -/
theorem C92_partial (ha : 0 < a) (h : Spec.Stair t n c) (hp : Spec.Positive n c) (hi : IndW t ind n w)
    (hw : Spec.Weights n w) (hn : 4 ≤ n) {dist : String} (hdist : dist = "norm" ∨ dist = "lognorm") :
    ∃ r r', mackCall 1 t ind dist = .ok r ∧ mackCall 1 (t.scale a) ind dist = .ok r' ∧
      r'.core.rows = r.core.rows.map (SummRow.scale a) ∧ r'.core.totReserve = .fin a * r.core.totReserve ∧
      r'.stdErr = r.stdErr.map (fun x => .fin a * x) ∧ r'.cv = r.cv := by
  obtain ⟨core, core', hc, hc', -, hrows, htot, -, -, hm⟩ := C92_exact ha h hp hi hw hn 1
  obtain ⟨hmse, hT⟩ := hm rfl
  obtain ⟨r, hr, hcr, hse, hcv, -⟩ := mackCall_inv hc hdist
  obtain ⟨r', hr', hcr', hse', hcv', -⟩ := mackCall_inv hc' hdist
  obtain ⟨core0, pe, pa, m, T, h0, hlen, hmm, -, hT0, hle⟩ := C46_mse h hp hi hw hn 1
  rw [hc] at h0
  obtain rfl := Except.ok.inj h0
  have hmse0 : core.mse = (List.range n).map (fun i => .fin (m i)) := by
    apply List.ext_getElem?
    intro i
    by_cases hi' : i < n
    · rw [(hmm i hi').2.2.1, List.getElem?_map, List.getElem?_range hi']; rfl
    · rw [List.getElem?_eq_none (by omega), List.getElem?_eq_none (by simpa using hi')]
  have hTn : 0 ≤ T :=
    le_trans (Finset.sum_nonneg (fun i hi' => (hmm i (Finset.mem_range.1 hi')).2.2.2.2)) hle
  have hstd : r'.stdErr = r.stdErr.map (fun x => .fin a * x) := by
    rw [hse, hse', hmse, hT, hmse0, hT0, Num.sqrt_scale ha hTn]
    simp only [List.map_append, List.map_map, List.map_cons, List.map_nil]
    congr 1
    refine List.map_congr_left fun i hi' => ?_
    rw [List.mem_range] at hi'
    exact Num.sqrt_scale ha (hmm i hi').2.2.2.2
  refine ⟨r, r', hr, hr', ?_, ?_, hstd, ?_⟩
  · rw [hcr, hcr', hrows]
  · rw [hcr, hcr', htot]
  · rw [hcv, hcv', hstd, hrows, htot]
    congr 1
    have e : (core.rows.map (SummRow.scale a)).map SummRow.reserve ++ [Num.fin a * core.totReserve] =
        (core.rows.map SummRow.reserve ++ [core.totReserve]).map (fun x => .fin a * x) := by
      simp only [List.map_append, List.map_map, List.map_cons, List.map_nil]; rfl
    rw [e, List.zipWith_map]
    congr 1
    funext x y
    exact Num.pos_mul_div ha x y

/-! ## C93 -/

/-- A row of the summary (an origin or the total) and its counterpart on the scaled triangle. -/
theorem mack_row_scale (ha : 0 < a) (h : Spec.Stair t n c) (hp : Spec.Positive n c) (hi : IndW t ind n w)
    (hw : Spec.Weights n w) (hn : 4 ≤ n) {dist : String} (hdist : dist = "norm" ∨ dist = "lognorm") :
    ∃ r r', mackCall 1 t ind dist = .ok r ∧ mackCall 1 (t.scale a) ind dist = .ok r' ∧
      r.rvs.length = n + 1 ∧ r'.rvs.length = n + 1 ∧
      ∀ i < n + 1, ∃ s R v v', r.stdErr[i]? = some s ∧
        (r.core.rows.map SummRow.reserve ++ [r.core.totReserve])[i]? = some R ∧
        r.rvs[i]? = some v ∧ r'.rvs[i]? = some v' ∧ mackRV dist s R = .ok v ∧
        mackRV dist (.fin a * s) (.fin a * R) = .ok v' := by
  obtain ⟨r, r', hr, hr', hrows, htot, hse, -⟩ := C92_partial ha h hp hi hw hn hdist
  obtain ⟨core, b, lab, hc, p⟩ := mack_parts h hp hi hw hn 1
  obtain ⟨core', b', lab', hc', p'⟩ := mack_parts (h.scale a) (hp.scale ha) (hi.scale ha) hw hn 1
  obtain ⟨s, e1, e2, e3, e4, e5⟩ := mackCall_ok hc hdist
  obtain ⟨s', e1', e2', e3', e4', e5'⟩ := mackCall_ok hc' hdist
  rw [hr] at e1; obtain rfl := Except.ok.inj e1
  rw [hr'] at e1'; obtain rfl := Except.ok.inj e1'
  have l1 : core.rows.length = n := by rw [p.rows]; exact p.spec.rows_length
  have l2 : core'.rows.length = n := by rw [p'.rows]; exact p'.spec.rows_length
  have m1 : r.stdErr.length = n + 1 := by
    obtain ⟨r0, s, T, h0, h1, -⟩ := C46_std_errors h hp hi hw hn 1 hdist
    rw [hr] at h0; obtain rfl := Except.ok.inj h0; exact h1
  have m2 : core.mse.length = n := by
    have := m1; rw [e3] at this; simpa using this
  have m2' : core'.mse.length = n := by
    have := congrArg List.length hse
    rw [e3'] at this
    simp only [List.length_append, List.length_map, List.length_singleton] at this
    rw [m1] at this; omega
  refine ⟨r, r', hr, hr', by rw [e4, m2, l1]; simp, by rw [e4', m2', l2]; simp, ?_⟩
  intro i hi'
  have g1 : r.stdErr[i]? = some (r.stdErr[i]'(by omega)) := List.getElem?_eq_getElem _
  have hl : i < (core.rows.map SummRow.reserve ++ [core.totReserve]).length := by simp [l1]; omega
  have g2 := List.getElem?_eq_getElem hl
  obtain ⟨v, hv, hv'⟩ := e5 i _ _ g1 g2
  have g3 : r'.stdErr[i]? = some (.fin a * r.stdErr[i]'(by omega)) := by rw [hse, List.getElem?_map, g1]; rfl
  have g4 : (core'.rows.map SummRow.reserve ++ [core'.totReserve])[i]? =
      some (Num.fin a * (core.rows.map SummRow.reserve ++ [core.totReserve])[i]'hl) := by
    have : core'.rows.map SummRow.reserve ++ [core'.totReserve] =
        (core.rows.map SummRow.reserve ++ [core.totReserve]).map (fun x => Num.fin a * x) := by
      rw [e2, e2'] at hrows htot
      rw [hrows, htot]
      simp only [List.map_append, List.map_map, List.map_cons, List.map_nil]; rfl
    rw [this, List.getElem?_map, g2]; rfl
  obtain ⟨v', k1, k2⟩ := e5' i _ _ g3 g4
  exact ⟨_, _, v, v', g1, by rw [e2]; exact g2, hv', k2, hv, k1⟩

theorem qtl_get (r : MackResult) (z : ℝ → Num ℝ) (q : ℝ) {i : ℕ} {v : RV} (h : r.rvs[i]? = some v)
    (hi : i ≠ 0) : (r.qtlColumn z q)[i]? = some (v.ppf z q) := by
  unfold MackResult.qtlColumn
  rw [List.getElem?_set_ne (Ne.symm hi), List.getElem?_map, h]; rfl

theorem lt_zero_scale (ha : 0 < a) (x : Num ℝ) : Num.lt 0 (.fin a * x) = Num.lt 0 x := by
  cases x with
  | nan => rfl
  | pinf => rw [Num.pos_mul_pinf ha]
  | ninf => rw [Num.pos_mul_ninf ha]
  | fin x =>
    rw [Num.fin_mul, Num.zero_def, Num.lt_fin, Num.lt_fin]
    exact decide_eq_decide.2 (mul_pos_iff_of_pos_left ha)

/-- **C93, partial**: with `dist="norm"` all quantiles go with the currency, in the summary and from
`get_quantiles`; with `dist="lognorm"` those of the rows whose reserve is at least 1 in both
currencies. -/
theorem C93_partial (ha : 0 < a) (h : Spec.Stair t n c) (hp : Spec.Positive n c) (hi : IndW t ind n w)
    (hw : Spec.Weights n w) (hn : 4 ≤ n) {dist : String} (hdist : dist = "norm" ∨ dist = "lognorm")
    (z : ℝ → Num ℝ) (q : ℝ) :
    ∃ r r', mackCall 1 t ind dist = .ok r ∧ mackCall 1 (t.scale a) ind dist = .ok r' ∧
      ∀ i < n + 1, (dist = "norm" ∨ ∃ R, (r.core.rows.map SummRow.reserve ++ [r.core.totReserve])[i]? =
          some (.fin R) ∧ 1 ≤ R ∧ 1 ≤ a * R) →
        ∃ x, (r.getQuantile z q)[i]? = some x ∧ (r'.getQuantile z q)[i]? = some (.fin a * x) ∧
          (i ≠ 0 → (r.qtlColumn z q)[i]? = some x ∧ (r'.qtlColumn z q)[i]? = some (.fin a * x)) := by
  obtain ⟨r, r', hr, hr', -, -, hrow⟩ := mack_row_scale ha h hp hi hw hn hdist
  obtain ⟨r0, s0, T, h0, -, hs0, -, hT, -⟩ := C46_std_errors h hp hi hw hn 1 hdist
  rw [hr] at h0; obtain rfl := Except.ok.inj h0
  refine ⟨r, r', hr, hr', ?_⟩
  intro i hi' hcase
  obtain ⟨s, R, v, v', g1, g2, g3, g4, k1, k2⟩ := hrow i hi'
  have key : v'.ppf z q = .fin a * v.ppf z q := by
    rcases hdist with rfl | rfl
    · unfold mackRV at k1 k2
      rw [if_pos rfl] at k1 k2
      obtain rfl := Except.ok.inj k1
      obtain rfl := Except.ok.inj k2
      show (if Num.lt 0 (.fin a * s) = true then .fin a * R + .fin a * s * z q else .nan) =
        Num.fin a * (if Num.lt 0 s = true then R + s * z q else .nan)
      rw [lt_zero_scale ha]
      split
      · rw [Num.pos_mul_assoc ha, ← Num.pos_mul_add ha]
      · rw [Num.mul_nan]
    · rcases hcase with e | ⟨R', e1, e2, e3⟩
      · exact absurd e (by decide)
      rw [e1] at g2
      obtain rfl := Option.some.inj g2
      have hsf : ∃ s', s = .fin s' := by
        by_cases e : i < n
        · have := (hs0 i e).1; rw [g1] at this; exact ⟨_, Option.some.inj this⟩
        · have : i = n := by omega
          subst this
          rw [g1] at hT; exact ⟨_, Option.some.inj hT⟩
      obtain ⟨s', rfl⟩ := hsf
      rw [lognorm_params (by linarith)] at k1
      rw [Num.fin_mul, Num.fin_mul, lognorm_params (by linarith)] at k2
      obtain rfl := Except.ok.inj k1
      obtain rfl := Except.ok.inj k2
      rw [ratio_scale ha.ne', max_eq_left (Real.log_nonneg e2), max_eq_left (Real.log_nonneg e3)]
      have hexp : Real.exp (Real.log (a * R') - Real.log (1 + (s' / R') ^ 2) / 2) =
          a * Real.exp (Real.log R' - Real.log (1 + (s' / R') ^ 2) / 2) := by
        rw [Real.exp_sub, Real.exp_sub, Real.exp_log (by linarith), Real.exp_log (by linarith), mul_div_assoc]
      rw [hexp]
      unfold RV.ppf
      simp only [← Num.fin_mul, lt_zero_scale ha]
      split
      · rw [Num.pos_mul_assoc ha]
      · rw [Num.mul_nan]
  refine ⟨v.ppf z q, ?_, ?_, fun h0 => ⟨qtl_get r z q g3 h0, ?_⟩⟩
  · unfold MackResult.getQuantile; rw [List.getElem?_map, g3]; rfl
  · unfold MackResult.getQuantile; rw [List.getElem?_map, g4, ← key]; rfl
  · rw [← key]; exact qtl_get r' z q g4 h0

/-- Below 1 a lognormal quantile does not react to the currency at all. -/
theorem C93_small (ha : 0 < a) (h : Spec.Stair t n c) (hp : Spec.Positive n c) (hi : IndW t ind n w)
    (hw : Spec.Weights n w) (hn : 4 ≤ n) (z : ℝ → Num ℝ) (q : ℝ) :
    ∃ r r', mackCall 1 t ind "lognorm" = .ok r ∧ mackCall 1 (t.scale a) ind "lognorm" = .ok r' ∧
      ∀ i < n + 1, ∀ R, (r.core.rows.map SummRow.reserve ++ [r.core.totReserve])[i]? = some (.fin R) →
        0 < R → R ≤ 1 → a * R ≤ 1 → (r'.getQuantile z q)[i]? = (r.getQuantile z q)[i]? := by
  obtain ⟨r, r', hr, hr', -, -, hrow⟩ := mack_row_scale ha h hp hi hw hn (Or.inr rfl)
  obtain ⟨r0, s0, T, h0, -, hs0, -, hT, -⟩ := C46_std_errors h hp hi hw hn 1 (Or.inr rfl)
  rw [hr] at h0; obtain rfl := Except.ok.inj h0
  refine ⟨r, r', hr, hr', ?_⟩
  intro i hi' R hR h0 h1 h2
  obtain ⟨s, R', v, v', g1, g2, g3, g4, k1, k2⟩ := hrow i hi'
  rw [hR] at g2
  obtain rfl := Option.some.inj g2
  have hsf : ∃ s', s = .fin s' := by
    by_cases e : i < n
    · have := (hs0 i e).1; rw [g1] at this; exact ⟨_, Option.some.inj this⟩
    · have : i = n := by omega
      subst this
      rw [g1] at hT; exact ⟨_, Option.some.inj hT⟩
  obtain ⟨s', rfl⟩ := hsf
  have haR : 0 < a * R := mul_pos ha h0
  rw [lognorm_params h0, max_eq_right (Real.log_nonpos h0.le h1)] at k1
  rw [Num.fin_mul, Num.fin_mul, lognorm_params haR, ratio_scale ha.ne',
    max_eq_right (Real.log_nonpos haR.le h2)] at k2
  rw [k1] at k2
  obtain rfl := Except.ok.inj k2
  unfold MackResult.getQuantile
  rw [List.getElem?_map, List.getElem?_map, g3, g4]

/-- Four origins with amounts below 1. -/
noncomputable def smallVals (i j : ℕ) : ℝ :=
  if i = 0 then (j + 1) / 10 else if i = 1 then (if j = 0 then 1 / 10 else (j + 2) / 10) else
    if i = 2 then (j + 2) / 10 else 1 / 10

theorem smallVals_pos : Spec.Positive 4 smallVals := by
  intro i j _
  unfold smallVals
  split
  · positivity
  · split
    · split <;> positivity
    · split <;> positivity

/-- **C93 fails** for `dist="lognorm"`: with `z (1/2) = 0` the reported median of a reserve of `2/15`
does not double when all amounts are doubled. -/
theorem C93_fails : ¬ (∀ (t : Tri ℝ) (n : ℕ) (c : ℕ → ℕ → ℝ) (a : ℝ) (z : ℝ → Num ℝ) (q : ℝ), 4 ≤ n →
    Spec.Stair t n c → Spec.Positive n c → 0 < a → ∀ r r', mackCall 1 t t.a2aind0 "lognorm" = .ok r →
    mackCall 1 (t.scale a) t.a2aind0 "lognorm" = .ok r' →
    r'.getQuantile z q = (r.getQuantile z q).map (fun x => .fin a * x)) := by
  intro hall
  have h := stairTri_stair 4 smallVals
  have hp := smallVals_pos
  have hi := h.indW0 hp.ne_zero
  have hw : Spec.Weights (K := ℝ) 4 (fun _ _ => 1) := Spec.Weights.one (by norm_num)
  obtain ⟨r, r', hr, hr', hsm⟩ := C93_small (a := 2) (by norm_num) h hp hi hw (le_refl _) (fun _ => .fin 0) (1 / 2)
  obtain ⟨core, b, lab, hc, p⟩ := mack_parts h hp hi hw (le_refl _) 1
  obtain ⟨r0, e1, e2, e3, -, e5⟩ := mackCall_ok hc (Or.inr rfl : "lognorm" = "norm" ∨ "lognorm" = "lognorm")
  rw [hr] at e1; obtain rfl := Except.ok.inj e1
  have hf2 : Spec.mackF 1 4 smallVals (fun _ _ => 1) 2 = 4 / 3 := by
    unfold Spec.mackF Spec.mackW Spec.colSum smallVals
    norm_num [Finset.sum_range_succ]
  have hs0 : Spec.sig0 1 4 smallVals (fun _ _ => 1) 0 ≠ 0 := by
    unfold Spec.sig0 Spec.sqDev Spec.mackF Spec.mackW Spec.colSum smallVals
    norm_num [Finset.sum_range_succ]
  have hs1 : Spec.sig0 1 4 smallVals (fun _ _ => 1) 1 ≠ 0 := by
    unfold Spec.sig0 Spec.sqDev Spec.mackF Spec.mackW Spec.colSum smallVals
    norm_num [Finset.sum_range_succ]
  have p0 := lt_of_le_of_ne (sig0_nonneg hp hw 1 0) (Ne.symm hs0)
  have p1 := lt_of_le_of_ne (sig0_nonneg hp hw 1 1) (Ne.symm hs1)
  have hd : ¬ Spec.Degenerate 1 4 smallVals (fun _ _ => 1) := fun hd => hs1 hd.1
  have hsig : 0 < Spec.sigma2 1 4 smallVals (fun _ _ => 1) 2 := by
    unfold Spec.sigma2
    rw [if_neg (by norm_num)]
    unfold Spec.sigLast
    exact lt_min (by positivity) (lt_min p1 p0)
  have hres : (r.core.rows.map SummRow.reserve ++ [r.core.totReserve])[1]? = some (.fin (2 / 15)) := by
    obtain ⟨row, q1, -, -, -, -, -, -, q2⟩ := p.spec.rows 1 (by norm_num)
    rw [e2, List.getElem?_append_left (by rw [List.length_map, p.rows, p.spec.rows_length]; norm_num),
      List.getElem?_map, p.rows, q1, Option.map_some, q2]
    congr 2
    have : Spec.tailProd (Spec.mackAll 1 4 smallVals (fun _ _ => 1)) 4 (4 - 1 - 1) = 4 / 3 := by
      unfold Spec.tailProd
      rw [show (4 : ℕ) - 1 - 1 = 2 from rfl, Finset.prod_Ico_succ_top (by norm_num),
        Finset.prod_Ico_succ_top (by norm_num), Finset.Ico_self, Finset.prod_empty,
        Spec.mackAll_lt (by norm_num), hf2]
      unfold Spec.mackAll Spec.withTail
      norm_num
    rw [this]
    unfold smallVals
    norm_num
  have hm : core.mse[1]? = some (.fin (Spec.mse 1 4 smallVals (fun _ _ => 1) 1)) := by
    rw [p.mse_eq h hp hw hd]; rfl
  have hm0 : 0 < Spec.mse 1 4 smallVals (fun _ _ => 1) 1 := by
    unfold Spec.mse
    refine add_pos_of_pos_of_nonneg ?_ (paramVar_nonneg (fun j hj => ldfVar_nonneg hp hw 1 hj) 1)
    unfold Spec.procVar
    rw [show (4 : ℕ) - 1 - 1 = 2 from rfl, Finset.sum_Ico_succ_top (by norm_num), Finset.Ico_self,
      Finset.sum_empty, zero_add, Finset.Ico_self, Finset.prod_empty, mul_one]
    exact mul_pos (proj_pos hp (fun j hj => mackF_pos hp hw 1 hj) (by norm_num) (by norm_num)) hsig
  have hse : r.stdErr[1]? = some (.fin (Real.sqrt (Spec.mse 1 4 smallVals (fun _ _ => 1) 1))) := by
    have hl : 1 < core.mse.length := by rw [p.mse_eq h hp hw hd]; simp
    rw [e3, List.getElem?_append_left (by simpa using hl), List.getElem?_map, hm, Option.map_some,
      Num.sqrt_fin hm0.le]
  obtain ⟨v, v1, v2⟩ := e5 1 _ _ hse (by rw [← e2]; exact hres)
  have hgq : ∃ x : ℝ, 0 < x ∧ (r.getQuantile (fun _ => .fin 0) (1 / 2))[1]? = some (.fin x) := by
    obtain ⟨a', σ, k1, k2, -, k3, -⟩ := lognorm_moments
      (s := Real.sqrt (Spec.mse 1 4 smallVals (fun _ _ => 1) 1)) (show (0 : ℝ) < 2 / 15 by norm_num)
    rw [k1] at v1
    obtain rfl := Except.ok.inj v1
    refine ⟨a', k2, ?_⟩
    unfold MackResult.getQuantile
    rw [List.getElem?_map, v2, Option.map_some]
    have hσ : 0 < σ := k3.2 (Real.sqrt_pos.2 hm0).ne'
    show some (if Num.lt 0 (.fin σ) = true ∧ Num.lt 0 (.fin a') = true then
      Num.fin a' * Num.exp (.fin σ * .fin 0) else .nan) = _
    rw [if_pos (by simp [Num.zero_def, Num.lt_fin, hσ, k2]), Num.fin_mul, mul_zero, Num.exp_fin, Real.exp_zero,
      Num.fin_mul, mul_one]
  obtain ⟨x, hx, hgx⟩ := hgq
  have e := hall _ 4 smallVals 2 (fun _ => .fin 0) (1 / 2) (le_refl _) h hp (by norm_num) r r' hr hr'
  have e' := hsm 1 (by norm_num) (2 / 15) hres (by norm_num) (by norm_num) (by norm_num)
  rw [e, List.getElem?_map, hgx, Option.map_some, Num.fin_mul] at e'
  have := Num.fin.inj (Option.some.inj e')
  linarith

end

end Trikit
