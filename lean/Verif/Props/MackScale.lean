import Verif.Props.MackErrors
import Verif.Props.BaseScale

/-!
# C92, C94-C96: Mack's errors under a change of currency, and for other exponents than 1

The process error (mack.py:375-383) and the total (mack.py:165-176) are written for `alpha = 1`; the
factors and variances follow the `alpha` of the call.
-/

set_option linter.unusedSectionVars false

namespace Trikit

section
variable {K : Type} [Field K] [LinearOrder K] [IsStrictOrderedRing K]
variable {t ind : Tri K} {n : ℕ} {c w : ℕ → ℕ → K} {a : K}

theorem Spec.Stair.scale (h : Spec.Stair t n c) (a : K) :
    Spec.Stair (t.scale a) n (fun i j => a * c i j) where
  nr := h.nr
  nc := h.nc
  origins := h.origins
  devs := h.devs
  obs i j hij := by show .fin a * t.cell i j = _; rw [h.obs i j hij, Num.fin_mul]
  miss i j hi hj hij := by show .fin a * t.cell i j = _; rw [h.miss i j hi hj hij, Num.mul_nan]

theorem Spec.Positive.scale (hp : Spec.Positive n c) (ha : 0 < a) : Spec.Positive n (fun i j => a * c i j) :=
  fun i j hij => mul_pos ha (hp i j hij)

theorem IndW.scale (hi : IndW t ind n w) (ha : 0 < a) : IndW (t.scale a) ind n w where
  origins := by rw [Tri.scale_a2a ha]; exact hi.origins
  devs := by rw [Tri.scale_a2a ha]; exact hi.devs
  vals := hi.vals
  miss := hi.miss

theorem mackW_scale (alpha j : ℕ) :
    Spec.mackW alpha n (fun i j => a * c i j) w j = a ^ alpha * Spec.mackW alpha n c w j := by
  unfold Spec.mackW Spec.colSum
  rw [Finset.mul_sum]
  refine Finset.sum_congr rfl fun i _ => ?_
  beta_reduce; rw [mul_pow]; ring

theorem ratio_scale (ha : a ≠ 0) (x y : K) : a * x / (a * y) = x / y := mul_div_mul_left x y ha

theorem mackF_scale (ha : a ≠ 0) (alpha j : ℕ) :
    Spec.mackF alpha n (fun i j => a * c i j) w j = Spec.mackF alpha n c w j := by
  unfold Spec.mackF
  rw [mackW_scale]
  have : Spec.colSum n j (fun i => w i j * (a * c i j) ^ alpha * (a * c i (j + 1) / (a * c i j))) =
      a ^ alpha * Spec.colSum n j (fun i => w i j * c i j ^ alpha * (c i (j + 1) / c i j)) := by
    unfold Spec.colSum
    rw [Finset.mul_sum]
    refine Finset.sum_congr rfl fun i _ => ?_
    beta_reduce; rw [ratio_scale ha, mul_pow]; ring
  rw [this, ratio_scale (pow_ne_zero _ ha)]

theorem sqDev_scale (ha : a ≠ 0) (alpha j : ℕ) (f : K) :
    Spec.sqDev alpha n (fun i j => a * c i j) w f j = a ^ alpha * Spec.sqDev alpha n c w f j := by
  unfold Spec.sqDev Spec.colSum
  rw [Finset.mul_sum]
  refine Finset.sum_congr rfl fun i _ => ?_
  beta_reduce; rw [ratio_scale ha, mul_pow]; ring

theorem sig0_scale (ha : a ≠ 0) (alpha j : ℕ) :
    Spec.sig0 alpha n (fun i j => a * c i j) w j = a ^ alpha * Spec.sig0 alpha n c w j := by
  unfold Spec.sig0
  rw [mackF_scale ha, sqDev_scale ha, mul_div_assoc]

theorem sigLast_scale {b x y : K} (hb : 0 < b) :
    Spec.sigLast (b * x) (b * y) = b * Spec.sigLast x y := by
  unfold Spec.sigLast
  rw [mul_min_of_nonneg _ _ hb.le, mul_min_of_nonneg _ _ hb.le]
  congr 1
  by_cases hy : y = 0
  · simp [hy]
  · field_simp

theorem sigma2_scale (ha : 0 < a) (alpha j : ℕ) :
    Spec.sigma2 alpha n (fun i j => a * c i j) w j = a ^ alpha * Spec.sigma2 alpha n c w j := by
  unfold Spec.sigma2
  split
  · exact sig0_scale ha.ne' alpha j
  · rw [sig0_scale ha.ne', sig0_scale ha.ne', sigLast_scale (pow_pos ha _)]

theorem ldfVar_scale (ha : 0 < a) (alpha j : ℕ) :
    Spec.ldfVar alpha n (fun i j => a * c i j) w j = Spec.ldfVar alpha n c w j := by
  unfold Spec.ldfVar
  rw [sigma2_scale ha, mackW_scale, ratio_scale (pow_ne_zero _ ha.ne')]

theorem degenerate_scale (ha : 0 < a) (alpha : ℕ) :
    Spec.Degenerate alpha n (fun i j => a * c i j) w ↔ Spec.Degenerate alpha n c w := by
  unfold Spec.Degenerate
  rw [sig0_scale ha.ne', sig0_scale ha.ne']
  have := pow_ne_zero alpha ha.ne'
  simp [this]

theorem proj_scale (f : ℕ → K) (i k : ℕ) :
    Spec.proj n (fun i j => a * c i j) f i k = a * Spec.proj n c f i k := by
  unfold Spec.proj; ring

theorem procVar_scale (ha : 0 < a) (alpha i : ℕ) :
    Spec.procVar n (fun i j => a * c i j) (Spec.mackF alpha n (fun i j => a * c i j) w)
        (Spec.sigma2 alpha n (fun i j => a * c i j) w) i =
      a ^ (alpha + 1) * Spec.procVar n c (Spec.mackF alpha n c w) (Spec.sigma2 alpha n c w) i := by
  have hf : Spec.mackF alpha n (fun i j => a * c i j) w = Spec.mackF alpha n c w :=
    funext fun j => mackF_scale ha.ne' alpha j
  unfold Spec.procVar
  rw [hf, Finset.mul_sum]
  refine Finset.sum_congr rfl fun k _ => ?_
  rw [proj_scale, sigma2_scale ha]; ring

theorem paramVar_scale (ha : 0 < a) (alpha i : ℕ) :
    Spec.paramVar n (fun i j => a * c i j) (Spec.mackF alpha n (fun i j => a * c i j) w)
        (Spec.ldfVar alpha n (fun i j => a * c i j) w) i =
      a ^ 2 * Spec.paramVar n c (Spec.mackF alpha n c w) (Spec.ldfVar alpha n c w) i := by
  have hf : Spec.mackF alpha n (fun i j => a * c i j) w = Spec.mackF alpha n c w :=
    funext fun j => mackF_scale ha.ne' alpha j
  have hv : Spec.ldfVar alpha n (fun i j => a * c i j) w = Spec.ldfVar alpha n c w :=
    funext fun j => ldfVar_scale ha alpha j
  unfold Spec.paramVar
  rw [hf, hv]; ring

theorem crossTerm_scale (ha : 0 < a) (alpha i : ℕ) :
    Spec.crossTerm n (fun i j => a * c i j) (Spec.mackF alpha n (fun i j => a * c i j) w)
        (Spec.sigma2 alpha n (fun i j => a * c i j) w) i =
      a ^ (alpha + 1) * Spec.crossTerm n c (Spec.mackF alpha n c w) (Spec.sigma2 alpha n c w) i := by
  have hf : Spec.mackF alpha n (fun i j => a * c i j) w = Spec.mackF alpha n c w :=
    funext fun j => mackF_scale ha.ne' alpha j
  unfold Spec.crossTerm Spec.ult
  rw [hf]
  simp only [proj_scale, sigma2_scale ha, ← Finset.mul_sum]
  have : ∑ p ∈ Finset.Ico (n - 1 - i) (n - 1), a ^ alpha * Spec.sigma2 alpha n c w p /
        Spec.mackF alpha n c w p ^ 2 / (a * ∑ r ∈ Finset.range (n - 1 - p), c r p) =
      a ^ alpha / a * ∑ p ∈ Finset.Ico (n - 1 - i) (n - 1), Spec.sigma2 alpha n c w p /
        Spec.mackF alpha n c w p ^ 2 / ∑ r ∈ Finset.range (n - 1 - p), c r p := by
    rw [Finset.mul_sum]
    refine Finset.sum_congr rfl fun p _ => ?_
    rw [mul_div_assoc, mul_div_mul_comm]
  rw [this]
  have h := ha.ne'
  field_simp
  ring

/-! ## C92 -/

/-- The result on the scaled triangle next to the result on the triangle itself: same factors, same
factor variances, scaled rows; process error and cross terms go with `a ^ (alpha + 1)`, parameter error
with `a ^ 2`. -/
theorem C92_exact (ha : 0 < a) (h : Spec.Stair t n c) (hp : Spec.Positive n c) (hi : IndW t ind n w)
    (hw : Spec.Weights n w) (hn : 4 ≤ n) (alpha : ℕ) :
    ∃ r r', mackCore alpha t ind = .ok r ∧ mackCore alpha (t.scale a) ind = .ok r' ∧ r'.ldfs = r.ldfs ∧
      r'.rows = r.rows.map (SummRow.scale a) ∧ r'.totReserve = .fin a * r.totReserve ∧
      r'.procErr = r.procErr.map (fun x => .fin (a ^ (alpha + 1)) * x) ∧
      r'.paramErr = r.paramErr.map (fun x => .fin (a ^ 2) * x) ∧
      (alpha = 1 → r'.mse = r.mse.map (fun x => .fin (a ^ 2) * x) ∧ r'.totMse = .fin (a ^ 2) * r.totMse) := by
  obtain ⟨r, b, lab, hr, p⟩ := mack_parts h hp hi hw hn alpha
  obtain ⟨r', b', lab', hr', p'⟩ := mack_parts (h.scale a) (hp.scale ha) (hi.scale ha) hw hn alpha
  have hlab : lab' = lab := by
    have e := p.tailLab
    have e' := p'.tailLab
    rw [show (t.scale a).devs = t.devs from rfl, e] at e'
    injection e' with e'; exact e'.symm
  have hf : Spec.mackF alpha n (fun i j => a * c i j) w = Spec.mackF alpha n c w :=
    funext fun j => mackF_scale ha.ne' alpha j
  have hldf : r'.ldfs = r.ldfs := by
    rw [p.factors, p'.factors, hlab]
    unfold Spec.mackAll
    rw [hf]; rfl
  have hb : b' = b.scale a := by
    have e := p.base
    have e' := p'.base
    rw [hldf, baseFromLdfs_scale ha, e] at e'
    injection e' with e'; exact e'.symm
  refine ⟨r, r', hr, hr', hldf, ?_, ?_, ?_⟩
  · rw [p'.rows, p.rows, hb]; rfl
  · rw [p'.totReserve, p.totReserve, hb]; rfl
  by_cases hd : Spec.Degenerate alpha n c w
  · obtain ⟨h1, h2, h3, h4⟩ := p.degenerate (by omega) hp hw hd
    obtain ⟨h1', h2', h3', h4'⟩ := p'.degenerate (by omega) (hp.scale ha) hw ((degenerate_scale ha alpha).2 hd)
    rw [h1, h2, h3, h4, h1', h2', h3', h4']
    refine ⟨?_, ?_, fun _ => ⟨?_, ?_⟩⟩
    · simp only [List.map_map, Function.comp_def, Num.fin_mul, mul_zero]
    · simp only [List.map_map, Function.comp_def, Num.fin_mul, mul_zero]
    · simp only [List.map_map, Function.comp_def, Num.fin_mul, mul_zero]
    · rw [Num.fin_mul, mul_zero]
  · have hd' := fun hh => hd ((degenerate_scale (c := c) (w := w) (n := n) ha alpha).1 hh)
    refine ⟨?_, ?_, ?_⟩
    · rw [p'.procErr_eq (h.scale a) (hp.scale ha) hw hd', p.procErr_eq h hp hw hd, List.map_map]
      refine List.map_congr_left fun i _ => ?_
      rw [procVar_scale ha, Function.comp_apply, Num.fin_mul]
    · rw [p'.paramErr_eq (h.scale a) (hp.scale ha) hw hd', p.paramErr_eq h hp hw hd, List.map_map]
      refine List.map_congr_left fun i _ => ?_
      rw [paramVar_scale ha, Function.comp_apply, Num.fin_mul]
    · rintro rfl
      have hm : ∀ i, Spec.mse 1 n (fun i j => a * c i j) w i = a ^ 2 * Spec.mse 1 n c w i := by
        intro i
        unfold Spec.mse
        rw [procVar_scale ha, paramVar_scale ha]; ring
      refine ⟨?_, ?_⟩
      · rw [p'.mse_eq (h.scale a) (hp.scale ha) hw hd', p.mse_eq h hp hw hd, List.map_map]
        refine List.map_congr_left fun i _ => ?_
        rw [hm, Function.comp_apply, Num.fin_mul]
      · rw [p'.total_eq (by omega) (h.scale a) (hp.scale ha) hw hd', p.total_eq (by omega) h hp hw hd,
          Num.fin_mul, Finset.mul_sum]
        refine congrArg Num.fin (Finset.sum_congr rfl fun k _ => ?_)
        rw [hm, crossTerm_scale ha]; ring

/-- **C92 fails** for `alpha = 2` (and `alpha = 0`): the mean squared errors do not go with the square of
the currency. -/
theorem C92_fails : ¬ (∀ (alpha : ℕ) (t : Tri ℚ) (a : ℚ), alpha ≤ 2 → 0 < a → ∀ r r',
    mackCore alpha t t.a2aind0 = .ok r → mackCore alpha (t.scale a) t.a2aind0 = .ok r' →
    r'.mse = r.mse.map (fun x => .fin (a ^ 2) * x)) := by
  intro hall
  have key : ((mackCore 2 (exTri.scale 10) exTri.a2aind0).toOption.bind (fun r' =>
      (mackCore 2 exTri exTri.a2aind0).toOption.map (fun r =>
        decide (r'.mse = r.mse.map (fun x => .fin (10 ^ 2) * x))))) = some false := by decide +kernel
  cases h : mackCore 2 exTri exTri.a2aind0 with
  | error e => rw [h] at key; simp [Except.toOption] at key
  | ok r =>
    cases h' : mackCore 2 (exTri.scale 10) exTri.a2aind0 with
    | error e => rw [h'] at key; simp [Except.toOption] at key
    | ok r' =>
      rw [h, h'] at key
      simp only [Except.toOption, Option.bind_some, Option.map_some, Option.some.injEq,
        decide_eq_false_iff_not] at key
      exact key (hall 2 exTri 10 (le_refl _) (by norm_num) r r' h h')

end

/-! ## C94 -/

section
variable {K : Type} [Field K] [LinearOrder K] [IsStrictOrderedRing K]
variable {t ind : Tri K} {n : ℕ} {c w : ℕ → ℕ → K}

/-- `E[C ^ (2 - alpha)]` for a value with mean `m` and variance `v`, for the three documented exponents. -/
def Spec.powMean (alpha : ℕ) (m v : K) : K :=
  if alpha = 0 then m ^ 2 + v else if alpha = 1 then m else 1

/-- Mean and variance of the future values of an origin in the model behind the factors of exponent
`alpha`: `E[C_(k+1) | C_k] = f_k C_k` and `Var[C_(k+1) | C_k] = s_k C_k ^ (2 - alpha)`, `m` periods after
the latest value `x` in period `p`. -/
def Spec.modelMoments (alpha : ℕ) (f s : ℕ → K) (x : K) (p : ℕ) : ℕ → K × K
  | 0 => (x, 0)
  | m + 1 =>
    let y := Spec.modelMoments alpha f s x p m
    (f (p + m) * y.1, f (p + m) ^ 2 * y.2 + s (p + m) * Spec.powMean alpha y.1 y.2)

theorem modelMoments_one (f s : ℕ → K) (x : K) (p m : ℕ) :
    Spec.modelMoments 1 f s x p m = (x * ∏ l ∈ Finset.Ico p (p + m), f l,
      ∑ k ∈ Finset.Ico p (p + m), (x * ∏ l ∈ Finset.Ico p k, f l) * s k *
        ∏ l ∈ Finset.Ico (k + 1) (p + m), f l ^ 2) := by
  induction m with
  | zero => simp [Spec.modelMoments]
  | succ m ih =>
    have h1 := Finset.prod_Ico_succ_top (show p ≤ p + m by omega) f
    rw [Spec.modelMoments, ih, ← add_assoc]
    simp only [Spec.powMean]
    rw [if_neg (by norm_num), if_pos trivial, h1, Finset.sum_Ico_succ_top (show p ≤ p + m by omega),
      Finset.Ico_self, Finset.prod_empty, mul_one]
    refine Prod.ext ?_ ?_
    · ring
    · simp only
      rw [Finset.mul_sum, mul_comm (s (p + m))]
      congr 1
      refine Finset.sum_congr rfl fun k hk => ?_
      rw [Finset.mem_Ico] at hk
      rw [Finset.prod_Ico_succ_top (show k + 1 ≤ p + m by omega)]
      ring

/-- **C94, partial** (`alpha = 1`): the process error of every origin is the variance of its ultimate in
the model behind the factors. -/
theorem C94_partial (h : Spec.Stair t n c) (hp : Spec.Positive n c) (hi : IndW t ind n w)
    (hw : Spec.Weights n w) (hn : 4 ≤ n) :
    ∃ r, mackCore 1 t ind = .ok r ∧ (r.devpvar.iloc (n - 2) ≠ .nan → ∃ f s : ℕ → K,
      (∀ j < n - 1, r.ldfs.iloc j = .fin (f j) ∧ r.devpvar.iloc j = .fin (s j)) ∧
      ∀ i < n, r.procErr[i]? = some (.fin (Spec.modelMoments 1 f s (c i (n - 1 - i)) (n - 1 - i) i).2)) := by
  obtain ⟨r, hr, hx⟩ := C44_mack h hp hi hw hn 1
  refine ⟨r, hr, fun hne => ?_⟩
  obtain ⟨f, s, h1, h2⟩ := hx hne
  refine ⟨f, s, h1, fun i hi' => ?_⟩
  obtain ⟨x, h3, -, h4⟩ := h2 i hi'
  rw [h3, modelMoments_one, h4, show n - 1 - i + i = n - 1 by omega]

/-- For every exponent the code reports what it reports for `alpha = 1`: on the origin with one future
period `C s` instead of `C ^ (2 - alpha) s`. -/
theorem C94_one_step (h : Spec.Stair t n c) (hp : Spec.Positive n c) (hi : IndW t ind n w)
    (hw : Spec.Weights n w) (hn : 4 ≤ n) (alpha : ℕ) :
    ∃ r, mackCore alpha t ind = .ok r ∧ (r.devpvar.iloc (n - 2) ≠ .nan → ∃ s : K,
      r.devpvar.iloc (n - 2) = .fin s ∧ r.procErr[1]? = some (.fin (c 1 (n - 2) * s))) := by
  obtain ⟨r, hr, hx⟩ := C44_mack h hp hi hw hn alpha
  refine ⟨r, hr, fun hne => ?_⟩
  obtain ⟨f, s, h1, h2⟩ := hx hne
  refine ⟨s (n - 2), (h1 _ (by omega)).2, ?_⟩
  obtain ⟨x, h3, -, h4⟩ := h2 1 (by omega)
  rw [h3, h4, show n - 1 - 1 = n - 2 by omega, show n - 1 = n - 2 + 1 by omega,
    Finset.sum_Ico_succ_top (le_refl _)]
  simp

/-- **C94 fails** for `alpha = 2` and for `alpha = 0`. -/
theorem C94_fails : ∀ alpha ∈ [0, 2], ¬ (∀ (t : Tri ℚ) (n : ℕ) (c : ℕ → ℕ → ℚ), 4 ≤ n → Spec.Stair t n c →
    Spec.Positive n c → ∀ r, mackCore alpha t t.a2aind0 = .ok r → ∀ f s : ℕ → ℚ,
    (∀ j < n - 1, r.ldfs.iloc j = .fin (f j) ∧ r.devpvar.iloc j = .fin (s j)) →
    ∀ i < n, r.procErr[i]? = some (.fin (Spec.modelMoments alpha f s (c i (n - 1 - i)) (n - 1 - i) i).2)) := by
  intro alpha ha hall
  have h := stairTri_stair 4 exVals
  have hp : Spec.Positive 4 exVals := exVals_pos
  have hi := h.indW0 hp.ne_zero
  have hw : Spec.Weights (K := ℚ) 4 (fun _ _ => 1) := Spec.Weights.one (by norm_num)
  obtain ⟨r, hr, hx⟩ := C44_mack h hp hi hw (le_refl _) alpha
  obtain ⟨r1, hr1, hx1⟩ := C94_one_step h hp hi hw (le_refl _) alpha
  rw [hr] at hr1; obtain rfl := Except.ok.inj hr1
  have hne : r.devpvar.iloc 2 ≠ .nan ∧ r.devpvar.iloc 2 ≠ 0 := by
    have : (mackCore alpha (stairTri 4 exVals) (stairTri 4 exVals).a2aind0).toOption.map
        (fun r => decide (r.devpvar.iloc 2 ≠ .nan ∧ r.devpvar.iloc 2 ≠ 0)) = some true := by
      simp only [List.mem_cons, List.not_mem_nil, or_false] at ha
      rcases ha with rfl | rfl <;> decide +kernel
    rw [hr] at this
    simpa [Except.toOption] using this
  obtain ⟨f, s, h1, -⟩ := hx hne.1
  obtain ⟨s', e1, e2⟩ := hx1 hne.1
  have hs : s 2 ≠ 0 := by
    intro e
    have := (h1 2 (by norm_num)).2
    rw [e] at this
    exact hne.2 this
  have e3 := (h1 2 (by norm_num)).2
  rw [e1] at e3
  have e3 := Num.fin.inj e3
  have e4 := hall _ 4 exVals (le_refl _) h hp r hr f s h1 1 (by norm_num)
  rw [e2] at e4
  have e4 := Num.fin.inj (Option.some.inj e4)
  rw [e3] at e4
  simp only [Spec.modelMoments, Spec.powMean, mul_zero, zero_add, add_zero] at e4
  simp only [List.mem_cons, List.not_mem_nil, or_false] at ha
  have hv : exVals 1 2 ≠ 0 ∧ exVals 1 2 ≠ 1 := by decide +kernel
  rcases ha with rfl | rfl
  · simp only [if_true] at e4
    rw [mul_comm] at e4
    have := mul_left_cancel₀ hs e4
    have h5 : exVals 1 2 * (exVals 1 2 - 1) = 0 := by
      have : exVals 1 2 = exVals 1 2 ^ 2 := this
      linear_combination -this
    rcases mul_eq_zero.1 h5 with h5 | h5
    · exact hv.1 h5
    · exact hv.2 (by linear_combination h5)
  · rw [if_neg (by norm_num), if_neg (by norm_num), mul_comm] at e4
    exact hv.2 (mul_left_cancel₀ hs e4)

/-! ## C95 -/

/-- The number behind a finite value. -/
def Spec.val : Num K → K
  | .fin x => x
  | _ => 0

/-- Total mean squared error from the reported factors, factor variances, mean squared errors and
ultimates: the errors of two origins are correlated through the factors they share, whose variances are
those of the parameter error. -/
def Spec.totalFrom (n : ℕ) (r : MackCore K) : K :=
  ∑ i ∈ Finset.Ico 1 n, (Spec.val (r.mse.getD i .nan) +
    2 * Spec.val ((r.rows.map SummRow.ultimate).getD i .nan) *
      (∑ k ∈ Finset.Ico (i + 1) n, Spec.val ((r.rows.map SummRow.ultimate).getD k .nan)) *
      ∑ p ∈ Finset.Ico (n - 1 - i) (n - 1), Spec.val (r.ldfvar.iloc p) / Spec.val (r.ldfs.iloc p) ^ 2)

/-- **C95, partial** (`alpha = 1`, no exclusions): the total uses the reported factor variances. -/
theorem C95_partial (h : Spec.Stair t n c) (hp : Spec.Positive n c) (hn : 4 ≤ n) :
    ∃ r, mackCore 1 t t.a2aind0 = .ok r ∧ (r.devpvar.iloc (n - 2) ≠ .nan →
      r.totMse = .fin (Spec.totalFrom n r)) := by
  have hi := h.indW0 hp.ne_zero
  have hw : Spec.Weights (K := K) n (fun _ _ => 1) := Spec.Weights.one (by omega)
  obtain ⟨r, hr, hx⟩ := C46_total h hp hi hw hn 1
  obtain ⟨r1, hr1, hx1⟩ := C45_mack h hp hi hw hn 1
  rw [hr] at hr1; obtain rfl := Except.ok.inj hr1
  refine ⟨r, hr, fun hne => ?_⟩
  obtain ⟨f, s, m, u, h1, h2, h3⟩ := hx hne
  obtain ⟨f', s', v, h4, -⟩ := hx1 hne
  rw [h3]
  unfold Spec.totalFrom
  refine congrArg Num.fin (Finset.sum_congr rfl fun i hi' => ?_)
  rw [Finset.mem_Ico] at hi'
  have hu : ∀ k < n, Spec.val ((r.rows.map SummRow.ultimate).getD k .nan) = u k := by
    intro k hk
    rw [List.getD_eq_getElem?_getD, (h2 k hk).2]; rfl
  have hm : Spec.val (r.mse.getD i .nan) = m i := by
    rw [List.getD_eq_getElem?_getD, (h2 i hi'.2).1]; rfl
  rw [hm, hu i hi'.2]
  congr 2
  · congr 1
    refine Finset.sum_congr rfl fun k hk => ?_
    rw [Finset.mem_Ico] at hk
    rw [hu k hk.2]
  · refine Finset.sum_congr rfl fun p hp' => ?_
    rw [Finset.mem_Ico] at hp'
    obtain ⟨a1, a2⟩ := h1 p hp'.2
    obtain ⟨b1, b2, b3, b4⟩ := h4 p hp'.2
    rw [a1, b3, b4]
    rw [a2] at b2
    rw [← Num.fin.inj b2]
    simp only [Spec.val, one_mul, pow_one]
    rw [div_div, div_div, mul_comm]

/-- A 5 x 5 example. -/
def exVals5 : ℕ → ℕ → ℚ := fun i j =>
  ((([[100, 150, 180, 198, 205], [110, 176, 220, 231], [120, 168, 195], [130, 201], [140]] :
    List (List ℚ)).getD i []).getD j 0)

/-- **C95 fails** for `alpha = 2`, and for `alpha = 1` with an excluded link ratio (period 2 of the oldest
origin; the total shares no error through period 1). -/
theorem C95_fails :
    (mackCore 2 exTri exTri.a2aind0).toOption.map (fun r => decide (r.totMse = .fin (Spec.totalFrom 4 r))) =
      some false ∧
    (mackCore 1 (stairTri 5 exVals5) ((stairTri 5 exVals5).a2aind0.setAt 2001 2 0)).toOption.map
      (fun r => decide (r.totMse = .fin (Spec.totalFrom 5 r))) = some false ∧
    (mackCore 1 (stairTri 5 exVals5) (stairTri 5 exVals5).a2aind0).toOption.map
      (fun r => decide (r.totMse = .fin (Spec.totalFrom 5 r))) = some true := by
  decide +kernel

/-! ## C96 -/

/-- Number of link ratios of a period that are kept. -/
def Spec.kept (n : ℕ) (w : ℕ → ℕ → K) (j : ℕ) : ℕ := ((Finset.range (n - 1 - j)).filter (fun i => w i j ≠ 0)).card

/-- Unbiased variance estimate of a period from the kept link ratios. -/
def Spec.varFrom (alpha n : ℕ) (c w : ℕ → ℕ → K) (j : ℕ) (f : K) : K :=
  (∑ i ∈ Finset.range (n - 1 - j), w i j * c i j ^ alpha * (c i (j + 1) / c i j - f) ^ 2) /
    ((Spec.kept n w j : K) - 1)

/-- **C96**, the reported variance is too small by the share of excluded link ratios; equal to the unbiased
estimate exactly when nothing is excluded in the period or all kept link ratios agree. -/
theorem C96_partial (h : Spec.Stair t n c) (hp : Spec.Positive n c) (hi : IndW t ind n w)
    (hw : Spec.Weights n w) (hn : 4 ≤ n) (alpha : ℕ) :
    ∃ r, mackCore alpha t ind = .ok r ∧ ∀ j < n - 2, 2 ≤ Spec.kept n w j → ∃ f s : K,
      r.ldfs.iloc j = .fin f ∧ r.devpvar.iloc j = .fin s ∧
      s = Spec.varFrom alpha n c w j f * (((Spec.kept n w j : K) - 1) / ((n - 1 - j : ℕ) - 1)) ∧
      (Spec.kept n w j = n - 1 - j → s = Spec.varFrom alpha n c w j f) := by
  obtain ⟨r, b, lab, hr, p⟩ := mack_parts h hp hi hw hn alpha
  refine ⟨r, hr, fun j hj hk => ⟨Spec.mackF alpha n c w j, Spec.sig0 alpha n c w j, p.ldf h j (by omega), ?_, ?_⟩⟩
  · rw [p.dv j (by omega)]
    unfold storedVar
    rw [if_pos (by omega)]
  · have hk1 : ((Spec.kept n w j : K) - 1) ≠ 0 := by
      have : (2 : K) ≤ Spec.kept n w j := by exact_mod_cast hk
      intro e; linarith
    have hd : (((n - 1 - j : ℕ) : K) - 1) = ((n - j - 2 : ℕ) : K) := by
      rw [show n - 1 - j = n - j - 2 + 1 by omega]; push_cast; ring
    have h1 : Spec.sig0 alpha n c w j = Spec.varFrom alpha n c w j (Spec.mackF alpha n c w j) *
        (((Spec.kept n w j : K) - 1) / ((n - 1 - j : ℕ) - 1)) := by
      unfold Spec.sig0 Spec.varFrom Spec.sqDev Spec.colSum
      rw [hd]
      field_simp
    refine ⟨h1, fun e => ?_⟩
    rw [h1, e, div_self, mul_one]
    rw [← e]; exact hk1

/-- **C96 fails**: one of three link ratios excluded, the squared deviations are still divided by 2. -/
theorem C96_fails : ¬ (∀ (t ind : Tri ℚ) (n : ℕ) (c w : ℕ → ℕ → ℚ), 4 ≤ n → Spec.Stair t n c →
    Spec.Positive n c → IndW t ind n w → Spec.Weights n w → ∀ r, mackCore 1 t ind = .ok r →
    ∀ j < n - 2, 2 ≤ Spec.kept n w j → ∀ f, r.ldfs.iloc j = .fin f →
      r.devpvar.iloc j = .fin (Spec.varFrom 1 n c w j f)) := by
  intro hall
  let w : ℕ → ℕ → ℚ := fun i j => if i = 0 ∧ j = 0 then 0 else 1
  have h0 := exTri_stair.indW0 exVals_pos.ne_zero
  have hi : IndW exTri (exTri.a2aind0.setAt 2001 1 0) 4 w := by
    refine ⟨⟨h0.origins, h0.devs, ?_⟩, ?_⟩
    · have : ∀ i < 4, ∀ j < 4, i + j + 1 < 4 → (exTri.a2aind0.setAt 2001 1 0).cell i j = .fin (w i j) := by
        decide +kernel
      exact fun i j hij => this i (by omega) j (by omega) hij
    · have : ∀ i < 3, ∀ j < 3, 4 ≤ i + j + 1 → (exTri.a2aind0.setAt 2001 1 0).cell i j = 0 ∨
          (exTri.a2aind0.setAt 2001 1 0).cell i j = .nan := by decide +kernel
      exact this
  have hw : Spec.Weights 4 w := by
    refine ⟨fun i j hij => ?_, fun j hj => ?_⟩
    · show (0 : ℚ) ≤ if i = 0 ∧ j = 0 then 0 else 1
      split <;> norm_num
    · by_cases e : j = 0
      · exact ⟨1, by omega, by simp [w, e]⟩
      · exact ⟨0, by omega, by simp [w, e]⟩
  obtain ⟨r, hr, hx⟩ := C96_partial exTri_stair exVals_pos hi hw (le_refl _) 1
  have hk : Spec.kept 4 w 0 = 2 := by decide +kernel
  obtain ⟨f, s, e1, e2, e3, -⟩ := hx 0 (by norm_num) (by omega)
  have e4 := hall _ _ 4 exVals w (le_refl _) exTri_stair exVals_pos hi hw r hr 0 (by norm_num) (by omega) f e1
  rw [e2] at e4
  have e4 := Num.fin.inj e4
  rw [← e4, hk] at e3
  norm_num at e3
  have : (mackCore 1 exTri (exTri.a2aind0.setAt 2001 1 0)).toOption.map
      (fun r => decide (r.devpvar.iloc 0 = 0)) = some false := by decide +kernel
  rw [hr] at this
  simp only [Except.toOption, Option.map_some, Option.some.injEq, decide_eq_false_iff_not] at this
  apply this
  rw [e2]
  congr 1
  linarith

end

/-- Concrete case of C92: in a currency worth a third, the errors of the 4 x 4 example are nine times as
large for `alpha = 1`; for `alpha = 2` the process error is 27 times as large. -/
example :
    ((mackCore 1 (exTri.scale 3) exTri.a2aind0).toOption.map MackCore.totMse =
      (mackCore 1 exTri exTri.a2aind0).toOption.map (fun r => .fin 9 * r.totMse)) ∧
    ((mackCore 2 (exTri.scale 3) exTri.a2aind0).toOption.map MackCore.procErr =
      (mackCore 2 exTri exTri.a2aind0).toOption.map (fun r => r.procErr.map (fun x => .fin 27 * x))) := by
  decide +kernel

/-- Concrete case of C94: the process error of the youngest origin of the 4 x 4 example follows the
recursion. -/
example : (mackCore 1 exTri exTri.a2aind0).toOption.bind (fun r => r.procErr[3]?) =
    (mackCore 1 exTri exTri.a2aind0).toOption.map (fun r => .fin (Spec.modelMoments 1
      (fun j => Spec.val (r.ldfs.iloc j)) (fun j => Spec.val (r.devpvar.iloc j)) 130 0 3).2) := by
  decide +kernel

end Trikit
