import Verif.Props.MackReal
import Verif.Props.MackScale

/-! # Total standard error against the standard errors of the origins (C109) -/

set_option linter.unusedSectionVars false

namespace Trikit

section
variable {K : Type} [Field K] [LinearOrder K] [IsStrictOrderedRing K]
variable {t ind : Tri K} {n : ℕ} {c w : ℕ → ℕ → K}

theorem one_add_sum_le_prod (p q : ℕ) (x : ℕ → K) (hx : ∀ k, p ≤ k → k < q → 0 ≤ x k) :
    1 + ∑ k ∈ Finset.Ico p q, x k ≤ ∏ k ∈ Finset.Ico p q, (1 + x k) := by
  rcases Nat.lt_or_ge q p with h | h
  · rw [Finset.Ico_eq_empty (by omega)]; simp
  induction q, h using Nat.le_induction with
  | base => simp
  | succ q hq ih =>
    rw [Finset.sum_Ico_succ_top hq, Finset.prod_Ico_succ_top hq]
    have ih := ih (fun k h1 h2 => hx k h1 (by omega))
    have h0 := hx q hq (by omega)
    have hs : 0 ≤ ∑ k ∈ Finset.Ico p q, x k :=
      Finset.sum_nonneg fun k hk => by rw [Finset.mem_Ico] at hk; exact hx k hk.1 (by omega)
    calc 1 + (∑ k ∈ Finset.Ico p q, x k + x q) ≤ (1 + ∑ k ∈ Finset.Ico p q, x k) * (1 + x q) := by
          nlinarith [mul_nonneg hs h0]
      _ ≤ _ := mul_le_mul_of_nonneg_right ih (by linarith)

/-- The estimation variance is at least the squared ultimate times the sum of the relative variances of the
factors. -/
theorem paramVar_ge {f v : ℕ → K} (hf : ∀ j < n - 1, 0 < f j) (hv : ∀ j < n - 1, 0 ≤ v j) (i : ℕ) :
    Spec.ult n c f i ^ 2 * ∑ p ∈ Finset.Ico (n - 1 - i) (n - 1), v p / f p ^ 2 ≤ Spec.paramVar n c f v i := by
  have h1 : ∏ k ∈ Finset.Ico (n - 1 - i) (n - 1), (f k ^ 2 + v k) =
      (∏ k ∈ Finset.Ico (n - 1 - i) (n - 1), f k ^ 2) *
        ∏ k ∈ Finset.Ico (n - 1 - i) (n - 1), (1 + v k / f k ^ 2) := by
    rw [← Finset.prod_mul_distrib]
    refine Finset.prod_congr rfl fun k hk => ?_
    rw [Finset.mem_Ico] at hk
    have := (hf k hk.2).ne'
    field_simp
  unfold Spec.paramVar Spec.ult Spec.proj
  rw [h1, mul_pow, ← Finset.prod_pow]
  have h2 := one_add_sum_le_prod (n - 1 - i) (n - 1) (fun k => v k / f k ^ 2)
    (fun k _ hk => div_nonneg (hv k hk) (sq_nonneg _))
  have h3 : (0 : K) ≤ ∏ k ∈ Finset.Ico (n - 1 - i) (n - 1), f k ^ 2 :=
    Finset.prod_nonneg fun k _ => sq_nonneg _
  have h4 := mul_nonneg (sq_nonneg (c i (n - 1 - i))) h3
  nlinarith [mul_le_mul_of_nonneg_left h2 h4]

theorem sq_sum_Ico (s : ℕ → K) {n : ℕ} (hn : 1 ≤ n) :
    (∑ i ∈ Finset.Ico 1 n, s i) ^ 2 =
      ∑ i ∈ Finset.Ico 1 n, (s i ^ 2 + 2 * s i * ∑ k ∈ Finset.Ico (i + 1) n, s k) := by
  induction n, hn using Nat.le_induction with
  | base => simp
  | succ n hn ih =>
    rw [Finset.sum_Ico_succ_top hn, Finset.sum_Ico_succ_top hn, Finset.Ico_self, Finset.sum_empty, add_sq, ih]
    have : ∑ i ∈ Finset.Ico 1 n, (s i ^ 2 + 2 * s i * ∑ k ∈ Finset.Ico (i + 1) (n + 1), s k) =
        ∑ i ∈ Finset.Ico 1 n, (s i ^ 2 + 2 * s i * ∑ k ∈ Finset.Ico (i + 1) n, s k) +
          2 * (∑ i ∈ Finset.Ico 1 n, s i) * s n := by
      rw [mul_assoc, Finset.sum_mul, Finset.mul_sum, ← Finset.sum_add_distrib]
      refine Finset.sum_congr rfl fun i hi => ?_
      rw [Finset.mem_Ico] at hi
      rw [Finset.sum_Ico_succ_top (by omega)]
      ring
    rw [this]
    ring

/-- The common error of two origins is at most the product of bounds for their errors. -/
theorem cross_le {n : ℕ} {u s Q : K} {u' s' Q' : K} (hs : 0 ≤ s) (hs' : 0 ≤ s') (hQ : 0 ≤ Q) (hQQ : Q ≤ Q')
    (h1 : u ^ 2 * Q ≤ s ^ 2) (h2 : u' ^ 2 * Q' ≤ s' ^ 2) : u * u' * Q ≤ s * s' := by
  refine le_of_sq_le_sq' ?_ (mul_nonneg hs hs')
  calc (u * u' * Q) ^ 2 = (u ^ 2 * Q) * (u' ^ 2 * Q) := by ring
    _ ≤ s ^ 2 * s' ^ 2 := by
        refine mul_le_mul h1 (le_trans (mul_le_mul_of_nonneg_left hQQ (sq_nonneg _)) h2)
          (mul_nonneg (sq_nonneg _) hQ) (sq_nonneg _)
    _ = (s * s') ^ 2 := by ring
where
  le_of_sq_le_sq' {a b : K} (h : a ^ 2 ≤ b ^ 2) (hb : 0 ≤ b) : a ≤ b := abs_le_of_sq_le_sq' h hb |>.2

/-- **C109, partial** (`alpha = 1`, any exclusions): bounds for the standard errors of the origins add up to a
bound for the standard error of the total.  Missing: other exponents, for which it is false (`C109_fails`). -/
theorem C109_partial (h : Spec.Stair t n c) (hp : Spec.Positive n c) (hi : IndW t ind n w)
    (hw : Spec.Weights n w) (hw1 : ∀ i j, i + j + 1 < n → w i j ≤ 1) (hn : 4 ≤ n) :
    ∃ r, ∃ m : ℕ → K, ∃ T, mackCore 1 t ind = .ok r ∧ (∀ i < n, r.mse[i]? = some (.fin (m i))) ∧
      r.totMse = .fin T ∧
      ∀ s : ℕ → K, (∀ i < n, 0 ≤ s i ∧ m i ≤ s i ^ 2) → T ≤ (∑ i ∈ Finset.range n, s i) ^ 2 := by
  obtain ⟨r, b, lab, hr, p⟩ := mack_parts h hp hi hw hn 1
  have hg : ∀ (g : ℕ → K) (i : ℕ), i < n →
      ((List.range n).map (fun i => (Num.fin (g i) : Num K)))[i]? = some (.fin (g i)) := by
    intro g i hi'
    rw [List.getElem?_map, List.getElem?_range hi']; rfl
  by_cases hd : Spec.Degenerate 1 n c w
  · obtain ⟨h1, h2, h3, h4⟩ := p.degenerate (by omega) hp hw hd
    refine ⟨r, fun _ => 0, 0, hr, ?_, h4, fun s _ => sq_nonneg _⟩
    intro i hi'
    rw [h3]
    exact hg _ i hi'
  refine ⟨r, Spec.mse 1 n c w, _, hr, ?_, p.total_eq (by omega) h hp hw hd, ?_⟩
  · intro i hi'
    rw [p.mse_eq h hp hw hd]
    exact hg _ i hi'
  intro s hs
  have hf : ∀ j < n - 1, 0 < Spec.mackF 1 n c w j := fun j hj => mackF_pos hp hw 1 hj
  have hsig := sigma2_nonneg hp hw 1
  set f := Spec.mackF 1 n c w with hfdef
  set u := Spec.ult n c f with hu
  have hupos : ∀ i < n, 0 < u i := fun i hi' => proj_pos hp hf hi' (by omega)
  let Q : ℕ → K := fun i => ∑ p ∈ Finset.Ico (n - 1 - i) (n - 1),
    Spec.sigma2 1 n c w p / f p ^ 2 / ∑ r ∈ Finset.range (n - 1 - p), c r p
  have hden : ∀ p < n - 1, 0 < ∑ r ∈ Finset.range (n - 1 - p), c r p := by
    intro p hp'
    refine Finset.sum_pos (fun r hr' => ?_) ⟨0, Finset.mem_range.2 (by omega)⟩
    rw [Finset.mem_range] at hr'
    exact hp r p (by omega)
  have hterm : ∀ p < n - 1, 0 ≤ Spec.sigma2 1 n c w p / f p ^ 2 / ∑ r ∈ Finset.range (n - 1 - p), c r p :=
    fun p hp' => div_nonneg (div_nonneg (hsig p) (sq_nonneg _)) (hden p hp').le
  have hQ0 : ∀ i, 0 ≤ Q i := fun i => Finset.sum_nonneg fun p hp' => by
    rw [Finset.mem_Ico] at hp'; exact hterm p hp'.2
  have hQle : ∀ i, Q i ≤ ∑ p ∈ Finset.Ico (n - 1 - i) (n - 1), Spec.ldfVar 1 n c w p / f p ^ 2 := by
    intro i
    refine Finset.sum_le_sum fun p hp' => ?_
    rw [Finset.mem_Ico] at hp'
    unfold Spec.ldfVar
    rw [div_right_comm]
    refine div_le_div_of_nonneg_right ?_ (sq_nonneg _)
    refine div_le_div_of_nonneg_left (hsig p) (mackW_pos hp hw 1 hp'.2) ?_
    unfold Spec.mackW Spec.colSum
    refine Finset.sum_le_sum fun r hr' => ?_
    rw [Finset.mem_range] at hr'
    rw [pow_one]
    have := hp r p (by omega)
    nlinarith [hw1 r p (by omega)]
  have hQm : ∀ i < n, u i ^ 2 * Q i ≤ s i ^ 2 := by
    intro i hi'
    refine le_trans (mul_le_mul_of_nonneg_left (hQle i) (sq_nonneg _)) ?_
    refine le_trans (paramVar_ge hf (fun j hj => ldfVar_nonneg hp hw 1 hj) i) ?_
    refine le_trans ?_ (hs i hi').2
    unfold Spec.mse
    have := procVar_nonneg hp hf (fun j _ => hsig j) hi'
    linarith
  have hmono : ∀ i k, i ≤ k → Q i ≤ Q k := by
    intro i k hik
    refine Finset.sum_le_sum_of_subset_of_nonneg ?_ ?_
    · exact Finset.Ico_subset_Ico (by omega) (le_refl _)
    · intro p hp' _
      rw [Finset.mem_Ico] at hp'
      exact hterm p hp'.2
  have hsum : ∑ k ∈ Finset.range (n - 1), (Spec.mse 1 n c w (k + 1) +
      Spec.crossTerm n c f (Spec.sigma2 1 n c w) (k + 1)) =
      ∑ i ∈ Finset.Ico 1 n, (Spec.mse 1 n c w i + Spec.crossTerm n c f (Spec.sigma2 1 n c w) i) := by
    rw [Finset.sum_Ico_eq_sum_range]
    refine Finset.sum_congr rfl fun k _ => ?_
    rw [add_comm 1 k]
  have hle : ∑ i ∈ Finset.Ico 1 n, s i ≤ ∑ i ∈ Finset.range n, s i := by
    refine Finset.sum_le_sum_of_subset_of_nonneg ?_ ?_
    · intro i hi'; rw [Finset.mem_Ico] at hi'; exact Finset.mem_range.2 hi'.2
    · intro i hi' _; exact (hs i (Finset.mem_range.1 hi')).1
  have hnn : 0 ≤ ∑ i ∈ Finset.Ico 1 n, s i := Finset.sum_nonneg fun i hi' => by
    rw [Finset.mem_Ico] at hi'; exact (hs i hi'.2).1
  refine le_trans ?_ (pow_le_pow_left₀ hnn hle 2)
  rw [hsum, sq_sum_Ico s (by omega)]
  refine Finset.sum_le_sum fun i hi' => ?_
  rw [Finset.mem_Ico] at hi'
  refine add_le_add (hs i hi'.2).2 ?_
  unfold Spec.crossTerm
  calc 2 * u i * (∑ k ∈ Finset.Ico (i + 1) n, u k) * Q i
      = 2 * ∑ k ∈ Finset.Ico (i + 1) n, u i * u k * Q i := by
        rw [mul_assoc, mul_assoc, Finset.sum_mul, Finset.mul_sum]
        simp only [mul_assoc]
    _ ≤ 2 * ∑ k ∈ Finset.Ico (i + 1) n, s i * s k := by
        refine mul_le_mul_of_nonneg_left (Finset.sum_le_sum fun k hk => ?_) (by norm_num)
        rw [Finset.mem_Ico] at hk
        exact cross_le (n := n) (hs i hi'.2).1 (hs k hk.2).1 (hQ0 i) (hmono i k (by omega)) (hQm i hi'.2)
          (hQm k hk.2)
    _ = 2 * s i * ∑ k ∈ Finset.Ico (i + 1) n, s k := by rw [← Finset.mul_sum, mul_assoc]

end

/-- **C109, partial**, over the reals: the reported standard error of the total is at most the sum of the
reported standard errors of the origins. -/
theorem C109_real_partial {t ind : Tri ℝ} {n : ℕ} {c w : ℕ → ℕ → ℝ} (h : Spec.Stair t n c) (hp : Spec.Positive n c)
    (hi : IndW t ind n w) (hw : Spec.Weights n w) (hw1 : ∀ i j, i + j + 1 < n → w i j ≤ 1) (hn : 4 ≤ n)
    {dist : String} (hdist : dist = "norm" ∨ dist = "lognorm") :
    ∃ r, ∃ s : ℕ → ℝ, ∃ T : ℝ, mackCall 1 t ind dist = .ok r ∧
      (∀ i < n, r.stdErr[i]? = some (.fin (s i))) ∧ r.stdErr[n]? = some (.fin T) ∧
      Real.sqrt (∑ i ∈ Finset.range n, s i ^ 2) ≤ T ∧ T ≤ ∑ i ∈ Finset.range n, s i := by
  obtain ⟨r, s, T, hr, hlen, hs, h0, hT, hT0, hle⟩ := C46_std_errors h hp hi hw hn 1 hdist
  obtain ⟨core, m, T2, hcore, hm, hT2, hall⟩ := C109_partial h hp hi hw hw1 hn
  obtain ⟨r', hr', hc', hse, -, -⟩ := mackCall_ok hcore hdist
  rw [hr] at hr'
  obtain rfl := Except.ok.inj hr'
  refine ⟨r, s, T, hr, fun i hi' => (hs i hi').1, hT, ?_, ?_⟩
  · rw [Real.sqrt_le_left hT0]; exact hle
  · have hms : ∀ i < n, m i = s i ^ 2 := by
      intro i hi'
      have h1 := (hs i hi').2.2
      rw [hc', hm i hi'] at h1
      exact Num.fin.inj (Option.some.inj h1)
    have hmn : core.mse.length = n := by
      have : r.stdErr.length = core.mse.length + 1 := by rw [hse]; simp
      omega
    have hTT : T = Real.sqrt T2 := by
      rw [hse, List.getElem?_append_right (by simp [hmn])] at hT
      simp only [List.length_map, hmn, Nat.sub_self, List.getElem?_cons_zero, hT2, Option.some_inj] at hT
      by_cases hneg : 0 ≤ T2
      · rw [Num.sqrt_fin hneg] at hT
        exact (Num.fin.inj hT).symm
      · exfalso
        simp only [Num.sqrt] at hT
        rw [if_pos (not_le.1 hneg)] at hT
        cases hT
    rw [hTT]
    refine Real.sqrt_le_iff.2 ⟨Finset.sum_nonneg fun i hi' => (hs i (Finset.mem_range.1 hi')).2.1, ?_⟩
    exact hall s fun i hi' => ⟨(hs i hi').2.1, (hms i hi').le⟩

/-- The 4 x 4 example with origins growing by a factor. -/
def growVals (b a : ℚ) : ℕ → ℕ → ℚ := fun i j => a * b ^ i * exVals i j

/-- **C109 fails** for `alpha = 2` and for `alpha = 0`: on a triangle with growing origins the standard error of
the total exceeds the sum of bounds for those of the origins. -/
theorem C109_fails : ∀ alpha ∈ [0, 2], ¬ (∀ (t : Tri ℚ) (n : ℕ) (c : ℕ → ℕ → ℚ), 4 ≤ n → Spec.Stair t n c →
    Spec.Positive n c → ∀ r, mackCore alpha t t.a2aind0 = .ok r → ∀ (m : ℕ → ℚ) (T : ℚ),
      (∀ i < n, r.mse[i]? = some (.fin (m i))) → r.totMse = .fin T →
      ∀ s : ℕ → ℚ, (∀ i < n, 0 ≤ s i ∧ m i ≤ s i ^ 2) → T ≤ (∑ i ∈ Finset.range n, s i) ^ 2) := by
  have key : ∀ (alpha : ℕ) (b a : ℚ) (s : ℕ → ℚ), Spec.Positive 4 (growVals b a) →
      ((mackCore alpha (stairTri 4 (growVals b a)) (stairTri 4 (growVals b a)).a2aind0).toOption.map (fun r =>
        decide (∀ i < 4, (r.mse[i]? = some (.fin (Spec.val (r.mse.getD i .nan)))) ∧ 0 ≤ s i ∧
          Spec.val (r.mse.getD i .nan) ≤ s i ^ 2) &&
        decide (r.totMse = .fin (Spec.val r.totMse) ∧
          (s 0 + s 1 + s 2 + s 3) ^ 2 < Spec.val r.totMse))) = some true →
      ¬ (∀ (t : Tri ℚ) (n : ℕ) (c : ℕ → ℕ → ℚ), 4 ≤ n → Spec.Stair t n c →
        Spec.Positive n c → ∀ r, mackCore alpha t t.a2aind0 = .ok r → ∀ (m : ℕ → ℚ) (T : ℚ),
          (∀ i < n, r.mse[i]? = some (.fin (m i))) → r.totMse = .fin T →
          ∀ s : ℕ → ℚ, (∀ i < n, 0 ≤ s i ∧ m i ≤ s i ^ 2) → T ≤ (∑ i ∈ Finset.range n, s i) ^ 2) := by
    intro alpha b a s hpos hev hall
    cases hr : mackCore alpha (stairTri 4 (growVals b a)) (stairTri 4 (growVals b a)).a2aind0 with
    | error e => rw [hr] at hev; cases hev
    | ok r =>
      rw [hr] at hev
      simp only [Except.toOption, Option.map_some, Option.some_inj, Bool.and_eq_true, decide_eq_true_eq] at hev
      obtain ⟨h1, h2, h3⟩ := hev
      have := hall _ 4 _ (le_refl _) (stairTri_stair 4 (growVals b a)) hpos r hr
        (fun i => Spec.val (r.mse.getD i .nan)) _ (fun i hi => (h1 i hi).1) h2 s (fun i hi => (h1 i hi).2)
      simp only [Finset.sum_range_succ, Finset.sum_range_zero, zero_add] at this
      exact absurd this (not_le.2 h3)
  have hpos : ∀ b a : ℚ, 0 < b → 0 < a → Spec.Positive 4 (growVals b a) := fun b a hb ha i j hij =>
    mul_pos (mul_pos ha (pow_pos hb i)) (exVals_pos i j hij)
  intro alpha halpha
  rcases List.mem_pair.1 halpha with rfl | rfl
  · exact key 0 100 (1 / 100000) (fun i => [0, 1 / 100, 3 / 5, 119].getD i 0) (hpos _ _ (by norm_num) (by norm_num))
      (by decide +kernel)
  · exact key 2 10 1 (fun i => [0, 18, 1071, 76977].getD i 0) (hpos _ _ (by norm_num) (by norm_num))
      (by decide +kernel)

/-- C109 on the growing example with `alpha = 1`: the total mean squared error lies between the sum of the mean
squared errors and the square of the sum of bounds for their roots. -/
example : (mackCore 1 (stairTri 4 (growVals 10 1)) (stairTri 4 (growVals 10 1)).a2aind0).toOption.map (fun r =>
    decide ((r.mse.map Spec.val).sum < Spec.val r.totMse ∧
      (∀ i < 4, Spec.val (r.mse.getD i .nan) ≤ ([0, 14, 289, 7971].getD i 0) ^ 2) ∧
      Spec.val r.totMse < (0 + 14 + 289 + 7971) ^ 2)) = some true := by
  decide +kernel

end Trikit
