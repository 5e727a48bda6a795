import Verif.Props.Influence

/-!
# C223: development as expected never raises an error of `mack_cl`

`_devp_variance`, `_ldf_variance`, `_process_error`, `_parameter_error` and `_mean_squared_error`
(mack.py:237-441) at two evaluations, the second one period later, every origin having developed with the
factors of the first (the situation of C100).
-/

set_option linter.unusedSectionVars false

namespace Trikit

section
variable {K : Type} [Field K] [LinearOrder K] [IsStrictOrderedRing K]
variable {t ind t' ind' : Tri K} {n : ℕ} {c w c' w' : ℕ → ℕ → K} {alpha : ℕ}

/-! ### the two kinds of error after one period of expected development -/

theorem procVar_expected {m i : ℕ} {f f' s' : ℕ → K} (hi1 : 1 ≤ i) (hi : i < m + 1)
    (hc : c' i (m + 1 - i) = c i (m - i) * f (m - i)) (hf : ∀ k < m, f' k = f k) (hl : s' m = 0) :
    Spec.procVar (m + 2) c' f' s' i =
      ∑ k ∈ Finset.Ico (m - i) m, Spec.proj (m + 1) c f i k * (if k = m - i then 0 else s' k) *
        (∏ l ∈ Finset.Ico (k + 1) m, f l ^ 2) * f' m ^ 2 := by
  unfold Spec.procVar Spec.proj
  have e1 : m + 2 - 1 - i = m - i + 1 := by omega
  have e2 : m + 2 - 1 = m + 1 := by omega
  have e3 : m + 1 - 1 - i = m - i := by omega
  have e4 : m + 1 - i = m - i + 1 := by omega
  rw [e1, e2, e3, Finset.sum_Ico_succ_top (by omega), hl,
    Finset.sum_eq_sum_Ico_succ_bot (show m - i < m by omega), if_pos rfl]
  rw [mul_zero, zero_mul, add_zero, mul_zero, zero_mul, zero_mul, zero_add]
  refine Finset.sum_congr rfl fun k hk => ?_
  rw [Finset.mem_Ico] at hk
  rw [if_neg (by omega), ← e4, hc, e4, Finset.prod_Ico_succ_top (by omega),
    Finset.prod_eq_prod_Ico_succ_bot (show m - i < k by omega)]
  have h1 : ∏ l ∈ Finset.Ico (m - i + 1) k, f' l = ∏ l ∈ Finset.Ico (m - i + 1) k, f l :=
    Finset.prod_congr rfl fun l hl => hf l (by rw [Finset.mem_Ico] at hl; omega)
  have h2 : ∏ l ∈ Finset.Ico (k + 1) m, f' l ^ 2 = ∏ l ∈ Finset.Ico (k + 1) m, f l ^ 2 :=
    Finset.prod_congr rfl fun l hl => by rw [hf l (Finset.mem_Ico.1 hl).2]
  rw [h1, h2]
  ring

theorem paramVar_expected {m i : ℕ} {f f' v' : ℕ → K} (hi1 : 1 ≤ i) (hi : i < m + 1)
    (hc : c' i (m + 1 - i) = c i (m - i) * f (m - i)) (hf : ∀ k < m, f' k = f k) (h1 : f' m = 1) (hl : v' m = 0) :
    Spec.paramVar (m + 2) c' f' v' i =
      c i (m - i) ^ 2 * (f (m - i) ^ 2 * (∏ k ∈ Finset.Ico (m - i + 1) m, (f k ^ 2 + v' k) -
        ∏ k ∈ Finset.Ico (m - i + 1) m, f k ^ 2)) := by
  unfold Spec.paramVar
  have e1 : m + 2 - 1 - i = m - i + 1 := by omega
  have e2 : m + 2 - 1 = m + 1 := by omega
  have e4 : m + 1 - i = m - i + 1 := by omega
  rw [e1, e2, ← e4, hc, e4, Finset.prod_Ico_succ_top (by omega), Finset.prod_Ico_succ_top (by omega), h1, hl]
  have h1 : ∏ l ∈ Finset.Ico (m - i + 1) m, (f' l ^ 2 + v' l) = ∏ l ∈ Finset.Ico (m - i + 1) m, (f l ^ 2 + v' l) :=
    Finset.prod_congr rfl fun l hl => by rw [hf l (Finset.mem_Ico.1 hl).2]
  have h2 : ∏ l ∈ Finset.Ico (m - i + 1) m, f' l ^ 2 = ∏ l ∈ Finset.Ico (m - i + 1) m, f l ^ 2 :=
    Finset.prod_congr rfl fun l hl => by rw [hf l (Finset.mem_Ico.1 hl).2]
  rw [h1, h2]
  ring

/-- The process error falls, strictly when it was positive. -/
theorem procVar_fall {m i : ℕ} {f s f' s' : ℕ → K} (hi1 : 1 ≤ i) (hi : i < m + 1)
    (hc : c' i (m + 1 - i) = c i (m - i) * f (m - i)) (hf : ∀ k < m, f' k = f k) (h1 : f' m = 1) (hl : s' m = 0)
    (hc0 : 0 < c i (m - i)) (hf0 : ∀ k < m, 0 < f k) (hs : ∀ k < m, 0 ≤ s k) (hs' : ∀ k < m, s' k ≤ s k)
    (hlt : ∀ k < m, 0 < s k → s' k < s k) :
    Spec.procVar (m + 2) c' f' s' i ≤ Spec.procVar (m + 1) c f s i ∧
      ((∃ k, m - i ≤ k ∧ k < m ∧ 0 < s k) → Spec.procVar (m + 2) c' f' s' i < Spec.procVar (m + 1) c f s i) := by
  have e := procVar_expected hi1 hi hc hf hl
  have hP : ∀ k, k ≤ m → 0 < Spec.proj (m + 1) c f i k := fun k hk =>
    mul_pos hc0 (Finset.prod_pos fun l hl => hf0 l (by rw [Finset.mem_Ico] at hl; omega))
  have hQ : ∀ k, 0 < ∏ l ∈ Finset.Ico (k + 1) m, f l ^ 2 := fun k =>
    Finset.prod_pos fun l hl => pow_pos (hf0 l (Finset.mem_Ico.1 hl).2) 2
  have hle : ∀ k ∈ Finset.Ico (m - i) m, Spec.proj (m + 1) c f i k * (if k = m - i then 0 else s' k) *
      (∏ l ∈ Finset.Ico (k + 1) m, f l ^ 2) * f' m ^ 2 ≤
      Spec.proj (m + 1) c f i k * s k * ∏ l ∈ Finset.Ico (k + 1) m, f l ^ 2 := by
    intro k hk
    rw [Finset.mem_Ico] at hk
    rw [h1, one_pow, mul_one]
    refine mul_le_mul_of_nonneg_right (mul_le_mul_of_nonneg_left ?_ (hP k hk.2.le).le) (hQ k).le
    split
    · exact hs k hk.2
    · exact hs' k hk.2
  have eo : Spec.procVar (m + 1) c f s i =
      ∑ k ∈ Finset.Ico (m - i) m, Spec.proj (m + 1) c f i k * s k * ∏ l ∈ Finset.Ico (k + 1) m, f l ^ 2 := by
    unfold Spec.procVar
    rw [Nat.add_sub_cancel]
  rw [e, eo]
  refine ⟨Finset.sum_le_sum hle, fun ⟨k, k1, k2, k3⟩ => Finset.sum_lt_sum hle ⟨k, Finset.mem_Ico.2 ⟨k1, k2⟩, ?_⟩⟩
  rw [h1, one_pow, mul_one]
  refine mul_lt_mul_of_pos_right (mul_lt_mul_of_pos_left ?_ (hP k k2.le)) (hQ k)
  split
  · exact k3
  · exact hlt k k2 k3

/-- The parameter error does not rise. -/
theorem paramVar_fall {m i : ℕ} {f v f' v' : ℕ → K} (hi1 : 1 ≤ i) (hi : i < m + 1)
    (hc : c' i (m + 1 - i) = c i (m - i) * f (m - i)) (hf : ∀ k < m, f' k = f k) (h1 : f' m = 1) (hl : v' m = 0)
    (hv : ∀ k < m, 0 ≤ v k) (hv0 : ∀ k < m, 0 ≤ v' k) (hv' : ∀ k < m, v' k ≤ v k) :
    Spec.paramVar (m + 2) c' f' v' i ≤ Spec.paramVar (m + 1) c f v i := by
  rw [paramVar_expected hi1 hi hc hf h1 hl]
  unfold Spec.paramVar
  rw [Nat.add_sub_cancel]
  refine mul_le_mul_of_nonneg_left ?_ (sq_nonneg _)
  rw [Finset.prod_eq_prod_Ico_succ_bot (show m - i < m by omega),
    Finset.prod_eq_prod_Ico_succ_bot (show m - i < m by omega)]
  have a1 : ∏ k ∈ Finset.Ico (m - i + 1) m, (f k ^ 2 + v' k) ≤ ∏ k ∈ Finset.Ico (m - i + 1) m, (f k ^ 2 + v k) :=
    Finset.prod_le_prod (fun k hk => add_nonneg (sq_nonneg _) (hv0 k (Finset.mem_Ico.1 hk).2))
      fun k hk => by have := hv' k (Finset.mem_Ico.1 hk).2; linarith
  have a2 : 0 ≤ ∏ k ∈ Finset.Ico (m - i + 1) m, (f k ^ 2 + v k) :=
    Finset.prod_nonneg fun k hk => add_nonneg (sq_nonneg _) (hv k (Finset.mem_Ico.1 hk).2)
  have a3 := mul_le_mul_of_nonneg_left a1 (sq_nonneg (f (m - i)))
  have a4 := mul_nonneg (hv (m - i) (by omega)) a2
  linarith

/-! ### the variance parameters -/

theorem mackW_expected {f : ℕ → K} {tail : K} (hp : Spec.Positive n c) (he : Spec.AsExpected n c c' f tail)
    (hw' : Spec.Weights (n + 1) w') (hww : ∀ i j, i + j + 1 < n → w' i j = w i j) {j : ℕ} (hj : j < n - 1) :
    Spec.mackW alpha n c w j ≤ Spec.mackW alpha (n + 1) c' w' j := by
  unfold Spec.mackW Spec.colSum
  rw [show n + 1 - 1 - j = n - 1 - j + 1 by omega, Finset.sum_range_succ, he.same _ _ (by omega)]
  have e : ∑ i ∈ Finset.range (n - 1 - j), w' i j * c' i j ^ alpha =
      ∑ i ∈ Finset.range (n - 1 - j), w i j * c i j ^ alpha :=
    Finset.sum_congr rfl fun i hi => by
      rw [Finset.mem_range] at hi
      rw [he.same _ _ (by omega), hww _ _ (by omega)]
  rw [e]
  have := mul_nonneg (hw'.nonneg (n - 1 - j) j (by omega)) (pow_nonneg (hp (n - 1 - j) j (by omega)).le alpha)
  linarith

theorem sqDev_expected {tail : K} (hp : Spec.Positive n c)
    (he : Spec.AsExpected n c c' (Spec.mackF alpha n c w) tail)
    (hww : ∀ i j, i + j + 1 < n → w' i j = w i j) {j : ℕ} (hj : j < n - 1) :
    Spec.sqDev alpha (n + 1) c' w' (Spec.mackF alpha n c w j) j =
      Spec.sqDev alpha n c w (Spec.mackF alpha n c w j) j := by
  unfold Spec.sqDev Spec.colSum
  rw [show n + 1 - 1 - j = n - 1 - j + 1 by omega, Finset.sum_range_succ]
  have h1 := he.next (n - 1 - j) (by omega) (by omega)
  have e1 : n - (n - 1 - j) = j + 1 := by omega
  have e2 : n - 1 - (n - 1 - j) = j := by omega
  rw [e1, e2] at h1
  rw [h1, he.same _ _ (by omega), mul_div_cancel_left₀ _ (hp (n - 1 - j) j (by omega)).ne', sub_self]
  rw [zero_pow two_ne_zero, mul_zero, add_zero]
  refine Finset.sum_congr rfl fun i hi => ?_
  rw [Finset.mem_range] at hi
  rw [he.same _ _ (by omega), he.same _ _ (by omega), hww _ _ (by omega)]

theorem sqDev_single (hp : Spec.Positive n c) (hw : Spec.Weights n w) (hn : 2 ≤ n) :
    Spec.sqDev alpha n c w (Spec.mackF alpha n c w (n - 2)) (n - 2) = 0 := by
  have hW := mackW_pos hp hw alpha (j := n - 2) (by omega)
  have e : n - 1 - (n - 2) = 1 := by omega
  unfold Spec.sqDev Spec.mackF
  unfold Spec.mackW Spec.colSum at *
  rw [e] at hW
  rw [e]
  simp only [Finset.sum_range_one] at *
  rw [mul_div_cancel_left₀ _ hW.ne', sub_self]
  ring

theorem sig0_expected {tail : K} (hp : Spec.Positive n c) (hw : Spec.Weights n w)
    (he : Spec.AsExpected n c c' (Spec.mackF alpha n c w) tail) (hp' : Spec.Positive (n + 1) c')
    (hw' : Spec.Weights (n + 1) w') (hww : ∀ i j, i + j + 1 < n → w' i j = w i j) (hn : 4 ≤ n) :
    (∀ j, j + 2 < n → Spec.sig0 alpha (n + 1) c' w' j * ((n - j - 1 : ℕ) : K) =
      Spec.sig0 alpha n c w j * ((n - j - 2 : ℕ) : K)) ∧ Spec.sig0 alpha (n + 1) c' w' (n - 2) = 0 := by
  have hF : ∀ j < n - 1, Spec.mackF alpha (n + 1) c' w' j = Spec.mackF alpha n c w j := fun j hj => by
    rw [mackF_expected hp hw he hp' hw' hww (by omega), if_pos hj]
  constructor
  · intro j hj
    unfold Spec.sig0
    rw [hF j (by omega), sqDev_expected hp he hww (by omega), show n + 1 - j - 2 = n - j - 1 by omega,
      div_mul_cancel₀, div_mul_cancel₀]
    · exact Nat.cast_ne_zero.2 (by omega)
    · exact Nat.cast_ne_zero.2 (by omega)
  · unfold Spec.sig0
    rw [hF _ (by omega), sqDev_expected hp he hww (by omega), sqDev_single hp hw (by omega), zero_div]

/-- A variance that was spread over one link ratio fewer. -/
theorem shrink {a b : K} {k : ℕ} (hk : 0 < k) (ha : 0 ≤ a) (e : b * ((k + 1 : ℕ) : K) = a * ((k : ℕ) : K)) :
    0 ≤ b ∧ b ≤ a ∧ (0 < a → b < a) ∧ (a = 0 ↔ b = 0) := by
  have h1 : (0 : K) < (k : K) := Nat.cast_pos.2 hk
  have h2 : (0 : K) < ((k + 1 : ℕ) : K) := Nat.cast_pos.2 (by omega)
  have hb : b = a * (k : K) / ((k + 1 : ℕ) : K) := by rw [← e, mul_div_cancel_right₀ _ h2.ne']
  have h3 : (k : K) < ((k + 1 : ℕ) : K) := Nat.cast_lt.2 (by omega)
  refine ⟨by rw [hb]; positivity, ?_, ?_, ?_⟩
  · rw [hb, div_le_iff₀ h2]
    exact mul_le_mul_of_nonneg_left h3.le ha
  · intro h
    rw [hb, div_lt_iff₀ h2]
    exact mul_lt_mul_of_pos_left h3 h
  · constructor
    · rintro rfl
      rw [hb, zero_mul, zero_div]
    · rintro rfl
      rw [zero_mul] at e
      rcases mul_eq_zero.1 e.symm with h | h
      · exact h
      · exact absurd h h1.ne'

theorem sigma2_expected {tail : K} (hp : Spec.Positive n c) (hw : Spec.Weights n w)
    (he : Spec.AsExpected n c c' (Spec.mackF alpha n c w) tail) (hp' : Spec.Positive (n + 1) c')
    (hw' : Spec.Weights (n + 1) w') (hww : ∀ i j, i + j + 1 < n → w' i j = w i j) (hn : 4 ≤ n) :
    (∀ j < n - 1, Spec.sigma2 alpha (n + 1) c' w' j ≤ Spec.sigma2 alpha n c w j ∧
      (0 < Spec.sigma2 alpha n c w j → Spec.sigma2 alpha (n + 1) c' w' j < Spec.sigma2 alpha n c w j)) ∧
    Spec.sigma2 alpha (n + 1) c' w' (n - 1) = 0 := by
  obtain ⟨h1, h2⟩ := sig0_expected hp hw he hp' hw' hww hn
  constructor
  · intro j hj
    have h0 := sigma2_nonneg hp hw alpha j
    by_cases hj2 : j + 2 < n
    · unfold Spec.sigma2
      rw [if_pos hj2, if_pos (show j + 2 < n + 1 by omega)]
      have e := h1 j hj2
      rw [show n - j - 1 = n - j - 2 + 1 by omega] at e
      have := shrink (by omega) (sig0_nonneg hp hw alpha j) e
      exact ⟨this.2.1, this.2.2.1⟩
    · obtain rfl : j = n - 2 := by omega
      have e : Spec.sigma2 alpha (n + 1) c' w' (n - 2) = 0 := by
        unfold Spec.sigma2
        rw [if_pos (by omega), h2]
      rw [e]
      exact ⟨h0, id⟩
  · unfold Spec.sigma2
    rw [if_neg (by omega), show n + 1 - 3 = n - 2 by omega, show n + 1 - 4 = n - 3 by omega, h2]
    unfold Spec.sigLast
    rw [zero_pow two_ne_zero, zero_div, min_eq_left]
    exact le_min le_rfl (sig0_nonneg hp' hw' alpha _)

theorem degenerate_expected {tail : K} (hp : Spec.Positive n c) (hw : Spec.Weights n w)
    (he : Spec.AsExpected n c c' (Spec.mackF alpha n c w) tail) (hp' : Spec.Positive (n + 1) c')
    (hw' : Spec.Weights (n + 1) w') (hww : ∀ i j, i + j + 1 < n → w' i j = w i j) (hn : 4 ≤ n) :
    Spec.Degenerate alpha (n + 1) c' w' ↔ Spec.sig0 alpha n c w (n - 3) = 0 := by
  obtain ⟨h1, h2⟩ := sig0_expected hp hw he hp' hw' hww hn
  have e := h1 (n - 3) (by omega)
  rw [show n - (n - 3) - 1 = n - (n - 3) - 2 + 1 by omega] at e
  have := (shrink (by omega) (sig0_nonneg hp hw alpha (n - 3)) e).2.2.2
  unfold Spec.Degenerate
  rw [show n + 1 - 3 = n - 2 by omega, show n + 1 - 4 = n - 3 by omega, this]
  exact ⟨fun h => h.2, fun h => ⟨h2, h⟩⟩

/-! ### C223 -/

theorem paramVar_nonneg' {f v : ℕ → K} {i : ℕ} (hv : ∀ k < n - 1, 0 ≤ v k) : 0 ≤ Spec.paramVar n c f v i := by
  unfold Spec.paramVar
  refine mul_nonneg (sq_nonneg _) (sub_nonneg.2 (Finset.prod_le_prod (fun k _ => sq_nonneg _) fun k hk => ?_))
  have := hv k (Finset.mem_Ico.1 hk).2
  linarith

theorem procVar_nonneg' {f s : ℕ → K} {i : ℕ} (hc : 0 ≤ c i (n - 1 - i)) (hf : ∀ k < n - 1, 0 ≤ f k)
    (hs : ∀ k < n - 1, 0 ≤ s k) : 0 ≤ Spec.procVar n c f s i := by
  unfold Spec.procVar Spec.proj
  refine Finset.sum_nonneg fun k hk => ?_
  have hk := Finset.mem_Ico.1 hk
  refine mul_nonneg (mul_nonneg (mul_nonneg hc (Finset.prod_nonneg fun l hl => hf l ?_)) (hs k hk.2))
    (Finset.prod_nonneg fun l _ => sq_nonneg _)
  have := Finset.mem_Ico.1 hl
  omega

/-- Comparison of the closed forms. -/
theorem errors_fall (hp : Spec.Positive n c) (hw : Spec.Weights n w)
    (he : Spec.AsExpected n c c' (Spec.mackF alpha n c w) 1) (hp' : Spec.Positive (n + 1) c')
    (hw' : Spec.Weights (n + 1) w') (hww : ∀ i j, i + j + 1 < n → w' i j = w i j) (hn : 4 ≤ n) {i : ℕ} (hi : i < n) :
    let F := Spec.mackF alpha n c w
    let F' := Spec.mackF alpha (n + 1) c' w'
    let P := Spec.procVar n c F (Spec.sigma2 alpha n c w) i
    let P' := Spec.procVar (n + 1) c' F' (Spec.sigma2 alpha (n + 1) c' w') i
    let Q := Spec.paramVar n c F (Spec.ldfVar alpha n c w) i
    let Q' := Spec.paramVar (n + 1) c' F' (Spec.ldfVar alpha (n + 1) c' w') i
    P' ≤ P ∧ Q' ≤ Q ∧ (0 < P + Q → P' < P) := by
  intro F F' P P' Q Q'
  obtain ⟨s1, s2⟩ := sigma2_expected hp hw he hp' hw' hww hn
  obtain ⟨m, rfl⟩ : ∃ m, n = m + 1 := ⟨n - 1, by omega⟩
  simp only [Nat.add_sub_cancel] at s1 s2
  by_cases h0 : i = 0
  · subst h0
    have a : P = 0 := by simp [P, Spec.procVar]
    have a' : P' = 0 := by simp [P', Spec.procVar]
    have b : Q = 0 := by simp [Q, Spec.paramVar]
    have b' : Q' = 0 := by simp [Q', Spec.paramVar]
    rw [a, a', b, b', add_zero]
    exact ⟨le_rfl, le_rfl, id⟩
  · have hc : c' i (m + 1 - i) = c i (m - i) * F (m - i) := by
      have := he.next i (by omega) hi
      rwa [show m + 1 - 1 - i = m - i by omega] at this
    have hF : ∀ k < m, F' k = F k := fun k hk => by
      show Spec.mackF alpha (m + 1 + 1) c' w' k = _
      rw [mackF_expected hp hw he hp' hw' hww (by omega), if_pos (by omega)]
    have h1 : F' m = 1 := by
      show Spec.mackF alpha (m + 1 + 1) c' w' m = _
      rw [mackF_expected hp hw he hp' hw' hww (by omega), if_neg (by omega)]
    have hc0 := hp i (m - i) (by omega)
    have hF0 : ∀ k < m, 0 < F k := fun k hk => mackF_pos hp hw alpha (by omega)
    have hs : ∀ k < m, 0 ≤ Spec.sigma2 alpha (m + 1) c w k := fun k _ => sigma2_nonneg hp hw alpha k
    have hv : ∀ k < m, 0 ≤ Spec.ldfVar alpha (m + 1) c w k := fun k hk => ldfVar_nonneg hp hw alpha (by omega)
    have hpf := procVar_fall (by omega) hi hc hF h1 s2 hc0 hF0 hs (fun k hk => (s1 k hk).1) (fun k hk => (s1 k hk).2)
    refine ⟨hpf.1, ?_, ?_⟩
    · refine paramVar_fall (by omega) hi hc hF h1 ?_ hv (fun k hk => ldfVar_nonneg hp' hw' alpha (by omega)) ?_
      · unfold Spec.ldfVar
        rw [s2, zero_div]
      · intro k hk
        unfold Spec.ldfVar
        exact div_le_div₀ (hs k hk) (s1 k hk).1 (mackW_pos hp hw alpha (by omega))
          (mackW_expected hp he hw' hww (by omega))
    · intro hpos
      refine hpf.2 ?_
      by_contra hno
      have hz : ∀ k, m - i ≤ k → k < m → Spec.sigma2 alpha (m + 1) c w k = 0 := fun k k1 k2 => by
        by_contra hne
        exact hno ⟨k, k1, k2, lt_of_le_of_ne (hs k k2) (Ne.symm hne)⟩
      have a : P = 0 := by
        refine Finset.sum_eq_zero fun k hk => ?_
        rw [Finset.mem_Ico] at hk
        rw [hz k (by omega) (by omega), mul_zero, zero_mul]
      have b : Q = 0 := by
        have : ∏ k ∈ Finset.Ico (m + 1 - 1 - i) (m + 1 - 1), (F k ^ 2 + Spec.ldfVar alpha (m + 1) c w k) =
            ∏ k ∈ Finset.Ico (m + 1 - 1 - i) (m + 1 - 1), F k ^ 2 :=
          Finset.prod_congr rfl fun k hk => by
            rw [Finset.mem_Ico] at hk
            unfold Spec.ldfVar
            rw [hz k (by omega) (by omega), zero_div, add_zero]
        show Spec.paramVar _ _ _ _ _ = 0
        unfold Spec.paramVar
        rw [this, sub_self, mul_zero]
      rw [a, b, add_zero] at hpos
      exact lt_irrefl _ hpos

/-- **C223.** For every positive staircase of at least four origins, every exponent and all exclusion weights: when every origin
develops with the factors of the last estimate, then at the next estimate the variance parameter of each
period but the last is the old one times `(n-j-2)/(n-j-1)`, that of the last old period is zero, and no
process error, parameter error or mean squared error of an origin present before is higher; the mean squared
error of an origin is lower unless it was zero already. -/
theorem C223_expected (h : Spec.Stair t n c) (hp : Spec.Positive n c) (hi : IndW t ind n w) (hw : Spec.Weights n w)
    (h' : Spec.Stair t' (n + 1) c') (hi' : IndW t' ind' (n + 1) w') (hw' : Spec.Weights (n + 1) w')
    (hww : ∀ i j, i + j + 1 < n → w' i j = w i j) (hn : 4 ≤ n) {f : ℕ → K}
    {r : MackCore K} (hr : mackCore alpha t ind = .ok r) (hf : ∀ j < n - 1, r.ldfs.iloc j = .fin (f j))
    (he : Spec.AsExpected n c c' f 1) :
    ∃ r', mackCore alpha t' ind' = .ok r' ∧
      (∀ j < n - 2, ∃ s s' : K, r.devpvar.iloc j = .fin s ∧ r'.devpvar.iloc j = .fin s' ∧
        s' * ((n - j - 1 : ℕ) : K) = s * ((n - j - 2 : ℕ) : K)) ∧
      r'.devpvar.iloc (n - 2) = .fin 0 ∧
      ∀ i < n, ∃ p p' q q' : K, r.procErr[i]? = some (.fin p) ∧ r'.procErr[i]? = some (.fin p') ∧
        r.paramErr[i]? = some (.fin q) ∧ r'.paramErr[i]? = some (.fin q') ∧
        r.mse[i]? = some (.fin (p + q)) ∧ r'.mse[i]? = some (.fin (p' + q')) ∧
        p' ≤ p ∧ q' ≤ q ∧ (0 < p + q → p' + q' < p + q) := by
  obtain ⟨r1, b1, lab1, g1, p1⟩ := mack_parts h hp hi hw hn alpha
  obtain rfl : r1 = r := Except.ok.inj (g1.symm.trans hr)
  have hff : ∀ j < n - 1, f j = Spec.mackF alpha n c w j := by
    intro j hj
    have := (hf j hj).symm.trans (p1.ldf h j hj)
    exact Num.fin.inj this
  have he' : Spec.AsExpected n c c' (Spec.mackF alpha n c w) 1 :=
    ⟨he.same, fun i h1 h2 => by rw [he.next i h1 h2, hff _ (by omega)], he.oldest, he.fresh⟩
  have hp' := he'.pos (by omega) hp (fun j hj => mackF_pos hp hw alpha hj) one_pos
  obtain ⟨r', b', lab', g', p'⟩ := mack_parts h' hp' hi' hw' (by omega) alpha
  obtain ⟨r2, q1, _, _, q4, q5⟩ := mack_ults h hp hi hw hn alpha
  obtain rfl : r2 = r1 := Except.ok.inj (q1.symm.trans g1)
  obtain ⟨r3, t1, _, _, t4, t5⟩ := mack_ults h' hp' hi' hw' (by omega) alpha
  obtain rfl : r3 = r' := Except.ok.inj (t1.symm.trans g')
  obtain ⟨u1, u2⟩ := sig0_expected hp hw he' hp' hw' hww hn
  have hd := degenerate_expected hp hw he' hp' hw' hww hn
  refine ⟨r3, g', ?_, ?_, ?_⟩
  · intro j hj
    refine ⟨_, _, (p1.dv j (by omega)).trans ?_, (p'.dv j (by omega)).trans ?_, u1 j (by omega)⟩
    · unfold storedVar; rw [if_pos (by omega)]
    · unfold storedVar; rw [if_pos (by omega)]
  · rw [p'.dv _ (by omega)]
    unfold storedVar
    rw [if_pos (by omega), u2]
  · intro i hin
    have get : ∀ (g : ℕ → Num K) (m : ℕ), i < m → ((List.range m).map g)[i]? = some (g i) := fun g m him => by
      rw [List.getElem?_map, List.getElem?_range him]; rfl
    by_cases hdo : Spec.Degenerate alpha n c w
    · have hdn := hd.2 hdo.1
      obtain ⟨a1, a2, a3⟩ := q4 hdo
      obtain ⟨c1, c2, c3⟩ := t4 hdn
      refine ⟨0, 0, 0, 0, ?_, ?_, ?_, ?_, ?_, ?_, le_rfl, le_rfl, fun h => by rwa [add_zero] at h ⊢⟩
      · rw [a2, get _ _ hin]
      · rw [c2, get _ _ (by omega)]
      · rw [a3, get _ _ hin]
      · rw [c3, get _ _ (by omega)]
      · rw [a1, get _ _ hin, add_zero]
      · rw [c1, get _ _ (by omega), add_zero]
    · obtain ⟨a1, a2, a3⟩ := q5 hdo
      by_cases hdn : Spec.Degenerate alpha (n + 1) c' w'
      · obtain ⟨c1, c2, c3⟩ := t4 hdn
        refine ⟨_, 0, _, 0, by rw [a2, get _ _ hin], by rw [c2, get _ _ (by omega)], by rw [a3, get _ _ hin],
          by rw [c3, get _ _ (by omega)], by rw [a1, get _ _ hin]; rfl,
          by rw [c1, get _ _ (by omega), add_zero], ?_, ?_, ?_⟩
        · exact procVar_nonneg' (hp i _ (by omega)).le (fun k hk => (mackF_pos hp hw alpha hk).le)
            fun k _ => sigma2_nonneg hp hw alpha k
        · exact paramVar_nonneg' fun k hk => ldfVar_nonneg hp hw alpha hk
        · intro hpos
          rwa [add_zero]
      · obtain ⟨c1, c2, c3⟩ := t5 hdn
        obtain ⟨x1, x2, x3⟩ := errors_fall hp hw he' hp' hw' hww hn hin
        exact ⟨_, _, _, _, by rw [a2, get _ _ hin], by rw [c2, get _ _ (by omega)], by rw [a3, get _ _ hin],
          by rw [c3, get _ _ (by omega)], by rw [a1, get _ _ hin]; rfl, by rw [c1, get _ _ (by omega)]; rfl,
          x1, x2, fun hpos => add_lt_add_of_lt_of_le (x3 hpos) x2⟩

end

/-- C223 on the example: the error of the second and third origin vanish, that of the fourth falls from about
475 to about 33, and the first variance parameter from `379 / 330` to two thirds of it. -/
example : (mackCore 1 exTri exTri.a2aind0).toOption.map (fun r => (r.mse[2]?, r.mse[3]?, r.devpvar.iloc 0)) =
      some (some (.fin (3206726383014 / 41033827825)), some (.fin (1403795757769301 / 2954435603400)),
        .fin (379 / 330)) ∧
    (mackCore 1 (stairTri 5 exNext) (stairTri 5 exNext).a2aind0).toOption.map
      (fun r => (r.mse[2]?, r.mse[3]?, r.devpvar.iloc 0)) =
      some (some (.fin 0), some (.fin (812383 / 24450)), .fin (379 / 495)) := by
  decide +kernel

end Trikit
