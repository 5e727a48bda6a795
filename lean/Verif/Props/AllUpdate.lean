import Verif.Props.WindowUpdate

/-!
# C235: how a factor of all years moves with any new diagonal

`base_cl` (base.py:25-170) with an average of all years, or of a window that is not yet full (`a2a_avgs`, triangle.py:777-856), at
two evaluations, the second one period later.
-/

set_option linter.unusedSectionVars false

namespace Trikit

section
variable {t t' : Tri ℝ} {n : ℕ} {c c' : ℕ → ℕ → ℝ}

/-- How the factor of period `j` goes from `f` to `f'` when a link ratio joins and none leaves: towards the joining ratio, the
simple average by its share in the number of ratios, the weighted by its share in the amounts, the geometric in logarithms. -/
def Spec.AllStep (n : ℕ) (c' : ℕ → ℕ → ℝ) (j : ℕ) (f f' : ℝ) : AvgKind → Prop
  | .simple => f' = f + 1 / (n - j : ℕ) * (Spec.joining n c' j - f)
  | .geometric => f' ^ (n - j) = f ^ (n - 1 - j) * Spec.joining n c' j
  | .weighted => f' = f + c' (n - 1 - j) j / (∑ i ∈ Finset.range (n - j), c' i j) * (Spec.joining n c' j - f)
  | .medial => True

theorem lastN_whole {α : Type} {l : List α} {k : ℕ} (h : k = 0 ∨ l.length ≤ k) : Spec.lastN k l = l := by
  unfold Spec.lastN
  split
  · rfl
  · rw [show l.length - k = 0 by omega, List.drop_zero]

theorem step_iff {f x z : ℝ} (hz : 0 < z) :
    (f < f + z * (x - f) ↔ f < x) ∧ (f + z * (x - f) < f ↔ x < f) := by
  constructor
  · rw [lt_add_iff_pos_right, mul_pos_iff_of_pos_left hz, sub_pos]
  · rw [add_lt_iff_neg_left, ← neg_pos, ← mul_neg, mul_pos_iff_of_pos_left hz, neg_sub, sub_pos]

/-- **C235.** `base_cl` with the simple, geometric or weighted average of all years, or of the last `k` years in a period with
fewer than `k` link ratios, on any two positive staircases one period apart: the factor moves as `Spec.AllStep` says; so it rises
exactly when the joining ratio exceeds it and falls exactly when it is below. -/
theorem C235_all (h : Spec.Stair t n c) (hp : Spec.Positive n c) (h' : Spec.Stair t' (n + 1) c')
    (hy : Spec.NextYear n c c') (hn : 3 ≤ n) {kind : AvgKind} (hkind : kind ≠ .medial) {k : ℕ} (hkn : k < n - 1)
    {tail tail' : Num ℝ} {r r' : BaseResult ℝ} (hr : baseCL gmean t t.a2aind0 (Spec.avgName kind.name k) tail = .ok r)
    (hr' : baseCL gmean t' t'.a2aind0 (Spec.avgName kind.name k) tail' = .ok r') {j : ℕ} (hj : j < n - 1)
    (hfull : k = 0 ∨ n ≤ j + k) :
    ∃ f f' : ℝ, r.ldfs.iloc j = .fin f ∧ r'.ldfs.iloc j = .fin f' ∧ Spec.AllStep n c' j f f' kind ∧
      (f < f' ↔ f < Spec.joining n c' j) ∧ (f' < f ↔ Spec.joining n c' j < f) := by
  have hp' := hy.positive hp
  have e := baseCL_iloc h hp hn kind hkn hr hj
  have e' := baseCL_iloc h' hp' (by omega) kind (by omega) hr' (show j < n + 1 - 1 by omega)
  have hi := h.indOn0 hp.ne_zero
  have hi' := h'.indOn0 hp'.ne_zero
  have hne := ratios_ne_nil (c := c) hj
  have hlen : (Spec.ratios n c j).length = n - 1 - j := by simp [Spec.ratios]
  have hyr := ratios_year hy (show j < n by omega)
  have hjo : c' (n - 1 - j) (j + 1) / c (n - 1 - j) j = Spec.joining n c' j := by
    unfold Spec.joining; rw [hy.same (n - 1 - j) j (by omega)]
  rw [hjo] at hyr
  have hin : 0 < Spec.joining n c' j := div_pos (hp' _ _ (by omega)) (hp' _ _ (by omega))
  have w1 : Spec.lastN k (Spec.ratios n c j) = Spec.ratios n c j := lastN_whole (by omega)
  have w2 : Spec.lastN k (Spec.ratios n c j ++ [Spec.joining n c' j]) = Spec.ratios n c j ++ [Spec.joining n c' j] :=
    lastN_whole (by rw [List.length_append, List.length_singleton]; omega)
  have hmp := ratios_pos hp j
  obtain ⟨l, hl⟩ : ∃ l, l = Spec.ratios n c j := ⟨_, rfl⟩
  have hN : n - j = l.length + 1 := by rw [hl, hlen]; omega
  have hN1 : n - 1 - j = l.length := by rw [hl, hlen]
  cases kind with
  | medial => exact absurd rfl hkind
  | simple =>
    rw [entry_simple h hp.ne_zero hi hj, window_noexcl hp, w1, simpleAvg_fin hne] at e
    rw [entry_simple h' hp'.ne_zero hi' (by omega), window_noexcl hp', hyr, w2, simpleAvg_fin (by simp)] at e'
    rw [← hl] at e e' hne
    have hl0 : (0 : ℝ) < l.length := by exact_mod_cast List.length_pos_of_ne_nil hne
    have step : Spec.mean (l ++ [Spec.joining n c' j]) = Spec.mean l +
        1 / (n - j : ℕ) * (Spec.joining n c' j - Spec.mean l) := by
      unfold Spec.mean
      rw [List.sum_append, List.sum_singleton, List.length_append, List.length_singleton, hN]
      push_cast
      field_simp
      ring
    refine ⟨_, _, (Except.ok.inj e).symm, (Except.ok.inj e').symm, step, ?_⟩
    rw [step]
    exact step_iff (by rw [hN]; positivity)
  | geometric =>
    rw [entry_geometric h hp.ne_zero hi hj, window_noexcl hp, w1] at e
    rw [entry_geometric h' hp'.ne_zero hi' (by omega), window_noexcl hp', hyr, w2] at e'
    rw [← hl] at e e' hne hmp
    have p2 : ∀ x ∈ l ++ [Spec.joining n c' j], 0 < x := fun x hx => by
      rcases List.mem_append.1 hx with hx | hx
      · exact hmp x hx
      · rw [List.mem_singleton.1 hx]; exact hin
    unfold geometricAvg at e e'
    rw [if_neg (by simpa using hne), gmean_fin hmp hne] at e
    rw [if_neg (by simp), gmean_fin p2 (by simp)] at e'
    have q1 := exp_mean_pow hne hmp
    have q2 := exp_mean_pow (by simp) p2
    rw [List.length_append, List.length_singleton, List.prod_append, List.prod_singleton] at q2
    set F := Real.exp (Spec.mean (l.map Real.log)) with hF
    set G := Real.exp (Spec.mean ((l ++ [Spec.joining n c' j]).map Real.log)) with hG
    have F0 : 0 < F := Real.exp_pos _
    have G0 : 0 < G := Real.exp_pos _
    have step : G ^ (l.length + 1) = F ^ l.length * Spec.joining n c' j := by rw [q1, q2]
    have mono : ∀ a b : ℝ, 0 < a → 0 < b → (a < b ↔ a ^ (l.length + 1) < b ^ (l.length + 1)) := fun a b ha hb =>
      (pow_lt_pow_iff_left₀ ha.le hb.le (by omega)).symm
    have hFl : 0 < F ^ l.length := pow_pos F0 _
    refine ⟨F, G, (Except.ok.inj e).symm, (Except.ok.inj e').symm, ?_, ?_, ?_⟩
    · unfold Spec.AllStep; rw [hN, hN1]; exact step
    · rw [mono F G F0 G0, step, pow_succ, mul_lt_mul_iff_right₀ hFl]
    · rw [mono G F G0 F0, step, pow_succ, mul_lt_mul_iff_right₀ hFl]
  | weighted =>
    rw [entry_wavg gmean h hp k hj] at e
    rw [entry_wavg gmean h' hp' k (by omega)] at e'
    have hA := wavg_den_pos hp k hj
    have hA' := wavg_den_pos hp' k (show j < n + 1 - 1 by omega)
    obtain ⟨o, ho⟩ : ∃ o, o = n - 1 - j := ⟨_, rfl⟩
    have v1 : Spec.lastN k (List.range o) = List.range o := lastN_whole (by rw [List.length_range]; omega)
    have v2 : Spec.lastN k (List.range (o + 1)) = List.range (o + 1) := lastN_whole (by rw [List.length_range]; omega)
    have hsame : ∀ (q : ℕ), q ≤ j + 1 → ∑ i ∈ Finset.range o, c' i q = ∑ i ∈ Finset.range o, c i q := fun q hq =>
      Finset.sum_congr rfl fun i hi => hy.same _ _ (by have := Finset.mem_range.1 hi; omega)
    have u1 : Spec.wavg n k c j = (∑ i ∈ Finset.range o, c i (j + 1)) / ∑ i ∈ Finset.range o, c i j := by
      unfold Spec.wavg; rw [← ho, v1, list_range_sum, list_range_sum]
    have u2 : Spec.wavg (n + 1) k c' j =
        (∑ i ∈ Finset.range o, c i (j + 1) + c' o (j + 1)) / (∑ i ∈ Finset.range o, c i j + c' o j) := by
      unfold Spec.wavg
      rw [show n + 1 - 1 - j = o + 1 by omega, v2, list_range_sum, list_range_sum, Finset.sum_range_succ,
        Finset.sum_range_succ, hsame _ le_rfl, hsame _ (by omega)]
    rw [← ho, v1, list_range_sum] at hA
    have hx0 : 0 < c' o j := hp' _ _ (by omega)
    have hden : ∑ i ∈ Finset.range (n - j), c' i j = ∑ i ∈ Finset.range o, c i j + c' o j := by
      rw [show n - j = o + 1 by omega, Finset.sum_range_succ, hsame _ (by omega)]
    have step : Spec.wavg (n + 1) k c' j = Spec.wavg n k c j +
        c' (n - 1 - j) j / (∑ i ∈ Finset.range (n - j), c' i j) * (Spec.joining n c' j - Spec.wavg n k c j) := by
      unfold Spec.joining
      rw [u1, u2, hden, ← ho]
      have : ∑ i ∈ Finset.range o, c i j + c' o j ≠ 0 := (add_pos hA hx0).ne'
      have := hA.ne'
      have := hx0.ne'
      field_simp
      ring
    refine ⟨_, _, (Except.ok.inj e).symm, (Except.ok.inj e').symm, step, ?_⟩
    rw [step]
    exact step_iff (div_pos (by rw [← ho]; exact hx0) (by rw [hden]; exact add_pos hA hx0))

end

/-- A concrete case: two link ratios of the second period are 1, a third of 6/5 joins; all amounts are 100. -/
example : ["all-simple", "all-weighted"].map (fun sel => [stairTri 4 (exAbove 120), stairTri 5 (exAbove 120)].map (fun t =>
    ((baseCL (fun _ => .nan) t t.a2aind0 sel 1).toOption.map (fun r => r.ldfs.iloc 1)))) =
    [[some (.fin 1), some (.fin (1 + 1 / 3 * (6 / 5 - 1)))], [some (.fin 1), some (.fin (1 + 100 / 300 * (6 / 5 - 1)))]] := by
  decide +kernel

end Trikit
