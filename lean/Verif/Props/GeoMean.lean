import Verif.RealFun
import Verif.Props.BaseScale

/-! # C70: geometric averages -/

namespace Trikit

theorem gmean_fin {l : List ℝ} (hl : ∀ x ∈ l, 0 < x) (hne : l ≠ []) :
    gmean (l.map Num.fin) = .fin (Real.exp (Spec.mean (l.map Real.log))) := by
  unfold gmean
  have : (l.map Num.fin).map Num.log = (l.map Real.log).map Num.fin := by
    rw [List.map_map, List.map_map]
    apply List.map_congr_left
    intro x hx
    exact Num.log_fin (hl x hx)
  rw [this, npMean_fin (by simpa using hne)]
  rfl

theorem exp_sum_log {l : List ℝ} (hl : ∀ x ∈ l, 0 < x) : Real.exp (l.map Real.log).sum = l.prod := by
  induction l with
  | nil => simp
  | cons x l ih =>
    rw [List.map_cons, List.sum_cons, Real.exp_add, Real.exp_log (hl x (by simp)),
      ih (fun y hy => hl y (by simp [hy])), List.prod_cons]

/-- The geometric mean as the positive root of the product. -/
theorem exp_mean_log_pow {l : List ℝ} (hl : ∀ x ∈ l, 0 < x) (hne : l ≠ []) :
    Real.exp (Spec.mean (l.map Real.log)) ^ l.length = l.prod := by
  rw [← Real.exp_nat_mul, ← exp_sum_log hl]
  congr 1
  unfold Spec.mean
  have : (l.length : ℝ) ≠ 0 := by simpa using hne
  rw [List.length_map]
  field_simp

theorem log_sum_le {l : List ℝ} (hl : ∀ x ∈ l, 0 < x) {A : ℝ} (hA : 0 < A) :
    (l.map Real.log).sum ≤ l.sum / A - l.length + l.length * Real.log A := by
  induction l with
  | nil => simp
  | cons x l ih =>
    have h1 := ih (fun y hy => hl y (by simp [hy]))
    have hx := hl x (by simp)
    have h2 := Real.log_le_sub_one_of_pos (div_pos hx hA)
    rw [Real.log_div hx.ne' hA.ne'] at h2
    simp only [List.map_cons, List.sum_cons, List.length_cons, Nat.cast_add, Nat.cast_one]
    rw [add_div]
    linarith

/-- Geometric mean at most arithmetic mean. -/
theorem exp_mean_log_le_mean {l : List ℝ} (hl : ∀ x ∈ l, 0 < x) (hne : l ≠ []) :
    Real.exp (Spec.mean (l.map Real.log)) ≤ Spec.mean l := by
  have hlen : 0 < (l.length : ℝ) := by exact_mod_cast List.length_pos_iff.2 hne
  have hsum : 0 < l.sum := by
    clear hlen
    induction l with
    | nil => exact absurd rfl hne
    | cons x l ih =>
      rw [List.sum_cons]
      by_cases e : l = []
      · subst e; simpa using hl x (by simp)
      · exact add_pos (hl x (by simp)) (ih (fun y hy => hl y (by simp [hy])) e)
  have hA : 0 < Spec.mean l := div_pos hsum hlen
  have h := log_sum_le hl hA
  have h2 : l.sum / Spec.mean l = l.length := by
    unfold Spec.mean
    field_simp
  rw [h2] at h
  rw [← Real.log_le_log_iff (Real.exp_pos _) hA, Real.log_exp]
  unfold Spec.mean at *
  rw [List.length_map, div_le_iff₀ hlen]
  linarith

/-- **C70** the geometric average over the last `k` link ratios of a period (all when `k = 0`) is the
positive number whose power is their product; it lies between the smallest and the largest of them
and does not exceed the simple average. -/
theorem C70_geometric {t : Tri ℝ} {n : ℕ} {c : ℕ → ℕ → ℝ} (h : Spec.Stair t n c)
    (hp : Spec.Positive n c) :
    ∃ tab, a2aAvgs gmean t t.a2aind0 = .ok tab ∧
      ∀ k < n - 1, ∀ j < n - 1, ∃ v s,
        Spec.entry tab (Spec.avgName "geometric" k) j = some (.fin v) ∧
        Spec.entry tab (Spec.avgName "simple" k) j = some (.fin s) ∧
        let W := Spec.lastN k (Spec.ratios n c j)
        0 < v ∧ v ^ W.length = W.prod ∧ v ≤ s ∧ ∃ a ∈ W, ∃ b ∈ W, a ≤ v ∧ v ≤ b := by
  obtain ⟨tab, htab⟩ := a2aAvgs_noexcl_ok gmean h hp
  refine ⟨tab, htab, ?_⟩
  intro k hk j hj
  have hind := h.indOn0 hp.ne_zero
  have hne := lastN_ne_nil k (ratios_ne_nil (n := n) (c := c) hj)
  have hpos : ∀ x ∈ Spec.lastN k (Spec.ratios n c j), 0 < x := fun x hx =>
    ratios_pos hp j x (lastN_subset _ _ x hx)
  refine ⟨Real.exp (Spec.mean ((Spec.lastN k (Spec.ratios n c j)).map Real.log)),
    Spec.mean (Spec.lastN k (Spec.ratios n c j)), ?_, ?_, Real.exp_pos _,
    exp_mean_log_pow hpos hne, exp_mean_log_le_mean hpos hne, ?_⟩
  · apply entry_noexcl h hp htab .geometric hk hj
    rw [entry_geometric h hp.ne_zero hind hj, window_noexcl hp]
    unfold geometricAvg
    rw [if_neg (by simpa using hne), gmean_fin hpos hne]
  · apply entry_noexcl h hp htab .simple hk hj
    rw [entry_simple h hp.ne_zero hind hj, window_noexcl hp, simpleAvg_fin hne]
  · obtain ⟨lo, hi, h1, h2, h3, h4⟩ := exists_min_max hne
    refine ⟨lo, h1, hi, h3, ?_, ?_⟩
    · rw [← Real.exp_log (hpos lo h1)]
      apply Real.exp_le_exp.2
      apply le_mean (by simpa using hne)
      intro x hx
      obtain ⟨y, hy, rfl⟩ := List.mem_map.1 hx
      exact Real.log_le_log (hpos lo h1) (h2 y hy)
    · rw [← Real.exp_log (hpos hi h3)]
      apply Real.exp_le_exp.2
      apply mean_le (by simpa using hne)
      intro x hx
      obtain ⟨y, hy, rfl⟩ := List.mem_map.1 hx
      exact Real.log_le_log (hpos y hy) (h4 y hy)

/-- The geometric mean of two link ratios 2 and 8 is 4. -/
example : gmean [.fin 2, .fin 8] = .fin 4 := by
  have h := gmean_fin (l := [2, 8]) (by intro x hx; simp at hx; rcases hx with rfl | rfl <;> norm_num)
    (by simp)
  rw [List.map_cons, List.map_cons, List.map_nil] at h
  rw [h]
  have hp := exp_mean_log_pow (l := [2, 8])
    (by intro x hx; simp at hx; rcases hx with rfl | rfl <;> norm_num) (by simp)
  have h16 : ([2, 8] : List ℝ).prod = 16 := by norm_num
  rw [h16] at hp
  have hpos := Real.exp_pos (Spec.mean ([2, 8].map Real.log))
  congr 1
  generalize Real.exp (Spec.mean ([2, 8].map Real.log)) = v at *
  have : v ^ 2 = 16 := hp
  nlinarith

/-- The geometric mean satisfies the hypothesis of `C40_exact`. -/
theorem gmean_replicate (m : ℕ) (x : ℝ) (hx : 0 < x) :
    gmean (List.replicate (m + 1) (.fin x)) = .fin x := by
  have h1 : List.replicate (m + 1) (Num.fin x) = (List.replicate (m + 1) x).map Num.fin :=
    List.map_replicate.symm
  rw [h1, gmean_fin (fun y hy => by rw [List.eq_of_mem_replicate hy]; exact hx) (by simp),
    List.map_replicate, mean_replicate (by omega), Real.exp_log hx]

/-- **C40** with the real geometric mean: no assumption on `gm` is left. -/
theorem C40_exact_real {t : Tri ℝ} {n : ℕ} (hn : 3 ≤ n) {a0 f : ℕ → ℝ} (h0 : ∀ i < n, 0 < a0 i)
    (hf : ∀ j < n - 1, 0 < f j) (h : Spec.Stair t n (Spec.exact a0 f)) (kind : AvgKind) {k : ℕ}
    (hk : k < n - 1) :
    Spec.RowIs gmean t t.a2aind0 (Spec.avgName kind.name k)
      ((List.range (n - 1)).map (fun j => .fin (f j))) :=
  ((C40_exact gmean_replicate hn h0 hf h).2 kind k hk).1

end Trikit
