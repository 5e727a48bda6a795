import Verif.Props.Mack

/-! # C43-C47: variances and errors of Mack chain ladder -/

set_option linter.unusedSectionVars false

namespace Trikit

variable {K : Type}

section
variable [Field K] [LinearOrder K] [IsStrictOrderedRing K]
variable {t ind : Tri K} {n : ℕ} {c w : ℕ → ℕ → K}

theorem mack_parts (h : Spec.Stair t n c) (hp : Spec.Positive n c) (hi : IndW t ind n w)
    (hw : Spec.Weights n w) (hn : 4 ≤ n) (alpha : ℕ) :
    ∃ r b lab, mackCore alpha t ind = .ok r ∧ MackParts alpha t ind n c w r b lab :=
  mackCore_stair h hp.ne_zero hi hn alpha (fun j hj => (mackW_pos hp hw alpha hj).ne')

/-! ## C43 -/

/-- **C43, partial**: variance parameters on every positive staircase, with any exclusion weights.
The first `n - 2` are the weighted squared deviations from the factor over `n - j - 2`, are not
negative, and vanish exactly when all kept link ratios equal the factor.  The last one is Mack's
minimum, except that it is missing when the two before it are both 0 (this is the part of the claim
that fails).  With fewer than four development periods `IndexError` is raised. -/
theorem C43_variances_partial (h : Spec.Stair t n c) (hp : Spec.Positive n c) (hi : IndW t ind n w)
    (hw : Spec.Weights n w) (alpha : ℕ) :
    (n < 4 → mackCore alpha t ind = .error .indexError) ∧
    (4 ≤ n → ∃ r, ∃ s : ℕ → K, mackCore alpha t ind = .ok r ∧ r.devpvar.length = n - 1 ∧
      (∀ j < n - 2, ∃ f, r.ldfs[j]? = some (t.dAt j, .fin f) ∧
        r.devpvar[j]? = some (t.dAt j, .fin (s j)) ∧
        s j = (∑ i ∈ Finset.range (n - 1 - j), w i j * c i j ^ alpha * (c i (j + 1) / c i j - f) ^ 2) /
          ((n - j - 2 : ℕ) : K) ∧
        0 ≤ s j ∧
        (s j = 0 ↔ ∀ i, i + j + 1 < n → w i j ≠ 0 → c i (j + 1) / c i j = f)) ∧
      ∃ last, r.devpvar[n - 2]? = some (t.dAt (n - 2), last) ∧
        (s (n - 4) ≠ 0 → last = .fin (min (s (n - 3) ^ 2 / s (n - 4)) (min (s (n - 3)) (s (n - 4))))) ∧
        (s (n - 4) = 0 → s (n - 3) ≠ 0 → last = .fin 0) ∧
        (s (n - 4) = 0 → s (n - 3) = 0 → last = .nan)) := by
  constructor
  · intro hn
    exact mackCore_short h hp.ne_zero hi hn alpha (fun j hj => (mackW_pos hp hw alpha hj).ne')
  · intro hn
    obtain ⟨r, b, lab, hr, p⟩ := mack_parts h hp hi hw hn alpha
    have hget : ∀ j < n - 1, r.devpvar[j]? = some (t.dAt j, storedVar alpha n c w j) := by
      intro j hj
      rw [p.devpvar, List.getElem?_map, List.getElem?_range hj]; rfl
    refine ⟨r, Spec.sig0 alpha n c w, hr, by rw [p.devpvar]; simp, ?_, ?_⟩
    · intro j hj
      refine ⟨Spec.mackF alpha n c w j, ?_, ?_, rfl, sig0_nonneg hp hw alpha j,
        sig0_eq_zero hp hw alpha (by omega)⟩
      · rw [p.factors]
        unfold mackSer
        rw [h.take_devs, List.getElem?_zip_eq_some]
        constructor
        · rw [List.getElem?_append_left (by simp; omega), List.getElem?_map,
            List.getElem?_range (by omega)]; rfl
        · rw [List.getElem?_map, List.getElem?_range (by omega), Option.map_some,
            Spec.mackAll_lt (by omega)]
      · rw [hget j (by omega)]
        unfold storedVar
        rw [if_pos (by omega)]
    · refine ⟨_, hget (n - 2) (by omega), ?_, ?_, ?_⟩
      all_goals
        have hs : storedVar alpha n c w (n - 2) =
            lastVar (Spec.sig0 alpha n c w (n - 3)) (Spec.sig0 alpha n c w (n - 4)) := by
          unfold storedVar; rw [if_neg (by omega)]
        have hl := lastVar_spec (sig0_nonneg hp hw alpha (n - 3)) (sig0_nonneg hp hw alpha (n - 4))
        rw [hs]
      · intro h1
        exact hl.1 (fun hc => h1 hc.2)
      · intro h1 h2
        rw [hl.1 (fun hc => h2 hc.1)]
        unfold Spec.sigLast
        rw [h1, div_zero, min_eq_right (sig0_nonneg hp hw alpha (n - 3))]
        simp
      · intro h1 h2
        exact hl.2 ⟨h2, h1⟩

/-- **C43 is false of the code**: when every origin doubles in every period, all deviations are 0 and the variance of
the last period is not 0 but missing, since it is computed as 0 / 0. -/
theorem C43_last_fails :
    let t : Tri ℚ := stairTri 4 (fun i j => (100 + 10 * i) * 2 ^ j)
    (mackCore 1 t t.a2aind0).toOption.map (fun r => r.devpvar.map Prod.snd) = some [.fin 0, .fin 0, .nan] := by
  decide +kernel

/-! ## C44, C45, C46 -/

theorem stored_ldfvar (hp : Spec.Positive n c) (hw : Spec.Weights n w) {alpha : ℕ}
    (hd : ¬ Spec.Degenerate alpha n c w) {j : ℕ} (hj : j < n - 1) :
    storedVar alpha n c w j / .fin (Spec.mackW alpha n c w j) = .fin (Spec.ldfVar alpha n c w j) := by
  rw [storedVar_fin hp hw hd, Num.fin_div _ _ (mackW_pos hp hw alpha hj).ne']; rfl

theorem MackParts.procErr_eq {alpha : ℕ} {r : MackCore K} {b : BaseResult K} {lab : Int}
    (h : Spec.Stair t n c) (hp : Spec.Positive n c) (hw : Spec.Weights n w)
    (p : MackParts alpha t ind n c w r b lab) (hd : ¬ Spec.Degenerate alpha n c w) :
    r.procErr = (List.range n).map (fun i => .fin (Spec.procVar n c (Spec.mackF alpha n c w)
      (Spec.sigma2 alpha n c w) i)) := by
  rw [p.proc]
  exact processError_closed p.sqrCells (p.ldf h)
    (fun j hj => by rw [p.dv j hj, storedVar_fin hp hw hd])

theorem MackParts.paramErr_eq {alpha : ℕ} {r : MackCore K} {b : BaseResult K} {lab : Int}
    (h : Spec.Stair t n c) (hp : Spec.Positive n c) (hw : Spec.Weights n w)
    (p : MackParts alpha t ind n c w r b lab) (hd : ¬ Spec.Degenerate alpha n c w) :
    r.paramErr = (List.range n).map (fun i => .fin (Spec.paramVar n c (Spec.mackF alpha n c w)
      (Spec.ldfVar alpha n c w) i)) := by
  rw [p.param]
  exact parameterError_closed p.sqrCells (p.ldf h)
    (fun j hj => by rw [p.lv j hj, stored_ldfvar hp hw hd hj])

theorem proj_pos {f : ℕ → K} (hp : Spec.Positive n c) (hf : ∀ j < n - 1, 0 < f j) {i k : ℕ}
    (hi : i < n) (hk : k ≤ n - 1) : 0 < Spec.proj n c f i k := by
  unfold Spec.proj
  apply mul_pos (hp i _ (by omega))
  apply Finset.prod_pos
  intro m hm
  rw [Finset.mem_Ico] at hm
  exact hf m (by omega)

theorem procVar_nonneg {f s : ℕ → K} (hp : Spec.Positive n c) (hf : ∀ j < n - 1, 0 < f j)
    (hs : ∀ j < n - 1, 0 ≤ s j) {i : ℕ} (hi : i < n) : 0 ≤ Spec.procVar n c f s i := by
  unfold Spec.procVar
  apply Finset.sum_nonneg
  intro k hk
  rw [Finset.mem_Ico] at hk
  exact mul_nonneg (mul_nonneg (proj_pos hp hf hi (by omega)).le (hs k hk.2))
    (Finset.prod_nonneg (fun l _ => sq_nonneg _))

theorem procVar_pos {f s : ℕ → K} (hp : Spec.Positive n c) (hf : ∀ j < n - 1, 0 < f j)
    (hs : ∀ j < n - 1, 0 ≤ s j) {i k : ℕ} (hi : i < n) (hk : n - 1 - i ≤ k) (hk' : k < n - 1)
    (hpos : 0 < s k) : 0 < Spec.procVar n c f s i := by
  unfold Spec.procVar
  apply Finset.sum_pos'
  · intro k hk
    rw [Finset.mem_Ico] at hk
    exact mul_nonneg (mul_nonneg (proj_pos hp hf hi (by omega)).le (hs k hk.2))
      (Finset.prod_nonneg (fun l _ => sq_nonneg _))
  · refine ⟨k, Finset.mem_Ico.2 ⟨hk, hk'⟩, ?_⟩
    refine mul_pos (mul_pos (proj_pos hp hf hi (by omega)) hpos) (Finset.prod_pos (fun l hl => ?_))
    rw [Finset.mem_Ico] at hl
    exact pow_pos (hf l hl.2) 2

theorem paramVar_nonneg {f v : ℕ → K} (hv : ∀ j < n - 1, 0 ≤ v j) (i : ℕ) :
    0 ≤ Spec.paramVar n c f v i := by
  unfold Spec.paramVar
  apply mul_nonneg (sq_nonneg _)
  rw [sub_nonneg]
  apply Finset.prod_le_prod
  · intro k _; exact sq_nonneg _
  · intro k hk
    rw [Finset.mem_Ico] at hk
    have := hv k hk.2
    linarith

/-- **C44.** The recursion of `_process_error` computes, for every origin,
`sum_k C_k s_k prod_{l>k} f_l^2` over its future periods, with `C_k` the value projected from the
latest one; this is not negative.  (All `n`, factors and variances; `cell` is the squared triangle.) -/
theorem C44_process_error {cell : ℕ → ℕ → Num K} {F S : ℕ → Num K} {f s : ℕ → K}
    (hcell : ∀ i < n, ∀ j < n, n ≤ i + j + 1 → cell i j =
      .fin (c i (n - 1 - i) * ∏ m ∈ Finset.Ico (n - 1 - i) j, f m))
    (hF : ∀ j < n - 1, F j = .fin (f j)) (hS : ∀ j < n - 1, S j = .fin (s j)) :
    processError cell F S n = (List.range n).map (fun i => .fin
      (∑ k ∈ Finset.Ico (n - 1 - i) (n - 1),
        (c i (n - 1 - i) * ∏ m ∈ Finset.Ico (n - 1 - i) k, f m) * s k *
          ∏ l ∈ Finset.Ico (k + 1) (n - 1), f l ^ 2)) :=
  processError_closed hcell hF hS

/-- **C44** for `mack_cl`: on positive staircases (any exclusion weights), unless the last variance is
missing, the reported process errors are those sums with the reported factors and variances, and are
not negative. -/
theorem C44_mack (h : Spec.Stair t n c) (hp : Spec.Positive n c) (hi : IndW t ind n w)
    (hw : Spec.Weights n w) (hn : 4 ≤ n) (alpha : ℕ) :
    ∃ r, mackCore alpha t ind = .ok r ∧
      (r.devpvar.iloc (n - 2) ≠ .nan → ∃ f s : ℕ → K,
        (∀ j < n - 1, r.ldfs.iloc j = .fin (f j) ∧ r.devpvar.iloc j = .fin (s j)) ∧
        ∀ i < n, ∃ x, r.procErr[i]? = some (.fin x) ∧ 0 ≤ x ∧
          x = ∑ k ∈ Finset.Ico (n - 1 - i) (n - 1),
            (c i (n - 1 - i) * ∏ m ∈ Finset.Ico (n - 1 - i) k, f m) * s k *
              ∏ l ∈ Finset.Ico (k + 1) (n - 1), f l ^ 2) := by
  obtain ⟨r, b, lab, hr, p⟩ := mack_parts h hp hi hw hn alpha
  refine ⟨r, hr, ?_⟩
  intro hne
  have hd : ¬ Spec.Degenerate alpha n c w := by
    intro hd
    rw [p.dv _ (by omega), storedVar_degenerate hp hw (by omega) hd] at hne
    exact hne rfl
  refine ⟨Spec.mackF alpha n c w, Spec.sigma2 alpha n c w, ?_, ?_⟩
  · intro j hj
    exact ⟨p.ldf h j hj, by rw [p.dv j hj, storedVar_fin hp hw hd]⟩
  · intro i hi'
    refine ⟨_, by rw [p.procErr_eq h hp hw hd, List.getElem?_map, List.getElem?_range hi']; rfl, ?_,
      rfl⟩
    exact procVar_nonneg hp (fun j hj => mackF_pos hp hw alpha hj)
      (fun j _ => sigma2_nonneg hp hw alpha j) hi'

/-- **C45.** The recursion of `_parameter_error` computes, for every origin,
`latest^2 (prod (f_k^2 + v_k) - prod f_k^2)` over its future periods. -/
theorem C45_parameter_error {cell : ℕ → ℕ → Num K} {F V : ℕ → Num K} {f v : ℕ → K}
    (hcell : ∀ i < n, ∀ j < n, n ≤ i + j + 1 → cell i j =
      .fin (c i (n - 1 - i) * ∏ m ∈ Finset.Ico (n - 1 - i) j, f m))
    (hF : ∀ j < n - 1, F j = .fin (f j)) (hV : ∀ j < n - 1, V j = .fin (v j)) :
    parameterError cell F V n = (List.range n).map (fun i => .fin
      (c i (n - 1 - i) ^ 2 * (∏ k ∈ Finset.Ico (n - 1 - i) (n - 1), (f k ^ 2 + v k) -
        ∏ k ∈ Finset.Ico (n - 1 - i) (n - 1), f k ^ 2))) :=
  parameterError_closed hcell hF hV

/-- **C45** for `mack_cl`: with the reported factors and factor variances (variance over total
weight), and not negative. -/
theorem C45_mack (h : Spec.Stair t n c) (hp : Spec.Positive n c) (hi : IndW t ind n w)
    (hw : Spec.Weights n w) (hn : 4 ≤ n) (alpha : ℕ) :
    ∃ r, mackCore alpha t ind = .ok r ∧
      (r.devpvar.iloc (n - 2) ≠ .nan → ∃ f s v : ℕ → K,
        (∀ j < n - 1, r.ldfs.iloc j = .fin (f j) ∧ r.devpvar.iloc j = .fin (s j) ∧
          r.ldfvar.iloc j = .fin (v j) ∧
          v j = s j / ∑ i ∈ Finset.range (n - 1 - j), w i j * c i j ^ alpha) ∧
        ∀ i < n, ∃ x, r.paramErr[i]? = some (.fin x) ∧ 0 ≤ x ∧
          x = c i (n - 1 - i) ^ 2 * (∏ k ∈ Finset.Ico (n - 1 - i) (n - 1), (f k ^ 2 + v k) -
            ∏ k ∈ Finset.Ico (n - 1 - i) (n - 1), f k ^ 2)) := by
  obtain ⟨r, b, lab, hr, p⟩ := mack_parts h hp hi hw hn alpha
  refine ⟨r, hr, ?_⟩
  intro hne
  have hd : ¬ Spec.Degenerate alpha n c w := by
    intro hd
    rw [p.dv _ (by omega), storedVar_degenerate hp hw (by omega) hd] at hne
    exact hne rfl
  refine ⟨Spec.mackF alpha n c w, Spec.sigma2 alpha n c w, Spec.ldfVar alpha n c w, ?_, ?_⟩
  · intro j hj
    exact ⟨p.ldf h j hj, by rw [p.dv j hj, storedVar_fin hp hw hd],
      by rw [p.lv j hj, stored_ldfvar hp hw hd hj], rfl⟩
  · intro i hi'
    refine ⟨_, by rw [p.paramErr_eq h hp hw hd, List.getElem?_map, List.getElem?_range hi']; rfl,
      ?_, rfl⟩
    exact paramVar_nonneg (fun j hj => ldfVar_nonneg hp hw alpha hj) i

/-- Mean squared error of origin `i`. -/
def Spec.mse (alpha n : ℕ) (c w : ℕ → ℕ → K) (i : ℕ) : K :=
  Spec.procVar n c (Spec.mackF alpha n c w) (Spec.sigma2 alpha n c w) i +
    Spec.paramVar n c (Spec.mackF alpha n c w) (Spec.ldfVar alpha n c w) i

theorem mse_zero (alpha : ℕ) : Spec.mse alpha n c w 0 = 0 := by
  unfold Spec.mse Spec.procVar Spec.paramVar
  simp

theorem mse_nonneg (hp : Spec.Positive n c) (hw : Spec.Weights n w) (alpha : ℕ) {i : ℕ}
    (hi : i < n) : 0 ≤ Spec.mse alpha n c w i :=
  add_nonneg (procVar_nonneg hp (fun j hj => mackF_pos hp hw alpha hj)
      (fun j _ => sigma2_nonneg hp hw alpha j) hi)
    (paramVar_nonneg (fun j hj => ldfVar_nonneg hp hw alpha hj) i)

theorem crossTerm_nonneg (hp : Spec.Positive n c) (hw : Spec.Weights n w) (alpha : ℕ) {i : ℕ}
    (hi : i < n) :
    0 ≤ Spec.crossTerm n c (Spec.mackF alpha n c w) (Spec.sigma2 alpha n c w) i := by
  have hf := fun j hj => mackF_pos (j := j) hp hw alpha hj
  unfold Spec.crossTerm
  apply mul_nonneg
  · apply mul_nonneg
    · exact mul_nonneg (by norm_num) (proj_pos hp hf hi (le_refl _)).le
    · apply Finset.sum_nonneg
      intro k hk
      rw [Finset.mem_Ico] at hk
      exact (proj_pos hp hf hk.2 (le_refl _)).le
  · apply Finset.sum_nonneg
    intro q hq
    rw [Finset.mem_Ico] at hq
    apply div_nonneg (div_nonneg (sigma2_nonneg hp hw alpha q) (sq_nonneg _))
    apply Finset.sum_nonneg
    intro r hr
    rw [Finset.mem_range] at hr
    exact (hp r q (by omega)).le

theorem MackParts.mse_eq {alpha : ℕ} {r : MackCore K} {b : BaseResult K} {lab : Int}
    (h : Spec.Stair t n c) (hp : Spec.Positive n c) (hw : Spec.Weights n w)
    (p : MackParts alpha t ind n c w r b lab) (hd : ¬ Spec.Degenerate alpha n c w) :
    r.mse = (List.range n).map (fun i => .fin (Spec.mse alpha n c w i)) := by
  rw [p.mse, p.procErr_eq h hp hw hd, p.paramErr_eq h hp hw hd, List.zipWith_map, List.zipWith_self]
  apply List.map_congr_left
  intro i _
  rw [Num.fin_add]; rfl

theorem MackParts.total_eq {alpha : ℕ} {r : MackCore K} {b : BaseResult K} {lab : Int} (hn : 1 ≤ n)
    (h : Spec.Stair t n c) (hp : Spec.Positive n c) (hw : Spec.Weights n w)
    (p : MackParts alpha t ind n c w r b lab) (hd : ¬ Spec.Degenerate alpha n c w) :
    r.totMse = .fin (∑ k ∈ Finset.range (n - 1), (Spec.mse alpha n c w (k + 1) +
      Spec.crossTerm n c (Spec.mackF alpha n c w) (Spec.sigma2 alpha n c w) (k + 1))) := by
  rw [p.total, p.ults hn]
  rw [← sumSkip_fin_range]
  congr 1
  apply List.map_congr_left
  intro k hk
  rw [List.mem_range] at hk
  apply mseTotalRow_closed h (fun i j hij => p.obs hij) (p.ldf h)
    (fun j hj => by rw [p.dv j hj, storedVar_fin hp hw hd])
    (fun j hj => (mackF_pos hp hw alpha hj).ne') _ (p.mse_eq h hp hw hd) (by omega)
  intro q hq
  apply ne_of_gt
  apply Finset.sum_pos
  · intro i hi
    rw [Finset.mem_range] at hi
    exact hp i q (by omega)
  · exact ⟨0, Finset.mem_range.2 (by omega)⟩

theorem MackParts.degenerate {alpha : ℕ} {r : MackCore K} {b : BaseResult K} {lab : Int} (hn : 2 ≤ n)
    (hp : Spec.Positive n c) (hw : Spec.Weights n w) (p : MackParts alpha t ind n c w r b lab)
    (hd : Spec.Degenerate alpha n c w) :
    r.procErr = (List.range n).map (fun _ => .fin 0) ∧
    r.paramErr = (List.range n).map (fun _ => .fin 0) ∧
    r.mse = (List.range n).map (fun _ => .fin 0) ∧ r.totMse = .fin 0 := by
  have hS : r.devpvar.iloc (n - 2) = .nan := by
    rw [p.dv _ (by omega), storedVar_degenerate hp hw (by omega) hd]
  have hV : r.ldfvar.iloc (n - 2) = .nan := by
    rw [p.lv _ (by omega), storedVar_degenerate hp hw (by omega) hd, Num.nan_div]
  have h1 : r.procErr = (List.range n).map (fun _ => .fin 0) := by
    rw [p.proc]; exact processError_nan hS
  have h2 : r.paramErr = (List.range n).map (fun _ => .fin 0) := by
    rw [p.param]; exact parameterError_nan hV
  refine ⟨h1, h2, ?_, ?_⟩
  · rw [p.mse, h1, h2, List.zipWith_map, List.zipWith_self]
    apply List.map_congr_left
    intro i _
    rw [Num.fin_add, add_zero]
  · rw [p.total]
    have : (List.range (n - 1)).map (fun k => mseTotalRow r.sqr.tri.cell r.ldfs.iloc r.devpvar.iloc n
        t.origins r.mse (r.rows.map SummRow.ultimate) (k + 1)) =
        (List.range (n - 1)).map (fun _ => .nan) := by
      apply List.map_congr_left
      intro k hk
      rw [List.mem_range] at hk
      exact mseTotalRow_nan hS (by omega) (by omega)
    rw [this]
    generalize List.range (n - 1) = l
    induction l with
    | nil => rfl
    | cons a l ih => rw [List.map_cons, Num.sumSkip_cons_nan]; exact ih

/-- **C46.** On every positive staircase, for every `alpha` and all exclusion weights: the mean
squared error of an origin is the sum of its process and parameter error, it is 0 for the oldest
origin, and the total mean squared error is at least the sum over the origins. -/
theorem C46_mse (h : Spec.Stair t n c) (hp : Spec.Positive n c) (hi : IndW t ind n w)
    (hw : Spec.Weights n w) (hn : 4 ≤ n) (alpha : ℕ) :
    ∃ r, ∃ pe pa m : ℕ → K, ∃ T, mackCore alpha t ind = .ok r ∧ r.mse.length = n ∧
      (∀ i < n, r.procErr[i]? = some (.fin (pe i)) ∧ r.paramErr[i]? = some (.fin (pa i)) ∧
        r.mse[i]? = some (.fin (m i)) ∧ m i = pe i + pa i ∧ 0 ≤ m i) ∧ m 0 = 0 ∧
      r.totMse = .fin T ∧ ∑ i ∈ Finset.range n, m i ≤ T := by
  obtain ⟨r, b, lab, hr, p⟩ := mack_parts h hp hi hw hn alpha
  have hg : ∀ (g : ℕ → K) (i : ℕ), i < n →
      ((List.range n).map (fun i => (Num.fin (g i) : Num K)))[i]? = some (.fin (g i)) := by
    intro g i hi'
    rw [List.getElem?_map, List.getElem?_range hi']; rfl
  by_cases hd : Spec.Degenerate alpha n c w
  · obtain ⟨h1, h2, h3, h4⟩ := p.degenerate (by omega) hp hw hd
    refine ⟨r, fun _ => 0, fun _ => 0, fun _ => 0, 0, hr, by rw [h3]; simp, ?_, rfl, h4, by simp⟩
    intro i hi'
    rw [h1, h2, h3]
    exact ⟨hg _ i hi', hg _ i hi', hg _ i hi', by simp, le_refl _⟩
  · refine ⟨r, Spec.procVar n c (Spec.mackF alpha n c w) (Spec.sigma2 alpha n c w),
      Spec.paramVar n c (Spec.mackF alpha n c w) (Spec.ldfVar alpha n c w), Spec.mse alpha n c w, _,
      hr, by rw [p.mse_eq h hp hw hd]; simp, ?_,
      mse_zero alpha, p.total_eq (by omega) h hp hw hd, ?_⟩
    · intro i hi'
      rw [p.procErr_eq h hp hw hd, p.paramErr_eq h hp hw hd, p.mse_eq h hp hw hd]
      exact ⟨hg _ i hi', hg _ i hi', hg _ i hi', rfl, mse_nonneg hp hw alpha hi'⟩
    · obtain ⟨m, rfl⟩ : ∃ m, n = m + 1 := ⟨n - 1, by omega⟩
      rw [Finset.sum_range_succ', mse_zero, add_zero, Nat.add_sub_cancel]
      apply Finset.sum_le_sum
      intro k hk
      rw [Finset.mem_range] at hk
      exact le_add_of_nonneg_right (crossTerm_nonneg hp hw alpha (by omega))

/-- **C46**, the total in Mack's closed form: the mean squared errors plus, for every origin but the
oldest, `2 U_i (sum_{k>i} U_k) sum_p (s_p / f_p^2) / sum_r C_rp`, with the reported factors, variances
and ultimates; `p` runs over the future periods of origin `i` and `r` over the origins with an observed
link ratio in `p`. -/
theorem C46_total (h : Spec.Stair t n c) (hp : Spec.Positive n c) (hi : IndW t ind n w)
    (hw : Spec.Weights n w) (hn : 4 ≤ n) (alpha : ℕ) :
    ∃ r, mackCore alpha t ind = .ok r ∧ (r.devpvar.iloc (n - 2) ≠ .nan → ∃ f s m u : ℕ → K,
      (∀ j < n - 1, r.ldfs.iloc j = .fin (f j) ∧ r.devpvar.iloc j = .fin (s j)) ∧
      (∀ i < n, r.mse[i]? = some (.fin (m i)) ∧
        (r.rows.map SummRow.ultimate)[i]? = some (.fin (u i))) ∧
      r.totMse = .fin (∑ i ∈ Finset.Ico 1 n, (m i + 2 * u i * (∑ k ∈ Finset.Ico (i + 1) n, u k) *
        ∑ p ∈ Finset.Ico (n - 1 - i) (n - 1),
          s p / f p ^ 2 / ∑ r ∈ Finset.range (n - 1 - p), c r p))) := by
  obtain ⟨r, b, lab, hr, p⟩ := mack_parts h hp hi hw hn alpha
  refine ⟨r, hr, ?_⟩
  intro hne
  have hd : ¬ Spec.Degenerate alpha n c w := by
    intro hd
    rw [p.dv _ (by omega), storedVar_degenerate hp hw (by omega) hd] at hne
    exact hne rfl
  refine ⟨Spec.mackF alpha n c w, Spec.sigma2 alpha n c w, Spec.mse alpha n c w,
    Spec.ult n c (Spec.mackF alpha n c w), ?_, ?_, ?_⟩
  · intro j hj
    exact ⟨p.ldf h j hj, by rw [p.dv j hj, storedVar_fin hp hw hd]⟩
  · intro i hi'
    rw [p.mse_eq h hp hw hd, p.ults (by omega), List.getElem?_map, List.getElem?_map,
      List.getElem?_range hi']
    exact ⟨rfl, rfl⟩
  · rw [p.total_eq (by omega) h hp hw hd, Finset.sum_Ico_eq_sum_range]
    congr 1
    apply Finset.sum_congr rfl
    intro k _
    rw [add_comm k 1]; rfl

/-- The total mean squared error is positive as soon as some variance is. -/
theorem total_pos (h : Spec.Stair t n c) (hp : Spec.Positive n c) (hi : IndW t ind n w)
    (hw : Spec.Weights n w) (hn : 4 ≤ n) (alpha : ℕ) (hd : ¬ Spec.Degenerate alpha n c w) {j : ℕ}
    (hj : j < n - 1) (hpos : 0 < Spec.sigma2 alpha n c w j) :
    ∃ r T, mackCore alpha t ind = .ok r ∧ r.totMse = .fin T ∧ 0 < T := by
  obtain ⟨r, b, lab, hr, p⟩ := mack_parts h hp hi hw hn alpha
  refine ⟨r, _, hr, p.total_eq (by omega) h hp hw hd, ?_⟩
  apply Finset.sum_pos'
  · intro k hk
    rw [Finset.mem_range] at hk
    exact add_nonneg (mse_nonneg hp hw alpha (by omega)) (crossTerm_nonneg hp hw alpha (by omega))
  · refine ⟨n - 2, Finset.mem_range.2 (by omega), ?_⟩
    apply add_pos_of_pos_of_nonneg _ (crossTerm_nonneg hp hw alpha (by omega))
    apply add_pos_of_pos_of_nonneg
    · exact procVar_pos hp (fun j hj => mackF_pos hp hw alpha hj)
        (fun j _ => sigma2_nonneg hp hw alpha j) (by omega) (by omega) hj hpos
    · exact paramVar_nonneg (fun j hj => ldfVar_nonneg hp hw alpha hj) _

end

/-! ### concrete cases -/

/-- Variances, errors and total of the 4 x 4 example. -/
example : (mackCore 1 exTri exTri.a2aind0).toOption.map (fun r => r.devpvar.map Prod.snd) =
    some [.fin (379 / 330), .fin (33 / 163), .fin ((33 / 163) ^ 2 / (379 / 330))] ∧
  (mackCore 1 exTri exTri.a2aind0).toOption.map (fun r => r.procErr.take 2) =
    some [.fin 0, .fin (220 * (359370 / 10069651))] ∧
  (mackCore 1 exTri exTri.a2aind0).toOption.map (fun r => r.paramErr.take 2) =
    some [.fin 0, .fin (220 ^ 2 * (359370 / 10069651) / 180)] ∧
  (mackCore 1 (stairTri 3 exVals) (stairTri 3 exVals).a2aind0).toOption.map (fun r => r.mse) =
    none := by
  decide +kernel

end Trikit
