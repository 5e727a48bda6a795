import Verif.Props.WindowLocal
import Verif.Props.ExcludeHigh
import Verif.Props.MackRelative

/-!
# C210: factors lie in the range of the link ratios they average, ultimates in the range that follows

`a2a_avgs` (triangle.py:777-856), `base_cl` (base.py:25-170), `mack_cl` (mack.py:59-330).
-/

set_option linter.unusedSectionVars false

namespace Trikit

/-! ## specification -/

/-- Origin `i` has a link ratio of period `j` that the average looks at: it is one of the last `k` (all for 0), and not excluded
unless the average is the weighted one, which ignores exclusions. -/
def Spec.Used {K : Type} [Field K] (kind : AvgKind) (n k : ℕ) (w : ℕ → ℕ → K) (i j : ℕ) : Prop :=
  i + j + 1 < n ∧ Spec.InWindow n k i j ∧ (kind = .weighted ∨ w i j ≠ 0)

/-! ## averages -/

section
variable {K : Type} [Field K] [LinearOrder K] [IsStrictOrderedRing K]
variable {n : ℕ} {c w : ℕ → ℕ → K}

theorem inWindow_of_mem {k j i : ℕ} (hi : i ∈ wOrigins n k j) : i + j + 1 < n ∧ Spec.InWindow n k i j := by
  rcases Nat.eq_zero_or_pos k with rfl | hk
  · have hlt : i < n - 1 - j := List.mem_range.1 (lastN_subset _ _ i hi)
    exact ⟨by omega, Or.inl rfl⟩
  · have := mem_wOrigins hk hi
    exact ⟨this.1, Or.inr (by omega)⟩

theorem window_range (hw : ∀ i j, i + j + 1 < n → w i j = 0 ∨ w i j = 1) {kind : AvgKind} {k j : ℕ} {lo hi : K}
    (hb : ∀ i, Spec.Used kind n k w i j → lo ≤ c i (j + 1) / c i j ∧ c i (j + 1) / c i j ≤ hi) :
    ∀ x ∈ (Spec.lastN k (adjRatios n c w j)).filter (fun x => decide (0 < x)), 0 < x ∧ lo ≤ x ∧ x ≤ hi := by
  intro x hx
  rw [List.mem_filter, adj_lastN, List.mem_map] at hx
  obtain ⟨⟨i, h1, rfl⟩, h2⟩ := hx
  obtain ⟨h3, h4⟩ := inWindow_of_mem h1
  rw [decide_eq_true_eq] at h2
  rcases hw i j h3 with e | e
  · rw [e, mul_zero] at h2
    exact absurd h2 (lt_irrefl _)
  · rw [e, mul_one] at h2 ⊢
    exact ⟨h2, hb i ⟨h3, h4, Or.inr (by rw [e]; exact one_ne_zero)⟩⟩

theorem ratio_of_sums {ι : Type} (L : List ι) (a b : ι → K) (hL : L ≠ []) (hb : ∀ i ∈ L, 0 < b i) {lo hi : K}
    (h : ∀ i ∈ L, lo ≤ a i / b i ∧ a i / b i ≤ hi) :
    0 < (L.map b).sum ∧ lo ≤ (L.map a).sum / (L.map b).sum ∧ (L.map a).sum / (L.map b).sum ≤ hi := by
  have key : ∀ L : List ι, (∀ i ∈ L, 0 < b i) → (∀ i ∈ L, lo ≤ a i / b i ∧ a i / b i ≤ hi) →
      0 ≤ (L.map b).sum ∧ lo * (L.map b).sum ≤ (L.map a).sum ∧ (L.map a).sum ≤ hi * (L.map b).sum := by
    intro L
    induction L with
    | nil => intro _ _; simp
    | cons i L ih =>
      intro hb h
      obtain ⟨h0, h1, h2⟩ := ih (fun q hq => hb q (List.mem_cons_of_mem _ hq)) (fun q hq => h q (List.mem_cons_of_mem _ hq))
      obtain ⟨h3, h4⟩ := h i List.mem_cons_self
      have h5 := hb i List.mem_cons_self
      rw [le_div_iff₀ h5] at h3
      rw [div_le_iff₀ h5] at h4
      simp only [List.map_cons, List.sum_cons]
      exact ⟨by linarith, by linarith, by linarith⟩
  have hpos : 0 < (L.map b).sum := by
    cases L with
    | nil => exact absurd rfl hL
    | cons i L =>
      have := (key L (fun q hq => hb q (List.mem_cons_of_mem _ hq)) (fun q hq => h q (List.mem_cons_of_mem _ hq))).1
      have := hb i List.mem_cons_self
      simp only [List.map_cons, List.sum_cons]
      linarith
  obtain ⟨_, h1, h2⟩ := key L hb h
  exact ⟨hpos, by rwa [le_div_iff₀ hpos], by rwa [div_le_iff₀ hpos]⟩

theorem prod_range {lo f hi : ℕ → K} {a b : ℕ} (h0 : ∀ j < b, 0 ≤ lo j) (h : ∀ j < b, lo j ≤ f j ∧ f j ≤ hi j) :
    ∏ j ∈ Finset.Ico a b, lo j ≤ ∏ j ∈ Finset.Ico a b, f j ∧ ∏ j ∈ Finset.Ico a b, f j ≤ ∏ j ∈ Finset.Ico a b, hi j :=
  ⟨Finset.prod_le_prod (fun j hj => h0 j (Finset.mem_Ico.1 hj).2) (fun j hj => (h j (Finset.mem_Ico.1 hj).2).1),
    Finset.prod_le_prod (fun j hj => (h0 j (Finset.mem_Ico.1 hj).2).trans (h j (Finset.mem_Ico.1 hj).2).1)
      (fun j hj => (h j (Finset.mem_Ico.1 hj).2).2)⟩

end

theorem avgEntry_range {t ind : Tri ℝ} {n : ℕ} {c w : ℕ → ℕ → ℝ} (h : Spec.Stair t n c) (hp : Spec.Positive n c)
    (hi : IndOn t ind n w) (hw : ∀ i j, i + j + 1 < n → w i j = 0 ∨ w i j = 1) (kind : AvgKind) {k j : ℕ} (hj : j < n - 1)
    {lo up f : ℝ} (hb : ∀ i, Spec.Used kind n k w i j → lo ≤ c i (j + 1) / c i j ∧ c i (j + 1) / c i j ≤ up)
    (hf : avgEntry gmean t ind kind k j = .ok (.fin f)) : lo ≤ f ∧ f ≤ up := by
  have hW := window_range hw hb
  cases kind with
  | simple =>
    rw [entry_simple h hp.ne_zero hi hj] at hf
    generalize (Spec.lastN k (adjRatios n c w j)).filter (fun x => decide (0 < x)) = W at hf hW
    have hne : W ≠ [] := by rintro rfl; simp [simpleAvg] at hf
    rw [simpleAvg_fin hne] at hf
    injection hf with hf; injection hf with hf
    rw [← hf]
    exact ⟨le_mean hne fun x hx => (hW x hx).2.1, mean_le hne fun x hx => (hW x hx).2.2⟩
  | geometric =>
    rw [entry_geometric h hp.ne_zero hi hj] at hf
    generalize (Spec.lastN k (adjRatios n c w j)).filter (fun x => decide (0 < x)) = W at hf hW
    have hne : W ≠ [] := by rintro rfl; simp [geometricAvg] at hf
    unfold geometricAvg at hf
    rw [if_neg (by simpa using hne), gmean_fin (fun x hx => (hW x hx).1) hne] at hf
    injection hf with hf; injection hf with hf
    rw [← hf]
    constructor
    · rcases le_or_gt lo 0 with h0 | h0
      · exact h0.trans (Real.exp_pos _).le
      · rw [← Real.exp_log h0]
        apply Real.exp_le_exp.2
        apply le_mean (by simpa using hne)
        intro x hx
        obtain ⟨y, hy, rfl⟩ := List.mem_map.1 hx
        exact Real.log_le_log h0 (hW y hy).2.1
    · have hup : 0 < up := by
        obtain ⟨y, hy⟩ := List.exists_mem_of_ne_nil _ hne
        exact (hW y hy).1.trans_le (hW y hy).2.2
      rw [← Real.exp_log hup]
      apply Real.exp_le_exp.2
      apply mean_le (by simpa using hne)
      intro x hx
      obtain ⟨y, hy, rfl⟩ := List.mem_map.1 hx
      exact Real.log_le_log (hW y hy).1 (hW y hy).2.2
  | medial =>
    rw [entry_medial h hp.ne_zero hi hj] at hf
    generalize (Spec.lastN k (adjRatios n c w j)).filter (fun x => decide (0 < x)) = W at hf hW
    have hne : W ≠ [] := by rintro rfl; cases hf
    obtain ⟨a, b, h1, h2, h3, h4⟩ := exists_min_max hne
    obtain ⟨v, e, _, _, _, h5⟩ := C28_medial h1 h2 h3 h4
    rw [e] at hf
    injection hf with hf
    obtain ⟨h6, h7⟩ := h5 f hf
    exact ⟨(hW a h1).2.1.trans h6, h7.trans (hW b h3).2.2⟩
  | weighted =>
    rw [entry_weighted h hj] at hf
    have hne : wOrigins n k j ≠ [] := by
      unfold wOrigins
      apply lastN_ne_nil
      rw [Ne, List.range_eq_nil]; omega
    obtain ⟨h1, h2, h3⟩ := ratio_of_sums (wOrigins n k j) (fun i => c i (j + 1)) (fun i => c i j) hne
      (fun i hi => hp i j (by have := inWindow_of_mem hi; omega))
      (fun i hi => hb i ⟨(inWindow_of_mem hi).1, (inWindow_of_mem hi).2, Or.inl rfl⟩)
    rw [Num.fin_div _ _ h1.ne'] at hf
    injection hf with hf; injection hf with hf
    rw [← hf]
    exact ⟨h2, h3⟩

/-! ## base_cl -/

theorem baseFromLdfs_ldfs {K : Type} [Field K] [LinearOrder K] {t : Tri K} {l : Ser K} {r : BaseResult K}
    (h : baseFromLdfs t l = .ok r) : r.ldfs = l := by
  unfold baseFromLdfs at h
  simp only at h
  cases h1 : ultimatesOf t (cldfsOf l) with
  | error e => rw [h1] at h; cases h
  | ok u =>
    rw [h1] at h
    cases h2 : t.maturity with
    | error e => rw [h2] at h; cases h
    | ok m =>
      rw [h2] at h
      cases h3 : trisqrdOf t l with
      | error e => rw [h3] at h; cases h
      | ok s =>
        rw [h3] at h
        have := Except.ok.inj h
        rw [← this]

/-- What `base_cl` takes from the table of averages. -/
theorem baseCL_entries {t ind : Tri ℝ} {n : ℕ} {c w : ℕ → ℕ → ℝ} (h : Spec.Stair t n c) (hp : Spec.Positive n c)
    (hi : IndOn t ind n w) (hn : 3 ≤ n) (kind : AvgKind) {k : ℕ} (hk : k < n - 1) {tail : ℝ} {r : BaseResult ℝ}
    (hr : baseCL gmean t ind (Spec.avgName kind.name k) (.fin tail) = .ok r) {f : ℕ → ℝ}
    (hf : r.ldfs.map Prod.snd = (List.range n).map (fun j => .fin (f j))) :
    f (n - 1) = tail ∧ (∀ j < n - 1, avgEntry gmean t ind kind k j = .ok (.fin (f j))) ∧
      Spec.RowIs gmean t ind (Spec.avgName kind.name k) ((List.range (n - 1)).map (fun j => .fin (f j))) := by
  have hta : ∃ tab, a2aAvgs gmean t ind = .ok tab := by
    unfold baseCL ldfsByName at hr
    cases hm : a2aAvgs gmean t ind with
    | error e => rw [hm] at hr; cases hr
    | ok tab => exact ⟨tab, rfl⟩
  obtain ⟨tab, htab⟩ := hta
  obtain ⟨_, vals, l1, m1⟩ := a2aAvgs_lookup htab (k := kind) (d := k) (Or.inr (by rw [h.a2a_nr hp.ne_zero]; exact hk))
  rw [avgName_eq] at l1
  rw [adj_nc h hp.ne_zero hi] at m1
  obtain ⟨hlen, lab, _, _, hl⟩ := ldfsByName_spec h.devs hi.origins hi.devs
    (by rw [h.a2a_nc hp.ne_zero]; omega) ⟨tab, htab, l1⟩ (.fin tail)
  have hlr : r.ldfs = (t.a2a.devs ++ [lab]).zip (vals ++ [.fin tail]) := by
    unfold baseCL at hr
    rw [hl] at hr
    have hr' : baseFromLdfs t ((t.a2a.devs ++ [lab]).zip (vals ++ [.fin tail])) = .ok r := hr
    exact baseFromLdfs_ldfs hr'
  rw [hlr, List.map_snd_zip (by simp [hlen])] at hf
  have hv : vals.length = n - 1 := by
    have := congrArg List.length hf
    simp at this; omega
  have hvals : vals = (List.range (n - 1)).map (fun j => .fin (f j)) ∧ (Num.fin tail : Num ℝ) = .fin (f (n - 1)) := by
    have e : (List.range n).map (fun j => (Num.fin (f j) : Num ℝ)) =
        (List.range (n - 1)).map (fun j => .fin (f j)) ++ [.fin (f (n - 1))] := by
      rw [show n = (n - 1) + 1 by omega, List.range_succ, List.map_append]; rfl
    rw [e] at hf
    obtain ⟨h1, h2⟩ := List.append_inj hf (by simp [hv])
    exact ⟨h1, by simpa using h2⟩
  refine ⟨by injection hvals.2 with e; exact e.symm, fun j hj => ?_, tab, htab, by rw [l1, hvals.1]⟩
  rw [mapM_ok_iff] at m1
  obtain ⟨v, hv1⟩ := a2aAvgs_ok_entry htab kind (d := k) (Or.inr (by rw [h.a2a_nr hp.ne_zero]; exact hk))
    (j := j) (by rw [adj_nc h hp.ne_zero hi]; exact hj)
  have hent := entry_of_ok htab kind (d := k) (Or.inr (by rw [h.a2a_nr hp.ne_zero]; exact hk))
    (j := j) (by rw [adj_nc h hp.ne_zero hi]; exact hj) hv1
  unfold Spec.entry at hent
  rw [avgName_eq, l1, hvals.1] at hent
  rw [hv1]
  simp only [Option.bind_some, List.getElem?_map, List.getElem?_range hj, Option.map_some, Option.some.injEq] at hent
  rw [hent]

/-- **C210.** For every positive staircase, every indicator of zeros and ones, every average and window, and every positive tail:
when the factors of `base_cl` are numbers, each lies between any two numbers that enclose the link ratios it looks at, and each
ultimate between the latest amount times the product of the lower numbers and the tail, and that with the upper numbers. -/
theorem C210_base {t ind : Tri ℝ} {n : ℕ} {c w : ℕ → ℕ → ℝ} (h : Spec.Stair t n c) (hp : Spec.Positive n c)
    (hi : IndOn t ind n w) (hw : ∀ i j, i + j + 1 < n → w i j = 0 ∨ w i j = 1) (hn : 3 ≤ n) (kind : AvgKind) {k : ℕ}
    (hk : k < n - 1) {tail : ℝ} (htail : 0 < tail) {r : BaseResult ℝ}
    (hr : baseCL gmean t ind (Spec.avgName kind.name k) (.fin tail) = .ok r) {f lo up : ℕ → ℝ}
    (hf : r.ldfs.map Prod.snd = (List.range n).map (fun j => .fin (f j))) (h0 : ∀ j < n - 1, 0 ≤ lo j)
    (hb : ∀ j < n - 1, ∀ i, Spec.Used kind n k w i j → lo j ≤ c i (j + 1) / c i j ∧ c i (j + 1) / c i j ≤ up j) :
    (∀ j < n - 1, lo j ≤ f j ∧ f j ≤ up j) ∧
    ∀ i < n, ∃ row u, r.rows[i]? = some row ∧ row.ultimate = .fin u ∧
      c i (n - 1 - i) * (∏ j ∈ Finset.Ico (n - 1 - i) (n - 1), lo j) * tail ≤ u ∧
      u ≤ c i (n - 1 - i) * (∏ j ∈ Finset.Ico (n - 1 - i) (n - 1), up j) * tail := by
  obtain ⟨_, h2, h3⟩ := baseCL_entries h hp hi hn kind hk hr hf
  have hfac : ∀ j < n - 1, lo j ≤ f j ∧ f j ≤ up j := fun j hj =>
    avgEntry_range h hp hi hw kind hj (hb j hj) (h2 j hj)
  refine ⟨hfac, fun i hin => ?_⟩
  obtain ⟨r₀, lab, b1, _, _, _, b5⟩ := baseCL_stair h hp.ne_zero hi hn h3 tail
  rw [hr] at b1
  obtain rfl := Except.ok.inj b1
  obtain ⟨row, e1, _, _, _, _, _, e2, _⟩ := b5.rows i hin
  refine ⟨row, _, e1, e2, ?_⟩
  obtain ⟨p1, p2⟩ := prod_range (a := n - 1 - i) h0 hfac
  have hc := hp i (n - 1 - i) (by omega)
  rw [tailProd_withTail _ _ (by omega), ← mul_assoc]
  exact ⟨mul_le_mul_of_nonneg_right (mul_le_mul_of_nonneg_left p1 hc.le) htail.le,
    mul_le_mul_of_nonneg_right (mul_le_mul_of_nonneg_left p2 hc.le) htail.le⟩

/-! ## mack_cl -/

section
variable {K : Type} [Field K] [LinearOrder K] [IsStrictOrderedRing K]
variable {t ind : Tri K} {n : ℕ} {c w : ℕ → ℕ → K}

/-- **C210 (mack_cl).** For every `alpha` and every indicator that keeps a link ratio in every period: factors in the range of the link
ratios that are not excluded, ultimates accordingly. -/
theorem C210_mack (h : Spec.Stair t n c) (hp : Spec.Positive n c) (hi : IndW t ind n w)
    (hw : Spec.Weights n w) (hn : 4 ≤ n) (alpha : ℕ) {lo up : ℕ → K} (h0 : ∀ j < n - 1, 0 ≤ lo j)
    (hb : ∀ i j, i + j + 1 < n → w i j ≠ 0 → lo j ≤ c i (j + 1) / c i j ∧ c i (j + 1) / c i j ≤ up j) :
    ∃ r, mackCore alpha t ind = .ok r ∧
      (∀ j < n - 1, ∃ f, r.ldfs.iloc j = .fin f ∧ lo j ≤ f ∧ f ≤ up j) ∧
      ∀ i < n, ∃ row u, r.rows[i]? = some row ∧ row.ultimate = .fin u ∧
        c i (n - 1 - i) * ∏ j ∈ Finset.Ico (n - 1 - i) (n - 1), lo j ≤ u ∧
        u ≤ c i (n - 1 - i) * ∏ j ∈ Finset.Ico (n - 1 - i) (n - 1), up j := by
  obtain ⟨r, b, lab, hr, pp⟩ := mack_parts h hp hi hw hn alpha
  obtain ⟨r₀, hr₀, hrows, _⟩ := mack_ults h hp hi hw hn alpha
  rw [hr] at hr₀
  obtain rfl := Except.ok.inj hr₀
  have hfac : ∀ j < n - 1, lo j ≤ Spec.mackF alpha n c w j ∧ Spec.mackF alpha n c w j ≤ up j := by
    intro j hj
    have hW := mackW_pos hp hw alpha hj
    unfold Spec.mackF
    rw [le_div_iff₀ hW, div_le_iff₀ hW]
    unfold Spec.mackW Spec.colSum
    rw [Finset.mul_sum, Finset.mul_sum]
    have aux : ∀ i ∈ Finset.range (n - 1 - j), 0 ≤ w i j * c i j ^ alpha ∧
        (w i j ≠ 0 → lo j ≤ c i (j + 1) / c i j ∧ c i (j + 1) / c i j ≤ up j) := fun i hi => by
      rw [Finset.mem_range] at hi
      exact ⟨mul_nonneg (hw.nonneg i j (by omega)) (pow_nonneg (hp i j (by omega)).le _), hb i j (by omega)⟩
    constructor
    · refine Finset.sum_le_sum fun i hi => ?_
      obtain ⟨a1, a2⟩ := aux i hi
      by_cases e : w i j = 0
      · simp [e]
      · have := mul_le_mul_of_nonneg_left (a2 e).1 a1
        beta_reduce
        linarith
    · refine Finset.sum_le_sum fun i hi => ?_
      obtain ⟨a1, a2⟩ := aux i hi
      by_cases e : w i j = 0
      · simp [e]
      · have := mul_le_mul_of_nonneg_left (a2 e).2 a1
        beta_reduce
        linarith
  refine ⟨r, hr, fun j hj => ⟨_, pp.ldf h j hj, hfac j hj⟩, fun i hin => ?_⟩
  obtain ⟨row, e1, _, e2, _⟩ := hrows i hin
  refine ⟨row, _, e1, e2, ?_⟩
  obtain ⟨p1, p2⟩ := prod_range (a := n - 1 - i) h0 hfac
  have hc := hp i (n - 1 - i) (by omega)
  unfold Spec.ult Spec.proj
  exact ⟨mul_le_mul_of_nonneg_left p1 hc.le, mul_le_mul_of_nonneg_left p2 hc.le⟩

end

/-! ## an example -/

/-- Link ratios 3/2, 2 and 8/5 of the first period: the medial average is 8/5 and stays in the range; when the smallest is excluded it is
9/5, the mean of the two that are left. -/
example :
    ((baseCL (fun _ => .nan) (stairTri 4 exRel) (stairTri 4 exRel).a2aind0 "all-medial" 1).map
        (fun r => r.ldfs.map Prod.snd)).toOption = some [.fin (8 / 5), .fin (5 / 4), .fin (11 / 10), .fin 1] ∧
    ((baseCL (fun _ => .nan) (stairTri 4 exRel) ((stairTri 4 exRel).a2aind0.setAt 2001 1 0) "all-medial" 1).map
        (fun r => r.ldfs.map Prod.snd)).toOption = some [.fin (9 / 5), .fin (5 / 4), .fin (11 / 10), .fin 1] := by
  constructor <;> decide +kernel

end Trikit
