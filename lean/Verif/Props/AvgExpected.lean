import Verif.Props.FactorRange
import Verif.Props.BootExpected

/-!
# C225: development as expected, whatever average is selected

`base_cl` (base.py:25-170) with the averages of `a2a_avgs` (triangle.py:777-856) at two evaluations, the second one period
later, every origin having developed with the factors of the first.  C100 has this for simple and weighted averages of all
years.
-/

set_option linter.unusedSectionVars false

namespace Trikit

section
variable {K : Type} [Field K] [LinearOrder K] [IsStrictOrderedRing K]
variable {n : ℕ} {c c' : ℕ → ℕ → K} {f : ℕ → K} {tail : K}

/-! ### link ratios and ultimates one period later -/

theorem ratios_next (hp : Spec.Positive n c) (he : Spec.AsExpected n c c' f tail) {j : ℕ} (hj : j < n - 1) :
    Spec.ratios (n + 1) c' j = Spec.ratios n c j ++ [f j] := by
  unfold Spec.ratios
  rw [show n + 1 - 1 - j = n - 1 - j + 1 by omega, List.range_succ, List.map_append, List.map_singleton]
  have h1 := he.next (n - 1 - j) (by omega) (by omega)
  rw [show n - (n - 1 - j) = j + 1 by omega, show n - 1 - (n - 1 - j) = j by omega] at h1
  congr 1
  · refine List.map_congr_left fun i hi => ?_
    rw [List.mem_range] at hi
    rw [he.same _ _ (by omega), he.same _ _ (by omega)]
  · rw [h1, he.same _ _ (by omega), mul_div_cancel_left₀ _ (hp _ _ (by omega)).ne']

theorem ratios_last (hp : Spec.Positive n c) (hn : 1 ≤ n) (he : Spec.AsExpected n c c' f tail) :
    Spec.ratios (n + 1) c' (n - 1) = [tail] := by
  unfold Spec.ratios
  rw [show n + 1 - 1 - (n - 1) = 1 by omega, List.range_one, List.map_singleton, show n - 1 + 1 = n by omega, he.oldest,
    he.same _ _ (by omega), mul_div_cancel_left₀ _ (hp _ _ (by omega)).ne']

theorem ult_next (he : Spec.AsExpected n c c' f tail) {g : ℕ → K} (hg : ∀ j < n - 1, g j = f j) (hl : g (n - 1) = tail)
    {i : ℕ} (hi : i < n) : Spec.ult (n + 1) c' g i = Spec.ult n c f i * tail := by
  unfold Spec.ult Spec.proj
  by_cases h0 : i = 0
  · subst h0
    simp [he.oldest]
  · rw [show n + 1 - 1 - i = n - i by omega, he.next i (by omega) hi, Nat.add_sub_cancel]
    obtain ⟨m, rfl⟩ : ∃ m, n = m + 1 := ⟨n - 1, by omega⟩
    rw [Nat.add_sub_cancel] at hl hg ⊢
    rw [Finset.prod_Ico_succ_top (by omega), hl]
    have hprod : ∏ k ∈ Finset.Ico (m + 1 - i) m, g k = ∏ k ∈ Finset.Ico (m + 1 - i) m, f k :=
      Finset.prod_congr rfl fun k hk => hg k (Finset.mem_Ico.1 hk).2
    rw [hprod, Finset.prod_eq_prod_Ico_succ_bot (show m - i < m by omega), show m - i + 1 = m + 1 - i by omega]
    ring

/-! ### averages of a list and the average itself -/

theorem mean_snoc {l : List K} (hl : l ≠ []) : Spec.mean (l ++ [Spec.mean l]) = Spec.mean l := by
  have hpos : (0 : K) < l.length := by exact_mod_cast List.length_pos_of_ne_nil hl
  unfold Spec.mean
  rw [List.sum_append, List.sum_singleton, List.length_append, List.length_singleton]
  push_cast
  have : (l.length : K) + 1 ≠ 0 := by positivity
  field_simp

theorem mean_snoc' {l : List K} {x : K} (hl : l ≠ []) (hx : Spec.mean l = x) : Spec.mean (l ++ [x]) = x := by
  rw [← hx, mean_snoc hl]

theorem mean_between {l : List K} (hl : l ≠ []) {lo hi : K} (h : ∀ x ∈ l, lo < x ∧ x < hi) :
    lo < Spec.mean l ∧ Spec.mean l < hi := by
  obtain ⟨a, b, h1, h2, h3, h4⟩ := exists_min_max hl
  exact ⟨(h a h1).1.trans_le (le_mean hl h2), (mean_le hl h4).trans_lt (h b h3).2⟩

theorem medial_snoc {l : List K} (hl : l ≠ []) {x : K} (hx : medialAvg (l.map Num.fin) = .ok (.fin x)) :
    medialAvg ((l ++ [x]).map Num.fin) = .ok (.fin x) := by
  obtain ⟨lo, hi, h1, h2, h3, h4⟩ := exists_min_max hl
  have hr := medialAvg_spec h1 h2 h3 h4
  rw [hx] at hr
  have hr := Except.ok.inj hr
  have hb : lo ≤ x ∧ x ≤ hi := by
    obtain ⟨v, e, _, _, _, h5⟩ := C28_medial h1 h2 h3 h4
    exact h5 x (Except.ok.inj (e.symm.trans hx))
  have g1 : lo ∈ l ++ [x] := List.mem_append_left _ h1
  have g3 : hi ∈ l ++ [x] := List.mem_append_left _ h3
  have g2 : ∀ y ∈ l ++ [x], lo ≤ y := fun y hy => by
    rcases List.mem_append.1 hy with h | h
    · exact h2 y h
    · rw [List.mem_singleton.1 h]; exact hb.1
  have g4 : ∀ y ∈ l ++ [x], y ≤ hi := fun y hy => by
    rcases List.mem_append.1 hy with h | h
    · exact h4 y h
    · rw [List.mem_singleton.1 h]; exact hb.2
  rw [medialAvg_spec g1 g2 g3 g4]
  by_cases e : lo = hi
  · rw [if_pos e] at hr ⊢
    rw [hr]
  · rw [if_neg e] at hr ⊢
    have hlt : lo < hi := lt_of_le_of_ne (h2 hi h3) e
    have hlen : 2 ≤ l.length := by
      rcases l with _ | ⟨a, _ | ⟨b, l⟩⟩
      · exact absurd rfl hl
      · rw [List.mem_singleton] at h1 h3
        exact absurd (h1.trans h3.symm) e
      · simp
    rw [if_neg (show ¬ (l ++ [x]).length ≤ 2 by rw [List.length_append, List.length_singleton]; omega)]
    have key : ∀ m : List K, m = l.filter (fun x => decide (x ≠ lo ∧ x ≠ hi)) → lo < x → x < hi →
        (l ++ [x]).filter (fun x => decide (x ≠ lo ∧ x ≠ hi)) = m ++ [x] := by
      intro m hm a b
      rw [List.filter_append, ← hm, List.filter_cons_of_pos (by simpa using ⟨a.ne', b.ne⟩), List.filter_nil]
    by_cases h2' : l.length ≤ 2
    · rw [if_pos h2'] at hr
      have hr := Num.fin.inj hr
      obtain ⟨a, b, rfl⟩ : ∃ a b, l = [a, b] := List.length_eq_two.1 (le_antisymm h2' hlen)
      have hx2 : x = (a + b) / 2 := by
        rw [hr]
        simp [Spec.mean]
      have hab : (a = lo ∧ b = hi) ∨ (a = hi ∧ b = lo) := by
        simp only [List.mem_cons, List.not_mem_nil, or_false] at h1 h3
        rcases h1 with h1 | h1 <;> rcases h3 with h3 | h3
        · exact absurd (h1.trans h3.symm) e
        · exact Or.inl ⟨h1.symm, h3.symm⟩
        · exact Or.inr ⟨h3.symm, h1.symm⟩
        · exact absurd (h1.trans h3.symm) e
      have hs : a + b = lo + hi := by
        rcases hab with ⟨rfl, rfl⟩ | ⟨rfl, rfl⟩
        · rfl
        · exact add_comm _ _
      have x1 : lo < x := by rw [hx2, hs]; linarith
      have x2 : x < hi := by rw [hx2, hs]; linarith
      have hm : [a, b].filter (fun x => decide (x ≠ lo ∧ x ≠ hi)) = [] := by
        rcases hab with ⟨rfl, rfl⟩ | ⟨rfl, rfl⟩ <;> simp
      rw [key [] hm.symm x1 x2, List.nil_append, if_neg (List.cons_ne_nil _ _)]
      simp [Spec.mean]
    · rw [if_neg h2'] at hr
      by_cases hm : l.filter (fun x => decide (x ≠ lo ∧ x ≠ hi)) = []
      · rw [if_pos hm] at hr
        cases hr
      · rw [if_neg hm] at hr
        have hr := Num.fin.inj hr
        obtain ⟨x1, x2⟩ := mean_between (lo := lo) (hi := hi) hm fun y hy => by
          obtain ⟨y1, y2⟩ := List.mem_filter.1 hy
          rw [decide_eq_true_eq] at y2
          exact ⟨lt_of_le_of_ne (h2 y y1) (Ne.symm y2.1), lt_of_le_of_ne (h4 y y1) y2.2⟩
        rw [← hr] at x1 x2
        rw [key _ rfl x1 x2, if_neg (by simp), mean_snoc' hm hr.symm]

theorem medial_single (x : K) : medialAvg ([x].map Num.fin) = .ok (.fin x) := by
  rw [medialAvg_spec (lo := x) (hi := x) (List.mem_singleton.2 rfl) (fun y hy => (List.mem_singleton.1 hy).ge)
    (List.mem_singleton.2 rfl) (fun y hy => (List.mem_singleton.1 hy).le), if_pos rfl]

end

/-! ### C225, all years -/

section
variable {t t' : Tri ℝ} {n : ℕ} {c c' : ℕ → ℕ → ℝ} {f : ℕ → ℝ} {tail : ℝ}

theorem geometric_snoc {l : List ℝ} (hl : l ≠ []) (hp : ∀ x ∈ l, 0 < x) {x : ℝ}
    (hx : geometricAvg gmean (l.map Num.fin) = .fin x) : geometricAvg gmean ((l ++ [x]).map Num.fin) = .fin x := by
  unfold geometricAvg at *
  rw [if_neg (by simpa using hl), gmean_fin hp hl] at hx
  have hx := Num.fin.inj hx
  have hx0 : 0 < x := hx ▸ Real.exp_pos _
  have hlog : Spec.mean (l.map Real.log) = Real.log x := by rw [← hx, Real.log_exp]
  rw [if_neg (by simp), gmean_fin (fun y hy => by
    rcases List.mem_append.1 hy with h | h
    · exact hp y h
    · rw [List.mem_singleton.1 h]; exact hx0) (by simp), List.map_append, List.map_singleton,
    mean_snoc' (by simpa using hl) hlog, Real.exp_log hx0]

theorem geometric_single {x : ℝ} (hx : 0 < x) : geometricAvg gmean ([x].map Num.fin) = .fin x := by
  unfold geometricAvg
  rw [if_neg (by simp), gmean_fin (fun y hy => by rw [List.mem_singleton.1 hy]; exact hx) (by simp)]
  simp [Spec.mean, Real.exp_log hx]

theorem lastN_zero {α : Type} (l : List α) : Spec.lastN 0 l = l := if_pos rfl

theorem wavg_zero_all (n : ℕ) (c : ℕ → ℕ → ℝ) (j : ℕ) : Spec.wavg n 0 c j = Spec.wFactor n c j := by
  unfold Spec.wavg Spec.wFactor
  rw [lastN_zero, list_sum_map_range, list_sum_map_range]

theorem entry_expected (h : Spec.Stair t n c) (hp : Spec.Positive n c) (h' : Spec.Stair t' (n + 1) c')
    (hp' : Spec.Positive (n + 1) c') (hn : 3 ≤ n) (htail : 0 < tail) (kind : AvgKind)
    (hf : ∀ j < n - 1, avgEntry gmean t t.a2aind0 kind 0 j = .ok (.fin (f j))) (he : Spec.AsExpected n c c' f tail) :
    (∀ j < n - 1, avgEntry gmean t' t'.a2aind0 kind 0 j = .ok (.fin (f j))) ∧
      avgEntry gmean t' t'.a2aind0 kind 0 (n - 1) = .ok (.fin tail) := by
  have hi := h.indOn0 hp.ne_zero
  have hi' := h'.indOn0 hp'.ne_zero
  cases kind with
  | simple =>
    constructor
    · intro j hj
      have e := hf j hj
      have hne := ratios_ne_nil (c := c) hj
      rw [entry_simple h hp.ne_zero hi hj, window_noexcl hp, lastN_zero, simpleAvg_fin hne] at e
      rw [entry_simple h' hp'.ne_zero hi' (by omega), window_noexcl hp', lastN_zero, ratios_next hp he hj,
        simpleAvg_fin (by simp), mean_snoc' hne (Num.fin.inj (Except.ok.inj e))]
    · rw [entry_simple h' hp'.ne_zero hi' (by omega), window_noexcl hp', lastN_zero, ratios_last hp (by omega) he,
        simpleAvg_fin (by simp)]
      simp [Spec.mean]
  | geometric =>
    constructor
    · intro j hj
      have e := hf j hj
      have hne := ratios_ne_nil (c := c) hj
      rw [entry_geometric h hp.ne_zero hi hj, window_noexcl hp, lastN_zero] at e
      rw [entry_geometric h' hp'.ne_zero hi' (by omega), window_noexcl hp', lastN_zero, ratios_next hp he hj,
        geometric_snoc hne (ratios_pos hp j) (Except.ok.inj e)]
    · rw [entry_geometric h' hp'.ne_zero hi' (by omega), window_noexcl hp', lastN_zero, ratios_last hp (by omega) he,
        geometric_single htail]
  | medial =>
    constructor
    · intro j hj
      have e := hf j hj
      have hne := ratios_ne_nil (c := c) hj
      rw [entry_medial h hp.ne_zero hi hj, window_noexcl hp, lastN_zero] at e
      rw [entry_medial h' hp'.ne_zero hi' (by omega), window_noexcl hp', lastN_zero, ratios_next hp he hj,
        medial_snoc hne e]
    · rw [entry_medial h' hp'.ne_zero hi' (by omega), window_noexcl hp', lastN_zero, ratios_last hp (by omega) he,
        medial_single]
  | weighted =>
    have hff : ∀ j < n - 1, f j = Spec.wFactor n c j := fun j hj => by
      have e := hf j hj
      rw [entry_wavg gmean h hp 0 hj, wavg_zero_all] at e
      exact (Num.fin.inj (Except.ok.inj e)).symm
    have he' : Spec.AsExpected n c c' (Spec.wFactor n c) tail :=
      ⟨he.same, fun i h1 h2 => by rw [he.next i h1 h2, hff _ (by omega)], he.oldest, he.fresh⟩
    constructor
    · intro j hj
      rw [entry_wavg gmean h' hp' 0 (by omega), wavg_zero_all, wFactor_expected hp hn he' hp' (by omega), if_pos hj, hff j hj]
    · rw [entry_wavg gmean h' hp' 0 (by omega), wavg_zero_all, wFactor_expected hp hn he' hp' (by omega), if_neg (by omega)]

/-- Positive factors of a positive staircase. -/
theorem entry_pos (h : Spec.Stair t n c) (hp : Spec.Positive n c) (kind : AvgKind) {k j : ℕ} (hj : j < n - 1) {x : ℝ}
    (hx : avgEntry gmean t t.a2aind0 kind k j = .ok (.fin x)) : 0 < x := by
  obtain ⟨lo, up, h1, h2, h3, h4⟩ := exists_min_max (ratios_ne_nil (c := c) hj)
  have := (avgEntry_range h hp (h.indOn0 hp.ne_zero) (fun _ _ _ => Or.inr rfl) kind hj (lo := lo) (up := up)
    (fun i hi => by
      have hm : c i (j + 1) / c i j ∈ Spec.ratios n c j :=
        List.mem_map.2 ⟨i, List.mem_range.2 (by have := hi.1; omega), rfl⟩
      exact ⟨h2 _ hm, h4 _ hm⟩) hx).1
  exact (ratios_pos hp j lo h1).trans_le this

/-- **C225, part that holds (1).** For every positive staircase of at least three origins, every average over all years
(simple, geometric, medial, weighted) whose factors are numbers, every positive tail factor: when every origin develops with
the factors of the last estimate, the next estimate, made without tail factor, has the same factors, the former tail as
factor of the new period, and the same ultimates.  Missing: averages of the last `k` years, see `C225_window_partial` and
`C225_window_fails`. -/
theorem C225_all_partial (h : Spec.Stair t n c) (hp : Spec.Positive n c) (h' : Spec.Stair t' (n + 1) c') (hn : 3 ≤ n)
    (kind : AvgKind) (htail : 0 < tail) {r : BaseResult ℝ}
    (hr : baseCL gmean t t.a2aind0 ("all-" ++ kind.name) (.fin tail) = .ok r)
    (hf : r.ldfs.map Prod.snd = (List.range n).map (fun j => .fin (f j))) (he : Spec.AsExpected n c c' f tail) :
    ∃ r', baseCL gmean t' t'.a2aind0 ("all-" ++ kind.name) 1 = .ok r' ∧
      r'.ldfs.map Prod.snd = (List.range n).map (fun j => .fin (f j)) ++ [.fin 1] ∧
      ∀ i < n, ∃ row row', r.rows[i]? = some row ∧ r'.rows[i]? = some row' ∧ row'.ultimate = row.ultimate := by
  have hname : Spec.avgName kind.name 0 = "all-" ++ kind.name := rfl
  rw [← hname] at hr ⊢
  obtain ⟨e1, e2, e3⟩ := baseCL_entries h hp (h.indOn0 hp.ne_zero) hn kind (by omega) hr hf
  have hp' := he.pos (by omega) hp (fun j hj => entry_pos h hp kind hj (e2 j hj)) htail
  obtain ⟨g1, g2⟩ := entry_expected h hp h' hp' hn htail kind e2 he
  have hrow : Spec.RowIs gmean t' t'.a2aind0 (Spec.avgName kind.name 0)
      ((List.range (n + 1 - 1)).map (fun j => .fin (f j))) := by
    refine rowIs_window gmean h' hp' kind (by omega) fun j hj => ?_
    by_cases hj1 : j < n - 1
    · exact g1 j hj1
    · obtain rfl : j = n - 1 := by omega
      rw [g2, e1]
  obtain ⟨r1, a1, _, a3, _⟩ := base_sel gmean h hp hn e3 tail
  obtain rfl : r1 = r := Except.ok.inj (a1.symm.trans hr)
  obtain ⟨r', b1, b2, b3, _⟩ := base_sel gmean h' hp' (by omega) hrow 1
  refine ⟨r', b1, b2, fun i hin => ?_⟩
  obtain ⟨row, x1, _, x2, _⟩ := a3 i hin
  obtain ⟨row', y1, _, y2, _⟩ := b3 i (by omega)
  exact ⟨row, row', x1, y1, by rw [x2, y2, ult_next he (fun _ _ => rfl) e1 hin, mul_one]⟩

/-! ### C225, the last `k` years -/

theorem lastN_snoc_short {α : Type} {l : List α} {x : α} {k : ℕ} (h : l.length < k) :
    Spec.lastN k (l ++ [x]) = Spec.lastN k l ++ [x] := by
  rw [lastN_of_length_le (by rw [List.length_append, List.length_singleton]; omega), lastN_of_length_le h.le]

theorem mean_lastN_snoc {l : List ℝ} {x : ℝ} {k : ℕ} (hk : 0 < k) (h : k ≤ l.length) :
    Spec.mean (Spec.lastN k (l ++ [x])) = Spec.mean (Spec.lastN k l) + (x - l[l.length - k]'(by omega)) / k := by
  have h1 : Spec.lastN k l = l[l.length - k]'(by omega) :: l.drop (l.length - k + 1) := by
    unfold Spec.lastN
    rw [if_neg (by omega), List.drop_eq_getElem_cons (by omega)]
  have h2 : Spec.lastN k (l ++ [x]) = l.drop (l.length - k + 1) ++ [x] := by
    unfold Spec.lastN
    rw [if_neg (by omega), List.length_append, List.length_singleton,
      show l.length + 1 - k = l.length - k + 1 by omega, List.drop_append_of_le_length (by omega)]
  have hk0 : (k : ℝ) ≠ 0 := by exact_mod_cast hk.ne'
  have l1 := lastN_length hk.ne' l
  have l2 := lastN_length hk.ne' (l ++ [x])
  rw [List.length_append, List.length_singleton] at l2
  unfold Spec.mean
  rw [l1, l2, min_eq_left h, min_eq_left (by omega), h1, h2, List.sum_cons, List.sum_append, List.sum_singleton]
  field_simp
  ring

/-- The factor of the last `k` years at the next evaluation: unchanged while fewer than `k` link ratios are there, otherwise
moved away from the oldest ratio of the window, which drops out. -/
noncomputable def Spec.nextFactor (n k : ℕ) (c : ℕ → ℕ → ℝ) (f : ℕ → ℝ) (j : ℕ) : ℝ :=
  if n - 1 - j < k then f j else f j + (f j - c (n - 1 - j - k) (j + 1) / c (n - 1 - j - k) j) / k

/-- **C225, part that holds (2).** For the simple average of the last `k` years the factors after development as expected
are exactly `Spec.nextFactor`, and the ultimates the latest amounts times the products of these. -/
theorem C225_window_partial (h : Spec.Stair t n c) (hp : Spec.Positive n c) (h' : Spec.Stair t' (n + 1) c') (hn : 3 ≤ n)
    {k : ℕ} (hk : 0 < k) (hkn : k < n - 1) (htail : 0 < tail) {r : BaseResult ℝ}
    (hr : baseCL gmean t t.a2aind0 (Spec.avgName "simple" k) (.fin tail) = .ok r)
    (hf : r.ldfs.map Prod.snd = (List.range n).map (fun j => .fin (f j))) (he : Spec.AsExpected n c c' f tail) :
    ∃ r', baseCL gmean t' t'.a2aind0 (Spec.avgName "simple" k) 1 = .ok r' ∧
      r'.ldfs.map Prod.snd = (List.range n).map (fun j => .fin (Spec.nextFactor n k c f j)) ++ [.fin 1] ∧
      ∀ i < n, ∃ row', r'.rows[i]? = some row' ∧
        row'.ultimate = .fin (c' i (n - i) * ∏ j ∈ Finset.Ico (n - i) n, Spec.nextFactor n k c f j) := by
  obtain ⟨e1, e2, _⟩ := baseCL_entries h hp (h.indOn0 hp.ne_zero) hn .simple (by omega) hr hf
  have hp' := he.pos (by omega) hp (fun j hj => entry_pos h hp .simple hj (e2 j hj)) htail
  have hrow : Spec.RowIs gmean t' t'.a2aind0 (Spec.avgName "simple" k)
      ((List.range (n + 1 - 1)).map (fun j => .fin (Spec.nextFactor n k c f j))) := by
    refine rowIs_window gmean h' hp' .simple (by omega) fun j hj => ?_
    rw [entry_simple h' hp'.ne_zero (h'.indOn0 hp'.ne_zero) (by omega), window_noexcl hp']
    by_cases hj1 : j < n - 1
    · have e := e2 j hj1
      have hne := ratios_ne_nil (c := c) hj1
      have hlen : (Spec.ratios n c j).length = n - 1 - j := by simp [Spec.ratios]
      rw [entry_simple h hp.ne_zero (h.indOn0 hp.ne_zero) hj1, window_noexcl hp, simpleAvg_fin (lastN_ne_nil k hne)] at e
      have e := Num.fin.inj (Except.ok.inj e)
      rw [ratios_next hp he hj1, simpleAvg_fin (lastN_ne_nil k (by simp))]
      unfold Spec.nextFactor
      by_cases hs : n - 1 - j < k
      · rw [if_pos hs, lastN_snoc_short (by omega), mean_snoc' (lastN_ne_nil k hne) e]
      · rw [if_neg hs, mean_lastN_snoc hk (by omega), e]
        congr 4
        simp only [Spec.ratios, List.getElem_map, List.getElem_range, List.length_map, List.length_range]
    · obtain rfl : j = n - 1 := by omega
      rw [ratios_last hp (by omega) he, lastN_of_length_le (by rw [List.length_singleton]; omega), simpleAvg_fin (by simp)]
      unfold Spec.nextFactor
      rw [if_pos (by omega), e1]
      simp [Spec.mean]
  obtain ⟨r', b1, b2, b3, _⟩ := base_sel gmean h' hp' (by omega) hrow 1
  refine ⟨r', b1, b2, fun i hin => ?_⟩
  obtain ⟨row', y1, _, y2, _⟩ := b3 i (by omega)
  refine ⟨row', y1, ?_⟩
  rw [y2, mul_one]
  unfold Spec.ult Spec.proj
  rw [Nat.add_sub_cancel]

end

/-- Four origins; the second period of the oldest doubles, of the next one stays level.  The fifth diagonal
is what `simple-2` expects on four. -/
def exNextYear (i j : ℕ) : ℚ := if i = 0 ∧ 2 ≤ j then 200 else if i = 2 ∧ j = 2 then 150 else 100

/-- **C225 is false of the code** for averages of the last years: the factors of `simple-2` are 1, 3/2, 1 and 1, the youngest
origin is expected to reach 150; one period later, all as expected, the factors are 1, 5/4, 1, 1, and it is expected to reach
125. -/
theorem C225_window_fails :
    Spec.AsExpected 4 exNextYear exNextYear (fun j => if j = 1 then 3 / 2 else 1) 1 ∧
    ((baseCL (fun _ => .nan) (stairTri 4 exNextYear) (stairTri 4 exNextYear).a2aind0 "simple-2" 1).toOption.map
      (fun r => (r.ldfs.map Prod.snd, (r.rows[3]?).map (fun row => row.ultimate)))) =
      some ([.fin 1, .fin (3 / 2), .fin 1, .fin 1], some (.fin 150)) ∧
    ((baseCL (fun _ => .nan) (stairTri 5 exNextYear) (stairTri 5 exNextYear).a2aind0 "simple-2" 1).toOption.map
      (fun r => (r.ldfs.map Prod.snd, (r.rows[3]?).map (fun row => row.ultimate)))) =
      some ([.fin 1, .fin (5 / 4), .fin 1, .fin 1, .fin 1], some (.fin 125)) := by
  refine ⟨⟨fun _ _ _ => rfl, fun i h1 h2 => ?_, ?_, ?_⟩, by decide +kernel, by decide +kernel⟩
  · have : i = 1 ∨ i = 2 ∨ i = 3 := by omega
    rcases this with rfl | rfl | rfl <;> norm_num [exNextYear]
  · norm_num [exNextYear]
  · norm_num [exNextYear]

/-- A concrete case: with the medial average of all years the same triangle keeps its ultimates. -/
example : [stairTri 4 exNextYear, stairTri 5 exNextYear].map (fun t =>
    ((baseCL (fun _ => .nan) t t.a2aind0 "all-medial" 1).toOption.map
      (fun r => (r.rows.take 4).map (fun row => row.ultimate)))) =
    [some [.fin 200, .fin 100, .fin 150, .fin 150], some [.fin 200, .fin 100, .fin 150, .fin 150]] := by decide +kernel

end Trikit
