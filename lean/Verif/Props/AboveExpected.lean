import Verif.Props.AvgExpected

/-!
# C228: development above or below expectation

`base_cl` (base.py:25-170) with an average of all years (triangle.py:777-856) at two evaluations one period apart, no origin
having developed less (no origin more) than the first one expects.
-/

set_option linter.unusedSectionVars false

namespace Trikit

section
variable {K : Type} [Field K] [LinearOrder K] [IsStrictOrderedRing K]

/-- `c'` is `c` one evaluation later, with positive new amounts. -/
structure Spec.NextYear (n : ℕ) (c c' : ℕ → ℕ → K) : Prop where
  same : ∀ i j, i + j < n → c' i j = c i j
  pos : ∀ i ≤ n, 0 < c' i (n - i)

theorem Spec.NextYear.positive {n : ℕ} {c c' : ℕ → ℕ → K} (h : Spec.NextYear n c c') (hp : Spec.Positive n c) :
    Spec.Positive (n + 1) c' := by
  intro i j hij
  by_cases hl : i + j < n
  · rw [h.same i j hl]; exact hp i j hl
  · obtain rfl : j = n - i := by omega
    exact h.pos i (by omega)

theorem ratios_year {n : ℕ} {c c' : ℕ → ℕ → K} (h : Spec.NextYear n c c') {j : ℕ} (hj : j < n) :
    Spec.ratios (n + 1) c' j = Spec.ratios n c j ++ [c' (n - 1 - j) (j + 1) / c (n - 1 - j) j] := by
  unfold Spec.ratios
  rw [show n + 1 - 1 - j = n - 1 - j + 1 by omega, List.range_succ, List.map_append, List.map_singleton]
  congr 1
  · refine List.map_congr_left fun i hi => ?_
    rw [List.mem_range] at hi
    rw [h.same _ _ (by omega), h.same _ _ (by omega)]
  · rw [h.same (n - 1 - j) j (by omega)]

/-! ### averages of a list and one more number -/

/-- The average of more numbers against the old average, in the direction of the new number. -/
def Spec.Follows (f x f' : K) : Prop := (f ≤ x → f ≤ f') ∧ (x ≤ f → f' ≤ f)

theorem mean_follows {l : List K} (hl : l ≠ []) (x : K) : Spec.Follows (Spec.mean l) x (Spec.mean (l ++ [x])) := by
  have hpos : (0 : K) < l.length := by exact_mod_cast List.length_pos_of_ne_nil hl
  have e : Spec.mean (l ++ [x]) = Spec.mean l + (x - Spec.mean l) / (l.length + 1) := by
    unfold Spec.mean
    rw [List.sum_append, List.sum_singleton, List.length_append, List.length_singleton]
    push_cast
    have : (l.length : K) + 1 ≠ 0 := by positivity
    field_simp
    ring
  rw [Spec.Follows, e]
  constructor
  · intro h
    have := div_nonneg (sub_nonneg.2 h) (show (0 : K) ≤ l.length + 1 by positivity)
    linarith
  · intro h
    have := div_nonneg (sub_nonneg.2 h) (show (0 : K) ≤ l.length + 1 by positivity)
    have e2 : (x - Spec.mean l) / (l.length + 1) = -((Spec.mean l - x) / (l.length + 1)) := by ring
    linarith

theorem sum_filter_ite {l : List K} (p : K → Bool) (g : K → K) :
    ((l.filter p).map g).sum = (l.map (fun y => if p y then g y else 0)).sum := by
  induction l with
  | nil => rfl
  | cons a l ih =>
    rw [List.filter_cons, List.map_cons, List.sum_cons, ← ih]
    cases p a <;> simp

theorem sum_dev (l : List K) (f : K) : (l.map (fun y => y - f)).sum = l.sum - l.length * f := by
  induction l with
  | nil => simp
  | cons a l ih =>
    rw [List.map_cons, List.sum_cons, ih, List.sum_cons, List.length_cons]
    push_cast
    ring

theorem mean_dev {l : List K} (hl : l ≠ []) (f : K) :
    (0 ≤ (l.map (fun y => y - f)).sum → f ≤ Spec.mean l) ∧ ((l.map (fun y => y - f)).sum ≤ 0 → Spec.mean l ≤ f) := by
  have hpos : (0 : K) < l.length := by exact_mod_cast List.length_pos_of_ne_nil hl
  rw [sum_dev]
  unfold Spec.mean
  rw [le_div_iff₀ hpos, div_le_iff₀ hpos]
  exact ⟨fun h => by linarith, fun h => by linarith⟩

theorem map_sum_le {l : List K} {g g' : K → K} (h : ∀ y ∈ l, g y ≤ g' y) : (l.map g).sum ≤ (l.map g').sum :=
  List.sum_le_sum h

/-- A medial average of numbers that are not all the same: strictly inside, and the numbers strictly inside balance. -/
theorem medial_dev {l : List K} {lo hi f : K} (h1 : lo ∈ l) (h2 : ∀ x ∈ l, lo ≤ x) (h3 : hi ∈ l) (h4 : ∀ x ∈ l, x ≤ hi)
    (e : lo ≠ hi) (hf : medialAvg (l.map Num.fin) = .ok (.fin f)) :
    2 ≤ l.length ∧ lo < f ∧ f < hi ∧
      ((l.filter (fun x => decide (x ≠ lo ∧ x ≠ hi))).map (fun y => y - f)).sum = 0 := by
  have hr := medialAvg_spec h1 h2 h3 h4
  rw [hf] at hr
  have hr := Except.ok.inj hr
  rw [if_neg e] at hr
  have hl : l ≠ [] := List.ne_nil_of_mem h1
  have hlt : lo < hi := lt_of_le_of_ne (h2 hi h3) e
  have hlen : 2 ≤ l.length := by
    rcases l with _ | ⟨a, _ | ⟨b, l⟩⟩
    · exact absurd rfl hl
    · rw [List.mem_singleton] at h1 h3
      exact absurd (h1.trans h3.symm) e
    · simp
  refine ⟨hlen, ?_⟩
  by_cases h2' : l.length ≤ 2
  · rw [if_pos h2'] at hr
    have hr := Num.fin.inj hr
    obtain ⟨a, b, rfl⟩ : ∃ a b, l = [a, b] := List.length_eq_two.1 (le_antisymm h2' hlen)
    have hx2 : f = (a + b) / 2 := by
      rw [hr]
      simp [Spec.mean]
    have hab : (a = lo ∧ b = hi) ∨ (a = hi ∧ b = lo) := by
      simp only [List.mem_cons, List.not_mem_nil, or_false] at h1 h3
      rcases h1 with h1 | h1 <;> rcases h3 with h3 | h3
      · exact absurd (h1.trans h3.symm) e
      · exact Or.inl ⟨h1.symm, h3.symm⟩
      · exact Or.inr ⟨h3.symm, h1.symm⟩
      · exact absurd (h1.trans h3.symm) e
    have hs : a + b = lo + hi := by
      rcases hab with ⟨rfl, rfl⟩ | ⟨rfl, rfl⟩
      · rfl
      · exact add_comm _ _
    refine ⟨by rw [hx2, hs]; linarith, by rw [hx2, hs]; linarith, ?_⟩
    have hm : [a, b].filter (fun x => decide (x ≠ lo ∧ x ≠ hi)) = [] := by
      rcases hab with ⟨rfl, rfl⟩ | ⟨rfl, rfl⟩ <;> simp
    rw [hm]; rfl
  · rw [if_neg h2'] at hr
    by_cases hm : l.filter (fun x => decide (x ≠ lo ∧ x ≠ hi)) = []
    · rw [if_pos hm] at hr
      cases hr
    · rw [if_neg hm] at hr
      have hr := Num.fin.inj hr
      obtain ⟨x1, x2⟩ := mean_between (lo := lo) (hi := hi) hm fun y hy => by
        obtain ⟨y1, y2⟩ := List.mem_filter.1 hy
        rw [decide_eq_true_eq] at y2
        exact ⟨lt_of_le_of_ne (h2 y y1) (Ne.symm y2.1), lt_of_le_of_ne (h4 y y1) y2.2⟩
      refine ⟨hr ▸ x1, hr ▸ x2, ?_⟩
      have hpos : ((l.filter (fun x => decide (x ≠ lo ∧ x ≠ hi))).length : K) ≠ 0 := by
        exact_mod_cast (List.length_pos_of_ne_nil hm).ne'
      rw [sum_dev, hr]
      unfold Spec.mean
      rw [mul_div_cancel₀ _ hpos, sub_self]

theorem medial_follows {l : List K} (hl : l ≠ []) {f x f' : K} (hf : medialAvg (l.map Num.fin) = .ok (.fin f))
    (hf' : medialAvg ((l ++ [x]).map Num.fin) = .ok (.fin f')) : Spec.Follows f x f' := by
  obtain ⟨lo, hi, h1, h2, h3, h4⟩ := exists_min_max hl
  by_cases e : lo = hi
  · subst e
    have hfl : f = lo := by
      have hr := medialAvg_spec h1 h2 h3 h4
      rw [hf, if_pos rfl] at hr
      exact Num.fin.inj (Except.ok.inj hr)
    subst hfl
    obtain ⟨lo', hi', g1, g2, g3, g4⟩ := exists_min_max (l := l ++ [x]) (by simp)
    have hb : lo' ≤ f' ∧ f' ≤ hi' := by
      obtain ⟨v, e, _, _, _, h5⟩ := C28_medial g1 g2 g3 g4
      exact h5 f' (Except.ok.inj (e.symm.trans hf'))
    constructor
    · intro hx
      refine le_trans ?_ hb.1
      rcases List.mem_append.1 g1 with h | h
      · exact h2 _ h
      · rw [List.mem_singleton.1 h]; exact hx
    · intro hx
      refine hb.2.trans ?_
      rcases List.mem_append.1 g3 with h | h
      · exact h4 _ h
      · rw [List.mem_singleton.1 h]; exact hx
  · obtain ⟨hlen, d1, d2, d3⟩ := medial_dev h1 h2 h3 h4 e hf
    have main : ∀ lo' hi' : K, lo' ∈ l ++ [x] → (∀ y ∈ l ++ [x], lo' ≤ y) → hi' ∈ l ++ [x] → (∀ y ∈ l ++ [x], y ≤ hi') →
        lo' < hi' → ∃ m : List K, m ≠ [] ∧ f' = Spec.mean m ∧ (m.map (fun y => y - f)).sum =
          (l.map (fun y => if decide (y ≠ lo' ∧ y ≠ hi') then y - f else 0)).sum +
            (if decide (x ≠ lo' ∧ x ≠ hi') then x - f else 0) := by
      intro lo' hi' g1 g2 g3 g4 hlt
      have hr := medialAvg_spec g1 g2 g3 g4
      rw [hf', if_neg hlt.ne, if_neg (by rw [List.length_append, List.length_singleton]; omega)] at hr
      have hr := Except.ok.inj hr
      by_cases hm : (l ++ [x]).filter (fun x => decide (x ≠ lo' ∧ x ≠ hi')) = []
      · rw [if_pos hm] at hr; cases hr
      · rw [if_neg hm] at hr
        refine ⟨_, hm, Num.fin.inj hr, ?_⟩
        rw [sum_filter_ite, List.map_append, List.sum_append, List.map_singleton, List.sum_singleton]
    rw [sum_filter_ite] at d3
    constructor
    · intro hx
      have g2 : ∀ y ∈ l ++ [x], lo ≤ y := fun y hy => by
        rcases List.mem_append.1 hy with h | h
        · exact h2 y h
        · rw [List.mem_singleton.1 h]; exact (d1.trans_le hx).le
      obtain ⟨m, m1, m2, m3⟩ := main lo (max hi x) (List.mem_append_left _ h1) g2 (by
          rcases max_choice hi x with h | h <;> rw [h]
          · exact List.mem_append_left _ h3
          · exact List.mem_append_right _ (List.mem_singleton.2 rfl))
        (fun y hy => by
          rcases List.mem_append.1 hy with h | h
          · exact (h4 y h).trans (le_max_left _ _)
          · rw [List.mem_singleton.1 h]; exact le_max_right _ _)
        ((d1.trans d2).trans_le (le_max_left _ _))
      rw [m2]
      refine (mean_dev m1 f).1 ?_
      rw [m3]
      have a1 : (0 : K) ≤ if decide (x ≠ lo ∧ x ≠ max hi x) then x - f else 0 := by
        split
        · linarith
        · exact le_rfl
      have a2 := map_sum_le (l := l) (g := fun y => if decide (y ≠ lo ∧ y ≠ hi) then y - f else 0)
        (g' := fun y => if decide (y ≠ lo ∧ y ≠ max hi x) then y - f else 0) (fun y hy => by
          have hle := h4 y hy
          simp only [decide_eq_true_eq]
          by_cases ey : y = hi
          · rw [if_neg (fun h => h.2 ey)]
            split
            · rw [ey]; linarith
            · exact le_rfl
          · have hne : y ≠ max hi x := ((lt_of_le_of_ne hle ey).trans_le (le_max_left _ _)).ne
            simp [ey, hne])
      rw [d3] at a2
      linarith
    · intro hx
      have g4 : ∀ y ∈ l ++ [x], y ≤ hi := fun y hy => by
        rcases List.mem_append.1 hy with h | h
        · exact h4 y h
        · rw [List.mem_singleton.1 h]; exact (hx.trans_lt d2).le
      obtain ⟨m, m1, m2, m3⟩ := main (min lo x) hi (by
          rcases min_choice lo x with h | h <;> rw [h]
          · exact List.mem_append_left _ h1
          · exact List.mem_append_right _ (List.mem_singleton.2 rfl))
        (fun y hy => by
          rcases List.mem_append.1 hy with h | h
          · exact (min_le_left _ _).trans (h2 y h)
          · rw [List.mem_singleton.1 h]; exact min_le_right _ _)
        (List.mem_append_left _ h3) g4 ((min_le_left _ _).trans_lt (d1.trans d2))
      rw [m2]
      refine (mean_dev m1 f).2 ?_
      rw [m3]
      have a1 : (if decide (x ≠ min lo x ∧ x ≠ hi) then x - f else 0) ≤ 0 := by
        split
        · linarith
        · exact le_rfl
      have a2 := map_sum_le (l := l) (g' := fun y => if decide (y ≠ lo ∧ y ≠ hi) then y - f else 0)
        (g := fun y => if decide (y ≠ min lo x ∧ y ≠ hi) then y - f else 0) (fun y hy => by
          have hle := h2 y hy
          simp only [decide_eq_true_eq]
          by_cases ey : y = lo
          · rw [if_neg (c := y ≠ lo ∧ y ≠ hi) (fun h => h.1 ey)]
            split
            · rw [ey]; linarith
            · exact le_rfl
          · have hne : y ≠ min lo x := ((min_le_left _ _).trans_lt (lt_of_le_of_ne hle (Ne.symm ey))).ne'
            simp [ey, hne])
      rw [d3] at a2
      linarith

end

/-! ### C228 -/

section
variable {t t' : Tri ℝ} {n : ℕ} {c c' : ℕ → ℕ → ℝ} {f f' : ℕ → ℝ} {tail : ℝ}

theorem geometric_follows {l : List ℝ} (hl : l ≠ []) (hp : ∀ x ∈ l, 0 < x) {f x f' : ℝ} (hx : 0 < x)
    (hf : geometricAvg gmean (l.map Num.fin) = .fin f) (hf' : geometricAvg gmean ((l ++ [x]).map Num.fin) = .fin f') :
    Spec.Follows f x f' := by
  unfold geometricAvg at hf hf'
  rw [if_neg (by simpa using hl), gmean_fin hp hl] at hf
  rw [if_neg (by simp), gmean_fin (fun y hy => by
    rcases List.mem_append.1 hy with h | h
    · exact hp y h
    · rw [List.mem_singleton.1 h]; exact hx) (by simp), List.map_append, List.map_singleton] at hf'
  have hf := Num.fin.inj hf
  have hf' := Num.fin.inj hf'
  obtain ⟨a1, a2⟩ := mean_follows (l := l.map Real.log) (by simpa using hl) (Real.log x)
  rw [← hf, ← hf']
  exact ⟨fun h => Real.exp_le_exp.2 (a1 ((Real.le_log_iff_exp_le hx).2 h)),
    fun h => Real.exp_le_exp.2 (a2 ((Real.log_le_iff_le_exp hx).2 h))⟩

theorem div_follows {S T a b : ℝ} (hT : 0 < T) (hb : 0 < b) : Spec.Follows (S / T) (a / b) ((S + a) / (T + b)) := by
  unfold Spec.Follows
  rw [div_le_div_iff₀ hT hb, div_le_div_iff₀ hT (add_pos hT hb), div_le_div_iff₀ hb hT, div_le_div_iff₀ (add_pos hT hb) hT]
  exact ⟨fun h => by linarith, fun h => by linarith⟩

/-- The factors of the next evaluation follow the new link ratios; the factor of the new period is the new link ratio. -/
theorem entry_follows (h : Spec.Stair t n c) (hp : Spec.Positive n c) (h' : Spec.Stair t' (n + 1) c')
    (hy : Spec.NextYear n c c') (kind : AvgKind) {j : ℕ} (hj : j < n - 1) {f f' : ℝ}
    (hf : avgEntry gmean t t.a2aind0 kind 0 j = .ok (.fin f))
    (hf' : avgEntry gmean t' t'.a2aind0 kind 0 j = .ok (.fin f')) :
    Spec.Follows f (c' (n - 1 - j) (j + 1) / c (n - 1 - j) j) f' := by
  have hp' := hy.positive hp
  have hi := h.indOn0 hp.ne_zero
  have hi' := h'.indOn0 hp'.ne_zero
  have hne := ratios_ne_nil (c := c) hj
  have hx : 0 < c' (n - 1 - j) (j + 1) / c (n - 1 - j) j :=
    div_pos (hp' _ _ (by omega)) (hp _ _ (by omega))
  cases kind with
  | simple =>
    rw [entry_simple h hp.ne_zero hi hj, window_noexcl hp, lastN_zero, simpleAvg_fin hne] at hf
    rw [entry_simple h' hp'.ne_zero hi' (by omega), window_noexcl hp', lastN_zero, ratios_year hy (by omega),
      simpleAvg_fin (by simp)] at hf'
    rw [← Num.fin.inj (Except.ok.inj hf), ← Num.fin.inj (Except.ok.inj hf')]
    exact mean_follows hne _
  | geometric =>
    rw [entry_geometric h hp.ne_zero hi hj, window_noexcl hp, lastN_zero] at hf
    rw [entry_geometric h' hp'.ne_zero hi' (by omega), window_noexcl hp', lastN_zero, ratios_year hy (by omega)] at hf'
    exact geometric_follows hne (ratios_pos hp j) hx (Except.ok.inj hf) (Except.ok.inj hf')
  | medial =>
    rw [entry_medial h hp.ne_zero hi hj, window_noexcl hp, lastN_zero] at hf
    rw [entry_medial h' hp'.ne_zero hi' (by omega), window_noexcl hp', lastN_zero, ratios_year hy (by omega)] at hf'
    exact medial_follows hne hf hf'
  | weighted =>
    rw [entry_wavg gmean h hp 0 hj, wavg_zero_all] at hf
    rw [entry_wavg gmean h' hp' 0 (by omega), wavg_zero_all] at hf'
    rw [← Num.fin.inj (Except.ok.inj hf), ← Num.fin.inj (Except.ok.inj hf')]
    have e : ∀ k, k ≤ j + 1 → ∑ i ∈ Finset.range (n - 1 - j), c' i k = ∑ i ∈ Finset.range (n - 1 - j), c i k := fun k hk =>
      Finset.sum_congr rfl fun i hi => hy.same i k (by have := Finset.mem_range.1 hi; omega)
    unfold Spec.wFactor
    rw [show n + 1 - 1 - j = n - 1 - j + 1 by omega, Finset.sum_range_succ, Finset.sum_range_succ, e _ le_rfl,
      e j (by omega), hy.same (n - 1 - j) j (by omega)]
    exact div_follows (Finset.sum_pos (fun i hi => hp i j (by have := Finset.mem_range.1 hi; omega))
      (Finset.nonempty_range_iff.2 (by omega))) (hp _ _ (by omega))

theorem entry_newest (hp : Spec.Positive n c) (hn : 3 ≤ n) (h' : Spec.Stair t' (n + 1) c') (hy : Spec.NextYear n c c')
    (kind : AvgKind) {f' : ℝ} (hf' : avgEntry gmean t' t'.a2aind0 kind 0 (n - 1) = .ok (.fin f')) :
    f' = c' 0 n / c 0 (n - 1) := by
  have hp' := hy.positive hp
  have hi' := h'.indOn0 hp'.ne_zero
  have hx : 0 < c' 0 n / c 0 (n - 1) := div_pos (hp' _ _ (by omega)) (hp _ _ (by omega))
  have hr : Spec.ratios (n + 1) c' (n - 1) = [c' 0 n / c 0 (n - 1)] := by
    have e0 : Spec.ratios n c (n - 1) = [] := by simp [Spec.ratios]
    rw [ratios_year hy (by omega), e0, List.nil_append, Nat.sub_self, show n - 1 + 1 = n by omega]
  cases kind with
  | simple =>
    rw [entry_simple h' hp'.ne_zero hi' (by omega), window_noexcl hp', lastN_zero, hr, simpleAvg_fin (by simp)] at hf'
    rw [← Num.fin.inj (Except.ok.inj hf')]
    simp [Spec.mean]
  | geometric =>
    rw [entry_geometric h' hp'.ne_zero hi' (by omega), window_noexcl hp', lastN_zero, hr, geometric_single hx] at hf'
    exact (Num.fin.inj (Except.ok.inj hf')).symm
  | medial =>
    rw [entry_medial h' hp'.ne_zero hi' (by omega), window_noexcl hp', lastN_zero, hr, medial_single] at hf'
    exact (Num.fin.inj (Except.ok.inj hf')).symm
  | weighted =>
    rw [entry_wavg gmean h' hp' 0 (by omega), wavg_zero_all] at hf'
    rw [← Num.fin.inj (Except.ok.inj hf')]
    unfold Spec.wFactor
    rw [show n + 1 - 1 - (n - 1) = 1 by omega, Finset.sum_range_one, Finset.sum_range_one, show n - 1 + 1 = n by omega,
      hy.same 0 (n - 1) (by omega)]

theorem prod_follows {m a : ℕ} {g g' : ℕ → ℝ} {A A' : ℝ} (hA : 0 ≤ A) (hAA : A ≤ A')
    (hg : ∀ j < m, 0 ≤ g j) (hgg : ∀ j < m, g j ≤ g' j) :
    A * ∏ j ∈ Finset.Ico a m, g j ≤ A' * ∏ j ∈ Finset.Ico a m, g' j :=
  mul_le_mul hAA (Finset.prod_le_prod (fun j hj => hg j (Finset.mem_Ico.1 hj).2) fun j hj => hgg j (Finset.mem_Ico.1 hj).2)
    (Finset.prod_nonneg fun j hj => hg j (Finset.mem_Ico.1 hj).2) (hA.trans hAA)

/-- **C228.** Every positive staircase of at least three origins, every average over all years, every positive tail factor:
when the factors of two evaluations one period apart are numbers (the second without tail factor) and no origin develops less
than the first expects, then no factor and no ultimate of an old origin is lower at the second; when no origin develops more,
none is higher. -/
theorem C228_follows (h : Spec.Stair t n c) (hp : Spec.Positive n c) (h' : Spec.Stair t' (n + 1) c') (hn : 3 ≤ n)
    (hy : Spec.NextYear n c c') (kind : AvgKind) (htail : 0 < tail) {r r' : BaseResult ℝ}
    (hr : baseCL gmean t t.a2aind0 ("all-" ++ kind.name) (.fin tail) = .ok r)
    (hf : r.ldfs.map Prod.snd = (List.range n).map (fun j => .fin (f j)))
    (hr' : baseCL gmean t' t'.a2aind0 ("all-" ++ kind.name) (.fin 1) = .ok r')
    (hf' : r'.ldfs.map Prod.snd = (List.range (n + 1)).map (fun j => .fin (f' j))) :
    ∃ U U' : ℕ → ℝ, (∀ i < n, ∃ row row', r.rows[i]? = some row ∧ r'.rows[i]? = some row' ∧ row.ultimate = .fin (U i) ∧
        row'.ultimate = .fin (U' i)) ∧
      ((∀ i < n, c i (n - 1 - i) * f (n - 1 - i) ≤ c' i (n - i)) → (∀ j < n, f j ≤ f' j) ∧ ∀ i < n, U i ≤ U' i) ∧
      ((∀ i < n, c' i (n - i) ≤ c i (n - 1 - i) * f (n - 1 - i)) → (∀ j < n, f' j ≤ f j) ∧ ∀ i < n, U' i ≤ U i) := by
  have hname : Spec.avgName kind.name 0 = "all-" ++ kind.name := rfl
  rw [← hname] at hr hr'
  have hp' := hy.positive hp
  obtain ⟨e1, e2, e3⟩ := baseCL_entries h hp (h.indOn0 hp.ne_zero) hn kind (by omega) hr hf
  obtain ⟨g1, g2, g3⟩ := baseCL_entries h' hp' (h'.indOn0 hp'.ne_zero) (by omega) kind (by omega) hr' hf'
  obtain ⟨r1, a1, _, a3, _⟩ := base_sel gmean h hp hn e3 tail
  obtain rfl : r1 = r := Except.ok.inj (a1.symm.trans hr)
  obtain ⟨r1', b1, _, b3, _⟩ := base_sel gmean h' hp' (by omega) g3 1
  obtain rfl : r1' = r' := Except.ok.inj (b1.symm.trans hr')
  have hfpos : ∀ j < n, 0 < f j := fun j hj => by
    by_cases hj1 : j < n - 1
    · exact entry_pos h hp kind hj1 (e2 j hj1)
    · obtain rfl : j = n - 1 := by omega
      rw [e1]; exact htail
  have hfpos' : ∀ j < n, 0 < f' j := fun j hj => entry_pos h' hp' kind (by omega) (g2 j (by omega))
  have hlast := entry_newest hp hn h' hy kind (g2 (n - 1) (by omega))
  have hU : ∀ i < n, Spec.ult n c f i * tail = c i (n - 1 - i) * f (n - 1 - i) * ∏ j ∈ Finset.Ico (n - i) n, f j :=
    fun i hi => by
      unfold Spec.ult Spec.proj
      rw [← e1, mul_assoc, mul_assoc]
      congr 1
      obtain ⟨m, rfl⟩ : ∃ m, n = m + 1 := ⟨n - 1, by omega⟩
      rw [Nat.add_sub_cancel, ← Finset.prod_Ico_succ_top (by omega), Finset.prod_eq_prod_Ico_succ_bot (by omega),
        show m - i + 1 = m + 1 - i by omega]
  have hU' : ∀ i < n, Spec.ult (n + 1) c' f' i * 1 = c' i (n - i) * ∏ j ∈ Finset.Ico (n - i) n, f' j := fun i hi => by
    unfold Spec.ult Spec.proj
    rw [mul_one, Nat.add_sub_cancel]
  refine ⟨fun i => Spec.ult n c f i * tail, fun i => Spec.ult (n + 1) c' f' i * 1, fun i hin => ?_, fun hab => ?_,
    fun hbe => ?_⟩
  · obtain ⟨row, x1, _, x2, _⟩ := a3 i hin
    obtain ⟨row', y1, _, y2, _⟩ := b3 i (by omega)
    exact ⟨row, row', x1, y1, x2, y2⟩
  · have hff : ∀ j < n, f j ≤ f' j := fun j hj => by
      have hb := hab (n - 1 - j) (by omega)
      rw [show n - 1 - (n - 1 - j) = j by omega, show n - (n - 1 - j) = j + 1 by omega] at hb
      have hx : f j ≤ c' (n - 1 - j) (j + 1) / c (n - 1 - j) j := by
        rw [le_div_iff₀ (hp _ _ (by omega)), mul_comm]; exact hb
      by_cases hj1 : j < n - 1
      · exact (entry_follows h hp h' hy kind hj1 (e2 j hj1) (g2 j (by omega))).1 hx
      · obtain rfl : j = n - 1 := by omega
        rw [Nat.sub_self, show n - 1 + 1 = n by omega] at hx
        rw [hlast]; exact hx
    refine ⟨hff, fun i hi => ?_⟩
    beta_reduce
    rw [hU i hi, hU' i hi]
    exact prod_follows (mul_pos (hp _ _ (by omega)) (hfpos _ (by omega))).le (hab i hi) (fun j hj => (hfpos j hj).le) hff
  · have hff : ∀ j < n, f' j ≤ f j := fun j hj => by
      have hb := hbe (n - 1 - j) (by omega)
      rw [show n - 1 - (n - 1 - j) = j by omega, show n - (n - 1 - j) = j + 1 by omega] at hb
      have hx : c' (n - 1 - j) (j + 1) / c (n - 1 - j) j ≤ f j := by
        rw [div_le_iff₀ (hp _ _ (by omega)), mul_comm]; exact hb
      by_cases hj1 : j < n - 1
      · exact (entry_follows h hp h' hy kind hj1 (e2 j hj1) (g2 j (by omega))).2 hx
      · obtain rfl : j = n - 1 := by omega
        rw [Nat.sub_self, show n - 1 + 1 = n by omega] at hx
        rw [hlast]; exact hx
    refine ⟨hff, fun i hi => ?_⟩
    beta_reduce
    rw [hU i hi, hU' i hi]
    exact prod_follows (hy.pos i (by omega)).le (hbe i hi) (fun j hj => (hfpos' j hj).le) hff

end

section
variable {K : Type} [Field K] [LinearOrder K] [IsStrictOrderedRing K]
variable {t t' ind ind' : Tri K} {n : ℕ} {c c' w w' : ℕ → ℕ → K}

/-- What `mack_cl` with factors `f` expects for origin `i` on the next diagonal; the oldest origin is not expected to develop. -/
def Spec.expectedAmount (n : ℕ) (c : ℕ → ℕ → K) (f : ℕ → K) (i : ℕ) : K :=
  if i = 0 then c 0 (n - 1) else c i (n - 1 - i) * f (n - 1 - i)

/-- The next diagonal as the factors `f` expect it, with the new origin of `c'`. -/
def expectedNext (n : ℕ) (c c' : ℕ → ℕ → K) (f : ℕ → K) (i j : ℕ) : K :=
  if i + j < n then c i j else if i = 0 then c 0 (n - 1) * 1 else if i < n then c i (n - 1 - i) * f (n - 1 - i) else c' i j

theorem expectedNext_asExpected (hn : 1 ≤ n) (hy : Spec.NextYear n c c') (f : ℕ → K) :
    Spec.AsExpected n c (expectedNext n c c' f) f 1 := by
  refine ⟨fun i j hij => if_pos hij, fun i h1 h2 => ?_, ?_, ?_⟩ <;> unfold expectedNext
  · rw [if_neg (by omega), if_neg (by omega), if_pos h2]
  · rw [if_neg (by omega), if_pos rfl]
  · rw [if_neg (by omega), if_neg (by omega), if_neg (by omega)]
    have := hy.pos n le_rfl
    rwa [Nat.sub_self] at this

/-- **C228** for `mack_cl`, every `alpha` and all exclusion weights: when no origin develops less than the last estimate expects
(the oldest one: does not fall), no ultimate of an old origin is lower at the next, and that of every origin that develops more
is higher; and the same downwards. -/
theorem C228_mack (h : Spec.Stair t n c) (hp : Spec.Positive n c) (hi : IndW t ind n w) (hw : Spec.Weights n w)
    (h' : Spec.Stair t' (n + 1) c') (hi' : IndW t' ind' (n + 1) w') (hw' : Spec.Weights (n + 1) w')
    (hww : ∀ i j, i + j + 1 < n → w' i j = w i j) (hn : 4 ≤ n) (hy : Spec.NextYear n c c') {alpha : ℕ} {f : ℕ → K}
    {r : MackCore K} (hr : mackCore alpha t ind = .ok r) (hf : ∀ j < n - 1, r.ldfs.iloc j = .fin (f j)) :
    ∃ (r' : MackCore K) (U U' : ℕ → K), mackCore alpha t' ind' = .ok r' ∧
      (∀ i < n, ∃ row row', r.rows[i]? = some row ∧ r'.rows[i]? = some row' ∧ row.ultimate = .fin (U i) ∧
        row'.ultimate = .fin (U' i)) ∧
      ((∀ i < n, Spec.expectedAmount n c f i ≤ c' i (n - i)) →
        ∀ i < n, U i ≤ U' i ∧ (Spec.expectedAmount n c f i < c' i (n - i) → U i < U' i)) ∧
      ((∀ i < n, c' i (n - i) ≤ Spec.expectedAmount n c f i) →
        ∀ i < n, U' i ≤ U i ∧ (c' i (n - i) < Spec.expectedAmount n c f i → U' i < U i)) := by
  have hp' := hy.positive hp
  obtain ⟨r1, b1, lab1, g1, p1⟩ := mack_parts h hp hi hw hn alpha
  obtain rfl : r1 = r := Except.ok.inj (g1.symm.trans hr)
  have hff : ∀ j < n - 1, f j = Spec.mackF alpha n c w j := fun j hj => Num.fin.inj ((hf j hj).symm.trans (p1.ldf h j hj))
  obtain ⟨r2, q1, q2, _⟩ := mack_ults h hp hi hw hn alpha
  obtain rfl : r2 = r1 := Except.ok.inj (q1.symm.trans g1)
  obtain ⟨r', s1, s2, _⟩ := mack_ults h' hp' hi' hw' (by omega) alpha
  have he := expectedNext_asExpected (by omega) hy (Spec.mackF alpha n c w)
  set x := expectedNext n c c' (Spec.mackF alpha n c w) with hx
  have hpx := he.pos (by omega) hp (fun j hj => mackF_pos hp hw alpha hj) one_pos
  have hsame : ∀ i j, i + j + 1 < n + 1 → c' i j = x i j := fun i j hij => by
    rw [he.same i j (by omega), hy.same i j (by omega)]
  have hxi : ∀ i < n, x i (n - i) = Spec.expectedAmount n c f i := fun i h2 => by
    unfold Spec.expectedAmount
    by_cases e0 : i = 0
    · subst e0; rw [if_pos rfl, Nat.sub_zero, he.oldest, mul_one]
    · rw [if_neg e0, he.next i (by omega) h2, hff _ (by omega)]
  have hxn : x n 0 = c' n 0 := by
    rw [hx]; unfold expectedNext
    rw [if_neg (by omega), if_neg (by omega), if_neg (by omega)]
  have hU : ∀ i < n, Spec.ult (n + 1) x (Spec.mackF alpha (n + 1) x w') i = Spec.ult n c (Spec.mackF alpha n c w) i :=
    fun i hi1 => by rw [ult_expected hp hw he hpx hw' hww hi1, mul_one]
  refine ⟨r', Spec.ult n c (Spec.mackF alpha n c w), Spec.ult (n + 1) c' (Spec.mackF alpha (n + 1) c' w'), s1, fun i hin => ?_,
    fun hab i hin => ?_, fun hbe i hin => ?_⟩
  · obtain ⟨row, a1, _, a2, _⟩ := q2 i hin
    obtain ⟨row', b1, _, b2, _⟩ := s2 i (by omega)
    exact ⟨row, row', a1, b1, a2, b2⟩
  · have hR : Spec.Raised (n + 1) x c' := ⟨hsame, fun i hi1 => by
      rw [Nat.add_sub_cancel]
      by_cases en : i = n
      · subst en; rw [Nat.sub_self, hxn]
      · rw [hxi i (by omega)]; exact hab i (by omega)⟩
    obtain ⟨m1, m2⟩ := ult_mono hpx hw' hR alpha (i := i) (by omega)
    rw [hU i hin] at m1 m2
    refine ⟨m1, fun hlt => m2 ?_⟩
    rw [Nat.add_sub_cancel, hxi i hin]; exact hlt
  · have hR : Spec.Raised (n + 1) c' x := ⟨fun i j hij => (hsame i j hij).symm, fun i hi1 => by
      rw [Nat.add_sub_cancel]
      by_cases en : i = n
      · subst en; rw [Nat.sub_self, hxn]
      · rw [hxi i (by omega)]; exact hbe i (by omega)⟩
    obtain ⟨m1, m2⟩ := ult_mono hp' hw' hR alpha (i := i) (by omega)
    rw [hU i hin] at m1 m2
    refine ⟨m1, fun hlt => m2 ?_⟩
    rw [Nat.add_sub_cancel, hxi i hin]; exact hlt

end

/-- Four origins with equal development, and a fifth diagonal on which the second youngest origin develops by `z`. -/
def exAbove (z : ℚ) (i j : ℕ) : ℚ := if i = 2 ∧ j = 2 then z else 100

/-- The factors have to be numbers: above expectation in one origin only, the medial average of the second period has nothing
left once the lowest and highest link ratios are removed, and the ultimate of the youngest origin is missing. -/
theorem C228_missing :
    [stairTri 4 (exAbove 120), stairTri 5 (exAbove 120)].map (fun t =>
      (baseCL (fun _ => .nan) t t.a2aind0 "all-medial" 1).toOption.map
        (fun r => (r.ldfs.map Prod.snd, (r.rows[3]?).map (fun row => row.ultimate)))) =
    [some ([.fin 1, .fin 1, .fin 1, .fin 1], some (.fin 100)),
      some ([.fin 1, .nan, .fin 1, .fin 1, .fin 1], some .nan)] := by decide +kernel

/-- A concrete case of `C228_mack`: factors 1, and the origin that develops by a fifth raises its own ultimate and that of the
next one. -/
example : [stairTri 4 (exAbove 120), stairTri 5 (exAbove 120)].map (fun t =>
      (mackCore 1 t t.a2aind0).toOption.map (fun r => (r.rows.take 4).map (fun row => row.ultimate))) =
    [some [.fin 100, .fin 100, .fin 100, .fin 100], some [.fin 100, .fin 100, .fin 120, .fin (320/3)]] := by decide +kernel

/-- A concrete case: with the weighted average the ultimate of the youngest old origin goes from 100 to 320/3, that of the
origin itself from 100 to 120. -/
example : [stairTri 4 (exAbove 120), stairTri 5 (exAbove 120)].map (fun t =>
      (baseCL (fun _ => .nan) t t.a2aind0 "all-weighted" 1).toOption.map
        (fun r => (r.rows.take 4).map (fun row => row.ultimate))) =
    [some [.fin 100, .fin 100, .fin 100, .fin 100], some [.fin 100, .fin 100, .fin 120, .fin (320/3)]] := by decide +kernel

end Trikit
