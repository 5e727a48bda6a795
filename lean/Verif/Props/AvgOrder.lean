import Verif.Props.FactorRange

/-!
# C214: how the choice of the average moves the estimates

`a2a_avgs` (triangle.py:777-856) and `base_cl` (base.py:25-170) with the geometric, simple and weighted averages of the
same window.
-/

set_option linter.unusedSectionVars false

namespace Trikit

/-! ## specification -/

/-- All link ratios of period `j` a simple average of the last `k` looks at are equal. -/
def Spec.EqualRatios {K : Type} [Field K] (n k : ℕ) (c w : ℕ → ℕ → K) (j : ℕ) : Prop :=
  ∀ i i', Spec.Used .simple n k w i j → Spec.Used .simple n k w i' j → c i (j + 1) / c i j = c i' (j + 1) / c i' j

/-- Results with the factors `f` and `f'`: none of the first is larger, and they are equal exactly where `same` holds of
all periods they depend on. -/
structure Spec.NeverAbove {K : Type} [Field K] [LinearOrder K] (n : ℕ) (same : ℕ → Prop) (r r' : BaseResult K) : Prop where
  factors : ∀ j < n - 1, ∃ f f', r.ldfs.iloc j = .fin f ∧ r'.ldfs.iloc j = .fin f' ∧ f ≤ f' ∧ (f = f' ↔ same j)
  rows : ∀ i < n, ∃ row row' u u' v v', r.rows[i]? = some row ∧ r'.rows[i]? = some row' ∧ row.ultimate = .fin u ∧
    row'.ultimate = .fin u' ∧ row.reserve = .fin v ∧ row'.reserve = .fin v' ∧ u ≤ u' ∧ v' - v = u' - u ∧
    (u = u' ↔ ∀ j, n - 1 - i ≤ j → j < n - 1 → same j)
  total : ∃ u u' v v', r.totUltimate = .fin u ∧ r'.totUltimate = .fin u' ∧ r.totReserve = .fin v ∧
    r'.totReserve = .fin v' ∧ u ≤ u' ∧ v' - v = u' - u ∧ (u = u' ↔ ∀ j < n - 1, same j)

/-! ## means -/

/-- Arithmetic and geometric means of positive numbers. -/
theorem am_gm_list {W : List ℝ} (hne : W ≠ []) (hpos : ∀ x ∈ W, 0 < x) :
    Real.exp (Spec.mean (W.map Real.log)) ≤ Spec.mean W ∧
      (Real.exp (Spec.mean (W.map Real.log)) = Spec.mean W ↔ ∀ x ∈ W, ∀ y ∈ W, x = y) := by
  have hlen : (0 : ℝ) < W.length := by exact_mod_cast List.length_pos_of_ne_nil hne
  have hm : 0 < Spec.mean W := by
    obtain ⟨a, b, h1, h2, -, -⟩ := exists_min_max hne
    exact (hpos a h1).trans_le (le_mean hne h2)
  generalize ha : Spec.mean W = a at hm
  have hsum : W.sum = W.length * a := by
    rw [← ha]; unfold Spec.mean; rw [mul_div_cancel₀ _ hlen.ne']
  have key : ∀ L : List ℝ, (∀ x ∈ L, 0 < x) →
      (L.map Real.log).sum ≤ L.length * Real.log a + L.sum / a - L.length ∧
      ((∃ x ∈ L, x ≠ a) → (L.map Real.log).sum < L.length * Real.log a + L.sum / a - L.length) := by
    intro L
    induction L with
    | nil => intro _; simp
    | cons x L ih =>
      intro hp
      obtain ⟨h1, h2⟩ := ih (fun y hy => hp y (List.mem_cons_of_mem _ hy))
      have hx := hp x List.mem_cons_self
      have hxa : 0 < x / a := div_pos hx hm
      have e : Real.log x = Real.log a + Real.log (x / a) := by
        rw [Real.log_div hx.ne' hm.ne']; ring
      have h3 := Real.log_le_sub_one_of_pos hxa
      simp only [List.map_cons, List.sum_cons, List.length_cons, Nat.cast_add, Nat.cast_one, add_div]
      refine ⟨by rw [e]; linarith, ?_⟩
      rintro ⟨y, hy, hya⟩
      rcases List.mem_cons.1 hy with rfl | hy
      · have h4 := Real.log_lt_sub_one_of_pos hxa (fun h => hya ((div_eq_one_iff_eq hm.ne').1 h))
        rw [e]; linarith
      · have := h2 ⟨y, hy, hya⟩
        rw [e]; linarith
  obtain ⟨h1, h2⟩ := key W hpos
  have e1 : (W.length : ℝ) * Real.log a + W.sum / a - W.length = W.length * Real.log a := by
    rw [hsum, mul_div_cancel_right₀ _ hm.ne']; ring
  rw [e1] at h1 h2
  have e2 : Spec.mean (W.map Real.log) = (W.map Real.log).sum / W.length := by
    unfold Spec.mean; rw [List.length_map]
  refine ⟨?_, ?_⟩
  · rw [← Real.le_log_iff_exp_le hm, e2, div_le_iff₀ hlen, mul_comm]; exact h1
  · constructor
    · intro he
      have hall : ∀ x ∈ W, x = a := by
        by_contra hc
        push Not at hc
        have h3 := h2 hc
        have : Real.exp (Spec.mean (W.map Real.log)) < a := by
          rw [← Real.lt_log_iff_exp_lt hm, e2, div_lt_iff₀ hlen, mul_comm]; exact h3
        exact this.ne he
      exact fun x hx y hy => (hall x hx).trans (hall y hy).symm
    · intro hall
      obtain ⟨x, hx⟩ := List.exists_mem_of_ne_nil _ hne
      have hrep : W = List.replicate W.length x := List.eq_replicate_iff.2 ⟨rfl, fun y hy => hall y hy x hx⟩
      have hW0 : W.length ≠ 0 := by have := List.length_pos_of_ne_nil hne; omega
      rw [hrep, List.map_replicate, mean_replicate hW0, Real.exp_log (hpos x hx), ← ha]
      conv_rhs => rw [hrep]
      rw [mean_replicate hW0]

section
variable {K : Type} [Field K] [LinearOrder K] [IsStrictOrderedRing K]
variable {n : ℕ} {c w : ℕ → ℕ → K}

theorem mem_wOrigins_iff {k j i : ℕ} : i ∈ wOrigins n k j ↔ i + j + 1 < n ∧ Spec.InWindow n k i j := by
  refine ⟨inWindow_of_mem, ?_⟩
  rintro ⟨h1, h2⟩
  unfold wOrigins Spec.lastN
  split_ifs with hk
  · exact List.mem_range.2 (by omega)
  · rcases h2 with h2 | h2
    · exact absurd h2 hk
    · rw [List.mem_iff_getElem?]
      refine ⟨i - (n - 1 - j - k), ?_⟩
      rw [List.getElem?_drop, List.length_range, show n - 1 - j - k + (i - (n - 1 - j - k)) = i by omega,
        List.getElem?_range (by omega)]

theorem mem_window (hp : Spec.Positive n c) (hw : ∀ i j, i + j + 1 < n → w i j = 0 ∨ w i j = 1) {k j : ℕ} {x : K} :
    x ∈ (Spec.lastN k (adjRatios n c w j)).filter (fun x => decide (0 < x)) ↔
      ∃ i, Spec.Used .simple n k w i j ∧ x = c i (j + 1) / c i j := by
  rw [List.mem_filter, adj_lastN, List.mem_map, decide_eq_true_eq]
  constructor
  · rintro ⟨⟨i, h1, rfl⟩, h2⟩
    obtain ⟨h3, h4⟩ := inWindow_of_mem h1
    rcases hw i j h3 with e | e
    · rw [e, mul_zero] at h2
      exact absurd h2 (lt_irrefl _)
    · exact ⟨i, ⟨h3, h4, Or.inr (by rw [e]; exact one_ne_zero)⟩, by rw [e, mul_one]⟩
  · rintro ⟨i, ⟨h3, h4, h5⟩, rfl⟩
    have e : w i j = 1 := by
      rcases h5 with h5 | h5
      · cases h5
      · rcases hw i j h3 with e | e
        · exact absurd e h5
        · exact e
    exact ⟨⟨i, mem_wOrigins_iff.2 ⟨h3, h4⟩, by rw [e, mul_one]⟩, div_pos (hp _ _ (by omega)) (hp _ _ (by omega))⟩

/-- Larger factors, larger results. -/
theorem neverAbove_of_factors {t : Tri K} (hp : Spec.Positive n c) (hn : 1 ≤ n) {f f' : ℕ → K} {tail : K}
    (ht : 0 < tail) {same : ℕ → Prop} (h0 : ∀ j < n - 1, 0 < f j)
    (h1 : ∀ j < n - 1, f j ≤ f' j ∧ (f j = f' j ↔ same j)) {r r' : BaseResult K}
    (hr : Spec.BaseSpec t n c (Spec.withTail f n tail) r.ldfs r)
    (hr' : Spec.BaseSpec t n c (Spec.withTail f' n tail) r'.ldfs r')
    (hl : r.ldfs.map Prod.snd = (List.range n).map (fun j => .fin (Spec.withTail f n tail j)))
    (hl' : r'.ldfs.map Prod.snd = (List.range n).map (fun j => .fin (Spec.withTail f' n tail j))) :
    Spec.NeverAbove n same r r' := by
  have hprod : ∀ a, ∏ j ∈ Finset.Ico a (n - 1), f j ≤ ∏ j ∈ Finset.Ico a (n - 1), f' j ∧
      (∏ j ∈ Finset.Ico a (n - 1), f j = ∏ j ∈ Finset.Ico a (n - 1), f' j ↔
        ∀ j, a ≤ j → j < n - 1 → same j) := by
    intro a
    have h2 : ∀ j ∈ Finset.Ico a (n - 1), 0 < f j := fun j hj => h0 j (Finset.mem_Ico.1 hj).2
    have h3 : ∀ j ∈ Finset.Ico a (n - 1), f j ≤ f' j := fun j hj => (h1 j (Finset.mem_Ico.1 hj).2).1
    refine ⟨Finset.prod_le_prod (fun j hj => (h2 j hj).le) h3, ?_⟩
    constructor
    · intro e
      by_contra hc
      push Not at hc
      obtain ⟨j, hj1, hj2, hj3⟩ := hc
      refine (Finset.prod_lt_prod h2 h3 ⟨j, Finset.mem_Ico.2 ⟨hj1, hj2⟩, ?_⟩).ne e
      exact lt_of_le_of_ne (h1 j hj2).1 (fun e => hj3 ((h1 j hj2).2.1 e))
    · intro hs
      exact Finset.prod_congr rfl fun j hj =>
        (h1 j (Finset.mem_Ico.1 hj).2).2.2 (hs j (Finset.mem_Ico.1 hj).1 (Finset.mem_Ico.1 hj).2)
  have hult : ∀ i < n, c i (n - 1 - i) * Spec.tailProd (Spec.withTail f n tail) n (n - 1 - i) ≤
      c i (n - 1 - i) * Spec.tailProd (Spec.withTail f' n tail) n (n - 1 - i) ∧
      (c i (n - 1 - i) * Spec.tailProd (Spec.withTail f n tail) n (n - 1 - i) =
        c i (n - 1 - i) * Spec.tailProd (Spec.withTail f' n tail) n (n - 1 - i) ↔
          ∀ j, n - 1 - i ≤ j → j < n - 1 → same j) := by
    intro i hi
    have hc := hp i (n - 1 - i) (by omega)
    obtain ⟨h2, h3⟩ := hprod (n - 1 - i)
    rw [tailProd_withTail _ _ (by omega), tailProd_withTail _ _ (by omega)]
    refine ⟨mul_le_mul_of_nonneg_left (mul_le_mul_of_nonneg_right h2 ht.le) hc.le, ?_⟩
    rw [mul_right_inj' hc.ne', mul_left_inj' ht.ne']
    exact h3
  have hloc : ∀ {l : Ser K} {g : ℕ → K}, l.map Prod.snd = (List.range n).map (fun j => .fin (Spec.withTail g n tail j)) →
      ∀ j < n - 1, l.iloc j = .fin (g j) := by
    intro l g hg j hj
    unfold Ser.iloc
    rw [hg, List.getD_eq_getElem?_getD, List.getElem?_map, List.getElem?_range (by omega)]
    show Num.fin (Spec.withTail g n tail j) = _
    unfold Spec.withTail
    rw [if_pos (by omega)]
  refine ⟨fun j hj => ⟨_, _, hloc hl j hj, hloc hl' j hj, h1 j hj⟩, fun i hi => ?_, ?_⟩
  · obtain ⟨row, e1, -, -, -, -, -, e2, e3⟩ := hr.rows i hi
    obtain ⟨row', e1', -, -, -, -, -, e2', e3'⟩ := hr'.rows i hi
    exact ⟨row, row', _, _, _, _, e1, e1', e2, e2', e3, e3', (hult i hi).1, by ring, (hult i hi).2⟩
  · refine ⟨_, _, _, _, hr.totUltimate, hr'.totUltimate, hr.totReserve, hr'.totReserve, ?_, ?_, ?_⟩
    · exact Finset.sum_le_sum fun i hi => (hult i (Finset.mem_range.1 hi)).1
    · rw [Finset.sum_sub_distrib, Finset.sum_sub_distrib]; ring
    · rw [Finset.sum_eq_sum_iff_of_le (fun i hi => (hult i (Finset.mem_range.1 hi)).1)]
      constructor
      · intro hall j hj
        exact (hult (n - 1) (by omega)).2.1 (hall (n - 1) (Finset.mem_range.2 (by omega))) j (by omega) hj
      · intro hall i hi
        exact (hult i (Finset.mem_range.1 hi)).2.2 fun j _ hj => hall j hj

end

/-! ## geometric and simple averages -/

/-- **C214.** On every positive staircase, with every indicator of zeros and ones that keeps the newest link ratio of every
period, every window and positive tail: `base_cl` with the geometric average never gives a larger factor, ultimate, reserve or
total than with the simple average of the same window, and the same ones exactly when all link ratios looked at are equal in
each of the periods they depend on. -/
theorem C214_geometric {t ind : Tri ℝ} {n : ℕ} {c w : ℕ → ℕ → ℝ} (h : Spec.Stair t n c) (hp : Spec.Positive n c)
    (hi : IndOn t ind n w) (hw : ∀ i j, i + j + 1 < n → w i j = 0 ∨ w i j = 1)
    (hkeep : ∀ i j, i + j + 2 = n → w i j = 1) (hn : 3 ≤ n) {k : ℕ} (hk : k < n - 1) {tail : ℝ} (ht : 0 < tail) :
    ∃ r r', baseCL gmean t ind (Spec.avgName "geometric" k) (.fin tail) = .ok r ∧
      baseCL gmean t ind (Spec.avgName "simple" k) (.fin tail) = .ok r' ∧
      Spec.NeverAbove n (Spec.EqualRatios n k c w) r r' := by
  obtain ⟨tab, htab⟩ := (C27_exclusion_partial gmean h hp hi hw).1 (fun j hj => hkeep _ _ (by omega))
  have hW : ∀ j < n - 1, (Spec.lastN k (adjRatios n c w j)).filter (fun x => decide (0 < x)) ≠ [] := by
    intro j hj
    apply List.ne_nil_of_mem (a := c (n - 2 - j) (j + 1) / c (n - 2 - j) j)
    rw [mem_window hp hw]
    refine ⟨n - 2 - j, ⟨by omega, ?_, Or.inr ?_⟩, rfl⟩
    · rcases Nat.eq_zero_or_pos k with rfl | hk0
      · exact Or.inl rfl
      · exact Or.inr (by omega)
    · rw [hkeep _ _ (by omega)]; exact one_ne_zero
  have hpos : ∀ j, ∀ x ∈ (Spec.lastN k (adjRatios n c w j)).filter (fun x => decide (0 < x)), 0 < x := by
    intro j x hx
    simpa using (List.mem_filter.1 hx).2
  have hd : k = 0 ∨ k < t.a2a.nr := Or.inr (by rw [h.a2a_nr hp.ne_zero]; exact hk)
  have hrow1 := rowIs_of_entries h hp.ne_zero hi htab .geometric hk
    (f := fun j => Real.exp (Spec.mean (((Spec.lastN k (adjRatios n c w j)).filter (fun x => decide (0 < x))).map Real.log)))
    (fun j hj => by
      apply entry_of_ok htab .geometric hd (by rw [adj_nc h hp.ne_zero hi]; exact hj)
      rw [entry_geometric h hp.ne_zero hi hj]
      unfold geometricAvg
      rw [if_neg (by simpa using hW j hj), gmean_fin (hpos j) (hW j hj)])
  have hrow2 := rowIs_of_entries h hp.ne_zero hi htab .simple hk
    (f := fun j => Spec.mean ((Spec.lastN k (adjRatios n c w j)).filter (fun x => decide (0 < x))))
    (fun j hj => by
      apply entry_of_ok htab .simple hd (by rw [adj_nc h hp.ne_zero hi]; exact hj)
      rw [entry_simple h hp.ne_zero hi hj, simpleAvg_fin (hW j hj)])
  obtain ⟨r, lab, a1, -, -, a4, a5⟩ := baseCL_stair h hp.ne_zero hi hn hrow1 tail
  obtain ⟨r', lab', b1, -, -, b4, b5⟩ := baseCL_stair h hp.ne_zero hi hn hrow2 tail
  refine ⟨r, r', a1, b1, neverAbove_of_factors hp (by omega) ht (fun j _ => Real.exp_pos _) ?_ a5 b5 ?_ ?_⟩
  · intro j hj
    obtain ⟨h1, h2⟩ := am_gm_list (hW j hj) (hpos j)
    refine ⟨h1, h2.trans ?_⟩
    constructor
    · intro hall i i' hi hi'
      exact hall _ ((mem_window hp hw).2 ⟨i, hi, rfl⟩) _ ((mem_window hp hw).2 ⟨i', hi', rfl⟩)
    · intro hall x hx y hy
      obtain ⟨i, hi, rfl⟩ := (mem_window hp hw).1 hx
      obtain ⟨i', hi', rfl⟩ := (mem_window hp hw).1 hy
      exact hall i i' hi hi'
  · rw [a4, List.map_snd_zip (by have := h.nc; unfold Tri.nc at this; simp [this]; omega)]
  · rw [b4, List.map_snd_zip (by have := h.nc; unfold Tri.nc at this; simp [this]; omega)]

/-! ## simple and weighted averages -/

section
variable {K : Type} [Field K] [LinearOrder K] [IsStrictOrderedRing K]
variable {t : Tri K} {n : ℕ} {c : ℕ → ℕ → K}

/-- Sum of the products of the deviations of amounts and link ratios of period `j` from their means, over the last `k` origins
with a link ratio (all for 0): positive when larger origins have larger link ratios. -/
def Spec.sizeEffect (n k : ℕ) (c : ℕ → ℕ → K) (j : ℕ) : K :=
  let L := Spec.lastN k (List.range (n - 1 - j))
  (L.map (fun i => (c i j - Spec.mean (L.map (fun i => c i j))) *
    (c i (j + 1) / c i j - Spec.mean (L.map (fun i => c i (j + 1) / c i j))))).sum

theorem sum_deviations {ι : Type} (L : List ι) (a b : ι → K) (A B : K) :
    (L.map (fun i => (a i - A) * (b i - B))).sum =
      (L.map (fun i => a i * b i)).sum - A * (L.map b).sum - B * (L.map a).sum + L.length * A * B := by
  induction L with
  | nil => simp
  | cons i L ih =>
    simp only [List.map_cons, List.sum_cons, List.length_cons, Nat.cast_add, Nat.cast_one, ih]
    ring

theorem weighted_sub_simple (hp : Spec.Positive n c) (k : ℕ) {j : ℕ} (hj : j < n - 1) :
    0 < ((wOrigins n k j).map (fun i => c i j)).sum ∧
    (Spec.wavg n k c j - Spec.mean ((wOrigins n k j).map (fun i => c i (j + 1) / c i j))) *
      ((wOrigins n k j).map (fun i => c i j)).sum = Spec.sizeEffect n k c j := by
  have hne : wOrigins n k j ≠ [] := by
    unfold wOrigins
    apply lastN_ne_nil
    rw [Ne, List.range_eq_nil]; omega
  have hcpos : ∀ i ∈ wOrigins n k j, 0 < c i j := fun i hi => hp i j (by have := inWindow_of_mem hi; omega)
  have hS : 0 < ((wOrigins n k j).map (fun i => c i j)).sum := map_sum_pos hne hcpos
  refine ⟨hS, ?_⟩
  have hlen : ((wOrigins n k j).length : K) ≠ 0 := by
    have := List.length_pos_of_ne_nil hne
    exact_mod_cast (by omega : (wOrigins n k j).length ≠ 0)
  have e1 : (wOrigins n k j).map (fun i => c i j * (c i (j + 1) / c i j)) = (wOrigins n k j).map (fun i => c i (j + 1)) :=
    List.map_congr_left fun i hi => mul_div_cancel₀ _ (hcpos i hi).ne'
  unfold Spec.sizeEffect Spec.wavg
  simp only
  change _ = ((wOrigins n k j).map _).sum
  rw [sum_deviations, e1]
  change (((wOrigins n k j).map (fun i => c i (j + 1))).sum / ((wOrigins n k j).map (fun i => c i j)).sum - _) * _ = _
  rw [sub_mul, div_mul_cancel₀ _ hS.ne']
  change _ = _ - Spec.mean ((wOrigins n k j).map (fun i => c i j)) * _ -
    Spec.mean ((wOrigins n k j).map (fun i => c i (j + 1) / c i j)) * _ + _ *
      Spec.mean ((wOrigins n k j).map (fun i => c i j)) * Spec.mean ((wOrigins n k j).map (fun i => c i (j + 1) / c i j))
  unfold Spec.mean
  rw [List.length_map, List.length_map]
  field_simp
  ring

/-- **C214 (weighted).** Without exclusions, on every positive staircase, for every window and positive tail: when in no period
larger origins have smaller link ratios (the covariance is not negative), `base_cl` with the simple average never gives a
larger factor, ultimate, reserve or total than with the weighted average of the same window, and the same exactly where the
covariance vanishes in all periods that matter; when the covariances are not positive the other way round. -/
theorem C214_weighted (gm : List (Num K) → Num K) (h : Spec.Stair t n c) (hp : Spec.Positive n c) (hn : 3 ≤ n) {k : ℕ}
    (hk : k < n - 1) {tail : K} (ht : 0 < tail) :
    ∃ r r', baseCL gm t t.a2aind0 (Spec.avgName "simple" k) (.fin tail) = .ok r ∧
      baseCL gm t t.a2aind0 (Spec.avgName "weighted" k) (.fin tail) = .ok r' ∧
      ((∀ j < n - 1, 0 ≤ Spec.sizeEffect n k c j) → Spec.NeverAbove n (fun j => Spec.sizeEffect n k c j = 0) r r') ∧
      ((∀ j < n - 1, Spec.sizeEffect n k c j ≤ 0) → Spec.NeverAbove n (fun j => Spec.sizeEffect n k c j = 0) r' r) := by
  have hi := h.indOn0 hp.ne_zero
  have hne : ∀ j < n - 1, wOrigins n k j ≠ [] := by
    intro j hj
    unfold wOrigins
    apply lastN_ne_nil
    rw [Ne, List.range_eq_nil]; omega
  have hrpos : ∀ j, ∀ x ∈ (wOrigins n k j).map (fun i => c i (j + 1) / c i j), 0 < x := by
    intro j x hx
    obtain ⟨i, hi, rfl⟩ := List.mem_map.1 hx
    have := inWindow_of_mem hi
    exact div_pos (hp _ _ (by omega)) (hp _ _ (by omega))
  have hrow1 := rowIs_window gm h hp .simple hk
    (g := fun j => Spec.mean ((wOrigins n k j).map (fun i => c i (j + 1) / c i j))) (fun j hj => by
      rw [entry_simple h hp.ne_zero hi hj, adj_lastN]
      simp only [mul_one]
      rw [filter_pos_eq _ (hrpos j), simpleAvg_fin (by simpa using hne j hj)])
  have hrow2 := rowIs_window gm h hp .weighted hk (g := fun j => Spec.wavg n k c j) (fun j hj => by
      rw [entry_weighted h hj, Num.fin_div _ _ (weighted_sub_simple hp k hj).1.ne']
      rfl)
  obtain ⟨r, lab, a1, -, -, a4, a5⟩ := baseCL_stair h hp.ne_zero hi hn hrow1 tail
  obtain ⟨r', lab', b1, -, -, b4, b5⟩ := baseCL_stair h hp.ne_zero hi hn hrow2 tail
  have hs0 : ∀ j < n - 1, 0 < Spec.mean ((wOrigins n k j).map (fun i => c i (j + 1) / c i j)) := by
    intro j hj
    have hne' : (wOrigins n k j).map (fun i => c i (j + 1) / c i j) ≠ [] := by simpa using hne j hj
    obtain ⟨a, b, h1, h2, -, -⟩ := exists_min_max hne'
    exact (hrpos j a h1).trans_le (le_mean hne' h2)
  have hw0 : ∀ j < n - 1, 0 < Spec.wavg n k c j := by
    intro j hj
    refine div_pos (map_sum_pos (hne j hj) fun i hi => ?_) (weighted_sub_simple hp k hj).1
    have := inWindow_of_mem hi
    exact hp _ _ (by omega)
  refine ⟨r, r', a1, b1, fun hs => ?_, fun hs => ?_⟩
  · refine neverAbove_of_factors hp (by omega) ht hs0 (fun j hj => ?_) a5 b5 (by rw [a4, List.map_snd_zip (by have := h.nc; unfold Tri.nc at this; simp [this]; omega)])
      (by rw [b4, List.map_snd_zip (by have := h.nc; unfold Tri.nc at this; simp [this]; omega)])
    obtain ⟨h1, h2⟩ := weighted_sub_simple hp k hj
    have h3 := hs j hj
    rw [← h2] at h3 ⊢
    refine ⟨sub_nonneg.1 (nonneg_of_mul_nonneg_left h3 h1), ?_⟩
    rw [mul_eq_zero, or_iff_left h1.ne', sub_eq_zero]
    exact eq_comm
  · refine neverAbove_of_factors hp (by omega) ht hw0 (fun j hj => ?_) b5 a5 (by rw [b4, List.map_snd_zip (by have := h.nc; unfold Tri.nc at this; simp [this]; omega)])
      (by rw [a4, List.map_snd_zip (by have := h.nc; unfold Tri.nc at this; simp [this]; omega)])
    obtain ⟨h1, h2⟩ := weighted_sub_simple hp k hj
    have h3 := hs j hj
    rw [← h2] at h3 ⊢
    refine ⟨?_, ?_⟩
    · by_contra hc
      push Not at hc
      have := mul_pos (sub_pos.2 hc) h1
      linarith
    · rw [mul_eq_zero, or_iff_left h1.ne', sub_eq_zero]

end

/-! ## an example -/

/-- Four origins in which larger ones develop less. -/
def exSizeEffect : ℕ → ℕ → ℚ := fun i j =>
  (![![100, 200, 250, 260], ![200, 300, 330, 0], ![400, 700, 0, 0], ![100, 0, 0, 0]] : Fin 4 → Fin 4 → ℚ)
    (Fin.ofNat 4 i) (Fin.ofNat 4 j)

/-- The covariance is negative in the first two periods, and the weighted average gives the smaller factors and the smaller
total reserve. -/
example :
    (List.range 3).map (Spec.sizeEffect 4 0 exSizeEffect) = [-25, -15 / 2, 0] ∧
    (baseCL (fun _ => Num.nan) (stairTri 4 exSizeEffect) (stairTri 4 exSizeEffect).a2aind0 "all-simple" (.fin 1)).toOption.map
      (fun r => (r.ldfs.map Prod.snd, r.totReserve)) =
        some ([.fin (7 / 4), .fin (47 / 40), .fin (26 / 25), .fin 1], .fin (5649 / 20)) ∧
    (baseCL (fun _ => Num.nan) (stairTri 4 exSizeEffect) (stairTri 4 exSizeEffect).a2aind0 "all-weighted" (.fin 1)).toOption.map
      (fun r => (r.ldfs.map Prod.snd, r.totReserve)) =
        some ([.fin (12 / 7), .fin (29 / 25), .fin (26 / 25), .fin 1], .fin (46286 / 175)) := by
  refine ⟨?_, ?_, ?_⟩ <;> decide +kernel

end Trikit
