import Verif.Props.AvgExpected

/-!
# C229: which way a factor of the last years moves after development as expected

`base_cl` (base.py:25-170) with an average of the last `k` years (`a2a_avgs`, triangle.py:777-856) at two
evaluations, the second one period later, every origin having developed with the factors of the first.
-/

set_option linter.unusedSectionVars false

namespace Trikit

section
variable {t t' : Tri ℝ} {n : ℕ} {c c' : ℕ → ℕ → ℝ} {f : ℕ → ℝ} {tail : ℝ}

theorem lastN_range_sum (φ : ℕ → ℝ) {k m : ℕ} (hk : 0 < k) (hm : k ≤ m) :
    ((Spec.lastN k (List.range (m + 1))).map φ).sum =
      ((Spec.lastN k (List.range m)).map φ).sum - φ (m - k) + φ m := by
  have h1 : Spec.lastN k (List.range m) = (m - k) :: (List.range m).drop (m - k + 1) := by
    unfold Spec.lastN
    rw [if_neg (by omega), List.length_range, List.drop_eq_getElem_cons (by rw [List.length_range]; omega),
      List.getElem_range]
  have h2 : Spec.lastN k (List.range (m + 1)) = (List.range m).drop (m - k + 1) ++ [m] := by
    unfold Spec.lastN
    rw [if_neg (by omega), List.length_range, List.range_succ, show m + 1 - k = m - k + 1 by omega,
      List.drop_append_of_le_length (by rw [List.length_range]; omega)]
  rw [h1, h2, List.map_append, List.sum_append, List.map_singleton, List.sum_singleton, List.map_cons, List.sum_cons]
  ring

theorem mem_of_lastN {α : Type} {k : ℕ} {l : List α} {x : α} (hx : x ∈ Spec.lastN k l) : x ∈ l := by
  unfold Spec.lastN at hx
  split at hx
  · exact hx
  · exact List.mem_of_mem_drop hx

/-- The oldest link ratio of period `j` among the last `k`. -/
noncomputable def Spec.leaving (n k : ℕ) (c : ℕ → ℕ → ℝ) (j : ℕ) : ℝ :=
  c (n - 1 - j - k) (j + 1) / c (n - 1 - j - k) j

/-- How a factor of `k` years moves: not while fewer than `k` link ratios are there, otherwise away from the one that leaves. -/
def Spec.AwayFrom (n k : ℕ) (c : ℕ → ℕ → ℝ) (f g : ℕ → ℝ) (j : ℕ) : Prop :=
  (n - 1 - j < k → g j = f j) ∧
    (k ≤ n - 1 - j → (g j < f j ↔ f j < Spec.leaving n k c j) ∧ (f j < g j ↔ Spec.leaving n k c j < f j))

theorem awayFrom_of_div {k j : ℕ} {g : ℕ → ℝ} (hs : n - 1 - j < k → g j = f j)
    (hl : k ≤ n - 1 - j → ∃ a : ℝ, 0 < a ∧ g j = f j + (f j - Spec.leaving n k c j) * a) :
    Spec.AwayFrom n k c f g j := by
  refine ⟨hs, fun h => ?_⟩
  obtain ⟨a, ha, e⟩ := hl h
  rw [e]
  constructor
  · rw [add_lt_iff_neg_left, ← neg_pos, ← neg_mul, mul_pos_iff_of_pos_right ha, neg_sub, sub_pos]
  · rw [lt_add_iff_pos_right, mul_pos_iff_of_pos_right ha, sub_pos]

theorem wavg_next (hp : Spec.Positive n c) (hp' : Spec.Positive (n + 1) c') (he : Spec.AsExpected n c c' f tail) {k j : ℕ}
    (hk : 0 < k) (hj : j < n - 1) (hf : f j = Spec.wavg n k c j) :
    (n - 1 - j < k → Spec.wavg (n + 1) k c' j = f j) ∧
      (k ≤ n - 1 - j → ∃ a : ℝ, 0 < a ∧
        Spec.wavg (n + 1) k c' j = f j + (f j - Spec.leaving n k c j) * a) := by
  obtain ⟨m, hm⟩ : ∃ m, m = n - 1 - j := ⟨_, rfl⟩
  have hnext := he.next m (by omega) (by omega)
  rw [show n - m = j + 1 by omega, show n - 1 - m = j by omega] at hnext
  have hA := wavg_den_pos hp k hj
  have hA' := wavg_den_pos hp' k (show j < n + 1 - 1 by omega)
  have hsame : ∀ (q : ℕ), q ≤ j + 1 → ((Spec.lastN k (List.range m)).map (fun i => c' i q)).sum =
      ((Spec.lastN k (List.range m)).map (fun i => c i q)).sum := fun q hq => by
    congr 1
    refine List.map_congr_left fun i hi => ?_
    have : i ∈ List.range m := by
      unfold Spec.lastN at hi
      split at hi
      · exact hi
      · exact List.mem_of_mem_drop hi
    rw [List.mem_range] at this
    exact he.same _ _ (by omega)
  have hcm : c' m j = c m j := he.same _ _ (by omega)
  have hB : ((Spec.lastN k (List.range m)).map (fun i => c i (j + 1))).sum =
      f j * ((Spec.lastN k (List.range m)).map (fun i => c i j)).sum := by
    rw [hf]; unfold Spec.wavg; rw [← hm] at hA ⊢; rw [div_mul_cancel₀ _ hA.ne']
  unfold Spec.wavg
  rw [show n + 1 - 1 - j = m + 1 by omega] at hA' ⊢
  constructor
  · intro hs
    have hl : ∀ φ : ℕ → ℝ, ((Spec.lastN k (List.range (m + 1))).map φ).sum =
        ((Spec.lastN k (List.range m)).map φ).sum + φ m := fun φ => by
      rw [List.range_succ, lastN_snoc_short (by rw [List.length_range]; omega), List.map_append, List.sum_append,
        List.map_singleton, List.sum_singleton]
    rw [div_eq_iff hA'.ne', hl, hl, hsame _ le_rfl, hsame _ (by omega), hB, hnext, hcm]
    ring
  · intro hs
    have ho := hp (m - k) j (by omega)
    refine ⟨c (m - k) j / ((Spec.lastN k (List.range (m + 1))).map (fun i => c' i j)).sum, div_pos ho hA', ?_⟩
    have ho1 : c' (m - k) (j + 1) = c (m - k) (j + 1) := he.same _ _ (by omega)
    have ho0 : c' (m - k) j = c (m - k) j := he.same _ _ (by omega)
    unfold Spec.leaving
    rw [← hm, div_eq_iff hA'.ne', add_mul, mul_assoc, div_mul_cancel₀ _ hA'.ne', sub_mul, div_mul_cancel₀ _ ho.ne',
      lastN_range_sum _ hk (by omega), lastN_range_sum _ hk (by omega), hsame _ le_rfl, hsame _ (by omega), hB, hnext, hcm,
      ho1, ho0]
    ring

/-- **C229.** For every positive staircase of at least three origins, the simple, geometric and weighted average of the
last `k` years, every positive tail factor: when every origin develops with the factors of the last estimate, at the next evaluation a
factor with fewer than `k` link ratios is unchanged, any other one rises exactly when the link ratio that leaves the window
was below the factor and falls exactly when it was above; so no ultimate falls when no leaving ratio was above its factor, and
none rises when none was below. -/
theorem C229_window (h : Spec.Stair t n c) (hp : Spec.Positive n c) (h' : Spec.Stair t' (n + 1) c') (hn : 3 ≤ n)
    {kind : AvgKind} (hkind : kind ≠ .medial) {k : ℕ} (hk : 0 < k) (hkn : k < n - 1) (htail : 0 < tail)
    {r : BaseResult ℝ} (hr : baseCL gmean t t.a2aind0 (Spec.avgName kind.name k) (.fin tail) = .ok r)
    (hf : r.ldfs.map Prod.snd = (List.range n).map (fun j => .fin (f j))) (he : Spec.AsExpected n c c' f tail) :
    ∃ (r' : BaseResult ℝ) (g U U' : ℕ → ℝ), baseCL gmean t' t'.a2aind0 (Spec.avgName kind.name k) 1 = .ok r' ∧
      r'.ldfs.map Prod.snd = (List.range n).map (fun j => .fin (g j)) ++ [.fin 1] ∧ g (n - 1) = tail ∧
      (∀ j < n - 1, Spec.AwayFrom n k c f g j) ∧
      (∀ i < n, ∃ row row', r.rows[i]? = some row ∧ r'.rows[i]? = some row' ∧ row.ultimate = .fin (U i) ∧
        row'.ultimate = .fin (U' i)) ∧
      ((∀ j, j + k < n → Spec.leaving n k c j ≤ f j) → ∀ i < n, U i ≤ U' i) ∧
      ((∀ j, j + k < n → f j ≤ Spec.leaving n k c j) → ∀ i < n, U' i ≤ U i) := by
  obtain ⟨e1, e2, e3⟩ := baseCL_entries h hp (h.indOn0 hp.ne_zero) hn kind hkn hr hf
  have hfp : ∀ j < n - 1, 0 < f j := fun j hj => entry_pos h hp kind hj (e2 j hj)
  have hp' := he.pos (by omega) hp hfp htail
  obtain ⟨g, hg, hgl, hmv⟩ : ∃ g : ℕ → ℝ, (∀ j < n, avgEntry gmean t' t'.a2aind0 kind k j = .ok (.fin (g j))) ∧
      g (n - 1) = tail ∧ ∀ j < n - 1, Spec.AwayFrom n k c f g j := by
    have hlast : (Spec.lastN k (List.range 1)) = [0] := lastN_of_length_le (by rw [List.length_range]; omega)
    cases kind with
    | medial => exact absurd rfl hkind
    | simple =>
      refine ⟨fun j => Spec.mean (Spec.lastN k (Spec.ratios (n + 1) c' j)), fun j hj => ?_, ?_, fun j hj => ?_⟩
      · rw [entry_simple h' hp'.ne_zero (h'.indOn0 hp'.ne_zero) (by omega), window_noexcl hp',
          simpleAvg_fin (lastN_ne_nil k (ratios_ne_nil (by omega)))]
      · beta_reduce
        rw [ratios_last hp (by omega) he, lastN_of_length_le (by rw [List.length_singleton]; omega)]
        simp [Spec.mean]
      · have e := e2 j hj
        have hne := ratios_ne_nil (c := c) hj
        have hlen : (Spec.ratios n c j).length = n - 1 - j := by simp [Spec.ratios]
        rw [entry_simple h hp.ne_zero (h.indOn0 hp.ne_zero) hj, window_noexcl hp, simpleAvg_fin (lastN_ne_nil k hne)] at e
        have e := Num.fin.inj (Except.ok.inj e)
        refine awayFrom_of_div (fun hs => ?_) fun hs => ⟨1 / k, by positivity, ?_⟩
        · rw [ratios_next hp he hj, lastN_snoc_short (by omega), mean_snoc' (lastN_ne_nil k hne) e]
        · rw [ratios_next hp he hj, mean_lastN_snoc hk (by omega), e, mul_one_div]
          congr 3
          simp only [Spec.leaving, Spec.ratios, List.getElem_map, List.getElem_range, List.length_map, List.length_range]
    | geometric =>
      have hwp : ∀ j, ∀ x ∈ Spec.lastN k (Spec.ratios n c j), 0 < x := fun j x hx => ratios_pos hp j x (mem_of_lastN hx)
      have hwp' : ∀ j, ∀ x ∈ Spec.lastN k (Spec.ratios (n + 1) c' j), 0 < x := fun j x hx =>
        ratios_pos hp' j x (mem_of_lastN hx)
      refine ⟨fun j => Real.exp (Spec.mean ((Spec.lastN k (Spec.ratios (n + 1) c' j)).map Real.log)), fun j hj => ?_, ?_,
        fun j hj => ?_⟩
      · have hne := lastN_ne_nil k (ratios_ne_nil (n := n + 1) (c := c') (j := j) (by omega))
        rw [entry_geometric h' hp'.ne_zero (h'.indOn0 hp'.ne_zero) (by omega), window_noexcl hp']
        unfold geometricAvg
        rw [if_neg (by simpa using hne), gmean_fin (hwp' j) hne]
      · beta_reduce
        rw [ratios_last hp (by omega) he, lastN_of_length_le (by rw [List.length_singleton]; omega)]
        simp [Spec.mean, Real.exp_log htail]
      · have e := e2 j hj
        have hne := ratios_ne_nil (c := c) hj
        have hne2 := lastN_ne_nil k hne
        have hlen : (Spec.ratios n c j).length = n - 1 - j := by simp [Spec.ratios]
        rw [entry_geometric h hp.ne_zero (h.indOn0 hp.ne_zero) hj, window_noexcl hp] at e
        unfold geometricAvg at e
        rw [if_neg (by simpa using hne2), gmean_fin (hwp j) hne2] at e
        have e := Num.fin.inj (Except.ok.inj e)
        have el : Spec.mean ((Spec.lastN k (Spec.ratios n c j)).map Real.log) = Real.log (f j) := by rw [← e, Real.log_exp]
        have hfj := hfp j hj
        refine ⟨fun hs => ?_, fun hs => ?_⟩
        · beta_reduce
          rw [ratios_next hp he hj, lastN_snoc_short (by omega), List.map_append, List.map_singleton,
            mean_snoc' (by simpa using hne2) el, Real.exp_log hfj]
        · have hρ : 0 < Spec.leaving n k c j := div_pos (hp _ _ (by omega)) (hp _ _ (by omega))
          have hk0 : (0 : ℝ) < 1 / k := by positivity
          have key : Spec.mean ((Spec.lastN k (Spec.ratios (n + 1) c' j)).map Real.log) =
              Real.log (f j) + (Real.log (f j) - Real.log (Spec.leaving n k c j)) * (1 / k) := by
            rw [ratios_next hp he hj, ← lastN_map, List.map_append, List.map_singleton,
              mean_lastN_snoc hk (by rw [List.length_map]; omega), lastN_map, el, mul_one_div]
            congr 3
            simp only [Spec.leaving, Spec.ratios, List.getElem_map, List.getElem_range, List.length_map, List.length_range]
          beta_reduce
          rw [key]
          constructor
          · rw [← Real.lt_log_iff_exp_lt hfj, add_lt_iff_neg_left, ← neg_pos, ← neg_mul, mul_pos_iff_of_pos_right hk0,
              neg_sub, sub_pos, Real.log_lt_log_iff hfj hρ]
          · rw [← Real.log_lt_iff_lt_exp hfj, lt_add_iff_pos_right, mul_pos_iff_of_pos_right hk0, sub_pos,
              Real.log_lt_log_iff hρ hfj]
    | weighted =>
      refine ⟨Spec.wavg (n + 1) k c', fun j hj => entry_wavg gmean h' hp' k (by omega), ?_, fun j hj => ?_⟩
      · unfold Spec.wavg
        rw [show n + 1 - 1 - (n - 1) = 1 by omega, hlast, show n - 1 + 1 = n by omega]
        simp only [List.map_singleton, List.sum_singleton]
        rw [he.oldest, he.same _ _ (by omega), mul_div_cancel_left₀ _ (hp _ _ (by omega)).ne']
      · have e := e2 j hj
        rw [entry_wavg gmean h hp k hj] at e
        obtain ⟨a1, a2⟩ := wavg_next hp hp' he hk hj (Num.fin.inj (Except.ok.inj e)).symm
        exact awayFrom_of_div a1 a2
  have hrow := rowIs_window gmean h' hp' kind (k := k) (g := g) (by omega) fun j hj => hg j (by omega)
  obtain ⟨r1, a1, _, a3, _⟩ := base_sel gmean h hp hn e3 tail
  obtain rfl : r1 = r := Except.ok.inj (a1.symm.trans hr)
  obtain ⟨r', b1, b2, b3, _⟩ := base_sel gmean h' hp' (by omega) hrow 1
  have hgp : ∀ j < n, 0 < g j := fun j hj => entry_pos h' hp' kind (by omega) (hg j hj)
  -- the old ultimates seen from the next evaluation
  have hold : ∀ i < n, Spec.ult n c f i * tail = Spec.ult (n + 1) c' f i := fun i hi =>
    (ult_next he (fun _ _ => rfl) e1 hi).symm
  have hfp' : ∀ j < n, 0 < f j := fun j hj => by
    by_cases hj1 : j < n - 1
    · exact hfp j hj1
    · obtain rfl : j = n - 1 := by omega
      rw [e1]; exact htail
  have hmono : ∀ (x y : ℕ → ℝ), (∀ j < n, 0 < x j) → (∀ j < n, x j ≤ y j) → ∀ i < n,
      Spec.ult (n + 1) c' x i ≤ Spec.ult (n + 1) c' y i := fun x y hx hxy i hi => by
    unfold Spec.ult Spec.proj
    refine mul_le_mul_of_nonneg_left (Finset.prod_le_prod (fun j hj => (hx j ?_).le) fun j hj => hxy j ?_)
      (hp' _ _ (by omega)).le <;> · have := (Finset.mem_Ico.1 hj).2; omega
  refine ⟨r', g, fun i => Spec.ult n c f i * tail, fun i => Spec.ult (n + 1) c' g i, b1, b2, hgl, hmv, fun i hin => ?_,
    fun hle i hin => ?_, fun hge i hin => ?_⟩
  · obtain ⟨row, x1, _, x2, _⟩ := a3 i hin
    obtain ⟨row', y1, _, y2, _⟩ := b3 i (by omega)
    exact ⟨row, row', x1, y1, x2, by rw [y2, mul_one]⟩
  · beta_reduce
    rw [hold i hin]
    refine hmono f g hfp' (fun j hj => ?_) i hin
    by_cases hj1 : j < n - 1
    · by_cases hs : n - 1 - j < k
      · exact ((hmv j hj1).1 hs).ge
      · exact not_lt.1 fun hlt => (hle j (by omega)).not_gt (((hmv j hj1).2 (by omega)).1.1 hlt)
    · obtain rfl : j = n - 1 := by omega
      rw [e1, hgl]
  · beta_reduce
    rw [hold i hin]
    refine hmono g f hgp (fun j hj => ?_) i hin
    by_cases hj1 : j < n - 1
    · by_cases hs : n - 1 - j < k
      · exact ((hmv j hj1).1 hs).le
      · exact not_lt.1 fun hlt => (hge j (by omega)).not_gt (((hmv j hj1).2 (by omega)).2.1 hlt)
    · obtain rfl : j = n - 1 := by omega
      rw [e1, hgl]

end

/-- A concrete case: the triangle of `C225_window_fails` with `weighted-2`; the ratio 2 leaves the second period, whose factor
3/2 falls to 5/4. -/
example : [stairTri 4 exNextYear, stairTri 5 exNextYear].map (fun t =>
    ((baseCL (fun _ => .nan) t t.a2aind0 "weighted-2" 1).toOption.map (fun r => r.ldfs.map Prod.snd))) =
    [some [.fin 1, .fin (3 / 2), .fin 1, .fin 1], some [.fin 1, .fin (5 / 4), .fin 1, .fin 1, .fin 1]] := by decide +kernel

end Trikit
