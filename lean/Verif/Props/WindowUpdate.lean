import Verif.Props.MedialExpected
import Verif.Props.AboveExpected

/-!
# C233: how a factor of the last years moves with any new diagonal

`base_cl` (base.py:25-170) with an average of the last `k` years (`a2a_avgs`, triangle.py:777-856) at two evaluations, the
second one period later.
-/

set_option linter.unusedSectionVars false

namespace Trikit

section
variable {t t' : Tri ℝ} {n : ℕ} {c c' : ℕ → ℕ → ℝ}

/-- The link ratio that joins period `j` with the new diagonal. -/
noncomputable def Spec.joining (n : ℕ) (c' : ℕ → ℕ → ℝ) (j : ℕ) : ℝ := c' (n - 1 - j) (j + 1) / c' (n - 1 - j) j

/-- How the factor of period `j` goes from `f` to `f'` when a full window of `k` years moves on: the simple average by a `k`-th
of the difference of the joining and the leaving ratio, the geometric by the `k`-th root of their quotient, the weighted by the
distances of both from the factor, each with its amount, over the amounts of the new window. -/
def Spec.WindowStep (n k : ℕ) (c c' : ℕ → ℕ → ℝ) (j : ℕ) (f f' : ℝ) : AvgKind → Prop
  | .simple => f' = f + (Spec.joining n c' j - Spec.leaving n k c j) / k
  | .geometric => f' ^ k * Spec.leaving n k c j = f ^ k * Spec.joining n c' j
  | .weighted => (f' - f) * ∑ i ∈ Finset.Ico (n - j - k) (n - j), c' i j =
      c' (n - 1 - j) j * (Spec.joining n c' j - f) - c (n - 1 - j - k) j * (Spec.leaving n k c j - f)
  | .medial => True

theorem exp_mean_pow {l : List ℝ} (hl : l ≠ []) (hp : ∀ x ∈ l, 0 < x) :
    Real.exp (Spec.mean (l.map Real.log)) ^ l.length = l.prod := by
  have hpos : (0 : ℝ) < l.length := by exact_mod_cast List.length_pos_of_ne_nil hl
  have hs : Real.exp (l.map Real.log).sum = l.prod := by
    clear hl hpos
    induction l with
    | nil => simp
    | cons a l ih =>
      rw [List.map_cons, List.sum_cons, Real.exp_add, Real.exp_log (hp a (by simp)), ih (fun x hx => hp x (by simp [hx])),
        List.prod_cons]
  rw [← Real.exp_nat_mul, ← hs]
  unfold Spec.mean
  rw [List.length_map, mul_div_cancel₀ _ hpos.ne']

theorem lastN_shift {l : List ℝ} {x : ℝ} {k : ℕ} (hk : 0 < k) (h : k ≤ l.length) :
    ∃ m : List ℝ, Spec.lastN k l = l[l.length - k]'(by omega) :: m ∧ Spec.lastN k (l ++ [x]) = m ++ [x] := by
  refine ⟨l.drop (l.length - k + 1), ?_, ?_⟩
  · unfold Spec.lastN
    rw [if_neg (by omega), List.drop_eq_getElem_cons (by omega)]
  · unfold Spec.lastN
    rw [if_neg (by omega), List.length_append, List.length_singleton,
      show l.length + 1 - k = l.length - k + 1 by omega, List.drop_append_of_le_length (by omega)]

/-- **C233.** `base_cl` with the simple, geometric or weighted average of the last `k` years on any two positive staircases one
period apart: a factor with at least `k` link ratios moves as `Spec.WindowStep` says; so a simple or geometric one rises exactly
when the joining ratio exceeds the leaving one, whatever the others are. -/
theorem C233_window (h : Spec.Stair t n c) (hp : Spec.Positive n c) (h' : Spec.Stair t' (n + 1) c')
    (hy : Spec.NextYear n c c') (hn : 3 ≤ n) {kind : AvgKind} (hkind : kind ≠ .medial) {k : ℕ} (hk : 0 < k) (hkn : k < n - 1)
    {tail tail' : Num ℝ} {r r' : BaseResult ℝ} (hr : baseCL gmean t t.a2aind0 (Spec.avgName kind.name k) tail = .ok r)
    (hr' : baseCL gmean t' t'.a2aind0 (Spec.avgName kind.name k) tail' = .ok r') {j : ℕ} (hj : j + k < n) :
    ∃ f f' : ℝ, r.ldfs.iloc j = .fin f ∧ r'.ldfs.iloc j = .fin f' ∧ Spec.WindowStep n k c c' j f f' kind ∧
      (kind ≠ .weighted → (f < f' ↔ Spec.leaving n k c j < Spec.joining n c' j) ∧
        (f' < f ↔ Spec.joining n c' j < Spec.leaving n k c j)) := by
  have hp' := hy.positive hp
  have hj1 : j < n - 1 := by omega
  have e := baseCL_iloc h hp hn kind hkn hr hj1
  have e' := baseCL_iloc h' hp' (by omega) kind (by omega) hr' (show j < n + 1 - 1 by omega)
  have hi := h.indOn0 hp.ne_zero
  have hi' := h'.indOn0 hp'.ne_zero
  have hne := ratios_ne_nil (c := c) hj1
  have hlen : (Spec.ratios n c j).length = n - 1 - j := by simp [Spec.ratios]
  have hyr := ratios_year hy (show j < n by omega)
  have hjo : c' (n - 1 - j) (j + 1) / c (n - 1 - j) j = Spec.joining n c' j := by
    unfold Spec.joining; rw [hy.same (n - 1 - j) j (by omega)]
  rw [hjo] at hyr
  have hin : 0 < Spec.joining n c' j := div_pos (hp' _ _ (by omega)) (hp' _ _ (by omega))
  have hout : 0 < Spec.leaving n k c j := div_pos (hp _ _ (by omega)) (hp _ _ (by omega))
  have hk0 : (0 : ℝ) < k := by exact_mod_cast hk
  obtain ⟨m, w1, w2⟩ := lastN_shift (l := Spec.ratios n c j) (x := Spec.joining n c' j) hk (by omega)
  have hfirst : (Spec.ratios n c j)[(Spec.ratios n c j).length - k]'(by omega) = Spec.leaving n k c j := by
    simp only [Spec.leaving, Spec.ratios, List.getElem_map, List.getElem_range, List.length_map, List.length_range]
  rw [hfirst] at w1
  have hmk : m.length + 1 = k := by
    have := lastN_length hk.ne' (Spec.ratios n c j)
    rw [w1, hlen, min_eq_left (by omega), List.length_cons] at this
    exact this
  have hmp : ∀ x ∈ m, 0 < x := fun x hx => ratios_pos hp j x (mem_of_lastN (k := k) (by rw [w1]; simp [hx]))
  cases kind with
  | medial => exact absurd rfl hkind
  | simple =>
    rw [entry_simple h hp.ne_zero hi hj1, window_noexcl hp, w1, simpleAvg_fin (by simp)] at e
    rw [entry_simple h' hp'.ne_zero hi' (by omega), window_noexcl hp', hyr, w2, simpleAvg_fin (by simp)] at e'
    have step : Spec.mean (m ++ [Spec.joining n c' j]) = Spec.mean (Spec.leaving n k c j :: m) +
        (Spec.joining n c' j - Spec.leaving n k c j) / k := by
      unfold Spec.mean
      rw [List.sum_append, List.sum_singleton, List.sum_cons, List.length_append, List.length_singleton, List.length_cons, hmk]
      field_simp
      ring
    refine ⟨_, _, (Except.ok.inj e).symm, (Except.ok.inj e').symm, step, fun _ => ?_⟩
    rw [step]
    constructor
    · rw [lt_add_iff_pos_right, div_pos_iff_of_pos_right hk0, sub_pos]
    · rw [add_lt_iff_neg_left, ← neg_pos, ← neg_div, div_pos_iff_of_pos_right hk0, neg_sub, sub_pos]
  | geometric =>
    have p1 : ∀ x ∈ Spec.leaving n k c j :: m, 0 < x := fun x hx => by
      rcases List.mem_cons.1 hx with rfl | hx
      · exact hout
      · exact hmp x hx
    have p2 : ∀ x ∈ m ++ [Spec.joining n c' j], 0 < x := fun x hx => by
      rcases List.mem_append.1 hx with hx | hx
      · exact hmp x hx
      · rw [List.mem_singleton.1 hx]; exact hin
    rw [entry_geometric h hp.ne_zero hi hj1, window_noexcl hp, w1] at e
    rw [entry_geometric h' hp'.ne_zero hi' (by omega), window_noexcl hp', hyr, w2] at e'
    unfold geometricAvg at e e'
    rw [if_neg (by simp), gmean_fin p1 (by simp)] at e
    rw [if_neg (by simp), gmean_fin p2 (by simp)] at e'
    have q1 := exp_mean_pow (by simp) p1
    have q2 := exp_mean_pow (by simp) p2
    rw [List.length_cons, hmk, List.prod_cons] at q1
    rw [List.length_append, List.length_singleton, hmk, List.prod_append, List.prod_singleton] at q2
    set F := Real.exp (Spec.mean ((Spec.leaving n k c j :: m).map Real.log)) with hF
    set G := Real.exp (Spec.mean ((m ++ [Spec.joining n c' j]).map Real.log)) with hG
    have F0 : 0 < F := Real.exp_pos _
    have G0 : 0 < G := Real.exp_pos _
    have step : G ^ k * Spec.leaving n k c j = F ^ k * Spec.joining n c' j := by rw [q1, q2]; ring
    have mono : ∀ a b : ℝ, 0 < a → 0 < b → (a < b ↔ a ^ k < b ^ k) := fun a b ha hb =>
      (pow_lt_pow_iff_left₀ ha.le hb.le hk.ne').symm
    refine ⟨F, G, (Except.ok.inj e).symm, (Except.ok.inj e').symm, step, fun _ => ?_⟩
    have hm0 : 0 < m.prod := List.prod_pos hmp
    rw [mono F G F0 G0, mono G F G0 F0, q1, q2]
    constructor
    · rw [mul_comm, mul_lt_mul_iff_right₀ hm0]
    · rw [mul_comm, mul_comm (Spec.leaving n k c j), mul_comm (Spec.joining n c' j), mul_lt_mul_iff_right₀ hm0]
  | weighted =>
    rw [entry_wavg gmean h hp k hj1] at e
    rw [entry_wavg gmean h' hp' k (by omega)] at e'
    refine ⟨_, _, (Except.ok.inj e).symm, (Except.ok.inj e').symm, ?_, fun hne => absurd rfl hne⟩
    have hA := wavg_den_pos hp k hj1
    have hA' := wavg_den_pos hp' k (show j < n + 1 - 1 by omega)
    obtain ⟨o, ho⟩ : ∃ o, o = n - 1 - j := ⟨_, rfl⟩
    have hsame : ∀ (q : ℕ), q ≤ j + 1 → ((Spec.lastN k (List.range o)).map (fun i => c' i q)).sum =
        ((Spec.lastN k (List.range o)).map (fun i => c i q)).sum := fun q hq => by
      congr 1
      refine List.map_congr_left fun i hi => ?_
      have := List.mem_range.1 (mem_of_lastN hi)
      exact hy.same _ _ (by omega)
    have hB : ((Spec.lastN k (List.range o)).map (fun i => c i (j + 1))).sum =
        Spec.wavg n k c j * ((Spec.lastN k (List.range o)).map (fun i => c i j)).sum := by
      unfold Spec.wavg; rw [← ho] at hA ⊢; rw [div_mul_cancel₀ _ hA.ne']
    have hB' : ((Spec.lastN k (List.range (o + 1))).map (fun i => c' i (j + 1))).sum =
        Spec.wavg (n + 1) k c' j * ((Spec.lastN k (List.range (o + 1))).map (fun i => c' i j)).sum := by
      unfold Spec.wavg
      rw [show n + 1 - 1 - j = o + 1 by omega] at hA' ⊢
      rw [div_mul_cancel₀ _ hA'.ne']
    have hV : ∑ i ∈ Finset.Ico (n - j - k) (n - j), c' i j =
        ((Spec.lastN k (List.range (o + 1))).map (fun i => c' i j)).sum := by
      unfold Spec.lastN
      rw [if_neg (by omega), List.length_range, Finset.sum_Ico_eq_sum_range, show n - j - k = o + 1 - k by omega,
        show n - j - (o + 1 - k) = k by omega, ← list_sum_map_range]
      congr 1
      refine List.ext_getElem (by simp; omega) fun a _ _ => ?_
      simp
    unfold Spec.WindowStep
    rw [hV, sub_mul, ← hB', lastN_range_sum _ hk (by omega), lastN_range_sum _ hk (by omega), hsame _ le_rfl,
      hsame _ (by omega), hB]
    unfold Spec.joining Spec.leaving
    rw [← ho, mul_sub, mul_sub, mul_div_cancel₀ _ (hp' _ _ (by omega)).ne', mul_div_cancel₀ _ (hp _ _ (by omega)).ne',
      hy.same (o - k) _ (by omega), hy.same (o - k) _ (by omega)]
    ring

/-- A list with three different elements has a medial average. -/
theorem medial_exists {l : List ℝ} {a b d : ℝ} (ha : a ∈ l) (hb : b ∈ l) (hd : d ∈ l) (h1 : a < b) (h2 : b < d) :
    ∃ x, medialAvg (l.map Num.fin) = .ok (.fin x) := by
  obtain ⟨lo, hi, g1, g2, g3, g4⟩ := exists_min_max (List.ne_nil_of_mem ha)
  rw [medialAvg_spec g1 g2 g3 g4]
  have hlo : lo < b := (g2 a ha).trans_lt h1
  have hhi : b < hi := h2.trans_le (g4 d hd)
  rw [if_neg (hlo.trans hhi).ne]
  split
  · exact ⟨_, rfl⟩
  · have : b ∈ l.filter (fun x => decide (x ≠ lo ∧ x ≠ hi)) :=
      List.mem_filter.2 ⟨hb, by simpa using ⟨hlo.ne', hhi.ne⟩⟩
    rw [if_neg (List.ne_nil_of_mem this)]
    exact ⟨_, rfl⟩

/-- Three different numbers in order. -/
theorem three_sorted {x y z : ℝ} (h1 : x ≠ y) (h2 : x ≠ z) (h3 : y ≠ z) {P : ℝ → Prop} (px : P x) (py : P y) (pz : P z) :
    ∃ a b d, P a ∧ P b ∧ P d ∧ a < b ∧ b < d := by
  rcases lt_or_gt_of_ne h1 with a | a <;> rcases lt_or_gt_of_ne h2 with b | b <;> rcases lt_or_gt_of_ne h3 with d | d
  · exact ⟨x, y, z, px, py, pz, a, d⟩
  · exact ⟨x, z, y, px, pz, py, b, d⟩
  · exact absurd (a.trans (d.trans b)) (lt_irrefl _)
  · exact ⟨z, x, y, pz, px, py, b, a⟩
  · exact ⟨y, x, z, py, px, pz, a, b⟩
  · exact absurd (a.trans (b.trans d)) (lt_irrefl _)
  · exact ⟨y, z, x, py, pz, px, d, b⟩
  · exact ⟨z, y, x, pz, py, px, d, a⟩

/-- **C230, longer windows.** `base_cl` with the medial average of the last `k ≥ 4` years: when the last three link ratios of a
period differ, its factor at the next evaluation is a number, whatever the new diagonal. -/
theorem C230_longer (hp : Spec.Positive n c) (h' : Spec.Stair t' (n + 1) c')
    (hy : Spec.NextYear n c c') {k : ℕ} (hk : 4 ≤ k) (hkn : k < n) {tail' : Num ℝ} {r' : BaseResult ℝ}
    (hr' : baseCL gmean t' t'.a2aind0 (Spec.avgName "medial" k) tail' = .ok r') {m j : ℕ} (hm : m + 3 + j + 1 = n)
    (h01 : Spec.stepRatio c m j ≠ Spec.stepRatio c (m + 1) j) (h02 : Spec.stepRatio c m j ≠ Spec.stepRatio c (m + 2) j)
    (h12 : Spec.stepRatio c (m + 1) j ≠ Spec.stepRatio c (m + 2) j) : ∃ x, r'.ldfs.iloc j = .fin x := by
  have hp' := hy.positive hp
  have e' := baseCL_iloc h' hp' (by omega) .medial (by omega) hr' (show j < n + 1 - 1 by omega)
  rw [entry_medial h' hp'.ne_zero (h'.indOn0 hp'.ne_zero) (by omega), window_noexcl hp',
    ratios_year hy (by omega)] at e'
  have hw : Spec.ratios n c j = (List.range m).map (fun i => c i (j + 1) / c i j) ++
      [Spec.stepRatio c m j, Spec.stepRatio c (m + 1) j, Spec.stepRatio c (m + 2) j] := by
    unfold Spec.ratios
    rw [show n - 1 - j = m + 1 + 1 + 1 by omega, List.range_succ, List.range_succ, List.range_succ]
    simp [Spec.stepRatio]
  rw [hw] at e'
  set y := c' (n - 1 - j) (j + 1) / c (n - 1 - j) j
  have hin : ∀ x ∈ [Spec.stepRatio c m j, Spec.stepRatio c (m + 1) j, Spec.stepRatio c (m + 2) j],
      x ∈ Spec.lastN k ((List.range m).map (fun i => c i (j + 1) / c i j) ++
        [Spec.stepRatio c m j, Spec.stepRatio c (m + 1) j, Spec.stepRatio c (m + 2) j] ++ [y]) := fun x hx => by
    unfold Spec.lastN
    rw [if_neg (by omega), List.append_assoc, List.drop_append_of_le_length (by simp; omega)]
    exact List.mem_append_right _ (List.mem_append_left _ hx)
  obtain ⟨a, b, d, pa, pb, pd, hab, hbd⟩ := three_sorted h01 h02 h12 (hin _ (by simp)) (hin _ (by simp)) (hin _ (by simp))
  obtain ⟨x, hx⟩ := medial_exists pa pb pd hab hbd
  rw [hx] at e'
  exact ⟨x, (Except.ok.inj e').symm⟩

end

/-- A concrete case: in the triangle of `C225_window_fails` the ratio 3/2 joins and 2 leaves the second period; `simple-2`
falls by half of 1/2. -/
example : [stairTri 4 exNextYear, stairTri 5 exNextYear].map (fun t =>
    ((baseCL (fun _ => .nan) t t.a2aind0 "simple-2" 1).toOption.map (fun r => r.ldfs.iloc 1))) =
    [some (.fin (3 / 2)), some (.fin (3 / 2 + (3 / 2 - 2) / 2))] := by decide +kernel

/-- A concrete case of `C230_longer`: a triangle that loses its factor with `medial-3` keeps one with `medial-4`. -/
example : ["medial-3", "medial-4"].map (fun sel =>
    ((baseCL (fun _ => .nan) (stairTri 7 (fun i j => if i = 5 ∧ 1 ≤ j then 200 else exMedial i j))
      (stairTri 7 (fun i j => if i = 5 ∧ 1 ≤ j then 200 else exMedial i j)).a2aind0 sel 1).toOption.map
        (fun r => r.ldfs.iloc 0))) = [some .nan, some (.fin 2)] := by decide +kernel

end Trikit
