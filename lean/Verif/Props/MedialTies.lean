import Verif.Props.MedialUpdate

/-!
# C238 with equal link ratios

`_medial` (triangle.py:523-574) drops every ratio equal to the smallest or the largest, so a new extreme brings back all copies of
the old one.
-/

set_option linter.unusedSectionVars false

namespace Trikit

section
variable {K : Type} [Field K] [LinearOrder K] [IsStrictOrderedRing K]

/-- What counts anew when `x` joins numbers `L` from `lo` to `hi`: how often, and which number.  Beyond an end, all copies of that
end; at an end, nothing; between the ends, `x` itself. -/
def Spec.tieShare (L : List K) (lo hi x : K) : ℕ × K :=
  if x < lo then (L.count lo, lo) else if hi < x then (L.count hi, hi) else if x = lo ∨ x = hi then (0, x) else (1, x)

/-- Numbers of `l` with `p` are those with `p` other than `a`, and the copies of `a`. -/
theorem filter_copies (p : K → Bool) {a : K} (ha : p a = true) : ∀ l : List K,
    (l.filter p).sum = (l.filter (fun y => decide (y ≠ a) && p y)).sum + l.count a * a ∧
      (l.filter p).length = (l.filter (fun y => decide (y ≠ a) && p y)).length + l.count a
  | [] => by simp
  | y :: l => by
    obtain ⟨h1, h2⟩ := filter_copies p ha l
    by_cases e : y = a
    · subst e
      rw [List.filter_cons_of_pos ha, List.filter_cons_of_neg (by simp), List.count_cons_self, List.sum_cons, List.length_cons,
        h1, h2]
      exact ⟨by push_cast; ring, by omega⟩
    · rw [List.count_cons_of_ne (by simpa using e)]
      by_cases hy : p y = true
      · rw [List.filter_cons_of_pos hy, List.filter_cons_of_pos (by simp [e, hy]), List.sum_cons, List.sum_cons,
          List.length_cons, List.length_cons, h1, h2]
        exact ⟨by ring, by omega⟩
      · rw [List.filter_cons_of_neg hy, List.filter_cons_of_neg (by simp [hy])]
        exact ⟨h1, h2⟩

/-- The medial average with one more number, when some number lies strictly between the ends. -/
theorem medial_ties {L : List K} {lo hi x : K} (g : Ends L lo hi) {y : K} (hy : y ∈ L) (h1 : lo < y) (h2 : y < hi) :
    ∃ (q : ℕ) (f : K), 0 < q ∧ q = (L.filter (fun z => decide (lo < z ∧ z < hi))).length ∧
      medialAvg (L.map Num.fin) = .ok (.fin f) ∧ lo < f ∧ f < hi ∧
      medialAvg ((L ++ [x]).map Num.fin) = .ok (.fin ((q * f + (Spec.tieShare L lo hi x).1 * (Spec.tieShare L lo hi x).2) /
        (q + (Spec.tieShare L lo hi x).1))) := by
  have hlt : lo < hi := h1.trans h2
  have h3 : 3 ≤ L.length := by
    have hsub : [lo, y, hi] ⊆ L := by
      intro z hz
      rcases List.mem_cons.1 hz with rfl | hz
      · exact g.lo_mem
      · rcases List.mem_cons.1 hz with rfl | hz
        · exact hy
        · rw [List.mem_singleton.1 hz]; exact g.hi_mem
    exact (List.subperm_of_subset (by simp [h1.ne, h2.ne, hlt.ne]) hsub).length_le
  set M := L.filter (fun z => decide (z ≠ lo ∧ z ≠ hi)) with hM
  have hMq : L.filter (fun z => decide (lo < z ∧ z < hi)) = M := by
    refine List.filter_congr fun z hz => ?_
    rw [decide_eq_decide]
    exact ⟨fun h => ⟨h.1.ne', h.2.ne⟩, fun h => ⟨lt_of_le_of_ne (g.lo_le z hz) (Ne.symm h.1), lt_of_le_of_ne (g.le_hi z hz) h.2⟩⟩
  have hyM : y ∈ M := List.mem_filter.2 ⟨hy, by simp [h1.ne', h2.ne]⟩
  have hMne : M ≠ [] := List.ne_nil_of_mem hyM
  have hq0 : 0 < M.length := List.length_pos_of_mem hyM
  have hqK : (0 : K) < M.length := by exact_mod_cast hq0
  have old : medialAvg (L.map Num.fin) = .ok (.fin (Spec.mean M)) := by
    rw [medialAvg_spec g.lo_mem g.lo_le g.hi_mem g.le_hi, if_neg hlt.ne, if_neg (by omega), if_neg hMne]
  have qf : (M.length : K) * Spec.mean M = M.sum := by unfold Spec.mean; rw [mul_div_cancel₀ _ hqK.ne']
  have hmem : ∀ z ∈ M, lo < z ∧ z < hi := fun z hz => by
    rw [← hMq] at hz
    simpa using (List.mem_filter.1 hz).2
  refine ⟨M.length, Spec.mean M, hq0, by rw [hMq], old, ?_, ?_, ?_⟩
  · have := list_lt_sum hMne fun z hz => (hmem z hz).1
    unfold Spec.mean; rw [lt_div_iff₀ hqK]; linarith
  · have := list_sum_lt hMne fun z hz => (hmem z hz).2
    unfold Spec.mean; rw [div_lt_iff₀ hqK]; linarith
  have hl : ¬ (L ++ [x]).length ≤ 2 := by rw [List.length_append]; omega
  rw [qf]
  have mL : ∀ {z : K}, z ∈ L → z ∈ L ++ [x] := fun h => List.mem_append_left _ h
  have mx : x ∈ L ++ [x] := by simp
  have cases2 : ∀ {P : K → Prop}, (∀ z ∈ L, P z) → P x → ∀ z ∈ L ++ [x], P z := fun a b z hz => by
    rcases List.mem_append.1 hz with hz | hz
    · exact a z hz
    · rw [List.mem_singleton.1 hz]; exact b
  have ne_of : ∀ {l : List K} {k : ℕ}, l.length = M.length + k → l ≠ [] := fun h e => by rw [e] at h; simp at h; omega
  unfold Spec.tieShare
  by_cases c1 : x < lo
  · rw [if_pos c1]
    have hx : ∀ z ∈ L, z ≠ x := fun z hz => (c1.trans_le (g.lo_le z hz)).ne'
    have hf : (L ++ [x]).filter (fun z => decide (z ≠ x ∧ z ≠ hi)) = L.filter (fun z => decide (z ≠ hi)) := by
      rw [List.filter_append, show [x].filter (fun z => decide (z ≠ x ∧ z ≠ hi)) = [] by simp, List.append_nil]
      exact List.filter_congr fun z hz => by rw [decide_eq_decide]; exact ⟨fun h => h.2, fun h => ⟨hx z hz, h⟩⟩
    obtain ⟨s1, s2⟩ := filter_copies (fun z => decide (z ≠ hi)) (a := lo) (by simp [hlt.ne]) L
    have e : L.filter (fun z => decide (z ≠ lo) && decide (z ≠ hi)) = M := List.filter_congr fun z _ => by simp
    rw [e] at s1 s2
    rw [medialAvg_spec (lo := x) (hi := hi) mx (cases2 (fun z hz => (c1.trans_le (g.lo_le z hz)).le) le_rfl) (mL g.hi_mem)
      (cases2 g.le_hi (c1.trans hlt).le), if_neg (c1.trans hlt).ne, if_neg hl, hf, if_neg (ne_of s2)]
    unfold Spec.mean
    rw [s1, s2]
    push_cast
    rfl
  rw [if_neg c1]
  by_cases c2 : hi < x
  · rw [if_pos c2]
    have hx : ∀ z ∈ L, z ≠ x := fun z hz => ((g.le_hi z hz).trans_lt c2).ne
    have hf : (L ++ [x]).filter (fun z => decide (z ≠ lo ∧ z ≠ x)) = L.filter (fun z => decide (z ≠ lo)) := by
      rw [List.filter_append, show [x].filter (fun z => decide (z ≠ lo ∧ z ≠ x)) = [] by simp, List.append_nil]
      exact List.filter_congr fun z hz => by rw [decide_eq_decide]; exact ⟨fun h => h.1, fun h => ⟨h, hx z hz⟩⟩
    obtain ⟨s1, s2⟩ := filter_copies (fun z => decide (z ≠ lo)) (a := hi) (by simp [hlt.ne']) L
    have e : L.filter (fun z => decide (z ≠ hi) && decide (z ≠ lo)) = M :=
      List.filter_congr fun z _ => by simp [and_comm, Bool.and_comm]
    rw [e] at s1 s2
    rw [medialAvg_spec (lo := lo) (hi := x) (mL g.lo_mem) (cases2 g.lo_le (hlt.trans c2).le) mx
      (cases2 (fun z hz => ((g.le_hi z hz).trans_lt c2).le) le_rfl), if_neg (hlt.trans c2).ne, if_neg hl, hf, if_neg (ne_of s2)]
    unfold Spec.mean
    rw [s1, s2]
    push_cast
    rfl
  rw [if_neg c2]
  have spec := medialAvg_spec (l := L ++ [x]) (lo := lo) (hi := hi) (mL g.lo_mem) (cases2 g.lo_le (not_lt.1 c1)) (mL g.hi_mem)
    (cases2 g.le_hi (not_lt.1 c2))
  rw [spec, if_neg hlt.ne, if_neg hl, List.filter_append, ← hM]
  by_cases c3 : x = lo ∨ x = hi
  · rw [if_pos c3, show [x].filter (fun z => decide (z ≠ lo ∧ z ≠ hi)) = [] by
      rcases c3 with e | e <;> simp [e], List.append_nil, if_neg hMne]
    simp [Spec.mean]
  · rw [if_neg c3, show [x].filter (fun z => decide (z ≠ lo ∧ z ≠ hi)) = [x] by
      simpa [not_or] using c3, if_neg (by simp)]
    unfold Spec.mean
    rw [List.sum_append, List.sum_singleton, List.length_append, List.length_singleton]
    push_cast
    rw [one_mul]

end

section
variable {t t' : Tri ℝ} {n : ℕ} {c c' : ℕ → ℕ → ℝ}

/-- **C238 with equal ratios.** `base_cl` with the medial average of all years, or of the last `k` years in a period with fewer than
`k` link ratios, on any two positive staircases one period apart, in a period where some ratio lies strictly between the smallest
`lo` and the largest `hi`, `q` of them: the old factor `f` is between `lo` and `hi`, and the new one averages `f`, `q` times, with what counts
anew: the joining ratio once if it is between `lo` and `hi`, nothing if it is one of them, and all copies of the end it exceeds. -/
theorem C238_ties (h : Spec.Stair t n c) (hp : Spec.Positive n c) (h' : Spec.Stair t' (n + 1) c')
    (hy : Spec.NextYear n c c') (hn : 3 ≤ n) {k : ℕ} (hkn : k < n - 1)
    {tail tail' : Num ℝ} {r r' : BaseResult ℝ} (hr : baseCL gmean t t.a2aind0 (Spec.avgName "medial" k) tail = .ok r)
    (hr' : baseCL gmean t' t'.a2aind0 (Spec.avgName "medial" k) tail' = .ok r') {j : ℕ} (hj : j < n - 1)
    (hfull : k = 0 ∨ n ≤ j + k) {lo hi y : ℝ} (g : Ends (Spec.ratios n c j) lo hi) (hm : y ∈ Spec.ratios n c j) (h1 : lo < y)
    (h2 : y < hi) :
    ∃ (q p : ℕ) (f f' z : ℝ), 0 < q ∧ q = ((Spec.ratios n c j).filter (fun z => decide (lo < z ∧ z < hi))).length ∧
      (p, z) = Spec.tieShare (Spec.ratios n c j) lo hi (Spec.joining n c' j) ∧
      r.ldfs.iloc j = .fin f ∧ r'.ldfs.iloc j = .fin f' ∧ lo < f ∧ f < hi ∧ f' = (q * f + p * z) / (q + p) := by
  have hp' := hy.positive hp
  have e := baseCL_iloc h hp hn .medial hkn hr hj
  have e' := baseCL_iloc h' hp' (by omega) .medial (by omega) hr' (show j < n + 1 - 1 by omega)
  have hlen : (Spec.ratios n c j).length = n - 1 - j := by simp [Spec.ratios]
  have hyr := ratios_year hy (show j < n by omega)
  have hjo : c' (n - 1 - j) (j + 1) / c (n - 1 - j) j = Spec.joining n c' j := by
    unfold Spec.joining; rw [hy.same (n - 1 - j) j (by omega)]
  rw [hjo] at hyr
  have w1 : Spec.lastN k (Spec.ratios n c j) = Spec.ratios n c j := lastN_whole (by omega)
  have w2 : Spec.lastN k (Spec.ratios n c j ++ [Spec.joining n c' j]) = Spec.ratios n c j ++ [Spec.joining n c' j] :=
    lastN_whole (by rw [List.length_append, List.length_singleton]; omega)
  rw [entry_medial h hp.ne_zero (h.indOn0 hp.ne_zero) hj, window_noexcl hp, w1] at e
  rw [entry_medial h' hp'.ne_zero (h'.indOn0 hp'.ne_zero) (by omega), window_noexcl hp', hyr, w2] at e'
  obtain ⟨q, f, q0, hq, m1, b1, b2, m2⟩ := medial_ties (x := Spec.joining n c' j) g hm h1 h2
  rw [m1] at e
  rw [m2] at e'
  exact ⟨q, _, f, _, _, q0, hq, rfl, (Except.ok.inj e).symm, (Except.ok.inj e').symm, b1, b2, rfl⟩

end

/-- Six origins; the ratios of the first period are 1, 3, 7, 7, 7, and 8 joins. -/
def exMedialTies (i j : ℕ) : ℚ := if j = 0 then 2 else 2 * [1, 3, 7, 7, 7, 8].getD i 1

/-- A concrete case: the 8 brings back the three sevens, and the factor goes from 3 to `(3 + 3 * 7) / 4`. -/
example : [stairTri 6 exMedialTies, stairTri 7 exMedialTies].map (fun t =>
    ((baseCL (fun _ => .nan) t t.a2aind0 "all-medial" 1).toOption.map (fun r => r.ldfs.iloc 0))) =
    [some (.fin 3), some (.fin ((1 * 3 + 3 * 7) / (1 + 3)))] := by decide +kernel

end Trikit
