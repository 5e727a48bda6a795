import Verif.Props.Diag

/-! # C66, C75, C76, C77: link ratio assignment and calendar year counts -/

set_option linter.unusedSectionVars false

namespace Trikit

variable {K : Type} [Field K] [LinearOrder K] [IsStrictOrderedRing K]

/-! ### C66 -/

namespace Spec

/-- `m` is the median of the sample: the middle one of the sorted values, or the mean of the two middle
ones. -/
def IsMedian (l : List K) (m : K) : Prop :=
  ∃ s : List K, s.Perm l ∧ s.Pairwise (· ≤ ·) ∧
    ((∃ k, ∃ x, s.length = 2 * k + 1 ∧ s[k]? = some x ∧ m = x) ∨
     (∃ k, ∃ x y, s.length = 2 * k + 2 ∧ s[k]? = some x ∧ s[k + 1]? = some y ∧ m = (x + y) / 2))

end Spec

theorem countP_lt_sorted {s : List K} (hs : s.Pairwise (· ≤ ·)) {k : ℕ} {x m : K} (hk : s[k]? = some x)
    (hm : m ≤ x) : s.countP (fun u => decide (u < m)) ≤ k := by
  obtain ⟨hlt, rfl⟩ := List.getElem?_eq_some_iff.1 hk
  have e := List.take_append_drop k s
  have h1 : (s.take k).countP (fun u => decide (u < m)) ≤ k :=
    (List.countP_le_length).trans (by simp)
  have h2 : (s.drop k).countP (fun u => decide (u < m)) = 0 := by
    rw [List.countP_eq_zero]
    intro a ha
    obtain ⟨i, hi, rfl⟩ := List.mem_iff_getElem.1 ha
    rw [List.getElem_drop]
    rw [List.length_drop] at hi
    have : s[k] ≤ s[k + i]'(by omega) := by
      rcases Nat.eq_zero_or_pos i with rfl | hpos
      · simp
      · exact (List.pairwise_iff_getElem.1 hs) k (k + i) hlt (by omega) (by omega)
    simp only [decide_eq_true_eq, not_lt]
    exact hm.trans this
  calc s.countP (fun u => decide (u < m))
      = (s.take k ++ s.drop k).countP (fun u => decide (u < m)) := by rw [e]
    _ ≤ k := by rw [List.countP_append, h2]; exact h1

theorem countP_gt_sorted {s : List K} (hs : s.Pairwise (· ≤ ·)) {k : ℕ} {x m : K} (hk : s[k]? = some x)
    (hm : x ≤ m) : s.countP (fun u => decide (m < u)) ≤ s.length - 1 - k := by
  obtain ⟨hlt, rfl⟩ := List.getElem?_eq_some_iff.1 hk
  have e := List.take_append_drop (k + 1) s
  have h1 : (s.drop (k + 1)).countP (fun u => decide (m < u)) ≤ s.length - 1 - k :=
    (List.countP_le_length).trans (by rw [List.length_drop]; omega)
  have h2 : (s.take (k + 1)).countP (fun u => decide (m < u)) = 0 := by
    rw [List.countP_eq_zero]
    intro a ha
    obtain ⟨i, hi, rfl⟩ := List.mem_iff_getElem.1 ha
    rw [List.getElem_take]
    rw [List.length_take] at hi
    have : s[i]'(by omega) ≤ s[k] := by
      rcases Nat.lt_or_ge i k with h | h
      · exact (List.pairwise_iff_getElem.1 hs) i k (by omega) hlt h
      · have : i = k := by omega
        subst this; exact le_rfl
    simp only [decide_eq_true_eq, not_lt]
    exact this.trans hm
  calc s.countP (fun u => decide (m < u))
      = (s.take (k + 1) ++ s.drop (k + 1)).countP (fun u => decide (m < u)) := by rw [e]
    _ ≤ s.length - 1 - k := by rw [List.countP_append, h2, Nat.zero_add]; exact h1

/-- At most half of the sample lies on either side of a median. -/
theorem Spec.IsMedian.balanced {l : List K} {m : K} (h : Spec.IsMedian l m) :
    2 * l.countP (fun u => decide (u < m)) ≤ l.length ∧ 2 * l.countP (fun u => decide (m < u)) ≤ l.length := by
  obtain ⟨s, hp, hs, h⟩ := h
  rw [← hp.countP_eq, ← hp.countP_eq, ← hp.length_eq]
  rcases h with ⟨k, x, hl, hx, rfl⟩ | ⟨k, x, y, hl, hx, hy, rfl⟩
  · have h1 := countP_lt_sorted hs hx le_rfl
    have h2 := countP_gt_sorted hs hx le_rfl
    constructor <;> omega
  · have hxy : x ≤ y := by
      obtain ⟨h1, rfl⟩ := List.getElem?_eq_some_iff.1 hx
      obtain ⟨h2, rfl⟩ := List.getElem?_eq_some_iff.1 hy
      exact (List.pairwise_iff_getElem.1 hs) k (k + 1) h1 h2 (by omega)
    have h1 := countP_lt_sorted hs hy (m := (x + y) / 2) (by linarith)
    have h2 := countP_gt_sorted hs hx (m := (x + y) / 2) (by linarith)
    constructor <;> omega

omit [IsStrictOrderedRing K] in
theorem npSort_insertionSort (l : List K) :
    npSort (l.map Num.fin) = (l.insertionSort (· ≤ ·)).map Num.fin := by
  have hins : ∀ (x : K) (s : List K),
      insNum (.fin x) (s.map Num.fin) = (s.orderedInsert (· ≤ ·) x).map Num.fin := by
    intro x s
    induction s with
    | nil => rfl
    | cons y s ih =>
      rw [List.map_cons, insNum, Num.lt_fin, List.orderedInsert]
      by_cases h : y < x
      · rw [if_pos (by simpa using h), if_neg (not_le.2 h), ih]; rfl
      · rw [if_neg (by simpa using h), if_pos (not_lt.1 h)]; rfl
  induction l with
  | nil => rfl
  | cons x l ih =>
    have e : npSort ((x :: l).map Num.fin) = insNum (.fin x) (npSort (l.map Num.fin)) := rfl
    rw [e, ih, hins]; rfl

omit [IsStrictOrderedRing K] in
theorem filter_finite (l : List (Num K)) (h : ∀ v ∈ l, FiniteOrMissing v) :
    l.filter (fun v => !v.isNaN) = (l.filterMap Num.toFin).map Num.fin := by
  induction l with
  | nil => rfl
  | cons a l ih =>
    have ih' := ih (fun v hv => h v (by simp [hv]))
    rcases h a (by simp) with rfl | ⟨x, rfl⟩
    · rw [List.filterMap_cons_none (by rfl)]
      simpa using ih'
    · rw [List.filterMap_cons_some (f := Num.toFin) (a := Num.fin x) (b := x) rfl]
      simpa using ih'

/-- The median computed by the code is the median of the observed values. -/
theorem npMedian_spec (l : List (Num K)) (h : ∀ v ∈ l, FiniteOrMissing v)
    (hne : l.filterMap Num.toFin ≠ []) :
    ∃ m, npMedian l = .fin m ∧ Spec.IsMedian (l.filterMap Num.toFin) m := by
  unfold npMedian
  rw [filter_finite l h, npSort_insertionSort]
  set xs := l.filterMap Num.toFin
  have hp := List.perm_insertionSort (· ≤ ·) xs
  have hs := List.pairwise_insertionSort (· ≤ ·) xs
  have hl : (xs.insertionSort (· ≤ ·)).length ≠ 0 := by
    rw [hp.length_eq]; exact fun e => hne (List.length_eq_zero_iff.1 e)
  generalize xs.insertionSort (· ≤ ·) = s at hp hs hl
  have hget : ∀ k (hk : k < s.length), (s.map Num.fin).getD k .nan = .fin s[k] := by
    intro k hk
    rw [List.getD_eq_getElem?_getD, List.getElem?_map, List.getElem?_eq_getElem hk]; rfl
  simp only [List.length_map]
  by_cases hodd : s.length % 2 = 1
  · rw [if_pos hodd, hget _ (by omega)]
    exact ⟨_, rfl, s, hp, hs, Or.inl ⟨s.length / 2, _, by omega, List.getElem?_eq_getElem _, rfl⟩⟩
  · rw [if_neg hodd, hget _ (by omega), hget _ (by omega), Num.fin_add, Num.fin_div _ _ two_ne_zero]
    refine ⟨_, rfl, s, hp, hs, Or.inr ⟨s.length / 2 - 1, _, _, by omega,
      List.getElem?_eq_getElem (by omega), ?_, rfl⟩⟩
    rw [List.getElem?_eq_some_iff]
    exact ⟨by omega, by congr 1; omega⟩

/-- Tolerance of `np.allclose` around `m`. -/
def tol (m : K) : K := 1 / 10 ^ 8 + 1 / 10 ^ 5 * |m|

theorem tol_pos (m : K) : 0 < tol m := by unfold tol; positivity

theorem assignOne_fin (x m : K) : assignOne (.fin x) (.fin m) =
    if |x - m| ≤ tol m then some 0 else if m < x then some 1 else some (-1) := by
  unfold assignOne isclose tol
  simp

/-- **C66 (partial)**: in a column without infinite link ratios, missing link ratios get nothing and each
other one gets exactly one of -1, 0, 1; 1 only above and -1 only below the median of the column, the
median itself 0.  Missing from the full statement: columns with infinite link ratios. -/
theorem C66_partial (t : Tri K) (j : ℕ) (hf : ∀ i < t.a2a.nr, FiniteOrMissing (t.a2a.cell i j)) :
    (∀ i < t.a2a.nr, t.a2a.cell i j = .nan → a2aAssignment t i j = none) ∧
    ((∃ i < t.a2a.nr, t.a2a.cell i j ≠ .nan) →
      ∃ m, Spec.IsMedian ((t.a2a.col j).filterMap Num.toFin) m ∧
        ∀ i < t.a2a.nr, ∀ x, t.a2a.cell i j = .fin x →
          (a2aAssignment t i j = some 0 ∨ a2aAssignment t i j = some 1 ∨ a2aAssignment t i j = some (-1)) ∧
          (a2aAssignment t i j = some 1 → m < x) ∧ (a2aAssignment t i j = some (-1) → x < m) ∧
          (x = m → a2aAssignment t i j = some 0)) := by
  refine ⟨fun i _ e => by unfold a2aAssignment assignOne; rw [e]; simp, ?_⟩
  rintro ⟨i0, hi0, hne⟩
  have hcol : ∀ v ∈ t.a2a.col j, FiniteOrMissing v := by
    intro v hv
    unfold Tri.col at hv
    rw [List.mem_map] at hv
    obtain ⟨i, hi, rfl⟩ := hv
    exact hf i (List.mem_range.1 hi)
  obtain ⟨m, hm, hmed⟩ := npMedian_spec (t.a2a.col j) hcol (by
    rcases hf i0 hi0 with e | ⟨x, e⟩
    · exact absurd e hne
    · intro hnil
      rw [List.filterMap_eq_nil_iff] at hnil
      have := hnil (.fin x) (by
        unfold Tri.col; rw [List.mem_map]; exact ⟨i0, List.mem_range.2 hi0, e⟩)
      simp [Num.toFin] at this)
  refine ⟨m, hmed, ?_⟩
  intro i hi x hx
  unfold a2aAssignment
  rw [hm, hx, assignOne_fin]
  by_cases h1 : |x - m| ≤ tol m
  · rw [if_pos h1]
    refine ⟨Or.inl rfl, by simp, by simp, fun _ => rfl⟩
  · rw [if_neg h1]
    by_cases h2 : m < x
    · rw [if_pos h2]
      refine ⟨by simp, fun _ => h2, by simp, ?_⟩
      intro e; exact absurd e h2.ne'
    · rw [if_neg h2]
      refine ⟨by simp, by simp, fun _ => ?_, ?_⟩
      · rcases lt_or_eq_of_le (not_lt.1 h2) with h | h
        · exact h
        · subst h; simp [(tol_pos x).le] at h1
      · rintro rfl; simp [(tol_pos x).le] at h1

/-- A triangle with the link ratios `+inf` and `-inf` in its first column. -/
def infTri : Tri ℚ := stairTri 3 (fun i j =>
  ((([[0, 5, 6], [0, -5], [1]] : List (List ℚ)).getD i []).getD j 0))

/-- **C66 fails** with infinite link ratios: the median of `+inf` and `-inf` is NaN and both are assigned
-1, although neither is below it. -/
theorem C66_fails : ∃ t : Tri ℚ, a2aAssignment t 0 0 = some (-1) ∧
    t.a2a.cell 0 0 = .pinf ∧ Num.lt (t.a2a.cell 0 0) (npMedian (t.a2a.col 0)) = false ∧
    npMedian (t.a2a.col 0) = .nan :=
  ⟨infTri, by decide +kernel, by decide +kernel, by decide +kernel, by decide +kernel⟩

example : (List.range 3).map (fun i => a2aAssignment exTri i 0) = [some 0, some 1, some (-1)] := by
  decide +kernel

/-! ### C75: values near the median -/

/-- Triangle whose three link ratios are 1, 1.000001 and 1.5. -/
def nearTri : Tri ℚ := stairTri 4 (fun i j =>
  ((([[1000000, 1000000, 1000000, 1000000], [1000000, 1000001, 1000001], [100, 150], [100]] :
    List (List ℚ)).getD i []).getD j 0))

/-- **C75 fails**: the link ratio 1 lies strictly below the median 1.000001 of its column and is not
assigned -1. -/
theorem C75_fails : ∃ t : Tri ℚ, t.a2a.cell 0 0 = .fin 1 ∧
    npMedian (t.a2a.col 0) = .fin (1000001 / 1000000) ∧ a2aAssignment t 0 0 = some 0 :=
  ⟨nearTri, by decide +kernel, by decide +kernel, by decide +kernel⟩

/-- **C75 (partial)**: a finite link ratio above (below) the median by more than the tolerance
`1e-8 + 1e-5 |median|` is assigned 1 (-1), and exactly the others get 0. -/
theorem C75_partial (t : Tri K) (j : ℕ) (hf : ∀ i < t.a2a.nr, FiniteOrMissing (t.a2a.cell i j))
    {i : ℕ} (hi : i < t.a2a.nr) {x : K} (hx : t.a2a.cell i j = .fin x) :
    ∃ m, Spec.IsMedian ((t.a2a.col j).filterMap Num.toFin) m ∧
      (a2aAssignment t i j = some 1 ↔ m + (1 / 10 ^ 8 + 1 / 10 ^ 5 * |m|) < x) ∧
      (a2aAssignment t i j = some (-1) ↔ x < m - (1 / 10 ^ 8 + 1 / 10 ^ 5 * |m|)) ∧
      (a2aAssignment t i j = some 0 ↔ |x - m| ≤ 1 / 10 ^ 8 + 1 / 10 ^ 5 * |m|) := by
  have hcol : ∀ v ∈ t.a2a.col j, FiniteOrMissing v := by
    intro v hv
    unfold Tri.col at hv
    rw [List.mem_map] at hv
    obtain ⟨i, hi, rfl⟩ := hv
    exact hf i (List.mem_range.1 hi)
  obtain ⟨m, hm, hmed⟩ := npMedian_spec (t.a2a.col j) hcol (by
    intro hnil
    rw [List.filterMap_eq_nil_iff] at hnil
    have := hnil (.fin x) (by
      unfold Tri.col; rw [List.mem_map]; exact ⟨i, List.mem_range.2 hi, hx⟩)
    simp [Num.toFin] at this)
  refine ⟨m, hmed, ?_⟩
  have ht := tol_pos m
  have e : (1 / 10 ^ 8 + 1 / 10 ^ 5 * |m| : K) = tol m := rfl
  rw [e]
  unfold a2aAssignment
  rw [hm, hx, assignOne_fin]
  by_cases h1 : |x - m| ≤ tol m
  · obtain ⟨h3, h4⟩ := abs_le.1 h1
    rw [if_pos h1]
    refine ⟨?_, ?_, by simp [h1]⟩
    · simp; linarith
    · simp; linarith
  · rw [if_neg h1]
    have h1' := not_le.1 h1
    by_cases h2 : m < x
    · rw [if_pos h2]
      rw [abs_of_pos (by linarith)] at h1'
      refine ⟨by simp; linarith, by simp; linarith, by simp [h1]⟩
    · rw [if_neg h2]
      rw [abs_of_nonpos (by linarith)] at h1'
      refine ⟨by simp; linarith, by simp; linarith, by simp [h1]⟩

/-! ### C76, C77: calendar year counts -/

omit [Field K] [LinearOrder K] [IsStrictOrderedRing K] in
theorem dedup_singleton {l : List Int} {d : Int} : l.dedup = [d] ↔ l ≠ [] ∧ ∀ x ∈ l, x = d := by
  constructor
  · intro h
    refine ⟨by rintro rfl; simp at h, fun x hx => ?_⟩
    have : x ∈ l.dedup := List.mem_dedup.2 hx
    rw [h] at this; simpa using this
  · rintro ⟨h1, h2⟩
    obtain ⟨a, l', rfl⟩ := List.exists_cons_of_ne_nil h1
    have ha := h2 a (by simp)
    subst ha
    clear h1
    induction l' with
    | nil => simp
    | cons b l' ih =>
      have hb := h2 b (by simp)
      subst hb
      rw [List.dedup_cons_of_mem (by simp)]
      exact ih (fun x hx => h2 x (by
        rcases List.mem_cons.1 hx with rfl | hx
        · simp
        · simp [hx]))

omit [Field K] [LinearOrder K] [IsStrictOrderedRing K] in
theorem uniqueStep_ok {l : List Int} {d : Int} : uniqueStep l = .ok d ↔
    2 ≤ l.length ∧ ∀ (i : ℕ), i + 1 < l.length → l.getD (i + 1) 0 - l.getD i 0 = d := by
  unfold uniqueStep
  have key : (List.zipWith (fun a b => b - a) l l.tail).dedup = [d] ↔
      2 ≤ l.length ∧ ∀ (i : ℕ), i + 1 < l.length → l.getD (i + 1) 0 - l.getD i 0 = d := by
    rw [dedup_singleton]
    have hlen : (List.zipWith (fun a b => b - a) l l.tail).length = l.length - 1 := by simp
    refine and_congr ?_ ?_
    · rw [← List.length_pos_iff_ne_nil, hlen]; omega
    · have hget : ∀ i (hi : i < (List.zipWith (fun a b => b - a) l l.tail).length),
          (List.zipWith (fun a b => b - a) l l.tail)[i] = l.getD (i + 1) 0 - l.getD i 0 := by
        intro i hi
        rw [hlen] at hi
        simp only [List.getElem_zipWith, List.getElem_tail]
        rw [List.getD_eq_getElem?_getD, List.getD_eq_getElem?_getD, List.getElem?_eq_getElem (by omega),
          List.getElem?_eq_getElem (by omega)]
        rfl
      constructor
      · intro h i hi
        rw [← hget i (by omega)]
        exact h _ (List.getElem_mem _)
      · intro h x hx
        obtain ⟨i, hi, rfl⟩ := List.mem_iff_getElem.1 hx
        rw [hget i hi]; exact h i (by omega)
  rw [← key]
  constructor
  · intro h
    split at h
    · next d' e => rw [e]; simpa using h
    · exact absurd h (by simp)
  · intro h; rw [h]

omit [Field K] [LinearOrder K] [IsStrictOrderedRing K] in
theorem uniqueStep_err {l : List Int} (h : ∀ d, uniqueStep l ≠ .ok d) : uniqueStep l = .error .valueError := by
  unfold uniqueStep at *
  split
  · next d e => exact absurd (by rw [e]) (h d)
  · rfl

section stair
variable {t : Tri K} {n : ℕ} {c : ℕ → ℕ → K}

/-- Positions followed by the loop: the diagonal `i + d = m`. -/
def cyDiag (t : Tri K) (m : ℕ) : List (Int × Int) :=
  (List.range (m + 1)).map (fun d => (t.oAt (m - d), t.dAt d))

omit [Field K] [LinearOrder K] [IsStrictOrderedRing K] in
theorem cyShift_diag (t : Tri K) (m : ℕ) : cyShift (cyDiag t (m + 1)) = cyDiag t m := by
  unfold cyShift cyDiag
  apply List.ext_getElem
  · simp
  · intro i h1 h2
    simp only [List.getElem_zipWith, List.getElem_tail, List.getElem_map, List.getElem_range]
    rw [show m + 1 - (i + 1) = m - i by omega]

theorem cyCount_diag (h : Spec.Stair t n c) (hc : ∀ i j, i + j < n → c i j ≠ 0) {m : ℕ} (hm : m < n - 1)
    (v : Int) : cyCount t (cyDiag t m) v =
      (List.range (m + 1)).countP (fun d => decide (a2aAssignment t (m - d) d = some v)) := by
  unfold cyCount cyDiag
  rw [← List.countP_eq_length_filter, List.countP_map]
  refine List.countP_congr (fun d hd => ?_)
  rw [List.mem_range] at hd
  simp only [Function.comp, decide_eq_true_eq]
  rw [(h.a2a_spec hc).1, (h.a2a_spec hc).2.1,
    idxOf_map_range (fun a ha b hb => h.oAt_inj (by omega) (by omega)) (by omega : m - d < n - 1),
    idxOf_map_range (fun a ha b hb => h.dAt_inj (by omega) (by omega)) (by omega : d < n - 1)]
  constructor
  · exact fun hh => hh.2.2
  · intro hh
    exact ⟨List.mem_map_of_mem (List.mem_range.2 (by omega)),
      List.mem_map_of_mem (List.mem_range.2 (by omega)), hh⟩

/-- Row of the table for diagonal `j` (`i + d = j - 1`). -/
def cySpecRow (t : Tri K) (j : ℕ) : CyRow K :=
  let S := (List.range j).countP (fun d => decide (a2aAssignment t (j - 1 - d) d = some (-1)))
  let L := (List.range j).countP (fun d => decide (a2aAssignment t (j - 1 - d) d = some 1))
  ⟨j, S, L, min S L, S + L, cyMean (S + L), cyVar (S + L)⟩

theorem cyLoop_diag (h : Spec.Stair t n c) (hc : ∀ i j, i + j < n → c i j ≠ 0) (m : ℕ) (hm : m < n - 1) :
    (cyLoop t m (cyDiag t m)).reverse = (List.range m).map (fun k => cySpecRow t (k + 2)) := by
  induction m with
  | zero => rfl
  | succ m ih =>
    rw [cyLoop]
    simp only [List.reverse_cons]
    rw [cyShift_diag, ih (by omega), List.range_succ (n := m), List.map_append, cyCount_diag h hc hm,
      cyCount_diag h hc hm]
    rfl

theorem cyInit (h : Spec.Stair t n c) (hc : ∀ i j, i + j < n → c i j ≠ 0) (hn : 2 ≤ n) :
    (a2aLvi t).zip t.a2a.devs = cyDiag t (n - 2) := by
  rw [h.a2aLvi hc, (h.a2a_spec hc).2.1, List.zip_map', cyDiag, show n - 2 + 1 = n - 1 by omega]

/-- **C76**: when the table is produced, it has one row per diagonal `j = 2 .. n - 1`, whose `S` and `L`
count the link ratios assigned -1 and 1 among those of origin `i` and period `d` with `i + d = j - 1`
(both from 0); `Z` is the smaller count, `n` their total, and the moments are those of the smaller count
of `n` fair coin tosses. -/
theorem C76 (h : Spec.Stair t n c) (hc : ∀ i j, i + j < n → c i j ≠ 0) {rows : List (CyRow K)}
    (hr : cyTable t = .ok rows) :
    rows.map CyRow.j = (List.range (n - 2)).map (· + 2) ∧
    ∀ r ∈ rows,
      r.S = (List.range r.j).countP (fun d => decide (a2aAssignment t (r.j - 1 - d) d = some (-1))) ∧
      r.L = (List.range r.j).countP (fun d => decide (a2aAssignment t (r.j - 1 - d) d = some 1)) ∧
      r.Z = min r.S r.L ∧ r.n = r.S + r.L ∧ r.n ≤ r.j ∧
      (1 ≤ r.n → r.E = .fin (Spec.binExp r.n (Spec.smaller r.n)) ∧
        r.V = .fin (Spec.binExp r.n (fun s =>
          (Spec.smaller r.n s - Spec.binExp r.n (Spec.smaller r.n)) ^ 2))) := by
  by_cases hn : 2 ≤ n
  swap
  · exfalso
    unfold cyTable at hr
    have hd : t.a2a.devs = [] := by
      rw [(h.a2a_spec hc).2.1, show n - 1 = 0 by omega]; rfl
    rw [hd] at hr
    simp [uniqueStep, bind, Except.bind] at hr
  unfold cyTable at hr
  rw [cyInit h hc hn, h.a2a_nc hc] at hr
  have hrows : rows = (List.range (n - 2)).map (fun k => cySpecRow t (k + 2)) := by
    simp only [bind, Except.bind] at hr
    split at hr
    · exact absurd hr (by simp)
    · split at hr
      · exact absurd hr (by simp)
      · rw [show n - 1 - 1 = n - 2 by omega] at hr
        rw [cyLoop_diag h hc (n - 2) (by omega)] at hr
        simpa using hr.symm
  subst hrows
  refine ⟨by rw [List.map_map]; rfl, ?_⟩
  intro r hr'
  rw [List.mem_map] at hr'
  obtain ⟨k, _, rfl⟩ := hr'
  refine ⟨rfl, rfl, rfl, rfl, ?_, fun h1 => ⟨C65_mean h1, C65_var h1⟩⟩
  unfold cySpecRow
  simp only
  have : ∀ l : List ℕ, l.countP (fun d => decide (a2aAssignment t (k + 2 - 1 - d) d = some (-1))) +
      l.countP (fun d => decide (a2aAssignment t (k + 2 - 1 - d) d = some 1)) ≤ l.length := by
    intro l
    induction l with
    | nil => simp
    | cons a l ih =>
      simp only [List.countP_cons, List.length_cons]
      by_cases h1 : a2aAssignment t (k + 2 - 1 - a) a = some (-1)
      · rw [if_pos (by simpa using h1), if_neg (by rw [h1]; decide)]; omega
      · rw [if_neg (by simpa using h1)]
        split <;> omega
  simpa using this (List.range (k + 2))

/-- **C77 (partial)**: the table is produced exactly for equally spaced labels. -/
theorem C77_partial (h : Spec.Stair t n c) (hc : ∀ i j, i + j < n → c i j ≠ 0) (hn : 3 ≤ n) :
    ((∃ rows, cyTable t = .ok rows) ↔
      (∃ a, ∀ j, j + 2 < n → t.dAt (j + 1) - t.dAt j = a) ∧
      (∃ b, ∀ i, i + 2 < n → t.oAt (i + 1) - t.oAt i = b)) ∧
    ((¬∃ rows, cyTable t = .ok rows) → cyTable t = .error .valueError) := by
  have e0 := cyInit h hc (by omega : 2 ≤ n)
  have f1 : (cyDiag t (n - 2)).map Prod.snd = (List.range (n - 1)).map t.dAt := by
    unfold cyDiag; rw [List.map_map, show n - 2 + 1 = n - 1 by omega]; rfl
  have f2 : (cyDiag t (n - 2)).map Prod.fst = (List.range (n - 1)).map (fun d => t.oAt (n - 2 - d)) := by
    unfold cyDiag; rw [List.map_map, show n - 2 + 1 = n - 1 by omega]; rfl
  have g1 : (∃ d, uniqueStep ((cyDiag t (n - 2)).map Prod.snd) = .ok d) ↔
      ∃ a, ∀ j, j + 2 < n → t.dAt (j + 1) - t.dAt j = a := by
    refine exists_congr (fun a => ?_)
    rw [uniqueStep_ok, f1]
    simp only [List.length_map, List.length_range]
    have hg : ∀ j, j < n - 1 → ((List.range (n - 1)).map t.dAt).getD j 0 = t.dAt j := by
      intro j hj
      rw [List.getD_eq_getElem?_getD, List.getElem?_map, List.getElem?_range hj]; rfl
    constructor
    · rintro ⟨_, hh⟩ j hj
      have := hh j (by omega)
      rwa [hg _ (by omega), hg _ (by omega)] at this
    · intro hh
      refine ⟨by omega, fun j hj => ?_⟩
      rw [hg _ (by omega), hg _ (by omega)]
      exact hh j (by omega)
  have g2 : (∃ d, uniqueStep ((cyDiag t (n - 2)).map Prod.fst) = .ok d) ↔
      ∃ b, ∀ i, i + 2 < n → t.oAt (i + 1) - t.oAt i = b := by
    rw [f2]
    have hg : ∀ j, j < n - 1 →
        ((List.range (n - 1)).map (fun d => t.oAt (n - 2 - d))).getD j 0 = t.oAt (n - 2 - j) := by
      intro j hj
      rw [List.getD_eq_getElem?_getD, List.getElem?_map, List.getElem?_range hj]; rfl
    constructor
    · rintro ⟨d, hd⟩
      refine ⟨-d, fun i hi => ?_⟩
      obtain ⟨_, hh⟩ := uniqueStep_ok.1 hd
      simp only [List.length_map, List.length_range] at hh
      have := hh (n - 3 - i) (by omega)
      rw [hg _ (by omega), hg _ (by omega), show n - 2 - (n - 3 - i + 1) = i by omega,
        show n - 2 - (n - 3 - i) = i + 1 by omega] at this
      omega
    · rintro ⟨b, hb⟩
      refine ⟨-b, uniqueStep_ok.2 ⟨by simp; omega, fun i hi => ?_⟩⟩
      simp only [List.length_map, List.length_range] at hi
      rw [hg _ (by omega), hg _ (by omega)]
      have := hb (n - 3 - i) (by omega)
      rw [show n - 3 - i + 1 = n - 2 - i by omega] at this
      rw [show n - 2 - (i + 1) = n - 3 - i by omega]
      omega
  rw [← g1, ← g2]
  unfold cyTable
  rw [e0]
  simp only [bind, Except.bind]
  rcases h1 : uniqueStep ((cyDiag t (n - 2)).map Prod.snd) with e | d
  · have : e = .valueError := by
      have := uniqueStep_err (l := (cyDiag t (n - 2)).map Prod.snd) (by rw [h1]; simp)
      rw [h1] at this; simpa using this
    subst this
    simp
  · rcases h2 : uniqueStep ((cyDiag t (n - 2)).map Prod.fst) with e | d'
    · have : e = .valueError := by
        have := uniqueStep_err (l := (cyDiag t (n - 2)).map Prod.fst) (by rw [h2]; simp)
        rw [h2] at this; simpa using this
      subst this
      simp
    · simp

end stair

/-- The 4 x 4 example observed after 3, 6, 12 and 24 months. -/
def monthsTri : Tri ℚ := { exTri with devs := [3, 6, 12, 24] }

/-- **C77 fails**: development periods 3, 6, 12, 24 instead of 1, 2, 3, 4 make the test raise. -/
theorem C77_fails : (∃ r, cyTable exTri = .ok r) ∧ monthsTri.cell = exTri.cell ∧
    monthsTri.origins = exTri.origins ∧ Spec.Increasing monthsTri.devs ∧
    cyTable monthsTri = .error .valueError := by
  refine ⟨⟨_, rfl⟩, rfl, rfl, ?_, ?_⟩
  · unfold Spec.Increasing; decide +kernel
  · have : (cyTable monthsTri).map (fun _ => ()) = .error .valueError := by decide +kernel
    cases h : cyTable monthsTri with
    | error e => rw [h] at this; simpa [Except.map] using this
    | ok r => rw [h] at this; simp [Except.map] at this

example : (cyTable exTri).map (fun l => l.map (fun r => (r.j, r.S, r.L, r.Z, r.n))) =
    .ok [(2, 1, 1, 1, 2), (3, 1, 1, 1, 2)] := by decide +kernel

end Trikit
