import Verif.Props.LinkRatios

/-! # Exclusions, medial averages and windows (C26 - C29) -/

set_option linter.unusedSectionVars false

namespace Trikit

variable {K : Type}

section
variable [Field K] [LinearOrder K]

/-- The four names of average types. -/
theorem avgName_eq (k : AvgKind) (d : ℕ) : avgLabel k d = Spec.avgName k.name d := rfl

/-- The only error of an entry is `IndexError`. -/
theorem entry_ok_or {gm : List (Num K) → Num K} {t ind : Tri K} {n : ℕ} {c w : ℕ → ℕ → K}
    (h : Spec.Stair t n c) (hc : ∀ i j, i + j < n → c i j ≠ 0) (hi : IndOn t ind n w)
    [IsStrictOrderedRing K] (k : AvgKind) (d : ℕ) {j : ℕ} (hj : j < n - 1) :
    (∃ v, avgEntry gm t ind k d j = .ok v) ∨
      (avgEntry gm t ind k d j = .error .indexError ∧
        (Spec.lastN d (adjRatios n c w j)).filter (fun x => decide (0 < x)) = []) := by
  cases k with
  | simple => exact Or.inl ⟨_, entry_simple h hc hi hj d⟩
  | geometric => exact Or.inl ⟨_, entry_geometric h hc hi hj d⟩
  | weighted => exact Or.inl ⟨_, entry_weighted h hj d⟩
  | medial =>
    rw [entry_medial h hc hi hj d]
    by_cases e : (Spec.lastN d (adjRatios n c w j)).filter (fun x => decide (0 < x)) = []
    · right; rw [e]; exact ⟨rfl, rfl⟩
    · left
      obtain ⟨lo, hi, h1, h2, h3, h4⟩ := exists_min_max e
      exact ⟨_, medialAvg_spec h1 h2 h3 h4⟩

/-! ## C26 -/

/-- `exVals` with another first value for the first origin: only the first link ratio of the first
origin is different. -/
def exVals26 : ℕ → ℕ → ℚ := fun i j => if i = 0 ∧ j = 0 then 50 else exVals i j

/-- **C26 is false of the code** for weighted averages: with the first link ratio of 2001 excluded,
"all-weighted" still depends on it. -/
theorem C26_weighted_fails :
    (∀ i < 4, ∀ j < 4, i + j + 1 < 4 → ¬(i = 0 ∧ j = 0) →
      exVals i (j + 1) / exVals i j = exVals26 i (j + 1) / exVals26 i j) ∧
    (a2aAvgs (fun _ => .nan) (stairTri 4 exVals) ((stairTri 4 exVals).a2aind0.setAt 2001 1 0)).map
      (fun tab => Spec.entry tab "all-weighted" 0) = .ok (some (.fin (494 / 330))) ∧
    (a2aAvgs (fun _ => .nan) (stairTri 4 exVals26)
        ((stairTri 4 exVals26).a2aind0.setAt 2001 1 0)).map
      (fun tab => Spec.entry tab "all-weighted" 0) = .ok (some (.fin (494 / 280))) := by
  refine ⟨?_, ?_, ?_⟩ <;> decide +kernel

variable [IsStrictOrderedRing K]

/-- **C26, part that holds**: simple, geometric and medial averages do not depend on an excluded link
ratio.  `t` and `t'` are two staircases with equal labels all of whose link ratios agree except at
`(i0, j0)`, which the common indicator `ind` excludes.  Missing: weighted averages
(`C26_weighted_fails`). -/
theorem C26_excluded_partial (gm : List (Num K) → Num K) {t t' ind : Tri K} {n : ℕ}
    {c c' w : ℕ → ℕ → K} (h : Spec.Stair t n c) (h' : Spec.Stair t' n c')
    (ho : t.origins = t'.origins) (hd : t.devs = t'.devs)
    (hc : ∀ i j, i + j < n → c i j ≠ 0) (hc' : ∀ i j, i + j < n → c' i j ≠ 0)
    (hi : IndOn t ind n w) {i0 j0 : ℕ} (hw : w i0 j0 = 0)
    (hr : ∀ i j, i + j + 1 < n → ¬(i = i0 ∧ j = j0) →
      c i (j + 1) / c i j = c' i (j + 1) / c' i j)
    {kind : AvgKind} (hk : kind ≠ .weighted) {k : ℕ} (hkn : k < n - 1) :
    (a2aAvgs gm t ind).map (fun tab => tab.rows.lookup (Spec.avgName kind.name k)) =
      (a2aAvgs gm t' ind).map (fun tab => tab.rows.lookup (Spec.avgName kind.name k)) := by
  have hi' : IndOn t' ind n w := by
    refine ⟨?_, ?_, hi.vals⟩
    · rw [hi.origins, (C22_a2a h hc).1, (C22_a2a h' hc').1, ho]
    · rw [hi.devs, (C22_a2a h hc).2.1, (C22_a2a h' hc').2.1, hd]
  have hadj : ∀ j, adjRatios n c w j = adjRatios n c' w j := by
    intro j
    unfold adjRatios
    apply List.map_congr_left
    intro i hii
    rw [List.mem_range] at hii
    by_cases e : i = i0 ∧ j = j0
    · rw [e.1, e.2, hw, mul_zero, mul_zero]
    · rw [hr i j (by omega) e]
  have hent : ∀ k' d j, k' ≠ AvgKind.weighted → j < n - 1 →
      avgEntry gm t ind k' d j = avgEntry gm t' ind k' d j := by
    intro k' d j hk' hj
    cases k' with
    | simple => rw [entry_simple h hc hi hj, entry_simple h' hc' hi' hj, hadj]
    | geometric => rw [entry_geometric h hc hi hj, entry_geometric h' hc' hi' hj, hadj]
    | medial => rw [entry_medial h hc hi hj, entry_medial h' hc' hi' hj, hadj]
    | weighted => exact absurd rfl hk'
  have hnc := adj_nc h hc hi
  have hnc' := adj_nc h' hc' hi'
  by_cases hbad : ∃ k' d j, (d = 0 ∨ d < t.a2a.nr) ∧ j < n - 1 ∧
      avgEntry gm t ind k' d j = .error .indexError
  · have e1 : a2aAvgs gm t ind = .error .indexError := by
      apply a2aAvgs_error_of
      · intro k' d _ j hj
        rw [hnc] at hj
        rcases entry_ok_or (gm := gm) h hc hi k' d hj with hok | he
        · exact Or.inl hok
        · exact Or.inr he.1
      · obtain ⟨k', d, j, h1, h2, h3⟩ := hbad
        exact ⟨k', d, j, h1, by rw [hnc]; exact h2, h3⟩
    have e2 : a2aAvgs gm t' ind = .error .indexError := by
      apply a2aAvgs_error_of
      · intro k' d _ j hj
        rw [hnc'] at hj
        rcases entry_ok_or (gm := gm) h' hc' hi' k' d hj with hok | he
        · exact Or.inl hok
        · exact Or.inr he.1
      · obtain ⟨k', d, j, h1, h2, h3⟩ := hbad
        refine ⟨k', d, j, ?_, by rw [hnc']; exact h2, ?_⟩
        · rw [h'.a2a_nr hc', ← h.a2a_nr hc]; exact h1
        · rw [← hent k' d j _ h2]
          · exact h3
          · rintro rfl
            rw [entry_weighted h h2] at h3
            cases h3
    rw [e1, e2]
  · have hok : ∀ k' d, (d = 0 ∨ d < t.a2a.nr) → ∀ j < n - 1,
        ∃ v, avgEntry gm t ind k' d j = .ok v := by
      intro k' d hd' j hj
      rcases entry_ok_or (gm := gm) h hc hi k' d hj with hok | he
      · exact hok
      · exact absurd ⟨k', d, j, hd', hj, he.1⟩ hbad
    obtain ⟨tab, htab⟩ := a2aAvgs_ok_of (gm := gm) (t := t) (ind := ind)
      (fun k' d hd' j hj => hok k' d hd' j (by rw [hnc] at hj; exact hj))
    obtain ⟨tab', htab'⟩ := a2aAvgs_ok_of (gm := gm) (t := t') (ind := ind)
      (fun k' d hd' j hj => by
        rw [hnc'] at hj
        by_cases hk' : k' = .weighted
        · subst hk'; exact ⟨_, entry_weighted h' hj d⟩
        · rw [← hent k' d j hk' hj]
          refine hok k' d ?_ j hj
          rw [h.a2a_nr hc, ← h'.a2a_nr hc']; exact hd')
    rw [htab, htab']
    obtain ⟨_, vals, h1, h2⟩ := a2aAvgs_lookup htab (k := kind) (d := k)
      (Or.inr (by rw [h.a2a_nr hc]; exact hkn))
    obtain ⟨_, vals', h3, h4⟩ := a2aAvgs_lookup htab' (k := kind) (d := k)
      (Or.inr (by rw [h'.a2a_nr hc']; exact hkn))
    have : vals = vals' := by
      rw [hnc] at h2; rw [hnc'] at h4
      rw [mapM_congr' (fun j hj => hent kind k j hk (List.mem_range.1 hj)), h4] at h2
      injection h2 with h2; exact h2.symm
    show Except.ok (tab.rows.lookup (avgLabel kind k)) = Except.ok (tab'.rows.lookup (avgLabel kind k))
    rw [h1, h3, this]

/-- A history of finite assignments gives an indicator as used above. -/
theorem indOn_of_history {t : Tri K} {n : ℕ} {c : ℕ → ℕ → K} (h : Spec.Stair t n c)
    (hc : ∀ i j, i + j < n → c i j ≠ 0) (l : List (Assign K))
    (hl : ∀ a ∈ l, a.origin ∈ t.a2a.origins ∧ a.dev ∈ t.a2a.devs)
    (hfin : ∀ a ∈ l, ∃ x, a.value = .fin x) :
    ∃ s w, IndState.assignAll (IndState.read { tri := t }).1 l = .ok s ∧ s.tri = t ∧
      IndOn t s.read.2 n w ∧ ∀ i j, i + j + 1 < n →
        .fin (w i j) = (Spec.lastAssigned l (t.oAt i) (t.dAt j)).getD (.fin 1) := by
  obtain ⟨s, h1, h2, _, h4, h5, h6⟩ := C23_a2aind_partial t l hl
  obtain ⟨ha, hb, hcell⟩ := h.a2a_spec hc
  have hval : ∀ i j, i + j + 1 < n → ∃ x,
      (Spec.lastAssigned l (t.oAt i) (t.dAt j)).getD (.fin 1) = .fin x := by
    intro i j _
    cases e : Spec.lastAssigned l (t.oAt i) (t.dAt j) with
    | none => exact ⟨1, rfl⟩
    | some v =>
      unfold Spec.lastAssigned at e
      obtain ⟨a, ha', rfl⟩ := Option.map_eq_some_iff.1 e
      obtain ⟨x, hx⟩ := hfin a (List.mem_reverse.1 (List.mem_of_find?_eq_some ha'))
      exact ⟨x, hx⟩
  have hcells : ∀ i j, i + j + 1 < n → s.read.2.cell i j =
      (Spec.lastAssigned l (t.oAt i) (t.dAt j)).getD (.fin 1) := by
    intro i j hij
    have hoAt : t.a2a.oAt i = t.oAt i := by
      unfold Tri.oAt at *
      rw [ha, List.getD_eq_getElem?_getD, List.getElem?_map, List.getElem?_range (by omega)]
      rfl
    have hdAt : t.a2a.dAt j = t.dAt j := by
      unfold Tri.dAt at *
      rw [hb, List.getD_eq_getElem?_getD, List.getElem?_map, List.getElem?_range (by omega)]
      rfl
    rw [h6 i (by rw [h.a2a_nr hc]; omega) j (by rw [h.a2a_nc hc]; omega), hoAt, hdAt]
    cases Spec.lastAssigned l (t.oAt i) (t.dAt j) with
    | some v => rfl
    | none =>
      simp only [Option.getD_none]
      rw [if_neg]
      rw [hcell i (by omega) j (by omega), if_pos hij]; simp
  refine ⟨s, fun i j => match (Spec.lastAssigned l (t.oAt i) (t.dAt j)).getD (.fin 1) with
    | .fin x => x
    | _ => 0, h1, h2, ⟨h4, h5, ?_⟩, ?_⟩
  · intro i j hij
    obtain ⟨x, hx⟩ := hval i j hij
    rw [hcells i j hij, hx]
  · intro i j hij
    obtain ⟨x, hx⟩ := hval i j hij
    simp only [hx]

example : IndOn exTri (exTri.a2aind0.setAt 2001 1 0) 4
    (fun i j => if i = 0 ∧ j = 0 then 0 else 1) := by
  refine ⟨by decide +kernel, by decide +kernel, ?_⟩
  intro i j h
  have : ∀ i < 4, ∀ j < 4, i + j + 1 < 4 → (exTri.a2aind0.setAt 2001 1 0).cell i j =
      .fin (if i = 0 ∧ j = 0 then 0 else 1) := by decide +kernel
  exact this i (by omega) j (by omega) h

/-! ## C27 -/

/-- **C27 is false of the code**: excluding only the most recent link ratio of the first period (two
others remain) makes `a2a_avgs()` raise `IndexError`. -/
theorem C27_exclusion_fails :
    (a2aAvgs (fun _ => .nan) exTri (exTri.a2aind0.setAt 2003 1 0)).map (fun tab => tab.devs) =
      .error .indexError := by decide +kernel

theorem adjRatios_last {n : ℕ} {c w : ℕ → ℕ → K} {j : ℕ} (hj : j < n - 1) :
    adjRatios n c w j = (List.range (n - 2 - j)).map (fun i => c i (j + 1) / c i j * w i j) ++
      [c (n - 2 - j) (j + 1) / c (n - 2 - j) j * w (n - 2 - j) j] := by
  unfold adjRatios
  have : n - 1 - j = n - 2 - j + 1 := by omega
  rw [this, List.range_succ, List.map_append]
  rfl

/-- **C27, part that holds**: with exclusions (indicator values 0 and 1) on a positive staircase,
`a2a_avgs()` returns exactly when the most recent link ratio of every development period is kept, and
otherwise raises `IndexError`.  Missing: exclusion sets that remove a most recent link ratio. -/
theorem C27_exclusion_partial (gm : List (Num K) → Num K) {t ind : Tri K} {n : ℕ}
    {c w : ℕ → ℕ → K} (h : Spec.Stair t n c) (hp : Spec.Positive n c) (hi : IndOn t ind n w)
    (hw : ∀ i j, i + j + 1 < n → w i j = 0 ∨ w i j = 1) :
    ((∀ j < n - 1, w (n - 2 - j) j = 1) → ∃ tab, a2aAvgs gm t ind = .ok tab) ∧
    ((∃ j < n - 1, w (n - 2 - j) j = 0) → a2aAvgs gm t ind = .error .indexError) := by
  have hc := hp.ne_zero
  have hnc := adj_nc h hc hi
  constructor
  · intro hkeep
    apply a2aAvgs_ok_of
    intro k d _ j hj
    rw [hnc] at hj
    rcases entry_ok_or (gm := gm) h hc hi k d hj with hok | ⟨_, he⟩
    · exact hok
    · exfalso
      rw [List.filter_eq_nil_iff] at he
      have hlast : c (n - 2 - j) (j + 1) / c (n - 2 - j) j * w (n - 2 - j) j ∈
          Spec.lastN d (adjRatios n c w j) := by
        rw [adjRatios_last hj]
        unfold Spec.lastN
        split
        · simp
        · rw [List.drop_append_of_le_length]
          · simp
          · simp; omega
      apply he _ hlast
      rw [hkeep j hj, mul_one, decide_eq_true_eq]
      exact div_pos (hp _ _ (by omega)) (hp _ _ (by omega))
  · rintro ⟨j, hj, hzero⟩
    apply a2aAvgs_error_of
    · intro k d _ j hj
      rw [hnc] at hj
      rcases entry_ok_or (gm := gm) h hc hi k d hj with hok | he
      · exact Or.inl hok
      · exact Or.inr he.1
    · refine ⟨.medial, if n = 2 then 0 else 1, j, ?_, by rw [hnc]; exact hj, ?_⟩
      · rw [h.a2a_nr hc]
        split
        · left; rfl
        · right; omega
      · rw [entry_medial h hc hi hj]
        have : Spec.lastN (if n = 2 then 0 else 1) (adjRatios n c w j) =
            [c (n - 2 - j) (j + 1) / c (n - 2 - j) j * w (n - 2 - j) j] := by
          rw [adjRatios_last hj]
          split
          · rename_i e
            subst e
            have : j = 0 := by omega
            subst this
            rfl
          · unfold Spec.lastN
            rw [if_neg (by omega), List.length_append, List.length_singleton]
            rw [Nat.add_sub_cancel, List.drop_left]
        rw [this, hzero, mul_zero]
        simp [medialAvg_nil]

/-- Exclusions that C27 covers: all but the most recent link ratio of period 1. -/
example : (a2aAvgs (fun _ => .nan) exTri
      ((exTri.a2aind0.setAt 2001 1 0).setAt 2002 1 0)).map
      (fun tab => (Spec.entry tab "all-medial" 0, Spec.entry tab "simple-2" 0)) =
    .ok (some (.fin (7/5)), some (.fin (7/5))) := by decide +kernel

/-! ## C28 -/

/-- **C28.** The medial average of a non-empty list of numbers with smallest value `lo` and largest
value `hi`: the common value if all are equal, the mean of at most two values, and otherwise the mean
of what remains after removing every occurrence of `lo` and `hi` (missing when nothing remains).  A
number returned lies between `lo` and `hi`. -/
theorem C28_medial {l : List K} {lo hi : K} (hlo : lo ∈ l) (hlo' : ∀ x ∈ l, lo ≤ x)
    (hhi : hi ∈ l) (hhi' : ∀ x ∈ l, x ≤ hi) :
    ∃ v, medialAvg (l.map Num.fin) = .ok v ∧
      (lo = hi → v = .fin lo) ∧
      (l.length ≤ 2 → v = .fin (Spec.mean l)) ∧
      (2 < l.length → lo ≠ hi →
        (l.filter (fun x => x ≠ lo ∧ x ≠ hi) = [] → v = .nan) ∧
        (l.filter (fun x => x ≠ lo ∧ x ≠ hi) ≠ [] →
          v = .fin (Spec.mean (l.filter (fun x => x ≠ lo ∧ x ≠ hi))))) ∧
      ∀ x, v = .fin x → lo ≤ x ∧ x ≤ hi := by
  have hne : l ≠ [] := by rintro rfl; simp at hlo
  refine ⟨_, medialAvg_spec hlo hlo' hhi hhi', ?_, ?_, ?_, ?_⟩
  · intro e; rw [if_pos e]
  · intro e
    by_cases e' : lo = hi
    · rw [if_pos e']
      congr 1
      exact le_antisymm (le_mean hne hlo') (e' ▸ mean_le hne hhi')
    · rw [if_neg e', if_pos e]
  · intro e e'
    rw [if_neg e', if_neg (by omega)]
    exact ⟨fun h => if_pos h, fun h => if_neg h⟩
  · intro x hx
    split at hx
    · rename_i e
      injection hx with hx
      subst hx
      exact ⟨le_refl _, e.le⟩
    · split at hx
      · injection hx with hx
        subst hx
        exact ⟨le_mean hne hlo', mean_le hne hhi'⟩
      · split at hx
        · cases hx
        · rename_i hf
          injection hx with hx
          subst hx
          refine ⟨le_mean hf ?_, mean_le hf ?_⟩
          · intro y hy; exact hlo' y (List.mem_of_mem_filter hy)
          · intro y hy; exact hhi' y (List.mem_of_mem_filter hy)

/-- **C28 (table).** The medial rows of `a2a_avgs()` are medial averages of the last `k` link
ratios. -/
theorem C28_medial_table (gm : List (Num K) → Num K) {t : Tri K} {n : ℕ} {c : ℕ → ℕ → K}
    (h : Spec.Stair t n c) (hp : Spec.Positive n c) :
    ∃ tab, a2aAvgs gm t t.a2aind0 = .ok tab ∧ ∀ k < n - 1, ∀ j < n - 1, ∃ v,
      medialAvg ((Spec.lastN k (Spec.ratios n c j)).map Num.fin) = .ok v ∧
      Spec.entry tab (Spec.avgName "medial" k) j = some v := by
  obtain ⟨tab, htab⟩ := a2aAvgs_noexcl_ok gm h hp
  refine ⟨tab, htab, ?_⟩
  intro k hk j hj
  have hne := lastN_ne_nil k (ratios_ne_nil (c := c) hj)
  obtain ⟨lo, hi, h1, h2, h3, h4⟩ := exists_min_max hne
  refine ⟨_, medialAvg_spec h1 h2 h3 h4, ?_⟩
  apply entry_noexcl h hp htab .medial hk hj
  rw [entry_medial h hp.ne_zero (h.indOn0 hp.ne_zero) hj, window_noexcl hp,
    medialAvg_spec h1 h2 h3 h4]

example : medialAvg (([3, 1, 2, 1, 5, 5] : List ℚ).map Num.fin) = .ok (.fin (5/2)) ∧
    medialAvg (([3, 1, 1] : List ℚ).map Num.fin) = .ok .nan := by
  constructor <;> decide +kernel

/-! ## C29 -/

theorem wOrigins_long {n d j : ℕ} (h : n - 1 - j ≤ d) : wOrigins n d j = wOrigins n 0 j := by
  unfold wOrigins
  rw [lastN_of_length_le (by simpa using h)]
  rfl

/-- **C29.** An average over at least as many years as there are link ratios in a column equals the
"all-" average of that column, for every type of average and with any exclusions. -/
theorem C29_long_window (gm : List (Num K) → Num K) {t ind : Tri K} {n : ℕ} {c w : ℕ → ℕ → K}
    (h : Spec.Stair t n c) (hc : ∀ i j, i + j < n → c i j ≠ 0) (hi : IndOn t ind n w)
    {tab : AvgTable K} (htab : a2aAvgs gm t ind = .ok tab) (kind : AvgKind)
    {k j : ℕ} (hk : k < n - 1) (hj : j < n - 1) (hlong : n - 1 - j ≤ k) :
    ∃ v, Spec.entry tab (Spec.avgName kind.name k) j = some v ∧
      Spec.entry tab ("all-" ++ kind.name) j = some v := by
  have hj' : j < (Tri.alignOp (· * ·) t.a2a ind).nc := by rw [adj_nc h hc hi]; exact hj
  have hd0 : 0 = 0 ∨ 0 < t.a2a.nr := Or.inl rfl
  obtain ⟨v, hv⟩ := a2aAvgs_ok_entry htab kind hd0 hj'
  refine ⟨v, entry_of_ok htab kind (Or.inr (by rw [h.a2a_nr hc]; exact hk)) hj' ?_,
    entry_of_ok htab kind hd0 hj' hv⟩
  rw [← hv]
  have hl : Spec.lastN k (adjRatios n c w j) = Spec.lastN 0 (adjRatios n c w j) := by
    rw [lastN_of_length_le (by simpa [adjRatios] using hlong)]; rfl
  cases kind with
  | simple => rw [entry_simple h hc hi hj, entry_simple h hc hi hj, hl]
  | geometric => rw [entry_geometric h hc hi hj, entry_geometric h hc hi hj, hl]
  | medial => rw [entry_medial h hc hi hj, entry_medial h hc hi hj, hl]
  | weighted => rw [entry_weighted h hj, entry_weighted h hj, wOrigins_long hlong]

example : (a2aAvgs (fun _ => .nan) exTri exTri.a2aind0).map (fun tab =>
    (Spec.entry tab "weighted-2" 1, Spec.entry tab "all-weighted" 1)) =
    .ok (some (.fin (400/326)), some (.fin (400/326))) := by decide +kernel

end

end Trikit
