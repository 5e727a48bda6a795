import Verif.TblLemmas
import Verif.Props.Construct
import Mathlib.Algebra.Order.Field.Rat

/-! # Cumulative triangles built from records (C04, C05, C06, C12) -/

set_option linter.unusedSectionVars false

namespace Trikit

variable {K : Type} [Field K] [LinearOrder K]

/-- Finite record values. -/
def FiniteRecs (recs : List (Rec K)) : Prop := ∀ r ∈ recs, ∃ x, r.value = .fin x

theorem FiniteRecs.tame {recs : List (Rec K)} (h : FiniteRecs recs) : TameRecs recs :=
  fun r hr => Or.inr (h r hr)


theorem sumSkip_eq_sum {l : List (Num K)} (h : ∀ v ∈ l, ∃ x, v = .fin x) :
    Num.sumSkip l = l.sum := by
  unfold Num.sumSkip
  rw [List.filter_eq_self.2]
  intro v hv
  obtain ⟨x, rfl⟩ := h v hv
  rfl

theorem recordsAt_cum_single {pre post : List (Rec K)} {r : Rec K}
    (huniq : ∀ s ∈ pre ++ post, ¬ (s.origin = r.origin ∧ s.dev = r.dev)) :
    Spec.recordsAt (cumRecs (pre ++ r :: post)) r.origin r.dev =
      [{ r with value := cumValue pre r }] := by
  rw [recordsAt_eq, cumRecs_split, List.filter_append, List.filter_cons]
  have hnil : ∀ (acc : Int → Num K) (l : List (Rec K)),
      (∀ s ∈ l, ¬ (s.origin = r.origin ∧ s.dev = r.dev)) →
      (cumGo acc l).filter (fun s => decide (s.origin = r.origin ∧ s.dev = r.dev)) = [] := by
    intro acc l hl
    rw [List.filter_eq_nil_iff]
    intro s hs
    have hk := cumGo_sameKeys acc l
    have : (s.origin, s.dev) ∈ l.map (fun r => (r.origin, r.dev)) := by
      rw [← hk]; exact List.mem_map_of_mem (f := fun r : Rec K => (r.origin, r.dev)) hs
    obtain ⟨s', hs', he⟩ := List.mem_map.1 this
    simp only [Prod.mk.injEq] at he
    have := hl s' hs'
    rw [he.1, he.2] at this
    simpa using this
  have h1 := hnil (fun _ => 0) pre (fun s hs => huniq s (by simp [hs]))
  have h2 := hnil (accAfter (fun _ => 0) (pre ++ [r])) post (fun s hs => huniq s (by simp [hs]))
  unfold cumRecs
  rw [h1, h2]
  simp

/-- With the rows of each origin in development order, the accumulated value of the only record of a
cell is the running total. -/
theorem cumValue_runningTotal {pre post : List (Rec K)} {r : Rec K}
    (hfin : FiniteRecs (pre ++ r :: post)) (hord : DevOrdered (pre ++ r :: post))
    (huniq : ∀ s ∈ pre ++ post, ¬ (s.origin = r.origin ∧ s.dev = r.dev)) :
    cumValue pre r = Spec.runningTotal (pre ++ r :: post) r.origin r.dev := by
  unfold cumValue Spec.runningTotal
  obtain ⟨x, hx⟩ := hfin r (by simp)
  rw [hx]
  simp only [Num.isNaN_fin, Bool.false_eq_true, if_false]
  unfold DevOrdered at hord
  rw [List.pairwise_append, List.pairwise_cons] at hord
  obtain ⟨hp, ⟨hrp, _⟩, hcross⟩ := hord
  rw [List.filter_append, List.filter_cons]
  have h1 : pre.filter (fun s => decide (s.origin = r.origin ∧ s.dev ≤ r.dev)) =
      pre.filter (fun s => decide (s.origin = r.origin)) := by
    apply List.filter_congr
    intro s hs
    have := hcross s hs r (by simp)
    by_cases ho : s.origin = r.origin
    · simp [ho, this ho]
    · simp [ho]
  have h2 : post.filter (fun s => decide (s.origin = r.origin ∧ s.dev ≤ r.dev)) = [] := by
    rw [List.filter_eq_nil_iff]
    intro s hs
    have ha := hrp s hs
    have hb := huniq s (by simp [hs])
    simp only [decide_eq_true_eq, not_and]
    intro ho hle
    exact hb ⟨ho, le_antisymm hle (ha ho.symm)⟩
  rw [h1, h2]
  simp only [le_refl, and_self, decide_true, if_true, List.map_append, List.sum_append,
    List.map_cons, List.map_nil, List.sum_cons, List.sum_nil, hx]
  unfold originValues
  rw [sumSkip_eq_sum]
  · simp [Num.zero_def]
  · intro v hv
    obtain ⟨s, hs, rfl⟩ := List.mem_map.1 hv
    exact hfin s (by simp [(List.mem_filter.1 hs).1])

theorem contribution_eq {recs : List (Rec K)} {r : Rec K}
    (h : (∀ s ∈ recs, r.dev ≤ s.dev) → Num.le r.value 0 = false) :
    Spec.contribution recs r = r.value := by
  unfold Spec.contribution
  rw [if_neg]
  rintro ⟨h1, h2⟩
  rw [h h1] at h2; exact absurd h2 (by simp)

theorem preFill_cell_single {pre post : List (Rec K)} {r : Rec K} {i j : ℕ}
    (huniq : ∀ s ∈ pre ++ post, ¬ (s.origin = r.origin ∧ s.dev = r.dev))
    {x : K} (hv : cumValue pre r = .fin x)
    (hpos : (∀ s ∈ pre ++ r :: post, r.dev ≤ s.dev) → 0 < x)
    (ho : (preFill (pre ++ r :: post)).origins[i]? = some r.origin)
    (hd : (preFill (pre ++ r :: post)).devs[j]? = some r.dev) :
    (preFill (pre ++ r :: post)).cell i j = .fin x := by
  unfold preFill at ho hd ⊢
  rw [pivot_cell ho hd, groupCell_negHandler]
  unfold Spec.incrCell
  rw [recordsAt_cum_single huniq]
  simp only [List.cons_ne_nil, if_false, List.map_cons, List.map_nil]
  rw [contribution_eq, hv]
  · simp [Num.zero_def]
  · intro h
    simp only [hv, Num.zero_def, Num.le_fin, decide_eq_false_iff_not, not_le]
    apply hpos
    intro s hs
    have hk := cumRecs_sameKeys (pre ++ r :: post)
    have : (s.origin, s.dev) ∈ (cumRecs (pre ++ r :: post)).map (fun r => (r.origin, r.dev)) := by
      rw [hk]; exact List.mem_map_of_mem (f := fun r : Rec K => (r.origin, r.dev)) hs
    obtain ⟨s', hs', he⟩ := List.mem_map.1 this
    simp only [Prod.mk.injEq] at he
    have := h s' hs'
    rw [he.2] at this
    exact this

theorem runningTotal_fin {recs : List (Rec K)} (hfin : FiniteRecs recs) (o d : Int) :
    ∃ x, Spec.runningTotal recs o d = .fin x := by
  unfold Spec.runningTotal
  rw [← sumSkip_eq_sum]
  · apply Num.sumSkip_tame
    intro v hv
    obtain ⟨s, hs, rfl⟩ := List.mem_map.1 hv
    exact Or.inr (hfin s (List.mem_filter.1 hs).1)
  · intro v hv
    obtain ⟨s, hs, rfl⟩ := List.mem_map.1 hv
    exact hfin s (List.mem_filter.1 hs).1

/-! ## C05 -/

/-- **C05 is false of the code**: two records for the same cell are counted twice (running totals 15
and 22 are added to 37, where the total recorded for the origin is 22). -/
theorem C05_duplicates_fail : ∃ recs : List (Rec ℚ), DevOrdered recs ∧ FiniteRecs recs ∧
    Spec.runningTotal recs 1 2 = .fin 22 ∧
    dumpE (totriCum recs) = .ok ([1], [1, 2], [[.fin 10, .fin 37]]) := by
  refine ⟨[⟨1, 1, .fin 10⟩, ⟨1, 2, .fin 5⟩, ⟨1, 2, .fin 7⟩], ?_, ?_, ?_, ?_⟩
  · unfold DevOrdered; decide +kernel
  · intro r hr; simp at hr; rcases hr with rfl | rfl | rfl <;> exact ⟨_, rfl⟩
  · decide +kernel
  · decide +kernel

/-- **C05, part that holds**: for rows in development order, a cell with exactly one record `r` equals
the total recorded for its origin up to its period, also when earlier cells of that origin have
several records.  (First-period cells: provided that total is positive.)  Missing: cells that carry
several records themselves, which are over-counted. -/
theorem C05_duplicates_partial {recs pre post : List (Rec K)} {r : Rec K}
    (hrecs : recs = pre ++ r :: post) (hfin : FiniteRecs recs) (hord : DevOrdered recs)
    (huniq : ∀ s ∈ pre ++ post, ¬ (s.origin = r.origin ∧ s.dev = r.dev))
    (hpos : (∀ s ∈ recs, r.dev ≤ s.dev) →
      Num.lt 0 (Spec.runningTotal recs r.origin r.dev) = true) :
    ∃ t, totriCum recs = .ok t ∧
      Spec.CellIs t r.origin r.dev (Spec.runningTotal recs r.origin r.dev) := by
  subst hrecs
  obtain ⟨t, h1, h2, h3, h4⟩ := totriCum_ok (by simp) hfin.tame
  refine ⟨t, h1, ?_⟩
  obtain ⟨x, hx⟩ := runningTotal_fin hfin r.origin r.dev
  have hcv := cumValue_runningTotal hfin hord huniq
  have ho : r.origin ∈ (preFill (pre ++ r :: post)).origins := by
    unfold preFill
    rw [pivot_origins, mem_labels, (negHandler_sameKeys _).origins, (cumRecs_sameKeys _).origins]
    simp
  have hd : r.dev ∈ (preFill (pre ++ r :: post)).devs := by
    unfold preFill
    rw [pivot_devs, mem_labels, (negHandler_sameKeys _).devs, (cumRecs_sameKeys _).devs]
    simp
  obtain ⟨i, hi⟩ := List.getElem?_of_mem ho
  obtain ⟨j, hj⟩ := List.getElem?_of_mem hd
  have hcell := preFill_cell_single huniq (x := x) (hcv.trans hx)
    (fun h => by have := hpos h; simpa [hx, Num.zero_def] using this) hi hj
  refine ⟨i, j, by rw [h2, hi], by rw [h3, hj], ?_⟩
  rw [h4 i j (by rw [← h3] at hj; exact (List.getElem?_eq_some_iff.1 hj).1)]
  rw [fillRow_observed (by rw [hcell]; simp), hcell, hx]

/-! ## C04 -/

theorem exists_split_of_mem {α : Type} {l : List α} {a : α} (h : a ∈ l) :
    ∃ pre post, l = pre ++ a :: post := List.append_of_mem h

theorem OnePerCell.split {pre post : List (Rec K)} {r : Rec K}
    (h : OnePerCell (pre ++ r :: post)) :
    ∀ s ∈ pre ++ post, ¬ (s.origin = r.origin ∧ s.dev = r.dev) := by
  unfold OnePerCell at h
  rw [List.pairwise_append, List.pairwise_cons] at h
  intro s hs
  rcases List.mem_append.1 hs with hs | hs
  · exact h.2.2 s hs r (by simp)
  · intro hc; exact h.2.1.1 s hs ⟨hc.1.symm, hc.2.symm⟩

/-- **C04.** One finite record per cell, rows of each origin in development order, positive
first-period values: every recorded cell of the cumulative triangle is the running total. -/
theorem C04_cum_cells {recs : List (Rec K)} (hne : recs ≠ []) (hfin : FiniteRecs recs)
    (hone : OnePerCell recs) (hord : DevOrdered recs)
    (hpos : ∀ r ∈ recs, (∀ s ∈ recs, r.dev ≤ s.dev) → Num.lt 0 r.value = true) :
    ∃ t, totriCum recs = .ok t ∧ Spec.HasLabelsOf t recs ∧
      ∀ r ∈ recs, ∀ i j, t.origins[i]? = some r.origin → t.devs[j]? = some r.dev →
        t.cell i j = Spec.runningTotal recs r.origin r.dev := by
  obtain ⟨t, h1, h2, h3, h4⟩ := totriCum_ok hne hfin.tame
  refine ⟨t, h1, ?_, ?_⟩
  · have := pivot_hasLabels recs (negHandler (cumRecs recs))
      ((negHandler_sameKeys _).trans (cumRecs_sameKeys recs))
    unfold Spec.HasLabelsOf
    rw [h2, h3]; exact this
  · intro r hr i j hi hj
    obtain ⟨pre, post, hsplit⟩ := exists_split_of_mem hr
    subst hsplit
    obtain ⟨x, hx⟩ := runningTotal_fin hfin r.origin r.dev
    have hcv := cumValue_runningTotal hfin hord hone.split
    have hj' := (List.getElem?_eq_some_iff.1 hj).1
    rw [h2] at hi
    rw [h3] at hj
    have hcell := preFill_cell_single (i := i) (j := j) hone.split (x := x) (hcv.trans hx) ?_ hi hj
    · rw [h4 i j hj', fillRow_observed (by rw [hcell]; simp), hcell, hx]
    · intro hmin
      have hp := hpos r hr hmin
      -- in the first period the running total is the value itself
      have hrt : Spec.runningTotal (pre ++ r :: post) r.origin r.dev = r.value := by
        rw [← hcv]
        unfold cumValue
        have : originValues pre r.origin = [] := by
          unfold originValues
          rw [List.map_eq_nil_iff, List.filter_eq_nil_iff]
          intro s hs
          simp only [decide_eq_true_eq]
          intro ho
          have hle : s.dev ≤ r.dev := by
            unfold DevOrdered at hord
            rw [List.pairwise_append] at hord
            exact hord.2.2 s hs r (by simp) ho
          exact hone.split s (by simp [hs]) ⟨ho, le_antisymm hle (hmin s (by simp [hs]))⟩
        rw [this]
        obtain ⟨y, hy⟩ := hfin r (by simp)
        simp [hy, Num.zero_def]
      rw [hrt] at hx
      simpa [hx, Num.zero_def] using hp

/-- Concrete case for C04: interleaved origins, one with a gap and a negative increment. -/
def exRecs4 : List (Rec ℚ) :=
  [⟨2001, 1, .fin 10⟩, ⟨2002, 1, .fin 4⟩, ⟨2001, 2, .fin 5⟩, ⟨2002, 3, .fin (-1)⟩,
   ⟨2001, 3, .fin 2⟩]

example : exRecs4 ≠ [] ∧ FiniteRecs exRecs4 ∧ OnePerCell exRecs4 ∧ DevOrdered exRecs4 ∧
    (∀ r ∈ exRecs4, (∀ s ∈ exRecs4, r.dev ≤ s.dev) → Num.lt 0 r.value = true) ∧
    dumpE (totriCum exRecs4) = .ok ([2001, 2002], [1, 2, 3],
      [[.fin 10, .fin 15, .fin 17], [.fin 4, .nan, .fin 3]]) := by
  refine ⟨by decide +kernel, ?_, ?_, ?_, ?_, ?_⟩
  · intro r hr; simp [exRecs4] at hr; rcases hr with rfl | rfl | rfl | rfl | rfl <;> exact ⟨_, rfl⟩
  · unfold OnePerCell; decide +kernel
  · unfold DevOrdered; decide +kernel
  · decide +kernel
  · decide +kernel

/-! ## C12 -/

/-- **C12.** What `totri(..., tri_type="cum")` returns on any non-empty list of finite or missing
records, compared with the accumulated triangle `u` (`CumTriangle` before filling): same labels, and
every cell is the accumulated value where there is one, 1 for a missing first-period cell, the cell
to its left for a missing later cell with an observed cell at or below it in its column, and missing
otherwise. -/
theorem C12_fill {recs : List (Rec K)} (hne : recs ≠ [])
    (htame : ∀ r ∈ recs, FiniteOrMissing r.value) :
    ∃ u t, cumTri recs = .ok u ∧ totriCum recs = .ok t ∧
      t.origins = u.origins ∧ t.devs = u.devs ∧
      (∀ i < u.nr, ∀ j < u.nc, u.cell i j ≠ .nan → t.cell i j = u.cell i j) ∧
      (∀ i < u.nr, u.cell i 0 = .nan → t.cell i 0 = 1) ∧
      (∀ i < u.nr, ∀ j, j + 1 < u.nc → u.cell i (j + 1) = .nan →
        ((∃ r, i ≤ r ∧ r < u.nr ∧ u.cell r (j + 1) ≠ .nan) → t.cell i (j + 1) = t.cell i j) ∧
        ((∀ r, i ≤ r → r < u.nr → u.cell r (j + 1) = .nan) → t.cell i (j + 1) = .nan)) := by
  have htame' : TameRecs recs := htame
  obtain ⟨t, h1, h2, h3, h4⟩ := totriCum_ok hne htame'
  have hcols := preFill_colsObserved htame'
  have hnc : t.nc = (preFill recs).nc := by unfold Tri.nc; rw [h3]
  refine ⟨preFill recs, t, cumTri_eq hne, h1, h2, h3, ?_, ?_, ?_⟩
  · intro i _ j hj hobs
    rw [h4 i j (hnc ▸ hj), fillRow_observed hobs]
  · intro i _ hn
    by_cases hz : 0 < t.nc
    · rw [h4 i 0 hz]; unfold fillRow; simp [hn]
    · exfalso
      have hl : (preFill recs).devs = [] := by
        rw [← h3]; exact List.length_eq_zero_iff.1 (by unfold Tri.nc at hz; omega)
      have hne' := cumRecs_ne_nil hne
      obtain ⟨r, hr⟩ := List.exists_mem_of_ne_nil _ hne
      have : r.dev ∈ (preFill recs).devs := by
        unfold preFill
        rw [pivot_devs, mem_labels, (negHandler_sameKeys _).devs, (cumRecs_sameKeys _).devs]
        exact List.mem_map_of_mem hr
      rw [hl] at this; simp at this
  · intro i hi j hj hn
    have hj1 : j + 1 < t.nc := hnc ▸ hj
    have hni : ((preFill recs).cell i (j + 1)).isNaN = true := (Num.isNaN_iff _).2 hn
    constructor
    · intro hex
      have hind := (Tri.triindAt_false hi (hcols (j + 1) hj)).2 hex
      rw [h4 i (j + 1) hj1, h4 i j (by omega)]
      conv_lhs => unfold fillRow
      rw [if_pos ⟨hind, hni⟩]
    · intro hall
      have hind : ¬ (preFill recs).triindAt i (j + 1) = false := by
        rw [Tri.triindAt_false hi (hcols (j + 1) hj)]
        rintro ⟨r, ha, hb, hc⟩; exact hc (hall r ha hb)
      rw [h4 i (j + 1) hj1]
      unfold fillRow
      rw [if_neg (fun h => hind h.1), hn]

/-- Concrete case for C12: all four kinds of cells occur. -/
def exRecs12 : List (Rec ℚ) :=
  [⟨2001, 2, .fin 5⟩, ⟨2001, 3, .fin 2⟩, ⟨2002, 1, .fin 4⟩, ⟨2002, 3, .fin 1⟩,
   ⟨2003, 1, .fin 9⟩, ⟨2003, 2, .fin 3⟩]

example : exRecs12 ≠ [] ∧ (∀ r ∈ exRecs12, FiniteOrMissing r.value) ∧
    dumpE (cumTri exRecs12) = .ok ([2001, 2002, 2003], [1, 2, 3],
      [[.nan, .fin 5, .fin 7], [.fin 4, .nan, .fin 5], [.fin 9, .fin 12, .nan]]) ∧
    dumpE (totriCum exRecs12) = .ok ([2001, 2002, 2003], [1, 2, 3],
      [[.fin 1, .fin 5, .fin 7], [.fin 4, .fin 4, .fin 5], [.fin 9, .fin 12, .nan]]) := by
  refine ⟨by decide +kernel, ?_, by decide +kernel, by decide +kernel⟩
  intro r hr; simp [exRecs12] at hr
  rcases hr with rfl | rfl | rfl | rfl | rfl | rfl <;> exact Or.inr ⟨_, rfl⟩

/-! ## C06 -/

/-- **C06 is false of the code**: a missing value recorded in the first period becomes a zero in both
triangle types (the group sum of nothing is 0, after the negative handler has run). -/
theorem C06_first_column_fails : ∃ recs : List (Rec ℚ),
    (∀ r ∈ recs, FiniteOrMissing r.value) ∧
    dumpE (totriIncr recs) = .ok ([1, 2], [1, 2], [[.fin 0, .fin 5], [.fin 3, .nan]]) ∧
    dumpE (totriCum recs) = .ok ([1, 2], [1, 2], [[.fin 0, .fin 5], [.fin 3, .nan]]) := by
  refine ⟨[⟨1, 1, .nan⟩, ⟨1, 2, .fin 5⟩, ⟨2, 1, .fin 3⟩], ?_, by decide +kernel, by decide +kernel⟩
  intro r hr; simp at hr
  rcases hr with rfl | rfl | rfl
  · exact Or.inl rfl
  · exact Or.inr ⟨_, rfl⟩
  · exact Or.inr ⟨_, rfl⟩

variable [IsStrictOrderedRing K]

theorem sum_pos_fin {l : List (Num K)} (hne : l ≠ []) (h : ∀ v ∈ l, ∃ x, v = .fin x ∧ 0 < x) :
    ∃ x, l.sum = .fin x ∧ 0 < x := by
  induction l with
  | nil => exact absurd rfl hne
  | cons a l ih =>
    obtain ⟨x, rfl, hx⟩ := h a (by simp)
    by_cases hl : l = []
    · subst hl; exact ⟨x, by simp [Num.zero_def], hx⟩
    · obtain ⟨y, hy, hy0⟩ := ih hl (fun v hv => h v (by simp [hv]))
      exact ⟨x + y, by simp [hy], by linarith⟩

theorem dAt_zero_min {recs : List (Rec K)} (hz : 0 < (pivot recs).nc) :
    ∀ s ∈ recs, (pivot recs).dAt 0 ≤ s.dev := by
  intro s hs
  have hmem : s.dev ∈ (pivot recs).devs := (mem_pivot_devs recs _).2 ⟨s, hs, rfl⟩
  obtain ⟨j, hj⟩ := List.getElem?_of_mem hmem
  have hp : (pivot recs).devs.Pairwise (· < ·) := labels_pairwise _
  obtain ⟨hjl, hje⟩ := List.getElem?_eq_some_iff.1 hj
  have h0 := (pivot recs).devs_get hz
  obtain ⟨h0l, h0e⟩ := List.getElem?_eq_some_iff.1 h0
  rcases Nat.eq_zero_or_pos j with rfl | hpos
  · rw [← h0e, ← hje]
  · have := List.pairwise_iff_getElem.1 hp 0 j h0l hjl hpos
    rw [h0e, hje] at this
    exact le_of_lt this

/-- Cells of the first column of a built triangle are missing or positive when the first-period
values are present. -/
theorem pivot_first_pos {recs : List (Rec K)}
    (hfin : ∀ r ∈ recs, (∀ s ∈ recs, r.dev ≤ s.dev) → ∃ x, r.value = .fin x)
    {i : ℕ} (hi : i < (pivot (negHandler recs)).nr) (hz : 0 < (pivot (negHandler recs)).nc) :
    (pivot (negHandler recs)).cell i 0 = .nan ∨
      ∃ x, (pivot (negHandler recs)).cell i 0 = .fin x ∧ 0 < x := by
  rw [pivot_cell' hi hz, groupCell_negHandler]
  unfold Spec.incrCell
  split
  · left; rfl
  · rename_i hne
    right
    have hmin : ∀ s ∈ recs, (pivot (negHandler recs)).dAt 0 ≤ s.dev := by
      intro s hs
      have hk : s.dev ∈ (negHandler recs).map Rec.dev := by
        rw [(negHandler_sameKeys recs).devs]; exact List.mem_map_of_mem hs
      obtain ⟨s', hs', he⟩ := List.mem_map.1 hk
      rw [← he]; exact dAt_zero_min hz s' hs'
    have hvals : ∀ v ∈ (Spec.recordsAt recs ((pivot (negHandler recs)).oAt i)
        ((pivot (negHandler recs)).dAt 0)).map (Spec.contribution recs), ∃ x, v = .fin x ∧ 0 < x := by
      intro v hv
      obtain ⟨r, hr, rfl⟩ := List.mem_map.1 hv
      rw [recordsAt_eq] at hr
      obtain ⟨hr1, hr2⟩ := List.mem_filter.1 hr
      simp only [decide_eq_true_eq] at hr2
      have hm : ∀ s ∈ recs, r.dev ≤ s.dev := fun s hs => hr2.2 ▸ hmin s hs
      obtain ⟨x, hx⟩ := hfin r hr1 hm
      unfold Spec.contribution
      by_cases hc : (∀ s ∈ recs, r.dev ≤ s.dev) ∧ Num.le r.value 0 = true
      · rw [if_pos hc]; exact ⟨1, rfl, one_pos⟩
      · rw [if_neg hc]
        refine ⟨x, hx, ?_⟩
        by_contra hle
        exact hc ⟨hm, by rw [hx, Num.zero_def, Num.le_fin]; simpa using hle⟩
    have hfilter : ((Spec.recordsAt recs ((pivot (negHandler recs)).oAt i)
        ((pivot (negHandler recs)).dAt 0)).map (Spec.contribution recs)).filter (fun v => v ≠ .nan) =
        (Spec.recordsAt recs ((pivot (negHandler recs)).oAt i)
        ((pivot (negHandler recs)).dAt 0)).map (Spec.contribution recs) := by
      rw [List.filter_eq_self]
      intro v hv
      obtain ⟨x, rfl, _⟩ := hvals v hv
      simp
    rw [hfilter]
    exact sum_pos_fin (by simpa using hne) hvals

/-- **C06, part that holds**: when the first-period values are present (no missing value is recorded
there), the first column of the incremental triangle is missing or positive, and that of the
cumulative triangle is positive throughout.  Missing: recorded missing first-period values. -/
theorem C06_first_column_partial {recs : List (Rec K)} (hne : recs ≠ [])
    (htame : ∀ r ∈ recs, FiniteOrMissing r.value)
    (hfirst : ∀ r ∈ recs, (∀ s ∈ recs, r.dev ≤ s.dev) → r.value ≠ .nan) :
    (∃ t, totriIncr recs = .ok t ∧
      ∀ i < t.nr, t.cell i 0 = .nan ∨ ∃ x, t.cell i 0 = .fin x ∧ 0 < x) ∧
    (∃ t, totriCum recs = .ok t ∧ ∀ i < t.nr, ∃ x, t.cell i 0 = .fin x ∧ 0 < x) := by
  have hfin : ∀ r ∈ recs, (∀ s ∈ recs, r.dev ≤ s.dev) → ∃ x, r.value = .fin x := by
    intro r hr hm
    rcases htame r hr with h | h
    · exact absurd h (hfirst r hr hm)
    · exact h
  have hncpos : ∀ l : List (Rec K), SameKeys l recs → 0 < (pivot l).nc := by
    intro l hl
    obtain ⟨r, hr⟩ := List.exists_mem_of_ne_nil _ hne
    have : r.dev ∈ (pivot l).devs := by
      rw [pivot_devs, mem_labels, hl.devs]; exact List.mem_map_of_mem hr
    exact List.length_pos_of_mem this
  constructor
  · refine ⟨pivot (negHandler recs), by simp [totriIncr, incrTri, baseInit, hne], ?_⟩
    intro i hi
    exact pivot_first_pos hfin hi (hncpos _ (negHandler_sameKeys _))
  · obtain ⟨t, h1, h2, h3, h4⟩ := totriCum_ok hne (show TameRecs recs from htame)
    have hk : SameKeys (negHandler (cumRecs recs)) recs :=
      (negHandler_sameKeys _).trans (cumRecs_sameKeys _)
    have hz : 0 < (preFill recs).nc := hncpos _ hk
    refine ⟨t, h1, ?_⟩
    intro i hi
    have hi' : i < (preFill recs).nr := by unfold Tri.nr at hi ⊢; rw [← h2]; exact hi
    rw [h4 i 0 (by unfold Tri.nc; rw [h3]; exact hz)]
    unfold fillRow
    have hfin' : ∀ r ∈ cumRecs recs, (∀ s ∈ cumRecs recs, r.dev ≤ s.dev) →
        ∃ x, r.value = .fin x := by
      intro r hr hm
      -- locate the originating record
      have hcum : ∀ (acc : Int → Num K) (l : List (Rec K)), (∀ o, ∃ x, acc o = .fin x) →
          (∀ s ∈ l, s.value.Tame) →
          ∀ r ∈ cumGo acc l, ∃ s ∈ l, s.dev = r.dev ∧ ((∃ x, s.value = .fin x) → ∃ x, r.value = .fin x) := by
        intro acc l
        induction l generalizing acc with
        | nil => intro _ _ r hr; simp [cumGo] at hr
        | cons a l ih =>
          intro hacc htl r hr
          rw [cumGo_cons] at hr
          split at hr
          · rcases List.mem_cons.1 hr with rfl | hr
            · exact ⟨r, by simp, rfl, fun h => h⟩
            · obtain ⟨s, hs, h⟩ := ih acc hacc (fun s hs => htl s (by simp [hs])) r hr
              exact ⟨s, by simp [hs], h⟩
          · rename_i hn
            have hav : ∃ x, a.value = .fin x := by
              rcases htl a (by simp) with h | h
              · rw [h] at hn; simp at hn
              · exact h
            obtain ⟨x, hx⟩ := hav
            obtain ⟨y, hy⟩ := hacc a.origin
            rcases List.mem_cons.1 hr with rfl | hr
            · exact ⟨a, by simp, rfl, fun _ => ⟨y + x, by simp [hx, hy]⟩⟩
            · obtain ⟨s, hs, h⟩ := ih _ (fun o => by
                by_cases e : o = a.origin
                · subst e; exact ⟨y + x, by simp [hx, hy]⟩
                · simpa [e] using hacc o) (fun s hs => htl s (by simp [hs])) r hr
              exact ⟨s, by simp [hs], h⟩
      obtain ⟨s, hs, hsd, himp⟩ := hcum (fun _ => 0) recs (fun _ => ⟨0, rfl⟩) htame r hr
      apply himp
      apply hfin s hs
      intro s' hs'
      have : s'.dev ∈ (cumRecs recs).map Rec.dev := by
        rw [(cumRecs_sameKeys recs).devs]; exact List.mem_map_of_mem hs'
      obtain ⟨s'', hs'', he⟩ := List.mem_map.1 this
      rw [hsd, ← he]; exact hm s'' hs''
    rcases pivot_first_pos hfin' hi' hz with h | ⟨x, hx, hx0⟩
    · have hn : (preFill recs).cell i 0 = .nan := h
      rw [hn]; exact ⟨1, rfl, one_pos⟩
    · have hn : (preFill recs).cell i 0 = .fin x := hx
      rw [hn]; exact ⟨x, rfl, hx0⟩

example : (∀ r ∈ exRecs12, FiniteOrMissing r.value) ∧
    (∀ r ∈ exRecs12, (∀ s ∈ exRecs12, r.dev ≤ s.dev) → r.value ≠ .nan) := by
  refine ⟨?_, by decide +kernel⟩
  intro r hr; simp [exRecs12] at hr
  rcases hr with rfl | rfl | rfl | rfl | rfl | rfl <;> exact Or.inr ⟨_, rfl⟩

end Trikit
