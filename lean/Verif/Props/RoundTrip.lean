import Verif.RoundLemmas
import Mathlib.Tactic.IntervalCases

/-! # Conversions and input formats (C07, C08, C09, C10, C11, C13) -/

set_option linter.unusedSectionVars false

namespace Trikit

variable {K : Type} [Field K] [LinearOrder K]

/-! ## C07 -/

/-- **C07.** A cumulative triangle whose origins are observed from the first period on without gaps
and start with a positive value survives `to_incr().to_cum()`. -/
theorem C07_cum_incr_cum {t : Tri K} {len : ℕ → ℕ} (hne : 0 < t.nr)
    (ho : Spec.Increasing t.origins) (hd : Spec.Increasing t.devs) (hg : Spec.GapFree t len)
    (hc : Spec.ColsObserved t) (hp : ∀ i < t.nr, Num.lt 0 (t.cell i 0) = true) :
    ∃ u v, t.toIncr = .ok u ∧ u.toCum = .ok v ∧ Tri.Same v t := by
  have hcd := Tri.diffTri_colsObserved hg hc
  have hpd : PosFirst t.diffTri := hp
  obtain ⟨u, hu, hus⟩ := Tri.incrTri_toTbl (t := t.diffTri) ho hd hg.diffTri.rowsObserved hcd hne
    (fun i hi => le_of_lt_pos (hp i hi))
  refine ⟨u, preFill t.diffTri.toTbl, hu, ?_, ?_⟩
  · unfold Tri.toCum
    rw [hus.toTbl]
    exact cumTri_eq (Tri.toTbl_ne_nil hg.diffTri.rowsObserved hne)
  · exact (Tri.preFill_toTbl (t := t.diffTri) ho hd hg.diffTri hcd hpd).trans
      (Tri.prefix_diffTri_same hg)

/-- A cumulative triangle with a decreasing step and origins of unequal length. -/
def exCum : Tri ℚ :=
  { origins := [2001, 2002, 2004], devs := [1, 2, 3],
    cell := fun i j => match i, j with
      | 0, 0 => .fin 100 | 0, 1 => .fin 150 | 0, 2 => .fin 140
      | 1, 0 => .fin 90 | 1, 1 => .fin 160
      | 2, 0 => .fin 110
      | _, _ => .nan }

theorem exCum_gapFree : Spec.GapFree exCum (fun i => 3 - i) := by
  intro i hi
  have : i < 3 := hi
  refine ⟨by show 1 ≤ 3 - i; omega, Nat.sub_le _ _, ?_⟩
  intro j hj
  have hj' : j < 3 := hj
  interval_cases i <;> interval_cases j <;> simp [exCum]

example : 0 < exCum.nr ∧ Spec.Increasing exCum.origins ∧ Spec.Increasing exCum.devs ∧
    Spec.GapFree exCum (fun i => 3 - i) ∧ Spec.ColsObserved exCum ∧
    (∀ i < exCum.nr, Num.lt 0 (exCum.cell i 0) = true) ∧
    dumpE (exCum.toIncr) = .ok ([2001, 2002, 2004], [1, 2, 3],
      [[.fin 100, .fin 50, .fin (-10)], [.fin 90, .fin 70, .nan], [.fin 110, .nan, .nan]]) := by
  refine ⟨by decide, by unfold Spec.Increasing; decide, by unfold Spec.Increasing; decide,
    exCum_gapFree, ?_, by decide +kernel, by decide +kernel⟩
  intro j hj
  have hj' : j < 3 := hj
  refine ⟨0, by decide, ?_⟩
  interval_cases j <;> simp [exCum]

/-! ## C08 -/

/-- **C08.** An incremental triangle whose origins are observed from the first period on without gaps
and start with a positive value survives `to_cum().to_incr()`. -/
theorem C08_incr_cum_incr {t : Tri K} {len : ℕ → ℕ} (hne : 0 < t.nr)
    (ho : Spec.Increasing t.origins) (hd : Spec.Increasing t.devs) (hg : Spec.GapFree t len)
    (hc : Spec.ColsObserved t) (hp : ∀ i < t.nr, Num.lt 0 (t.cell i 0) = true) :
    ∃ u v, t.toCum = .ok u ∧ u.toIncr = .ok v ∧ Tri.Same v t := by
  have hsame := Tri.preFill_toTbl ho hd hg hc hp
  have hdiff : Tri.Same (preFill t.toTbl).diffTri t := hsame.diffTri.trans (Tri.diff_prefix_same hg)
  obtain ⟨v, hv, hvs⟩ := Tri.incrTri_toTbl ho hd hg.rowsObserved hc hne
    (fun i hi => le_of_lt_pos (hp i hi))
  refine ⟨preFill t.toTbl, v, cumTri_eq (t.toTbl_ne_nil hg.rowsObserved hne), ?_, hvs⟩
  unfold Tri.toIncr
  rw [hdiff.toTbl]; exact hv

/-- Concrete case for C08: the increments of `exCum` (one of them negative). -/
example : 0 < exCum.diffTri.nr ∧ Spec.GapFree exCum.diffTri (fun i => 3 - i) ∧
    Spec.ColsObserved exCum.diffTri ∧ exCum.diffTri.cell 0 2 = .fin (-10) ∧
    (∀ i < exCum.diffTri.nr, Num.lt 0 (exCum.diffTri.cell i 0) = true) := by
  refine ⟨by decide, exCum_gapFree.diffTri, Tri.diffTri_colsObserved exCum_gapFree ?_,
    by decide +kernel, by decide +kernel⟩
  intro j hj
  have hj' : j < 3 := hj
  refine ⟨0, by decide, ?_⟩
  interval_cases j <;> simp [exCum]

/-! ## C10 -/

/-- **C10 (incremental format).** For a triangle-shaped input `x`, `totri` of either type returns
what it returns for the table listing the non-missing cells of `x` in (origin, dev) order. -/
theorem C10_triangle_input {x : Tri K} (ho : Spec.Increasing x.origins)
    (hd : Spec.Increasing x.devs) {l : List (Rec K)}
    (hs : l.Pairwise (fun r s => r.origin < s.origin ∨ r.origin = s.origin ∧ r.dev < s.dev))
    (hm : ∀ r, r ∈ l ↔
      ∃ i < x.nr, ∃ j < x.nc, x.cell i j ≠ .nan ∧ r = ⟨x.oAt i, x.dAt j, x.cell i j⟩) :
    totriIncr (meltIncr x) = totriIncr l ∧ totriCum (meltIncr x) = totriCum l := by
  rw [meltIncr_eq ho hd hs hm]; exact ⟨rfl, rfl⟩

example : exCum.toTbl.Pairwise
      (fun r s => r.origin < s.origin ∨ r.origin = s.origin ∧ r.dev < s.dev) ∧
    exCum.toTbl.length = 6 :=
  ⟨exCum.toTbl_sorted (by unfold Spec.Increasing; decide) (by unfold Spec.Increasing; decide),
    by decide +kernel⟩

/-- **C10 (incremental format, values).** If moreover every origin and period has a value and the
first column is positive or missing, the incremental triangle has exactly the cells of `x`. -/
theorem C10_triangle_values {x : Tri K} (hne : 0 < x.nr) (ho : Spec.Increasing x.origins)
    (hd : Spec.Increasing x.devs) (hr : Spec.RowsObserved x) (hc : Spec.ColsObserved x)
    (hp : ∀ i < x.nr, Num.le (x.cell i 0) 0 = false) :
    ∃ t, totriIncr (meltIncr x) = .ok t ∧ Tri.Same t x := by
  rw [meltIncr_toTbl ho hd]
  exact Tri.incrTri_toTbl ho hd hr hc hne hp

/-- **C10 (cumulative format).** For gap-free rows with positive first values, the incremental
triangle has the row differences as cells and the cumulative triangle (before the fill loop and on
every observed cell after it) the cells of `x` themselves. -/
theorem C10_cum_format {x : Tri K} {len : ℕ → ℕ} (hne : 0 < x.nr) (ho : Spec.Increasing x.origins)
    (hd : Spec.Increasing x.devs) (hg : Spec.GapFree x len) (hc : Spec.ColsObserved x)
    (hp : ∀ i < x.nr, Num.lt 0 (x.cell i 0) = true) :
    (∃ t, totriIncr (meltCum x) = .ok t ∧ t.origins = x.origins ∧ t.devs = x.devs ∧
      ∀ i < x.nr, t.cell i 0 = x.cell i 0 ∧
        ∀ j, j + 1 < x.nc → t.cell i (j + 1) = x.cell i (j + 1) - x.cell i j) ∧
    (∃ t, totriCum (meltCum x) = .ok t ∧ t.origins = x.origins ∧ t.devs = x.devs ∧
      ∀ i < x.nr, ∀ j < x.nc, x.cell i j ≠ .nan → t.cell i j = x.cell i j) := by
  have hcd := Tri.diffTri_colsObserved hg hc
  have hmelt : meltCum x = x.diffTri.toTbl := meltIncr_toTbl (x := x.diffTri) ho hd
  rw [hmelt]
  constructor
  · obtain ⟨u, hu, hus⟩ := Tri.incrTri_toTbl (t := x.diffTri) ho hd hg.diffTri.rowsObserved hcd hne
      (fun i hi => le_of_lt_pos (hp i hi))
    have hnr : u.nr = x.nr := hus.nr_eq
    have hnc : u.nc = x.nc := hus.nc_eq
    refine ⟨u, hu, hus.1, hus.2.1, fun i hi => ⟨?_, fun j hj => ?_⟩⟩
    · have : 0 < x.nc := by obtain ⟨j, hj, _⟩ := hg.rowsObserved i hi; omega
      exact hus.2.2 i (hnr ▸ hi) 0 (hnc ▸ this)
    · exact hus.2.2 i (hnr ▸ hi) (j + 1) (hnc ▸ hj)
  · have hpd : PosFirst x.diffTri := hp
    have hsame := (Tri.preFill_toTbl (t := x.diffTri) ho hd hg.diffTri hcd hpd).trans
      (Tri.prefix_diffTri_same hg)
    obtain ⟨t, h1, h2, h3, h4⟩ := totriCum_ok (Tri.toTbl_ne_nil hg.diffTri.rowsObserved hne)
      hg.diffTri.finiteTbl.tame
    refine ⟨t, h1, h2.trans hsame.1, h3.trans hsame.2.1, ?_⟩
    intro i hi j hj hn
    have e := hsame.2.2 i (hsame.nr_eq ▸ hi) j (hsame.nc_eq ▸ hj)
    rw [h4 i j (by unfold Tri.nc at hj ⊢; rw [h3, hsame.2.1]; exact hj),
      fillRow_observed (by rw [e]; exact hn), e]

example : dumpE (totriIncr (meltCum exCum)) = .ok ([2001, 2002, 2004], [1, 2, 3],
      [[.fin 100, .fin 50, .fin (-10)], [.fin 90, .fin 70, .nan], [.fin 110, .nan, .nan]]) ∧
    dumpE (totriCum (meltCum exCum)) = .ok exCum.dump := by
  constructor <;> decide +kernel

/-! ## C11 -/

/-- Previous cumulative value and accumulated total agree. -/
def InSync (prev : Int → Option (Num K)) (acc : Int → Num K) (l : List (Rec K)) : Prop :=
  ∀ o, (prev o = none ∧ acc o = 0) ∨ (∃ x, prev o = some (.fin x) ∧ acc o = .fin x) ∨
    (prev o = some .nan ∧ ∀ r ∈ l, r.origin = o → r.value = .nan)

/-- Accumulating the differences restores the values when missing values come last in their
origin. -/
theorem cumGo_decumGo {l : List (Rec K)} (ht : TameRecs l)
    (hlast : l.Pairwise (fun r s => r.origin = s.origin → r.value = .nan → s.value = .nan))
    {prev : Int → Option (Num K)} {acc : Int → Num K} (hs : InSync prev acc l) :
    cumGo acc (decumGo prev l) = l := by
  induction l generalizing prev acc with
  | nil => rfl
  | cons r l ih =>
    rw [List.pairwise_cons] at hlast
    have ht' : TameRecs l := fun s hs => ht s (by simp [hs])
    unfold decumGo
    rw [cumGo_cons]
    rcases ht r (by simp) with hv | ⟨v, hv⟩
    · -- missing: stays missing
      have hd : decumValue (prev r.origin) r.value = .nan := by
        rw [hv]; unfold decumValue; cases prev r.origin <;> simp
      simp only [hd, Num.isNaN_nan, if_true]
      rw [ih ht' hlast.2]
      · congr 1
        cases r; simp only at hv; rw [hv]
      · intro o
        by_cases e : o = r.origin
        · subst e
          refine Or.inr (Or.inr ⟨by simp [hv], ?_⟩)
          intro s hs' hso
          exact hlast.1 s hs' hso.symm hv
        · rcases hs o with h | h | h
          · exact Or.inl (by simpa [e] using h)
          · exact Or.inr (Or.inl (by simpa [e] using h))
          · refine Or.inr (Or.inr ⟨by simpa [e] using h.1, fun s hs' => h.2 s (by simp [hs'])⟩)
    · -- present
      have hstep : ∃ w, decumValue (prev r.origin) r.value = .fin w ∧
          acc r.origin + .fin w = r.value := by
        unfold decumValue
        rcases hs r.origin with ⟨h1, h2⟩ | ⟨x, h1, h2⟩ | ⟨h1, h2⟩
        · refine ⟨v, by rw [h1]; simp [hv], by rw [h2, hv]; simp [Num.zero_def]⟩
        · refine ⟨v - x, by rw [h1]; simp [hv], by rw [h2, hv]; simp⟩
        · have := h2 r (by simp) rfl
          rw [hv] at this; simp at this
      obtain ⟨w, hw, hacc⟩ := hstep
      simp only [hw, Num.isNaN_fin, Bool.false_eq_true, if_false, hacc]
      rw [ih ht' hlast.2]
      intro o
      by_cases e : o = r.origin
      · subst e; exact Or.inr (Or.inl ⟨v, by simp [hv], by simp [hv]⟩)
      · rcases hs o with h | h | h
        · exact Or.inl (by simpa [e] using h)
        · exact Or.inr (Or.inl (by simpa [e] using h))
        · refine Or.inr (Or.inr ⟨by simpa [e] using h.1, fun s hs' => h.2 s (by simp [hs'])⟩)

theorem cumRecs_decumRecs {l : List (Rec K)} (ht : TameRecs l)
    (hlast : l.Pairwise (fun r s => r.origin = s.origin → r.value = .nan → s.value = .nan)) :
    cumRecs (decumRecs l) = l :=
  cumGo_decumGo ht hlast (fun _ => Or.inl ⟨rfl, rfl⟩)

theorem decumGo_ne_nil {prev : Int → Option (Num K)} {l : List (Rec K)} (h : l ≠ []) :
    decumGo prev l ≠ [] := by
  cases l with
  | nil => exact absurd rfl h
  | cons => simp [decumGo]

theorem decumGo_tame {prev : Int → Option (Num K)}
    (hp : ∀ o p, prev o = some p → p.Tame) {l : List (Rec K)} (h : TameRecs l) :
    TameRecs (decumGo prev l) := by
  induction l generalizing prev with
  | nil => intro r hr; simp [decumGo] at hr
  | cons a l ih =>
    have ha := h a (by simp)
    intro r hr
    unfold decumGo at hr
    rcases List.mem_cons.1 hr with rfl | hr
    · show (decumValue (prev a.origin) a.value).Tame
      unfold decumValue
      cases hpo : prev a.origin with
      | none => exact ha
      | some p =>
        simp only
        split
        · exact ha
        · exact ha.sub (hp _ _ hpo)
    · refine ih ?_ (fun s hs => h s (by simp [hs])) r hr
      intro o p hop
      split at hop
      · simp only [Option.some.injEq] at hop; exact hop ▸ ha
      · exact hp o p hop

/-- Cells of a triangle accumulated back to `l`. -/
theorem totriCum_of_cumRecs {l m : List (Rec K)} (hne : m ≠ []) (ht : TameRecs m)
    (hcum : cumRecs m = l) (hone : OnePerCell l)
    (hpos : ∀ r ∈ l, (∀ s ∈ l, r.dev ≤ s.dev) → Num.le r.value 0 = false) :
    ∃ t, totriCum m = .ok t ∧ Spec.HasLabelsOf t l ∧
      ∀ r ∈ l, r.value ≠ .nan →
        ∀ i j, t.origins[i]? = some r.origin → t.devs[j]? = some r.dev → t.cell i j = r.value := by
  obtain ⟨t, h1, h2, h3, h4⟩ := totriCum_ok hne ht
  have hpre : preFill m = pivot l := by
    unfold preFill; rw [hcum, negHandler_self hpos]
  rw [hpre] at h2 h3 h4
  refine ⟨t, h1, ?_, ?_⟩
  · have := pivot_hasLabels l l rfl
    unfold Spec.HasLabelsOf; rw [h2, h3]; exact this
  · intro r hr hn i j hi hj
    have hj' := (List.getElem?_eq_some_iff.1 hj).1
    rw [h2] at hi
    rw [h3] at hj
    have hc : (pivot l).cell i j = r.value := by
      rw [pivot_cell hi hj, groupCell_of_onePerCell hone hr hn]
    rw [h4 i j hj', fillRow_observed (by rw [hc]; exact hn), hc]

/-- **C11.** Cumulative-format tabular input, one finite record per cell, positive first-period
values: the cumulative triangle has exactly the given values (whatever the row order). -/
theorem C11_cum_format_tabular {l : List (Rec K)} (hne : l ≠ []) (hfin : FiniteRecs l)
    (hone : OnePerCell l)
    (hpos : ∀ r ∈ l, (∀ s ∈ l, r.dev ≤ s.dev) → Num.lt 0 r.value = true) :
    ∃ t, totriCum (decumRecs l) = .ok t ∧ Spec.HasLabelsOf t l ∧
      ∀ r ∈ l, ∀ i j, t.origins[i]? = some r.origin → t.devs[j]? = some r.dev →
        t.cell i j = r.value := by
  obtain ⟨t, h1, h2, h3⟩ := totriCum_of_cumRecs (l := l) (m := decumRecs l)
    (decumGo_ne_nil hne) (decumGo_tame (by simp) hfin.tame)
    (cumRecs_decumRecs hfin.tame (List.pairwise_of_forall_mem_list (fun r hr s _ _ hn => by
      obtain ⟨x, hx⟩ := hfin r hr; rw [hx] at hn; simp at hn)))
    hone (fun r hr hm => le_of_lt_pos (hpos r hr hm))
  refine ⟨t, h1, h2, fun r hr => h3 r hr ?_⟩
  obtain ⟨x, hx⟩ := hfin r hr; rw [hx]; simp

/-- Concrete case for C11: unordered rows, a decreasing step. -/
def exRecs11 : List (Rec ℚ) :=
  [⟨2002, 1, .fin 40⟩, ⟨2001, 3, .fin 90⟩, ⟨2001, 1, .fin 10⟩, ⟨2002, 2, .fin 35⟩,
   ⟨2001, 2, .fin 30⟩]

example : exRecs11 ≠ [] ∧ FiniteRecs exRecs11 ∧ OnePerCell exRecs11 ∧
    (∀ r ∈ exRecs11, (∀ s ∈ exRecs11, r.dev ≤ s.dev) → Num.lt 0 r.value = true) ∧
    dumpE (totriCum (decumRecs exRecs11)) = .ok ([2001, 2002], [1, 2, 3],
      [[.fin 10, .fin 30, .fin 90], [.fin 40, .fin 35, .nan]]) := by
  refine ⟨by decide +kernel, ?_, by unfold OnePerCell; decide +kernel, by decide +kernel,
    by decide +kernel⟩
  intro r hr; simp [exRecs11] at hr
  rcases hr with rfl | rfl | rfl | rfl | rfl <;> exact ⟨_, rfl⟩

/-! ## C13 -/

/-- **C13 is false of the code**, tabular: with the second of three cumulative values missing the
third cell is 40 instead of the given 30 (and the missing one becomes 0). -/
theorem C13_gap_tabular_fails :
    dumpE (totriCum (decumRecs [⟨1, 1, .fin (10 : ℚ)⟩, ⟨1, 2, .nan⟩, ⟨1, 3, .fin 30⟩])) =
      .ok ([1], [1, 2, 3], [[.fin 10, .fin 0, .fin 40]]) := by decide +kernel

/-- Cumulative input with one interior cell missing. -/
def exGap : Tri ℚ :=
  { origins := [1, 2], devs := [1, 2, 3],
    cell := fun i j => match i, j with
      | 0, 0 => .fin 10 | 0, 1 => .nan | 0, 2 => .fin 30
      | 1, 0 => .fin 20 | 1, 1 => .fin 25 | 1, 2 => .fin 26
      | _, _ => .nan }

/-- **C13 is false of the code**, triangle shaped: the given 30 is lost and replaced by 10. -/
theorem C13_gap_triangle_fails :
    dumpE (totriCum (meltCum exGap)) =
      .ok ([1, 2], [1, 2, 3], [[.fin 10, .fin 10, .fin 10], [.fin 20, .fin 25, .fin 26]]) := by
  decide +kernel

/-- **C13, part that holds** (tabular): if a missing cumulative value is followed, within its origin
and in row order, by missing values only, every present value is kept.  Missing: gaps followed by a
present value of the same origin. -/
theorem C13_gap_partial {l : List (Rec K)} (hne : l ≠ [])
    (ht : ∀ r ∈ l, FiniteOrMissing r.value) (hone : OnePerCell l)
    (hlast : l.Pairwise (fun r s => r.origin = s.origin → r.value = .nan → s.value = .nan))
    (hpos : ∀ r ∈ l, (∀ s ∈ l, r.dev ≤ s.dev) → r.value = .nan ∨ Num.lt 0 r.value = true) :
    ∃ t, totriCum (decumRecs l) = .ok t ∧ Spec.HasLabelsOf t l ∧
      ∀ r ∈ l, r.value ≠ .nan → ∀ i j, t.origins[i]? = some r.origin →
        t.devs[j]? = some r.dev → t.cell i j = r.value := by
  refine totriCum_of_cumRecs (l := l) (m := decumRecs l)
    (decumGo_ne_nil hne) (decumGo_tame (by simp) ht) (cumRecs_decumRecs ht hlast) hone ?_
  intro r hr hm
  rcases hpos r hr hm with h | h
  · rw [h]; rfl
  · exact le_of_lt_pos h

/-- Concrete case for the C13 part: the last value of one origin is missing. -/
def exRecs13 : List (Rec ℚ) :=
  [⟨1, 1, .fin 10⟩, ⟨1, 2, .fin 15⟩, ⟨1, 3, .nan⟩, ⟨2, 1, .fin 20⟩, ⟨2, 2, .fin 26⟩]

example : exRecs13 ≠ [] ∧ (∀ r ∈ exRecs13, FiniteOrMissing r.value) ∧ OnePerCell exRecs13 ∧
    exRecs13.Pairwise (fun r s => r.origin = s.origin → r.value = .nan → s.value = .nan) ∧
    (∀ r ∈ exRecs13, (∀ s ∈ exRecs13, r.dev ≤ s.dev) → r.value = .nan ∨ Num.lt 0 r.value = true) := by
  refine ⟨by decide +kernel, ?_, by unfold OnePerCell; decide +kernel, by decide +kernel,
    by decide +kernel⟩
  intro r hr; simp [exRecs13] at hr
  rcases hr with rfl | rfl | rfl | rfl | rfl <;>
    first | exact Or.inl rfl | exact Or.inr ⟨_, rfl⟩

/-! ## C09 -/

variable [IsStrictOrderedRing K]

/-- **C09 is false of the code** for a missing value recorded in the first period: it becomes the cell
0, which is exported as a record with value 0 and comes back as 1. -/
theorem C09_export_import_fails : ∃ recs : List (Rec ℚ),
    (∀ r ∈ recs, FiniteOrMissing r.value) ∧
    dumpE (totriIncr recs) = .ok ([1, 2], [1, 2], [[.fin 0, .fin 5], [.fin 3, .nan]]) ∧
    dumpE ((totriIncr recs).bind (fun t => totriIncr t.toTbl)) =
      .ok ([1, 2], [1, 2], [[.fin 1, .fin 5], [.fin 3, .nan]]) := by
  refine ⟨[⟨1, 1, .nan⟩, ⟨1, 2, .fin 5⟩, ⟨2, 1, .fin 3⟩], ?_, by decide +kernel, by decide +kernel⟩
  intro r hr; simp at hr
  rcases hr with rfl | rfl | rfl
  · exact Or.inl rfl
  · exact Or.inr ⟨_, rfl⟩
  · exact Or.inr ⟨_, rfl⟩

/-- **C09, part that holds.** An incremental triangle built from records whose first-period values are
present is restored by exporting it with `to_tbl` and rebuilding it, also when it has gaps.
Missing: missing values recorded in the first period. -/
theorem C09_export_import_partial {recs : List (Rec K)} {t : Tri K}
    (hbuilt : totriIncr recs = .ok t) (htame : ∀ r ∈ recs, FiniteOrMissing r.value)
    (hfirst : ∀ r ∈ recs, (∀ s ∈ recs, r.dev ≤ s.dev) → r.value ≠ .nan) :
    ∃ u, totriIncr t.toTbl = .ok u ∧ Tri.Same u t := by
  have hne : recs ≠ [] := by
    rintro rfl; simp [totriIncr, incrTri, baseInit] at hbuilt
  obtain ⟨⟨t', h1, h2⟩, _⟩ := C06_first_column_partial hne htame hfirst
  have htt : t' = t := by rw [hbuilt] at h1; injection h1 with h; exact h.symm
  subst htt
  have ht' : t' = pivot (negHandler recs) := by
    have : totriIncr recs = .ok (pivot (negHandler recs)) := by
      simp [totriIncr, incrTri, baseInit, hne]
    rw [this] at hbuilt; injection hbuilt with h; exact h.symm
  have htm : TameRecs (negHandler recs) := (show TameRecs recs from htame).negHandler
  have hnr : 0 < t'.nr := by
    obtain ⟨r, hr⟩ := List.exists_mem_of_ne_nil _ hne
    have : r.origin ∈ t'.origins := by
      rw [ht', pivot_origins, mem_labels, (negHandler_sameKeys _).origins]
      exact List.mem_map_of_mem hr
    exact List.length_pos_of_mem this
  apply Tri.incrTri_toTbl
  · rw [ht']; exact labels_pairwise _
  · rw [ht']; exact labels_pairwise _
  · rw [ht']; exact pivot_rowsObserved htm
  · rw [ht']; exact pivot_colsObserved htm
  · exact hnr
  · intro i hi
    rcases h2 i hi with h | ⟨x, hx, hx0⟩
    · rw [h]; rfl
    · rw [hx]; simp [Num.zero_def, hx0]

example : (∀ r ∈ exRecs12, (∀ s ∈ exRecs12, r.dev ≤ s.dev) → r.value ≠ .nan) ∧
    dumpE (totriIncr exRecs12) = .ok ([2001, 2002, 2003], [1, 2, 3],
      [[.nan, .fin 5, .fin 2], [.fin 4, .nan, .fin 1], [.fin 9, .fin 3, .nan]]) := by
  constructor <;> decide +kernel

end Trikit
