import Verif.FillLemmas
import Mathlib.Algebra.BigOperators.Group.Finset.Basic
import Mathlib.Algebra.BigOperators.Group.Finset.Piecewise
import Mathlib.Algebra.BigOperators.Intervals
import Mathlib.Data.List.FinRange

/-! # Tabular export, reimport and sums over a table -/

set_option linter.unusedSectionVars false

namespace Trikit

variable {K : Type}

/-! ### positions and labels -/

namespace Tri

theorem oAt_lt {t : Tri K} (h : Spec.Increasing t.origins) {i i' : ℕ} (hi' : i' < t.nr)
    (hlt : i < i') : t.oAt i < t.oAt i' := by
  have h1 := t.origins_get (i := i) (by omega)
  have h2 := t.origins_get hi'
  obtain ⟨l1, e1⟩ := List.getElem?_eq_some_iff.1 h1
  obtain ⟨l2, e2⟩ := List.getElem?_eq_some_iff.1 h2
  have := List.pairwise_iff_getElem.1 h i i' l1 l2 hlt
  rw [e1, e2] at this; exact this

theorem dAt_lt {t : Tri K} (h : Spec.Increasing t.devs) {j j' : ℕ} (hj' : j' < t.nc)
    (hlt : j < j') : t.dAt j < t.dAt j' := by
  have h1 := t.devs_get (j := j) (by omega)
  have h2 := t.devs_get hj'
  obtain ⟨l1, e1⟩ := List.getElem?_eq_some_iff.1 h1
  obtain ⟨l2, e2⟩ := List.getElem?_eq_some_iff.1 h2
  have := List.pairwise_iff_getElem.1 h j j' l1 l2 hlt
  rw [e1, e2] at this; exact this

theorem oAt_inj {t : Tri K} (h : Spec.Increasing t.origins) {i i' : ℕ} (hi : i < t.nr)
    (hi' : i' < t.nr) : t.oAt i = t.oAt i' ↔ i = i' := by
  constructor
  · intro e
    rcases lt_trichotomy i i' with hlt | he | hlt
    · have := oAt_lt h hi' hlt; omega
    · exact he
    · have := oAt_lt h hi hlt; omega
  · rintro rfl; rfl

theorem dAt_le {t : Tri K} (h : Spec.Increasing t.devs) {j j' : ℕ} (hj : j < t.nc)
    (hj' : j' < t.nc) : t.dAt j ≤ t.dAt j' ↔ j ≤ j' := by
  constructor
  · intro hle
    by_contra hc
    have := dAt_lt h hj (by omega : j' < j)
    omega
  · intro hle
    rcases Nat.lt_or_eq_of_le hle with hlt | rfl
    · exact le_of_lt (dAt_lt h hj' hlt)
    · exact le_refl _

theorem dAt_inj {t : Tri K} (h : Spec.Increasing t.devs) {j j' : ℕ} (hj : j < t.nc)
    (hj' : j' < t.nc) : t.dAt j = t.dAt j' ↔ j = j' := by
  constructor
  · intro e
    have h1 := (dAt_le h hj hj').1 (le_of_eq e)
    have h2 := (dAt_le h hj' hj).1 (ge_of_eq e)
    omega
  · rintro rfl; rfl

/-! ### `Same` -/

theorem Same.refl (a : Tri K) : Same a a := ⟨rfl, rfl, fun _ _ _ _ => rfl⟩

theorem Same.nr_eq {a b : Tri K} (h : Same a b) : a.nr = b.nr := by unfold nr; rw [h.1]
theorem Same.nc_eq {a b : Tri K} (h : Same a b) : a.nc = b.nc := by unfold nc; rw [h.2.1]
theorem Same.oAt_eq {a b : Tri K} (h : Same a b) (i : ℕ) : a.oAt i = b.oAt i := by
  unfold oAt; rw [h.1]
theorem Same.dAt_eq {a b : Tri K} (h : Same a b) (j : ℕ) : a.dAt j = b.dAt j := by
  unfold dAt; rw [h.2.1]

theorem Same.symm {a b : Tri K} (h : Same a b) : Same b a :=
  ⟨h.1.symm, h.2.1.symm, fun i hi j hj =>
    (h.2.2 i (h.nr_eq ▸ hi) j (h.nc_eq ▸ hj)).symm⟩

theorem Same.trans {a b c : Tri K} (h : Same a b) (h' : Same b c) : Same a c :=
  ⟨h.1.trans h'.1, h.2.1.trans h'.2.1, fun i hi j hj =>
    (h.2.2 i hi j hj).trans (h'.2.2 i (h.nr_eq ▸ hi) j (h.nc_eq ▸ hj))⟩

theorem Same.toTbl {a b : Tri K} (h : Same a b) : a.toTbl = b.toTbl := by
  unfold Tri.toTbl
  rw [← h.nr_eq, ← h.nc_eq]
  apply List.flatMap_congr
  intro i hi
  apply List.filterMap_congr
  intro j hj
  rw [h.2.2 i (List.mem_range.1 hi) j (List.mem_range.1 hj), h.oAt_eq, h.dAt_eq]

/-! ### the table of a triangle -/

theorem mem_toTbl {t : Tri K} {r : Rec K} : r ∈ t.toTbl ↔
    ∃ i < t.nr, ∃ j < t.nc, t.cell i j ≠ .nan ∧ r = ⟨t.oAt i, t.dAt j, t.cell i j⟩ := by
  unfold toTbl
  simp only [List.mem_flatMap, List.mem_range, List.mem_filterMap]
  constructor
  · rintro ⟨i, hi, j, hj, h⟩
    split at h
    · simp at h
    · rename_i hn
      refine ⟨i, hi, j, hj, ?_, ?_⟩
      · exact fun e => hn ((Num.isNaN_iff _).2 e)
      · simpa using h.symm
  · rintro ⟨i, hi, j, hj, hn, rfl⟩
    refine ⟨i, hi, j, hj, ?_⟩
    rw [if_neg]
    rw [Num.isNaN_iff]; exact hn

/-- Rows of the table are in strictly increasing (origin, dev) order. -/
theorem toTbl_sorted {t : Tri K} (ho : Spec.Increasing t.origins) (hd : Spec.Increasing t.devs) :
    t.toTbl.Pairwise (fun r s => r.origin < s.origin ∨ r.origin = s.origin ∧ r.dev < s.dev) := by
  unfold toTbl
  rw [List.pairwise_flatMap]
  constructor
  · intro i hi
    rw [List.pairwise_filterMap]
    apply (List.pairwise_lt_range (n := t.nc)).imp_of_mem
    intro j j' _ hj' hlt r hr s hs
    split at hr
    · simp at hr
    split at hs
    · simp at hs
    simp only [Option.some.injEq] at hr hs
    subst hr hs
    exact Or.inr ⟨rfl, dAt_lt hd (List.mem_range.1 hj') hlt⟩
  · apply (List.pairwise_lt_range (n := t.nr)).imp_of_mem
    intro i i' _ hi' hlt r hr s hs
    rw [List.mem_filterMap] at hr hs
    obtain ⟨j, _, hr⟩ := hr
    obtain ⟨j', _, hs⟩ := hs
    split at hr
    · simp at hr
    split at hs
    · simp at hs
    simp only [Option.some.injEq] at hr hs
    subst hr hs
    exact Or.inl (oAt_lt ho (List.mem_range.1 hi') hlt)

end Tri

/-- At most one record per cell (as a pairwise condition). -/
def OnePerCell (recs : List (Rec K)) : Prop :=
  recs.Pairwise (fun r s => ¬ (r.origin = s.origin ∧ r.dev = s.dev))

/-- Records of each origin are listed in non-decreasing development order. -/
def DevOrdered (recs : List (Rec K)) : Prop :=
  recs.Pairwise (fun r s => r.origin = s.origin → r.dev ≤ s.dev)

theorem Tri.toTbl_onePerCell {t : Tri K} (ho : Spec.Increasing t.origins)
    (hd : Spec.Increasing t.devs) : OnePerCell t.toTbl :=
  (t.toTbl_sorted ho hd).imp (fun h => by omega)

theorem Tri.toTbl_devOrdered {t : Tri K} (ho : Spec.Increasing t.origins)
    (hd : Spec.Increasing t.devs) : DevOrdered t.toTbl :=
  (t.toTbl_sorted ho hd).imp (fun h => by omega)

section
variable [Field K] [LinearOrder K]

theorem cellValues_of_onePerCell {recs : List (Rec K)} (h : OnePerCell recs) {r : Rec K}
    (hr : r ∈ recs) : cellValues recs r.origin r.dev = [r.value] := by
  induction recs with
  | nil => simp at hr
  | cons a l ih =>
    unfold OnePerCell at h
    rw [List.pairwise_cons] at h
    rw [cellValues_cons]
    rcases List.mem_cons.1 hr with rfl | hr
    · rw [if_pos ⟨rfl, rfl⟩, cellValues_eq_nil.2]
      intro s hs e; exact h.1 s hs ⟨e.1.symm, e.2.symm⟩
    · rw [if_neg (fun e => h.1 r hr e), ih h.2 hr]

theorem groupCell_of_onePerCell {recs : List (Rec K)} (h : OnePerCell recs) {r : Rec K}
    (hr : r ∈ recs) (hn : r.value ≠ .nan) : groupCell recs r.origin r.dev = r.value := by
  unfold groupCell
  rw [cellValues_of_onePerCell h hr]
  simp [Num.sumSkip_cons, (Num.isNaN_false_iff _).2 hn]

theorem Tri.groupCell_toTbl {t : Tri K} (ho : Spec.Increasing t.origins)
    (hd : Spec.Increasing t.devs) {i j : ℕ} (hi : i < t.nr) (hj : j < t.nc) :
    groupCell t.toTbl (t.oAt i) (t.dAt j) = t.cell i j := by
  by_cases hn : t.cell i j = .nan
  · rw [hn]
    apply groupCell_nan
    rintro ⟨r, hr, h1, h2⟩
    obtain ⟨i', hi', j', hj', hc, rfl⟩ := Tri.mem_toTbl.1 hr
    have e1 := (oAt_inj ho hi' hi).1 h1
    have e2 := (dAt_inj hd hj' hj).1 h2
    subst e1 e2; exact hc hn
  · have hm : (⟨t.oAt i, t.dAt j, t.cell i j⟩ : Rec K) ∈ t.toTbl :=
      Tri.mem_toTbl.2 ⟨i, hi, j, hj, hn, rfl⟩
    exact groupCell_of_onePerCell (t.toTbl_onePerCell ho hd) hm hn

theorem Tri.labels_toTbl_origins {t : Tri K} (ho : Spec.Increasing t.origins)
    (hr : Spec.RowsObserved t) : labels (t.toTbl.map Rec.origin) = t.origins := by
  apply labels_eq_of_mem ho
  intro o
  constructor
  · intro hm
    obtain ⟨i, hi⟩ := List.getElem?_of_mem hm
    have hi' : i < t.nr := (List.getElem?_eq_some_iff.1 hi).1
    obtain ⟨j, hj, hc⟩ := hr i hi'
    rw [t.origins_get hi', Option.some.injEq] at hi
    rw [← hi]
    exact List.mem_map.2 ⟨_, Tri.mem_toTbl.2 ⟨i, hi', j, hj, hc, rfl⟩, rfl⟩
  · intro hm
    obtain ⟨r, hr', rfl⟩ := List.mem_map.1 hm
    obtain ⟨i, hi, j, hj, _, rfl⟩ := Tri.mem_toTbl.1 hr'
    exact t.oAt_mem hi

theorem Tri.labels_toTbl_devs {t : Tri K} (hd : Spec.Increasing t.devs)
    (hc : Spec.ColsObserved t) : labels (t.toTbl.map Rec.dev) = t.devs := by
  apply labels_eq_of_mem hd
  intro o
  constructor
  · intro hm
    obtain ⟨j, hj⟩ := List.getElem?_of_mem hm
    have hj' : j < t.nc := (List.getElem?_eq_some_iff.1 hj).1
    obtain ⟨i, hi, hc⟩ := hc j hj'
    rw [t.devs_get hj', Option.some.injEq] at hj
    rw [← hj]
    exact List.mem_map.2 ⟨_, Tri.mem_toTbl.2 ⟨i, hi, j, hj', hc, rfl⟩, rfl⟩
  · intro hm
    obtain ⟨r, hr', rfl⟩ := List.mem_map.1 hm
    obtain ⟨i, hi, j, hj, _, rfl⟩ := Tri.mem_toTbl.1 hr'
    exact t.dAt_mem hj

/-- Labels of a pivot with the labels of `t`. -/
theorem pivot_same_of {t : Tri K} {recs : List (Rec K)}
    (ho : (pivot recs).origins = t.origins) (hd : (pivot recs).devs = t.devs)
    (h : ∀ i < t.nr, ∀ j < t.nc, groupCell recs (t.oAt i) (t.dAt j) = t.cell i j) :
    Tri.Same (pivot recs) t := by
  refine ⟨ho, hd, ?_⟩
  intro i hi j hj
  have hi' : i < t.nr := by unfold Tri.nr at hi ⊢; rw [← ho]; exact hi
  have hj' : j < t.nc := by unfold Tri.nc at hj ⊢; rw [← hd]; exact hj
  rw [pivot_cell (by rw [ho]; exact t.origins_get hi') (by rw [hd]; exact t.devs_get hj'),
    h i hi' j hj']

theorem Tri.pivot_toTbl {t : Tri K} (ho : Spec.Increasing t.origins)
    (hd : Spec.Increasing t.devs) (hr : Spec.RowsObserved t) (hc : Spec.ColsObserved t) :
    Tri.Same (pivot t.toTbl) t :=
  pivot_same_of (by rw [pivot_origins, t.labels_toTbl_origins ho hr])
    (by rw [pivot_devs, t.labels_toTbl_devs hd hc])
    (fun _ hi _ hj => t.groupCell_toTbl ho hd hi hj)

theorem negHandler_self {recs : List (Rec K)}
    (h : ∀ r ∈ recs, (∀ s ∈ recs, r.dev ≤ s.dev) → Num.le r.value 0 = false) :
    negHandler recs = recs := by
  by_cases hn : recs = []
  · subst hn; rfl
  · obtain ⟨m, hm⟩ := exists_min hn
    rw [negHandler_eq hm]
    conv_rhs => rw [← List.map_id recs]
    apply List.map_congr_left
    intro r hr
    unfold floorRec
    rw [if_neg]; · rfl
    rintro ⟨h1, h2⟩
    have := h r hr (fun s hs => h1 ▸ (min_spec hm).2 s hs)
    rw [this] at h2; exact absurd h2 (by simp)

/-- In the table of a triangle the smallest period is the first column. -/
theorem Tri.toTbl_min {t : Tri K} (hd : Spec.Increasing t.devs) (hc : Spec.ColsObserved t)
    {r : Rec K} (hr : r ∈ t.toTbl) (hm : ∀ s ∈ t.toTbl, r.dev ≤ s.dev) :
    ∃ i < t.nr, r.value = t.cell i 0 := by
  obtain ⟨i, hi, j, hj, hn, rfl⟩ := Tri.mem_toTbl.1 hr
  obtain ⟨i', hi', hn'⟩ := hc 0 (by omega)
  have := hm _ (Tri.mem_toTbl.2 ⟨i', hi', 0, by omega, hn', rfl⟩)
  have hj0 := (dAt_le hd hj (by omega)).1 this
  have : j = 0 := by omega
  subst this
  exact ⟨i, hi, rfl⟩

theorem Tri.toTbl_ne_nil {t : Tri K} (hr : Spec.RowsObserved t) (h : 0 < t.nr) : t.toTbl ≠ [] := by
  obtain ⟨j, hj, hc⟩ := hr 0 h
  exact List.ne_nil_of_mem (Tri.mem_toTbl.2 ⟨0, h, j, hj, hc, rfl⟩)

/-- Reimport of an exported triangle. -/
theorem Tri.incrTri_toTbl {t : Tri K} (ho : Spec.Increasing t.origins)
    (hd : Spec.Increasing t.devs) (hr : Spec.RowsObserved t) (hc : Spec.ColsObserved t)
    (hpos : 0 < t.nr) (hfirst : ∀ i < t.nr, Num.le (t.cell i 0) 0 = false) :
    ∃ u, incrTri t.toTbl = .ok u ∧ Tri.Same u t := by
  refine ⟨pivot t.toTbl, ?_, t.pivot_toTbl ho hd hr hc⟩
  unfold incrTri baseInit
  rw [if_neg (t.toTbl_ne_nil hr hpos), negHandler_self]
  intro r hr' hm
  obtain ⟨i, hi, e⟩ := Tri.toTbl_min hd hc hr' hm
  rw [e]; exact hfirst i hi

/-! ### sums over the table -/

theorem list_sum_map_range {M : Type} [AddCommMonoid M] (f : ℕ → M) (n : ℕ) :
    ((List.range n).map f).sum = ∑ i ∈ Finset.range n, f i := by
  induction n with
  | zero => simp
  | succ n ih => rw [List.range_succ, Finset.sum_range_succ]; simp [ih]

theorem list_sum_flatMap {α M : Type} [AddCommMonoid M] (l : List α) (f : α → List M) :
    (l.flatMap f).sum = (l.map (fun a => (f a).sum)).sum := by
  induction l with
  | nil => rfl
  | cons a l ih => simp [List.flatMap_cons, ih]

theorem sum_filterMap {α β M : Type} [AddCommMonoid M] (l : List α) (f : α → Option β)
    (g : β → M) : ((l.filterMap f).map g).sum =
      (l.map (fun a => match f a with | some b => g b | none => 0)).sum := by
  induction l with
  | nil => rfl
  | cons a l ih =>
    rw [List.filterMap_cons]
    cases h : f a <;> simp [h, ih]

theorem Tri.sum_toTbl (t : Tri K) (p : Rec K → Bool) (g : Rec K → Num K) :
    ((t.toTbl.filter p).map g).sum =
      ∑ i ∈ Finset.range t.nr, ∑ j ∈ Finset.range t.nc,
        if t.cell i j ≠ .nan ∧ p ⟨t.oAt i, t.dAt j, t.cell i j⟩ = true
        then g ⟨t.oAt i, t.dAt j, t.cell i j⟩ else 0 := by
  unfold Tri.toTbl
  rw [List.filter_flatMap, List.map_flatMap, list_sum_flatMap, list_sum_map_range]
  apply Finset.sum_congr rfl
  intro i _
  rw [List.filter_filterMap, sum_filterMap, list_sum_map_range]
  apply Finset.sum_congr rfl
  intro j _
  by_cases hn : t.cell i j = .nan
  · simp [hn]
  · have hn' := (Num.isNaN_false_iff _).2 hn
    by_cases hp : p ⟨t.oAt i, t.dAt j, t.cell i j⟩ = true
    · simp [hn, hn', hp, Option.filter]
    · simp [hn, hn', hp, Option.filter]

/-- Running total of the table of a gap-free row. -/
theorem Tri.runningTotal_toTbl {t : Tri K} (ho : Spec.Increasing t.origins)
    (hd : Spec.Increasing t.devs) {i j : ℕ} (hi : i < t.nr) (hj : j < t.nc)
    (hobs : ∀ k ≤ j, t.cell i k ≠ .nan) :
    Spec.runningTotal t.toTbl (t.oAt i) (t.dAt j) = ∑ k ∈ Finset.range (j + 1), t.cell i k := by
  unfold Spec.runningTotal
  rw [t.sum_toTbl, Finset.sum_eq_single i]
  · have hsub : Finset.range (j + 1) ⊆ Finset.range t.nc := by
      intro k hk; rw [Finset.mem_range] at hk ⊢; omega
    rw [← Finset.sum_subset hsub]
    · apply Finset.sum_congr rfl
      intro k hk
      rw [Finset.mem_range] at hk
      rw [if_pos]
      refine ⟨hobs k (by omega), ?_⟩
      simp only [decide_eq_true_eq, true_and]
      exact (dAt_le hd (by omega) hj).2 (by omega)
    · intro k hk hk'
      rw [Finset.mem_range] at hk hk'
      rw [if_neg]
      rintro ⟨_, h⟩
      simp only [decide_eq_true_eq, true_and] at h
      have := (dAt_le hd hk hj).1 h
      omega
  · intro i' hi' hne
    rw [Finset.mem_range] at hi'
    apply Finset.sum_eq_zero
    intro k _
    rw [if_neg]
    rintro ⟨_, h⟩
    simp only [decide_eq_true_eq] at h
    exact hne ((oAt_inj ho hi' hi).1 h.1)
  · intro h; exact absurd (Finset.mem_range.2 hi) h

end

end Trikit
