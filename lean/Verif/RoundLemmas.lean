import Verif.Props.Cumulative

/-! # Accumulating the table of a gap-free triangle; sorting -/

set_option linter.unusedSectionVars false

namespace Trikit

variable {K : Type} [Field K] [LinearOrder K]

/-- First observed value of every origin is positive. -/
def PosFirst (t : Tri K) : Prop := ∀ i < t.nr, Num.lt 0 (t.cell i 0) = true

theorem le_of_lt_pos {v : Num K} (h : Num.lt 0 v = true) : Num.le v 0 = false := by
  cases v with
  | nan => rfl
  | pinf => rfl
  | ninf => simp [Num.lt] at h
  | fin x =>
    simp only [Num.zero_def, Num.lt_fin, decide_eq_true_eq] at h
    simp [Num.zero_def, h]

theorem Spec.GapFree.rowsObserved {t : Tri K} {len : ℕ → ℕ} (h : Spec.GapFree t len) :
    Spec.RowsObserved t := by
  intro i hi
  obtain ⟨h1, h2, h3⟩ := h i hi
  obtain ⟨x, hx⟩ := (h3 0 (by omega)).1 (by omega)
  exact ⟨0, by omega, by rw [hx]; simp⟩

theorem Spec.GapFree.finiteTbl {t : Tri K} {len : ℕ → ℕ} (h : Spec.GapFree t len) :
    FiniteRecs t.toTbl := by
  intro r hr
  obtain ⟨i, hi, j, hj, hn, rfl⟩ := Tri.mem_toTbl.1 hr
  obtain ⟨h1, h2, h3⟩ := h i hi
  by_cases hl : j < len i
  · exact (h3 j hj).1 hl
  · exact absurd ((h3 j hj).2 (by omega)) hn

/-- Prefix sums of a row, missing where the row is missing. -/
def prefixCell (f : ℕ → Num K) (j : ℕ) : Num K :=
  if f j = .nan then .nan else ∑ k ∈ Finset.range (j + 1), f k

theorem Tri.preFill_labels {t : Tri K} (ho : Spec.Increasing t.origins)
    (hd : Spec.Increasing t.devs) (hr : Spec.RowsObserved t) (hc : Spec.ColsObserved t) :
    (preFill t.toTbl).origins = t.origins ∧ (preFill t.toTbl).devs = t.devs := by
  have hk : SameKeys (negHandler (cumRecs t.toTbl)) t.toTbl :=
    (negHandler_sameKeys _).trans (cumRecs_sameKeys _)
  constructor
  · unfold preFill; rw [pivot_origins, hk.origins, t.labels_toTbl_origins ho hr]
  · unfold preFill; rw [pivot_devs, hk.devs, t.labels_toTbl_devs hd hc]

theorem sum_range_fin {f : ℕ → Num K} {n : ℕ} (h : ∀ k < n, ∃ x, f k = .fin x) :
    ∃ x, ∑ k ∈ Finset.range n, f k = .fin x := by
  induction n with
  | zero => exact ⟨0, rfl⟩
  | succ n ih =>
    obtain ⟨x, hx⟩ := ih (fun k hk => h k (by omega))
    obtain ⟨y, hy⟩ := h n (by omega)
    exact ⟨x + y, by rw [Finset.sum_range_succ, hx, hy]; rfl⟩

/-- The accumulated table of a gap-free triangle has the prefix sums as cells. -/
theorem Tri.preFill_toTbl {t : Tri K} {len : ℕ → ℕ} (ho : Spec.Increasing t.origins)
    (hd : Spec.Increasing t.devs) (hg : Spec.GapFree t len) (hc : Spec.ColsObserved t)
    (hp : PosFirst t) :
    Tri.Same (preFill t.toTbl) { t with cell := fun i => prefixCell (t.cell i) } := by
  obtain ⟨hlo, hld⟩ := t.preFill_labels ho hd hg.rowsObserved hc
  refine ⟨hlo, hld, ?_⟩
  intro i hi j hj
  have hi' : i < t.nr := by unfold Tri.nr at hi ⊢; rw [← hlo]; exact hi
  have hj' : j < t.nc := by unfold Tri.nc at hj ⊢; rw [← hld]; exact hj
  have hoi : (preFill t.toTbl).origins[i]? = some (t.oAt i) := by rw [hlo]; exact t.origins_get hi'
  have hdj : (preFill t.toTbl).devs[j]? = some (t.dAt j) := by rw [hld]; exact t.devs_get hj'
  obtain ⟨h1, h2, h3⟩ := hg i hi'
  show _ = prefixCell (t.cell i) j
  unfold prefixCell
  by_cases hn : t.cell i j = .nan
  · rw [if_pos hn]
    unfold preFill at hoi hdj ⊢
    rw [pivot_cell hoi hdj]
    apply groupCell_nan
    rintro ⟨r, hr, e1, e2⟩
    have hk : SameKeys (negHandler (cumRecs t.toTbl)) t.toTbl :=
      (negHandler_sameKeys _).trans (cumRecs_sameKeys _)
    have : (r.origin, r.dev) ∈ t.toTbl.map (fun r => (r.origin, r.dev)) := by
      rw [← hk]; exact List.mem_map_of_mem (f := fun r : Rec K => (r.origin, r.dev)) hr
    obtain ⟨s, hs, he⟩ := List.mem_map.1 this
    simp only [Prod.mk.injEq] at he
    obtain ⟨i', hi'', j', hj'', hc', rfl⟩ := Tri.mem_toTbl.1 hs
    have ei := (oAt_inj ho hi'' hi').1 (he.1.trans e1)
    have ej := (dAt_inj hd hj'' hj').1 (he.2.trans e2)
    subst ei ej
    exact hc' hn
  · rw [if_neg hn]
    have hlt : j < len i := by
      by_contra hcon
      exact hn ((h3 j hj').2 (by omega))
    have hobs : ∀ k ≤ j, ∃ x, t.cell i k = .fin x := fun k hk =>
      (h3 k (by omega)).1 (by omega)
    have hmem : (⟨t.oAt i, t.dAt j, t.cell i j⟩ : Rec K) ∈ t.toTbl :=
      Tri.mem_toTbl.2 ⟨i, hi', j, hj', hn, rfl⟩
    have hrt := t.runningTotal_toTbl ho hd hi' hj'
      (fun k hk => by obtain ⟨x, hx⟩ := hobs k hk; rw [hx]; simp)
    obtain ⟨pre, post, hsplit⟩ := exists_split_of_mem hmem
    have hone := t.toTbl_onePerCell ho hd
    have hord := t.toTbl_devOrdered ho hd
    have hfin := hg.finiteTbl
    obtain ⟨x, hx⟩ := sum_range_fin (f := t.cell i) (n := j + 1) (fun k hk => hobs k (by omega))
    rw [hsplit] at hone hord hfin hrt hoi hdj ⊢
    have hcv := cumValue_runningTotal hfin hord hone.split
    simp only at hcv
    rw [hrt, hx] at hcv
    rw [hx]
    apply preFill_cell_single hone.split hcv _ hoi hdj
    intro hm
    rw [← hsplit] at hm
    have hmin := hm
    obtain ⟨i', hi'', hn'⟩ := hc 0 (by omega)
    have := hmin _ (Tri.mem_toTbl.2 ⟨i', hi'', 0, by omega, hn', rfl⟩)
    have hj0 := (dAt_le hd hj' (by omega)).1 this
    have hj0' : j = 0 := by omega
    subst hj0'
    have hp' := hp i hi'
    rw [Finset.sum_range_one] at hx
    rw [hx] at hp'
    simpa [Num.zero_def] using hp'

/-! ### differences -/

theorem diff_prefix {f : ℕ → Num K} {j : ℕ} (h : ∀ k ≤ j, ∃ x, f k = .fin x) :
    Tri.diffCell (prefixCell f) j = f j := by
  cases j with
  | zero =>
    obtain ⟨x, hx⟩ := h 0 (le_refl _)
    simp [Tri.diffCell, prefixCell, hx]
  | succ j =>
    obtain ⟨x, hx⟩ := h (j + 1) (le_refl _)
    obtain ⟨y, hy⟩ := h j (by omega)
    obtain ⟨s, hs⟩ := sum_range_fin (f := f) (n := j + 1) (fun k hk => h k (by omega))
    show prefixCell f (j + 1) - prefixCell f j = _
    unfold prefixCell
    rw [if_neg (by rw [hx]; simp), if_neg (by rw [hy]; simp), Finset.sum_range_succ _ (j + 1),
      hs, hx]
    simp

theorem diff_prefix_nan {f : ℕ → Num K} {j : ℕ} (h : f j = .nan) :
    Tri.diffCell (prefixCell f) j = .nan := by
  cases j with
  | zero => simp [Tri.diffCell, prefixCell, h]
  | succ j => simp [Tri.diffCell, prefixCell, h]

theorem diffCell_fin {f : ℕ → Num K} {j : ℕ} (h : ∀ k ≤ j, ∃ x, f k = .fin x) :
    ∃ x, Tri.diffCell f j = .fin x := by
  cases j with
  | zero => exact h 0 (le_refl _)
  | succ j =>
    obtain ⟨x, hx⟩ := h (j + 1) (le_refl _)
    obtain ⟨y, hy⟩ := h j (by omega)
    exact ⟨x - y, by simp [Tri.diffCell, hx, hy]⟩

theorem diffCell_nan {f : ℕ → Num K} {j : ℕ} (h : f j = .nan) : Tri.diffCell f j = .nan := by
  cases j <;> simp [Tri.diffCell, h]

theorem prefix_diff {f : ℕ → Num K} {j : ℕ} (h : ∀ k ≤ j, ∃ x, f k = .fin x) :
    ∑ k ∈ Finset.range (j + 1), Tri.diffCell f k = f j := by
  induction j with
  | zero => simp [Tri.diffCell]
  | succ j ih =>
    obtain ⟨x, hx⟩ := h (j + 1) (le_refl _)
    obtain ⟨y, hy⟩ := h j (by omega)
    rw [Finset.sum_range_succ, ih (fun k hk => h k (by omega))]
    simp [Tri.diffCell, hx, hy]

theorem Spec.GapFree.diffTri {t : Tri K} {len : ℕ → ℕ} (h : Spec.GapFree t len) :
    Spec.GapFree t.diffTri len := by
  intro i hi
  obtain ⟨h1, h2, h3⟩ := h i hi
  refine ⟨h1, h2, fun j hj => ⟨fun hl => ?_, fun hl => ?_⟩⟩
  · exact diffCell_fin (fun k hk => (h3 k (by have : t.diffTri.nc = t.nc := rfl; omega)).1 (by omega))
  · exact diffCell_nan ((h3 j hj).2 hl)

theorem Tri.diffTri_colsObserved {t : Tri K} {len : ℕ → ℕ} (h : Spec.GapFree t len)
    (hc : Spec.ColsObserved t) : Spec.ColsObserved t.diffTri := by
  intro j hj
  obtain ⟨i, hi, hn⟩ := hc j hj
  refine ⟨i, hi, ?_⟩
  obtain ⟨h1, h2, h3⟩ := h i hi
  have hl : j < len i := by
    by_contra hcon
    exact hn ((h3 j hj).2 (by omega))
  obtain ⟨x, hx⟩ := (h.diffTri i hi).2.2 j hj |>.1 hl
  rw [hx]; simp

theorem Tri.prefix_diffTri_same {t : Tri K} {len : ℕ → ℕ} (h : Spec.GapFree t len) :
    Tri.Same { t.diffTri with cell := fun i => prefixCell (t.diffTri.cell i) } t := by
  refine ⟨rfl, rfl, ?_⟩
  intro i hi j hj
  obtain ⟨h1, h2, h3⟩ := h i hi
  show prefixCell (Tri.diffCell (t.cell i)) j = t.cell i j
  have hj' : j < t.nc := hj
  by_cases hl : j < len i
  · have hobs : ∀ k ≤ j, ∃ x, t.cell i k = .fin x := fun k hk => (h3 k (by omega)).1 (by omega)
    unfold prefixCell
    obtain ⟨x, hx⟩ := diffCell_fin hobs
    rw [if_neg (by rw [hx]; simp), prefix_diff hobs]
  · have hn := (h3 j hj).2 (by omega)
    unfold prefixCell
    rw [if_pos (diffCell_nan hn), hn]

theorem Tri.diff_prefix_same {t : Tri K} {len : ℕ → ℕ} (h : Spec.GapFree t len) :
    Tri.Same (Tri.diffTri { t with cell := fun i => prefixCell (t.cell i) }) t := by
  refine ⟨rfl, rfl, ?_⟩
  intro i hi j hj
  obtain ⟨h1, h2, h3⟩ := h i hi
  show Tri.diffCell (prefixCell (t.cell i)) j = t.cell i j
  have hj' : j < t.nc := hj
  by_cases hl : j < len i
  · exact diff_prefix (fun k hk => (h3 k (by omega)).1 (by omega))
  · have hn := (h3 j hj).2 (by omega)
    rw [diff_prefix_nan hn, hn]

theorem Tri.Same.diffTri {a b : Tri K} (h : Tri.Same a b) : Tri.Same a.diffTri b.diffTri := by
  refine ⟨h.1, h.2.1, ?_⟩
  intro i hi j hj
  have hj' : j < a.nc := hj
  cases j with
  | zero => exact h.2.2 i hi 0 hj
  | succ j =>
    show a.cell i (j + 1) - a.cell i j = b.cell i (j + 1) - b.cell i j
    rw [h.2.2 i hi (j + 1) hj, h.2.2 i hi j (by omega)]

/-! ### sorting -/

theorem insRec_perm (r : Rec K) (l : List (Rec K)) : (insRec r l).Perm (r :: l) := by
  induction l with
  | nil => exact List.Perm.refl _
  | cons s l ih =>
    unfold insRec
    split
    · exact List.Perm.refl _
    · exact (ih.cons s).trans (List.Perm.swap r s l)

theorem sortRecs_perm (l : List (Rec K)) : (sortRecs l).Perm l := by
  induction l with
  | nil => exact List.Perm.refl _
  | cons r l ih => exact (insRec_perm r _).trans (ih.cons r)

theorem keyLe_iff {r s : Rec K} : keyLe r s = true ↔
    r.origin < s.origin ∨ r.origin = s.origin ∧ r.dev ≤ s.dev := by
  simp [keyLe]

theorem insRec_sorted (r : Rec K) {l : List (Rec K)} (h : l.Pairwise (fun a b => keyLe a b = true)) :
    (insRec r l).Pairwise (fun a b => keyLe a b = true) := by
  induction l with
  | nil => simp [insRec]
  | cons s l ih =>
    rw [List.pairwise_cons] at h
    unfold insRec
    split
    · rename_i hrs
      rw [List.pairwise_cons]
      refine ⟨?_, List.pairwise_cons.2 h⟩
      intro x hx
      rcases List.mem_cons.1 hx with rfl | hx
      · exact hrs
      · have := h.1 x hx
        rw [keyLe_iff] at *; omega
    · rename_i hrs
      rw [List.pairwise_cons]
      refine ⟨?_, ih h.2⟩
      intro x hx
      rcases List.mem_cons.1 ((insRec_perm r l).mem_iff.1 hx) with rfl | hx
      · rw [keyLe_iff] at *; omega
      · exact h.1 x hx

theorem sortRecs_sorted (l : List (Rec K)) :
    (sortRecs l).Pairwise (fun a b => keyLe a b = true) := by
  induction l with
  | nil => simp [sortRecs]
  | cons r l ih => exact insRec_sorted r ih

theorem mem_dropMissing_meltCol {x : Tri K} {r : Rec K} : r ∈ dropMissing (meltCol x) ↔
    ∃ i < x.nr, ∃ j < x.nc, x.cell i j ≠ .nan ∧ r = ⟨x.oAt i, x.dAt j, x.cell i j⟩ := by
  unfold dropMissing meltCol
  simp only [List.mem_filter, List.mem_flatMap, List.mem_map, List.mem_range, Bool.not_eq_true']
  constructor
  · rintro ⟨⟨j, hj, i, hi, rfl⟩, hn⟩
    exact ⟨i, hi, j, hj, (Num.isNaN_false_iff _).1 hn, rfl⟩
  · rintro ⟨i, hi, j, hj, hn, rfl⟩
    exact ⟨⟨j, hj, i, hi, rfl⟩, (Num.isNaN_false_iff _).2 hn⟩

theorem meltCol_nodup {x : Tri K} (ho : Spec.Increasing x.origins) (hd : Spec.Increasing x.devs) :
    (meltCol x).Nodup := by
  unfold meltCol List.Nodup
  rw [List.pairwise_flatMap]
  constructor
  · intro j hj
    rw [List.pairwise_map]
    apply (List.pairwise_lt_range (n := x.nr)).imp_of_mem
    intro i i' _ hi' hlt e
    have := Tri.oAt_lt ho (List.mem_range.1 hi') hlt
    simp only [Rec.mk.injEq] at e
    omega
  · apply (List.pairwise_lt_range (n := x.nc)).imp_of_mem
    intro j j' _ hj' hlt r hr s hs e
    obtain ⟨i, _, rfl⟩ := List.mem_map.1 hr
    obtain ⟨i', _, rfl⟩ := List.mem_map.1 hs
    have := Tri.dAt_lt hd (List.mem_range.1 hj') hlt
    simp only [Rec.mk.injEq] at e
    omega

/-- A list of records sorted strictly by (origin, dev) with exactly the non-missing cells of `x`. -/
theorem meltIncr_eq {x : Tri K} (ho : Spec.Increasing x.origins) (hd : Spec.Increasing x.devs)
    {l : List (Rec K)}
    (hs : l.Pairwise (fun r s => r.origin < s.origin ∨ r.origin = s.origin ∧ r.dev < s.dev))
    (hm : ∀ r, r ∈ l ↔
      ∃ i < x.nr, ∃ j < x.nc, x.cell i j ≠ .nan ∧ r = ⟨x.oAt i, x.dAt j, x.cell i j⟩) :
    meltIncr x = l := by
  unfold meltIncr
  have hnd : (dropMissing (meltCol x)).Nodup := (meltCol_nodup ho hd).filter _
  have hperm : (sortRecs (dropMissing (meltCol x))).Perm l := by
    refine (sortRecs_perm _).trans ?_
    rw [List.perm_ext_iff_of_nodup hnd (hs.imp (fun {a b} h e => by subst e; omega))]
    intro r
    rw [mem_dropMissing_meltCol, hm]
  refine hperm.eq_of_pairwise ?_ (sortRecs_sorted _) (hs.imp (S := fun a b => keyLe a b = true) ?_)
  · intro a b ha hb h1 h2
    have ha' := (sortRecs_perm _).mem_iff.1 ha
    have hb' := (hm b).1 hb
    obtain ⟨i, hi, j, hj, _, rfl⟩ := mem_dropMissing_meltCol.1 ha'
    obtain ⟨i', hi', j', hj', _, rfl⟩ := hb'
    rw [keyLe_iff] at h1 h2
    simp only at h1 h2
    have e1 := (Tri.oAt_inj ho hi hi').1 (by omega)
    have e2 := (Tri.dAt_inj hd hj hj').1 (by omega)
    subst e1 e2; rfl
  · intro a b h
    rw [keyLe_iff]; omega

theorem meltIncr_toTbl {x : Tri K} (ho : Spec.Increasing x.origins) (hd : Spec.Increasing x.devs) :
    meltIncr x = x.toTbl :=
  meltIncr_eq ho hd (x.toTbl_sorted ho hd) (fun _ => Tri.mem_toTbl)

end Trikit
