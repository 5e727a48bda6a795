import Verif.Props.RoundTrip
import Verif.Props.Access

/-! # Exactly when: sharp versions of C03, C05, C06, C09, C13, C18, C20, C21 -/

set_option linter.unusedSectionVars false

namespace Trikit

variable {K : Type} [Field K] [LinearOrder K] [IsStrictOrderedRing K]

/-! ## C06, C09 -/

/-- Every origin with a record in the first period has a present value there. -/
def Spec.FirstPresent (recs : List (Rec K)) : Prop :=
  ∀ r ∈ recs, (∀ s ∈ recs, r.dev ≤ s.dev) → ∃ s ∈ recs, s.origin = r.origin ∧ s.dev = r.dev ∧ s.value ≠ .nan

theorem sum_filter_pos {l : List (Num K)} (ht : ∀ v ∈ l, v = .nan ∨ ∃ x, v = .fin x ∧ 0 < x) {v : Num K} (hv : v ∈ l)
    (hn : v ≠ .nan) : ∃ x, (l.filter (fun v => v ≠ .nan)).sum = .fin x ∧ 0 < x := by
  apply sum_pos_fin
  · exact List.ne_nil_of_mem (List.mem_filter.2 ⟨hv, by simpa using hn⟩)
  · intro u hu
    obtain ⟨h1, h2⟩ := List.mem_filter.1 hu
    rcases ht u h1 with h | h
    · simp [h] at h2
    · exact h

/-- A cell of the first period: missing without record, 0 when all records are missing, positive otherwise. -/
theorem incrCell_first {recs : List (Rec K)} (ht : TameRecs recs) {o d : Int} (hd : ∀ s ∈ recs, d ≤ s.dev) :
    ((∀ r ∈ recs, ¬ (r.origin = o ∧ r.dev = d)) ∧ Spec.incrCell recs o d = .nan) ∨
    ((∃ r ∈ recs, r.origin = o ∧ r.dev = d) ∧ (∀ r ∈ recs, r.origin = o → r.dev = d → r.value = .nan) ∧
      Spec.incrCell recs o d = .fin 0) ∨
    ((∃ r ∈ recs, r.origin = o ∧ r.dev = d ∧ r.value ≠ .nan) ∧ ∃ x, Spec.incrCell recs o d = .fin x ∧ 0 < x) := by
  unfold Spec.incrCell
  by_cases e : Spec.recordsAt recs o d = []
  · left
    rw [if_pos e]
    refine ⟨fun r hr h => ?_, rfl⟩
    have : r ∈ Spec.recordsAt recs o d := by rw [recordsAt_eq]; exact List.mem_filter.2 ⟨hr, by simpa using h⟩
    rw [e] at this; simp at this
  · right
    rw [if_neg e]
    have hmem : ∀ r, r ∈ Spec.recordsAt recs o d ↔ r ∈ recs ∧ r.origin = o ∧ r.dev = d := by
      intro r; rw [recordsAt_eq, List.mem_filter]; simp
    have hc : ∀ r ∈ Spec.recordsAt recs o d, (r.value = .nan ∧ Spec.contribution recs r = .nan) ∨
        (r.value ≠ .nan ∧ ∃ x, Spec.contribution recs r = .fin x ∧ 0 < x) := by
      intro r hr
      obtain ⟨h1, h2, h3⟩ := (hmem r).1 hr
      have hm : ∀ s ∈ recs, r.dev ≤ s.dev := fun s hs => h3 ▸ hd s hs
      rcases ht r h1 with h | ⟨x, hx⟩
      · left
        refine ⟨h, ?_⟩
        unfold Spec.contribution
        rw [if_neg (by rw [h]; simp), h]
      · right
        refine ⟨by rw [hx]; simp, ?_⟩
        unfold Spec.contribution
        by_cases hle : x ≤ 0
        · rw [if_pos ⟨hm, by rw [hx, Num.zero_def, Num.le_fin]; simpa using hle⟩]
          exact ⟨1, rfl, one_pos⟩
        · rw [if_neg (by rw [hx, Num.zero_def, Num.le_fin]; simpa using fun _ => not_le.1 hle)]
          exact ⟨x, hx, not_le.1 hle⟩
    by_cases hp : ∃ r ∈ Spec.recordsAt recs o d, r.value ≠ .nan
    · right
      obtain ⟨r, hr, hn⟩ := hp
      obtain ⟨h1, h2, h3⟩ := (hmem r).1 hr
      refine ⟨⟨r, h1, h2, h3, hn⟩, ?_⟩
      apply sum_filter_pos (v := Spec.contribution recs r)
      · intro v hv
        obtain ⟨s, hs, rfl⟩ := List.mem_map.1 hv
        rcases hc s hs with h | h
        · exact Or.inl h.2
        · exact Or.inr h.2
      · exact List.mem_map_of_mem hr
      · rcases hc r hr with h | ⟨_, x, hx, _⟩
        · exact absurd h.1 hn
        · rw [hx]; simp
    · left
      push Not at hp
      obtain ⟨r, hr⟩ := List.exists_mem_of_ne_nil _ e
      refine ⟨⟨r, (hmem r).1 hr⟩, fun s hs h1 h2 => hp s ((hmem s).2 ⟨hs, h1, h2⟩), ?_⟩
      rw [List.filter_eq_nil_iff.2]
      · rfl
      · intro v hv
        obtain ⟨s, hs, rfl⟩ := List.mem_map.1 hv
        rcases hc s hs with h | h
        · simp [h.2]
        · exact absurd (hp s hs) h.1

theorem mem_negHandler_dev {recs : List (Rec K)} {d : Int} :
    (∃ r ∈ negHandler recs, r.dev = d) ↔ ∃ r ∈ recs, r.dev = d := by
  have := (negHandler_sameKeys recs).devs
  have h1 : d ∈ (negHandler recs).map Rec.dev ↔ d ∈ recs.map Rec.dev := by rw [this]
  simpa [List.mem_map] using h1

theorem first_dev_min {recs : List (Rec K)} (hz : 0 < (pivot (negHandler recs)).nc) :
    (∀ s ∈ recs, (pivot (negHandler recs)).dAt 0 ≤ s.dev) := by
  intro s hs
  obtain ⟨s', hs', he⟩ := mem_negHandler_dev.2 ⟨s, hs, rfl⟩
  rw [← he]; exact dAt_zero_min hz s' hs'

theorem first_nc_pos {recs : List (Rec K)} (hne : recs ≠ []) : 0 < (pivot (negHandler recs)).nc := by
  obtain ⟨r, hr⟩ := List.exists_mem_of_ne_nil _ hne
  have : r.dev ∈ (pivot (negHandler recs)).devs := by
    rw [pivot_devs, mem_labels, (negHandler_sameKeys _).devs]; exact List.mem_map_of_mem hr
  exact List.length_pos_of_mem this

/-- The first column of a built triangle is missing or positive exactly when `Spec.FirstPresent`. -/
theorem pivot_first_iff {recs : List (Rec K)} (hne : recs ≠ []) (ht : TameRecs recs) :
    (∀ i < (pivot (negHandler recs)).nr, (pivot (negHandler recs)).cell i 0 = .nan ∨
      ∃ x, (pivot (negHandler recs)).cell i 0 = .fin x ∧ 0 < x) ↔ Spec.FirstPresent recs := by
  have hz := first_nc_pos hne
  have hd := first_dev_min hz
  constructor
  · intro h r hr hm
    have hro : r.origin ∈ (pivot (negHandler recs)).origins := by
      rw [pivot_origins, mem_labels, (negHandler_sameKeys _).origins]; exact List.mem_map_of_mem hr
    obtain ⟨i, hi⟩ := List.getElem?_of_mem hro
    have hi' : i < (pivot (negHandler recs)).nr := (List.getElem?_eq_some_iff.1 hi).1
    have hrd : r.dev = (pivot (negHandler recs)).dAt 0 := by
      have h0 := (pivot (negHandler recs)).dAt_mem hz
      rw [pivot_devs, mem_labels, (negHandler_sameKeys _).devs] at h0
      obtain ⟨q, hq, hqe⟩ := List.mem_map.1 h0
      apply le_antisymm
      · rw [← hqe]; exact hm q hq
      · exact hd r hr
    have hcell : (pivot (negHandler recs)).cell i 0 = Spec.incrCell recs r.origin r.dev := by
      rw [pivot_cell hi ((pivot (negHandler recs)).devs_get hz), groupCell_negHandler, ← hrd]
    have h1 := h i hi'
    rw [hcell] at h1
    rcases incrCell_first ht (o := r.origin) (d := r.dev) hm with ⟨a, _⟩ | ⟨_, _, b⟩ | ⟨⟨s, a1, a2, a3, a4⟩, _⟩
    · exact absurd ⟨rfl, rfl⟩ (a r hr)
    · rw [b] at h1
      rcases h1 with h1 | ⟨x, hx, hx0⟩
      · simp at h1
      · injection hx with hx; rw [← hx] at hx0; exact absurd hx0 (lt_irrefl _)
    · exact ⟨s, a1, a2, a3, a4⟩
  · intro h i hi
    rw [pivot_cell' hi hz, groupCell_negHandler]
    rcases incrCell_first ht (o := (pivot (negHandler recs)).oAt i) hd with ⟨_, b⟩ | ⟨⟨r, r1, r2, r3⟩, b, _⟩ | ⟨_, b⟩
    · exact Or.inl b
    · obtain ⟨s, s1, s2, s3, s4⟩ := h r r1 (fun s hs => r3 ▸ hd s hs)
      exact absurd (b s s1 (s2.trans r2) (s3.trans r3)) s4
    · exact Or.inr b

theorem cumGo_nan (acc : Int → Num K) (ha : ∀ o, ∃ x, acc o = .fin x) (l : List (Rec K)) (ht : TameRecs l) :
    (cumGo acc l).map (fun r => (r.origin, r.dev, decide (r.value = .nan))) =
      l.map (fun r => (r.origin, r.dev, decide (r.value = .nan))) := by
  induction l generalizing acc with
  | nil => rfl
  | cons r l ih =>
    have hl : TameRecs l := fun s hs => ht s (by simp [hs])
    rw [cumGo_cons]
    rcases ht r (by simp) with hr | ⟨x, hx⟩
    · rw [if_pos (by rw [hr]; rfl), List.map_cons, List.map_cons, ih acc ha hl]
    · obtain ⟨y, hy⟩ := ha r.origin
      rw [if_neg (by rw [hx]; simp), List.map_cons, List.map_cons, ih _ _ hl]
      · congr 1
        simp [hx, hy]
      · intro o
        by_cases e : o = r.origin
        · subst e; exact ⟨y + x, by simp [hx, hy]⟩
        · simpa [e] using ha o

theorem firstPresent_congr {a b : List (Rec K)} (h : a.map (fun r => (r.origin, r.dev, decide (r.value = .nan))) =
    b.map (fun r => (r.origin, r.dev, decide (r.value = .nan)))) (ha : Spec.FirstPresent a) : Spec.FirstPresent b := by
  have hab : ∀ r ∈ a, ∃ s ∈ b, s.origin = r.origin ∧ s.dev = r.dev ∧ (s.value = .nan ↔ r.value = .nan) := by
    intro r hr
    have : (r.origin, r.dev, decide (r.value = .nan)) ∈ b.map (fun r => (r.origin, r.dev, decide (r.value = .nan))) := by
      rw [← h]; exact List.mem_map.2 ⟨r, hr, rfl⟩
    obtain ⟨s, hs, he⟩ := List.mem_map.1 this
    simp only [Prod.mk.injEq, decide_eq_decide] at he
    exact ⟨s, hs, he⟩
  have hba : ∀ r ∈ b, ∃ s ∈ a, s.origin = r.origin ∧ s.dev = r.dev ∧ (s.value = .nan ↔ r.value = .nan) := by
    intro r hr
    have : (r.origin, r.dev, decide (r.value = .nan)) ∈ a.map (fun r => (r.origin, r.dev, decide (r.value = .nan))) := by
      rw [h]; exact List.mem_map.2 ⟨r, hr, rfl⟩
    obtain ⟨s, hs, he⟩ := List.mem_map.1 this
    simp only [Prod.mk.injEq, decide_eq_decide] at he
    exact ⟨s, hs, he⟩
  intro r hr hm
  obtain ⟨s, s1, s2, s3, _⟩ := hba r hr
  obtain ⟨q, q1, q2, q3, q4⟩ := ha s s1 (fun p hp => by
    obtain ⟨p', p1, _, p3, _⟩ := hab p hp
    rw [s3, ← p3]; exact hm p' p1)
  obtain ⟨q', a1, a2, a3, a4⟩ := hab q q1
  exact ⟨q', a1, by rw [a2, q2, s2], by rw [a3, q3, s3], fun e => q4 (a4.1 e)⟩

/-- **C06, exactly when.** The first column of the incremental triangle is missing or positive throughout, and that of the
cumulative triangle positive throughout, if and only if every origin recorded in the first period has a value there that is
not missing.  For every non-empty table without infinite values. -/
theorem C06_exactly_partial {recs : List (Rec K)} (hne : recs ≠ []) (htame : ∀ r ∈ recs, FiniteOrMissing r.value) :
    (∃ t, totriIncr recs = .ok t ∧ ((∀ i < t.nr, t.cell i 0 = .nan ∨ ∃ x, t.cell i 0 = .fin x ∧ 0 < x) ↔
      Spec.FirstPresent recs)) ∧
    (∃ t, totriCum recs = .ok t ∧ ((∀ i < t.nr, ∃ x, t.cell i 0 = .fin x ∧ 0 < x) ↔ Spec.FirstPresent recs)) := by
  have ht : TameRecs recs := htame
  constructor
  · exact ⟨pivot (negHandler recs), by simp [totriIncr, incrTri, baseInit, hne], pivot_first_iff hne ht⟩
  · obtain ⟨t, h1, h2, h3, h4⟩ := totriCum_ok hne ht
    refine ⟨t, h1, ?_⟩
    have hk := cumGo_nan (fun _ => 0) (fun _ => ⟨0, rfl⟩) recs ht
    have hiff : Spec.FirstPresent (cumRecs recs) ↔ Spec.FirstPresent recs :=
      ⟨firstPresent_congr hk, firstPresent_congr hk.symm⟩
    rw [← hiff, ← pivot_first_iff (cumRecs_ne_nil hne) (cumRecs_tame ht)]
    have hz : 0 < t.nc := by unfold Tri.nc; rw [h3]; exact first_nc_pos (cumRecs_ne_nil hne)
    have hnr : t.nr = (pivot (negHandler (cumRecs recs))).nr := by unfold Tri.nr; rw [h2]; rfl
    have hc : ∀ i, t.cell i 0 = if (pivot (negHandler (cumRecs recs))).cell i 0 = .nan then 1
        else (pivot (negHandler (cumRecs recs))).cell i 0 := by
      intro i
      rw [h4 i 0 hz]
      unfold fillRow preFill
      by_cases e : (pivot (negHandler (cumRecs recs))).cell i 0 = .nan
      · rw [if_pos e, if_pos ((Num.isNaN_iff _).2 e)]
      · rw [if_neg e, if_neg (fun h => e ((Num.isNaN_iff _).1 h))]
    rw [hnr]
    constructor
    · intro h i hi
      obtain ⟨x, hx, hx0⟩ := h i hi
      rw [hc] at hx
      by_cases e : (pivot (negHandler (cumRecs recs))).cell i 0 = .nan
      · exact Or.inl e
      · rw [if_neg e] at hx; exact Or.inr ⟨x, hx, hx0⟩
    · intro h i hi
      rw [hc]
      rcases h i hi with e | ⟨x, hx, hx0⟩
      · rw [if_pos e]; exact ⟨1, rfl, one_pos⟩
      · rw [if_neg (by rw [hx]; simp), hx]; exact ⟨x, rfl, hx0⟩

/-- Beside it: a missing and a present value recorded for the same first-period cell. -/
example : Spec.FirstPresent ([⟨1, 1, .nan⟩, ⟨1, 1, .fin 4⟩, ⟨1, 2, .fin 5⟩, ⟨2, 2, .nan⟩] : List (Rec ℚ)) ∧
    dumpE (totriCum ([⟨1, 1, .nan⟩, ⟨1, 1, .fin 4⟩, ⟨1, 2, .fin 5⟩, ⟨2, 2, .nan⟩] : List (Rec ℚ))) =
      .ok ([1, 2], [1, 2], [[.fin 4, .fin 9], [.fin 1, .fin 0]]) := by
  constructor
  · unfold Spec.FirstPresent; decide +kernel
  · decide +kernel

/-- **C09, exactly when.** Exporting an incremental triangle with `to_tbl` and rebuilding it restores it if and only if
every origin recorded in the first period has a value there that is not missing. -/
theorem C09_exactly_partial {recs : List (Rec K)} {t : Tri K} (hbuilt : totriIncr recs = .ok t)
    (htame : ∀ r ∈ recs, FiniteOrMissing r.value) :
    (∃ u, totriIncr t.toTbl = .ok u ∧ Tri.Same u t) ↔ Spec.FirstPresent recs := by
  have ht : TameRecs recs := htame
  have hne : recs ≠ [] := by
    rintro rfl; simp [totriIncr, incrTri, baseInit] at hbuilt
  have ht' : t = pivot (negHandler recs) := by
    have : totriIncr recs = .ok (pivot (negHandler recs)) := by
      simp [totriIncr, incrTri, baseInit, hne]
    rw [this] at hbuilt; injection hbuilt with h; exact h.symm
  have htm : TameRecs (negHandler recs) := ht.negHandler
  have hz : 0 < t.nc := by rw [ht']; exact first_nc_pos hne
  have hnr : 0 < t.nr := by
    obtain ⟨r, hr⟩ := List.exists_mem_of_ne_nil _ hne
    have : r.origin ∈ t.origins := by
      rw [ht', pivot_origins, mem_labels, (negHandler_sameKeys _).origins]
      exact List.mem_map_of_mem hr
    exact List.length_pos_of_mem this
  have hiff := pivot_first_iff hne ht
  rw [← ht'] at hiff
  rw [← hiff]
  constructor
  · rintro ⟨u, hu, h1, h2, h3⟩ i hi
    have hne' : t.toTbl ≠ [] := by
      intro e; rw [e] at hu; simp [totriIncr, incrTri, baseInit] at hu
    have hu' : u = pivot (negHandler t.toTbl) := by
      have : totriIncr t.toTbl = .ok (pivot (negHandler t.toTbl)) := by
        simp [totriIncr, incrTri, baseInit, hne']
      rw [this] at hu; injection hu with h; exact h.symm
    have hcells : ∀ i j, i < t.nr → j < t.nc → (t.cell i j).Tame := by
      intro i j hi hj
      rw [ht'] at hi hj ⊢
      rw [pivot_cell' hi hj]
      by_cases e : ∃ r ∈ negHandler recs, r.origin = (pivot (negHandler recs)).oAt i ∧
          r.dev = (pivot (negHandler recs)).dAt j
      · exact Or.inr (groupCell_fin htm e)
      · left
        unfold groupCell
        rw [if_pos]
        by_contra hcon
        exact e (cellValues_ne_nil.1 hcon)
    have hfp : Spec.FirstPresent t.toTbl := by
      intro r hr _
      obtain ⟨i, hi, j, hj, hn, rfl⟩ := Tri.mem_toTbl.1 hr
      exact ⟨_, hr, rfl, rfl, hn⟩
    have htt : TameRecs t.toTbl := by
      intro r hr
      obtain ⟨i, hi, j, hj, hn, rfl⟩ := Tri.mem_toTbl.1 hr
      exact hcells i j hi hj
    have h4 := (pivot_first_iff hne' htt).2 hfp
    rw [← hu'] at h4
    have hi' : i < u.nr := by unfold Tri.nr; rw [h1]; exact hi
    have hz' : 0 < u.nc := by unfold Tri.nc; rw [h2]; exact hz
    rw [← h3 i hi' 0 hz']
    exact h4 i hi'
  · intro h2
    apply Tri.incrTri_toTbl
    · rw [ht']; exact labels_pairwise _
    · rw [ht']; exact labels_pairwise _
    · rw [ht']; exact pivot_rowsObserved htm
    · rw [ht']; exact pivot_colsObserved htm
    · exact hnr
    · intro i hi
      rcases h2 i hi with h | ⟨x, hx, hx0⟩
      · rw [h]; rfl
      · rw [hx]; simp [Num.zero_def, hx0]

end Trikit
