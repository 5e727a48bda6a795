import Verif.RecLemmas
import Verif.Spec

/-! # Building triangles from records (C01-C03, C05, ...) -/

set_option linter.unusedSectionVars false

namespace Trikit

variable {K : Type} [Field K] [LinearOrder K]

/-! ## C01 -/

theorem recordsAt_eq (recs : List (Rec K)) (o d : Int) :
    Spec.recordsAt recs o d = recs.filter (fun r => decide (r.origin = o ∧ r.dev = d)) := by
  unfold Spec.recordsAt
  apply List.filter_congr
  intro r _
  by_cases h1 : r.origin = o <;> by_cases h2 : r.dev = d <;> simp [h1, h2]

theorem cellValues_negHandler {recs : List (Rec K)} (o d : Int) :
    cellValues (negHandler recs) o d = (Spec.recordsAt recs o d).map (Spec.contribution recs) := by
  rw [recordsAt_eq]
  by_cases hn : recs = []
  · subst hn; rfl
  obtain ⟨m, hm⟩ := exists_min hn
  obtain ⟨⟨r0, hr0, hr0m⟩, hmin⟩ := min_spec hm
  rw [negHandler_eq hm]
  unfold cellValues
  rw [List.filter_map, List.map_map]
  have hf : (recs.filter ((fun r : Rec K => decide (r.origin = o ∧ r.dev = d)) ∘ floorRec m))
      = recs.filter (fun r => decide (r.origin = o ∧ r.dev = d)) := by
    apply List.filter_congr; intro r _; simp
  rw [hf]
  apply List.map_congr_left
  intro r hr
  have hrm : r ∈ recs := (List.mem_filter.1 hr).1
  simp only [Function.comp_apply, Spec.contribution, floorRec]
  have hiff : (∀ s ∈ recs, r.dev ≤ s.dev) ↔ r.dev = m := by
    constructor
    · intro h; exact le_antisymm (hr0m ▸ h r0 hr0) (hmin r hrm)
    · intro h s hs; rw [h]; exact hmin s hs
  by_cases hc : r.dev = m ∧ Num.le r.value 0 = true
  · rw [if_pos hc, if_pos ⟨hiff.2 hc.1, hc.2⟩]
  · rw [if_neg hc, if_neg (fun h => hc ⟨hiff.1 h.1, h.2⟩)]

theorem groupCell_negHandler (recs : List (Rec K)) (o d : Int) :
    groupCell (negHandler recs) o d = Spec.incrCell recs o d := by
  unfold groupCell Spec.incrCell
  rw [cellValues_negHandler]
  by_cases h : Spec.recordsAt recs o d = []
  · simp [h]
  · rw [if_neg (by simpa using h), if_neg h]
    unfold Num.sumSkip
    congr 1
    apply List.filter_congr
    intro v _
    cases v <;> simp [Num.isNaN]

theorem pivot_hasLabels (recs recs' : List (Rec K)) (h : SameKeys recs' recs) :
    Spec.HasLabelsOf (pivot recs') recs := by
  refine ⟨labels_pairwise _, labels_pairwise _, ?_, ?_⟩
  · intro o; rw [pivot_origins, mem_labels, h.origins]; simp
  · intro d; rw [pivot_devs, mem_labels, h.devs]; simp

/-- **C01.** `totri(..., tri_type="incr")` on any non-empty record list: index and columns are the
sorted distinct labels, and every cell is the sum of the recorded contributions (missing without
records). -/
theorem C01_incr_cells (recs : List (Rec K)) (hne : recs ≠ []) :
    ∃ t, totriIncr recs = .ok t ∧ Spec.HasLabelsOf t recs ∧
      ∀ i j o d, t.origins[i]? = some o → t.devs[j]? = some d →
        t.cell i j = Spec.incrCell recs o d := by
  refine ⟨pivot (negHandler recs), ?_, ?_, ?_⟩
  · simp [totriIncr, incrTri, baseInit, hne]
  · exact pivot_hasLabels _ _ (negHandler_sameKeys recs)
  · intro i j o d ho hd
    rw [pivot_cell ho hd, groupCell_negHandler]

/-- An empty table raises `ValueError` for both triangle types. -/
theorem C01_empty : totriIncr ([] : List (Rec K)) = .error .valueError ∧
    totriCum ([] : List (Rec K)) = .error .valueError := by
  constructor <;> rfl

/-- Concrete case for C01: unsorted records, a duplicate, a gap, a negative first-period value, a
missing value. -/
def exRecs1 : List (Rec ℚ) :=
  [⟨2002, 1, .fin 7⟩, ⟨2001, 2, .fin 5⟩, ⟨2001, 1, .fin (-3)⟩, ⟨2001, 2, .fin 4⟩,
   ⟨2003, 1, .fin 2⟩, ⟨2001, 3, .nan⟩]

example : exRecs1 ≠ [] ∧ dumpE (totriIncr exRecs1) =
    .ok ([2001, 2002, 2003], [1, 2, 3],
      [[.fin 1, .fin 9, .fin 0], [.fin 7, .nan, .nan], [.fin 2, .nan, .nan]]) := by
  decide +kernel

/-! ## C02 -/

theorem negHandler_perm {a b : List (Rec K)} (h : a.Perm b) :
    (negHandler a).Perm (negHandler b) := by
  by_cases hn : a = []
  · subst hn; rw [List.nil_perm.1 h]
  have hn' : b ≠ [] := fun hb => hn (List.perm_nil.1 (hb ▸ h))
  obtain ⟨m, hm⟩ := exists_min hn
  obtain ⟨m', hm'⟩ := exists_min hn'
  obtain ⟨⟨r, hr, hrm⟩, h1⟩ := min_spec hm
  obtain ⟨⟨r', hr', hrm'⟩, h2⟩ := min_spec hm'
  have hmm : m = m' := le_antisymm (hrm' ▸ h1 r' (h.mem_iff.2 hr')) (hrm ▸ h2 r (h.mem_iff.1 hr))
  subst hmm
  rw [negHandler_eq hm, negHandler_eq hm']
  exact h.map _

theorem pivot_perm {a b : List (Rec K)} (h : a.Perm b) : pivot a = pivot b := by
  have ho : labels (a.map Rec.origin) = labels (b.map Rec.origin) :=
    labels_congr (fun x => (h.map _).mem_iff)
  have hd : labels (a.map Rec.dev) = labels (b.map Rec.dev) :=
    labels_congr (fun x => (h.map _).mem_iff)
  have hg : groupCell a = groupCell b := by funext o d; exact groupCell_perm h o d
  simp only [pivot, ho, hd, hg]

theorem baseInit_perm {a b : List (Rec K)} (h : a.Perm b) : baseInit a = baseInit b := by
  by_cases hn : a = []
  · subst hn; rw [List.nil_perm.1 h]
  · have hn' : b ≠ [] := fun hb => hn (List.perm_nil.1 (hb ▸ h))
    simp only [baseInit, hn, hn', if_false]
    rw [pivot_perm (negHandler_perm h)]

/-- **C02.** The incremental triangle does not depend on the order of the records. -/
theorem C02_incr_order {recs recs' : List (Rec K)} (h : recs.Perm recs') :
    totriIncr recs = totriIncr recs' := baseInit_perm h

example : exRecs1.Perm exRecs1.reverse ∧ exRecs1 ≠ exRecs1.reverse :=
  ⟨(List.reverse_perm _).symm, by decide +kernel⟩

/-! ## C03 -/

/-- Two incremental records of one origin, listed in order. -/
def exOrdA : List (Rec ℚ) := [⟨1, 1, .fin 10⟩, ⟨1, 2, .fin 5⟩]
/-- The same two records in the other order. -/
def exOrdB : List (Rec ℚ) := [⟨1, 2, .fin 5⟩, ⟨1, 1, .fin 10⟩]

/-- **C03 is false of the code**: reordering the rows of one origin changes the cumulative
triangle (10, 15 becomes 15, 5). -/
theorem C03_cum_order_fails : ∃ recs recs' : List (Rec ℚ), recs.Perm recs' ∧
    dumpE (totriCum recs) = .ok ([1], [1, 2], [[.fin 10, .fin 15]]) ∧
    dumpE (totriCum recs') = .ok ([1], [1, 2], [[.fin 15, .fin 5]]) := by
  refine ⟨exOrdA, exOrdB, List.Perm.swap _ _ _, ?_, ?_⟩ <;> decide +kernel

/-- Running totals within a single origin. -/
def cumOne (a : Num K) : List (Rec K) → List (Rec K)
  | [] => []
  | r :: rs =>
    if r.value.isNaN then r :: cumOne a rs
    else { r with value := a + r.value } :: cumOne (a + r.value) rs

theorem cumGo_filter (acc : Int → Num K) (l : List (Rec K)) (o : Int) :
    (cumGo acc l).filter (fun r => decide (r.origin = o)) =
      cumOne (acc o) (l.filter (fun r => decide (r.origin = o))) := by
  induction l generalizing acc with
  | nil => rfl
  | cons r l ih =>
    rw [cumGo_cons]
    by_cases ho : r.origin = o
    · by_cases hn : r.value.isNaN = true
      · simp [hn, ho, cumOne, ih]
      · subst ho
        rw [if_neg hn]
        simp [hn, cumOne, ih]
    · by_cases hn : r.value.isNaN = true
      · simp [hn, ho, ih]
      · rw [if_neg hn]
        simp [ho, ih, Ne.symm ho]

theorem cellValues_eq_filter (l : List (Rec K)) (o d : Int) :
    cellValues l o d = (((l.filter (fun r => decide (r.origin = o))).filter
      (fun r => decide (r.dev = d))).map Rec.value) := by
  unfold cellValues
  rw [List.filter_filter]
  congr 1
  apply List.filter_congr
  intro r _
  by_cases h1 : r.origin = o <;> by_cases h2 : r.dev = d <;> simp [h1, h2]

theorem cumTri_of_filter {a b : List (Rec K)}
    (h : ∀ o, a.filter (fun r => decide (r.origin = o)) = b.filter (fun r => decide (r.origin = o))) :
    cumTri a = cumTri b := by
  have hmem : ∀ r, r ∈ a ↔ r ∈ b := by
    intro r
    have := h r.origin
    constructor
    · intro hr
      have h1 : r ∈ a.filter (fun s => decide (s.origin = r.origin)) := by simp [hr]
      rw [this] at h1; exact (List.mem_filter.1 h1).1
    · intro hr
      have h1 : r ∈ b.filter (fun s => decide (s.origin = r.origin)) := by simp [hr]
      rw [← this] at h1; exact (List.mem_filter.1 h1).1
  have hc : ∀ o, (cumRecs a).filter (fun r => decide (r.origin = o)) =
      (cumRecs b).filter (fun r => decide (r.origin = o)) := by
    intro o; unfold cumRecs; rw [cumGo_filter, cumGo_filter, h o]
  have hperm : (cumRecs a).Perm (cumRecs b) := by
    rw [List.perm_iff_count]
    intro r
    have h1 : ∀ l : List (Rec K), List.count r l =
        List.count r (l.filter (fun s => decide (s.origin = r.origin))) := by
      intro l; rw [List.count_filter]; simp
    rw [h1, h1 (cumRecs b), hc]
  exact baseInit_perm hperm

/-- **C03, part that holds**: reorderings that keep the rows of each origin in their relative order
(for instance any interleaving of origins whose rows stay in development order) do not change the
cumulative triangle.  Missing for the full property: reorderings within one origin. -/
theorem C03_cum_order_partial {recs recs' : List (Rec K)}
    (h : ∀ o, recs.filter (fun r => r.origin = o) = recs'.filter (fun r => r.origin = o)) :
    totriCum recs = totriCum recs' := by
  unfold totriCum
  rw [cumTri_of_filter h]

example : ∀ o : Int,
    ([⟨1, 1, .fin 10⟩, ⟨2, 1, .fin 3⟩, ⟨1, 2, .fin 5⟩] : List (Rec ℚ)).filter (fun r => r.origin = o) =
    ([⟨2, 1, .fin 3⟩, ⟨1, 1, .fin 10⟩, ⟨1, 2, .fin 5⟩] : List (Rec ℚ)).filter (fun r => r.origin = o) := by
  intro o
  by_cases h1 : (1 : Int) = o <;> by_cases h2 : (2 : Int) = o <;>
    (simp [List.filter, h1, h2]; try omega)

end Trikit
