import Verif.Props.Access

/-! # Exactly when: sharp versions of C18, C20 and C21 -/

set_option linter.unusedSectionVars false

namespace Trikit

variable {K : Type} [Field K] [LinearOrder K] [IsStrictOrderedRing K]

/-! ## C18, C21 -/

/-- The latest origin has a record in the first period. -/
def Spec.LatestStarts (recs : List (Rec K)) : Prop :=
  ∃ s ∈ recs, (∀ q ∈ recs, q.origin ≤ s.origin) ∧ ∀ q ∈ recs, s.dev ≤ q.dev

theorem preFill_keys (recs : List (Rec K)) : SameKeys (negHandler (cumRecs recs)) recs :=
  (negHandler_sameKeys _).trans (cumRecs_sameKeys _)

/-- A cell of the accumulated triangle is observed exactly when a record exists for it. -/
theorem preFill_cell_observed {recs : List (Rec K)} (ht : TameRecs recs) {i j : ℕ} (hi : i < (preFill recs).nr)
    (hj : j < (preFill recs).nc) : (preFill recs).cell i j ≠ .nan ↔
      ∃ r ∈ recs, r.origin = (preFill recs).oAt i ∧ r.dev = (preFill recs).dAt j := by
  have hk := preFill_keys recs
  have hex : (∃ r ∈ negHandler (cumRecs recs), r.origin = (preFill recs).oAt i ∧ r.dev = (preFill recs).dAt j) ↔
      ∃ r ∈ recs, r.origin = (preFill recs).oAt i ∧ r.dev = (preFill recs).dAt j := by
    have : ((preFill recs).oAt i, (preFill recs).dAt j) ∈ (negHandler (cumRecs recs)).map (fun r => (r.origin, r.dev)) ↔
        ((preFill recs).oAt i, (preFill recs).dAt j) ∈ recs.map (fun r => (r.origin, r.dev)) := by rw [hk]
    simpa [List.mem_map] using this
  rw [← hex]
  unfold preFill at hi hj ⊢
  rw [pivot_cell' hi hj]
  constructor
  · intro h
    by_contra hc
    apply h
    unfold groupCell
    rw [if_pos]
    by_contra hcon
    exact hc (cellValues_ne_nil.1 hcon)
  · intro h
    obtain ⟨x, hx⟩ := groupCell_fin (cumRecs_tame ht).negHandler h
    rw [hx]; simp

theorem Tri.oAt_le {t : Tri K} (h : Spec.Increasing t.origins) {a b : ℕ} (ha : a < t.nr) (hb : b < t.nr) :
    t.oAt a ≤ t.oAt b ↔ a ≤ b := by
  have hlt : ∀ {a b : ℕ}, a < t.nr → b < t.nr → a < b → t.oAt a < t.oAt b := by
    intro a b ha hb hab
    have ha' : a < t.origins.length := ha
    have hb' : b < t.origins.length := hb
    have := List.pairwise_iff_getElem.1 h a b ha' hb' hab
    unfold Tri.oAt
    simpa [List.getD_eq_getElem?_getD, List.getElem?_eq_getElem ha', List.getElem?_eq_getElem hb'] using this
  constructor
  · intro hle
    by_contra hc
    have := hlt hb ha (not_le.1 hc)
    omega
  · intro hle
    rcases Nat.lt_or_eq_of_le hle with h' | rfl
    · exact (hlt ha hb h').le
    · exact le_refl _

theorem preFill_nc_pos {recs : List (Rec K)} (hne : recs ≠ []) : 0 < (preFill recs).nc := by
  obtain ⟨r, hr⟩ := List.exists_mem_of_ne_nil _ hne
  have : r.dev ∈ (preFill recs).devs := by
    unfold preFill; rw [pivot_devs, mem_labels, (preFill_keys recs).devs]; exact List.mem_map_of_mem hr
  exact List.length_pos_of_mem this

theorem preFill_nr_pos {recs : List (Rec K)} (hne : recs ≠ []) : 0 < (preFill recs).nr := by
  obtain ⟨r, hr⟩ := List.exists_mem_of_ne_nil _ hne
  have : r.origin ∈ (preFill recs).origins := by
    unfold preFill; rw [pivot_origins, mem_labels, (preFill_keys recs).origins]; exact List.mem_map_of_mem hr
  exact List.length_pos_of_mem this

theorem mem_preFill_origin {recs : List (Rec K)} {r : Rec K} (hr : r ∈ recs) :
    ∃ i < (preFill recs).nr, (preFill recs).oAt i = r.origin := by
  have : r.origin ∈ (preFill recs).origins := by
    unfold preFill; rw [pivot_origins, mem_labels, (preFill_keys recs).origins]; exact List.mem_map_of_mem hr
  obtain ⟨i, hi⟩ := List.getElem?_of_mem this
  have hi' : i < (preFill recs).nr := (List.getElem?_eq_some_iff.1 hi).1
  refine ⟨i, hi', ?_⟩
  unfold Tri.oAt
  rw [List.getD_eq_getElem?_getD, hi]; rfl

theorem mem_preFill_dev {recs : List (Rec K)} {r : Rec K} (hr : r ∈ recs) :
    ∃ j < (preFill recs).nc, (preFill recs).dAt j = r.dev := by
  have : r.dev ∈ (preFill recs).devs := by
    unfold preFill; rw [pivot_devs, mem_labels, (preFill_keys recs).devs]; exact List.mem_map_of_mem hr
  obtain ⟨i, hi⟩ := List.getElem?_of_mem this
  have hi' : i < (preFill recs).nc := (List.getElem?_eq_some_iff.1 hi).1
  refine ⟨i, hi', ?_⟩
  unfold Tri.dAt
  rw [List.getD_eq_getElem?_getD, hi]; rfl

theorem preFill_latestStarts {recs : List (Rec K)} (hne : recs ≠ []) (ht : TameRecs recs) :
    (preFill recs).cell ((preFill recs).nr - 1) 0 ≠ .nan ↔ Spec.LatestStarts recs := by
  have hnr := preFill_nr_pos hne
  have hnc := preFill_nc_pos hne
  have hio : Spec.Increasing (preFill recs).origins := labels_pairwise _
  have hid : Spec.Increasing (preFill recs).devs := labels_pairwise _
  rw [preFill_cell_observed ht (by omega) hnc]
  constructor
  · rintro ⟨r, hr, h1, h2⟩
    refine ⟨r, hr, fun q hq => ?_, fun q hq => ?_⟩
    · obtain ⟨i, hi, he⟩ := mem_preFill_origin hq
      rw [← he, h1]
      exact (Tri.oAt_le hio hi (by omega)).2 (by omega)
    · obtain ⟨j, hj, he⟩ := mem_preFill_dev hq
      rw [← he, h2]
      exact (Tri.dAt_le hid hnc hj).2 (Nat.zero_le _)
  · rintro ⟨s, hs, h1, h2⟩
    refine ⟨s, hs, ?_, ?_⟩
    · obtain ⟨i, hi, he⟩ := mem_preFill_origin hs
      apply le_antisymm
      · rw [← he]; exact (Tri.oAt_le hio hi (by omega)).2 (by omega)
      · have hm := (preFill recs).oAt_mem (i := (preFill recs).nr - 1) (by omega)
        have hm' : (preFill recs).oAt ((preFill recs).nr - 1) ∈ recs.map Rec.origin := by
          rw [← (preFill_keys recs).origins, ← mem_labels, ← pivot_origins]; exact hm
        obtain ⟨q, hq, he⟩ := List.mem_map.1 hm'
        rw [← he]; exact h1 q hq
    · obtain ⟨j, hj, he⟩ := mem_preFill_dev hs
      apply le_antisymm
      · have hm := (preFill recs).dAt_mem hnc
        have hm' : (preFill recs).dAt 0 ∈ recs.map Rec.dev := by
          rw [← (preFill_keys recs).devs, ← mem_labels, ← pivot_devs]; exact hm
        obtain ⟨q, hq, he⟩ := List.mem_map.1 hm'
        rw [← he]; exact h2 q hq
      · rw [← he]; exact (Tri.dAt_le hid hnc hj).2 (Nat.zero_le _)

/-- The stored column offsets are those of the filled triangle exactly when the last cell of the first column was observed. -/
theorem fillHead_clvi_zero {u t : Tri K} (hnr : 0 < u.nr) (hc : Spec.ColsObserved u) (hnc : 0 < u.nc)
    (ho : t.origins = u.origins) (hcell : ∀ i j, j < u.nc → t.cell i j = fillRow (u.cell i) (u.triindAt i) j) :
    t.clvi 0 = some (u.nr - 1) ∧ ((fillHead u).clvi 0 = some (u.nr - 1) ↔ u.cell (u.nr - 1) 0 ≠ .nan) := by
  have hnr' : t.nr = u.nr := by unfold Tri.nr; rw [ho]
  constructor
  · unfold Tri.clvi
    rw [lastValid_some]
    refine ⟨by omega, ?_, fun m h1 h2 => by omega⟩
    show t.cell (u.nr - 1) 0 ≠ .nan
    rw [hcell _ 0 hnc]
    unfold fillRow
    split
    · simp [Num.one_def]
    · rename_i h; intro e; exact h ((Num.isNaN_iff _).2 e)
  · unfold Tri.clvi
    rw [lastValid_some]
    show (_ ∧ (fillHead u).cell (u.nr - 1) 0 ≠ .nan ∧ _) ↔ _
    have hh : (fillHead u).nr = u.nr := rfl
    by_cases h1 : u.nr = 1
    · obtain ⟨i, hi, hi'⟩ := hc 0 hnc
      have : i = 0 := by omega
      subst this
      rw [h1]
      simp only [fillHead]
      rw [if_neg (by rintro ⟨_, _, h⟩; exact hi' ((Num.isNaN_iff _).1 h))]
      exact ⟨fun h => h.2.1, fun h => ⟨by show 1 - 1 < u.nr; omega, h, fun m a b => by have : m < u.nr := b; omega⟩⟩
    · simp only [fillHead]
      rw [if_neg (by rintro ⟨h, _⟩; omega)]
      exact ⟨fun h => h.2.1, fun h => ⟨by show u.nr - 1 < u.nr; omega, h, fun m a b => by have : m < u.nr := b; omega⟩⟩

/-- What `totri` stores on the cumulative triangle. -/
def storedState (u : Tri K) (o : FilledObj K) : ObjState K :=
  { tri := o.tri
    clvi := if u.nc ≤ 1 then none else some (fillHead u).clviL
    triind := o.triindC.map (fun ind => (List.range u.nr).map (fun i => (List.range u.nc).map (ind i))) }

theorem totriCumState_eq {recs : List (Rec K)} (hne : recs ≠ []) {o : FilledObj K} (h1 : totriCumObj recs = .ok o) :
    totriCumState recs = .ok (storedState (preFill recs) o) := by
  have hfill : fillObj (preFill recs) = .ok o := by
    unfold totriCumObj at h1; rw [cumTri_eq hne] at h1; exact h1
  unfold totriCumState
  rw [cumTri_eq hne]
  show (do
    let o ← fillObj (preFill recs)
    pure _ : Except PyErr (ObjState K)) = _
  rw [hfill]; rfl

/-- All attribute reads agree with recomputation when the latest origin has a first-period record. -/
theorem stored_clvi {recs : List (Rec K)} (hne : recs ≠ []) (ht : TameRecs recs) (hl : Spec.LatestStarts recs)
    {t : Tri K} (h3 : t.origins = (preFill recs).origins)
    (h5 : ∀ i j, j < (preFill recs).nc → t.cell i j = fillRow ((preFill recs).cell i) ((preFill recs).triindAt i) j)
    {j : ℕ} (hj : j < (preFill recs).nc) : (fillHead (preFill recs)).clvi j = t.clvi j := by
  by_cases e : j = 0
  · subst e
    have h := fillHead_clvi_zero (preFill_nr_pos hne) (preFill_colsObserved ht) hj h3 h5
    rw [h.1, h.2.2 ((preFill_latestStarts hne ht).2 hl)]
  · rw [fillHead_clvi (Or.inl e), fill_clvi (u := preFill recs) h3 h5 (preFill_colsObserved ht) hj (Or.inl e)]

theorem latestStarts_single {recs : List (Rec K)} (hne : recs ≠ []) (ht : TameRecs recs) (hc : (preFill recs).nc ≤ 1) :
    Spec.LatestStarts recs := by
  rw [← preFill_latestStarts hne ht]
  obtain ⟨j, hj, hj'⟩ := preFill_rowsObserved ht ((preFill recs).nr - 1) (by have := preFill_nr_pos hne; omega)
  have : j = 0 := by omega
  subst this; exact hj'

/-- **C18, exactly when.** For the cumulative triangle of `totri` each of the following holds if and only if the latest
origin has a record in the first period: every observed cell has `triind` 0; and `triind` is 0 exactly for the cells with a
non-missing value at the same or a later origin.  For every non-empty table without infinite values. -/
theorem C18_exactly_partial {recs : List (Rec K)} (hne : recs ≠ []) (htame : ∀ r ∈ recs, FiniteOrMissing r.value) :
    ∃ o ind, totriCumObj recs = .ok o ∧ o.triind = .ok ind ∧
      ((∀ i < o.tri.nr, ∀ j < o.tri.nc, o.tri.cell i j ≠ .nan → ind i j = false) ↔ Spec.LatestStarts recs) ∧
      ((∀ i < o.tri.nr, ∀ j < o.tri.nc, (ind i j = false ↔ ∃ r, i ≤ r ∧ r < o.tri.nr ∧ o.tri.cell r j ≠ .nan)) ↔
        Spec.LatestStarts recs) := by
  have ht : TameRecs recs := htame
  obtain ⟨o, h1, h2, h3, h4, h5, h6⟩ := totriCumObj_ok hne ht
  have hw := totriCum_wellBuilt h2 ht
  have hnr : o.tri.nr = (preFill recs).nr := by unfold Tri.nr; rw [h3]
  have hnc : o.tri.nc = (preFill recs).nc := by unfold Tri.nc; rw [h4]
  have hnr0 := preFill_nr_pos hne
  have hnc0 := preFill_nc_pos hne
  by_cases hc : (preFill recs).nc ≤ 1
  · rw [if_pos hc] at h6
    have hl := latestStarts_single hne ht hc
    refine ⟨o, o.tri.triindAt, h1, ?_, ?_, ?_⟩
    · unfold FilledObj.triind; rw [h6]; exact Tri.triind_ok hw.cols
    · exact ⟨fun _ => hl, fun _ i hi j hj => Tri.triindAt_observed hi⟩
    · exact ⟨fun _ => hl, fun _ i hi j hj => Tri.triindAt_false hi (hw.cols j hj)⟩
  · rw [if_neg hc] at h6
    have h0 := fillHead_clvi_zero hnr0 (preFill_colsObserved ht) hnc0 h3 h5
    have hlast : o.tri.cell ((preFill recs).nr - 1) 0 ≠ .nan := by
      have := h0.1
      unfold Tri.clvi at this
      rw [lastValid_some] at this
      exact this.2.1
    -- from indicator 0 in the last cell of the first column
    have hback : (fillHead (preFill recs)).triindAt ((preFill recs).nr - 1) 0 = false → Spec.LatestStarts recs := by
      intro h
      rw [← preFill_latestStarts hne ht, ← h0.2]
      have hcols := fillHead_colsObserved (preFill_colsObserved ht)
      have hs : ((fillHead (preFill recs)).clvi 0).isSome = true := lastValid_isSome.2 (hcols 0 hnc0)
      unfold Tri.triindAt at h
      cases hv : (fillHead (preFill recs)).clvi 0 with
      | none => rw [hv] at hs; simp at hs
      | some k =>
        rw [hv] at h
        simp only [decide_eq_false_iff_not, not_lt] at h
        have hk : k < (preFill recs).nr := by
          unfold Tri.clvi at hv
          rw [lastValid_some] at hv
          exact hv.1
        congr 1; omega
    have hsame : Spec.LatestStarts recs → ∀ i j, j < o.tri.nc →
        (fillHead (preFill recs)).triindAt i j = o.tri.triindAt i j := by
      intro hl i j hj
      unfold Tri.triindAt
      rw [stored_clvi hne ht hl h3 h5 (hnc ▸ hj)]
    refine ⟨o, (fillHead (preFill recs)).triindAt, h1, ?_, ⟨?_, ?_⟩, ⟨?_, ?_⟩⟩
    · unfold FilledObj.triind; rw [h6]
    · intro h
      exact hback (h _ (by omega) 0 (by omega) hlast)
    · intro hl i hi j hj
      rw [hsame hl i j hj]; exact Tri.triindAt_observed hi
    · intro h
      exact hback ((h _ (by omega) 0 (by omega)).2 ⟨(preFill recs).nr - 1, le_refl _, by omega, hlast⟩)
    · intro hl i hi j hj
      rw [hsame hl i j hj]; exact Tri.triindAt_false hi (hw.cols j hj)

/-- Beside it: an earlier origin without first-period record does no harm. -/
example : Spec.LatestStarts ([⟨1, 2, .fin 7⟩, ⟨2, 1, .fin 3⟩] : List (Rec ℚ)) ∧
    ¬ Spec.LatestStarts ([⟨1, 1, .fin 5⟩, ⟨1, 2, .fin 7⟩, ⟨2, 2, .fin 3⟩] : List (Rec ℚ)) := by
  unfold Spec.LatestStarts; decide +kernel

/-- **C21, exactly when.** Every sequence of attribute reads on the cumulative triangle of `totri` returns the recomputed
values if and only if the latest origin has a record in the first period. -/
theorem C21_exactly_partial {recs : List (Rec K)} (hne : recs ≠ []) (htame : ∀ r ∈ recs, FiniteOrMissing r.value) :
    ∃ s, totriCumState recs = .ok s ∧ totriCum recs = .ok s.tri ∧
      ((∀ l, (readAll s l).1 = l.map (fresh s.tri)) ↔ Spec.LatestStarts recs) := by
  have ht : TameRecs recs := htame
  obtain ⟨o, h1, h2, h3, h4, h5, h6⟩ := totriCumObj_ok hne ht
  have hnr : o.tri.nr = (preFill recs).nr := by unfold Tri.nr; rw [h3]
  have hnc : o.tri.nc = (preFill recs).nc := by unfold Tri.nc; rw [h4]
  have hnr0 := preFill_nr_pos hne
  have hnc0 := preFill_nc_pos hne
  refine ⟨storedState (preFill recs) o, totriCumState_eq hne h1, h2, ?_, ?_⟩
  · intro h
    by_cases hc : (preFill recs).nc ≤ 1
    · exact latestStarts_single hne ht hc
    · have hr := h [.clvi]
      have h0 := fillHead_clvi_zero hnr0 (preFill_colsObserved ht) hnc0 h3 h5
      have hr' : AttrVal.offs (fillHead (preFill recs)).clviL = (AttrVal.offs o.tri.clviL : AttrVal K) := by
        simpa [readAll, readAttr, readClvi, storedState, hc, fresh] using hr
      injection hr' with hr'
      rw [← preFill_latestStarts hne ht, ← h0.2, ← h0.1]
      have := congrArg (fun l => l[0]?) hr'
      have e1 : (fillHead (preFill recs)).nc = (preFill recs).nc := rfl
      simpa [Tri.clviL, e1, hnc, hnc0] using this
  · intro hl l
    have hcl : ∀ j < (preFill recs).nc, (fillHead (preFill recs)).clvi j = o.tri.clvi j :=
      fun j hj => stored_clvi hne ht hl h3 h5 hj
    have hcoh : Coherent (storedState (preFill recs) o) := by
      refine { coherent_new o.tri with triind := ?_, clvi := ?_ }
      · intro v hv
        have hv' : o.triindC.map (fun ind => (List.range (preFill recs).nr).map
          (fun i => (List.range (preFill recs).nc).map (ind i))) = some v := hv
        rw [h6] at hv'
        split at hv'
        · simp at hv'
        · simp only [Option.map_some, Option.some.injEq] at hv'
          rw [← hv']
          show _ = (List.range o.tri.nr).map (fun i => (List.range o.tri.nc).map (o.tri.triindAt i))
          rw [hnr, hnc]
          apply List.map_congr_left
          intro i _
          apply List.map_congr_left
          intro j hj
          unfold Tri.triindAt
          rw [hcl j (List.mem_range.1 hj)]
      · intro v hv
        have hv' : (if (preFill recs).nc ≤ 1 then none
          else some (fillHead (preFill recs)).clviL) = some v := hv
        split at hv'
        · simp at hv'
        · simp only [Option.some.injEq] at hv'
          rw [← hv']
          show (List.range (preFill recs).nc).map _ = (List.range o.tri.nc).map o.tri.clvi
          rw [hnc]
          apply List.map_congr_left
          intro j hj
          exact hcl j (List.mem_range.1 hj)
    exact (readAll_spec hcoh l).1

/-! ## C20 -/

theorem mapM_ok_nth {α β : Type} {f : α → Except PyErr β} {l : List α} {r : List β} (h : l.mapM f = .ok r) :
    l.length = r.length ∧ ∀ (k : ℕ) (hk : k < l.length) (hr : k < r.length), f l[k] = .ok r[k] := by
  induction l generalizing r with
  | nil =>
    simp only [List.mapM_nil] at h
    injection h with h
    subst h; simp
  | cons a l ih =>
    rw [List.mapM_cons] at h
    cases ha : f a with
    | error e => rw [ha] at h; simp [bind, Except.bind] at h
    | ok b =>
      cases hl : l.mapM f with
      | error e => rw [ha, hl] at h; simp [bind, Except.bind] at h
      | ok r' =>
        rw [ha, hl] at h
        simp only [bind, Except.bind, pure, Except.pure] at h
        injection h with h
        subst h
        obtain ⟨i1, i2⟩ := ih hl
        refine ⟨by simp [i1], ?_⟩
        intro k hk hr
        cases k with
        | zero => simpa using ha
        | succ k => simpa using i2 k (by simpa using hk) (by simpa using hr)

/-- **C20, exactly when.** For a triangle with increasing development labels and every origin observed, `diagonal(0)` is
the latest diagonal if and only if the `k`-th of the `n` origins is last observed in the `(n-k)`-th development period. -/
theorem C20_exactly_partial {t : Tri K} (hnr : 0 < t.nr) (hd : Spec.Increasing t.devs) (hrow : Spec.RowsObserved t) :
    t.diagonal 0 = .ok t.latest ↔ ∀ k < t.nr, t.nr - 1 - k < t.nc ∧ t.cell k (t.nr - 1 - k) ≠ .nan ∧
      ∀ m, t.nr - 1 - k < m → m < t.nc → t.cell k m = .nan := by
  refine ⟨fun h => ?_, C20_diagonal_partial hnr⟩
  obtain ⟨m, hm⟩ := Tri.exists_rlvi hrow
  have hl := Tri.latest_of_rlvi hm
  have hlen : t.latest.length = t.nr := by rw [hl]; simp
  unfold Tri.diagonal at h
  split at h
  · simp at h
  simp only [hlen] at h
  have hkept : ((List.range t.nr).map (fun k => (k, ((t.nr - 1 - k : ℕ) : Int) + 0))).filter
      (fun p => decide (0 ≤ p.2)) =
      (List.range t.nr).map (fun k => (k, ((t.nr - 1 - k : ℕ) : Int) + 0)) := by
    rw [List.filter_eq_self]
    intro p hp
    obtain ⟨k, _, rfl⟩ := List.mem_map.1 hp
    simp
  rw [hkept, if_neg (by simp; omega), mapM_map', hl] at h
  obtain ⟨_, h2⟩ := mapM_ok_nth h
  intro k hk
  have h3 := h2 k (by simpa using hk) (by simpa using hk)
  have e : (((t.nr - 1 - k : ℕ) : Int) + 0).toNat = t.nr - 1 - k := by omega
  simp only [List.getElem_range, List.getElem_map, e] at h3
  split at h3
  · rename_i hlt
    injection h3 with h3
    have hdd : t.dAt (t.nr - 1 - k) = t.dAt (m k) := by injection h3
    have hmk := hm k hk
    unfold Tri.rlvi at hmk
    rw [lastValid_some] at hmk
    have hmeq : t.nr - 1 - k = m k := by
      apply le_antisymm
      · exact (Tri.dAt_le hd hlt hmk.1).1 hdd.le
      · exact (Tri.dAt_le hd hmk.1 hlt).1 hdd.ge
    rw [hmeq]
    exact hmk
  · simp at h3

/-- Beside it: a staircase meets the hypotheses and the condition; `C20_wide_fails` shows a triangle that does not. -/
example : Spec.RowsObserved exCum ∧ exCum.diagonal 0 = .ok exCum.latest := by
  constructor
  · unfold Spec.RowsObserved; decide +kernel
  · decide +kernel

end Trikit
