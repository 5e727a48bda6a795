import Verif.Views
import Verif.FillLemmas
import Verif.TblLemmas
import Verif.Props.Frame

/-! # The development plot (C111, C136) -/

set_option linter.unusedSectionVars false

namespace Trikit

section
variable {K : Type} [Field K] [LinearOrder K] [IsStrictOrderedRing K]

namespace Spec

/-- The picture of a triangle: one line per origin, in order of the origins; the points of a line are the
non-missing cells of its row, each once, from left to right, and there is at least one; the ticks are the development labels. -/
structure Picture (t : Tri K) (lines : List (ViewLine K)) (ticks : List Int) : Prop where
  labels : lines.map ViewLine.label = t.origins
  points : ∀ i < t.nr, ∃ l, lines[i]? = some l ∧ l.points ≠ [] ∧ (l.points.map Prod.fst).Pairwise (· < ·) ∧
    ∀ d v, (d, v) ∈ l.points ↔ ∃ j < t.nc, d = t.dAt j ∧ v = t.cell i j ∧ v ≠ .nan
  ticks : ticks = t.devs

end Spec

theorem getGroups_ok {data : List (Rec K)} : ∀ {os : List Int},
    (∀ o ∈ os, ∃ r ∈ data, r.origin = o) →
    getGroups data os = .ok (os.map (fun o => data.filter (fun r => decide (r.origin = o)))) := by
  intro os
  induction os with
  | nil => intro _; rfl
  | cons o os ih =>
    intro h
    have hg : getGroup data o = .ok (data.filter (fun r => decide (r.origin = o))) := by
      unfold getGroup
      obtain ⟨r, hr, hro⟩ := h o (by simp)
      have hm : r ∈ data.filter (fun r => decide (r.origin = o)) := List.mem_filter.2 ⟨hr, by simpa using hro⟩
      generalize data.filter (fun r => decide (r.origin = o)) = l at hm
      cases l with
      | nil => cases hm
      | cons a l => rfl
    unfold getGroups
    rw [hg, ih (fun o' ho' => h o' (by simp [ho']))]
    rfl

theorem combinedView_ok {x : TriObj K} (ho : Spec.Increasing x.tri.origins) (hd : Spec.Increasing x.tri.devs)
    (hr : Spec.RowsObserved x.tri) (hc : Spec.ColsObserved x.tri) (hx : x.cum = true) (h1 : x.o = "origin") (h2 : x.d = "dev")
    (h3 : x.v = "value") :
    ∃ lines ticks, x.combinedView = .ok (lines, ticks) ∧ Spec.Picture x.tri lines ticks := by
  have hmem : ∀ o ∈ x.tri.origins, ∃ r ∈ x.tri.toTbl, r.origin = o := by
    intro o hm
    obtain ⟨i, hi⟩ := List.getElem?_of_mem hm
    have hi' : i < x.tri.nr := (List.getElem?_eq_some_iff.1 hi).1
    obtain ⟨j, hj, hcell⟩ := hr i hi'
    rw [x.tri.origins_get hi', Option.some.injEq] at hi
    exact ⟨_, Tri.mem_toTbl.2 ⟨i, hi', j, hj, hcell, rfl⟩, hi⟩
  have hlab : ∀ o ∈ x.tri.origins,
      (viewLine (x.tri.toTbl.filter (fun r => decide (r.origin = o)))).label = o := by
    intro o hm
    obtain ⟨r, hr', hro⟩ := hmem o hm
    have hin : r ∈ x.tri.toTbl.filter (fun r => decide (r.origin = o)) :=
      List.mem_filter.2 ⟨hr', by simpa using hro⟩
    have hall : ∀ q ∈ x.tri.toTbl.filter (fun r => decide (r.origin = o)), q.origin = o := by
      intro q hq
      simpa using (List.mem_filter.1 hq).2
    generalize x.tri.toTbl.filter (fun r => decide (r.origin = o)) = l at hin hall
    cases l with
    | nil => cases hin
    | cons a l => exact hall a (by simp)
  refine ⟨x.tri.origins.map (fun o => viewLine (x.tri.toTbl.filter (fun r => decide (r.origin = o)))),
    labels (x.tri.toTbl.map Rec.dev), ?_, ?_, ?_, x.tri.labels_toTbl_devs hd hc⟩
  · unfold TriObj.combinedView TriObj.toTbl
    rw [hx, if_pos h1]
    show (getGroups _ _).bind _ = _
    rw [getGroups_ok hmem]
    show (if x.d ≠ "dev" then _ else _) = _
    rw [if_neg (by simpa using h2), if_neg (fun h => h.1 h3), List.map_map]
    rfl
  · rw [List.map_map]
    conv_rhs => rw [← List.map_id x.tri.origins]
    exact List.map_congr_left hlab
  · intro i hi
    refine ⟨viewLine (x.tri.toTbl.filter (fun r => decide (r.origin = x.tri.oAt i))), ?_, ?_, ?_, ?_⟩
    · rw [List.getElem?_map, x.tri.origins_get hi]
      rfl
    · obtain ⟨r, hr', hro⟩ := hmem _ (x.tri.oAt_mem hi)
      have hin : r ∈ x.tri.toTbl.filter (fun r => decide (r.origin = x.tri.oAt i)) :=
        List.mem_filter.2 ⟨hr', by simpa using hro⟩
      exact List.ne_nil_of_mem (List.mem_map_of_mem hin)
    · unfold viewLine
      rw [List.map_map, List.pairwise_map]
      have hs := (Tri.toTbl_sorted ho hd).filter (fun r : Rec K => decide (r.origin = x.tri.oAt i))
      refine hs.imp_of_mem ?_
      intro a b ha hb hab
      have e1 : a.origin = x.tri.oAt i := by simpa using (List.mem_filter.1 ha).2
      have e2 : b.origin = x.tri.oAt i := by simpa using (List.mem_filter.1 hb).2
      rcases hab with h | h
      · omega
      · exact h.2
    · intro d v
      unfold viewLine
      simp only [List.mem_map, List.mem_filter, Tri.mem_toTbl, decide_eq_true_eq, Prod.mk.injEq]
      constructor
      · rintro ⟨r, ⟨⟨i', hi', j, hj, hcell, rfl⟩, hoi⟩, rfl, rfl⟩
        obtain rfl := (Tri.oAt_inj ho hi' hi).1 hoi
        exact ⟨j, hj, rfl, rfl, hcell⟩
      · rintro ⟨j, hj, rfl, rfl, hcell⟩
        exact ⟨_, ⟨⟨i, hi, j, hj, hcell, rfl⟩, rfl⟩, rfl, rfl⟩

/-- **C111, partial** For every non-empty table without infinite values with the default column names: the plot of the
cumulative triangle has one line per origin through its non-missing cells.  Missing: other
column names, see `C111_fails`. -/
theorem C111_partial {recs : List (Rec K)} (hne : recs ≠ []) (h : ∀ r ∈ recs, r.value = .nan ∨ ∃ y, r.value = .fin y) :
    ∃ t lines ticks, totriCum recs = .ok t ∧
      (TriObj.mk true t "origin" "dev" "value").combinedView = .ok (lines, ticks) ∧ Spec.Picture t lines ticks := by
  have ht : TameRecs recs := h
  obtain ⟨t, h1, h2, h3, h4⟩ := totriCum_ok hne ht
  have hnr : t.nr = (preFill recs).nr := by unfold Tri.nr; rw [h2]
  have hnc : t.nc = (preFill recs).nc := by unfold Tri.nc; rw [h3]
  obtain ⟨lines, ticks, e1, e2⟩ := combinedView_ok (x := TriObj.mk true t "origin" "dev" "value")
    (by rw [h2]; exact labels_pairwise _) (by rw [h3]; exact labels_pairwise _)
    (by
      intro i hi
      obtain ⟨j, hj, hcell⟩ := preFill_rowsObserved ht i (hnr ▸ hi)
      refine ⟨j, hnc ▸ hj, ?_⟩
      rw [h4 i j (hnc ▸ hj), fillRow_observed hcell]
      exact hcell)
    (by
      intro j hj
      obtain ⟨i, hi, hcell⟩ := preFill_colsObserved ht j (hnc ▸ hj)
      refine ⟨i, hnr ▸ hi, ?_⟩
      rw [h4 i j hj, fillRow_observed hcell]
      exact hcell) rfl rfl rfl rfl
  exact ⟨t, lines, ticks, h1, e1, e2⟩

/-- The faceted view holds the same lines as the combined one. -/
theorem facetedView_eq {x : TriObj K} (ho : Spec.Increasing x.tri.origins) (hr : Spec.RowsObserved x.tri)
    (hx : x.cum = true) (h1 : x.o = "origin") (h2 : x.d = "dev") (h3 : x.v = "value") :
    x.facetedView = x.combinedView := by
  have hmem : ∀ o ∈ x.tri.origins, ∃ r ∈ x.tri.toTbl, r.origin = o := by
    intro o hm
    obtain ⟨i, hi⟩ := List.getElem?_of_mem hm
    have hi' : i < x.tri.nr := (List.getElem?_eq_some_iff.1 hi).1
    obtain ⟨j, hj, hcell⟩ := hr i hi'
    rw [x.tri.origins_get hi', Option.some.injEq] at hi
    exact ⟨_, Tri.mem_toTbl.2 ⟨i, hi', j, hj, hcell, rfl⟩, hi⟩
  have hlab : labels (x.tri.toTbl.map Rec.origin) = x.tri.origins := by
    refine labels_eq_of_mem ho (fun o => ⟨fun hm => ?_, fun hm => ?_⟩)
    · obtain ⟨r, hr', e⟩ := hmem o hm
      exact List.mem_map.2 ⟨r, hr', e⟩
    · obtain ⟨r, hr', rfl⟩ := List.mem_map.1 hm
      obtain ⟨i, hi, j, -, -, rfl⟩ := Tri.mem_toTbl.1 hr'
      exact x.tri.oAt_mem hi
  unfold TriObj.facetedView TriObj.combinedView TriObj.toTbl
  rw [hx, if_pos h1]
  show (if (x.d ≠ "dev" ∨ x.v ≠ "value") ∧ x.tri.toTbl ≠ [] then _ else if x.d ≠ "dev" then _ else _) =
    (getGroups _ _).bind _
  rw [getGroups_ok hmem, if_neg (by simp [h2, h3]), if_neg (by simpa using h2)]
  show _ = (if x.d ≠ "dev" then _ else _)
  rw [if_neg (by simpa using h2), if_neg (fun h => h.1 h3), List.map_map, hlab]
  congr 2
  refine List.map_congr_left fun o hm => ?_
  obtain ⟨r, hr', hro⟩ := hmem o hm
  have hin : r ∈ x.tri.toTbl.filter (fun r => decide (r.origin = o)) :=
    List.mem_filter.2 ⟨hr', by simpa using hro⟩
  have hall : ∀ q ∈ x.tri.toTbl.filter (fun r => decide (r.origin = o)), q.origin = o := by
    intro q hq
    simpa using (List.mem_filter.1 hq).2
  simp only [Function.comp_apply, viewLine]
  generalize x.tri.toTbl.filter (fun r => decide (r.origin = o)) = l at hin hall
  cases l with
  | nil => cases hin
  | cons a l =>
    have : (List.map Rec.origin (a :: l)).headD 0 = o := hall a (by simp)
    rw [this]

/-- **C136, partial** For every non-empty table without infinite values with the default column names and every
`display`: the plot of the cumulative triangle shows, origin by origin, its non-missing cells.  Missing: other column
names, see `C136_fails`. -/
theorem C136_partial {recs : List (Rec K)} (hne : recs ≠ []) (h : ∀ r ∈ recs, r.value = .nan ∨ ∃ y, r.value = .fin y) :
    ∃ t lines ticks, totriCum recs = .ok t ∧ Spec.Picture t lines ticks ∧
      ∀ display, (TriObj.mk true t "origin" "dev" "value").plotView display = .ok (lines, ticks) := by
  obtain ⟨t, lines, ticks, h1, h2, h3⟩ := C111_partial hne h
  refine ⟨t, lines, ticks, h1, h3, fun display => ?_⟩
  have ho : Spec.Increasing t.origins := by
    obtain ⟨t', h1', h2', -⟩ := totriCum_ok hne (h : TameRecs recs)
    obtain rfl := Except.ok.inj (h1.symm.trans h1')
    rw [h2']; exact labels_pairwise _
  unfold TriObj.plotView
  split
  · rw [facetedView_eq ho ?_ rfl rfl rfl rfl, h2]
    intro i hi
    obtain ⟨l, -, hne', -, hp⟩ := h3.points i hi
    obtain ⟨⟨d, v⟩, hm⟩ := List.exists_mem_of_ne_nil _ hne'
    obtain ⟨j, hj, -, rfl, hv⟩ := (hp d v).1 hm
    exact ⟨j, hj, hv⟩
  · exact h2

theorem getGroup_error {data : List (Rec K)} {o : Int} {e : PyErr} (h : getGroup data o = .error e) : e = .keyError := by
  unfold getGroup at h
  split at h
  · cases h; rfl
  · cases h

theorem getGroups_missing {data : List (Rec K)} {o : Int} (ho : ∀ r ∈ data, r.origin ≠ o) :
    ∀ {os : List Int}, o ∈ os → getGroups data os = .error .keyError := by
  intro os
  induction os with
  | nil => intro h; cases h
  | cons a os ih =>
    intro h
    unfold getGroups
    cases hg : getGroup data a with
    | error e => rw [getGroup_error hg]; rfl
    | ok g =>
      have hm : o ∈ os := by
        rcases List.mem_cons.1 h with rfl | h
        · have : data.filter (fun r => decide (r.origin = o)) = [] := by
            rw [List.filter_eq_nil_iff]
            intro r hr
            simpa using ho r hr
          unfold getGroup at hg
          rw [this] at hg
          cases hg
        · exact h
      rw [ih hm]; rfl

/-- An origin without any amount (after its cells have been overwritten): the combined view raises `KeyError`. -/
theorem C136_empty_row {x : TriObj K} (ho : Spec.Increasing x.tri.origins) (hx : x.cum = true) (h1 : x.o = "origin")
    (h2 : x.d = "dev") (h3 : x.v = "value") {i : ℕ} (hi : i < x.tri.nr) (hr : ∀ j < x.tri.nc, x.tri.cell i j = .nan) :
    x.combinedView = .error .keyError := by
  have hm : x.tri.oAt i ∈ x.tri.origins := x.tri.oAt_mem hi
  have hg := getGroups_missing (data := x.tri.toTbl) (o := x.tri.oAt i) (by
    intro r hr' e
    obtain ⟨i', hi', j, hj, hn, rfl⟩ := Tri.mem_toTbl.1 hr'
    have : i' = i := (Tri.oAt_inj ho hi' hi).1 e
    subst this
    exact hn (hr j hj)) hm
  unfold TriObj.combinedView TriObj.toTbl
  rw [hx, if_pos h1]
  show (getGroups _ _).bind _ = _
  rw [hg]
  rfl

end

/-- **C136 fails** under another name of any of the three columns: the faceted view raises `KeyError`. -/
theorem C136_fails :
    (errOf ((totri exOdd [.table (exFrame "yr" "dev" "value")] 0 "cum" "incr" "tabular" "yr" "dev" "value").2.bind
      (fun x => x.plotView "faceted")) = some .keyError ∧
    errOf ((totri exOdd [.table (exFrame "origin" "age" "value")] 0 "cum" "incr" "tabular" "origin" "age"
      "value").2.bind (fun x => x.plotView "faceted")) = some .keyError ∧
    errOf ((totri exOdd [.table (exFrame "origin" "dev" "loss")] 0 "cum" "incr" "tabular" "origin" "dev"
      "loss").2.bind (fun x => x.plotView "faceted")) = some .keyError) := by
  decide +kernel

/-- **C111 fails** under another name of any of the three columns, though the triangle is built. -/
theorem C111_fails :
    (errOf ((totri exOdd [.table (exFrame "yr" "dev" "value")] 0 "cum" "incr" "tabular" "yr" "dev" "value").2.bind
      TriObj.combinedView) = some .keyError ∧
    errOf ((totri exOdd [.table (exFrame "origin" "age" "value")] 0 "cum" "incr" "tabular" "origin" "age"
      "value").2.bind TriObj.combinedView) = some .attributeError ∧
    errOf ((totri exOdd [.table (exFrame "origin" "dev" "loss")] 0 "cum" "incr" "tabular" "origin" "dev"
      "loss").2.bind TriObj.combinedView) = some .keyError) ∧
    (errOf (totri exOdd [.table (exFrame "yr" "dev" "value")] 0 "cum" "incr" "tabular" "yr" "dev" "value").2 = none ∧
    errOf (totri exOdd [.table (exFrame "origin" "age" "value")] 0 "cum" "incr" "tabular" "origin" "age"
      "value").2 = none ∧
    errOf (totri exOdd [.table (exFrame "origin" "dev" "loss")] 0 "cum" "incr" "tabular" "origin" "dev"
      "loss").2 = none) := by
  decide +kernel

/-- A triangle whose second origin has been emptied. -/
example : (TriObj.mk true (⟨[2001, 2002], [1, 2], fun i _ => if i = 0 then .fin (3 : ℚ) else .nan⟩ : Tri ℚ) "origin" "dev" "value").combinedView =
    .error .keyError :=
  C136_empty_row (by unfold Spec.Increasing; decide) rfl rfl rfl rfl (i := 1) (by decide) (by
    intro j hj
    rfl)

/-- C111 on a table whose gaps are filled by `totri`. -/
example : ((totriCum ([⟨2002, 1, .fin 4⟩, ⟨2001, 1, .fin 3⟩, ⟨2001, 2, .fin 5⟩, ⟨2002, 3, .fin 7⟩,
      ⟨2003, 1, .fin 2⟩, ⟨2003, 2, .fin 1⟩] : List (Rec ℚ))).bind (fun t =>
      (TriObj.mk true t "origin" "dev" "value").combinedView)) =
    .ok ([⟨2001, [(1, .fin 3), (2, .fin 8), (3, .fin 8)]⟩, ⟨2002, [(1, .fin 4), (2, .fin 4), (3, .fin 11)]⟩,
      ⟨2003, [(1, .fin 2), (2, .fin 3)]⟩], [1, 2, 3]) := by
  decide +kernel

end Trikit
