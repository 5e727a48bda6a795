import Verif.Props.Cumulative

/-!
# C211: records of other origins do not change the cells of an origin

`_BaseTriangle.__init__` (triangle.py:49-60), `_BaseCumTriangle.__init__` (triangle.py:462-468), `totri` (triangle.py:1289-1407).
-/

set_option linter.unusedSectionVars false

namespace Trikit

/-! ## specification -/

/-- Two tables with the same rows of origin `o`, in the same order. -/
def Spec.SameRows {K : Type} (o : Int) (a b : List (Rec K)) : Prop :=
  a.filter (fun r => decide (r.origin = o)) = b.filter (fun r => decide (r.origin = o))

/-- Two tables with the same smallest development period. -/
def Spec.SameFirst {K : Type} (a b : List (Rec K)) : Prop := ∀ d : Int, (∀ r ∈ a, d ≤ r.dev) ↔ ∀ r ∈ b, d ≤ r.dev

section
variable {K : Type} [Field K] [LinearOrder K] {a b : List (Rec K)} {o : Int}

theorem incrCell_other (hs : Spec.SameRows o a b) (hf : Spec.SameFirst a b) (d : Int) :
    Spec.incrCell a o d = Spec.incrCell b o d := by
  have hr : ∀ l : List (Rec K), Spec.recordsAt l o d =
      (l.filter (fun r => decide (r.origin = o))).filter (fun r => r.dev == d) := fun l => by
    unfold Spec.recordsAt
    rw [List.filter_filter]
    apply List.filter_congr
    intro r _
    by_cases h1 : r.origin = o <;> by_cases h2 : r.dev = d <;> simp [h1, h2]
  have hc : Spec.contribution a = Spec.contribution b := by
    funext r
    unfold Spec.contribution
    simp only [hf r.dev]
  unfold Spec.incrCell
  rw [hr a, hr b, hs, hc]

theorem SameRows.cum (hs : Spec.SameRows o a b) : Spec.SameRows o (cumRecs a) (cumRecs b) := by
  unfold Spec.SameRows cumRecs
  rw [cumGo_filter, cumGo_filter, hs]

theorem SameFirst.cum (hf : Spec.SameFirst a b) : Spec.SameFirst (cumRecs a) (cumRecs b) := by
  have key : ∀ l : List (Rec K), ∀ d : Int, (∀ r ∈ cumRecs l, d ≤ r.dev) ↔ ∀ r ∈ l, d ≤ r.dev := fun l d => by
    have h := (cumRecs_sameKeys l).devs
    have e : ∀ m : List (Rec K), (∀ r ∈ m, d ≤ r.dev) ↔ ∀ x ∈ m.map Rec.dev, d ≤ x := fun m => by simp
    rw [e, e, h]
  intro d
  rw [key, key, hf]

theorem preFill_incrCell {i j : ℕ} {d : Int} (ho : (preFill a).origins[i]? = some o) (hd : (preFill a).devs[j]? = some d) :
    (preFill a).cell i j = Spec.incrCell (cumRecs a) o d := by
  unfold preFill at ho hd ⊢
  rw [pivot_cell ho hd, groupCell_negHandler]

theorem incrCell_none {d : Int} (h : ∀ r ∈ a, r.dev ≠ d) : Spec.incrCell (cumRecs a) o d = .nan := by
  unfold Spec.incrCell
  have : Spec.recordsAt (cumRecs a) o d = [] := by
    unfold Spec.recordsAt
    rw [List.filter_eq_nil_iff]
    intro r hr
    have : r.dev ∈ (cumRecs a).map Rec.dev := List.mem_map_of_mem hr
    rw [(cumRecs_sameKeys a).devs] at this
    obtain ⟨s, hs, e⟩ := List.mem_map.1 this
    have := h s hs
    rw [e] at this
    simp [this]
  rw [if_pos this]

/-- The value carried to period `d`: that of the last recorded period not after `d`, 1 without one. -/
def Spec.Carried (a : List (Rec K)) (o d : Int) (v : Num K) : Prop :=
  (∃ d', d' ≤ d ∧ Spec.incrCell (cumRecs a) o d' = v ∧ v ≠ .nan ∧
    ∀ e, d' < e → e ≤ d → Spec.incrCell (cumRecs a) o e = .nan) ∨
  (v = 1 ∧ ∀ e, e ≤ d → Spec.incrCell (cumRecs a) o e = .nan)

theorem carried_unique {d : Int} {v v' : Num K} (h : Spec.Carried a o d v) (h' : Spec.Carried a o d v') : v = v' := by
  rcases h with ⟨d1, h1, h2, h3, h4⟩ | ⟨h1, h2⟩
  · rcases h' with ⟨d2, k1, k2, k3, k4⟩ | ⟨k1, k2⟩
    · rcases lt_trichotomy d1 d2 with e | e | e
      · exact absurd ((k2.symm.trans (h4 d2 e k1))) k3
      · rw [← h2, ← k2, e]
      · exact absurd (h2.symm.trans (k4 d1 e h1)) h3
    · exact absurd (h2.symm.trans (k2 d1 h1)) h3
  · rcases h' with ⟨d2, k1, k2, k3, k4⟩ | ⟨k1, k2⟩
    · exact absurd (k2.symm.trans (h2 d2 k1)) k3
    · rw [h1, k1]

theorem cum_carried (hne : a ≠ []) (ht : ∀ r ∈ a, FiniteOrMissing r.value) {t : Tri K} (htot : totriCum a = .ok t)
    {i : ℕ} (hi : t.origins[i]? = some o) : ∀ j d, t.devs[j]? = some d → t.cell i j ≠ .nan →
    Spec.Carried a o d (t.cell i j) := by
  obtain ⟨u, t', hu, ht', e1, e2, e3, e4, e5⟩ := C12_fill hne ht
  rw [htot] at ht'
  obtain rfl := Except.ok.inj ht'
  rw [cumTri_eq hne] at hu
  obtain rfl := Except.ok.inj hu
  change t.origins = (preFill a).origins at e1
  change t.devs = (preFill a).devs at e2
  have hlab : Spec.HasLabelsOf t a := by
    have := pivot_hasLabels a (negHandler (cumRecs a)) ((negHandler_sameKeys _).trans (cumRecs_sameKeys a))
    unfold Spec.HasLabelsOf
    rw [e1, e2]; exact this
  have hcell : ∀ j d, t.devs[j]? = some d → (preFill a).cell i j = Spec.incrCell (cumRecs a) o d := fun j d hj =>
    preFill_incrCell (by rw [← e1]; exact hi) (by rw [← e2]; exact hj)
  have hir : i < (preFill a).nr := by
    unfold Tri.nr; rw [← e1]; exact (List.getElem?_eq_some_iff.1 hi).1
  have hnone : ∀ e : Int, e ∉ t.devs → Spec.incrCell (cumRecs a) o e = .nan := fun e he =>
    incrCell_none fun r hr h => he ((hlab.2.2.2 e).2 ⟨r, hr, h⟩)
  have hinc : ∀ p q x y, p < q → t.devs[p]? = some x → t.devs[q]? = some y → x < y := fun p q x y hpq hx hy => by
    obtain ⟨h1, h2⟩ := List.getElem?_eq_some_iff.1 hx
    obtain ⟨h3, h4⟩ := List.getElem?_eq_some_iff.1 hy
    have := List.pairwise_iff_getElem.1 hlab.2.1 p q h1 h3 hpq
    rw [h2, h4] at this; exact this
  have hjr : ∀ j d, t.devs[j]? = some d → j < (preFill a).nc := fun j d hj => by
    unfold Tri.nc; rw [← e2]; exact (List.getElem?_eq_some_iff.1 hj).1
  intro j
  induction j with
  | zero =>
    intro d hj hnn
    by_cases hu : (preFill a).cell i 0 = .nan
    · right
      refine ⟨e4 i hir hu, fun e he => ?_⟩
      by_cases hed : e = d
      · rw [hed, ← hcell 0 d hj, hu]
      · apply hnone
        intro hm
        obtain ⟨q, hq⟩ := List.getElem?_of_mem hm
        rcases Nat.eq_zero_or_pos q with rfl | hq0
        · rw [hj] at hq; exact hed (Option.some.inj hq).symm
        · have := hinc 0 q d e hq0 hj hq
          omega
    · left
      have hv := e3 i hir 0 (hjr 0 d hj) hu
      refine ⟨d, le_refl _, ?_, hnn, fun e h1 h2 => by omega⟩
      rw [← hcell 0 d hj]
      exact hv.symm
  | succ j ih =>
    intro d hj hnn
    by_cases hu : (preFill a).cell i (j + 1) = .nan
    · have hlt : j + 1 < (preFill a).nc := hjr _ _ hj
      have hfill : t.cell i (j + 1) = t.cell i j := by
        by_contra hne
        obtain ⟨h1, h2⟩ := e5 i hir j hlt hu
        have : t.cell i (j + 1) = .nan := by
          apply h2
          intro r hr1 hr2
          by_contra hr3
          exact hne (h1 ⟨r, hr1, hr2, hr3⟩)
        exact hnn this
      have hjl : j < t.devs.length := by
        have := (List.getElem?_eq_some_iff.1 hj).1; omega
      obtain ⟨d0, hd0⟩ : ∃ d0, t.devs[j]? = some d0 := ⟨_, List.getElem?_eq_getElem hjl⟩
      have hlt' := hinc j (j + 1) d0 d (by omega) hd0 hj
      have hgap : ∀ e, d0 < e → e ≤ d → Spec.incrCell (cumRecs a) o e = .nan := fun e h1 h2 => by
        by_cases hed : e = d
        · rw [hed, ← hcell _ d hj, hu]
        · apply hnone
          intro hm
          obtain ⟨q, hq⟩ := List.getElem?_of_mem hm
          rcases lt_trichotomy q (j + 1) with hqj | hqj | hqj
          · rcases Nat.lt_succ_iff_lt_or_eq.1 hqj with h3 | h3
            · have := hinc q j e d0 h3 hq hd0; omega
            · rw [h3, hd0] at hq; have := Option.some.inj hq; omega
          · rw [hqj, hj] at hq; exact hed (Option.some.inj hq).symm
          · have := hinc (j + 1) q d e hqj hj hq; omega
      rw [hfill] at hnn ⊢
      rcases ih d0 hd0 hnn with ⟨d', h1, h2, h3, h4⟩ | ⟨h1, h2⟩
      · left
        refine ⟨d', by omega, h2, h3, fun e k1 k2 => ?_⟩
        by_cases he : e ≤ d0
        · exact h4 e k1 he
        · exact hgap e (by omega) k2
      · right
        refine ⟨h1, fun e k2 => ?_⟩
        by_cases he : e ≤ d0
        · exact h2 e he
        · exact hgap e (by omega) k2
    · left
      have hv := e3 i hir (j + 1) (hjr _ d hj) hu
      refine ⟨d, le_refl _, ?_, hnn, fun e h1 h2 => by omega⟩
      rw [← hcell _ d hj]
      exact hv.symm

/-! ## C211 -/

/-- **C211, part that holds (1)**: two non-empty tables with the same rows of an origin and the same smallest development
period give incremental triangles with the same cells of that origin in all common periods.  Missing: tables with
different smallest development periods, see `C211_first_fails`. -/
theorem C211_incr_partial (ha : a ≠ []) (hb : b ≠ []) (hs : Spec.SameRows o a b) (hf : Spec.SameFirst a b) :
    ∃ t t', totriIncr a = .ok t ∧ totriIncr b = .ok t' ∧ ∀ i i' j j' d, t.origins[i]? = some o →
      t'.origins[i']? = some o → t.devs[j]? = some d → t'.devs[j']? = some d → t'.cell i' j' = t.cell i j := by
  obtain ⟨t, h1, _, h3⟩ := C01_incr_cells a ha
  obtain ⟨t', k1, _, k3⟩ := C01_incr_cells b hb
  refine ⟨t, t', h1, k1, fun i i' j j' d p1 p2 p3 p4 => ?_⟩
  rw [h3 i j o d p1 p3, k3 i' j' o d p2 p4, incrCell_other hs hf]

/-- **C211, part that holds (2)**: for the cumulative triangle, tables with finite or missing values.  All cells with a record
are the same, and so is every cell that is present in both triangles.  Missing: a cell without a record may be present in
one triangle and missing in the other, see `C211_younger_fails`. -/
theorem C211_cum_partial (ha : a ≠ []) (hb : b ≠ []) (hta : ∀ r ∈ a, FiniteOrMissing r.value)
    (htb : ∀ r ∈ b, FiniteOrMissing r.value) (hs : Spec.SameRows o a b) (hf : Spec.SameFirst a b) :
    ∃ t t', totriCum a = .ok t ∧ totriCum b = .ok t' ∧ ∀ i i' j j' d, t.origins[i]? = some o →
      t'.origins[i']? = some o → t.devs[j]? = some d → t'.devs[j']? = some d →
      ((∃ r ∈ a, r.origin = o ∧ r.dev = d) → t'.cell i' j' = t.cell i j) ∧
      (t.cell i j ≠ .nan → t'.cell i' j' ≠ .nan → t'.cell i' j' = t.cell i j) := by
  obtain ⟨u, t, hu, ht, e1, e2, e3, _⟩ := C12_fill ha hta
  obtain ⟨u', t', hu', ht', e1', e2', e3', _⟩ := C12_fill hb htb
  rw [cumTri_eq ha] at hu
  rw [cumTri_eq hb] at hu'
  obtain rfl := Except.ok.inj hu
  obtain rfl := Except.ok.inj hu'
  change t.origins = (preFill a).origins at e1
  change t.devs = (preFill a).devs at e2
  change t'.origins = (preFill b).origins at e1'
  change t'.devs = (preFill b).devs at e2'
  refine ⟨t, t', ht, ht', fun i i' j j' d p1 p2 p3 p4 => ?_⟩
  have hc : Spec.incrCell (cumRecs a) o d = Spec.incrCell (cumRecs b) o d := incrCell_other (SameRows.cum hs) (SameFirst.cum hf) d
  have hcar : ∀ {v}, Spec.Carried a o d v → Spec.Carried b o d v := fun {v} h => by
    unfold Spec.Carried at h ⊢
    simpa only [incrCell_other (SameRows.cum hs) (SameFirst.cum hf)] using h
  constructor
  · rintro ⟨r, hr, hro, hrd⟩
    have q1 := preFill_incrCell (a := a) (by rw [← e1]; exact p1) (by rw [← e2]; exact p3)
    have q2 := preFill_incrCell (a := b) (by rw [← e1']; exact p2) (by rw [← e2']; exact p4)
    have hne : Spec.incrCell (cumRecs a) o d ≠ .nan := by
      rw [← groupCell_negHandler]
      have hk := (negHandler_sameKeys (cumRecs a)).trans (cumRecs_sameKeys a)
      have htm : TameRecs (negHandler (cumRecs a)) := (cumRecs_tame hta).negHandler
      have hmem : (o, d) ∈ (negHandler (cumRecs a)).map (fun r => (r.origin, r.dev)) := by
        rw [hk]; exact List.mem_map.2 ⟨r, hr, by rw [hro, hrd]⟩
      obtain ⟨s, hs1, hs2⟩ := List.mem_map.1 hmem
      obtain ⟨x, hx⟩ := groupCell_fin htm ⟨s, hs1, (Prod.mk.inj hs2).1, (Prod.mk.inj hs2).2⟩
      rw [hx]
      intro e; cases e
    have hi1 : i < (preFill a).nr := by unfold Tri.nr; rw [← e1]; exact (List.getElem?_eq_some_iff.1 p1).1
    have hj1 : j < (preFill a).nc := by unfold Tri.nc; rw [← e2]; exact (List.getElem?_eq_some_iff.1 p3).1
    have hi2 : i' < (preFill b).nr := by unfold Tri.nr; rw [← e1']; exact (List.getElem?_eq_some_iff.1 p2).1
    have hj2 : j' < (preFill b).nc := by unfold Tri.nc; rw [← e2']; exact (List.getElem?_eq_some_iff.1 p4).1
    have f1 := e3 i hi1 j hj1 (by rw [show (pivot (negHandler (cumRecs a))).cell i j = _ from q1]; exact hne)
    have f2 := e3' i' hi2 j' hj2 (by rw [show (pivot (negHandler (cumRecs b))).cell i' j' = _ from q2, ← hc]; exact hne)
    rw [f1, f2]
    exact (q2.trans hc.symm).trans q1.symm
  · intro h1 h2
    exact (carried_unique (hcar (cum_carried ha hta ht p1 j d p3 h1)) (cum_carried hb htb ht' p2 j' d p4 h2)).symm

end

/-- **C211 is false of the code** when another origin brings a smaller development period: the value -5 becomes 1 in a table where it
is of the smallest period, and stays -5 where it is not. -/
theorem C211_first_fails :
    dumpE (totriIncr [(⟨2001, 2, .fin (-5)⟩ : Rec ℚ)]) = .ok ([2001], [2], [[.fin 1]]) ∧
    dumpE (totriIncr [(⟨2001, 2, .fin (-5)⟩ : Rec ℚ), ⟨2002, 1, .fin 3⟩]) =
      .ok ([2001, 2002], [1, 2], [[.nan, .fin (-5)], [.fin 3, .nan]]) := by
  constructor <;> decide +kernel

/-- **C211 is false of the code** for cumulative triangles also with the same smallest period: records of origin 2002 fill a cell of
origin 2001 which is missing without them. -/
theorem C211_younger_fails :
    dumpE (totriCum [(⟨2000, 1, .fin 7⟩ : Rec ℚ), ⟨2000, 2, .fin 2⟩, ⟨2001, 1, .fin 10⟩]) =
      .ok ([2000, 2001], [1, 2], [[.fin 7, .fin 9], [.fin 10, .nan]]) ∧
    dumpE (totriCum [(⟨2000, 1, .fin 7⟩ : Rec ℚ), ⟨2000, 2, .fin 2⟩, ⟨2001, 1, .fin 10⟩, ⟨2002, 1, .fin 4⟩,
      ⟨2002, 2, .fin 1⟩]) =
      .ok ([2000, 2001, 2002], [1, 2], [[.fin 7, .fin 9], [.fin 10, .fin 10], [.fin 4, .fin 5]]) := by
  constructor <;> decide +kernel

end Trikit
