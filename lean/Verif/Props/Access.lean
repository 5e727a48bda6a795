import Verif.AccessLemmas
import Verif.Props.RoundTrip

/-! # Accessors (C17, C18, C19, C20, C21, C137) -/

set_option linter.unusedSectionVars false

namespace Trikit

variable {K : Type} [Field K] [LinearOrder K]

/-- A triangle returned by `totri` for finite or missing records. -/
structure WellBuilt (t : Tri K) : Prop where
  origins : Spec.Increasing t.origins
  devs : Spec.Increasing t.devs
  rows : Spec.RowsObserved t
  cols : Spec.ColsObserved t

theorem totriIncr_wellBuilt {recs : List (Rec K)} {t : Tri K} (h : totriIncr recs = .ok t)
    (ht : TameRecs recs) : WellBuilt t := by
  unfold totriIncr incrTri baseInit at h
  split at h
  · simp at h
  · injection h with h
    subst h
    exact ⟨labels_pairwise _, labels_pairwise _, pivot_rowsObserved ht.negHandler,
      pivot_colsObserved ht.negHandler⟩

theorem totriCum_ne_nil {recs : List (Rec K)} {t : Tri K} (h : totriCum recs = .ok t) :
    recs ≠ [] := by
  rintro rfl
  simp [totriCum, cumTri, baseInit, cumRecs, cumGo] at h
  cases h

theorem totriCum_wellBuilt {recs : List (Rec K)} {t : Tri K} (h : totriCum recs = .ok t)
    (ht : TameRecs recs) : WellBuilt t := by
  obtain ⟨t', h1, h2, h3, h4⟩ := totriCum_ok (totriCum_ne_nil h) ht
  rw [h] at h1
  injection h1 with h1
  subst h1
  have hnr : t.nr = (preFill recs).nr := by unfold Tri.nr; rw [h2]
  have hnc : t.nc = (preFill recs).nc := by unfold Tri.nc; rw [h3]
  refine ⟨by rw [h2]; exact labels_pairwise _, by rw [h3]; exact labels_pairwise _, ?_, ?_⟩
  · intro i hi
    obtain ⟨j, hj, hn⟩ := preFill_rowsObserved ht i (hnr ▸ hi)
    exact ⟨j, hnc ▸ hj, by rw [h4 i j (hnc ▸ hj), fillRow_observed hn]; exact hn⟩
  · intro j hj
    obtain ⟨i, hi, hn⟩ := preFill_colsObserved ht j (hnc ▸ hj)
    exact ⟨i, hnr ▸ hi, by rw [h4 i j hj, fillRow_observed hn]; exact hn⟩

/-! ## C17 -/

/-- **C17.** For every triangle returned by `totri` (either type) `latest` and `latest_by_origin`
have one entry per origin, in index order: the last non-missing cell. -/
theorem C17_latest {recs : List (Rec K)} {t : Tri K}
    (hb : totriIncr recs = .ok t ∨ totriCum recs = .ok t)
    (ht : ∀ r ∈ recs, FiniteOrMissing r.value) :
    t.latest.length = t.nr ∧ t.latestByOrigin.length = t.nr ∧
    ∀ i < t.nr, ∃ j < t.nc, t.cell i j ≠ .nan ∧ (∀ k, j < k → k < t.nc → t.cell i k = .nan) ∧
      t.latest[i]? = some ⟨t.oAt i, t.dAt j, t.cell i j⟩ ∧
      t.latestByOrigin[i]? = some (t.oAt i, t.cell i j) := by
  have hw : WellBuilt t := by
    rcases hb with h | h
    · exact totriIncr_wellBuilt h ht
    · exact totriCum_wellBuilt h ht
  obtain ⟨m, hm⟩ := Tri.exists_rlvi hw.rows
  have hl := Tri.latest_of_rlvi hm
  refine ⟨by rw [hl]; simp, by unfold Tri.latestByOrigin; rw [hl]; simp, ?_⟩
  intro i hi
  have hmi := hm i hi
  unfold Tri.rlvi at hmi
  rw [lastValid_some] at hmi
  obtain ⟨h1, h2, h3⟩ := hmi
  refine ⟨m i, h1, h2, h3, ?_, ?_⟩
  · rw [hl]; simp [hi]
  · unfold Tri.latestByOrigin; rw [hl]; simp [hi]

/-- Concrete case for C17 (a triangle with gaps). -/
example : (∀ r ∈ exRecs12, r.value ≠ .nan) ∧
    ((totriIncr exRecs12).map Tri.latest) = .ok
      [⟨2001, 3, .fin 2⟩, ⟨2002, 3, .fin 1⟩, ⟨2003, 2, .fin 3⟩] := by
  constructor <;> decide +kernel

/-! ## C18 -/

/-- **C18 (indicator, incremental).** -/
theorem C18_triind_incr {recs : List (Rec K)} {t : Tri K} (hb : totriIncr recs = .ok t)
    (ht : ∀ r ∈ recs, FiniteOrMissing r.value) :
    ∃ ind, t.triind = .ok ind ∧ ∀ i < t.nr, ∀ j < t.nc,
      (ind i j = false ↔ ∃ r, i ≤ r ∧ r < t.nr ∧ t.cell r j ≠ .nan) ∧
      (t.cell i j ≠ .nan → ind i j = false) := by
  have hw := totriIncr_wellBuilt hb ht
  refine ⟨t.triindAt, Tri.triind_ok hw.cols, fun i hi j hj => ⟨?_, ?_⟩⟩
  · exact Tri.triindAt_false hi (hw.cols j hj)
  · exact Tri.triindAt_observed hi

/-- First column of the accumulated triangle is observed for origins with a first-period record. -/
theorem preFill_first_observed {recs : List (Rec K)} (ht : TameRecs recs)
    (hfirst : ∀ r ∈ recs, ∃ s ∈ recs, s.origin = r.origin ∧ ∀ q ∈ recs, s.dev ≤ q.dev)
    {i : ℕ} (hi : i < (preFill recs).nr) : (preFill recs).cell i 0 ≠ .nan := by
  have hk : SameKeys (negHandler (cumRecs recs)) recs :=
    (negHandler_sameKeys _).trans (cumRecs_sameKeys _)
  have hom := (preFill recs).oAt_mem hi
  have : (preFill recs).oAt i ∈ recs.map Rec.origin := by
    unfold preFill at hom ⊢
    rw [pivot_origins, mem_labels, hk.origins] at hom
    exact hom
  obtain ⟨r, hr, hro⟩ := List.mem_map.1 this
  obtain ⟨s, hs, hso, hmin⟩ := hfirst r hr
  have hkey : (s.origin, s.dev) ∈ (negHandler (cumRecs recs)).map (fun r => (r.origin, r.dev)) := by
    rw [hk]; exact List.mem_map_of_mem (f := fun r : Rec K => (r.origin, r.dev)) hs
  obtain ⟨s', hs', he⟩ := List.mem_map.1 hkey
  simp only [Prod.mk.injEq] at he
  have hd : s'.dev ∈ (preFill recs).devs := (mem_pivot_devs _ _).2 ⟨s', hs', rfl⟩
  have hz : 0 < (preFill recs).nc := List.length_pos_of_mem hd
  have hdev : (preFill recs).dAt 0 = s'.dev := by
    apply le_antisymm
    · obtain ⟨j, hj⟩ := List.getElem?_of_mem hd
      have hj' : j < (preFill recs).nc := (List.getElem?_eq_some_iff.1 hj).1
      rw [(preFill recs).devs_get hj', Option.some.injEq] at hj
      rw [← hj]
      exact (Tri.dAt_le (t := preFill recs) (show Spec.Increasing (preFill recs).devs from labels_pairwise _) hz hj').2 (Nat.zero_le _)
    · have h0 := (preFill recs).dAt_mem hz
      obtain ⟨q, hq, hqd⟩ := (mem_pivot_devs _ _).1 h0
      have hq' : q.dev ∈ recs.map Rec.dev := by
        rw [← hk.devs]; exact List.mem_map_of_mem hq
      obtain ⟨q', hq'm, hqe⟩ := List.mem_map.1 hq'
      rw [← hqd, ← hqe, he.2]
      exact hmin q' hq'm
  unfold preFill at hz hdev hi hro ⊢
  rw [pivot_cell' hi hz, hdev]
  obtain ⟨x, hx⟩ := groupCell_fin (cumRecs_tame ht).negHandler
    (o := (pivot (negHandler (cumRecs recs))).oAt i) (d := s'.dev)
    ⟨s', hs', by rw [he.1, hso, hro], rfl⟩
  rw [hx]; simp

theorem totriCumObj_ok {recs : List (Rec K)} (hne : recs ≠ []) (ht : TameRecs recs) :
    ∃ o, totriCumObj recs = .ok o ∧ totriCum recs = .ok o.tri ∧
      o.tri.origins = (preFill recs).origins ∧ o.tri.devs = (preFill recs).devs ∧
      (∀ i j, j < (preFill recs).nc → o.tri.cell i j =
        fillRow ((preFill recs).cell i) ((preFill recs).triindAt i) j) ∧
      o.triindC = (if (preFill recs).nc ≤ 1 then none else some (fillHead (preFill recs)).triindAt) := by
  obtain ⟨o, h1, h2, h3, h4, h5⟩ := fillObj_ok (preFill_colsObserved ht)
  refine ⟨o, ?_, ?_, h2, h3, h4, h5⟩
  · unfold totriCumObj; rw [cumTri_eq hne]; exact h1
  · unfold totriCum fillTri
    rw [cumTri_eq hne]
    show (fillObj (preFill recs)).map FilledObj.tri = _
    rw [h1]; rfl

/-- **C18 (indicator, cumulative).** For cumulative triangles returned by `totri` the indicator read
from the object obeys the same rule, provided every origin has a first-period record.  Missing:
origins starting later, for which the rule is false (`C18_triind_cum_fails`). -/
theorem C18_triind_cum_partial {recs : List (Rec K)} (hne : recs ≠ [])
    (ht : ∀ r ∈ recs, FiniteOrMissing r.value)
    (hfirst : ∀ r ∈ recs, ∃ s ∈ recs, s.origin = r.origin ∧ ∀ q ∈ recs, s.dev ≤ q.dev) :
    ∃ o ind, totriCumObj recs = .ok o ∧ o.triind = .ok ind ∧
      ∀ i < o.tri.nr, ∀ j < o.tri.nc,
        (ind i j = false ↔ ∃ r, i ≤ r ∧ r < o.tri.nr ∧ o.tri.cell r j ≠ .nan) ∧
        (o.tri.cell i j ≠ .nan → ind i j = false) := by
  obtain ⟨o, h1, h2, h3, h4, h5, h6⟩ := totriCumObj_ok hne (show TameRecs recs from ht)
  have hw := totriCum_wellBuilt h2 ht
  have hnr : o.tri.nr = (preFill recs).nr := by unfold Tri.nr; rw [h3]
  have hnc : o.tri.nc = (preFill recs).nc := by unfold Tri.nc; rw [h4]
  have hobs : ∀ i < (preFill recs).nr, (preFill recs).cell i 0 ≠ .nan :=
    fun i hi => preFill_first_observed ht hfirst hi
  by_cases hc : (preFill recs).nc ≤ 1
  · rw [if_pos hc] at h6
    refine ⟨o, o.tri.triindAt, h1, ?_, fun i hi j hj =>
      ⟨Tri.triindAt_false hi (hw.cols j hj), Tri.triindAt_observed hi⟩⟩
    unfold FilledObj.triind; rw [h6]; exact Tri.triind_ok hw.cols
  · rw [if_neg hc] at h6
    have hsame : ∀ i j, j < o.tri.nc →
        (fillHead (preFill recs)).triindAt i j = o.tri.triindAt i j := by
      intro i j hj
      unfold Tri.triindAt
      have hpos : 0 < (preFill recs).nr := by
        obtain ⟨r, hr, _⟩ := preFill_colsObserved (show TameRecs recs from ht) j (hnc ▸ hj)
        omega
      rw [fillHead_clvi (Or.inr (hobs 0 hpos)),
        fill_clvi (u := preFill recs) h3 h5 (preFill_colsObserved ht) (hnc ▸ hj) (Or.inr hobs)]
    refine ⟨o, (fillHead (preFill recs)).triindAt, h1, ?_, fun i hi j hj => ⟨?_, ?_⟩⟩
    · unfold FilledObj.triind; rw [h6]
    · rw [hsame i j hj]; exact Tri.triindAt_false hi (hw.cols j hj)
    · rw [hsame i j hj]; exact Tri.triindAt_observed hi

/-- **C18 is false of the code** for an origin without first-period record: the cell is filled with 1
after `triind` has been stored, so an observed cell has `triind` 1 (`true`). -/
theorem C18_triind_cum_fails : ∃ recs : List (Rec ℚ),
    (∀ r ∈ recs, FiniteOrMissing r.value) ∧
    dumpE (totriCum recs) = .ok ([1, 2], [1, 2], [[.fin 5, .fin 12], [.fin 1, .fin 3]]) ∧
    (totriCumObj recs).bind (fun o => o.triind.map (fun ind => (ind 0 0, ind 0 1, ind 1 0, ind 1 1))) =
      .ok (false, false, true, false) := by
  refine ⟨[⟨1, 1, .fin 5⟩, ⟨1, 2, .fin 7⟩, ⟨2, 2, .fin 3⟩], ?_, by decide +kernel, by decide +kernel⟩
  intro r hr; simp at hr
  rcases hr with rfl | rfl | rfl <;> exact Or.inr ⟨_, rfl⟩

/-- **C18 (staircase).** On an `n x n` staircase `triind` is 1 exactly on the missing cells and the
maturity of the `k`-th origin is the `(n-k)`-th development label. -/
theorem C18_staircase {t : Tri K} {n : ℕ} (h : Spec.Staircase t n) :
    ∃ ind, t.triind = .ok ind ∧
      (∀ i < n, ∀ j < n, (ind i j = true ↔ t.cell i j = .nan)) ∧
      ∃ mat, t.maturity = .ok mat ∧ mat.length = n ∧
        ∀ k < n, mat[k]? = some (t.dAt (n - 1 - k)) := by
  have hok := Tri.triind_ok h.colsObserved
  refine ⟨t.triindAt, hok, ?_, (List.range n).map (fun k => t.dAt (n - 1 - k)), ?_, by simp, ?_⟩
  · intro i hi j hj
    rw [h.triindAt i hj, decide_eq_true_eq]
    obtain ⟨h1, h2⟩ := h.2.2.2.2 i hi j hj
    constructor
    · exact h2
    · intro hn
      by_contra hc
      obtain ⟨x, hx⟩ := h1 (by omega)
      rw [hx] at hn; simp at hn
  · unfold Tri.maturity
    rw [hok]
    show List.mapM _ _ = _
    rw [h.1, h.2.1]
    apply mapM_ok
    intro i hi
    rw [List.mem_range] at hi
    have : Tri.lastZero (t.triindAt i) n = some (n - 1 - i) := by
      rw [lastZero_some]
      refine ⟨by omega, ?_, ?_⟩
      · rw [h.triindAt i (by omega)]; simp; omega
      · intro m hm hm'
        rw [h.triindAt i hm']; simp; omega
    simp only [this]
  · intro k hk; simp [hk]

/-- The example triangle is a staircase. -/
theorem exCum_staircase : Spec.Staircase exCum 3 := by
  refine ⟨rfl, rfl, by unfold Spec.Increasing; decide, by unfold Spec.Increasing; decide, ?_⟩
  intro i hi j hj
  interval_cases i <;> interval_cases j <;> simp [exCum]

example : exCum.maturity = .ok [3, 2, 1] := by decide +kernel

example : exRecs4 ≠ [] ∧
    (∀ r ∈ exRecs4, ∃ s ∈ exRecs4, s.origin = r.origin ∧ ∀ q ∈ exRecs4, s.dev ≤ q.dev) := by
  constructor <;> decide +kernel

/-! ## C19 -/

/-- **C19.** Diagonals of an `n x n` staircase: offsets `-m` with `0 ≤ m < n` give the cells with
position sum `n - 1 - m`, all present, in origin order; offset 0 is `latest`; positive offsets below
`n` raise `KeyError` and offsets of size `n` or more `ValueError`. -/
theorem C19_diagonal {t : Tri K} {n : ℕ} (h : Spec.Staircase t n) :
    (∀ m < n, t.diagonal (-(m : Int)) = .ok ((List.range (n - m)).map
        (fun k => ⟨t.oAt k, t.dAt (n - 1 - m - k), t.cell k (n - 1 - m - k)⟩)) ∧
      ∀ k < n - m, t.cell k (n - 1 - m - k) ≠ .nan) ∧
    (0 < n → t.diagonal 0 = .ok t.latest) ∧
    (∀ m, 0 < m → m < n → t.diagonal (m : Int) = .error .keyError) ∧
    (∀ off : Int, (n : Int) ≤ |off| → t.diagonal off = .error .valueError) := by
  have hlat := h.latest
  have hlen : t.latest.length = n := by rw [hlat]; simp
  have key : ∀ m < n, t.diagonal (-(m : Int)) = .ok ((List.range (n - m)).map
        (fun k => ⟨t.oAt k, t.dAt (n - 1 - m - k), t.cell k (n - 1 - m - k)⟩)) := by
    intro m hm
    unfold Tri.diagonal
    rw [h.2.1, if_neg (by rw [abs_neg, Nat.abs_cast]; omega)]
    simp only [hlen]
    have hkept : ((List.range n).map (fun k => (k, ((n - 1 - k : ℕ) : Int) + -(m : Int)))).filter
        (fun p => decide (0 ≤ p.2)) =
        (List.range (n - m)).map (fun k => (k, ((n - 1 - k : ℕ) : Int) + -(m : Int))) := by
      rw [List.filter_map]
      congr 1
      have hsplit : n = (n - m) + m := by omega
      conv_lhs => rw [hsplit, List.range_add, List.filter_append]
      have e1 : (List.range (n - m)).filter
          ((fun p : ℕ × Int => decide (0 ≤ p.2)) ∘
            (fun k => (k, ((n - m + m - 1 - k : ℕ) : Int) + -(m : Int)))) = List.range (n - m) := by
        rw [List.filter_eq_self]
        intro k hk
        rw [List.mem_range] at hk
        simp only [Function.comp_apply, decide_eq_true_eq]
        omega
      have e2 : ((List.range m).map (fun x => n - m + x)).filter
          ((fun p : ℕ × Int => decide (0 ≤ p.2)) ∘
            (fun k => (k, ((n - m + m - 1 - k : ℕ) : Int) + -(m : Int)))) = [] := by
        rw [List.filter_eq_nil_iff]
        intro k hk
        obtain ⟨x, hx, rfl⟩ := List.mem_map.1 hk
        rw [List.mem_range] at hx
        simp only [Function.comp_apply, decide_eq_true_eq]
        omega
      rw [e1, e2, List.append_nil]
    rw [hkept, if_neg (by simp; omega), mapM_map']
    apply mapM_ok
    intro k hk
    rw [List.mem_range] at hk
    have e : (((n - 1 - k : ℕ) : Int) + -(m : Int)).toNat = n - 1 - m - k := by omega
    simp only [e]
    rw [if_pos (by omega)]
  refine ⟨fun m hm => ⟨key m hm, ?_⟩, ?_, ?_, ?_⟩
  · intro k hk
    obtain ⟨x, hx⟩ := (h.2.2.2.2 k (by omega) (n - 1 - m - k) (by omega)).1 (by omega)
    rw [hx]; simp
  · intro hn
    have := key 0 hn
    simpa [hlat] using this
  · intro m hm hm'
    unfold Tri.diagonal
    rw [h.2.1, if_neg (by rw [Nat.abs_cast]; omega)]
    simp only [hlen]
    obtain ⟨k, rfl⟩ : ∃ k, n = k + 1 := ⟨n - 1, by omega⟩
    rw [List.range_succ_eq_map, List.map_cons, List.filter_cons_of_pos
      (by simp only [decide_eq_true_eq]; omega), if_neg (by simp)]
    apply mapM_error rfl
    rw [if_neg]
    simp only
    omega
  · intro off hoff
    unfold Tri.diagonal
    rw [h.2.1, if_pos (by omega)]

example : exCum.diagonal (-1) = .ok [⟨2001, 2, .fin 150⟩, ⟨2002, 1, .fin 90⟩] ∧
    exCum.diagonal 0 = .ok exCum.latest ∧ exCum.diagonal 1 = .error .keyError := by
  refine ⟨?_, ?_, ?_⟩ <;> decide +kernel

/-! ## C20 -/

/-- Records of a triangle with three origins and two development periods. -/
def exRecs20 : List (Rec ℚ) :=
  [⟨2001, 1, .fin 10⟩, ⟨2001, 2, .fin 5⟩, ⟨2002, 1, .fin 11⟩, ⟨2002, 2, .fin 4⟩,
   ⟨2003, 1, .fin 12⟩]

/-- **C20 is false of the code**: with more origins than development periods `diagonal(0)` raises
`KeyError`. -/
theorem C20_nonsquare_fails :
    (totriCum exRecs20).map Tri.latest = .ok
      [⟨2001, 2, .fin 15⟩, ⟨2002, 2, .fin 15⟩, ⟨2003, 1, .fin 12⟩] ∧
    (totriCum exRecs20).bind (fun t => (t.diagonal 0).map (fun _ => ())) = .error .keyError := by
  constructor <;> decide +kernel

/-- A triangle with two origins and three development periods. -/
def exRecs20b : List (Rec ℚ) :=
  [⟨2001, 1, .fin 10⟩, ⟨2001, 2, .fin 5⟩, ⟨2001, 3, .fin 1⟩, ⟨2002, 1, .fin 11⟩,
   ⟨2002, 2, .fin 4⟩]

/-- **C20 is false of the code**: with more development periods than origins `diagonal(0)` returns
cells that are not the latest ones. -/
theorem C20_wide_fails :
    (totriCum exRecs20b).map Tri.latest = .ok [⟨2001, 3, .fin 16⟩, ⟨2002, 2, .fin 15⟩] ∧
    (totriCum exRecs20b).bind (fun t => t.diagonal 0) =
      .ok [⟨2001, 2, .fin 15⟩, ⟨2002, 1, .fin 11⟩] := by
  constructor <;> decide +kernel

/-- **C20, part that holds**: if the `k`-th of `L` origins is observed up to the `(L-k)`-th
development period, `diagonal(0)` is `latest`.  Missing: all other shapes. -/
theorem C20_diagonal_partial {t : Tri K} (hnr : 0 < t.nr)
    (h : ∀ k < t.nr, t.nr - 1 - k < t.nc ∧ t.cell k (t.nr - 1 - k) ≠ .nan ∧
      ∀ m, t.nr - 1 - k < m → m < t.nc → t.cell k m = .nan) :
    t.diagonal 0 = .ok t.latest := by
  have hl := Tri.latest_of_rlvi (t := t) (m := fun k => t.nr - 1 - k)
    (fun k hk => lastValid_some.2 (h k hk))
  have hlen : t.latest.length = t.nr := by rw [hl]; simp
  have hnc := (h 0 hnr).1
  unfold Tri.diagonal
  rw [if_neg (by simp; omega)]
  simp only [hlen]
  have hkept : ((List.range t.nr).map (fun k => (k, ((t.nr - 1 - k : ℕ) : Int) + 0))).filter
      (fun p => decide (0 ≤ p.2)) =
      (List.range t.nr).map (fun k => (k, ((t.nr - 1 - k : ℕ) : Int) + 0)) := by
    rw [List.filter_eq_self]
    intro p hp
    obtain ⟨k, _, rfl⟩ := List.mem_map.1 hp
    simp
  rw [hkept, if_neg (by simp; omega), mapM_map', hl]
  apply mapM_ok
  intro k hk
  rw [List.mem_range] at hk
  have e : (((t.nr - 1 - k : ℕ) : Int) + 0).toNat = t.nr - 1 - k := by omega
  simp only [e]
  rw [if_pos (h k hk).1]

example : 0 < exCum.nr ∧ (∀ k < exCum.nr, exCum.nr - 1 - k < exCum.nc ∧
    exCum.cell k (exCum.nr - 1 - k) ≠ .nan ∧
    ∀ m < exCum.nc, exCum.nr - 1 - k < m → exCum.cell k m = .nan) := by
  constructor <;> decide +kernel

/-! ## C21 -/

/-- Records with an origin that starts in the second period. -/
def exRecs21 : List (Rec ℚ) := [⟨1, 1, .fin 5⟩, ⟨1, 2, .fin 7⟩, ⟨2, 2, .fin 3⟩]

/-- **C21 is false of the code**: `totri` caches `triind` before the missing first value of the second
origin is replaced by 1; the object then reports that cell as missing (`True` standing for 1) while
recomputing gives 0. -/
theorem C21_stale_cache :
    dumpE (totriCum exRecs21) = .ok ([1, 2], [1, 2], [[.fin 5, .fin 12], [.fin 1, .fin 3]]) ∧
    (totriCumState exRecs21).map (fun s => (readAttr s .triind).1) =
      .ok (.ind [[false, false], [true, false]]) ∧
    (totriCumState exRecs21).map (fun s => fresh s.tri .triind) =
      .ok (.ind [[false, false], [false, false]]) := by
  refine ⟨?_, ?_, ?_⟩ <;> decide +kernel

/-- **C21, part that holds (1)**: on an object on which nothing is stored yet (every incremental
triangle, and every `CumTriangle` not made by `totri`), any sequence of attribute reads returns
the recomputed values. -/
theorem C21_cache_partial (t : Tri K) (l : List Attr) :
    (readAll { tri := t } l).1 = l.map (fresh t) :=
  (readAll_spec (coherent_new t) l).1

/-- **C21, part that holds (2)**: the same for the cumulative triangle returned by `totri` when every
origin has a first-period record.  Missing: origins starting later (see `C21_stale_cache`). -/
theorem C21_cache_totri_partial {recs : List (Rec K)} (hne : recs ≠ [])
    (ht : ∀ r ∈ recs, FiniteOrMissing r.value)
    (hfirst : ∀ r ∈ recs, ∃ s ∈ recs, s.origin = r.origin ∧ ∀ q ∈ recs, s.dev ≤ q.dev)
    (l : List Attr) :
    ∃ s, totriCumState recs = .ok s ∧ totriCum recs = .ok s.tri ∧
      (readAll s l).1 = l.map (fresh s.tri) := by
  obtain ⟨o, h1, h2, h3, h4, h5, h6⟩ := totriCumObj_ok hne (show TameRecs recs from ht)
  have hnr : o.tri.nr = (preFill recs).nr := by unfold Tri.nr; rw [h3]
  have hnc : o.tri.nc = (preFill recs).nc := by unfold Tri.nc; rw [h4]
  have hobs : ∀ i < (preFill recs).nr, (preFill recs).cell i 0 ≠ .nan :=
    fun i hi => preFill_first_observed ht hfirst hi
  have hfill : fillObj (preFill recs) = .ok o := by
    unfold totriCumObj at h1; rw [cumTri_eq hne] at h1; exact h1
  let s : ObjState K :=
    { tri := o.tri
      clvi := if (preFill recs).nc ≤ 1 then none else some (fillHead (preFill recs)).clviL
      triind := o.triindC.map (fun ind => (List.range (preFill recs).nr).map
        (fun i => (List.range (preFill recs).nc).map (ind i))) }
  have hs : totriCumState recs = .ok s := by
    unfold totriCumState
    rw [cumTri_eq hne]
    show (do
      let o ← fillObj (preFill recs)
      pure _ : Except PyErr (ObjState K)) = _
    rw [hfill]; rfl
  have hcl : ∀ j < o.tri.nc, (fillHead (preFill recs)).clvi j = o.tri.clvi j := by
    intro j hj
    have hpos : 0 < (preFill recs).nr := by
      obtain ⟨r, hr, _⟩ := preFill_colsObserved (show TameRecs recs from ht) j (hnc ▸ hj)
      omega
    rw [fillHead_clvi (Or.inr (hobs 0 hpos)),
      fill_clvi (u := preFill recs) h3 h5 (preFill_colsObserved ht) (hnc ▸ hj) (Or.inr hobs)]
  have hcoh : Coherent s := by
    refine { coherent_new o.tri with triind := ?_, clvi := ?_ }
    · intro v hv
      have hv' : o.triindC.map (fun ind => (List.range (preFill recs).nr).map
        (fun i => (List.range (preFill recs).nc).map (ind i))) = some v := hv
      rw [h6] at hv'
      split at hv'
      · simp at hv'
      · simp only [Option.map_some, Option.some.injEq] at hv'
        rw [← hv']
        show _ = (List.range o.tri.nr).map (fun i => (List.range o.tri.nc).map (o.tri.triindAt i))
        rw [hnr, hnc]
        apply List.map_congr_left
        intro i _
        apply List.map_congr_left
        intro j hj
        unfold Tri.triindAt
        rw [hcl j (hnc ▸ List.mem_range.1 hj)]
    · intro v hv
      have hv' : (if (preFill recs).nc ≤ 1 then none
        else some (fillHead (preFill recs)).clviL) = some v := hv
      split at hv'
      · simp at hv'
      · simp only [Option.some.injEq] at hv'
        rw [← hv']
        show (List.range (preFill recs).nc).map _ = (List.range o.tri.nc).map o.tri.clvi
        rw [hnc]
        apply List.map_congr_left
        intro j hj
        exact hcl j (hnc ▸ List.mem_range.1 hj)
  exact ⟨s, hs, h2, (readAll_spec hcoh l).1⟩

/-! ## C137 -/

theorem insSer_perm (p : Int × Num K) (l : List (Int × Num K)) : (insSer p l).Perm (p :: l) := by
  induction l with
  | nil => exact List.Perm.refl _
  | cons q l ih =>
    unfold insSer
    split
    · exact List.Perm.refl _
    · exact (ih.cons q).trans (List.Perm.swap p q l)

theorem insSer_sorted (p : Int × Num K) {l : List (Int × Num K)}
    (h : l.Pairwise (fun a b => a.1 ≤ b.1)) : (insSer p l).Pairwise (fun a b => a.1 ≤ b.1) := by
  induction l with
  | nil => exact List.pairwise_singleton _ _
  | cons q l ih =>
    rw [List.pairwise_cons] at h
    unfold insSer
    split
    · rename_i hle
      rw [List.pairwise_cons, List.pairwise_cons]
      refine ⟨?_, h.1, h.2⟩
      intro a ha
      rcases List.mem_cons.1 ha with rfl | ha
      · exact hle
      · exact le_trans hle (h.1 a ha)
    · rename_i hle
      rw [List.pairwise_cons]
      refine ⟨?_, ih h.2⟩
      intro a ha
      rcases List.mem_cons.1 ((insSer_perm p l).mem_iff.1 ha) with rfl | ha
      · omega
      · exact h.1 a ha

theorem foldr_insSer (l : List (Int × Num K)) :
    (l.foldr insSer []).Perm l ∧ (l.foldr insSer []).Pairwise (fun a b => a.1 ≤ b.1) := by
  induction l with
  | nil => exact ⟨List.Perm.refl _, List.Pairwise.nil⟩
  | cons p l ih =>
    exact ⟨(insSer_perm p _).trans (ih.1.cons p), insSer_sorted p ih.2⟩

/-- **C137.** For every triangle returned by `totri` (either type), whatever attributes were read
before, `latest_by_devp` has one entry per origin: the last non-missing value of that origin under
the label of the period of that value.  The entries are in increasing order of the labels.  (The
order among equal labels is left open, as `sort_index` is not a stable sort.) -/
theorem C137_by_devp {recs : List (Rec K)} {t : Tri K}
    (hb : totriIncr recs = .ok t ∨ totriCum recs = .ok t)
    (ht : ∀ r ∈ recs, FiniteOrMissing r.value) (l : List Attr) :
    ∃ (last : ℕ → ℕ) (s : List (Int × Num K)),
      (∀ i < t.nr, last i < t.nc ∧ t.cell i (last i) ≠ .nan ∧
        ∀ k, last i < k → k < t.nc → t.cell i k = .nan) ∧
      (readAll { tri := t } (l ++ [.latestByDevp])).1.getLast? = some (.ser s) ∧
      s.Perm ((List.range t.nr).map (fun i => (t.dAt (last i), t.cell i (last i)))) ∧
      s.Pairwise (fun a b => a.1 ≤ b.1) := by
  have hw : WellBuilt t := by
    rcases hb with h | h
    · exact totriIncr_wellBuilt h ht
    · exact totriCum_wellBuilt h ht
  obtain ⟨m, hm⟩ := Tri.exists_rlvi hw.rows
  have hl := Tri.latest_of_rlvi hm
  have hf := foldr_insSer (t.latest.map (fun r => (r.dev, r.value)))
  refine ⟨m, byDevpFrom t.latest, ?_, ?_, ?_, hf.2⟩
  · intro i hi
    have hmi := hm i hi
    unfold Tri.rlvi at hmi
    exact lastValid_some.1 hmi
  · rw [C21_cache_partial]
    simp [fresh]
  · refine hf.1.trans ?_
    rw [hl, List.map_map]
    exact List.Perm.refl _

/-- **C137 on staircases**: every development period appears exactly once, the oldest origin last. -/
theorem C137_staircase {t : Tri K} {n : ℕ} {c : ℕ → ℕ → K} (h : Spec.Stair t n c) (l : List Attr) :
    (readAll { tri := t } (l ++ [.latestByDevp])).1.getLast? =
      some (.ser ((List.range n).map (fun j => (t.dAt j, .fin (c (n - 1 - j) j))))) := by
  rw [C21_cache_partial]
  simp only [List.map_append, List.map_cons, List.map_nil, List.getLast?_concat, fresh]
  congr 2
  have hf := foldr_insSer (t.latest.map (fun r => (r.dev, r.value)))
  have hst : Spec.Staircase t n := ⟨h.nr, h.nc, h.origins, h.devs, fun i hi j hj =>
    ⟨fun hij => ⟨_, h.obs i j hij⟩, fun hij => h.miss i j hi hj hij⟩⟩
  have hsorted : ((List.range n).map (fun j => (t.dAt j, Num.fin (c (n - 1 - j) j)))).Pairwise
      (fun a b => a.1 < b.1) := by
    rw [List.pairwise_map]
    refine (List.pairwise_lt_range).imp_of_mem ?_
    intro a b _ hb hab
    exact Tri.dAt_lt h.devs (by rw [h.nc]; exact List.mem_range.1 hb) hab
  have hperm : (byDevpFrom t.latest).Perm
      ((List.range n).map (fun j => (t.dAt j, Num.fin (c (n - 1 - j) j)))) := by
    refine hf.1.trans ?_
    rw [hst.latest, List.map_map]
    have e : (List.range n).map (fun j => (t.dAt j, Num.fin (c (n - 1 - j) j))) =
        ((List.range n).map ((fun r : Rec K => (r.dev, r.value)) ∘ fun i =>
          (⟨t.oAt i, t.dAt (n - 1 - i), t.cell i (n - 1 - i)⟩ : Rec K))).reverse := by
      apply List.ext_getElem
      · simp
      · intro j h1 h2
        have hj : j < n := by simpa using h1
        simp only [List.getElem_map, List.getElem_range, List.getElem_reverse, List.length_map,
          List.length_range, Function.comp_apply]
        have e1 : n - 1 - (n - 1 - j) = j := by omega
        rw [e1, h.obs _ _ (by omega)]
    rw [e]
    exact (List.reverse_perm _).symm
  refine List.Perm.eq_of_pairwise ?_ hf.2 (hsorted.imp le_of_lt) hperm
  intro a b ha hb h1 h2
  have ha' := hperm.mem_iff.1 ha
  obtain ⟨i, hi, rfl⟩ := List.mem_map.1 ha'
  obtain ⟨j, hj, rfl⟩ := List.mem_map.1 hb
  have hi' := List.mem_range.1 hi
  have hj' := List.mem_range.1 hj
  have : i = j := by
    rcases Nat.lt_trichotomy i j with hlt | heq | hgt
    · have := Tri.dAt_lt h.devs (by rw [h.nc]; exact hj') hlt
      simp only at h1 h2; omega
    · exact heq
    · have := Tri.dAt_lt h.devs (by rw [h.nc]; exact hi') hgt
      simp only at h1 h2; omega
  rw [this]

/-- Two origins stop at the second period, one at the first: two equal labels. -/
example : (totriCum exRecs20).map (fun t => (readAttr { tri := t } .latestByDevp).1) =
    .ok (.ser [(1, .fin 12), (2, .fin 15), (2, .fin 15)]) := by decide +kernel

end Trikit
