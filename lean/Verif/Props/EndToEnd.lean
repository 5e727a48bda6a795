import Verif.Props.RoundTrip
import Verif.Props.Base
import Verif.Props.Mack
import Verif.FrameLemmas
import Verif.BootFit

/-!
# From records to reserves (C90, C91)

A table that holds exactly one record per cell of a staircase becomes a staircase triangle, so that the
theorems on staircases apply to what `totri` returns.
-/

set_option linter.unusedSectionVars false

namespace Trikit

section
variable {K : Type} [Field K] [LinearOrder K]

namespace Spec

/-- The table has exactly one record for each of the cells `i + j < n` of a staircase, with origins `o 0 <
o 1 < ...`, periods `d 0 < d 1 < ...` and amounts `x i j`, in any row order. -/
structure StairRecs (recs : List (Rec K)) (n : ℕ) (o d : ℕ → Int) (x : ℕ → ℕ → K) : Prop where
  pos : 0 < n
  o_lt : ∀ i j, i < j → j < n → o i < o j
  d_lt : ∀ i j, i < j → j < n → d i < d j
  mem : ∀ r, r ∈ recs ↔ ∃ i j, i + j < n ∧ r = ⟨o i, d j, .fin (x i j)⟩
  once : recs.Nodup

end Spec

variable {recs : List (Rec K)} {n : ℕ} {o d : ℕ → Int} {x : ℕ → ℕ → K}

theorem strict_inj {g : ℕ → Int} (h : ∀ i j, i < j → j < n → g i < g j) {i j : ℕ} (hi : i < n) (hj : j < n)
    (e : g i = g j) : i = j := by
  rcases lt_trichotomy i j with hl | hl | hl
  · have := h i j hl hj; omega
  · exact hl
  · have := h j i hl hi; omega

namespace Spec.StairRecs

theorem ne_nil (h : Spec.StairRecs recs n o d x) : recs ≠ [] := by
  intro e
  have := (h.mem ⟨o 0, d 0, .fin (x 0 0)⟩).2 ⟨0, 0, by have := h.pos; omega, rfl⟩
  rw [e] at this; simp at this

theorem finite (h : Spec.StairRecs recs n o d x) : FiniteRecs recs := by
  intro r hr
  obtain ⟨i, j, _, rfl⟩ := (h.mem r).1 hr
  exact ⟨_, rfl⟩

theorem onePerCell (h : Spec.StairRecs recs n o d x) : OnePerCell recs := by
  refine List.Pairwise.imp_of_mem ?_ h.once
  intro r s hr hs hne hk
  obtain ⟨i, j, hij, rfl⟩ := (h.mem r).1 hr
  obtain ⟨i', j', hij', rfl⟩ := (h.mem s).1 hs
  obtain rfl := strict_inj h.o_lt (show i < n by omega) (show i' < n by omega) hk.1
  obtain rfl := strict_inj h.d_lt (show j < n by omega) (show j' < n by omega) hk.2
  exact hne rfl

theorem first (h : Spec.StairRecs recs n o d x) (hp : ∀ i < n, 0 < x i 0) :
    ∀ r ∈ recs, (∀ s ∈ recs, r.dev ≤ s.dev) → Num.lt 0 r.value = true := by
  intro r hr hm
  obtain ⟨i, j, hij, rfl⟩ := (h.mem r).1 hr
  have h0 := hm ⟨o 0, d 0, .fin (x 0 0)⟩ ((h.mem _).2 ⟨0, 0, by have := h.pos; omega, rfl⟩)
  have : j = 0 := by
    by_contra hj
    have := h.d_lt 0 j (by omega) (by omega)
    simp only at h0; omega
  subst this
  simpa [Num.zero_def, Num.lt_fin] using hp i (by omega)

theorem mono_pairwise {g : ℕ → Int} (h : ∀ i j, i < j → j < n → g i < g j) :
    ((List.range n).map g).Pairwise (· < ·) := by
  rw [List.pairwise_map]
  exact List.pairwise_lt_range.imp_of_mem (fun {a b} _ hb hab => h a b hab (List.mem_range.1 hb))

/-- The labels of the triangle. -/
theorem labels {t : Tri K} (h : Spec.StairRecs recs n o d x) (hl : Spec.HasLabelsOf t recs) :
    t.origins = (List.range n).map o ∧ t.devs = (List.range n).map d := by
  obtain ⟨h1, h2, h3, h4⟩ := hl
  constructor
  · refine pairwise_lt_ext h1 (mono_pairwise h.o_lt) (fun a => ?_)
    rw [h3, List.mem_map]
    constructor
    · rintro ⟨r, hr, rfl⟩
      obtain ⟨i, j, hij, rfl⟩ := (h.mem r).1 hr
      exact ⟨i, List.mem_range.2 (by omega), rfl⟩
    · rintro ⟨i, hi, rfl⟩
      exact ⟨_, (h.mem _).2 ⟨i, 0, by have := List.mem_range.1 hi; omega, rfl⟩, rfl⟩
  · refine pairwise_lt_ext h2 (mono_pairwise h.d_lt) (fun a => ?_)
    rw [h4, List.mem_map]
    constructor
    · rintro ⟨r, hr, rfl⟩
      obtain ⟨i, j, hij, rfl⟩ := (h.mem r).1 hr
      exact ⟨j, List.mem_range.2 (by omega), rfl⟩
    · rintro ⟨j, hj, rfl⟩
      exact ⟨_, (h.mem _).2 ⟨0, j, by have := List.mem_range.1 hj; omega, rfl⟩, rfl⟩

/-- Below the diagonal there are no records. -/
theorem no_record (h : Spec.StairRecs recs n o d x) {i j : ℕ} (hi : i < n) (hj : j < n) (hij : n ≤ i + j) :
    ¬ ∃ r ∈ recs, r.origin = o i ∧ r.dev = d j := by
  rintro ⟨r, hr, e1, e2⟩
  obtain ⟨i', j', hij', rfl⟩ := (h.mem r).1 hr
  have := strict_inj h.o_lt (show i' < n by omega) hi e1
  have := strict_inj h.d_lt (show j' < n by omega) hj e2
  omega

end Spec.StairRecs

theorem sameKeys_mem {a b : List (Rec K)} (h : SameKeys a b) {u v : Int} :
    (∃ r ∈ a, r.origin = u ∧ r.dev = v) ↔ ∃ r ∈ b, r.origin = u ∧ r.dev = v := by
  have e : ∀ l : List (Rec K), (∃ r ∈ l, r.origin = u ∧ r.dev = v) ↔
      (u, v) ∈ l.map (fun r => (r.origin, r.dev)) := by
    intro l
    rw [List.mem_map]
    simp only [Prod.mk.injEq]
  rw [e, e]
  unfold SameKeys at h
  rw [h]

theorem range_map_get {g : ℕ → Int} {i : ℕ} (hi : i < n) : ((List.range n).map g)[i]? = some (g i) := by
  rw [List.getElem?_map, List.getElem?_range hi]; rfl

/-- A triangle with these labels and cells is a staircase. -/
theorem stair_of_cells {t : Tri K} {c : ℕ → ℕ → K} (h : Spec.StairRecs recs n o d x)
    (hl : Spec.HasLabelsOf t recs) (hobs : ∀ i j, i + j < n → t.cell i j = .fin (c i j))
    (hmiss : ∀ i j, i < n → j < n → n ≤ i + j → t.cell i j = .nan) :
    Spec.Stair t n c ∧ (∀ i < n, t.oAt i = o i) ∧ ∀ j < n, t.dAt j = d j := by
  obtain ⟨e1, e2⟩ := h.labels hl
  refine ⟨⟨?_, ?_, hl.1, hl.2.1, hobs, hmiss⟩, ?_, ?_⟩
  · unfold Tri.nr; rw [e1]; simp
  · unfold Tri.nc; rw [e2]; simp
  · intro i hi
    unfold Tri.oAt
    rw [e1, List.getD_eq_getElem?_getD, range_map_get hi]; rfl
  · intro j hj
    unfold Tri.dAt
    rw [e2, List.getD_eq_getElem?_getD, range_map_get hj]; rfl

/-- The unobserved cells of what `totri` returns as cumulative triangle. -/
theorem cum_miss {m : List (Rec K)} {t : Tri K} (h : Spec.StairRecs recs n o d x) (hk : SameKeys m recs)
    (hne : m ≠ []) (ht : TameRecs m) (hok : totriCum m = .ok t) (hl : Spec.HasLabelsOf t recs) :
    ∀ i j, i < n → j < n → n ≤ i + j → t.cell i j = .nan := by
  obtain ⟨u, t', hu, ht', ho, hd, -, -, hfill⟩ := C12_fill hne ht
  rw [hok] at ht'
  obtain rfl := Except.ok.inj ht'
  rw [cumTri_eq hne] at hu
  obtain rfl := Except.ok.inj hu
  obtain ⟨e1, e2⟩ := h.labels hl
  have hkeys : SameKeys (negHandler (cumRecs m)) recs :=
    ((negHandler_sameKeys _).trans (cumRecs_sameKeys m)).trans hk
  have hnr : (pivot (negHandler (cumRecs m))).nr = n := by unfold Tri.nr; rw [← ho, e1]; simp
  have hnc : (pivot (negHandler (cumRecs m))).nc = n := by unfold Tri.nc; rw [← hd, e2]; simp
  have hnan : ∀ i j, i < n → j < n → n ≤ i + j → (pivot (negHandler (cumRecs m))).cell i j = .nan := by
    intro i j hi hj hij
    rw [pivot_cell (o := o i) (d := d j) (by rw [← ho, e1, range_map_get hi])
      (by rw [← hd, e2, range_map_get hj])]
    refine groupCell_nan ?_
    rw [sameKeys_mem hkeys]
    exact h.no_record hi hj hij
  intro i j hi hj hij
  obtain ⟨j, rfl⟩ : ∃ k, j = k + 1 := ⟨j - 1, by omega⟩
  refine (hfill i (by omega) j (by omega) (hnan i (j + 1) hi hj hij)).2 ?_
  intro r hir hr
  exact hnan r (j + 1) (by omega) hj (by omega)

theorem runningTotal_stair (h : Spec.StairRecs recs n o d x) {i j : ℕ} (hij : i + j < n) :
    Spec.runningTotal recs (o i) (d j) = .fin (∑ k ∈ Finset.range (j + 1), x i k) := by
  unfold Spec.runningTotal
  have hp : (recs.filter (fun r => decide (r.origin = o i ∧ r.dev ≤ d j))).Perm
      ((List.range (j + 1)).map (fun k => (⟨o i, d k, .fin (x i k)⟩ : Rec K))) := by
    refine (List.perm_ext_iff_of_nodup (h.once.filter _) ?_).2 ?_
    · refine List.Nodup.map_on ?_ List.nodup_range
      intro a ha b hb e
      rw [List.mem_range] at ha hb
      exact strict_inj h.d_lt (by omega) (by omega) (congrArg Rec.dev e)
    · intro r
      rw [List.mem_filter, decide_eq_true_eq, List.mem_map, h.mem]
      constructor
      · rintro ⟨⟨i', j', hij', rfl⟩, e1, e2⟩
        obtain rfl := strict_inj h.o_lt (show i' < n by omega) (show i < n by omega) e1
        refine ⟨j', List.mem_range.2 ?_, rfl⟩
        by_contra hc
        have := h.d_lt j j' (by omega) (by omega)
        simp only at e2; omega
      · rintro ⟨k, hk, rfl⟩
        rw [List.mem_range] at hk
        refine ⟨⟨i, k, by omega, rfl⟩, rfl, ?_⟩
        rcases Nat.lt_succ_iff_lt_or_eq.1 hk with hlt | rfl
        · exact (h.d_lt k j hlt (by omega)).le
        · exact le_refl _
  rw [(hp.map Rec.value).sum_eq, List.map_map]
  exact sum_fin_range _ _

/-! ## C90 -/

/-- **C90**, incremental triangle from incremental amounts, rows in any order. -/
theorem C90_incr (h : Spec.StairRecs recs n o d x) (hp : ∀ i < n, 0 < x i 0) :
    ∃ t, totriIncr recs = .ok t ∧ Spec.Stair t n x ∧ (∀ i < n, t.oAt i = o i) ∧ ∀ j < n, t.dAt j = d j := by
  obtain ⟨t, h1, h2, h3⟩ := C01_incr_cells recs h.ne_nil
  obtain ⟨e1, e2⟩ := h.labels h2
  refine ⟨t, h1, stair_of_cells h h2 ?_ ?_⟩
  · intro i j hij
    rw [h3 i j (o i) (d j) (by rw [e1, range_map_get (by omega)]) (by rw [e2, range_map_get (by omega)])]
    unfold Spec.incrCell
    have hrec : Spec.recordsAt recs (o i) (d j) = [⟨o i, d j, .fin (x i j)⟩] := by
      refine List.perm_singleton.1 ((List.perm_ext_iff_of_nodup (h.once.filter _) (by simp)).2 ?_)
      intro r
      rw [List.mem_filter, List.mem_singleton, h.mem]
      simp only [Bool.and_eq_true, beq_iff_eq]
      constructor
      · rintro ⟨⟨i', j', hij', rfl⟩, e1, e2⟩
        obtain rfl := strict_inj h.o_lt (show i' < n by omega) (show i < n by omega) e1
        obtain rfl := strict_inj h.d_lt (show j' < n by omega) (show j < n by omega) e2
        rfl
      · rintro rfl
        exact ⟨⟨i, j, hij, rfl⟩, rfl, rfl⟩
    rw [hrec, if_neg (by simp)]
    have hc : Spec.contribution recs ⟨o i, d j, .fin (x i j)⟩ = .fin (x i j) := by
      unfold Spec.contribution
      rw [if_neg]
      rintro ⟨hm, hle⟩
      have := h.first hp _ ((h.mem _).2 ⟨i, j, hij, rfl⟩) hm
      rw [Num.zero_def, Num.lt_fin] at this
      rw [Num.zero_def, Num.le_fin] at hle
      have a := of_decide_eq_true this
      have b := of_decide_eq_true hle
      exact absurd (lt_of_lt_of_le a b) (lt_irrefl _)
    simp [hc]
  · intro i j hi hj hij
    rw [h3 i j (o i) (d j) (by rw [e1, range_map_get hi]) (by rw [e2, range_map_get hj])]
    unfold Spec.incrCell
    rw [if_pos]
    unfold Spec.recordsAt
    rw [List.filter_eq_nil_iff]
    intro r hr hk
    simp only [Bool.and_eq_true, beq_iff_eq] at hk
    exact h.no_record hi hj hij ⟨r, hr, hk.1, hk.2⟩

/-- **C90**, cumulative triangle from incremental amounts, the rows of each origin in the order of its
periods (in another order it is false, `C03_cum_order_fails`). -/
theorem C90_cum (h : Spec.StairRecs recs n o d x) (hp : ∀ i < n, 0 < x i 0) (hord : DevOrdered recs) :
    ∃ t, totriCum recs = .ok t ∧ Spec.Stair t n (fun i j => ∑ k ∈ Finset.range (j + 1), x i k) ∧
      (∀ i < n, t.oAt i = o i) ∧ ∀ j < n, t.dAt j = d j := by
  obtain ⟨t, h1, h2, h3⟩ := C04_cum_cells h.ne_nil h.finite h.onePerCell hord (h.first hp)
  obtain ⟨e1, e2⟩ := h.labels h2
  refine ⟨t, h1, stair_of_cells h h2 ?_ (cum_miss h rfl h.ne_nil h.finite.tame h1 h2)⟩
  intro i j hij
  rw [h3 ⟨o i, d j, .fin (x i j)⟩ ((h.mem _).2 ⟨i, j, hij, rfl⟩) i j (by rw [e1, range_map_get (by omega)])
    (by rw [e2, range_map_get (by omega)])]
  exact runningTotal_stair h hij

/-- **C90**, cumulative triangle from cumulative amounts, rows in any order. -/
theorem C90_cum_format (h : Spec.StairRecs recs n o d x) (hp : ∀ i < n, 0 < x i 0) :
    ∃ t, totriCum (decumRecs recs) = .ok t ∧ Spec.Stair t n x ∧ (∀ i < n, t.oAt i = o i) ∧
      ∀ j < n, t.dAt j = d j := by
  obtain ⟨t, h1, h2, h3⟩ := C11_cum_format_tabular h.ne_nil h.finite h.onePerCell (h.first hp)
  obtain ⟨e1, e2⟩ := h.labels h2
  refine ⟨t, h1, stair_of_cells h h2 ?_ (cum_miss h (decumGo_keys _ _) (decumGo_ne_nil h.ne_nil)
    (decumGo_tame (by simp) h.finite.tame) h1 h2)⟩
  intro i j hij
  rw [h3 ⟨o i, d j, .fin (x i j)⟩ ((h.mem _).2 ⟨i, j, hij, rfl⟩) i j (by rw [e1, range_map_get (by omega)])
    (by rw [e2, range_map_get (by omega)])]

end

/-! ## C91 -/

section
variable {K : Type} [Field K] [LinearOrder K] [IsStrictOrderedRing K]
variable {recs : List (Rec K)} {n : ℕ} {o d : ℕ → Int} {x : ℕ → ℕ → K}

/-- Amount of an origin up to a period. -/
def Spec.cumOf (x : ℕ → ℕ → K) (i j : ℕ) : K := ∑ k ∈ Finset.range (j + 1), x i k

/-- Chain ladder ultimate: what the origin has so far, times the remaining volume weighted factors. -/
def Spec.clUltimate (n : ℕ) (c : ℕ → ℕ → K) (i : ℕ) : K :=
  c i (n - 1 - i) * ∏ m ∈ Finset.Ico (n - 1 - i) (n - 1),
    ((∑ k ∈ Finset.range (n - 1 - m), c k (m + 1)) / ∑ k ∈ Finset.range (n - 1 - m), c k m)

/-- The summary is the chain ladder of the amounts `c`: one row per origin, and the totals. -/
structure Spec.ChainLadder (n : ℕ) (o : ℕ → Int) (d : ℕ → Int) (c : ℕ → ℕ → K) (rows : List (SummRow K))
    (totLatest totUltimate totReserve : Num K) : Prop where
  len : rows.length = n
  row : ∀ i < n, ∃ r, rows[i]? = some r ∧ r.origin = o i ∧ r.maturity = d (n - 1 - i) ∧
    r.latest = .fin (c i (n - 1 - i)) ∧ r.ultimate = .fin (Spec.clUltimate n c i) ∧
    r.reserve = .fin (Spec.clUltimate n c i - c i (n - 1 - i))
  latest : totLatest = .fin (∑ i ∈ Finset.range n, c i (n - 1 - i))
  ultimate : totUltimate = .fin (∑ i ∈ Finset.range n, Spec.clUltimate n c i)
  reserve : totReserve = .fin (∑ i ∈ Finset.range n, (Spec.clUltimate n c i - c i (n - 1 - i)))

theorem chainLadder_of_stair (gm : List (Num K) → Num K) {t : Tri K} {c : ℕ → ℕ → K} (h : Spec.Stair t n c)
    (hp : Spec.Positive n c) (hn : 3 ≤ n) (ho : ∀ i < n, t.oAt i = o i) (hd : ∀ j < n, t.dAt j = d j)
    (he : Spec.EvenlySpaced ((List.range n).map d)) :
    ∃ r, baseCL gm t t.a2aind0 "all-weighted" 1 = .ok r ∧
      Spec.ChainLadder n o d c r.rows r.totLatest r.totUltimate r.totReserve := by
  have hdevs : t.devs = (List.range n).map d := by
    apply List.ext_getElem?
    intro j
    by_cases hj : j < n
    · rw [range_map_get hj, ← hd j hj]
      have hl : j < t.devs.length := by have := h.nc; unfold Tri.nc at this; omega
      rw [List.getElem?_eq_getElem hl]
      unfold Tri.dAt
      rw [List.getD_eq_getElem?_getD, List.getElem?_eq_getElem hl]
      rfl
    · rw [List.getElem?_eq_none (by have := h.nc; unfold Tri.nc at this; omega),
        List.getElem?_eq_none (by simp; omega)]
  have hult : ∀ i < n, (∏ m ∈ Finset.Ico (n - 1 - i) (n - 1), Spec.mackF 1 n c (fun _ _ => 1) m) * 1 =
      ∏ m ∈ Finset.Ico (n - 1 - i) (n - 1),
        ((∑ k ∈ Finset.range (n - 1 - m), c k (m + 1)) / ∑ k ∈ Finset.range (n - 1 - m), c k m) := by
    intro i hi
    rw [mul_one]
    refine Finset.prod_congr rfl fun m hm => ?_
    rw [Finset.mem_Ico] at hm
    exact wFactor_eq_mackF hp hm.2
  obtain ⟨r, h1, h2, h3, h4, h5, h6⟩ := C31_summary h hp.ne_zero (h.indOn0 hp.ne_zero) hn (hdevs ▸ he)
    (rowIs_weighted gm h hp (by omega)) 1
  refine ⟨r, h1, h2, ?_, h4, ?_, ?_⟩
  · intro i hi
    obtain ⟨row, a1, a2, a3, _, _, a6, a7, a8⟩ := h3 i hi
    refine ⟨row, a1, a2.trans (ho i hi), a3.trans (hd _ (by omega)), a6, ?_, ?_⟩
    · rw [a7]; beta_reduce; rw [hult i hi]; rfl
    · rw [a8]; beta_reduce; rw [hult i hi]; rfl
  · rw [h5]
    refine congrArg Num.fin (Finset.sum_congr rfl fun i hi => ?_)
    beta_reduce; rw [hult i (Finset.mem_range.1 hi)]; rfl
  · rw [h6]
    refine congrArg Num.fin (Finset.sum_congr rfl fun i hi => ?_)
    beta_reduce; rw [hult i (Finset.mem_range.1 hi)]; rfl

/-- **C91**, `totri(data).base_cl()` from incremental amounts. -/
theorem C91_base (gm : List (Num K) → Num K) (h : Spec.StairRecs recs n o d x) (hord : DevOrdered recs)
    (hp : Spec.Positive n (Spec.cumOf x)) (hn : 3 ≤ n) (he : Spec.EvenlySpaced ((List.range n).map d)) :
    ∃ t r, totriCum recs = .ok t ∧ baseCL gm t t.a2aind0 "all-weighted" 1 = .ok r ∧
      Spec.ChainLadder n o d (Spec.cumOf x) r.rows r.totLatest r.totUltimate r.totReserve := by
  obtain ⟨t, h1, h2, h3, h4⟩ := C90_cum h (fun i hi => by simpa [Spec.cumOf] using hp i 0 (by omega)) hord
  obtain ⟨r, a1, a2⟩ := chainLadder_of_stair gm h2 hp hn h3 h4 he
  exact ⟨t, r, h1, a1, a2⟩

/-- **C91**, `totri(data, data_format="cum").base_cl()` from cumulative amounts. -/
theorem C91_base_cum (gm : List (Num K) → Num K) (h : Spec.StairRecs recs n o d x)
    (hp : Spec.Positive n x) (hn : 3 ≤ n) (he : Spec.EvenlySpaced ((List.range n).map d)) :
    ∃ t r, totriCum (decumRecs recs) = .ok t ∧ baseCL gm t t.a2aind0 "all-weighted" 1 = .ok r ∧
      Spec.ChainLadder n o d x r.rows r.totLatest r.totUltimate r.totReserve := by
  obtain ⟨t, h1, h2, h3, h4⟩ := C90_cum_format h (fun i hi => hp i 0 (by omega))
  obtain ⟨r, a1, a2⟩ := chainLadder_of_stair gm h2 hp hn h3 h4 he
  exact ⟨t, r, h1, a1, a2⟩

/-- **C91**, `totri(data).mack_cl(alpha=1)`. -/
theorem C91_mack (h : Spec.StairRecs recs n o d x) (hord : DevOrdered recs)
    (hp : Spec.Positive n (Spec.cumOf x)) (hn : 4 ≤ n) (he : Spec.EvenlySpaced ((List.range n).map d)) :
    ∃ t r, totriCum recs = .ok t ∧ mackCore 1 t t.a2aind0 = .ok r ∧
      Spec.ChainLadder n o d (Spec.cumOf x) r.rows r.totLatest r.totUltimate r.totReserve := by
  obtain ⟨t, h1, h2, h3, h4⟩ := C90_cum h (fun i hi => by simpa [Spec.cumOf] using hp i 0 (by omega)) hord
  obtain ⟨b, a1, a2⟩ := chainLadder_of_stair (fun _ => .nan) h2 hp (by omega) h3 h4 he
  obtain ⟨r, b', e1, e2, _, _, e3, e4, e5, e6, _⟩ := C50_point_estimates (fun _ => .nan) h2 hp hn
  rw [a1] at e2
  injection e2 with e2
  subst e2
  refine ⟨t, r, h1, e1, ?_⟩
  rw [e3, e4, e5, e6]
  exact a2

end

/-- Rows of the three origins 2001, 2002, 2003 at periods 12, 24, 36, the newest origin first. -/
def exStairRecs : List (Rec ℚ) :=
  [⟨2003, 12, .fin 130⟩, ⟨2001, 12, .fin 100⟩, ⟨2001, 24, .fin 50⟩, ⟨2002, 12, .fin 110⟩,
   ⟨2001, 36, .fin (-10)⟩, ⟨2002, 24, .fin 66⟩]

theorem exStairRecs_spec : Spec.StairRecs exStairRecs 3 (fun i => 2001 + i) (fun j => 12 + 12 * j)
    (fun i j => if j = 0 then (if i = 0 then 100 else if i = 1 then 110 else 130)
      else if j = 1 then (if i = 0 then 50 else 66) else -10) where
  pos := by norm_num
  o_lt := by intro i j h _; push_cast; omega
  d_lt := by intro i j h _; push_cast; omega
  mem := by
    intro r
    constructor
    · intro hr
      simp only [exStairRecs, List.mem_cons, List.not_mem_nil, or_false] at hr
      rcases hr with rfl | rfl | rfl | rfl | rfl | rfl
      exacts [⟨2, 0, by norm_num, by norm_num⟩, ⟨0, 0, by norm_num, by norm_num⟩,
        ⟨0, 1, by norm_num, by norm_num⟩, ⟨1, 0, by norm_num, by norm_num⟩,
        ⟨0, 2, by norm_num, by norm_num⟩, ⟨1, 1, by norm_num, by norm_num⟩]
    · rintro ⟨i, j, hij, rfl⟩
      have : (i = 0 ∧ j = 0) ∨ (i = 0 ∧ j = 1) ∨ (i = 0 ∧ j = 2) ∨ (i = 1 ∧ j = 0) ∨ (i = 1 ∧ j = 1) ∨
          (i = 2 ∧ j = 0) := by omega
      rcases this with ⟨rfl, rfl⟩ | ⟨rfl, rfl⟩ | ⟨rfl, rfl⟩ | ⟨rfl, rfl⟩ | ⟨rfl, rfl⟩ | ⟨rfl, rfl⟩ <;>
        norm_num [exStairRecs]
  once := by decide +kernel

example : (totriCum exStairRecs).toOption.map (fun t => (t.origins, t.devs)) =
    some ([2001, 2002, 2003], [12, 24, 36]) := by decide +kernel

example : ((totriCum exStairRecs).toOption.bind (fun t =>
    (baseCL (fun _ => .nan) t t.a2aind0 "all-weighted" 1).toOption)).map
      (fun r => (r.rows.map SummRow.latest, r.rows.map SummRow.ultimate, r.totReserve)) =
    some ([.fin 140, .fin 176, .fin 130], [.fin 140, .fin (2464 / 15), .fin (8476 / 45)], .fin (2098 / 45)) := by
  decide +kernel

end Trikit
