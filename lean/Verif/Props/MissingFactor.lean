import Verif.Props.LostPeriod

/-!
# C220: missing development factors in `base_cl`

A factor can be missing: a medial average after an exclusion (C206), or an entry of the factors a user supplies.  `base_cl`
(base.py:25-170) then has no estimate for the origins that still have to pass the period.
-/

set_option linter.unusedSectionVars false

namespace Trikit

variable {K : Type} [Field K] [LinearOrder K] [IsStrictOrderedRing K]
variable {t : Tri K} {n : ℕ} {c : ℕ → ℕ → K}

/-! ## specification -/

/-- A result of `base_cl`, with factors selected by name, or given as an array or a Series. -/
def Spec.BaseRun (t : Tri K) (r : BaseResult K) : Prop :=
  (∃ gm ind sel tail, baseCL gm t ind sel tail = .ok r) ∨ (∃ sel tail, baseCLArray t sel tail = .ok r) ∨
    (∃ sel tail, (baseCLSeries t sel tail).2 = .ok r)

/-- Origin `i` still has to pass a period whose factor is missing (the tail factor counts for all). -/
def Spec.Waits (n : ℕ) (F : ℕ → Num K) (i : ℕ) : Prop := ∃ j, n - 1 - i ≤ j ∧ j < n ∧ F j = .nan

/-- Every factor is a number or missing. -/
def Spec.NumberOrMissing (n : ℕ) (F : ℕ → Num K) : Prop := ∀ j < n, F j = .nan ∨ ∃ f, F j = .fin f

/-! ## the factors of a run -/

theorem baseRun_ldfs {r : BaseResult K} (hr : Spec.BaseRun t r) : ∃ ldfs, baseFromLdfs t ldfs = .ok r := by
  rcases hr with ⟨gm, ind, sel, tail, h⟩ | ⟨sel, tail, h⟩ | ⟨sel, tail, h⟩
  · unfold baseCL at h
    cases e : ldfsByName gm t ind sel tail with
    | error x => rw [e] at h; cases h
    | ok l => rw [e] at h; exact ⟨l, h⟩
  · unfold baseCLArray at h
    cases e : ldfsByArray t sel tail with
    | error x => rw [e] at h; cases h
    | ok l => rw [e] at h; exact ⟨l, h⟩
  · unfold baseCLSeries at h
    cases e : (ldfsBySeries t sel tail).2 with
    | error x => simp only [e] at h; cases h
    | ok l => simp only [e] at h; exact ⟨l, h⟩

theorem baseFromLdfs_length (h : Spec.Stair t n c) (hn : 3 ≤ n) {ldfs : Ser K} {r : BaseResult K}
    (hr : baseFromLdfs t ldfs = .ok r) : ldfs.length = n ∧ r.ldfs = ldfs := by
  have hcl : (cldfsOf ldfs).length = ldfs.length := by
    unfold cldfsOf; rw [List.length_zip, cumprodRev_length]; simp
  have hlat : t.latestByOrigin.length = n := by rw [h.latestByOrigin]; simp
  unfold baseFromLdfs at hr
  simp only at hr
  cases e1 : ultimatesOf t (cldfsOf ldfs) with
  | error x => rw [e1] at hr; cases hr
  | ok u =>
    rw [e1, h.maturity] at hr
    cases e2 : trisqrdOf t ldfs with
    | error x => rw [e2] at hr; cases hr
    | ok q =>
      rw [e2] at hr
      refine ⟨?_, by rw [← Except.ok.inj hr]⟩
      unfold ultimatesOf at e1
      simp only [List.length_map, List.length_reverse, hcl, hlat, h.nr] at e1
      unfold trisqrdOf at e2
      rw [Tri.triind_ok h.staircase.colsObserved] at e2
      have e3 : ¬ (ldfs.length < n - 1 ∨ ldfs = []) := by
        intro hc
        rw [← h.nc] at hc
        have : (if ldfs.length < t.nc - 1 ∨ ldfs = [] then (Except.error PyErr.indexError : Except PyErr (Sqr K)) else _) =
          .ok q := e2
        rw [if_pos hc] at this
        cases this
      by_contra hne
      rw [if_neg (by omega), if_neg (by omega), if_neg (by omega)] at e1
      cases e1

theorem run_core (h : Spec.Stair t n c) (hn : 3 ≤ n) {r : BaseResult K} (hr : Spec.BaseRun t r) :
    r.rows.length = n ∧
      (∀ i < n, ∃ row, r.rows[i]? = some row ∧ row.latest = .fin (c i (n - 1 - i)) ∧
        row.ultimate = .fin (c i (n - 1 - i)) * cumAt r.ldfs.iloc n (n - 1 - i) ∧
        row.reserve = .fin (c i (n - 1 - i)) * cumAt r.ldfs.iloc n (n - 1 - i) - .fin (c i (n - 1 - i))) ∧
      r.totUltimate = Num.sumSkip ((List.range n).map (fun i => .fin (c i (n - 1 - i)) * cumAt r.ldfs.iloc n (n - 1 - i))) ∧
      r.totReserve = Num.sumSkip ((List.range n).map
        (fun i => .fin (c i (n - 1 - i)) * cumAt r.ldfs.iloc n (n - 1 - i) - .fin (c i (n - 1 - i)))) ∧
      r.totLatest = .fin (∑ i ∈ Finset.range n, c i (n - 1 - i)) ∧
      ∀ i j, r.sqr.tri.cell i j = Trikit.sqrCell t r.ldfs.iloc i j := by
  obtain ⟨ldfs, h0⟩ := baseRun_ldfs hr
  obtain ⟨hl, e⟩ := baseFromLdfs_length h hn h0
  have hf : ldfs.map Prod.snd = (List.range n).map ldfs.iloc := by
    apply List.ext_getElem
    · simp [hl]
    · intro j h1 h2
      rw [List.getElem_map (f := ldfs.iloc), List.getElem_range]
      unfold Ser.iloc
      rw [List.getD_eq_getElem?_getD, List.getElem?_eq_getElem h1]; rfl
  obtain ⟨r', a1, a2⟩ := base_core_missing h (by omega) hf
  obtain rfl := Except.ok.inj (h0.symm.trans a1)
  rw [e]
  exact a2

theorem cumAt_waits {F : ℕ → Num K} {i : ℕ} (hw : Spec.Waits n F i) : cumAt F n (n - 1 - i) = .nan := by
  obtain ⟨j, h1, h2, h3⟩ := hw
  exact cumAt_nan h1 h2 h3

/-- Factor as a number (0 if missing). -/
def numOf : Num K → K
  | .fin x => x
  | _ => 0

theorem cumAt_passes {F : ℕ → Num K} (hF : Spec.NumberOrMissing n F) {i : ℕ} (hi : i < n) (hw : ¬ Spec.Waits n F i) :
    cumAt F n (n - 1 - i) = .fin (Spec.tailProd (fun j => numOf (F j)) n (n - 1 - i)) := by
  refine cumAt_fin (by omega) fun m h1 h2 => ?_
  rcases hF m h2 with e | ⟨f, e⟩
  · exact absurd ⟨m, h1, h2, e⟩ hw
  · rw [e]; rfl

open Classical in
theorem sumSkip_split (P : ℕ → Prop) {x : ℕ → Num K} {g : ℕ → K} (m : ℕ) (h1 : ∀ i < m, P i → x i = .nan)
    (h2 : ∀ i < m, ¬ P i → x i = .fin (g i)) :
    Num.sumSkip ((List.range m).map x) = .fin (∑ i ∈ Finset.range m with ¬ P i, g i) := by
  induction m with
  | zero => rfl
  | succ m ih =>
    rw [List.range_succ, List.map_append, Num.sumSkip_append, ih (fun i hi => h1 i (by omega)) (fun i hi => h2 i (by omega)),
      List.map_singleton, Finset.range_add_one, Finset.filter_insert]
    by_cases hP : P m
    · rw [h1 m (by omega) hP, Num.sumSkip_cons_nan, Num.sumSkip_nil, add_zero, if_neg (not_not.2 hP)]
    · rw [h2 m (by omega) hP, Num.sumSkip_cons_fin, Num.sumSkip_nil, add_zero, if_pos hP, Finset.sum_insert (by simp),
        Num.fin_add, add_comm]

/-! ## C220 -/

/-- **C220, partial.** For every staircase with at least three periods and every result of `base_cl` whose factors are numbers or
missing: the ultimate and the reserve of an origin are missing exactly when it still has to pass a period whose factor is
missing; otherwise the ultimate is the latest amount times the factors of the periods to come.  In the squared triangle the
observed cells stay, and projected ones are missing exactly behind such a period.  Missing of the full claim: the totals
(`C220_totals_fail`). -/
theorem C220_missing_partial (h : Spec.Stair t n c) (hn : 3 ≤ n) {r : BaseResult K} (hr : Spec.BaseRun t r)
    (hF : Spec.NumberOrMissing n r.ldfs.iloc) :
    r.rows.length = n ∧
    (∀ i < n, ∃ row, r.rows[i]? = some row ∧ row.latest = .fin (c i (n - 1 - i)) ∧
      (Spec.Waits n r.ldfs.iloc i → row.ultimate = .nan ∧ row.reserve = .nan) ∧
      (¬ Spec.Waits n r.ldfs.iloc i → ∃ f : ℕ → K, (∀ j, n - 1 - i ≤ j → j < n → r.ldfs.iloc j = .fin (f j)) ∧
        row.ultimate = .fin (c i (n - 1 - i) * ∏ j ∈ Finset.Ico (n - 1 - i) n, f j) ∧
        row.reserve = .fin (c i (n - 1 - i) * ∏ j ∈ Finset.Ico (n - 1 - i) n, f j - c i (n - 1 - i)))) ∧
    ∀ i < n, ∀ j < n, (i + j < n → r.sqr.tri.cell i j = .fin (c i j)) ∧
      (n ≤ i + j → (r.sqr.tri.cell i j = .nan ↔ ∃ p, n - 1 - i ≤ p ∧ p < j ∧ r.ldfs.iloc p = .nan)) := by
  obtain ⟨h1, h2, -, -, -, h6⟩ := run_core h hn hr
  refine ⟨h1, fun i hi => ?_, fun i hi => ?_⟩
  · obtain ⟨row, e1, e2, e3, e4⟩ := h2 i hi
    refine ⟨row, e1, e2, fun hw => ?_, fun hw => ⟨fun j => numOf (r.ldfs.iloc j), fun j a b => ?_, ?_, ?_⟩⟩
    · rw [e3, e4, cumAt_waits hw, Num.mul_nan]; exact ⟨rfl, rfl⟩
    · rcases hF j b with e | ⟨f, e⟩
      · exact absurd ⟨j, a, b, e⟩ hw
      · show r.ldfs.iloc j = .fin (numOf (r.ldfs.iloc j))
        rw [e]; rfl
    · rw [e3, cumAt_passes hF hi hw, Num.fin_mul]; rfl
    · rw [e4, cumAt_passes hF hi hw, Num.fin_mul, Num.fin_sub]; rfl
  · have hobs : ∀ j, i + j < n → r.sqr.tri.cell i j = .fin (c i j) := by
      intro j hij
      rw [h6]
      cases j with
      | zero => exact h.obs i 0 hij
      | succ j =>
        rw [Trikit.sqrCell, h.staircase.triindAt i (by omega), if_neg (by simp; omega)]
        exact h.obs i (j + 1) hij
    intro j hj
    refine ⟨hobs j, fun hij => ⟨fun e => ?_, ?_⟩⟩
    · by_contra hc
      push Not at hc
      have hfin : ∀ m, n - 1 - i ≤ m → m ≤ j → ∃ x, Trikit.sqrCell t r.ldfs.iloc i m = .fin x := by
        intro m
        induction m with
        | zero => intro _ _; exact ⟨_, by rw [← h6]; exact hobs 0 (by omega)⟩
        | succ m ih =>
          intro hm1 hm2
          by_cases hm : i + (m + 1) < n
          · exact ⟨_, by rw [← h6]; exact hobs _ hm⟩
          · obtain ⟨x, hx⟩ := ih (by omega) (by omega)
            rcases hF m (by omega) with e | ⟨f, e⟩
            · exact absurd e (hc m (by omega) (by omega))
            · refine ⟨x * f, ?_⟩
              rw [Trikit.sqrCell, h.staircase.triindAt i (by omega), if_pos (by simp; omega), hx, e, Num.fin_mul]
      obtain ⟨x, hx⟩ := hfin j (by omega) le_rfl
      rw [h6, hx] at e
      cases e
    · rintro ⟨p, hp1, hp2, hp3⟩
      rw [h6]
      exact sqrCell_nan h hi (by omega) hp3 j hp2 hj

open Classical in
/-- **C220, the code violates it.** Totals: whenever some origin has to pass a period whose factor is missing, the total ultimate
and the total reserve are those of the other origins alone, while the total of the latest amounts is that of all origins.  So
total ultimate less total latest falls short of the total reserve by the latest amounts of the origins left out. -/
theorem C220_totals_fail (h : Spec.Stair t n c) (hp : Spec.Positive n c) (hn : 3 ≤ n) {r : BaseResult K} (hr : Spec.BaseRun t r)
    (hF : Spec.NumberOrMissing n r.ldfs.iloc) {m : ℕ} (hm : m < n) (hw : Spec.Waits n r.ldfs.iloc m) :
    ∃ l u v, r.totLatest = .fin l ∧ r.totUltimate = .fin u ∧ r.totReserve = .fin v ∧
      l = ∑ i ∈ Finset.range n, c i (n - 1 - i) ∧
      (∃ g : ℕ → K, (∀ i < n, ¬ Spec.Waits n r.ldfs.iloc i → ∃ row, r.rows[i]? = some row ∧ row.ultimate = .fin (g i)) ∧
        u = ∑ i ∈ Finset.range n with ¬ Spec.Waits n r.ldfs.iloc i, g i) ∧
      v - (u - l) = ∑ i ∈ Finset.range n with Spec.Waits n r.ldfs.iloc i, c i (n - 1 - i) ∧ u - l < v := by
  obtain ⟨-, h2, h3, h4, h5, -⟩ := run_core h hn hr
  rw [sumSkip_split (Spec.Waits n r.ldfs.iloc)
    (g := fun i => c i (n - 1 - i) * Spec.tailProd (fun j => numOf (r.ldfs.iloc j)) n (n - 1 - i)) n
    (fun i _ a => by rw [cumAt_waits a, Num.mul_nan])
    (fun i hi a => by rw [cumAt_passes hF hi a, Num.fin_mul])] at h3
  rw [sumSkip_split (Spec.Waits n r.ldfs.iloc)
    (g := fun i => c i (n - 1 - i) * Spec.tailProd (fun j => numOf (r.ldfs.iloc j)) n (n - 1 - i) - c i (n - 1 - i)) n
    (fun i _ a => by rw [cumAt_waits a, Num.mul_nan]; rfl)
    (fun i hi a => by rw [cumAt_passes hF hi a, Num.fin_mul, Num.fin_sub])] at h4
  have hs : ∑ i ∈ Finset.range n with Spec.Waits n r.ldfs.iloc i, c i (n - 1 - i) +
      ∑ i ∈ Finset.range n with ¬ Spec.Waits n r.ldfs.iloc i, c i (n - 1 - i) = ∑ i ∈ Finset.range n, c i (n - 1 - i) :=
    Finset.sum_filter_add_sum_filter_not _ _ _
  have hpos : 0 < ∑ i ∈ Finset.range n with Spec.Waits n r.ldfs.iloc i, c i (n - 1 - i) :=
    Finset.sum_pos (fun i hi => hp _ _ (by have := Finset.mem_range.1 (Finset.mem_filter.1 hi).1; omega))
      ⟨m, Finset.mem_filter.2 ⟨Finset.mem_range.2 hm, hw⟩⟩
  refine ⟨_, _, _, h5, h3, h4, rfl, ⟨_, fun i hi a => ?_, rfl⟩, ?_, ?_⟩
  · obtain ⟨row, e1, -, e3, -⟩ := h2 i hi
    exact ⟨row, e1, by rw [e3, cumAt_passes hF hi a, Num.fin_mul]⟩
  · rw [Finset.sum_sub_distrib]; linarith
  · rw [Finset.sum_sub_distrib]; linarith

/-! ## an example -/

/-- A triangle of four origins, with the second of three supplied factors missing: the two youngest origins have no ultimate and
no reserve, the total reserve is that of the second origin alone, and total ultimate less total latest is far below it. -/
example :
    ((baseCLArray (stairTri 4 exLost) [.fin 2, .nan, .fin (3 / 2)] (.fin 1)).map (fun r =>
      (r.rows.map SummRow.ultimate, r.totLatest, r.totUltimate, r.totReserve))).toOption =
      some ([.fin 400, .fin (975 / 2), .nan, .nan], .fin 1076, .fin (1775 / 2), .fin (325 / 2)) := by
  decide +kernel

end Trikit
