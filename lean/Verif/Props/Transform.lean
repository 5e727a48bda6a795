import Verif.Props.Base
import Verif.Transform

/-!
# C83, C84: data behind the plots of the base chain ladder
-/

set_option linter.unusedSectionVars false

namespace Trikit

variable {K : Type} [Field K] [LinearOrder K] [IsStrictOrderedRing K]

/-- The squared staircase: observed value, or the latest value developed with the factors. -/
def Spec.squared (n : ℕ) (c : ℕ → ℕ → K) (f : ℕ → K) (i j : ℕ) : K :=
  if i + j < n then c i j else c i (n - 1 - i) * ∏ m ∈ Finset.Ico (n - 1 - i) j, f m

theorem incr_get_lt {l : List Int} (h : Spec.Increasing l) {a b : ℕ} {x y : Int}
    (ha : l[a]? = some x) (hb : l[b]? = some y) (hab : a < b) : x < y := by
  obtain ⟨h1, rfl⟩ := List.getElem?_eq_some_iff.1 ha
  obtain ⟨h2, rfl⟩ := List.getElem?_eq_some_iff.1 hb
  exact List.pairwise_iff_getElem.1 h a b h1 h2 hab

theorem Spec.Stair.dAt_le_iff {t : Tri K} {n : ℕ} {c : ℕ → ℕ → K} (h : Spec.Stair t n c) {a b : ℕ}
    (ha : a < n) (hb : b < n) : t.dAt a ≤ t.dAt b ↔ a ≤ b := by
  constructor
  · intro hle
    by_contra hlt
    have := incr_get_lt h.devs (h.dAt_get hb) (h.dAt_get ha) (by omega)
    omega
  · intro hle
    rcases Nat.lt_or_eq_of_le hle with hlt | rfl
    · exact (incr_get_lt h.devs (h.dAt_get ha) (h.dAt_get hb) hlt).le
    · exact le_refl _

theorem Spec.Stair.dAt_eq_iff {t : Tri K} {n : ℕ} {c : ℕ → ℕ → K} (h : Spec.Stair t n c) {a b : ℕ}
    (ha : a < n) (hb : b < n) : t.dAt a = t.dAt b ↔ a = b := by
  constructor
  · intro e
    exact le_antisymm ((h.dAt_le_iff ha hb).1 e.le) ((h.dAt_le_iff hb ha).1 e.ge)
  · rintro rfl; rfl

theorem Spec.Stair.oAt_eq_iff {t : Tri K} {n : ℕ} {c : ℕ → ℕ → K} (h : Spec.Stair t n c) {a b : ℕ}
    (ha : a < n) (hb : b < n) : t.oAt a = t.oAt b ↔ a = b := by
  constructor
  · intro e
    rcases Nat.lt_trichotomy a b with hlt | he | hlt
    · have := incr_get_lt h.origins (h.oAt_get ha) (h.oAt_get hb) hlt; omega
    · exact he
    · have := incr_get_lt h.origins (h.oAt_get hb) (h.oAt_get ha) hlt; omega
  · rintro rfl; rfl

theorem Spec.Stair.origin_index {t : Tri K} {n : ℕ} {c : ℕ → ℕ → K} (h : Spec.Stair t n c) {i : ℕ}
    (hi : i < n) : (labels t.origins).idxOf (t.oAt i) = i := by
  rw [labels_eq_of_mem h.origins (fun _ => Iff.rfl)]
  obtain ⟨h1, h2⟩ := List.getElem?_eq_some_iff.1 (h.oAt_get hi)
  rw [← h2]
  exact h.origins.nodup.idxOf_getElem i h1

theorem Spec.BaseSpec.latestOf {t : Tri K} {n : ℕ} {c : ℕ → ℕ → K} (h : Spec.Stair t n c) {f : ℕ → K}
    {ldfs : Ser K} {b : BaseResult K} (hs : Spec.BaseSpec t n c f ldfs b) {i : ℕ} (hi : i < n) :
    b.latestOf (t.oAt i) = .fin (c i (n - 1 - i)) := by
  unfold BaseResult.latestOf
  have key : b.rows.find? (fun r => decide (r.origin = t.oAt i)) = b.rows[i]? := by
    obtain ⟨row, h1, h2, -⟩ := hs.rows i hi
    rw [h1, List.find?_eq_some_iff_getElem]
    obtain ⟨hlt, he⟩ := List.getElem?_eq_some_iff.1 h1
    refine ⟨by simp [h2], i, hlt, he, ?_⟩
    intro j hj
    obtain ⟨row', h1', h2', -⟩ := hs.rows j (by omega)
    obtain ⟨hlt', he'⟩ := List.getElem?_eq_some_iff.1 h1'
    rw [he', h2']
    have := (h.oAt_eq_iff (show j < n by omega) hi).not.2 (by omega)
    simp [this]
  obtain ⟨row, h1, -, -, -, -, h6, -⟩ := hs.rows i hi
  rw [key, h1]
  exact h6

/-- A cell of the combined table on a staircase. -/
def stairCell (t : Tri K) (n : ℕ) (c : ℕ → ℕ → K) (f : ℕ → K) (j i : ℕ) : PlotCell K :=
  ⟨t.oAt i, t.dAt j, .fin (Spec.squared n c f i j), .fin (c i (n - 1 - i)), decide (i + j < n)⟩

theorem plotCells_stair {t : Tri K} {n : ℕ} {c : ℕ → ℕ → K} (h : Spec.Stair t n c) {f : ℕ → K}
    {ldfs : Ser K} {b : BaseResult K} (hs : Spec.BaseSpec t n c f ldfs b) :
    plotCells t b = (List.range n).flatMap (fun j => (List.range n).map (stairCell t n c f j)) := by
  unfold plotCells
  rw [h.nc, h.nr]
  refine List.flatMap_congr (fun j hj => List.map_congr_left (fun i hi => ?_))
  rw [List.mem_range] at hi hj
  rw [stairCell, hs.sqr_cells i hi j hj, hs.latestOf h hi, h.staircase.triindAt i hj]
  congr 1
  rw [← decide_not]
  congr 1
  rw [eq_iff_iff]; omega

theorem mem_stairCells {t : Tri K} {n : ℕ} {c : ℕ → ℕ → K} {f : ℕ → K} {x : PlotCell K} :
    x ∈ (List.range n).flatMap (fun j => (List.range n).map (stairCell t n c f j)) ↔
      ∃ j < n, ∃ i < n, stairCell t n c f j i = x := by
  simp [List.mem_flatMap]

theorem maxActual_stair {t : Tri K} {n : ℕ} {c : ℕ → ℕ → K} (h : Spec.Stair t n c) {f : ℕ → K}
    {i : ℕ} (hi : i < n) :
    maxActual ((List.range n).flatMap (fun j => (List.range n).map (stairCell t n c f j))) (t.oAt i) =
      some (t.dAt (n - 1 - i)) := by
  unfold maxActual
  rw [List.max?_eq_some_iff]
  constructor
  · rw [List.mem_map]
    refine ⟨stairCell t n c f (n - 1 - i) i, ?_, rfl⟩
    rw [List.mem_filter]
    refine ⟨mem_stairCells.2 ⟨n - 1 - i, by omega, i, hi, rfl⟩, ?_⟩
    simp [stairCell]; omega
  · intro d hd
    rw [List.mem_map] at hd
    obtain ⟨x, hx, rfl⟩ := hd
    rw [List.mem_filter] at hx
    obtain ⟨hx, hp⟩ := hx
    obtain ⟨j, hj, k, hk, rfl⟩ := mem_stairCells.1 hx
    rw [Bool.and_eq_true] at hp
    have hp2 : k + j < n := of_decide_eq_true hp.2
    have := (h.oAt_eq_iff hk hi).1 (of_decide_eq_true hp.1)
    subst this
    show t.dAt j ≤ _
    exact (h.dAt_le_iff hj (by omega)).2 (by omega)

/-- Filtering the table period by period. -/
theorem filter_cells {α : Type} (n : ℕ) (g : ℕ → ℕ → α) (p : α → Bool) (q : ℕ → ℕ → Bool)
    (hpq : ∀ j < n, ∀ i < n, p (g j i) = q j i) :
    ((List.range n).flatMap (fun j => (List.range n).map (g j))).filter p =
      (List.range n).flatMap (fun j => ((List.range n).filter (q j)).map (g j)) := by
  rw [List.filter_flatMap]
  refine List.flatMap_congr (fun j hj => ?_)
  rw [List.mem_range] at hj
  rw [List.filter_map]
  congr 1
  refine List.filter_congr (fun i hi => ?_)
  rw [List.mem_range] at hi
  exact hpq j hj i hi

theorem flatMap_single {α : Type} {n j : ℕ} (hj : j < n) (g : ℕ → List α) :
    (List.range n).flatMap (fun k => if k = j then g k else []) = g j := by
  have key : ∀ m : ℕ, (List.range m).flatMap (fun k => if k = j then g k else []) =
      if j < m then g j else [] := by
    intro m
    induction m with
    | zero => simp
    | succ m ih =>
      rw [List.range_succ, List.flatMap_append, ih]
      by_cases e : m = j
      · subst e; simp
      · have : j < m + 1 ↔ j < m := by omega
        simp [e, this]
  rw [key, if_pos hj]

theorem sumSkip_filter_range (n : ℕ) (q : ℕ → Bool) (g : ℕ → K) :
    Num.sumSkip (((List.range n).filter q).map (fun i => Num.fin (g i))) =
      .fin (∑ i ∈ (Finset.range n).filter (fun i => q i = true), g i) := by
  rw [Num.sumSkip_map_fin' _ _ g (fun _ _ => rfl)]
  congr 1
  induction n with
  | zero => simp
  | succ n ih =>
    rw [List.range_succ, List.filter_append, List.map_append, List.sum_append, ih, Finset.range_add_one,
      Finset.filter_insert]
    by_cases e : q n = true
    · rw [if_pos e, Finset.sum_insert (by simp)]; simp [e, add_comm]
    · rw [if_neg e]; simp [e]

theorem filter_pick {α : Type} {n i : ℕ} (hi : i < n) (q : ℕ → Bool) (g : ℕ → α) (p : α → Bool)
    (hp : ∀ k < n, p (g k) = decide (k = i)) :
    (((List.range n).filter q).map g).filter p = if q i = true then [g i] else [] := by
  rw [List.filter_map, List.filter_filter]
  have e : (List.range n).filter (fun k => (p ∘ g) k && q k) =
      (List.range n).filter (fun k => decide (k = i) && q k) :=
    List.filter_congr (fun k hk => by rw [Function.comp, hp k (List.mem_range.1 hk)])
  have key : ∀ m : ℕ, (List.range m).filter (fun k => decide (k = i) && q k) =
      if i < m ∧ q i = true then [i] else [] := by
    intro m
    induction m with
    | zero => simp
    | succ m ih =>
      rw [List.range_succ, List.filter_append, ih]
      by_cases e : m = i
      · subst e; cases hq : q m <;> simp [hq]
      · have : i < m + 1 ↔ i < m := by omega
        simp [e, this]
  rw [e, key]
  by_cases hq : q i = true <;> simp [hi, hq]

theorem flatMap_if_single {α : Type} (l : List ℕ) (q : ℕ → Bool) (g : ℕ → α) :
    l.flatMap (fun j => if q j = true then [g j] else []) = (l.filter q).map g := by
  induction l with
  | nil => rfl
  | cons a l ih => cases hq : q a <;> simp [List.flatMap_cons, hq, ih]

theorem filter_map_none {α : Type} {l : List ℕ} {g : ℕ → α} {p : α → Bool} (h : ∀ i, p (g i) = false) :
    (l.map g).filter p = [] := by
  rw [List.filter_eq_nil_iff]
  intro x hx
  obtain ⟨i, _, rfl⟩ := List.mem_map.1 hx
  simp [h i]

theorem filter_map_all {α : Type} {l : List ℕ} {g : ℕ → α} {p : α → Bool} (h : ∀ i, p (g i) = true) :
    (l.map g).filter p = l.map g := by
  rw [List.filter_eq_self]
  intro x hx
  obtain ⟨i, _, rfl⟩ := List.mem_map.1 hx
  exact h i

theorem filter_flat_none {α : Type} {l : List ℕ} {m : ℕ → List ℕ} {g : ℕ → ℕ → α} {p : α → Bool}
    (h : ∀ j i, p (g j i) = false) : (l.flatMap (fun j => (m j).map (g j))).filter p = [] := by
  rw [List.filter_flatMap, List.flatMap_eq_nil_iff]
  intro j _
  exact filter_map_none (h j)

theorem filter_flat_all {α : Type} {l : List ℕ} {m : ℕ → List ℕ} {g : ℕ → ℕ → α} {p : α → Bool}
    (h : ∀ j i, p (g j i) = true) :
    (l.flatMap (fun j => (m j).map (g j))).filter p = l.flatMap (fun j => (m j).map (g j)) := by
  rw [List.filter_flatMap]
  exact List.flatMap_congr (fun j _ => filter_map_all (h j))

/-- The whole table on a staircase. -/
theorem plotData_stair {t : Tri K} {n : ℕ} {c : ℕ → ℕ → K} (h : Spec.Stair t n c) {f : ℕ → K}
    {ldfs : Ser K} {b : BaseResult K} (hs : Spec.BaseSpec t n c f ldfs b) {lab : Int}
    (hl : tailLabel (ldfs.map Prod.fst) = .ok lab) :
    plotData t b = .ok (
      (List.range n).flatMap (fun j => ((List.range n).filter (fun i => decide (i + j < n))).map (fun i =>
        (⟨i, some (t.oAt i), t.dAt j, .fin (c i j), 0, false⟩ : PlotRow K))) ++
      (List.range n).flatMap (fun j => ((List.range n).filter (fun i => decide (n ≤ i + j + 1))).map
        (fun i => (⟨i, some (t.oAt i), t.dAt j, .fin (Spec.squared n c f i j),
          .fin (Spec.squared n c f i j - c i (n - 1 - i)), true⟩ : PlotRow K))) ++
      (List.range n).map (fun i => (⟨i, some (t.oAt i), lab,
        .fin (c i (n - 1 - i) * Spec.tailProd f n (n - 1 - i)),
        .fin (c i (n - 1 - i) * Spec.tailProd f n (n - 1 - i) - c i (n - 1 - i)), true⟩ : PlotRow K)) ++
      ((List.range n).map (fun j => (⟨n, none, t.dAt j,
        .fin (∑ i ∈ (Finset.range n).filter (fun i => n ≤ i + j + 1), Spec.squared n c f i j),
        .fin (∑ i ∈ (Finset.range n).filter (fun i => n ≤ i + j + 1), Spec.squared n c f i j -
          ∑ i ∈ (Finset.range n).filter (fun i => n ≤ i + j + 1), c i (n - 1 - i)),
        true⟩ : PlotRow K)) ++
      [⟨n, none, lab, .fin (∑ i ∈ Finset.range n, c i (n - 1 - i) * Spec.tailProd f n (n - 1 - i)),
        .fin (∑ i ∈ Finset.range n, c i (n - 1 - i) * Spec.tailProd f n (n - 1 - i) -
          ∑ i ∈ Finset.range n, c i (n - 1 - i)), true⟩])) := by
  have hlen : (labels t.origins).length = n := by
    rw [labels_eq_of_mem h.origins (fun _ => Iff.rfl)]; exact h.nr
  have hult : ∀ i < n, b.sqr.ultimate.getD i .nan =
      .fin (c i (n - 1 - i) * Spec.tailProd f n (n - 1 - i)) := by
    intro i hi
    rw [hs.sqr_ultimate, List.getD_eq_getElem?_getD, List.getElem?_map, List.getElem?_range hi]; rfl
  have hact : (plotCells t b).filter (fun c => c.actual) = (List.range n).flatMap (fun j =>
      ((List.range n).filter (fun i => decide (i + j < n))).map (stairCell t n c f j)) := by
    rw [plotCells_stair h hs]
    exact filter_cells n _ _ (fun j i => decide (i + j < n)) (fun j _ i _ => rfl)
  have hpred : (plotCells t b).filter (fun x => !x.actual ||
      decide (some x.dev = maxActual (plotCells t b) x.origin)) = (List.range n).flatMap (fun j =>
      ((List.range n).filter (fun i => decide (n ≤ i + j + 1))).map (stairCell t n c f j)) := by
    rw [plotCells_stair h hs]
    refine filter_cells n _ _ (fun j i => decide (n ≤ i + j + 1)) (fun j hj i hi => ?_)
    have e : (some (t.dAt j) = maxActual ((List.range n).flatMap (fun j =>
        (List.range n).map (stairCell t n c f j))) (t.oAt i)) ↔ j = n - 1 - i := by
      rw [maxActual_stair h hi, Option.some_inj, h.dAt_eq_iff hj (by omega)]
    have e' : decide (some (stairCell t n c f j i).dev = maxActual ((List.range n).flatMap (fun j =>
        (List.range n).map (stairCell t n c f j))) (stairCell t n c f j i).origin) =
        decide (j = n - 1 - i) := decide_eq_decide.2 e
    rw [e']
    show (!decide (i + j < n) || decide (j = n - 1 - i)) = decide (n ≤ i + j + 1)
    rw [← decide_not, ← Bool.decide_or]
    exact decide_eq_decide.2 (by omega)
  have hdevs : labels (((List.range n).flatMap (fun j =>
      ((List.range n).filter (fun i => decide (n ≤ i + j + 1))).map (stairCell t n c f j))).map
        PlotCell.dev) = (List.range n).map t.dAt := by
    rw [← h.devs_eq]
    refine labels_eq_of_mem h.devs (fun x => ?_)
    rw [h.devs_eq]
    simp only [List.mem_map, List.mem_flatMap, List.mem_range, List.mem_filter, decide_eq_true_eq]
    constructor
    · rintro ⟨j, hj, rfl⟩
      exact ⟨stairCell t n c f j (n - 1), ⟨j, hj, n - 1, ⟨by omega, by omega⟩, rfl⟩, rfl⟩
    · rintro ⟨_, ⟨j, hj, i, _, rfl⟩, rfl⟩
      exact ⟨j, hj, rfl⟩
  have hgrp : ∀ j < n, ((List.range n).flatMap (fun j =>
      ((List.range n).filter (fun i => decide (n ≤ i + j + 1))).map (stairCell t n c f j))).filter
        (fun x => decide (x.dev = t.dAt j)) =
      ((List.range n).filter (fun i => decide (n ≤ i + j + 1))).map (stairCell t n c f j) := by
    intro j hj
    rw [List.filter_flatMap, ← flatMap_single hj (fun j =>
      ((List.range n).filter (fun i => decide (n ≤ i + j + 1))).map (stairCell t n c f j))]
    refine List.flatMap_congr (fun k hk => ?_)
    rw [List.mem_range] at hk
    by_cases e : k = j
    · subst e
      rw [if_pos rfl, List.filter_eq_self]
      intro x hx
      obtain ⟨i, _, rfl⟩ := List.mem_map.1 hx
      simp [stairCell]
    · rw [if_neg e, List.filter_eq_nil_iff]
      intro x hx
      obtain ⟨i, _, rfl⟩ := List.mem_map.1 hx
      simp [stairCell, h.dAt_eq_iff hk hj, e]
  unfold plotData
  rw [hs.factors, hl]
  simp only [bind, Except.bind]
  rw [hact, hpred, hdevs, h.nr]
  congr 1
  congr 1
  · congr 1
    · congr 1
      · rw [List.map_flatMap]
        refine List.flatMap_congr (fun j hj => ?_)
        rw [List.map_map]
        refine List.map_congr_left (fun i hi => ?_)
        rw [List.mem_filter, List.mem_range, decide_eq_true_eq] at hi
        simp [plotRow, stairCell, h.origin_index hi.1, Spec.squared, hi.2]
      · rw [List.map_flatMap]
        refine List.flatMap_congr (fun j hj => ?_)
        rw [List.map_map]
        refine List.map_congr_left (fun i hi => ?_)
        rw [List.mem_filter, List.mem_range] at hi
        simp [plotRow, stairCell, h.origin_index hi.1, Num.fin_sub]
    · rw [List.map_map]
      refine List.map_congr_left (fun i hi => ?_)
      rw [List.mem_range] at hi
      simp only [Function.comp, plotRow, h.origin_index hi, hult i hi, hs.latestOf h hi, if_true,
        Num.fin_sub]
  · congr 1
    · rw [List.map_map]
      refine List.map_congr_left (fun j hj => ?_)
      rw [List.mem_range] at hj
      simp only [Function.comp]
      rw [hgrp j hj]
      unfold plotTotal
      rw [hlen, List.map_map, List.map_map]
      have e1 := sumSkip_filter_range n (fun i => decide (n ≤ i + j + 1))
        (fun i => Spec.squared n c f i j)
      have e2 := sumSkip_filter_range n (fun i => decide (n ≤ i + j + 1)) (fun i => c i (n - 1 - i))
      simp only [decide_eq_true_eq] at e1 e2
      have v1 : (PlotCell.value ∘ stairCell t n c f j) = fun i => Num.fin (Spec.squared n c f i j) := rfl
      have v2 : (PlotCell.latest ∘ stairCell t n c f j) = fun i => Num.fin (c i (n - 1 - i)) := rfl
      rw [v1, v2, e1, e2, Num.fin_sub]
    · unfold plotTotal
      rw [hlen, List.map_map, List.map_map]
      have v1 : (List.range n).map (PlotCell.value ∘ fun i => (⟨t.oAt i, lab, b.sqr.ultimate.getD i .nan,
          b.latestOf (t.oAt i), false⟩ : PlotCell K)) =
          (List.range n).map (fun i => Num.fin (c i (n - 1 - i) * Spec.tailProd f n (n - 1 - i))) := by
        refine List.map_congr_left (fun i hi => ?_)
        exact hult i (List.mem_range.1 hi)
      have v2 : (List.range n).map (PlotCell.latest ∘ fun i => (⟨t.oAt i, lab, b.sqr.ultimate.getD i .nan,
          b.latestOf (t.oAt i), false⟩ : PlotCell K)) =
          (List.range n).map (fun i => Num.fin (c i (n - 1 - i))) := by
        refine List.map_congr_left (fun i hi => ?_)
        exact hs.latestOf h (List.mem_range.1 hi)
      rw [v1, v2, Num.sumSkip_map_fin' _ _ _ (fun _ _ => rfl), Num.sumSkip_map_fin' _ _ _ (fun _ _ => rfl),
        list_range_sum, list_range_sum, Num.fin_sub]

/-! ## C83: one point per cell -/

/-- **C83 is false of the code**: with development labels 1, 2, 4 the ultimates are drawn at label 4 as
well, so that the oldest origin has two forecast points there with different losses (180 at the latest
observation, 360 at ultimate with tail factor 2). -/
theorem C83_fails :
    let t : Tri ℚ := { stairTri 3 exVals with devs := [1, 2, 4] }
    ((baseCL (fun _ => .nan) t t.a2aind0 "all-simple" (.fin 2)).bind (plotData t)).map
      (fun rows => (rows.filter (fun r => r.fcst && decide (r.origin = some 2001))).map
        (fun r => (r.dev, r.loss))) =
      .ok [(4, .fin 180), (4, .fin 360)] := by
  decide +kernel

/-- Where consecutive labels are closest: `m` is the smallest step of `l`. -/
def Spec.SmallestStep (l : List Int) (m : Int) : Prop :=
  (∃ k a b, l[k]? = some a ∧ l[k + 1]? = some b ∧ b - a = m) ∧
    ∀ k a b, l[k]? = some a → l[k + 1]? = some b → m ≤ b - a

theorem mem_labelDiffs {l : List Int} {d : Int} :
    d ∈ labelDiffs l ↔ ∃ k a b, l[k]? = some a ∧ l[k + 1]? = some b ∧ b - a = d := by
  unfold labelDiffs
  rw [List.mem_iff_getElem?]
  constructor
  · rintro ⟨k, hk⟩
    rw [List.getElem?_zipWith, List.getElem?_tail] at hk
    cases h1 : l[k + 1]? with
    | none => simp [h1] at hk
    | some b =>
      cases h2 : l[k]? with
      | none => simp [h2] at hk
      | some a =>
        rw [h1, h2] at hk
        exact ⟨k, a, b, h2, h1, by simpa using hk⟩
  · rintro ⟨k, a, b, h1, h2, h3⟩
    refine ⟨k, ?_⟩
    rw [List.getElem?_zipWith, List.getElem?_tail, h1, h2]
    simpa using h3

theorem min_labelDiffs {l : List Int} {m : Int} (h : Spec.SmallestStep l m) : (labelDiffs l).min? = some m := by
  rw [List.min?_eq_some_iff]
  refine ⟨mem_labelDiffs.2 h.1, fun d hd => ?_⟩
  obtain ⟨k, a, b, h1, h2, h3⟩ := mem_labelDiffs.1 hd
  have := h.2 k a b h1 h2
  omega

theorem exists_smallestStep {l : List Int} (hl : 2 ≤ l.length) : ∃ m, Spec.SmallestStep l m := by
  cases hm : (labelDiffs l).min? with
  | none =>
    rw [List.min?_eq_none_iff] at hm
    have := labelDiffs_length l
    rw [hm] at this; simp at this; omega
  | some m =>
    refine ⟨m, mem_labelDiffs.1 (List.min?_mem hm), fun k a b h1 h2 => ?_⟩
    exact (List.min?_eq_some_iff.1 hm).2 _ (mem_labelDiffs.2 ⟨k, a, b, h1, h2, rfl⟩)

/-- The label after the last one is the last plus the smallest step. -/
theorem tailLabel_value {l : List Int} (h : Spec.Increasing l) {m last : Int} (hm : Spec.SmallestStep l m)
    (hlast : l[l.length - 1]? = some last) : tailLabel l = .ok (last + m) := by
  have hmax : l.max? = some last := by
    rw [List.max?_eq_some_iff]
    refine ⟨List.mem_of_getElem? hlast, fun x hx => ?_⟩
    obtain ⟨k, hk⟩ := List.getElem?_of_mem hx
    obtain ⟨h1, h2⟩ := List.getElem?_eq_some_iff.1 hk
    obtain ⟨h3, h4⟩ := List.getElem?_eq_some_iff.1 hlast
    by_cases e : k = l.length - 1
    · subst e; rw [← h2, ← h4]
    · have := List.pairwise_iff_getElem.1 h k (l.length - 1) h1 h3 (by omega)
      rw [h2, h4] at this; omega
  unfold tailLabel minIncrement
  rw [min_labelDiffs hm, hmax]
  rfl

/-- One more label at the smallest step keeps the smallest step. -/
theorem smallestStep_append {l : List Int} {m last : Int} (hm : Spec.SmallestStep l m)
    (hlast : l[l.length - 1]? = some last) : Spec.SmallestStep (l ++ [last + m]) m := by
  obtain ⟨⟨k, a, b, h1, h2, h3⟩, h4⟩ := hm
  refine ⟨⟨k, a, b, ?_, ?_, h3⟩, ?_⟩
  · rw [List.getElem?_append_left (List.getElem?_eq_some_iff.1 h1).1, h1]
  · rw [List.getElem?_append_left (List.getElem?_eq_some_iff.1 h2).1, h2]
  · intro k a b ha hb
    have hk := (List.getElem?_eq_some_iff.1 hb).1
    rw [List.length_append, List.length_singleton] at hk
    by_cases e : k + 1 < l.length
    · rw [List.getElem?_append_left (by omega)] at ha hb
      exact h4 k a b ha hb
    · have e' : k = l.length - 1 := by omega
      have hl : 0 < l.length := by
        have := (List.getElem?_eq_some_iff.1 hlast).1; omega
      rw [List.getElem?_append_left (by omega), e', hlast] at ha
      rw [List.getElem?_append_right (by omega), show k + 1 - l.length = 0 by omega] at hb
      injection ha with ha
      injection hb with hb
      omega

/-- The rows of `C83_partial` for any labels. -/
theorem plotData_labels {gm : List (Num K) → Num K} {t ind : Tri K} {n : ℕ} {c w : ℕ → ℕ → K}
    (h : Spec.Stair t n c) (hc : ∀ i j, i + j < n → c i j ≠ 0) (hi : IndOn t ind n w) (hn : 3 ≤ n)
    {sel : String} {f : ℕ → K}
    (hsel : Spec.RowIs gm t ind sel ((List.range (n - 1)).map (fun j => .fin (f j)))) (tail : K) {lab₀ lab : Int}
    (hl₀ : tailLabel (t.devs.take (n - 1)) = .ok lab₀) (hl : tailLabel (t.devs.take (n - 1) ++ [lab₀]) = .ok lab) :
    ∃ r rows, baseCL gm t ind sel (.fin tail) = .ok r ∧ plotData t r = .ok rows ∧
      r.ldfs.map Prod.fst = t.devs.take (n - 1) ++ [lab₀] ∧
      rows.filter (fun x => !x.fcst) = (List.range n).flatMap (fun j =>
        ((List.range n).filter (fun i => decide (i + j < n))).map (fun i =>
          (⟨i, some (t.oAt i), t.dAt j, .fin (c i j), 0, false⟩ : PlotRow K))) ∧
      ∀ i < n, rows.filter (fun x => x.fcst && decide (x.origin = some (t.oAt i))) =
        ((List.range n).filter (fun j => decide (n ≤ i + j + 1))).map (fun j =>
          let v := c i (n - 1 - i) * ∏ m ∈ Finset.Ico (n - 1 - i) j, f m
          (⟨i, some (t.oAt i), t.dAt j, .fin v, .fin (v - c i (n - 1 - i)), true⟩ : PlotRow K)) ++
        [⟨i, some (t.oAt i), lab,
          .fin (c i (n - 1 - i) * ((∏ m ∈ Finset.Ico (n - 1 - i) (n - 1), f m) * tail)),
          .fin (c i (n - 1 - i) * ((∏ m ∈ Finset.Ico (n - 1 - i) (n - 1), f m) * tail) -
            c i (n - 1 - i)), true⟩] := by
  obtain ⟨r, lab₁, hr, hl₁, -, hldf, hs⟩ := baseCL_stair h hc hi hn hsel tail
  obtain rfl : lab₁ = lab₀ := by rw [hl₀] at hl₁; injection hl₁ with e; exact e.symm
  have hlen : t.devs.length = n := h.nc
  have hfst : r.ldfs.map Prod.fst = t.devs.take (n - 1) ++ [lab₁] := by
    rw [hldf, List.map_fst_zip]
    simp [hlen]; omega
  have hp := plotData_stair h hs (lab := lab) (by rw [hfst]; exact hl)
  have hfval : ∀ m < n - 1, Spec.withTail f n tail m = f m := by
    intro m hm; simp [Spec.withTail]; omega
  have htail : ∀ i < n, Spec.tailProd (Spec.withTail f n tail) n (n - 1 - i) =
      (∏ m ∈ Finset.Ico (n - 1 - i) (n - 1), f m) * tail := by
    intro i hi'
    unfold Spec.tailProd
    obtain ⟨m, rfl⟩ : ∃ m, n = m + 1 := ⟨n - 1, by omega⟩
    rw [Finset.prod_Ico_succ_top (by omega)]
    congr 1
    · apply Finset.prod_congr rfl
      intro x hx
      exact hfval x (Finset.mem_Ico.1 hx).2
    · simp [Spec.withTail]
  have hsq : ∀ i < n, ∀ j < n, n ≤ i + j + 1 → Spec.squared n c (Spec.withTail f n tail) i j =
      c i (n - 1 - i) * ∏ m ∈ Finset.Ico (n - 1 - i) j, f m := by
    intro i hi' j hj hij
    have hprod : ∏ m ∈ Finset.Ico (n - 1 - i) j, Spec.withTail f n tail m =
        ∏ m ∈ Finset.Ico (n - 1 - i) j, f m := by
      apply Finset.prod_congr rfl
      intro x hx
      exact hfval x (by have := (Finset.mem_Ico.1 hx).2; omega)
    unfold Spec.squared
    by_cases e : i + j < n
    · have : j = n - 1 - i := by omega
      subst this
      rw [if_pos e]; simp
    · rw [if_neg e, hprod]
  refine ⟨r, _, hr, hp, hfst, ?_, ?_⟩
  · simp only [List.filter_append]
    rw [filter_flat_all (fun _ _ => rfl), filter_flat_none (fun _ _ => rfl), filter_map_none (fun _ => rfl),
      filter_map_none (fun _ => rfl)]
    simp
  · intro i hi'
    simp only [List.filter_append]
    rw [filter_flat_none (fun _ _ => rfl), filter_map_none (g := fun j => (⟨n, none, _, _, _, true⟩ :
      PlotRow K)) (fun _ => by simp), List.nil_append, List.filter_flatMap]
    have z : ∀ x : PlotRow K, x.origin = none →
        [x].filter (fun x => x.fcst && decide (x.origin = some (t.oAt i))) = [] := by
      intro x hx; simp [hx]
    rw [z _ rfl, List.append_nil, List.append_nil]
    congr 1
    · rw [← flatMap_if_single]
      refine List.flatMap_congr (fun j hj => ?_)
      rw [List.mem_range] at hj
      rw [filter_pick hi' _ _ _ (fun k hk => by simp [h.oAt_eq_iff hk hi'])]
      by_cases e : n ≤ i + j + 1
      · simp only [e, decide_true, if_true, hsq i hi' j hj e]
      · simp [e]
    · have := filter_pick hi' (fun _ => true) (fun i => (⟨i, some (t.oAt i), lab,
        .fin (c i (n - 1 - i) * Spec.tailProd (Spec.withTail f n tail) n (n - 1 - i)),
        .fin (c i (n - 1 - i) * Spec.tailProd (Spec.withTail f n tail) n (n - 1 - i) -
          c i (n - 1 - i)), true⟩ : PlotRow K))
        (fun x => x.fcst && decide (x.origin = some (t.oAt i)))
        (fun k hk => by simp [h.oAt_eq_iff hk hi'])
      rw [List.filter_true] at this
      rw [this, htail i hi']
      simp

/-- The rows of `C83_partial`, with the label of the ultimates. -/
theorem plotData_even {gm : List (Num K) → Num K} {t ind : Tri K} {n : ℕ} {c w : ℕ → ℕ → K}
    (h : Spec.Stair t n c) (hc : ∀ i j, i + j < n → c i j ≠ 0) (hi : IndOn t ind n w) (hn : 3 ≤ n)
    (he : Spec.EvenlySpaced t.devs) {sel : String} {f : ℕ → K}
    (hsel : Spec.RowIs gm t ind sel ((List.range (n - 1)).map (fun j => .fin (f j)))) (tail : K) :
    ∃ r rows lab, baseCL gm t ind sel (.fin tail) = .ok r ∧ plotData t r = .ok rows ∧
      r.ldfs.map Prod.fst = t.devs ∧ tailLabel t.devs = .ok lab ∧
      (∀ j < n, t.dAt j < lab) ∧
      rows.filter (fun x => !x.fcst) = (List.range n).flatMap (fun j =>
        ((List.range n).filter (fun i => decide (i + j < n))).map (fun i =>
          (⟨i, some (t.oAt i), t.dAt j, .fin (c i j), 0, false⟩ : PlotRow K))) ∧
      ∀ i < n, rows.filter (fun x => x.fcst && decide (x.origin = some (t.oAt i))) =
        ((List.range n).filter (fun j => decide (n ≤ i + j + 1))).map (fun j =>
          let v := c i (n - 1 - i) * ∏ m ∈ Finset.Ico (n - 1 - i) j, f m
          (⟨i, some (t.oAt i), t.dAt j, .fin v, .fin (v - c i (n - 1 - i)), true⟩ : PlotRow K)) ++
        [⟨i, some (t.oAt i), lab,
          .fin (c i (n - 1 - i) * ((∏ m ∈ Finset.Ico (n - 1 - i) (n - 1), f m) * tail)),
          .fin (c i (n - 1 - i) * ((∏ m ∈ Finset.Ico (n - 1 - i) (n - 1), f m) * tail) -
            c i (n - 1 - i)), true⟩] := by
  obtain ⟨-, lab₀, -, hl, -, -, -⟩ := baseCL_stair h hc hi hn hsel tail
  obtain ⟨-, hdevs⟩ := even_tailLabel h hn he hl
  have hlen : t.devs.length = n := h.nc
  obtain ⟨lab, hlab, hgt⟩ := tailLabel_spec h.devs (by omega)
  obtain ⟨r, rows, h1, h2, h3, h4⟩ := plotData_labels h hc hi hn hsel tail hl (by rw [hdevs]; exact hlab)
  exact ⟨r, rows, lab, h1, h2, by rw [h3, hdevs], hlab,
    fun j hj => hgt _ (List.mem_of_getElem? (h.dAt_get hj)), h4⟩

/-- **C83, partial**: on a staircase with evenly spaced labels the table holds exactly one actual row per
observed cell, with its value and reserve 0; per origin exactly one forecast row per period from the
latest observation on (the latest value first, reserve 0, then developed values) and one for the ultimate,
at a label beyond all periods; reserves are losses less the latest value.  Missing: labels that are not
evenly spaced. -/
theorem C83_partial {gm : List (Num K) → Num K} {t ind : Tri K} {n : ℕ} {c w : ℕ → ℕ → K}
    (h : Spec.Stair t n c) (hc : ∀ i j, i + j < n → c i j ≠ 0) (hi : IndOn t ind n w) (hn : 3 ≤ n)
    (he : Spec.EvenlySpaced t.devs) {sel : String} {f : ℕ → K}
    (hsel : Spec.RowIs gm t ind sel ((List.range (n - 1)).map (fun j => .fin (f j)))) (tail : K) :
    ∃ r rows lab, baseCL gm t ind sel (.fin tail) = .ok r ∧ plotData t r = .ok rows ∧
      (∀ j < n, t.dAt j < lab) ∧
      rows.filter (fun x => !x.fcst) = (List.range n).flatMap (fun j =>
        ((List.range n).filter (fun i => decide (i + j < n))).map (fun i =>
          (⟨i, some (t.oAt i), t.dAt j, .fin (c i j), 0, false⟩ : PlotRow K))) ∧
      ∀ i < n, rows.filter (fun x => x.fcst && decide (x.origin = some (t.oAt i))) =
        ((List.range n).filter (fun j => decide (n ≤ i + j + 1))).map (fun j =>
          let v := c i (n - 1 - i) * ∏ m ∈ Finset.Ico (n - 1 - i) j, f m
          (⟨i, some (t.oAt i), t.dAt j, .fin v, .fin (v - c i (n - 1 - i)), true⟩ : PlotRow K)) ++
        [⟨i, some (t.oAt i), lab,
          .fin (c i (n - 1 - i) * ((∏ m ∈ Finset.Ico (n - 1 - i) (n - 1), f m) * tail)),
          .fin (c i (n - 1 - i) * ((∏ m ∈ Finset.Ico (n - 1 - i) (n - 1), f m) * tail) -
            c i (n - 1 - i)), true⟩] := by
  obtain ⟨r, rows, lab, h1, h2, -, -, h3⟩ := plotData_even h hc hi hn he hsel tail
  exact ⟨r, rows, lab, h1, h2, h3⟩

/-- **C83, exact part**: whatever the labels, the rows are those of `C83_partial`; the ultimates are at the last label
but one plus twice the smallest step before it.  Hence they are at a later label than all periods exactly when the
last step is less than twice the smallest of the earlier ones. -/
theorem C83_exactly_partial {gm : List (Num K) → Num K} {t ind : Tri K} {n : ℕ} {c w : ℕ → ℕ → K}
    (h : Spec.Stair t n c) (hc : ∀ i j, i + j < n → c i j ≠ 0) (hi : IndOn t ind n w) (hn : 3 ≤ n)
    {sel : String} {f : ℕ → K}
    (hsel : Spec.RowIs gm t ind sel ((List.range (n - 1)).map (fun j => .fin (f j)))) (tail : K) :
    ∃ r rows lab m, baseCL gm t ind sel (.fin tail) = .ok r ∧ plotData t r = .ok rows ∧
      Spec.SmallestStep (t.devs.take (n - 1)) m ∧ lab = t.dAt (n - 2) + 2 * m ∧
      ((∀ j < n, t.dAt j < lab) ↔ t.dAt (n - 1) - t.dAt (n - 2) < 2 * m) ∧
      rows.filter (fun x => !x.fcst) = (List.range n).flatMap (fun j =>
        ((List.range n).filter (fun i => decide (i + j < n))).map (fun i =>
          (⟨i, some (t.oAt i), t.dAt j, .fin (c i j), 0, false⟩ : PlotRow K))) ∧
      ∀ i < n, rows.filter (fun x => x.fcst && decide (x.origin = some (t.oAt i))) =
        ((List.range n).filter (fun j => decide (n ≤ i + j + 1))).map (fun j =>
          let v := c i (n - 1 - i) * ∏ m ∈ Finset.Ico (n - 1 - i) j, f m
          (⟨i, some (t.oAt i), t.dAt j, .fin v, .fin (v - c i (n - 1 - i)), true⟩ : PlotRow K)) ++
        [⟨i, some (t.oAt i), lab,
          .fin (c i (n - 1 - i) * ((∏ m ∈ Finset.Ico (n - 1 - i) (n - 1), f m) * tail)),
          .fin (c i (n - 1 - i) * ((∏ m ∈ Finset.Ico (n - 1 - i) (n - 1), f m) * tail) -
            c i (n - 1 - i)), true⟩] := by
  have hlen : t.devs.length = n := h.nc
  have hinc : Spec.Increasing (t.devs.take (n - 1)) := List.Pairwise.sublist (List.take_sublist _ _) h.devs
  have hl1 : (t.devs.take (n - 1)).length = n - 1 := by simp [hlen]
  obtain ⟨m, hm⟩ := exists_smallestStep (l := t.devs.take (n - 1)) (by omega)
  have hlast : (t.devs.take (n - 1))[(t.devs.take (n - 1)).length - 1]? = some (t.dAt (n - 2)) := by
    rw [hl1, show n - 1 - 1 = n - 2 by omega, List.getElem?_take, if_pos (by omega), h.dAt_get (by omega)]
  have e0 := tailLabel_value hinc hm hlast
  have hpos : 0 < m := by
    obtain ⟨d, hd, hd0⟩ := minIncrement_pos hinc (by omega)
    unfold minIncrement at hd
    rw [min_labelDiffs hm] at hd
    injection hd with hd
    omega
  have hinc' : Spec.Increasing (t.devs.take (n - 1) ++ [t.dAt (n - 2) + m]) := by
    obtain ⟨lab, hlab, hgt⟩ := tailLabel_spec hinc (by omega)
    rw [e0] at hlab
    injection hlab with hlab
    refine List.pairwise_append.2 ⟨hinc, List.pairwise_singleton _ _, fun a ha b hb => ?_⟩
    rw [List.mem_singleton] at hb
    rw [hb, hlab]
    exact hgt a ha
  have e1 := tailLabel_value hinc' (smallestStep_append hm hlast) (last := t.dAt (n - 2) + m) (by simp)
  obtain ⟨r, rows, h1, h2, -, h4, h5⟩ := plotData_labels h hc hi hn hsel tail e0 e1
  refine ⟨r, rows, t.dAt (n - 2) + m + m, m, h1, h2, hm, by ring, ?_, h4, h5⟩
  constructor
  · intro hall
    have := hall (n - 1) (by omega)
    omega
  · intro hlt j hj
    have : t.dAt j ≤ t.dAt (n - 1) := by
      by_cases e : j = n - 1
      · rw [e]
      · exact (Tri.dAt_lt h.devs (by rw [h.nc]; omega) (by omega)).le
    omega

/-- Beside `C83_exactly_partial`: with labels 12, 24, 42 the ultimates are at 48, with labels 12, 24, 60 too. -/
example :
    let at' (l : List Int) := ((baseCL (fun _ => .nan) { stairTri 3 exVals with devs := l }
      ({ stairTri 3 exVals with devs := l } : Tri ℚ).a2aind0 "all-simple" (.fin 2)).bind
        (plotData { stairTri 3 exVals with devs := l })).toOption.map
      (fun rows => (rows.filter (fun r => r.fcst && decide (r.origin = some 2001))).map (fun r => r.dev))
    at' [12, 24, 42] = some [42, 48] ∧ at' [12, 24, 60] = some [60, 48] := by
  decide +kernel

/-- Beside `C83_partial`: the 4 x 4 example has 10 actual and 14 forecast rows of origins. -/
example : ((baseCL (fun _ => .nan) exTri exTri.a2aind0 "all-weighted" (.fin 1)).bind
    (plotData exTri)).map (fun rows => ((rows.filter (fun r => !r.fcst)).length,
      (rows.filter (fun r => r.fcst && r.origin.isSome)).length)) = .ok (10, 14) := by
  decide +kernel

/-! ## C84: rows "total" -/

/-- **C84 is false of the code**: the row "total" of the first period contains the youngest origin only
(130 instead of 460), since the observed amounts of the older ones are not among the forecasts. -/
theorem C84_fails :
    ((baseCL (fun _ => .nan) exTri exTri.a2aind0 "all-weighted" (.fin 1)).bind
      (plotData exTri)).map (fun rows => ((rows.filter (fun r => decide (r.origin = none))).map
        (fun r => (r.dev, r.loss))).head?) = .ok (some (1, .fin 130)) ∧
    ∑ i ∈ Finset.range 4, exVals i 0 = 460 := by
  decide +kernel

/-- **C84, partial**: the row "total" of a period sums the origins whose latest observation is at or
before that period; hence it is the total over all origins for the last period, and for the ultimate,
where it agrees with the totals of the summary.  Missing: the observed amounts of the older origins in
earlier periods.  Labels are arbitrary. -/
theorem C84_partial {t : Tri K} {n : ℕ} {c : ℕ → ℕ → K} (h : Spec.Stair t n c) (hn : 1 ≤ n)
    {ldfs : Ser K} {f : ℕ → K} (hf : LdfVals ldfs n f) {lab : Int}
    (hl : tailLabel (ldfs.map Prod.fst) = .ok lab) :
    ∃ r rows, baseFromLdfs t ldfs = .ok r ∧ plotData t r = .ok rows ∧
      ∃ g : ℕ → PlotRow K, ∃ u : PlotRow K,
        rows.filter (fun x => decide (x.origin = none)) = (List.range n).map g ++ [u] ∧
        (∀ j < n, (g j).dev = t.dAt j ∧ (g j).loss = .fin (∑ i ∈ Finset.Ico (n - 1 - j) n,
          c i (n - 1 - i) * ∏ m ∈ Finset.Ico (n - 1 - i) j, f m) ∧
          (g j).reserve = .fin (∑ i ∈ Finset.Ico (n - 1 - j) n,
            (c i (n - 1 - i) * (∏ m ∈ Finset.Ico (n - 1 - i) j, f m) - c i (n - 1 - i)))) ∧
        (g (n - 1)).loss = .fin (∑ i ∈ Finset.range n,
          c i (n - 1 - i) * ∏ m ∈ Finset.Ico (n - 1 - i) (n - 1), f m) ∧
        u.dev = lab ∧ u.loss = r.totUltimate ∧ u.reserve = r.totReserve := by
  obtain ⟨r, hr, hs⟩ := base_core h hn hf
  have hsum : ∀ j < n, ∑ i ∈ (Finset.range n).filter (fun i => n ≤ i + j + 1), Spec.squared n c f i j =
      ∑ i ∈ Finset.Ico (n - 1 - j) n, c i (n - 1 - i) * ∏ m ∈ Finset.Ico (n - 1 - i) j, f m := by
    intro j hj
    apply Finset.sum_congr
    · ext i; simp only [Finset.mem_filter, Finset.mem_range, Finset.mem_Ico]; omega
    · intro i hi
      rw [Finset.mem_Ico] at hi
      unfold Spec.squared
      by_cases e : i + j < n
      · have : j = n - 1 - i := by omega
        subst this
        rw [if_pos e]; simp
      · rw [if_neg e]
  refine ⟨r, _, hr, plotData_stair h hs hl,
    fun j => ⟨n, none, t.dAt j,
      .fin (∑ i ∈ (Finset.range n).filter (fun i => n ≤ i + j + 1), Spec.squared n c f i j),
      .fin (∑ i ∈ (Finset.range n).filter (fun i => n ≤ i + j + 1), Spec.squared n c f i j -
        ∑ i ∈ (Finset.range n).filter (fun i => n ≤ i + j + 1), c i (n - 1 - i)), true⟩,
    ⟨n, none, lab, .fin (∑ i ∈ Finset.range n, c i (n - 1 - i) * Spec.tailProd f n (n - 1 - i)),
      .fin (∑ i ∈ Finset.range n, c i (n - 1 - i) * Spec.tailProd f n (n - 1 - i) -
        ∑ i ∈ Finset.range n, c i (n - 1 - i)), true⟩, ?_, ?_, ?_, rfl, ?_, ?_⟩
  · simp only [List.filter_append]
    rw [filter_flat_none (fun _ _ => by simp), filter_flat_none (fun _ _ => by simp),
      filter_map_none (fun _ => by simp), filter_map_all (fun _ => by simp), List.nil_append,
      List.nil_append, List.nil_append]
    rfl
  · intro j hj
    refine ⟨rfl, congrArg Num.fin (hsum j hj), ?_⟩
    show Num.fin _ = _
    rw [hsum j hj, Finset.sum_sub_distrib]
    congr 2
    apply Finset.sum_congr
    · ext i; simp only [Finset.mem_filter, Finset.mem_range, Finset.mem_Ico]; omega
    · intro i _; rfl
  · show Num.fin _ = _
    rw [hsum (n - 1) (by omega), Nat.sub_self, ← Finset.range_eq_Ico]
  · rw [hs.totUltimate]
  · rw [hs.totReserve, Finset.sum_sub_distrib]

end Trikit
