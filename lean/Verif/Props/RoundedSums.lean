import Verif.KahanError
import Verif.Props.RoundedTri

/-! # C147, C148: errors of sums in double precision -/

set_option linter.unusedSectionVars false

namespace Trikit

variable {K : Type} [Field K] [LinearOrder K] [IsStrictOrderedRing K] {rd : K → K} {u : K}

/-- What is used of rounding: relative error at most `u`, rounding twice is rounding once, 1 is not rounded. -/
structure Spec.FormatRd (rd : K → K) (u : K) : Prop where
  rel : Spec.RelErr rd u
  idem : ∀ x, rd (rd x) = rd x
  one : rd 1 = 1

/-- Rounding to `p` binary digits. -/
theorem floatRd_formatRd [FloorRing K] {p : ℕ} (hp : 1 ≤ p) :
    Spec.FormatRd (floatRd p : K → K) ((2 : K) ^ (-(p : ℤ))) := by
  refine ⟨⟨(zpow_pos (by norm_num) _).le, zpow_lt_one_of_neg₀ (by norm_num) (by omega), floatRd_err p⟩,
    fun x => floatRd_fix hp (floatRd_isFloat p x), ?_⟩
  have := floatRd_exactInt (K := K) hp 1 (by simpa using Nat.one_le_two_pow)
  simpa using this

theorem kahanSum_single (h : Spec.FormatRd rd u) {x : K} (hx : rd x = x) : kahanSum rd [.fin x] = .fin x := by
  have : (([Num.fin x] : List (Num K)).filter (fun v => !v.isNaN)) = [x].map Num.fin := rfl
  unfold kahanSum
  rw [this]
  rw [show ((0, 0) : Num K × Num K) = (.fin 0, .fin 0) from rfl, kahan_foldl]
  simp [Spec.kstep, hx]

theorem baseInit_format (h : Spec.FormatRd rd u) {recs : List (Rec K)}
    (hone : ∀ o d, (cellValues recs o d).length ≤ 1)
    (hv : ∀ r ∈ recs, r.value = .nan ∨ ∃ x, r.value = .fin x ∧ rd x = x) :
    baseInitR rd recs = baseInit recs := by
  have hn : ∀ r ∈ negHandler recs, r.value = .nan ∨ ∃ x, r.value = .fin x ∧ rd x = x := by
    unfold negHandler
    split
    · exact hv
    · rename_i m hm
      intro r hr
      obtain ⟨s, hs, rfl⟩ := List.mem_map.1 hr
      by_cases e : s.dev = m ∧ Num.le s.value 0 = true
      · rw [if_pos e]; exact Or.inr ⟨1, rfl, h.one⟩
      · rw [if_neg e]; exact hv s hs
  have e : groupCellR rd (negHandler recs) = groupCell (negHandler recs) := by
    funext o d
    have hl : (cellValues (negHandler recs) o d).length ≤ 1 := by
      rw [cellValues_length_of_sameKeys (negHandler_sameKeys recs)]; exact hone o d
    have hw : ∀ v ∈ cellValues (negHandler recs) o d, v = .nan ∨ ∃ x, v = .fin x ∧ rd x = x := by
      intro v hv
      obtain ⟨r, hr, rfl⟩ := List.mem_map.1 hv
      exact hn r (List.mem_of_mem_filter hr)
    unfold groupCellR groupCell
    generalize cellValues (negHandler recs) o d = l at hl hw
    match l, hl, hw with
    | [], _, _ => rfl
    | [v], _, hw =>
      rcases hw v (by simp) with rfl | ⟨x, rfl, hx⟩
      · rfl
      · rw [if_neg (by simp), if_neg (by simp), kahanSum_single h hx]
        simp [Num.sumSkip_cons, Num.isNaN]
  unfold baseInitR baseInit pivotR pivot
  rw [e]
  rfl

/-! ### running totals -/

theorem cumGoR_sameKeys (l : List (Rec K)) : ∀ acc, SameKeys (cumGoR rd acc l) l := by
  induction l with
  | nil => intro _; rfl
  | cons r l ih =>
    intro acc
    unfold cumGoR
    split
    · have := ih acc; simp only [SameKeys, List.map_cons] at this ⊢; rw [this]
    · have := ih (fun o => if o = r.origin then kahanStep rd (acc r.origin) r.value else acc o)
      simp only [SameKeys, List.map_cons] at this ⊢; rw [this]

/-- The value of a record is the compensated sum of the values of its origin so far. -/
theorem cumGoR_mem {r : Rec K} (post : List (Rec K)) (hr : r.value.isNaN = false) : ∀ (pre : List (Rec K)) (acc : Int → Num K × Num K),
    (∀ s ∈ pre, s.value.isNaN = false) →
    { r with value := (((pre.filter (fun s => decide (s.origin = r.origin))).map Rec.value ++ [r.value]).foldl
      (kahanStep rd) (acc r.origin)).1 } ∈ cumGoR rd acc (pre ++ r :: post) := by
  intro pre
  induction pre with
  | nil =>
    intro acc _
    rw [List.nil_append, cumGoR, if_neg (by simp [hr])]
    simp
  | cons s pre ih =>
    intro acc hn
    have hs := hn s (by simp)
    rw [List.cons_append, cumGoR, if_neg (by simp [hs])]
    refine List.mem_cons_of_mem _ ?_
    have := ih (fun o => if o = s.origin then kahanStep rd (acc s.origin) s.value else acc o)
      (fun a ha => hn a (by simp [ha]))
    by_cases e : s.origin = r.origin
    · rw [List.filter_cons, if_pos (by simpa using e)]
      simp only [e, if_true] at this
      rw [← e] at this ⊢
      simpa [List.foldl_cons] using this
    · rw [List.filter_cons, if_neg (by simpa using e)]
      simp only [Ne.symm e, if_false] at this
      exact this

theorem range_split {i n : ℕ} (h : i < n) : ∃ tl, List.range n = List.range i ++ i :: tl := by
  obtain ⟨m, rfl⟩ : ∃ m, n = i + (m + 1) := ⟨n - i - 1, by omega⟩
  refine ⟨((List.range m).map Nat.succ).map (fun x => i + x), ?_⟩
  rw [List.range_add, List.range_succ_eq_map]
  simp

/-- The table of a triangle, split at a cell whose earlier cells in the row are observed. -/
theorem toTbl_split {t : Tri K} (ho : Spec.Increasing t.origins) {i j : ℕ} (hi : i < t.nr) (hj : j < t.nc)
    (hobs : ∀ k ≤ j, (t.cell i k).isNaN = false) :
    ∃ pre post, t.toTbl = pre ++ ⟨t.oAt i, t.dAt j, t.cell i j⟩ :: post ∧
      (pre.filter (fun s => decide (s.origin = t.oAt i))).map Rec.value = (List.range j).map (t.cell i) := by
  obtain ⟨tl, e1⟩ := range_split hi
  obtain ⟨tl', e2⟩ := range_split hj
  set row := fun i => (List.range t.nc).filterMap (fun j =>
      if (t.cell i j).isNaN then none else some (⟨t.oAt i, t.dAt j, t.cell i j⟩ : Rec K)) with hrow
  have hri : row i = (List.range j).map (fun k => ⟨t.oAt i, t.dAt k, t.cell i k⟩) ++
      ⟨t.oAt i, t.dAt j, t.cell i j⟩ :: tl'.filterMap (fun j =>
        if (t.cell i j).isNaN then none else some (⟨t.oAt i, t.dAt j, t.cell i j⟩ : Rec K)) := by
    rw [hrow]
    simp only
    rw [e2, List.filterMap_append, List.filterMap_cons, if_neg (by simp [hobs j (le_refl _)])]
    congr 1
    rw [← List.filterMap_eq_map]
    apply List.filterMap_congr
    intro k hk
    rw [if_neg (by simp [hobs k (List.mem_range.1 hk).le])]
    rfl
  refine ⟨(List.range i).flatMap row ++ (List.range j).map (fun k => ⟨t.oAt i, t.dAt k, t.cell i k⟩),
    tl'.filterMap (fun j => if (t.cell i j).isNaN then none else some (⟨t.oAt i, t.dAt j, t.cell i j⟩ : Rec K)) ++
      tl.flatMap row, ?_, ?_⟩
  · show (List.range t.nr).flatMap row = _
    rw [e1, List.flatMap_append, List.flatMap_cons, hri]
    simp
  · rw [List.filter_append]
    have : ((List.range i).flatMap row).filter (fun s => decide (s.origin = t.oAt i)) = [] := by
      rw [List.filter_eq_nil_iff]
      intro s hs
      obtain ⟨i', hi', hs⟩ := List.mem_flatMap.1 hs
      have hi'' := List.mem_range.1 hi'
      obtain ⟨j', _, hs⟩ := List.mem_filterMap.1 hs
      split at hs
      · simp at hs
      · obtain rfl := Option.some.inj hs
        have := (Tri.oAt_inj ho (show i' < t.nr by omega) hi).1
        simp only [decide_eq_true_eq]
        intro e; have := this e; omega
    rw [this, List.nil_append, List.filter_eq_self.2, List.map_map]
    · rfl
    · intro s hs
      obtain ⟨k, _, rfl⟩ := List.mem_map.1 hs
      simp

theorem onePerCell_of_sameKeys {a b : List (Rec K)} (h : SameKeys a b) (hb : OnePerCell b) : OnePerCell a := by
  have : ∀ l : List (Rec K), OnePerCell l ↔ (l.map (fun r => (r.origin, r.dev))).Pairwise (· ≠ ·) := by
    intro l
    rw [List.pairwise_map]
    unfold OnePerCell
    constructor
    · exact fun h => h.imp (fun {a b} hab e => hab (by simpa using e))
    · exact fun h => h.imp (fun {a b} hab e => hab (by simpa using e))
  rw [this] at hb ⊢
  rw [h]; exact hb

theorem mem_of_sameKeys {a b : List (Rec K)} (h : SameKeys a b) {r : Rec K} (hr : r ∈ a) :
    ∃ s ∈ b, s.origin = r.origin ∧ s.dev = r.dev := by
  have : (r.origin, r.dev) ∈ b.map (fun r => (r.origin, r.dev)) := by
    rw [← h]; exact List.mem_map_of_mem (f := fun r : Rec K => (r.origin, r.dev)) hr
  obtain ⟨s, hs, he⟩ := List.mem_map.1 this
  simp only [Prod.mk.injEq] at he
  exact ⟨s, hs, he⟩

/-- Compensated sum of the first `j + 1` numbers. -/
def Spec.ksum (rd : K → K) (x : ℕ → K) (j : ℕ) : K := (((List.range (j + 1)).map x).foldl (Spec.kstep rd) (0, 0)).1

theorem ksum_format (h : Spec.FormatRd rd u) (x : ℕ → K) (j : ℕ) : rd (Spec.ksum rd x j) = Spec.ksum rd x j := by
  unfold Spec.ksum
  rw [List.range_succ, List.map_append, List.foldl_append]
  exact h.idem _

theorem ksum_zero {x : ℕ → K} (hx : rd (x 0) = x 0) : Spec.ksum rd x 0 = x 0 := by
  simp [Spec.ksum, Spec.kstep, hx]

/-- Accumulating the table of a gap-free triangle: the compensated sums of the rows. -/
theorem cumTriR_toTbl (h : Spec.FormatRd rd u) {t : Tri K} {len : ℕ → ℕ} (ho : Spec.Increasing t.origins)
    (hd : Spec.Increasing t.devs) (hg : Spec.GapFree t len) (hc : Spec.ColsObserved t) (hne : 0 < t.nr) {x : ℕ → ℕ → K}
    (hx : ∀ i < t.nr, ∀ j < len i, t.cell i j = .fin (x i j)) (hf : ∀ i < t.nr, rd (x i 0) = x i 0)
    (hp : ∀ i < t.nr, 0 < x i 0) :
    ∃ v, cumTriR rd t.toTbl = .ok v ∧ v.origins = t.origins ∧ v.devs = t.devs ∧ ∀ i < t.nr, ∀ j < t.nc,
      v.cell i j = if j < len i then .fin (Spec.ksum rd (x i) j) else .nan := by
  have hk : SameKeys (cumRecsR rd t.toTbl) t.toTbl := cumGoR_sameKeys _ _
  have hone : OnePerCell (cumRecsR rd t.toTbl) := onePerCell_of_sameKeys hk (Tri.toTbl_onePerCell ho hd)
  have hmem : ∀ i < t.nr, ∀ j < len i, (⟨t.oAt i, t.dAt j, .fin (Spec.ksum rd (x i) j)⟩ : Rec K) ∈ cumRecsR rd t.toTbl := by
    intro i hi j hj
    obtain ⟨_, h2, _⟩ := hg i hi
    have hobs : ∀ k ≤ j, (t.cell i k).isNaN = false := fun k hk => by rw [hx i hi k (by omega)]; rfl
    obtain ⟨pre, post, e1, e2⟩ := toTbl_split ho hi (show j < t.nc by omega) hobs
    have hn : ∀ s ∈ pre, s.value.isNaN = false := by
      intro s hs
      have : s ∈ t.toTbl := by rw [e1]; simp [hs]
      obtain ⟨_, _, _, _, hn, rfl⟩ := Tri.mem_toTbl.1 this
      exact (Num.isNaN_false_iff _).2 hn
    have := cumGoR_mem (rd := rd) (r := ⟨t.oAt i, t.dAt j, t.cell i j⟩) post (hobs j (le_refl _)) pre (fun _ => (0, 0)) hn
    simp only [e2] at this
    have e3 : (List.range j).map (t.cell i) ++ [t.cell i j] = ((List.range (j + 1)).map (x i)).map Num.fin := by
      rw [← List.map_singleton (f := t.cell i), ← List.map_append, ← List.range_succ, List.map_map]
      apply List.map_congr_left
      intro k hk
      exact hx i hi k (by have := List.mem_range.1 hk; omega)
    rw [e3, show ((0, 0) : Num K × Num K) = (.fin 0, .fin 0) from rfl, kahan_foldl] at this
    unfold cumRecsR
    rw [e1]
    exact this
  have hall : ∀ s ∈ cumRecsR rd t.toTbl, ∃ i < t.nr, ∃ j < len i, s = ⟨t.oAt i, t.dAt j, .fin (Spec.ksum rd (x i) j)⟩ := by
    intro s hs
    obtain ⟨r, hr, e1, e2⟩ := mem_of_sameKeys hk hs
    obtain ⟨i, hi, j, hj, hn, rfl⟩ := Tri.mem_toTbl.1 hr
    have hjl : j < len i := by
      by_contra hcon
      exact hn (((hg i hi).2.2 j hj).2 (by omega))
    refine ⟨i, hi, j, hjl, ?_⟩
    have a := cellValues_of_onePerCell hone hs
    have b := cellValues_of_onePerCell hone (hmem i hi j hjl)
    simp only at e1 e2 b
    rw [e1, e2, a] at b
    obtain ⟨so, sd, sv⟩ := s
    simp only at e1 e2 b
    simp only [List.cons.injEq, and_true] at b
    rw [e1, e2, b]
  have hne' : cumRecsR rd t.toTbl ≠ [] := List.ne_nil_of_mem (hmem 0 hne 0 (by have := (hg 0 hne).1; omega))
  have hneg : negHandler (cumRecsR rd t.toTbl) = cumRecsR rd t.toTbl := by
    apply negHandler_self
    intro s hs hm
    obtain ⟨i, hi, j, hj, rfl⟩ := hall s hs
    have hlen := (hg i hi).2.1
    have := hm _ (hmem 0 hne 0 (by have := (hg 0 hne).1; omega))
    have hj0 := (Tri.dAt_le hd (show j < t.nc by omega) (show 0 < t.nc by omega)).1 this
    obtain rfl : j = 0 := by omega
    rw [ksum_zero (hf i hi)]
    simp [Num.zero_def, hp i hi]
  refine ⟨pivot (cumRecsR rd t.toTbl), ?_, ?_, ?_, ?_⟩
  · unfold cumTriR
    rw [baseInit_format h (cellValues_single hone)]
    · unfold baseInit
      rw [if_neg hne', hneg]
    · intro s hs
      obtain ⟨i, hi, j, hj, rfl⟩ := hall s hs
      exact Or.inr ⟨_, rfl, ksum_format h _ _⟩
  · rw [pivot_origins, hk.origins, t.labels_toTbl_origins ho hg.rowsObserved]
  · rw [pivot_devs, hk.devs, t.labels_toTbl_devs hd hc]
  · intro i hi j hj
    have hoi : (pivot (cumRecsR rd t.toTbl)).origins[i]? = some (t.oAt i) := by
      rw [pivot_origins, hk.origins, t.labels_toTbl_origins ho hg.rowsObserved]; exact t.origins_get hi
    have hdj : (pivot (cumRecsR rd t.toTbl)).devs[j]? = some (t.dAt j) := by
      rw [pivot_devs, hk.devs, t.labels_toTbl_devs hd hc]; exact t.devs_get hj
    rw [pivot_cell hoi hdj]
    split
    · rename_i hl
      exact groupCell_of_onePerCell hone (hmem i hi j hl) (by simp)
    · rename_i hl
      apply groupCell_nan
      rintro ⟨s, hs, e1, e2⟩
      obtain ⟨i', hi', j', hj', rfl⟩ := hall s hs
      have := (Tri.oAt_inj ho hi' hi).1 e1
      subst this
      have := (Tri.dAt_inj hd (by have := (hg i' hi').2.1; omega) hj).1 e2
      omega

/-! ### C147 -/

/-- Sum of the absolute steps of a row up to column `j`. -/
def Spec.variation (c : ℕ → K) (j : ℕ) : K := |c 0| + ∑ k ∈ Finset.range j, |c (k + 1) - c k|

/-- The increments of a row as `to_incr` computes them. -/
def Spec.incrR (rd : K → K) (c : ℕ → K) : ℕ → K
  | 0 => c 0
  | k + 1 => rd (c (k + 1) - c k)

theorem incrR_sums (hr : Spec.RelErr rd u) (c : ℕ → K) (j : ℕ) :
    |∑ k ∈ Finset.range (j + 1), Spec.incrR rd c k - c j| ≤ u * Spec.variation c j ∧
      ∑ k ∈ Finset.range (j + 1), |Spec.incrR rd c k| ≤ (1 + u) * Spec.variation c j := by
  have h0 := hr.nonneg
  induction j with
  | zero =>
    have := abs_nonneg (c 0)
    have hm := mul_nonneg h0 this
    constructor
    · simp only [zero_add, Finset.sum_range_one, Spec.incrR, sub_self, abs_zero, Spec.variation, Finset.range_zero,
        Finset.sum_empty, add_zero]
      exact hm
    · simp only [zero_add, Finset.sum_range_one, Spec.incrR, Spec.variation, Finset.range_zero, Finset.sum_empty, add_zero]
      linarith
  | succ j ih =>
    obtain ⟨i1, i2⟩ := ih
    have hv : Spec.variation c (j + 1) = Spec.variation c j + |c (j + 1) - c j| := by
      unfold Spec.variation; rw [Finset.sum_range_succ]; ring
    have he := hr.err (c (j + 1) - c j)
    rw [Finset.sum_range_succ, Finset.sum_range_succ _ (j + 1), hv]
    have e : Spec.incrR rd c (j + 1) = rd (c (j + 1) - c j) := rfl
    rw [e]
    constructor
    · have e2 : ∑ k ∈ Finset.range (j + 1), Spec.incrR rd c k + rd (c (j + 1) - c j) - c (j + 1) =
          (∑ k ∈ Finset.range (j + 1), Spec.incrR rd c k - c j) + (rd (c (j + 1) - c j) - (c (j + 1) - c j)) := by ring
      rw [e2]
      refine (abs_add_le _ _).trans ?_
      linarith
    · have h3 : |rd (c (j + 1) - c j)| ≤ |rd (c (j + 1) - c j) - (c (j + 1) - c j)| + |c (j + 1) - c j| := by
        have := abs_add_le (rd (c (j + 1) - c j) - (c (j + 1) - c j)) (c (j + 1) - c j); simpa using this
      linarith

/-- **C147, partial.** Rounding with relative error at most `u`, cumulative triangle as in C07 of float64 amounts, with at most
`1/(20u)` periods: `to_incr().to_cum()` gives a triangle with the same labels and the same missing cells; a cell differs
from the original by at most `10u` times the variation of its row so far.  Missing: equality, see `C147_fails`. -/
theorem C147_near_partial (h : Spec.FormatRd rd u) {t : Tri K} {len : ℕ → ℕ} {c : ℕ → ℕ → K} (hne : 0 < t.nr)
    (ho : Spec.Increasing t.origins) (hd : Spec.Increasing t.devs) (hg : Spec.GapFree t len)
    (hc : Spec.ColsObserved t) (hx : ∀ i < t.nr, ∀ j < len i, t.cell i j = .fin (c i j))
    (hf : ∀ i < t.nr, rd (c i 0) = c i 0) (hp : ∀ i < t.nr, 0 < c i 0) (hu : 20 * (t.nc : K) * u ≤ 1) :
    ∃ a v, t.toIncrR rd = .ok a ∧ a.toCumR rd = .ok v ∧ v.origins = t.origins ∧ v.devs = t.devs ∧
      ∀ i < t.nr, ∀ j < t.nc, (len i ≤ j → v.cell i j = .nan) ∧
        (j < len i → ∃ y, v.cell i j = .fin y ∧ |y - c i j| ≤ 10 * u * Spec.variation (c i) j) := by
  have hDx : ∀ i < t.nr, ∀ j < len i, (t.diffTriR rd).cell i j = .fin (Spec.incrR rd (c i) j) := by
    intro i hi j hj
    cases j with
    | zero => exact hx i hi 0 hj
    | succ j =>
      show (t.cell i (j + 1) - t.cell i j).rounded rd = _
      rw [hx i hi _ hj, hx i hi j (by omega), Num.fin_sub]
      rfl
  have hDg : Spec.GapFree (t.diffTriR rd) len := by
    intro i hi
    obtain ⟨h1, h2, h3⟩ := hg i hi
    refine ⟨h1, h2, fun j hj => ⟨fun hl => ⟨_, hDx i hi j hl⟩, fun hl => ?_⟩⟩
    obtain ⟨k, rfl⟩ : ∃ k, j = k + 1 := ⟨j - 1, by omega⟩
    show (t.cell i (k + 1) - t.cell i k).rounded rd = _
    rw [(h3 (k + 1) hj).2 hl]
    simp [Num.rounded]
  have hDc : Spec.ColsObserved (t.diffTriR rd) := by
    intro j hj
    obtain ⟨i, hi, hn⟩ := hc j hj
    refine ⟨i, hi, ?_⟩
    have hl : j < len i := by
      by_contra hcon
      exact hn (((hg i hi).2.2 j hj).2 (by omega))
    rw [hDx i hi j hl]; simp
  obtain ⟨a, ha, has⟩ := Tri.incrTri_toTbl (t := t.diffTriR rd) ho hd hDg.rowsObserved hDc hne (by
    intro i hi
    rw [hDx i hi 0 (by have := (hg i hi).1; omega)]
    have := hp i hi
    simp [Num.zero_def, Spec.incrR, this])
  obtain ⟨v, h1, h2, h3, h4⟩ := cumTriR_toTbl h (t := t.diffTriR rd) ho hd hDg hDc hne hDx hf hp
  refine ⟨a, v, ?_, ?_, h2, h3, ?_⟩
  · unfold Tri.toIncrR
    rw [baseInit_format h (cellValues_single (Tri.toTbl_onePerCell (t := t.diffTriR rd) ho hd))]
    · exact ha
    · intro s hs
      obtain ⟨i, hi, j, hj, hn, rfl⟩ := Tri.mem_toTbl.1 hs
      have hjl : j < len i := by
        by_contra hcon
        exact hn (((hDg i hi).2.2 j hj).2 (by omega))
      refine Or.inr ⟨_, hDx i hi j hjl, ?_⟩
      cases j with
      | zero => exact hf i hi
      | succ j => exact h.idem _
  · unfold Tri.toCumR
    rw [has.toTbl]; exact h1
  · intro i hi j hj
    rw [h4 i hi j hj]
    refine ⟨fun hl => by rw [if_neg (by omega)], fun hl => ⟨_, by rw [if_pos hl], ?_⟩⟩
    have h0 := h.rel.nonneg
    have hlen : ((List.range (j + 1)).map (Spec.incrR rd (c i))).length = j + 1 := by simp
    have hjn : ((j + 1 : ℕ) : K) ≤ t.nc := by exact_mod_cast hj
    have hjn' : 20 * ((j + 1 : ℕ) : K) * u ≤ 1 := by
      have := mul_le_mul_of_nonneg_right hjn h0
      linarith
    have he := kfold_error h.rel ((List.range (j + 1)).map (Spec.incrR rd (c i))) (by rw [hlen]; exact hjn')
    obtain ⟨i1, i2⟩ := incrR_sums h.rel (c i) j
    rw [List.map_map, list_sum_map_range, list_sum_map_range] at he
    have hu8 : u ≤ 1 / 20 := by
      have : (1 : K) ≤ ((j + 1 : ℕ) : K) := by exact_mod_cast Nat.succ_le_succ (Nat.zero_le j)
      have := mul_le_mul_of_nonneg_right this h0
      linarith
    have hV : 0 ≤ Spec.variation (c i) j :=
      add_nonneg (abs_nonneg _) (Finset.sum_nonneg fun _ _ => abs_nonneg _)
    have e : Spec.ksum rd (Spec.incrR rd (c i)) j - c i j =
        (Spec.ksum rd (Spec.incrR rd (c i)) j - ∑ k ∈ Finset.range (j + 1), Spec.incrR rd (c i) k) +
        (∑ k ∈ Finset.range (j + 1), Spec.incrR rd (c i) k - c i j) := by ring
    rw [e]
    refine (abs_add_le _ _).trans ?_
    have he' : |Spec.ksum rd (Spec.incrR rd (c i)) j - ∑ k ∈ Finset.range (j + 1), Spec.incrR rd (c i) k| ≤
        8 * u * ∑ k ∈ Finset.range (j + 1), |Spec.incrR rd (c i) k| := he
    have k1 := mul_le_mul_of_nonneg_left i2 (show 0 ≤ 8 * u by linarith)
    have k2 : u * (u * Spec.variation (c i) j) ≤ 1 / 20 * (u * Spec.variation (c i) j) :=
      mul_le_mul_of_nonneg_right hu8 (mul_nonneg h0 hV)
    have k3 := mul_nonneg h0 hV
    linarith

/-! ### C148 -/

/-- Absolute value of a number; missing amounts count 0. -/
def Spec.mag : Num K → K
  | .fin x => |x|
  | _ => 0

/-- Absolute amounts recorded for a cell, together. -/
def Spec.cellMag (recs : List (Rec K)) (o d : ℤ) : K :=
  ((recs.filter (fun r => decide (r.origin = o ∧ r.dev = d))).map (fun r => Spec.mag r.value)).sum

/-- Both missing, or both finite and at most `e` apart. -/
def Spec.Within (e : K) (a b : Num K) : Prop :=
  a = .nan ∧ b = .nan ∨ ∃ x y, a = .fin x ∧ b = .fin y ∧ |x - y| ≤ e

theorem fin_part {l : List (Num K)} (h : ∀ v ∈ l, v = .nan ∨ ∃ x, v = .fin x) :
    ∃ w : List K, l.filter (fun v => !v.isNaN) = w.map Num.fin ∧ w.length ≤ l.length ∧
      (w.map (|·|)).sum = (l.map Spec.mag).sum := by
  induction l with
  | nil => exact ⟨[], rfl, le_rfl, rfl⟩
  | cons v l ih =>
    obtain ⟨w, h1, h2, h3⟩ := ih fun a ha => h a (List.mem_cons_of_mem _ ha)
    rcases h v (by simp) with rfl | ⟨x, rfl⟩
    · exact ⟨w, by simpa [List.filter, Num.isNaN] using h1, by simp; omega, by simp [Spec.mag, h3]⟩
    · exact ⟨x :: w, by simpa [List.filter, Num.isNaN] using h1, by simpa using h2, by simp [Spec.mag, h3]⟩

theorem groupCellR_within (hr : Spec.RelErr rd u) {recs : List (Rec K)} (h : ∀ r ∈ recs, r.value = .nan ∨ ∃ x, r.value = .fin x)
    (hu : 20 * (recs.length : K) * u ≤ 1) (o d : ℤ) :
    Spec.Within (8 * u * Spec.cellMag recs o d) (groupCellR rd recs o d) (groupCell recs o d) := by
  unfold groupCellR groupCell
  by_cases e : cellValues recs o d = []
  · rw [if_pos e, if_pos e]; exact Or.inl ⟨rfl, rfl⟩
  rw [if_neg e, if_neg e]
  obtain ⟨w, h1, h2, h3⟩ := fin_part (l := cellValues recs o d) (by
    intro v hv
    obtain ⟨r, hr, rfl⟩ := List.mem_map.1 hv
    exact h r (List.mem_of_mem_filter hr))
  have hl : w.length ≤ recs.length :=
    h2.trans (by unfold cellValues; rw [List.length_map]; exact List.length_filter_le _ _)
  have hl' : (w.length : K) ≤ recs.length := by exact_mod_cast hl
  refine Or.inr ⟨(w.foldl (Spec.kstep rd) (0, 0)).1, w.sum, ?_, ?_, ?_⟩
  · unfold kahanSum
    rw [h1, show ((0, 0) : Num K × Num K) = (.fin 0, .fin 0) from rfl, kahan_foldl]
  · unfold Num.sumSkip
    rw [h1, Num.sum_map_fin]
  · have hk := kfold_error hr w (by have := mul_le_mul_of_nonneg_right hl' hr.nonneg; linarith)
    rw [h3] at hk
    unfold cellValues at hk
    rw [List.map_map] at hk
    exact hk

theorem negHandler_finite {recs : List (Rec K)} (h : ∀ r ∈ recs, r.value = .nan ∨ ∃ x, r.value = .fin x) :
    ∀ r ∈ negHandler recs, r.value = .nan ∨ ∃ x, r.value = .fin x := by
  unfold negHandler
  split
  · exact h
  · rename_i m hm
    intro r hr
    obtain ⟨s, hs, rfl⟩ := List.mem_map.1 hr
    by_cases e : s.dev = m ∧ Num.le s.value 0 = true
    · rw [if_pos e]; exact Or.inr ⟨1, rfl⟩
    · rw [if_neg e]; exact h s hs

/-- The incremental triangle of amounts that are missing or finite, of at most `1/(20u)` records: same labels as in exact
arithmetic, the same missing cells; a cell differs from the exact sum by at most `8u` times the sum of the absolute
amounts (after first amounts of at most 0 have been replaced by 1). -/
theorem C148_error_partial (hr : Spec.RelErr rd u) {recs : List (Rec K)} (hne : recs ≠ [])
    (h : ∀ r ∈ recs, r.value = .nan ∨ ∃ x, r.value = .fin x) (hu : 20 * (recs.length : K) * u ≤ 1) :
    ∃ a w, totriIncrR rd recs = .ok a ∧ totriIncr recs = .ok w ∧ a.origins = w.origins ∧ a.devs = w.devs ∧
      ∀ i o, w.origins[i]? = some o → ∀ j d, w.devs[j]? = some d →
        Spec.Within (8 * u * Spec.cellMag (negHandler recs) o d) (a.cell i j) (w.cell i j) := by
  refine ⟨pivotR rd (negHandler recs), pivot (negHandler recs), ?_, ?_, rfl, rfl, ?_⟩
  · simp [totriIncrR, baseInitR, hne]
  · simp [totriIncr, incrTri, baseInit, hne]
  · intro i o hi j d hj
    have e1 : (labels ((negHandler recs).map Rec.origin))[i]? = some o := hi
    have e2 : (labels ((negHandler recs).map Rec.dev))[j]? = some d := hj
    simp only [pivotR, pivot, e1, e2]
    exact groupCellR_within hr (negHandler_finite h) (by rw [(negHandler_sameKeys recs).length]; exact hu) o d

theorem cellMag_perm {a b : List (Rec K)} (h : a.Perm b) (o d : ℤ) : Spec.cellMag a o d = Spec.cellMag b o d :=
  ((h.filter _).map _).sum_eq

/-- **C148, partial.** Reordering records whose amounts are missing or finite, at most `1/(20u)` of them: same labels, same
missing cells; a cell changes by at most `16u` times the sum of its absolute amounts.  Missing: equality, see
`C148_fails`. -/
theorem C148_near_partial (hr : Spec.RelErr rd u) {recs recs' : List (Rec K)} (hp : recs.Perm recs') (hne : recs ≠ [])
    (h : ∀ r ∈ recs, r.value = .nan ∨ ∃ x, r.value = .fin x) (hu : 20 * (recs.length : K) * u ≤ 1) :
    ∃ a b, totriIncrR rd recs = .ok a ∧ totriIncrR rd recs' = .ok b ∧ a.origins = b.origins ∧ a.devs = b.devs ∧
      ∀ i o, a.origins[i]? = some o → ∀ j d, a.devs[j]? = some d →
        Spec.Within (16 * u * Spec.cellMag (negHandler recs) o d) (a.cell i j) (b.cell i j) := by
  obtain ⟨a, w, a1, a2, a3, a4, a5⟩ := C148_error_partial hr hne h hu
  obtain ⟨b, w', b1, b2, b3, b4, b5⟩ := C148_error_partial hr (recs := recs')
    (fun e => hne (by rw [e] at hp; exact hp.eq_nil)) (fun r hr => h r (hp.mem_iff.2 hr)) (by rw [← hp.length_eq]; exact hu)
  have hw : w = w' := by
    have := C02_incr_order hp
    rw [a2, b2] at this
    exact Except.ok.inj this
  subst hw
  refine ⟨a, b, a1, b1, a3.trans b3.symm, a4.trans b4.symm, fun i o hi j d hj => ?_⟩
  rw [a3] at hi
  rw [a4] at hj
  have k1 := a5 i o hi j d hj
  have k2 := b5 i o hi j d hj
  rw [← cellMag_perm (negHandler_perm hp)] at k2
  rcases k1 with ⟨p1, p2⟩ | ⟨x, y, p1, p2, p3⟩
  · rcases k2 with ⟨q1, q2⟩ | ⟨x', y', q1, q2, q3⟩
    · exact Or.inl ⟨p1, q1⟩
    · rw [p2] at q2; cases q2
  · rcases k2 with ⟨q1, q2⟩ | ⟨x', y', q1, q2, q3⟩
    · rw [p2] at q2; cases q2
    · rw [p2] at q2
      cases q2
      refine Or.inr ⟨x, x', p1, q1, ?_⟩
      have e : x - x' = (x - y) + -(x' - y) := by ring
      rw [e]
      refine (abs_add_le _ _).trans ?_
      rw [abs_neg]
      linarith

/-! ### concrete cases -/

/-- The triangle of `C147_fails` in double precision: 0.2, 0.9 come back within `10·2⁻⁵³`·0.9. -/
example : ∃ a v, exDec.toIncrR (floatRd 53) = .ok a ∧ a.toCumR (floatRd 53) = .ok v ∧
    ∃ y, v.cell 0 1 = .fin y ∧ |y - floatRd 53 (9 / 10)| ≤ 10 * (2 : ℚ) ^ (-53 : ℤ) *
      (|floatRd 53 (2 / 10)| + |floatRd 53 (9 / 10) - floatRd 53 (2 / 10)|) := by
  obtain ⟨a, v, h1, h2, -, -, h3⟩ := C147_near_partial (floatRd_formatRd (K := ℚ) (p := 53) (by decide)) (t := exDec)
    (len := fun _ => 2) (c := fun _ j => if j = 0 then floatRd 53 (2 / 10) else floatRd 53 (9 / 10))
    (by decide) (by unfold Spec.Increasing; decide) (by unfold Spec.Increasing; decide)
    (by
      intro i hi
      have hi' : i < 1 := hi
      obtain rfl : i = 0 := by omega
      refine ⟨by decide, by decide, fun j hj => ⟨fun _ => ?_, fun h => absurd (show 2 ≤ j from h) (by have : j < 2 := hj; omega)⟩⟩
      have : j < 2 := hj
      interval_cases j <;> exact ⟨_, rfl⟩)
    (by
      intro j hj
      have : j < 2 := hj
      refine ⟨0, by decide, ?_⟩
      interval_cases j <;> simp [exDec])
    (by
      intro i hi j hj
      have hi' : i < 1 := hi
      obtain rfl : i = 0 := by omega
      interval_cases j <;> rfl)
    (fun i hi => floatRd_fix (by decide) (floatRd_isFloat 53 _))
    (by
      intro i hi
      show 0 < floatRd 53 (2 / 10 : ℚ)
      decide +kernel)
    (by show 20 * ((2 : ℕ) : ℚ) * (2 : ℚ) ^ (-(53 : ℕ) : ℤ) ≤ 1; norm_num)
  obtain ⟨y, hy, hb⟩ := (h3 0 (by decide) 1 (by decide)).2 (by decide)
  exact ⟨a, v, h1, h2, y, hy, by simpa [Spec.variation] using hb⟩

/-- The three amounts of `C148_fails`: the two sums differ by at most `16·2⁻⁵³`·18.9. -/
example : ∃ a b, totriIncrR (floatRd 53) exThree = .ok a ∧ totriIncrR (floatRd 53) exThree.reverse = .ok b ∧
    Spec.Within (16 * (2 : ℚ) ^ (-(53 : ℕ) : ℤ) * Spec.cellMag (negHandler exThree) 2001 1) (a.cell 0 0) (b.cell 0 0) := by
  obtain ⟨a, b, h1, h2, -, -, h5⟩ := C148_near_partial (floatRd_formatRd (K := ℚ) (p := 53) (by decide)).rel
    (List.reverse_perm exThree).symm (by decide) (by
      intro r hr
      fin_cases hr <;> exact Or.inr ⟨_, rfl⟩)
    (by show 20 * ((3 : ℕ) : ℚ) * (2 : ℚ) ^ (-(53 : ℕ) : ℤ) ≤ 1; norm_num)
  refine ⟨a, b, h1, h2, h5 0 2001 ?_ 0 1 ?_⟩
  · cases h1; decide +kernel
  · cases h1; decide +kernel

end Trikit
