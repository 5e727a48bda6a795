import Verif.ResidDetail
import Verif.Props.Diag2
import Verif.Props.Resample
import Verif.Props.BootYoung

/-! # Statistics of the residuals -/

set_option linter.unusedSectionVars false

namespace Trikit

/-- Central moment. -/
noncomputable def Spec.moment (k : ℕ) (xs : List ℝ) : ℝ :=
  (xs.map (fun x => (x - Spec.meanList xs) ^ k)).sum / xs.length

/-- The non-zero residuals, row by row. -/
noncomputable def Spec.nonzeroCells (r : Tri ℝ) : List ℝ :=
  ((List.range r.nr).flatMap (fun i => (List.range r.nc).filterMap (fun j => (r.cell i j).toFin))).filter
    (fun x => x ≠ 0)

/-- What the entries of one column mean. -/
structure Spec.IsStats (eps : ℝ) (xs : List ℝ) (a : ResidStats ℝ) : Prop where
  size : a.size = xs.length
  sum : a.sum = .fin xs.sum
  ssqr : a.ssqr = .fin (xs.map (fun x => x ^ 2)).sum
  min : ∃ m ∈ xs, a.min = .fin m ∧ ∀ x ∈ xs, m ≤ x
  max : ∃ m ∈ xs, a.max = .fin m ∧ ∀ x ∈ xs, x ≤ m
  mean : a.mean = .fin (Spec.meanList xs)
  var : 2 ≤ xs.length → a.var = .fin (Spec.sqList xs / ((xs.length : ℝ) - 1))
  std : 2 ≤ xs.length → a.std = .fin (Real.sqrt (Spec.sqList xs / ((xs.length : ℝ) - 1)))
  single : xs.length = 1 → a.var = .nan ∧ a.std = .nan
  med : ∃ m, a.med = .fin m ∧ Spec.IsMedian xs m
  mode : ∃ m ∈ xs, a.mode = .fin m ∧
    ∀ y ∈ xs, xs.count y < xs.count m ∨ (xs.count y = xs.count m ∧ m ≤ y)
  cvar : Spec.meanList xs ≠ 0 → a.cvar = .fin (Real.sqrt (Spec.moment 2 xs) / Spec.meanList xs)
  skew : (eps * Spec.meanList xs) ^ 2 < Spec.moment 2 xs →
    a.skew = .fin (Spec.moment 3 xs / Real.sqrt (Spec.moment 2 xs) ^ 3)
  kurt : (eps * Spec.meanList xs) ^ 2 < Spec.moment 2 xs →
    a.kurt = .fin (Spec.moment 4 xs / Spec.moment 2 xs ^ 2 - 3)
  flat : Spec.moment 2 xs ≤ (eps * Spec.meanList xs) ^ 2 → a.skew = .nan ∧ a.kurt = .nan

theorem detailVals_fin (r : Tri ℝ) (h : ∀ i < r.nr, ∀ j < r.nc, FiniteOrMissing (r.cell i j)) :
    detailVals r = (Spec.nonzeroCells r).map Num.fin := by
  unfold detailVals Spec.nonzeroCells
  have hm : ∀ v ∈ (List.range r.nr).flatMap (fun i => (List.range r.nc).map (fun j => r.cell i j)),
      FiniteOrMissing v := by
    intro v hv
    rw [List.mem_flatMap] at hv
    obtain ⟨i, hi, hv⟩ := hv
    rw [List.mem_map] at hv
    obtain ⟨j, hj, rfl⟩ := hv
    exact h i (List.mem_range.1 hi) j (List.mem_range.1 hj)
  rw [filter_finite _ hm, List.filterMap_flatMap]
  have e : ∀ i, ((List.range r.nc).map (fun j => r.cell i j)).filterMap Num.toFin =
      (List.range r.nc).filterMap (fun j => (r.cell i j).toFin) := by
    intro i; rw [List.filterMap_map]; rfl
  simp only [e]
  rw [List.filter_map]
  congr 1
  apply List.filter_congr
  intro x _
  simp [Num.zero_def]

theorem meanL_fin {xs : List ℝ} (h : xs ≠ []) : meanL (xs.map Num.fin) = .fin (Spec.meanList xs) := by
  unfold meanL Spec.meanList
  rw [Num.sum_map_fin, List.length_map, Num.fin_div]
  simpa using h

theorem momentL_fin {xs : List ℝ} (h : xs ≠ []) (k : ℕ) :
    momentL k (xs.map Num.fin) = .fin (Spec.moment k xs) := by
  unfold momentL
  rw [meanL_fin h]
  have e : (xs.map Num.fin).map (fun x => (x - Num.fin (Spec.meanList xs)).pow k) =
      (xs.map (fun x => (x - Spec.meanList xs) ^ k)).map Num.fin := by
    rw [List.map_map, List.map_map]
    refine List.map_congr_left fun x _ => ?_
    simp
  rw [e, meanL_fin (by simpa using h)]
  have e2 : ∀ ys : List ℝ, Spec.meanList ys = ys.sum / ys.length := fun _ => rfl
  rw [e2, List.length_map]
  rfl

theorem moment_two_nonneg (xs : List ℝ) : 0 ≤ Spec.moment 2 xs := by
  unfold Spec.moment
  refine div_nonneg (List.sum_nonneg ?_) (Nat.cast_nonneg _)
  intro y hy
  rw [List.mem_map] at hy
  obtain ⟨x, -, rfl⟩ := hy
  positivity

theorem constL_fin {xs : List ℝ} (h : xs ≠ []) (eps : ℝ) :
    constL eps (xs.map Num.fin) = decide (Spec.moment 2 xs ≤ (eps * Spec.meanList xs) ^ 2) := by
  unfold constL
  rw [momentL_fin h, meanL_fin h]
  simp

theorem count_fin (xs : List ℝ) (x : ℝ) : (xs.map Num.fin).count (Num.fin x) = xs.count x :=
  List.count_map_of_injective xs Num.fin (fun _ _ e => Num.fin_inj'.1 e) x

theorem modeL_fin {xs : List ℝ} (h : xs ≠ []) : ∃ m ∈ xs, modeL (xs.map Num.fin) = .fin m ∧
    ∀ y ∈ xs, xs.count y < xs.count m ∨ (xs.count y = xs.count m ∧ m ≤ y) := by
  unfold modeL
  rw [npSort_insertionSort]
  have hp := List.perm_insertionSort (· ≤ ·) xs
  have hs := List.pairwise_insertionSort (· ≤ ·) xs
  generalize xs.insertionSort (· ≤ ·) = s at hp hs
  rcases ha : (s.map Num.fin).argmax (fun v => (xs.map Num.fin).count v) with _ | v
  · rw [List.argmax_eq_none, List.map_eq_nil_iff] at ha
    subst ha
    exact absurd (List.nil_perm.1 hp) h
  · rw [List.argmax_eq_some_iff] at ha
    obtain ⟨hv, h1, h2⟩ := ha
    rw [List.mem_map] at hv
    obtain ⟨m, hm, rfl⟩ := hv
    refine ⟨m, hp.mem_iff.1 hm, rfl, fun y hy => ?_⟩
    have hys : y ∈ s := hp.mem_iff.2 hy
    have h1' := h1 _ (List.mem_map_of_mem (f := Num.fin) hys)
    have h2' := h2 _ (List.mem_map_of_mem (f := Num.fin) hys)
    simp only [count_fin] at h1' h2'
    rcases h1'.lt_or_eq with hlt | heq
    · exact Or.inl hlt
    · refine Or.inr ⟨heq, ?_⟩
      have h3 := h2' heq.ge
      have hi : ∀ z ∈ s, ∃ hk : (s.map Num.fin).idxOf (Num.fin z) < s.length,
          s[(s.map Num.fin).idxOf (Num.fin z)] = z := by
        intro z hz
        have hk : (s.map Num.fin).idxOf (Num.fin z) < (s.map Num.fin).length :=
          List.idxOf_lt_length_iff.2 (List.mem_map_of_mem hz)
        have hg := List.getElem_idxOf hk
        rw [List.getElem_map, Num.fin_inj'] at hg
        exact ⟨by simpa using hk, hg⟩
      obtain ⟨k1, e1⟩ := hi m hm
      obtain ⟨k2, e2⟩ := hi y hys
      rcases h3.lt_or_eq with hlt | he
      · have := List.pairwise_iff_getElem.1 hs _ _ k1 k2 hlt
        rw [e1, e2] at this
        exact this
      · have : s[(s.map Num.fin).idxOf (Num.fin m)] = s[(s.map Num.fin).idxOf (Num.fin y)] := by
          congr 1
        rw [e1, e2] at this
        exact this.le

theorem residStats_fin (eps : ℝ) {xs : List ℝ} (h : xs ≠ []) :
    ∃ a, residStats Num.sqrt eps .ok (xs.map Num.fin) = .ok a ∧ Spec.IsStats eps xs a ∧
      a.cvar = Num.sqrt (.fin (Spec.moment 2 xs)) / .fin (Spec.meanList xs) := by
  obtain ⟨x, l, rfl⟩ := List.exists_cons_of_ne_nil h
  refine ⟨_, rfl, ?_, ?_⟩
  · have hsq : ((x :: l).map Num.fin).map (fun v => (v - meanL ((x :: l).map Num.fin)).pow 2) =
        ((x :: l).map (fun v => (v - Spec.meanList (x :: l)) ^ 2)).map Num.fin := by
      rw [meanL_fin h, List.map_map, List.map_map]
      refine List.map_congr_left fun v _ => ?_
      simp
    have hv : varL ((x :: l).map Num.fin) =
        .fin (Spec.sqList (x :: l)) / .fin ((((x :: l).length - 1 : ℕ) : ℝ)) := by
      unfold varL
      rw [hsq, Num.sum_map_fin, List.length_map]
      rfl
    have hst : stdL Num.sqrt ((x :: l).map Num.fin) = Num.sqrt (varL ((x :: l).map Num.fin)) := rfl
    have hq : 0 ≤ Spec.sqList (x :: l) := by
      unfold Spec.sqList
      refine List.sum_nonneg ?_
      intro y hy
      rw [List.mem_map] at hy
      obtain ⟨z, -, rfl⟩ := hy
      positivity
    have hv2 : 2 ≤ (x :: l).length → varL ((x :: l).map Num.fin) =
        .fin (Spec.sqList (x :: l) / (((x :: l).length : ℝ) - 1)) := by
      intro h2
      rw [hv, Num.fin_div _ _ (by
        have : 0 < (x :: l).length - 1 := by omega
        exact_mod_cast this.ne')]
      rw [Nat.cast_sub (by omega), Nat.cast_one]
    constructor
    · show ((x :: l).map Num.fin).length = _
      exact List.length_map ..
    · exact Num.sum_map_fin (x :: l)
    · show (((x :: l).map Num.fin).map (fun v => v.pow 2)).sum = _
      rw [List.map_map, ← Num.sum_map_fin, List.map_map]
      congr 1
    · obtain ⟨m, e, hm, hle⟩ := npMin_fin x l
      exact ⟨m, hm, e, hle⟩
    · obtain ⟨m, e, hm, hle⟩ := npMax_fin x l
      exact ⟨m, hm, e, hle⟩
    · exact meanL_fin h
    · exact hv2
    · intro h2
      show stdL Num.sqrt ((x :: l).map Num.fin) = _
      rw [hst, hv2 h2, Num.sqrt_fin]
      refine div_nonneg hq ?_
      have : (2 : ℝ) ≤ ((x :: l).length : ℝ) := by exact_mod_cast h2
      linarith
    · intro h1
      have hl : l = [] := by simpa using h1
      subst hl
      have e : varL ([x].map Num.fin) = .nan := by
        rw [hv]
        simp [Spec.sqList, Spec.meanList, Num.fin_div_zero, Num.infTimes]
      exact ⟨e, by show stdL Num.sqrt ([x].map Num.fin) = _; rw [hst, e]; rfl⟩
    · have hf : ((x :: l).map Num.fin).filterMap Num.toFin = x :: l := by
        rw [List.filterMap_map]
        exact List.filterMap_some
      obtain ⟨m, e, hm⟩ := npMedian_spec ((x :: l).map Num.fin) (by
        intro v hv
        rw [List.mem_map] at hv
        obtain ⟨y, -, rfl⟩ := hv
        exact Or.inr ⟨y, rfl⟩) (by rw [hf]; exact h)
      rw [hf] at hm
      exact ⟨m, e, hm⟩
    · exact modeL_fin h
    · intro hm
      show variationL Num.sqrt ((x :: l).map Num.fin) = _
      unfold variationL
      rw [momentL_fin h, meanL_fin h, Num.sqrt_fin (moment_two_nonneg _), Num.fin_div _ _ hm]
    · intro hlt
      show skewL Num.sqrt eps ((x :: l).map Num.fin) = _
      have hpos : 0 < Spec.moment 2 (x :: l) := lt_of_le_of_lt (sq_nonneg _) hlt
      unfold skewL
      rw [constL_fin h, decide_eq_false (not_le.2 hlt), momentL_fin h, momentL_fin h,
        Num.sqrt_fin hpos.le, Num.fin_mul]
      have hs := Real.sqrt_pos.2 hpos
      have e : Spec.moment 2 (x :: l) * Real.sqrt (Spec.moment 2 (x :: l)) =
          Real.sqrt (Spec.moment 2 (x :: l)) ^ 3 := by
        conv_lhs => rw [← Real.sq_sqrt hpos.le]
        rw [Real.sqrt_sq hs.le]
        ring
      rw [e]
      simp only [Bool.false_eq_true, if_false]
      rw [Num.fin_div _ _ (by positivity)]
    · intro hlt
      show kurtL eps ((x :: l).map Num.fin) = _
      have hpos : 0 < Spec.moment 2 (x :: l) := lt_of_le_of_lt (sq_nonneg _) hlt
      unfold kurtL
      rw [constL_fin h, decide_eq_false (not_le.2 hlt), momentL_fin h, momentL_fin h]
      simp only [Bool.false_eq_true, if_false, Num.pow_fin]
      rw [Num.fin_div _ _ (by positivity), Num.fin_sub]
    · intro hle
      refine ⟨?_, ?_⟩
      · show skewL Num.sqrt eps ((x :: l).map Num.fin) = _
        unfold skewL
        rw [constL_fin h, decide_eq_true hle, if_pos rfl]
      · show kurtL eps ((x :: l).map Num.fin) = _
        unfold kurtL
        rw [constL_fin h, decide_eq_true hle, if_pos rfl]
  · show variationL Num.sqrt ((x :: l).map Num.fin) = _
    unfold variationL
    rw [momentL_fin h, meanL_fin h]

theorem Spec.IsMedian.unique {l : List ℝ} {a b : ℝ} (h1 : Spec.IsMedian l a) (h2 : Spec.IsMedian l b) : a = b := by
  obtain ⟨s, p1, q1, h1⟩ := h1
  obtain ⟨s', p2, q2, h2⟩ := h2
  have e : s = s' := (p1.trans p2.symm).eq_of_pairwise (fun _ _ _ _ h1 h2 => le_antisymm h1 h2) q1 q2
  subst e
  rcases h1 with ⟨i, x, l1, g1, rfl⟩ | ⟨i, x, y, l1, g1, g1', rfl⟩ <;>
    rcases h2 with ⟨j, z, l2, g2, rfl⟩ | ⟨j, z, w, l2, g2, g2', rfl⟩
  · have : i = j := by omega
    subst this
    rw [g1] at g2
    exact Option.some.inj g2
  · omega
  · omega
  · have : i = j := by omega
    subst this
    rw [g1] at g2
    rw [g1'] at g2'
    rw [Option.some.inj g2, Option.some.inj g2']

section
variable {k : ℝ} (hk : 0 < k) (xs : List ℝ)
include hk

theorem meanList_scale : Spec.meanList (xs.map (fun x => k * x)) = k * Spec.meanList xs := by
  unfold Spec.meanList
  rw [List.sum_map_mul_left, List.map_id', List.length_map, mul_div_assoc]

theorem moment_scale (j : ℕ) : Spec.moment j (xs.map (fun x => k * x)) = k ^ j * Spec.moment j xs := by
  unfold Spec.moment
  rw [meanList_scale hk, List.length_map, List.map_map, ← mul_div_assoc, ← List.sum_map_mul_left]
  congr 3
  funext x
  simp only [Function.comp]
  rw [← mul_sub, mul_pow]

theorem sqList_scale : Spec.sqList (xs.map (fun x => k * x)) = k ^ 2 * Spec.sqList xs := by
  unfold Spec.sqList
  rw [meanList_scale hk, List.map_map, ← List.sum_map_mul_left]
  congr 2
  funext x
  simp only [Function.comp]
  rw [← mul_sub, mul_pow]

theorem count_scale (y : ℝ) : (xs.map (fun x => k * x)).count (k * y) = xs.count y :=
  List.count_map_of_injective xs (fun x => k * x) (fun _ _ e => mul_left_cancel₀ hk.ne' e) y

theorem Spec.IsMedian.scale {l : List ℝ} {m : ℝ} (h : Spec.IsMedian l m) :
    Spec.IsMedian (l.map (fun x => k * x)) (k * m) := by
  obtain ⟨s, p, q, h⟩ := h
  refine ⟨s.map (fun x => k * x), p.map _, ?_, ?_⟩
  · rw [List.pairwise_map]
    exact q.imp fun h => mul_le_mul_of_nonneg_left h hk.le
  · rcases h with ⟨i, x, hl, g, rfl⟩ | ⟨i, x, y, hl, g, g', rfl⟩
    · exact Or.inl ⟨i, k * m, by rw [List.length_map, hl], by rw [List.getElem?_map, g]; rfl, rfl⟩
    · exact Or.inr ⟨i, k * x, k * y, by rw [List.length_map, hl], by rw [List.getElem?_map, g]; rfl,
        by rw [List.getElem?_map, g']; rfl, by ring⟩

/-- Scaling the residuals scales the entries. -/
structure Spec.StatsScaled (k : ℝ) (a b : ResidStats ℝ) : Prop where
  size : b.size = a.size
  sum : b.sum = .fin k * a.sum
  ssqr : b.ssqr = .fin (k ^ 2) * a.ssqr
  min : b.min = .fin k * a.min
  max : b.max = .fin k * a.max
  mean : b.mean = .fin k * a.mean
  skew : b.skew = a.skew
  mode : b.mode = .fin k * a.mode
  cvar : b.cvar = a.cvar
  kurt : b.kurt = a.kurt
  var : b.var = .fin (k ^ 2) * a.var
  std : b.std = .fin k * a.std
  med : b.med = .fin k * a.med

theorem stats_scaled {eps : ℝ} {a b : ResidStats ℝ} (h : xs ≠ []) (ha : Spec.IsStats eps xs a)
    (hb : Spec.IsStats eps (xs.map (fun x => k * x)) b)
    (ca : a.cvar = Num.sqrt (.fin (Spec.moment 2 xs)) / .fin (Spec.meanList xs))
    (cb : b.cvar = Num.sqrt (.fin (Spec.moment 2 (xs.map (fun x => k * x)))) /
      .fin (Spec.meanList (xs.map (fun x => k * x)))) : Spec.StatsScaled k a b := by
  have hl : (xs.map (fun x => k * x)).length = xs.length := List.length_map ..
  have hlen : xs.length ≠ 0 := by simpa using h
  have m2 := moment_two_nonneg xs
  have hflat : Spec.moment 2 (xs.map (fun x => k * x)) ≤ (eps * Spec.meanList (xs.map (fun x => k * x))) ^ 2 ↔
      Spec.moment 2 xs ≤ (eps * Spec.meanList xs) ^ 2 := by
    rw [moment_scale hk, meanList_scale hk]
    have : (eps * (k * Spec.meanList xs)) ^ 2 = k ^ 2 * (eps * Spec.meanList xs) ^ 2 := by ring
    rw [this]
    exact mul_le_mul_iff_right₀ (by positivity)
  have hsk : Real.sqrt (Spec.moment 2 (xs.map (fun x => k * x))) = k * Real.sqrt (Spec.moment 2 xs) := by
    rw [moment_scale hk, Real.sqrt_mul (by positivity), Real.sqrt_sq hk.le]
  constructor
  · rw [hb.size, ha.size, hl]
  · rw [hb.sum, ha.sum, Num.fin_mul, List.sum_map_mul_left, List.map_id']
  · rw [hb.ssqr, ha.ssqr, Num.fin_mul, List.map_map, ← List.sum_map_mul_left]
    congr 3
    funext x
    simp only [Function.comp]
    rw [mul_pow]
  · obtain ⟨m, hm, e, hle⟩ := ha.min
    obtain ⟨m', hm', e', hle'⟩ := hb.min
    rw [List.mem_map] at hm'
    obtain ⟨z, hz, rfl⟩ := hm'
    rw [e, e', Num.fin_mul]
    have h1 := hle' _ (List.mem_map_of_mem (f := fun x => k * x) hm)
    have h2 := mul_le_mul_of_nonneg_left (hle z hz) hk.le
    rw [le_antisymm h1 h2]
  · obtain ⟨m, hm, e, hle⟩ := ha.max
    obtain ⟨m', hm', e', hle'⟩ := hb.max
    rw [List.mem_map] at hm'
    obtain ⟨z, hz, rfl⟩ := hm'
    rw [e, e', Num.fin_mul]
    have h1 := hle' _ (List.mem_map_of_mem (f := fun x => k * x) hm)
    have h2 := mul_le_mul_of_nonneg_left (hle z hz) hk.le
    rw [le_antisymm h1 h2]
  · rw [hb.mean, ha.mean, meanList_scale hk, Num.fin_mul]
  · by_cases hc : Spec.moment 2 xs ≤ (eps * Spec.meanList xs) ^ 2
    · rw [(ha.flat hc).1, (hb.flat (hflat.2 hc)).1]
    · have hpos : 0 < Spec.moment 2 xs := lt_of_le_of_lt (sq_nonneg _) (not_le.1 hc)
      have := Real.sqrt_pos.2 hpos
      rw [ha.skew (not_le.1 hc), hb.skew (not_le.1 (fun e => hc (hflat.1 e))), hsk, moment_scale hk]
      congr 1
      field_simp
  · obtain ⟨m, hm, e, hle⟩ := ha.mode
    obtain ⟨m', hm', e', hle'⟩ := hb.mode
    rw [List.mem_map] at hm'
    obtain ⟨z, hz, rfl⟩ := hm'
    have h1 := hle' _ (List.mem_map_of_mem (f := fun x => k * x) hm)
    have h2 := hle z hz
    simp only [count_scale hk] at h1
    have h3 : m = z := by
      rcases h1 with h1 | ⟨c1, h1⟩ <;> rcases h2 with h2 | ⟨c2, h2⟩
      · omega
      · omega
      · omega
      · exact le_antisymm h2 (le_of_mul_le_mul_left h1 hk)
    rw [e, e', Num.fin_mul, h3]
  · rw [ca, cb, Num.sqrt_fin (moment_two_nonneg _), Num.sqrt_fin m2, hsk, meanList_scale hk]
    by_cases h0 : Spec.meanList xs = 0
    · rw [h0, mul_zero, Num.fin_div_zero, Num.fin_div_zero]
      unfold Num.infTimes
      simp [hk.ne', hk]
    · rw [Num.fin_div _ _ (mul_ne_zero hk.ne' h0), Num.fin_div _ _ h0]
      congr 1
      field_simp
  · by_cases hc : Spec.moment 2 xs ≤ (eps * Spec.meanList xs) ^ 2
    · rw [(ha.flat hc).2, (hb.flat (hflat.2 hc)).2]
    · have hpos : 0 < Spec.moment 2 xs := lt_of_le_of_lt (sq_nonneg _) (not_le.1 hc)
      rw [ha.kurt (not_le.1 hc), hb.kurt (not_le.1 (fun e => hc (hflat.1 e))), moment_scale hk, moment_scale hk]
      congr 2
      field_simp
  · by_cases h2 : 2 ≤ xs.length
    · rw [ha.var h2, hb.var (by rw [hl]; exact h2), sqList_scale hk, hl, Num.fin_mul, mul_div_assoc]
    · have h1 : xs.length = 1 := by omega
      rw [(ha.single h1).1, (hb.single (by rw [hl]; exact h1)).1, Num.mul_nan]
  · by_cases h2 : 2 ≤ xs.length
    · rw [ha.std h2, hb.std (by rw [hl]; exact h2), sqList_scale hk, hl, Num.fin_mul, mul_div_assoc,
        Real.sqrt_mul (by positivity), Real.sqrt_sq hk.le]
    · have h1 : xs.length = 1 := by omega
      rw [(ha.single h1).2, (hb.single (by rw [hl]; exact h1)).2, Num.mul_nan]
  · obtain ⟨m, e, hm⟩ := ha.med
    obtain ⟨m', e', hm'⟩ := hb.med
    rw [e, e', Num.fin_mul, Spec.IsMedian.unique hm' (Spec.IsMedian.scale hk hm)]

end

theorem residAdj_nonzero {t r : Tri ℝ} (hk : 0 < (t.nbrCells : ℝ) / ((bootDof t : Int) : ℝ))
    (h : ∀ i < r.nr, ∀ j < r.nc, FiniteOrMissing (r.cell i j)) :
    (∀ i < (residAdj Num.sqrt t r).nr, ∀ j < (residAdj Num.sqrt t r).nc,
      FiniteOrMissing ((residAdj Num.sqrt t r).cell i j)) ∧
    Spec.nonzeroCells (residAdj Num.sqrt t r) =
      (Spec.nonzeroCells r).map (fun x => Real.sqrt ((t.nbrCells : ℝ) / ((bootDof t : Int) : ℝ)) * x) := by
  set k := Real.sqrt ((t.nbrCells : ℝ) / ((bootDof t : Int) : ℝ)) with hkd
  have hk0 : 0 < k := Real.sqrt_pos.2 hk
  have hcell : ∀ i j, (residAdj Num.sqrt t r).cell i j = .fin k * r.cell i j := by
    intro i j
    show Num.sqrt _ * _ = _
    rw [Num.sqrt_fin hk.le]
  have hto : ∀ i < r.nr, ∀ j < r.nc, ((residAdj Num.sqrt t r).cell i j).toFin =
      (r.cell i j).toFin.map (fun x => k * x) := by
    intro i hi j hj
    rw [hcell]
    rcases h i hi j hj with e | ⟨x, e⟩ <;> rw [e]
    · rw [Num.mul_nan]; rfl
    · rfl
  refine ⟨?_, ?_⟩
  · intro i hi j hj
    rw [hcell]
    rcases h i hi j hj with e | ⟨x, e⟩ <;> rw [e]
    · exact Or.inl (Num.mul_nan _)
    · exact Or.inr ⟨k * x, rfl⟩
  · unfold Spec.nonzeroCells
    have e : (List.range (residAdj Num.sqrt t r).nr).flatMap (fun i =>
        (List.range (residAdj Num.sqrt t r).nc).filterMap (fun j => ((residAdj Num.sqrt t r).cell i j).toFin)) =
        ((List.range r.nr).flatMap (fun i =>
          (List.range r.nc).filterMap (fun j => (r.cell i j).toFin))).map (fun x => k * x) := by
      rw [List.map_flatMap]
      apply List.flatMap_congr
      intro i hi
      rw [List.map_filterMap]
      apply List.filterMap_congr
      intro j hj
      exact hto i (List.mem_range.1 hi) j (List.mem_range.1 hj)
    rw [e, List.filter_map]
    congr 1
    apply List.filter_congr
    intro x _
    simp [hk0.ne']

theorem sum_nonzero (l : List ℝ) : ((l.filter (fun x => x ≠ 0)).map (fun x => x ^ 2)).sum =
    (l.map (fun x => x ^ 2)).sum := by
  induction l with
  | nil => rfl
  | cons x l ih =>
    by_cases hx : x = 0
    · subst hx
      rw [List.filter_cons_of_neg (by simp), ih]
      simp
    · rw [List.filter_cons_of_pos (by simpa using hx), List.map_cons, List.sum_cons, ih, List.map_cons,
        List.sum_cons]

theorem sumSq_filterMap {ι : Type} (l : List ι) (f : ι → Option ℝ) :
    ((l.filterMap f).map (fun x => x ^ 2)).sum = (l.map (fun i => (f i).elim 0 (fun x => x ^ 2))).sum := by
  induction l with
  | nil => rfl
  | cons i l ih =>
    rcases e : f i with _ | x
    · rw [List.filterMap_cons_none e, ih]; simp [e]
    · rw [List.filterMap_cons_some e, List.map_cons, List.sum_cons, ih]; simp [e]

theorem scaleParam_nonzero {t r : Tri ℝ} (h : ∀ i < r.nr, ∀ j < r.nc, FiniteOrMissing (r.cell i j)) :
    scaleParam t r = .fin ((Spec.nonzeroCells r).map (fun x => x ^ 2)).sum / .fin ((bootDof t : Int) : ℝ) := by
  unfold scaleParam
  congr 1
  let g : ℕ → ℕ → ℝ := fun i j => (r.cell i j).toFin.elim 0 (fun x => x ^ 2)
  have hcol : ∀ j < r.nc, Num.sumSkip ((r.col j).map (fun v => v.pow 2)) =
      .fin ((List.range r.nr).map (fun i => g i j)).sum := by
    intro j hj
    unfold Tri.col
    rw [List.map_map]
    have : ∀ l : List ℕ, (∀ i ∈ l, i < r.nr) →
        Num.sumSkip (l.map ((fun v : Num ℝ => v.pow 2) ∘ fun i => r.cell i j)) = .fin (l.map (fun i => g i j)).sum := by
      intro l
      induction l with
      | nil => intro _; rfl
      | cons i l ih =>
        intro hl
        have ih' := ih (fun a ha => hl a (List.mem_cons_of_mem _ ha))
        have hg : g i j = (r.cell i j).toFin.elim 0 (fun x => x ^ 2) := rfl
        rw [List.map_cons, List.map_cons, List.sum_cons, Function.comp]
        rcases h i (hl i List.mem_cons_self) j hj with e | ⟨x, e⟩
        · rw [hg, e]
          show Num.sumSkip (Num.nan :: _) = _
          rw [Num.sumSkip_cons_nan, ih']
          simp [Num.toFin]
        · rw [hg, e, Num.pow_fin, Num.sumSkip_cons_fin, ih', Num.fin_add]
          rfl
    exact this _ (fun i hi => List.mem_range.1 hi)
  rw [Num.sumSkip_map_fin' (List.range r.nc) _ (fun j => ((List.range r.nr).map (fun i => g i j)).sum)
    (fun j hj => hcol j (List.mem_range.1 hj))]
  congr 1
  unfold Spec.nonzeroCells
  rw [sum_nonzero, List.map_flatMap, List.flatMap_def, List.sum_flatten, List.map_map]
  have e : ∀ i, (((List.range r.nc).filterMap (fun j => (r.cell i j).toFin)).map (fun x => x ^ 2)).sum =
      ((List.range r.nc).map (fun j => g i j)).sum := fun i => sumSq_filterMap _ _
  simp only [Function.comp_def, e]
  have hr : ∀ (n : ℕ) (w : ℕ → ℝ), ((List.range n).map w).sum = ∑ i ∈ Finset.range n, w i := fun n w => by
    rw [← List.sum_toFinset w List.nodup_range, List.toFinset_range]
  simp only [hr]
  exact Finset.sum_comm

/-- **C119 fails**: with the pinned scipy no resampling run has the table: without a non-zero residual the minimum of an
empty array is asked for, and otherwise the mode, a number, is indexed. -/
theorem C119_fails {K : Type} [Field K] [LinearOrder K] (sq : Num K → Num K) (eps : K) (u a : Tri K) :
    residualsDetail sq eps modeIdx false u a =
      .error (if detailVals u = [] then .valueError else .indexError) := by
  unfold residualsDetail
  rcases e : detailVals u with _ | ⟨x, l⟩
  · rfl
  · rfl

/-- **C119, partial** (with a scipy whose modes are arrays, and without infinite residuals): when some residual is not
zero, the table has the statistics of the non-zero unscaled and adjusted residuals; the adjusted column is the unscaled
one scaled by the root of cells over degrees of freedom, so that skewness, variation and kurtosis agree, and the sum of
squares over the degrees of freedom is the scale parameter.  Missing: the pinned scipy (`C119_fails`) and infinite
residuals. -/
theorem C119_partial {gm : List (Num ℝ) → Num ℝ} {t ind : Tri ℝ} {f : BootFit ℝ}
    (hf : bootFit Num.sqrt gm t ind = .ok f) (hc : Spec.ColsObserved t) (hnc : 0 < t.nc)
    (hfin : ∀ i < f.residUs.nr, ∀ j < f.residUs.nc, FiniteOrMissing (f.residUs.cell i j))
    (hne : Spec.nonzeroCells f.residUs ≠ []) (eps : ℝ) :
    ∃ a b, residualsDetail Num.sqrt eps .ok false f.residUs f.residAdj = .ok (some (a, b)) ∧
      Spec.IsStats eps (Spec.nonzeroCells f.residUs) a ∧ Spec.IsStats eps (Spec.nonzeroCells f.residAdj) b ∧
      Spec.StatsScaled (Real.sqrt ((t.nbrCells : ℝ) / ((bootDof t : Int) : ℝ))) a b ∧
      f.scale = a.ssqr / .fin ((bootDof t : Int) : ℝ) := by
  have hadj : f.residAdj = residAdj Num.sqrt t f.residUs ∧ f.scale = scaleParam t f.residUs := by
    unfold bootFit at hf
    dsimp only [bind, Except.bind] at hf
    split at hf
    · cases hf
    split at hf
    · cases hf
    split at hf
    · cases hf
    split at hf
    · cases hf
    cases hf
    exact ⟨rfl, rfl⟩
  have hd : (0 : ℝ) < ((bootDof t : Int) : ℝ) := Int.cast_pos.2 (bootDof_pos hc)
  have hcells : (0 : ℝ) < (t.nbrCells : ℝ) := by
    have := nc_le_nbrCells hc
    exact_mod_cast lt_of_lt_of_le hnc this
  have hk := div_pos hcells hd
  obtain ⟨hfin', hnz⟩ := residAdj_nonzero hk hfin
  rw [← hadj.1] at hfin' hnz
  have hne' : Spec.nonzeroCells f.residAdj ≠ [] := by rw [hnz]; simpa using hne
  obtain ⟨a, ha, sa, ca⟩ := residStats_fin eps hne
  obtain ⟨b, hb, sb, cb⟩ := residStats_fin eps hne'
  refine ⟨a, b, ?_, sa, sb, ?_, ?_⟩
  · unfold residualsDetail
    rw [detailVals_fin _ hfin, detailVals_fin _ hfin', ha, hb]
    rfl
  · rw [hnz] at sb cb
    exact stats_scaled (Real.sqrt_pos.2 hk) _ hne sa sb ca cb
  · rw [hadj.2, sa.ssqr]
    exact scaleParam_nonzero hfin

/-- **C119, partial**, on staircases: when all fitted increments are non-zero and some increment is not fitted exactly,
the premises of `C119_partial` hold. -/
theorem C119_stair_partial {t : Tri ℝ} {n : ℕ} {c : ℕ → ℕ → ℝ} (gm : List (Num ℝ) → Num ℝ) (h : Spec.Stair t n c)
    (hp : Spec.Positive n c) (hn : 3 ≤ n)
    (hnz : ∀ i j, i + j < n → Spec.incr (Spec.fitCum n c) i j ≠ 0)
    (hex : ∃ i j, i + j < n ∧ Spec.incr c i j ≠ Spec.incr (Spec.fitCum n c) i j) (eps : ℝ) :
    ∃ f a b, bootFit Num.sqrt gm t t.a2aind0 = .ok f ∧
      residualsDetail Num.sqrt eps .ok false f.residUs f.residAdj = .ok (some (a, b)) ∧
      Spec.IsStats eps (Spec.nonzeroCells f.residUs) a ∧ Spec.IsStats eps (Spec.nonzeroCells f.residAdj) b ∧
      Spec.StatsScaled (Real.sqrt ((t.nbrCells : ℝ) / ((bootDof t : Int) : ℝ))) a b ∧
      f.scale = a.ssqr / .fin ((bootDof t : Int) : ℝ) := by
  obtain ⟨f, hf, q⟩ := bootFit_stair Num.sqrt gm h hp hn
  have hnr : f.residUs.nr = n := by unfold Tri.nr; rw [q.us_origins]; exact h.nr
  have hnc : f.residUs.nc = n := by unfold Tri.nc; rw [q.us_devs]; exact h.nc
  have hcell : ∀ i j, i + j < n → f.residUs.cell i j =
      .fin ((Spec.incr c i j - Spec.incr (Spec.fitCum n c) i j) /
        Real.sqrt |Spec.incr (Spec.fitCum n c) i j|) := by
    intro i j hij
    rw [q.us i j hij, Num.sqrt_fin (abs_nonneg _), Num.fin_div]
    exact (Real.sqrt_pos.2 (abs_pos.2 (hnz i j hij))).ne'
  obtain ⟨i, j, hij, hd⟩ := hex
  have hne : Spec.nonzeroCells f.residUs ≠ [] := by
    refine List.ne_nil_of_mem (a := (Spec.incr c i j - Spec.incr (Spec.fitCum n c) i j) /
        Real.sqrt |Spec.incr (Spec.fitCum n c) i j|) ?_
    unfold Spec.nonzeroCells
    rw [List.mem_filter]
    refine ⟨?_, ?_⟩
    · rw [List.mem_flatMap]
      refine ⟨i, List.mem_range.2 (by omega), ?_⟩
      rw [List.mem_filterMap]
      exact ⟨j, List.mem_range.2 (by omega), by rw [hcell i j hij]; rfl⟩
    · simpa using ⟨sub_ne_zero.2 hd, hnz i j hij⟩
  obtain ⟨a, b, r⟩ := C119_partial hf h.staircase.colsObserved (by rw [h.nc]; omega) (by
    intro i hi j hj
    by_cases hij : i + j < n
    · exact Or.inr ⟨_, hcell i j hij⟩
    · exact Or.inl (q.us_miss i j (by omega) (by omega) (by omega))) hne eps
  exact ⟨f, a, b, hf, r⟩

/-- The 3 x 3 example: four non-zero residuals 1, -1, -1, 1. -/
example : (do
    let f ← bootFit exSqrt (fun _ => .nan) exBoot exBoot.a2aind0
    let r ← residualsDetail exSqrt (1 / 10 ^ 15) .ok false f.residUs f.residAdj
    .ok (r.map (fun p => [p.1.sum, p.1.ssqr, p.1.min, p.1.max, p.1.mode, p.1.med, p.1.kurt, p.1.skew, p.1.var])) :
      Except PyErr (Option (List (Num ℚ)))) =
    .ok (some [.fin 0, .fin 4, .fin (-1), .fin 1, .fin (-1), .fin 0, .fin (-2), .fin 0, .fin (4 / 3)]) := by
  decide +kernel

/-- An uneven list: the mode is the smallest most frequent value. -/
example : (residStats exSqrt (1 / 10 ^ 15) .ok [.fin 4, .fin 1, .fin 2, .fin 1, .fin 2] :
    Except PyErr (ResidStats ℚ)).map (fun a => (a.mode, a.med, a.mean, a.var)) =
    .ok (.fin 1, .fin 2, .fin 2, .fin (3 / 2)) := by
  decide +kernel

/-- The pinned scipy on the 3 x 3 example. -/
example : (do
    let f ← bootFit exSqrt (fun _ => .nan) exBoot exBoot.a2aind0
    let r ← residualsDetail exSqrt (1 / 10 ^ 15) modeIdx false f.residUs f.residAdj
    .ok (r.map (fun p => p.1.sum)) : Except PyErr (Option (Num ℚ))) = .error .indexError := by
  decide +kernel

end Trikit
