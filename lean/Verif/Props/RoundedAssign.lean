import Verif.Props.RoundedCal

/-! # C192: high and low link ratios in rounded arithmetic -/

set_option linter.unusedSectionVars false

namespace Trikit

variable {K : Type} [Field K] [LinearOrder K] [IsStrictOrderedRing K]
variable {t : Tri K} {rd : K → K} {u : K}

/-- Every link ratio of a column is positive or missing. -/
def PositiveOrMissing (v : Num K) : Prop := v = .nan ∨ ∃ x, 0 < x ∧ v = .fin x

theorem insertionSort_mono (hm : Monotone rd) (l : List K) :
    (l.map rd).insertionSort (· ≤ ·) = (l.insertionSort (· ≤ ·)).map rd := by
  refine List.Perm.eq_of_pairwise (le := (· ≤ ·)) (fun a b _ _ h1 h2 => le_antisymm h1 h2) ?_ ?_ ?_
  · exact List.pairwise_insertionSort _ _
  · rw [List.pairwise_map]
    exact (List.pairwise_insertionSort (· ≤ ·) l).imp (fun h => hm h)
  · exact (List.perm_insertionSort _ _).trans ((List.perm_insertionSort (· ≤ ·) l).map rd).symm

theorem rel_add {a b a' b' e : K} (ha : 0 ≤ a) (hb : 0 ≤ b) (h1 : |a' - a| ≤ e * |a|) (h2 : |b' - b| ≤ e * |b|) :
    |(a' + b') - (a + b)| ≤ e * |a + b| := by
  rw [abs_of_nonneg (add_nonneg ha hb)]
  rw [abs_of_nonneg ha] at h1
  rw [abs_of_nonneg hb] at h2
  have := abs_add_le (a' - a) (b' - b)
  rw [show a' - a + (b' - b) = a' + b' - (a + b) by ring] at this
  linarith

/-- The median in rounded arithmetic against the exact one. -/
theorem npMedianR_spec (hr : Spec.RelErr rd u) (hm : Monotone rd) (l : List (Num K)) (h : ∀ v ∈ l, PositiveOrMissing v)
    (hne : l.filterMap Num.toFin ≠ []) :
    ∃ m m', npMedian l = .fin m ∧ Spec.IsMedian (l.filterMap Num.toFin) m ∧ 0 < m ∧
      npMedianR rd (l.map (Num.rounded rd)) = .fin m' ∧ |m' - m| ≤ ((1 + u) ^ 3 - 1) * m := by
  have hu := hr.nonneg
  have hfm : ∀ v ∈ l, FiniteOrMissing v := by
    intro v hv
    rcases h v hv with e | ⟨x, -, e⟩
    · exact Or.inl e
    · exact Or.inr ⟨x, e⟩
  obtain ⟨m, hmed, hspec⟩ := npMedian_spec l hfm hne
  have hR : (l.map (Num.rounded rd)).filter (fun v => !v.isNaN) = ((l.filterMap Num.toFin).map rd).map Num.fin := by
    have e1 : (l.map (Num.rounded rd)).filter (fun v => !v.isNaN) = (l.filter (fun v => !v.isNaN)).map (Num.rounded rd) := by
      rw [List.filter_map]
      congr 2
      funext v
      simp [Function.comp, Num.rounded_isNaN]
    rw [e1, filter_finite l hfm, List.map_map, List.map_map]
    rfl
  have hpos : ∀ x ∈ l.filterMap Num.toFin, 0 < x := by
    intro x hx
    obtain ⟨v, hv, hvx⟩ := List.mem_filterMap.1 hx
    rcases h v hv with rfl | ⟨y, hy, rfl⟩
    · simp [Num.toFin] at hvx
    · simp only [Num.toFin, Option.some.injEq] at hvx; rwa [← hvx]
  have hval := hmed
  unfold npMedian at hval
  rw [filter_finite l hfm, npSort_insertionSort] at hval
  unfold npMedianR
  rw [hR, npSort_insertionSort, insertionSort_mono hm]
  set xs := l.filterMap Num.toFin with hxs
  have hp := List.perm_insertionSort (· ≤ ·) xs
  have hl : (xs.insertionSort (· ≤ ·)).length ≠ 0 := by
    rw [hp.length_eq]; exact fun e => hne (List.length_eq_zero_iff.1 e)
  have hpos' : ∀ x ∈ xs.insertionSort (· ≤ ·), 0 < x := fun x hx => hpos x (hp.mem_iff.1 hx)
  generalize xs.insertionSort (· ≤ ·) = s at hl hpos' hval
  have hget : ∀ k (hk : k < s.length), (s.map Num.fin).getD k .nan = .fin s[k] := by
    intro k hk
    rw [List.getD_eq_getElem?_getD, List.getElem?_map, List.getElem?_eq_getElem hk]; rfl
  have hget' : ∀ k (hk : k < s.length), ((s.map rd).map Num.fin).getD k .nan = .fin (rd s[k]) := by
    intro k hk
    rw [List.getD_eq_getElem?_getD, List.getElem?_map, List.getElem?_map, List.getElem?_eq_getElem hk]; rfl
  simp only [List.length_map] at hval ⊢
  have hp3 : u ≤ (1 + u) ^ 3 - 1 := by nlinarith [pow_nonneg hu 2, pow_nonneg hu 3]
  by_cases hodd : s.length % 2 = 1
  · rw [if_pos hodd, hget _ (by omega), Num.fin_inj'] at hval
    rw [if_pos hodd, hget' _ (by omega)]
    have h0 : 0 < m := by rw [← hval]; exact hpos' _ (List.getElem_mem _)
    refine ⟨m, _, hmed, hspec, h0, rfl, ?_⟩
    rw [hval]
    have := hr.err m
    rw [abs_of_pos h0] at this
    exact this.trans (mul_le_mul_of_nonneg_right hp3 h0.le)
  · rw [if_neg hodd, hget _ (by omega), hget _ (by omega), Num.fin_add, Num.fin_div _ _ two_ne_zero, Num.fin_inj'] at hval
    rw [if_neg hodd, hget' _ (by omega), hget' _ (by omega)]
    set a := s[s.length / 2 - 1]'(by omega) with ha
    set b := s[s.length / 2]'(by omega) with hb
    have ha0 : 0 < a := hpos' _ (List.getElem_mem _)
    have hb0 : 0 < b := hpos' _ (List.getElem_mem _)
    have h0 : 0 < m := by rw [← hval]; linarith
    refine ⟨m, rd (rd (rd a + rd b) / 2), hmed, hspec, h0, ?_, ?_⟩
    · unfold Num.divR Num.addR
      rw [Num.fin_add]
      show Num.rounded rd (Num.fin (rd (rd a + rd b)) / Num.fin 2) = _
      rw [Num.fin_div _ _ two_ne_zero]
      rfl
    · have h1 : |(rd a + rd b) - (a + b)| ≤ ((1 + u) - 1) * |a + b| := by
        refine rel_add ha0.le hb0.le ?_ ?_
        · rw [add_sub_cancel_left]; exact hr.err a
        · rw [add_sub_cancel_left]; exact hr.err b
      have h2 := rd_grow hr h1
      have h3 : |rd (rd a + rd b) / 2 - (a + b) / 2| ≤ ((1 + u) * (1 + u) - 1) * |(a + b) / 2| := by
        rw [← sub_div, abs_div, abs_div, ← mul_div_assoc]
        exact div_le_div_of_nonneg_right h2 (abs_nonneg _)
      have h4 := rd_grow hr h3
      rw [hval, abs_of_pos h0] at h4
      calc _ ≤ _ := h4
        _ = _ := by ring

theorem assignOneR_fin (rd : K → K) (x m : K) : assignOneR rd (.fin x) (.fin m) =
    if |rd (x - m)| ≤ rd (rd (1 / 10 ^ 8) + rd (rd (1 / 10 ^ 5) * |m|)) then some 0 else if m < x then some 1
      else some (-1) := by
  unfold assignOneR iscloseR
  simp

/-- The rounded tolerance. -/
theorem tolR_err (hr : Spec.RelErr rd u) (hu : u ≤ 1 / 10 ^ 6) {m m' : K} (hm : 0 < m)
    (he : |m' - m| ≤ ((1 + u) ^ 3 - 1) * m) :
    |rd (rd (1 / 10 ^ 8) + rd (rd (1 / 10 ^ 5) * |m'|)) - tol m| ≤ 7 * u * tol m := by
  have hu0 := hr.nonneg
  have hm' : 0 ≤ m' := by
    have h3 : (1 + u) ^ 3 - 1 ≤ 4 * u := by nlinarith [pow_nonneg hu0 2, pow_nonneg hu0 3, mul_nonneg hu0 (sub_nonneg.2 hu)]
    have h4 := (abs_le.1 he).1
    have : ((1 + u) ^ 3 - 1) * m ≤ 1 * m := mul_le_mul_of_nonneg_right (by linarith) hm.le
    linarith
  rw [abs_of_nonneg hm']
  have h8 := hr.err ((1 : K) / 10 ^ 8)
  have h5 := hr.err ((1 : K) / 10 ^ 5)
  have g1 : |rd ((1 : K) / 10 ^ 5) * m' - 1 / 10 ^ 5 * m| ≤ ((1 + u) ^ 4 - 1) * |1 / 10 ^ 5 * m| := by
    set q : K := 1 / 10 ^ 5
    have hq : 0 < q := by positivity
    rw [abs_of_pos hq] at h5
    rw [abs_of_pos (mul_pos hq hm)]
    have e : rd q * m' - q * m = (rd q - q) * m' + q * (m' - m) := by ring
    rw [e]
    have hmm : m' ≤ (1 + u) ^ 3 * m := by have := (abs_le.1 he).2; linarith
    calc |(rd q - q) * m' + q * (m' - m)| ≤ |rd q - q| * m' + q * |m' - m| := by
          refine (abs_add_le _ _).trans (le_of_eq ?_)
          rw [abs_mul, abs_mul, abs_of_nonneg hm', abs_of_pos hq]
      _ ≤ (u * q) * ((1 + u) ^ 3 * m) + q * (((1 + u) ^ 3 - 1) * m) :=
          add_le_add (mul_le_mul h5 hmm hm' (by positivity)) (mul_le_mul_of_nonneg_left he hq.le)
      _ = _ := by ring
  have g2 := rd_grow hr g1
  have g3 : |rd ((1 : K) / 10 ^ 8) - 1 / 10 ^ 8| ≤ ((1 + u) ^ 4 * (1 + u) - 1) * |(1 : K) / 10 ^ 8| := by
    refine h8.trans (mul_le_mul_of_nonneg_right ?_ (abs_nonneg _))
    have : (1 : K) ≤ (1 + u) ^ 4 := one_le_pow₀ (by linarith)
    nlinarith
  have g4 := rel_add (show (0 : K) ≤ 1 / 10 ^ 8 by positivity) (show (0 : K) ≤ 1 / 10 ^ 5 * m by positivity) g3 g2
  have g5 := rd_grow hr g4
  have ht : tol m = 1 / 10 ^ 8 + 1 / 10 ^ 5 * m := by unfold tol; rw [abs_of_pos hm]
  rw [← ht, abs_of_pos (tol_pos m)] at g5
  refine g5.trans (mul_le_mul_of_nonneg_right ?_ (tol_pos m).le)
  have h6 : (1 + u) ^ 4 * (1 + u) * (1 + u) = (1 + u) ^ 6 := by ring
  rw [h6]
  have hu2 : u ^ 2 ≤ u / 10 ^ 6 := by nlinarith
  have hu1 : u ≤ 1 := by linarith [show (1 : K) / 10 ^ 6 ≤ 1 by norm_num]
  have hk : ∀ k, u ^ (k + 2) ≤ u / 10 ^ 6 := by
    intro k
    rw [pow_add]
    calc u ^ k * u ^ 2 ≤ 1 * u ^ 2 := mul_le_mul_of_nonneg_right (pow_le_one₀ hu0 hu1) (by positivity)
      _ ≤ _ := by linarith
  have e : (1 + u) ^ 6 - 1 = 6 * u + 15 * u ^ 2 + 20 * u ^ 3 + 15 * u ^ 4 + 6 * u ^ 5 + u ^ 6 := by ring
  rw [e]
  have := hk 0; have := hk 1; have := hk 2; have := hk 3; have := hk 4
  norm_num at *
  linarith

/-- Comparison of two distances with two tolerances. -/
theorem close_iff {u x m τ T' D D' R : K} (hu0 : 0 ≤ u) (hu1 : u ≤ 1 / 1000000) (hx0 : 0 < x) (hm0 : 0 < m) (hτ : 0 < τ)
    (hδ : |D' - D| ≤ u * x + 4 * u * m) (hR : |R - D'| ≤ u * |D'|) (hT : |T' - τ| ≤ 7 * u * τ)
    (hmar : 9 * u * (x + m + τ) < |(|D| - τ)|) :
    (|R| ≤ T' ↔ |D| ≤ τ) ∧ (τ < |D| → u * x + 4 * u * m < |D|) := by
  have hux : 0 ≤ u * x := mul_nonneg hu0 hx0.le
  have hum : 0 ≤ u * m := mul_nonneg hu0 hm0.le
  have huτ : 0 ≤ u * τ := mul_nonneg hu0 hτ.le
  have a1 : |D'| ≤ |D| + (u * x + 4 * u * m) := by
    have := abs_sub_abs_le_abs_sub D' D; linarith
  have a2 : |D| - (u * x + 4 * u * m) ≤ |D'| := by
    have := abs_sub_abs_le_abs_sub D D'; rw [abs_sub_comm D D'] at this; linarith
  have a3 : |R| ≤ (1 + u) * |D'| := by have := abs_sub_abs_le_abs_sub R D'; linarith
  have a4 : (1 - u) * |D'| ≤ |R| := by
    have := abs_sub_abs_le_abs_sub D' R; rw [abs_sub_comm D' R] at this; linarith
  obtain ⟨t1, t2⟩ := abs_le.1 hT
  have huuτ : 0 ≤ u * (u * τ) := mul_nonneg hu0 huτ
  have huu : u * (u * τ) ≤ 1 / 1000000 * (u * τ) := mul_le_mul_of_nonneg_right hu1 huτ
  refine ⟨⟨fun hR' => ?_, fun hc => ?_⟩, fun hc => ?_⟩
  · by_contra hc
    rw [not_le] at hc
    rw [abs_of_pos (by linarith)] at hmar
    have b1 : τ + 9 * (u * τ) < |D'| := by linarith
    have b2 : (1 - u) * (τ + 9 * (u * τ)) < (1 - u) * |D'| := mul_lt_mul_of_pos_left b1 (by linarith)
    have b3 : (1 - u) * (τ + 9 * (u * τ)) = τ + 8 * (u * τ) - 9 * (u * (u * τ)) := by ring
    linarith
  · rw [abs_of_nonpos (by linarith)] at hmar
    have b1 : |D'| ≤ τ - 9 * (u * τ) := by linarith
    have b2 : (1 + u) * |D'| ≤ (1 + u) * (τ - 9 * (u * τ)) := mul_le_mul_of_nonneg_left b1 (by linarith)
    have b3 : (1 + u) * (τ - 9 * (u * τ)) = τ - 8 * (u * τ) - 9 * (u * (u * τ)) := by ring
    linarith
  · rw [abs_of_pos (by linarith)] at hmar
    linarith

/-- **C192 (partial)**: in a column of positive link ratios the assignment in rounded arithmetic is that of exact arithmetic
when the distance of the link ratio from the median is not within `9 u (x + m + tolerance)` of the tolerance.  A link
ratio is never called high in one and low in the other.  Missing from the full statement: link ratios that close to the
limit, see `C192_fails`. -/
theorem C192_partial (hr : Spec.RelErr rd u) (hu : u ≤ 1 / 10 ^ 6) (hm : Monotone rd) {j : ℕ}
    (hf : ∀ i < t.a2a.nr, PositiveOrMissing (t.a2a.cell i j)) {i : ℕ} (hi : i < t.a2a.nr) :
    (t.a2a.cell i j = .nan → a2aAssignmentR rd t i j = none ∧ a2aAssignment t i j = none) ∧
    ∀ x, t.a2a.cell i j = .fin x → ∃ m, Spec.IsMedian ((t.a2a.col j).filterMap Num.toFin) m ∧
      (9 * u * (x + m + tol m) < |(|x - m| - tol m)| → a2aAssignmentR rd t i j = a2aAssignment t i j) ∧
      ¬(a2aAssignmentR rd t i j = some 1 ∧ a2aAssignment t i j = some (-1)) ∧
      ¬(a2aAssignmentR rd t i j = some (-1) ∧ a2aAssignment t i j = some 1) := by
  have hu0 := hr.nonneg
  have hcell : ∀ i j, (t.a2aR rd).cell i j = (t.a2a.cell i j).rounded rd := by intro i j; rw [a2aR_eq]
  have hcol : (t.a2aR rd).col j = (t.a2a.col j).map (Num.rounded rd) := by
    rw [a2aR_eq]; unfold Tri.col; rw [List.map_map]; rfl
  refine ⟨fun e => ?_, fun x hx => ?_⟩
  · unfold a2aAssignmentR a2aAssignment
    rw [hcell, e]
    exact ⟨rfl, rfl⟩
  have hmem : Num.fin x ∈ t.a2a.col j := by
    unfold Tri.col; exact List.mem_map.2 ⟨i, List.mem_range.2 hi, hx⟩
  obtain ⟨m, m', h1, h2, hm0, h3, h4⟩ := npMedianR_spec hr hm (t.a2a.col j) (by
    intro v hv
    unfold Tri.col at hv
    obtain ⟨k, hk, rfl⟩ := List.mem_map.1 hv
    exact hf k (List.mem_range.1 hk)) (by
    intro e
    rw [List.filterMap_eq_nil_iff] at e
    have := e _ hmem
    simp [Num.toFin] at this)
  have hx0 : 0 < x := by
    rcases hf i hi with e | ⟨y, hy, e⟩
    · rw [hx] at e; exact absurd e (by simp)
    · rw [hx, Num.fin_inj'] at e; rwa [e]
  have hex : a2aAssignment t i j = if |x - m| ≤ tol m then some 0 else if m < x then some 1 else some (-1) := by
    unfold a2aAssignment; rw [hx, h1, assignOne_fin]
  have htol := tolR_err hr hu hm0 h4
  set T' := rd (rd (1 / 10 ^ 8) + rd (rd (1 / 10 ^ 5) * |m'|)) with hT'
  have hexR : a2aAssignmentR rd t i j = if |rd (rd x - m')| ≤ T' then some 0 else if m' < rd x then some 1
      else some (-1) := by
    unfold a2aAssignmentR; rw [hcell, hx, hcol, h3]; exact assignOneR_fin rd _ _
  have hτ := tol_pos m
  have hτm : m / 10 ^ 5 < tol m := by
    unfold tol; rw [abs_of_pos hm0]
    have : (0 : K) < 1 / 10 ^ 8 := by positivity
    have e : (1 : K) / 10 ^ 5 * m = m / 10 ^ 5 := by ring
    rw [e]; linarith
  have h3u : (1 + u) ^ 3 - 1 ≤ 4 * u := by nlinarith [pow_nonneg hu0 2, pow_nonneg hu0 3, mul_nonneg hu0 (sub_nonneg.2 hu)]
  have h4' : |m' - m| ≤ 4 * u * m := h4.trans (mul_le_mul_of_nonneg_right h3u hm0.le)
  have hxr := hr.err x
  rw [abs_of_pos hx0] at hxr
  have hδ : |(rd x - m') - (x - m)| ≤ u * x + 4 * u * m := by
    rw [show (rd x - m') - (x - m) = (rd x - x) - (m' - m) by ring]
    exact (abs_sub _ _).trans (add_le_add hxr h4')
  have hrd := hr.err (rd x - m')
  set τ := tol m with hτd
  set D := x - m with hD
  set D' := rd x - m' with hD'
  obtain ⟨d1, d2⟩ := abs_le.1 hδ
  have hu1 : u ≤ 1 / 1000000 := by norm_num at hu ⊢; exact hu
  have hDx : D = x - m := hD
  have hDx' : D' = rd x - m' := hD'
  clear_value D D' T' τ
  refine ⟨m, h2, ?_, ?_, ?_⟩
  · intro hmar
    rw [← hτd, ← hDx] at hmar
    rw [hex, hexR]
    obtain ⟨k1, k2⟩ := close_iff hu0 hu1 hx0 hm0 hτ hδ hrd htol hmar
    by_cases hc : |D| ≤ τ
    · rw [if_pos hc, if_pos (k1.2 hc)]
    · rw [if_neg hc, if_neg (fun e => hc (k1.1 e))]
      have hbig := k2 (not_le.1 hc)
      by_cases hs : m < x
      · rw [if_pos hs, if_pos]
        rw [abs_of_pos (show 0 < D by linarith)] at hbig
        linarith
      · rw [if_neg hs, if_neg]
        rw [abs_of_nonpos (show D ≤ 0 by linarith)] at hbig
        linarith
  · rintro ⟨e1, e2⟩
    rw [hexR] at e1
    rw [hex] at e2
    split at e2
    · exact absurd e2 (by decide)
    rename_i hc
    split at e2
    · exact absurd e2 (by decide)
    rename_i hs
    split at e1
    · exact absurd e1 (by decide)
    split at e1
    swap
    · exact absurd e1 (by decide)
    rename_i hlt
    rw [not_le] at hc
    rw [not_lt] at hs
    have hDn : D ≤ 0 := by linarith
    rw [abs_of_nonpos hDn] at hc
    have : 0 < D' := by linarith
    have b1 : u * x ≤ u * m := mul_le_mul_of_nonneg_left hs hu0
    have b2 : u * m ≤ 1 / 1000000 * m := mul_le_mul_of_nonneg_right hu1 hm0.le
    norm_num at hτm
    linarith
  · rintro ⟨e1, e2⟩
    rw [hexR] at e1
    rw [hex] at e2
    split at e2
    · exact absurd e2 (by decide)
    rename_i hc
    split at e2
    swap
    · exact absurd e2 (by decide)
    rename_i hs
    split at e1
    · exact absurd e1 (by decide)
    split at e1
    · exact absurd e1 (by decide)
    rename_i hlt
    rw [not_le] at hc
    rw [not_lt] at hlt
    have hDp : 0 < D := by linarith
    rw [abs_of_pos hDp] at hc
    have : D' ≤ 0 := by linarith
    have b2 : u * m ≤ 1 / 1000000 * m := mul_le_mul_of_nonneg_right hu1 hm0.le
    have b3 : u * D ≤ 1 / 1000000 * D := mul_le_mul_of_nonneg_right hu1 hDp.le
    have b4 : u * x = u * D + u * m := by rw [hDx]; ring
    norm_num at hτm
    linarith

/-- A link ratio exactly at the upper end of the tolerance around the median 1. -/
def edgeVals : ℕ → ℕ → ℚ := fun i j =>
  ((([[10 ^ 8, 10 ^ 7, 10 ^ 9, 10 ^ 9], [10 ^ 8, 10 ^ 8, 10 ^ 9], [10 ^ 8, 100001001], [10 ^ 8]] :
    List (List ℚ)).getD i []).getD j 0)

/-- **C192 (violation)**: at the limit of the tolerance a link ratio is high in double precision, not high in exact
arithmetic. -/
theorem C192_fails : a2aAssignmentR (floatRd 53) (stairTri 4 edgeVals) 2 0 = some 1 ∧
    a2aAssignment (stairTri 4 edgeVals) 2 0 = some 0 := by decide +kernel

example : (List.range 3).map (fun i => a2aAssignmentR (floatRd 53) exTri i 0) =
    (List.range 3).map (fun i => a2aAssignment exTri i 0) := by decide +kernel

end Trikit
