import Verif.Props.RoundedOrder
import Verif.Props.Windows
import Verif.RoundedMackLemmas

/-!
# C162: rounding errors of the base chain ladder with medial averages

`_medial` (triangle.py:523-574) leaves out every link ratio equal to the smallest or to the largest one.  In rounded
arithmetic it compares rounded link ratios, so that different ratios which round to the same number are left out together.
-/

set_option linter.unusedSectionVars false

namespace Trikit

variable {K : Type} [Field K] [LinearOrder K] [IsStrictOrderedRing K]
variable {t : Tri K} {n : ℕ} {c : ℕ → ℕ → K} {u : K} {rd : K → K} {br : ℕ → SumTree}

/-! ## specification -/

/-- Those members of `w` a medial average uses: all, if there are at most two or all values are equal, otherwise those with
both a smaller and a larger value in `w`. -/
def Spec.medialIdx (w : List ℕ) (a : ℕ → K) : List ℕ :=
  if w.length ≤ 2 ∨ ∀ i ∈ w, ∀ i' ∈ w, a i = a i' then w
  else w.filter (fun i => decide ((∃ i' ∈ w, a i' < a i) ∧ ∃ i' ∈ w, a i < a i'))

/-- Link ratio of origin `i` in period `j`. -/
def Spec.ratioAt (c : ℕ → ℕ → K) (j i : ℕ) : K := c i (j + 1) / c i j

/-- Different link ratios of one window are different after rounding. -/
def Spec.Separated (rd : K → K) (n k : ℕ) (c : ℕ → ℕ → K) : Prop :=
  ∀ j < n - 1, ∀ i ∈ wOrigins n k j, ∀ i' ∈ wOrigins n k j, Spec.ratioAt c j i ≠ Spec.ratioAt c j i' →
    rd (Spec.ratioAt c j i) ≠ rd (Spec.ratioAt c j i')

/-! ## medial averages -/

theorem medialIdx_sub {w : List ℕ} {a : ℕ → K} : ∀ i ∈ Spec.medialIdx w a, i ∈ w := by
  intro i hi
  unfold Spec.medialIdx at hi
  split at hi
  · exact hi
  · exact (List.mem_filter.1 hi).1

theorem medialIdx_length (w : List ℕ) (a : ℕ → K) : (Spec.medialIdx w a).length ≤ w.length := by
  unfold Spec.medialIdx
  split
  · exact le_rfl
  · exact List.length_filter_le _ _

theorem medialIdx_congr {w : List ℕ} {a b : ℕ → K} (h : ∀ i ∈ w, ∀ i' ∈ w, (a i < a i' ↔ b i < b i')) :
    Spec.medialIdx w a = Spec.medialIdx w b := by
  have heq : (∀ i ∈ w, ∀ i' ∈ w, a i = a i') ↔ ∀ i ∈ w, ∀ i' ∈ w, b i = b i' := by
    constructor
    · intro hall i hi i' hi'
      have e := hall i hi i' hi'
      have h1 := (not_congr (h i hi i' hi')).1 (by rw [e]; exact lt_irrefl _)
      have h2 := (not_congr (h i' hi' i hi)).1 (by rw [e]; exact lt_irrefl _)
      exact le_antisymm (not_lt.1 h2) (not_lt.1 h1)
    · intro hall i hi i' hi'
      have e := hall i hi i' hi'
      have h1 := (not_congr (h i hi i' hi')).2 (by rw [e]; exact lt_irrefl _)
      have h2 := (not_congr (h i' hi' i hi)).2 (by rw [e]; exact lt_irrefl _)
      exact le_antisymm (not_lt.1 h2) (not_lt.1 h1)
  unfold Spec.medialIdx
  by_cases hc : w.length ≤ 2 ∨ ∀ i ∈ w, ∀ i' ∈ w, a i = a i'
  · rw [if_pos hc, if_pos (by rw [← heq]; exact hc)]
  · rw [if_neg hc, if_neg (by rw [← heq]; exact hc)]
    apply List.filter_congr
    intro i hi
    simp only [decide_eq_decide]
    constructor
    · rintro ⟨⟨x, hx, h1⟩, y, hy, h2⟩
      exact ⟨⟨x, hx, (h x hx i hi).1 h1⟩, y, hy, (h i hi y hy).1 h2⟩
    · rintro ⟨⟨x, hx, h1⟩, y, hy, h2⟩
      exact ⟨⟨x, hx, (h x hx i hi).2 h1⟩, y, hy, (h i hi y hy).2 h2⟩

/-- The kept values in terms of the extremes. -/
theorem medialIdx_filter {w : List ℕ} {a : ℕ → K} {lo hi : K} (hlo : lo ∈ w.map a) (hlo' : ∀ x ∈ w.map a, lo ≤ x)
    (hhi : hi ∈ w.map a) (hhi' : ∀ x ∈ w.map a, x ≤ hi) (hne : lo ≠ hi) (hl : ¬ w.length ≤ 2) :
    (Spec.medialIdx w a).map a = (w.map a).filter (fun x => x ≠ lo ∧ x ≠ hi) := by
  have hc : ¬ (w.length ≤ 2 ∨ ∀ i ∈ w, ∀ i' ∈ w, a i = a i') := by
    rintro (e | e)
    · exact hl e
    · obtain ⟨i, hi1, rfl⟩ := List.mem_map.1 hlo
      obtain ⟨i', hi2, rfl⟩ := List.mem_map.1 hhi
      exact hne (e i hi1 i' hi2)
  unfold Spec.medialIdx
  rw [if_neg hc, List.filter_map]
  congr 1
  apply List.filter_congr
  intro i hi1
  have m1 := hlo' (a i) (List.mem_map_of_mem hi1)
  have m2 := hhi' (a i) (List.mem_map_of_mem hi1)
  simp only [Function.comp, decide_eq_decide]
  constructor
  · rintro ⟨⟨x, hx, h1⟩, y, hy, h2⟩
    have := hlo' (a x) (List.mem_map_of_mem hx)
    have := hhi' (a y) (List.mem_map_of_mem hy)
    exact ⟨(lt_of_le_of_lt ‹_› h1).ne', (lt_of_lt_of_le h2 ‹_›).ne⟩
  · rintro ⟨h1, h2⟩
    obtain ⟨x, hx, ex⟩ := List.mem_map.1 hlo
    obtain ⟨y, hy, ey⟩ := List.mem_map.1 hhi
    exact ⟨⟨x, hx, by rw [ex]; exact lt_of_le_of_ne m1 (Ne.symm h1)⟩, y, hy, by rw [ey]; exact lt_of_le_of_ne m2 h2⟩

theorem medialIdx_eq {w : List ℕ} {a : ℕ → K} {lo hi : K} (hlo' : ∀ x ∈ w.map a, lo ≤ x)
    (hhi' : ∀ x ∈ w.map a, x ≤ hi) (he : lo = hi) : Spec.medialIdx w a = w ∧ ∀ i ∈ w, a i = lo := by
  have key : ∀ i ∈ w, a i = lo := fun i hi1 =>
    le_antisymm (he ▸ hhi' _ (List.mem_map_of_mem hi1)) (hlo' _ (List.mem_map_of_mem hi1))
  refine ⟨?_, key⟩
  unfold Spec.medialIdx
  rw [if_pos (Or.inr fun i hi1 i' hi2 => by rw [key i hi1, key i' hi2])]

theorem mean_const {l : List ℕ} (hl : l ≠ []) {a : ℕ → K} {x : K} (h : ∀ i ∈ l, a i = x) : Spec.mean (l.map a) = x := by
  have e : l.map a = List.replicate l.length x := by
    rw [List.eq_replicate_iff]
    refine ⟨by simp, ?_⟩
    intro y hy
    obtain ⟨i, hi, rfl⟩ := List.mem_map.1 hy
    exact h i hi
  have hp : (0 : K) < l.length := by exact_mod_cast List.length_pos_of_ne_nil hl
  unfold Spec.mean
  rw [e, List.sum_replicate, List.length_replicate, nsmul_eq_mul]
  field_simp

/-- The medial average of exact numbers. -/
theorem medialAvg_idx {w : List ℕ} (hw : w ≠ []) (a : ℕ → K) :
    medialAvg ((w.map a).map Num.fin) =
      .ok (if Spec.medialIdx w a = [] then .nan else .fin (Spec.mean ((Spec.medialIdx w a).map a))) := by
  obtain ⟨lo, hi, h1, h2, h3, h4⟩ := exists_min_max (l := w.map a) (by simpa using hw)
  rw [medialAvg_spec h1 h2 h3 h4]
  congr 1
  by_cases he : lo = hi
  · obtain ⟨e1, e2⟩ := medialIdx_eq h2 h4 he
    rw [if_pos he, e1, if_neg hw, mean_const hw e2]
  · rw [if_neg he]
    by_cases hl : w.length ≤ 2
    · have e1 : Spec.medialIdx w a = w := by unfold Spec.medialIdx; rw [if_pos (Or.inl hl)]
      rw [if_pos (by simpa using hl), e1, if_neg hw]
    · rw [if_neg (by simpa using hl), ← medialIdx_filter h1 h2 h3 h4 he hl]
      simp only [List.map_eq_nil_iff]

/-- The rounded mean of numbers in any order. -/
theorem npMeanR_near (hr : Spec.RelErr rd u) (hb : Spec.Bracketing br) {l l' : List K} (hl : l ≠ [])
    (hpos : ∀ x ∈ l, 0 < x) (hp : l'.Perm l) :
    ∃ y, npMeanR br rd (l'.map Num.fin) = .fin y ∧ 0 < y ∧ 0 < Spec.mean l ∧ Spec.Near u l.length (Spec.mean l) y := by
  have hne : l' ≠ [] := by rintro rfl; exact hl hp.symm.eq_nil
  have hlen : (0 : K) < l.length := by exact_mod_cast List.length_pos_of_ne_nil hl
  have hpos' : ∀ x ∈ l', 0 < (id x) := fun x hx => hpos x (hp.subset hx)
  obtain ⟨h1, h2, h3⟩ := sum_near hr hb hne (k := 0) hpos' hpos'
    (fun x hx => near_refl hr.nonneg hr.lt_one (hpos' x hx))
  rw [List.map_id] at h1 h2 h3
  have hll := hp.length_eq
  have hsum : l'.sum = l.sum := hp.sum_eq
  rw [hsum] at h1 h3
  refine ⟨rd (roundedSum br rd l' / l.length), ?_, rd_pos hr (div_pos h2 hlen), div_pos h1 hlen, ?_⟩
  · unfold npMeanR
    rw [sumR_fin, List.length_map, hll, Num.fin_div _ _ hlen.ne']
    rfl
  · have h4 := near_div hr.lt_one h1 h2 hlen hlen h3 (near_refl hr.nonneg hr.lt_one (k := 0) hlen)
    have h5 := near_rd' hr (div_pos h2 hlen) h4
    refine near_mono hr.nonneg hr.lt_one ?_ (div_pos h1 hlen) (rd_pos hr (div_pos h2 hlen)) h5
    have := List.length_pos_of_ne_nil hl
    omega

/-- The medial average in rounded arithmetic. -/
theorem medialAvgR_idx (hr : Spec.RelErr rd u) (hb : Spec.Bracketing br) {w : List ℕ} (hw : w ≠ []) {b : ℕ → K}
    (hpos : ∀ i ∈ w, 0 < b i) :
    (Spec.medialIdx w b = [] → medialAvgR br rd ((w.map b).map Num.fin) = .ok .nan) ∧
    (Spec.medialIdx w b ≠ [] → ∃ y, medialAvgR br rd ((w.map b).map Num.fin) = .ok (.fin y) ∧ 0 < y ∧
      0 < Spec.mean ((Spec.medialIdx w b).map b) ∧
      Spec.Near u (Spec.medialIdx w b).length (Spec.mean ((Spec.medialIdx w b).map b)) y) := by
  have hposl : ∀ x ∈ w.map b, 0 < x := by
    intro x hx
    obtain ⟨i, hi, rfl⟩ := List.mem_map.1 hx
    exact hpos i hi
  obtain ⟨lo, hi, m1, m2, m3, m4⟩ := exists_min_max (l := w.map b) (by simpa using hw)
  obtain ⟨l', s1, s2⟩ := npSort_fin (w.map b)
  unfold medialAvgR
  rw [s1]
  cases l' with
  | nil => exact absurd s2.symm.eq_nil (by simpa using hw)
  | cons a rest =>
    simp only [List.map_cons]
    have ha : a ∈ w.map b := s2.subset (by simp)
    by_cases he : lo = hi
    · obtain ⟨e1, e2⟩ := medialIdx_eq m2 m4 he
      have hall : (Num.fin a :: rest.map Num.fin).all (fun v => Num.eqF v (.fin a)) = true := by
        rw [← List.map_cons, List.all_map, List.all_eq_true]
        intro x hx
        have hx' := s2.subset hx
        have e3 : x = lo := le_antisymm (he ▸ m4 x hx') (m2 x hx')
        have e4 : a = lo := le_antisymm (he ▸ m4 a ha) (m2 a ha)
        simp [e3, e4]
      rw [if_pos hall, e1]
      refine ⟨fun e => absurd e hw, fun _ => ⟨a, rfl, hposl a ha, ?_⟩⟩
      have e4 : a = lo := le_antisymm (he ▸ m4 a ha) (m2 a ha)
      rw [mean_const hw e2, ← e4]
      exact ⟨hposl a ha, near_refl hr.nonneg hr.lt_one (hposl a ha)⟩
    · have hall : ¬ (Num.fin a :: rest.map Num.fin).all (fun v => Num.eqF v (.fin a)) = true := by
        rw [← List.map_cons, List.all_map, List.all_eq_true]
        intro hall
        have e1 : lo = a := by simpa using hall lo (s2.symm.subset m1)
        have e2 : hi = a := by simpa using hall hi (s2.symm.subset m3)
        exact he (e1.trans e2.symm)
      have hl1 : (Num.fin a :: rest.map Num.fin).length = w.length := by
        have := s2.length_eq
        simp at this
        simp [this]
      have hne1 : w.length ≠ 1 := by
        intro e
        obtain ⟨x, rfl⟩ := List.length_eq_one_iff.1 e
        simp at m1 m3
        exact he (m1.trans m3.symm)
      have hne0 : w.length ≠ 0 := by simpa using hw
      rw [if_neg hall, hl1, if_neg hne1]
      by_cases h22 : w.length = 2
      · have e1 : Spec.medialIdx w b = w := by unfold Spec.medialIdx; rw [if_pos (Or.inl (by omega))]
        rw [if_pos h22, e1]
        refine ⟨fun e => absurd e hw, fun _ => ?_⟩
        obtain ⟨y, y1, y2, y3, y4⟩ := npMeanR_near hr hb (l := w.map b) (by simpa using hw) hposl s2
        refine ⟨y, ?_, y2, y3, by simpa using y4⟩
        rw [← List.map_cons, y1]
      · rw [if_neg h22]
        obtain ⟨m, hm1, hm2, hm3⟩ := npMin_fin a rest
        obtain ⟨M, hM1, hM2, hM3⟩ := npMax_fin a rest
        have em : m = lo := le_antisymm (hm3 lo (s2.symm.subset m1)) (m2 m (s2.subset hm2))
        have eM : M = hi := le_antisymm (m4 M (s2.subset hM2)) (hM3 hi (s2.symm.subset m3))
        have hkeep := medialIdx_filter m1 m2 m3 m4 he (show ¬ w.length ≤ 2 by omega)
        rw [hm1, hM1, em, eM, ← List.map_cons, List.filter_map]
        have hfilt : ((a :: rest).filter
            ((fun v => !(Num.eqF v (.fin lo)) && !(Num.eqF v (.fin hi))) ∘ Num.fin)).Perm
            ((Spec.medialIdx w b).map b) := by
          rw [hkeep]
          have : (fun x : K => decide (x ≠ lo ∧ x ≠ hi)) =
              ((fun v => !(Num.eqF v (.fin lo)) && !(Num.eqF v (.fin hi))) ∘ Num.fin) := by
            funext x
            simp [Function.comp]
          rw [this]
          exact s2.filter _
        constructor
        · intro e
          rw [e] at hfilt
          rw [if_pos (by rw [hfilt.eq_nil]; rfl)]
        · intro e
          have hne : (a :: rest).filter
              ((fun v => !(Num.eqF v (.fin lo)) && !(Num.eqF v (.fin hi))) ∘ Num.fin) ≠ [] := by
            intro e'
            rw [e'] at hfilt
            exact e (by simpa using hfilt.symm.eq_nil)
          obtain ⟨y, y1, y2, y3, y4⟩ := npMeanR_near hr hb (l := (Spec.medialIdx w b).map b) (by simpa using e)
            (fun x hx => by
              obtain ⟨i, hi1, rfl⟩ := List.mem_map.1 hx
              exact hpos i (medialIdx_sub i hi1)) hfilt
          refine ⟨y, ?_, y2, y3, by simpa using y4⟩
          rw [if_neg (by simpa using hne), y1]

theorem sum_near_exact (h1 : u < 1) {l : List ℕ} {a b : ℕ → K} {k : ℕ} (hn : ∀ i ∈ l, Spec.Near u k (a i) (b i)) :
    Spec.Near u k (l.map a).sum (l.map b).sum := by
  unfold Spec.Near
  rw [← List.sum_map_mul_left, ← List.sum_map_mul_left]
  exact ⟨List.sum_le_sum fun i hi => (hn i hi).1, List.sum_le_sum fun i hi => (hn i hi).2⟩

theorem mean_near (h0 : 0 ≤ u) (h1 : u < 1) {l : List ℕ} (hl : l ≠ []) {a b : ℕ → K} {k : ℕ} (ha : ∀ i ∈ l, 0 < a i)
    (hb : ∀ i ∈ l, 0 < b i) (hn : ∀ i ∈ l, Spec.Near u k (a i) (b i)) :
    0 < Spec.mean (l.map a) ∧ Spec.Near u k (Spec.mean (l.map a)) (Spec.mean (l.map b)) := by
  have hlen : (0 : K) < l.length := by exact_mod_cast List.length_pos_of_ne_nil hl
  have pa : 0 < (l.map a).sum := map_sum_pos hl ha
  have pb : 0 < (l.map b).sum := map_sum_pos hl hb
  unfold Spec.mean
  rw [List.length_map, List.length_map]
  refine ⟨div_pos pa hlen, ?_⟩
  have := near_div h1 pa pb hlen hlen (sum_near_exact h1 hn) (near_refl h0 h1 (k := 0) hlen)
  simpa using this

/-! ## the entries of the table -/

theorem lastN_ratios (n k j : ℕ) (c : ℕ → ℕ → K) :
    Spec.lastN k (Spec.ratios n c j) = (wOrigins n k j).map (Spec.ratioAt c j) := by
  unfold Spec.ratios wOrigins
  rw [lastN_map]
  rfl

theorem lastN_ratiosR (rd : K → K) (n k j : ℕ) (c : ℕ → ℕ → K) :
    Spec.lastN k (Spec.ratiosR rd n c j) = (wOrigins n k j).map (fun i => rd (rd (Spec.ratioAt c j i))) := by
  unfold Spec.ratiosR wOrigins
  rw [lastN_map]
  rfl

theorem ratioAt_pos (hp : Spec.Positive n c) {k j : ℕ} : ∀ i ∈ wOrigins n k j, 0 < Spec.ratioAt c j i := fun i hi =>
  div_pos (hp _ _ (by have := wOrigins_lt hi; omega)) (hp _ _ (by have := wOrigins_lt hi; omega))

/-- The link ratios of a window in rounded arithmetic. -/
theorem windowR (hr : Spec.RelErr rd u) (h : Spec.Stair t n c) (hp : Spec.Positive n c) (k : ℕ) {j : ℕ} (hj : j < n - 1) :
    avgWindow ((Tri.alignOp (fun a b => (a * b).rounded rd) (t.a2aR rd) t.a2aind0).col j) k =
      ((wOrigins n k j).map (fun i => rd (rd (Spec.ratioAt c j i)))).map Num.fin := by
  have hmem : ∀ x ∈ Spec.lastN k (Spec.ratiosR rd n c j), 0 < x := by
    rw [lastN_ratiosR]
    intro x hx
    obtain ⟨i, hi, rfl⟩ := List.mem_map.1 hx
    exact rd_pos hr (rd_pos hr (ratioAt_pos hp i hi))
  rw [adj_colR rd h hp.ne_zero hj, avgWindow_spec, filter_pos_eq _ hmem, lastN_ratiosR]

theorem separated_lt {N : ℕ} (hm : Spec.MonoRd rd N) {k : ℕ} (hs : Spec.Separated rd n k c) {j : ℕ} (hj : j < n - 1) :
    ∀ i ∈ wOrigins n k j, ∀ i' ∈ wOrigins n k j, (Spec.ratioAt c j i < Spec.ratioAt c j i' ↔
      rd (rd (Spec.ratioAt c j i)) < rd (rd (Spec.ratioAt c j i'))) := by
  intro i hi i' hi'
  rw [hm.idem, hm.idem]
  constructor
  · intro hlt
    exact lt_of_le_of_ne (hm.mono hlt.le) (hs j hj i hi i' hi' hlt.ne)
  · intro hlt
    by_contra hc
    exact absurd (hm.mono (not_lt.1 hc)) (not_le.2 hlt)

/-- **C162, entries.** If rounding keeps different link ratios of a window different, the medial average over the window is
NaN in rounded arithmetic exactly when it is NaN in exact arithmetic, and otherwise both are positive numbers that differ
by at most `2(n-1-j)+1` relative errors. -/
theorem C162_entries (gm gm' : List (Num K) → Num K) (h : Spec.Stair t n c) (hp : Spec.Positive n c)
    (hr : Spec.RelErr rd u) {N : ℕ} (hm : Spec.MonoRd rd N) (hb : Spec.Bracketing br) {k : ℕ}
    (hs : Spec.Separated rd n k c) {j : ℕ} (hj : j < n - 1) :
    (Spec.medialIdx (wOrigins n k j) (Spec.ratioAt c j) = [] ∧ avgEntry gm t t.a2aind0 .medial k j = .ok .nan ∧
      avgCellR br rd gm' t (Tri.alignOp (fun a b => (a * b).rounded rd) (t.a2aR rd) t.a2aind0) .medial k j = .ok .nan) ∨
    (Spec.medialIdx (wOrigins n k j) (Spec.ratioAt c j) ≠ [] ∧
      ∃ x y, avgEntry gm t t.a2aind0 .medial k j = .ok (.fin x) ∧
      avgCellR br rd gm' t (Tri.alignOp (fun a b => (a * b).rounded rd) (t.a2aR rd) t.a2aind0) .medial k j = .ok (.fin y) ∧
      x = Spec.mean ((Spec.medialIdx (wOrigins n k j) (Spec.ratioAt c j)).map (Spec.ratioAt c j)) ∧
      0 < x ∧ 0 < y ∧ Spec.Near u (2 * (n - 1 - j) + 1) x y) := by
  have hw := wOrigins_ne_nil (k := k) hj
  have hlen := wOrigins_length (n := n) k j
  have hlp := List.length_pos_of_ne_nil hw
  have hpos : ∀ i ∈ wOrigins n k j, 0 < rd (rd (Spec.ratioAt c j i)) := fun i hi =>
    rd_pos hr (rd_pos hr (ratioAt_pos hp i hi))
  have hidx := medialIdx_congr (separated_lt hm hs hj)
  have hml := medialIdx_length (wOrigins n k j) (Spec.ratioAt c j)
  have hE : avgEntry gm t t.a2aind0 .medial k j = medialAvg (((wOrigins n k j).map (Spec.ratioAt c j)).map Num.fin) := by
    rw [entry_medial h hp.ne_zero (h.indOn0 hp.ne_zero) hj, window_noexcl hp, lastN_ratios]
  have hR : avgCellR br rd gm' t (Tri.alignOp (fun a b => (a * b).rounded rd) (t.a2aR rd) t.a2aind0) .medial k j =
      medialAvgR br rd (((wOrigins n k j).map (fun i => rd (rd (Spec.ratioAt c j i)))).map Num.fin) := by
    show medialAvgR br rd (avgWindow _ k) = _
    rw [windowR hr h hp k hj]
  have hk1 := medialAvgR_idx hr hb hw hpos
  rw [← hidx] at hk1
  by_cases he : Spec.medialIdx (wOrigins n k j) (Spec.ratioAt c j) = []
  · left
    refine ⟨he, ?_, ?_⟩
    · rw [hE, medialAvg_idx hw, if_pos he]
    · rw [hR]; exact hk1.1 he
  · right
    obtain ⟨y, y1, y2, _, y4⟩ := hk1.2 he
    obtain ⟨p1, p2⟩ := mean_near hr.nonneg hr.lt_one he (k := 2) (fun i hi => ratioAt_pos hp i (medialIdx_sub i hi))
      (fun i hi => hpos i (medialIdx_sub i hi)) (fun i hi => near_rd' hr (rd_pos hr (ratioAt_pos hp i (medialIdx_sub i hi)))
        (near_rd hr (ratioAt_pos hp i (medialIdx_sub i hi))))
    refine ⟨he, _, y, ?_, ?_, rfl, p1, y2, ?_⟩
    · rw [hE, medialAvg_idx hw, if_neg he]
    · rw [hR]; exact y1
    · exact near_mono hr.nonneg hr.lt_one (by omega) p1 y2 (near_trans hr.lt_one p2 y4)

/-! ## the estimator -/

/-- Error bounds of the estimator from the factors of any kind of average. -/
theorem errorBounds_of_entries (gm gm' : List (Num K) → Num K) (h : Spec.Stair t n c) (hp : Spec.Positive n c) (hn : 3 ≤ n)
    (hr : Spec.RelErr rd u) (hb : Spec.Bracketing br) (hu : 2 * ((n : K) ^ 2 + 2 * n) * u ≤ 1) (kind : AvgKind) {k : ℕ}
    (hk : k < n - 1) {tail : K} (htail : 0 < tail) {g g' : ℕ → K}
    (hg : ∀ j < n - 1, avgEntry gm t t.a2aind0 kind k j = .ok (.fin (g j)))
    (hg' : ∀ j < n - 1, avgCellR br rd gm' t (Tri.alignOp (fun a b => (a * b).rounded rd) (t.a2aR rd) t.a2aind0) kind k j =
      .ok (.fin (g' j)))
    (hpos : ∀ j < n - 1, 0 < g j) (hpos' : ∀ j < n - 1, 0 < g' j)
    (hnear : ∀ j < n - 1, Spec.Near u (2 * (n - 1 - j) + 1) (g j) (g' j)) :
    ∃ r r', baseCL gm t t.a2aind0 (Spec.avgName kind.name k) (.fin tail) = .ok r ∧
      baseCLR br rd gm' t t.a2aind0 (Spec.avgName kind.name k) (.fin tail) = .ok r' ∧
      Spec.ErrorBounds u n r r' := by
  set f := Spec.withTail g n tail with hfdef
  set f' := Spec.withTail g' n tail with hfdef'
  have hf0 : ∀ j, j + 1 < n → f j = g j := fun j hj => by rw [hfdef]; unfold Spec.withTail; rw [if_pos hj]
  have hf0' : ∀ j, j + 1 < n → f' j = g' j := fun j hj => by rw [hfdef']; unfold Spec.withTail; rw [if_pos hj]
  have hft : f (n - 1) = tail := by rw [hfdef]; unfold Spec.withTail; rw [if_neg (by omega)]
  have hft' : f' (n - 1) = tail := by rw [hfdef']; unfold Spec.withTail; rw [if_neg (by omega)]
  have hF : Spec.NearFactors u n f f' := by
    refine ⟨?_, ?_, ?_, by rw [hft, hft']⟩
    · intro j hj
      by_cases e : j + 1 < n
      · rw [hf0 j e]; exact hpos j (by omega)
      · rw [show j = n - 1 by omega, hft]; exact htail
    · intro j hj
      by_cases e : j + 1 < n
      · rw [hf0' j e]; exact hpos' j (by omega)
      · rw [show j = n - 1 by omega, hft']; exact htail
    · intro j hj
      rw [hf0 j hj, hf0' j hj]; exact hnear j (by omega)
  obtain ⟨r, lab, r1, r2, _, r4, r5⟩ := baseCL_stair h hp.ne_zero (h.indOn0 hp.ne_zero) hn
    (rowIs_window gm h hp kind hk hg) tail
  obtain ⟨tab, a1, a2, a3⟩ := a2aAvgsR_row br rd gm' h hp.ne_zero (ratio_posR hr hp) hk kind hg'
  obtain ⟨l, l1, l2, lab', l3, l4⟩ := ldfsByNameR_spec br rd gm' h hp.ne_zero hn a1 a2 a3 tail
  obtain ⟨r', s1, s2⟩ := base_coreR br rd h (by omega) l2
  rw [← hfdef] at r4 r5
  rw [← hfdef'] at l2 s2
  have hlab : lab' = lab := by
    rw [r2] at l4
    injection l4 with e
    exact e.symm
  have hdl : t.devs.length = n := h.nc
  have s1' : baseCLR br rd gm' t t.a2aind0 (Spec.avgName kind.name k) (.fin tail) = .ok r' := by
    unfold baseCLR
    rw [l1]
    exact s1
  have hfac := s2.factors
  refine ⟨r, r', r1, s1', errorBounds_core hp hn hr hb hu hF r5 s2 ?_ ?_ (by rw [hfac]; exact l2)⟩
  · rw [hfac, l3, r4, List.map_fst_zip (by simp [hdl]; omega), hlab]
  · unfold LdfVals
    rw [r4, List.map_snd_zip (by simp [hdl]; omega)]

/-- **C162, part that holds.** Rounding errors of `base_cl` with medial averages.  If rounding keeps different link ratios
of every window different and the exact medial averages are numbers, the bounds of C142 hold. -/
theorem C162_partial (gm gm' : List (Num K) → Num K) (h : Spec.Stair t n c) (hp : Spec.Positive n c) (hn : 3 ≤ n)
    (hr : Spec.RelErr rd u) {N : ℕ} (hm : Spec.MonoRd rd N) (hb : Spec.Bracketing br)
    (hu : 2 * ((n : K) ^ 2 + 2 * n) * u ≤ 1) {k : ℕ} (hk : k < n - 1) (hs : Spec.Separated rd n k c)
    (hmid : ∀ j < n - 1, Spec.medialIdx (wOrigins n k j) (Spec.ratioAt c j) ≠ []) {tail : K} (htail : 0 < tail) :
    ∃ r r', baseCL gm t t.a2aind0 (Spec.avgName "medial" k) (.fin tail) = .ok r ∧
      baseCLR br rd gm' t t.a2aind0 (Spec.avgName "medial" k) (.fin tail) = .ok r' ∧
      Spec.ErrorBounds u n r r' := by
  have key : ∀ j, ∃ x y : K, j < n - 1 → avgEntry gm t t.a2aind0 .medial k j = .ok (.fin x) ∧
      avgCellR br rd gm' t (Tri.alignOp (fun a b => (a * b).rounded rd) (t.a2aR rd) t.a2aind0) .medial k j = .ok (.fin y) ∧
      0 < x ∧ 0 < y ∧ Spec.Near u (2 * (n - 1 - j) + 1) x y := by
    intro j
    by_cases hj : j < n - 1
    · rcases C162_entries (br := br) gm gm' h hp hr hm hb hs hj with ⟨e, _⟩ | ⟨_, x, y, e1, e2, _, e3⟩
      · exact absurd e (hmid j hj)
      · exact ⟨x, y, fun _ => ⟨e1, e2, e3⟩⟩
    · exact ⟨0, 0, fun e => absurd e hj⟩
  choose g g' hgg using key
  exact errorBounds_of_entries gm gm' h hp hn hr hb hu .medial hk htail (fun j hj => (hgg j hj).1)
    (fun j hj => (hgg j hj).2.1) (fun j hj => (hgg j hj).2.2.1) (fun j hj => (hgg j hj).2.2.2.1)
    (fun j hj => (hgg j hj).2.2.2.2)

/-! ## whole amounts -/

/-- All amounts of the triangle are whole numbers up to `N`. -/
def Spec.WholeUpTo (N n : ℕ) (c : ℕ → ℕ → K) : Prop := ∀ i j, i + j < n → ∃ m : ℕ, m ≤ N ∧ c i j = m

theorem rd_gap (hr : Spec.RelErr rd u) {x y : K} (hx : 0 < x) (hlt : x < y) (hgap : 2 * u * y ≤ y - x) : rd x ≠ rd y := by
  intro e
  have h1 := hr.err x
  have h2 := hr.err y
  rw [abs_of_pos hx] at h1
  rw [abs_of_pos (hx.trans hlt)] at h2
  have e1 := (abs_le.1 h1).2
  have e2 := (abs_le.1 h2).1
  rw [e] at e1
  have h0 := hr.nonneg
  rcases h0.eq_or_lt with h00 | h00
  · rw [← h00] at e1 e2
    linarith
  · have := mul_lt_mul_of_pos_left hlt h00
    linarith

/-- Whole amounts up to `N` with `2N²u ≤ 1`: different link ratios stay different. -/
theorem separated_of_whole (hr : Spec.RelErr rd u) (hp : Spec.Positive n c) {N : ℕ} (hw : Spec.WholeUpTo N n c)
    (hN : 2 * (N : K) ^ 2 * u ≤ 1) (k : ℕ) : Spec.Separated rd n k c := by
  have key : ∀ j, ∀ i ∈ wOrigins n k j, ∀ i' ∈ wOrigins n k j, Spec.ratioAt c j i < Spec.ratioAt c j i' →
      rd (Spec.ratioAt c j i) ≠ rd (Spec.ratioAt c j i') := by
    intro j i hi i' hi' hlt
    have hx := ratioAt_pos hp i hi
    have b1 := wOrigins_lt hi
    have b2 := wOrigins_lt hi'
    refine rd_gap hr hx hlt ?_
    unfold Spec.ratioAt at hlt hx ⊢
    have pa := hp i (j + 1) (by omega)
    have pb := hp i j (by omega)
    have pc := hp i' (j + 1) (by omega)
    have pd := hp i' j (by omega)
    obtain ⟨a, ha, ea⟩ := hw i (j + 1) (by omega)
    obtain ⟨b, hb, eb⟩ := hw i j (by omega)
    obtain ⟨e, he, ee⟩ := hw i' (j + 1) (by omega)
    obtain ⟨d, hd, ed⟩ := hw i' j (by omega)
    rw [ea] at pa hlt ⊢
    rw [eb] at pb hlt ⊢
    rw [ee] at pc hlt ⊢
    rw [ed] at pd hlt ⊢
    rw [div_lt_div_iff₀ pb pd] at hlt
    have h1 : (a : K) * d + 1 ≤ e * b := by
      have : a * d < e * b := by exact_mod_cast hlt
      exact_mod_cast this
    have hbK : (b : K) ≤ N := by exact_mod_cast hb
    have heK : (e : K) ≤ N := by exact_mod_cast he
    have h2 : 2 * u * ((e : K) * b) ≤ 1 := by
      have : (e : K) * b ≤ N ^ 2 := by nlinarith
      have h0 := hr.nonneg
      calc 2 * u * ((e : K) * b) ≤ 2 * u * N ^ 2 := mul_le_mul_of_nonneg_left this (by linarith)
        _ = 2 * (N : K) ^ 2 * u := by ring
        _ ≤ 1 := hN
    rw [div_sub_div _ _ pd.ne' pb.ne', ← mul_div_assoc, div_le_div_iff₀ pd (mul_pos pd pb)]
    have : 2 * u * (e : K) * (d * b) = d * (2 * u * (e * b)) := by ring
    rw [this, mul_comm ((e : K) * b - d * a) d]
    apply mul_le_mul_of_nonneg_left _ pd.le
    linarith
  intro j _ i hi i' hi' hne
  rcases lt_or_gt_of_ne hne with hlt | hlt
  · exact key j i hi i' hi' hlt
  · exact (key j i' hi' i hi hlt).symm

/-- **C162 for whole amounts in double precision.** If all amounts are whole numbers from 1 to 2²⁶ = 67 108 864 and the
exact medial averages are numbers, `base_cl` with medial averages satisfies the bounds of C142. -/
theorem C162_whole_partial [FloorRing K] (gm gm' : List (Num K) → Num K) (h : Spec.Stair t n c) (hp : Spec.Positive n c)
    (hn : 3 ≤ n) (hn' : n ≤ 2 ^ 25) (hb : Spec.Bracketing br) (hw : Spec.WholeUpTo (2 ^ 26) n c) {k : ℕ} (hk : k < n - 1)
    (hmid : ∀ j < n - 1, Spec.medialIdx (wOrigins n k j) (Spec.ratioAt c j) ≠ []) {tail : K} (htail : 0 < tail) :
    ∃ r r', baseCL gm t t.a2aind0 (Spec.avgName "medial" k) (.fin tail) = .ok r ∧
      baseCLR br (floatRd 53) gm' t t.a2aind0 (Spec.avgName "medial" k) (.fin tail) = .ok r' ∧
      Spec.ErrorBounds ((2 : K) ^ (-53 : ℤ)) n r r' := by
  have hr : Spec.RelErr (floatRd 53 : K → K) ((2 : K) ^ (-((53 : ℕ) : ℤ))) := floatRd_relErr (p := 53) (by norm_num)
  have hsep : Spec.Separated (floatRd 53) n k c := by
    refine separated_of_whole hr hp hw ?_ k
    push_cast
    norm_num
  refine C162_partial gm gm' h hp hn hr (floatRd_monoRd (p := 53) (by norm_num)) hb ?_ hk hsep hmid htail
  have h1 : 2 * (n ^ 2 + 2 * n) ≤ 2 ^ 53 := by nlinarith
  have h2 : ((2 * (n ^ 2 + 2 * n) : ℕ) : K) ≤ ((2 ^ 53 : ℕ) : K) := Nat.cast_le.2 h1
  have h2 : 2 * ((n : K) ^ 2 + 2 * n) ≤ 2 ^ 53 := by push_cast at h2; norm_num; exact h2
  have h3 : (0 : K) < 2 ^ (-(53 : ℕ) : ℤ) := zpow_pos (by norm_num) _
  calc 2 * ((n : K) ^ 2 + 2 * n) * 2 ^ (-((53 : ℕ) : ℤ)) ≤ 2 ^ 53 * 2 ^ (-((53 : ℕ) : ℤ)) :=
        mul_le_mul_of_nonneg_right h2 h3.le
    _ = 1 := by norm_num

/-! ## failure -/

/-- Amounts just above 2²⁶ = 67 108 864.  The first two link ratios, 67114657/67114656 and 67114658/67114657, are different
and round to the same number. -/
def exClose : ℕ → ℕ → ℚ := fun i j =>
  (([[67114656, 67114657, 67114657, 67114657], [67114657, 67114658, 67114658], [60000000, 66000000],
    [60000000]] : List (List ℚ)).getD i []).getD j 1

/-- Sums from left to right, 53 binary digits. -/
def exCloseR : Except PyErr (BaseResult ℚ) :=
  baseCLR (fun k => seqTree (k - 1)) (floatRd 53) (fun _ => .nan) (stairTri 4 exClose) (stairTri 4 exClose).a2aind0
    "all-medial" (.fin 1)

/-- **C162 fails**: whole amounts up to 2²⁶ + 5794.  In exact arithmetic the first medial factor is 67114657/67114656, in
double precision it is NaN, and with it the ultimate of the latest origin. -/
theorem C162_fails :
    Spec.Stair (stairTri 4 exClose) 4 exClose ∧ Spec.Positive 4 exClose ∧ Spec.WholeUpTo (2 ^ 26 + 5794) 4 exClose ∧
    (∀ j < 3, Spec.medialIdx (wOrigins 4 0 j) (Spec.ratioAt exClose j) ≠ []) ∧
    (baseCL (fun _ => .nan) (stairTri 4 exClose) (stairTri 4 exClose).a2aind0 "all-medial" (.fin 1)).map
      (fun r => (r.ldfs.map Prod.snd, r.rows.map SummRow.ultimate)) =
      .ok ([.fin (67114657 / 67114656), .fin 1, .fin 1, .fin 1],
        [.fin 67114657, .fin 67114658, .fin 66000000, .fin (60000000 * (67114657 / 67114656))]) ∧
    exCloseR.map (fun r => (r.ldfs.map Prod.snd, r.rows.map SummRow.ultimate)) =
      .ok ([.nan, .fin 1, .fin 1, .fin 1], [.fin 67114657, .fin 67114658, .fin 66000000, .nan]) := by
  have hwhole : Spec.WholeUpTo (2 ^ 26 + 5794) 4 exClose := by
    intro i j hij
    have key : ∀ i < 4, ∀ j < 4, (exClose i j).num.toNat ≤ 2 ^ 26 + 5794 ∧ exClose i j = ((exClose i j).num.toNat : ℚ) := by decide +kernel
    exact ⟨_, key i (by omega) j (by omega)⟩
  refine ⟨stairTri_stair _ _, ?_, hwhole, ?_, by decide +kernel, by decide +kernel⟩
  · intro i j hij
    have key : ∀ i < 4, ∀ j < 4, 0 < exClose i j := by decide +kernel
    exact key i (by omega) j (by omega)
  · decide +kernel

/-- So no bound of this kind holds for all triangles of positive amounts. -/
theorem C162_fails_bounds : ¬ ∃ r r', baseCL (fun _ => .nan) (stairTri 4 exClose) (stairTri 4 exClose).a2aind0 "all-medial"
    (.fin 1) = .ok r ∧ exCloseR = .ok r' ∧ Spec.ErrorBounds ((2 : ℚ) ^ (-53 : ℤ)) 4 r r' := by
  rintro ⟨r, r', _, h2, h3⟩
  obtain ⟨_, h4, _⟩ := h3
  obtain ⟨x, y, _, e2, _⟩ := h4 0 (by norm_num)
  have := C162_fails.2.2.2.2.2
  rw [h2] at this
  simp only [Except.map, Except.ok.injEq, Prod.mk.injEq] at this
  rw [this.1] at e2
  simp at e2

/-- A triangle the bounds apply to: amounts 100, 150, ... are whole numbers below 2²⁶ and every window has a middle. -/
example : ∃ r r', baseCL (fun _ => .nan) exTri exTri.a2aind0 "all-medial" (.fin 1) = .ok r ∧
    baseCLR (fun k => seqTree (k - 1)) (floatRd 53) (fun _ => .nan) exTri exTri.a2aind0 "all-medial" (.fin 1) = .ok r' ∧
    Spec.ErrorBounds ((2 : ℚ) ^ (-53 : ℤ)) 4 r r' := by
  refine C162_whole_partial (n := 4) (c := exVals) (k := 0) _ _ exTri_stair exVals_pos (by norm_num) (by norm_num)
    seqTree_bracketing ?_ (by norm_num) ?_ (by norm_num)
  · intro i j hij
    have key : ∀ i < 4, ∀ j < 4, (exVals i j).num.toNat ≤ 2 ^ 26 ∧ exVals i j = ((exVals i j).num.toNat : ℚ) := by decide +kernel
    exact ⟨_, key i (by omega) j (by omega)⟩
  · decide +kernel

end Trikit
