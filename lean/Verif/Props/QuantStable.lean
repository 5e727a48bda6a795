import Verif.Props.QuantTables
import Verif.Props.BootErr

/-!
# C171: quantiles, means and standard errors react no more than the simulations

The tables of two runs are compared entry by entry: `Spec.CloseTo e` says that corresponding simulated reserves differ by
at most `e`.
-/

set_option linter.unusedSectionVars false

namespace Trikit

section
variable {K : Type} [Field K] [LinearOrder K] [IsStrictOrderedRing K] [FloorRing K]

/-! ### order statistics -/

theorem sorted_get_le {a : List K} (ha : a.Pairwise (· ≤ ·)) {i : ℕ} (hi : i < a.length) {v : K}
    (h : i + 1 ≤ a.countP (fun x => decide (x ≤ v))) : a[i] ≤ v := by
  by_contra hlt
  rw [not_le] at hlt
  have e : a = a.take i ++ a.drop i := (List.take_append_drop i a).symm
  have h0 : (a.drop i).countP (fun x => decide (x ≤ v)) = 0 := by
    rw [List.countP_eq_zero]
    intro x hx
    obtain ⟨k, hk⟩ := List.getElem?_of_mem hx
    rw [List.getElem?_drop] at hk
    obtain ⟨h1, h2⟩ := List.getElem?_eq_some_iff.1 hk
    have : a[i] ≤ x := by
      rw [← h2]
      rcases Nat.eq_zero_or_pos k with rfl | hk0
      · exact le_refl _
      · exact List.pairwise_iff_getElem.1 ha i (i + k) hi h1 (by omega)
    simp only [decide_eq_true_eq, not_le]
    exact lt_of_lt_of_le hlt this
  rw [e, List.countP_append, h0, Nat.add_zero] at h
  have := List.countP_le_length (p := fun x => decide (x ≤ v)) (l := a.take i)
  rw [List.length_take] at this
  omega

theorem sorted_count {a : List K} (ha : a.Pairwise (· ≤ ·)) {i : ℕ} (hi : i < a.length) :
    i + 1 ≤ a.countP (fun x => decide (x ≤ a[i])) := by
  have e : a = a.take (i + 1) ++ a.drop (i + 1) := (List.take_append_drop _ a).symm
  have h1 : (a.take (i + 1)).countP (fun x => decide (x ≤ a[i])) = (a.take (i + 1)).length := by
    rw [List.countP_eq_length]
    intro x hx
    obtain ⟨k, hk⟩ := List.getElem?_of_mem hx
    rw [List.getElem?_take] at hk
    split at hk
    · obtain ⟨h1, h2⟩ := List.getElem?_eq_some_iff.1 hk
      rw [decide_eq_true_eq, ← h2]
      rcases Nat.lt_or_ge k i with h | h
      · exact List.pairwise_iff_getElem.1 ha k i h1 hi h
      · have : k = i := by omega
        subst this; exact le_refl _
    · cases hk
  have h2 : a.countP (fun x => decide (x ≤ a[i])) = (a.take (i + 1)).countP (fun x => decide (x ≤ a[i])) +
      (a.drop (i + 1)).countP (fun x => decide (x ≤ a[i])) := by
    rw [← List.countP_append, List.take_append_drop]
  rw [h2, h1, List.length_take]
  omega

/-- Raising the values by at most `e` raises every order statistic by at most `e`. -/
theorem sort_get_le {e : K} {xs ys : List K} (h : List.Forall₂ (fun x y => x ≤ y + e) xs ys) {i : ℕ}
    (hi : i < xs.length) :
    (xs.insertionSort (· ≤ ·)).getD i 0 ≤ (ys.insertionSort (· ≤ ·)).getD i 0 + e := by
  have hl : xs.length = ys.length := h.length_eq
  have hx : i < (xs.insertionSort (· ≤ ·)).length := by rw [List.length_insertionSort]; exact hi
  have hy : i < (ys.insertionSort (· ≤ ·)).length := by rw [List.length_insertionSort]; omega
  rw [List.getD_eq_getElem?_getD, List.getElem?_eq_getElem hx, List.getD_eq_getElem?_getD,
    List.getElem?_eq_getElem hy, Option.getD_some, Option.getD_some]
  refine sorted_get_le (List.pairwise_insertionSort _ _) hx ?_
  rw [(List.perm_insertionSort (· ≤ ·) xs).countP_eq]
  refine (sorted_count (List.pairwise_insertionSort (· ≤ ·) ys) hy).trans ?_
  rw [(List.perm_insertionSort (· ≤ ·) ys).countP_eq]
  generalize (ys.insertionSort (· ≤ ·))[i] = v
  clear hx hy hi hl
  induction h with
  | nil => simp
  | @cons x y xs ys hxy _ ih =>
    rw [List.countP_cons, List.countP_cons]
    refine Nat.add_le_add ih ?_
    by_cases hv : y ≤ v
    · have : x ≤ v + e := by linarith
      simp [hv, this]
    · simp [hv]

/-- Raising the values raises the interpolation by no more. -/
theorem interp_le {f g : ℕ → K} {n : ℕ} (hn : 0 < n) {e : K} (hfg : ∀ i < n, f i ≤ g i + e) {v : K} (h0 : 0 ≤ v) :
    Spec.interp f n v ≤ Spec.interp g n v + e := by
  unfold Spec.interp
  split
  · exact hfg _ (by omega)
  · rename_i h
    have hfl : 0 ≤ ⌊v⌋ := Int.floor_nonneg.2 h0
    have h2 : ((⌊v⌋ : ℤ) : K) < ((n : ℤ) - 1 : ℤ) := by
      push_cast
      exact lt_of_le_of_lt (Int.floor_le v) (not_le.1 h)
    have h3 := Int.cast_lt.1 h2
    have a1 := hfg ⌊v⌋.toNat (by omega)
    have a2 := hfg (⌊v⌋ + 1).toNat (by omega)
    have g0 : 0 ≤ v - (⌊v⌋ : K) := sub_nonneg.2 (Int.floor_le v)
    have g1 : v - (⌊v⌋ : K) ≤ 1 := by
      have := (Int.lt_floor_add_one v).le
      linarith
    nlinarith [mul_le_mul_of_nonneg_left a1 (sub_nonneg.2 g1), mul_le_mul_of_nonneg_left a2 g0]

theorem pos_nonneg (m : Interp) {n : ℕ} (hn : 0 < n) {q : K} (h0 : 0 ≤ q) : 0 ≤ Spec.pos m n q := by
  rw [← pos_zero m n]
  exact pos_mono m hn h0

/-- Values that are raised by at most `e` have a percentile that is raised by at most `e`. -/
theorem percentile_le (m : Interp) {e : K} {xs ys : List K} (h : List.Forall₂ (fun x y => x ≤ y + e) xs ys)
    (hne : xs ≠ []) {q : K} (h0 : 0 ≤ q) (h1 : q ≤ 1) :
    ∃ a b, percentile m (xs.map Num.fin) q = .fin a ∧ percentile m (ys.map Num.fin) q = .fin b ∧ a ≤ b + e := by
  have hl : xs.length = ys.length := h.length_eq
  have hx : 0 < xs.length := List.length_pos_iff.2 hne
  have hne' : ys ≠ [] := List.length_pos_iff.1 (by omega)
  refine ⟨_, _, percentile_eq m hne h0 h1, percentile_eq m hne' h0 h1, ?_⟩
  rw [← hl]
  exact interp_le hx (fun i hi => sort_get_le h hi) (pos_nonneg m hx h0)

/-! ### tables -/

/-- Corresponding numbers differ by at most `e`. -/
def Spec.CloseTo (e : K) (v w : Num K) : Prop := ∃ x y : K, v = .fin x ∧ w = .fin y ∧ |x - y| ≤ e

theorem within_fin {e : K} {l l' : List (Num K)} (h : List.Forall₂ (Spec.CloseTo e) l l') :
    ∃ xs ys : List K, l = xs.map Num.fin ∧ l' = ys.map Num.fin ∧ List.Forall₂ (fun x y => |x - y| ≤ e) xs ys := by
  induction h with
  | nil => exact ⟨[], [], rfl, rfl, .nil⟩
  | cons hvw _ ih =>
    obtain ⟨x, y, rfl, rfl, hxy⟩ := hvw
    obtain ⟨xs, ys, rfl, rfl, hs⟩ := ih
    exact ⟨x :: xs, y :: ys, rfl, rfl, .cons hxy hs⟩

theorem percentile_within (m : Interp) {e : K} {l l' : List (Num K)} (h : List.Forall₂ (Spec.CloseTo e) l l')
    (hne : l ≠ []) {q : K} (h0 : 0 ≤ q) (h1 : q ≤ 1) : Spec.CloseTo e (percentile m l q) (percentile m l' q) := by
  obtain ⟨xs, ys, rfl, rfl, hs⟩ := within_fin h
  have hx : xs ≠ [] := by rintro rfl; exact hne rfl
  have hy : ys ≠ [] := by
    intro hy
    have := hs.length_eq
    rw [hy] at this
    exact hx (List.length_eq_zero_iff.1 this)
  obtain ⟨a, b, ha, hb, hab⟩ := percentile_le m (e := e) (xs := xs) (ys := ys)
    (hs.imp (fun x y h => by have := (abs_le.1 h).2; linarith)) hx h0 h1
  obtain ⟨b', a', hb', ha', hba⟩ := percentile_le m (e := e) (xs := ys) (ys := xs)
    (hs.flip.imp (fun x y h => by have := (abs_le.1 h).1; linarith)) hy h0 h1
  rw [ha] at ha'
  rw [hb] at hb'
  injection ha' with ha'
  injection hb' with hb'
  subst ha' hb'
  exact ⟨a, b, ha, hb, abs_le.2 ⟨by linarith, by linarith⟩⟩

theorem applyLb_within (lb : Option K) {e : K} {v w : Num K} (h : Spec.CloseTo e v w) :
    Spec.CloseTo e (applyLb lb v) (applyLb lb w) := by
  obtain ⟨x, y, rfl, rfl, hxy⟩ := h
  cases lb with
  | none => exact ⟨x, y, rfl, rfl, hxy⟩
  | some b =>
    refine ⟨max b x, max b y, ?_, ?_, ?_⟩
    · unfold applyLb
      simp only [Num.lt_fin, decide_eq_true_eq]
      split
      · next h => rw [max_eq_left h.le]
      · next h => rw [max_eq_right (not_lt.1 h)]
    · unfold applyLb
      simp only [Num.lt_fin, decide_eq_true_eq]
      split
      · next h => rw [max_eq_left h.le]
      · next h => rw [max_eq_right (not_lt.1 h)]
    · have := abs_max_sub_max_le_max b x b y
      rw [sub_self, abs_zero, max_eq_right (abs_nonneg (x - y))] at this
      exact this.trans hxy

theorem dictSet_forall2 {α : Type} {R : α → α → Prop} {k : List Char} {v w : α} (hvw : R v w)
    {d d' : List (List Char × α)} (h : List.Forall₂ (fun p p' => p.1 = p'.1 ∧ R p.2 p'.2) d d') :
    List.Forall₂ (fun p p' => p.1 = p'.1 ∧ R p.2 p'.2) (dictSet k v d) (dictSet k w d') := by
  induction h with
  | nil => exact .cons ⟨rfl, hvw⟩ .nil
  | @cons p p' d d' hp hd ih =>
    obtain ⟨k1, v1⟩ := p
    obtain ⟨k2, v2⟩ := p'
    obtain ⟨rfl, h2⟩ := hp
    unfold dictSet
    split
    · exact .cons ⟨rfl, hvw⟩ hd
    · exact .cons ⟨rfl, h2⟩ ih

theorem foldl_dictSet_forall2 {α β : Type} {R : α → α → Prop} {f g : β → α} (l : List (List Char × β))
    (hfg : ∀ p ∈ l, R (f p.2) (g p.2)) {d d' : List (List Char × α)}
    (h : List.Forall₂ (fun p p' => p.1 = p'.1 ∧ R p.2 p'.2) d d') :
    List.Forall₂ (fun p p' => p.1 = p'.1 ∧ R p.2 p'.2) (l.foldl (fun d p => dictSet p.1 (f p.2) d) d)
      (l.foldl (fun d p => dictSet p.1 (g p.2) d) d') := by
  induction l generalizing d d' with
  | nil => exact h
  | cons p l ih =>
    exact ih (fun p hp => hfg p (by simp [hp])) (dictSet_forall2 (hfg p (by simp)) h)

theorem quantileColumn_within (m : Interp) (lb : Option K) {e : K} {rows rows' : List (List (Num K))}
    (h : List.Forall₂ (List.Forall₂ (Spec.CloseTo e)) rows rows') (hne : ∀ l ∈ rows, l ≠ []) {q : K} (h0 : 0 ≤ q)
    (h1 : q ≤ 1) : List.Forall₂ (Spec.CloseTo e) (quantileColumn m lb rows q) (quantileColumn m lb rows' q) := by
  induction h with
  | nil => exact .nil
  | cons hl _ ih =>
    exact .cons (applyLb_within lb (percentile_within m hl (hne _ (by simp)) h0 h1))
      (ih (fun l hl => hne l (by simp [hl])))

theorem qtls_range {q : List (Num K)} {two : Bool} {qs : List K} (hq : qtlsFormatter q two = .ok qs) {x : K}
    (hx : x ∈ qs) : 0 ≤ x ∧ x ≤ 1 := by
  by_cases hr : ∀ v ∈ q, ∃ x, v = Num.fin x ∧ 0 ≤ x ∧ x ≤ 1
  · cases two with
    | false =>
      obtain ⟨l, h1, -, -, h2⟩ := (C61_plain q).2 hr
      rw [hq] at h1
      injection h1 with h1
      exact h2 x (h1 ▸ hx)
    | true =>
      obtain ⟨l, h1, -, -, h2, -⟩ := (C61_two_sided q).2 hr
      rw [hq] at h1
      injection h1 with h1
      exact h2 x (h1 ▸ hx)
  · rw [not_forall] at hr
    obtain ⟨v, hv⟩ := hr
    rw [Classical.not_imp] at hv
    cases two with
    | false => rw [(C61_plain q).1 ⟨v, hv⟩] at hq; cases hq
    | true => rw [(C61_two_sided q).1 ⟨v, hv⟩] at hq; cases hq

/-- **C171** for every interpolation method, every lower bound and every list of levels: two runs whose simulated
reserves differ by at most `e` have quantile tables with the same headers whose entries differ by at most `e`, or both
calls raise the same exception. -/
theorem C171_table (m : Interp) (lb : Option K) {e : K} {rows rows' : List (List (Num K))}
    (h : List.Forall₂ (List.Forall₂ (Spec.CloseTo e)) rows rows') (hne : ∀ l ∈ rows, l ≠ []) (q : List (Num K)) :
    (∃ x, getQuantiles m lb rows q = .error x ∧ getQuantiles m lb rows' q = .error x) ∨
    ∃ tbl tbl', getQuantiles m lb rows q = .ok tbl ∧ getQuantiles m lb rows' q = .ok tbl' ∧
      List.Forall₂ (fun p p' => p.1 = p'.1 ∧ List.Forall₂ (Spec.CloseTo e) p.2 p'.2) tbl tbl' := by
  have hemp : rows.isEmpty = rows'.isEmpty := by cases h <;> rfl
  unfold getQuantiles
  cases hq : qtlsFormatterRes q with
  | error x => exact .inl ⟨x, rfl, rfl⟩
  | ok qs =>
    cases hh : qs.mapM (fun x => hdrOrd (hdrNum x)) with
    | error x => exact .inl ⟨x, by simp [bind, Except.bind, hh], by simp [bind, Except.bind, hh]⟩
    | ok hs =>
      simp only [bind, Except.bind, hh, hemp]
      split
      · exact .inl ⟨_, rfl, rfl⟩
      · refine .inr ⟨_, _, rfl, rfl, foldl_dictSet_forall2 _ (fun p hp => ?_) .nil⟩
        have hmem : p.2 ∈ qs := (List.of_mem_zip hp).2
        have := qtls_range hq hmem
        exact quantileColumn_within m lb h hne this.1 this.2

/-- **C171** for the quantile columns of the summary, plain or two-sided. -/
theorem C171_summary (m : Interp) {e : K} {rows rows' : List (List (Num K))}
    (h : List.Forall₂ (List.Forall₂ (Spec.CloseTo e)) rows rows') (hne : ∀ l ∈ rows, l ≠ []) (q : List (Num K))
    (two : Bool) :
    (∃ x, bootQuantCols m rows q two = .error x ∧ bootQuantCols m rows' q two = .error x) ∨
    ∃ tbl tbl', bootQuantCols m rows q two = .ok tbl ∧ bootQuantCols m rows' q two = .ok tbl' ∧
      List.Forall₂ (fun p p' => p.1 = p'.1 ∧ List.Forall₂ (Spec.CloseTo e) p.2 p'.2) tbl tbl' := by
  unfold bootQuantCols
  cases hq : qtlsFormatter q two with
  | error x => exact .inl ⟨x, rfl, rfl⟩
  | ok qs =>
    refine .inr ⟨_, _, rfl, rfl, foldl_dictSet_forall2 _ (fun p hp => ?_) .nil⟩
    obtain ⟨x, hx, rfl⟩ := List.mem_map.1 hp
    have := qtls_range hq hx
    exact quantileColumn_within m none h hne this.1 this.2

/-- **C171** for one level: every percentile differs by at most `e`. -/
theorem C171_percentile (m : Interp) {e : K} {l l' : List (Num K)} (h : List.Forall₂ (Spec.CloseTo e) l l')
    (hne : l ≠ []) {q : K} (h0 : 0 ≤ q) (h1 : q ≤ 1) : Spec.CloseTo e (percentile m l q) (percentile m l' q) :=
  percentile_within m h hne h0 h1

/-- **C171** simulations that are nowhere higher have percentiles that are not higher. -/
theorem C171_monotone (m : Interp) {xs ys : List K} (h : List.Forall₂ (· ≤ ·) xs ys) (hne : xs ≠ []) {q : K}
    (h0 : 0 ≤ q) (h1 : q ≤ 1) :
    ∃ a b, percentile m (xs.map Num.fin) q = .fin a ∧ percentile m (ys.map Num.fin) q = .fin b ∧ a ≤ b := by
  obtain ⟨a, b, ha, hb, hab⟩ := percentile_le m (e := (0 : K)) (h.imp (fun x y h => by rwa [add_zero])) hne h0 h1
  exact ⟨a, b, ha, hb, by rwa [add_zero] at hab⟩

/-- Numbers of a list by position. -/
theorem fin_range {xs : List K} {S : ℕ} (hS : xs.length = S) :
    xs.map Num.fin = (List.range S).map (fun s => Num.fin (xs.getD s 0)) := by
  apply List.ext_getElem?
  intro i
  rw [List.getElem?_map, List.getElem?_map]
  rcases Nat.lt_or_ge i S with h | h
  · rw [List.getElem?_range h, List.getElem?_eq_getElem (by omega)]
    simp [List.getD_eq_getElem?_getD, List.getElem?_eq_getElem (show i < xs.length by omega)]
  · rw [List.getElem?_eq_none (by omega), List.getElem?_eq_none (by simp; omega)]
    rfl

theorem getD_within {e : K} {xs ys : List K} (h : List.Forall₂ (fun x y => |x - y| ≤ e) xs ys) {s : ℕ}
    (hs : s < xs.length) : |xs.getD s 0 - ys.getD s 0| ≤ e := by
  have hl := h.length_eq
  rw [List.getD_eq_getElem?_getD, List.getD_eq_getElem?_getD, List.getElem?_eq_getElem hs,
    List.getElem?_eq_getElem (show s < ys.length by omega)]
  exact h.get hs (by omega)

/-- **C171** for the mean of the simulations. -/
theorem C171_mean {e : K} {l l' : List (Num K)} (h : List.Forall₂ (Spec.CloseTo e) l l') (hne : l ≠ []) :
    Spec.CloseTo e (meanL l) (meanL l') := by
  obtain ⟨xs, ys, rfl, rfl, hs⟩ := within_fin h
  have hx : 0 < xs.length := by
    rcases Nat.eq_zero_or_pos xs.length with h0 | h0
    · rw [List.length_eq_zero_iff.1 h0] at hne; exact absurd rfl hne
    · exact h0
  have hS : (0 : K) < xs.length := by exact_mod_cast hx
  rw [fin_range rfl, fin_range (xs := ys) hs.length_eq.symm, meanL_range _ hx, meanL_range _ hx]
  refine ⟨_, _, rfl, rfl, ?_⟩
  rw [← sub_div, ← Finset.sum_sub_distrib, abs_div, abs_of_pos hS, div_le_iff₀ hS]
  refine (Finset.abs_sum_le_sum_abs _ _).trans ((Finset.sum_le_sum fun s hs' =>
    getD_within hs (Finset.mem_range.1 hs')).trans ?_)
  rw [Finset.sum_const, Finset.card_range, nsmul_eq_mul, mul_comm]
end

theorem devVec_sub_norm {S : ℕ} (hS : 0 < S) {x y : ℕ → ℝ} {e : ℝ} (h : ∀ s < S, |x s - y s| ≤ e) :
    ‖devVec S x - devVec S y‖ ≤ e * Real.sqrt S := by
  have h0 : (0 : ℝ) < S := by exact_mod_cast hS
  have he : 0 ≤ e := (abs_nonneg _).trans (h 0 hS)
  rw [EuclideanSpace.norm_eq, ← Real.sqrt_sq he, ← Real.sqrt_mul (sq_nonneg _)]
  refine Real.sqrt_le_sqrt ?_
  set z : ℕ → ℝ := fun s => x s - y s with hz
  have e1 : ∑ s : Fin S, ‖(devVec S x - devVec S y) s‖ ^ 2 =
      ∑ s ∈ Finset.range S, (z s - (∑ s ∈ Finset.range S, z s) / S) ^ 2 := by
    rw [Finset.sum_range]
    refine Finset.sum_congr rfl fun s _ => ?_
    simp only [devVec, PiLp.sub_apply, Real.norm_eq_abs, sq_abs, Spec.meanOf, hz]
    rw [Finset.sum_sub_distrib, sub_div]
    ring
  rw [e1]
  have e2 : ∑ s ∈ Finset.range S, (z s - (∑ s ∈ Finset.range S, z s) / S) ^ 2 ≤ ∑ s ∈ Finset.range S, z s ^ 2 := by
    generalize hm : (∑ s ∈ Finset.range S, z s) / S = m
    have hm' : ∑ s ∈ Finset.range S, z s = m * S := by rw [← hm]; field_simp
    have : ∀ s, (z s - m) ^ 2 = z s ^ 2 - 2 * m * z s + m ^ 2 := fun s => by ring
    simp only [this]
    rw [Finset.sum_add_distrib, Finset.sum_sub_distrib, ← Finset.mul_sum, hm', Finset.sum_const, Finset.card_range,
      nsmul_eq_mul]
    nlinarith [mul_nonneg (sq_nonneg m) h0.le]
  refine e2.trans ((Finset.sum_le_sum fun s hs => (sq_le_sq' (by linarith [neg_abs_le (z s), h s (Finset.mem_range.1 hs)])
    ((le_abs_self _).trans (h s (Finset.mem_range.1 hs))) : z s ^ 2 ≤ e ^ 2)).trans ?_)
  rw [Finset.sum_const, Finset.card_range, nsmul_eq_mul, mul_comm]

/-- **C171** for the standard error: it differs by at most `e·√(S/(S-1))`, with `S` the number of simulations. -/
theorem C171_std {e : ℝ} {l l' : List (Num ℝ)} (h : List.Forall₂ (Spec.CloseTo e) l l') (hS : 2 ≤ l.length) :
    Spec.CloseTo (e * Real.sqrt ((l.length : ℝ) / ((l.length : ℝ) - 1))) (stdL Num.sqrt l) (stdL Num.sqrt l') := by
  obtain ⟨xs, ys, rfl, rfl, hs⟩ := within_fin h
  rw [List.length_map] at hS ⊢
  rw [fin_range rfl, fin_range (xs := ys) hs.length_eq.symm, stdL_range _ hS, stdL_range _ hS,
    Num.sqrt_fin (sampleVar_nonneg hS _), Num.sqrt_fin (sampleVar_nonneg hS _)]
  refine ⟨_, _, rfl, rfl, ?_⟩
  have h2 : (2 : ℝ) ≤ xs.length := by exact_mod_cast hS
  have h3 : 0 < Real.sqrt ((xs.length : ℝ) - 1) := Real.sqrt_pos.2 (by linarith)
  rw [sqrt_sampleVar, sqrt_sampleVar, ← sub_div, abs_div, abs_of_pos h3, Real.sqrt_div (by linarith), ← mul_div_assoc]
  exact div_le_div_of_nonneg_right ((abs_norm_sub_norm_le _ _).trans
    (devVec_sub_norm (by omega) fun s hs' => getD_within hs hs')) h3.le

/-- The bound of `C171_std` is attained: two equal simulations, one raised and one lowered by `e`. -/
theorem C171_std_sharp (x : ℝ) {e : ℝ} (he : 0 ≤ e) :
    List.Forall₂ (Spec.CloseTo e) [.fin (x + e), .fin (x - e)] [.fin x, .fin x] ∧
    stdL Num.sqrt [.fin (x + e), .fin (x - e)] = .fin (e * Real.sqrt (2 / (2 - 1))) ∧
    stdL Num.sqrt [.fin x, .fin x] = .fin 0 := by
  refine ⟨.cons ⟨_, _, rfl, rfl, by simp [abs_of_nonneg he]⟩ (.cons ⟨_, _, rfl, rfl, by simp [abs_of_nonneg he]⟩ .nil),
    ?_, ?_⟩
  · have := fin_range (xs := [x + e, x - e]) (S := 2) rfl
    simp only [List.map_cons, List.map_nil] at this
    rw [this, stdL_range _ le_rfl, Num.sqrt_fin (sampleVar_nonneg le_rfl _)]
    congr 1
    have e1 : Spec.sampleVar 2 (fun s => [x + e, x - e].getD s 0) = e ^ 2 * (2 / (2 - 1)) := by
      simp [Spec.sampleVar, Spec.meanOf, Finset.sum_range_succ]
      ring
    rw [e1, Real.sqrt_mul (sq_nonneg _), Real.sqrt_sq he]
  · have := fin_range (xs := [x, x]) (S := 2) rfl
    simp only [List.map_cons, List.map_nil] at this
    rw [this, stdL_range _ le_rfl, Num.sqrt_fin (sampleVar_nonneg le_rfl _)]
    congr 1
    have e1 : Spec.sampleVar 2 (fun s => [x, x].getD s 0) = 0 := by
      simp [Spec.sampleVar, Spec.meanOf, Finset.sum_range_succ]
    rw [e1, Real.sqrt_zero]

/-- Four simulations of two runs that differ by at most 2, in different order: the medians are 25 and 24. -/
example : List.Forall₂ (Spec.CloseTo (2 : ℚ)) [.fin 10, .fin 40, .fin 20, .fin 30] [.fin 12, .fin 42, .fin 20, .fin 28] ∧
    percentile .linear [.fin 10, .fin 40, .fin 20, .fin 30] (1 / 2 : ℚ) = .fin 25 ∧
    percentile .linear [.fin 12, .fin 42, .fin 20, .fin 28] (1 / 2 : ℚ) = .fin 24 := by
  refine ⟨.cons ⟨_, _, rfl, rfl, by norm_num⟩ (.cons ⟨_, _, rfl, rfl, by norm_num⟩ (.cons ⟨_, _, rfl, rfl, by norm_num⟩
    (.cons ⟨_, _, rfl, rfl, by norm_num⟩ .nil))), by decide +kernel, by decide +kernel⟩

end Trikit
