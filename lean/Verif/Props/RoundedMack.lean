import Verif.RoundedMackLemmas
import Verif.Props.RoundedOrder
import Verif.Props.MackErrors

/-! # C151: order facts of Mack chain ladder in rounded arithmetic -/

set_option linter.unusedSectionVars false

namespace Trikit

variable {K : Type} [Field K] [LinearOrder K] [IsStrictOrderedRing K]
variable {t ind : Tri K} {n N : ℕ} {c w : ℕ → ℕ → K} {rd : K → K} {br : ℕ → SumTree}

/-- **C151, without rounding**: the rounded model is the exact one. -/
theorem C151_exact (hb : Spec.Bracketing br) (alpha : ℕ) (t ind : Tri K) :
    mackCoreR br id alpha t ind = mackCore alpha t ind := mackCoreR_id hb alpha t ind

/-! ### sums of values that are not negative -/

theorem fin_list {l : List (Num K)} {q : K → Prop} (h : ∀ v ∈ l, ∃ x, v = .fin x ∧ q x) :
    ∃ l' : List K, l = l'.map Num.fin ∧ ∀ x ∈ l', q x := by
  induction l with
  | nil => exact ⟨[], rfl, by simp⟩
  | cons v l ih =>
    obtain ⟨x, rfl, hx⟩ := h v (by simp)
    obtain ⟨l', rfl, hl⟩ := ih fun v hv => h v (by simp [hv])
    exact ⟨x :: l', rfl, by simpa using ⟨hx, hl⟩⟩

theorem tree_ge (h : Spec.MonoRd rd N) {a : ℕ → K} (s : SumTree) (ha : ∀ i ∈ s.leaves, 0 ≤ a i) {i : ℕ}
    (hi : i ∈ s.leaves) (hf : rd (a i) = a i) : a i ≤ s.eval rd a := by
  induction s with
  | leaf k =>
    simp only [SumTree.leaves, List.mem_singleton] at hi
    subst hi; exact le_rfl
  | node l r ihl ihr =>
    simp only [SumTree.leaves, List.mem_append] at ha hi
    rw [← hf]
    apply h.mono
    rcases hi with hi | hi
    · have h1 := ihl (fun k hk => ha k (Or.inl hk)) hi
      have h2 := tree_nonneg h r (fun k hk => ha k (Or.inr hk))
      linarith
    · have h1 := ihr (fun k hk => ha k (Or.inr hk)) hi
      have h2 := tree_nonneg h l (fun k hk => ha k (Or.inl hk))
      linarith

theorem roundedSum_ge (h : Spec.MonoRd rd N) (hb : Spec.Bracketing br) {l : List K} (hl : ∀ x ∈ l, 0 ≤ x) {x : K}
    (hx : x ∈ l) (hf : rd x = x) : x ≤ roundedSum br rd l := by
  have hne : l ≠ [] := List.ne_nil_of_mem hx
  obtain ⟨i, hi, rfl⟩ := List.getElem_of_mem hx
  unfold roundedSum
  rw [if_neg hne]
  have hmem : i ∈ (br l.length).leaves :=
    (hb _ (List.length_pos_of_ne_nil hne)).symm.subset (List.mem_range.2 hi)
  have hget : l.getD i 0 = l[i] := by simp [List.getD_eq_getElem?_getD, hi]
  have := tree_ge h (a := fun i => l.getD i 0) (br l.length) (by
    intro k hk
    have hk := sum_leaf hb hne hk
    simp [List.getD_eq_getElem?_getD, hk, hl]) hmem (by simp only [hget]; exact hf)
  simp only [hget] at this
  exact this

theorem roundedSum_nonneg (h : Spec.MonoRd rd N) (hb : Spec.Bracketing br) {l : List K} (hl : ∀ x ∈ l, 0 ≤ x) :
    0 ≤ roundedSum br rd l := by
  have := sumR_nonneg h hb (a := id) (l := l) hl
  simpa using this

theorem roundedSum_pos (h : Spec.MonoRd rd N) (hb : Spec.Bracketing br) {l : List K} (hne : l ≠ [])
    (hl : ∀ x ∈ l, 0 < x) : 0 < roundedSum br rd l := by
  have := sumR_pos h hb (a := id) hne hl
  simpa using this

theorem Num.sum_of_nan {l : List (Num K)} (h : Num.nan ∈ l) : l.sum = .nan := by
  induction l with
  | nil => simp at h
  | cons v l ih =>
    rw [List.sum_cons]
    rcases List.mem_cons.1 h with e | e
    · rw [← e, Num.nan_add]
    · rw [ih e, Num.add_nan]

theorem sumR_of_nan {l : List (Num K)} (h : Num.nan ∈ l) : sumR br rd l = .nan := by
  unfold sumR
  rw [if_neg, Num.sum_of_nan h]
  intro e
  have := List.all_eq_true.1 e _ h
  simp [Num.isFin] at this

/-! ### factors and variances -/

theorem MonoRd.nonneg (h : Spec.MonoRd rd N) {x : K} (hx : 0 ≤ x) : 0 ≤ rd x := by
  rw [← h.zero]; exact h.mono hx

variable (hm : Spec.MonoRd rd N) (hb : Spec.Bracketing br) (hp : Spec.Positive n c) (hw : Spec.Weights n w)
include hm hb hp hw

theorem incl_ne_nil {j : ℕ} (hj : j < n - 1) : Spec.incl n w j ≠ [] := by
  obtain ⟨i, hi, hwi⟩ := hw.2 j hj
  exact List.ne_nil_of_mem (mem_incl.2 ⟨hi, hwi.ne'⟩)

theorem wR_pos (alpha : ℕ) {i j : ℕ} (hi : i ∈ Spec.incl n w j) : 0 < Spec.wR rd alpha c w j i := by
  obtain ⟨h1, h2⟩ := mem_incl.1 hi
  exact hm.pos _ (mul_pos (lt_of_le_of_ne (hw.1 i j h1) h2.symm) (hm.pos _ (pow_pos (hp _ _ (by omega)) _)))

theorem mackWR_pos (alpha : ℕ) {j : ℕ} (hj : j < n - 1) : 0 < Spec.mackWR br rd alpha n c w j :=
  sumR_pos hm hb (incl_ne_nil hm hb hp hw hj) fun _ hi => wR_pos hm hb hp hw alpha hi

theorem mackFR_pos (alpha : ℕ) {j : ℕ} (hj : j < n - 1) : 0 < Spec.mackFR br rd alpha n c w j := by
  refine hm.pos _ (div_pos (sumR_pos hm hb (incl_ne_nil hm hb hp hw hj) ?_) (mackWR_pos hm hb hp hw alpha hj))
  intro i hi
  obtain ⟨h1, h2⟩ := mem_incl.1 hi
  have hwp : 0 < w i j := lt_of_le_of_ne (hw.1 i j h1) h2.symm
  exact hm.pos _ (mul_pos (hm.pos _ (mul_pos (hm.pos _ (div_pos (hp _ _ (by omega)) (hp _ _ (by omega)))) hwp))
    (hm.pos _ (pow_pos (hp _ _ (by omega)) _)))

theorem mackAllR_pos (alpha : ℕ) (hn : 1 ≤ n) (j : ℕ) : 0 < Spec.mackAllR br rd alpha n c w j := by
  unfold Spec.mackAllR Spec.withTail
  split
  · exact mackFR_pos hm hb hp hw alpha (by omega)
  · exact one_pos

theorem sig0R_nonneg (alpha j : ℕ) : 0 ≤ Spec.sig0R br rd alpha n c w j := by
  refine MonoRd.nonneg hm (div_nonneg (sumR_nonneg hm hb fun i hi => ?_) (Nat.cast_nonneg _))
  exact MonoRd.nonneg hm (mul_nonneg (wR_pos hm hb hp hw alpha hi).le (MonoRd.nonneg hm (sq_nonneg _)))

omit hb hp hw in
theorem lastVarR_cases {a b : K} (ha : 0 ≤ a) (hb : 0 ≤ b) :
    (a = 0 ∧ b = 0 ∧ lastVarR rd a b = .nan) ∨
      ∃ s, lastVarR rd a b = .fin s ∧ 0 ≤ s ∧ s ≤ a ∧ s ≤ b ∧ ¬ (a = 0 ∧ b = 0) := by
  unfold lastVarR Num.powR Num.divR
  rw [npMin2_fin, Num.pow_fin]
  simp only [Num.rounded]
  rcases eq_or_lt_of_le hb with e | e
  · subst e
    rcases eq_or_lt_of_le ha with e' | e'
    · subst e'
      left
      refine ⟨rfl, rfl, ?_⟩
      rw [zero_pow (by norm_num), hm.zero, Num.fin_div_zero]
      simp [Num.infTimes, npMin2]
    · right
      refine ⟨0, ?_, le_rfl, ha, le_rfl, fun h => e'.ne' h.1⟩
      have : 0 < rd (a ^ 2) := hm.pos _ (pow_pos e' 2)
      rw [Num.fin_div_zero, min_eq_right ha]
      simp [Num.infTimes, this, this.ne', npMin2, Num.isNaN, Num.lt]
  · right
    rw [Num.fin_div _ _ e.ne']
    simp only [Num.rounded]
    rw [npMin2_fin]
    refine ⟨_, rfl, le_min (MonoRd.nonneg hm (div_nonneg (MonoRd.nonneg hm (sq_nonneg _)) hb)) (le_min ha hb),
      (min_le_right _ _).trans (min_le_left _ _), (min_le_right _ _).trans (min_le_right _ _), fun h => e.ne' h.2⟩

/-! ### errors of one origin -/

omit hb hp hw in
theorem peRowR_nonneg {cell : ℕ → ℕ → Num K} {F S : ℕ → Num K}
    (hcell : ∀ i < n, ∀ j < n, n ≤ i + j + 1 → ∃ x, cell i j = .fin x ∧ 0 < x)
    (hF : ∀ j < n - 1, ∃ f, F j = .fin f ∧ 0 < f) (hS : ∀ j < n - 1, ∃ s, S j = .fin s ∧ 0 ≤ s) {i : ℕ} (hi : i < n)
    (hi1 : 1 ≤ i) : ∀ m, m < i → ∃ x, peRowR rd cell F S n i m = .fin x ∧ 0 ≤ x ∧ rd x = x := by
  intro m
  induction m with
  | zero =>
    intro _
    obtain ⟨x, hx, hx0⟩ := hcell i hi (n - 1 - i) (by omega) (by omega)
    obtain ⟨s, hs, hs0⟩ := hS (n - 1 - i) (by omega)
    exact ⟨rd (x * s), by simp [peRowR, hx, hs, Num.mulR, Num.rounded], MonoRd.nonneg hm (mul_nonneg hx0.le hs0),
      hm.idem _⟩
  | succ m ih =>
    intro hmi
    obtain ⟨y, hy, hy0, _⟩ := ih (by omega)
    obtain ⟨x, hx, hx0⟩ := hcell i hi (n - i + m) (by omega) (by omega)
    obtain ⟨s, hs, hs0⟩ := hS (n - i + m) (by omega)
    obtain ⟨f, hf, hf0⟩ := hF (n - i + m) (by omega)
    refine ⟨rd (rd (rd (f ^ 2) * y) + rd (x * s)), by
      simp [peRowR, hx, hs, hf, hy, Num.mulR, Num.addR, Num.powR, Num.rounded], ?_, hm.idem _⟩
    exact MonoRd.nonneg hm (add_nonneg (MonoRd.nonneg hm (mul_nonneg (MonoRd.nonneg hm (sq_nonneg _)) hy0))
      (MonoRd.nonneg hm (mul_nonneg hx0.le hs0)))

omit hb hp hw in
theorem paRowR_nonneg {cell : ℕ → ℕ → Num K} {F V : ℕ → Num K}
    (hcell : ∀ i < n, ∀ j < n, n ≤ i + j + 1 → ∃ x, cell i j = .fin x ∧ 0 < x)
    (hF : ∀ j < n - 1, ∃ f, F j = .fin f ∧ 0 < f) (hV : ∀ j < n - 1, ∃ s, V j = .fin s ∧ 0 ≤ s) {i : ℕ} (hi : i < n)
    (hi1 : 1 ≤ i) : ∀ m, m < i → ∃ x, paRowR rd cell F V n i m = .fin x ∧ 0 ≤ x ∧ rd x = x := by
  intro m
  induction m with
  | zero =>
    intro _
    obtain ⟨x, hx, hx0⟩ := hcell i hi (n - 1 - i) (by omega) (by omega)
    obtain ⟨s, hs, hs0⟩ := hV (n - 1 - i) (by omega)
    exact ⟨rd (rd (x ^ 2) * s), by simp [paRowR, hx, hs, Num.mulR, Num.powR, Num.rounded],
      MonoRd.nonneg hm (mul_nonneg (MonoRd.nonneg hm (sq_nonneg _)) hs0), hm.idem _⟩
  | succ m ih =>
    intro hmi
    obtain ⟨y, hy, hy0, _⟩ := ih (by omega)
    obtain ⟨x, hx, hx0⟩ := hcell i hi (n - i + m) (by omega) (by omega)
    obtain ⟨s, hs, hs0⟩ := hV (n - i + m) (by omega)
    obtain ⟨f, hf, hf0⟩ := hF (n - i + m) (by omega)
    refine ⟨rd (rd (rd (rd (f ^ 2) * y) + rd (rd (x ^ 2) * s)) + rd (s * y)), by
      simp [paRowR, hx, hs, hf, hy, Num.mulR, Num.addR, Num.powR, Num.rounded], ?_, hm.idem _⟩
    exact MonoRd.nonneg hm (add_nonneg (MonoRd.nonneg hm (add_nonneg
      (MonoRd.nonneg hm (mul_nonneg (MonoRd.nonneg hm (sq_nonneg _)) hy0))
      (MonoRd.nonneg hm (mul_nonneg (MonoRd.nonneg hm (sq_nonneg _)) hs0)))) (MonoRd.nonneg hm (mul_nonneg hs0 hy0)))

omit hm hb hp hw [IsStrictOrderedRing K] in
theorem peRowR_nan {cell : ℕ → ℕ → Num K} {F S : ℕ → Num K} (hS : S (n - 2) = .nan) {i : ℕ} (hi : i < n)
    (hi1 : 1 ≤ i) : peRowR rd cell F S n i (i - 1) = .nan := by
  obtain ⟨m, rfl⟩ : ∃ m, i = m + 1 := ⟨i - 1, by omega⟩
  rw [Nat.add_sub_cancel]
  cases m with
  | zero => simp only [peRowR, zero_add]; rw [show n - 1 - 1 = n - 2 by omega, hS]; simp [Num.mulR, Num.rounded]
  | succ m =>
    simp only [peRowR]
    rw [show n - (m + 1 + 1) + m = n - 2 by omega, hS]
    simp [Num.mulR, Num.addR, Num.rounded]

omit hm hb hp hw [IsStrictOrderedRing K] in
theorem paRowR_nan {cell : ℕ → ℕ → Num K} {F V : ℕ → Num K} (hV : V (n - 2) = .nan) {i : ℕ} (hi : i < n)
    (hi1 : 1 ≤ i) : paRowR rd cell F V n i (i - 1) = .nan := by
  obtain ⟨m, rfl⟩ : ∃ m, i = m + 1 := ⟨i - 1, by omega⟩
  rw [Nat.add_sub_cancel]
  cases m with
  | zero => simp only [paRowR, zero_add]; rw [show n - 1 - 1 = n - 2 by omega, hV]; simp [Num.mulR, Num.rounded]
  | succ m =>
    simp only [paRowR]
    rw [show n - (m + 1 + 1) + m = n - 2 by omega, hV]
    simp [Num.mulR, Num.addR, Num.rounded]

/-! ### the total -/

omit hp hw in
theorem mseTotalRowR_ge {cell : ℕ → ℕ → Num K} {F S : ℕ → Num K} {os : List Int} {mse ults : List (Num K)}
    (hobs : ∀ i j, i + j < n → ∃ x, cell i j = .fin x ∧ 0 < x)
    (hF : ∀ j < n - 1, ∃ f, F j = .fin f ∧ 0 < f) (hS : ∀ j < n - 1, ∃ s, S j = .fin s ∧ 0 ≤ s) {i : ℕ} (hi : i < n)
    (hults : ∀ v ∈ ults, ∃ x, v = .fin x ∧ 0 ≤ x) (hlen : i < ults.length) {M : K} (hM : mse.getD i .nan = .fin M)
    (hMf : rd M = M) (hM0 : 0 ≤ M) :
    ∃ x, mseTotalRowR br rd cell F S n os mse ults i = .fin x ∧ M ≤ x ∧ 0 ≤ x ∧ rd x = x := by
  obtain ⟨l1, e1, hl1⟩ := fin_list (l := ((os.zip ults).filter (fun p => decide (os.getD i 0 < p.1))).map Prod.snd)
    (q := fun x => 0 ≤ x) (by
      intro v hv
      obtain ⟨p, hp', rfl⟩ := List.mem_map.1 hv
      exact hults _ (List.of_mem_zip (List.mem_of_mem_filter hp')).2)
  obtain ⟨l2, e2, hl2⟩ := fin_list (l := (List.range i).map (fun k =>
      Num.divR rd (Num.divR rd (S (n - 1 - i + k)) ((F (n - 1 - i + k)).powR rd 2))
        (pySumR rd ((List.range (n - 1 - (n - 1 - i + k))).map (fun r => cell r (n - 1 - i + k))))))
    (q := fun x => 0 ≤ x) (by
      intro v hv
      obtain ⟨k, hk, rfl⟩ := List.mem_map.1 hv
      rw [List.mem_range] at hk
      obtain ⟨s, hs, hs0⟩ := hS (n - 1 - i + k) (by omega)
      obtain ⟨f, hf, hf0⟩ := hF (n - 1 - i + k) (by omega)
      obtain ⟨l3, e3, hl3⟩ := fin_list
        (l := (List.range (n - 1 - (n - 1 - i + k))).map (fun r => cell r (n - 1 - i + k))) (q := fun x => 0 < x) (by
          intro v hv
          obtain ⟨r, hr, rfl⟩ := List.mem_map.1 hv
          rw [List.mem_range] at hr
          exact hobs _ _ (by omega))
      have hne : l3 ≠ [] := by
        intro e
        have := congrArg List.length e3
        rw [e] at this
        simp at this
        omega
      have h3 := roundedSum_pos hm seqTree_bracketing hne hl3
      have h4 : 0 < rd (f ^ 2) := hm.pos _ (pow_pos hf0 2)
      refine ⟨_, ?_, MonoRd.nonneg hm (div_nonneg (MonoRd.nonneg hm (div_nonneg hs0 h4.le)) h3.le)⟩
      rw [hs, hf, e3]
      unfold pySumR Num.divR Num.powR
      rw [sumR_fin, Num.pow_fin]
      simp only [Num.rounded]
      rw [Num.fin_div _ _ h4.ne']
      simp only [Num.rounded]
      rw [Num.fin_div _ _ h3.ne'])
  obtain ⟨u, hu, hu0⟩ : ∃ u, ults.getD i .nan = .fin u ∧ 0 ≤ u := by
    rw [List.getD_eq_getElem?_getD, List.getElem?_eq_getElem hlen]
    exact hults _ (List.getElem_mem _)
  unfold mseTotalRowR
  simp only
  rw [e1, e2, hM, hu, sumSkipR_fin]
  unfold pySumR
  rw [sumR_fin]
  have h1 := roundedSum_nonneg hm hb hl1
  have h2 := roundedSum_nonneg hm seqTree_bracketing hl2
  have h3 : 0 ≤ rd (rd (rd (2 * u) * roundedSum br rd l1) * roundedSum (fun k => seqTree (k - 1)) rd l2) :=
    MonoRd.nonneg hm (mul_nonneg (MonoRd.nonneg hm (mul_nonneg (MonoRd.nonneg hm (by positivity)) h1)) h2)
  refine ⟨_, rfl, ?_, MonoRd.nonneg hm (add_nonneg hM0 h3), hm.idem _⟩
  rw [← hMf]
  apply hm.mono
  rw [hMf]
  linarith

omit hm hb hp hw in
theorem mseTotalRowR_nan {cell : ℕ → ℕ → Num K} {F S : ℕ → Num K} {os : List Int} {mse ults : List (Num K)}
    (hS : S (n - 2) = .nan) {i : ℕ} (hi : i < n) (hi1 : 1 ≤ i) :
    mseTotalRowR br rd cell F S n os mse ults i = .nan := by
  unfold mseTotalRowR
  simp only
  have : pySumR rd ((List.range i).map (fun k =>
      Num.divR rd (Num.divR rd (S (n - 1 - i + k)) ((F (n - 1 - i + k)).powR rd 2))
        (pySumR rd ((List.range (n - 1 - (n - 1 - i + k))).map (fun r => cell r (n - 1 - i + k)))))) = .nan := by
    apply sumR_of_nan
    refine List.mem_map.2 ⟨i - 1, List.mem_range.2 (by omega), ?_⟩
    rw [show n - 1 - i + (i - 1) = n - 2 by omega, hS]
    simp [Num.divR, Num.rounded]
  rw [this]
  simp [Num.mulR, Num.addR, Num.rounded]

/-! ### the result -/

/-- Results of Mack chain ladder on a triangle with `n` periods that keep the order of the exact ones. -/
structure Spec.MackInOrder (n : ℕ) (r : MackCore K) : Prop where
  factors : ∀ j < n, ∃ f : K, r.ldfs.iloc j = .fin f ∧ 0 < f
  variances : ∃ s : ℕ → K, (∀ j < n - 2, r.devpvar.iloc j = .fin (s j) ∧ 0 ≤ s j) ∧
    (s (n - 3) = 0 ∧ s (n - 4) = 0 ∧ r.devpvar.iloc (n - 2) = .nan ∨
      ∃ x : K, r.devpvar.iloc (n - 2) = .fin x ∧ 0 ≤ x ∧ x ≤ s (n - 3) ∧ x ≤ s (n - 4))
  lengths : r.procErr.length = n ∧ r.paramErr.length = n ∧ r.mse.length = n
  errors : ∃ P Q M : ℕ → K, ∃ T : K, (∀ i < n, r.procErr[i]? = some (.fin (P i)) ∧ r.paramErr[i]? = some (.fin (Q i)) ∧
      r.mse[i]? = some (.fin (M i)) ∧ 0 ≤ P i ∧ 0 ≤ Q i ∧ P i ≤ M i ∧ Q i ≤ M i ∧ M i ≤ T) ∧
    M 0 = 0 ∧ r.totMse = .fin T

omit hb hp hw in
theorem tailProdR_pos {f : ℕ → K} (hf : ∀ j < n, 0 < f j) {j : ℕ} (hj : j < n) : 0 < Spec.tailProdR rd f n j := by
  have := (tailProdR_mono hm hf (fun _ _ => le_rfl) (n - 1 - j) (by omega)).1
  rwa [show n - 1 - (n - 1 - j) = j by omega] at this

/-- **C151.** Mack chain ladder in rounded arithmetic, for every positive staircase with at least four periods, every
choice of excluded link ratios that leaves one per period, every alpha and every order of additions: the estimator
returns, factors are positive, no variance and no error is negative, the variance of the last period does not exceed the
two before, the mean squared error of an origin is at least its process error and at least its parameter error, the oldest
origin has none, and the total is at least that of every origin. -/
theorem C151_order (h : Spec.Stair t n c) (hi : IndW t ind n w) (hn : 4 ≤ n) (alpha : ℕ) :
    ∃ r, mackCoreR br rd alpha t ind = .ok r ∧ Spec.MackInOrder n r := by
  obtain ⟨r, b, lab, hr, p⟩ := mackCoreR_stair br rd h hp.ne_zero hi hn alpha
    (fun j hj => (mackWR_pos hm hb hp hw alpha hj).ne')
  refine ⟨r, hr, ?_⟩
  have hall := mackAllR_pos hm hb hp hw alpha (show 1 ≤ n by omega)
  have hF : ∀ j < n, ∃ f, r.ldfs.iloc j = .fin f ∧ 0 < f := fun j hj => ⟨_, p.ldf h j hj, hall j⟩
  have hF' : ∀ j < n - 1, ∃ f, r.ldfs.iloc j = .fin f ∧ 0 < f := fun j hj => hF j (by omega)
  have hcell : ∀ i < n, ∀ j < n, ∃ x, r.sqr.tri.cell i j = .fin x ∧ 0 < x := by
    intro i hi j hj
    rw [p.sqr, p.spec.sqr_cells i hi j hj]
    refine ⟨_, rfl, ?_⟩
    split
    · exact hp _ _ (by omega)
    · exact projR_pos hm (hp _ _ (by omega)) hall _ _
  have hults : ∀ v ∈ r.rows.map SummRow.ultimate, ∃ x, v = .fin x ∧ 0 ≤ x := by
    rw [p.ults]
    intro v hv
    obtain ⟨i, hi, rfl⟩ := List.mem_map.1 hv
    rw [List.mem_range] at hi
    exact ⟨_, rfl, MonoRd.nonneg hm (mul_nonneg (hp _ _ (by omega)).le
      (tailProdR_pos hm (fun j _ => hall j) (by omega)).le)⟩
  have hultl : (r.rows.map SummRow.ultimate).length = n := by rw [p.ults]; simp
  have hs0 : ∀ j < n - 2, r.devpvar.iloc j = .fin (Spec.sig0R br rd alpha n c w j) := by
    intro j hj
    rw [p.dv j (by omega)]
    unfold storedVarR
    rw [if_pos (by omega)]
  have hlast : r.devpvar.iloc (n - 2) = lastVarR rd (Spec.sig0R br rd alpha n c w (n - 3))
      (Spec.sig0R br rd alpha n c w (n - 4)) := by
    rw [p.dv _ (by omega)]
    unfold storedVarR
    rw [if_neg (by omega)]
  have hnn := sig0R_nonneg (n := n) (c := c) (w := w) hm hb hp hw alpha
  have hlen : r.procErr.length = n ∧ r.paramErr.length = n ∧ r.mse.length = n := by
    rw [p.mse, p.procErr, p.paramErr]
    simp [processErrorR, parameterErrorR]
  have hmse : ∀ (i : ℕ) (P Q : K), r.procErr[i]? = some (.fin P) → r.paramErr[i]? = some (.fin Q) →
      r.mse[i]? = some (.fin (rd (P + Q))) := by
    intro i P Q h1 h2
    rw [p.mse, List.getElem?_zipWith, h1, h2]
    rfl
  have hpe : ∀ i < n, r.procErr[i]? = some (if i = 0 then 0 else
      nanTo0 (peRowR rd r.sqr.tri.cell r.ldfs.iloc r.devpvar.iloc n i (i - 1))) := by
    intro i hi
    rw [p.procErr]; unfold processErrorR
    rw [List.getElem?_map, List.getElem?_range hi]; rfl
  have hpa : ∀ i < n, r.paramErr[i]? = some (if i = 0 then 0 else
      nanTo0 (paRowR rd r.sqr.tri.cell r.ldfs.iloc r.ldfvar.iloc n i (i - 1))) := by
    intro i hi
    rw [p.paramErr]; unfold parameterErrorR
    rw [List.getElem?_map, List.getElem?_range hi]; rfl
  rcases lastVarR_cases hm (hnn (n - 3)) (hnn (n - 4)) with ⟨e1, e2, e3⟩ | ⟨s, e3, hs1, hs2, hs3, hs4⟩
  · rw [e3] at hlast
    have hlv : r.ldfvar.iloc (n - 2) = .nan := by
      rw [p.lv _ (by omega), ← p.dv _ (by omega), hlast]
      simp [Num.divR, Num.rounded]
    have hP : ∀ i < n, r.procErr[i]? = some (.fin 0) := by
      intro i hi
      rw [hpe i hi]
      split
      · rfl
      · rw [peRowR_nan hlast hi (by omega)]; rfl
    have hQ : ∀ i < n, r.paramErr[i]? = some (.fin 0) := by
      intro i hi
      rw [hpa i hi]
      split
      · rfl
      · rw [paRowR_nan hlv hi (by omega)]; rfl
    refine ⟨hF, ⟨_, fun j hj => ⟨hs0 j hj, hnn j⟩, Or.inl ⟨e1, e2, hlast⟩⟩, hlen, fun _ => 0, fun _ => 0,
      fun _ => 0, 0, fun i hi => ⟨hP i hi, hQ i hi, ?_, le_rfl, le_rfl, le_rfl, le_rfl, le_rfl⟩, rfl, ?_⟩
    · rw [hmse i 0 0 (hP i hi) (hQ i hi), add_zero, hm.zero]
    · rw [p.total]
      have : (List.range (n - 1)).map (fun k => mseTotalRowR br rd r.sqr.tri.cell r.ldfs.iloc r.devpvar.iloc n t.origins
          r.mse (r.rows.map SummRow.ultimate) (k + 1)) = (List.range (n - 1)).map (fun _ => .nan) := by
        apply List.map_congr_left
        intro k hk
        rw [List.mem_range] at hk
        exact mseTotalRowR_nan hlast (by omega) (by omega)
      rw [this]
      unfold sumSkipR
      rw [List.filter_eq_nil_iff.2]
      · rfl
      · intro v hv
        obtain ⟨k, _, rfl⟩ := List.mem_map.1 hv
        simp
  · rw [e3] at hlast
    have hS : ∀ j < n - 1, ∃ s, r.devpvar.iloc j = .fin s ∧ 0 ≤ s := by
      intro j hj
      by_cases e : j < n - 2
      · exact ⟨_, hs0 j e, hnn j⟩
      · rw [show j = n - 2 by omega]; exact ⟨s, hlast, hs1⟩
    have hV : ∀ j < n - 1, ∃ s, r.ldfvar.iloc j = .fin s ∧ 0 ≤ s := by
      intro j hj
      obtain ⟨s, h1, h2⟩ := hS j hj
      have hW := mackWR_pos hm hb hp hw alpha hj
      rw [p.lv j hj, ← p.dv j hj, h1]
      unfold Num.divR
      rw [Num.fin_div _ _ hW.ne']
      exact ⟨_, rfl, MonoRd.nonneg hm (div_nonneg h2 hW.le)⟩
    have hP : ∀ i < n, ∃ x, r.procErr[i]? = some (.fin x) ∧ 0 ≤ x ∧ rd x = x ∧ (i = 0 → x = 0) := by
      intro i hi
      rw [hpe i hi]
      by_cases e : i = 0
      · rw [if_pos e]; exact ⟨0, rfl, le_rfl, hm.zero, fun _ => rfl⟩
      · rw [if_neg e]
        obtain ⟨x, h1, h2, h3⟩ := peRowR_nonneg hm (cell := r.sqr.tri.cell) (fun i hi j hj _ => hcell i hi j hj) hF' hS
          hi (by omega) (i - 1) (by omega)
        rw [h1]
        exact ⟨x, rfl, h2, h3, fun e' => absurd e' e⟩
    have hQ : ∀ i < n, ∃ x, r.paramErr[i]? = some (.fin x) ∧ 0 ≤ x ∧ rd x = x ∧ (i = 0 → x = 0) := by
      intro i hi
      rw [hpa i hi]
      by_cases e : i = 0
      · rw [if_pos e]; exact ⟨0, rfl, le_rfl, hm.zero, fun _ => rfl⟩
      · rw [if_neg e]
        obtain ⟨x, h1, h2, h3⟩ := paRowR_nonneg hm (cell := r.sqr.tri.cell) (fun i hi j hj _ => hcell i hi j hj) hF' hV
          hi (by omega) (i - 1) (by omega)
        rw [h1]
        exact ⟨x, rfl, h2, h3, fun e' => absurd e' e⟩
    choose! P hP using hP
    choose! Q hQ using hQ
    have hM : ∀ i < n, r.mse[i]? = some (.fin (rd (P i + Q i))) := fun i hi =>
      hmse i _ _ (hP i hi).1 (hQ i hi).1
    have hPM : ∀ i < n, P i ≤ rd (P i + Q i) := by
      intro i hi
      conv_lhs => rw [← (hP i hi).2.2.1]
      exact hm.mono (by linarith [(hQ i hi).2.1])
    have hQM : ∀ i < n, Q i ≤ rd (P i + Q i) := by
      intro i hi
      conv_lhs => rw [← (hQ i hi).2.2.1]
      exact hm.mono (by linarith [(hP i hi).2.1])
    have hrow : ∀ k < n - 1, ∃ x, mseTotalRowR br rd r.sqr.tri.cell r.ldfs.iloc r.devpvar.iloc n t.origins
          r.mse (r.rows.map SummRow.ultimate) (k + 1) = .fin x ∧ rd (P (k + 1) + Q (k + 1)) ≤ x ∧ 0 ≤ x ∧ rd x = x := by
      intro k hk
      refine mseTotalRowR_ge hm hb (fun i j hij => hcell i (by omega) j (by omega)) hF' hS (show k + 1 < n by omega)
        hults (by rw [hultl]; omega) ?_ (hm.idem _) ((hP (k + 1) (by omega)).2.1.trans (hPM _ (by omega)))
      rw [List.getD_eq_getElem?_getD, hM _ (by omega)]; rfl
    choose! X hX using hrow
    have htot : r.totMse = .fin (roundedSum br rd ((List.range (n - 1)).map X)) := by
      rw [p.total, ← sumSkipR_fin, List.map_map]
      congr 1
      apply List.map_congr_left
      intro k hk
      rw [List.mem_range] at hk
      exact (hX k hk).1
    have hXnn : ∀ x ∈ (List.range (n - 1)).map X, 0 ≤ x := by
      intro x hx
      obtain ⟨k, hk, rfl⟩ := List.mem_map.1 hx
      exact (hX k (List.mem_range.1 hk)).2.2.1
    have hM0 : rd (P 0 + Q 0) = 0 := by
      rw [(hP 0 (by omega)).2.2.2 rfl, (hQ 0 (by omega)).2.2.2 rfl, add_zero, hm.zero]
    refine ⟨hF, ⟨_, fun j hj => ⟨hs0 j hj, hnn j⟩, Or.inr ⟨s, hlast, hs1, hs2, hs3⟩⟩, hlen, P, Q,
      fun i => rd (P i + Q i), _, fun i hi => ⟨(hP i hi).1, (hQ i hi).1, hM i hi, (hP i hi).2.1, (hQ i hi).2.1,
        hPM i hi, hQM i hi, ?_⟩, hM0, htot⟩
    by_cases e : i = 0
    · subst e
      simp only [hM0]
      exact roundedSum_nonneg hm hb hXnn
    · obtain ⟨k, rfl⟩ : ∃ k, i = k + 1 := ⟨i - 1, by omega⟩
      have hk : k < n - 1 := by omega
      exact (hX k hk).2.1.trans (roundedSum_ge hm hb hXnn (List.mem_map_of_mem (List.mem_range.2 hk)) (hX k hk).2.2.2)

end Trikit
