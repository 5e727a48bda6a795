import Verif.Props.MackErrors

/-!
# C99-C101: what an estimate depends on

C99: higher latest values never lower an ultimate.  C100: a new diagonal that equals the forecast leaves
the ultimates unchanged.  C101: the estimate of an origin uses only that origin and older ones.
-/

set_option linter.unusedSectionVars false

namespace Trikit

section
variable {K : Type} [Field K] [LinearOrder K] [IsStrictOrderedRing K]
variable {t t' ind ind' : Tri K} {n : ℕ} {c c' w w' : ℕ → ℕ → K}

/-- The averages over all years whose factors are those of `mack_cl` for exponents 0 and 1. -/
def Spec.allName (alpha : ℕ) : String := if alpha = 0 then "all-simple" else "all-weighted"

theorem rowIs_all (gm : List (Num K) → Num K) (h : Spec.Stair t n c) (hp : Spec.Positive n c) (hn : 2 ≤ n)
    {alpha : ℕ} (ha : alpha ≤ 1) : Spec.RowIs gm t t.a2aind0 (Spec.allName alpha)
      ((List.range (n - 1)).map (fun j => .fin (Spec.mackF alpha n c (fun _ _ => 1) j))) := by
  rcases (show alpha = 0 ∨ alpha = 1 by omega) with rfl | rfl
  · exact rowIs_simple gm h hp hn
  · exact rowIs_weighted gm h hp hn

/-- Ultimate of origin `i` with a tail factor. -/
theorem base_ults (gm : List (Num K) → Num K) (h : Spec.Stair t n c) (hp : Spec.Positive n c) (hn : 3 ≤ n)
    {alpha : ℕ} (ha : alpha ≤ 1) (tail : K) :
    ∃ r, baseCL gm t t.a2aind0 (Spec.allName alpha) (.fin tail) = .ok r ∧
      (∀ i < n, ∃ row, r.rows[i]? = some row ∧ row.origin = t.oAt i ∧
        row.ultimate = .fin (Spec.ult n c (Spec.mackF alpha n c (fun _ _ => 1)) i * tail) ∧
        row.reserve = .fin (Spec.ult n c (Spec.mackF alpha n c (fun _ _ => 1)) i * tail - c i (n - 1 - i))) ∧
      r.totUltimate = .fin (∑ i ∈ Finset.range n, Spec.ult n c (Spec.mackF alpha n c (fun _ _ => 1)) i * tail) := by
  obtain ⟨r, lab, h1, _, _, _, h5⟩ := baseCL_stair h hp.ne_zero (h.indOn0 hp.ne_zero) hn
    (rowIs_all gm h hp (by omega) ha) tail
  have e : ∀ i < n, c i (n - 1 - i) * Spec.tailProd (Spec.withTail (Spec.mackF alpha n c (fun _ _ => 1)) n tail) n
      (n - 1 - i) = Spec.ult n c (Spec.mackF alpha n c (fun _ _ => 1)) i * tail := by
    intro i hi
    rw [tailProd_withTail _ _ (by omega)]
    unfold Spec.ult Spec.proj
    ring
  refine ⟨r, h1, ?_, ?_⟩
  · intro i hi
    obtain ⟨row, hr, ho, _, _, _, _, hu, hv⟩ := h5.rows i hi
    refine ⟨row, hr, ho, ?_, ?_⟩
    · rw [hu, e i hi]
    · rw [hv, e i hi]
  · rw [h5.totUltimate]
    congr 1
    exact Finset.sum_congr rfl fun i hi => e i (Finset.mem_range.1 hi)

theorem mack_ults (h : Spec.Stair t n c) (hp : Spec.Positive n c) (hi : IndW t ind n w)
    (hw : Spec.Weights n w) (hn : 4 ≤ n) (alpha : ℕ) :
    ∃ r, mackCore alpha t ind = .ok r ∧
      (∀ i < n, ∃ row, r.rows[i]? = some row ∧ row.origin = t.oAt i ∧
        row.ultimate = .fin (Spec.ult n c (Spec.mackF alpha n c w) i) ∧
        row.reserve = .fin (Spec.ult n c (Spec.mackF alpha n c w) i - c i (n - 1 - i))) ∧
      r.totUltimate = .fin (∑ i ∈ Finset.range n, Spec.ult n c (Spec.mackF alpha n c w) i) ∧
      (Spec.Degenerate alpha n c w → r.mse = (List.range n).map (fun _ => .fin 0) ∧
        r.procErr = (List.range n).map (fun _ => .fin 0) ∧ r.paramErr = (List.range n).map (fun _ => .fin 0)) ∧
      (¬ Spec.Degenerate alpha n c w → r.mse = (List.range n).map (fun i => .fin (Spec.mse alpha n c w i)) ∧
        r.procErr = (List.range n).map (fun i => .fin (Spec.procVar n c (Spec.mackF alpha n c w)
          (Spec.sigma2 alpha n c w) i)) ∧
        r.paramErr = (List.range n).map (fun i => .fin (Spec.paramVar n c (Spec.mackF alpha n c w)
          (Spec.ldfVar alpha n c w) i))) := by
  obtain ⟨r, b, lab, hr, p⟩ := mack_parts h hp hi hw hn alpha
  have e : ∀ i < n, c i (n - 1 - i) * Spec.tailProd (Spec.mackAll alpha n c w) n (n - 1 - i) =
      Spec.ult n c (Spec.mackF alpha n c w) i := by
    intro i hi
    unfold Spec.mackAll
    rw [tailProd_withTail _ _ (by omega)]
    unfold Spec.ult Spec.proj
    ring
  refine ⟨r, hr, ?_, ?_, ?_, ?_⟩
  · intro i hi
    obtain ⟨row, hr, ho, _, _, _, _, hu, hv⟩ := p.spec.rows i hi
    exact ⟨row, by rw [p.rows, hr], ho, by rw [hu, e i hi], by rw [hv, e i hi]⟩
  · rw [p.totUltimate, p.spec.totUltimate]
    congr 1
    exact Finset.sum_congr rfl fun i hi => e i (Finset.mem_range.1 hi)
  · intro hd
    obtain ⟨h1, h2, h3, _⟩ := p.degenerate (by omega) hp hw hd
    exact ⟨h3, h1, h2⟩
  · intro hd
    exact ⟨p.mse_eq h hp hw hd, p.procErr_eq h hp hw hd, p.paramErr_eq h hp hw hd⟩

/-! ## C99 -/

/-- `c'` equals `c` except that values of the latest diagonal may be higher. -/
structure Spec.Raised (n : ℕ) (c c' : ℕ → ℕ → K) : Prop where
  same : ∀ i j, i + j + 1 < n → c' i j = c i j
  up : ∀ i < n, c i (n - 1 - i) ≤ c' i (n - 1 - i)

theorem mackF_mono (hp : Spec.Positive n c) (hw : Spec.Weights n w) (hr : Spec.Raised n c c') (alpha : ℕ) {j : ℕ}
    (hj : j < n - 1) : Spec.mackF alpha n c w j ≤ Spec.mackF alpha n c' w j := by
  have hW : Spec.mackW alpha n c' w j = Spec.mackW alpha n c w j := by
    unfold Spec.mackW Spec.colSum
    refine Finset.sum_congr rfl fun i hi => ?_
    rw [Finset.mem_range] at hi
    beta_reduce; rw [hr.same i j (by omega)]
  unfold Spec.mackF
  rw [hW]
  refine div_le_div_of_nonneg_right ?_ (mackW_pos hp hw alpha hj).le
  unfold Spec.colSum
  refine Finset.sum_le_sum fun i hi => ?_
  rw [Finset.mem_range] at hi
  beta_reduce
  rw [hr.same i j (by omega)]
  have h0 := hp i j (by omega)
  refine mul_le_mul_of_nonneg_left ?_ (mul_nonneg (hw.nonneg i j (by omega)) (pow_nonneg h0.le _))
  refine div_le_div_of_nonneg_right ?_ h0.le
  by_cases hl : i + (j + 1) + 1 < n
  · rw [hr.same i (j + 1) hl]
  · have e : j + 1 = n - 1 - i := by omega
    rw [e]
    exact hr.up i (by omega)

theorem ult_mono (hp : Spec.Positive n c) (hw : Spec.Weights n w) (hr : Spec.Raised n c c') (alpha : ℕ) {i : ℕ}
    (hi : i < n) :
    Spec.ult n c (Spec.mackF alpha n c w) i ≤ Spec.ult n c' (Spec.mackF alpha n c' w) i ∧
    (c i (n - 1 - i) < c' i (n - 1 - i) →
      Spec.ult n c (Spec.mackF alpha n c w) i < Spec.ult n c' (Spec.mackF alpha n c' w) i) := by
  have h0 := hp i (n - 1 - i) (by omega)
  have hpos : 0 < ∏ m ∈ Finset.Ico (n - 1 - i) (n - 1), Spec.mackF alpha n c w m :=
    Finset.prod_pos fun m hm => mackF_pos hp hw alpha (Finset.mem_Ico.1 hm).2
  have hle : ∏ m ∈ Finset.Ico (n - 1 - i) (n - 1), Spec.mackF alpha n c w m ≤
      ∏ m ∈ Finset.Ico (n - 1 - i) (n - 1), Spec.mackF alpha n c' w m :=
    Finset.prod_le_prod (fun m hm => (mackF_pos hp hw alpha (Finset.mem_Ico.1 hm).2).le)
      (fun m hm => mackF_mono hp hw hr alpha (Finset.mem_Ico.1 hm).2)
  have hup := hr.up i hi
  unfold Spec.ult Spec.proj
  refine ⟨mul_le_mul hup hle hpos.le (h0.le.trans hup), fun hlt => ?_⟩
  exact mul_lt_mul hlt hle hpos (h0.trans hlt).le

/-- **C99** for `mack_cl`, every `alpha` and all exclusion weights: raising latest values never lowers an
ultimate, raises that of every origin whose own latest value is raised, and does not lower the total. -/
theorem C99_mack (h : Spec.Stair t n c) (hp : Spec.Positive n c) (hi : IndW t ind n w)
    (h' : Spec.Stair t' n c') (hi' : IndW t' ind' n w) (hw : Spec.Weights n w) (hn : 4 ≤ n)
    (hr : Spec.Raised n c c') (alpha : ℕ) :
    ∃ r r' T T', mackCore alpha t ind = .ok r ∧ mackCore alpha t' ind' = .ok r' ∧
      (∀ i < n, ∃ row row' u u', r.rows[i]? = some row ∧ r'.rows[i]? = some row' ∧
        row.ultimate = .fin u ∧ row'.ultimate = .fin u' ∧ u ≤ u' ∧
        (c i (n - 1 - i) < c' i (n - 1 - i) → u < u')) ∧
      r.totUltimate = .fin T ∧ r'.totUltimate = .fin T' ∧ T ≤ T' := by
  have hp' : Spec.Positive n c' := by
    intro i j hij
    by_cases hl : i + j + 1 < n
    · rw [hr.same i j hl]; exact hp i j hij
    · have e : j = n - 1 - i := by omega
      rw [e]
      exact (hp i _ (by omega)).trans_le (hr.up i (by omega))
  obtain ⟨r, h1, h2, h3, _⟩ := mack_ults h hp hi hw hn alpha
  obtain ⟨r', h1', h2', h3', _⟩ := mack_ults h' hp' hi' hw hn alpha
  refine ⟨r, r', _, _, h1, h1', ?_, h3, h3', ?_⟩
  · intro i hi
    obtain ⟨row, a1, _, a2, _⟩ := h2 i hi
    obtain ⟨row', b1, _, b2, _⟩ := h2' i hi
    exact ⟨row, row', _, _, a1, b1, a2, b2, ult_mono hp hw hr alpha hi⟩
  · exact Finset.sum_le_sum fun i hi => (ult_mono hp hw hr alpha (Finset.mem_range.1 hi)).1

/-- **C99** for `base_cl` with `all-simple` and `all-weighted` and any positive tail factor. -/
theorem C99_base (gm : List (Num K) → Num K) (h : Spec.Stair t n c) (hp : Spec.Positive n c)
    (h' : Spec.Stair t' n c') (hn : 3 ≤ n) (hr : Spec.Raised n c c') {sel : String}
    (hsel : sel = "all-simple" ∨ sel = "all-weighted") {tail : K} (htail : 0 < tail) :
    ∃ r r' T T', baseCL gm t t.a2aind0 sel (.fin tail) = .ok r ∧
      baseCL gm t' t'.a2aind0 sel (.fin tail) = .ok r' ∧
      (∀ i < n, ∃ row row' u u', r.rows[i]? = some row ∧ r'.rows[i]? = some row' ∧
        row.ultimate = .fin u ∧ row'.ultimate = .fin u' ∧ u ≤ u' ∧
        (c i (n - 1 - i) < c' i (n - 1 - i) → u < u')) ∧
      r.totUltimate = .fin T ∧ r'.totUltimate = .fin T' ∧ T ≤ T' := by
  have hp' : Spec.Positive n c' := by
    intro i j hij
    by_cases hl : i + j + 1 < n
    · rw [hr.same i j hl]; exact hp i j hij
    · have e : j = n - 1 - i := by omega
      rw [e]
      exact (hp i _ (by omega)).trans_le (hr.up i (by omega))
  obtain ⟨alpha, ha, rfl⟩ : ∃ alpha ≤ 1, sel = Spec.allName alpha := by
    rcases hsel with rfl | rfl
    · exact ⟨0, by omega, rfl⟩
    · exact ⟨1, by omega, rfl⟩
  have hw := Spec.Weights.one (K := K) (n := n) (by omega)
  obtain ⟨r, h1, h2, h3⟩ := base_ults gm h hp hn ha tail
  obtain ⟨r', h1', h2', h3'⟩ := base_ults gm h' hp' hn ha tail
  refine ⟨r, r', _, _, h1, h1', ?_, h3, h3', ?_⟩
  · intro i hi
    obtain ⟨row, a1, _, a2, _⟩ := h2 i hi
    obtain ⟨row', b1, _, b2, _⟩ := h2' i hi
    have hm := ult_mono hp hw hr alpha hi
    exact ⟨row, row', _, _, a1, b1, a2, b2, mul_le_mul_of_nonneg_right hm.1 htail.le,
      fun hlt => mul_lt_mul_of_pos_right (hm.2 hlt) htail⟩
  · exact Finset.sum_le_sum fun i hi =>
      mul_le_mul_of_nonneg_right (ult_mono hp hw hr alpha (Finset.mem_range.1 hi)).1 htail.le

/-! ## C100 -/

/-- `c'` is `c` one evaluation later, every origin having developed with the factors `f` (the oldest one
with the tail factor); a new origin has been added. -/
structure Spec.AsExpected (n : ℕ) (c c' : ℕ → ℕ → K) (f : ℕ → K) (tail : K) : Prop where
  same : ∀ i j, i + j < n → c' i j = c i j
  next : ∀ i, 1 ≤ i → i < n → c' i (n - i) = c i (n - 1 - i) * f (n - 1 - i)
  oldest : c' 0 n = c 0 (n - 1) * tail
  fresh : 0 < c' n 0

theorem Spec.AsExpected.pos {f : ℕ → K} {tail : K} (hn : 1 ≤ n) (hp : Spec.Positive n c) (hf : ∀ j < n - 1, 0 < f j)
    (htail : 0 < tail) (he : Spec.AsExpected n c c' f tail) : Spec.Positive (n + 1) c' := by
  intro i j hij
  by_cases hl : i + j < n
  · rw [he.same i j hl]; exact hp i j hl
  · obtain rfl : j = n - i := by omega
    by_cases h0 : i = 0
    · subst h0
      rw [Nat.sub_zero, he.oldest]; exact mul_pos (hp 0 _ (by omega)) htail
    · by_cases h1 : i = n
      · subst h1; rw [Nat.sub_self]; exact he.fresh
      · rw [he.next i (by omega) (by omega)]
        exact mul_pos (hp i _ (by omega)) (hf _ (by omega))

theorem mackF_expected (hp : Spec.Positive n c) (hw : Spec.Weights n w) {tail : K} {alpha : ℕ}
    (he : Spec.AsExpected n c c' (Spec.mackF alpha n c w) tail) (hp' : Spec.Positive (n + 1) c')
    (hw' : Spec.Weights (n + 1) w') (hww : ∀ i j, i + j + 1 < n → w' i j = w i j) {j : ℕ} (hj : j < n) :
    Spec.mackF alpha (n + 1) c' w' j = if j < n - 1 then Spec.mackF alpha n c w j else tail := by
  have hW' := mackW_pos hp' hw' alpha (j := j) (by omega)
  by_cases hj1 : j < n - 1
  · rw [if_pos hj1]
    have hW := mackW_pos hp hw alpha hj1
    have e : n + 1 - 1 - j = (n - 1 - j) + 1 := by omega
    have s1 : Spec.mackW alpha (n + 1) c' w' j =
        Spec.mackW alpha n c w j + w' (n - 1 - j) j * c (n - 1 - j) j ^ alpha := by
      unfold Spec.mackW Spec.colSum
      rw [e, Finset.sum_range_succ, he.same _ _ (by omega)]
      congr 1
      refine Finset.sum_congr rfl fun i hi => ?_
      rw [Finset.mem_range] at hi
      rw [he.same _ _ (by omega), hww _ _ (by omega)]
    have s2 : Spec.colSum (n + 1) j (fun i => w' i j * c' i j ^ alpha * (c' i (j + 1) / c' i j)) =
        Spec.colSum n j (fun i => w i j * c i j ^ alpha * (c i (j + 1) / c i j)) +
          w' (n - 1 - j) j * c (n - 1 - j) j ^ alpha * Spec.mackF alpha n c w j := by
      unfold Spec.colSum
      rw [e, Finset.sum_range_succ]
      congr 1
      · refine Finset.sum_congr rfl fun i hi => ?_
        rw [Finset.mem_range] at hi
        rw [he.same _ _ (by omega), he.same _ _ (by omega), hww _ _ (by omega)]
      · have h1 := he.next (n - 1 - j) (by omega) (by omega)
        have e1 : n - (n - 1 - j) = j + 1 := by omega
        have e2 : n - 1 - (n - 1 - j) = j := by omega
        rw [e1, e2] at h1
        rw [h1, he.same _ _ (by omega), mul_div_cancel_left₀ _ (hp (n - 1 - j) j (by omega)).ne']
    have s3 : Spec.colSum n j (fun i => w i j * c i j ^ alpha * (c i (j + 1) / c i j)) =
        Spec.mackW alpha n c w j * Spec.mackF alpha n c w j := by
      conv_rhs => rw [Spec.mackF]
      rw [mul_div_cancel₀ _ hW.ne']
    rw [Spec.mackF, s2, s3, ← add_mul, ← s1, mul_div_cancel_left₀ _ hW'.ne']
  · rw [if_neg hj1]
    obtain rfl : j = n - 1 := by omega
    have e : n + 1 - 1 - (n - 1) = 1 := by omega
    have e1 : n - 1 + 1 = n := by omega
    have hne : w' 0 (n - 1) * c' 0 (n - 1) ^ alpha ≠ 0 := by
      have := hW'.ne'
      unfold Spec.mackW Spec.colSum at this
      rwa [e, Finset.sum_range_one] at this
    unfold Spec.mackF Spec.mackW Spec.colSum
    rw [e]
    simp only [Finset.sum_range_one]
    rw [mul_div_cancel_left₀ _ hne, e1, he.oldest, he.same _ _ (by omega),
      mul_div_cancel_left₀ _ (hp 0 (n - 1) (by omega)).ne']

theorem ult_expected (hp : Spec.Positive n c) (hw : Spec.Weights n w) {tail : K} {alpha : ℕ}
    (he : Spec.AsExpected n c c' (Spec.mackF alpha n c w) tail) (hp' : Spec.Positive (n + 1) c')
    (hw' : Spec.Weights (n + 1) w') (hww : ∀ i j, i + j + 1 < n → w' i j = w i j) {i : ℕ} (hi : i < n) :
    Spec.ult (n + 1) c' (Spec.mackF alpha (n + 1) c' w') i = Spec.ult n c (Spec.mackF alpha n c w) i * tail := by
  unfold Spec.ult Spec.proj
  have hF := fun j hj => mackF_expected (j := j) hp hw he hp' hw' hww hj
  by_cases h0 : i = 0
  · subst h0
    simp [he.oldest]
  · have e : n + 1 - 1 - i = n - i := by omega
    rw [e, he.next i (by omega) hi, Nat.add_sub_cancel]
    obtain ⟨m, rfl⟩ : ∃ m, n = m + 1 := ⟨n - 1, by omega⟩
    rw [Finset.prod_Ico_succ_top (by omega), hF m (by omega), if_neg (by omega), Nat.add_sub_cancel]
    have hprod : ∏ k ∈ Finset.Ico (m + 1 - i) m, Spec.mackF alpha (m + 1 + 1) c' w' k =
        ∏ k ∈ Finset.Ico (m + 1 - i) m, Spec.mackF alpha (m + 1) c w k := by
      refine Finset.prod_congr rfl fun k hk => ?_
      rw [Finset.mem_Ico] at hk
      rw [hF k (by omega), if_pos (by omega)]
    rw [hprod, Finset.prod_eq_prod_Ico_succ_bot (show m - i < m by omega), show m - i + 1 = m + 1 - i by omega]
    ring

/-- **C100** for `mack_cl`, every `alpha`, all exclusion weights: when every origin develops with the
factors of the last estimate, the next estimate has the same factors and the same ultimates, whatever the
new origin is and whether or not the new link ratios are excluded. -/
theorem C100_mack (h : Spec.Stair t n c) (hp : Spec.Positive n c) (hi : IndW t ind n w) (hw : Spec.Weights n w)
    (h' : Spec.Stair t' (n + 1) c') (hi' : IndW t' ind' (n + 1) w') (hw' : Spec.Weights (n + 1) w')
    (hww : ∀ i j, i + j + 1 < n → w' i j = w i j) (hn : 4 ≤ n) {alpha : ℕ} {f : ℕ → K}
    {r : MackCore K} (hr : mackCore alpha t ind = .ok r) (hf : ∀ j < n - 1, r.ldfs.iloc j = .fin (f j))
    (he : Spec.AsExpected n c c' f 1) :
    ∃ r', mackCore alpha t' ind' = .ok r' ∧ (∀ j < n - 1, r'.ldfs.iloc j = .fin (f j)) ∧
      r'.ldfs.iloc (n - 1) = .fin 1 ∧
      ∀ i < n, ∃ row row', r.rows[i]? = some row ∧ r'.rows[i]? = some row' ∧
        row'.ultimate = row.ultimate := by
  obtain ⟨r1, b1, lab1, g1, p1⟩ := mack_parts h hp hi hw hn alpha
  obtain rfl : r1 = r := Except.ok.inj (g1.symm.trans hr)
  have hff : ∀ j < n - 1, f j = Spec.mackF alpha n c w j := by
    intro j hj
    have := (hf j hj).symm.trans (p1.ldf h j hj)
    exact Num.fin.inj this
  have he' : Spec.AsExpected n c c' (Spec.mackF alpha n c w) 1 :=
    ⟨he.same, fun i h1 h2 => by rw [he.next i h1 h2, hff _ (by omega)], he.oldest, he.fresh⟩
  have hp' := he'.pos (by omega) hp (fun j hj => mackF_pos hp hw alpha hj) one_pos
  obtain ⟨r', b', lab', g', p'⟩ := mack_parts h' hp' hi' hw' (by omega) alpha
  refine ⟨r', g', ?_, ?_, ?_⟩
  · intro j hj
    rw [p'.ldf h' j (by omega), mackF_expected hp hw he' hp' hw' hww (by omega), if_pos hj, hff j hj]
  · rw [p'.ldf h' _ (by omega), mackF_expected hp hw he' hp' hw' hww (by omega), if_neg (by omega)]
  · intro i hi1
    obtain ⟨r2, q1, q2, _⟩ := mack_ults h hp hi hw hn alpha
    obtain rfl : r2 = r1 := Except.ok.inj (q1.symm.trans g1)
    obtain ⟨r3, s1, s2, _⟩ := mack_ults h' hp' hi' hw' (by omega) alpha
    obtain rfl : r3 = r' := Except.ok.inj (s1.symm.trans g')
    obtain ⟨row, a1, _, a2, _⟩ := q2 i hi1
    obtain ⟨row', b1, _, b2, _⟩ := s2 i (by omega)
    exact ⟨row, row', a1, b1, by rw [a2, b2, ult_expected hp hw he' hp' hw' hww hi1, mul_one]⟩

/-- **C100** for `base_cl` with `all-simple` and `all-weighted`: the tail factor has become the development
of the oldest origin, so the next estimate is made without one. -/
theorem C100_base (gm : List (Num K) → Num K) (h : Spec.Stair t n c) (hp : Spec.Positive n c)
    (h' : Spec.Stair t' (n + 1) c') (hn : 3 ≤ n) {sel : String}
    (hsel : sel = "all-simple" ∨ sel = "all-weighted") {tail : K} (htail : 0 < tail) {f : ℕ → K}
    (hrow : Spec.RowIs gm t t.a2aind0 sel ((List.range (n - 1)).map (fun j => .fin (f j))))
    (he : Spec.AsExpected n c c' f tail) :
    ∃ r r', baseCL gm t t.a2aind0 sel (.fin tail) = .ok r ∧ baseCL gm t' t'.a2aind0 sel 1 = .ok r' ∧
      ∀ i < n, ∃ row row', r.rows[i]? = some row ∧ r'.rows[i]? = some row' ∧
        row'.ultimate = row.ultimate := by
  obtain ⟨alpha, ha, rfl⟩ : ∃ alpha ≤ 1, sel = Spec.allName alpha := by
    rcases hsel with rfl | rfl
    · exact ⟨0, by omega, rfl⟩
    · exact ⟨1, by omega, rfl⟩
  have hw := Spec.Weights.one (K := K) (n := n) (by omega)
  have hw' := Spec.Weights.one (K := K) (n := n + 1) (by omega)
  have hff : ∀ j < n - 1, f j = Spec.mackF alpha n c (fun _ _ => 1) j := by
    intro j hj
    obtain ⟨tab, a1, a2⟩ := hrow
    obtain ⟨tab', b1, b2⟩ := rowIs_all gm h hp (by omega) ha
    obtain rfl : tab = tab' := Except.ok.inj (a1.symm.trans b1)
    have e := congrArg (fun l => l[j]?) (Option.some.inj (a2.symm.trans b2))
    simp only [List.getElem?_map, List.getElem?_range hj, Option.map_some] at e
    exact Num.fin.inj (Option.some.inj e)
  have he' : Spec.AsExpected n c c' (Spec.mackF alpha n c (fun _ _ => 1)) tail :=
    ⟨he.same, fun i h1 h2 => by rw [he.next i h1 h2, hff _ (by omega)], he.oldest, he.fresh⟩
  have hp' := he'.pos (by omega) hp (fun j hj => mackF_pos hp hw alpha hj) htail
  obtain ⟨r, q1, q2, _⟩ := base_ults gm h hp hn ha tail
  obtain ⟨r', s1, s2, _⟩ := base_ults gm h' hp' (by omega) ha 1
  refine ⟨r, r', q1, s1, ?_⟩
  intro i hi1
  obtain ⟨row, a1, _, a2, _⟩ := q2 i hi1
  obtain ⟨row', b1, _, b2, _⟩ := s2 i (by omega)
  exact ⟨row, row', a1, b1, by rw [a2, b2, ult_expected hp hw he' hp' hw' (fun _ _ _ => rfl) hi1, mul_one]⟩

/-! ## C101 -/

theorem mackF_older {i : ℕ} (hcc : ∀ k ≤ i, ∀ j, k + j < n → c' k j = c k j)
    (hww : ∀ k ≤ i, ∀ j, k + j + 1 < n → w' k j = w k j) (alpha : ℕ) {j : ℕ} (hj : n - 1 - j ≤ i + 1) :
    Spec.mackW alpha n c' w' j = Spec.mackW alpha n c w j ∧
    Spec.mackF alpha n c' w' j = Spec.mackF alpha n c w j ∧
    Spec.sig0 alpha n c' w' j = Spec.sig0 alpha n c w j := by
  have hW : Spec.mackW alpha n c' w' j = Spec.mackW alpha n c w j := by
    unfold Spec.mackW Spec.colSum
    refine Finset.sum_congr rfl fun k hk => ?_
    rw [Finset.mem_range] at hk
    beta_reduce
    rw [hcc k (by omega) j (by omega), hww k (by omega) j (by omega)]
  have hF : Spec.mackF alpha n c' w' j = Spec.mackF alpha n c w j := by
    unfold Spec.mackF
    rw [hW]
    congr 1
    unfold Spec.colSum
    refine Finset.sum_congr rfl fun k hk => ?_
    rw [Finset.mem_range] at hk
    beta_reduce
    rw [hcc k (by omega) j (by omega), hww k (by omega) j (by omega), hcc k (by omega) (j + 1) (by omega)]
  refine ⟨hW, hF, ?_⟩
  unfold Spec.sig0
  rw [hF]
  congr 1
  unfold Spec.sqDev Spec.colSum
  refine Finset.sum_congr rfl fun k hk => ?_
  rw [Finset.mem_range] at hk
  beta_reduce
  rw [hcc k (by omega) j (by omega), hww k (by omega) j (by omega), hcc k (by omega) (j + 1) (by omega)]

theorem ult_older {i : ℕ} (hi : i < n) (hcc : ∀ k ≤ i, ∀ j, k + j < n → c' k j = c k j)
    (hww : ∀ k ≤ i, ∀ j, k + j + 1 < n → w' k j = w k j) (alpha : ℕ) :
    Spec.ult n c' (Spec.mackF alpha n c' w') i = Spec.ult n c (Spec.mackF alpha n c w) i := by
  unfold Spec.ult Spec.proj
  rw [hcc i le_rfl _ (by omega)]
  congr 1
  refine Finset.prod_congr rfl fun m hm => ?_
  rw [Finset.mem_Ico] at hm
  exact (mackF_older hcc hww alpha (by omega)).2.1

theorem sigma2_older {i : ℕ} (h2 : 2 ≤ i) (hn : 4 ≤ n) (hcc : ∀ k ≤ i, ∀ j, k + j < n → c' k j = c k j)
    (hww : ∀ k ≤ i, ∀ j, k + j + 1 < n → w' k j = w k j) (alpha : ℕ) {j : ℕ} (hj : n - 1 - j ≤ i + 1) :
    Spec.sigma2 alpha n c' w' j = Spec.sigma2 alpha n c w j := by
  unfold Spec.sigma2
  split
  · exact (mackF_older hcc hww alpha hj).2.2
  · rw [(mackF_older hcc hww alpha (j := n - 3) (by omega)).2.2,
      (mackF_older hcc hww alpha (j := n - 4) (by omega)).2.2]

/-- **C101** for `mack_cl`: changing anything in origins younger than `i`, losses or exclusions, changes
neither ultimate nor reserve of origin `i`; it does not change the process error, the parameter error and
the mean squared error either, if the third origin is kept too (the last variance is extrapolated from
periods that it has reached). -/
theorem C101_mack (h : Spec.Stair t n c) (hp : Spec.Positive n c) (hi : IndW t ind n w) (hw : Spec.Weights n w)
    (h' : Spec.Stair t' n c') (hp' : Spec.Positive n c') (hi' : IndW t' ind' n w') (hw' : Spec.Weights n w')
    (hn : 4 ≤ n) (alpha : ℕ) {i : ℕ} (hin : i < n) (hcc : ∀ k ≤ i, ∀ j, k + j < n → c' k j = c k j)
    (hww : ∀ k ≤ i, ∀ j, k + j + 1 < n → w' k j = w k j) :
    ∃ r r', mackCore alpha t ind = .ok r ∧ mackCore alpha t' ind' = .ok r' ∧
      (∀ k ≤ i, ∃ row row', r.rows[k]? = some row ∧ r'.rows[k]? = some row' ∧
        row'.ultimate = row.ultimate ∧ row'.reserve = row.reserve) ∧
      (2 ≤ i → ∀ k ≤ i, r'.procErr[k]? = r.procErr[k]? ∧ r'.paramErr[k]? = r.paramErr[k]? ∧
        r'.mse[k]? = r.mse[k]?) := by
  obtain ⟨r, q1, q2, _, q3, q4⟩ := mack_ults h hp hi hw hn alpha
  obtain ⟨r', s1, s2, _, s3, s4⟩ := mack_ults h' hp' hi' hw' hn alpha
  refine ⟨r, r', q1, s1, ?_, ?_⟩
  · intro k hk
    obtain ⟨row, a1, _, a2, a3⟩ := q2 k (by omega)
    obtain ⟨row', b1, _, b2, b3⟩ := s2 k (by omega)
    have e := ult_older (show k < n by omega) (fun m hm => hcc m (by omega)) (fun m hm => hww m (by omega)) alpha
    exact ⟨row, row', a1, b1, by rw [a2, b2, e], by rw [a3, b3, e, hcc k hk _ (by omega)]⟩
  · intro h2 k hk
    have hdeg : Spec.Degenerate alpha n c' w' ↔ Spec.Degenerate alpha n c w := by
      unfold Spec.Degenerate
      rw [(mackF_older hcc hww alpha (j := n - 3) (by omega)).2.2,
        (mackF_older hcc hww alpha (j := n - 4) (by omega)).2.2]
    by_cases hd : Spec.Degenerate alpha n c w
    · obtain ⟨x1, x2, x3⟩ := q3 hd
      obtain ⟨y1, y2, y3⟩ := s3 (hdeg.2 hd)
      rw [x1, x2, x3, y1, y2, y3]
      exact ⟨rfl, rfl, rfl⟩
    · obtain ⟨x1, x2, x3⟩ := q4 hd
      obtain ⟨y1, y2, y3⟩ := s4 (fun e => hd (hdeg.1 e))
      have hkn : k < n := by omega
      have eP : Spec.procVar n c' (Spec.mackF alpha n c' w') (Spec.sigma2 alpha n c' w') k =
          Spec.procVar n c (Spec.mackF alpha n c w) (Spec.sigma2 alpha n c w) k := by
        unfold Spec.procVar Spec.proj
        refine Finset.sum_congr rfl fun m hm => ?_
        rw [Finset.mem_Ico] at hm
        rw [hcc k hk _ (by omega), sigma2_older h2 hn hcc hww alpha (by omega)]
        congr 1
        · congr 2
          refine Finset.prod_congr rfl fun l hl => ?_
          rw [Finset.mem_Ico] at hl
          exact (mackF_older hcc hww alpha (by omega)).2.1
        · refine Finset.prod_congr rfl fun l hl => ?_
          rw [Finset.mem_Ico] at hl
          rw [(mackF_older hcc hww alpha (by omega)).2.1]
      have eQ : Spec.paramVar n c' (Spec.mackF alpha n c' w') (Spec.ldfVar alpha n c' w') k =
          Spec.paramVar n c (Spec.mackF alpha n c w) (Spec.ldfVar alpha n c w) k := by
        unfold Spec.paramVar Spec.ldfVar
        rw [hcc k hk _ (by omega)]
        congr 2
        · refine Finset.prod_congr rfl fun l hl => ?_
          rw [Finset.mem_Ico] at hl
          rw [(mackF_older hcc hww alpha (by omega)).2.1, sigma2_older h2 hn hcc hww alpha (by omega),
            (mackF_older hcc hww alpha (by omega)).1]
        · refine Finset.prod_congr rfl fun l hl => ?_
          rw [Finset.mem_Ico] at hl
          rw [(mackF_older hcc hww alpha (by omega)).2.1]
      rw [x1, x2, x3, y1, y2, y3]
      simp only [List.getElem?_map, List.getElem?_range hkn, Option.map_some]
      refine ⟨by rw [eP], by rw [eQ], ?_⟩
      unfold Spec.mse
      rw [eP, eQ]

/-- **C101** for `base_cl` with `all-simple` and `all-weighted`. -/
theorem C101_base (gm : List (Num K) → Num K) (h : Spec.Stair t n c) (hp : Spec.Positive n c)
    (h' : Spec.Stair t' n c') (hp' : Spec.Positive n c') (hn : 3 ≤ n) {sel : String}
    (hsel : sel = "all-simple" ∨ sel = "all-weighted") (tail : K) {i : ℕ} (hin : i < n)
    (hcc : ∀ k ≤ i, ∀ j, k + j < n → c' k j = c k j) :
    ∃ r r', baseCL gm t t.a2aind0 sel (.fin tail) = .ok r ∧ baseCL gm t' t'.a2aind0 sel (.fin tail) = .ok r' ∧
      ∀ k ≤ i, ∃ row row', r.rows[k]? = some row ∧ r'.rows[k]? = some row' ∧
        row'.ultimate = row.ultimate ∧ row'.reserve = row.reserve := by
  obtain ⟨alpha, ha, rfl⟩ : ∃ alpha ≤ 1, sel = Spec.allName alpha := by
    rcases hsel with rfl | rfl
    · exact ⟨0, by omega, rfl⟩
    · exact ⟨1, by omega, rfl⟩
  obtain ⟨r, q1, q2, _⟩ := base_ults gm h hp hn ha tail
  obtain ⟨r', s1, s2, _⟩ := base_ults gm h' hp' hn ha tail
  refine ⟨r, r', q1, s1, ?_⟩
  intro k hk
  obtain ⟨row, a1, _, a2, a3⟩ := q2 k (by omega)
  obtain ⟨row', b1, _, b2, b3⟩ := s2 k (by omega)
  have e := ult_older (w := fun _ _ => (1 : K)) (w' := fun _ _ => 1) (show k < n by omega)
    (fun m hm => hcc m (by omega)) (fun _ _ _ _ => rfl) alpha
  exact ⟨row, row', a1, b1, by rw [a2, b2, e], by rw [a3, b3, e, hcc k hk _ (by omega)]⟩

end

/-- Values of the example with a higher latest value of the second origin. -/
def exRaised : ℕ → ℕ → ℚ := fun i j => if i = 1 ∧ j = 2 then 230 else exVals i j

theorem exRaised_spec : Spec.Raised 4 exVals exRaised := by
  constructor
  · intro i j h
    unfold exRaised
    rw [if_neg (by omega)]
  · intro i h
    have : ∀ i < 4, exVals i (4 - 1 - i) ≤ exRaised i (4 - 1 - i) := by decide +kernel
    exact this i h

/-- C99: the second origin and the younger ones rise, the oldest stays. -/
example : (mackCore 1 exTri exTri.a2aind0).toOption.map (fun r => r.rows.map SummRow.ultimate) =
      some [.fin 198, .fin 242, .fin (36960 / 163), .fin (130 * (494 / 330) * (400 / 326) * (198 / 180))] ∧
    (mackCore 1 (stairTri 4 exRaised) (stairTri 4 exRaised).a2aind0).toOption.map
      (fun r => r.rows.map SummRow.ultimate) =
      some [.fin 198, .fin 253, .fin (168 * (410 / 326) * (198 / 180)),
        .fin (130 * (494 / 330) * (410 / 326) * (198 / 180))] := by
  decide +kernel

/-- The example one evaluation later, developed with the all-weighted factors; the new origin starts at 7. -/
def exNext : ℕ → ℕ → ℚ := fun i j =>
  if i + j < 4 then exVals i j else if i = 0 then 198 else if i = 4 then 7
  else exVals i (3 - i) * Spec.mackF 1 4 exVals (fun _ _ => 1) (3 - i)

theorem exNext_spec : Spec.AsExpected 4 exVals exNext (Spec.mackF 1 4 exVals (fun _ _ => 1)) 1 := by
  constructor
  · intro i j h
    unfold exNext
    rw [if_pos h]
  · have : ∀ i < 4, 1 ≤ i → exNext i (4 - i) =
        exVals i (4 - 1 - i) * Spec.mackF 1 4 exVals (fun _ _ => 1) (4 - 1 - i) := by decide +kernel
    exact fun i h1 h2 => this i h2 h1
  · decide +kernel
  · decide +kernel

/-- C100: the four old origins keep their ultimates. -/
example : (mackCore 1 (stairTri 5 exNext) (stairTri 5 exNext).a2aind0).toOption.map
      (fun r => (r.rows.map SummRow.ultimate).take 4) =
    (mackCore 1 exTri exTri.a2aind0).toOption.map (fun r => r.rows.map SummRow.ultimate) := by
  decide +kernel

/-- C101: other values for the two youngest origins; the second origin keeps its ultimate, but its error
changes (its extrapolated variance uses the third origin), and younger ultimates change. -/
def exYoung : ℕ → ℕ → ℚ := fun i j => if i = 2 then [90, 200].getD j 0 else if i = 3 then 77 else exVals i j

example : (mackCore 1 (stairTri 4 exYoung) (stairTri 4 exYoung).a2aind0).toOption.map
      (fun r => (r.rows.map SummRow.ultimate).take 2) = some [.fin 198, .fin 242] ∧
    (mackCore 1 (stairTri 4 exYoung) (stairTri 4 exYoung).a2aind0).toOption.map (fun r => r.mse[1]?) ≠
      (mackCore 1 exTri exTri.a2aind0).toOption.map (fun r => r.mse[1]?) := by
  decide +kernel

end Trikit
