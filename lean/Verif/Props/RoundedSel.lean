import Verif.RoundedSel
import Verif.Props.RoundedOrder

/-!
# C222: rounding errors of `base_cl` with given factors

C142 bounds the rounding errors of `base_cl` with averages, whose factors carry errors of their own, for positive triangles.
Here the factors are given by the caller as array or Series (base.py:97-123).  Amounts, factors and tail are any numbers.
-/

set_option linter.unusedSectionVars false

namespace Trikit

section
variable {K : Type} [Field K] [LinearOrder K] [IsStrictOrderedRing K]
variable {t : Tri K} {n N : ℕ} {c : ℕ → ℕ → K} {br : ℕ → SumTree} {rd : K → K} {u : K}

/-! ## specification -/

/-- `y` differs from `x` by what `m` roundings, each off by a share of at most `u`, can do to a product. -/
def Spec.OffBy (u : K) (m : ℕ) (x y : K) : Prop := |y - x| ≤ ((1 + u) ^ m - 1) * |x|

/-- Results `r` of the exact and `r'` of the rounded estimator with the same factors. -/
structure Spec.SelBounds (u : K) (n : ℕ) (r r' : BaseResult K) : Prop where
  ldfs : r'.ldfs = r.ldfs
  cumulative : r'.cldfs.map Prod.fst = r.cldfs.map Prod.fst ∧ ∀ j < n, ∃ x y : K, (r.cldfs.map Prod.snd)[j]? = some (.fin x) ∧
    (r'.cldfs.map Prod.snd)[j]? = some (.fin y) ∧ Spec.OffBy u (n - 1 - j) x y
  rows : ∀ i < n, ∃ (row row' : SummRow K) (L U U' R R' : K), r.rows[i]? = some row ∧ r'.rows[i]? = some row' ∧
    row'.origin = row.origin ∧ row'.maturity = row.maturity ∧ row.latest = .fin L ∧ row'.latest = .fin L ∧
    row.ultimate = .fin U ∧ row'.ultimate = .fin U' ∧ row.reserve = .fin R ∧ row'.reserve = .fin R' ∧
    Spec.OffBy u (i + 1) U U' ∧ |R' - R| ≤ u * |R| + (1 + u) * ((1 + u) ^ (i + 1) - 1) * |U|
  squared : ∀ i < n, (∀ j < n, ∃ x y : K, r.sqr.tri.cell i j = .fin x ∧ r'.sqr.tri.cell i j = .fin y ∧
      Spec.OffBy u (i + j - (n - 1)) x y) ∧
    ∃ x y : K, r.sqr.ultimate[i]? = some (.fin x) ∧ r'.sqr.ultimate[i]? = some (.fin y) ∧ Spec.OffBy u (i + 1) x y
  totals : ∃ (g l : ℕ → K) (L L' U U' R R' : K),
    (∀ i < n, ∃ row, r.rows[i]? = some row ∧ row.latest = .fin (l i) ∧ row.ultimate = .fin (g i)) ∧
    r.totLatest = .fin L ∧ r'.totLatest = .fin L' ∧ r.totUltimate = .fin U ∧ r'.totUltimate = .fin U' ∧
    r.totReserve = .fin R ∧ r'.totReserve = .fin R' ∧
    |L' - L| ≤ ((1 + u) ^ (n - 1) - 1) * ∑ i ∈ Finset.range n, |l i| ∧
    |U' - U| ≤ ((1 + u) ^ (2 * n - 1) - 1) * ∑ i ∈ Finset.range n, |g i| ∧
    |R' - R| ≤ ((1 + u) ^ n - 1) * ∑ i ∈ Finset.range n, |g i - l i| +
      (1 + u) ^ n * ((1 + u) ^ n - 1) * ∑ i ∈ Finset.range n, |g i|

/-! ## products -/

theorem onePow (h0 : 0 ≤ u) (m : ℕ) : 1 ≤ (1 + u) ^ m := one_le_pow₀ (by linarith)

theorem Spec.OffBy.refl (h0 : 0 ≤ u) (m : ℕ) (x : K) : Spec.OffBy u m x x := by
  unfold Spec.OffBy
  rw [sub_self, abs_zero]
  exact mul_nonneg (by linarith [onePow h0 m]) (abs_nonneg _)

theorem Spec.OffBy.mul_rd (hr : Spec.RelErr rd u) {m : ℕ} {x y : K} (h : Spec.OffBy u m x y) (a : K) :
    Spec.OffBy u (m + 1) (x * a) (rd (y * a)) := by
  unfold Spec.OffBy at h ⊢
  have h0 := hr.nonneg
  have e1 := hr.err (y * a)
  have e2 : |y| ≤ (1 + u) ^ m * |x| := by
    have : |y| ≤ |y - x| + |x| := by
      have := abs_add_le (y - x) x
      rwa [sub_add_cancel] at this
    linarith
  have e3 : |rd (y * a) - x * a| ≤ |rd (y * a) - y * a| + |y - x| * |a| := by
    have := abs_add_le (rd (y * a) - y * a) (y * a - x * a)
    rw [sub_add_sub_cancel, ← sub_mul, abs_mul (y - x)] at this
    exact this
  rw [abs_mul] at e1 ⊢
  have e4 := mul_le_mul_of_nonneg_right e2 (abs_nonneg a)
  have e5 := mul_le_mul_of_nonneg_right h (abs_nonneg a)
  have e6 := mul_le_mul_of_nonneg_left e4 h0
  calc |rd (y * a) - x * a| ≤ u * (|y| * |a|) + |y - x| * |a| := e3.trans (by linarith)
    _ ≤ u * ((1 + u) ^ m * |x| * |a|) + ((1 + u) ^ m - 1) * |x| * |a| := add_le_add e6 e5
    _ = ((1 + u) ^ (m + 1) - 1) * (|x| * |a|) := by rw [pow_succ]; ring

theorem tailProd_offBy (hr : Spec.RelErr rd u) (f : ℕ → K) :
    ∀ d, d < n → Spec.OffBy u d (Spec.tailProd f n (n - 1 - d)) (Spec.tailProdR rd f n (n - 1 - d)) := by
  intro d
  induction d with
  | zero =>
    intro hd
    rw [Nat.sub_zero, tailProdR_last rd f hd, Spec.tailProd_succ f (by omega), show n - 1 + 1 = n by omega]
    have : Spec.tailProd f n n = 1 := by unfold Spec.tailProd; simp
    rw [this, mul_one]
    exact Spec.OffBy.refl hr.nonneg _ _
  | succ d ih =>
    intro hd
    have h := ih (by omega)
    have ej : n - 1 - d = n - 1 - (d + 1) + 1 := by omega
    rw [ej] at h
    set j := n - 1 - (d + 1) with hj
    rw [tailProdR_succ rd f (by omega), Spec.tailProd_succ f (by omega), mul_comm (f j)]
    exact h.mul_rd hr _

theorem proj_offBy (hr : Spec.RelErr rd u) (f : ℕ → K) (a : K) (j : ℕ) :
    ∀ s, Spec.OffBy u s (a * ∏ m ∈ Finset.Ico j (j + s), f m) (Spec.projR rd a f j s) := by
  intro s
  induction s with
  | zero => simpa [Spec.projR] using Spec.OffBy.refl hr.nonneg 0 a
  | succ s ih =>
    rw [← Nat.add_assoc, Finset.prod_Ico_succ_top (by omega), ← mul_assoc, Spec.projR]
    exact ih.mul_rd hr _

/-! ## the estimator -/

theorem selBounds_core (hn : 1 ≤ n) (hr : Spec.RelErr rd u) (hb : Spec.Bracketing br) {f : ℕ → K} {r r' : BaseResult K}
    {l : Ser K} (s : Spec.BaseSpec t n c f l r) (s' : Spec.BaseSpecR br rd t n c f l r') : Spec.SelBounds u n r r' := by
  have h0 := hr.nonneg
  set L : ℕ → K := fun i => c i (n - 1 - i) with hL
  set U : ℕ → K := fun i => L i * Spec.tailProd f n (n - 1 - i) with hU
  set U' : ℕ → K := fun i => rd (L i * Spec.tailProdR rd f n (n - 1 - i)) with hU'
  have hUU : ∀ i < n, Spec.OffBy u (i + 1) (U i) (U' i) := by
    intro i hi
    have := (tailProd_offBy hr f i hi).mul_rd hr (L i)
    rw [mul_comm _ (L i), mul_comm _ (L i)] at this
    exact this
  have hRR : ∀ i < n, |rd (U' i - L i) - (U i - L i)| ≤ u * |U i - L i| + (1 + u) * ((1 + u) ^ (i + 1) - 1) * |U i| := by
    intro i hi
    have e1 := hr.err (U' i - L i)
    have e2 : |U' i - U i| ≤ _ := hUU i hi
    have e3 := abs_add_le (U i - L i) (U' i - U i)
    rw [show U i - L i + (U' i - U i) = U' i - L i by ring] at e3
    have e4 := abs_add_le (rd (U' i - L i) - (U' i - L i)) (U' i - U i)
    rw [show rd (U' i - L i) - (U' i - L i) + (U' i - U i) = rd (U' i - L i) - (U i - L i) by ring] at e4
    have e5 := mul_le_mul_of_nonneg_left e3 h0
    have e6 := mul_le_mul_of_nonneg_left e2 (show 0 ≤ 1 + u by linarith)
    nlinarith
  have hnr : List.range n ≠ [] := by simp; omega
  refine ⟨s'.factors.trans s.factors.symm, ⟨s'.cldfs_labels.trans s.cldfs_labels.symm, fun j hj => ?_⟩, fun i hi => ?_,
    fun i hi => ⟨fun j hj => ?_, ?_⟩, ?_⟩
  · have := tailProd_offBy (n := n) hr f (n - 1 - j) (by omega)
    rw [show n - 1 - (n - 1 - j) = j by omega] at this
    exact ⟨_, _, by rw [s.cldfs_values, List.getElem?_map, List.getElem?_range hj]; rfl,
      by rw [s'.cldfs_values, List.getElem?_map, List.getElem?_range hj]; rfl, this⟩
  · obtain ⟨row, a1, a2, a3, _, _, a6, a7, a8⟩ := s.rows i hi
    obtain ⟨row', b1, b2, b3, _, _, b6, b7, b8⟩ := s'.rows i hi
    exact ⟨row, row', L i, U i, U' i, U i - L i, rd (U' i - L i), a1, b1, b2.trans a2.symm, b3.trans a3.symm, a6, b6, a7, b7,
      a8, b8, hUU i hi, hRR i hi⟩
  · refine ⟨_, _, s.sqr_cells i hi j hj, s'.sqr_cells i hi j hj, ?_⟩
    by_cases e : i + j < n
    · rw [if_pos e, if_pos e]; exact Spec.OffBy.refl h0 _ _
    · rw [if_neg e, if_neg e]
      have := proj_offBy hr f (c i (n - 1 - i)) (n - 1 - i) (j - (n - 1 - i))
      rw [show n - 1 - i + (j - (n - 1 - i)) = j by omega, show j - (n - 1 - i) = i + j - (n - 1) by omega] at this
      rw [show j - (n - 1 - i) = i + j - (n - 1) by omega]
      exact this
  · have := proj_offBy hr f (c i (n - 1 - i)) (n - 1 - i) (i + 1)
    rw [show n - 1 - i + (i + 1) = n by omega] at this
    exact ⟨_, _, by rw [s.sqr_ultimate, List.getElem?_map, List.getElem?_range hi]; rfl,
      by rw [s'.sqr_ultimate, List.getElem?_map, List.getElem?_range hi]; rfl, this⟩
  · have tl := s.totLatest
    have tu := s.totUltimate
    have tr := s.totReserve
    rw [← list_range_sum] at tl tu tr
    have kL := sum_err hr hb hnr (a := L) (b := L) (e := fun _ => 0) (fun i _ => by simp)
    have kU := sum_err hr hb hnr (a := U) (b := U') (e := fun i => ((1 + u) ^ n - 1) * |U i|) (fun i hi => by
      refine (hUU i (List.mem_range.1 hi)).trans (mul_le_mul_of_nonneg_right (sub_le_sub_right
        (pow_le_pow_right₀ (by linarith) (by have := List.mem_range.1 hi; omega)) 1) (abs_nonneg _)))
    have kR := sum_err hr hb hnr (a := fun i => U i - L i) (b := fun i => rd (U' i - L i))
      (e := fun i => u * |U i - L i| + (1 + u) * ((1 + u) ^ n - 1) * |U i|) (fun i hi => by
      refine (hRR i (List.mem_range.1 hi)).trans (add_le_add_right (mul_le_mul_of_nonneg_right (mul_le_mul_of_nonneg_left
        (sub_le_sub_right (pow_le_pow_right₀ (by linarith) (by have := List.mem_range.1 hi; omega)) 1)
        (by linarith)) (abs_nonneg _)) _))
    rw [List.length_range] at kL kU kR
    refine ⟨U, L, _, _, _, _, _, _, fun i hi => ?_, tl, s'.totLatest, tu, s'.totUltimate, tr, s'.totReserve, ?_, ?_, ?_⟩
    · obtain ⟨row, a1, a2, a3, _, _, a6, a7, a8⟩ := s.rows i hi
      exact ⟨row, a1, a6, a7⟩
    · refine kL.trans (le_of_eq ?_)
      simp only [add_zero]
      rw [list_range_sum]; ring
    · refine kU.trans (le_of_eq ?_)
      rw [list_range_sum, list_range_sum]
      have : ∑ i ∈ Finset.range n, (|U i| + ((1 + u) ^ n - 1) * |U i|) = (1 + u) ^ n * ∑ i ∈ Finset.range n, |U i| := by
        rw [Finset.mul_sum]; exact Finset.sum_congr rfl fun i _ => by ring
      rw [this, show 2 * n - 1 = (n - 1) + n by omega, pow_add]
      ring
    · refine kR.trans (le_of_eq ?_)
      rw [list_range_sum, list_range_sum]
      have : ∑ i ∈ Finset.range n, (|U i - L i| + (u * |U i - L i| + (1 + u) * ((1 + u) ^ n - 1) * |U i|)) =
          (1 + u) * (∑ i ∈ Finset.range n, |U i - L i| + ((1 + u) ^ n - 1) * ∑ i ∈ Finset.range n, |U i|) := by
        rw [Finset.mul_sum, ← Finset.sum_add_distrib, Finset.mul_sum]; exact Finset.sum_congr rfl fun i _ => by ring
      rw [this, ← mul_assoc, ← pow_succ, show n - 1 + 1 = n by omega]
      ring

theorem array_vals (h : Spec.Stair t n c) (hn : 1 ≤ n) {sel : List K} (hs : sel.length = n - 1) (tail : K) :
    ldfsByArray t (sel.map .fin) (.fin tail) = .ok (t.devs.zip ((sel ++ [tail]).map .fin)) ∧
    (t.devs.zip ((sel ++ [tail]).map (Num.fin (K := K)))).map Prod.fst = t.devs ∧
    LdfVals (t.devs.zip ((sel ++ [tail]).map .fin)) n (fun j => (sel ++ [tail]).getD j 1) := by
  have hl : ((sel ++ [tail]).map (Num.fin (K := K))).length = t.nc := by rw [h.nc]; simp; omega
  have he : sel.map Num.fin ++ [Num.fin tail] = (sel ++ [tail]).map (Num.fin (K := K)) := by simp
  refine ⟨?_, List.map_fst_zip (le_of_eq hl.symm), ?_⟩
  · unfold ldfsByArray
    rw [he, if_pos hl]
  · unfold LdfVals
    rw [List.map_snd_zip (le_of_eq hl)]
    apply List.ext_getElem
    · simp; omega
    · intro j h1 h2
      simp at h1
      rw [List.getElem_map, List.getElem_map, List.getElem_range]
      beta_reduce
      rw [getD_getElem _ _ (by simpa using h1)]

/-! ## C222 -/

/-- **C222 (array).** `base_cl` with `n - 1` factors given as list or array, any tail, any staircase; every operation rounded
with a relative error of at most `u`, sums in any order.  Exact and rounded estimator both return, and all numbers are as
far apart as stated: the ultimate of origin `i` by at most the share `(1 + u) ^ (i + 1) - 1`. -/
theorem C222_array (h : Spec.Stair t n c) (hn : 1 ≤ n) (hr : Spec.RelErr rd u) (hb : Spec.Bracketing br) {sel : List K}
    (hs : sel.length = n - 1) (tail : K) :
    ∃ r r', baseCLArray t (sel.map .fin) (.fin tail) = .ok r ∧ baseCLArrayR br rd t (sel.map .fin) (.fin tail) = .ok r' ∧
      Spec.SelBounds u n r r' := by
  obtain ⟨e1, -, e3⟩ := array_vals h hn hs tail
  obtain ⟨r, r1, r2⟩ := base_core h hn e3
  obtain ⟨r', s1, s2⟩ := base_coreR br rd h hn e3
  refine ⟨r, r', ?_, ?_, selBounds_core hn hr hb r2 s2⟩
  · unfold baseCLArray; rw [e1]; exact r1
  · unfold baseCLArrayR; rw [e1]; exact s1

/-- **C222 (Series).** The same whenever `base_cl` with a Series returns and the Series gives a number for every period. -/
theorem C222_series (h : Spec.Stair t n c) (hn : 1 ≤ n) (hr : Spec.RelErr rd u) (hb : Spec.Bracketing br) {sel : Ser K}
    {tail : K} {r : BaseResult K} (hS : (baseCLSeries t sel (.fin tail)).2 = .ok r)
    (hfin : ∀ j < n, ∃ x, (r.ldfs.map Prod.snd)[j]? = some (.fin x)) :
    ∃ r', (baseCLSeriesR br rd t sel (.fin tail)).2 = .ok r' ∧ Spec.SelBounds u n r r' ∧
      (baseCLSeriesR br rd t sel (.fin tail)).1 = (baseCLSeries t sel (.fin tail)).1 := by
  unfold baseCLSeries at hS
  simp only at hS
  cases el : (ldfsBySeries t sel (.fin tail)).2 with
  | error e => rw [el] at hS; cases hS
  | ok l =>
    rw [el] at hS
    have hS : baseFromLdfs t l = .ok r := hS
    have hl := (baseFromLdfs_fields hS).1
    rw [hl] at hfin
    have hlen : l.length = n := by
      unfold ldfsBySeries at el
      split at el
      · cases el
      · split at el
        · cases el
        · simp only at el
          split at el
          · cases el
            rw [List.length_map]; exact h.nc
          · cases el
    choose! f hf using hfin
    have hv : LdfVals l n f := by
      unfold LdfVals
      apply List.ext_getElem?
      intro j
      by_cases hj : j < n
      · rw [hf j hj, List.getElem?_map, List.getElem?_range hj]; rfl
      · rw [List.getElem?_eq_none (by simp [hlen]; omega), List.getElem?_eq_none (by simp; omega)]
    obtain ⟨r0, a1, a2⟩ := base_core h hn hv
    rw [hS] at a1
    cases a1
    obtain ⟨r', s1, s2⟩ := base_coreR br rd h hn hv
    refine ⟨r', ?_, selBounds_core hn hr hb a2 s2, rfl⟩
    unfold baseCLSeriesR
    simp only
    rw [el]
    exact s1

/-- **C222 (order).** Given factors of at least one that are numbers of the format keep the order of the results in rounded
arithmetic: no cumulative factor below one, no ultimate below its latest amount, no negative reserve. -/
theorem C222_order (h : Spec.Stair t n c) (hp : Spec.Positive n c) (hn : 1 ≤ n) (hm : Spec.MonoRd rd N) (hN : n ≤ N)
    (hb : Spec.Bracketing br) (hfix : ∀ i j, i + j < n → rd (c i j) = c i j)
    (hinc : ∀ i j, i + j + 1 < n → c i j ≤ c i (j + 1)) {sel : List K} (hs : sel.length = n - 1) {tail : K}
    (h1 : ∀ x ∈ sel ++ [tail], 1 ≤ x ∧ rd x = x) :
    ∃ r, baseCLArrayR br rd t (sel.map .fin) (.fin tail) = .ok r ∧ Spec.InOrder n c tail r := by
  obtain ⟨e1, e2, e3⟩ := array_vals h hn hs tail
  obtain ⟨r, s1, s2⟩ := base_coreR br rd h hn e3
  have hf : ∀ j, 1 ≤ (sel ++ [tail]).getD j 1 ∧ rd ((sel ++ [tail]).getD j 1) = (sel ++ [tail]).getD j 1 := by
    intro j
    by_cases hj : j < (sel ++ [tail]).length
    · rw [getD_getElem _ _ hj]; exact h1 _ (List.getElem_mem hj)
    · rw [List.getD_eq_getElem?_getD, List.getElem?_eq_none (by omega)]; exact ⟨le_rfl, hm.one (by omega)⟩
  have e4 := s2.factors
  refine ⟨r, by unfold baseCLArrayR; rw [e1]; exact s1, inOrder_core h hp hn hm hN hb hfix hinc (fun j => (hf j).1)
    (fun j => (hf j).2) ?_ ?_ ?_ ?_⟩
  · rw [← hs]; simp
  · rw [e4]; exact e2
  · rw [e4]; exact e3
  · rw [e4]; exact s2

/-- **C222 in double precision**: the ultimate of origin `i` is off by at most `(i + 1) 2⁻⁵²` of its amount. -/
theorem C222_float64 [FloorRing K] (h : Spec.Stair t n c) (hn : 1 ≤ n) (hn' : n ≤ 2 ^ 52) (hb : Spec.Bracketing br)
    {sel : List K} (hs : sel.length = n - 1) (tail : K) :
    ∃ r r', baseCLArray t (sel.map .fin) (.fin tail) = .ok r ∧
      baseCLArrayR br (floatRd 53) t (sel.map .fin) (.fin tail) = .ok r' ∧
      ∀ i < n, ∃ (row row' : SummRow K) (U U' : K), r.rows[i]? = some row ∧ r'.rows[i]? = some row' ∧
        row.ultimate = .fin U ∧ row'.ultimate = .fin U' ∧ |U' - U| ≤ (i + 1) * 2 ^ (-52 : ℤ) * |U| := by
  have hre := floatRd_relErr (K := K) (p := 53) (by norm_num)
  obtain ⟨r, r', a1, a2, a3⟩ := C222_array h hn hre hb hs tail
  refine ⟨r, r', a1, a2, fun i hi => ?_⟩
  obtain ⟨row, row', L, U, U', R, R', b1, b2, -, -, -, -, b7, b8, -, -, b11, -⟩ := a3.rows i hi
  refine ⟨row, row', U, U', b1, b2, b7, b8, b11.trans (mul_le_mul_of_nonneg_right ?_ (abs_nonneg _))⟩
  have h3 : (0 : K) < 2 ^ (-(53 : ℕ) : ℤ) := zpow_pos (by norm_num) _
  have e : (2 : K) * 2 ^ (-(53 : ℕ) : ℤ) = 2 ^ (-52 : ℤ) := by norm_num
  have hk : ((i + 1 : ℕ) : K) ≤ 2 ^ 52 := by
    have : ((i + 1 : ℕ) : K) ≤ ((2 ^ 52 : ℕ) : K) := Nat.cast_le.2 (by omega)
    push_cast at this ⊢
    norm_num
    exact this
  have h2 : 2 * ((i + 1 : ℕ) : K) * 2 ^ (-(53 : ℕ) : ℤ) ≤ 1 := by
    calc 2 * ((i + 1 : ℕ) : K) * 2 ^ (-((53 : ℕ) : ℤ)) ≤ 2 * 2 ^ 52 * 2 ^ (-((53 : ℕ) : ℤ)) :=
          mul_le_mul_of_nonneg_right (mul_le_mul_of_nonneg_left hk (by norm_num)) h3.le
      _ = 1 := by norm_num
  have := onePlus_pow hre.nonneg hre.lt_one h2
  have e2 : 2 * ((i + 1 : ℕ) : K) * 2 ^ (-(53 : ℕ) : ℤ) = ((i : K) + 1) * 2 ^ (-52 : ℤ) := by
    rw [← e]; push_cast; ring
  rw [e2] at this
  linarith

end

/-- With five binary digits and the factors 3/2, 5/4, 9/8 the youngest ultimate, exactly about 274.2, becomes 256. -/
example : ((baseCLArray exTri [.fin (3/2), .fin (5/4), .fin (9/8)] (.fin 1)).map (fun r => r.rows.map (fun x => x.ultimate))).toOption =
      some [.fin 198, .fin (495/2), .fin (945/4), .fin (8775/32)] ∧
    ((baseCLArrayR (fun n => seqTree (n - 1)) (floatRd 5) exTri [.fin (3/2), .fin (5/4), .fin (9/8)] (.fin 1)).map
      (fun r => r.rows.map (fun x => x.ultimate))).toOption = some [.fin 200, .fin 248, .fin 232, .fin 256] ∧
    abs (256 - 8775/32 : ℚ) ≤ ((1 + 1/32) ^ 4 - 1) * (8775/32) := by
  decide +kernel

end Trikit
