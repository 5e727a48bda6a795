import Verif.RoundedError
import Verif.FloatRd

/-!
# C142: rounding errors of the base chain ladder
-/

set_option linter.unusedSectionVars false

namespace Trikit

/-! ## exact arithmetic -/

/-- **C142, rounding left out**: with exact arithmetic the rounded estimator is the exact one, for every order of the
additions, every triangle and every selection. -/
theorem C142_exact {K : Type} [Field K] [LinearOrder K] {br : ℕ → SumTree} (hb : Spec.Bracketing br)
    (gm : List (Num K) → Num K) (t ind : Tri K) (sel : String) (tail : Num K) :
    baseCLR br id gm t ind sel tail = baseCL gm t ind sel tail := by
  unfold baseCLR baseCL ldfsByNameR ldfsByName
  simp only [a2aAvgsR_id hb, baseFromLdfsR_id hb]
  rfl

variable {K : Type} [Field K] [LinearOrder K] [IsStrictOrderedRing K]
variable {t : Tri K} {n : ℕ} {c : ℕ → ℕ → K} {u : K} {rd : K → K} {br : ℕ → SumTree}

/-! ## the factors -/

/-- Exact factor of period `j`. -/
def Spec.avgOf (kind : AvgKind) (n k : ℕ) (c : ℕ → ℕ → K) (j : ℕ) : K :=
  match kind with
  | .weighted => Spec.wavg n k c j
  | _ => Spec.mean (Spec.lastN k (Spec.ratios n c j))

/-- Rounded factor of period `j`. -/
def Spec.avgOfR (br : ℕ → SumTree) (rd : K → K) (kind : AvgKind) (n k : ℕ) (c : ℕ → ℕ → K) (j : ℕ) : K :=
  match kind with
  | .weighted => rd (roundedSum br rd ((wOrigins n k j).map (fun i => c i (j + 1))) /
      roundedSum br rd ((wOrigins n k j).map (fun i => c i j)))
  | _ => rd (roundedSum br rd ((wOrigins n k j).map (fun i => rd (rd (c i (j + 1) / c i j)))) /
      ((wOrigins n k j).length : K))

theorem wOrigins_ne_nil {k j : ℕ} (hj : j < n - 1) : wOrigins n k j ≠ [] := by
  unfold wOrigins
  exact lastN_ne_nil k (by simp; omega)

theorem wOrigins_lt {k j i : ℕ} (hi : i ∈ wOrigins n k j) : i + j + 1 < n := by
  have := List.mem_range.1 (lastN_subset _ _ i hi)
  omega

theorem wOrigins_length (k j : ℕ) : (wOrigins n k j).length ≤ n - 1 - j := by
  unfold wOrigins
  unfold Spec.lastN
  split <;> simp

theorem avgEntry_avgOf (gm : List (Num K) → Num K) (h : Spec.Stair t n c) (hp : Spec.Positive n c) {kind : AvgKind}
    (hkind : kind = .simple ∨ kind = .weighted) (k : ℕ) {j : ℕ} (hj : j < n - 1) :
    avgEntry gm t t.a2aind0 kind k j = .ok (.fin (Spec.avgOf kind n k c j)) := by
  rcases hkind with rfl | rfl
  · rw [entry_simple h hp.ne_zero (h.indOn0 hp.ne_zero) hj, window_noexcl hp,
      simpleAvg_fin (lastN_ne_nil k (ratios_ne_nil hj))]
    rfl
  · exact entry_wavg gm h hp k hj

theorem ratio_posR (hr : Spec.RelErr rd u) (hp : Spec.Positive n c) :
    ∀ i j, i + j + 1 < n → 0 < rd (rd (c i (j + 1) / c i j)) := fun i j hij =>
  rd_pos hr (rd_pos hr (div_pos (hp _ _ (by omega)) (hp _ _ (by omega))))

theorem avgCellR_avgOfR (gm : List (Num K) → Num K) (h : Spec.Stair t n c) (hp : Spec.Positive n c)
    (hpos : ∀ i j, i + j + 1 < n → 0 < rd (rd (c i (j + 1) / c i j)))
    (hsum : ∀ k j, j < n - 1 → 0 < roundedSum br rd ((wOrigins n k j).map (fun i => c i j))) {kind : AvgKind}
    (hkind : kind = .simple ∨ kind = .weighted) (k : ℕ) {j : ℕ} (hj : j < n - 1) :
    avgCellR br rd gm t (Tri.alignOp (fun a b => (a * b).rounded rd) (t.a2aR rd) t.a2aind0) kind k j =
      .ok (.fin (Spec.avgOfR br rd kind n k c j)) := by
  rcases hkind with rfl | rfl
  · show Except.ok (simpleAvgR br rd (avgWindow _ k)) = _
    have hmem : ∀ x ∈ Spec.lastN k (Spec.ratiosR rd n c j), 0 < x := by
      intro x hx
      have hx' := lastN_subset _ _ x hx
      unfold Spec.ratiosR at hx'
      obtain ⟨i, hi, rfl⟩ := List.mem_map.1 hx'
      rw [List.mem_range] at hi
      exact hpos i j (by omega)
    rw [adj_colR rd h hp.ne_zero hj, avgWindow_spec, filter_pos_eq _ hmem]
    have hl : Spec.lastN k (Spec.ratiosR rd n c j) =
        (wOrigins n k j).map (fun i => rd (rd (c i (j + 1) / c i j))) := by
      unfold Spec.ratiosR wOrigins
      rw [lastN_map]
    have hne := wOrigins_ne_nil (k := k) hj
    rw [hl]
    unfold simpleAvgR npMeanR
    rw [if_neg (by simpa using hne), sumR_fin, List.length_map, List.length_map, Num.fin_div]
    · rfl
    · have := List.length_pos_of_ne_nil hne
      exact_mod_cast this.ne'
  · show weightedAvgR br rd t k j = _
    rw [weightedAvgR_spec br rd h hj, Num.fin_div _ _ (hsum k j hj).ne']
    rfl

/-- The rounded factor of period `j` carries at most `2(n-1-j)+1` relative errors. -/
theorem avgOfR_near (hr : Spec.RelErr rd u) (hb : Spec.Bracketing br) (hp : Spec.Positive n c) {kind : AvgKind}
    (hkind : kind = .simple ∨ kind = .weighted) (k : ℕ) {j : ℕ} (hj : j < n - 1) :
    0 < Spec.avgOf kind n k c j ∧ 0 < Spec.avgOfR br rd kind n k c j ∧
      Spec.Near u (2 * (n - 1 - j) + 1) (Spec.avgOf kind n k c j) (Spec.avgOfR br rd kind n k c j) := by
  have hne := wOrigins_ne_nil (k := k) hj
  have hm := wOrigins_length (n := n) k j
  have hm1 := List.length_pos_of_ne_nil hne
  have hlen : (0 : K) < ((wOrigins n k j).length : K) := by exact_mod_cast hm1
  rcases hkind with rfl | rfl
  · have hrp : ∀ i ∈ wOrigins n k j, 0 < c i (j + 1) / c i j := fun i hi =>
      div_pos (hp _ _ (by have := wOrigins_lt hi; omega)) (hp _ _ (by have := wOrigins_lt hi; omega))
    obtain ⟨h1, h2, h3⟩ := sum_near hr hb hne (a := fun i => c i (j + 1) / c i j)
      (b := fun i => rd (rd (c i (j + 1) / c i j))) (k := 2) hrp
      (fun i hi => rd_pos hr (rd_pos hr (hrp i hi)))
      (fun i hi => near_rd' hr (rd_pos hr (hrp i hi)) (near_rd hr (hrp i hi)))
    have e : Spec.avgOf .simple n k c j = ((wOrigins n k j).map (fun i => c i (j + 1) / c i j)).sum /
        ((wOrigins n k j).length : K) := by
      show Spec.mean (Spec.lastN k (Spec.ratios n c j)) = _
      unfold Spec.mean Spec.ratios wOrigins
      rw [lastN_map, List.length_map]
    rw [e]
    refine ⟨div_pos h1 hlen, rd_pos hr (div_pos h2 hlen), ?_⟩
    have h4 := near_div hr.lt_one h1 h2 hlen hlen h3 (near_refl hr.nonneg hr.lt_one (k := 0) hlen)
    exact near_mono hr.nonneg hr.lt_one (by omega) (div_pos h1 hlen) (rd_pos hr (div_pos h2 hlen))
      (near_rd' hr (div_pos h2 hlen) h4)
  · have hp1 : ∀ i ∈ wOrigins n k j, 0 < c i (j + 1) := fun i hi => hp _ _ (by have := wOrigins_lt hi; omega)
    have hp0 : ∀ i ∈ wOrigins n k j, 0 < c i j := fun i hi => hp _ _ (by have := wOrigins_lt hi; omega)
    obtain ⟨h1, h2, h3⟩ := sum_near hr hb hne (k := 0) hp1 hp1
      (fun i hi => near_refl hr.nonneg hr.lt_one (hp1 i hi))
    obtain ⟨g1, g2, g3⟩ := sum_near hr hb hne (k := 0) hp0 hp0
      (fun i hi => near_refl hr.nonneg hr.lt_one (hp0 i hi))
    have e : Spec.avgOf .weighted n k c j = ((wOrigins n k j).map (fun i => c i (j + 1))).sum /
        ((wOrigins n k j).map (fun i => c i j)).sum := rfl
    rw [e]
    refine ⟨div_pos h1 g1, rd_pos hr (div_pos h2 g2), ?_⟩
    exact near_mono hr.nonneg hr.lt_one (by omega) (div_pos h1 g1) (rd_pos hr (div_pos h2 g2))
      (near_rd' hr (div_pos h2 g2) (near_div hr.lt_one h1 h2 g1 g2 h3 g3))

/-! ## cumulative factors, ultimates -/

section chain
variable {f f' : ℕ → K}

/-- Rounded factors of a triangle with `n` periods and how far they are from the exact ones. -/
structure Spec.NearFactors (u : K) (n : ℕ) (f f' : ℕ → K) : Prop where
  pos : ∀ j < n, 0 < f j
  posR : ∀ j < n, 0 < f' j
  near : ∀ j, j + 1 < n → Spec.Near u (2 * (n - 1 - j) + 1) (f j) (f' j)
  tail : f' (n - 1) = f (n - 1)

theorem tailProd_near (hr : Spec.RelErr rd u) (hf : Spec.NearFactors u n f f') :
    ∀ d, d < n → 0 < Spec.tailProd f n (n - 1 - d) ∧ 0 < Spec.tailProdR rd f' n (n - 1 - d) ∧
      Spec.Near u (d ^ 2 + 3 * d) (Spec.tailProd f n (n - 1 - d)) (Spec.tailProdR rd f' n (n - 1 - d)) := by
  intro d
  induction d with
  | zero =>
    intro hd
    rw [Nat.sub_zero, tailProdR_last rd f' hd, Spec.tailProd_succ f (by omega), show n - 1 + 1 = n by omega]
    have : Spec.tailProd f n n = 1 := by unfold Spec.tailProd; simp
    rw [this, mul_one, hf.tail]
    have := hf.pos (n - 1) (by omega)
    exact ⟨this, this, near_refl hr.nonneg hr.lt_one this⟩
  | succ d ih =>
    intro hd
    obtain ⟨h1, h2, h3⟩ := ih (by omega)
    have ej : n - 1 - d = n - 1 - (d + 1) + 1 := by omega
    rw [ej] at h1 h2 h3
    set j := n - 1 - (d + 1) with hj
    rw [tailProdR_succ rd f' (by omega), Spec.tailProd_succ f (by omega), mul_comm (f j)]
    have p := hf.pos j (by omega)
    have p' := hf.posR j (by omega)
    refine ⟨mul_pos h1 p, rd_pos hr (mul_pos h2 p'), ?_⟩
    have := near_rd' hr (mul_pos h2 p') (near_mul hr.lt_one h1 h2 p p' h3 (hf.near j (by omega)))
    have e : d ^ 2 + 3 * d + (2 * (n - 1 - j) + 1) + 1 = (d + 1) ^ 2 + 3 * (d + 1) := by
      rw [show n - 1 - j = d + 1 by omega]; ring
    rw [e] at this
    exact this

theorem proj_near (hr : Spec.RelErr rd u) (hf : Spec.NearFactors u n f f') {i : ℕ} (hi : i < n) {a : K} (ha : 0 < a) :
    ∀ s, s ≤ i → 0 < a * ∏ m ∈ Finset.range s, f (n - 1 - i + m) ∧ 0 < Spec.projR rd a f' (n - 1 - i) s ∧
      Spec.Near u (s * (2 * i + 3 - s)) (a * ∏ m ∈ Finset.range s, f (n - 1 - i + m))
        (Spec.projR rd a f' (n - 1 - i) s) := by
  intro s
  induction s with
  | zero =>
    intro _
    simp only [Finset.range_zero, Finset.prod_empty, mul_one, Spec.projR]
    exact ⟨ha, ha, near_refl hr.nonneg hr.lt_one ha⟩
  | succ s ih =>
    intro hs
    obtain ⟨h1, h2, h3⟩ := ih (by omega)
    rw [Finset.prod_range_succ, ← mul_assoc, Spec.projR]
    have p := hf.pos (n - 1 - i + s) (by omega)
    have p' := hf.posR (n - 1 - i + s) (by omega)
    refine ⟨mul_pos h1 p, rd_pos hr (mul_pos h2 p'), ?_⟩
    have := near_rd' hr (mul_pos h2 p') (near_mul hr.lt_one h1 h2 p p' h3 (hf.near (n - 1 - i + s) (by omega)))
    have e : s * (2 * i + 3 - s) + (2 * (n - 1 - (n - 1 - i + s)) + 1) + 1 = (s + 1) * (2 * i + 3 - (s + 1)) := by
      obtain ⟨q, rfl⟩ : ∃ q, i = s + 1 + q := ⟨i - (s + 1), by omega⟩
      rw [show n - 1 - (n - 1 - (s + 1 + q) + s) = q + 1 by omega,
        show 2 * (s + 1 + q) + 3 - s = s + 2 * q + 5 by omega,
        show 2 * (s + 1 + q) + 3 - (s + 1) = s + 2 * q + 4 by omega]
      ring
    rw [e] at this
    exact this

/-- The last column of the squared triangle. -/
theorem sqrUlt_near (hr : Spec.RelErr rd u) (hf : Spec.NearFactors u n f f') {i : ℕ} (hi : i < n) {a : K} (ha : 0 < a) :
    Spec.Near u (i ^ 2 + 3 * i + 1) (a * Spec.tailProd f n (n - 1 - i))
      (Spec.projR rd a f' (n - 1 - i) (i + 1)) := by
  obtain ⟨h1, h2, h3⟩ := proj_near hr hf hi ha i le_rfl
  have e1 : Spec.tailProd f n (n - 1 - i) = (∏ m ∈ Finset.range i, f (n - 1 - i + m)) * f (n - 1) := by
    unfold Spec.tailProd
    rw [Finset.prod_Ico_eq_prod_range, show n - (n - 1 - i) = i + 1 by omega, Finset.prod_range_succ,
      show n - 1 - i + i = n - 1 by omega]
  rw [Spec.projR, show n - 1 - i + i = n - 1 by omega, hf.tail, e1, ← mul_assoc]
  have p := hf.pos (n - 1) (by omega)
  have := near_rd' hr (mul_pos h2 p) (near_mul hr.lt_one h1 h2 p p h3
    (near_refl hr.nonneg hr.lt_one (k := 0) p))
  rw [show i * (2 * i + 3 - i) + 0 + 1 = i ^ 2 + 3 * i + 1 by
    rw [show 2 * i + 3 - i = i + 3 by omega]; ring] at this
  exact this

end chain

/-! ## the estimator -/

theorem onePlus_pow (h0 : 0 ≤ u) (h1 : u < 1) {m : ℕ} (hm : 2 * (m : K) * u ≤ 1) : (1 + u) ^ m ≤ 1 + 2 * (m : K) * u := by
  have hn : Spec.Near u m 1 ((1 + u) ^ m) := by
    constructor
    · rw [mul_one]; exact pow_le_pow_left₀ (by linarith) (by linarith) m
    · rw [← mul_pow]; exact pow_le_one₀ (by nlinarith) (by nlinarith)
  have := near_err h0 h1 hm one_pos hn
  rw [abs_le] at this
  linarith

theorem reserve_bound {A T M P N : K} (h0 : 0 ≤ u) (hN : 3 ≤ N) (h2 : 2 * N * u ≤ 1) (hP : P ≤ 1 + 2 * N * u)
    (hA0 : 0 ≤ A) (hA : A ≤ T + M) (hT : 0 < T) (hM : 0 < M) :
    P * (A + 2 * (N ^ 2 + N - 1) * u * T) - A ≤ (4 * N ^ 2 + 6 * N) * u * (T + M) := by
  have hk : 0 ≤ 2 * (N ^ 2 + N - 1) * u * T := mul_nonneg (mul_nonneg (by nlinarith) h0) hT.le
  have e1 : P * (A + 2 * (N ^ 2 + N - 1) * u * T) ≤ (1 + 2 * N * u) * (A + 2 * (N ^ 2 + N - 1) * u * T) :=
    mul_le_mul_of_nonneg_right hP (add_nonneg hA0 hk)
  have e2 : 2 * N * u * A ≤ 2 * N * u * (T + M) := mul_le_mul_of_nonneg_left hA (by positivity)
  have e3 : 2 * N * u * (2 * (N ^ 2 + N - 1) * u * T) ≤ 1 * (2 * (N ^ 2 + N - 1) * u * T) :=
    mul_le_mul_of_nonneg_right h2 hk
  have e4 : 0 ≤ (4 * N ^ 2 + 4 * N) * (u * M) := mul_nonneg (by positivity) (mul_nonneg h0 hM.le)
  have e5 : 0 ≤ u * T := mul_nonneg h0 hT.le
  nlinarith

theorem total_reserve (hr : Spec.RelErr rd u) (hb : Spec.Bracketing br) (hn : 3 ≤ n) (h2n : 2 * (n : K) * u ≤ 1)
    {L U W : ℕ → K} (hL : ∀ i < n, 0 < L i) (hU : ∀ i < n, 0 < U i)
    (hW : ∀ i < n, |W i - (U i - L i)| ≤ u * |U i - L i| + (1 + u) * (2 * ((n : K) ^ 2 + n - 1) * u * U i)) :
    |roundedSum br rd ((List.range n).map W) - ((List.range n).map (fun i => U i - L i)).sum| ≤
      (4 * (n : K) ^ 2 + 6 * n) * u * (((List.range n).map U).sum + ((List.range n).map L).sum) := by
  have h0 := hr.nonneg
  have hnr : List.range n ≠ [] := by simp; omega
  have key := sum_err hr hb hnr (a := fun i => U i - L i) (b := W)
      (e := fun i => u * |U i - L i| + (1 + u) * (2 * ((n : K) ^ 2 + n - 1) * u * U i))
      (fun i hi => hW i (List.mem_range.1 hi))
  rw [List.length_range] at key
  have hsplit : ((List.range n).map (fun i => |U i - L i| + (u * |U i - L i| +
      (1 + u) * (2 * ((n : K) ^ 2 + n - 1) * u * U i)))).sum =
      (1 + u) * (((List.range n).map (fun i => |U i - L i|)).sum +
        2 * ((n : K) ^ 2 + n - 1) * u * ((List.range n).map U).sum) := by
    rw [list_range_sum, list_range_sum, list_range_sum, Finset.mul_sum, ← Finset.sum_add_distrib, Finset.mul_sum]
    apply Finset.sum_congr rfl
    intro i _
    ring
  have hA : ((List.range n).map (fun i => |U i - L i|)).sum ≤
      ((List.range n).map U).sum + ((List.range n).map L).sum := by
    rw [list_range_sum, list_range_sum, list_range_sum, ← Finset.sum_add_distrib]
    apply Finset.sum_le_sum
    intro i hi
    have hi := Finset.mem_range.1 hi
    have := hU i hi
    have := hL i hi
    rw [abs_le]
    constructor <;> linarith
  have hA0 : 0 ≤ ((List.range n).map (fun i => |U i - L i|)).sum := by
    rw [list_range_sum]
    exact Finset.sum_nonneg fun i _ => abs_nonneg _
  refine key.trans ?_
  rw [hsplit, ← mul_assoc, ← pow_succ, show n - 1 + 1 = n by omega]
  exact reserve_bound h0 (by exact_mod_cast hn) h2n (onePlus_pow h0 hr.lt_one h2n) hA0 hA
    (sum_pos_of hnr fun i hi => hU i (List.mem_range.1 hi)) (sum_pos_of hnr fun i hi => hL i (List.mem_range.1 hi))

/-- Rounded results with the factors they come from. -/
theorem baseCLR_stair (gm : List (Num K) → Num K) (h : Spec.Stair t n c) (hp : Spec.Positive n c) (hn : 3 ≤ n)
    (hpos : ∀ i j, i + j + 1 < n → 0 < rd (rd (c i (j + 1) / c i j)))
    (hsum : ∀ k j, j < n - 1 → 0 < roundedSum br rd ((wOrigins n k j).map (fun i => c i j))) {kind : AvgKind}
    (hkind : kind = .simple ∨ kind = .weighted) {k : ℕ} (hk : k < n - 1) (tail : K) :
    ∃ r lab, baseCLR br rd gm t t.a2aind0 (Spec.avgName kind.name k) (.fin tail) = .ok r ∧
      tailLabel (t.devs.take (n - 1)) = .ok lab ∧ r.ldfs.map Prod.fst = t.devs.take (n - 1) ++ [lab] ∧
      LdfVals r.ldfs n (Spec.withTail (Spec.avgOfR br rd kind n k c) n tail) ∧
      Spec.BaseSpecR br rd t n c (Spec.withTail (Spec.avgOfR br rd kind n k c) n tail) r.ldfs r := by
  obtain ⟨tab, h1, h2, h3⟩ := a2aAvgsR_row br rd gm h hp.ne_zero hpos hk kind
    (fun j hj => avgCellR_avgOfR gm h hp hpos hsum hkind k hj)
  obtain ⟨l, l1, l2, lab, l3, l4⟩ := ldfsByNameR_spec br rd gm h hp.ne_zero hn h1 h2 h3 tail
  obtain ⟨r, r1, r2⟩ := base_coreR br rd h (by omega) l2
  refine ⟨r, lab, ?_, l4, ?_, ?_, ?_⟩
  · unfold baseCLR
    rw [l1]
    exact r1
  · rw [r2.factors]; exact l3
  · rw [r2.factors]; exact l2
  · rw [r2.factors]; exact r2

theorem sum_posR (hr : Spec.RelErr rd u) (hb : Spec.Bracketing br) (hp : Spec.Positive n c) (k j : ℕ)
    (hj : j < n - 1) : 0 < roundedSum br rd ((wOrigins n k j).map (fun i => c i j)) := by
  have hp0 : ∀ i ∈ wOrigins n k j, 0 < c i j := fun i hi => hp _ _ (by have := wOrigins_lt hi; omega)
  exact (sum_near hr hb (wOrigins_ne_nil hj) (k := 0) hp0 hp0
    (fun i hi => near_refl hr.nonneg hr.lt_one (hp0 i hi))).2.1

/-- Results `r` of the exact and `r'` of the rounded estimator on a triangle with `n` periods: same labels, and every
number off by at most the stated multiple of `u`. -/
def Spec.ErrorBounds (u : K) (n : ℕ) (r r' : BaseResult K) : Prop :=
  r'.ldfs.map Prod.fst = r.ldfs.map Prod.fst ∧
    (∀ j < n - 1, ∃ x y : K, (r.ldfs.map Prod.snd)[j]? = some (.fin x) ∧
      (r'.ldfs.map Prod.snd)[j]? = some (.fin y) ∧ 0 < x ∧ |y - x| ≤ 2 * (2 * ((n - 1 - j : ℕ) : K) + 1) * u * x) ∧
    (∀ i < n, ∃ (row row' : SummRow K) (L U U' R R' S' : K), r.rows[i]? = some row ∧ r'.rows[i]? = some row' ∧
      row'.origin = row.origin ∧ row'.maturity = row.maturity ∧
      row.latest = .fin L ∧ row'.latest = .fin L ∧ row.ultimate = .fin U ∧ row'.ultimate = .fin U' ∧
      row.reserve = .fin R ∧ row'.reserve = .fin R' ∧ r'.sqr.ultimate[i]? = some (.fin S') ∧ 0 < U ∧
      |U' - U| ≤ 2 * ((i : K) ^ 2 + 3 * i + 1) * u * U ∧ |S' - U| ≤ 2 * ((i : K) ^ 2 + 3 * i + 1) * u * U ∧
      |R' - R| ≤ u * |R| + 4 * ((i : K) ^ 2 + 3 * i + 1) * u * U) ∧
    ∃ L L' U U' R R' : K, r.totLatest = .fin L ∧ r'.totLatest = .fin L' ∧ r.totUltimate = .fin U ∧
      r'.totUltimate = .fin U' ∧ r.totReserve = .fin R ∧ r'.totReserve = .fin R' ∧ 0 < L ∧ 0 < U ∧
      |L' - L| ≤ 2 * n * u * L ∧ |U' - U| ≤ 2 * ((n : K) ^ 2 + 2 * n) * u * U ∧
      |R' - R| ≤ (4 * (n : K) ^ 2 + 6 * n) * u * (U + L)

/-- Bounds for results with near factors. -/
theorem errorBounds_core (hp : Spec.Positive n c) (hn : 3 ≤ n) (hr : Spec.RelErr rd u) (hb : Spec.Bracketing br)
    (hu : 2 * ((n : K) ^ 2 + 2 * n) * u ≤ 1) {f f' : ℕ → K} (hF : Spec.NearFactors u n f f') {r r' : BaseResult K}
    {l l' : Ser K} (r5 : Spec.BaseSpec t n c f l r) (s5 : Spec.BaseSpecR br rd t n c f' l' r')
    (hlab : r'.ldfs.map Prod.fst = r.ldfs.map Prod.fst) (r4 : LdfVals r.ldfs n f) (s4 : LdfVals r'.ldfs n f') :
    Spec.ErrorBounds u n r r' := by
  have h0 := hr.nonneg
  have h1 := hr.lt_one
  have hn3 : (3 : K) ≤ n := by exact_mod_cast hn
  have hn0 : (0 : K) ≤ n := by linarith
  unfold LdfVals at r4 s4
  -- per origin
  set L : ℕ → K := fun i => c i (n - 1 - i) with hL
  set U : ℕ → K := fun i => L i * Spec.tailProd f n (n - 1 - i) with hU
  set U' : ℕ → K := fun i => rd (L i * Spec.tailProdR rd f' n (n - 1 - i)) with hU'
  have hLp : ∀ i < n, 0 < L i := fun i hi => hp _ _ (by omega)
  have hUp : ∀ i < n, 0 < U i := fun i hi => mul_pos (hLp i hi) (tailProd_near hr hF i hi).1
  have hUp' : ∀ i < n, 0 < U' i := fun i hi => rd_pos hr (mul_pos (hLp i hi) (tailProd_near hr hF i hi).2.1)
  have hUn : ∀ i < n, Spec.Near u (i ^ 2 + 3 * i + 1) (U i) (U' i) := by
    intro i hi
    obtain ⟨a1, a2, a3⟩ := tailProd_near hr hF i hi
    have := near_rd' hr (mul_pos (hLp i hi) a2) (near_mul h1 (hLp i hi) (hLp i hi) a1 a2
      (near_refl h0 h1 (k := 0) (hLp i hi)) a3)
    rw [zero_add] at this
    exact this
  have hkb : ∀ i < n, (i : K) ^ 2 + 3 * i + 1 ≤ (n : K) ^ 2 + n - 1 := by
    intro i hi
    have : i ^ 2 + 3 * i + 2 ≤ n ^ 2 + n := by
      obtain ⟨m, rfl⟩ : ∃ m, n = i + 1 + m := ⟨n - (i + 1), by omega⟩
      nlinarith [Nat.zero_le (m * i), Nat.zero_le m, Nat.zero_le (m * m)]
    have : (i : K) ^ 2 + 3 * i + 2 ≤ (n : K) ^ 2 + n := by exact_mod_cast this
    linarith
  have hki : ∀ i < n, 2 * ((i ^ 2 + 3 * i + 1 : ℕ) : K) * u ≤ 1 := by
    intro i hi
    push_cast
    have := hkb i hi
    nlinarith [mul_nonneg h0 (show (0 : K) ≤ n by linarith)]
  have hUe : ∀ i < n, |U' i - U i| ≤ 2 * ((i : K) ^ 2 + 3 * i + 1) * u * U i := by
    intro i hi
    have := near_err h0 h1 (hki i hi) (hUp i hi) (hUn i hi)
    push_cast at this
    exact this
  have hRe : ∀ i < n, |rd (U' i - L i) - (U i - L i)| ≤
      u * |U i - L i| + (1 + u) * (2 * ((i : K) ^ 2 + 3 * i + 1) * u * U i) := by
    intro i hi
    have e : rd (U' i - L i) - (U i - L i) = (rd (U' i - L i) - (U' i - L i)) + (U' i - U i) := by ring
    have e2 : |U' i - L i| ≤ |U i - L i| + |U' i - U i| := by
      have : U' i - L i = (U i - L i) + (U' i - U i) := by ring
      rw [this]; exact abs_add_le _ _
    have e3 := hr.err (U' i - L i)
    have e4 := hUe i hi
    rw [e]
    have e5 := abs_add_le (rd (U' i - L i) - (U' i - L i)) (U' i - U i)
    nlinarith [mul_le_mul_of_nonneg_left e2 h0, mul_le_mul_of_nonneg_left e4 h0]
  have hnr : List.range n ≠ [] := by simp; omega
  refine ⟨hlab, ?_, ?_, ?_⟩
  · intro j hj
    have a1 := hF.pos j (by omega)
    have a3 := hF.near j (by omega)
    refine ⟨f j, f' j, ?_, ?_, a1, ?_⟩
    · rw [r4, List.getElem?_map, List.getElem?_range (by omega)]; rfl
    · rw [s4, List.getElem?_map, List.getElem?_range (by omega)]; rfl
    · have hkj : 2 * ((2 * (n - 1 - j) + 1 : ℕ) : K) * u ≤ 1 := by
        have hle : ((2 * (n - 1 - j) + 1 : ℕ) : K) ≤ ((n ^ 2 + 2 * n : ℕ) : K) := by
          apply Nat.cast_le.2
          nlinarith [Nat.sub_le (n - 1) j, Nat.sub_le n 1]
        push_cast at hle ⊢
        nlinarith
      have := near_err h0 h1 hkj a1 a3
      push_cast at this
      exact this
  · intro i hi
    obtain ⟨row, a1, a2, a3, _, _, a6, a7, a8⟩ := r5.rows i hi
    obtain ⟨row', b1, b2, b3, _, _, b6, b7, b8⟩ := s5.rows i hi
    refine ⟨row, row', L i, U i, U' i, U i - L i, rd (U' i - L i),
      Spec.projR rd (L i) f' (n - 1 - i) (i + 1), a1, b1, b2.trans a2.symm, b3.trans a3.symm, a6, b6, a7, b7, a8, b8,
      ?_, hUp i hi, hUe i hi, ?_, ?_⟩
    · rw [s5.sqr_ultimate, List.getElem?_map, List.getElem?_range hi]; rfl
    · have := near_err h0 h1 (hki i hi) (hUp i hi) (sqrUlt_near hr hF hi (hLp i hi))
      push_cast at this
      exact this
    · refine (hRe i hi).trans ?_
      have : 0 ≤ ((i : K) ^ 2 + 3 * i + 1) * u * U i :=
        mul_nonneg (mul_nonneg (by positivity) h0) (hUp i hi).le
      nlinarith
  · have hsumL := sum_near hr hb hnr (a := L) (b := L) (k := 0) (fun i hi => hLp i (List.mem_range.1 hi))
      (fun i hi => hLp i (List.mem_range.1 hi))
      (fun i hi => near_refl h0 h1 (hLp i (List.mem_range.1 hi)))
    have hsumU := sum_near hr hb hnr (a := U) (b := U') (k := n ^ 2 + n - 1)
      (fun i hi => hUp i (List.mem_range.1 hi)) (fun i hi => hUp' i (List.mem_range.1 hi))
      (fun i hi => near_mono h0 h1 (by
        have hi := List.mem_range.1 hi
        obtain ⟨m, rfl⟩ : ∃ m, n = i + 1 + m := ⟨n - (i + 1), by omega⟩
        have : i ^ 2 + 3 * i + 2 ≤ (i + 1 + m) ^ 2 + (i + 1 + m) := by
          nlinarith [Nat.zero_le (m * i), Nat.zero_le m, Nat.zero_le (m * m)]
        omega) (hUp i (List.mem_range.1 hi)) (hUp' i (List.mem_range.1 hi)) (hUn i (List.mem_range.1 hi)))
    have hRe' : ∀ i < n, |rd (U' i - L i) - (U i - L i)| ≤
        u * |U i - L i| + (1 + u) * (2 * ((n : K) ^ 2 + n - 1) * u * U i) := by
      intro i hi
      refine (hRe i hi).trans ?_
      have := mul_le_mul_of_nonneg_right (mul_le_mul_of_nonneg_right (hkb i hi) h0) (hUp i hi).le
      have := mul_le_mul_of_nonneg_left this (show 0 ≤ 1 + u by linarith)
      nlinarith
    have h2n : 2 * (n : K) * u ≤ 1 := by nlinarith [mul_nonneg h0 hn0, mul_nonneg h0 (mul_nonneg hn0 hn0)]
    rw [List.length_range] at hsumL hsumU
    obtain ⟨l1, l2, l3⟩ := hsumL
    obtain ⟨u1, u2, u3⟩ := hsumU
    have tl := r5.totLatest
    have tu := r5.totUltimate
    have tr := r5.totReserve
    rw [← list_range_sum] at tl tu tr
    refine ⟨_, _, _, _, _, _, tl, s5.totLatest, tu, s5.totUltimate, tr, s5.totReserve, l1, u1, ?_, ?_, ?_⟩
    · have hk1 : 2 * ((0 + (n - 1) : ℕ) : K) * u ≤ 2 * (n : K) * u := by
        have : ((0 + (n - 1) : ℕ) : K) ≤ (n : K) := by apply Nat.cast_le.2; omega
        nlinarith
      have := near_err h0 h1 (hk1.trans h2n) l1 l3
      exact this.trans (mul_le_mul_of_nonneg_right hk1 l1.le)
    · have hk1 : 2 * ((n ^ 2 + n - 1 + (n - 1) : ℕ) : K) * u ≤ 2 * ((n : K) ^ 2 + 2 * n) * u := by
        have : ((n ^ 2 + n - 1 + (n - 1) : ℕ) : K) ≤ ((n ^ 2 + 2 * n : ℕ) : K) := by apply Nat.cast_le.2; omega
        push_cast at this
        have e := mul_le_mul_of_nonneg_right this h0
        push_cast at e ⊢
        linarith
      have := near_err h0 h1 (hk1.trans hu) u1 u3
      exact this.trans (mul_le_mul_of_nonneg_right hk1 u1.le)
    · exact total_reserve hr hb hn h2n hLp hUp hRe'

/-- **C142.** Rounding errors of `base_cl`.  Positive staircase with `n ≥ 3` periods, simple or weighted averages over
all or over the last `k` origins, positive tail factor, every operation rounded with relative error at most `u`, the
terms of every sum added in any order.  If `2(n² + 2n)u ≤ 1` the rounded and the exact estimator both return, with the
same labels, and the factor of period `j`, the ultimate and the reserve of origin `i`, the last column of the squared
triangle and the totals differ by at most the stated multiples of `u`. -/
theorem C142_error (gm gm' : List (Num K) → Num K) (h : Spec.Stair t n c) (hp : Spec.Positive n c) (hn : 3 ≤ n)
    (hr : Spec.RelErr rd u) (hb : Spec.Bracketing br) (hu : 2 * ((n : K) ^ 2 + 2 * n) * u ≤ 1) {kind : AvgKind}
    (hkind : kind = .simple ∨ kind = .weighted) {k : ℕ} (hk : k < n - 1) {tail : K} (htail : 0 < tail) :
    ∃ r r', baseCL gm t t.a2aind0 (Spec.avgName kind.name k) (.fin tail) = .ok r ∧
      baseCLR br rd gm' t t.a2aind0 (Spec.avgName kind.name k) (.fin tail) = .ok r' ∧
      Spec.ErrorBounds u n r r' := by
  have h0 := hr.nonneg
  have h1 := hr.lt_one
  have hn3 : (3 : K) ≤ n := by exact_mod_cast hn
  have hn0 : (0 : K) ≤ n := by linarith
  have hfac := fun j (hj : j < n - 1) => avgOfR_near hr hb hp hkind k hj
  set f := Spec.withTail (Spec.avgOf kind n k c) n tail with hfdef
  set f' := Spec.withTail (Spec.avgOfR br rd kind n k c) n tail with hfdef'
  have hf0 : ∀ j, j + 1 < n → f j = Spec.avgOf kind n k c j := fun j hj => by
    rw [hfdef]; unfold Spec.withTail; rw [if_pos hj]
  have hf0' : ∀ j, j + 1 < n → f' j = Spec.avgOfR br rd kind n k c j := fun j hj => by
    rw [hfdef']; unfold Spec.withTail; rw [if_pos hj]
  have hft : f (n - 1) = tail := by rw [hfdef]; unfold Spec.withTail; rw [if_neg (by omega)]
  have hft' : f' (n - 1) = tail := by rw [hfdef']; unfold Spec.withTail; rw [if_neg (by omega)]
  have hF : Spec.NearFactors u n f f' := by
    refine ⟨?_, ?_, ?_, by rw [hft, hft']⟩
    · intro j hj
      by_cases e : j + 1 < n
      · rw [hf0 j e]; exact (hfac j (by omega)).1
      · rw [show j = n - 1 by omega, hft]; exact htail
    · intro j hj
      by_cases e : j + 1 < n
      · rw [hf0' j e]; exact (hfac j (by omega)).2.1
      · rw [show j = n - 1 by omega, hft']; exact htail
    · intro j hj
      rw [hf0 j hj, hf0' j hj]; exact (hfac j (by omega)).2.2
  obtain ⟨r, lab, r1, r2, _, r4, r5⟩ := baseCL_stair h hp.ne_zero (h.indOn0 hp.ne_zero) hn
    (rowIs_window gm h hp kind hk fun j hj => avgEntry_avgOf gm h hp hkind k hj) tail
  obtain ⟨r', lab', s1, s2, s3, s4, s5⟩ := baseCLR_stair gm' h hp hn (ratio_posR hr hp)
    (fun k j hj => sum_posR hr hb hp k j hj) hkind hk tail
  rw [← hfdef] at r4 r5
  rw [← hfdef'] at s4 s5
  have hlab : lab' = lab := by
    rw [r2] at s2
    injection s2 with e
    exact e.symm
  have hdl : t.devs.length = n := h.nc
  refine ⟨r, r', r1, s1, errorBounds_core hp hn hr hb hu hF r5 s5 ?_ ?_ s4⟩
  · rw [s3, r4, List.map_fst_zip (by simp [hdl]; omega), hlab]
  · unfold LdfVals
    rw [r4, List.map_snd_zip (by simp [hdl]; omega)]

/-! ## double precision -/

theorem floatRd_relErr [FloorRing K] {p : ℕ} (hp : 1 ≤ p) :
    Spec.RelErr (floatRd p : K → K) ((2 : K) ^ (-(p : ℤ))) := by
  refine ⟨(zpow_pos (by norm_num) _).le, ?_, floatRd_err p⟩
  exact zpow_lt_one_of_neg₀ (by norm_num) (by omega)

/-- **C142 for double precision**: every operation rounded to the nearest number with 53 binary digits, triangles with at
most 2²⁵ periods. -/
theorem C142_float64 [FloorRing K] (gm gm' : List (Num K) → Num K) (h : Spec.Stair t n c) (hp : Spec.Positive n c)
    (hn : 3 ≤ n) (hn' : n ≤ 2 ^ 25) (hb : Spec.Bracketing br) {kind : AvgKind}
    (hkind : kind = .simple ∨ kind = .weighted) {k : ℕ} (hk : k < n - 1) {tail : K} (htail : 0 < tail) :
    ∃ r r', baseCL gm t t.a2aind0 (Spec.avgName kind.name k) (.fin tail) = .ok r ∧
      baseCLR br (floatRd 53) gm' t t.a2aind0 (Spec.avgName kind.name k) (.fin tail) = .ok r' ∧
      Spec.ErrorBounds ((2 : K) ^ (-53 : ℤ)) n r r' := by
  refine C142_error gm gm' h hp hn (floatRd_relErr (p := 53) (by norm_num)) hb ?_ hkind hk htail
  have h1 : 2 * (n ^ 2 + 2 * n) ≤ 2 ^ 53 := by nlinarith
  have h2 : ((2 * (n ^ 2 + 2 * n) : ℕ) : K) ≤ ((2 ^ 53 : ℕ) : K) := Nat.cast_le.2 h1
  have h2 : 2 * ((n : K) ^ 2 + 2 * n) ≤ 2 ^ 53 := by push_cast at h2; norm_num; exact h2
  have h3 : (0 : K) < 2 ^ (-(53 : ℕ) : ℤ) := zpow_pos (by norm_num) _
  calc 2 * ((n : K) ^ 2 + 2 * n) * 2 ^ (-((53 : ℕ) : ℤ)) ≤ 2 ^ 53 * 2 ^ (-((53 : ℕ) : ℤ)) :=
        mul_le_mul_of_nonneg_right h2 h3.le
    _ = 1 := by norm_num

/-- Seventeen thirds with four binary digits. -/
example : floatRd 4 (17 / 3 : ℚ) = 11 / 2 := by decide +kernel

/-- With five binary digits the factors of the example triangle, exactly 247/165, 200/163 and 11/10, become 3/2, 5/4 and
9/8; the exact ultimates are 198, 242, about 226.7 and about 262.7. -/
example : (baseCLR (fun n => seqTree (n - 1)) (floatRd 5) (fun _ => .nan) exTri exTri.a2aind0 "all-weighted"
    (.fin 1)).map (fun r => r.ldfs.map Prod.snd) = .ok [.fin (3 / 2), .fin (5 / 4), .fin (9 / 8), .fin 1] := by
  decide +kernel

example : (baseCLR (fun n => seqTree (n - 1)) (floatRd 5) (fun _ => .nan) exTri exTri.a2aind0 "all-weighted"
    (.fin 1)).map (fun r => r.rows.map (fun x => x.ultimate)) = .ok [.fin 200, .fin 248, .fin 232, .fin 256] := by
  decide +kernel

end Trikit
