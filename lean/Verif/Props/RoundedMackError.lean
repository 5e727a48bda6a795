import Verif.RoundedMackLemmas
import Verif.Props.RoundedMack
import Verif.Props.RoundedTri

/-! # C152, C153: Mack chain ladder in double precision -/

set_option linter.unusedSectionVars false

namespace Trikit

variable {K : Type} [Field K] [LinearOrder K] [IsStrictOrderedRing K]
variable {t ind : Tri K} {n N : ℕ} {c w : ℕ → ℕ → K} {rd : K → K} {br : ℕ → SumTree} {u : K}

/-- Link ratios are kept or excluded, one at least is kept in every period. -/
structure Spec.Kept (n : ℕ) (w : ℕ → ℕ → K) : Prop where
  bin : ∀ i j, i + j + 1 < n → w i j = 0 ∨ w i j = 1
  kept : ∀ j < n - 1, ∃ i, i + j + 1 < n ∧ w i j = 1

theorem Spec.Kept.weights (h : Spec.Kept n w) : Spec.Weights n w := by
  refine ⟨fun i j hij => ?_, fun j hj => ?_⟩
  · rcases h.bin i j hij with e | e <;> rw [e]
    exact zero_le_one
  · obtain ⟨i, h1, h2⟩ := h.kept j hj
    exact ⟨i, h1, by rw [h2]; exact one_pos⟩

theorem Spec.Kept.one (hn : 1 ≤ n) : Spec.Kept (K := K) n (fun _ _ => 1) :=
  ⟨fun _ _ _ => Or.inr rfl, fun j hj => ⟨0, by omega, rfl⟩⟩

theorem Spec.Kept.w_one (h : Spec.Kept n w) {i j : ℕ} (hi : i ∈ Spec.incl n w j) : w i j = 1 := by
  obtain ⟨h1, h2⟩ := mem_incl.1 hi
  rcases h.bin i j h1 with e | e
  · exact absurd e h2
  · exact e

theorem Spec.Kept.ne_nil (h : Spec.Kept n w) {j : ℕ} (hj : j < n - 1) : Spec.incl n w j ≠ [] := by
  obtain ⟨i, h1, h2⟩ := h.kept j hj
  exact List.ne_nil_of_mem (mem_incl.2 ⟨h1, by rw [h2]; exact one_ne_zero⟩)

theorem filter_sum (l : List ℕ) (q : ℕ → Bool) (g : ℕ → K) (h : ∀ i ∈ l, q i = false → g i = 0) :
    ((l.filter q).map g).sum = (l.map g).sum := by
  induction l with
  | nil => rfl
  | cons x l ih =>
    have := ih fun i hi => h i (by simp [hi])
    rw [List.filter_cons]
    by_cases e : q x = true
    · rw [if_pos e]; simp [this]
    · rw [if_neg e, List.map_cons, List.sum_cons, h x (by simp) (by simpa using e), zero_add, this]

theorem colSum_incl (n j : ℕ) (w : ℕ → ℕ → K) (g : ℕ → K) :
    Spec.colSum n j (fun i => w i j * g i) = ((Spec.incl n w j).map (fun i => w i j * g i)).sum := by
  unfold Spec.colSum Spec.incl
  rw [filter_sum, list_range_sum]
  intro i _ hi
  have : w i j = 0 := by simpa using hi
  rw [this, zero_mul]

/-! ### factors -/

theorem mackFR_near (hr : Spec.RelErr rd u) (hid : ∀ x, rd (rd x) = rd x) (hb : Spec.Bracketing br)
    (hp : Spec.Positive n c) (hfix : ∀ i j, i + j < n → rd (c i j) = c i j) (hw : Spec.Kept n w) {j : ℕ}
    (hj : j < n - 1) : 0 < Spec.mackF 1 n c w j ∧ 0 < Spec.mackFR br rd 1 n c w j ∧
      Spec.Near u (2 * (n - 1 - j) + 1) (Spec.mackF 1 n c w j) (Spec.mackFR br rd 1 n c w j) := by
  have h1 := hr.lt_one
  have hne := hw.ne_nil hj
  have hlen := incl_length n w j
  have hlen1 := List.length_pos_of_ne_nil hne
  have hlt : ∀ i ∈ Spec.incl n w j, i + j + 1 < n := fun i hi => (mem_incl.1 hi).1
  have hc : ∀ i ∈ Spec.incl n w j, 0 < c i j := fun i hi => hp _ _ (by have := hlt i hi; omega)
  have hc' : ∀ i ∈ Spec.incl n w j, 0 < c i (j + 1) := fun i hi => hp _ _ (by have := hlt i hi; omega)
  have hfc : ∀ i ∈ Spec.incl n w j, rd (c i j) = c i j := fun i hi => hfix _ _ (by have := hlt i hi; omega)
  have eW : Spec.mackWR br rd 1 n c w j = roundedSum br rd ((Spec.incl n w j).map (fun i => c i j)) := by
    unfold Spec.mackWR
    congr 1
    apply List.map_congr_left
    intro i hi
    unfold Spec.wR
    rw [hw.w_one hi, pow_one, hfc i hi, one_mul, hfc i hi]
  have eN : (Spec.incl n w j).map (fun i => rd (rd (rd (c i (j + 1) / c i j) * w i j) * rd (c i j ^ 1))) =
      (Spec.incl n w j).map (fun i => rd (rd (c i (j + 1) / c i j) * c i j)) := by
    apply List.map_congr_left
    intro i hi
    rw [hw.w_one hi, pow_one, hfc i hi, mul_one, hid]
  have eF : Spec.mackF 1 n c w j = ((Spec.incl n w j).map (fun i => c i (j + 1))).sum /
      ((Spec.incl n w j).map (fun i => c i j)).sum := by
    unfold Spec.mackF Spec.mackW
    simp only [mul_assoc]
    rw [colSum_incl n j w (fun i => c i j ^ 1 * (c i (j + 1) / c i j)), colSum_incl n j w (fun i => c i j ^ 1)]
    congr 2
    · apply List.map_congr_left
      intro i hi
      rw [hw.w_one hi, pow_one, one_mul, mul_div_cancel₀ _ (hc i hi).ne']
    · apply List.map_congr_left
      intro i hi
      rw [hw.w_one hi, pow_one, one_mul]
  have hnum := sum_near hr hb hne (a := fun i => c i (j + 1)) (b := fun i => rd (rd (c i (j + 1) / c i j) * c i j)) (k := 2)
    hc' (fun i hi => rd_pos hr (mul_pos (rd_pos hr (div_pos (hc' i hi) (hc i hi))) (hc i hi))) (by
      intro i hi
      have q := div_pos (hc' i hi) (hc i hi)
      have := near_mul h1 q (rd_pos hr q) (hc i hi) (hc i hi) (near_rd hr q)
        (near_refl hr.nonneg h1 (k := 0) (hc i hi))
      rw [div_mul_cancel₀ _ (hc i hi).ne'] at this
      exact near_rd' hr (mul_pos (rd_pos hr q) (hc i hi)) this)
  have hden := sum_near hr hb hne (a := fun i => c i j) (b := fun i => c i j) (k := 0) hc hc
    (fun i hi => near_refl hr.nonneg h1 (hc i hi))
  obtain ⟨n1, n2, n3⟩ := hnum
  obtain ⟨d1, d2, d3⟩ := hden
  rw [eF]
  unfold Spec.mackFR
  rw [eN, eW]
  refine ⟨div_pos n1 d1, rd_pos hr (div_pos n2 d2), ?_⟩
  have := near_rd' hr (div_pos n2 d2) (near_div h1 n1 n2 d1 d2 n3 d3)
  exact near_mono hr.nonneg h1 (by omega) (div_pos n1 d1) (rd_pos hr (div_pos n2 d2)) this

/-- The point estimates of Mack chain ladder. -/
def MackCore.base (r : MackCore K) : BaseResult K :=
  { ldfs := r.ldfs, cldfs := r.cldfs, rows := r.rows, totLatest := r.totLatest, totUltimate := r.totUltimate
    totReserve := r.totReserve, sqr := r.sqr }

theorem MackParts.base_eq {alpha : ℕ} {r : MackCore K} {b : BaseResult K} {lab : Int}
    (p : MackParts alpha t ind n c w r b lab) : r.base = b := by
  unfold MackCore.base
  rw [p.cldfs, p.rows, p.totLatest, p.totUltimate, p.totReserve, p.sqr, ← p.spec.factors]

theorem MackPartsR.base_eq {alpha : ℕ} {r : MackCore K} {b : BaseResult K} {lab : Int}
    (p : MackPartsR br rd alpha t n c w r b lab) : r.base = b := by
  unfold MackCore.base
  rw [p.cldfs, p.rows, p.totLatest, p.totUltimate, p.totReserve, p.sqr, ← p.spec.factors]

/-- **C153, error of the point estimates.** Mack chain ladder with `alpha = 1` on a positive staircase whose amounts are
numbers of the format, with any excluded link ratios: factors, ultimates, reserves and totals obey the bounds of
`C142`. -/
theorem C153_error (h : Spec.Stair t n c) (hp : Spec.Positive n c) (hn : 4 ≤ n) (hi : IndW t ind n w)
    (hw : Spec.Kept n w) (hr : Spec.RelErr rd u) (hid : ∀ x, rd (rd x) = rd x) (hb : Spec.Bracketing br)
    (hfix : ∀ i j, i + j < n → rd (c i j) = c i j) (hu : 2 * ((n : K) ^ 2 + 2 * n) * u ≤ 1) :
    ∃ r r', mackCore 1 t ind = .ok r ∧ mackCoreR br rd 1 t ind = .ok r' ∧ Spec.ErrorBounds u n r.base r'.base := by
  have hfac := fun j (hj : j < n - 1) => mackFR_near hr hid hb hp hfix hw hj
  have hW : ∀ j < n - 1, Spec.mackWR br rd 1 n c w j ≠ 0 := by
    intro j hj e
    have := (hfac j hj).2.1
    unfold Spec.mackFR at this
    rw [e, div_zero] at this
    have h0 := hr.err 0
    rw [abs_zero, mul_zero, sub_zero] at h0
    have h1 : rd 0 = 0 := abs_eq_zero.1 (le_antisymm h0 (abs_nonneg _))
    rw [h1] at this
    exact lt_irrefl _ this
  obtain ⟨r, b, lab, hr1, p⟩ := mack_parts h hp hi hw.weights hn 1
  obtain ⟨r', b', lab', hr2, q⟩ := mackCoreR_stair br rd h hp.ne_zero hi hn 1 hW
  have hlab : lab' = lab := by
    have := p.tailLab.symm.trans q.tailLab
    injection this with e
    exact e.symm
  refine ⟨r, r', hr1, hr2, ?_⟩
  have hF : Spec.NearFactors u n (Spec.mackAll 1 n c w) (Spec.mackAllR br rd 1 n c w) := by
    have ht : Spec.mackAll 1 n c w (n - 1) = 1 := by unfold Spec.mackAll Spec.withTail; rw [if_neg (by omega)]
    have ht' : Spec.mackAllR br rd 1 n c w (n - 1) = 1 := by
      unfold Spec.mackAllR Spec.withTail; rw [if_neg (by omega)]
    refine ⟨?_, ?_, ?_, by rw [ht, ht']⟩
    · intro j hj
      by_cases e : j < n - 1
      · rw [Spec.mackAll_lt e]; exact (hfac j e).1
      · rw [show j = n - 1 by omega, ht]; exact one_pos
    · intro j hj
      by_cases e : j < n - 1
      · rw [Spec.mackAllR_lt e]; exact (hfac j e).2.1
      · rw [show j = n - 1 by omega, ht']; exact one_pos
    · intro j hj
      rw [Spec.mackAll_lt (by omega), Spec.mackAllR_lt (by omega)]
      exact (hfac j (by omega)).2.2
  rw [p.base_eq, q.base_eq]
  refine errorBounds_core hp (by omega) hr hb hu hF p.spec q.spec ?_ ?_ ?_
  · rw [p.spec.factors, q.spec.factors, p.factors, q.factors, mackSer_fst h (by omega), mackSer_fst h (by omega), hlab]
  · rw [p.spec.factors, p.factors]; exact mackSer_snd h (by omega) _ _
  · rw [q.spec.factors, q.factors]; exact mackSer_snd h (by omega) _ _

/-- **C153, partial.** The point estimates of `mack_cl(alpha=1)` and of `base_cl("all-weighted")` in rounded arithmetic
are both within the bounds of `C142` of the exact estimates.  Missing: they are not equal, see `C153_fails`. -/
theorem C153_partial (gm gm' : List (Num K) → Num K) (h : Spec.Stair t n c) (hp : Spec.Positive n c) (hn : 4 ≤ n)
    (hr : Spec.RelErr rd u) (hid : ∀ x, rd (rd x) = rd x) (hb : Spec.Bracketing br)
    (hfix : ∀ i j, i + j < n → rd (c i j) = c i j) (hu : 2 * ((n : K) ^ 2 + 2 * n) * u ≤ 1) :
    ∃ e m b, baseCL gm t t.a2aind0 "all-weighted" 1 = .ok e ∧ mackCoreR br rd 1 t t.a2aind0 = .ok m ∧
      baseCLR br rd gm' t t.a2aind0 "all-weighted" 1 = .ok b ∧ Spec.ErrorBounds u n e m.base ∧
      Spec.ErrorBounds u n e b := by
  obtain ⟨r, m, hr1, hr2, hE⟩ := C153_error h hp hn (h.indW0 hp.ne_zero) (Spec.Kept.one (by omega)) hr hid hb hfix hu
  obtain ⟨e, b, he, hb', hE'⟩ := C142_error gm gm' h hp (by omega) hr hb hu (Or.inr rfl) (k := 0) (by omega)
    (one_pos : (0 : K) < 1)
  refine ⟨e, m, b, he, hr2, hb', ?_, hE'⟩
  obtain ⟨r0, b0, lab, hr0, p⟩ := mack_parts h hp (h.indW0 hp.ne_zero) (Spec.Weights.one (by omega)) hn 1
  obtain rfl : r0 = r := by rw [hr1] at hr0; injection hr0 with e; exact e.symm
  have hc := (C41_factors gm h hp (by omega)).1
  obtain ⟨l, hl1, hl2⟩ := hc
  have hrl : r0.ldfs = l := by
    unfold mackCore at hr0
    rw [hl1] at hr0
    simp only [bind, Except.bind] at hr0
    repeat' split at hr0
    all_goals first | (injection hr0 with e; rw [← e]) | (exact absurd hr0 (by simp))
  have hbe : baseCL gm t t.a2aind0 "all-weighted" 1 = .ok b0 := by
    unfold baseCL
    rw [hl2]
    have := p.base
    rw [hrl] at this
    exact this
  have : e = b0 := by
    have h2 : baseCL gm t t.a2aind0 "all-weighted" 1 = .ok e := he
    rw [hbe] at h2
    injection h2 with e'
    exact e'.symm
  rw [this, ← p.base_eq]
  exact hE

/-- Four origins with the same amounts: 21, 27, 54, 108. -/
def exSame : Tri ℚ := stairTri 4 (fun _ j => ([21, 27, 54, 108] : List ℚ).getD j 0)

/-- **C153 fails**: on the triangle with rows 21, 27, 54, 108 the first factors of the two estimators differ in double
precision. -/
theorem C153_fails :
    (mackCoreR (fun n => seqTree (n - 1)) (floatRd 53) 1 exSame exSame.a2aind0).map (fun r => r.ldfs) ≠
    (baseCLR (fun n => seqTree (n - 1)) (floatRd 53) (fun _ => .nan) exSame exSame.a2aind0 "all-weighted" 1).map
      (fun r => r.ldfs) := by
  decide +kernel

/-! ### no variation -/

theorem tree_exact (h : Spec.ExactInt rd N) (a : ℕ → ℕ) (s : SumTree) (hs : (s.leaves.map a).sum ≤ N) :
    s.eval rd (fun i => (a i : K)) = (((s.leaves.map a).sum : ℕ) : K) := by
  induction s with
  | leaf i => simp [SumTree.eval, SumTree.leaves]
  | node l r ihl ihr =>
    simp only [SumTree.leaves, List.map_append, List.sum_append, SumTree.eval] at *
    rw [ihl (by omega), ihr (by omega)]
    generalize (l.leaves.map a).sum = x at *
    generalize (r.leaves.map a).sum = y at *
    have := h ((x + y : ℕ) : ℤ) (by rw [Int.natAbs_natCast]; exact hs)
    push_cast at this ⊢
    exact this

theorem roundedSum_exact (h : Spec.ExactInt rd N) (hb : Spec.Bracketing br) (l : List ℕ) (g : ℕ → ℕ)
    (hl : (l.map g).sum ≤ N) :
    roundedSum br rd (l.map (fun i => (g i : K))) = ((l.map g).sum : ℕ) := by
  unfold roundedSum
  split
  · rename_i e
    have : l = [] := by simpa using e
    rw [this]; simp
  · rename_i e
    have e' : l ≠ [] := by simpa using e
    have hpos : 0 < (l.map g).length := by simpa using List.length_pos_of_ne_nil e'
    have hlen : (l.map (fun i => (g i : K))).length = (l.map g).length := by simp
    rw [hlen]
    have hf : (fun i => (l.map (fun i => (g i : K))).getD i 0) = fun i => (((l.map g).getD i 0 : ℕ) : K) := by
      funext i
      simp only [List.getD_eq_getElem?_getD, List.getElem?_map]
      cases l[i]? <;> simp
    have hsum : ((br (l.map g).length).leaves.map (fun i => (l.map g).getD i 0)).sum = (l.map g).sum := by
      rw [((hb _ hpos).map _).sum_eq]
      congr 1
      apply List.ext_getElem
      · simp
      · intro i h1 h2
        simp at h1
        simp [List.getD_eq_getElem?_getD, h1]
    rw [hf, tree_exact h _ _ (by rw [hsum]; exact hl), hsum]

/-- Whole positive amounts, every origin develops by the same whole ratios, and no weighted total exceeds `N`. -/
structure Spec.WholeRatios (N n alpha : ℕ) (c : ℕ → ℕ → K) (k : ℕ → ℕ → ℕ) (q : ℕ → ℕ) : Prop where
  amount : ∀ i j, i + j < n → c i j = k i j ∧ 0 < k i j
  ratio : ∀ i j, i + j + 1 < n → k i (j + 1) = q j * k i j
  bound : ∀ j < n - 1, q j * ((List.range (n - 1 - j)).map (fun i => k i j ^ alpha)).sum ≤ N

section
variable {k : ℕ → ℕ → ℕ} {q : ℕ → ℕ} {alpha : ℕ}

theorem Spec.ExactInt.nat (h : Spec.ExactInt rd N) {m : ℕ} (hm : m ≤ N) : rd (m : K) = m := by
  have := h (m : ℤ) (by simpa using hm)
  simpa using this

theorem Spec.WholeRatios.pos (hk : Spec.WholeRatios N n alpha c k q) : Spec.Positive n c := by
  intro i j hij
  rw [(hk.amount i j hij).1]
  exact_mod_cast (hk.amount i j hij).2

theorem Spec.WholeRatios.factor (h : Spec.ExactInt rd N) (hb : Spec.Bracketing br)
    (hk : Spec.WholeRatios N n alpha c k q) (hw : Spec.Kept n w) {j : ℕ} (hj : j < n - 1) :
    0 < Spec.mackWR br rd alpha n c w j ∧ Spec.mackFR br rd alpha n c w j = q j ∧
      Spec.sqDevR br rd alpha n c w (q j) j = 0 := by
  have hlt : ∀ i ∈ Spec.incl n w j, i + j + 1 < n := fun i hi => (mem_incl.1 hi).1
  have hsub : List.Sublist (Spec.incl n w j) (List.range (n - 1 - j)) := List.filter_sublist
  have hS : ((Spec.incl n w j).map (fun i => k i j ^ alpha)).sum ≤
      ((List.range (n - 1 - j)).map (fun i => k i j ^ alpha)).sum :=
    (hsub.map _).sum_le_sum (fun _ _ => Nat.zero_le _)
  have hbd := hk.bound j hj
  have hq : 0 < q j := by
    have h1 := hk.ratio 0 j (by omega)
    have h2 := (hk.amount 0 (j + 1) (by omega)).2
    rw [h1] at h2
    exact Nat.pos_of_mul_pos_right h2
  have hkp : ∀ i ∈ Spec.incl n w j, 0 < k i j := fun i hi => (hk.amount i j (by have := hlt i hi; omega)).2
  have hle : ∀ i ∈ Spec.incl n w j, k i j ^ alpha ≤ ((Spec.incl n w j).map (fun i => k i j ^ alpha)).sum := fun i hi =>
    List.single_le_sum (fun _ _ => Nat.zero_le _) _ (List.mem_map.2 ⟨i, hi, rfl⟩)
  set S := ((Spec.incl n w j).map (fun i => k i j ^ alpha)).sum with hSd
  have hqS : q j * S ≤ N := (Nat.mul_le_mul_left _ hS).trans hbd
  have hSpos : 0 < S := by
    obtain ⟨i, hi⟩ := List.exists_mem_of_ne_nil _ (hw.ne_nil hj)
    exact lt_of_lt_of_le (pow_pos (hkp i hi) _) (hle i hi)
  have hSN : S ≤ N := (Nat.le_mul_of_pos_left S hq).trans hqS
  have hqN : q j ≤ N := (Nat.le_mul_of_pos_right _ hSpos).trans hqS
  have hpw : ∀ i ∈ Spec.incl n w j, rd (c i j ^ alpha) = ((k i j ^ alpha : ℕ) : K) := by
    intro i hi
    rw [(hk.amount i j (by have := hlt i hi; omega)).1, ← Nat.cast_pow]
    exact h.nat ((hle i hi).trans hSN)
  have hwR : ∀ i ∈ Spec.incl n w j, Spec.wR rd alpha c w j i = ((k i j ^ alpha : ℕ) : K) := by
    intro i hi
    unfold Spec.wR
    rw [hpw i hi, hw.w_one hi, one_mul]
    exact h.nat ((hle i hi).trans hSN)
  have hrat : ∀ i ∈ Spec.incl n w j, rd (c i (j + 1) / c i j) = q j := by
    intro i hi
    have hi' := hlt i hi
    have : ((k i j : ℕ) : K) ≠ 0 := by exact_mod_cast (hkp i hi).ne'
    rw [(hk.amount i j (by omega)).1, (hk.amount i (j + 1) (by omega)).1, hk.ratio i j hi', Nat.cast_mul,
      mul_div_cancel_right₀ _ this]
    exact h.nat hqN
  have hW : Spec.mackWR br rd alpha n c w j = (S : ℕ) := by
    unfold Spec.mackWR
    rw [List.map_congr_left hwR, roundedSum_exact h hb _ _ hSN]
  have hSK : (0 : K) < (S : ℕ) := by exact_mod_cast hSpos
  refine ⟨by rw [hW]; exact hSK, ?_, ?_⟩
  · unfold Spec.mackFR
    have e : (Spec.incl n w j).map (fun i => rd (rd (rd (c i (j + 1) / c i j) * w i j) * rd (c i j ^ alpha))) =
        (Spec.incl n w j).map (fun i => ((q j * k i j ^ alpha : ℕ) : K)) := by
      apply List.map_congr_left
      intro i hi
      rw [hrat i hi, hw.w_one hi, mul_one, h.nat hqN, hpw i hi, ← Nat.cast_mul]
      exact h.nat ((Nat.mul_le_mul_left _ (hle i hi)).trans hqS)
    have e2 : ((Spec.incl n w j).map (fun i => q j * k i j ^ alpha)).sum = q j * S := by
      rw [hSd, List.sum_map_mul_left]
    rw [e, roundedSum_exact h hb _ _ (by rw [e2]; exact hqS), e2, hW, Nat.cast_mul, mul_div_cancel_right₀ _ hSK.ne']
    exact h.nat hqN
  · have h0 : rd (0 : K) = 0 := by simpa using h.nat (Nat.zero_le N)
    unfold Spec.sqDevR
    have e : (Spec.incl n w j).map (fun i => rd (Spec.wR rd alpha c w j i *
        rd (rd (rd (c i (j + 1) / c i j) - (q j : K)) ^ 2))) = (Spec.incl n w j).map (fun _ => ((0 : ℕ) : K)) := by
      apply List.map_congr_left
      intro i hi
      rw [hrat i hi, sub_self, h0, zero_pow two_ne_zero, h0, mul_zero, h0, Nat.cast_zero]
    rw [e, roundedSum_exact h hb _ (fun _ => 0) (by simp)]
    simp

theorem lastVarR_zero (h0 : rd (0 : K) = 0) : lastVarR rd 0 0 = .nan := by
  unfold lastVarR Num.powR Num.divR
  rw [npMin2_fin, Num.pow_fin]
  simp only [Num.rounded]
  rw [zero_pow (by norm_num), h0, Num.fin_div_zero]
  simp [Num.infTimes, npMin2]

/-- Without a variance for the last period every error is replaced by zero. -/
theorem MackPartsR.no_errors {r : MackCore K} {b : BaseResult K} {lab : Int} (h0 : rd (0 : K) = 0) (hn : 4 ≤ n)
    (p : MackPartsR br rd alpha t n c w r b lab) (hlast : r.devpvar.iloc (n - 2) = .nan) :
    r.procErr = List.replicate n (.fin 0) ∧ r.paramErr = List.replicate n (.fin 0) ∧
      r.mse = List.replicate n (.fin 0) ∧ r.totMse = .fin 0 := by
  have hlv : r.ldfvar.iloc (n - 2) = .nan := by
    rw [p.lv _ (by omega), ← p.dv _ (by omega), hlast]
    simp [Num.divR, Num.rounded]
  have hP : r.procErr = List.replicate n (.fin 0) := by
    rw [p.procErr]; unfold processErrorR
    rw [List.eq_replicate_iff]
    refine ⟨by simp, fun v hv => ?_⟩
    obtain ⟨i, hi, rfl⟩ := List.mem_map.1 hv
    rw [List.mem_range] at hi
    split
    · rfl
    · rw [peRowR_nan hlast hi (by omega)]; rfl
  have hQ : r.paramErr = List.replicate n (.fin 0) := by
    rw [p.paramErr]; unfold parameterErrorR
    rw [List.eq_replicate_iff]
    refine ⟨by simp, fun v hv => ?_⟩
    obtain ⟨i, hi, rfl⟩ := List.mem_map.1 hv
    rw [List.mem_range] at hi
    split
    · rfl
    · rw [paRowR_nan hlv hi (by omega)]; rfl
  refine ⟨hP, hQ, ?_, ?_⟩
  · rw [p.mse, hP, hQ, List.zipWith_replicate, Nat.min_self]
    congr 1
    change Num.fin (rd (0 + 0)) = _
    rw [add_zero, h0]
  · rw [p.total]
    have : (List.range (n - 1)).map (fun k => mseTotalRowR br rd r.sqr.tri.cell r.ldfs.iloc r.devpvar.iloc n t.origins
        r.mse (r.rows.map SummRow.ultimate) (k + 1)) = (List.range (n - 1)).map (fun _ => .nan) := by
      apply List.map_congr_left
      intro k hk
      rw [List.mem_range] at hk
      exact mseTotalRowR_nan hlast (by omega) (by omega)
    rw [this]
    unfold sumSkipR
    rw [List.filter_eq_nil_iff.2]
    · rfl
    · intro v hv
      obtain ⟨k, _, rfl⟩ := List.mem_map.1 hv
      simp

/-- **C152, partial.** Whole amounts whose origins all develop by the same whole ratios, small enough for whole numbers
to be exact: the factors are the ratios and every error is zero, for every bracketing, every alpha and every set of
excluded link ratios.  Missing: ratios that are not whole numbers, see `C152_fails`. -/
theorem C152_partial (h : Spec.Stair t n c) (hn : 4 ≤ n) (hi : IndW t ind n w) (hw : Spec.Kept n w)
    (hk : Spec.WholeRatios N n alpha c k q) (hN : Spec.ExactInt rd N) (hb : Spec.Bracketing br) :
    ∃ r, mackCoreR br rd alpha t ind = .ok r ∧ (∀ j < n - 1, r.ldfs.iloc j = .fin (q j : K)) ∧
      (∀ j < n - 2, r.devpvar.iloc j = .fin 0) ∧ r.procErr = List.replicate n (.fin 0) ∧
      r.paramErr = List.replicate n (.fin 0) ∧ r.mse = List.replicate n (.fin 0) ∧ r.totMse = .fin 0 := by
  have hfac := fun j (hj : j < n - 1) => hk.factor (rd := rd) (br := br) (w := w) hN hb hw hj
  have h0 : rd (0 : K) = 0 := by simpa using hN.nat (Nat.zero_le N)
  obtain ⟨r, b, lab, hr, p⟩ := mackCoreR_stair br rd h hk.pos.ne_zero hi hn alpha (fun j hj => (hfac j hj).1.ne')
  have hs : ∀ j < n - 1, Spec.sig0R br rd alpha n c w j = 0 := by
    intro j hj
    unfold Spec.sig0R
    rw [(hfac j hj).2.1, (hfac j hj).2.2, zero_div, h0]
  refine ⟨r, hr, ?_, ?_, p.no_errors h0 hn ?_⟩
  · intro j hj
    rw [p.ldf h j (by omega), Spec.mackAllR_lt hj, (hfac j hj).2.1]
  · intro j hj
    rw [p.dv j (by omega)]
    unfold storedVarR
    rw [if_pos (by omega), hs j (by omega)]
  · rw [p.dv _ (by omega)]
    unfold storedVarR
    rw [if_neg (by omega), hs _ (by omega), hs _ (by omega), lastVarR_zero h0]

end

/-- A bounded view of the results for the examples. -/
def MackCore.errors (r : MackCore K) : List (Num K) := r.totMse :: r.mse

/-- **C152 fails** when a ratio is not a number of the format: four identical origins 21, 27, 54, 108 have a positive
mean squared error in double precision although nothing varies, and none in exact arithmetic. -/
theorem C152_fails :
    (mackCoreR (fun n => seqTree (n - 1)) (floatRd 53) 1 exSame exSame.a2aind0).map (fun r =>
        match r.totMse with | .fin x => decide (0 < x) | _ => false) = .ok true ∧
    (mackCore 1 exSame exSame.a2aind0).map (fun r => r.totMse) = .ok (.fin 0) := by
  decide +kernel

/-- Beside `C152_partial`: four origins of different size, each developing by 3, 2 and 2, have no errors in double
precision. -/
example :
    (mackCoreR (fun n => seqTree (n - 1)) (floatRd 53) 1 (stairTri 4 (fun i j => ((i : ℚ) + 1) *
      ([1, 3, 6, 12] : List ℚ).getD j 0)) (stairTri 4 (fun i j => ((i : ℚ) + 1) *
      ([1, 3, 6, 12] : List ℚ).getD j 0)).a2aind0).map MackCore.errors
      = .ok [.fin 0, .fin 0, .fin 0, .fin 0, .fin 0] := by
  decide +kernel

/-- **C152** in double precision: whole numbers up to 2⁵³. -/
theorem C152_float64_partial [FloorRing K] {k : ℕ → ℕ → ℕ} {q : ℕ → ℕ} {alpha : ℕ} (h : Spec.Stair t n c) (hn : 4 ≤ n)
    (hi : IndW t ind n w) (hw : Spec.Kept n w) (hk : Spec.WholeRatios (2 ^ 53) n alpha c k q)
    (hb : Spec.Bracketing br) :
    ∃ r, mackCoreR br (floatRd 53) alpha t ind = .ok r ∧ (∀ j < n - 1, r.ldfs.iloc j = .fin (q j : K)) ∧
      r.mse = List.replicate n (.fin 0) ∧ r.totMse = .fin 0 := by
  obtain ⟨r, h1, h2, _, _, _, h3, h4⟩ := C152_partial h hn hi hw hk (floatRd_exactInt (K := K) (p := 53) (by norm_num)) hb
  exact ⟨r, h1, h2, h3, h4⟩

/-! ### rows that do not decrease -/

theorem mackFR_one (hm : Spec.MonoRd rd N) (hN : 1 ≤ N) (hb : Spec.Bracketing br) (hp : Spec.Positive n c)
    (hw : Spec.Kept n w) (hinc : ∀ i j, i + j + 1 < n → c i j ≤ c i (j + 1)) (alpha : ℕ) {j : ℕ} (hj : j < n - 1) :
    1 ≤ Spec.mackFR br rd alpha n c w j := by
  have hW := mackWR_pos (br := br) hm hb hp hw.weights alpha hj
  have h1 := hm.one hN
  unfold Spec.mackFR
  conv_lhs => rw [← h1]
  apply hm.mono
  rw [one_le_div hW]
  unfold Spec.mackWR
  apply sumR_mono hm hb
  intro i hi
  have hlt := (mem_incl.1 hi).1
  unfold Spec.wR
  rw [hw.w_one hi]
  apply hm.mono
  have hr : 1 ≤ rd (rd (c i (j + 1) / c i j) * 1) := by
    rw [mul_one, hm.idem]
    conv_lhs => rw [← h1]
    apply hm.mono
    rw [one_le_div (hp _ _ (by omega))]
    exact hinc i j hlt
  have hp0 : 0 ≤ rd (c i j ^ alpha) := (hm.pos _ (pow_pos (hp _ _ (by omega)) _)).le
  exact mul_le_mul_of_nonneg_right hr hp0

/-- **C151, rows that do not decrease.** On a positive staircase with evenly spaced labels whose amounts are numbers of
the format and do not decrease along the rows, whatever link ratios are excluded as long as one is kept per period, the
point estimates of Mack chain ladder keep the order facts of `C143`: factors at least one, no ultimate below its latest
amount, no negative reserve, emergence in (0, 1], a squared triangle with rows that do not decrease, and an oldest
origin exactly at its ultimate. -/
theorem C151_increasing (h : Spec.Stair t n c) (hp : Spec.Positive n c) (hn : 4 ≤ n) (hi : IndW t ind n w)
    (hw : Spec.Kept n w) (he : Spec.EvenlySpaced t.devs) (hm : Spec.MonoRd rd N) (hN : n ≤ N)
    (hb : Spec.Bracketing br) (hfix : ∀ i j, i + j < n → rd (c i j) = c i j)
    (hinc : ∀ i j, i + j + 1 < n → c i j ≤ c i (j + 1)) (alpha : ℕ) :
    ∃ r, mackCoreR br rd alpha t ind = .ok r ∧ Spec.InOrder n c 1 r.base := by
  obtain ⟨r, b, lab, hr, p⟩ := mackCoreR_stair br rd h hp.ne_zero hi hn alpha
    (fun j hj => (mackWR_pos hm hb hp hw.weights alpha hj).ne')
  obtain ⟨_, hdevs⟩ := even_tailLabel h (by omega) he p.tailLab
  refine ⟨r, hr, ?_⟩
  rw [p.base_eq]
  have hs := p.spec
  have hf := p.spec.factors
  refine inOrder_core h hp (by omega) hm hN hb hfix hinc (f := Spec.mackAllR br rd alpha n c w) ?_ ?_ ?_ ?_ ?_ ?_
  · intro j
    unfold Spec.mackAllR Spec.withTail
    split
    · exact mackFR_one hm (by omega) hb hp hw hinc alpha (by omega)
    · exact le_rfl
  · intro j
    unfold Spec.mackAllR Spec.withTail
    split
    · exact hm.idem _
    · exact hm.one (by omega)
  · unfold Spec.mackAllR Spec.withTail
    rw [if_neg (by omega)]
  · rw [hf, p.factors, mackSer_fst h (by omega), ← h.take_devs, hdevs]
  · rw [hf, p.factors]; exact mackSer_snd h (by omega) _ _
  · rw [hf]; exact hs

/-- Beside `C151`: total and mean squared errors of the example triangle with eight binary digits. -/
example : (mackCoreR (fun n => seqTree (n - 1)) (floatRd 8) 1 exTri exTri.a2aind0).map MackCore.errors =
    .ok [.fin 644, .fin 0, .fin (53 / 4), .fin (135 / 2), .fin 476] := by decide +kernel

/-- **C151** in double precision. -/
theorem C151_float64 [FloorRing K] (h : Spec.Stair t n c) (hp : Spec.Positive n c) (hn : 4 ≤ n) (hi : IndW t ind n w)
    (hw : Spec.Weights n w) (hb : Spec.Bracketing br) (alpha : ℕ) :
    ∃ r, mackCoreR br (floatRd 53) alpha t ind = .ok r ∧ Spec.MackInOrder n r :=
  C151_order (floatRd_monoRd (by norm_num)) hb hp hw h hi hn alpha

end Trikit
