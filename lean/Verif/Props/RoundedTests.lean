import Verif.RoundedTests
import Verif.Props.Tests
import Verif.Props.RoundedCal
import Verif.Props.RoundedMackSumm
import Mathlib.Analysis.Real.Pi.Bounds

/-! # The two tests of the Mack result in rounded arithmetic (C193, C194) -/

set_option linter.unusedSectionVars false

namespace Trikit

section generic
variable {K : Type} [Field K] [LinearOrder K] [IsStrictOrderedRing K]
variable {t : Tri K} {n M : ℕ} {c : ℕ → ℕ → K} {rd : K → K} {br : ℕ → SumTree} {u : K} {sq : Num K → Num K} {g : K → K}

/-- Rounding to the nearest number, ties to even, does not depend on the sign. -/
theorem rhe_neg [FloorRing K] (x : K) : roundHalfEven (-x) = -roundHalfEven x := by
  by_cases hz : x - (⌊x⌋ : K) = 0
  · have hx : x = (⌊x⌋ : K) := by linarith
    have hf : ⌊-x⌋ = -⌊x⌋ := by
      rw [Int.floor_eq_iff]; push_cast; constructor <;> linarith
    unfold roundHalfEven
    rw [hf, if_pos (by push_cast; linarith), if_pos (by linarith)]
  · have h1 := Int.floor_le x
    have h2 := Int.lt_floor_add_one x
    have h3 : 0 < x - (⌊x⌋ : K) := lt_of_le_of_ne (by linarith) (Ne.symm hz)
    have hf : ⌊-x⌋ = -⌊x⌋ - 1 := by
      rw [Int.floor_eq_iff]; push_cast; constructor <;> linarith
    unfold roundHalfEven
    rw [hf]
    push_cast
    rcases lt_trichotomy (x - (⌊x⌋ : K)) (1 / 2) with h | h | h
    · rw [if_neg (by linarith), if_pos (by linarith), if_pos h]; ring
    · rcases Int.emod_two_eq_zero_or_one ⌊x⌋ with e | e
      · rw [if_neg (by linarith), if_neg (by linarith), if_neg (show ¬(-⌊x⌋ - 1) % 2 = 0 by omega), if_neg (by linarith),
          if_neg (by linarith), if_pos e]; ring
      · rw [if_neg (by linarith), if_neg (by linarith), if_pos (show (-⌊x⌋ - 1) % 2 = 0 by omega), if_neg (by linarith),
          if_neg (by linarith), if_neg (by omega)]; ring
    · rw [if_pos (by linarith), if_neg (by linarith), if_pos h]; ring

theorem floatRd_neg [FloorRing K] (p : ℕ) (x : K) : floatRd p (-x) = -floatRd p x := by
  have e : floatUlp p (-x) = floatUlp p x := by unfold floatUlp; rw [abs_neg]
  unfold floatRd
  rw [e, neg_div, rhe_neg]
  push_cast; ring

/-- The variance of the statistic is a whole number of at most `n²` and positive. -/
theorem devpCorrVar_nat (hc : t.nc = n) (hn : 4 ≤ n) :
    ∃ m : ℕ, 1 ≤ m ∧ m ≤ n * n ∧ devpCorrVar t = (m : K) ∧ 2 * m = (n - 2) * (n - 3) := by
  obtain ⟨k, rfl⟩ : ∃ k, n = k + 4 := ⟨n - 4, by omega⟩
  obtain ⟨m, hm⟩ : ∃ m, (k + 2) * (k + 1) = 2 * m := by
    rcases Nat.even_or_odd' k with ⟨r, e | e⟩
    · exact ⟨(r + 1) * (k + 1), by rw [e]; ring⟩
    · exact ⟨(k + 2) * (r + 1), by rw [e]; ring⟩
  refine ⟨m, by nlinarith, by nlinarith, ?_, ?_⟩
  · unfold devpCorrVar
    rw [hc]
    have : (((k + 4 : ℕ) : Int) - 2) * (((k + 4 : ℕ) : Int) - 3) = 2 * (m : ℕ) := by
      push_cast; zify at hm; linarith
    rw [this]; push_cast
    rw [mul_div_cancel_left₀ _ (by norm_num)]
  · rw [show k + 4 - 2 = k + 2 by omega, show k + 4 - 3 = k + 1 by omega, hm]

/-- Value of the test in rounded arithmetic. -/
theorem devpCorrTestR_value (hm : Spec.MonoRd rd M) (hM : n * n ≤ M) (hneg : ∀ x, rd (-x) = -rd x)
    (hq : Spec.SqrtLike sq g) (hg : ∀ x, 0 < x → 0 < g x) (hc : t.nc = n) (hn : 4 ≤ n) {T : K}
    (hT : spearmanTotalR br rd t = .ok (.fin T)) (z : K) :
    devpCorrTestR br rd sq t z =
      .ok ((.fin (-rd (z / g (devpCorrVar t))), .fin (rd (z / g (devpCorrVar t)))), .fin T) := by
  obtain ⟨m, h1, h2, h3, -⟩ := devpCorrVar_nat (K := K) hc hn
  have hpos : (0 : K) < m := by exact_mod_cast h1
  unfold devpCorrTestR
  rw [h3, hm.nat m (h2.trans hM), hq.fin _ hpos.le, hT]
  have hgp := hg _ hpos
  simp only [bind, Except.bind]
  unfold Num.divR
  rw [Num.fin_div _ _ hgp.ne', Num.fin_div _ _ hgp.ne']
  simp only [Num.rounded]
  rw [neg_div, hneg]

/-- **C193**: the interval is symmetric about 0 without any error, wider for larger `z`, and the statistic is finite and
at most 1. -/
theorem C193_interval (hr : Spec.RelErr rd u) (hm : Spec.MonoRd rd M) (hx : Spec.ExactInt rd M) (hM : n * n ≤ M)
    (hneg : ∀ x, rd (-x) = -rd x) (hb : Spec.Bracketing br) (hq : Spec.SqrtLike sq g) (hg : ∀ x, 0 < x → 0 < g x)
    (h : Spec.Stair t n c) (hc : ∀ i j, i + j < n → 0 < c i j) (hn : 4 ≤ n) (hk : 2 * (((n + 3 : ℕ) : K) * u) ≤ 1)
    {z z' : K} (hz : 0 ≤ z) (hzz : z ≤ z') :
    ∃ b b' x, devpCorrTestR br rd sq t z = .ok ((.fin (-b), .fin b), .fin x) ∧
      devpCorrTestR br rd sq t z' = .ok ((.fin (-b'), .fin b'), .fin x) ∧ 0 ≤ b ∧ b ≤ b' ∧
      -1 - 10 * n * u ≤ x ∧ x ≤ 1 := by
  obtain ⟨T, hT, hT1, hT2⟩ := (C190_partial hr hm hx hM hb h hc hn hk).2
  obtain ⟨m, h1, -, h3, -⟩ := devpCorrVar_nat (K := K) h.nc hn
  have hpos : 0 < g (devpCorrVar t) := hg _ (by rw [h3]; exact_mod_cast h1)
  refine ⟨_, _, T, devpCorrTestR_value hm hM hneg hq hg h.nc hn hT z, devpCorrTestR_value hm hM hneg hq hg h.nc hn hT z',
    ?_, hm.mono (div_le_div_of_nonneg_right hzz hpos.le), hT1, hT2⟩
  have := hm.mono (div_nonneg hz hpos.le)
  rwa [hm.zero] at this

/-- **C194**: the interval contains the centre, and larger absolute normal quantiles give wider intervals. -/
theorem C194_nested {big : ℕ → ℕ → K} (hm : Spec.MonoRd rd M) (hq : Spec.SqrtLike sq g) {Z : ℕ} {E V : K}
    (hT : cyTotalsR br rd big t = .ok (Z, .fin E, .fin V)) (hE : rd E = E) (hV : 0 ≤ V) {q q' : K} (hqq : |q'| ≤ |q|) :
    ∃ lo hi lo' hi', cyTestR br rd big sq t q = .ok ((.fin lo, .fin hi), Z) ∧
      cyTestR br rd big sq t q' = .ok ((.fin lo', .fin hi'), Z) ∧ lo ≤ lo' ∧ lo' ≤ E ∧ E ≤ hi' ∧ hi' ≤ hi := by
  have key : ∀ q, cyTestR br rd big sq t q =
      .ok ((.fin (rd (E - rd (|q| * g V))), .fin (rd (E + rd (|q| * g V)))), Z) := by
    intro q
    unfold cyTestR
    rw [hT]
    simp only [bind, Except.bind]
    rw [hq.fin V hV]
    unfold Num.mulR Num.subR Num.addR
    rw [Num.fin_mul]
    simp only [Num.rounded]
    rw [Num.fin_sub, Num.fin_add]
  have hg := Spec.SqrtLike.nonneg hq hV
  have h1 : rd (|q'| * g V) ≤ rd (|q| * g V) := hm.mono (mul_le_mul_of_nonneg_right hqq hg)
  have h0 : 0 ≤ rd (|q'| * g V) := by
    have := hm.mono (mul_nonneg (abs_nonneg q') hg)
    rwa [hm.zero] at this
  refine ⟨_, _, _, _, key q, key q', hm.mono (by linarith), ?_, ?_, hm.mono (by linarith)⟩
  · conv_rhs => rw [← hE]
    exact hm.mono (by linarith)
  · conv_lhs => rw [← hE]
    exact hm.mono (by linarith)

end generic

/-- A quotient by a root with relative error `u`, rounded. -/
theorem rd_div_err {rd : ℝ → ℝ} {u : ℝ} (hr : Spec.RelErr rd u) (hu : 3 * u ≤ 1) {z s s' : ℝ} (hz : 0 ≤ z) (hs : 0 < s)
    (he : |s' - s| ≤ u * s) : |rd (z / s') - z / s| ≤ 3 * u * (z / s) := by
  have u0 := hr.nonneg
  rw [abs_le] at he
  have hs' : (1 - u) * s ≤ s' := by linarith [he.1]
  have hpos : 0 < s' := lt_of_lt_of_le (mul_pos (by linarith) hs) hs'
  have hq : 0 ≤ z / s := div_nonneg hz hs.le
  have e1 : |z / s' - z / s| * (1 - u) ≤ u * (z / s) := by
    have : z / s' - z / s = (z / s) * ((s - s') / s') := by field_simp
    rw [this, abs_mul, abs_of_nonneg hq, abs_div, abs_of_pos hpos, mul_assoc, mul_comm u]
    refine mul_le_mul_of_nonneg_left ?_ hq
    rw [div_mul_eq_mul_div, div_le_iff₀ hpos]
    have : |s - s'| ≤ u * s := by rw [abs_le]; constructor <;> linarith
    nlinarith
  have e2 := hr.err (z / s')
  have hq' : 0 ≤ z / s' := div_nonneg hz hpos.le
  rw [abs_of_nonneg hq'] at e2
  have e3 : z / s' ≤ z / s + |z / s' - z / s| := by linarith [le_abs_self (z / s' - z / s)]
  have e4 : |rd (z / s') - z / s| ≤ |rd (z / s') - z / s'| + |z / s' - z / s| := abs_sub_le _ _ _
  set D := |z / s' - z / s|
  have hD : 0 ≤ D := abs_nonneg _
  set Q := z / s
  have e5 : D ≤ 3 / 2 * u * Q := by nlinarith
  nlinarith

/-- Square root of numpy: correctly rounded. -/
noncomputable def Spec.sqrtR (rd : ℝ → ℝ) (x : Num ℝ) : Num ℝ := (Num.sqrt x).rounded rd

theorem sqrtR_like {rd : ℝ → ℝ} (h0 : rd 0 = 0) (hm : Monotone rd) : Spec.SqrtLike (Spec.sqrtR rd) (fun x => rd (Real.sqrt x)) := by
  refine ⟨fun x hx => ?_, by simpa using h0, fun x y _ hxy => hm (Real.sqrt_le_sqrt hxy)⟩
  unfold Spec.sqrtR
  rw [Num.sqrt_fin hx]; rfl

section real
variable {t : Tri ℝ} {n M : ℕ} {c : ℕ → ℕ → ℝ} {rd : ℝ → ℝ} {br : ℕ → SumTree} {u : ℝ}

/-- **C193**: bounds and statistic are accurate when different link ratios stay different, and then the decision is that of
exact arithmetic unless the statistic is within rounding errors of a bound. -/
theorem C193_partial (hr : Spec.RelErr rd u) (hm : Spec.MonoRd rd M) (hM : n * n ≤ M) (hneg : ∀ x, rd (-x) = -rd x)
    (hb : Spec.Bracketing br) (h : Spec.Stair t n c) (hc : ∀ i j, i + j < n → 0 < c i j) (hn : 4 ≤ n)
    (hk : 2 * (((n + 3 : ℕ) : ℝ) * u) ≤ 1)
    (ha : ∀ d < n - 1, Spec.ApartAt u (n - 1 - d) (fun i => c i (d + 1) / c i d)) {z : ℝ} (hz : 0 ≤ z) :
    ∃ b b' x x', devpCorrTest t z = .ok ((.fin (-b), .fin b), .fin x) ∧
      devpCorrTestR br rd (Spec.sqrtR rd) t z = .ok ((.fin (-b'), .fin b'), .fin x') ∧
      |b' - b| ≤ 3 * u * b ∧ |x' - x| ≤ 10 * n * u ∧
      (10 * n * u + 3 * u * b < |(|x| - b)| → (-b' ≤ x' ∧ x' ≤ b' ↔ -b ≤ x ∧ x ≤ b)) := by
  have u0 := hr.nonneg
  have hn4 : (4 : ℝ) ≤ n := by exact_mod_cast hn
  have hu : 3 * u ≤ 1 := by push_cast at hk; nlinarith
  obtain ⟨x, x', hx, hx', hxx⟩ := (C189_partial hr hb h hc hn hk ha).2
  obtain ⟨m, h1, -, h3, -⟩ := devpCorrVar_nat (K := ℝ) h.nc hn
  have hpos : 0 < devpCorrVar t := by rw [h3]; exact_mod_cast h1
  have hs : 0 < Real.sqrt (devpCorrVar t) := Real.sqrt_pos.2 hpos
  have e := devpCorrTestR_value hm hM hneg (sqrtR_like hm.zero hm.mono) (fun y hy => hm.pos _ (Real.sqrt_pos.2 hy))
    h.nc hn hx' z
  have herr := rd_div_err hr hu hz hs (s' := rd (Real.sqrt (devpCorrVar t)))
    (by have := hr.err (Real.sqrt (devpCorrVar t)); rwa [abs_of_pos hs] at this)
  have hb0 : 0 ≤ z / Real.sqrt (devpCorrVar t) := div_nonneg hz hs.le
  refine ⟨z / Real.sqrt (devpCorrVar t), _, x, x', ?_, e, herr, hxx, ?_⟩
  · unfold devpCorrTest
    rw [hx, Num.sqrt_fin hpos.le]
    simp only [bind, Except.bind]
    rw [Num.fin_div _ _ hs.ne', Num.fin_div _ _ hs.ne', neg_div]
  · generalize z / Real.sqrt (devpCorrVar t) = b at herr hb0
    generalize rd (z / rd (Real.sqrt (devpCorrVar t))) = b' at herr
    intro hmar
    rw [← abs_le, ← abs_le]
    have h1 : |(|x'| - |x|)| ≤ 10 * n * u := (abs_abs_sub_abs_le _ _).trans hxx
    rw [abs_le] at h1 herr
    rcases lt_abs.1 hmar with h2 | h2
    · exact ⟨fun h4 => by exfalso; linarith [h1.1, herr.2], fun h4 => by
        exfalso; nlinarith [mul_nonneg (mul_nonneg (by norm_num : (0:ℝ) ≤ 10) (by linarith : (0:ℝ) ≤ n)) u0, mul_nonneg u0 hb0]⟩
    · exact ⟨fun _ => by nlinarith [mul_nonneg (mul_nonneg (by norm_num : (0:ℝ) ≤ 10) (by linarith : (0:ℝ) ≤ n)) u0, mul_nonneg u0 hb0],
        fun _ => by linarith [h1.2, herr.1]⟩

/-- **C194**: when all link ratios get the assignments of exact arithmetic, statistic and centre of the interval are those of
exact arithmetic, the bounds differ by rounding errors, and the decision is the same unless the statistic is within rounding
errors of a bound. -/
theorem C194_accuracy {p N : ℕ} {big : ℕ → ℕ → ℝ} (hp : 3 ≤ p) (hb : Spec.Bracketing br) (h : Spec.Stair t n c)
    (hc : ∀ i j, i + j < n → c i j ≠ 0) (hN : t.a2a.nc ≤ N)
    (h1 : N ^ 3 * 4 ^ (N - 1) ≤ 2 ^ p) (h2 : (N - 1) / 2 < 20) (h3 : (N - 1).descFactorial ((N - 1) / 2) ≤ 2 ^ p)
    (h4 : (N - 1).descFactorial ((N - 1) / 2) ≤ 10 ^ 50)
    (hA : ∀ i j, i < t.a2a.nr → j < t.a2a.nc → a2aAssignmentR (floatRd p) t i j = a2aAssignment t i j)
    {rows : List (CyRow ℝ)} (hrow : cyTable t = .ok rows) (q : ℝ) :
    ∃ E d lo hi Z, cyTest t q = .ok ((.fin (E - d), .fin (E + d)), Z) ∧
      cyTestR br (floatRd p) big (Spec.sqrtR (floatRd p)) t q = .ok ((.fin lo, .fin hi), Z) ∧
      |lo - (E - d)| ≤ (2 : ℝ) ^ (-(p : ℤ)) * (E + 4 * d) ∧ |hi - (E + d)| ≤ (2 : ℝ) ^ (-(p : ℤ)) * (E + 4 * d) ∧
      ((2 : ℝ) ^ (-(p : ℤ)) * (E + 4 * d) < |(|(Z : ℝ) - E| - d)| →
        (lo ≤ Z ∧ (Z : ℝ) ≤ hi ↔ E - d ≤ Z ∧ (Z : ℝ) ≤ E + d)) := by
  have hr : Spec.RelErr (floatRd p : ℝ → ℝ) _ := floatRd_relErr (by omega)
  have hm : Spec.MonoRd (floatRd p : ℝ → ℝ) _ := floatRd_monoRd (by omega)
  have hu : 8 * (2 : ℝ) ^ (-(p : ℤ)) ≤ 1 := by
    rw [zpow_neg, zpow_natCast, ← div_eq_mul_inv, div_le_one (by positivity)]
    calc (8 : ℝ) = 2 ^ 3 := by norm_num
      _ ≤ 2 ^ p := pow_le_pow_right₀ (by norm_num) hp
  obtain ⟨E, V, hT, hE, hV⟩ := C88_totals h hc hrow
  have hTR := (C191_same (big := big) (by omega) hb hN h1 h2 h3 h4 hA).2
  rw [hT] at hTR
  set Z := (rows.map CyRow.Z).sum
  set u := (2 : ℝ) ^ (-(p : ℤ))
  set rd : ℝ → ℝ := floatRd p
  have u0 := hr.nonneg
  set d := |q| * Real.sqrt V with hd
  have hd0 : 0 ≤ d := mul_nonneg (abs_nonneg _) (Real.sqrt_nonneg _)
  have hh : |rd (|q| * rd (Real.sqrt V)) - d| ≤ (2 * u + u ^ 2) * d := by
    have a1 := hr.err (Real.sqrt V)
    rw [abs_of_nonneg (Real.sqrt_nonneg _)] at a1
    have a2 := hr.err (|q| * rd (Real.sqrt V))
    have a3 : |(|q| * rd (Real.sqrt V)) - d| ≤ u * d := by
      rw [hd, ← mul_sub, abs_mul, abs_abs]
      calc |q| * |rd √V - √V| ≤ |q| * (u * √V) := mul_le_mul_of_nonneg_left a1 (abs_nonneg _)
        _ = u * (|q| * √V) := by ring
    have a4 : |(|q| * rd (Real.sqrt V))| ≤ d + u * d := by
      have := abs_sub_abs_le_abs_sub (|q| * rd (Real.sqrt V)) d
      rw [abs_of_nonneg hd0] at this; linarith
    have a5 := abs_sub_le (rd (|q| * rd (Real.sqrt V))) (|q| * rd (Real.sqrt V)) d
    nlinarith
  set hf := rd (|q| * rd (Real.sqrt V)) with hhf
  have hlo : |rd (E - hf) - (E - d)| ≤ u * (E + 4 * d) := by
    have b1 := hr.err (E - hf)
    have b2 : |E - hf| ≤ E + d + (2 * u + u ^ 2) * d := by
      rw [abs_le] at hh ⊢; constructor <;> nlinarith [mul_nonneg u0 hd0, mul_nonneg (sq_nonneg u) hd0]
    have b3 : |(E - hf) - (E - d)| ≤ (2 * u + u ^ 2) * d := by
      rw [show (E - hf) - (E - d) = -(hf - d) by ring, abs_neg]; exact hh
    have b4 := abs_sub_le (rd (E - hf)) (E - hf) (E - d)
    have b5 := mul_le_mul_of_nonneg_left b2 u0
    have b6 : (3 * u + u ^ 2) * (u * d) ≤ 1 * (u * d) :=
      mul_le_mul_of_nonneg_right (by nlinarith) (mul_nonneg u0 hd0)
    nlinarith
  have hhi : |rd (E + hf) - (E + d)| ≤ u * (E + 4 * d) := by
    have b1 := hr.err (E + hf)
    have b2 : |E + hf| ≤ E + d + (2 * u + u ^ 2) * d := by
      rw [abs_le] at hh ⊢; constructor <;> nlinarith [mul_nonneg u0 hd0, mul_nonneg (sq_nonneg u) hd0]
    have b3 : |(E + hf) - (E + d)| ≤ (2 * u + u ^ 2) * d := by
      rw [show (E + hf) - (E + d) = hf - d by ring]; exact hh
    have b4 := abs_sub_le (rd (E + hf)) (E + hf) (E + d)
    have b5 := mul_le_mul_of_nonneg_left b2 u0
    have b6 : (3 * u + u ^ 2) * (u * d) ≤ 1 * (u * d) :=
      mul_le_mul_of_nonneg_right (by nlinarith) (mul_nonneg u0 hd0)
    nlinarith
  refine ⟨E, d, rd (E - hf), rd (E + hf), Z, ?_, ?_, hlo, hhi, ?_⟩
  · unfold cyTest
    rw [hT]
    simp only [bind, Except.bind]
    rw [Num.sqrt_fin hV, Num.fin_mul, Num.fin_sub, Num.fin_add]
  · unfold cyTestR
    rw [hTR]
    simp only [bind, Except.bind]
    rw [(sqrtR_like hm.zero hm.mono).fin V hV]
    unfold Num.mulR Num.subR Num.addR
    rw [Num.fin_mul]
    simp only [Num.rounded]
    rw [Num.fin_sub, Num.fin_add]
  · clear_value hf d Z u
    generalize rd (E - hf) = lo at *
    generalize rd (E + hf) = hi at *
    intro hmar
    rw [abs_le] at hlo hhi
    have hpos : 0 ≤ u * (E + 4 * d) := mul_nonneg u0 (by linarith)
    have e1 : (E - d ≤ (Z : ℝ) ∧ (Z : ℝ) ≤ E + d) ↔ |(Z : ℝ) - E| ≤ d := by
      rw [abs_le]; constructor <;> rintro ⟨_, _⟩ <;> constructor <;> linarith
    rw [e1]
    rcases lt_abs.1 hmar with h5 | h5
    · refine ⟨fun ⟨g1, g2⟩ => ?_, fun g => by linarith⟩
      have : |(Z : ℝ) - E| ≤ d + u * (E + 4 * d) := by
        rw [abs_le]; constructor <;> linarith [hlo.1, hhi.2]
      linarith
    · refine ⟨fun _ => by linarith, fun _ => ?_⟩
      have : |(Z : ℝ) - E| < d - u * (E + 4 * d) := by linarith
      rw [abs_lt] at this
      constructor <;> linarith [hlo.2, hhi.1, this.1, this.2]

/-- **C194** in double precision for up to 21 periods. -/
theorem C194_double {big : ℕ → ℕ → ℝ} (hb : Spec.Bracketing br) (h : Spec.Stair t n c)
    (hc : ∀ i j, i + j < n → c i j ≠ 0) (hn : n ≤ 21)
    (hA : ∀ i j, i < t.a2a.nr → j < t.a2a.nc → a2aAssignmentR (floatRd 53) t i j = a2aAssignment t i j)
    {rows : List (CyRow ℝ)} (hrow : cyTable t = .ok rows) (q : ℝ) :
    ∃ E d lo hi Z, cyTest t q = .ok ((.fin (E - d), .fin (E + d)), Z) ∧
      cyTestR br (floatRd 53) big (Spec.sqrtR (floatRd 53)) t q = .ok ((.fin lo, .fin hi), Z) ∧
      |lo - (E - d)| ≤ (E + 4 * d) / 2 ^ 53 ∧ |hi - (E + d)| ≤ (E + 4 * d) / 2 ^ 53 ∧
      ((E + 4 * d) / 2 ^ 53 < |(|(Z : ℝ) - E| - d)| → (lo ≤ Z ∧ (Z : ℝ) ≤ hi ↔ E - d ≤ Z ∧ (Z : ℝ) ≤ E + d)) := by
  have hnc : t.a2a.nc ≤ 20 := by
    rw [h.a2a_nc hc]; omega
  have := C194_accuracy (p := 53) (N := 20) (big := big) (by norm_num) hb h hc hnc (by norm_num) (by norm_num)
    (by decide +kernel) (by decide +kernel) hA hrow q
  have e : ∀ x : ℝ, (2 : ℝ) ^ (-((53 : ℕ) : ℤ)) * x = x / 2 ^ 53 := by
    intro x; rw [zpow_neg, zpow_natCast, inv_mul_eq_div]
  simpa only [e] using this

end real

/-! ### the default level -/

open MeasureTheory ProbabilityTheory Set

theorem gauss_integral (a b : ℝ) :
    (gaussianReal 0 1).real (Icc a b) = ∫ x in Icc a b, gaussianPDFReal 0 1 x := by
  unfold Measure.real
  rw [gaussianReal_apply_eq_integral 0 one_ne_zero, ENNReal.toReal_ofReal]
  exact integral_nonneg (fun x => gaussianPDFReal_nonneg 0 1 x)

theorem gauss_pdf (x : ℝ) : gaussianPDFReal 0 1 x = Real.exp (-(x ^ 2 / 2)) / Real.sqrt (2 * Real.pi) := by
  unfold gaussianPDFReal
  simp only [NNReal.coe_one, mul_one, sub_zero]
  rw [div_eq_mul_inv, mul_comm]
  congr 2
  ring

theorem gauss_le {a b : ℝ} (hab : a ≤ b) : (gaussianReal 0 1).real (Icc a b) ≤ (b - a) / Real.sqrt (2 * Real.pi) := by
  rw [gauss_integral]
  have h : ∫ x in Icc a b, gaussianPDFReal 0 1 x ≤ ∫ _ in Icc a b, 1 / Real.sqrt (2 * Real.pi) := by
    refine setIntegral_mono_on (integrable_gaussianPDFReal 0 1).integrableOn
      (integrableOn_const (by simp)) measurableSet_Icc (fun x _ => ?_)
    rw [gauss_pdf]
    refine div_le_div_of_nonneg_right ?_ (Real.sqrt_nonneg _)
    exact Real.exp_le_one_iff.2 (by nlinarith [sq_nonneg x])
  refine h.trans (le_of_eq ?_)
  rw [setIntegral_const, Measure.real, Real.volume_Icc, ENNReal.toReal_ofReal (by linarith), smul_eq_mul]
  ring

theorem gauss_ge {a b : ℝ} (ha : 0 ≤ a) (hab : a ≤ b) :
    (b - a) * Real.exp (-(b ^ 2 / 2)) / Real.sqrt (2 * Real.pi) ≤ (gaussianReal 0 1).real (Icc a b) := by
  rw [gauss_integral]
  have h : ∫ _ in Icc a b, Real.exp (-(b ^ 2 / 2)) / Real.sqrt (2 * Real.pi) ≤ ∫ x in Icc a b, gaussianPDFReal 0 1 x := by
    refine setIntegral_mono_on (integrableOn_const (by simp)) (integrable_gaussianPDFReal 0 1).integrableOn measurableSet_Icc (fun x hx => ?_)
    rw [gauss_pdf]
    refine div_le_div_of_nonneg_right ?_ (Real.sqrt_nonneg _)
    rw [Real.exp_le_exp]
    nlinarith [hx.1, hx.2]
  refine le_trans (le_of_eq ?_) h
  rw [setIntegral_const, Measure.real, Real.volume_Icc, ENNReal.toReal_ofReal (by linarith), smul_eq_mul]
  ring

/-- The bound of the default level `p = 0.5` is between 1/2 and 1. -/
theorem default_level {z : ℝ} (hz : Spec.stdCdf z - Spec.stdCdf (-z) = 1 / 2) : 1 / 2 < z ∧ z < 1 := by
  have hpi := Real.pi_gt_three
  have hpi' := Real.pi_lt_d2
  have hs : 0 < Real.sqrt (2 * Real.pi) := Real.sqrt_pos.2 (by linarith)
  have hs2 := Real.sq_sqrt (show 0 ≤ 2 * Real.pi by linarith)
  rw [stdCdf_neg] at hz
  constructor
  · by_contra hneg
    push Not at hneg
    have g1 := stdCdf_strictMono.monotone hneg
    have g2 := stdCdf_sub (show (0 : ℝ) ≤ 1 / 2 by norm_num)
    have g3 := gauss_le (show (0 : ℝ) ≤ 1 / 2 by norm_num)
    rw [g2, stdCdf_zero, le_div_iff₀ hs] at g3
    nlinarith
  · by_contra hneg
    push Not at hneg
    have g1 := stdCdf_strictMono.monotone hneg
    have g2 := stdCdf_sub (show (0 : ℝ) ≤ 1 / 2 by norm_num)
    have g2' := stdCdf_sub (show (1 / 2 : ℝ) ≤ 1 by norm_num)
    have g3 := gauss_ge (le_refl (0 : ℝ)) (show (0 : ℝ) ≤ 1 / 2 by norm_num)
    have g4 := gauss_ge (show (0 : ℝ) ≤ 1 / 2 by norm_num) (show (1 / 2 : ℝ) ≤ 1 by norm_num)
    rw [g2, stdCdf_zero, div_le_iff₀ hs] at g3
    rw [g2', div_le_iff₀ hs] at g4
    have x1 := Real.add_one_le_exp (-((1 / 2 : ℝ) ^ 2 / 2))
    have x2 := Real.add_one_le_exp (-((1 : ℝ) ^ 2 / 2))
    nlinarith

/-! ### violation and examples -/

/-- **C193 (violation)**: the statistic is -1 and rejects for every bound below 1, for instance that of the default level;
in double precision it is 1/2. -/
theorem C193_fails {z : ℚ} (h1 : 1 / 2 ≤ z) (h2 : z < 1) (sq : Num ℚ → Num ℚ) (hq : sq (.fin 1) = .fin 1) :
    (∃ b x, devpCorrTestR npTree (floatRd 53) sq (stairTri 4 closeVals) z = .ok ((.fin (-b), .fin b), .fin x) ∧
      -b ≤ x ∧ x ≤ b) ∧
    ∃ b x, devpCorrTestR npTree id sq (stairTri 4 closeVals) z = .ok ((.fin (-b), .fin b), .fin x) ∧ ¬(-b ≤ x ∧ x ≤ b) := by
  have hv : devpCorrVar (stairTri 4 closeVals) = 1 := by decide +kernel
  have ht : spearmanTotalR npTree (floatRd 53) (stairTri 4 closeVals) = .ok (.fin (1 / 2)) := by
    have := C189_fails.1
    revert this
    cases spearmanTotalR npTree (floatRd 53) (stairTri 4 closeVals) <;> simp [Except.toOption]
  have ht' : spearmanTotalR npTree id (stairTri 4 closeVals) = .ok (.fin (-1)) := by
    rw [(spearmanR_id npTree_bracketing _).2]
    have := C189_fails.2
    revert this
    cases spearmanTotal (stairTri 4 closeVals) <;> simp [Except.toOption]
  have hone : floatRd 53 (1 : ℚ) = 1 := by simpa using (floatRd_monoRd (K := ℚ) (p := 53) (by norm_num)).nat 1 (by norm_num)
  have hhalf : floatRd 53 (1 / 2 : ℚ) = 1 / 2 := by decide +kernel
  have hz := floatRd_mono (K := ℚ) (p := 53) (by norm_num) h1
  rw [hhalf] at hz
  refine ⟨⟨floatRd 53 z, 1 / 2, ?_, by linarith, hz⟩, z, -1, ?_, fun h => by linarith [h.1]⟩
  · unfold devpCorrTestR
    rw [hv, hone, hq, ht]
    simp only [bind, Except.bind]
    unfold Num.divR
    rw [Num.fin_div _ _ one_ne_zero, Num.fin_div _ _ one_ne_zero, div_one, div_one]
    simp only [Num.rounded, floatRd_neg]
  · unfold devpCorrTestR
    rw [hv, ht', id, hq]
    simp only [bind, Except.bind]
    unfold Num.divR
    rw [Num.fin_div _ _ one_ne_zero, Num.fin_div _ _ one_ne_zero, div_one, div_one]
    simp only [Num.rounded, id]

/-- Without rounding the functions are those of exact arithmetic. -/
theorem testsR_id {br : ℕ → SumTree} (hb : Spec.Bracketing br) (t : Tri ℝ) (z : ℝ) : devpCorrTestR br id Num.sqrt t z = devpCorrTest t z := by
  unfold devpCorrTestR devpCorrTest
  rw [(spearmanR_id hb t).2, Num.divR_id, id]

example : (devpCorrTestR npTree (floatRd 53) (fun v => v) exTri (1 / 3 : ℚ)).toOption =
    some ((.fin (-(6004799503160661 / 2 ^ 54)), .fin (6004799503160661 / 2 ^ 54)), .fin 1) := by decide +kernel

example : (cyTestR npTree (floatRd 53) (fun _ _ => 0) (fun v => v) (stairTri 13 oppVals) 2).toOption =
    some ((.fin 0, .fin 10), 5) := by decide +kernel

end Trikit
