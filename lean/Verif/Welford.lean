import Verif.RoundedBootSumm
import Verif.RoundedError
import Verif.Props.RoundedMack
import Mathlib.Algebra.BigOperators.Group.Finset.Basic
import Mathlib.Algebra.Order.BigOperators.Group.Finset

/-!
# Running means and sums of squares in rounded arithmetic
-/

set_option linter.unusedSectionVars false

namespace Trikit

section
variable {K : Type} [Field K] [LinearOrder K]

/-- Running mean of the first values. -/
def Spec.runMean (rd : K → K) (x : ℕ → K) : ℕ → K
  | 0 => 0
  | k + 1 => rd (Spec.runMean rd x k + rd (rd (x k - Spec.runMean rd x k) / ((k + 1 : ℕ) : K)))

/-- Running sum of squares of the first values. -/
def Spec.runSq (rd : K → K) (x : ℕ → K) : ℕ → K
  | 0 => 0
  | k + 1 => rd (Spec.runSq rd x k + rd (rd (x k - Spec.runMean rd x (k + 1)) * rd (x k - Spec.runMean rd x k)))

theorem welford_fold [CharZero K] (rd : K → K) (x : ℕ → K) (n : ℕ) :
    ((List.range n).map (fun i => Num.fin (x i))).foldl (welfordStep rd) (0, 0, 0) =
      (n, .fin (Spec.runMean rd x n), .fin (Spec.runSq rd x n)) := by
  induction n with
  | zero => rfl
  | succ n ih =>
    rw [List.range_succ, List.map_append, List.foldl_append, ih]
    simp only [List.map_cons, List.map_nil, List.foldl_cons, List.foldl_nil]
    have hk : ((n + 1 : ℕ) : K) ≠ 0 := Nat.cast_ne_zero.2 (by omega)
    have e : Num.addR rd (.fin (Spec.runMean rd x n)) (Num.divR rd (Num.subR rd (.fin (x n)) (.fin (Spec.runMean rd x n)))
        (.fin ((n + 1 : ℕ) : K))) = .fin (Spec.runMean rd x (n + 1)) := by
      have e1 : Num.subR rd (.fin (x n)) (.fin (Spec.runMean rd x n)) = .fin (rd (x n - Spec.runMean rd x n)) := by
        unfold Num.subR; rw [Num.fin_sub]; rfl
      rw [e1]
      unfold Num.divR
      rw [Num.fin_div _ _ hk]
      rfl
    unfold welfordStep
    simp only [e]
    unfold Num.subR
    rw [Num.fin_sub, Num.fin_sub]
    rfl

end

section
variable {K : Type} [Field K] [LinearOrder K] [IsStrictOrderedRing K]

/-! ### without rounding -/

/-- The mean of the first values. -/
def Spec.wAvg (x : ℕ → K) (n : ℕ) : K := (∑ i ∈ Finset.range n, x i) / n

/-- The sum of squared deviations from the mean of the first values. -/
def Spec.avgDev (x : ℕ → K) (n : ℕ) : K := ∑ i ∈ Finset.range n, (x i - Spec.wAvg x n) ^ 2

theorem wAvg_succ (x : ℕ → K) (k : ℕ) :
    Spec.wAvg x (k + 1) = Spec.wAvg x k + (x k - Spec.wAvg x k) / ((k + 1 : ℕ) : K) := by
  unfold Spec.wAvg
  rw [Finset.sum_range_succ]
  rcases Nat.eq_zero_or_pos k with rfl | hk
  · simp
  · have h1 : (k : K) ≠ 0 := Nat.cast_ne_zero.2 (by omega)
    have h2 : ((k + 1 : ℕ) : K) ≠ 0 := Nat.cast_ne_zero.2 (by omega)
    push_cast at h2 ⊢
    field_simp
    ring

theorem avgDev_succ (x : ℕ → K) (k : ℕ) :
    Spec.avgDev x (k + 1) = Spec.avgDev x k + (x k - Spec.wAvg x (k + 1)) * (x k - Spec.wAvg x k) := by
  have h2 : ((k + 1 : ℕ) : K) ≠ 0 := Nat.cast_ne_zero.2 (by omega)
  unfold Spec.avgDev
  rw [Finset.sum_range_succ]
  set m := Spec.wAvg x k with hm
  set d := (x k - m) / ((k + 1 : ℕ) : K) with hd
  have e1 : Spec.wAvg x (k + 1) = m + d := wAvg_succ x k
  have e2 : x k - m = ((k + 1 : ℕ) : K) * d := by rw [hd]; field_simp
  have e3 : ∑ i ∈ Finset.range k, x i = k * m := by
    rcases Nat.eq_zero_or_pos k with rfl | hk
    · simp
    · have h1 : (k : K) ≠ 0 := Nat.cast_ne_zero.2 (by omega)
      rw [hm]; unfold Spec.wAvg; field_simp
  have e4 : ∑ i ∈ Finset.range k, (x i - (m + d)) ^ 2 = ∑ i ∈ Finset.range k, (x i - m) ^ 2 + k * d ^ 2 := by
    have : ∀ i ∈ Finset.range k, (x i - (m + d)) ^ 2 = (x i - m) ^ 2 - 2 * d * x i + (2 * d * m + d ^ 2) := by
      intro i _; ring
    rw [Finset.sum_congr rfl this, Finset.sum_add_distrib, Finset.sum_sub_distrib, ← Finset.mul_sum, e3, Finset.sum_const,
      Finset.card_range, nsmul_eq_mul]
    ring
  rw [e1, e4]
  have e5 : x k = m + ((k + 1 : ℕ) : K) * d := by rw [← e2]; ring
  rw [e5]
  push_cast
  ring

theorem wMean_id (x : ℕ → K) (n : ℕ) : Spec.runMean id x n = Spec.wAvg x n := by
  induction n with
  | zero => simp [Spec.runMean, Spec.wAvg]
  | succ n ih => rw [wAvg_succ, ← ih]; rfl

theorem wSq_id (x : ℕ → K) (n : ℕ) : Spec.runSq id x n = Spec.avgDev x n := by
  induction n with
  | zero => simp [Spec.runSq, Spec.avgDev]
  | succ n ih =>
    rw [avgDev_succ, ← ih, ← wMean_id, ← wMean_id]; rfl

/-! ### order -/

variable {rd : K → K} {N n : ℕ} {u : K} {x : ℕ → K} {a b : K}

/-- One step of the running mean stays between the mean and the new value. -/
theorem wStep_between (hm : Spec.MonoRd rd N) (hr : Spec.RelErr rd u) (hu : 4 * u ≤ 1) {m y : K} {k : ℕ} (hk : 2 ≤ k) :
    (m ≤ y → m ≤ m + rd (rd (y - m) / k) ∧ m + rd (rd (y - m) / k) ≤ y) ∧
    (y ≤ m → y ≤ m + rd (rd (y - m) / k) ∧ m + rd (rd (y - m) / k) ≤ m) := by
  have u0 := hr.nonneg
  have hk2 : (2 : K) ≤ k := by exact_mod_cast hk
  have hk0 : (0 : K) < k := by linarith
  have key : |rd (rd (y - m) / k)| ≤ |y - m| := by
    have e1 := hr.err (y - m)
    have e2 := hr.err (rd (y - m) / k)
    have e3 : |rd (y - m)| ≤ (1 + u) * |y - m| := by
      have := abs_add_le (rd (y - m) - (y - m)) (y - m)
      rw [sub_add_cancel] at this
      linarith
    have e4 : |rd (rd (y - m) / k)| ≤ (1 + u) * |rd (y - m) / k| := by
      have := abs_add_le (rd (rd (y - m) / k) - rd (y - m) / k) (rd (y - m) / k)
      rw [sub_add_cancel] at this
      linarith
    rw [abs_div, abs_of_pos hk0] at e4
    have e5 : |rd (y - m)| / k ≤ (1 + u) * |y - m| / 2 := by
      rw [div_le_div_iff₀ hk0 (by norm_num)]
      have h0 : 0 ≤ (1 + u) * |y - m| := by positivity
      nlinarith [abs_nonneg (rd (y - m))]
    have e6 : (1 + u) * (|rd (y - m)| / k) ≤ (1 + u) * ((1 + u) * |y - m| / 2) :=
      mul_le_mul_of_nonneg_left e5 (by linarith)
    have h0 := abs_nonneg (y - m)
    have h7 : (1 + u) * (1 + u) ≤ 2 := by nlinarith
    nlinarith [mul_le_mul_of_nonneg_right h7 h0]
  constructor
  · intro h
    have h0 : 0 ≤ rd (rd (y - m) / k) := MonoRd.nonneg hm (div_nonneg (MonoRd.nonneg hm (sub_nonneg.2 h)) hk0.le)
    rw [abs_of_nonneg h0, abs_of_nonneg (sub_nonneg.2 h)] at key
    exact ⟨by linarith, by linarith⟩
  · intro h
    have h1 : rd (y - m) ≤ 0 := by have := hm.mono (sub_nonpos.2 h); rwa [hm.zero] at this
    have h0 : rd (rd (y - m) / k) ≤ 0 := by
      have := hm.mono (div_nonpos_of_nonpos_of_nonneg h1 hk0.le); rwa [hm.zero] at this
    rw [abs_of_nonpos h0, abs_of_nonpos (sub_nonpos.2 h)] at key
    exact ⟨by linarith, by linarith⟩

theorem wMean_one (hfix : ∀ i < n, rd (x i) = x i) (hn : 0 < n) : Spec.runMean rd x 1 = x 0 := by
  simp [Spec.runMean, hfix 0 hn]

theorem wMean_rd (hm : Spec.MonoRd rd N) (k : ℕ) : rd (Spec.runMean rd x k) = Spec.runMean rd x k := by
  cases k with
  | zero => exact hm.zero
  | succ k => exact hm.idem _

theorem wSq_rd (hm : Spec.MonoRd rd N) (k : ℕ) : rd (Spec.runSq rd x k) = Spec.runSq rd x k := by
  cases k with
  | zero => exact hm.zero
  | succ k => exact hm.idem _

/-- The running mean stays between the old mean and the new value. -/
theorem wMean_step (hm : Spec.MonoRd rd N) (hr : Spec.RelErr rd u) (hu : 4 * u ≤ 1) (hfix : ∀ i < n, rd (x i) = x i)
    {k : ℕ} (hk : 1 ≤ k) (hkn : k < n) :
    (Spec.runMean rd x k ≤ x k → Spec.runMean rd x k ≤ Spec.runMean rd x (k + 1) ∧ Spec.runMean rd x (k + 1) ≤ x k) ∧
    (x k ≤ Spec.runMean rd x k → x k ≤ Spec.runMean rd x (k + 1) ∧ Spec.runMean rd x (k + 1) ≤ Spec.runMean rd x k) := by
  obtain ⟨h1, h2⟩ := wStep_between hm hr hu (m := Spec.runMean rd x k) (y := x k) (k := k + 1) (by omega)
  have f1 := wMean_rd (x := x) hm k
  have f2 := hfix k hkn
  constructor
  · intro h
    obtain ⟨g1, g2⟩ := h1 h
    have g3 := hm.mono g1
    have g4 := hm.mono g2
    rw [f1] at g3
    rw [f2] at g4
    exact ⟨g3, g4⟩
  · intro h
    obtain ⟨g1, g2⟩ := h2 h
    have g3 := hm.mono g1
    have g4 := hm.mono g2
    rw [f2] at g3
    rw [f1] at g4
    exact ⟨g3, g4⟩

/-- The running mean lies in every interval that contains the values. -/
theorem wMean_range (hm : Spec.MonoRd rd N) (hr : Spec.RelErr rd u) (hu : 4 * u ≤ 1) (hfix : ∀ i < n, rd (x i) = x i)
    (hab : ∀ i < n, a ≤ x i ∧ x i ≤ b) {k : ℕ} (hk : 1 ≤ k) (hkn : k ≤ n) :
    a ≤ Spec.runMean rd x k ∧ Spec.runMean rd x k ≤ b := by
  induction k, hk using Nat.le_induction with
  | base => rw [wMean_one hfix (by omega)]; exact hab 0 (by omega)
  | succ k hk ih =>
    obtain ⟨i1, i2⟩ := ih (by omega)
    obtain ⟨h1, h2⟩ := wMean_step hm hr hu hfix hk (by omega : k < n)
    obtain ⟨a1, a2⟩ := hab k (by omega)
    rcases le_total (Spec.runMean rd x k) (x k) with h | h
    · obtain ⟨g1, g2⟩ := h1 h; exact ⟨i1.trans g1, g2.trans a2⟩
    · obtain ⟨g1, g2⟩ := h2 h; exact ⟨a1.trans g1, g2.trans i2⟩

/-- The sum of squares does not decrease. -/
theorem wSq_step (hm : Spec.MonoRd rd N) (hr : Spec.RelErr rd u) (hu : 4 * u ≤ 1) (hfix : ∀ i < n, rd (x i) = x i)
    {k : ℕ} (hkn : k < n) : Spec.runSq rd x k ≤ Spec.runSq rd x (k + 1) := by
  have h0 : 0 ≤ rd (x k - Spec.runMean rd x (k + 1)) * rd (x k - Spec.runMean rd x k) := by
    rcases Nat.eq_zero_or_pos k with rfl | hk
    · rw [wMean_one hfix hkn, sub_self, hm.zero, zero_mul]
    · obtain ⟨h1, h2⟩ := wMean_step hm hr hu hfix hk hkn
      rcases le_total (Spec.runMean rd x k) (x k) with h | h
      · exact mul_nonneg (MonoRd.nonneg hm (sub_nonneg.2 (h1 h).2)) (MonoRd.nonneg hm (sub_nonneg.2 h))
      · refine mul_nonneg_of_nonpos_of_nonpos ?_ ?_
        · have := hm.mono (sub_nonpos.2 (h2 h).1); rwa [hm.zero] at this
        · have := hm.mono (sub_nonpos.2 h); rwa [hm.zero] at this
  conv_lhs => rw [← wSq_rd hm k]
  show rd _ ≤ rd _
  apply hm.mono
  have := MonoRd.nonneg hm h0
  linarith

theorem wSq_nonneg (hm : Spec.MonoRd rd N) (hr : Spec.RelErr rd u) (hu : 4 * u ≤ 1) (hfix : ∀ i < n, rd (x i) = x i)
    {k : ℕ} (hkn : k ≤ n) : 0 ≤ Spec.runSq rd x k := by
  induction k with
  | zero => exact le_rfl
  | succ k ih => exact (ih (by omega)).trans (wSq_step hm hr hu hfix (by omega))

theorem wSq_same (hm : Spec.MonoRd rd N) {v : K} (hv : rd v = v) (hx : ∀ i < n, x i = v) {k : ℕ} (hkn : k ≤ n) :
    (1 ≤ k → Spec.runMean rd x k = v) ∧ Spec.runSq rd x k = 0 := by
  induction k with
  | zero => exact ⟨by omega, rfl⟩
  | succ k ih =>
    obtain ⟨h1, h2⟩ := ih (by omega)
    have hmean : Spec.runMean rd x (k + 1) = v := by
      rcases Nat.eq_zero_or_pos k with rfl | hk
      · rw [wMean_one (n := n) (fun i hi => by rw [hx i hi, hv]) (by omega), hx 0 (by omega)]
      · show rd _ = v
        rw [h1 hk, hx k (by omega), sub_self, hm.zero, zero_div, hm.zero, add_zero, hv]
    refine ⟨fun _ => hmean, ?_⟩
    show rd _ = 0
    rw [hmean, hx k (by omega), sub_self, hm.zero, zero_mul, hm.zero, h2, add_zero, hm.zero]

/-! ### accuracy -/

theorem wAvg_range (hab : ∀ i < n, a ≤ x i ∧ x i ≤ b) {k : ℕ} (hk : 1 ≤ k) (hkn : k ≤ n) :
    a ≤ Spec.wAvg x k ∧ Spec.wAvg x k ≤ b := by
  have hk0 : (0 : K) < k := Nat.cast_pos.2 hk
  unfold Spec.wAvg
  rw [le_div_iff₀ hk0, div_le_iff₀ hk0]
  constructor
  · have := Finset.card_nsmul_le_sum (Finset.range k) x a (fun i hi => (hab i (by have := Finset.mem_range.1 hi; omega)).1)
    rw [Finset.card_range, nsmul_eq_mul] at this
    linarith
  · have := Finset.sum_le_card_nsmul (Finset.range k) x b (fun i hi => (hab i (by have := Finset.mem_range.1 hi; omega)).2)
    rw [Finset.card_range, nsmul_eq_mul] at this
    linarith

/-- How far the running mean is from the mean. -/
theorem wMean_error (hm : Spec.MonoRd rd N) (hr : Spec.RelErr rd u) (hu : 4 * u ≤ 1) (hfix : ∀ i < n, rd (x i) = x i)
    (hab : ∀ i < n, a ≤ x i ∧ x i ≤ b) {M : K} (hM1 : -M ≤ a) (hM2 : b ≤ M) {k : ℕ} (hk : 1 ≤ k) (hkn : k ≤ n) :
    k * |Spec.runMean rd x k - Spec.wAvg x k| ≤ u * (M * (k * (k + 1) / 2) + 3 * k * (b - a)) := by
  have u0 := hr.nonneg
  have hG : 0 ≤ b - a := by have := hab 0 (by omega); linarith
  have hM : 0 ≤ M := by linarith
  induction k, hk using Nat.le_induction with
  | base =>
    rw [wMean_one hfix (by omega)]
    have : Spec.wAvg x 1 = x 0 := by simp [Spec.wAvg]
    rw [this, sub_self, abs_zero, mul_zero]
    push_cast
    positivity
  | succ k hk ih =>
    have ih := ih (by omega)
    obtain ⟨i1, i2⟩ := wMean_range hm hr hu hfix hab hk (by omega)
    obtain ⟨a1, a2⟩ := hab k (by omega)
    have hk0 : (0 : K) < ((k + 1 : ℕ) : K) := Nat.cast_pos.2 (by omega)
    set m := Spec.runMean rd x k with hmd
    set μ := Spec.wAvg x k
    have hb : a ≤ m + rd (rd (x k - m) / ((k + 1 : ℕ) : K)) ∧ m + rd (rd (x k - m) / ((k + 1 : ℕ) : K)) ≤ b := by
      obtain ⟨h1, h2⟩ := wStep_between hm hr hu (m := m) (y := x k) (k := k + 1) (by omega)
      rcases le_total m (x k) with h | h
      · exact ⟨i1.trans (h1 h).1, (h1 h).2.trans a2⟩
      · exact ⟨a1.trans (h2 h).1, (h2 h).2.trans i2⟩
    set y := rd (rd (x k - m) / ((k + 1 : ℕ) : K)) with hy
    have e0 : Spec.runMean rd x (k + 1) = rd (m + y) := rfl
    rw [e0, wAvg_succ]
    have e1 : |rd (m + y) - (m + y)| ≤ u * M :=
      (hr.err _).trans (mul_le_mul_of_nonneg_left (abs_le.2 ⟨by linarith, by linarith⟩) u0)
    have hd : |x k - m| ≤ b - a := abs_le.2 ⟨by linarith, by linarith⟩
    have e2 : ((k + 1 : ℕ) : K) * |y - (x k - m) / ((k + 1 : ℕ) : K)| ≤ 3 * u * (b - a) := by
      have f1 := hr.err (x k - m)
      have f2 := hr.err (rd (x k - m) / ((k + 1 : ℕ) : K))
      rw [← hy, abs_div, abs_of_pos hk0] at f2
      have f3 : |y - (x k - m) / ((k + 1 : ℕ) : K)| ≤
          u * (|rd (x k - m)| / ((k + 1 : ℕ) : K)) + |rd (x k - m) - (x k - m)| / ((k + 1 : ℕ) : K) := by
        have e : y - (x k - m) / ((k + 1 : ℕ) : K) =
            (y - rd (x k - m) / ((k + 1 : ℕ) : K)) + (rd (x k - m) - (x k - m)) / ((k + 1 : ℕ) : K) := by ring
        rw [e]
        refine (abs_add_le _ _).trans (add_le_add f2 ?_)
        rw [abs_div, abs_of_pos hk0]
      have f4 : |rd (x k - m)| ≤ (1 + u) * |x k - m| := by
        have := abs_add_le (rd (x k - m) - (x k - m)) (x k - m)
        rw [sub_add_cancel] at this
        linarith
      have f5 := mul_le_mul_of_nonneg_left f3 hk0.le
      have f6 : ((k + 1 : ℕ) : K) * (u * (|rd (x k - m)| / ((k + 1 : ℕ) : K)) + |rd (x k - m) - (x k - m)| / ((k + 1 : ℕ) : K)) =
          u * |rd (x k - m)| + |rd (x k - m) - (x k - m)| := by field_simp
      rw [f6] at f5
      have f7 : u * |rd (x k - m)| ≤ u * ((1 + u) * |x k - m|) := mul_le_mul_of_nonneg_left f4 u0
      have f8 : u * ((1 + u) * |x k - m|) + u * |x k - m| ≤ 3 * u * |x k - m| := by
        have : 0 ≤ u * |x k - m| := mul_nonneg u0 (abs_nonneg _)
        nlinarith
      have f9 : 3 * u * |x k - m| ≤ 3 * u * (b - a) := mul_le_mul_of_nonneg_left hd (by linarith)
      linarith
    have e3 : ((k + 1 : ℕ) : K) * (rd (m + y) - (μ + (x k - μ) / ((k + 1 : ℕ) : K))) =
        ((k + 1 : ℕ) : K) * (rd (m + y) - (m + y)) + ((k + 1 : ℕ) : K) * (y - (x k - m) / ((k + 1 : ℕ) : K)) + k * (m - μ) := by
      field_simp
      push_cast
      ring
    rw [show ((k + 1 : ℕ) : K) * |rd (m + y) - (μ + (x k - μ) / ((k + 1 : ℕ) : K))| =
      |((k + 1 : ℕ) : K) * (rd (m + y) - (μ + (x k - μ) / ((k + 1 : ℕ) : K)))| by rw [abs_mul, abs_of_pos hk0], e3]
    refine (abs_add_three _ _ _).trans ?_
    rw [abs_mul, abs_mul, abs_mul, abs_of_pos hk0, Nat.abs_cast]
    have e4 := mul_le_mul_of_nonneg_left e1 hk0.le
    push_cast at *
    nlinarith

/-- As `wMean_error`, solved for the difference. -/
theorem wMean_error' (hm : Spec.MonoRd rd N) (hr : Spec.RelErr rd u) (hu : 4 * u ≤ 1) (hfix : ∀ i < n, rd (x i) = x i)
    (hab : ∀ i < n, a ≤ x i ∧ x i ≤ b) {M : K} (hM1 : -M ≤ a) (hM2 : b ≤ M) {k : ℕ} (hk : 1 ≤ k) (hkn : k ≤ n) :
    |Spec.runMean rd x k - Spec.wAvg x k| ≤ u * (M * ((k + 1) / 2) + 3 * (b - a)) := by
  have hk0 : (0 : K) < k := Nat.cast_pos.2 hk
  have := wMean_error hm hr hu hfix hab hM1 hM2 hk hkn
  have e : u * (M * (k * (k + 1) / 2) + 3 * k * (b - a)) = k * (u * (M * ((k + 1) / 2) + 3 * (b - a))) := by ring
  rw [e] at this
  exact le_of_mul_le_mul_left this hk0

theorem pow_le_two {u : K} (hu : 0 ≤ u) {j : ℕ} (h : 2 * (j * u) ≤ 1) : (1 + u) ^ j ≤ 2 := by
  have key : ∀ j : ℕ, (1 + u) ^ j * (1 - j * u) ≤ 1 := by
    intro j
    induction j with
    | zero => simp
    | succ j ih =>
      have h1 : (1 + u) ^ (j + 1) * (1 - ((j + 1 : ℕ) : K) * u) = (1 + u) ^ j * (1 - j * u) - (1 + u) ^ j * ((j + 1) * u ^ 2) := by
        push_cast; ring
      have h2 : 0 ≤ (1 + u) ^ j * ((j + 1) * u ^ 2) := by positivity
      linarith
  have h1 := key j
  have h2 : 0 ≤ (1 + u) ^ j := by positivity
  nlinarith

/-- The product of the differences and its rounding. -/
theorem wProd_error (hr : Spec.RelErr rd u) (hu : 4 * u ≤ 1) (p q : K) :
    |rd (rd p * rd q) - p * q| ≤ 4 * u * (|p| * |q|) ∧ |rd (rd p * rd q)| ≤ (1 + u) ^ 3 * (|p| * |q|) := by
  have u0 := hr.nonneg
  have h1 := hr.err p
  have h2 := hr.err q
  have h3 := hr.err (rd p * rd q)
  have g : ∀ z, |rd z| ≤ (1 + u) * |z| := fun z => by
    have := abs_add_le (rd z - z) z
    rw [sub_add_cancel] at this
    have := hr.err z
    linarith
  have g1 : |rd p * rd q| ≤ (1 + u) ^ 2 * (|p| * |q|) := by
    rw [abs_mul]
    calc |rd p| * |rd q| ≤ ((1 + u) * |p|) * ((1 + u) * |q|) :=
          mul_le_mul (g p) (g q) (abs_nonneg _) (by positivity)
      _ = _ := by ring
  have hpq : 0 ≤ |p| * |q| := by positivity
  constructor
  · have e : rd (rd p * rd q) - p * q = (rd (rd p * rd q) - rd p * rd q) + (rd p - p) * rd q + p * (rd q - q) := by ring
    rw [e]
    refine (abs_add_three _ _ _).trans ?_
    rw [abs_mul, abs_mul]
    have f1 : |rd (rd p * rd q) - rd p * rd q| ≤ u * ((1 + u) ^ 2 * (|p| * |q|)) :=
      h3.trans (mul_le_mul_of_nonneg_left g1 u0)
    have f2 : |rd p - p| * |rd q| ≤ (u * |p|) * ((1 + u) * |q|) := mul_le_mul h1 (g q) (abs_nonneg _) (by positivity)
    have f3 : |p| * |rd q - q| ≤ |p| * (u * |q|) := mul_le_mul_of_nonneg_left h2 (abs_nonneg _)
    have f4 : u * ((1 + u) ^ 2 * (|p| * |q|)) + (u * |p|) * ((1 + u) * |q|) + |p| * (u * |q|) =
        (u * ((1 + u) ^ 2 + (1 + u) + 1)) * (|p| * |q|) := by ring
    have f6 : (1 + u) ^ 2 + (1 + u) + 1 ≤ 4 := by nlinarith
    have f5 : u * ((1 + u) ^ 2 + (1 + u) + 1) ≤ 4 * u := by
      have := mul_le_mul_of_nonneg_left f6 u0
      linarith
    have := mul_le_mul_of_nonneg_right f5 hpq
    linarith
  · have := mul_le_mul_of_nonneg_left g1 (by linarith : 0 ≤ 1 + u)
    have h := g (rd p * rd q)
    calc _ ≤ _ := h
      _ ≤ _ := this
      _ = _ := by ring

/-- Size of the sum of squares. -/
theorem wSq_size (hm : Spec.MonoRd rd N) (hr : Spec.RelErr rd u) (hu : 2 * ((n + 3) * u) ≤ 1) (hfix : ∀ i < n, rd (x i) = x i)
    (hab : ∀ i < n, a ≤ x i ∧ x i ≤ b) {k : ℕ} (hk : 1 ≤ k) (hkn : k ≤ n) :
    Spec.runSq rd x k ≤ (1 + u) ^ (k + 3) * (k * (b - a) ^ 2) ∧
    (k < n → |Spec.runSq rd x k + rd (rd (x k - Spec.runMean rd x (k + 1)) * rd (x k - Spec.runMean rd x k))| ≤
      (1 + u) ^ (k + 3) * ((k + 1) * (b - a) ^ 2)) := by
  have u0 := hr.nonneg
  have hn1 : (1 : K) ≤ n := by exact_mod_cast (by omega : 1 ≤ n)
  have hu4 : 4 * u ≤ 1 := by nlinarith
  have hG : 0 ≤ b - a := by have := hab 0 (by omega); linarith
  have second : ∀ k, 1 ≤ k → k < n → Spec.runSq rd x k ≤ (1 + u) ^ (k + 3) * (k * (b - a) ^ 2) →
      |Spec.runSq rd x k + rd (rd (x k - Spec.runMean rd x (k + 1)) * rd (x k - Spec.runMean rd x k))| ≤
      (1 + u) ^ (k + 3) * ((k + 1) * (b - a) ^ 2) := by
    intro k hk hkn h
    have h0 := wSq_nonneg hm hr hu4 hfix (k := k) (by omega)
    obtain ⟨i1, i2⟩ := wMean_range hm hr hu4 hfix hab hk (by omega)
    obtain ⟨j1, j2⟩ := wMean_range hm hr hu4 hfix hab (k := k + 1) (by omega) (by omega)
    obtain ⟨a1, a2⟩ := hab k hkn
    have h1 := (wProd_error hr hu4 (x k - Spec.runMean rd x (k + 1)) (x k - Spec.runMean rd x k)).2
    have h2 : |x k - Spec.runMean rd x (k + 1)| * |x k - Spec.runMean rd x k| ≤ (b - a) ^ 2 := by
      rw [pow_two]
      exact mul_le_mul (abs_le.2 ⟨by linarith, by linarith⟩) (abs_le.2 ⟨by linarith, by linarith⟩) (abs_nonneg _) hG
    refine (abs_add_le _ _).trans ?_
    rw [abs_of_nonneg h0]
    have h3 := mul_le_mul_of_nonneg_left h2 (by positivity : 0 ≤ (1 + u) ^ 3)
    have h4 : (1 + u) ^ 3 * (b - a) ^ 2 ≤ (1 + u) ^ (k + 3) * (b - a) ^ 2 :=
      mul_le_mul_of_nonneg_right (pow_le_pow_right₀ (by linarith) (by omega)) (sq_nonneg _)
    nlinarith
  have first : Spec.runSq rd x k ≤ (1 + u) ^ (k + 3) * (k * (b - a) ^ 2) := by
    induction k, hk using Nat.le_induction with
    | base =>
      have : Spec.runSq rd x 1 = 0 := by
        show rd _ = 0
        rw [wMean_one hfix (by omega), sub_self, hm.zero, zero_mul, hm.zero]
        show rd (0 + 0) = 0
        rw [add_zero, hm.zero]
      rw [this]
      positivity
    | succ k hk ih =>
      have h1 := second k hk (by omega) (ih (by omega))
      have h2 : Spec.runSq rd x (k + 1) = rd (Spec.runSq rd x k + rd (rd (x k - Spec.runMean rd x (k + 1)) * rd (x k - Spec.runMean rd x k))) := rfl
      rw [h2]
      set t := Spec.runSq rd x k + rd (rd (x k - Spec.runMean rd x (k + 1)) * rd (x k - Spec.runMean rd x k))
      have h3 := hr.err t
      have h4 : rd t ≤ (1 + u) * |t| := by
        have := le_abs_self (rd t - t)
        have := le_abs_self t
        linarith
      have h5 := mul_le_mul_of_nonneg_left h1 (by linarith : 0 ≤ 1 + u)
      calc rd t ≤ _ := h4
        _ ≤ _ := h5
        _ = _ := by push_cast; ring
  exact ⟨first, fun h => second k hk h first⟩

/-- How far the running sum of squares is from the sum of squared deviations. -/
theorem wSq_error (hm : Spec.MonoRd rd N) (hr : Spec.RelErr rd u) (hu : 2 * ((n + 3) * u) ≤ 1) (hfix : ∀ i < n, rd (x i) = x i)
    (hab : ∀ i < n, a ≤ x i ∧ x i ≤ b) {M : K} (hM1 : -M ≤ a) (hM2 : b ≤ M) {k : ℕ} (hk : 1 ≤ k) (hkn : k ≤ n) :
    |Spec.runSq rd x k - Spec.avgDev x k| ≤
      u * ((k ^ 2 + 11 * k) * (b - a) ^ 2 + (k ^ 2 + 2 * k) / 2 * (M * (b - a))) := by
  have u0 := hr.nonneg
  have hn1 : (1 : K) ≤ n := by exact_mod_cast (by omega : 1 ≤ n)
  have hu4 : 4 * u ≤ 1 := by nlinarith
  have hG : 0 ≤ b - a := by have := hab 0 (by omega); linarith
  have hM : 0 ≤ M := by linarith
  induction k, hk using Nat.le_induction with
  | base =>
    have e1 : Spec.runSq rd x 1 = 0 := by
      show rd _ = 0
      rw [wMean_one hfix (by omega), sub_self, hm.zero, zero_mul, hm.zero]
      show rd (0 + 0) = 0
      rw [add_zero, hm.zero]
    have e2 : Spec.avgDev x 1 = 0 := by simp [Spec.avgDev, Spec.wAvg]
    rw [e1, e2, sub_self, abs_zero]
    positivity
  | succ k hk ih =>
    have ih := ih (by omega)
    obtain ⟨i1, i2⟩ := wMean_range hm hr hu4 hfix hab hk (by omega)
    obtain ⟨j1, j2⟩ := wMean_range hm hr hu4 hfix hab (k := k + 1) (by omega) (by omega)
    obtain ⟨l1, l2⟩ := wAvg_range hab (k := k + 1) (by omega) hkn
    obtain ⟨a1, a2⟩ := hab k (by omega)
    have s1 := (wSq_size hm hr hu hfix hab hk (by omega)).2 (by omega)
    have s2 : (1 + u) ^ (k + 3) ≤ 2 := by
      apply pow_le_two u0
      have : ((k + 3 : ℕ) : K) ≤ n + 3 := by exact_mod_cast (by omega : k + 3 ≤ n + 3)
      nlinarith
    have m1 := wMean_error' hm hr hu4 hfix hab hM1 hM2 hk (by omega)
    have m2 := wMean_error' hm hr hu4 hfix hab hM1 hM2 (k := k + 1) (by omega) hkn
    rw [avgDev_succ, show Spec.runSq rd x (k + 1) = rd (Spec.runSq rd x k + rd (rd (x k - Spec.runMean rd x (k + 1)) * rd (x k - Spec.runMean rd x k))) from rfl]
    obtain ⟨p1, -⟩ := wProd_error hr hu4 (x k - Spec.runMean rd x (k + 1)) (x k - Spec.runMean rd x k)
    set z := rd (rd (x k - Spec.runMean rd x (k + 1)) * rd (x k - Spec.runMean rd x k))
    set m := Spec.runMean rd x k
    set m' := Spec.runMean rd x (k + 1)
    set μ := Spec.wAvg x k
    set μ' := Spec.wAvg x (k + 1)
    have d1 : |x k - m| ≤ b - a := abs_le.2 ⟨by linarith, by linarith⟩
    have d2 : |x k - m'| ≤ b - a := abs_le.2 ⟨by linarith, by linarith⟩
    have d3 : |x k - μ'| ≤ b - a := abs_le.2 ⟨by linarith, by linarith⟩
    have t1 : |rd (Spec.runSq rd x k + z) - (Spec.runSq rd x k + z)| ≤ u * (2 * ((k + 1) * (b - a) ^ 2)) := by
      refine (hr.err _).trans (mul_le_mul_of_nonneg_left (s1.trans ?_) u0)
      exact mul_le_mul_of_nonneg_right s2 (by positivity)
    have t2 : |z - (x k - m') * (x k - m)| ≤ 4 * u * (b - a) ^ 2 := by
      refine p1.trans (mul_le_mul_of_nonneg_left ?_ (by linarith))
      rw [pow_two]
      exact mul_le_mul d2 d1 (abs_nonneg _) hG
    have t3 : |(x k - m') * (x k - m) - (x k - μ') * (x k - μ)| ≤
        u * (M * ((((k + 1 : ℕ) : K) + 1) / 2) + 3 * (b - a)) * (b - a) + (b - a) * (u * (M * ((k + 1) / 2) + 3 * (b - a))) := by
      have e : (x k - m') * (x k - m) - (x k - μ') * (x k - μ) = -((m' - μ') * (x k - m)) + -((x k - μ') * (m - μ)) := by ring
      rw [e]
      refine (abs_add_le _ _).trans ?_
      rw [abs_neg, abs_neg, abs_mul, abs_mul]
      refine add_le_add (mul_le_mul m2 d1 (abs_nonneg _) ?_) (mul_le_mul d3 m1 (abs_nonneg _) hG)
      positivity
    have e : rd (Spec.runSq rd x k + z) - (Spec.avgDev x k + (x k - μ') * (x k - μ)) =
        ((rd (Spec.runSq rd x k + z) - (Spec.runSq rd x k + z)) + (z - (x k - m') * (x k - m)) +
          ((x k - m') * (x k - m) - (x k - μ') * (x k - μ))) + (Spec.runSq rd x k - Spec.avgDev x k) := by ring
    rw [e]
    refine (abs_add_le _ _).trans ((add_le_add (abs_add_three _ _ _) ih).trans ?_)
    refine (add_le_add (add_le_add (add_le_add t1 t2) t3) le_rfl).trans (le_of_eq ?_)
    push_cast
    ring

end

end Trikit
