import Verif.Quantile
import Mathlib.Data.Int.Log
import Mathlib.Tactic.Positivity
import Mathlib.Tactic.FieldSimp

/-!
# Binary floating point rounding

`floatRd p` rounds to the nearest number with `p` binary digits, ties to even, without limits on the exponent (IEEE 754
double precision has `p = 53`; simplification: no overflow and no underflow).
-/

set_option linter.unusedSectionVars false

namespace Trikit

variable {K : Type} [Field K] [LinearOrder K] [IsStrictOrderedRing K] [FloorRing K]

/-- Distance between neighbouring `p`-digit numbers at `x`. -/
def floatUlp (p : ℕ) (x : K) : K := (2 : K) ^ (Int.log 2 |x| + 1 - (p : ℤ))

/-- Rounding to `p` binary digits. -/
def floatRd (p : ℕ) (x : K) : K := (roundHalfEven (x / floatUlp p x) : K) * floatUlp p x

/-- The numbers with `p` binary digits. -/
def Spec.IsFloat (p : ℕ) (x : K) : Prop := ∃ m e : ℤ, |m| ≤ 2 ^ p ∧ x = (m : K) * (2 : K) ^ e

/-! ### the integer nearest to a number -/

theorem rhe_half (x : K) : |x - (roundHalfEven x : K)| ≤ 1 / 2 := by
  have h1 := Int.floor_le x
  have h2 := Int.lt_floor_add_one x
  unfold roundHalfEven
  split
  · rename_i h
    rw [abs_le]; constructor <;> linarith
  · rename_i h
    have hg : 1 / 2 ≤ x - (⌊x⌋ : K) := not_lt.1 h
    split
    · push_cast
      rw [abs_le]; constructor <;> linarith
    · rename_i h'
      have : x - (⌊x⌋ : K) ≤ 1 / 2 := not_lt.1 h'
      split
      · rw [abs_le]; constructor <;> linarith
      · push_cast
        rw [abs_le]; constructor <;> linarith

theorem rhe_nearest (x : K) (k : ℤ) : |x - (roundHalfEven x : K)| ≤ |x - (k : K)| := by
  by_cases e : k = roundHalfEven x
  · rw [e]
  · have h1 := rhe_half x
    have h2 : (1 : K) ≤ |(roundHalfEven x : K) - (k : K)| := by
      have : 1 ≤ |roundHalfEven x - k| := Int.one_le_abs (sub_ne_zero.2 (Ne.symm e))
      have h3 : ((1 : ℤ) : K) ≤ ((|roundHalfEven x - k| : ℤ) : K) := Int.cast_le.2 this
      push_cast at h3
      exact h3
    have h3 : |(roundHalfEven x : K) - (k : K)| ≤ |x - (roundHalfEven x : K)| + |x - (k : K)| := by
      have : (roundHalfEven x : K) - (k : K) = -(x - (roundHalfEven x : K)) + (x - (k : K)) := by ring
      rw [this]
      refine (abs_add_le _ _).trans ?_
      rw [abs_neg]
    linarith

/-! ### spacing -/

theorem floatUlp_pos (p : ℕ) (x : K) : 0 < floatUlp p x := zpow_pos (by norm_num) _

theorem two_zpow_add (a b : ℤ) : (2 : K) ^ (a + b) = 2 ^ a * 2 ^ b := zpow_add₀ (by norm_num) a b

theorem log_le_abs {x : K} (hx : x ≠ 0) : (2 : K) ^ Int.log 2 |x| ≤ |x| := by
  have := Int.zpow_log_le_self (b := 2) (by norm_num) (abs_pos.2 hx)
  exact_mod_cast this

theorem abs_lt_log (x : K) : |x| < (2 : K) ^ (Int.log 2 |x| + 1) := by
  have := Int.lt_zpow_succ_log_self (b := 2) (by norm_num) |x|
  exact_mod_cast this

theorem floatRd_dist (p : ℕ) (x : K) : |x - floatRd p x| ≤ floatUlp p x / 2 := by
  have hs := floatUlp_pos p x
  have h := rhe_half (x / floatUlp p x)
  have e : x - floatRd p x = (x / floatUlp p x - (roundHalfEven (x / floatUlp p x) : K)) * floatUlp p x := by
    unfold floatRd; rw [sub_mul, div_mul_cancel₀ _ hs.ne']
  rw [e, abs_mul, abs_of_pos hs]
  nlinarith

theorem floatRd_zero (p : ℕ) : floatRd p (0 : K) = 0 := by
  unfold floatRd
  have : roundHalfEven (0 / floatUlp p (0 : K)) = 0 := by
    rw [zero_div]; unfold roundHalfEven; simp
  rw [this]; simp

/-- Relative error. -/
theorem floatRd_err (p : ℕ) (x : K) : |floatRd p x - x| ≤ (2 : K) ^ (-(p : ℤ)) * |x| := by
  by_cases hx : x = 0
  · rw [hx, floatRd_zero]; simp
  · rw [abs_sub_comm]
    refine (floatRd_dist p x).trans ?_
    have e : floatUlp p x / 2 = (2 : K) ^ (-(p : ℤ)) * 2 ^ Int.log 2 |x| := by
      unfold floatUlp
      rw [← two_zpow_add, show Int.log 2 |x| + 1 - (p : ℤ) = (-(p : ℤ) + Int.log 2 |x|) + 1 by ring, two_zpow_add _ 1]
      norm_num
    rw [e]
    exact mul_le_mul_of_nonneg_left (log_le_abs hx) (zpow_pos (by norm_num) _).le

/-- The result is a `p`-digit number. -/
theorem floatRd_isFloat (p : ℕ) (x : K) : Spec.IsFloat p (floatRd p x) := by
  refine ⟨roundHalfEven (x / floatUlp p x), _, ?_, rfl⟩
  have hs := floatUlp_pos p x
  have hlt : |x / floatUlp p x| < (2 : K) ^ p := by
    rw [abs_div, abs_of_pos hs, div_lt_iff₀ hs]
    unfold floatUlp
    have := abs_lt_log x
    rw [← zpow_natCast (2 : K) p, ← two_zpow_add]
    rw [show (p : ℤ) + (Int.log 2 |x| + 1 - (p : ℤ)) = Int.log 2 |x| + 1 by ring]
    exact this
  set y := x / floatUlp p x
  set r := roundHalfEven y
  by_contra hc
  have hc' : (2 : ℤ) ^ p + 1 ≤ |r| := by omega
  have h1 : ((2 : K) ^ p + 1) ≤ |(r : K)| := by
    have : (((2 : ℤ) ^ p + 1 : ℤ) : K) ≤ ((|r| : ℤ) : K) := Int.cast_le.2 hc'
    push_cast at this
    exact this
  have h2 := rhe_half y
  have h3 : |(r : K)| ≤ |y| + |y - (r : K)| := by
    have e : (r : K) = y - (y - (r : K)) := by ring
    conv_lhs => rw [e]
    exact abs_sub _ _
  linarith

/-- `p`-digit numbers at least as large as the power of two below `x` are multiples of the spacing at `x`. -/
theorem isFloat_multiple {p : ℕ} (hp : 1 ≤ p) {x z : K} (hz : Spec.IsFloat p z) (hle : (2 : K) ^ Int.log 2 |x| ≤ |z|) :
    ∃ k : ℤ, z = (k : K) * floatUlp p x := by
  obtain ⟨m, e, hm, rfl⟩ := hz
  set L := Int.log 2 |x| with hL
  by_cases he : L + 1 - (p : ℤ) ≤ e
  · obtain ⟨q, hq⟩ := Int.eq_ofNat_of_zero_le (show 0 ≤ e - (L + 1 - (p : ℤ)) by omega)
    refine ⟨m * 2 ^ q, ?_⟩
    unfold floatUlp
    push_cast
    rw [← hL, mul_assoc, ← zpow_natCast (2 : K) q, ← two_zpow_add, ← hq]
    congr 2; ring
  · have he' : (p : ℤ) + e ≤ L := by omega
    have hm' : |(m : K)| ≤ (2 : K) ^ p := by
      have : ((|m| : ℤ) : K) ≤ (((2 : ℤ) ^ p : ℤ) : K) := Int.cast_le.2 hm
      push_cast at this
      exact this
    have hpe : (2 : K) ^ p * 2 ^ e = 2 ^ ((p : ℤ) + e) := by rw [two_zpow_add, zpow_natCast]
    have h2e : (0 : K) < 2 ^ e := zpow_pos (by norm_num) e
    have habs : |(m : K) * (2 : K) ^ e| = |(m : K)| * 2 ^ e := by
      rw [abs_mul, abs_of_pos h2e]
    have hmono : (2 : K) ^ ((p : ℤ) + e) ≤ 2 ^ L := zpow_le_zpow_right₀ (by norm_num) he'
    have heq : |(m : K)| * 2 ^ e = 2 ^ L := by
      apply le_antisymm
      · calc |(m : K)| * 2 ^ e ≤ 2 ^ p * 2 ^ e := mul_le_mul_of_nonneg_right hm' h2e.le
          _ = 2 ^ ((p : ℤ) + e) := hpe
          _ ≤ 2 ^ L := hmono
      · rw [← habs]; exact hle
    have hmult : (2 : K) ^ L = ((2 ^ (p - 1) : ℤ) : K) * floatUlp p x := by
      unfold floatUlp
      push_cast
      rw [← hL, ← zpow_natCast (2 : K) (p - 1), ← two_zpow_add]
      congr 1
      push_cast [hp]
      ring
    rcases abs_cases (m : K) with ⟨h1, _⟩ | ⟨h1, _⟩
    · refine ⟨2 ^ (p - 1), ?_⟩
      rw [← hmult, ← heq, h1]
    · refine ⟨-(2 ^ (p - 1)), ?_⟩
      push_cast at hmult ⊢
      rw [neg_mul, ← hmult, ← heq, h1]; ring

/-- The result is a nearest `p`-digit number. -/
theorem floatRd_nearest {p : ℕ} (hp : 1 ≤ p) (x : K) {z : K} (hz : Spec.IsFloat p z) :
    |x - floatRd p x| ≤ |x - z| := by
  by_cases hx : x = 0
  · rw [hx, floatRd_zero]; simp
  have hs := floatUlp_pos p x
  have key : ∀ k : ℤ, |x - floatRd p x| ≤ |x - (k : K) * floatUlp p x| := by
    intro k
    have h := rhe_nearest (x / floatUlp p x) k
    have e : ∀ y : K, x - y * floatUlp p x = (x / floatUlp p x - y) * floatUlp p x := by
      intro y; rw [sub_mul, div_mul_cancel₀ _ hs.ne']
    unfold floatRd
    rw [e, e, abs_mul, abs_mul]
    exact mul_le_mul_of_nonneg_right h (abs_nonneg _)
  by_cases hle : (2 : K) ^ Int.log 2 |x| ≤ |z|
  · obtain ⟨k, rfl⟩ := isFloat_multiple hp hz hle
    exact key k
  · rw [not_le] at hle
    have hlx := log_le_abs hx
    have hmult : (2 : K) ^ Int.log 2 |x| = ((2 ^ (p - 1) : ℤ) : K) * floatUlp p x := by
      unfold floatUlp
      push_cast
      rw [← zpow_natCast (2 : K) (p - 1), ← two_zpow_add]
      congr 1
      push_cast [hp]
      ring
    rw [abs_lt] at hle
    generalize (2 : K) ^ Int.log 2 |x| = P at *
    rcases abs_cases x with ⟨h1, h2⟩ | ⟨h1, h2⟩
    · have := key (2 ^ (p - 1))
      rw [← hmult] at this
      refine this.trans ?_
      rw [h1] at hlx
      have e1 : 0 ≤ x - P := by linarith
      have e2 : 0 ≤ x - z := by linarith [hle.2]
      rw [abs_of_nonneg e1, abs_of_nonneg e2]
      linarith [hle.2]
    · have := key (-(2 ^ (p - 1)))
      push_cast at this hmult
      rw [neg_mul, ← hmult] at this
      refine this.trans ?_
      rw [h1] at hlx
      have e1 : x - -P ≤ 0 := by linarith
      have e2 : x - z ≤ 0 := by linarith [hle.1]
      rw [abs_of_nonpos e1, abs_of_nonpos e2]
      linarith [hle.1]

theorem floatRd_fix {p : ℕ} (hp : 1 ≤ p) {x : K} (hx : Spec.IsFloat p x) : floatRd p x = x := by
  have h := floatRd_nearest hp x hx
  rw [sub_self, abs_zero] at h
  have h2 := abs_eq_zero.1 (le_antisymm h (abs_nonneg _))
  exact (sub_eq_zero.1 h2).symm

theorem floatRd_mono {p : ℕ} (hp : 1 ≤ p) : Monotone (floatRd p : K → K) := by
  intro x y hxy
  by_contra hc
  rw [not_le] at hc
  have h1 := floatRd_nearest hp x (floatRd_isFloat p y)
  have h2 := floatRd_nearest hp y (floatRd_isFloat p x)
  set a := floatRd p x
  set b := floatRd p y
  have hne : x ≠ y := by rintro rfl; exact lt_irrefl _ hc
  have hlt := lt_of_le_of_ne hxy hne
  -- `x` is at least the middle of `a` and `b`, `y` at most
  have m1 : a + b ≤ 2 * x := by
    by_contra hx
    rw [not_le] at hx
    have : |x - b| < |x - a| := by
      rw [abs_of_neg (a := x - a) (by linarith), abs_lt]; constructor <;> linarith
    linarith
  have m2 : 2 * y ≤ a + b := by
    by_contra hy
    rw [not_le] at hy
    have : |y - a| < |y - b| := by
      rw [abs_of_pos (a := y - b) (by linarith), abs_lt]; constructor <;> linarith
    linarith
  linarith

theorem isFloat_nat {p : ℕ} {m : ℕ} (hm : m ≤ 2 ^ p) : Spec.IsFloat p (m : K) :=
  ⟨m, 0, by rw [abs_of_nonneg (by positivity)]; exact_mod_cast hm, by simp⟩

end Trikit
