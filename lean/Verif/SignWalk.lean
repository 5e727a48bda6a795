import Mathlib.Algebra.Module.LinearMap.End
import Mathlib.Algebra.Module.Pi
import Mathlib.Algebra.Order.Field.Basic
import Mathlib.Algebra.Order.BigOperators.Group.Finset
import Mathlib.Data.Nat.Choose.Sum
import Mathlib.Data.Nat.Factorial.Basic
import Mathlib.Tactic.Ring
import Mathlib.Tactic.Linarith
import Mathlib.Tactic.FieldSimp
import Mathlib.Tactic.Positivity

/-! # Differences and sums of a function on the integers: one sign of a random walk -/

set_option linter.unusedSectionVars false

namespace Trikit

variable {K : Type} [Field K] [LinearOrder K] [IsStrictOrderedRing K]

open Finset

/-- Difference over the two values of a sign. -/
def signDiff : (ℤ → K) →ₗ[K] (ℤ → K) where
  toFun h x := h (x + 1) - h (x - 1)
  map_add' f g := by funext x; simp only [Pi.add_apply]; ring
  map_smul' c f := by funext x; simp only [Pi.smul_apply, smul_eq_mul, RingHom.id_apply]; ring

/-- Sum over the two values of a sign. -/
def signSum : (ℤ → K) →ₗ[K] (ℤ → K) where
  toFun h x := h (x + 1) + h (x - 1)
  map_add' f g := by funext x; simp only [Pi.add_apply]; ring
  map_smul' c f := by funext x; simp only [Pi.smul_apply, smul_eq_mul, RingHom.id_apply]; ring

theorem signDiff_apply (h : ℤ → K) (x : ℤ) : signDiff h x = h (x + 1) - h (x - 1) := rfl
theorem signSum_apply (h : ℤ → K) (x : ℤ) : signSum h x = h (x + 1) + h (x - 1) := rfl

theorem sign_commute : Commute (signDiff (K := K)) signSum := by
  refine LinearMap.ext (fun h => funext (fun x => ?_))
  show signSum h (x + 1) - signSum h (x - 1) = signDiff h (x + 1) + signDiff h (x - 1)
  simp only [signSum_apply, signDiff_apply]
  ring

theorem signDiff_sq : (signDiff (K := K)) ^ 2 = signSum ^ 2 - 4 := by
  refine LinearMap.ext (fun h => funext (fun x => ?_))
  rw [LinearMap.sub_apply, pow_two, pow_two, Module.End.mul_apply, Module.End.mul_apply, Pi.sub_apply]
  have : ((4 : Module.End K (ℤ → K)) h) x = 4 * h x := by
    rw [show (4 : Module.End K (ℤ → K)) = ((4 : ℕ) : Module.End K (ℤ → K)) by norm_cast, Module.End.natCast_apply]
    simp
  rw [this]
  simp only [signSum_apply, signDiff_apply]
  rw [show x + 1 - 1 = x by ring, show x - 1 + 1 = x by ring]
  ring

/-- The function that is 1 at 0 only. -/
def atZero : ℤ → K := fun x => if x = 0 then 1 else 0

/-- A sum of `q` signs vanishes in `q.choose (q / 2)` cases, more generally is `2 k - q` in `q.choose k` cases. -/
theorem signSum_support (q : ℕ) (x : ℤ) (hx : (q : ℤ) < |x|) : ((signSum (K := K)) ^ q) atZero x = 0 := by
  induction q generalizing x with
  | zero =>
    rw [pow_zero, Module.End.one_apply]
    unfold atZero
    rw [if_neg]
    rintro rfl; simp at hx
  | succ q ih =>
    rw [pow_succ', Module.End.mul_apply, signSum_apply]
    push_cast at hx
    rcases abs_cases x with ⟨h1, h2⟩ | ⟨h1, h2⟩
    · rw [ih (x + 1) (by rw [abs_of_nonneg (by omega)]; omega), ih (x - 1) (by rw [abs_of_nonneg (by omega)]; omega), add_zero]
    · rw [ih (x + 1) (by rw [abs_of_nonpos (by omega)]; omega), ih (x - 1) (by rw [abs_of_nonpos (by omega)]; omega), add_zero]

theorem signSum_choose (q k : ℕ) : ((signSum (K := K)) ^ q) atZero (2 * k - q) = (q.choose k : K) := by
  induction q generalizing k with
  | zero =>
    rw [pow_zero, Module.End.one_apply]
    unfold atZero
    cases k with
    | zero => simp
    | succ k => rw [if_neg (by push_cast; omega)]; simp
  | succ q ih =>
    rw [pow_succ', Module.End.mul_apply, signSum_apply]
    cases k with
    | zero =>
      rw [signSum_support q (2 * ((0 : ℕ) : ℤ) - ((q + 1 : ℕ) : ℤ) - 1) (by rw [abs_of_nonpos] <;> push_cast <;> omega), add_zero]
      have := ih 0
      rw [show 2 * ((0 : ℕ) : ℤ) - ((q + 1 : ℕ) : ℤ) + 1 = 2 * ((0 : ℕ) : ℤ) - q by push_cast; ring, this]
      simp
    | succ k =>
      have h1 := ih (k + 1)
      have h2 := ih k
      rw [show 2 * ((k + 1 : ℕ) : ℤ) - ((q + 1 : ℕ) : ℤ) + 1 = 2 * ((k + 1 : ℕ) : ℤ) - q by push_cast; ring,
        show 2 * ((k + 1 : ℕ) : ℤ) - ((q + 1 : ℕ) : ℤ) - 1 = 2 * (k : ℤ) - q by push_cast; ring, h1, h2, Nat.choose_succ_succ]
      push_cast; ring

theorem signSum_odd (q : ℕ) (x : ℤ) (hx : (q + x) % 2 = 1) : ((signSum (K := K)) ^ q) atZero x = 0 := by
  induction q generalizing x with
  | zero =>
    rw [pow_zero, Module.End.one_apply]
    unfold atZero
    rw [if_neg]
    rintro rfl; simp at hx
  | succ q ih =>
    rw [pow_succ', Module.End.mul_apply, signSum_apply, ih _ (by push_cast at hx; omega), ih _ (by push_cast at hx; omega), add_zero]

/-- `(2 r)! (2 q)! / (r! q! (r + q)!)`. -/
def superCatalan (r q : ℕ) : K :=
  ((2 * r).factorial * (2 * q).factorial : ℕ) / (r.factorial * q.factorial * (r + q).factorial : ℕ)

theorem superCatalan_pos (r q : ℕ) : (0 : K) < superCatalan r q := by
  unfold superCatalan
  have h1 : 0 < (2 * r).factorial * (2 * q).factorial := Nat.mul_pos (Nat.factorial_pos _) (Nat.factorial_pos _)
  have h2 : 0 < r.factorial * q.factorial * (r + q).factorial :=
    Nat.mul_pos (Nat.mul_pos (Nat.factorial_pos _) (Nat.factorial_pos _)) (Nat.factorial_pos _)
  exact div_pos (by exact_mod_cast h1) (by exact_mod_cast h2)

theorem superCatalan_succ (r q : ℕ) : (superCatalan (r + 1) q : K) = 4 * superCatalan r q - superCatalan r (q + 1) := by
  unfold superCatalan
  rw [show 2 * (r + 1) = 2 * r + 1 + 1 by ring, show 2 * (q + 1) = 2 * q + 1 + 1 by ring,
    show r + 1 + q = r + q + 1 by ring, show r + (q + 1) = r + q + 1 by ring]
  simp only [Nat.factorial_succ]
  push_cast
  have h1 : ((r.factorial : ℕ) : K) ≠ 0 := by exact_mod_cast Nat.factorial_ne_zero r
  have h2 : ((q.factorial : ℕ) : K) ≠ 0 := by exact_mod_cast Nat.factorial_ne_zero q
  have h3 : (((r + q).factorial : ℕ) : K) ≠ 0 := by exact_mod_cast Nat.factorial_ne_zero (r + q)
  have h4 : ((r : K) + 1) ≠ 0 := by positivity
  have h5 : ((q : K) + 1) ≠ 0 := by positivity
  have h6 : ((r : K) + q + 1) ≠ 0 := by positivity
  field_simp
  ring

theorem superCatalan_zero (q : ℕ) : (superCatalan 0 q : K) = ((2 * q).choose q : ℕ) := by
  unfold superCatalan
  have h := Nat.choose_mul_factorial_mul_factorial (show q ≤ 2 * q by omega)
  rw [show 2 * q - q = q by omega] at h
  have h2 : ((q.factorial : ℕ) : K) ≠ 0 := by exact_mod_cast Nat.factorial_ne_zero q
  rw [← h]
  simp only [Nat.mul_zero, Nat.factorial_zero, Nat.zero_add]
  push_cast
  field_simp

/-- Differences and sums of the function at 0 alternate in sign. -/
theorem walk_value (r q : ℕ) : (signDiff ^ (2 * r) * signSum ^ q : Module.End K (ℤ → K)) atZero 0 =
    (-1) ^ r * (if q % 2 = 0 then superCatalan r (q / 2) else 0) := by
  induction r generalizing q with
  | zero =>
    rw [Nat.mul_zero, pow_zero, one_mul, pow_zero, one_mul]
    split
    · rename_i hq
      obtain ⟨k, rfl⟩ : ∃ k, q = 2 * k := ⟨q / 2, by omega⟩
      have := signSum_choose (K := K) (2 * k) k
      rw [show 2 * (k : ℤ) - ((2 * k : ℕ) : ℤ) = 0 by push_cast; ring] at this
      rw [this, show 2 * k / 2 = k by omega, superCatalan_zero]
    · exact signSum_odd q 0 (by omega)
  | succ r ih =>
    have e : (signDiff (K := K)) ^ (2 * (r + 1)) * signSum ^ q =
        signDiff ^ (2 * r) * signSum ^ (q + 2) - 4 * (signDiff ^ (2 * r) * signSum ^ q) := by
      rw [show 2 * (r + 1) = 2 * r + 2 by ring, pow_add, signDiff_sq, mul_sub, sub_mul, mul_assoc, ← pow_add,
        show 2 + q = q + 2 by ring]
      congr 1
      rw [show (4 : Module.End K (ℤ → K)) = ((4 : ℕ) : Module.End K (ℤ → K)) by norm_cast, ← (Nat.cast_commute 4 _).eq, mul_assoc]
    rw [e, LinearMap.sub_apply, Pi.sub_apply, ih (q + 2)]
    have : (4 * (signDiff ^ (2 * r) * signSum ^ q) : Module.End K (ℤ → K)) atZero 0 =
        4 * ((signDiff ^ (2 * r) * signSum ^ q : Module.End K (ℤ → K)) atZero 0) := by
      rw [show (4 : Module.End K (ℤ → K)) = ((4 : ℕ) : Module.End K (ℤ → K)) by norm_cast, Module.End.mul_apply, Module.End.natCast_apply]
      simp
    rw [this, ih q, show (q + 2) % 2 = q % 2 by omega, show (q + 2) / 2 = q / 2 + 1 by omega, pow_succ]
    split
    · rw [superCatalan_succ]; ring
    · ring

/-- Sums over all values of `q` signs. -/
theorem signSum_binomial (q : ℕ) (h : ℤ → K) (x : ℤ) :
    ((signSum (K := K)) ^ q) h x = ∑ u ∈ range (q + 1), (q.choose u : K) * h (x + ((q - u : ℕ) : ℤ) - u) := by
  induction q generalizing h x with
  | zero => simp
  | succ q ih =>
    rw [pow_succ, Module.End.mul_apply, ih]
    have := Finset.sum_choose_succ_mul (R := K) (fun i j => h (x + (j : ℤ) - i)) q
    rw [this, ← sum_add_distrib]
    refine sum_congr rfl (fun u hu => ?_)
    rw [mem_range] at hu
    rw [signSum_apply, ← mul_add]
    congr 2
    · congr 1
      rw [show q + 1 - u = q - u + 1 by omega]; push_cast; ring
    · congr 1
      push_cast; ring

theorem signSum_even (q : ℕ) {h : ℤ → K} (hh : ∀ x, h (-x) = h x) : ∀ x, ((signSum (K := K)) ^ q) h (-x) = ((signSum (K := K)) ^ q) h x := by
  induction q with
  | zero => exact hh
  | succ q ih =>
    intro x
    rw [pow_succ', Module.End.mul_apply, signSum_apply, signSum_apply, show -x + 1 = -(x - 1) by ring,
      show -x - 1 = -(x + 1) by ring, ih, ih, add_comm]

theorem signDiff_parity (t : ℕ) {h : ℤ → K} (hh : ∀ x, h (-x) = h x) :
    ∀ x, ((signDiff (K := K)) ^ t) h (-x) = (-1) ^ t * ((signDiff (K := K)) ^ t) h x := by
  induction t with
  | zero => intro x; simpa using hh x
  | succ t ih =>
    intro x
    rw [pow_succ' signDiff, Module.End.mul_apply, signDiff_apply, signDiff_apply, show -x + 1 = -(x - 1) by ring,
      show -x - 1 = -(x + 1) by ring, ih, ih, pow_succ]
    ring

end Trikit
