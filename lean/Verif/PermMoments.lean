import Mathlib.Algebra.BigOperators.Field
import Mathlib.Algebra.BigOperators.Ring.Finset
import Mathlib.Algebra.Field.Basic
import Mathlib.Data.Fintype.Perm
import Mathlib.Data.Fintype.Pi
import Mathlib.Data.Fintype.BigOperators
import Mathlib.Algebra.CharZero.Defs
import Mathlib.Tactic.Ring
import Mathlib.Tactic.LinearCombination
import Mathlib.Tactic.FieldSimp

/-! # Sums over all permutations and over independent choices -/

set_option linter.unusedSectionVars false

namespace Trikit

variable {K : Type} [Field K] [CharZero K]

open Finset

/-- The sum over all permutations does not depend on the argument. -/
theorem perm_sum_same {N : ℕ} (f : Fin N → K) (i j : Fin N) :
    ∑ σ : Equiv.Perm (Fin N), f (σ i) = ∑ σ : Equiv.Perm (Fin N), f (σ j) := by
  rw [← Equiv.sum_comp (Equiv.mulRight (Equiv.swap i j)) (fun σ : Equiv.Perm (Fin N) => f (σ j))]
  refine sum_congr rfl (fun σ _ => ?_)
  simp [Equiv.Perm.mul_apply]

theorem perm_sum_pair {N : ℕ} (f : Fin N → K) {i j k : Fin N} (hj : j ≠ i) (hk : k ≠ i) :
    ∑ σ : Equiv.Perm (Fin N), f (σ i) * f (σ j) = ∑ σ : Equiv.Perm (Fin N), f (σ i) * f (σ k) := by
  rw [← Equiv.sum_comp (Equiv.mulRight (Equiv.swap j k)) (fun σ : Equiv.Perm (Fin N) => f (σ i) * f (σ k))]
  refine sum_congr rfl (fun σ _ => ?_)
  simp [Equiv.Perm.mul_apply, Equiv.swap_apply_of_ne_of_ne hj.symm hk.symm]

/-- Mean over all permutations: each place sees every value equally often. -/
theorem perm_sum_one {N : ℕ} (f : Fin N → K) (i : Fin N) :
    (N : K) * ∑ σ : Equiv.Perm (Fin N), f (σ i) = (Fintype.card (Equiv.Perm (Fin N)) : K) * ∑ k, f k := by
  have h : ∑ j : Fin N, ∑ σ : Equiv.Perm (Fin N), f (σ j) = (N : K) * ∑ σ : Equiv.Perm (Fin N), f (σ i) := by
    rw [sum_congr rfl (fun j _ => perm_sum_same f j i)]
    simp
  rw [← h, sum_comm, sum_congr rfl (fun σ _ => Equiv.sum_comp σ f)]
  simp

/-- A linear statistic of a random permutation with centered scores has mean 0 … -/
theorem perm_mean {N : ℕ} {a b : Fin N → K} (hb : ∑ k, b k = 0) :
    ∑ σ : Equiv.Perm (Fin N), ∑ i, a i * b (σ i) = 0 := by
  rw [sum_comm]
  refine sum_eq_zero (fun i _ => ?_)
  rw [← mul_sum]
  have h := perm_sum_one b i
  rw [hb, mul_zero] at h
  have hN : (N : K) ≠ 0 := by
    have : 0 < N := i.pos
    exact_mod_cast this.ne'
  rw [(mul_eq_zero.1 h).resolve_left hN, mul_zero]

/-- … and mean square `Σ a² Σ b² / (N - 1)`. -/
theorem perm_square {N : ℕ} (hN : 2 ≤ N) {a b : Fin N → K} (ha : ∑ k, a k = 0) (hb : ∑ k, b k = 0) :
    ((N : K) - 1) * ∑ σ : Equiv.Perm (Fin N), (∑ i, a i * b (σ i)) ^ 2 =
      (Fintype.card (Equiv.Perm (Fin N)) : K) * ((∑ i, a i ^ 2) * ∑ i, b i ^ 2) := by
  have hN0 : (N : K) ≠ 0 := by exact_mod_cast (by omega : N ≠ 0)
  have hN1 : (N : K) - 1 ≠ 0 := by
    rw [sub_ne_zero]; exact_mod_cast (by omega : N ≠ 1)
  set C := (Fintype.card (Equiv.Perm (Fin N)) : K)
  set B := ∑ i, b i ^ 2
  have hU : ∀ i, (N : K) * ∑ σ : Equiv.Perm (Fin N), b (σ i) * b (σ i) = C * B := by
    intro i
    have := perm_sum_one (fun k => b k ^ 2) i
    simp only [sq] at this
    rw [this]
    simp only [C, B, sq]
  have hW : ∀ i j, j ≠ i → ((N : K) - 1) * ((N : K) * ∑ σ : Equiv.Perm (Fin N), b (σ i) * b (σ j)) = -(C * B) := by
    intro i j hj
    have h0 : ∑ k : Fin N, ∑ σ : Equiv.Perm (Fin N), b (σ i) * b (σ k) = 0 := by
      rw [sum_comm]
      refine sum_eq_zero (fun σ _ => ?_)
      rw [← mul_sum, Equiv.sum_comp σ b, hb, mul_zero]
    rw [← add_sum_erase _ _ (mem_univ i)] at h0
    rw [sum_congr rfl (fun k hk => perm_sum_pair b (ne_of_mem_erase hk) hj)] at h0
    rw [sum_const, card_erase_of_mem (mem_univ i), card_univ, Fintype.card_fin, nsmul_eq_mul,
      Nat.cast_sub (by omega), Nat.cast_one] at h0
    linear_combination (N : K) * h0 - hU i
  have key : (N : K) * (((N : K) - 1) * ∑ σ : Equiv.Perm (Fin N), (∑ i, a i * b (σ i)) ^ 2) =
      (N : K) * (C * ((∑ i, a i ^ 2) * B)) := by
    have e : ∀ σ : Equiv.Perm (Fin N), (∑ i, a i * b (σ i)) ^ 2 = ∑ i, ∑ j, a i * a j * (b (σ i) * b (σ j)) := by
      intro σ
      rw [sq, sum_mul_sum]
      refine sum_congr rfl (fun i _ => sum_congr rfl (fun j _ => by ring))
    rw [sum_congr rfl (fun σ _ => e σ), sum_comm]
    have e2 : ∀ i, ((N : K) - 1) * ((N : K) * ∑ σ : Equiv.Perm (Fin N), ∑ j, a i * a j * (b (σ i) * b (σ j))) =
        (N : K) * (C * B) * a i ^ 2 := by
      intro i
      rw [sum_comm, mul_sum, mul_sum, ← add_sum_erase _ _ (mem_univ i)]
      have h1 : ∀ j ∈ univ.erase i, ((N : K) - 1) * ((N : K) * ∑ σ : Equiv.Perm (Fin N), a i * a j * (b (σ i) * b (σ j))) =
          -(C * B) * a i * a j := by
        intro j hj
        rw [← mul_sum]
        linear_combination a i * a j * hW i j (ne_of_mem_erase hj)
      rw [sum_congr rfl h1, ← mul_sum (univ.erase i) a]
      have h2 : ∑ j ∈ univ.erase i, a j = -a i := by
        have := add_sum_erase univ a (mem_univ i)
        rw [ha] at this
        linear_combination this
      rw [h2, ← mul_sum]
      linear_combination a i * a i * ((N : K) - 1) * hU i
    have e3 := sum_congr (rfl : (univ : Finset (Fin N)) = univ) (fun i _ => e2 i)
    rw [← mul_sum, ← mul_sum, ← mul_sum] at e3
    linear_combination e3
  exact mul_left_cancel₀ hN0 key

/-- Sums over independent choices, one coordinate summed first. -/
theorem pi_sum_update {ι : Type} [Fintype ι] [DecidableEq ι] {α : ι → Type} [∀ i, Fintype (α i)] [DecidableEq (∀ i, α i)]
    (j : ι) (F : (∀ i, α i) → K) :
    ∑ σ : ∀ i, α i, ∑ τ : α j, F (Function.update σ j τ) = (Fintype.card (α j) : K) * ∑ σ : ∀ i, α i, F σ := by
  have e : ∑ q : (∀ i, α i) × α j, F (Function.update q.1 j q.2) = ∑ q : (∀ i, α i) × α j, F q.1 := by
    refine Fintype.sum_equiv
      { toFun := fun q => (Function.update q.1 j q.2, q.1 j)
        invFun := fun q => (Function.update q.1 j q.2, q.1 j)
        left_inv := fun q => by simp
        right_inv := fun q => by simp } _ _ (fun q => rfl)
  rw [Fintype.sum_prod_type, Fintype.sum_prod_type] at e
  rw [e, mul_sum]
  refine sum_congr rfl (fun σ _ => ?_)
  simp

theorem pi_sum_zero {ι : Type} [Fintype ι] [DecidableEq ι] {α : ι → Type} [∀ i, Fintype (α i)] [DecidableEq (∀ i, α i)]
    (j : ι) [Nonempty (α j)] {F : (∀ i, α i) → K} (h : ∀ σ, ∑ τ : α j, F (Function.update σ j τ) = 0) :
    ∑ σ : ∀ i, α i, F σ = 0 := by
  have := pi_sum_update j F
  rw [sum_congr rfl (fun σ _ => h σ), sum_const_zero] at this
  have hc : (Fintype.card (α j) : K) ≠ 0 := by exact_mod_cast Fintype.card_ne_zero
  exact (mul_eq_zero.1 this.symm).resolve_left hc

end Trikit
