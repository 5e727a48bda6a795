import Verif.SignWalk
import Verif.Props.NullCal

/-! # The variance of the calendar year statistic is larger than the one used (C196) -/

set_option linter.unusedSectionVars false

namespace Trikit

variable {K : Type} [Field K] [LinearOrder K] [IsStrictOrderedRing K]

open Finset

/-! ### two places of one period -/

theorem perm_sum_pair' {N : ℕ} (u v : Fin N → K) {i j k : Fin N} (hj : j ≠ i) (hk : k ≠ i) :
    ∑ σ : Equiv.Perm (Fin N), u (σ i) * v (σ j) = ∑ σ : Equiv.Perm (Fin N), u (σ i) * v (σ k) := by
  rw [← Equiv.sum_comp (Equiv.mulRight (Equiv.swap j k)) (fun σ : Equiv.Perm (Fin N) => u (σ i) * v (σ k))]
  refine sum_congr rfl (fun σ _ => ?_)
  simp [Equiv.Perm.mul_apply, Equiv.swap_apply_of_ne_of_ne hj.symm hk.symm]

/-- Two different places see every pair of different values equally often. -/
theorem perm_sum_two {N : ℕ} (u v : Fin N → K) {i j : Fin N} (hij : j ≠ i) :
    (N : K) * ((N : K) - 1) * ∑ τ : Equiv.Perm (Fin N), u (τ i) * v (τ j) =
      (Fintype.card (Equiv.Perm (Fin N)) : K) * ((∑ k, u k) * (∑ k, v k) - ∑ k, u k * v k) := by
  have h1 : ∑ k : Fin N, ∑ τ : Equiv.Perm (Fin N), u (τ i) * v (τ k) =
      (∑ τ : Equiv.Perm (Fin N), u (τ i)) * ∑ k, v k := by
    rw [sum_comm, sum_mul]
    refine sum_congr rfl (fun τ _ => ?_)
    rw [← mul_sum, Equiv.sum_comp τ v]
  rw [← add_sum_erase _ _ (mem_univ i), sum_congr rfl (fun k hk => perm_sum_pair' u v (ne_of_mem_erase hk) hij),
    sum_const, card_erase_of_mem (mem_univ i), card_univ, Fintype.card_fin, nsmul_eq_mul,
    Nat.cast_sub (by have := i.pos; omega), Nat.cast_one] at h1
  have h2 := perm_sum_one u i
  have h3 := perm_sum_one (fun k => u k * v k) i
  linear_combination (N : K) * h1 - h3 + (∑ k, v k) * h2

/-- Two places of a balanced list have opposite signs more often than equal ones. -/
theorem perm_signs {N : ℕ} {F : Fin N → ℤ} (hF : ∀ k, F k = -1 ∨ F k = 0 ∨ F k = 1) (h0 : ∑ k, F k = 0) {κ : K}
    (hκ : κ * ((∑ k, (F k : K) ^ 2) - 1) = -1) (φ ψ : ℤ → K) {i j : Fin N} (hij : j ≠ i) :
    4 * ∑ τ : Equiv.Perm (Fin N), φ (F (τ i)) * ψ (F (τ j)) =
      ∑ τ : Equiv.Perm (Fin N), ((φ |F (τ i)| + φ (-|F (τ i)|)) * (ψ |F (τ j)| + ψ (-|F (τ j)|)) +
        κ * ((φ |F (τ i)| - φ (-|F (τ i)|)) * (ψ |F (τ j)| - ψ (-|F (τ j)|)))) := by
  set f : Fin N → K := fun k => (F k : K) with hf
  have f0 : ∑ k, f k = 0 := by rw [hf]; rw [← Int.cast_sum, h0]; simp
  have f3 : ∀ k, f k ^ 2 * f k = f k := by
    intro k
    simp only [hf]
    rcases hF k with h | h | h <;> rw [h] <;> norm_num
  have f4 : ∀ k, f k ^ 2 * f k ^ 2 = f k ^ 2 := by
    intro k
    linear_combination f k * f3 k
  have hN : (N : K) ≠ 0 := by exact_mod_cast i.pos.ne'
  have hN1 : (N : K) - 1 ≠ 0 := by
    rw [sub_ne_zero]
    intro e
    have e1 : N = 1 := by exact_mod_cast e
    subst e1
    exact hij (Subsingleton.elim _ _)
  have hNN := mul_ne_zero hN hN1
  have s1 : ∀ i, ∑ τ : Equiv.Perm (Fin N), f (τ i) = 0 := by
    intro i
    have := perm_sum_one f i
    rw [f0, mul_zero] at this
    exact (mul_eq_zero.1 this).resolve_left hN
  have s21 : ∑ τ : Equiv.Perm (Fin N), f (τ i) ^ 2 * f (τ j) = 0 := by
    have := perm_sum_two (fun k => f k ^ 2) f hij
    rw [f0, mul_zero, sum_congr rfl (fun k _ => f3 k), f0, sub_zero, mul_zero] at this
    exact (mul_eq_zero.1 this).resolve_left hNN
  have s12 : ∑ τ : Equiv.Perm (Fin N), f (τ i) * f (τ j) ^ 2 = 0 := by
    have := perm_sum_two f (fun k => f k ^ 2) hij
    rw [f0, zero_mul, sum_congr rfl (fun k _ => (mul_comm _ _).trans (f3 k)), f0, sub_zero, mul_zero] at this
    exact (mul_eq_zero.1 this).resolve_left hNN
  have s11 : ∑ τ : Equiv.Perm (Fin N), f (τ i) * f (τ j) = κ * ∑ τ : Equiv.Perm (Fin N), f (τ i) ^ 2 * f (τ j) ^ 2 := by
    have h1 := perm_sum_two f f hij
    have h2 := perm_sum_two (fun k => f k ^ 2) (fun k => f k ^ 2) hij
    rw [f0, zero_mul, zero_sub] at h1
    rw [sum_congr rfl (fun k _ => f4 k)] at h2
    have e : ∑ k, f k * f k = ∑ k, f k ^ 2 := sum_congr rfl (fun k _ => (pow_two _).symm)
    rw [e] at h1
    apply mul_left_cancel₀ hNN
    rw [h1]
    have hκ' : κ * ((∑ k, f k ^ 2) - 1) = -1 := hκ
    linear_combination (-κ) * h2 - (Fintype.card (Equiv.Perm (Fin N)) : K) * (∑ k, f k ^ 2) * hκ'
  have key : ∀ τ : Equiv.Perm (Fin N), 4 * (φ (F (τ i)) * ψ (F (τ j))) -
      ((φ |F (τ i)| + φ (-|F (τ i)|)) * (ψ |F (τ j)| + ψ (-|F (τ j)|)) +
        κ * ((φ |F (τ i)| - φ (-|F (τ i)|)) * (ψ |F (τ j)| - ψ (-|F (τ j)|)))) =
      (φ 1 - φ (-1)) * (ψ 1 - ψ (-1)) * (f (τ i) * f (τ j) - κ * (f (τ i) ^ 2 * f (τ j) ^ 2)) +
      (ψ 1 - ψ (-1)) * (2 * φ 0 * f (τ j) + (φ 1 + φ (-1) - 2 * φ 0) * (f (τ i) ^ 2 * f (τ j))) +
      (φ 1 - φ (-1)) * (2 * ψ 0 * f (τ i) + (ψ 1 + ψ (-1) - 2 * ψ 0) * (f (τ i) * f (τ j) ^ 2)) := by
    intro τ
    simp only [hf]
    rcases hF (τ i) with h | h | h <;> rcases hF (τ j) with h' | h' | h' <;> rw [h, h'] <;> norm_num <;> ring
  have hs := sum_congr (rfl : (univ : Finset (Equiv.Perm (Fin N))) = univ) (fun τ _ => key τ)
  simp only [sum_sub_distrib, sum_add_distrib, ← mul_sum] at hs
  rw [s1 i, s1 j, s21, s12, s11] at hs
  simp only [sum_add_distrib, ← mul_sum]
  linear_combination hs

/-! ### two diagonals -/

/-- Sum over the sign of place `d`. -/
def flipSum (d : ℕ) (f : (ℕ → ℤ) → K) (s : ℕ → ℤ) : K :=
  f (Function.update s d |s d|) + f (Function.update s d (-|s d|))

/-- Difference over the sign of place `d`. -/
def flipDiff (d : ℕ) (f : (ℕ → ℤ) → K) (s : ℕ → ℤ) : K :=
  f (Function.update s d |s d|) - f (Function.update s d (-|s d|))

/-- Correlation of the signs of two link ratios of period `d` that are not at the median. -/
def signCorr (n d : ℕ) : K :=
  if 2 ≤ n - 1 - d then -1 / (((n - 1 - d - (n - 1 - d) % 2 : ℕ) : K) - 1) else -1

theorem signCorr_neg (n d : ℕ) : (signCorr n d : K) < 0 := by
  unfold signCorr
  split
  · have h : (2 : K) ≤ ((n - 1 - d - (n - 1 - d) % 2 : ℕ) : K) := by exact_mod_cast (by omega)
    exact div_neg_of_neg_of_pos (by norm_num) (by linarith)
  · norm_num

/-- Signs of diagonal `m`, nothing on the other places. -/
def diagCut (n : ℕ) (F : ℕ → ℕ → ℤ) (m : ℕ) (σ : Spec.Orders n) (d : ℕ) : ℤ :=
  if d ≤ m then diagSign n F m σ d else 0

section
variable {n : ℕ} {F : ℕ → ℕ → ℤ}

theorem diagCut_three (hF : Spec.Signs n F) (m : ℕ) (σ : Spec.Orders n) (d : ℕ) :
    diagCut n F m σ d = -1 ∨ diagCut n F m σ d = 0 ∨ diagCut n F m σ d = 1 := by
  unfold diagCut
  split
  · exact diagSign_three hF m σ d
  · simp

theorem diagCut_update {m d : ℕ} (hm : m < n - 1) (hd1 : d < n - 1) (σ : Spec.Orders n) (τ : Equiv.Perm (Fin (n - 1 - d))) :
    diagCut n F m (Function.update σ ⟨d, hd1⟩ τ) =
      if h : d ≤ m then Function.update (diagCut n F m σ) d (F d (τ ⟨m - d, by omega⟩)) else diagCut n F m σ := by
  have hne : ∀ a, a ≠ d → diagSign n F m (Function.update σ ⟨d, hd1⟩ τ) a = diagSign n F m σ a := by
    intro a ha
    unfold diagSign
    by_cases h1 : a < n - 1
    · rw [dif_pos h1, dif_pos h1, Function.update_of_ne (by simpa using ha)]
    · rw [dif_neg h1, dif_neg h1]
  by_cases h : d ≤ m
  · rw [dif_pos h]
    funext a
    by_cases ha : a = d
    · subst ha
      rw [Function.update_self]
      unfold diagCut diagSign
      rw [if_pos h, dif_pos hd1, dif_pos (by omega), Function.update_self]
    · rw [Function.update_of_ne ha]
      unfold diagCut
      rw [hne a ha]
  · rw [dif_neg h]
    funext a
    unfold diagCut
    by_cases ha : a = d
    · subst ha; rw [if_neg h, if_neg h]
    · rw [hne a ha]

theorem signs_square (hF : Spec.Signs n F) {d : ℕ} (hd : d < n - 1) :
    ∑ k : Fin (n - 1 - d), (F d k : K) ^ 2 = ((n - 1 - d - (n - 1 - d) % 2 : ℕ) : K) := by
  have h1 : ∀ k : Fin (n - 1 - d), (F d k : K) ^ 2 = if F d k = 0 then 0 else 1 := by
    intro k
    rcases hF.three d hd k k.2 with h | h | h <;> rw [h] <;> norm_num
  rw [sum_congr rfl (fun k _ => h1 k), ← Finset.sum_range (fun k => if F d k = 0 then (0 : K) else 1)]
  have h2 : ∑ k ∈ range (n - 1 - d), (if F d k = 0 then (0 : K) else 1) =
      ∑ k ∈ range (n - 1 - d), (1 - (if F d k = 0 then (1 : K) else 0)) :=
    sum_congr rfl (fun k _ => by split <;> ring)
  rw [h2, sum_sub_distrib, sum_boole, hF.zero d hd, sum_const, card_range, nsmul_eq_mul, mul_one,
    Nat.cast_sub (Nat.mod_le _ _)]

/-- The signs of a period on two diagonals may be drawn again, with their correlation. -/
theorem pair_flip (hF : Spec.Signs n F) {m m' : ℕ} (hm : m < m') (hm' : m' < n - 1) {d : ℕ} (hd : d ≤ m') (f : (ℕ → ℤ) → K) :
    4 * ∑ σ, f (diagCut n F m σ) * f (diagCut n F m' σ) =
      ∑ σ, flipSum d f (diagCut n F m σ) * flipSum d f (diagCut n F m' σ) +
      signCorr n d * ∑ σ, flipDiff d f (diagCut n F m σ) * flipDiff d f (diagCut n F m' σ) := by
  have hd1 : d < n - 1 := by omega
  have hc : (Fintype.card (Equiv.Perm (Fin (n - 1 - d))) : K) ≠ 0 := by exact_mod_cast Fintype.card_ne_zero
  have h1 := pi_sum_update (⟨d, hd1⟩ : Fin (n - 1)) (fun σ : Spec.Orders n => f (diagCut n F m σ) * f (diagCut n F m' σ))
  have h2 := pi_sum_update (⟨d, hd1⟩ : Fin (n - 1)) (fun σ : Spec.Orders n =>
    flipSum d f (diagCut n F m σ) * flipSum d f (diagCut n F m' σ) +
      signCorr n d * (flipDiff d f (diagCut n F m σ) * flipDiff d f (diagCut n F m' σ)))
  rw [mul_sum _ _ (signCorr n d), ← sum_add_distrib]
  apply mul_left_cancel₀ hc
  rw [← h2, mul_left_comm, ← h1, mul_sum]
  refine sum_congr rfl (fun σ _ => ?_)
  have e' : ∀ τ : Equiv.Perm (Fin (n - 1 - d)), diagCut n F m' (Function.update σ ⟨d, hd1⟩ τ) =
      Function.update (diagCut n F m' σ) d (F d (τ ⟨m' - d, by omega⟩)) := by
    intro τ
    rw [diagCut_update hm' hd1, dif_pos hd]
  simp only [e']
  by_cases hdm : d ≤ m
  · have e : ∀ τ : Equiv.Perm (Fin (n - 1 - d)), diagCut n F m (Function.update σ ⟨d, hd1⟩ τ) =
        Function.update (diagCut n F m σ) d (F d (τ ⟨m - d, by omega⟩)) := by
      intro τ
      rw [diagCut_update (by omega) hd1, dif_pos hdm]
    simp only [e]
    have hκ : signCorr n d * ((∑ k : Fin (n - 1 - d), (F d k : K) ^ 2) - 1) = -1 := by
      rw [signs_square hF hd1]
      unfold signCorr
      rw [if_pos (by omega)]
      have h : (2 : K) ≤ ((n - 1 - d - (n - 1 - d) % 2 : ℕ) : K) := by exact_mod_cast (by omega)
      have h' : ((n - 1 - d - (n - 1 - d) % 2 : ℕ) : K) - 1 ≠ 0 := by linarith
      field_simp
    have h3 := perm_signs (F := fun k : Fin (n - 1 - d) => F d k) (fun k => hF.three d hd1 k k.2)
      (by rw [← hF.sum d hd1, Finset.sum_range]) hκ (fun v => f (Function.update (diagCut n F m σ) d v))
      (fun v => f (Function.update (diagCut n F m' σ) d v)) (i := ⟨m - d, by omega⟩) (j := ⟨m' - d, by omega⟩)
      (by intro e; rw [Fin.mk.injEq] at e; omega)
    rw [h3]
    refine sum_congr rfl (fun τ _ => ?_)
    unfold flipSum flipDiff
    simp only [Function.update_self, Function.update_idem]
  · have e : ∀ τ : Equiv.Perm (Fin (n - 1 - d)), diagCut n F m (Function.update σ ⟨d, hd1⟩ τ) = diagCut n F m σ := by
      intro τ
      rw [diagCut_update (by omega) hd1, dif_neg hdm]
    simp only [e]
    have hz : diagCut n F m σ d = 0 := by unfold diagCut; rw [if_neg hdm]
    have hu : Function.update (diagCut n F m σ) d 0 = diagCut n F m σ := by
      rw [← hz]; exact Function.update_eq_self d _
    have h3 := perm_sign (F := fun k : Fin (n - 1 - d) => F d k) (fun k => hF.three d hd1 k k.2)
      (by rw [← hF.sum d hd1, Finset.sum_range]) (fun v => f (Function.update (diagCut n F m' σ) d v)) ⟨m' - d, by omega⟩
    have es : flipSum d f (diagCut n F m σ) = 2 * f (diagCut n F m σ) := by
      unfold flipSum; rw [hz, abs_zero, neg_zero, hu]; ring
    have ed : flipDiff d f (diagCut n F m σ) = 0 := by
      unfold flipDiff; rw [hz, abs_zero, neg_zero, hu]; ring
    simp only [es, ed, zero_mul, mul_zero, add_zero]
    rw [← mul_sum, ← mul_sum]
    have h4 : ∑ τ : Equiv.Perm (Fin (n - 1 - d)), flipSum d f (Function.update (diagCut n F m' σ) d (F d (τ ⟨m' - d, by omega⟩))) =
        2 * ∑ τ : Equiv.Perm (Fin (n - 1 - d)), f (Function.update (diagCut n F m' σ) d (F d (τ ⟨m' - d, by omega⟩))) := by
      rw [h3]
      refine sum_congr rfl (fun τ _ => ?_)
      unfold flipSum
      simp only [Function.update_self, Function.update_idem]
    rw [h4]; ring

end

/-! ### the deviation of the smaller count and its differences -/

/-- Deviation of the smaller count from its mean for `N` signs with the sum `x`. -/
def walkBase (N : ℕ) (x : ℤ) : K := ((N : K) - |(x : K)|) / 2 - Spec.coinMean N

theorem walkBase_even (N : ℕ) (x : ℤ) : (walkBase N (-x) : K) = walkBase N x := by
  unfold walkBase; push_cast; rw [abs_neg]

theorem walkBase_diff (N : ℕ) : signDiff (signDiff (walkBase (K := K) N)) = (-2 : K) • atZero - signSum atZero := by
  funext x
  rw [signDiff_apply, signDiff_apply, signDiff_apply, Pi.sub_apply, Pi.smul_apply, signSum_apply, smul_eq_mul]
  unfold walkBase atZero
  have hx : x = 0 ∨ x = 1 ∨ x = -1 ∨ 2 ≤ x ∨ x ≤ -2 := by omega
  rcases hx with rfl | rfl | rfl | h | h
  · norm_num; ring
  · norm_num; ring
  · norm_num; ring
  · have h' : (2 : K) ≤ (x : K) := by exact_mod_cast h
    rw [if_neg (by omega), if_neg (by omega), if_neg (by omega)]
    push_cast
    rw [abs_of_nonneg (by linarith), abs_of_nonneg (by linarith), abs_of_nonneg (by linarith), abs_of_nonneg (by linarith)]
    ring
  · have h' : (x : K) ≤ (-2 : K) := by exact_mod_cast h
    rw [if_neg (by omega), if_neg (by omega), if_neg (by omega)]
    push_cast
    rw [abs_of_nonpos (by linarith), abs_of_nonpos (by linarith), abs_of_nonpos (by linarith), abs_of_nonpos (by linarith)]
    ring

/-- The sign of the differences alternates. -/
theorem walk_alternate (N r q : ℕ) :
    0 ≤ (-1) ^ (r + 1) * (signDiff ^ (2 * r + 2) * signSum ^ q : Module.End K (ℤ → K)) (walkBase N) 0 := by
  have e : (signDiff ^ (2 * r + 2) * signSum ^ q : Module.End K (ℤ → K)) =
      signDiff ^ (2 * r) * signSum ^ q * signDiff ^ 2 := by
    rw [pow_add, mul_assoc, (sign_commute.pow_pow 2 q).eq, mul_assoc]
  have h1 : (signDiff ^ (2 * r + 2) * signSum ^ q : Module.End K (ℤ → K)) (walkBase N) 0 =
      -2 * (signDiff ^ (2 * r) * signSum ^ q : Module.End K (ℤ → K)) atZero 0 -
        (signDiff ^ (2 * r) * signSum ^ (q + 1) : Module.End K (ℤ → K)) atZero 0 := by
    rw [e, Module.End.mul_apply, pow_two, Module.End.mul_apply signDiff signDiff, walkBase_diff, map_sub, map_smul, Pi.sub_apply, Pi.smul_apply,
      smul_eq_mul, pow_succ (signSum (K := K)) q, ← mul_assoc, Module.End.mul_apply (signDiff ^ (2 * r) * signSum ^ q) signSum]
  rw [h1, walk_value, walk_value]
  have h2 : ((-1 : K) ^ r) * (-1) ^ r = 1 := by rw [← mul_pow]; norm_num
  have hp : ∀ q : ℕ, (0 : K) ≤ if q % 2 = 0 then superCatalan r (q / 2) else 0 := by
    intro q
    split
    · exact (superCatalan_pos _ _).le
    · exact le_rfl
  have := hp q
  have := hp (q + 1)
  rw [pow_succ]
  calc (0 : K) ≤ 2 * (if q % 2 = 0 then superCatalan r (q / 2) else 0) +
        (if (q + 1) % 2 = 0 then superCatalan r ((q + 1) / 2) else 0) := by linarith
    _ = _ := by linear_combination (-(2 * (if q % 2 = 0 then superCatalan r (q / 2) else 0) +
        (if (q + 1) % 2 = 0 then superCatalan r ((q + 1) / 2) else 0))) * h2

theorem walk_odd (N t q : ℕ) (ht : t % 2 = 1) : (signDiff ^ t * signSum ^ q : Module.End K (ℤ → K)) (walkBase N) 0 = 0 := by
  rw [Module.End.mul_apply]
  have h := signDiff_parity (K := K) t (h := (signSum ^ q : Module.End K (ℤ → K)) (walkBase N))
    (signSum_even q (walkBase_even N)) 0
  rw [neg_zero, (Nat.odd_iff.2 ht).neg_one_pow] at h
  linarith

theorem walk_centred (N : ℕ) : (signSum ^ N : Module.End K (ℤ → K)) (walkBase N) 0 = 0 := by
  rw [signSum_binomial]
  have h := coin_centred (K := K) N
  unfold Spec.binExp at h
  rw [div_eq_zero_iff, or_iff_left (by positivity)] at h
  rw [← h]
  refine sum_congr rfl (fun u hu => ?_)
  rw [mem_range] at hu
  congr 1
  unfold walkBase Spec.smaller
  congr 1
  rcases Nat.le_total u (N - u) with h1 | h1
  · have h2 : (u : K) ≤ ((N - u : ℕ) : K) := by exact_mod_cast h1
    rw [min_eq_left h1]
    push_cast
    rw [zero_add, abs_of_nonneg (by linarith), Nat.cast_sub (by omega)]
    ring
  · have h2 : ((N - u : ℕ) : K) ≤ (u : K) := by exact_mod_cast h1
    rw [min_eq_right h1]
    push_cast
    rw [zero_add, abs_of_nonpos (by linarith), Nat.cast_sub (by omega)]
    ring

/-- Two results of the same number of differences have the same sign. -/
theorem walk_sign {N N' t q q' : ℕ} (h : t = 0 → q = N) :
    (t % 2 = 1 → (signDiff ^ t * signSum ^ q : Module.End K (ℤ → K)) (walkBase N) 0 = 0) ∧
    (t % 2 = 0 → (t = 0 → q' = N') → 0 ≤ (signDiff ^ t * signSum ^ q : Module.End K (ℤ → K)) (walkBase N) 0 *
      (signDiff ^ t * signSum ^ q' : Module.End K (ℤ → K)) (walkBase N') 0) := by
  refine ⟨walk_odd N t q, fun ht h' => ?_⟩
  rcases Nat.eq_zero_or_pos t with h0 | h0
  · subst h0
    rw [h rfl, h' rfl, pow_zero, one_mul, one_mul, walk_centred, zero_mul]
  · obtain ⟨r, rfl⟩ : ∃ r, t = 2 * r + 2 := ⟨t / 2 - 1, by omega⟩
    have h1 := mul_nonneg (walk_alternate (K := K) N r q) (walk_alternate (K := K) N' r q')
    have h2 : ((-1 : K) ^ (r + 1)) * (-1) ^ (r + 1) = 1 := by rw [← mul_pow]; norm_num
    rw [mul_mul_mul_comm, h2, one_mul] at h1
    exact h1

/-! ### summing the signs one after the other -/

/-- Number of signs. -/
def signNum (k : ℕ) (a : ℕ → ℤ) : ℕ := (∑ d ∈ range k, a d).toNat

/-- After `t` differences and some sums the rest depends on the other signs `L` through differences and sums of
the deviation. -/
def WalkForm (k t : ℕ) (L : List ℕ) (f : (ℕ → ℤ) → K) : Prop :=
  ∀ a : ℕ → ℤ, (∀ d, a d = 0 ∨ a d = 1) → ∃ (c : K) (q : ℕ), 0 ≤ c ∧ (c = 0 ∨ ((q : ℤ) + t + (L.map a).sum = ∑ d ∈ range k, a d)) ∧
    ∀ s : ℕ → ℤ, (∀ d, |s d| = a d) → f s = c * (signDiff ^ t * signSum ^ q : Module.End K (ℤ → K)) (walkBase (signNum k a)) ((L.map s).sum)

theorem flip_abs {s a : ℕ → ℤ} (hs : ∀ d, |s d| = a d) (d : ℕ) (v : ℤ) (hv : |v| = a d) (e : ℕ) : |Function.update s d v e| = a e := by
  by_cases h : e = d
  · subst h; rw [Function.update_self, hv]
  · rw [Function.update_of_ne h, hs]

theorem flip_sum {s : ℕ → ℤ} {d : ℕ} {L : List ℕ} (hd : d ∉ L) (v : ℤ) :
    ((d :: L).map (Function.update s d v)).sum = v + (L.map s).sum := by
  rw [List.map_cons, List.sum_cons, Function.update_self]
  congr 2
  exact List.map_congr_left (fun e he => Function.update_of_ne (fun (h : e = d) => hd (h ▸ he)) _ _)

theorem WalkForm.sum {k t d : ℕ} {L : List ℕ} {f : (ℕ → ℤ) → K} (hf : WalkForm k t (d :: L) f) (hd : d ∉ L) :
    WalkForm k t L (flipSum d f) := by
  intro a ha
  obtain ⟨c, q, hc, hq, h⟩ := hf a ha
  rcases ha d with h0 | h1
  · refine ⟨2 * c, q, by linarith, ?_, fun s hs => ?_⟩
    · rcases hq with hq | hq
      · exact Or.inl (by rw [hq, mul_zero])
      · rw [List.map_cons, List.sum_cons, h0, zero_add] at hq
        exact Or.inr hq
    · unfold flipSum
      rw [hs d, h0, h _ (flip_abs hs d 0 (by rw [h0]; rfl)), h _ (flip_abs hs d (-0) (by rw [h0]; rfl)), flip_sum hd, flip_sum hd]
      rw [neg_zero, zero_add]; ring
  · refine ⟨c, q + 1, hc, ?_, fun s hs => ?_⟩
    · rcases hq with hq | hq
      · exact Or.inl hq
      · rw [List.map_cons, List.sum_cons, h1] at hq
        right; push_cast; linarith
    · unfold flipSum
      rw [hs d, h1, h _ (flip_abs hs d 1 (by rw [h1]; rfl)), h _ (flip_abs hs d (-1) (by rw [h1]; rfl)), flip_sum hd, flip_sum hd,
        pow_succ' (signSum (K := K)) q, ← mul_assoc, (sign_commute.pow_left t).eq, mul_assoc, Module.End.mul_apply signSum, signSum_apply,
        ← mul_add, show (1 : ℤ) + (L.map s).sum = (L.map s).sum + 1 by ring, show (-1 : ℤ) + (L.map s).sum = (L.map s).sum - 1 by ring]

theorem WalkForm.diff {k t d : ℕ} {L : List ℕ} {f : (ℕ → ℤ) → K} (hf : WalkForm k t (d :: L) f) (hd : d ∉ L) :
    WalkForm k (t + 1) L (flipDiff d f) := by
  intro a ha
  obtain ⟨c, q, hc, hq, h⟩ := hf a ha
  rcases ha d with h0 | h1
  · refine ⟨0, q, le_rfl, Or.inl rfl, fun s hs => ?_⟩
    unfold flipDiff
    rw [hs d, h0, neg_zero]; ring
  · refine ⟨c, q, hc, ?_, fun s hs => ?_⟩
    · rcases hq with hq | hq
      · exact Or.inl hq
      · rw [List.map_cons, List.sum_cons, h1] at hq
        right; push_cast; linarith
    · unfold flipDiff
      rw [hs d, h1, h _ (flip_abs hs d 1 (by rw [h1]; rfl)), h _ (flip_abs hs d (-1) (by rw [h1]; rfl)), flip_sum hd, flip_sum hd,
        pow_succ' (signDiff (K := K)) t, mul_assoc, Module.End.mul_apply signDiff, signDiff_apply,
        ← mul_sub, show (1 : ℤ) + (L.map s).sum = (L.map s).sum + 1 by ring, show (-1 : ℤ) + (L.map s).sum = (L.map s).sum - 1 by ring]

theorem three_abs {v : ℤ} (h : v = -1 ∨ v = 0 ∨ v = 1) : |v| = 0 ∨ |v| = 1 := by
  rcases h with rfl | rfl | rfl <;> simp

section
variable {n : ℕ} {F : ℕ → ℕ → ℤ}

theorem WalkForm.done {k t : ℕ} {f : (ℕ → ℤ) → K} (hf : WalkForm k t [] f) {s s' : ℕ → ℤ}
    (hs : ∀ d, s d = -1 ∨ s d = 0 ∨ s d = 1) (hs' : ∀ d, s' d = -1 ∨ s' d = 0 ∨ s' d = 1) : 0 ≤ (-1) ^ t * (f s * f s') := by
  obtain ⟨c, q, hc, hq, h⟩ := hf (fun d => |s d|) (fun d => three_abs (hs d))
  obtain ⟨c', q', hc', hq', h'⟩ := hf (fun d => |s' d|) (fun d => three_abs (hs' d))
  rw [h s (fun _ => rfl), h' s' (fun _ => rfl)]
  rcases hq with hq | hq
  · rw [hq]; simp
  rcases hq' with hq' | hq'
  · rw [hq']; simp
  simp only [List.map_nil, List.sum_nil, add_zero] at *
  have e : t = 0 → q = signNum k (fun d => |s d|) := by
    intro h0
    unfold signNum
    rw [← hq, h0]; simp
  have e' : t = 0 → q' = signNum k (fun d => |s' d|) := by
    intro h0
    unfold signNum
    rw [← hq', h0]; simp
  obtain ⟨h1, h2⟩ := walk_sign (K := K) (N' := signNum k (fun d => |s' d|)) (q' := q') e
  rcases Nat.mod_two_eq_zero_or_one t with ht | ht
  · rw [(Nat.even_iff.2 ht).neg_one_pow, one_mul, mul_mul_mul_comm]
    exact mul_nonneg (mul_nonneg hc hc') (h2 ht e')
  · rw [h1 ht]; simp

/-- Deviations of two diagonals are not negatively correlated, nor are their even differences; odd differences are not
positively correlated. -/
theorem walk_cov (hF : Spec.Signs n F) {m m' : ℕ} (hm : m < m') (hm' : m' < n - 1) {k t : ℕ} {L : List ℕ} (hL : L.Nodup)
    (hLm : ∀ d ∈ L, d ≤ m') {f : (ℕ → ℤ) → K} (hf : WalkForm k t L f) :
    0 ≤ (-1) ^ t * ∑ σ, f (diagCut n F m σ) * f (diagCut n F m' σ) := by
  induction L generalizing t f with
  | nil =>
    rw [mul_sum]
    exact sum_nonneg (fun σ _ => hf.done (diagCut_three hF m σ) (diagCut_three hF m' σ))
  | cons d L ih =>
    rw [List.nodup_cons] at hL
    have h1 := ih hL.2 (fun e he => hLm e (List.mem_cons_of_mem _ he)) (hf.sum hL.1)
    have h2 := ih hL.2 (fun e he => hLm e (List.mem_cons_of_mem _ he)) (hf.diff hL.1)
    have h3 := pair_flip hF hm hm' (hLm d List.mem_cons_self) f
    have h4 := signCorr_neg (K := K) n d
    have h5 := mul_nonneg (neg_pos.2 h4).le h2
    rw [pow_succ] at h5
    have : (0 : K) ≤ 4 * ((-1) ^ t * ∑ σ, f (diagCut n F m σ) * f (diagCut n F m' σ)) := by
      rw [mul_left_comm, h3, mul_add]
      refine add_nonneg h1 (h5.trans_eq ?_)
      ring
    linarith

/-- Deviation of the smaller count of signs. -/
def walkDev (k : ℕ) (s : ℕ → ℤ) : K := walkBase (signNum k (fun d => |s d|)) (∑ d ∈ range k, s d)

theorem walkDev_form (k : ℕ) : WalkForm k 0 (List.range k) (walkDev (K := K) k) := by
  intro a ha
  have hsum : ∀ s : ℕ → ℤ, ((List.range k).map s).sum = ∑ d ∈ range k, s d := fun s => rfl
  refine ⟨1, 0, zero_le_one, Or.inr ?_, fun s hs => ?_⟩
  · rw [hsum]; simp
  · have e : (fun d => |s d|) = a := funext hs
    unfold walkDev
    rw [e, hsum]
    simp

end

section
variable {n : ℕ} {F : ℕ → ℕ → ℤ}

theorem walkDev_count {s : ℕ → ℤ} (hs : ∀ d, s d = -1 ∨ s d = 0 ∨ s d = 1) {j k : ℕ} (hj : j ≤ k) (h0 : ∀ d, j ≤ d → s d = 0) :
    (walkDev k s : K) = ((min (signCount j (-1) s) (signCount j 1 s) : ℕ) : K) - Spec.coinMean (signCount j (-1) s + signCount j 1 s) := by
  have hcount : ∀ v : ℤ, v ≠ 0 → ∑ d ∈ range k, (if s d = v then (1 : ℤ) else 0) = (signCount j v s : ℕ) := by
    intro v hv
    unfold signCount
    rw [← sum_subset (range_subset_range.2 hj) (fun d _ hd => ?_), sum_boole]
    rw [mem_range, not_lt] at hd
    rw [h0 d hd, if_neg hv.symm]
  have h1 := hcount 1 (by norm_num)
  have h2 := hcount (-1) (by norm_num)
  have e1 : ∑ d ∈ range k, s d = (signCount j 1 s : ℕ) - (signCount j (-1) s : ℕ) := by
    rw [← h1, ← h2, ← sum_sub_distrib]
    refine sum_congr rfl (fun d _ => ?_)
    rcases hs d with h | h | h <;> rw [h] <;> norm_num
  have e2 : ∑ d ∈ range k, |s d| = ((signCount j (-1) s + signCount j 1 s : ℕ) : ℤ) := by
    push_cast
    rw [← h1, ← h2, ← sum_add_distrib]
    refine sum_congr rfl (fun d _ => ?_)
    rcases hs d with h | h | h <;> rw [h] <;> norm_num
  unfold walkDev signNum
  rw [e2, e1, Int.toNat_natCast]
  generalize signCount j (-1) s = S
  generalize signCount j 1 s = T
  unfold walkBase
  congr 1
  push_cast
  rcases le_total (S : K) T with h | h
  · rw [min_eq_left h, abs_of_nonneg (by linarith)]; ring
  · rw [min_eq_right h, abs_of_nonpos (by linarith)]; ring

theorem signCount_cut (m : ℕ) (σ : Spec.Orders n) (v : ℤ) :
    signCount (m + 1) v (diagCut n F m σ) = signCount (m + 1) v (diagSign n F m σ) := by
  unfold signCount
  congr 1
  refine filter_congr (fun d hd => ?_)
  rw [mem_range] at hd
  unfold diagCut
  rw [if_pos (by omega)]

/-- Deviation of the smaller count of diagonal `m`. -/
def diagDev (n : ℕ) (F : ℕ → ℕ → ℤ) (m : ℕ) (σ : Spec.Orders n) : K :=
  ((min (signCount (m + 1) (-1) (diagSign n F m σ)) (signCount (m + 1) 1 (diagSign n F m σ)) : ℕ) : K) -
    Spec.coinMean (signCount (m + 1) (-1) (diagSign n F m σ) + signCount (m + 1) 1 (diagSign n F m σ))

theorem diagDev_walk (hF : Spec.Signs n F) {m k : ℕ} (hk : m + 1 ≤ k) (σ : Spec.Orders n) :
    (diagDev n F m σ : K) = walkDev k (diagCut n F m σ) := by
  rw [walkDev_count (diagCut_three hF m σ) hk (fun d hd => by unfold diagCut; rw [if_neg (by omega)]), signCount_cut, signCount_cut]
  rfl

theorem diag_cov (hF : Spec.Signs n F) {m m' : ℕ} (hm : m < m') (hm' : m' < n - 1) :
    (0 : K) ≤ ∑ σ, diagDev n F m σ * diagDev n F m' σ := by
  have h := walk_cov hF hm hm' (List.nodup_range (n := m' + 1)) (fun d hd => by rw [List.mem_range] at hd; omega)
    (walkDev_form (K := K) (m' + 1))
  rw [pow_zero, one_mul] at h
  refine h.trans_eq (sum_congr rfl (fun σ _ => ?_))
  rw [diagDev_walk hF (k := m' + 1) (by omega), diagDev_walk hF (k := m' + 1) (by omega)]

theorem walkDev_three {s a : ℕ → ℤ} (hs : ∀ d, |s d| = a d) :
    (walkDev 3 s : K) = walkBase (signNum 3 a) (s 0 + s 1 + s 2) := by
  have e : (fun d => |s d|) = a := funext hs
  unfold walkDev
  rw [e]
  simp [sum_range_succ]

theorem flips_neg {s : ℕ → ℤ} (h0 : |s 0| = 1) (h1 : |s 1| = 1) (h2 : |s 2| = 0 ∨ |s 2| = 1) :
    flipSum 2 (flipDiff 1 (flipDiff 0 (walkDev (K := K) 3))) s < 0 := by
  have key : ∀ u v w : ℤ, |u| = |s 0| → |v| = |s 1| → |w| = |s 2| →
      walkDev (K := K) 3 (Function.update (Function.update (Function.update s 2 w) 1 v) 0 u) =
        walkBase (signNum 3 (fun d => |s d|)) (u + v + w) := by
    intro u v w hu hv hw
    rw [walkDev_three (a := fun d => |s d|) (flip_abs (flip_abs (flip_abs (fun _ => rfl) 2 w hw) 1 v hv) 0 u hu)]
    simp
  have e1 : ∀ w, Function.update s 2 w 1 = s 1 := fun w => by simp
  have e0 : ∀ v w, Function.update (Function.update s 2 w) 1 v 0 = s 0 := fun v w => by simp
  unfold flipSum flipDiff
  simp only [e1, e0]
  rw [key _ _ _ (by simp) (by simp) (by simp), key _ _ _ (by simp) (by simp) (by simp), key _ _ _ (by simp) (by simp) (by simp),
    key _ _ _ (by simp) (by simp) (by simp), key _ _ _ (by simp) (by simp) (by simp), key _ _ _ (by simp) (by simp) (by simp),
    key _ _ _ (by simp) (by simp) (by simp), key _ _ _ (by simp) (by simp) (by simp), h0, h1]
  generalize signNum 3 (fun d => |s d|) = N
  unfold walkBase
  rcases h2 with h2 | h2 <;> rw [h2] <;> norm_num <;> linarith

theorem perm_two {N : ℕ} {i j k l : Fin N} (hij : i ≠ j) (hkl : k ≠ l) : ∃ τ : Equiv.Perm (Fin N), τ i = k ∧ τ j = l := by
  have h1 : Equiv.swap i k j ≠ k := by
    intro e
    have := (Equiv.swap i k).injective (e.trans (Equiv.swap_apply_left i k).symm)
    exact hij this.symm
  refine ⟨Equiv.swap (Equiv.swap i k j) l * Equiv.swap i k, ?_, ?_⟩
  · rw [Equiv.Perm.mul_apply, Equiv.swap_apply_left, Equiv.swap_apply_of_ne_of_ne h1.symm hkl]
  · rw [Equiv.Perm.mul_apply, Equiv.swap_apply_left]

theorem signs_two (hF : Spec.Signs n F) {d : ℕ} (hd : 2 ≤ n - 1 - d) : ∃ k l : Fin (n - 1 - d), k ≠ l ∧ F d k ≠ 0 ∧ F d l ≠ 0 := by
  have h1 := signs_square (K := ℚ) hF (d := d) (by omega)
  have h2 : ∀ k : Fin (n - 1 - d), (F d k : ℚ) ^ 2 = if F d k ≠ 0 then 1 else 0 := by
    intro k
    rcases hF.three d (by omega) k k.2 with h | h | h <;> rw [h] <;> norm_num
  rw [sum_congr rfl (fun k _ => h2 k), sum_boole] at h1
  have h3 : (univ.filter (fun k : Fin (n - 1 - d) => F d k ≠ 0)).card = n - 1 - d - (n - 1 - d) % 2 := by exact_mod_cast h1
  obtain ⟨k, hk, l, hl, hkl⟩ := one_lt_card.1 (show 1 < (univ.filter (fun k : Fin (n - 1 - d) => F d k ≠ 0)).card by omega)
  exact ⟨k, l, hkl, (mem_filter.1 hk).2, (mem_filter.1 hl).2⟩

theorem diag_cov_pos (hF : Spec.Signs n F) (hn : 4 ≤ n) : (0 : K) < ∑ σ, diagDev n F 1 σ * diagDev n F 2 σ := by
  have f0 : WalkForm 3 0 [0, 1, 2] (walkDev (K := K) 3) := walkDev_form 3
  have hm' : 2 < n - 1 := by omega
  have hm : 1 < 2 := by norm_num
  have f1 := f0.diff (by simp)
  have f2 := f1.diff (by simp)
  have f3 := f2.sum (by simp)
  have a0 := walk_cov hF hm hm' (by simp) (by simp) (f0.sum (by simp))
  have b0 := walk_cov hF hm hm' (by simp) (by simp) (f1.sum (by simp))
  have c0 := walk_cov hF hm hm' (by simp) (by simp) (f2.diff (by simp))
  have p0 := pair_flip hF hm hm' (d := 0) (by norm_num) (walkDev (K := K) 3)
  have p1 := pair_flip hF hm hm' (d := 1) (by norm_num) (flipDiff 0 (walkDev (K := K) 3))
  have p2 := pair_flip hF hm hm' (d := 2) (by norm_num) (flipDiff 1 (flipDiff 0 (walkDev (K := K) 3)))
  have g : 0 < ∑ σ, flipSum 2 (flipDiff 1 (flipDiff 0 (walkDev (K := K) 3))) (diagCut n F 1 σ) *
      flipSum 2 (flipDiff 1 (flipDiff 0 (walkDev (K := K) 3))) (diagCut n F 2 σ) := by
    obtain ⟨k0, l0, h0, hk0, hl0⟩ := signs_two hF (d := 0) (by omega)
    obtain ⟨k1, l1, h1, hk1, hl1⟩ := signs_two hF (d := 1) (by omega)
    obtain ⟨τ0, u0, v0⟩ := perm_two (i := (⟨1, by omega⟩ : Fin (n - 1 - 0))) (j := ⟨2, by omega⟩) (by simp) h0
    obtain ⟨τ1, u1, v1⟩ := perm_two (i := (⟨0, by omega⟩ : Fin (n - 1 - 1))) (j := ⟨1, by omega⟩) (by simp) h1
    set σ : Spec.Orders n := Function.update (Function.update (fun _ => 1) (⟨0, by omega⟩ : Fin (n - 1)) τ0) (⟨1, by omega⟩ : Fin (n - 1)) τ1 with hσ
    have hne : ∀ {v : ℤ}, (v = -1 ∨ v = 0 ∨ v = 1) → v ≠ 0 → |v| = 1 := by
      rintro v (rfl | rfl | rfl) h <;> simp_all
    have s10 : |diagCut n F 1 σ 0| = 1 := by
      refine hne (diagCut_three hF 1 σ 0) ?_
      rw [hσ, Function.update_comm (by simp), diagCut_update (by omega) (by omega), dif_pos (by norm_num), Function.update_self]
      simpa [u0] using hk0
    have s20 : |diagCut n F 2 σ 0| = 1 := by
      refine hne (diagCut_three hF 2 σ 0) ?_
      rw [hσ, Function.update_comm (by simp), diagCut_update (by omega) (by omega), dif_pos (by norm_num), Function.update_self]
      simpa [v0] using hl0
    have s11 : |diagCut n F 1 σ 1| = 1 := by
      refine hne (diagCut_three hF 1 σ 1) ?_
      rw [hσ, diagCut_update (by omega) (by omega), dif_pos (by norm_num), Function.update_self]
      simpa [u1] using hk1
    have s21 : |diagCut n F 2 σ 1| = 1 := by
      refine hne (diagCut_three hF 2 σ 1) ?_
      rw [hσ, diagCut_update (by omega) (by omega), dif_pos (by norm_num), Function.update_self]
      simpa [v1] using hl1
    refine sum_pos' (fun τ _ => ?_) ⟨σ, mem_univ _, ?_⟩
    · have := f3.done (diagCut_three hF 1 τ) (diagCut_three hF 2 τ)
      simpa using this
    · exact mul_pos_of_neg_of_neg (flips_neg s10 s11 (three_abs (diagCut_three hF 1 σ 2)))
        (flips_neg s20 s21 (three_abs (diagCut_three hF 2 σ 2)))
  have k0 := signCorr_neg (K := K) n 0
  have k1 := signCorr_neg (K := K) n 1
  have k2 := signCorr_neg (K := K) n 2
  norm_num at a0 b0 c0
  have q2 := mul_nonneg_of_nonpos_of_nonpos k2.le (show _ ≤ (0 : K) by linarith [c0])
  have w2 : 0 < ∑ σ, flipDiff 1 (flipDiff 0 (walkDev (K := K) 3)) (diagCut n F 1 σ) * flipDiff 1 (flipDiff 0 (walkDev (K := K) 3)) (diagCut n F 2 σ) := by
    linarith
  have w1 := mul_neg_of_neg_of_pos k1 w2
  have w0 := mul_pos_of_neg_of_neg k0 (show ∑ σ, flipDiff 0 (walkDev (K := K) 3) (diagCut n F 1 σ) * flipDiff 0 (walkDev (K := K) 3) (diagCut n F 2 σ) < 0 by
    linarith)
  have e : ∑ σ, (diagDev n F 1 σ : K) * diagDev n F 2 σ = ∑ σ, walkDev 3 (diagCut n F 1 σ) * walkDev 3 (diagCut n F 2 σ) :=
    sum_congr rfl (fun σ _ => by rw [diagDev_walk hF (k := 3) (by norm_num), diagDev_walk hF (k := 3) (by norm_num)])
  rw [e]
  linarith

end

section
variable {n : ℕ} {x : ℕ → ℕ → K} {t : Spec.Orders n → Tri K} {c : Spec.Orders n → ℕ → ℕ → K}

/-- **C196, violation for all sizes**: over all orders of the link ratios of each period, the mean square error of the
calendar year statistic is never below the average variance the test uses, and is strictly larger for every triangle with
four or more periods: the interval of the test is too narrow. -/
theorem C196_larger (h : Spec.Shuffled n x t c) (hx : Spec.Clear n x) {rows : Spec.Orders n → List (CyRow K)}
    (hr : ∀ σ, cyTable (t σ) = .ok (rows σ)) :
    ∃ (Z : Spec.Orders n → ℕ) (E V : Spec.Orders n → K), (∀ σ, cyTotals (t σ) = .ok (Z σ, .fin (E σ), .fin (V σ))) ∧
      ∑ σ, V σ ≤ ∑ σ, ((Z σ : K) - E σ) ^ 2 ∧ (4 ≤ n → ∑ σ, V σ < ∑ σ, ((Z σ : K) - E σ) ^ 2) := by
  refine ⟨_, _, _, fun σ => cyTotals_coin (h.stair σ) (fun i j hij => (h.pos σ i j hij).ne') (hr σ), ?_⟩
  obtain ⟨F, hF, hA⟩ := h.signs hx
  have hrow : ∀ σ, ∀ k ∈ range (n - 2), (((cySpecRow (t σ) (k + 2)).Z : K) - Spec.coinMean (cySpecRow (t σ) (k + 2)).n) =
      diagDev n F (k + 1) σ := by
    intro σ k hk
    rw [mem_range] at hk
    unfold diagDev
    rw [← (cyRow_signs hA hk σ).1, ← (cyRow_signs hA hk σ).2]
    rfl
  have hvar : ∀ k ∈ range (n - 2), ∑ σ, (Spec.coinVar (cySpecRow (t σ) (k + 2)).n : K) = ∑ σ, diagDev n F (k + 1) σ * diagDev n F (k + 1) σ := by
    intro k hk
    have hk' := mem_range.1 hk
    have h1 := diag_mean hF (m := k + 1) (by omega)
      (h := fun S L => (((min S L : ℕ) : K) - Spec.coinMean (S + L)) ^ 2 - Spec.coinVar (S + L)) (fun a => by
      rw [← coin_square (K := K) a]
      unfold Spec.binExp
      congr 1
      refine sum_congr rfl (fun s hs => ?_)
      rw [mem_range] at hs
      beta_reduce
      rw [show s + (a - s) = a by omega]; rfl)
    rw [sum_sub_distrib, sub_eq_zero] at h1
    rw [sum_congr rfl (fun σ _ => (pow_two (diagDev n F (k + 1) σ : K)).symm)]
    refine Eq.trans (sum_congr rfl (fun σ _ => ?_)) h1.symm
    rw [← (cyRow_signs hA hk' σ).1, ← (cyRow_signs hA hk' σ).2]
    rfl
  have hsq : ∑ σ, (((∑ k ∈ range (n - 2), (cySpecRow (t σ) (k + 2)).Z : ℕ) : K) -
      ∑ k ∈ range (n - 2), Spec.coinMean (cySpecRow (t σ) (k + 2)).n) ^ 2 =
      ∑ k ∈ range (n - 2), ∑ l ∈ range (n - 2), ∑ σ, diagDev n F (k + 1) σ * diagDev n F (l + 1) σ := by
    have e : ∀ σ, (((∑ k ∈ range (n - 2), (cySpecRow (t σ) (k + 2)).Z : ℕ) : K) -
        ∑ k ∈ range (n - 2), Spec.coinMean (cySpecRow (t σ) (k + 2)).n) ^ 2 =
        ∑ k ∈ range (n - 2), ∑ l ∈ range (n - 2), diagDev n F (k + 1) σ * diagDev n F (l + 1) σ := by
      intro σ
      push_cast
      rw [← sum_sub_distrib, sum_congr rfl (hrow σ), pow_two, sum_mul_sum]
    rw [sum_congr rfl (fun σ _ => e σ), sum_comm]
    refine sum_congr rfl (fun k _ => ?_)
    rw [sum_comm]
  have hcov : ∀ k ∈ range (n - 2), ∀ l ∈ range (n - 2), (0 : K) ≤ ∑ σ, diagDev n F (k + 1) σ * diagDev n F (l + 1) σ := by
    intro k hk l hl
    rw [mem_range] at hk hl
    rcases Nat.lt_trichotomy k l with h1 | h1 | h1
    · exact diag_cov hF (by omega) (by omega)
    · subst h1
      exact sum_nonneg (fun σ _ => mul_self_nonneg _)
    · rw [sum_congr rfl (fun σ _ => mul_comm _ _)]
      exact diag_cov hF (by omega) (by omega)
  rw [hsq, sum_comm, sum_congr rfl hvar]
  have hle : ∀ k ∈ range (n - 2), ∑ σ, (diagDev n F (k + 1) σ : K) * diagDev n F (k + 1) σ ≤
      ∑ l ∈ range (n - 2), ∑ σ, diagDev n F (k + 1) σ * diagDev n F (l + 1) σ := fun k hk =>
    single_le_sum (f := fun l => ∑ σ, (diagDev n F (k + 1) σ : K) * diagDev n F (l + 1) σ) (fun l hl => hcov k hk l hl) hk
  refine ⟨sum_le_sum hle, fun hn => sum_lt_sum hle ⟨0, mem_range.2 (by omega), ?_⟩⟩
  have h0 : 0 ∈ range (n - 2) := mem_range.2 (by omega)
  exact single_lt_sum (f := fun l => ∑ σ, (diagDev n F (0 + 1) σ : K) * diagDev n F (l + 1) σ) (i := 0) (j := 1) (by norm_num) h0
    (mem_range.2 (by omega)) (diag_cov_pos hF hn) (fun l hl _ => hcov 0 h0 l hl)

end

/-- Seven periods with link ratios 2, 3, 4, … in all orders: the error of the total is larger than its variance. -/
example : ∃ (Z : Spec.Orders 7 → ℕ) (E V : Spec.Orders 7 → ℚ),
    (∀ σ, cyTotals (stairTri 7 (Spec.shuffledVals 7 (fun _ i => (i : ℚ) + 2) σ)) = .ok (Z σ, .fin (E σ), .fin (V σ))) ∧
    ∑ σ, V σ < ∑ σ, ((Z σ : ℚ) - E σ) ^ 2 := by
  obtain ⟨h1, h2, h3⟩ := null_example (n := 7) (by norm_num) (by norm_num)
  choose rows hr using h3
  obtain ⟨Z, E, V, e1, _, e2⟩ := C196_larger h1 h2 hr
  exact ⟨Z, E, V, e1, e2 (by norm_num)⟩

end Trikit
