import Mathlib.Analysis.Convex.Mul
import Mathlib.Analysis.Convex.SpecificFunctions.Pow
import Mathlib.Analysis.Convex.SpecificFunctions.Basic
import Mathlib.Analysis.Convex.SpecificFunctions.Deriv
import Mathlib.Data.Real.Basic

/-!
# The chain ladder reserve as a function of one increment

The reserve is a convex function of every single positive increment of the triangle.
-/

set_option linter.unusedSectionVars false

namespace Trikit

open Finset

/-- Cumulative amounts of increments `D`. -/
noncomputable def Spec.devCum (D : ℕ → ℕ → ℝ) (i j : ℕ) : ℝ := ∑ k ∈ range (j + 1), D i k

/-- Volume weighted factor of period `j` of a staircase of `n` periods with increments `D`. -/
noncomputable def Spec.devFactor (n : ℕ) (D : ℕ → ℕ → ℝ) (j : ℕ) : ℝ :=
  (∑ r ∈ range (n - 1 - j), Spec.devCum D r (j + 1)) / ∑ r ∈ range (n - 1 - j), Spec.devCum D r j

/-- Chain ladder reserve of origin `i` of a staircase of `n` periods with increments `D`. -/
noncomputable def Spec.clReserve (n i : ℕ) (D : ℕ → ℕ → ℝ) : ℝ :=
  Spec.devCum D i (n - 1 - i) * (∏ j ∈ Ico (n - 1 - i) (n - 1), Spec.devFactor n D j - 1)

/-- Increments with the one of origin `r` and period `k` replaced. -/
def repl (D : ℕ → ℕ → ℝ) (r k : ℕ) (z : ℝ) (i j : ℕ) : ℝ := if i = r ∧ j = k then z else D i j

/-- Convex, falling and not negative. -/
structure Falling (g : ℝ → ℝ) : Prop where
  convex : ConvexOn ℝ (Set.Ioi 0) g
  anti : AntitoneOn g (Set.Ioi 0)
  nonneg : ∀ z, 0 < z → 0 ≤ g z

theorem Falling.const {a : ℝ} (ha : 0 ≤ a) : Falling (fun _ => a) :=
  ⟨convexOn_const a (convex_Ioi 0), fun _ _ _ _ _ => le_rfl, fun _ _ => ha⟩

theorem Falling.mul {g h : ℝ → ℝ} (hg : Falling g) (hh : Falling h) : Falling (fun z => g z * h z) := by
  refine ⟨?_, ?_, fun z hz => mul_nonneg (hg.nonneg z hz) (hh.nonneg z hz)⟩
  · exact hg.convex.mul hh.convex (fun z hz => hg.nonneg z hz) (fun z hz => hh.nonneg z hz)
      (hg.anti.monovaryOn hh.anti)
  · intro x hx y hy hxy
    exact mul_le_mul (hg.anti hx hy hxy) (hh.anti hx hy hxy) (hh.nonneg y hy) (hg.nonneg x hx)

theorem Falling.add {g h : ℝ → ℝ} (hg : Falling g) (hh : Falling h) : Falling (fun z => g z + h z) :=
  ⟨hg.convex.add hh.convex, fun _ hx _ hy hxy => add_le_add (hg.anti hx hy hxy) (hh.anti hx hy hxy),
    fun z hz => add_nonneg (hg.nonneg z hz) (hh.nonneg z hz)⟩

theorem Falling.prod {s : Finset ℕ} {g : ℕ → ℝ → ℝ} (h : ∀ l ∈ s, Falling (g l)) :
    Falling (fun z => ∏ l ∈ s, g l z) := by
  classical
  induction s using Finset.induction_on with
  | empty => simpa using Falling.const zero_le_one
  | insert a s ha ih =>
    have e : (fun z => ∏ l ∈ insert a s, g l z) = fun z => g a z * ∏ l ∈ s, g l z := by
      funext z
      rw [Finset.prod_insert ha]
    rw [e]
    exact (h a (Finset.mem_insert_self _ _)).mul (ih (fun l hl => h l (Finset.mem_insert_of_mem hl)))

theorem strict_inv {c I : ℝ} (hc : 0 ≤ c) (hI : 0 < I) : StrictConvexOn ℝ (Set.Ioi 0) (fun z : ℝ => I / (c + z)) := by
  have h := (strictConvexOn_zpow (m := -1) (by norm_num) (by norm_num)).translate_right c
  refine ⟨convex_Ioi 0, fun x hx y hy hxy a b ha hb hab => ?_⟩
  have hx' : x ∈ (fun z => c + z) ⁻¹' Set.Ioi (0 : ℝ) := by
    simp only [Set.mem_preimage, Set.mem_Ioi] at *; linarith
  have hy' : y ∈ (fun z => c + z) ⁻¹' Set.Ioi (0 : ℝ) := by
    simp only [Set.mem_preimage, Set.mem_Ioi] at *; linarith
  have := h.2 hx' hy' hxy ha hb hab
  simp only [Function.comp, zpow_neg, zpow_one, smul_eq_mul] at this ⊢
  have h2 := mul_lt_mul_of_pos_left this hI
  simp only [div_eq_mul_inv]
  calc I * (c + (a * x + b * y))⁻¹ < I * (a * (c + x)⁻¹ + b * (c + y)⁻¹) := h2
    _ = _ := by ring

theorem falling_inv {c χ I : ℝ} (hc : 0 ≤ c) (hχ : χ = 0 ∨ χ = 1) (hI : 0 ≤ I) :
    Falling (fun z : ℝ => I / (c + χ * z)) := by
  rcases hχ with rfl | rfl
  · simpa using Falling.const (div_nonneg hI hc)
  rcases hI.eq_or_lt with rfl | hI
  · simpa using Falling.const le_rfl
  simp only [one_mul]
  refine ⟨(strict_inv hc hI).convexOn, fun x hx y hy hxy => ?_, fun z hz => by positivity⟩
  simp only [Set.mem_Ioi] at hx hy
  exact div_le_div_of_nonneg_left hI.le (by linarith) (by linarith)

theorem affine_convex (c χ : ℝ) : ConvexOn ℝ (Set.Ioi 0) (fun z : ℝ => c + χ * z) := by
  refine ⟨convex_Ioi 0, fun x _ y _ a b _ _ hab => le_of_eq ?_⟩
  simp only [smul_eq_mul]
  linear_combination (-c) * hab

theorem convex_scale {g : ℝ → ℝ} {a : ℝ} (ha : 0 ≤ a) (hg : ConvexOn ℝ (Set.Ioi 0) g) :
    ConvexOn ℝ (Set.Ioi 0) (fun z => a * g z) := hg.smul ha

section
variable {n : ℕ} {D : ℕ → ℕ → ℝ} {r k : ℕ}

/-- Positive observed increments. -/
def Spec.PosIncr (n : ℕ) (D : ℕ → ℕ → ℝ) : Prop := ∀ i j, i + j < n → 0 < D i j

theorem repl_pos (hD : Spec.PosIncr n D) {z : ℝ} (hz : 0 < z) : Spec.PosIncr n (repl D r k z) := by
  intro i j hij
  unfold repl
  split
  · exact hz
  · exact hD i j hij

theorem devCum_repl (D : ℕ → ℕ → ℝ) (r k i j : ℕ) :
    ∃ c : ℝ, ∀ z, Spec.devCum (repl D r k z) i j = c + (if i = r ∧ k ≤ j then 1 else 0) * z := by
  refine ⟨Spec.devCum (repl D r k 0) i j, fun z => ?_⟩
  unfold Spec.devCum
  have e : ∀ l, repl D r k z i l = repl D r k 0 i l + (if l = k then (if i = r then z else 0) else 0) := by
    intro l
    unfold repl
    by_cases h1 : i = r <;> by_cases h2 : l = k <;> simp [h1, h2]
  rw [Finset.sum_congr rfl (fun l _ => e l), Finset.sum_add_distrib, Finset.sum_ite_eq' (range (j + 1)) k]
  congr 1
  by_cases h1 : i = r <;> by_cases h2 : k ≤ j
  · rw [if_pos (by simpa [Nat.lt_succ_iff] using h2), if_pos h1, if_pos ⟨h1, h2⟩, one_mul]
  · rw [if_neg (by simpa [Nat.lt_succ_iff] using h2), if_neg (fun h => h2 h.2), zero_mul]
  · simp [h1]
  · simp [h1]

/-- Sum of the cumulative amounts of the `N` oldest origins. -/
noncomputable def devSum (D : ℕ → ℕ → ℝ) (N j : ℕ) : ℝ := ∑ i ∈ range N, Spec.devCum D i j

theorem devSum_repl (D : ℕ → ℕ → ℝ) (r k N j : ℕ) :
    ∃ c : ℝ, ∀ z, devSum (repl D r k z) N j = c + (if r < N ∧ k ≤ j then 1 else 0) * z := by
  induction N with
  | zero => exact ⟨0, fun z => by simp [devSum]⟩
  | succ N ih =>
    obtain ⟨c, hc⟩ := ih
    obtain ⟨d, hd⟩ := devCum_repl D r k N j
    refine ⟨c + d, fun z => ?_⟩
    have : devSum (repl D r k z) (N + 1) j = devSum (repl D r k z) N j + Spec.devCum (repl D r k z) N j := by
      unfold devSum; rw [Finset.sum_range_succ]
    rw [this, hc, hd]
    by_cases h2 : k ≤ j
    · rcases lt_trichotomy r N with h | h | h
      · simp [h2, h, h.ne', show r < N + 1 by omega]; ring
      · subst h; simp [h2]; ring
      · simp [h2, show ¬ r < N by omega, show ¬ r < N + 1 by omega, show N ≠ r by omega]
    · simp [h2]

theorem devCum_pos (hD : Spec.PosIncr n D) {i j : ℕ} (hij : i + j < n) : 0 < Spec.devCum D i j :=
  Finset.sum_pos (fun k hk => hD i k (by rw [Finset.mem_range] at hk; omega)) ⟨0, by simp⟩

theorem devSum_pos (hD : Spec.PosIncr n D) {N j : ℕ} (h0 : 0 < N) (h : N + j ≤ n) : 0 < devSum D N j :=
  Finset.sum_pos (fun i hi => devCum_pos hD (by rw [Finset.mem_range] at hi; omega)) ⟨0, by simpa using h0⟩

theorem devSum_succ (D : ℕ → ℕ → ℝ) (N j : ℕ) : devSum D N (j + 1) = devSum D N j + ∑ i ∈ range N, D i (j + 1) := by
  unfold devSum Spec.devCum
  rw [← Finset.sum_add_distrib]
  exact Finset.sum_congr rfl (fun i _ => Finset.sum_range_succ _ _)

theorem devFactor_eq (n : ℕ) (D : ℕ → ℕ → ℝ) (j : ℕ) :
    Spec.devFactor n D j = devSum D (n - 1 - j) (j + 1) / devSum D (n - 1 - j) j := rfl

/-- The factor of a period as a function of an increment of an earlier or the same period. -/
theorem factor_form (hD : Spec.PosIncr n D) {j : ℕ} (hj : j + 1 < n) (hk : k ≤ j) :
    ∃ c χ I : ℝ, 0 ≤ c ∧ (χ = 0 ∨ χ = 1) ∧ 0 < I ∧ (r < n - 1 - j → χ = 1) ∧ (n - 1 - j ≤ r → χ = 0) ∧
      ∀ z, 0 < z → Spec.devFactor n (repl D r k z) j = 1 + I / (c + χ * z) := by
  obtain ⟨c, hc⟩ := devSum_repl D r k (n - 1 - j) j
  have hI : ∀ z, ∑ i ∈ range (n - 1 - j), repl D r k z i (j + 1) = ∑ i ∈ range (n - 1 - j), D i (j + 1) := by
    intro z
    refine Finset.sum_congr rfl (fun i _ => ?_)
    unfold repl
    rw [if_neg (by omega)]
  have hpos : ∀ z, 0 < z → 0 < c + (if r < n - 1 - j ∧ k ≤ j then 1 else 0) * z := by
    intro z hz
    rw [← hc]
    exact devSum_pos (repl_pos hD hz) (by omega) (by omega)
  refine ⟨c, if r < n - 1 - j ∧ k ≤ j then 1 else 0, ∑ i ∈ range (n - 1 - j), D i (j + 1), ?_, ?_, ?_, ?_, ?_, ?_⟩
  · by_contra hneg
    push Not at hneg
    have := hpos (-c / 2) (by linarith)
    split at this <;> linarith
  · split
    · exact Or.inr rfl
    · exact Or.inl rfl
  · exact Finset.sum_pos (fun i hi => hD i (j + 1) (by rw [Finset.mem_range] at hi; omega))
      ⟨0, by rw [Finset.mem_range]; omega⟩
  · intro h
    rw [if_pos ⟨h, hk⟩]
  · intro h
    rw [if_neg (by omega)]
  · intro z hz
    rw [devFactor_eq, devSum_succ, hI, hc]
    have := (hpos z hz).ne'
    field_simp

theorem factor_falling (hD : Spec.PosIncr n D) {j : ℕ} (hj : j + 1 < n) (hk : k ≤ j) :
    Falling (fun z => Spec.devFactor n (repl D r k z) j) := by
  obtain ⟨c, χ, I, h1, h2, h3, -, -, h4⟩ := factor_form (r := r) hD hj hk
  have h := (Falling.const zero_le_one).add (falling_inv h1 h2 h3.le)
  refine ⟨h.convex.congr (fun z hz => (h4 z hz).symm), fun x hx y hy hxy => ?_, fun z hz => ?_⟩
  · rw [h4 x hx, h4 y hy]
    exact h.anti hx hy hxy
  · rw [h4 z hz]
    exact h.nonneg z hz

/-- Product of the factors from period `a` on. -/
noncomputable def tailFactor (n : ℕ) (D : ℕ → ℕ → ℝ) (a : ℕ) : ℝ := ∏ j ∈ Ico a (n - 1), Spec.devFactor n D j

theorem tail_falling (hD : Spec.PosIncr n D) {a : ℕ} (hk : k ≤ a) :
    Falling (fun z => tailFactor n (repl D r k z) a) := by
  refine Falling.prod (fun l hl => ?_)
  rw [Finset.mem_Ico] at hl
  exact factor_falling hD (by omega) (by omega)

/-- Factors do not depend on the origins they do not use. -/
theorem factor_const {j : ℕ} (h : n - 1 - j ≤ r) (z z' : ℝ) :
    Spec.devFactor n (repl D r k z) j = Spec.devFactor n (repl D r k z') j := by
  obtain ⟨c, hc⟩ := devSum_repl D r k (n - 1 - j) j
  obtain ⟨d, hd⟩ := devSum_repl D r k (n - 1 - j) (j + 1)
  rw [devFactor_eq, devFactor_eq, hc, hc, hd, hd, if_neg (by omega), if_neg (by omega)]
  ring

theorem tail_const {a : ℕ} (h : n - 1 - a ≤ r) (z z' : ℝ) :
    tailFactor n (repl D r k z) a = tailFactor n (repl D r k z') a := by
  refine Finset.prod_congr rfl (fun l hl => ?_)
  rw [Finset.mem_Ico] at hl
  exact factor_const (by omega) z z'

theorem factor_pos (hD : Spec.PosIncr n D) {j : ℕ} (hj : j + 1 < n) : 0 < Spec.devFactor n D j :=
  div_pos (devSum_pos hD (by omega) (by omega)) (devSum_pos hD (by omega) (by omega))

theorem one_lt_factor (hD : Spec.PosIncr n D) {j : ℕ} (hj : j + 1 < n) : 1 < Spec.devFactor n D j := by
  rw [devFactor_eq, one_lt_div (devSum_pos hD (by omega) (by omega)), devSum_succ]
  have : 0 < ∑ i ∈ range (n - 1 - j), D i (j + 1) :=
    Finset.sum_pos (fun i hi => hD i (j + 1) (by rw [Finset.mem_range] at hi; omega))
      ⟨0, by rw [Finset.mem_range]; omega⟩
  linarith

theorem tail_pos (hD : Spec.PosIncr n D) (a : ℕ) : 0 < tailFactor n D a :=
  Finset.prod_pos (fun l hl => factor_pos hD (by rw [Finset.mem_Ico] at hl; omega))

/-- The volume of period `j` times all later factors is convex in an increment of an earlier or the same period. -/
theorem volume_convex (hD : Spec.PosIncr n D) (m : ℕ) (hm : m + 1 ≤ n) (hk : k ≤ n - 1 - m) :
    ConvexOn ℝ (Set.Ioi 0) (fun z => devSum (repl D r k z) (m + 1) (n - 1 - m) *
      tailFactor n (repl D r k z) (n - 1 - m)) := by
  induction m with
  | zero =>
    obtain ⟨c, hc⟩ := devSum_repl D r k 1 (n - 1)
    simp only [Nat.zero_add, Nat.sub_zero, tailFactor, Finset.Ico_self, Finset.prod_empty, mul_one, hc]
    exact affine_convex _ _
  | succ m ih =>
    have ih := ih (by omega) (by omega)
    set j := n - 1 - (m + 1) with hj
    have hj1 : n - 1 - m = j + 1 := by omega
    rw [hj1] at ih
    have hN : n - 1 - j = m + 1 := by omega
    have key : ∀ z, 0 < z → devSum (repl D r k z) (m + 1) (j + 1) * tailFactor n (repl D r k z) (j + 1) +
        Spec.devCum (repl D r k z) (m + 1) j * tailFactor n (repl D r k z) j =
        devSum (repl D r k z) (m + 1 + 1) j * tailFactor n (repl D r k z) j := by
      intro z hz
      have hA : 0 < devSum (repl D r k z) (m + 1) j := devSum_pos (repl_pos hD hz) (by omega) (by omega)
      have e1 : devSum (repl D r k z) (m + 1 + 1) j =
          devSum (repl D r k z) (m + 1) j + Spec.devCum (repl D r k z) (m + 1) j := by
        unfold devSum; rw [Finset.sum_range_succ]
      have e2 : tailFactor n (repl D r k z) j =
          devSum (repl D r k z) (m + 1) (j + 1) / devSum (repl D r k z) (m + 1) j *
          tailFactor n (repl D r k z) (j + 1) := by
        unfold tailFactor
        rw [Finset.prod_eq_prod_Ico_succ_bot (by omega), devFactor_eq, hN]
      rw [e1, add_mul, e2]
      congr 1
      field_simp
    refine ConvexOn.congr (ih.add ?_) (f := (fun z => devSum (repl D r k z) (m + 1) (j + 1) *
      tailFactor n (repl D r k z) (j + 1)) + fun z => Spec.devCum (repl D r k z) (m + 1) j *
      tailFactor n (repl D r k z) j) (fun z hz => key z hz)
    obtain ⟨c, hc⟩ := devCum_repl D r k (m + 1) j
    by_cases hr : m + 1 = r
    · have : (fun z => Spec.devCum (repl D r k z) (m + 1) j * tailFactor n (repl D r k z) j) =
          fun z => tailFactor n (repl D r k 1) j * (c + (if m + 1 = r ∧ k ≤ j then 1 else 0) * z) := by
        funext z
        rw [hc, tail_const (by omega) z 1, mul_comm]
      rw [this]
      exact convex_scale (tail_pos (repl_pos hD one_pos) _).le (affine_convex _ _)
    · have : (fun z => Spec.devCum (repl D r k z) (m + 1) j * tailFactor n (repl D r k z) j) =
          fun z => c * tailFactor n (repl D r k z) j := by
        funext z
        rw [hc, if_neg (fun h => hr h.1), zero_mul, add_zero]
      rw [this]
      refine convex_scale ?_ (tail_falling hD (by omega)).convex
      have h1 := hc 1
      rw [if_neg (fun h => hr h.1), zero_mul, add_zero] at h1
      rw [← h1]
      exact (devCum_pos (repl_pos hD one_pos) (by omega)).le

/-- The reserve is convex in every observed increment. -/
theorem clReserve_convex (hD : Spec.PosIncr n D) {i : ℕ} (hi : i < n) (hrk : r + k < n) :
    ConvexOn ℝ (Set.Ioi 0) (fun z => Spec.clReserve n i (repl D r k z)) := by
  set q := n - 1 - i with hq
  obtain ⟨c, hc⟩ := devCum_repl D r k i q
  have e : ∀ z, Spec.clReserve n i (repl D r k z) =
      Spec.devCum (repl D r k z) i q * (tailFactor n (repl D r k z) q - 1) := fun z => rfl
  by_cases hr : i = r
  · have : (fun z => Spec.clReserve n i (repl D r k z)) =
        fun z => (tailFactor n (repl D r k 1) q - 1) * (c + (if i = r ∧ k ≤ q then 1 else 0) * z) := by
      funext z
      rw [e, hc, tail_const (by omega) z 1, mul_comm]
    rw [this]
    have hb := affine_convex ((tailFactor n (repl D r k 1) q - 1) * c)
      ((tailFactor n (repl D r k 1) q - 1) * (if i = r ∧ k ≤ q then 1 else 0))
    refine hb.congr (fun z _ => by ring)
  · have hc0 : 0 ≤ c := by
      have h1 := hc 1
      rw [if_neg (fun h => hr h.1), zero_mul, add_zero] at h1
      rw [← h1]
      exact (devCum_pos (repl_pos hD one_pos) (by omega)).le
    have hT : ConvexOn ℝ (Set.Ioi 0) (fun z => tailFactor n (repl D r k z) q) := by
      by_cases hkq : k ≤ q
      · exact (tail_falling hD hkq).convex
      · push Not at hkq
        have hv := volume_convex (r := r) (k := k) hD (n - 1 - k) (by omega) (by omega)
        rw [show n - 1 - (n - 1 - k) = k by omega] at hv
        -- the other factors are constant
        let a := (∏ j ∈ Ico q (k - 1), Spec.devFactor n (repl D r k 1) j) / devSum (repl D r k 1) (n - k) (k - 1)
        have hpos1 := repl_pos (r := r) (k := k) hD one_pos
        have ha : 0 ≤ a := (div_pos (Finset.prod_pos (fun l hl => factor_pos hpos1 (by
          rw [Finset.mem_Ico] at hl; omega))) (devSum_pos hpos1 (by omega) (by omega))).le
        refine (convex_scale ha hv).congr (fun z hz => ?_)
        have hAk : devSum (repl D r k z) (n - k) (k - 1) = devSum (repl D r k 1) (n - k) (k - 1) := by
          obtain ⟨d, hd⟩ := devSum_repl D r k (n - k) (k - 1)
          rw [hd, hd, if_neg (by omega)]; ring
        have hP : ∏ j ∈ Ico q (k - 1), Spec.devFactor n (repl D r k z) j =
            ∏ j ∈ Ico q (k - 1), Spec.devFactor n (repl D r k 1) j := by
          refine Finset.prod_congr rfl (fun j hj => ?_)
          rw [Finset.mem_Ico] at hj
          obtain ⟨d, hd⟩ := devSum_repl D r k (n - 1 - j) j
          obtain ⟨d', hd'⟩ := devSum_repl D r k (n - 1 - j) (j + 1)
          rw [devFactor_eq, devFactor_eq, hd, hd, hd', hd', if_neg (by omega), if_neg (by omega)]
          ring
        have hsplit : tailFactor n (repl D r k z) q = (∏ j ∈ Ico q (k - 1), Spec.devFactor n (repl D r k z) j) *
            (Spec.devFactor n (repl D r k z) (k - 1) * tailFactor n (repl D r k z) k) := by
          unfold tailFactor
          rw [← Finset.prod_Ico_consecutive _ (show q ≤ k - 1 by omega) (show k - 1 ≤ n - 1 by omega),
            Finset.prod_eq_prod_Ico_succ_bot (show k - 1 < n - 1 by omega), show k - 1 + 1 = k by omega]
        rw [hsplit, hP, devFactor_eq, show n - 1 - (k - 1) = n - k by omega, show k - 1 + 1 = k by omega, hAk]
        simp only [a]
        rw [show n - 1 - k + 1 = n - k by omega]
        ring
    have : (fun z => Spec.clReserve n i (repl D r k z)) =
        fun z => c * (tailFactor n (repl D r k z) q + (-1)) := by
      funext z
      rw [e, hc, if_neg (fun h => hr h.1)]
      ring
    rw [this]
    exact convex_scale hc0 (hT.add (convexOn_const (-1) (convex_Ioi 0)))

/-- The reserve is strictly convex in the first increment of the oldest origin. -/
theorem clReserve_strict (hD : Spec.PosIncr n D) {i : ℕ} (hi : i < n) (h0 : 0 < i) :
    StrictConvexOn ℝ (Set.Ioi 0) (fun z => Spec.clReserve n i (repl D 0 0 z)) := by
  set q := n - 1 - i with hq
  obtain ⟨c, hc⟩ := devCum_repl D 0 0 i q
  simp only [show ¬ (i = 0) by omega, false_and, if_false, zero_mul, add_zero] at hc
  have hc0 : 0 < c := by
    rw [← hc 1]
    exact devCum_pos (repl_pos hD one_pos) (by omega)
  obtain ⟨d, χ, I, f1, -, f3, f4, -, f6⟩ := factor_form (r := 0) (k := 0) (j := n - 2) hD (by omega) (by omega)
  rw [f4 (by omega)] at f6
  have hP : Falling (fun z => ∏ j ∈ Ico q (n - 2), Spec.devFactor n (repl D 0 0 z) j) :=
    Falling.prod (fun l hl => factor_falling hD (by rw [Finset.mem_Ico] at hl; omega) (by omega))
  have hP1 : ∀ z, 0 < z → 1 ≤ ∏ j ∈ Ico q (n - 2), Spec.devFactor n (repl D 0 0 z) j := by
    intro z hz
    have h1 : ∏ _j ∈ Ico q (n - 2), (1 : ℝ) ≤ ∏ j ∈ Ico q (n - 2), Spec.devFactor n (repl D 0 0 z) j :=
      Finset.prod_le_prod (fun _ _ => zero_le_one) (fun l hl => (one_lt_factor (repl_pos hD hz) (by
        rw [Finset.mem_Ico] at hl; omega)).le)
    simpa using h1
  have hPm : Falling (fun z => (∏ j ∈ Ico q (n - 2), Spec.devFactor n (repl D 0 0 z) j) + (-1)) :=
    ⟨hP.convex.add (convexOn_const _ (convex_Ioi 0)), fun x hx y hy hxy => by
      have := hP.anti hx hy hxy
      linarith, fun z hz => by have := hP1 z hz; linarith⟩
  have hf := (Falling.const zero_le_one).add (falling_inv f1 (Or.inr (rfl : (1 : ℝ) = 1)) f3.le)
  have hs := (strict_inv f1 f3).add_convexOn ((hf.mul hPm).convex.add (convexOn_const 0 (convex_Ioi 0)))
  refine ⟨convex_Ioi 0, fun x hx y hy hxy a b ha hb hab => ?_⟩
  have form : ∀ z, z ∈ Set.Ioi (0 : ℝ) → Spec.clReserve n i (repl D 0 0 z) =
      c * (I / (d + z) + ((1 + I / (d + 1 * z)) *
        ((∏ j ∈ Ico q (n - 2), Spec.devFactor n (repl D 0 0 z) j) + -1) + 0)) := by
    intro z hz
    have e1 : tailFactor n (repl D 0 0 z) q =
        (∏ j ∈ Ico q (n - 2), Spec.devFactor n (repl D 0 0 z) j) * Spec.devFactor n (repl D 0 0 z) (n - 2) := by
      unfold tailFactor
      rw [show n - 1 = n - 2 + 1 by omega, Finset.prod_Ico_succ_top (by omega)]
    have e2 : Spec.clReserve n i (repl D 0 0 z) =
      Spec.devCum (repl D 0 0 z) i q * (tailFactor n (repl D 0 0 z) q - 1) := rfl
    rw [e2, hc, e1, f6 z hz]
    ring
  have hmem : a • x + b • y ∈ Set.Ioi (0 : ℝ) := convex_Ioi 0 hx hy ha.le hb.le hab
  have := hs.2 hx hy hxy ha hb hab
  simp only [Pi.add_apply, smul_eq_mul] at this hmem ⊢
  rw [form _ hmem, form x hx, form y hy]
  have h2 := mul_lt_mul_of_pos_left this hc0
  refine h2.trans_eq ?_
  ring

end

end Trikit
