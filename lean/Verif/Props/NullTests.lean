import Verif.PermMoments
import Verif.Props.Diag
import Verif.Props.RoundedDiag

/-! # The statistic of the correlation test under the null hypothesis (C195) -/

set_option linter.unusedSectionVars false

namespace Trikit

variable {K : Type} [Field K] [LinearOrder K] [IsStrictOrderedRing K]

open Finset

/-! ### ranks of permuted values -/

theorem midrank_congr {N : ℕ} {x y : ℕ → K} (h : ∀ i < N, x i = y i) {i : ℕ} (hi : i < N) :
    Spec.midrank ((List.range N).map x) (x i) = Spec.midrank ((List.range N).map y) (y i) := by
  rw [h i hi, List.map_congr_left (fun j hj => h j (List.mem_range.1 hj))]

theorem spearman_congr {N : ℕ} {x y x' y' : ℕ → K} (hx : ∀ i < N, x i = x' i) (hy : ∀ i < N, y i = y' i) :
    Spec.spearman N x y = Spec.spearman N x' y' := by
  unfold Spec.spearman
  congr 4
  refine List.map_congr_left (fun i hi => ?_)
  rw [List.mem_range] at hi
  rw [midrank_congr hx hi, midrank_congr hy hi]

theorem midrank_perm {N : ℕ} {x y : ℕ → K} (τ : Equiv.Perm (Fin N)) (h : ∀ i : Fin N, y i = x (τ i)) (i : Fin N) :
    Spec.midrank ((List.range N).map y) (y i) = Spec.midrank ((List.range N).map x) (x (τ i)) := by
  have h1 := midrank_sg N y i
  have h2 := midrank_sg N x (τ i)
  have e : ∑ j ∈ range N, sg (y i) (y j) = ∑ j ∈ range N, sg (x (τ i)) (x j) := by
    rw [Finset.sum_range, Finset.sum_range, ← Equiv.sum_comp τ (fun j : Fin N => sg (x (τ i)) (x j))]
    refine sum_congr rfl (fun j _ => ?_)
    rw [h i, h j]
  rw [← h1, ← h2] at e
  linarith

theorem midrank_sum (N : ℕ) (x : ℕ → K) :
    ∑ i : Fin N, (Spec.midrank ((List.range N).map x) (x i) - (N + 1) / 2) = 0 := by
  have h : ∑ i ∈ range N, ∑ j ∈ range N, sg (x i) (x j) = 0 := by
    have e : ∑ i ∈ range N, ∑ j ∈ range N, sg (x i) (x j) = -∑ i ∈ range N, ∑ j ∈ range N, sg (x i) (x j) := by
      conv_rhs => rw [sum_comm]
      rw [← sum_neg_distrib]
      refine sum_congr rfl (fun i _ => ?_)
      rw [← sum_neg_distrib]
      refine sum_congr rfl (fun j _ => ?_)
      unfold sg
      rcases lt_trichotomy (x i) (x j) with h | h | h
      · simp [h, not_lt_of_gt h]
      · simp [h]
      · simp [h, not_lt_of_gt h]
    linarith
  rw [← Finset.sum_range (fun i => Spec.midrank ((List.range N).map x) (x i) - (N + 1) / 2)]
  rw [sum_congr rfl (fun i _ => (midrank_sg N x i).symm)] at h
  have e : ∑ i ∈ range N, (2 * Spec.midrank ((List.range N).map x) (x i) - (N + 1)) =
      2 * ∑ i ∈ range N, (Spec.midrank ((List.range N).map x) (x i) - (N + 1) / 2) := by
    rw [mul_sum]
    exact sum_congr rfl (fun i _ => by ring)
  rw [e] at h
  linarith

/-- All orders of the second sample are equally likely: mean 0, mean square `1 / (N - 1)`. -/
theorem spearman_null {N : ℕ} (hN : 2 ≤ N) {x y : ℕ → K} (hx : ∀ i < N, ∀ j < N, x i = x j → i = j)
    (hy : ∀ i < N, ∀ j < N, y i = y j → i = j) {Y : Equiv.Perm (Fin N) → ℕ → K}
    (hY : ∀ τ (i : Fin N), Y τ i = y (τ i)) :
    ∑ τ, Spec.spearman N x (Y τ) = 0 ∧
    ((N : K) - 1) * ∑ τ, Spec.spearman N x (Y τ) ^ 2 = (Fintype.card (Equiv.Perm (Fin N)) : K) := by
  have hp := cube_sub_pos (K := K) hN
  set D := ((N : K) ^ 3 - N) / 12 with hD
  have hD0 : D ≠ 0 := (div_pos hp (by norm_num)).ne'
  set a : Fin N → K := fun i => Spec.midrank ((List.range N).map x) (x i) - (N + 1) / 2 with ha
  set b : Fin N → K := fun i => Spec.midrank ((List.range N).map y) (y i) - (N + 1) / 2 with hb
  have e : ∀ τ, Spec.spearman N x (Y τ) = (∑ i, a i * b (τ i)) / D := by
    intro τ
    rw [spearman_pearson hN x (Y τ) hx]
    · rw [Finset.sum_range, ← hD]
      congr 1
      refine sum_congr rfl (fun i _ => ?_)
      simp only [ha, hb]
      rw [midrank_perm τ (hY τ) i]
    · intro i hi j hj hij
      have h1 := hY τ ⟨i, hi⟩
      have h2 := hY τ ⟨j, hj⟩
      simp only at h1 h2
      rw [h1, h2] at hij
      have h3 := τ.injective (Fin.ext (hy _ (τ ⟨i, hi⟩).2 _ (τ ⟨j, hj⟩).2 hij))
      exact Fin.mk.inj_iff.1 h3
  have va : ∑ i, a i ^ 2 = D := by
    have := midrank_var_eq N x hx
    rw [Finset.sum_range] at this
    rw [hD]; simp only [ha]; linarith
  have vb : ∑ i, b i ^ 2 = D := by
    have := midrank_var_eq N y hy
    rw [Finset.sum_range] at this
    rw [hD]; simp only [hb]; linarith
  constructor
  · rw [sum_congr rfl (fun τ _ => e τ), ← sum_div, perm_mean (midrank_sum N y), zero_div]
  · have h := perm_square hN (midrank_sum N x : ∑ i, a i = 0) (midrank_sum N y : ∑ i, b i = 0)
    rw [va, vb] at h
    rw [sum_congr rfl (fun τ _ => by rw [e τ, div_pow]), ← sum_div, mul_div_assoc', h]
    field_simp

/-! ### ties -/

/-- Equal values make the ranks vary less. -/
theorem midrank_var_lt {N : ℕ} {x : ℕ → K} {i j : ℕ} (hi : i < N) (hj : j < N) (hij : i ≠ j) (h : x i = x j) :
    12 * ∑ i ∈ range N, (Spec.midrank ((List.range N).map x) (x i) - (N + 1) / 2) ^ 2 < (N : K) ^ 3 - N := by
  have hs : 3 * ∑ i ∈ range N, (∑ j ∈ range N, sg (x i) (x j)) ^ 2 < (N : K) ^ 3 - N := by
    rw [triple_sum N (fun i j => sg (x i) (x j)), ← triple_const]
    have hle : ∀ i j k, sg (x i) (x j) * sg (x i) (x k) + sg (x j) (x i) * sg (x j) (x k) + sg (x k) (x i) * sg (x k) (x j) ≤
        (if i = j ∧ j = k then (0 : K) else 1) := by
      intro i j k
      by_cases h : i = j ∧ j = k
      · obtain ⟨rfl, rfl⟩ := h; simp [sg_self]
      · rw [if_neg h]; exact sg3_le _ _ _
    refine sum_lt_sum (fun i _ => sum_le_sum (fun j _ => sum_le_sum (fun k _ => hle i j k))) ⟨i, mem_range.2 hi, ?_⟩
    refine sum_lt_sum (fun j _ => sum_le_sum (fun k _ => hle i j k)) ⟨j, mem_range.2 hj, ?_⟩
    refine sum_lt_sum (fun k _ => hle i j k) ⟨j, mem_range.2 hj, ?_⟩
    rw [if_neg (fun e => hij e.1), h]
    simp [sg_self]
  simp only [← midrank_sg] at hs
  rw [mul_sum] at hs ⊢
  refine lt_of_le_of_lt (le_of_eq (sum_congr rfl (fun i _ => ?_))) hs
  ring

/-- Mean of the rank correlation over all orders: never negative, and 0 exactly without ties. -/
theorem spearman_null_ties {N : ℕ} (hN : 2 ≤ N) {x y : ℕ → K} {Y : Equiv.Perm (Fin N) → ℕ → K}
    (hY : ∀ τ (i : Fin N), Y τ i = y (τ i)) :
    0 ≤ ∑ τ, Spec.spearman N x (Y τ) ∧
    (∑ τ, Spec.spearman N x (Y τ) = 0 ↔
      (∀ i < N, ∀ j < N, x i = x j → i = j) ∧ ∀ i < N, ∀ j < N, y i = y j → i = j) := by
  have hp := cube_sub_pos (K := K) hN
  set D := (N : K) ^ 3 - N with hD
  set a : Fin N → K := fun i => Spec.midrank ((List.range N).map x) (x i) - (N + 1) / 2 with ha
  set b : Fin N → K := fun i => Spec.midrank ((List.range N).map y) (y i) - (N + 1) / 2 with hb
  set C := (Fintype.card (Equiv.Perm (Fin N)) : K) with hC
  have hC0 : 0 < C := by rw [hC]; exact_mod_cast Fintype.card_pos
  have e : ∀ τ, Spec.spearman N x (Y τ) = 1 - 6 * ((∑ i, a i ^ 2) + (∑ i, b i ^ 2) - 2 * ∑ i, a i * b (τ i)) / D := by
    intro τ
    unfold Spec.spearman
    rw [list_sum_range, Finset.sum_range]
    congr 3
    rw [← Equiv.sum_comp τ (fun i => b i ^ 2), mul_sum, ← sum_add_distrib, ← sum_sub_distrib]
    refine sum_congr rfl (fun i _ => ?_)
    simp only [ha, hb]
    rw [midrank_perm τ (hY τ) i]
    ring
  have va := midrank_var_le N x
  have vb := midrank_var_le N y
  rw [Finset.sum_range] at va vb
  have hsum : ∑ τ, Spec.spearman N x (Y τ) = C * (1 - 6 * ((∑ i, a i ^ 2) + ∑ i, b i ^ 2) / D) := by
    rw [sum_congr rfl (fun τ _ => e τ), sum_sub_distrib, ← sum_div, ← mul_sum, sum_sub_distrib, ← mul_sum,
      perm_mean (midrank_sum N y : ∑ i, b i = 0)]
    simp only [sum_const, card_univ, nsmul_eq_mul, ← hC]
    ring
  have hsum' : ∑ τ, Spec.spearman N x (Y τ) = C / (2 * D) * ((D - 12 * ∑ i, a i ^ 2) + (D - 12 * ∑ i, b i ^ 2)) := by
    rw [hsum]
    have := hp.ne'
    field_simp
    ring
  have hCD : 0 < C / (2 * D) := by positivity
  have va' : 0 ≤ D - 12 * ∑ i, a i ^ 2 := by simp only [ha]; linarith
  have vb' : 0 ≤ D - 12 * ∑ i, b i ^ 2 := by simp only [hb]; linarith
  refine ⟨by rw [hsum']; exact mul_nonneg hCD.le (add_nonneg va' vb'), ⟨fun h0 => ?_, fun h0 => (spearman_null hN h0.1 h0.2 hY).1⟩⟩
  rw [hsum', mul_eq_zero, or_iff_right hCD.ne'] at h0
  have ea : D - 12 * ∑ i, a i ^ 2 = 0 := by linarith
  have eb : D - 12 * ∑ i, b i ^ 2 = 0 := by linarith
  refine ⟨fun i hi j hj hij => ?_, fun i hi j hj hij => ?_⟩
  · by_contra hne
    have := midrank_var_lt hi hj hne hij
    rw [Finset.sum_range] at this
    simp only [ha] at ea
    linarith
  · by_contra hne
    have := midrank_var_lt hi hj hne hij
    rw [Finset.sum_range] at this
    simp only [hb] at eb
    linarith

/-! ### the test -/

/-- An order of the link ratios of every development period. -/
abbrev Spec.Orders (n : ℕ) := ∀ j : Fin (n - 1), Equiv.Perm (Fin (n - 1 - j))

/-- Triangles with the same link ratios `x j 0, x j 1, …` of period `j`, in the orders `σ`. -/
structure Spec.Shuffled (n : ℕ) (x : ℕ → ℕ → K) (t : Spec.Orders n → Tri K) (c : Spec.Orders n → ℕ → ℕ → K) : Prop where
  stair : ∀ σ, Spec.Stair (t σ) n (c σ)
  pos : ∀ σ i j, i + j < n → 0 < c σ i j
  link : ∀ σ (j : Fin (n - 1)) (i : Fin (n - 1 - j)), c σ i (j + 1) / c σ i j = x j (σ j i)
  apart : ∀ j < n - 1, ∀ i < n - 1 - j, ∀ k < n - 1 - j, x j i = x j k → i = k

section
variable {n : ℕ} {x : ℕ → ℕ → K} {t : Spec.Orders n → Tri K} {c : Spec.Orders n → ℕ → ℕ → K}

/-- Coefficient of the periods `d` and `d + 1`. -/
def Spec.nullCoef (n : ℕ) (c : Spec.Orders n → ℕ → ℕ → K) (d : ℕ) (σ : Spec.Orders n) : K :=
  Spec.spearman (n - 1 - (d + 1)) (fun i => c σ i (d + 1) / c σ i d) (fun i => c σ i (d + 2) / c σ i (d + 1))

theorem Spec.Shuffled.link' (h : Spec.Shuffled n x t c) (σ : Spec.Orders n) {i j : ℕ} (hj : j < n - 1) (hi : i < n - 1 - j) :
    c σ i (j + 1) / c σ i j = x j (σ ⟨j, hj⟩ ⟨i, hi⟩) := h.link σ ⟨j, hj⟩ ⟨i, hi⟩

theorem nullCoef_congr (h : Spec.Shuffled n x t c) {d : ℕ} (hd : d < n - 3) {σ τ : Spec.Orders n}
    (h1 : σ ⟨d, by omega⟩ = τ ⟨d, by omega⟩) (h2 : σ ⟨d + 1, by omega⟩ = τ ⟨d + 1, by omega⟩) :
    Spec.nullCoef n c d σ = Spec.nullCoef n c d τ := by
  unfold Spec.nullCoef
  refine spearman_congr (fun i hi => ?_) (fun i hi => ?_)
  · rw [h.link' σ (by omega) (by omega), h.link' τ (by omega) (by omega), h1]
  · rw [h.link' σ (j := d + 1) (by omega) (by omega), h.link' τ (j := d + 1) (by omega) (by omega), h2]

theorem nullCoef_coord (h : Spec.Shuffled n x t c) {d : ℕ} (hd : d < n - 3) (σ : Spec.Orders n) :
    ∑ τ : Equiv.Perm (Fin (n - 1 - (d + 1))), Spec.nullCoef n c d (Function.update σ ⟨d + 1, by omega⟩ τ) = 0 ∧
    (((n - 1 - (d + 1) : ℕ) : K) - 1) * ∑ τ : Equiv.Perm (Fin (n - 1 - (d + 1))),
      Spec.nullCoef n c d (Function.update σ ⟨d + 1, by omega⟩ τ) ^ 2 =
        (Fintype.card (Equiv.Perm (Fin (n - 1 - (d + 1)))) : K) := by
  have key : ∀ τ : Equiv.Perm (Fin (n - 1 - (d + 1))),
      Spec.nullCoef n c d (Function.update σ ⟨d + 1, by omega⟩ τ) =
      Spec.spearman (n - 1 - (d + 1)) (fun i => c σ i (d + 1) / c σ i d)
        (fun i => if hi : i < n - 1 - (d + 1) then x (d + 1) (τ ⟨i, hi⟩) else 0) := by
    intro τ
    unfold Spec.nullCoef
    refine spearman_congr (fun i hi => ?_) (fun i hi => ?_)
    · rw [h.link' _ (by omega) (by omega), h.link' σ (by omega) (by omega), Function.update_of_ne]
      simp
    · rw [h.link' _ (j := d + 1) (by omega) hi, Function.update_self, dif_pos hi]
  simp only [key]
  refine spearman_null (by omega) ?_ (h.apart (d + 1) (by omega)) (fun τ i => by rw [dif_pos i.2])
  intro i hi j hj hij
  rw [h.link' σ (by omega) (by omega), h.link' σ (by omega) (by omega)] at hij
  have h3 := (σ ⟨d, by omega⟩).injective (Fin.ext (h.apart d (by omega) _ (σ _ _).2 _ (σ _ _).2 hij))
  exact Fin.mk.inj_iff.1 h3

theorem nullCoef_mean (h : Spec.Shuffled n x t c) {d : ℕ} (hd : d < n - 3) : ∑ σ, Spec.nullCoef n c d σ = 0 :=
  pi_sum_zero (⟨d + 1, by omega⟩ : Fin (n - 1)) (fun σ => (nullCoef_coord h hd σ).1)

theorem nullCoef_square (h : Spec.Shuffled n x t c) {d : ℕ} (hd : d < n - 3) :
    ((n - 3 - d : ℕ) : K) * ∑ σ, Spec.nullCoef n c d σ ^ 2 = (Fintype.card (Spec.Orders n) : K) := by
  have hN : (((n - 1 - (d + 1) : ℕ) : K) - 1) = ((n - 3 - d : ℕ) : K) := by
    rw [show n - 1 - (d + 1) = n - 3 - d + 1 by omega]; push_cast; ring
  have h1 := pi_sum_update (α := fun j : Fin (n - 1) => Equiv.Perm (Fin (n - 1 - j))) (⟨d + 1, by omega⟩ : Fin (n - 1))
    (fun σ => Spec.nullCoef n c d σ ^ 2)
  have hC : (Fintype.card (Equiv.Perm (Fin (n - 1 - (d + 1)))) : K) ≠ 0 := by exact_mod_cast Fintype.card_ne_zero
  have h2 : ((n - 3 - d : ℕ) : K) * ∑ σ : Spec.Orders n, ∑ τ : Equiv.Perm (Fin (n - 1 - (d + 1))),
      Spec.nullCoef n c d (Function.update σ ⟨d + 1, by omega⟩ τ) ^ 2 =
      (Fintype.card (Equiv.Perm (Fin (n - 1 - (d + 1)))) : K) * (Fintype.card (Spec.Orders n) : K) := by
    rw [mul_sum, ← hN, sum_congr rfl (fun σ _ => (nullCoef_coord h hd σ).2), sum_const, card_univ, nsmul_eq_mul, mul_comm]
  have h3 : ((n - 3 - d : ℕ) : K) * ((Fintype.card (Equiv.Perm (Fin (n - 1 - (d + 1)))) : K) *
      ∑ σ, Spec.nullCoef n c d σ ^ 2) =
      (Fintype.card (Equiv.Perm (Fin (n - 1 - (d + 1)))) : K) * (Fintype.card (Spec.Orders n) : K) := by
    rw [← h2]
    congr 1
    exact h1.symm
  refine mul_left_cancel₀ hC ?_
  rw [← h3]; ring

theorem nullCoef_cross (h : Spec.Shuffled n x t c) {d e : ℕ} (hde : d < e) (he : e < n - 3) :
    ∑ σ, Spec.nullCoef n c d σ * Spec.nullCoef n c e σ = 0 := by
  refine pi_sum_zero (⟨e + 1, by omega⟩ : Fin (n - 1)) (fun σ => ?_)
  have h1 := (nullCoef_coord h he σ).1
  refine Eq.trans (sum_congr rfl (fun τ _ => ?_)) (Eq.trans (mul_sum _ _ (Spec.nullCoef n c d σ)).symm (by rw [h1, mul_zero]))
  congr 1
  refine nullCoef_congr h (by omega) ?_ ?_
  · rw [Function.update_of_ne]
    simp; omega
  · rw [Function.update_of_ne]
    simp; omega

/-- **C195**: when all orders of the link ratios of each period are equally likely and there are no ties, every coefficient
has mean 0 and variance `1 / (I - k - 1)`, the reciprocal of its weight. -/
theorem C195_coeffs (h : Spec.Shuffled n x t c) (hn : 4 ≤ n) {d : ℕ} (hd : d < n - 3) :
    ∃ S : Spec.Orders n → K, (∀ σ, ∃ cs, spearmanCoeffs (t σ) = .ok cs ∧
        cs[d]? = some ⟨d + 2, (n : Int) - (d + 2) - 1, .fin (S σ)⟩) ∧
      ∑ σ, S σ = 0 ∧ (∑ σ, S σ ^ 2) / (Fintype.card (Spec.Orders n) : K) = 1 / (((n : Int) - (d + 2) - 1 : Int) : K) := by
  refine ⟨Spec.nullCoef n c d, fun σ => ⟨_, C64_value (h.stair σ) (fun i j hij => (h.pos σ i j hij).ne') hn, ?_⟩, nullCoef_mean h hd, ?_⟩
  · rw [List.getElem?_map, List.getElem?_range hd]
    simp only [Option.map_some, Spec.nullCoef]
    rw [show n - 1 - (d + 1) = n - 2 - d by omega]
  · have hC : (Fintype.card (Spec.Orders n) : K) ≠ 0 := by exact_mod_cast Fintype.card_ne_zero
    have hw : (((n : Int) - (d + 2) - 1 : Int) : K) = ((n - 3 - d : ℕ) : K) := by
      rw [show (n : Int) - (d + 2) - 1 = ((n - 3 - d : ℕ) : Int) by omega, Int.cast_natCast]
    have hw0 : ((n - 3 - d : ℕ) : K) ≠ 0 := by exact_mod_cast (by omega : n - 3 - d ≠ 0)
    rw [hw, ← nullCoef_square h hd]
    have hS : ∑ σ, Spec.nullCoef n c d σ ^ 2 ≠ 0 := by
      intro h0
      have := nullCoef_square h hd
      rw [h0, mul_zero] at this
      exact hC this.symm
    field_simp

/-- Sum of the weights. -/
theorem weights_sum (hn : 4 ≤ n) : ∑ d ∈ range (n - 3), ((n - 3 - d : ℕ) : K) = ((n : K) - 2) * ((n : K) - 3) / 2 := by
  obtain ⟨m, rfl⟩ : ∃ m, n = m + 3 := ⟨n - 3, by omega⟩
  rw [show m + 3 - 3 = m by omega]
  have : ∀ m : ℕ, ∑ d ∈ range m, ((m - d : ℕ) : K) = ((m : K) + 1) * m / 2 := by
    intro m
    induction m with
    | zero => simp
    | succ m ih =>
      rw [sum_range_succ', sum_congr rfl (fun d _ => by rw [show m + 1 - (d + 1) = m - d by omega]), ih]
      push_cast; ring
  rw [this]; push_cast; ring

/-- **C195**: the statistic has mean 0 and exactly the variance that `devp_corr_test` uses. -/
theorem C195_partial (h : Spec.Shuffled n x t c) (hn : 4 ≤ n) :
    ∃ T : Spec.Orders n → K, (∀ σ, spearmanTotal (t σ) = .ok (.fin (T σ))) ∧ ∑ σ, T σ = 0 ∧
      ∀ σ, (∑ τ, T τ ^ 2) / (Fintype.card (Spec.Orders n) : K) = 1 / devpCorrVar (t σ) := by
  set W : K := ∑ d ∈ range (n - 3), ((n - 3 - d : ℕ) : K) with hW
  have hn4 : (4 : K) ≤ n := by exact_mod_cast hn
  have hWv := weights_sum (K := K) hn
  rw [← hW] at hWv
  have hW0 : W ≠ 0 := by rw [hWv]; exact (by nlinarith : (0 : K) < ((n : K) - 2) * ((n : K) - 3) / 2).ne'
  refine ⟨fun σ => (∑ d ∈ range (n - 3), ((n - 3 - d : ℕ) : K) * Spec.nullCoef n c d σ) / W, fun σ => ?_, ?_, fun σ => ?_⟩
  · rw [total_value (h.stair σ) (h.pos σ) hn, list_sum_range, list_sum_range, ← hW]
    congr 3
    refine sum_congr rfl (fun d _ => ?_)
    unfold Spec.nullCoef
    rw [show n - 1 - (d + 1) = n - 2 - d by omega]
  · rw [← sum_div, sum_comm]
    rw [sum_eq_zero, zero_div]
    intro d hd
    rw [← mul_sum, nullCoef_mean h (mem_range.1 hd), mul_zero]
  · have hC : (Fintype.card (Spec.Orders n) : K) ≠ 0 := by exact_mod_cast Fintype.card_ne_zero
    have hsq : ∑ τ, (∑ d ∈ range (n - 3), ((n - 3 - d : ℕ) : K) * Spec.nullCoef n c d τ) ^ 2 =
        W * (Fintype.card (Spec.Orders n) : K) := by
      have e1 : ∀ τ, (∑ d ∈ range (n - 3), ((n - 3 - d : ℕ) : K) * Spec.nullCoef n c d τ) ^ 2 =
          ∑ d ∈ range (n - 3), ∑ e ∈ range (n - 3), ((n - 3 - d : ℕ) : K) * ((n - 3 - e : ℕ) : K) *
            (Spec.nullCoef n c d τ * Spec.nullCoef n c e τ) := by
        intro τ
        rw [sq, sum_mul_sum]
        exact sum_congr rfl (fun d _ => sum_congr rfl (fun e _ => by ring))
      rw [sum_congr rfl (fun τ _ => e1 τ), sum_comm, hW, sum_mul]
      refine sum_congr rfl (fun d hd => ?_)
      rw [sum_comm, sum_eq_single_of_mem d hd]
      · rw [← mul_sum, ← nullCoef_square h (mem_range.1 hd), mul_assoc]
        simp only [sq]
      · intro e he hne
        rw [← mul_sum]
        rcases lt_or_gt_of_ne hne with h1 | h1
        · rw [sum_congr rfl (fun τ _ => mul_comm _ _), nullCoef_cross h h1 (mem_range.1 hd), mul_zero]
        · rw [nullCoef_cross h h1 (mem_range.1 he), mul_zero]
    have hv : devpCorrVar (t σ) = W := by
      rw [hWv]
      unfold devpCorrVar
      rw [(h.stair σ).nc]; push_cast; ring
    rw [hv, sum_congr rfl (fun τ _ => div_pow _ W 2), ← sum_div, hsq]
    field_simp

end

/-! ### ties -/

/-- **C195, sharp**: when the link ratios `y` of period `d + 1` come in all orders and those of period `d` stay, the mean of
their coefficient is never negative, and it is 0 exactly when there are no ties in either period. -/
theorem C195_ties {n d : ℕ} (hn : 4 ≤ n) (hd : d < n - 3) {x y : ℕ → K} {t : Equiv.Perm (Fin (n - 2 - d)) → Tri K}
    {c : Equiv.Perm (Fin (n - 2 - d)) → ℕ → ℕ → K} (h : ∀ τ, Spec.Stair (t τ) n (c τ))
    (hc : ∀ τ i j, i + j < n → c τ i j ≠ 0) (hx : ∀ τ, ∀ i < n - 2 - d, c τ i (d + 1) / c τ i d = x i)
    (hy : ∀ τ (i : Fin (n - 2 - d)), c τ i (d + 2) / c τ i (d + 1) = y (τ i)) :
    ∃ S : Equiv.Perm (Fin (n - 2 - d)) → K, (∀ τ, ∃ cs, spearmanCoeffs (t τ) = .ok cs ∧
        cs[d]? = some ⟨d + 2, (n : Int) - (d + 2) - 1, .fin (S τ)⟩) ∧
      0 ≤ ∑ τ, S τ ∧ (∑ τ, S τ = 0 ↔
        (∀ i < n - 2 - d, ∀ j < n - 2 - d, x i = x j → i = j) ∧ ∀ i < n - 2 - d, ∀ j < n - 2 - d, y i = y j → i = j) := by
  have hm := spearman_null_ties (K := K) (N := n - 2 - d) (by omega) (x := x) (y := y)
    (Y := fun τ i => c τ i (d + 2) / c τ i (d + 1)) hy
  refine ⟨fun τ => Spec.spearman (n - 2 - d) x (fun i => c τ i (d + 2) / c τ i (d + 1)), fun τ => ⟨_, C64_value (h τ) (hc τ) hn, ?_⟩, hm⟩
  rw [List.getElem?_map, List.getElem?_range hd]
  simp only [Option.map_some]
  rw [spearman_congr (K := K) (N := n - 2 - d) (hx τ) (fun i _ => rfl)]

/-- **C195 (violation)**: if all link ratios of a period are equal (claims fully developed, say) and those of the period
before differ, the coefficient is 1/2, in whatever order they stand. -/
theorem C195_fails {t : Tri K} {n : ℕ} {c : ℕ → ℕ → K} (h : Spec.Stair t n c) (hc : ∀ i j, i + j < n → c i j ≠ 0)
    (hn : 4 ≤ n) {d : ℕ} (hd : d < n - 3) {f : K} (hf : ∀ i < n - 2 - d, c i (d + 2) = f * c i (d + 1))
    (hx : ∀ i < n - 2 - d, ∀ j < n - 2 - d, c i (d + 1) / c i d = c j (d + 1) / c j d → i = j) :
    ∃ cs, spearmanCoeffs t = .ok cs ∧ cs[d]? = some ⟨d + 2, (n : Int) - (d + 2) - 1, .fin (1 / 2)⟩ := by
  refine ⟨_, C64_value h hc hn, ?_⟩
  rw [List.getElem?_map, List.getElem?_range hd]
  simp only [Option.map_some]
  congr 3
  have hN : 2 ≤ n - 2 - d := by omega
  have hp := cube_sub_pos (K := K) hN
  rw [spearman_congr (fun i _ => rfl) (y' := fun _ => f) (fun i hi => by
    rw [hf i hi, mul_div_assoc, div_self (hc _ _ (by omega)), mul_one])]
  generalize n - 2 - d = N at *
  unfold Spec.spearman
  have hm : Spec.midrank ((List.range N).map (fun _ => f)) f = ((N : K) + 1) / 2 := by
    have := midrank_sg N (fun _ : ℕ => f) 0
    simp only [sg, lt_irrefl, if_false, sub_self, sum_const_zero] at this
    linarith
  have hv := midrank_var_eq N (fun i => c i (d + 1) / c i d) hx
  rw [list_sum_range]
  simp only [hm]
  have e : ∑ i ∈ range N, (((N : K) + 1) / 2 - Spec.midrank ((List.range N).map (fun i => c i (d + 1) / c i d))
      (c i (d + 1) / c i d)) ^ 2 = ((N : K) ^ 3 - N) / 12 := by
    rw [← hv, mul_comm, mul_div_assoc, div_self (by norm_num), mul_one]
    exact sum_congr rfl (fun i _ => by ring)
  rw [e]
  generalize (N : K) ^ 3 - N = D at hp
  have := hp.ne'
  field_simp
  norm_num

/-! ### instances -/

/-- Amounts of the triangle with first column 1 and link ratios `x` in the orders `σ`. -/
def Spec.shuffledVals (n : ℕ) (x : ℕ → ℕ → K) (σ : Spec.Orders n) (i : ℕ) : ℕ → K
  | 0 => 1
  | j + 1 => Spec.shuffledVals n x σ i j *
      (if h : j < n - 1 then if h' : i < n - 1 - j then x j (σ ⟨j, h⟩ ⟨i, h'⟩) else 1 else 1)

/-- Such triangles exist for all different positive link ratios. -/
theorem shuffled_exists {n : ℕ} {x : ℕ → ℕ → K} (hx : ∀ j i, 0 < x j i)
    (ha : ∀ j < n - 1, ∀ i < n - 1 - j, ∀ k < n - 1 - j, x j i = x j k → i = k) :
    Spec.Shuffled n x (fun σ => stairTri n (Spec.shuffledVals n x σ)) (fun σ => Spec.shuffledVals n x σ) := by
  have hpos : ∀ σ i j, 0 < Spec.shuffledVals n x σ i j := by
    intro σ i j
    induction j with
    | zero => exact one_pos
    | succ j ih =>
      refine mul_pos ih ?_
      split
      · split
        · exact hx _ _
        · exact one_pos
      · exact one_pos
  refine ⟨fun σ => stairTri_stair n _, fun σ i j _ => hpos σ i j, fun σ j i => ?_, ha⟩
  have : Spec.shuffledVals n x σ i (j + 1) = Spec.shuffledVals n x σ i j * x j (σ j i) := by
    conv_lhs => unfold Spec.shuffledVals
    rw [dif_pos j.2, dif_pos i.2]
  rw [this, mul_div_cancel_left₀ _ (hpos σ i j).ne']

/-- Link ratios 2, 3, 4, … in every period, six periods: the variance is 1/6. -/
example : ∃ T : Spec.Orders 6 → ℚ,
    (∀ σ, spearmanTotal (stairTri 6 (Spec.shuffledVals 6 (fun _ i => (i : ℚ) + 2) σ)) = .ok (.fin (T σ))) ∧
    ∑ σ, T σ = 0 ∧ (∑ σ, T σ ^ 2) / (Fintype.card (Spec.Orders 6) : ℚ) = 1 / 6 := by
  obtain ⟨T, h1, h2, h3⟩ := C195_partial (n := 6) (shuffled_exists (K := ℚ) (x := fun _ i => (i : ℚ) + 2)
    (fun _ i => by positivity) (fun j _ i _ k _ h => by simpa using h)) (by norm_num)
  refine ⟨T, h1, h2, ?_⟩
  have h4 : devpCorrVar (stairTri 6 (Spec.shuffledVals 6 (fun _ i => (i : ℚ) + 2) 1)) = 6 := by
    unfold devpCorrVar
    rw [(stairTri_stair 6 _).nc]; norm_num
  rw [← h4]
  exact h3 1

/-- Amounts whose third period adds nothing. -/
example : ((spearmanCoeffs (stairTri 5 (fun i j => if j = 0 then 1 else (i : ℚ) + 2))).toOption.map
    (fun l => l.map (fun q => (q.k, q.w, q.T)))) = some [(2, 2, .fin (1 / 2)), (3, 1, .fin 1)] := by decide +kernel

/-- Link ratios 1, 1, 2 after 2, 3, 4: the mean over the three different orders is 1/8. -/
example : (Spec.spearman 3 (fun i => (i : ℚ) + 2) (fun i => if i = 0 then 2 else 1) +
    Spec.spearman 3 (fun i => (i : ℚ) + 2) (fun i => if i = 1 then 2 else 1) +
    Spec.spearman 3 (fun i => (i : ℚ) + 2) (fun i => if i = 2 then 2 else 1)) / 3 = 1 / 8 := by decide +kernel

end Trikit
