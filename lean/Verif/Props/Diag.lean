import Verif.DiagLemmas
import Verif.Examples
import Mathlib.Data.Nat.Choose.Sum
import Mathlib.Tactic.LinearCombination

/-! # C64, C65: rank correlation and calendar year moments -/

set_option linter.unusedSectionVars false

namespace Trikit

variable {K : Type} [Field K] [LinearOrder K] [IsStrictOrderedRing K]

/-! ### C64 -/

/-- The coefficients of a staircase: one for each `k = 2 .. n - 2`, weight `n - k - 1`, comparing the link
ratios of the periods `k - 1` and `k` (counted from 1) over the `n - k` origins that have both. -/
theorem C64_value {t : Tri K} {n : ℕ} {c : ℕ → ℕ → K} (h : Spec.Stair t n c)
    (hc : ∀ i j, i + j < n → c i j ≠ 0) (hn : 4 ≤ n) :
    spearmanCoeffs t = .ok ((List.range (n - 3)).map (fun d =>
      ⟨d + 2, (n : Int) - (d + 2) - 1, .fin (Spec.spearman (n - 2 - d)
        (fun i => c i (d + 1) / c i d) (fun i => c i (d + 2) / c i (d + 1)))⟩)) := by
  obtain ⟨p, hp, he⟩ := rankedA2a_stair h hc hn
  unfold spearmanCoeffs
  rw [he]
  simp only [bind, Except.bind]
  rw [pairUp_flatMap, List.map_map]
  congr 1
  refine List.map_congr_left (fun d hd => ?_)
  rw [List.mem_range] at hd
  simp only [Function.comp]
  have hN : 2 ≤ n - 2 - d := by omega
  have hden : ((((t.nc : Int) - ((d + 2 : ℕ) : Int)) ^ 3 - t.nc + ((d + 2 : ℕ) : Int) : Int) : K) =
      ((n - 2 - d : ℕ) : K) ^ 3 - ((n - 2 - d : ℕ) : K) := by
    rw [h.nc]
    have e : (n : Int) - ((d + 2 : ℕ) : Int) = ((n - 2 - d : ℕ) : Int) := by omega
    rw [e, show (((n - 2 - d : ℕ) : Int) ^ 3 - (n : Int) + ((d + 2 : ℕ) : Int)) =
      ((n - 2 - d : ℕ) : Int) ^ 3 - ((n - 2 - d : ℕ) : Int) by omega]
    push_cast; rfl
  have hpos := cube_sub_pos (K := K) hN
  have hk : (rankS t d).k = d + 2 := rfl
  rw [hk]
  have hw : (t.nc : Int) - ((d + 2 : ℕ) : Int) - 1 = (n : Int) - (d + 2) - 1 := by
    rw [h.nc]; push_cast; rfl
  rw [hw]
  congr 1
  unfold spearman Spec.spearman
  simp only
  rw [hden, List.zipWith_map, List.zipWith_self]
  rw [sumSkip_filter_prefix (N := n - 2 - d) (by omega) p _ (fun i =>
    (Spec.midrank ((List.range (n - 2 - d)).map (ratio c (d + 1))) (ratio c (d + 1) i) -
      Spec.midrank ((List.range (n - 2 - d)).map (ratio c d)) (ratio c d i)) ^ 2 /
      (((n - 2 - d : ℕ) : K) ^ 3 - ((n - 2 - d : ℕ) : K)))]
  · simp only [Num.fin_mul, Num.fin_sub]
    congr 2
    rw [list_sum_range, list_sum_range]
    generalize (((n - 2 - d : ℕ) : K) ^ 3 - ((n - 2 - d : ℕ) : K)) = D
    rw [mul_div_assoc, div_eq_mul_inv (Finset.sum _ _), Finset.sum_mul]
    simp only [← div_eq_mul_inv (_ ^ 2) D]
    rfl
  · intro i hi
    refine ⟨hp d i hd hi, ?_⟩
    rw [rankS_vals h hc (by omega) (by omega), rankR_vals h hc (by omega) (by omega), if_pos hi,
      if_pos (by omega), Num.fin_sub, Num.pow_fin, Num.fin_div _ _ hpos.ne',
      show n - 1 - (d + 1) = n - 2 - d by omega]
  · intro i hi hi'
    rw [rankS_vals h hc (by omega) hi, if_neg (by omega), Num.sub_nan]
    rfl

theorem weighted_mean_bounds (l : List (Int × K)) (hw : ∀ p ∈ l, 0 < p.1)
    (hx : ∀ p ∈ l, -1 ≤ p.2 ∧ p.2 ≤ 1) :
    -(((l.map Prod.fst).sum : Int) : K) ≤ (l.map (fun p => ((p.1 : Int) : K) * p.2)).sum ∧
      (l.map (fun p => ((p.1 : Int) : K) * p.2)).sum ≤ (((l.map Prod.fst).sum : Int) : K) := by
  induction l with
  | nil => simp
  | cons a l ih =>
    obtain ⟨h1, h2⟩ := ih (fun p hp => hw p (by simp [hp])) (fun p hp => hx p (by simp [hp]))
    have ha : (0 : K) < ((a.1 : Int) : K) := by exact_mod_cast hw a (by simp)
    obtain ⟨b1, b2⟩ := hx a (by simp)
    simp only [List.map_cons, List.sum_cons, Int.cast_add]
    constructor <;> nlinarith

/-- **C64**: every coefficient and their weighted mean lie in `[-1, 1]`, ties included. -/
theorem C64_bounds {t : Tri K} {n : ℕ} {c : ℕ → ℕ → K} (h : Spec.Stair t n c)
    (hc : ∀ i j, i + j < n → c i j ≠ 0) (hn : 4 ≤ n) :
    (∃ cs, spearmanCoeffs t = .ok cs ∧ cs.length = n - 3 ∧
      ∀ q ∈ cs, 0 < q.w ∧ ∃ x : K, q.T = .fin x ∧ -1 ≤ x ∧ x ≤ 1) ∧
    ∃ x : K, spearmanTotal t = .ok (.fin x) ∧ -1 ≤ x ∧ x ≤ 1 := by
  have hv := C64_value h hc hn
  have hb : ∀ d < n - 3, -1 ≤ Spec.spearman (n - 2 - d)
        (fun i => c i (d + 1) / c i d) (fun i => c i (d + 2) / c i (d + 1)) ∧ Spec.spearman (n - 2 - d)
        (fun i => c i (d + 1) / c i d) (fun i => c i (d + 2) / c i (d + 1)) ≤ 1 :=
    fun d hd => spearman_bounds (by omega) _ _
  refine ⟨⟨_, hv, by simp, ?_⟩, ?_⟩
  · intro q hq
    rw [List.mem_map] at hq
    obtain ⟨d, hd, rfl⟩ := hq
    rw [List.mem_range] at hd
    exact ⟨by simp only; omega, _, rfl, hb d hd⟩
  · unfold spearmanTotal
    rw [hv]
    simp only [bind, Except.bind, List.map_map]
    set x : ℕ → K := fun d => Spec.spearman (n - 2 - d)
        (fun i => c i (d + 1) / c i d) (fun i => c i (d + 2) / c i (d + 1)) with hx
    set l : List (Int × K) := (List.range (n - 3)).map (fun d : ℕ => ((n : Int) - (d + 2) - 1, x d)) with hl
    have hw : ∀ p ∈ l, 0 < p.1 := by
      intro p hp
      rw [hl, List.mem_map] at hp
      obtain ⟨d, hd, rfl⟩ := hp
      rw [List.mem_range] at hd
      simp only; omega
    have hbx : ∀ p ∈ l, -1 ≤ p.2 ∧ p.2 ≤ 1 := by
      intro p hp
      rw [hl, List.mem_map] at hp
      obtain ⟨d, hd, rfl⟩ := hp
      rw [List.mem_range] at hd
      exact hb d hd
    obtain ⟨b1, b2⟩ := weighted_mean_bounds l hw hbx
    have e1 : (l.map Prod.fst).sum = ((List.range (n - 3)).map
        (Coeff.w ∘ fun d => (⟨d + 2, (n : Int) - (d + 2) - 1, Num.fin (x d)⟩ : Coeff K))).sum := by
      rw [hl, List.map_map]; rfl
    have e2 : Num.sumSkip ((List.range (n - 3)).map
        ((fun q : Coeff K => Num.fin ((q.w : Int) : K) * q.T) ∘
          fun d => (⟨d + 2, (n : Int) - (d + 2) - 1, Num.fin (x d)⟩ : Coeff K))) =
        .fin (l.map (fun p => ((p.1 : Int) : K) * p.2)).sum := by
      rw [hl, List.map_map]
      refine Num.sumSkip_map_fin' _ _ _ (fun d _ => ?_)
      simp [Function.comp]
    have hpos : 0 < (l.map Prod.fst).sum := by
      refine List.sum_pos _ ?_ ?_
      · intro a ha
        rw [List.mem_map] at ha
        obtain ⟨p, hp, rfl⟩ := ha
        exact hw p hp
      · rw [hl]; intro hh
        simp at hh; omega
    have hposK : (0 : K) < (((l.map Prod.fst).sum : Int) : K) := by exact_mod_cast hpos
    rw [e2, ← e1, Num.fin_div _ _ hposK.ne']
    refine ⟨_, rfl, ?_, ?_⟩
    · rw [le_div_iff₀ hposK]; linarith
    · rw [div_le_iff₀ hposK]; linarith

/-- **C64**: without ties each coefficient is the product moment correlation of the two rank vectors. -/
theorem C64_correlation {n d : ℕ} (c : ℕ → ℕ → K) (hd : d < n - 3)
    (h1 : ∀ i < n - 2 - d, ∀ j < n - 2 - d, c i (d + 1) / c i d = c j (d + 1) / c j d → i = j)
    (h2 : ∀ i < n - 2 - d, ∀ j < n - 2 - d,
      c i (d + 2) / c i (d + 1) = c j (d + 2) / c j (d + 1) → i = j) :
    let N := n - 2 - d
    let x := fun i => c i (d + 1) / c i d
    let y := fun i => c i (d + 2) / c i (d + 1)
    Spec.spearman N x y =
      (∑ i ∈ Finset.range N, (Spec.midrank ((List.range N).map x) (x i) - (N + 1) / 2) *
        (Spec.midrank ((List.range N).map y) (y i) - (N + 1) / 2)) / (((N : K) ^ 3 - N) / 12) :=
  spearman_pearson (by omega) _ _ h1 h2

example : spearmanTotal exTri = .ok (.fin 1) := by decide +kernel

/-- Values of a 5 x 5 triangle with tied link ratios. -/
def tieVals : ℕ → ℕ → ℚ := fun i j =>
  ((([[100, 200, 300, 330, 340], [100, 200, 260, 300], [100, 150, 240], [100, 120], [90]] :
    List (List ℚ)).getD i []).getD j 0)

example : (spearmanCoeffs (stairTri 5 tieVals)).map (fun l => l.map (fun q => (q.k, q.w, q.T))) =
    .ok [(2, 2, .fin (-5/8)), (3, 1, .fin (-1))] := by decide +kernel

/-! ### C65 -/

namespace Spec

/-- Expectation of `f S` for `S` binomial(n, 1/2). -/
def binExp (n : ℕ) (f : ℕ → K) : K :=
  (∑ s ∈ Finset.range (n + 1), ((n.choose s : ℕ) : K) * f s) / 2 ^ n

/-- The smaller of the two counts. -/
def smaller (n s : ℕ) : K := ((min s (n - s) : ℕ) : K)

end Spec

open Finset

/-- Telescoping partial sums of `C(n,s) (n - 2 s)`. -/
theorem sum_choose_dev (n k : ℕ) :
    ∑ s ∈ range k, ((n.choose s : ℕ) : K) * ((n : K) - 2 * s) = (k : K) * (n.choose k : ℕ) := by
  induction k with
  | zero => simp
  | succ k ih =>
    rw [sum_range_succ, ih]
    have h := Nat.choose_succ_right_eq n k
    by_cases hk : k ≤ n
    · have h' : ((n.choose (k + 1) : ℕ) : K) * ((k : K) + 1) = (n.choose k : ℕ) * ((n : K) - k) := by
        rw [← Nat.cast_sub hk]; exact_mod_cast h
      push_cast
      linear_combination -h'
    · rw [Nat.choose_eq_zero_of_lt (by omega), Nat.choose_eq_zero_of_lt (by omega)]; simp

theorem sum_choose_cast (n : ℕ) : ∑ s ∈ range (n + 1), ((n.choose s : ℕ) : K) = 2 ^ n := by
  exact_mod_cast Nat.sum_range_choose n

theorem sum_choose_sq (n : ℕ) :
    ∑ s ∈ range (n + 1), ((n.choose s : ℕ) : K) * ((n : K) - 2 * s) ^ 2 = (n : K) * 2 ^ n := by
  induction n with
  | zero => simp
  | succ n ih =>
    have h := Finset.sum_choose_succ_mul (R := K) (fun i _ => (((n + 1 : ℕ) : K) - 2 * i) ^ 2) n
    rw [h, ← sum_add_distrib]
    have e : ∀ i ∈ range (n + 1), ((n.choose i : ℕ) : K) * (((n + 1 : ℕ) : K) - 2 * i) ^ 2 +
        ((n.choose i : ℕ) : K) * (((n + 1 : ℕ) : K) - 2 * ((i + 1 : ℕ) : K)) ^ 2 =
        2 * (((n.choose i : ℕ) : K) * ((n : K) - 2 * i) ^ 2) + 2 * ((n.choose i : ℕ) : K) := by
      intro i _; push_cast; ring
    rw [sum_congr rfl e, sum_add_distrib, ← mul_sum, ← mul_sum, ih, sum_choose_cast]
    push_cast; ring

theorem sum_choose_abs {n : ℕ} (hn : 1 ≤ n) :
    ∑ s ∈ range (n + 1), ((n.choose s : ℕ) : K) * |(n : K) - 2 * s| =
      2 * (n * ((n - 1).choose ((n - 1) / 2) : ℕ)) := by
  set k := (n + 1) / 2 with hk
  have e : ∀ s ∈ range (n + 1), ((n.choose s : ℕ) : K) * |(n : K) - 2 * s| =
      2 * (if s < k then ((n.choose s : ℕ) : K) * ((n : K) - 2 * s) else 0) -
        ((n.choose s : ℕ) : K) * ((n : K) - 2 * s) := by
    intro s _
    by_cases hs : s < k
    · have : (0 : K) ≤ (n : K) - 2 * s := by
        have : (2 * s : ℕ) ≤ n := by omega
        have : (((2 * s : ℕ)) : K) ≤ n := by exact_mod_cast this
        push_cast at this; linarith
      rw [if_pos hs, abs_of_nonneg this]; ring
    · have : (n : K) - 2 * s ≤ 0 := by
        have : n ≤ (2 * s : ℕ) := by omega
        have : (n : K) ≤ (((2 * s : ℕ)) : K) := by exact_mod_cast this
        push_cast at this; linarith
      rw [if_neg hs, abs_of_nonpos this]; ring
  rw [sum_congr rfl e, sum_sub_distrib, ← mul_sum, sum_choose_dev, ← sum_filter]
  have e2 : (range (n + 1)).filter (fun s => s < k) = range k := by
    ext s; simp only [mem_filter, mem_range]; omega
  rw [e2, sum_choose_dev, Nat.choose_eq_zero_of_lt (by omega : n < n + 1)]
  have e3 : k * n.choose k = n * (n - 1).choose ((n - 1) / 2) := by
    obtain ⟨m, rfl⟩ : ∃ m, n = m + 1 := ⟨n - 1, by omega⟩
    have hk' : k = m / 2 + 1 := by omega
    rw [hk', Nat.add_sub_cancel, Nat.add_one_mul_choose_eq]; ring
  have e4 : (k : K) * (n.choose k : ℕ) = n * ((n - 1).choose ((n - 1) / 2) : ℕ) := by exact_mod_cast e3
  rw [e4]; simp

theorem smaller_eq {n s : ℕ} (hs : s ≤ n) :
    Spec.smaller n s = ((n : K) - |(n : K) - 2 * s|) / 2 := by
  unfold Spec.smaller
  by_cases h : 2 * s ≤ n
  · have hK : (2 * s : K) ≤ n := by exact_mod_cast h
    rw [min_eq_left (by omega), abs_of_nonneg (by linarith)]; ring
  · have hK : (n : K) ≤ 2 * s := by
      have : n ≤ 2 * s := by omega
      exact_mod_cast this
    rw [min_eq_right (by omega), abs_of_nonpos (by linarith), Nat.cast_sub hs]; ring

theorem binExp_smaller {n : ℕ} (hn : 1 ≤ n) :
    Spec.binExp n (Spec.smaller (K := K) n) =
      (n : K) / 2 - n * ((n - 1).choose ((n - 1) / 2) : ℕ) / 2 ^ n := by
  unfold Spec.binExp
  have h2 : (2 : K) ^ n ≠ 0 := by positivity
  have e : ∀ s ∈ range (n + 1), ((n.choose s : ℕ) : K) * Spec.smaller n s =
      (n : K) / 2 * ((n.choose s : ℕ) : K) - (((n.choose s : ℕ) : K) * |(n : K) - 2 * s|) / 2 := by
    intro s hs
    rw [smaller_eq (by rw [mem_range] at hs; omega)]; ring
  rw [sum_congr rfl e, sum_sub_distrib, ← mul_sum, sum_choose_cast]
  have e5 : ∑ s ∈ range (n + 1), (((n.choose s : ℕ) : K) * |(n : K) - 2 * s|) / 2 =
      n * ((n - 1).choose ((n - 1) / 2) : ℕ) := by
    simp only [div_eq_mul_inv]
    rw [← sum_mul, sum_choose_abs hn]; ring
  rw [e5, sub_div, mul_div_cancel_right₀ _ h2]

theorem binExp_smaller_sq {n : ℕ} (hn : 1 ≤ n) :
    Spec.binExp n (fun s => (Spec.smaller (K := K) n s) ^ 2) =
      ((n : K) ^ 2 + n) / 4 - (n : K) ^ 2 * ((n - 1).choose ((n - 1) / 2) : ℕ) / 2 ^ n := by
  unfold Spec.binExp
  have h2 : (2 : K) ^ n ≠ 0 := by positivity
  have e : ∀ s ∈ range (n + 1), ((n.choose s : ℕ) : K) * (Spec.smaller n s) ^ 2 =
      (n : K) ^ 2 / 4 * ((n.choose s : ℕ) : K) - n / 2 * (((n.choose s : ℕ) : K) * |(n : K) - 2 * s|)
        + 1 / 4 * (((n.choose s : ℕ) : K) * ((n : K) - 2 * s) ^ 2) := by
    intro s hs
    rw [smaller_eq (by rw [mem_range] at hs; omega), ← sq_abs ((n : K) - 2 * s)]; ring
  rw [sum_congr rfl e, sum_add_distrib, sum_sub_distrib, ← mul_sum, ← mul_sum, ← mul_sum, sum_choose_cast,
    sum_choose_abs hn, sum_choose_sq]
  field_simp
  ring

theorem cyMean_eq {n : ℕ} (hn : 1 ≤ n) : (cyMean n : Num K) =
    .fin ((n : K) / 2 - n * ((n - 1).choose ((n - 1) / 2) : ℕ) / 2 ^ n) := by
  have h2 : (2 : K) ^ n ≠ 0 := by positivity
  unfold cyMean cyBinom
  rw [if_neg (by omega), Num.fin_div _ _ h2]
  simp only [Num.fin_mul, Num.fin_sub, Num.fin_inj']
  ring

/-- **C65**: the expectation used for a diagonal with `n ≥ 1` counted link ratios is the mean of the
smaller count of `n` fair coin tosses. -/
theorem C65_mean {n : ℕ} (hn : 1 ≤ n) :
    (cyMean n : Num K) = .fin (Spec.binExp n (Spec.smaller n)) := by
  rw [cyMean_eq hn, binExp_smaller hn]

/-- **C65**: the variance used is the variance of that count. -/
theorem C65_var {n : ℕ} (hn : 1 ≤ n) :
    (cyVar n : Num K) = .fin (Spec.binExp n (fun s =>
      (Spec.smaller n s - Spec.binExp n (Spec.smaller n)) ^ 2)) := by
  have h2 : (2 : K) ^ n ≠ 0 := by positivity
  have hE := binExp_smaller (K := K) hn
  have hS := binExp_smaller_sq (K := K) hn
  set μ := Spec.binExp n (Spec.smaller (K := K) n) with hμ
  have hvar : Spec.binExp n (fun s => (Spec.smaller (K := K) n s - μ) ^ 2) =
      Spec.binExp n (fun s => (Spec.smaller (K := K) n s) ^ 2) - μ ^ 2 := by
    have hμ' : ∑ s ∈ range (n + 1), ((n.choose s : ℕ) : K) * Spec.smaller n s = μ * 2 ^ n := by
      rw [hμ, Spec.binExp, div_mul_cancel₀ _ h2]
    unfold Spec.binExp
    have e : ∀ s ∈ range (n + 1), ((n.choose s : ℕ) : K) * (Spec.smaller n s - μ) ^ 2 =
        ((n.choose s : ℕ) : K) * Spec.smaller n s ^ 2
          - 2 * μ * (((n.choose s : ℕ) : K) * Spec.smaller n s) + μ ^ 2 * ((n.choose s : ℕ) : K) := by
      intro s _; ring
    rw [sum_congr rfl e, sum_add_distrib, sum_sub_distrib, ← mul_sum, ← mul_sum, hμ', sum_choose_cast]
    field_simp
    ring
  rw [hvar, hS]
  unfold cyVar cyBinom
  rw [if_neg (by omega), cyMean_eq hn, ← hE]
  simp only [Num.fin_mul, Num.fin_div _ _ h2, Num.fin_sub, Num.fin_add, Num.pow_fin, Num.fin_inj']
  rw [hE]
  ring

/-- A diagonal without counted link ratios contributes nothing to the totals: its moments are NaN and
skipped by the sum. -/
theorem C65_empty : (cyMean 0 : Num K) = .nan ∧ (cyVar 0 : Num K) = .nan := by
  refine ⟨?_, ?_⟩
  · simp [cyMean, cyBinom]
  · simp [cyVar, cyMean, cyBinom]

example : (cyMean 5 : Num ℚ) = .fin (25 / 16) := by decide +kernel
example : Spec.binExp 5 (Spec.smaller (K := ℚ) 5) = 25 / 16 := by decide +kernel
example : (cyVar 5 : Num ℚ) = .fin (95 / 256) := by decide +kernel

end Trikit
