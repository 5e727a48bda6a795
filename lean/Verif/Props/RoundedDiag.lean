import Verif.RoundedDiagLemmas
import Verif.Props.Diag
import Verif.Props.RoundedMackError
import Verif.Props.RoundedBootSumm
import Mathlib.Algebra.BigOperators.Field

/-! # C189, C190: the rank correlation test in rounded arithmetic -/

set_option linter.unusedSectionVars false

namespace Trikit

variable {K : Type} [Field K] [LinearOrder K] [IsStrictOrderedRing K]
variable {t : Tri K} {n N M : ℕ} {c : ℕ → ℕ → K} {x y : ℕ → K} {rd : K → K} {u : K} {br : ℕ → SumTree}

/-! ### without rounding -/

theorem rankedOf_a2a (t : Tri K) : rankedOf t.a2a = rankedA2a t := rfl

/-- Without rounding the coefficients and the statistic are those of the exact model. -/
theorem spearmanR_id (hb : Spec.Bracketing br) (t : Tri K) :
    spearmanCoeffsR br id t = spearmanCoeffs t ∧ spearmanTotalR br id t = spearmanTotal t := by
  have hr : ∀ v : Num K, v.rounded id = v := fun v => by cases v <;> rfl
  have h1 : spearmanCoeffsR br id t = spearmanCoeffs t := by
    unfold spearmanCoeffsR spearmanCoeffs
    rw [a2aR_id, rankedOf_a2a]
    congr 1
    funext cs
    congr 2
    funext p
    congr 1
    unfold spearmanR spearman Num.subR Num.mulR Num.divR Num.powR
    simp only [hr, sumSkipR_id hb]
  refine ⟨h1, ?_⟩
  unfold spearmanTotalR spearmanTotal
  rw [h1]
  unfold Num.mulR Num.divR
  simp only [hr, sumSkipR_id hb]

/-! ### errors of one coefficient -/

theorem rd_grow (h : Spec.RelErr rd u) {a b e : K} (hab : |b - a| ≤ (e - 1) * |a|) :
    |rd b - a| ≤ (e * (1 + u) - 1) * |a| := by
  have hb : |b| ≤ e * |a| := by
    have := abs_sub_abs_le_abs_sub b a
    linarith
  have h2 : |rd b - a| ≤ |rd b - b| + |b - a| := by
    have := abs_add_le (rd b - b) (b - a); simpa using this
  have h3 := h.err b
  have h4 := mul_le_mul_of_nonneg_left hb h.nonneg
  nlinarith

theorem rankTerm_err (h : Spec.RelErr rd u) (hN : 2 ≤ N) (x y : ℕ → K) (i : ℕ) :
    |Spec.rankTermR rd N x y i - (Spec.midrank ((List.range N).map y) (y i) -
      Spec.midrank ((List.range N).map x) (x i)) ^ 2 / ((N : K) ^ 3 - N)| ≤
    ((1 + u) ^ 4 - 1) * ((Spec.midrank ((List.range N).map y) (y i) -
      Spec.midrank ((List.range N).map x) (x i)) ^ 2 / ((N : K) ^ 3 - N)) := by
  have hD := cube_sub_pos (K := K) hN
  unfold Spec.rankTermR
  set d := Spec.midrank ((List.range N).map y) (y i) - Spec.midrank ((List.range N).map x) (x i)
  set D := (N : K) ^ 3 - N
  have hu := h.nonneg
  have h1 : |rd d ^ 2 - d ^ 2| ≤ ((1 + u) ^ 2 - 1) * |d ^ 2| := by
    have e := h.err d
    have e2 : |rd d + d| ≤ (2 + u) * |d| := by
      have := abs_add_le (rd d - d) (2 * d)
      rw [show rd d - d + 2 * d = rd d + d by ring, abs_mul, abs_two] at this
      linarith
    rw [show rd d ^ 2 - d ^ 2 = (rd d - d) * (rd d + d) by ring, abs_mul, abs_pow]
    calc |rd d - d| * |rd d + d| ≤ (u * |d|) * ((2 + u) * |d|) :=
          mul_le_mul e e2 (abs_nonneg _) (mul_nonneg hu (abs_nonneg _))
      _ = _ := by ring
  have h2 := rd_grow h h1
  have h3 : |rd (rd d ^ 2) / D - d ^ 2 / D| ≤ ((1 + u) ^ 2 * (1 + u) - 1) * |d ^ 2 / D| := by
    rw [← sub_div, abs_div, abs_div, ← mul_div_assoc]
    exact div_le_div_of_nonneg_right h2 (abs_nonneg _)
  have h4 := rd_grow h h3
  rw [abs_of_nonneg (show 0 ≤ d ^ 2 / D by positivity)] at h4
  calc _ ≤ _ := h4
    _ = _ := by ring

/-- One coefficient against exact arithmetic on the same link ratios. -/
theorem coefR_err (h : Spec.RelErr rd u) (hb : Spec.Bracketing br) (hN : 2 ≤ N) (x y : ℕ → K) :
    |Spec.coefR br rd N x y - Spec.spearman N x y| ≤ 2 * ((1 + u) ^ (N + 5) - 1) := by
  have hD := cube_sub_pos (K := K) hN
  have hu := h.nonneg
  set a : ℕ → K := fun i => (Spec.midrank ((List.range N).map y) (y i) -
      Spec.midrank ((List.range N).map x) (x i)) ^ 2 / ((N : K) ^ 3 - N) with ha
  have ha0 : ∀ i, 0 ≤ a i := fun i => by rw [ha]; positivity
  set S := ((List.range N).map a).sum with hS
  have hTS : Spec.spearman N x y = 1 - 6 * S := by
    unfold Spec.spearman
    rw [hS, list_sum_range, list_sum_range, mul_div_assoc, Finset.sum_div]
  have hbd := spearman_bounds hN x y
  have hS0 : 0 ≤ S := List.sum_nonneg (by intro v hv; obtain ⟨i, -, rfl⟩ := List.mem_map.1 hv; exact ha0 i)
  have hsum := sum_err h hb (l := List.range N) (by simp; omega) (a := a) (b := Spec.rankTermR rd N x y)
    (e := fun i => ((1 + u) ^ 4 - 1) * a i) (fun i _ => rankTerm_err h hN x y i)
  have e1 : ((List.range N).map (fun i => |a i| + ((1 + u) ^ 4 - 1) * a i)).sum = (1 + u) ^ 4 * S := by
    rw [hS, ← List.sum_map_mul_left]
    congr 1
    refine List.map_congr_left (fun i _ => ?_)
    rw [abs_of_nonneg (ha0 i)]; ring
  have e2 : ((List.range N).map (fun i => |a i|)).sum = S := by
    rw [hS]; congr 1
    exact List.map_congr_left (fun i _ => abs_of_nonneg (ha0 i))
  rw [e1, e2, List.length_range, ← hS] at hsum
  set S' := roundedSum br rd ((List.range N).map (Spec.rankTermR rd N x y)) with hS'
  have h6 : |6 * S' - 6 * S| ≤ ((1 + u) ^ (N + 3) - 1) * |6 * S| := by
    rw [← mul_sub, abs_mul, abs_mul, abs_of_nonneg hS0]
    have : (1 + u) ^ (N - 1) * ((1 + u) ^ 4 * S) - S = ((1 + u) ^ (N + 3) - 1) * S := by
      rw [show N + 3 = (N - 1) + 4 by omega, pow_add]; ring
    rw [this] at hsum
    have := mul_le_mul_of_nonneg_left hsum (abs_nonneg (6 : K))
    linarith
  have h7 := rd_grow h h6
  rw [← pow_succ, abs_of_nonneg (show 0 ≤ 6 * S by linarith)] at h7
  have hp1 : 0 ≤ (1 + u) ^ (N + 3 + 1) - 1 := by
    have := one_le_pow₀ (show (1 : K) ≤ 1 + u by linarith) (n := N + 3 + 1); linarith
  have h8 : |rd (6 * S') - 6 * S| ≤ 2 * ((1 + u) ^ (N + 3 + 1) - 1) := by
    have : 6 * S ≤ 2 := by rw [hTS] at hbd; linarith
    calc _ ≤ _ := h7
      _ ≤ ((1 + u) ^ (N + 3 + 1) - 1) * 2 := mul_le_mul_of_nonneg_left this hp1
      _ = _ := by ring
  unfold Spec.coefR
  rw [hTS, ← hS']
  set X := rd (6 * S')
  have h9 := h.err (1 - X)
  have h10 : |1 - X| ≤ 1 + |X - 6 * S| := by
    have e : 1 - X = (1 - 6 * S) + -(X - 6 * S) := by ring
    rw [e]
    refine (abs_add_le _ _).trans ?_
    rw [abs_neg]
    have : |1 - 6 * S| ≤ 1 := by rw [← hTS]; exact abs_le.2 hbd
    linarith
  have h11 : |rd (1 - X) - (1 - 6 * S)| ≤ |rd (1 - X) - (1 - X)| + |X - 6 * S| := by
    have := abs_add_le (rd (1 - X) - (1 - X)) (-(X - 6 * S))
    rw [abs_neg] at this
    rwa [show rd (1 - X) - (1 - X) + -(X - 6 * S) = rd (1 - X) - (1 - 6 * S) by ring] at this
  have h12 := mul_le_mul_of_nonneg_left h10 hu
  have h13 := mul_le_mul_of_nonneg_left h8 (show 0 ≤ 1 + u by linarith)
  have : (1 + u) ^ (N + 5) = (1 + u) * (1 + u) ^ (N + 3 + 1) := by rw [show N + 5 = N + 3 + 1 + 1 by omega, pow_succ']
  rw [this]
  nlinarith

theorem pow_err {k : ℕ} (hu : 0 ≤ u) (hk : 2 * (k * u) ≤ 1) : 2 * ((1 + u) ^ k - 1) ≤ 4 * k * u := by
  have := pow_sub_one_le hu hk
  linarith

/-! ### ranks -/

/-- Ranks depend on the order of the values only. -/
theorem midrank_order {f : ℕ → K} (hf : ∀ i < N, ∀ j < N, (f i < f j ↔ x i < x j)) {i : ℕ} (hi : i < N) :
    Spec.midrank ((List.range N).map f) (f i) = Spec.midrank ((List.range N).map x) (x i) := by
  unfold Spec.midrank
  have e1 : ((List.range N).map f).countP (fun u => decide (u < f i)) =
      ((List.range N).map x).countP (fun u => decide (u < x i)) := by
    rw [List.countP_map, List.countP_map]
    refine List.countP_congr (fun j hj => ?_)
    rw [List.mem_range] at hj
    simp only [Function.comp, decide_eq_true_eq]
    exact hf j hj i hi
  have e2 : ((List.range N).map f).countP (fun u => decide (u ≤ f i)) =
      ((List.range N).map x).countP (fun u => decide (u ≤ x i)) := by
    rw [List.countP_map, List.countP_map]
    refine List.countP_congr (fun j hj => ?_)
    rw [List.mem_range] at hj
    simp only [Function.comp, decide_eq_true_eq]
    rw [← not_lt, ← not_lt, hf i hi j hj]
  rw [e1, e2]

theorem spearman_order {f g : ℕ → K} (hf : ∀ i < N, ∀ j < N, (f i < f j ↔ x i < x j))
    (hg : ∀ i < N, ∀ j < N, (g i < g j ↔ y i < y j)) : Spec.spearman N f g = Spec.spearman N x y := by
  unfold Spec.spearman
  congr 4
  refine List.map_congr_left (fun i hi => ?_)
  rw [List.mem_range] at hi
  rw [midrank_order hf hi, midrank_order hg hi]

/-- The link ratios of period `j` are far enough apart: different ones differ by a factor above `(1 + u) / (1 - u)`. -/
def Spec.ApartAt (u : K) (N : ℕ) (x : ℕ → K) : Prop :=
  ∀ i < N, ∀ j < N, x i < x j → (1 + u) * x i < (1 - u) * x j

theorem apart_order (h : Spec.RelErr rd u) (hx : ∀ i < N, 0 < x i) (ha : Spec.ApartAt u N x) :
    ∀ i < N, ∀ j < N, (rd (x i) < rd (x j) ↔ x i < x j) := by
  have key : ∀ i < N, ∀ j < N, x i < x j → rd (x i) < rd (x j) := by
    intro i hi j hj hlt
    have h1 := abs_le.1 (h.err (x i))
    have h2 := abs_le.1 (h.err (x j))
    rw [abs_of_pos (hx i hi)] at h1
    rw [abs_of_pos (hx j hj)] at h2
    have := ha i hi j hj hlt
    linarith [h1.2, h2.1]
  intro i hi j hj
  refine ⟨fun hlt => ?_, key i hi j hj⟩
  rcases lt_trichotomy (x i) (x j) with e | e | e
  · exact e
  · rw [e] at hlt; exact absurd hlt (lt_irrefl _)
  · exact absurd (key j hj i hi e) (not_lt.2 hlt.le)

/-! ### C189 -/

section
variable (h : Spec.Stair t n c) (hc : ∀ i j, i + j < n → 0 < c i j) (hn : 4 ≤ n)
include h hc hn

/-- The statistic from the coefficients. -/
theorem totalR_value (br : ℕ → SumTree) (rd : K → K) :
    spearmanTotalR br rd t = .ok (.fin (rd (roundedSum br rd ((List.range (n - 3)).map (fun d =>
      rd (((n - 3 - d : ℕ) : K) * Spec.coefR br rd (n - 2 - d) (fun i => rd (c i (d + 1) / c i d))
        (fun i => rd (c i (d + 2) / c i (d + 1)))))) /
      (((List.range (n - 3)).map (fun d => ((n - 3 - d : ℕ) : K))).sum)))) := by
  unfold spearmanTotalR
  rw [coeffsR_value br rd h (fun i j hij => (hc i j hij).ne') hn]
  simp only [bind, Except.bind, List.map_map]
  have hw : ∀ d ∈ List.range (n - 3), (n : Int) - (d + 2) - 1 = ((n - 3 - d : ℕ) : Int) := by
    intro d hd; rw [List.mem_range] at hd; omega
  have e1 : (List.range (n - 3)).map ((fun q : Coeff K => Num.mulR rd (.fin ((q.w : Int) : K)) q.T) ∘ fun d =>
      (⟨d + 2, (n : Int) - (d + 2) - 1, Num.fin (Spec.coefR br rd (n - 2 - d) (fun i => rd (c i (d + 1) / c i d))
        (fun i => rd (c i (d + 2) / c i (d + 1))))⟩ : Coeff K)) =
      ((List.range (n - 3)).map (fun d => rd (((n - 3 - d : ℕ) : K) * Spec.coefR br rd (n - 2 - d)
        (fun i => rd (c i (d + 1) / c i d)) (fun i => rd (c i (d + 2) / c i (d + 1)))))).map Num.fin := by
    rw [List.map_map]
    refine List.map_congr_left (fun d hd => ?_)
    simp only [Function.comp]
    rw [hw d hd]
    unfold Num.mulR
    rw [Num.fin_mul, Int.cast_natCast]
    rfl
  have e2 : ((((List.range (n - 3)).map (Coeff.w ∘ fun d =>
      (⟨d + 2, (n : Int) - (d + 2) - 1, Num.fin (Spec.coefR br rd (n - 2 - d) (fun i => rd (c i (d + 1) / c i d))
        (fun i => rd (c i (d + 2) / c i (d + 1))))⟩ : Coeff K))).sum : Int) : K) =
      ((List.range (n - 3)).map (fun d => ((n - 3 - d : ℕ) : K))).sum := by
    have e3 : ∀ l : List Int, ((l.sum : Int) : K) = (l.map (fun z : Int => (z : K))).sum := by
      intro l
      induction l with
      | nil => simp
      | cons a l ih => simp [ih]
    rw [e3, List.map_map]
    congr 1
    refine List.map_congr_left (fun d hd => ?_)
    simp only [Function.comp]
    rw [hw d hd, Int.cast_natCast]
  rw [e1, sumSkipR_fin, e2]
  have hW : (0 : K) < ((List.range (n - 3)).map (fun d => ((n - 3 - d : ℕ) : K))).sum := by
    refine List.sum_pos _ ?_ ?_
    · intro v hv
      obtain ⟨d, hd, rfl⟩ := List.mem_map.1 hv
      rw [List.mem_range] at hd
      have : 0 < n - 3 - d := by omega
      exact_mod_cast this
    · simp; omega
  unfold Num.divR
  rw [Num.fin_div _ _ hW.ne']
  rfl

/-- The exact statistic from the coefficients. -/
theorem total_value :
    spearmanTotal t = .ok (.fin (((List.range (n - 3)).map (fun d => ((n - 3 - d : ℕ) : K) *
      Spec.spearman (n - 2 - d) (fun i => c i (d + 1) / c i d) (fun i => c i (d + 2) / c i (d + 1)))).sum /
      ((List.range (n - 3)).map (fun d => ((n - 3 - d : ℕ) : K))).sum)) := by
  have e := totalR_value h hc hn (seqTree <| · - 1) (id : K → K)
  have hb : Spec.Bracketing (fun k => seqTree (k - 1)) := seqTree_bracketing
  rw [(spearmanR_id hb t).2] at e
  rw [e, roundedSum_id hb]
  congr 3
  simp only [id]
  congr 2
  refine List.map_congr_left (fun d _ => ?_)
  congr 1
  unfold Spec.coefR Spec.spearman
  rw [roundedSum_id hb]
  simp only [id]
  congr 1
  rw [mul_div_assoc, list_sum_range, list_sum_range, Finset.sum_div]
  rfl

end

/-- The weighted mean of rounded coefficients. -/
theorem total_err (h : Spec.RelErr rd u) (hb : Spec.Bracketing br) {m : ℕ} (hm : 0 < m) {w : ℕ → ℕ} (hw : ∀ d < m, 0 < w d)
    {T T' : ℕ → K} {e : K} (hT : ∀ d < m, |T d| ≤ 1) (hT' : ∀ d < m, |T' d - T d| ≤ e) :
    |rd (roundedSum br rd ((List.range m).map (fun d => rd ((w d : K) * T' d))) /
      ((List.range m).map (fun d => (w d : K))).sum) -
      ((List.range m).map (fun d => (w d : K) * T d)).sum / ((List.range m).map (fun d => (w d : K))).sum| ≤
    (1 + u) ^ (m + 1) * (1 + e) - 1 := by
  have hu := h.nonneg
  set W := ((List.range m).map (fun d => (w d : K))).sum with hW
  have hWp : 0 < W := by
    refine List.sum_pos _ ?_ (by simp; omega)
    intro v hv
    obtain ⟨d, hd, rfl⟩ := List.mem_map.1 hv
    exact_mod_cast hw d (List.mem_range.1 hd)
  set S := ((List.range m).map (fun d => (w d : K) * T d)).sum with hS
  set S' := roundedSum br rd ((List.range m).map (fun d => rd ((w d : K) * T' d))) with hS'
  have hs := sum_err h hb (l := List.range m) (by simp; omega) (a := fun d => (w d : K) * T d)
    (b := fun d => rd ((w d : K) * T' d)) (e := fun d => (w d : K) * (e + u * (1 + e))) (by
      intro d hd
      rw [List.mem_range] at hd
      have hw0 : (0 : K) ≤ w d := by positivity
      have h1 := h.err ((w d : K) * T' d)
      have h2 : |T' d| ≤ 1 + e := by
        have := abs_sub_abs_le_abs_sub (T' d) (T d)
        linarith [hT d hd, hT' d hd]
      have h3 : |rd ((w d : K) * T' d) - (w d : K) * T d| ≤
          |rd ((w d : K) * T' d) - (w d : K) * T' d| + |(w d : K) * T' d - (w d : K) * T d| := abs_sub_le _ _ _
      rw [← mul_sub, abs_mul (w d : K) (T' d - T d), abs_of_nonneg hw0] at h3
      rw [abs_mul, abs_of_nonneg hw0] at h1
      have h4 := mul_le_mul_of_nonneg_left (hT' d hd) hw0
      have h5 := mul_le_mul_of_nonneg_left (mul_le_mul_of_nonneg_left h2 hw0) hu
      linarith)
  have hA : ((List.range m).map (fun d => |(w d : K) * T d|)).sum ≤ W := by
    refine List.sum_le_sum (fun d hd => ?_)
    have hw0 : (0 : K) ≤ w d := by positivity
    rw [abs_mul, abs_of_nonneg hw0]
    have := mul_le_mul_of_nonneg_left (hT d (List.mem_range.1 hd)) hw0
    linarith
  have hB : ((List.range m).map (fun d => |(w d : K) * T d| + (w d : K) * (e + u * (1 + e)))).sum =
      ((List.range m).map (fun d => |(w d : K) * T d|)).sum + W * (e + u * (1 + e)) := by
    rw [List.sum_map_add, List.sum_map_mul_right]
  rw [hB, List.length_range] at hs
  set A := ((List.range m).map (fun d => |(w d : K) * T d|)).sum
  have hp : 1 ≤ (1 + u) ^ (m - 1) := one_le_pow₀ (by linarith)
  have hSW : |S| ≤ W := by
    have : |S| ≤ A := by
      rw [hS]
      clear hs hB hA
      show _ ≤ ((List.range m).map (fun d => |(w d : K) * T d|)).sum
      induction (List.range m) with
      | nil => simp
      | cons a l ih => simp only [List.map_cons, List.sum_cons]; exact (abs_add_le _ _).trans (by linarith)
    linarith
  have h1 : |S' - S| ≤ ((1 + u) ^ (m - 1) * (1 + u) * (1 + e) - 1) * W := by
    have : (1 + u) ^ (m - 1) * (A + W * (e + u * (1 + e))) - A ≤
        (1 + u) ^ (m - 1) * (W + W * (e + u * (1 + e))) - W := by nlinarith
    calc |S' - S| ≤ _ := hs
      _ ≤ _ := this
      _ = _ := by ring
  have h2 : |S' / W - S / W| ≤ (1 + u) ^ (m - 1) * (1 + u) * (1 + e) - 1 := by
    rw [← sub_div, abs_div, abs_of_pos hWp, div_le_iff₀ hWp]; exact h1
  have h3 : |S / W| ≤ 1 := by rw [abs_div, abs_of_pos hWp, div_le_one hWp]; exact hSW
  have h4 := h.err (S' / W)
  have h5 : |S' / W| ≤ (1 + u) ^ (m - 1) * (1 + u) * (1 + e) := by
    have := abs_sub_abs_le_abs_sub (S' / W) (S / W)
    linarith
  have h6 := mul_le_mul_of_nonneg_left h5 hu
  have h7 := abs_sub_le (rd (S' / W)) (S' / W) (S / W)
  have e3 : (1 + u) ^ (m + 1) * (1 + e) = (1 + u) ^ (m - 1) * (1 + u) * (1 + e) * (1 + u) := by
    rw [show m + 1 = m - 1 + 1 + 1 by omega, pow_succ, pow_succ]; ring
  rw [e3]
  linarith

theorem total_bound (hu : 0 ≤ u) (hn : 4 ≤ n) (hk : 2 * (((n + 3 : ℕ) : K) * u) ≤ 1) :
    (1 + u) ^ (n - 3 + 1) * (1 + 2 * ((1 + u) ^ (n + 3) - 1)) - 1 ≤ 10 * n * u := by
  have h1 := pow_sub_one_le hu hk
  have hn' : ((n - 3 + 1 : ℕ) : K) = (n : K) - 2 := by
    rw [show n - 3 + 1 = n - 2 by omega, Nat.cast_sub (by omega)]; simp
  have hn4 : (4 : K) ≤ n := by exact_mod_cast hn
  push_cast at h1 hk
  have h2 := pow_sub_one_le hu (j := n - 3 + 1) (by rw [hn']; nlinarith)
  rw [hn'] at h2
  have h3 : 1 + 2 * ((1 + u) ^ (n + 3) - 1) ≤ 1 + 4 * (((n : K) + 3) * u) := by linarith
  have h0 : 0 ≤ ((n : K) - 2) * u := mul_nonneg (by linarith) hu
  calc _ ≤ (1 + 2 * (((n : K) - 2) * u)) * (1 + 4 * (((n : K) + 3) * u)) - 1 := by
        have := mul_le_mul h2 h3 (by
          have := one_le_pow₀ (show (1 : K) ≤ 1 + u by linarith) (n := n + 3); linarith) (by linarith)
        linarith
    _ ≤ _ := by nlinarith [mul_le_mul_of_nonneg_left hk h0]

/-! ### main theorems -/

theorem midrank_lt {i j : ℕ} (hj : j < N) (hlt : x i < x j) :
    Spec.midrank ((List.range N).map x) (x i) < Spec.midrank ((List.range N).map x) (x j) := by
  have h1 : ((List.range N).map x).countP (fun u => decide (u < x i)) ≤
      ((List.range N).map x).countP (fun u => decide (u < x j)) :=
    List.countP_mono_left (fun v _ hv => by
      simp only [decide_eq_true_eq] at hv ⊢; exact hv.trans hlt)
  have h2 : ((List.range N).map x).countP (fun u => decide (u ≤ x i)) <
      ((List.range N).map x).countP (fun u => decide (u ≤ x j)) := by
    have hm : x j ∈ (List.range N).map x := List.mem_map.2 ⟨j, List.mem_range.2 hj, rfl⟩
    obtain ⟨s, r, e⟩ := List.append_of_mem hm
    rw [e]
    have key : ∀ l : List K, l.countP (fun u => decide (u ≤ x i)) ≤ l.countP (fun u => decide (u ≤ x j)) := fun l =>
      List.countP_mono_left (fun v _ hv => by
        simp only [decide_eq_true_eq] at hv ⊢; exact hv.trans hlt.le)
    rw [List.countP_append, List.countP_append, List.countP_cons, List.countP_cons]
    have := key s
    have := key r
    simp [not_le.2 hlt]
    omega
  unfold Spec.midrank
  have h1' : (((((List.range N).map x).countP (fun u => decide (u < x i)) : ℕ)) : K) ≤
      (((List.range N).map x).countP (fun u => decide (u < x j)) : ℕ) := by exact_mod_cast h1
  have h2' : (((((List.range N).map x).countP (fun u => decide (u ≤ x i)) : ℕ)) : K) <
      (((List.range N).map x).countP (fun u => decide (u ≤ x j)) : ℕ) := by exact_mod_cast h2
  linarith

theorem midrank_lt_iff {i j : ℕ} (hi : i < N) (hj : j < N) :
    Spec.midrank ((List.range N).map x) (x i) < Spec.midrank ((List.range N).map x) (x j) ↔ x i < x j := by
  refine ⟨fun hlt => ?_, midrank_lt hj⟩
  rcases lt_trichotomy (x i) (x j) with e | e | e
  · exact e
  · rw [e] at hlt; exact absurd hlt (lt_irrefl _)
  · exact absurd (midrank_lt hi e) (not_lt.2 hlt.le)

/-- **C189 (ranks)**: monotone rounding never reverses ranks.  When the rank of origin `i` is below that of `j` in the
rounded link ratios of a period, it is so in exact arithmetic. -/
theorem C189_ranks (h : Spec.Stair t n c) (hc : ∀ i j, i + j < n → 0 < c i j) (hm : Monotone rd) {d i j : ℕ}
    (hi : i + d + 1 < n) (hj : j + d + 1 < n) {a b : K}
    (ha : (rankROf (t.a2aR rd) d).vals.getD i .nan = .fin a) (hb : (rankROf (t.a2aR rd) d).vals.getD j .nan = .fin b)
    (hab : a < b) :
    ∃ a' b', (rankR t d).vals.getD i .nan = .fin a' ∧ (rankR t d).vals.getD j .nan = .fin b' ∧ a' < b' := by
  have hc' : ∀ i j, i + j < n → c i j ≠ 0 := fun i j hij => (hc i j hij).ne'
  have hl := links_a2aR rd h hc'
  rw [rankROf_vals hl (by omega) (by omega), if_pos (by omega), Num.fin_inj'] at ha hb
  rw [rankR_vals h hc' (by omega) (by omega), rankR_vals h hc' (by omega) (by omega), if_pos (by omega),
    if_pos (by omega)]
  refine ⟨_, _, rfl, rfl, ?_⟩
  rw [← ha, ← hb, midrank_lt_iff (x := fun i => rd (ratio c d i)) (by omega) (by omega)] at hab
  rw [midrank_lt_iff (by omega) (by omega)]
  exact lt_of_not_ge (fun hge => absurd (hm hge) (not_le.2 hab))

/-- **C189 (partial)**: when different link ratios of a period differ by more than the factor `(1 + u) / (1 - u)`, every
coefficient is within `4 (n + 3) u` and the statistic within `10 n u` of exact arithmetic, in whatever order the sums are
formed.  Missing from the full statement: closer link ratios, see `C189_fails`. -/
theorem C189_partial (hr : Spec.RelErr rd u) (hb : Spec.Bracketing br) (h : Spec.Stair t n c)
    (hc : ∀ i j, i + j < n → 0 < c i j) (hn : 4 ≤ n) (hk : 2 * (((n + 3 : ℕ) : K) * u) ≤ 1)
    (ha : ∀ d < n - 1, Spec.ApartAt u (n - 1 - d) (fun i => c i (d + 1) / c i d)) :
    (∃ cs cs', spearmanCoeffs t = .ok cs ∧ spearmanCoeffsR br rd t = .ok cs' ∧ cs.length = n - 3 ∧
      cs'.length = n - 3 ∧ ∀ k (h1 : k < cs.length) (h2 : k < cs'.length), cs'[k].k = cs[k].k ∧ cs'[k].w = cs[k].w ∧
        ∃ T T', cs[k].T = .fin T ∧ cs'[k].T = .fin T' ∧ |T' - T| ≤ 4 * ((n + 3 : ℕ) : K) * u) ∧
    ∃ T T', spearmanTotal t = .ok (.fin T) ∧ spearmanTotalR br rd t = .ok (.fin T') ∧ |T' - T| ≤ 10 * n * u := by
  have hc' : ∀ i j, i + j < n → c i j ≠ 0 := fun i j hij => (hc i j hij).ne'
  have hord : ∀ d N, d < n - 1 → N ≤ n - 1 - d → ∀ i < N, ∀ j < N,
      (rd (c i (d + 1) / c i d) < rd (c j (d + 1) / c j d) ↔ c i (d + 1) / c i d < c j (d + 1) / c j d) := by
    intro d N hd hN
    exact apart_order (x := fun i => c i (d + 1) / c i d) hr
      (fun i hi => div_pos (hc _ _ (by omega)) (hc _ _ (by omega)))
      (fun i hi j hj => ha d hd i (by omega) j (by omega))
  have hE : ∀ d < n - 3, |Spec.coefR br rd (n - 2 - d) (fun i => rd (c i (d + 1) / c i d))
        (fun i => rd (c i (d + 2) / c i (d + 1))) -
      Spec.spearman (n - 2 - d) (fun i => c i (d + 1) / c i d) (fun i => c i (d + 2) / c i (d + 1))| ≤
      2 * ((1 + u) ^ (n + 3) - 1) := by
    intro d hd
    have e := spearman_order (N := n - 2 - d) (x := fun i => c i (d + 1) / c i d) (y := fun i => c i (d + 2) / c i (d + 1))
      (f := fun i => rd (c i (d + 1) / c i d)) (g := fun i => rd (c i (d + 2) / c i (d + 1)))
      (hord d _ (by omega) (by omega)) (hord (d + 1) _ (by omega) (by omega))
    rw [← e]
    refine (coefR_err hr hb (by omega) _ _).trans ?_
    have := pow_le_pow_right₀ (show (1 : K) ≤ 1 + u by linarith [hr.nonneg]) (show n - 2 - d + 5 ≤ n + 3 by omega)
    linarith
  refine ⟨⟨_, _, C64_value h hc' hn, coeffsR_value br rd h hc' hn, by simp, by simp, ?_⟩, ?_⟩
  · intro k h1 h2
    have hk3 : k < n - 3 := by simpa using h1
    simp only [List.getElem_map, List.getElem_range]
    exact ⟨trivial, trivial, _, _, rfl, rfl, (hE k hk3).trans (pow_err hr.nonneg hk)⟩
  · refine ⟨_, _, total_value h hc hn, totalR_value h hc hn br rd, ?_⟩
    refine (total_err hr hb (m := n - 3) (by omega) (w := fun d => n - 3 - d) (fun d hd => by omega)
      (e := 2 * ((1 + u) ^ (n + 3) - 1)) ?_ hE).trans (total_bound hr.nonneg hn hk)
    intro d hd
    exact abs_le.2 (spearman_bounds (by omega) _ _)

/-! ### C190 -/

theorem roundedSum_mono (hm : Spec.MonoRd rd M) (hb : Spec.Bracketing br) {m : ℕ} {a b : ℕ → K} (hab : ∀ i < m, a i ≤ b i) :
    roundedSum br rd ((List.range m).map a) ≤ roundedSum br rd ((List.range m).map b) := by
  unfold roundedSum
  rcases Nat.eq_zero_or_pos m with rfl | hm0
  · simp
  · have e1 : ∀ f : ℕ → K, ((List.range m).map f) ≠ [] := by intro f; simp; omega
    rw [if_neg (e1 a), if_neg (e1 b), List.length_map, List.length_map, List.length_range]
    refine tree_mono hm _ (fun i hi => ?_)
    have hi' : i < m := List.mem_range.1 ((hb m hm0).mem_iff.1 hi)
    simp [List.getD_eq_getElem?_getD, hi']
    exact hab i hi'

theorem coefR_le_one (hm : Spec.MonoRd rd M) (hM : 1 ≤ M) (hb : Spec.Bracketing br) (hN : 2 ≤ N) (x y : ℕ → K) :
    Spec.coefR br rd N x y ≤ 1 := by
  have hD := cube_sub_pos (K := K) hN
  have h1 : rd 1 = (1 : K) := by simpa using hm.nat 1 hM
  have h0 : 0 ≤ roundedSum br rd ((List.range N).map (Spec.rankTermR rd N x y)) := by
    refine roundedSum_nonneg hm hb (fun v hv => ?_)
    obtain ⟨i, -, rfl⟩ := List.mem_map.1 hv
    exact MonoRd.nonneg hm (div_nonneg (MonoRd.nonneg hm (sq_nonneg _)) hD.le)
  have h2 : 0 ≤ rd (6 * roundedSum br rd ((List.range N).map (Spec.rankTermR rd N x y))) := MonoRd.nonneg hm (by linarith)
  unfold Spec.coefR
  calc _ ≤ rd 1 := hm.mono (by linarith)
    _ = 1 := h1

/-- **C190 (partial)**: no coefficient and no statistic exceeds 1.  Below they stay above `-1` up to rounding errors:
`4 (n + 3) u` for a coefficient and `10 n u` for the statistic.  Missing from the full statement: the lower limit itself,
see `C190_fails`. -/
theorem C190_partial (hr : Spec.RelErr rd u) (hm : Spec.MonoRd rd M) (hx : Spec.ExactInt rd M)
    (hM : n * n ≤ M) (hb : Spec.Bracketing br)
    (h : Spec.Stair t n c) (hc : ∀ i j, i + j < n → 0 < c i j) (hn : 4 ≤ n) (hk : 2 * (((n + 3 : ℕ) : K) * u) ≤ 1) :
    (∃ cs, spearmanCoeffsR br rd t = .ok cs ∧ cs.length = n - 3 ∧
      ∀ q ∈ cs, ∃ T, q.T = .fin T ∧ -1 - 4 * ((n + 3 : ℕ) : K) * u ≤ T ∧ T ≤ 1) ∧
    ∃ T, spearmanTotalR br rd t = .ok (.fin T) ∧ -1 - 10 * n * u ≤ T ∧ T ≤ 1 := by
  have hc' : ∀ i j, i + j < n → c i j ≠ 0 := fun i j hij => (hc i j hij).ne'
  have hM1 : 1 ≤ M := le_trans (by nlinarith) hM
  set X : ℕ → K := fun d => Spec.coefR br rd (n - 2 - d) (fun i => rd (c i (d + 1) / c i d))
        (fun i => rd (c i (d + 2) / c i (d + 1))) with hX
  set Y : ℕ → K := fun d => Spec.spearman (n - 2 - d) (fun i => rd (c i (d + 1) / c i d))
        (fun i => rd (c i (d + 2) / c i (d + 1))) with hY
  have hE : ∀ d < n - 3, |X d - Y d| ≤ 2 * ((1 + u) ^ (n + 3) - 1) := by
    intro d hd
    refine (coefR_err hr hb (by omega) _ _).trans ?_
    have := pow_le_pow_right₀ (show (1 : K) ≤ 1 + u by linarith [hr.nonneg]) (show n - 2 - d + 5 ≤ n + 3 by omega)
    linarith
  have hY1 : ∀ d < n - 3, -1 ≤ Y d ∧ Y d ≤ 1 := fun d hd => spearman_bounds (by omega) _ _
  have hX1 : ∀ d < n - 3, X d ≤ 1 := fun d hd => coefR_le_one hm hM1 hb (by omega) _ _
  refine ⟨⟨_, coeffsR_value br rd h hc' hn, by simp, ?_⟩, _, totalR_value h hc hn br rd, ?_, ?_⟩
  · intro q hq
    obtain ⟨d, hd, rfl⟩ := List.mem_map.1 hq
    rw [List.mem_range] at hd
    refine ⟨_, rfl, ?_, hX1 d hd⟩
    have h1 := (abs_le.1 (hE d hd)).1
    have h2 := pow_err hr.nonneg hk
    have h3 := (hY1 d hd).1
    show _ ≤ X d
    linarith
  · have h1 := (total_err hr hb (m := n - 3) (by omega) (w := fun d => n - 3 - d) (fun d hd => by omega)
      (e := 2 * ((1 + u) ^ (n + 3) - 1)) (fun d hd => abs_le.2 (hY1 d hd)) hE).trans (total_bound hr.nonneg hn hk)
    have h2 := (abs_le.1 h1).1
    have hWp : 0 < ((List.range (n - 3)).map (fun d => ((n - 3 - d : ℕ) : K))).sum := by
      refine List.sum_pos _ ?_ (by simp; omega)
      intro v hv
      obtain ⟨d, hd, rfl⟩ := List.mem_map.1 hv
      rw [List.mem_range] at hd
      have : 0 < n - 3 - d := by omega
      exact_mod_cast this
    have h3 : -1 ≤ ((List.range (n - 3)).map (fun d => ((n - 3 - d : ℕ) : K) * Y d)).sum /
        ((List.range (n - 3)).map (fun d => ((n - 3 - d : ℕ) : K))).sum := by
      rw [le_div_iff₀ hWp, ← List.sum_map_mul_left]
      refine List.sum_le_sum (fun d hd => ?_)
      rw [List.mem_range] at hd
      have := mul_le_mul_of_nonneg_left (hY1 d hd).1 (show (0 : K) ≤ ((n - 3 - d : ℕ) : K) by positivity)
      linarith
    linarith
  · have hle : ∀ d < n - 3, rd (((n - 3 - d : ℕ) : K) * X d) ≤ ((n - 3 - d : ℕ) : K) := by
      intro d hd
      have h1 : ((n - 3 - d : ℕ) : K) * X d ≤ ((n - 3 - d : ℕ) : K) := by
        have := mul_le_mul_of_nonneg_left (hX1 d hd) (show (0 : K) ≤ ((n - 3 - d : ℕ) : K) by positivity)
        linarith
      have h2 : n - 3 - d ≤ M := by
        have : n ≤ n * n := Nat.le_mul_self n
        omega
      calc _ ≤ rd ((n - 3 - d : ℕ) : K) := hm.mono h1
        _ = _ := hm.nat _ h2
    have h1 := roundedSum_mono hm hb hle
    have hsum : ((List.range (n - 3)).map (fun d => n - 3 - d)).sum ≤ M := by
      refine le_trans (List.sum_le_card_nsmul _ n (fun v hv => ?_)) ?_
      · obtain ⟨d, -, rfl⟩ := List.mem_map.1 hv; omega
      · rw [List.length_map, List.length_range, smul_eq_mul]
        exact le_trans (Nat.mul_le_mul_right n (Nat.sub_le n 3)) hM
    have h2 := roundedSum_exact hx hb (List.range (n - 3)) (fun d => n - 3 - d) hsum
    have hcast : (((((List.range (n - 3)).map (fun d => n - 3 - d)).sum : ℕ)) : K) =
        ((List.range (n - 3)).map (fun d => ((n - 3 - d : ℕ) : K))).sum := by
      rw [Nat.cast_list_sum, List.map_map]; rfl
    rw [h2, hcast] at h1
    have hWp : 0 < ((List.range (n - 3)).map (fun d => ((n - 3 - d : ℕ) : K))).sum := by
      refine List.sum_pos _ ?_ (by simp; omega)
      intro v hv
      obtain ⟨d, hd, rfl⟩ := List.mem_map.1 hv
      rw [List.mem_range] at hd
      have : 0 < n - 3 - d := by omega
      exact_mod_cast this
    calc _ ≤ rd 1 := hm.mono ((div_le_one hWp).2 h1)
      _ = 1 := by simpa using hm.nat 1 hM1

/-- **C190**: equal orders of the rounded link ratios give exactly 1. -/
theorem C190_same (hm : Spec.MonoRd rd M) (hx : Spec.ExactInt rd M) (hM : 1 ≤ M) (hb : Spec.Bracketing br) (h : Spec.Stair t n c)
    (hc : ∀ i j, i + j < n → 0 < c i j) (hn : 4 ≤ n) {d : ℕ} (hd : d < n - 3)
    (ho : ∀ i < n - 2 - d, ∀ j < n - 2 - d, (rd (c i (d + 2) / c i (d + 1)) < rd (c j (d + 2) / c j (d + 1)) ↔
      rd (c i (d + 1) / c i d) < rd (c j (d + 1) / c j d))) :
    ∃ cs q, spearmanCoeffsR br rd t = .ok cs ∧ cs[d]? = some q ∧ q.k = d + 2 ∧ q.T = .fin 1 := by
  have h0 := hm.zero
  refine ⟨_, _, coeffsR_value br rd h (fun i j hij => (hc i j hij).ne') hn, by
    rw [List.getElem?_map, List.getElem?_range hd]; rfl, rfl, ?_⟩
  show Num.fin _ = Num.fin 1
  rw [Num.fin_inj']
  unfold Spec.coefR
  have e : (List.range (n - 2 - d)).map (Spec.rankTermR rd (n - 2 - d) (fun i => rd (c i (d + 1) / c i d))
      (fun i => rd (c i (d + 2) / c i (d + 1)))) = (List.range (n - 2 - d)).map (fun i => (((fun _ => 0) i : ℕ) : K)) := by
    refine List.map_congr_left (fun i hi => ?_)
    rw [List.mem_range] at hi
    unfold Spec.rankTermR
    rw [midrank_order (x := fun i => rd (c i (d + 1) / c i d)) (f := fun i => rd (c i (d + 2) / c i (d + 1))) ho hi, sub_self,
      h0, zero_pow two_ne_zero, h0, zero_div, h0]
    simp
  rw [e, roundedSum_exact hx hb _ _ (by simp)]
  simp only [List.map_const', List.sum_replicate, smul_zero, Nat.cast_zero, mul_zero, h0, sub_zero]
  simpa using hm.nat 1 hM

/-- Rounding to `p` binary digits, `n` periods. -/
theorem C190_digits [FloorRing K] {p : ℕ} (hp : 1 ≤ p) (hM : n * n ≤ 2 ^ p) (hb : Spec.Bracketing br)
    (h : Spec.Stair t n c) (hc : ∀ i j, i + j < n → 0 < c i j) (hn : 4 ≤ n) :
    ∃ T, spearmanTotalR br (floatRd p) t = .ok (.fin T) ∧ -1 - 10 * n * (2 : K) ^ (-(p : ℤ)) ≤ T ∧ T ≤ 1 := by
  refine (C190_partial (floatRd_relErr hp) (floatRd_monoRd hp) (floatRd_exactInt hp) hM hb h hc hn ?_).2
  have h1 : 2 * (n + 3) ≤ 2 ^ p := le_trans (by nlinarith) hM
  have h2 : (2 * ((n + 3 : ℕ) : K)) ≤ 2 ^ p := by exact_mod_cast h1
  rw [zpow_neg, zpow_natCast, ← mul_assoc, ← div_eq_mul_inv, div_le_one (by positivity)]
  exact h2

/-! ### violations and examples -/

/-- Order of the additions in `np.sum` for fewer than 16 summands: below 8 one after the other, otherwise eight partial
results are paired and the rest is added one after the other. -/
def npTree (k : ℕ) : SumTree :=
  if k < 8 then seqTree (k - 1)
  else (List.range (k - 8)).foldl (fun s i => .node s (.leaf (8 + i)))
    (.node (.node (.node (.leaf 0) (.leaf 1)) (.node (.leaf 2) (.leaf 3)))
      (.node (.node (.leaf 4) (.leaf 5)) (.node (.leaf 6) (.leaf 7))))

theorem npTree_bracketing : Spec.Bracketing npTree := by
  intro k hk
  unfold npTree
  split
  · exact seqTree_bracketing k hk
  · rename_i h8
    obtain ⟨m, rfl⟩ : ∃ m, k = 8 + m := ⟨k - 8, by omega⟩
    rw [show 8 + m - 8 = m by omega]
    have : ∀ m, ((List.range m).foldl (fun s i => SumTree.node s (.leaf (8 + i)))
        (.node (.node (.node (.leaf 0) (.leaf 1)) (.node (.leaf 2) (.leaf 3)))
          (.node (.node (.leaf 4) (.leaf 5)) (.node (.leaf 6) (.leaf 7))))).leaves = List.range (8 + m) := by
      intro m
      induction m with
      | zero => rfl
      | succ m ih =>
        rw [List.range_succ, List.foldl_append]
        simp only [List.foldl_cons, List.foldl_nil, SumTree.leaves]
        rw [ih, ← Nat.add_assoc, List.range_succ]
    rw [this m]

/-- Two link ratios that differ in exact arithmetic and round to the same double. -/
def closeVals : ℕ → ℕ → ℚ := fun i j =>
  ((([[2 ^ 27, 2 ^ 27 + 1, 2 ^ 28, 2 ^ 28], [2 ^ 27 + 1, 2 ^ 27 + 2, 2 ^ 29], [100, 200], [100]] :
    List (List ℚ)).getD i []).getD j 0)

/-- **C189 (violation)**: two close link ratios are tied in double precision and the statistic is 1/2 instead of -1. -/
theorem C189_fails : (spearmanTotalR npTree (floatRd 53) (stairTri 4 closeVals)).toOption = some (.fin (1 / 2)) ∧
    (spearmanTotal (stairTri 4 closeVals)).toOption = some (.fin (-1)) := by decide +kernel

/-- Link ratios of the first period in one order and of the second period in the opposite order. -/
def oppVals : ℕ → ℕ → ℚ := fun i j =>
  if j = 0 then 1 else if j = 1 then 2 ^ (([10, 6, 7, 2, 5, 1, 11, 9, 4, 8, 3] : List ℕ).getD i 1) else 2 ^ 12

/-- **C190 (violation)**: the first coefficient is below -1 in double precision. -/
theorem C190_fails : ((spearmanCoeffsR npTree (floatRd 53) (stairTri 13 oppVals)).toOption.bind
      (fun l => l[0]?.map Coeff.T)) = some (Num.fin (-(1 + 1 / 2 ^ 51) : ℚ)) ∧
    ((spearmanCoeffs (stairTri 13 oppVals)).toOption.bind (fun l => l[0]?.map Coeff.T)) = some (Num.fin (-1 : ℚ)) := by
  decide +kernel

/-- Different link ratios that are far apart, but not whole. -/
example : (spearmanTotalR npTree (floatRd 53) exTri).toOption = some (.fin 1) := by decide +kernel

example : (spearmanCoeffsR npTree (floatRd 53) (stairTri 5 tieVals)).toOption.map (fun l => l.map (fun q => (q.k, q.w, q.T))) =
    some [(2, 2, .fin (-5/8)), (3, 1, .fin (-1))] := by decide +kernel

end Trikit
