import Verif.Welford
import Verif.Props.BootTable
import Verif.Props.RoundedSim
import Verif.Props.RoundedMackSumm

/-! # Summary of the bootstrap in rounded arithmetic (C180, C181, C182, C183, C184, C185) -/

set_option linter.unusedSectionVars false

namespace Trikit

section
variable {K : Type} [Field K] [LinearOrder K] [IsStrictOrderedRing K]
variable {t m : Tri K} {n S N : ℕ} {c v : ℕ → ℕ → K} {rd : K → K} {br : ℕ → SumTree} {u : K}

/-! ### one pass -/

/-- Rounding to a nearest value of the format. -/
def Spec.NearestRd (rd : K → K) : Prop := ∀ x z, rd z = z → |x - rd x| ≤ |x - z|

theorem floatRd_nearestRd [FloorRing K] {p : ℕ} (hp : 1 ≤ p) : Spec.NearestRd (floatRd p : K → K) := by
  intro x z hz
  refine floatRd_nearest hp x ?_
  rw [← hz]
  exact floatRd_isFloat p z

theorem rd_eq_zero (hr : Spec.RelErr rd u) {x : K} (h : rd x = 0) : x = 0 := by
  by_contra hx
  have h1 := hr.err x
  rw [h, zero_sub, abs_neg] at h1
  have h2 : 0 < |x| := abs_pos.2 hx
  have := hr.lt_one
  nlinarith

/-- The sum of squares is 0 exactly if the running mean is always the newest value. -/
theorem wSq_eq_zero (hm : Spec.MonoRd rd N) (hr : Spec.RelErr rd u) (hu : 4 * u ≤ 1) {x : ℕ → K}
    (hfix : ∀ i < n, rd (x i) = x i) : Spec.runSq rd x n = 0 ↔ ∀ k < n, Spec.runMean rd x (k + 1) = x k := by
  constructor
  · intro h
    have hz : ∀ k ≤ n, Spec.runSq rd x k = 0 := by
      intro k hk
      refine le_antisymm ?_ (wSq_nonneg hm hr hu hfix hk)
      rw [← h]
      clear h
      induction n, hk using Nat.le_induction with
      | base => exact le_rfl
      | succ l hl ih => exact (ih fun i hi => hfix i (by omega)).trans (wSq_step hm hr hu hfix (by omega))
    intro k hk
    have h1 : rd (Spec.runSq rd x k + rd (rd (x k - Spec.runMean rd x (k + 1)) * rd (x k - Spec.runMean rd x k))) = 0 :=
      hz (k + 1) hk
    rw [hz k hk.le, zero_add] at h1
    rcases mul_eq_zero.1 (rd_eq_zero hr (rd_eq_zero hr h1)) with h2 | h2
    · exact (sub_eq_zero.1 (rd_eq_zero hr h2)).symm
    · have h3 := sub_eq_zero.1 (rd_eq_zero hr h2)
      show rd (Spec.runMean rd x k + rd (rd (x k - Spec.runMean rd x k) / ((k + 1 : ℕ) : K))) = x k
      rw [← h3, sub_self, hm.zero, zero_div, hm.zero, add_zero, hfix k hk]
  · intro h
    have : ∀ k ≤ n, Spec.runSq rd x k = 0 := by
      intro k
      induction k with
      | zero => intro _; rfl
      | succ k ih =>
        intro hk
        show rd _ = 0
        rw [h k (by omega), sub_self, hm.zero, zero_mul, hm.zero, ih (by omega), add_zero, hm.zero]
    exact this n le_rfl

theorem wStep_size (hr : Spec.RelErr rd u) {d : K} {k : ℕ} (hk : 1 ≤ k) :
    k * |rd (rd d / k)| ≤ (1 + u) ^ 2 * |d| := by
  have u0 := hr.nonneg
  have hk0 : (0 : K) < k := Nat.cast_pos.2 hk
  have g : ∀ z, |rd z| ≤ (1 + u) * |z| := fun z => by
    have := abs_add_le (rd z - z) z
    rw [sub_add_cancel] at this
    have := hr.err z
    linarith
  have h1 := g (rd d / k)
  rw [abs_div, abs_of_pos hk0] at h1
  have h2 := mul_le_mul_of_nonneg_left h1 hk0.le
  have h3 : (k : K) * ((1 + u) * (|rd d| / k)) = (1 + u) * |rd d| := by field_simp
  have h4 := mul_le_mul_of_nonneg_left (g d) (by linarith : 0 ≤ 1 + u)
  rw [h3] at h2
  calc _ ≤ _ := h2
    _ ≤ _ := h4
    _ = _ := by ring

/-- The sum of squares is 0 exactly if from the second on all values are the same and the first one is so close to them
that the mean of both is rounded to the second. -/
theorem wSq_eq_zero_iff (hm : Spec.MonoRd rd N) (hr : Spec.RelErr rd u) (hu : 16 * u ≤ 1) (hnr : Spec.NearestRd rd)
    {x : ℕ → K} (hfix : ∀ i < n, rd (x i) = x i) (hn : 2 ≤ n) :
    Spec.runSq rd x n = 0 ↔ (∀ k < n, 1 ≤ k → x k = x 1) ∧ rd (x 0 + rd (rd (x 1 - x 0) / 2)) = x 1 := by
  have u0 := hr.nonneg
  rw [wSq_eq_zero hm hr (by linarith) hfix]
  have h2 : Spec.runMean rd x 2 = rd (x 0 + rd (rd (x 1 - x 0) / 2)) := by
    show rd (Spec.runMean rd x 1 + rd (rd (x 1 - Spec.runMean rd x 1) / ((1 + 1 : ℕ) : K))) = _
    rw [wMean_one hfix (by omega)]
    norm_num
  constructor
  · intro h
    refine ⟨fun k hk h1 => ?_, by rw [← h2]; exact h 1 (by omega)⟩
    induction k, h1 using Nat.le_induction with
    | base => rfl
    | succ k h1 ih =>
      rw [← ih (by omega)]
      have e1 := h k (by omega)
      have e2 : rd (Spec.runMean rd x (k + 1) + rd (rd (x (k + 1) - Spec.runMean rd x (k + 1)) / ((k + 1 + 1 : ℕ) : K))) =
        x (k + 1) := h (k + 1) hk
      rw [e1] at e2
      by_contra hne
      have d0 : 0 < |x (k + 1) - x k| := abs_pos.2 (sub_ne_zero.2 hne)
      have s1 := wStep_size hr (d := x (k + 1) - x k) (k := k + 1 + 1) (by omega)
      set y := rd (rd (x (k + 1) - x k) / ((k + 1 + 1 : ℕ) : K))
      have s2 := hnr (x k + y) (x k) (hfix k (by omega))
      rw [e2, show x k + y - x k = y by ring] at s2
      have s3 := abs_sub_abs_le_abs_sub (x (k + 1) - x k) y
      rw [show x (k + 1) - x k - y = -(x k + y - x (k + 1)) by ring, abs_neg] at s3
      have hk3 : (3 : K) ≤ ((k + 1 + 1 : ℕ) : K) := by exact_mod_cast (by omega : 3 ≤ k + 1 + 1)
      have s4 : 3 * |y| ≤ (1 + u) ^ 2 * |x (k + 1) - x k| := by
        have := mul_le_mul_of_nonneg_right hk3 (abs_nonneg y)
        linarith
      have s5 : (1 + u) ^ 2 < 3 / 2 := by nlinarith
      have := mul_lt_mul_of_pos_right s5 d0
      linarith
  · rintro ⟨h1, h3⟩ k hk
    induction k with
    | zero => exact wMean_one hfix (by omega)
    | succ k ih =>
      rcases Nat.eq_zero_or_pos k with rfl | hk0
      · rw [h2, h3]
      · show rd (Spec.runMean rd x (k + 1) + rd (rd (x (k + 1) - Spec.runMean rd x (k + 1)) / ((k + 1 + 1 : ℕ) : K))) = x (k + 1)
        rw [ih (by omega), h1 k (by omega) hk0, h1 (k + 1) hk (by omega), sub_self, hm.zero, zero_div, hm.zero, add_zero]
        exact hfix 1 (by omega)

/-- The first two values then agree up to `3u` times the larger. -/
theorem first_near (hm : Spec.MonoRd rd N) (hr : Spec.RelErr rd u) (hu : 16 * u ≤ 1) {p q : K}
    (h : rd (p + rd (rd (q - p) / 2)) = q) : |q - p| ≤ 3 * u * max |p| |q| := by
  have u0 := hr.nonneg
  obtain ⟨b1, b2⟩ := wStep_between hm hr (by linarith) (m := p) (y := q) (k := 2) le_rfl
  have s1 := wStep_size hr (d := q - p) (k := 2) (by norm_num)
  push_cast at b1 b2 s1
  set y := rd (rd (q - p) / 2)
  have e1 := hr.err (p + y)
  rw [h] at e1
  have e2 : |p + y| ≤ max |p| |q| := by
    rcases le_total p q with hpq | hpq
    · exact abs_le_max_abs_abs (b1 hpq).1 (b1 hpq).2
    · rw [max_comm]; exact abs_le_max_abs_abs (b2 hpq).1 (b2 hpq).2
  have e3 := mul_le_mul_of_nonneg_left e2 u0
  have e4 := abs_add_le (q - (p + y)) y
  rw [show q - (p + y) + y = q - p by ring] at e4
  have e5 : (1 + u) ^ 2 ≤ 289 / 256 := by nlinarith
  have e6 := mul_le_mul_of_nonneg_right e5 (abs_nonneg (q - p))
  have : 0 ≤ u * max |p| |q| := mul_nonneg u0 (le_max_of_le_left (abs_nonneg _))
  linarith

/-! ### two passes -/

/-- Sum of squares of `S` values about their mean, in two passes. -/
def Spec.twoPass (br : ℕ → SumTree) (rd : K → K) (y : ℕ → K) (S : ℕ) : K :=
  roundedSum br rd ((List.range S).map (fun s =>
    rd (rd (rd (roundedSum br rd ((List.range S).map y) / S) - y s) ^ 2)))

theorem twoPass_nonneg (hm : Spec.MonoRd rd N) (hb : Spec.Bracketing br) (y : ℕ → K) (S : ℕ) :
    0 ≤ Spec.twoPass br rd y S := by
  refine roundedSum_nonneg hm hb ?_
  intro x hx
  obtain ⟨s, -, rfl⟩ := List.mem_map.1 hx
  exact MonoRd.nonneg hm (sq_nonneg _)

/-- In two passes the sum of squares is 0 only if all values are the same. -/
theorem twoPass_zero (hm : Spec.MonoRd rd N) (hr : Spec.RelErr rd u) (hb : Spec.Bracketing br) {y : ℕ → K} {S : ℕ} :
    Spec.twoPass br rd y S = 0 ↔ ∀ s < S, y s = rd (roundedSum br rd ((List.range S).map y) / S) := by
  constructor
  · intro h s hs
    unfold Spec.twoPass at h
    set avg := rd (roundedSum br rd ((List.range S).map y) / S)
    have hmem : rd (rd (avg - y s) ^ 2) ∈ (List.range S).map (fun s => rd (rd (avg - y s) ^ 2)) :=
      List.mem_map.2 ⟨s, List.mem_range.2 hs, rfl⟩
    have h1 := roundedSum_ge hm hb (l := (List.range S).map (fun s => rd (rd (avg - y s) ^ 2))) (by
      intro x hx
      obtain ⟨k, -, rfl⟩ := List.mem_map.1 hx
      exact MonoRd.nonneg hm (sq_nonneg _)) hmem (hm.idem _)
    rw [h] at h1
    have h2 := le_antisymm h1 (MonoRd.nonneg hm (sq_nonneg _))
    have h3 := rd_eq_zero hr (pow_eq_zero_iff (two_ne_zero) |>.1 (rd_eq_zero hr h2))
    exact (sub_eq_zero.1 h3).symm
  · intro h
    unfold Spec.twoPass
    have e : (List.range S).map (fun s => rd (rd (rd (roundedSum br rd ((List.range S).map y) / S) - y s) ^ 2)) =
        (List.range S).map (fun _ => 0) := by
      refine List.map_congr_left fun s hs => ?_
      rw [← h s (List.mem_range.1 hs), sub_self, hm.zero]
      simp [hm.zero]
    rw [e]
    refine le_antisymm ?_ (roundedSum_nonneg hm hb (by simp))
    unfold roundedSum
    split
    · exact le_rfl
    · have : ∀ s : SumTree, s.eval rd (fun k => ((List.range S).map (fun _ => (0 : K))).getD k 0) = 0 := by
        intro s
        induction s with
        | leaf k =>
          show List.getD _ _ _ = _
          rw [List.getD_eq_getElem?_getD, List.getElem?_map]
          cases (List.range S)[k]? <;> rfl
        | node l r ihl ihr =>
          show rd (_ + _) = 0
          rw [ihl, ihr, add_zero, hm.zero]
      exact (this _).le

theorem pow_sub_one_le {u : K} (hu : 0 ≤ u) {j : ℕ} (h : 2 * (j * u) ≤ 1) : (1 + u) ^ j ≤ 1 + 2 * (j * u) := by
  induction j with
  | zero => simp
  | succ j ih =>
    have hj : 2 * ((j : K) * u) ≤ 1 := by push_cast at h; nlinarith
    have h1 := ih hj
    have h2 := mul_le_mul_of_nonneg_right h1 (by linarith : 0 ≤ 1 + u)
    rw [pow_succ]
    push_cast at h ⊢
    nlinarith

/-- Accuracy of the sum of squares in two passes. -/
theorem twoPass_error (hr : Spec.RelErr rd u) (hb : Spec.Bracketing br) {y : ℕ → K} {S : ℕ} (hS : 1 ≤ S)
    (hu : 2 * ((S + 3) * u) ≤ 1) {M : K} (hM : ∀ s < S, |y s| ≤ M) :
    |Spec.twoPass br rd y S - Spec.avgDev y S| ≤ 2 * (S + 3) * u * Spec.avgDev y S + 8 * S ^ 3 * u ^ 2 * M ^ 2 := by
  have u0 := hr.nonneg
  have hS0 : (0 : K) < S := Nat.cast_pos.2 hS
  have hS1 : (1 : K) ≤ S := by exact_mod_cast hS
  have M0 : 0 ≤ M := (abs_nonneg _).trans (hM 0 hS)
  have hne : List.range S ≠ [] := by
    intro e
    have := congrArg List.length e
    simp at this
    omega
  unfold Spec.twoPass
  set Q := roundedSum br rd ((List.range S).map y)
  -- the mean
  have hQ : |Q - ∑ s ∈ Finset.range S, y s| ≤ ((1 + u) ^ (S - 1) - 1) * (S * M) := by
    have h1 := sum_err hr hb hne (a := y) (b := y) (e := fun _ => 0) (fun i _ => by simp)
    simp only [List.length_range, add_zero] at h1
    rw [list_sum_map_range, list_sum_map_range] at h1
    refine h1.trans ?_
    have h2 : ∑ s ∈ Finset.range S, |y s| ≤ S * M := by
      have := Finset.sum_le_card_nsmul (Finset.range S) (fun s => |y s|) M (fun i hi => hM i (Finset.mem_range.1 hi))
      rwa [Finset.card_range, nsmul_eq_mul] at this
    have h3 : 0 ≤ (1 + u) ^ (S - 1) - 1 := by
      have := one_le_pow₀ (by linarith : 1 ≤ 1 + u) (n := S - 1)
      linarith
    have := mul_le_mul_of_nonneg_left h2 h3
    linarith
  have hA : |rd (Q / S) - Spec.wAvg y S| ≤ 2 * (S * u) * M := by
    have e1 := hr.err (Q / S)
    have e2 : |Q / S - Spec.wAvg y S| ≤ ((1 + u) ^ (S - 1) - 1) * M := by
      unfold Spec.wAvg
      rw [← sub_div, abs_div, abs_of_pos hS0, div_le_iff₀ hS0]
      linarith
    have e3 : |Spec.wAvg y S| ≤ M := by
      have := wAvg_range (n := S) (x := y) (a := -M) (b := M) (fun i hi => abs_le.1 (hM i hi)) hS le_rfl
      exact abs_le.2 this
    have e4 := abs_add_le (Q / S - Spec.wAvg y S) (Spec.wAvg y S)
    rw [sub_add_cancel] at e4
    have e5 := abs_add_le (rd (Q / S) - Q / S) (Q / S - Spec.wAvg y S)
    rw [sub_add_sub_cancel] at e5
    have e6 : |Q / S| ≤ (1 + u) ^ (S - 1) * M := by linarith
    have e7 := mul_le_mul_of_nonneg_left e6 u0
    have e8 : (1 + u) ^ S = (1 + u) ^ (S - 1) * (1 + u) := by rw [← pow_succ, Nat.sub_add_cancel hS]
    have e9 : (1 + u) ^ S ≤ 1 + 2 * (S * u) := pow_sub_one_le u0 (by nlinarith)
    have e10 := mul_le_mul_of_nonneg_right e9 M0
    rw [e8] at e10
    linarith
  set avg := rd (Q / S)
  set μ := Spec.wAvg y S with hμ
  -- the squares about the computed mean
  have hD : ∑ s ∈ Finset.range S, (avg - y s) ^ 2 = Spec.avgDev y S + S * (avg - μ) ^ 2 := by
    have h3 : ∑ s ∈ Finset.range S, y s = S * μ := by rw [hμ]; unfold Spec.wAvg; field_simp
    have : ∀ s ∈ Finset.range S, (avg - y s) ^ 2 = (y s - μ) ^ 2 - 2 * (avg - μ) * y s + (2 * (avg - μ) * μ + (avg - μ) ^ 2) := by
      intro s _; ring
    unfold Spec.avgDev
    rw [Finset.sum_congr rfl this, Finset.sum_add_distrib, Finset.sum_sub_distrib, ← Finset.mul_sum, h3, Finset.sum_const,
      Finset.card_range, nsmul_eq_mul]
    ring
  have hT := sum_err hr hb hne (a := fun s => (avg - y s) ^ 2) (b := fun s => rd (rd (avg - y s) ^ 2))
    (e := fun s => 4 * u * (avg - y s) ^ 2) (fun s _ => by
      have := (wProd_error hr (by nlinarith) (avg - y s) (avg - y s)).1
      rw [← pow_two, ← pow_two, ← pow_two, sq_abs] at this
      exact this)
  simp only [List.length_range] at hT
  rw [list_sum_map_range, list_sum_map_range, list_sum_map_range] at hT
  have a1 : ∀ s ∈ Finset.range S, |(avg - y s) ^ 2| = (avg - y s) ^ 2 := fun s _ => abs_of_nonneg (sq_nonneg _)
  have a2 : ∑ s ∈ Finset.range S, (|(avg - y s) ^ 2| + 4 * u * (avg - y s) ^ 2) =
      (1 + 4 * u) * ∑ s ∈ Finset.range S, (avg - y s) ^ 2 := by
    rw [Finset.mul_sum]
    refine Finset.sum_congr rfl fun s hs => ?_
    rw [a1 s hs]; ring
  rw [a2, Finset.sum_congr rfl a1, hD] at hT
  set T := roundedSum br rd ((List.range S).map (fun s => rd (rd (avg - y s) ^ 2)))
  set D := Spec.avgDev y S with hDd
  have D0 : 0 ≤ D := Finset.sum_nonneg fun _ _ => sq_nonneg _
  have b1 : (1 + u) ^ (S - 1) * (1 + 4 * u) ≤ 1 + 2 * ((S + 3) * u) := by
    have c1 : 1 + 4 * u ≤ (1 + u) ^ 4 := by nlinarith [sq_nonneg u, pow_nonneg u0 3, pow_nonneg u0 4]
    have c2 := mul_le_mul_of_nonneg_left c1 (by positivity : 0 ≤ (1 + u) ^ (S - 1))
    rw [← pow_add, show S - 1 + 4 = S + 3 by omega] at c2
    have c3 := pow_sub_one_le u0 (j := S + 3) (by push_cast; exact hu)
    push_cast at c3
    linarith
  have b2 : (avg - μ) ^ 2 ≤ 4 * S ^ 2 * u ^ 2 * M ^ 2 := by
    have := pow_le_pow_left₀ (abs_nonneg _) hA 2
    rw [sq_abs] at this
    calc _ ≤ _ := this
      _ = _ := by ring
  have b3 : 0 ≤ D + S * (avg - μ) ^ 2 := by positivity
  have b4 := mul_le_mul_of_nonneg_right b1 b3
  have b5 : |T - (D + S * (avg - μ) ^ 2)| ≤ 2 * ((S + 3) * u) * (D + S * (avg - μ) ^ 2) := by
    linarith
  have b6 := abs_add_le (T - (D + S * (avg - μ) ^ 2)) (S * (avg - μ) ^ 2)
  rw [show T - (D + S * (avg - μ) ^ 2) + S * (avg - μ) ^ 2 = T - D by ring,
    abs_of_nonneg (by positivity : 0 ≤ (S : K) * (avg - μ) ^ 2)] at b6
  have b7 := mul_le_mul_of_nonneg_left b2 hS0.le
  have b8 : 0 ≤ (S : K) * (avg - μ) ^ 2 := by positivity
  have b9 := mul_le_mul_of_nonneg_right hu b8
  nlinarith

/-! ### columns of the summary -/

/-- The table of simulated reserves of a run holds, for `n` origins and `S` simulations, ultimates `U` and reserves `R` (by
simulation and origin) that are numbers of the format; the oldest origin has reserve 0. -/
structure Spec.Reserves (rd : K → K) (t : Tri K) (n S : ℕ) (U R : ℕ → ℕ → K) (res : List (ResRow K)) : Prop where
  rows : ∃ L : ℕ → ℕ → K, res.map ResRow.toDist =
    (List.range n).flatMap (fun i => (List.range S).map (fun s => Spec.distRow t.oAt L U R s i))
  ult : ∀ s i, rd (U s i) = U s i
  rsv : ∀ s i, rd (R s i) = R s i
  oldest : ∀ s, R s 0 = 0

theorem groupStdR_range (rd : K → K) (sq : Num K → Num K) (y : ℕ → K) (hS : 2 ≤ S) :
    groupStdR rd sq ((List.range S).map (fun s => Num.fin (y s))) =
      sq (.fin (rd (Spec.runSq rd y S / ((S - 1 : ℕ) : K)))) := by
  have hne : ((S - 1 : ℕ) : K) ≠ 0 := Nat.cast_ne_zero.2 (by omega)
  unfold groupStdR
  rw [List.filter_eq_self.2 (by intro x hx; obtain ⟨i, -, rfl⟩ := List.mem_map.1 hx; rfl)]
  simp only [List.length_map, List.length_range]
  rw [if_neg (by omega), welford_fold]
  dsimp only
  unfold Num.divR
  rw [Num.fin_div _ _ hne]
  rfl

theorem seriesStdR_range (br : ℕ → SumTree) (rd : K → K) (sq : Num K → Num K) (y : ℕ → K) (hS : 2 ≤ S) :
    seriesStdR br rd sq ((List.range S).map (fun s => Num.fin (y s))) =
      sq (.fin (rd (Spec.twoPass br rd y S / ((S - 1 : ℕ) : K)))) := by
  have hne : ((S - 1 : ℕ) : K) ≠ 0 := Nat.cast_ne_zero.2 (by omega)
  have hS0 : (S : K) ≠ 0 := Nat.cast_ne_zero.2 (by omega)
  unfold seriesStdR
  rw [List.filter_eq_self.2 (by intro x hx; obtain ⟨i, -, rfl⟩ := List.mem_map.1 hx; rfl)]
  simp only [List.length_map, List.length_range]
  rw [if_neg (by omega)]
  have e1 : sumR br rd ((List.range S).map (fun s => Num.fin (y s))) = .fin (roundedSum br rd ((List.range S).map y)) := by
    rw [← sumR_fin, List.map_map]; rfl
  have e2 : Num.divR rd (.fin (roundedSum br rd ((List.range S).map y))) (.fin (S : K)) =
      .fin (rd (roundedSum br rd ((List.range S).map y) / S)) := by
    unfold Num.divR
    rw [Num.fin_div _ _ hS0]; rfl
  rw [e1, e2, List.map_map]
  have e3 : (List.range S).map ((fun x => (Num.subR rd (.fin (rd (roundedSum br rd ((List.range S).map y) / S))) x).powR rd 2) ∘
      fun s => Num.fin (y s)) = ((List.range S).map (fun s =>
        rd (rd (rd (roundedSum br rd ((List.range S).map y) / S) - y s) ^ 2))).map Num.fin := by
    rw [List.map_map]
    refine List.map_congr_left fun s _ => ?_
    simp only [Function.comp_apply]
    unfold Num.subR Num.powR
    rw [Num.fin_sub]
    show ((Num.fin _).pow 2).rounded rd = _
    rw [Num.pow_fin]
    rfl
  rw [e3, sumR_fin]
  unfold Num.divR
  rw [Num.fin_div _ _ hne]
  rfl

theorem groupMeanR_range (rd : K → K) (y : ℕ → K) (hS : 0 < S) :
    groupMeanR rd ((List.range S).map (fun s => Num.fin (y s))) = .fin (rd (Spec.kpre rd y S / S)) := by
  have hS0 : (S : K) ≠ 0 := Nat.cast_ne_zero.2 (by omega)
  unfold groupMeanR
  rw [kahanSum_range, List.filter_eq_self.2 (by intro x hx; obtain ⟨i, -, rfl⟩ := List.mem_map.1 hx; rfl),
    List.length_map, List.length_range]
  unfold Num.divR
  rw [Num.fin_div _ _ hS0]
  rfl

/-- Reported ultimate as computed. -/
def Spec.bootUltR (rd : K → K) (n S : ℕ) (c U : ℕ → ℕ → K) (i : ℕ) : K :=
  if i = 0 then c 0 (n - 1) else rd (Spec.kpre rd (fun s => U s i) S / S)

/-- Square of the standard error before the root, for origin `i`. -/
def Spec.originVar (rd : K → K) (S : ℕ) (R : ℕ → ℕ → K) (i : ℕ) : K := rd (Spec.runSq rd (fun s => R s i) S / ((S - 1 : ℕ) : K))

/-- Total reserve of simulation `s` as computed. -/
def Spec.totalR (rd : K → K) (n : ℕ) (R : ℕ → ℕ → K) (s : ℕ) : K := Spec.kpre rd (R s) n

/-- Square of the standard error before the root, for the total. -/
def Spec.totalVar (br : ℕ → SumTree) (rd : K → K) (n S : ℕ) (R : ℕ → ℕ → K) : K :=
  rd (Spec.twoPass br rd (Spec.totalR rd n R) S / ((S - 1 : ℕ) : K))

theorem bootR_columns {sq : Num K → Num K} {U R : ℕ → ℕ → K} {res : List (ResRow K)} (ht : Spec.Stair t n c) (hn : 0 < n)
    (hS : 2 ≤ S) (h : Spec.Reserves rd t n S U R res) :
    bootUltimatesR rd t res = (List.range n).map (fun i => .fin (Spec.bootUltR rd n S c U i)) ∧
    bootReservesR rd t res = (List.range n).map (fun i => .fin (rd (Spec.bootUltR rd n S c U i - c i (n - 1 - i)))) ∧
    bootTotalsR rd S res = (List.range S).map (fun s => .fin (Spec.totalR rd n R s)) ∧
    bootStdErrR br rd sq t S res = (List.range n).map (fun i => sq (.fin (Spec.originVar rd S R i))) ++
      [sq (.fin (Spec.totalVar br rd n S R))] := by
  obtain ⟨L, h⟩ := h.rows
  have e1 : bootUltimatesR rd t res = (List.range n).map (fun i => .fin (Spec.bootUltR rd n S c U i)) := by
    unfold bootUltimatesR
    rw [ht.nr]
    refine List.map_congr_left fun i hi => ?_
    rw [List.mem_range] at hi
    unfold Spec.bootUltR
    by_cases h0 : i = 0
    · rw [if_pos h0, if_pos h0, ht.latest_get hn]
      simp
    · rw [if_neg h0, if_neg h0, map_ultimate, grid_col_origin ht h hi, List.map_map]
      exact groupMeanR_range rd (fun s => U s i) (by omega)
  have e3 : bootTotalsR rd S res = (List.range S).map (fun s => .fin (Spec.totalR rd n R s)) := by
    unfold bootTotalsR
    refine List.map_congr_left fun s hs => ?_
    rw [List.mem_range] at hs
    rw [map_reserve, grid_col_sim h hs, List.map_map]
    exact kahanSum_range (fun i => R s i) n
  refine ⟨e1, ?_, e3, ?_⟩
  · unfold bootReservesR
    rw [e1, ht.nr, List.zipWith_map_right, List.zipWith_self]
    refine List.map_congr_left fun i hi => ?_
    rw [List.mem_range] at hi
    rw [ht.latest_get hi]
    unfold Num.subR
    rw [Num.fin_sub]
    rfl
  · unfold bootStdErrR
    rw [e3]
    conv_lhs => rw [ht.origins_eq, List.map_map]
    congr 1
    · refine List.map_congr_left fun i hi => ?_
      rw [List.mem_range] at hi
      simp only [Function.comp_apply]
      rw [map_reserve, grid_col_origin ht h hi, List.map_map]
      exact groupStdR_range rd sq (fun s => R s i) hS
    · rw [seriesStdR_range br rd sq (Spec.totalR rd n R) hS]
      rfl

/-- What a run needs: a staircase triangle, fitted increments on the same labels that are not negative after the first
period, at least two simulations, a root of numbers that are not negative, finite draws. -/
structure Spec.FiniteRun (t m : Tri K) (n S : ℕ) (c v : ℕ → ℕ → K) (sq : Num K → Num K) (draw : ℕ → Num K) (scale : Num K)
    (gam : ℕ → Num K → Num K → Num K) : Prop where
  tri : Spec.Stair t n c
  pos : 0 < n
  two : 2 ≤ S
  fit : Spec.Stair m n v
  origins : m.origins = t.origins
  devs : m.devs = t.devs
  root : ∀ y : K, 0 ≤ y → ∃ r, sq (.fin y) = .fin r
  incr : ∀ i j, i + j < n → 0 < j → 0 ≤ v i j
  draws : ∀ p < S * (n * n), (draw p).isFin = true
  gammas : ∀ p < S * (n * n), ∀ a, (gam p a scale).isFin = true

/-- **C180** Every run in rounded arithmetic ends with such a table of reserves. -/
theorem C180_run (hid : Spec.Idem rd) {sq : Num K → Num K} {draw : ℕ → Num K} {scale : Num K}
    {gam : ℕ → Num K → Num K → Num K} (h : Spec.FiniteRun t m n S c v sq draw scale gam) :
    ∃ U R : ℕ → ℕ → K, Spec.Reserves rd t n S U R (bootSimsR rd sq t m scale S draw gam).reserves := by
  obtain ⟨rt, hrt⟩ := exists_roots h.root h.incr
  have hS := h.two
  have q := bootSimsR_stair (scale := scale) (gam := gam) hid h.tri h.pos (by omega) h.fit h.origins h.devs hrt
    (fun p hp => finD_eq (h.draws p hp)) h.gammas
  set x := Spec.simCumR rd n (Spec.startIncr v) rt (finD draw)
  set g := gamDR rd t n x scale gam
  obtain ⟨k, hk⟩ := Nat.exists_eq_succ_of_ne_zero h.pos.ne'
  refine ⟨fun s i => Spec.kpre rd (Spec.finalIncrR rd t n x g s i) n,
    fun s i => if i = 0 then 0 else rd (Spec.kpre rd (Spec.finalIncrR rd t n x g s i) n - x s i (n - 1 - i)),
    ⟨fun s i => if i = 0 then Spec.kpre rd (Spec.finalIncrR rd t n x g s i) n else x s i (n - 1 - i), ?_⟩, ?_, ?_, ?_⟩
  · rw [q.reserves, List.map_flatMap]
    refine List.flatMap_congr fun i _ => ?_
    rw [List.map_map]
    refine List.map_congr_left fun s _ => ?_
    simp only [Function.comp_apply, ResRow.toDist, resRowAtR, Spec.distRow]
    split <;> rfl
  · intro s i
    obtain ⟨y, hy⟩ := kpre_rd (rd := rd) (Spec.finalIncrR rd t n x g s i) k
    rw [show k + 1 = n from hk.symm] at hy
    beta_reduce
    rw [hy, hid.idem]
  · intro s i
    beta_reduce
    split
    · exact hid.zero
    · exact hid.idem _
  · intro s
    exact if_pos rfl

section
variable {sq : Num K → Num K} {g : K → K} {U R : ℕ → ℕ → K} {res : List (ResRow K)}

theorem wSq_origin (hm : Spec.MonoRd rd N) (hr : Spec.RelErr rd u) (hu : 4 * u ≤ 1) (h : Spec.Reserves rd t n S U R res)
    (i : ℕ) : 0 ≤ Spec.originVar rd S R i :=
  MonoRd.nonneg hm (div_nonneg (wSq_nonneg (n := S) hm hr hu (fun s _ => h.rsv s i) le_rfl) (Nat.cast_nonneg _))

theorem totalVar_nonneg (hm : Spec.MonoRd rd N) (hb : Spec.Bracketing br) : 0 ≤ Spec.totalVar br rd n S R :=
  MonoRd.nonneg hm (div_nonneg (twoPass_nonneg hm hb _ _) (Nat.cast_nonneg _))

theorem SqrtLike.nonneg (hs : Spec.SqrtLike sq g) {x : K} (hx : 0 ≤ x) : 0 ≤ g x := by
  rw [← hs.zero]; exact hs.mono 0 x le_rfl hx

/-- Standard errors as numbers. -/
theorem bootR_stdErr (hm : Spec.MonoRd rd N) (hr : Spec.RelErr rd u) (hu : 4 * u ≤ 1) (hb : Spec.Bracketing br)
    (hs : Spec.SqrtLike sq g) (ht : Spec.Stair t n c) (hn : 0 < n) (hS : 2 ≤ S) (h : Spec.Reserves rd t n S U R res) :
    (∀ i < n, (bootStdErrR br rd sq t S res)[i]? = some (.fin (g (Spec.originVar rd S R i)))) ∧
    (bootStdErrR br rd sq t S res)[n]? = some (.fin (g (Spec.totalVar br rd n S R))) := by
  obtain ⟨-, -, -, e⟩ := bootR_columns (sq := sq) (br := br) ht hn hS h
  rw [e]
  constructor
  · intro i hi
    rw [List.getElem?_append_left (by simpa using hi), List.getElem?_map, List.getElem?_range hi]
    show some (sq _) = _
    rw [hs.fin _ (wSq_origin hm hr hu h i)]
  · rw [List.getElem?_append_right (by simp)]
    simp [hs.fin _ (totalVar_nonneg (n := n) (S := S) (R := R) hm hb)]

/-- **C180** In rounded arithmetic the standard errors of the bootstrap, per origin and for the total, are numbers that are
not negative; that of an origin whose simulated reserves are all the same is 0, in particular that of the oldest. -/
theorem C180_std (hm : Spec.MonoRd rd N) (hr : Spec.RelErr rd u) (hu : 4 * u ≤ 1) (hb : Spec.Bracketing br)
    (hs : Spec.SqrtLike sq g) (ht : Spec.Stair t n c) (hn : 0 < n) (hS : 2 ≤ S) (h : Spec.Reserves rd t n S U R res) :
    ∃ e : ℕ → K, bootStdErrR br rd sq t S res = (List.range (n + 1)).map (fun i => .fin (e i)) ∧ (∀ i, 0 ≤ e i) ∧
      (∀ i < n, (∀ s < S, R s i = R 0 i) → e i = 0) ∧ e 0 = 0 := by
  obtain ⟨-, -, -, e⟩ := bootR_columns (sq := sq) (br := br) ht hn hS h
  have key : ∀ i < n, (∀ s < S, R s i = R 0 i) → Spec.originVar rd S R i = 0 := by
    intro i _ hR
    unfold Spec.originVar
    rw [(wSq_same hm (h.rsv 0 i) hR le_rfl).2, zero_div, hm.zero]
  refine ⟨fun i => if i < n then g (Spec.originVar rd S R i) else g (Spec.totalVar br rd n S R), ?_, ?_, ?_, ?_⟩
  · rw [e, List.range_succ, List.map_append]
    congr 1
    · refine List.map_congr_left fun i hi => ?_
      rw [List.mem_range] at hi
      beta_reduce
      rw [if_pos hi, hs.fin _ (wSq_origin hm hr hu h i)]
    · simp [hs.fin _ (totalVar_nonneg (n := n) (S := S) (R := R) hm hb)]
  · intro i
    beta_reduce
    split
    · exact SqrtLike.nonneg hs (wSq_origin hm hr hu h i)
    · exact SqrtLike.nonneg hs (totalVar_nonneg hm hb)
  · intro i hi hR
    beta_reduce
    rw [if_pos hi, key i hi hR, hs.zero]
  · beta_reduce
    rw [if_pos hn, key 0 hn (fun s _ => by rw [h.oldest, h.oldest]), hs.zero]

/-- **C180** Without rounding, the computed columns are those of the exact model. -/
theorem C180_exact (hb : Spec.Bracketing br) (ht : Spec.Stair t n c) (hn : 0 < n) (hS : 2 ≤ S)
    (h : Spec.Reserves id t n S U R res) (ldfs : Ser K) :
    bootUltimatesR id t res = bootUltimates t res ∧ bootReservesR id t res = bootReserves t res ∧
    bootStdErrR br id sq t S res = bootStdErr sq t S res ∧
    bootSummaryR br id t ldfs (bootUltimatesR id t res) (bootReservesR id t res) (bootStdErrR br id sq t S res) =
      bootSummary t ldfs (bootUltimates t res) (bootReserves t res) (bootStdErr sq t S res) := by
  obtain ⟨a1, a2, -, a4⟩ := bootR_columns (sq := sq) (br := br) ht hn hS h
  obtain ⟨L, hL⟩ := h.rows
  obtain ⟨b1, b2, b3⟩ := boot_columns (sq := sq) ht hn hS hL
  have hc : ((S - 1 : ℕ) : K) = (S : K) - 1 := by rw [Nat.cast_sub (by omega)]; simp
  have k1 : ∀ (y : ℕ → K) (l : ℕ), Spec.kpre id y l = ∑ i ∈ Finset.range l, y i := by
    intro y l
    have := kahanSum_range (rd := id) y l
    rw [kahanSum_id, sumSkip_fin_range] at this
    exact (Num.fin.inj this).symm
  have k2 : ∀ i, Spec.bootUltR id n S c U i = Spec.bootUlt n S c U i := by
    intro i
    unfold Spec.bootUltR Spec.bootUlt Spec.meanOf
    rw [k1]; rfl
  have k3 : ∀ i, Spec.originVar id S R i = Spec.sampleVar S (fun s => R s i) := by
    intro i
    unfold Spec.originVar
    rw [wSq_id, hc]; rfl
  have k4 : Spec.totalVar br id n S R = Spec.sampleVar S (fun s => ∑ i ∈ Finset.range n, R s i) := by
    unfold Spec.totalVar Spec.twoPass
    have e : Spec.totalR id n R = fun s => ∑ i ∈ Finset.range n, R s i := funext fun s => k1 _ _
    rw [e, roundedSum_id hb, roundedSum_id hb, list_sum_map_range, list_sum_map_range, hc]
    unfold Spec.sampleVar Spec.meanOf
    show _ / _ = _ / _
    congr 1
    refine Finset.sum_congr rfl fun s _ => ?_
    simp only [id]
    ring
  have c1 : bootUltimatesR id t res = bootUltimates t res := by
    rw [a1, b1]
    exact List.map_congr_left fun i _ => by rw [k2]
  have c2 : bootReservesR id t res = bootReserves t res := by
    rw [a2, b2]
    exact List.map_congr_left fun i _ => by rw [k2]; rfl
  have c3 : bootStdErrR br id sq t S res = bootStdErr sq t S res := by
    rw [a4, b3, k4]
    congr 1
    exact List.map_congr_left fun i _ => by rw [k3]
  refine ⟨c1, c2, c3, ?_⟩
  rw [c1, c2, c3]
  have r1 : ∀ cl mat ults rs se, (bootRowAtR id t cl mat ults rs se : ℕ → BootRow K) = bootRowAt t cl mat ults rs se := by
    intro cl mat ults rs se
    funext i
    unfold bootRowAtR bootRowAt Num.divR
    simp only [Num.rounded_id]
  have r2 : ∀ se rows, (bootTotalRowR br id se rows : BootRow K) = bootTotalRow se rows := by
    intro se rows
    unfold bootTotalRowR bootTotalRow Num.divR
    simp only [Num.rounded_id, sumSkipR_id hb]
  have r3 : cldfsOfR id ldfs = cldfsOf ldfs := by unfold cldfsOfR cldfsOf; rw [cumprodRevR_id]
  unfold bootSummaryR bootSummary bootSummaryRowsR bootSummaryRows
  simp only [r1, r2, r3]

theorem root_close (hr : Spec.RelErr rd u) (hu : 4 * u ≤ 1) (hg : ∀ x, 0 ≤ x → |g x ^ 2 - x| ≤ 3 * u * x) {q : K}
    (hq : 0 ≤ q) (hq' : 0 ≤ rd q) : |g (rd q) ^ 2 - q| ≤ 5 * u * q := by
  have u0 := hr.nonneg
  have h1 := hg _ hq'
  have h2 := hr.err q
  rw [abs_of_nonneg hq] at h2
  have h3 := abs_add_le (g (rd q) ^ 2 - rd q) (rd q - q)
  rw [sub_add_sub_cancel] at h3
  have h4 : rd q ≤ (1 + u) * q := by
    have := le_abs_self (rd q - q)
    linarith
  have h5 := mul_le_mul_of_nonneg_left h4 (by linarith : 0 ≤ 3 * u)
  have h6 : u * (u * q) ≤ 1 / 4 * (u * q) := mul_le_mul_of_nonneg_right (by linarith) (mul_nonneg u0 hq)
  nlinarith

/-- **C181** The square of the standard error of an origin in rounded arithmetic, for simulated reserves between `a` and
`b` and at most `M` in absolute value, is the sample variance of these reserves up to
`u·((S² + 21S)(b-a)² + (S² + 2S)/2·M(b-a))/(S-1)`. -/
theorem C181_accuracy (hm : Spec.MonoRd rd N) (hr : Spec.RelErr rd u) (hu : 2 * ((S + 3) * u) ≤ 1) (hb : Spec.Bracketing br)
    (hs : Spec.SqrtLike sq g) (hg : ∀ x, 0 ≤ x → |g x ^ 2 - x| ≤ 3 * u * x) (ht : Spec.Stair t n c) (hn : 0 < n) (hS : 2 ≤ S)
    (h : Spec.Reserves rd t n S U R res) {i : ℕ} (hi : i < n) {a b M : K} (hab : ∀ s < S, a ≤ R s i ∧ R s i ≤ b)
    (hM : -M ≤ a ∧ b ≤ M) :
    ∃ e, (bootStdErrR br rd sq t S res)[i]? = some (.fin e) ∧
      |e ^ 2 - Spec.sampleVar S (fun s => R s i)| ≤
        u * ((S ^ 2 + 21 * S) * (b - a) ^ 2 + (S ^ 2 + 2 * S) / 2 * (M * (b - a))) / ((S : K) - 1) := by
  have u0 := hr.nonneg
  have hS2 : (2 : K) ≤ S := by exact_mod_cast hS
  have hu4 : 4 * u ≤ 1 := by nlinarith
  have hc : ((S - 1 : ℕ) : K) = (S : K) - 1 := by rw [Nat.cast_sub (by omega)]; simp
  have hd : (0 : K) < (S : K) - 1 := by linarith
  refine ⟨_, (bootR_stdErr hm hr hu4 hb hs ht hn hS h).1 i hi, ?_⟩
  have hfix : ∀ s < S, rd (R s i) = R s i := fun s _ => h.rsv s i
  have e0 := wSq_nonneg (x := fun s => R s i) hm hr hu4 hfix le_rfl
  have e1 := wSq_error (x := fun s => R s i) hm hr hu hfix hab hM.1 hM.2 (k := S) (by omega) le_rfl
  have e2 := (wSq_size (x := fun s => R s i) hm hr hu hfix hab (k := S) (by omega) le_rfl).1
  have e3 : (1 + u) ^ (S + 3) ≤ 2 := pow_le_two u0 (by push_cast; exact hu)
  have e4 : Spec.runSq rd (fun s => R s i) S ≤ 2 * (S * (b - a) ^ 2) :=
    e2.trans (mul_le_mul_of_nonneg_right e3 (by positivity))
  unfold Spec.originVar
  rw [hc]
  set W := Spec.runSq rd (fun s => R s i) S
  have hV : Spec.sampleVar S (fun s => R s i) = Spec.avgDev (fun s => R s i) S / ((S : K) - 1) := rfl
  rw [hV]
  set D := Spec.avgDev (fun s => R s i) S
  have q0 : 0 ≤ W / ((S : K) - 1) := div_nonneg e0 hd.le
  have e5 := root_close hr hu4 hg q0 (MonoRd.nonneg hm q0)
  have e6 := abs_add_le (g (rd (W / ((S : K) - 1))) ^ 2 - W / ((S : K) - 1)) (W / ((S : K) - 1) - D / ((S : K) - 1))
  rw [sub_add_sub_cancel] at e6
  refine e6.trans ?_
  rw [← sub_div, abs_div, abs_of_pos hd]
  refine (add_le_add e5 le_rfl).trans ?_
  rw [← mul_div_assoc, ← add_div]
  refine div_le_div_of_nonneg_right ?_ hd.le
  have e7 := mul_le_mul_of_nonneg_left e4 (by linarith : 0 ≤ 5 * u)
  nlinarith

/-- **C182** exactly: in rounded arithmetic the standard error of an origin is 0 exactly if from the second simulation on
all reserves are the same and the mean of the first two is rounded to the second. -/
theorem C182_iff (hm : Spec.MonoRd rd N) (hr : Spec.RelErr rd u) (hu : 16 * u ≤ 1) (hnr : Spec.NearestRd rd)
    (hb : Spec.Bracketing br) (hs : Spec.SqrtLike sq g) (hg : ∀ x, 0 < x → 0 < g x) (ht : Spec.Stair t n c) (hn : 0 < n)
    (hS : 2 ≤ S) (h : Spec.Reserves rd t n S U R res) {i : ℕ} (hi : i < n) :
    (bootStdErrR br rd sq t S res)[i]? = some (.fin 0) ↔
      (∀ s < S, 1 ≤ s → R s i = R 1 i) ∧ rd (R 0 i + rd (rd (R 1 i - R 0 i) / 2)) = R 1 i := by
  have u0 := hr.nonneg
  have hu4 : 4 * u ≤ 1 := by linarith
  have hfix : ∀ s < S, rd (R s i) = R s i := fun s _ => h.rsv s i
  rw [(bootR_stdErr hm hr hu4 hb hs ht hn hS h).1 i hi, Option.some_inj, Num.fin_inj',
    ← wSq_eq_zero_iff (x := fun s => R s i) hm hr hu hnr hfix hS]
  have hd : (0 : K) < ((S - 1 : ℕ) : K) := Nat.cast_pos.2 (by omega)
  constructor
  · intro hz
    have h0 := wSq_origin hm hr hu4 h i
    have h1 : Spec.originVar rd S R i = 0 := by
      by_contra hne
      exact (hg _ (lt_of_le_of_ne h0 (Ne.symm hne))).ne' hz
    have h2 := rd_eq_zero hr h1
    exact (div_eq_zero_iff.1 h2).resolve_right hd.ne'
  · intro hz
    unfold Spec.originVar
    rw [hz, zero_div, hm.zero, hs.zero]

/-- **C182**: in rounded arithmetic the standard error of an origin is 0 if all simulated reserves are the same, and only
if they are the same up to the first, which is within `3u` of the others.  Missing: only if all are the same, see
`C182_fails`. -/
theorem C182_partial (hm : Spec.MonoRd rd N) (hr : Spec.RelErr rd u) (hu : 16 * u ≤ 1) (hnr : Spec.NearestRd rd)
    (hb : Spec.Bracketing br) (hs : Spec.SqrtLike sq g) (hg : ∀ x, 0 < x → 0 < g x) (ht : Spec.Stair t n c) (hn : 0 < n)
    (hS : 2 ≤ S) (h : Spec.Reserves rd t n S U R res) {i : ℕ} (hi : i < n) :
    ((∀ s < S, R s i = R 0 i) → (bootStdErrR br rd sq t S res)[i]? = some (.fin 0)) ∧
    ((bootStdErrR br rd sq t S res)[i]? = some (.fin 0) →
      (∀ s < S, 1 ≤ s → R s i = R 1 i) ∧ |R 1 i - R 0 i| ≤ 3 * u * max |R 0 i| |R 1 i|) := by
  have hiff := C182_iff hm hr hu hnr hb hs hg ht hn hS h hi
  constructor
  · intro hR
    rw [hiff]
    refine ⟨fun s hs' _ => by rw [hR s hs', hR 1 (by omega)], ?_⟩
    rw [hR 1 (by omega), sub_self, hm.zero, zero_div, hm.zero, add_zero, h.rsv]
  · intro hz
    obtain ⟨h1, h2⟩ := hiff.1 hz
    exact ⟨h1, first_near hm hr hu h2⟩

/-- **C183** The standard error of the total in rounded arithmetic is 0 only if the simulated totals, as computed, are all
the same.  Its square is their sample variance up to `(2S+16)u`, relatively, and `12 S³/(S-1)·u²M²` where `M` bounds the
totals in absolute value. -/
theorem C183_total (hm : Spec.MonoRd rd N) (hr : Spec.RelErr rd u) (hu : 2 * ((S + 3) * u) ≤ 1) (hb : Spec.Bracketing br)
    (hs : Spec.SqrtLike sq g) (hg : ∀ x, 0 ≤ x → |g x ^ 2 - x| ≤ 3 * u * x) (hg' : ∀ x, 0 < x → 0 < g x)
    (ht : Spec.Stair t n c) (hn : 0 < n) (hS : 2 ≤ S) (h : Spec.Reserves rd t n S U R res) :
    ∃ (T : ℕ → K) (e : K), bootTotalsR rd S res = (List.range S).map (fun s => .fin (T s)) ∧
      (bootStdErrR br rd sq t S res)[n]? = some (.fin e) ∧
      (e = 0 → ∀ s < S, T s = T 0) ∧
      ∀ M, (∀ s < S, |T s| ≤ M) → |e ^ 2 - Spec.sampleVar S T| ≤
        (2 * S + 16) * u * Spec.sampleVar S T + 12 * S ^ 3 * u ^ 2 * M ^ 2 / ((S : K) - 1) := by
  have u0 := hr.nonneg
  have hS2 : (2 : K) ≤ S := by exact_mod_cast hS
  have hu4 : 10 * u ≤ 1 := by nlinarith
  have hc : ((S - 1 : ℕ) : K) = (S : K) - 1 := by rw [Nat.cast_sub (by omega)]; simp
  have hd : (0 : K) < (S : K) - 1 := by linarith
  obtain ⟨-, -, hT, -⟩ := bootR_columns (sq := sq) (br := br) ht hn hS h
  refine ⟨Spec.totalR rd n R, _, hT, (bootR_stdErr hm hr (by linarith) hb hs ht hn hS h).2, ?_, ?_⟩
  · intro hz
    have h0 := totalVar_nonneg (n := n) (S := S) (R := R) hm hb
    have h1 : Spec.totalVar br rd n S R = 0 := by
      by_contra hne
      exact (hg' _ (lt_of_le_of_ne h0 (Ne.symm hne))).ne' hz
    have h2 := rd_eq_zero hr h1
    rw [hc] at h2
    have h3 := (twoPass_zero hm hr hb).1 ((div_eq_zero_iff.1 h2).resolve_right hd.ne')
    intro s hs'
    rw [h3 s hs', h3 0 (by omega)]
  · intro M hM
    have e1 := twoPass_error hr hb (y := Spec.totalR rd n R) (S := S) (by omega) hu hM
    have e0 := twoPass_nonneg hm hb (Spec.totalR rd n R) S
    unfold Spec.totalVar
    rw [hc]
    have hV : Spec.sampleVar S (Spec.totalR rd n R) = Spec.avgDev (Spec.totalR rd n R) S / ((S : K) - 1) := rfl
    rw [hV]
    have D0 : 0 ≤ Spec.avgDev (Spec.totalR rd n R) S := Finset.sum_nonneg fun _ _ => sq_nonneg _
    set W := Spec.twoPass br rd (Spec.totalR rd n R) S
    set D := Spec.avgDev (Spec.totalR rd n R) S
    have q0 : 0 ≤ W / ((S : K) - 1) := div_nonneg e0 hd.le
    have e5 := root_close hr (by linarith) hg q0 (MonoRd.nonneg hm q0)
    have e6 := abs_add_le (g (rd (W / ((S : K) - 1))) ^ 2 - W / ((S : K) - 1)) (W / ((S : K) - 1) - D / ((S : K) - 1))
    rw [sub_add_sub_cancel] at e6
    refine e6.trans ?_
    rw [← sub_div, abs_div, abs_of_pos hd]
    refine (add_le_add e5 le_rfl).trans ?_
    rw [← mul_div_assoc, ← mul_div_assoc, ← add_div, ← add_div]
    refine div_le_div_of_nonneg_right ?_ hd.le
    have e7 : W ≤ D + (2 * (S + 3) * u * D + 8 * S ^ 3 * u ^ 2 * M ^ 2) := by
      have := le_abs_self (W - D)
      linarith
    set P := (S : K) ^ 3 * u ^ 2 * M ^ 2 with hP
    have P0 : 0 ≤ P := by positivity
    have e8 : 8 * (S : K) ^ 3 * u ^ 2 * M ^ 2 = 8 * P := by rw [hP]; ring
    have e9 : 12 * (S : K) ^ 3 * u ^ 2 * M ^ 2 = 12 * P := by rw [hP]; ring
    rw [e8] at e7 e1
    rw [e9]
    have e10 := mul_le_mul_of_nonneg_left e7 (by linarith : 0 ≤ 5 * u)
    have e11 := mul_le_mul_of_nonneg_right hu D0
    have e12 : u * P ≤ 1 / 10 * P := mul_le_mul_of_nonneg_right (by linarith) P0
    have e13 := mul_le_mul_of_nonneg_left e11 u0
    nlinarith

theorem tree_same {a : ℕ → K} {x : K} (s : SumTree) (ha : ∀ i ∈ s.leaves, a i = x)
    (hx : ∀ k ≤ s.leaves.length, rd (k * x) = k * x) : s.eval rd a = s.leaves.length * x := by
  induction s with
  | leaf k => simpa [SumTree.leaves, SumTree.eval] using ha
  | node l r ihl ihr =>
    simp only [SumTree.leaves, List.mem_append, List.length_append] at ha hx ⊢
    show rd (l.eval rd a + r.eval rd a) = _
    rw [ihl (fun i hi => ha i (.inl hi)) (fun k hk => hx k (by omega)),
      ihr (fun i hi => ha i (.inr hi)) (fun k hk => hx k (by omega)), ← add_mul, ← Nat.cast_add, hx _ le_rfl]

/-- **C184**: if all simulated totals are the same number `x`, the standard error of the total in rounded arithmetic is 0
provided that the multiples of `x` up to the number of simulations are numbers of the format; its square is always at
most `12 S³/(S-1)·u²x²`.  Missing: 0 without this proviso, see `C184_fails`. -/
theorem C184_partial (hm : Spec.MonoRd rd N) (hr : Spec.RelErr rd u) (hu : 2 * ((S + 3) * u) ≤ 1) (hb : Spec.Bracketing br)
    (hs : Spec.SqrtLike sq g) (hg : ∀ x, 0 ≤ x → |g x ^ 2 - x| ≤ 3 * u * x) (hg' : ∀ x, 0 < x → 0 < g x)
    (ht : Spec.Stair t n c) (hn : 0 < n) (hS : 2 ≤ S) (h : Spec.Reserves rd t n S U R res) {x : K}
    (hx : bootTotalsR rd S res = (List.range S).map (fun _ => .fin x)) :
    ∃ e, (bootStdErrR br rd sq t S res)[n]? = some (.fin e) ∧ e ^ 2 ≤ 12 * S ^ 3 * u ^ 2 * x ^ 2 / ((S : K) - 1) ∧
      ((∀ k ≤ S, rd (k * x) = k * x) → e = 0) := by
  have u0 := hr.nonneg
  have hS2 : (2 : K) ≤ S := by exact_mod_cast hS
  have hu4 : 4 * u ≤ 1 := by nlinarith
  have hS0 : (S : K) ≠ 0 := by linarith
  obtain ⟨T, e, h1, h2, -, h4⟩ := C183_total hm hr hu hb hs hg hg' ht hn hS h
  have hT : ∀ s < S, T s = x := by
    rw [hx] at h1
    intro s hs'
    have := congrArg (fun l => l[s]?) h1
    simp only [List.getElem?_map, List.getElem?_range hs', Option.map_some, Option.some_inj, Num.fin_inj'] at this
    exact this.symm
  refine ⟨e, h2, ?_, ?_⟩
  · have h5 := h4 |x| (fun s hs' => by rw [hT s hs'])
    have hmean : Spec.meanOf S T = x := by
      unfold Spec.meanOf
      rw [Finset.sum_congr rfl (fun s hs' => hT s (Finset.mem_range.1 hs')), Finset.sum_const, Finset.card_range, nsmul_eq_mul]
      field_simp
    have hvar : Spec.sampleVar S T = 0 := by
      unfold Spec.sampleVar
      rw [hmean, Finset.sum_congr rfl (fun s hs' => by rw [hT s (Finset.mem_range.1 hs'), sub_self]), Finset.sum_const]
      simp
    rw [hvar, sub_zero, abs_of_nonneg (sq_nonneg _), mul_zero, zero_add, sq_abs] at h5
    exact h5
  · intro hk
    obtain ⟨-, -, hT', -⟩ := bootR_columns (sq := sq) (br := br) ht hn hS h
    have hR : ∀ s < S, Spec.totalR rd n R s = x := by
      rw [hx] at hT'
      intro s hs'
      have := congrArg (fun l => l[s]?) hT'
      simp only [List.getElem?_map, List.getElem?_range hs', Option.map_some, Option.some_inj, Num.fin_inj'] at this
      exact this.symm
    rw [(bootR_stdErr hm hr hu4 hb hs ht hn hS h).2, Option.some_inj, Num.fin_inj'] at h2
    rw [← h2]
    have hne : (List.range S).map (Spec.totalR rd n R) ≠ [] := by
      intro e
      have := congrArg List.length e
      simp at this
      omega
    have hlen : (br S).leaves.length = S := by simpa using (hb S (by omega)).length_eq
    have hsum : roundedSum br rd ((List.range S).map (Spec.totalR rd n R)) = S * x := by
      unfold roundedSum
      rw [if_neg hne, List.length_map, List.length_range]
      rw [tree_same (x := x) (br S) ?_ ?_, hlen]
      · intro i hi
        have hi' : i < S := List.mem_range.1 ((hb S (by omega)).mem_iff.1 hi)
        rw [List.getD_eq_getElem?_getD, List.getElem?_map, List.getElem?_range hi']
        exact hR i hi'
      · rw [hlen]; exact hk
    have hz : Spec.twoPass br rd (Spec.totalR rd n R) S = 0 := by
      rw [twoPass_zero hm hr hb]
      intro s hs'
      have h1x := hk 1 (by omega)
      rw [Nat.cast_one, one_mul] at h1x
      rw [hR s hs', hsum, mul_comm, mul_div_assoc, div_self hS0, mul_one, h1x]
    unfold Spec.totalVar
    rw [hz, zero_div, hm.zero, hs.zero]

/-- What the summary shows in rounded arithmetic, for simulated ultimates `U`: labels as in exact arithmetic; the ultimate
is the mean of the simulated ones up to `16u` times the mean of their absolute values, for the oldest origin it is the
latest value, with reserve and standard error 0 and coefficient of variation NaN; reserves are ultimates less latest
values; the total adds the columns in the order of the format. -/
structure Spec.BootTableR (br : ℕ → SumTree) (rd : K → K) (u : K) (t : Tri K) (n S : ℕ) (c U : ℕ → ℕ → K) (cl : Ser K)
    (rows : List (BootRow K)) : Prop where
  length : rows.length = n + 1
  row : ∀ i < n, ∃ row V e, rows[i]? = some row ∧ row.origin = some (t.oAt i) ∧ row.maturity = some (t.dAt (n - 1 - i)) ∧
    row.cldf = Ser.get cl (t.dAt (n - 1 - i)) ∧ row.emergence = Num.divR rd 1 row.cldf ∧
    row.latest = .fin (c i (n - 1 - i)) ∧ row.ultimate = .fin V ∧ row.reserve = .fin (rd (V - c i (n - 1 - i))) ∧
    row.stdErr = .fin e ∧ 0 ≤ e ∧ row.cv = Num.divR rd row.stdErr row.reserve ∧
    (i = 0 → V = c 0 (n - 1) ∧ row.reserve = .fin 0 ∧ e = 0 ∧ row.cv = .nan) ∧
    (0 < i → |V - Spec.meanOf S (fun s => U s i)| ≤ 16 * u * Spec.meanOf S (fun s => |U s i|))
  total : ∃ tot e, rows[n]? = some tot ∧ tot.origin = none ∧ tot.maturity = none ∧ tot.cldf = .nan ∧ tot.emergence = .nan ∧
    tot.latest = sumSkipR br rd ((rows.take n).map BootRow.latest) ∧
    tot.ultimate = sumSkipR br rd ((rows.take n).map BootRow.ultimate) ∧
    tot.reserve = sumSkipR br rd ((rows.take n).map BootRow.reserve) ∧
    tot.stdErr = .fin e ∧ 0 ≤ e ∧ tot.cv = Num.divR rd tot.stdErr tot.reserve

theorem kmean_error (hr : Spec.RelErr rd u) (hS : 0 < S) (hu : 20 * (S : K) * u ≤ 1) (y : ℕ → K) :
    |rd (Spec.kpre rd y S / S) - Spec.meanOf S y| ≤ 16 * u * Spec.meanOf S (fun s => |y s|) := by
  have u0 := hr.nonneg
  have hS0 : (0 : K) < S := Nat.cast_pos.2 hS
  have hS1 : (1 : K) ≤ S := by exact_mod_cast hS
  have h20 : 20 * u ≤ 1 := by nlinarith
  have h1 := kpre_err hr (a := y) (b := y) (e := fun s => |y s|) hu
    (fun k _ => by rw [sub_self, abs_zero]; positivity) (fun k _ => le_rfl)
  have h2 := Finset.abs_sum_le_sum_abs y (Finset.range S)
  unfold Spec.meanOf
  set P := Spec.kpre rd y S
  set Y := ∑ s ∈ Finset.range S, y s
  set A := ∑ s ∈ Finset.range S, |y s|
  have A0 : 0 ≤ A := Finset.sum_nonneg fun _ _ => abs_nonneg _
  have h3 := hr.err (P / S)
  have h4 := abs_add_le (rd (P / S) - P / S) (P / S - Y / S)
  rw [sub_add_sub_cancel] at h4
  rw [abs_div, abs_of_pos hS0] at h3
  rw [← sub_div, abs_div, abs_of_pos hS0] at h4
  have h5 := abs_add_le (P - Y) Y
  rw [sub_add_cancel] at h5
  refine h4.trans ((add_le_add h3 le_rfl).trans ?_)
  rw [← mul_div_assoc, ← mul_div_assoc, ← add_div]
  refine div_le_div_of_nonneg_right ?_ hS0.le
  have h6 := mul_le_mul_of_nonneg_left (h5.trans (add_le_add h1 h2)) u0
  have h7 : u * (u * A) ≤ 1 / 20 * (u * A) := mul_le_mul_of_nonneg_right (by linarith) (mul_nonneg u0 A0)
  have h8 : 0 ≤ u * A := mul_nonneg u0 A0
  nlinarith

theorem bootSummaryRowsR_get {cl : Ser K} {mat : List Int} {ults rs se : List (Num K)} {i : ℕ} (hi : i < t.nr) :
    (bootSummaryRowsR br rd t cl mat ults rs se)[i]? = some (bootRowAtR rd t cl mat ults rs se i) := by
  unfold bootSummaryRowsR
  rw [List.getElem?_append_left (by simpa using hi), List.getElem?_map, List.getElem?_range hi]; rfl

/-- **C185** Summary of the bootstrap in rounded arithmetic. -/
theorem C185_summary (hm : Spec.MonoRd rd N) (hr : Spec.RelErr rd u) (hu : 20 * (S : K) * u ≤ 1) (hb : Spec.Bracketing br)
    (hs : Spec.SqrtLike sq g) (ht : Spec.Stair t n c) (hn : 0 < n) (hS : 2 ≤ S) (h : Spec.Reserves rd t n S U R res)
    (ldfs : Ser K) :
    ∃ rows, bootSummaryR br rd t ldfs (bootUltimatesR rd t res) (bootReservesR rd t res) (bootStdErrR br rd sq t S res) =
        .ok rows ∧ Spec.BootTableR br rd u t n S c U (cldfsOfR rd ldfs) rows := by
  have u0 := hr.nonneg
  have hS2 : (2 : K) ≤ S := by exact_mod_cast hS
  have hu4 : 4 * u ≤ 1 := by nlinarith
  obtain ⟨e1, e2, -, -⟩ := bootR_columns (sq := sq) (br := br) ht hn hS h
  obtain ⟨e, e3, e4, -, e5⟩ := C180_std hm hr hu4 hb hs ht hn hS h
  have gD : ∀ {α : Type} (g : ℕ → α) (d : α) (l i : ℕ), i < l → ((List.range l).map g).getD i d = g i := by
    intro α g d l i hi
    rw [List.getD_eq_getElem?_getD, List.getElem?_map, List.getElem?_range hi]; rfl
  refine ⟨_, by unfold bootSummaryR; rw [ht.maturity]; rfl, ?_⟩
  have gm : ∀ i < n, ((List.range n).map (fun k => t.dAt (n - 1 - k))).getD i 0 = t.dAt (n - 1 - i) :=
    fun i hi => gD _ _ n i hi
  have g1 : ∀ i < n, (bootUltimatesR rd t res).getD i .nan = .fin (Spec.bootUltR rd n S c U i) := by
    intro i hi; rw [e1]; exact gD _ _ n i hi
  have g2 : ∀ i < n, (bootReservesR rd t res).getD i .nan = .fin (rd (Spec.bootUltR rd n S c U i - c i (n - 1 - i))) := by
    intro i hi; rw [e2]; exact gD _ _ n i hi
  have g3 : ∀ i ≤ n, (bootStdErrR br rd sq t S res).getD i .nan = .fin (e i) := by
    intro i hi; rw [e3]; exact gD _ _ (n + 1) i (by omega)
  generalize (List.range n).map (fun k => t.dAt (n - 1 - k)) = mat at gm
  generalize bootUltimatesR rd t res = ults at g1
  generalize bootReservesR rd t res = rs at g2
  generalize bootStdErrR br rd sq t S res = se at g3
  refine ⟨by simp [bootSummaryRowsR, ht.nr], ?_, ?_⟩
  · intro i hi
    refine ⟨_, Spec.bootUltR rd n S c U i, e i, bootSummaryRowsR_get (by rw [ht.nr]; exact hi), rfl, ?_, ?_, rfl,
      ht.latest_get hi, g1 i hi, g2 i hi, g3 i hi.le, e4 i, rfl, ?_, ?_⟩
    · exact congrArg some (gm i hi)
    · exact congrArg (fun d => Ser.get (cldfsOfR rd ldfs) d) (gm i hi)
    · rintro rfl
      have hV : Spec.bootUltR rd n S c U 0 = c 0 (n - 1) := if_pos rfl
      have hz : rs.getD 0 .nan = .fin (0 : K) := by
        rw [g2 0 hi, hV, Nat.sub_zero, sub_self, hm.zero]
      refine ⟨hV, hz, e5, ?_⟩
      show Num.divR rd (se.getD 0 .nan) (rs.getD 0 .nan) = .nan
      rw [hz, g3 0 hi.le, e5]
      unfold Num.divR
      rw [Num.fin_div_zero]
      simp [Num.infTimes, Num.rounded]
    · intro h0
      have hV : Spec.bootUltR rd n S c U i = rd (Spec.kpre rd (fun s => U s i) S / S) := if_neg (by omega)
      rw [hV]
      exact kmean_error hr (by omega) hu _
  · have htake : (bootSummaryRowsR br rd t (cldfsOfR rd ldfs) mat ults rs se).take n =
        (List.range t.nr).map (bootRowAtR rd t (cldfsOfR rd ldfs) mat ults rs se) := by
      unfold bootSummaryRowsR
      exact List.take_left' (by simp [ht.nr])
    refine ⟨bootTotalRowR br rd (se.getD t.nr .nan)
      ((List.range t.nr).map (bootRowAtR rd t (cldfsOfR rd ldfs) mat ults rs se)), e n, ?_, rfl, rfl, rfl, rfl, ?_, ?_, ?_,
      ?_, e4 n, rfl⟩
    · unfold bootSummaryRowsR
      rw [List.getElem?_append_right (by simp [ht.nr])]
      simp [ht.nr]
    · rw [htake]; rfl
    · rw [htake]; rfl
    · rw [htake]; rfl
    · show se.getD t.nr .nan = _
      rw [ht.nr]; exact g3 n le_rfl

end

end

/-! ### double precision -/

theorem sqrt_close {p : ℕ} (hp : 1 ≤ p) (x : ℝ) (hx : 0 ≤ x) :
    |floatRd p (Real.sqrt x) ^ 2 - x| ≤ 3 * (2 : ℝ) ^ (-(p : ℤ)) * x := by
  have hr := floatRd_relErr (K := ℝ) hp
  have u0 := hr.nonneg
  have u1 := hr.lt_one
  have h1 := hr.err (Real.sqrt x)
  have h0 := Real.sqrt_nonneg x
  rw [abs_of_nonneg h0] at h1
  have h2 := Real.sq_sqrt hx
  set w := Real.sqrt x
  set u : ℝ := (2 : ℝ) ^ (-(p : ℤ))
  set y := floatRd p w
  have h3 : y ^ 2 - x = (y - w) * (y - w) + 2 * w * (y - w) := by rw [← h2]; ring
  rw [h3]
  refine (abs_add_le _ _).trans ?_
  rw [abs_mul, abs_mul, abs_of_nonneg (by linarith : 0 ≤ 2 * w)]
  have h4 : |y - w| * |y - w| ≤ (u * w) * (u * w) := mul_le_mul h1 h1 (abs_nonneg _) (by positivity)
  have h5 : 2 * w * |y - w| ≤ 2 * w * (u * w) := mul_le_mul_of_nonneg_left h1 (by linarith)
  have h6 : (u * w) * (u * w) ≤ u * w ^ 2 := by
    have : u * (u * w ^ 2) ≤ 1 * (u * w ^ 2) := mul_le_mul_of_nonneg_right u1.le (by positivity)
    nlinarith
  rw [← h2]
  nlinarith

/-- **C180–C185** in double precision with correctly rounded roots, for every run with at most 10¹² simulations. -/
theorem C181_float64 {t m : Tri ℝ} {n S : ℕ} {c v : ℕ → ℕ → ℝ} {br : ℕ → SumTree} (hb : Spec.Bracketing br)
    {draw : ℕ → Num ℝ} {scale : Num ℝ} {gam : ℕ → Num ℝ → Num ℝ → Num ℝ}
    (h : Spec.FiniteRun t m n S c v (fun x => (Num.sqrt x).rounded (floatRd 53)) draw scale gam) (hS : S ≤ 10 ^ 12) :
    let rd : ℝ → ℝ := floatRd 53
    let sq : Num ℝ → Num ℝ := fun x => (Num.sqrt x).rounded (floatRd 53)
    let res := (bootSimsR rd sq t m scale S draw gam).reserves
    let u : ℝ := (2 : ℝ) ^ (-((53 : ℕ) : ℤ))
    ∃ U R : ℕ → ℕ → ℝ, Spec.Reserves rd t n S U R res ∧
      (∀ i < n, ∃ e, (bootStdErrR br rd sq t S res)[i]? = some (.fin e) ∧ 0 ≤ e ∧
        (∀ a b M, (∀ s < S, a ≤ R s i ∧ R s i ≤ b) → -M ≤ a ∧ b ≤ M → |e ^ 2 - Spec.sampleVar S (fun s => R s i)| ≤
          u * ((S ^ 2 + 21 * S) * (b - a) ^ 2 + (S ^ 2 + 2 * S) / 2 * (M * (b - a))) / ((S : ℝ) - 1)) ∧
        (e = 0 → (∀ s < S, 1 ≤ s → R s i = R 1 i) ∧ |R 1 i - R 0 i| ≤ 3 * u * max |R 0 i| |R 1 i|)) ∧
      (∃ (T : ℕ → ℝ) (e : ℝ), bootTotalsR rd S res = (List.range S).map (fun s => .fin (T s)) ∧
        (bootStdErrR br rd sq t S res)[n]? = some (.fin e) ∧ (e = 0 → ∀ s < S, T s = T 0) ∧
        ∀ M, (∀ s < S, |T s| ≤ M) → |e ^ 2 - Spec.sampleVar S T| ≤
          (2 * S + 16) * u * Spec.sampleVar S T + 12 * S ^ 3 * u ^ 2 * M ^ 2 / ((S : ℝ) - 1)) := by
  intro rd sq res u
  have hm := floatRd_monoRd (K := ℝ) (p := 53) (by norm_num)
  have hr := floatRd_relErr (K := ℝ) (p := 53) (by norm_num)
  have hf := floatRd_formatRd (K := ℝ) (p := 53) (by norm_num)
  have hs := sqrtLike_real (p := 53) (by norm_num)
  have hS' : (S : ℝ) ≤ 10 ^ 12 := by exact_mod_cast hS
  have hu : u = 1 / 2 ^ 53 := by show (2 : ℝ) ^ (-((53 : ℕ) : ℤ)) = _; rw [zpow_neg, zpow_natCast, one_div]
  have hu2 : 2 * (((S : ℝ) + 3) * u) ≤ 1 := by rw [hu]; linarith
  have hu16 : 16 * u ≤ 1 := by rw [hu]; norm_num
  have hu4 : 4 * u ≤ 1 := by rw [hu]; norm_num
  have hg : ∀ x : ℝ, 0 < x → 0 < floatRd 53 (Real.sqrt x) := fun x hx => hm.pos _ (Real.sqrt_pos.2 hx)
  obtain ⟨U, R, hR⟩ := C180_run hf.toIdem h
  refine ⟨U, R, hR, ?_, C183_total hm hr hu2 hb hs (fun x hx => sqrt_close (by norm_num) x hx) hg h.tri h.pos h.two hR⟩
  intro i hi
  refine ⟨_, (bootR_stdErr hm hr hu4 hb hs h.tri h.pos h.two hR).1 i hi,
    SqrtLike.nonneg hs (wSq_origin hm hr hu4 hR i), ?_, ?_⟩
  · intro a b M hab hM
    obtain ⟨e, e1, e2⟩ := C181_accuracy hm hr hu2 hb hs (fun x hx => sqrt_close (by norm_num) x hx) h.tri h.pos h.two hR hi
      hab hM
    rw [(bootR_stdErr hm hr hu4 hb hs h.tri h.pos h.two hR).1 i hi, Option.some_inj, Num.fin_inj'] at e1
    rw [e1]
    exact e2
  · intro he
    refine (C182_partial hm hr hu16 (floatRd_nearestRd (by norm_num)) hb hs hg h.tri h.pos h.two hR hi).2 ?_
    rw [(bootR_stdErr hm hr hu4 hb hs h.tri h.pos h.two hR).1 i hi, he]

/-! ### violations and cases -/

/-- Gamma draws near 130 that differ between two simulations of a 3 x 3 staircase in the last bits. -/
def exGamma : ℕ → Num ℚ → Num ℚ → Num ℚ := fun p _ _ => if p < 9 then .fin (130 + 1 / 2 ^ 45) else .fin (130 + 2 / 2 ^ 45)

/-- **C182 fails** in double precision: the two simulated reserves of the last origin differ, its standard error is 0. -/
theorem C182_fails :
    let res := (bootSimsR (floatRd 53) exSqrt exHundred exHundred 1 2 (fun _ => 0) exGamma).reserves
    (res.filter (fun r => r.origin = 2003)).map ResRow.reserve =
      [.fin (4573968371548161 / 2 ^ 44), .fin (4573968371548162 / 2 ^ 44)] ∧
    (bootStdErrR (fun k => seqTree (k - 1)) (floatRd 53) exSqrt exHundred 2 res)[2]? = some 0 := by
  decide +kernel

/-- **C184 fails** in double precision: five simulations have the same total, its standard error is not 0. -/
theorem C184_fails :
    let res := (bootSimsR (floatRd 53) exSqrt exHundred exHundred 1 5 (fun _ => 0)
      (fun _ _ _ => .fin (floatRd 53 (1009 / 3)))).reserves
    (∀ v ∈ bootTotalsR (floatRd 53) 5 res, some v = (bootTotalsR (floatRd 53) 5 res).head?) ∧
    (bootTotalsR (floatRd 53) 5 res).length = 5 ∧
    (bootStdErrR (fun k => seqTree (k - 1)) (floatRd 53) exSqrt exHundred 5 res)[3]? ≠ some 0 := by
  decide +kernel

/-- Gamma draws 0.1, 0.2, … by position, rounded. -/
def exTenths : ℕ → Num ℚ → Num ℚ → Num ℚ := fun p _ _ => .fin (floatRd 53 ((p + 1) / 10))

/-- Beside `C180_run`: three simulations of the staircase of increments 100. -/
theorem exHundred_run : Spec.FiniteRun exHundred exHundred 3 3 (fun _ _ => 100) (fun _ _ => 100) exSqrt (fun _ => 0) 1
    exTenths :=
  ⟨exHundred_stair, by norm_num, by norm_num, exHundred_stair, rfl, rfl,
    fun y hy => ⟨Rat.sqrt y, if_neg (not_lt.2 hy)⟩, fun _ _ _ _ => by norm_num, fun _ _ => rfl, fun _ _ _ => rfl⟩

example : ∃ U R : ℕ → ℕ → ℚ, Spec.Reserves (floatRd 53) exHundred 3 3 U R
    (bootSimsR (floatRd 53) exSqrt exHundred exHundred 1 3 (fun _ => 0) exTenths).reserves :=
  C180_run (floatRd_formatRd (by norm_num)).toIdem exHundred_run

/-- Beside `C180_std` and `C181_accuracy`: variances before the root. -/
example : let res := (bootSimsR (floatRd 53) exSqrt exHundred exHundred 1 3 (fun _ => 0) exTenths).reserves
    bootStdErrR (fun k => seqTree (k - 1)) (floatRd 53) id exHundred 3 res =
      [0, .fin (911978924542537 / 1125899906842624), .fin (1823957849085045 / 562949953421312),
        .fin (4103905160441373 / 562949953421312)] ∧
    bootStdErr id exHundred 3 res = [0, .fin (1002731431821170689042242601 / 1237940039285380274899124224),
      .fin (16043702909138477697196842025 / 4951760157141521099596496896),
      .fin (36098331545561764814302174249 / 4951760157141521099596496896)] := by
  decide +kernel

/-- Beside `C181_float64`: two simulations over the real numbers with process errors 130 and 131. -/
example : ∃ U R : ℕ → ℕ → ℝ, ∃ e : ℝ, Spec.Reserves (floatRd 53) (stairTri 3 (fun _ _ => (100 : ℝ))) 3 2 U R
      (bootSimsR (floatRd 53) (fun x => (Num.sqrt x).rounded (floatRd 53)) (stairTri 3 (fun _ _ => 100))
        (stairTri 3 (fun _ _ => 100)) 1 2 (fun _ => 0) (fun p _ _ => if p < 9 then .fin 130 else .fin 131)).reserves ∧
    (bootStdErrR (fun k => seqTree (k - 1)) (floatRd 53) (fun x => (Num.sqrt x).rounded (floatRd 53))
      (stairTri 3 (fun _ _ => (100 : ℝ))) 2 (bootSimsR (floatRd 53) (fun x => (Num.sqrt x).rounded (floatRd 53))
        (stairTri 3 (fun _ _ => 100)) (stairTri 3 (fun _ _ => 100)) 1 2 (fun _ => 0)
        (fun p _ _ => if p < 9 then .fin 130 else .fin 131)).reserves)[2]? = some (.fin e) ∧ 0 ≤ e := by
  have hf : Spec.FiniteRun (stairTri 3 (fun _ _ => (100 : ℝ))) (stairTri 3 (fun _ _ => 100)) 3 2 (fun _ _ => 100)
      (fun _ _ => 100) (fun x => (Num.sqrt x).rounded (floatRd 53)) (fun _ => 0) 1
      (fun p _ _ => if p < 9 then .fin 130 else .fin 131) :=
    ⟨stairTri_stair 3 _, by norm_num, le_rfl, stairTri_stair 3 _, rfl, rfl,
      fun y hy => ⟨_, (sqrtLike_real (p := 53) (by norm_num)).fin y hy⟩, fun _ _ _ _ => by norm_num, fun _ _ => rfl,
      fun p _ _ => by beta_reduce; split <;> rfl⟩
  obtain ⟨U, R, h1, h2, -⟩ := C181_float64 seqTree_bracketing hf (by norm_num)
  obtain ⟨e, h3, h4, -⟩ := h2 2 (by norm_num)
  exact ⟨U, R, e, h1, h3, h4⟩

/-- Beside `C182_partial`: in the opposite order of the two simulations the standard error is not 0. -/
example : groupStdR (floatRd 53) id [.fin (4573968371548162 / 2 ^ 44), .fin (4573968371548161 / 2 ^ 44)] =
    .fin ((1 / 2 ^ 88 : ℚ)) ∧
    groupStdR (floatRd 53) id [.fin (4573968371548161 / 2 ^ 44), .fin (4573968371548162 / 2 ^ 44)] = .fin (0 : ℚ) := by
  decide +kernel

/-- Beside `C184_partial`: five equal totals whose multiples are exact. -/
example : let res := (bootSimsR (floatRd 53) exSqrt exHundred exHundred 1 5 (fun _ => 0) (fun _ _ _ => .fin 7)).reserves
    bootTotalsR (floatRd 53) 5 res = List.replicate 5 (.fin 21) ∧
    (bootStdErrR (fun k => seqTree (k - 1)) (floatRd 53) exSqrt exHundred 5 res)[3]? = some 0 := by
  decide +kernel

/-- Beside `C185_summary`. -/
example : let res := (bootSimsR (floatRd 53) exSqrt exHundred exHundred 1 2 (fun _ => 0)
      (fun p _ _ => if p < 9 then .fin 4 else .fin 6)).reserves
    (bootSummaryR (fun k => seqTree (k - 1)) (floatRd 53) exHundred [(1, .fin 2), (2, 1), (3, 1)]
      (bootUltimatesR (floatRd 53) exHundred res) (bootReservesR (floatRd 53) exHundred res)
      (bootStdErrR (fun k => seqTree (k - 1)) (floatRd 53) id exHundred 2 res)).toOption.map
      (fun rows => rows.map (fun r => (r.maturity, r.ultimate, r.reserve))) =
    some [(some 3, .fin 100, .fin 0), (some 2, .fin 205, .fin 105), (some 1, .fin 110, .fin 10), (none, .fin 415, .fin 115)] := by
  decide +kernel

end Trikit
