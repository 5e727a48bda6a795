import Verif.MackShapes
import Verif.Props.Shapes
import Mathlib.Algebra.Order.BigOperators.Group.Finset
import Mathlib.Algebra.Order.BigOperators.Ring.Finset

/-!
# C131, C132: errors of `mack_cl` when origins have not reported their latest amounts

`_devp_variance` (mack.py:322-327) divides by a number taken from the position of the period, and
`_process_error` and `_parameter_error` (mack.py:359-386, 411-436) start at a period taken from the
position of the origin.  Both are right when origin `i` is observed for exactly `n - i` periods.
-/

set_option linter.unusedSectionVars false

namespace Trikit

variable {K : Type} [Field K] [LinearOrder K]
variable {t ind : Tri K} {n : ℕ} {len : ℕ → ℕ} {c w : ℕ → ℕ → K}

/-! ## C131 -/

/-- **C131 (partial).**  Full claim: on every triangle the reported variance parameter of a period but
the last is the weighted sum of squared deviations of its link ratios from the reported factor, divided by
the number of link ratios minus one.  What holds for as many origins as periods, whatever the lengths
`len` of the origins: the factors are the weighted means of the reported link ratios and the sum runs over
all of them, but the divisor is `n - j - 2`.  So the claim holds for periods with `n - 1 - j` link
ratios and, unless all link ratios agree, for no others.
Missing: periods in which a link ratio has not been reported. -/
theorem C131_partial [CharZero K] (h : Spec.Young t n n len c) (hc : ∀ i < n, ∀ j < len i, c i j ≠ 0)
    (hi : IndY t ind n n len w) (hn : 4 ≤ n) (alpha : ℕ)
    (hw : ∀ j < n - 1, Spec.wTot alpha n len c w j ≠ 0) :
    ∃ r, mackCore alpha t ind = .ok r ∧
      (∀ j < n - 1, r.ldfs.iloc j = .fin (Spec.wMean alpha n len c w j)) ∧
      ∀ j < n - 2, ∃ s, r.devpvar.iloc j = .fin s ∧
        s = Spec.wDev alpha n len c w (Spec.wMean alpha n len c w j) j / ((n : K) - j - 2) ∧
        (Spec.hgt n len (j + 1) = n - 1 - j →
          s = Spec.wDev alpha n len c w (Spec.wMean alpha n len c w j) j /
            ((Spec.hgt n len (j + 1) : K) - 1)) ∧
        (Spec.wDev alpha n len c w (Spec.wMean alpha n len c w j) j ≠ 0 →
          (s * ((Spec.hgt n len (j + 1) : K) - 1) =
              Spec.wDev alpha n len c w (Spec.wMean alpha n len c w j) j ↔
            Spec.hgt n len (j + 1) = n - 1 - j)) := by
  obtain ⟨r, b, lab, h1, h2, -, -, -, h3, -⟩ := h.mackCore hc hi hn alpha hw
  refine ⟨r, h1, ?_, ?_⟩
  · intro j hj
    unfold Ser.iloc
    rw [h2, List.map_append, List.getD_eq_getElem?_getD, List.getElem?_append_left (by simpa using hj)]
    simp [hj]
  · intro j hj
    have hcast : ((n - j - 2 : ℕ) : K) = (n : K) - j - 2 := by
      rw [Nat.sub_sub, Nat.cast_sub (by omega)]; push_cast; ring
    have hne : (n : K) - j - 2 ≠ 0 := by
      rw [← hcast]; exact_mod_cast (by omega : n - j - 2 ≠ 0)
    have hiff : (Spec.hgt n len (j + 1) : K) - 1 = (n : K) - j - 2 ↔
        Spec.hgt n len (j + 1) = n - 1 - j := by
      constructor
      · intro e
        have e' : ((Spec.hgt n len (j + 1) + j + 1 : ℕ) : K) = ((n : ℕ) : K) := by
          push_cast; linear_combination e
        have := Nat.cast_injective e'
        omega
      · intro e
        have e' : ((Spec.hgt n len (j + 1) + j + 1 : ℕ) : K) = ((n : ℕ) : K) := by
          congr 1; omega
        push_cast at e'; linear_combination e'
    refine ⟨Spec.posVar alpha n len c w j, ?_, ?_, ?_, ?_⟩
    · rw [h3, iloc_of_snd (m := n - 1) (g := Spec.posStored alpha n len c w)
        (by rw [List.map_map]; rfl) (by omega)]
      unfold Spec.posStored
      rw [if_pos (by omega)]
    · unfold Spec.posVar; rw [hcast]
    · intro e
      unfold Spec.posVar; rw [hcast, hiff.2 e]
    · intro hd
      unfold Spec.posVar
      rw [hcast, ← hiff, div_mul_eq_mul_div, div_eq_iff hne]
      exact ⟨fun e => mul_left_cancel₀ hd e, fun e => by rw [e]⟩

/-- Five origins; the third has not reported its third period. -/
def lateLen5 : ℕ → ℕ := fun i => if i = 2 then 2 else 5 - i

/-- Its amounts. -/
def lateVals5 : ℕ → ℕ → ℚ := fun i j =>
  (([[100, 150, 180, 198, 200], [110, 160, 200, 210], [120, 190], [130, 200], [140]] : List (List ℚ)).getD i
    []).getD j 0

/-- The triangle. -/
def lateTri5 : Tri ℚ := youngTri 5 5 lateLen5 lateVals5

theorem lateTri5_young : Spec.Young lateTri5 5 5 lateLen5 lateVals5 :=
  youngTri_young lateVals5 (by norm_num) rfl (by intro i _; unfold lateLen5; split_ifs <;> omega)
    (by intro i k h1 h2; unfold lateLen5; split_ifs <;> omega)

/-- C131 is violated: period 2 has two link ratios, 6/5 and 5/4, whose mean squared deviation from 1.226
has one degree of freedom; the reported variance is half of it. -/
theorem C131_fails :
    (mackCore 1 lateTri5 lateTri5.a2aind0).map (fun r => (r.ldfs.iloc 1, r.devpvar.iloc 1,
        decide (Spec.hgt 5 lateLen5 2 = 2))) =
      .ok (.fin (38 / 31), .fin (3 / 31), true) ∧
    150 * ((6 : ℚ) / 5 - 38 / 31) ^ 2 + 160 * ((5 : ℚ) / 4 - 38 / 31) ^ 2 = 6 / 31 := by
  constructor
  · decide +kernel
  · norm_num

/-! ## C132 -/

/-- Amount of origin `i` in period `k`: observed, or the latest amount times the factors. -/
def Spec.sqAt (len : ℕ → ℕ) (c : ℕ → ℕ → K) (f : ℕ → K) (i k : ℕ) : K :=
  if k < len i then c i k else c i (len i - 1) * ∏ l ∈ Finset.Ico (len i - 1) k, f l

/-- Process variance of an origin over the periods from `a` on: every later period adds the variance of
its step, developed by the squared factors. -/
def Spec.procFrom (n : ℕ) (x f s : ℕ → K) (a : ℕ) : K :=
  ∑ k ∈ Finset.Ico a (n - 1), x k * s k * ∏ l ∈ Finset.Ico (k + 1) (n - 1), f l ^ 2

/-- Estimation variance of an origin over the periods from `a` on. -/
def Spec.paramFrom (n : ℕ) (x f v : ℕ → K) (a : ℕ) : K :=
  ∑ k ∈ Finset.Ico a (n - 1), x k ^ 2 * v k * ∏ l ∈ Finset.Ico (k + 1) (n - 1), (f l ^ 2 + v l)

section
variable {cell : ℕ → ℕ → Num K} {F S V : ℕ → Num K} {x f s v : ℕ → K} {i : ℕ}

theorem peRow_any (hcell : ∀ j < n, cell i j = .fin (x j)) (hF : ∀ j < n - 1, F j = .fin (f j))
    (hS : ∀ j < n - 1, S j = .fin (s j)) (hi : i < n) :
    ∀ m, m + 1 ≤ i → peRow cell F S n i m = .fin (∑ k ∈ Finset.Ico (n - 1 - i) (n - i + m),
      x k * s k * ∏ l ∈ Finset.Ico (k + 1) (n - i + m), f l ^ 2) := by
  intro m
  induction m with
  | zero =>
    intro _
    rw [peRow, hcell _ (by omega), hS _ (by omega), Num.fin_mul]
    have : n - i + 0 = n - 1 - i + 1 := by omega
    rw [this, Finset.sum_Ico_succ_top (le_refl _), Finset.Ico_self, Finset.sum_empty,
      Finset.Ico_self, Finset.prod_empty, zero_add, mul_one]
  | succ m ih =>
    intro hm
    rw [peRow, ih (by omega), hF _ (by omega), hS _ (by omega), hcell _ (by omega),
      Num.pow_fin, Num.fin_mul, Num.fin_mul, Num.fin_add]
    congr 1
    have : n - i + (m + 1) = (n - i + m) + 1 := by omega
    rw [this, Finset.sum_Ico_succ_top (by omega : n - 1 - i ≤ n - i + m), Finset.Ico_self,
      Finset.prod_empty, mul_one, Finset.mul_sum]
    congr 1
    apply Finset.sum_congr rfl
    intro k hk
    rw [Finset.mem_Ico] at hk
    rw [Finset.prod_Ico_succ_top (by omega : k + 1 ≤ n - i + m)]
    ring

theorem paRow_any (hcell : ∀ j < n, cell i j = .fin (x j)) (hF : ∀ j < n - 1, F j = .fin (f j))
    (hV : ∀ j < n - 1, V j = .fin (v j)) (hi : i < n) :
    ∀ m, m + 1 ≤ i → paRow cell F V n i m = .fin (∑ k ∈ Finset.Ico (n - 1 - i) (n - i + m),
      x k ^ 2 * v k * ∏ l ∈ Finset.Ico (k + 1) (n - i + m), (f l ^ 2 + v l)) := by
  intro m
  induction m with
  | zero =>
    intro _
    rw [paRow, hcell _ (by omega), hV _ (by omega), Num.pow_fin, Num.fin_mul]
    have : n - i + 0 = n - 1 - i + 1 := by omega
    rw [this, Finset.sum_Ico_succ_top (le_refl _), Finset.Ico_self, Finset.sum_empty,
      Finset.Ico_self, Finset.prod_empty, zero_add, mul_one]
  | succ m ih =>
    intro hm
    rw [paRow, ih (by omega), hF _ (by omega), hV _ (by omega), hcell _ (by omega),
      Num.pow_fin, Num.pow_fin, Num.fin_mul, Num.fin_mul, Num.fin_mul, Num.fin_add, Num.fin_add]
    congr 1
    have : n - i + (m + 1) = (n - i + m) + 1 := by omega
    rw [this, Finset.sum_Ico_succ_top (by omega : n - 1 - i ≤ n - i + m), Finset.Ico_self,
      Finset.prod_empty, mul_one]
    have e : ∑ k ∈ Finset.Ico (n - 1 - i) (n - i + m),
        x k ^ 2 * v k * ∏ l ∈ Finset.Ico (k + 1) (n - i + m + 1), (f l ^ 2 + v l) =
        (f (n - i + m) ^ 2 + v (n - i + m)) * ∑ k ∈ Finset.Ico (n - 1 - i) (n - i + m),
        x k ^ 2 * v k * ∏ l ∈ Finset.Ico (k + 1) (n - i + m), (f l ^ 2 + v l) := by
      rw [Finset.mul_sum]
      apply Finset.sum_congr rfl
      intro k hk
      rw [Finset.mem_Ico] at hk
      rw [Finset.prod_Ico_succ_top (by omega : k + 1 ≤ n - i + m)]
      ring
    rw [e]
    ring

theorem processError_any (hcell : ∀ j < n, cell i j = .fin (x j)) (hF : ∀ j < n - 1, F j = .fin (f j))
    (hS : ∀ j < n - 1, S j = .fin (s j)) (hi : i < n) :
    (processError cell F S n)[i]? = some (.fin (Spec.procFrom n x f s (n - 1 - i))) := by
  unfold processError
  rw [List.getElem?_map, List.getElem?_range hi, Option.map_some]
  by_cases e : i = 0
  · subst e
    unfold Spec.procFrom
    simp
    rfl
  · rw [if_neg e, peRow_any hcell hF hS hi _ (by omega), nanTo0_fin]
    unfold Spec.procFrom
    rw [show n - i + (i - 1) = n - 1 by omega]

theorem parameterError_any (hcell : ∀ j < n, cell i j = .fin (x j)) (hF : ∀ j < n - 1, F j = .fin (f j))
    (hV : ∀ j < n - 1, V j = .fin (v j)) (hi : i < n) :
    (parameterError cell F V n)[i]? = some (.fin (Spec.paramFrom n x f v (n - 1 - i))) := by
  unfold parameterError
  rw [List.getElem?_map, List.getElem?_range hi, Option.map_some]
  by_cases e : i = 0
  · subst e
    unfold Spec.paramFrom
    simp
    rfl
  · rw [if_neg e, paRow_any hcell hF hV hi _ (by omega), nanTo0_fin]
    unfold Spec.paramFrom
    rw [show n - i + (i - 1) = n - 1 by omega]

/-- Sums of positive terms up to a common end are the larger, the earlier they start. -/
theorem sum_Ico_lt [IsStrictOrderedRing K] {g : ℕ → K} {a a' e : ℕ} (hg : ∀ k < e, 0 < g k)
    (h1 : a < a') (h2 : a' ≤ e) : ∑ k ∈ Finset.Ico a' e, g k < ∑ k ∈ Finset.Ico a e, g k := by
  rw [← Finset.sum_Ico_consecutive g h1.le h2]
  have : 0 < ∑ k ∈ Finset.Ico a a', g k := by
    apply Finset.sum_pos
    · intro k hk
      rw [Finset.mem_Ico] at hk
      exact hg k (by omega)
    · exact ⟨a, Finset.mem_Ico.2 ⟨le_refl _, h1⟩⟩
  linarith

end

theorem baseFromLdfs_sqr {l : Ser K} {r : BaseResult K} (h : baseFromLdfs t l = .ok r) :
    trisqrdOf t l = .ok r.sqr := by
  unfold baseFromLdfs at h
  simp only at h
  cases h1 : ultimatesOf t (cldfsOf l) with
  | error e => rw [h1] at h; cases h
  | ok u =>
    cases h2 : t.maturity with
    | error e => rw [h1, h2] at h; cases h
    | ok m =>
      cases h3 : trisqrdOf t l with
      | error e => rw [h1, h2, h3] at h; cases h
      | ok s =>
        rw [h1, h2, h3] at h
        have h' : Except.ok _ = Except.ok r := h
        injection h' with h'
        rw [← h']

/-- **C132 (partial).**  Full claim: the process error and the parameter error of an origin accumulate the
variances of all periods after its own latest one.  With `f`, `s` and `v` the reported factors, variance
parameters and factor variances, the reported errors start at position `n - 1 - i` instead.  With positive
amounts, factors and variances the claim therefore holds for the origins observed for exactly `n - i`
periods and for no others: both errors are too small for an origin that reports late and too large for
one that is observed longer.
Missing: origins not observed for exactly `n - i` periods. -/
theorem C132_partial [IsStrictOrderedRing K] (h : Spec.Young t n n len c)
    (hc : ∀ i < n, ∀ j < len i, 0 < c i j)
    (hi : IndY t ind n n len w) (hn : 4 ≤ n) (alpha : ℕ)
    (hw : ∀ j < n - 1, Spec.wTot alpha n len c w j ≠ 0) {r : MackCore K}
    (hr : mackCore alpha t ind = .ok r) {f s v : ℕ → K}
    (hf : ∀ j < n - 1, r.ldfs.iloc j = .fin (f j)) (hs : ∀ j < n - 1, r.devpvar.iloc j = .fin (s j))
    (hv : ∀ j < n - 1, r.ldfvar.iloc j = .fin (v j)) {i : ℕ} (hin : i < n) :
    let x := Spec.sqAt len c f i
    (∀ j < n, r.sqr.tri.cell i j = .fin (x j)) ∧
    r.procErr[i]? = some (.fin (Spec.procFrom n x f s (n - 1 - i))) ∧
    r.paramErr[i]? = some (.fin (Spec.paramFrom n x f v (n - 1 - i))) ∧
    (len i = n - i → r.procErr[i]? = some (.fin (Spec.procFrom n x f s (len i - 1))) ∧
      r.paramErr[i]? = some (.fin (Spec.paramFrom n x f v (len i - 1)))) ∧
    ((∀ j < n - 1, 0 < f j ∧ 0 < s j ∧ 0 < v j) →
      (len i < n - i → Spec.procFrom n x f s (n - 1 - i) < Spec.procFrom n x f s (len i - 1) ∧
        Spec.paramFrom n x f v (n - 1 - i) < Spec.paramFrom n x f v (len i - 1)) ∧
      (n - i < len i → Spec.procFrom n x f s (len i - 1) < Spec.procFrom n x f s (n - 1 - i) ∧
        Spec.paramFrom n x f v (len i - 1) < Spec.paramFrom n x f v (n - 1 - i))) := by
  intro x
  have h1 := h.one i hin
  have h2 := h.len_le hin
  obtain ⟨r', b, lab, e1, e2, e3, -, e4, e5, e6, e7, e8, -⟩ :=
    h.mackCore (fun i hi j hj => (hc i hi j hj).ne') hi hn alpha hw
  rw [hr] at e1
  have e1' : r = r' := by injection e1
  subst e1'
  have hcell : ∀ j < n, r.sqr.tri.cell i j = .fin (x j) := by
    intro j hj
    have hq := baseFromLdfs_sqr e3
    rw [← e4] at hq
    unfold trisqrdOf at hq
    have hti := Tri.triind_ok h.colsObserved
    rw [hti] at hq
    have hlen : r.ldfs.length = n := by rw [e2]; simp; omega
    have hne : ¬ (r.ldfs.length < t.nc - 1 ∨ r.ldfs = []) := by
      rw [hlen, h.nc]
      intro e
      rcases e with e | e
      · omega
      · rw [e] at hlen; simp at hlen; omega
    simp only [bind, Except.bind] at hq
    rw [if_neg hne] at hq
    injection hq with hq
    rw [← hq]
    show sqrCell t _ i j = _
    exact h.sqrCell f (fun k hk => hf k (by omega)) hin j hj
  have hp := processError_any (S := r.devpvar.iloc) hcell hf hs hin
  have hq := parameterError_any (V := r.ldfvar.iloc) hcell hf hv hin
  rw [← e7] at hp
  rw [← e8] at hq
  refine ⟨hcell, hp, hq, ?_, ?_⟩
  · intro e
    rw [show len i - 1 = n - 1 - i by omega]
    exact ⟨hp, hq⟩
  · intro hpos
    have hx : ∀ k < n, 0 < x k := by
      intro k hk
      show 0 < Spec.sqAt len c f i k
      unfold Spec.sqAt
      split_ifs with e
      · exact hc i hin k e
      · refine mul_pos (hc i hin _ (by omega)) (Finset.prod_pos ?_)
        intro l hl
        rw [Finset.mem_Ico] at hl
        exact (hpos l (by omega)).1
    have g1 : ∀ k < n - 1, 0 < x k * s k * ∏ l ∈ Finset.Ico (k + 1) (n - 1), f l ^ 2 := by
      intro k hk
      refine mul_pos (mul_pos (hx k (by omega)) (hpos k hk).2.1) (Finset.prod_pos ?_)
      intro l hl
      rw [Finset.mem_Ico] at hl
      exact pow_pos (hpos l (by omega)).1 2
    have g2 : ∀ k < n - 1, 0 < x k ^ 2 * v k * ∏ l ∈ Finset.Ico (k + 1) (n - 1), (f l ^ 2 + v l) := by
      intro k hk
      refine mul_pos (mul_pos (pow_pos (hx k (by omega)) 2) (hpos k hk).2.2) (Finset.prod_pos ?_)
      intro l hl
      rw [Finset.mem_Ico] at hl
      exact add_pos (pow_pos (hpos l (by omega)).1 2) (hpos l (by omega)).2.2
    exact ⟨fun e => ⟨sum_Ico_lt g1 (by omega) (by omega), sum_Ico_lt g2 (by omega) (by omega)⟩,
      fun e => ⟨sum_Ico_lt g1 (by omega) (by omega), sum_Ico_lt g2 (by omega) (by omega)⟩⟩

/-- C132 is violated: the third origin has reported two periods, so three are still to come, but its
process error, about 80.5, covers two; with the reported factors and variances three periods give
102.1. -/
theorem C132_fails :
    (mackCore 1 lateTri5 lateTri5.a2aind0).map (fun r => ((List.range 4).map r.ldfs.iloc,
        (List.range 4).map r.devpvar.iloc, r.procErr.getD 2 .nan)) =
      .ok ((List.range 4).map (fun j => .fin (([35 / 23, 38 / 31, 102 / 95, 100 / 99] : List ℚ).getD j 0)),
        (List.range 4).map (fun j => .fin (([20435 / 59202, 3 / 31, 9 / 38, 3 / 31] : List ℚ).getD j 0)),
        .fin (84225784 / 1046529)) ∧
    Spec.procFrom 5 (Spec.sqAt lateLen5 lateVals5
        (fun j => ([35 / 23, 38 / 31, 102 / 95, 100 / 99] : List ℚ).getD j 0) 2)
      (fun j => ([35 / 23, 38 / 31, 102 / 95, 100 / 99] : List ℚ).getD j 0)
      (fun j => ([20435 / 59202, 3 / 31, 9 / 38, 3 / 31] : List ℚ).getD j 0) (lateLen5 2 - 1) =
      2030321896 / 19884051 := by
  constructor <;> decide +kernel

end Trikit
