import Verif.MackTests
import Verif.Props.Diag2
import Mathlib.Probability.Distributions.Gaussian.Real
import Mathlib.Probability.CDF

/-!
# The two tests of the Mack result (C87, C88)
-/

set_option linter.unusedSectionVars false

namespace Trikit

open MeasureTheory ProbabilityTheory Set

/-- Distribution function of the standard normal law. -/
noncomputable def Spec.stdCdf (x : ℝ) : ℝ := (gaussianReal 0 1).real (Iic x)

instance : NullSingletonClass (gaussianReal 0 1) :=
  ⟨fun x => gaussianReal_absolutelyContinuous 0 one_ne_zero (by simp)⟩

theorem stdCdf_sub {a b : ℝ} (h : a ≤ b) :
    (gaussianReal 0 1).real (Icc a b) = Spec.stdCdf b - Spec.stdCdf a := by
  have e : Ioc a b = Iic b \ Iic a := by ext x; simp [and_comm]
  have e2 : (gaussianReal 0 1).real (Icc a b) = (gaussianReal 0 1).real (Ioc a b) := by
    unfold Measure.real
    rw [measure_congr Ioc_ae_eq_Icc]
  rw [e2, e, measureReal_sdiff (Iic_subset_Iic.2 h) measurableSet_Iic]
  rfl

theorem stdCdf_strictMono : StrictMono Spec.stdCdf := by
  intro a b h
  have h1 := stdCdf_sub h.le
  have h2 : 0 < (gaussianReal 0 1).real (Icc a b) := by
    rw [Measure.real, ENNReal.toReal_pos_iff]
    refine ⟨?_, measure_lt_top _ _⟩
    rw [pos_iff_ne_zero]
    intro h0
    have := gaussianReal_absolutelyContinuous' 0 one_ne_zero h0
    rw [Real.volume_Icc, ENNReal.ofReal_eq_zero] at this
    linarith
  linarith

theorem stdCdf_neg (x : ℝ) : Spec.stdCdf (-x) = 1 - Spec.stdCdf x := by
  have h1 : (gaussianReal 0 1).real (Iic (-x)) = (gaussianReal 0 1).real (Ici x) := by
    unfold Measure.real
    have hm : (gaussianReal 0 1).map (fun y => -y) = gaussianReal 0 1 := by
      rw [gaussianReal_map_neg, neg_zero]
    conv_lhs => rw [← hm]
    rw [Measure.map_apply (by fun_prop) measurableSet_Iic]
    congr 2
    ext y; simp
  have h2 : (gaussianReal 0 1).real (Ici x) = (gaussianReal 0 1).real (Ioi x) := by
    unfold Measure.real
    rw [measure_congr Ioi_ae_eq_Ici]
  unfold Spec.stdCdf
  rw [h1, h2, ← compl_Iic, probReal_compl_eq_one_sub measurableSet_Iic]

theorem stdCdf_zero : Spec.stdCdf 0 = 1 / 2 := by
  have := stdCdf_neg 0
  rw [neg_zero] at this
  linarith

/-- Central intervals of a normal law. -/
theorem normal_interval (m : ℝ) {σ z : ℝ} (hσ : 0 < σ) (hz : 0 ≤ z) :
    (gaussianReal m (Real.toNNReal (σ ^ 2))).real (Icc (m - z * σ) (m + z * σ)) =
      Spec.stdCdf z - Spec.stdCdf (-z) := by
  rw [← stdCdf_sub (by linarith)]
  have h1 : (gaussianReal 0 1).map (fun x => σ * x) = gaussianReal 0 (Real.toNNReal (σ ^ 2)) := by
    rw [gaussianReal_map_const_mul]
    congr 1
    · simp
    · rw [mul_one]; ext; simp [Real.coe_toNNReal _ (sq_nonneg σ)]
  have h2 : (gaussianReal 0 (Real.toNNReal (σ ^ 2))).map (fun x => x + m) =
      gaussianReal m (Real.toNNReal (σ ^ 2)) := by
    rw [gaussianReal_map_add_const, zero_add]
  unfold Measure.real
  rw [← h2, ← h1, Measure.map_apply (by fun_prop) measurableSet_Icc,
    Measure.map_apply (by fun_prop) ((by fun_prop : Measurable (fun x : ℝ => x + m)) measurableSet_Icc)]
  congr 2
  ext x
  simp only [mem_preimage, mem_Icc]
  constructor
  · rintro ⟨h3, h4⟩
    constructor <;> nlinarith
  · rintro ⟨h3, h4⟩
    constructor <;> nlinarith

/-! ## C87 -/

/-- **C87**: on a staircase of at least four periods the interval of the correlation test is symmetric
about 0, the statistic lies between -1 and 1, and under the normal law with mean 0 and variance
`2 / ((n-2)(n-3))` the interval has the probability `p` asked for; two exact solutions of the solver's
equation are equal, so the interval does not depend on the random start. -/
theorem C87_interval {t : Tri ℝ} {n : ℕ} {c : ℕ → ℕ → ℝ} (h : Spec.Stair t n c)
    (hc : ∀ i j, i + j < n → c i j ≠ 0) (hn : 4 ≤ n) {p z : ℝ} (hp : 0 ≤ p)
    (hz : Spec.stdCdf z - Spec.stdCdf (-z) = p) :
    ∃ u x : ℝ, devpCorrTest t z = .ok ((.fin (-u), .fin u), .fin x) ∧ 0 ≤ u ∧ -1 ≤ x ∧ x ≤ 1 ∧
      (gaussianReal 0 (Real.toNNReal (2 / (((n : ℝ) - 2) * ((n : ℝ) - 3))))).real (Icc (-u) u) = p := by
  obtain ⟨-, x, hx, hx1, hx2⟩ := C64_bounds h hc hn
  have hn' : (4 : ℝ) ≤ n := by exact_mod_cast hn
  have hv : devpCorrVar t = ((n : ℝ) - 2) * ((n : ℝ) - 3) / 2 := by
    unfold devpCorrVar
    rw [h.nc]; push_cast; ring
  have hpos : 0 < ((n : ℝ) - 2) * ((n : ℝ) - 3) / 2 := by
    apply div_pos (mul_pos _ _) <;> linarith
  set s := Real.sqrt (((n : ℝ) - 2) * ((n : ℝ) - 3) / 2) with hs
  have hs0 : 0 < s := Real.sqrt_pos.2 hpos
  have hz0 : 0 ≤ z := by
    by_contra hneg
    push Not at hneg
    have := stdCdf_strictMono (show z < -z by linarith)
    linarith
  refine ⟨z / s, x, ?_, div_nonneg hz0 hs0.le, hx1, hx2, ?_⟩
  · unfold devpCorrTest
    rw [hx, hv, Num.sqrt_fin hpos.le, ← hs]
    simp only [bind, Except.bind]
    rw [Num.fin_div _ _ hs0.ne', Num.fin_div _ _ hs0.ne', neg_div]
  · have key := normal_interval 0 (σ := 1 / s) (z := z) (by positivity) hz0
    have e : (1 / s) ^ 2 = 2 / (((n : ℝ) - 2) * ((n : ℝ) - 3)) := by
      rw [div_pow, hs, Real.sq_sqrt hpos.le, one_pow, one_div_div]
    rw [e, hz] at key
    rw [← key]
    congr 1
    rw [zero_sub, zero_add, mul_one_div]

/-- **C87**: the solution of the solver's equation is unique. -/
theorem C87_unique {p z z' : ℝ} (hz : Spec.stdCdf z - Spec.stdCdf (-z) = p)
    (hz' : Spec.stdCdf z' - Spec.stdCdf (-z') = p) : z = z' := by
  rw [stdCdf_neg] at hz hz'
  exact stdCdf_strictMono.injective (by linarith)

/-- Solutions exist for `p = 0` at least. -/
example : Spec.stdCdf 0 - Spec.stdCdf (-0) = 0 := by simp

/-! ## C88 -/

theorem sumSkip_fin_nonneg (l : List (Num ℝ)) (h : ∀ v ∈ l, v = .nan ∨ ∃ x : ℝ, v = .fin x ∧ 0 ≤ x) :
    ∃ x : ℝ, Num.sumSkip l = .fin x ∧ 0 ≤ x := by
  induction l with
  | nil => exact ⟨0, rfl, le_refl _⟩
  | cons a l ih =>
    obtain ⟨x, hx, h0⟩ := ih (fun v hv => h v (List.mem_cons_of_mem _ hv))
    rcases h a (List.mem_cons_self) with rfl | ⟨y, rfl, hy⟩
    · rw [Num.sumSkip_cons_nan]; exact ⟨x, hx, h0⟩
    · rw [Num.sumSkip_cons_fin, hx, Num.fin_add]; exact ⟨y + x, rfl, add_nonneg hy h0⟩

theorem cyLoop_moments (t : Tri ℝ) (m : ℕ) (lvi : List (Int × Int)) :
    ∀ r ∈ cyLoop t m lvi, r.E = cyMean r.n ∧ r.V = cyVar r.n := by
  induction m generalizing lvi with
  | zero => intro r hr; cases hr
  | succ m ih =>
    intro r hr
    rw [cyLoop] at hr
    rcases List.mem_cons.1 hr with rfl | hr
    · exact ⟨rfl, rfl⟩
    · exact ih _ r hr

theorem cyTable_moments {t : Tri ℝ} {rows : List (CyRow ℝ)} (hr : cyTable t = .ok rows) :
    ∀ r ∈ rows, r.E = cyMean r.n ∧ r.V = cyVar r.n := by
  unfold cyTable at hr
  simp only [bind, Except.bind] at hr
  split at hr
  · exact absurd hr (by simp)
  · split at hr
    · exact absurd hr (by simp)
    · intro r hrr
      have : (cyLoop t (t.a2a.nc - 1) ((a2aLvi t).zip t.a2a.devs)).reverse = rows := by simpa using hr
      rw [← this, List.mem_reverse] at hrr
      exact cyLoop_moments _ _ _ r hrr

/-- **C88**: the totals used by the test are finite numbers, variance and mean not negative, whenever
the table can be built. -/
theorem C88_totals {t : Tri ℝ} {n : ℕ} {c : ℕ → ℕ → ℝ} (h : Spec.Stair t n c)
    (hc : ∀ i j, i + j < n → c i j ≠ 0) {rows : List (CyRow ℝ)} (hr : cyTable t = .ok rows) :
    ∃ E V : ℝ, cyTotals t = .ok ((rows.map CyRow.Z).sum, .fin E, .fin V) ∧ 0 ≤ E ∧ 0 ≤ V := by
  have hC := (C76 h hc hr).2
  have hE : ∀ r ∈ rows, (r.E = .nan ∨ ∃ x : ℝ, r.E = .fin x ∧ 0 ≤ x) ∧
      (r.V = .nan ∨ ∃ x : ℝ, r.V = .fin x ∧ 0 ≤ x) := by
    intro r hrr
    obtain ⟨-, -, -, -, -, h6⟩ := hC r hrr
    by_cases h1 : 1 ≤ r.n
    · obtain ⟨hE, hV⟩ := h6 h1
      refine ⟨Or.inr ⟨_, hE, ?_⟩, Or.inr ⟨_, hV, ?_⟩⟩
      · unfold Spec.binExp
        refine div_nonneg (Finset.sum_nonneg (fun s _ => mul_nonneg (by positivity) ?_)) (by positivity)
        unfold Spec.smaller
        positivity
      · unfold Spec.binExp
        exact div_nonneg (Finset.sum_nonneg (fun s _ => mul_nonneg (by positivity) (sq_nonneg _)))
          (by positivity)
    · obtain ⟨e1, e2⟩ := cyTable_moments hr r hrr
      have h0 : r.n = 0 := by omega
      rw [h0] at e1 e2
      exact ⟨Or.inl (by rw [e1]; exact C65_empty.1), Or.inl (by rw [e2]; exact C65_empty.2)⟩
  obtain ⟨E, hE', hE0⟩ := sumSkip_fin_nonneg (rows.map CyRow.E) (by
    intro v hv
    obtain ⟨r, hr', rfl⟩ := List.mem_map.1 hv
    exact (hE r hr').1)
  obtain ⟨V, hV', hV0⟩ := sumSkip_fin_nonneg (rows.map CyRow.V) (by
    intro v hv
    obtain ⟨r, hr', rfl⟩ := List.mem_map.1 hv
    exact (hE r hr').2)
  refine ⟨E, V, ?_, hE0, hV0⟩
  unfold cyTotals
  rw [hr]
  simp only [bind, Except.bind]
  rw [hE', hV']

/-- **C88**: with mean `E` and variance `V > 0` of the table and `q` the exact normal quantile of `p / 2`,
the interval of the calendar year test is centered at `E` and has probability `1 - p` under the normal
law with this mean and variance. -/
theorem C88_interval {t : Tri ℝ} {Z : ℕ} {E V : ℝ} (ht : cyTotals t = .ok (Z, .fin E, .fin V)) (hV : 0 < V)
    {p q : ℝ} (hp : p ≤ 1) (hq : Spec.stdCdf q = p / 2) :
    ∃ d : ℝ, cyTest t q = .ok ((.fin (E - d), .fin (E + d)), Z) ∧ 0 ≤ d ∧
      (gaussianReal E (Real.toNNReal V)).real (Icc (E - d) (E + d)) = 1 - p := by
  have hσ : 0 < Real.sqrt V := Real.sqrt_pos.2 hV
  have hq0 : q ≤ 0 := by
    by_contra hneg
    push Not at hneg
    have := stdCdf_strictMono hneg
    rw [stdCdf_zero] at this
    linarith
  refine ⟨|q| * Real.sqrt V, ?_, by positivity, ?_⟩
  · unfold cyTest
    rw [ht]
    simp only [bind, Except.bind]
    rw [Num.sqrt_fin hV.le, Num.fin_mul, Num.fin_sub, Num.fin_add]
  · have key := normal_interval E hσ (abs_nonneg q)
    rw [Real.sq_sqrt hV.le] at key
    rw [key, stdCdf_neg, abs_of_nonpos hq0, stdCdf_neg, hq]
    ring

/-- **C88**: a smaller error probability gives a wider interval. -/
theorem C88_nested {t : Tri ℝ} {Z : ℕ} {E V : ℝ} (ht : cyTotals t = .ok (Z, .fin E, .fin V)) (hV : 0 ≤ V)
    {p p' q q' : ℝ} (hpp : p ≤ p') (hp : p' ≤ 1) (hq : Spec.stdCdf q = p / 2) (hq' : Spec.stdCdf q' = p' / 2) :
    ∃ lo hi lo' hi' : ℝ, cyTest t q = .ok ((.fin lo, .fin hi), Z) ∧
      cyTest t q' = .ok ((.fin lo', .fin hi'), Z) ∧ lo ≤ lo' ∧ lo' ≤ E ∧ E ≤ hi' ∧ hi' ≤ hi := by
  have hq0 : q' ≤ 0 := by
    by_contra hneg
    push Not at hneg
    have := stdCdf_strictMono hneg
    rw [stdCdf_zero] at this
    linarith
  have hqq : q ≤ q' := by
    by_contra hneg
    push Not at hneg
    have := stdCdf_strictMono hneg
    linarith
  have hs := Real.sqrt_nonneg V
  have val : ∀ x : ℝ, cyTest t x = .ok ((.fin (E - |x| * Real.sqrt V), .fin (E + |x| * Real.sqrt V)), Z) := by
    intro x
    unfold cyTest
    rw [ht]
    simp only [bind, Except.bind]
    rw [Num.sqrt_fin hV, Num.fin_mul, Num.fin_sub, Num.fin_add]
  have h1 : |q'| * Real.sqrt V ≤ |q| * Real.sqrt V := by
    apply mul_le_mul_of_nonneg_right _ hs
    rw [abs_of_nonpos hq0, abs_of_nonpos (by linarith)]
    linarith
  have h2 : 0 ≤ |q'| * Real.sqrt V := by positivity
  exact ⟨_, _, _, _, val q, val q', by linarith, by linarith, by linarith, by linarith⟩

/-- The totals of the 4 x 4 example: two diagonals with one small and one large link ratio each. -/
example : cyTotals exTri = .ok (2, .fin 1, .fin (1 / 2)) := by decide +kernel

end Trikit
