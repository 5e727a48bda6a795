import Verif.Props.Boot
import Verif.Props.Influence
import Mathlib.Analysis.SpecialFunctions.Log.Deriv
import Mathlib.Analysis.Calculus.LocalExtr.Basic

/-!
# Chain ladder as maximum likelihood estimate (C125)

The bootstrap resamples around the fit of the over-dispersed Poisson model, in which the increment of origin `i` in
period `j` has mean `a i * b j`.  The fitted triangle and the reserves are the maximum likelihood ones.
-/

set_option linter.unusedSectionVars false

namespace Trikit

/-! ## Specification -/

/-- Log-likelihood of the increments `x` of a staircase under independent Poisson increments with means `a i * b j`, up
to a term that does not depend on `a` and `b`.  With a dispersion parameter it is divided by that parameter. -/
noncomputable def Spec.poissonLik (n : ℕ) (x : ℕ → ℕ → ℝ) (a b : ℕ → ℝ) : ℝ :=
  ∑ i ∈ Finset.range n, ∑ j ∈ Finset.range (n - i), (x i j * Real.log (a i * b j) - a i * b j)

/-- The positive parameters `a` and `b` maximise the likelihood. -/
structure Spec.IsMle (n : ℕ) (x : ℕ → ℕ → ℝ) (a b : ℕ → ℝ) : Prop where
  pos_a : ∀ i < n, 0 < a i
  pos_b : ∀ j < n, 0 < b j
  max : ∀ a' b' : ℕ → ℝ, (∀ i < n, 0 < a' i) → (∀ j < n, 0 < b' j) →
    Spec.poissonLik n x a' b' ≤ Spec.poissonLik n x a b

/-! ## Sums over a staircase -/

variable {n : ℕ}

theorem stair_comm (f : ℕ → ℕ → ℝ) :
    ∑ i ∈ Finset.range n, ∑ j ∈ Finset.range (n - i), f i j =
      ∑ j ∈ Finset.range n, ∑ i ∈ Finset.range (n - j), f i j := by
  apply Finset.sum_comm'
  intro i j
  simp only [Finset.mem_range]
  omega

/-- Equal margins: the sums against additive weights agree. -/
theorem stair_additive {x y : ℕ → ℕ → ℝ}
    (hr : ∀ i < n, ∑ j ∈ Finset.range (n - i), x i j = ∑ j ∈ Finset.range (n - i), y i j)
    (hc : ∀ j < n, ∑ i ∈ Finset.range (n - j), x i j = ∑ i ∈ Finset.range (n - j), y i j) (u v : ℕ → ℝ) :
    ∑ i ∈ Finset.range n, ∑ j ∈ Finset.range (n - i), x i j * (u i + v j) =
      ∑ i ∈ Finset.range n, ∑ j ∈ Finset.range (n - i), y i j * (u i + v j) := by
  have e : ∀ z : ℕ → ℕ → ℝ, ∑ i ∈ Finset.range n, ∑ j ∈ Finset.range (n - i), z i j * (u i + v j) =
      ∑ i ∈ Finset.range n, (∑ j ∈ Finset.range (n - i), z i j) * u i +
        ∑ j ∈ Finset.range n, (∑ i ∈ Finset.range (n - j), z i j) * v j := by
    intro z
    have h1 : ∑ j ∈ Finset.range n, (∑ i ∈ Finset.range (n - j), z i j) * v j =
        ∑ i ∈ Finset.range n, ∑ j ∈ Finset.range (n - i), z i j * v j := by
      rw [stair_comm]
      exact Finset.sum_congr rfl (fun j _ => Finset.sum_mul _ _ _)
    rw [h1, ← Finset.sum_add_distrib]
    refine Finset.sum_congr rfl (fun i _ => ?_)
    rw [Finset.sum_mul, ← Finset.sum_add_distrib]
    exact Finset.sum_congr rfl (fun j _ => by ring)
  rw [e x, e y]
  congr 1
  · exact Finset.sum_congr rfl (fun i hi => by rw [hr i (Finset.mem_range.1 hi)])
  · exact Finset.sum_congr rfl (fun j hj => by rw [hc j (Finset.mem_range.1 hj)])

/-! ## Means with the margins of the data maximise the likelihood -/

theorem poisson_cell {m m' : ℝ} (h : 0 < m) (h' : 0 < m') : m * (Real.log m' - Real.log m) ≤ m' - m := by
  have h1 := Real.log_le_sub_one_of_pos (div_pos h' h)
  rw [Real.log_div h'.ne' h.ne'] at h1
  have h2 := mul_le_mul_of_nonneg_left h1 h.le
  have h3 : m * (m' / m - 1) = m' - m := by field_simp
  linarith

theorem mle_of_margins {x : ℕ → ℕ → ℝ} {a b : ℕ → ℝ} (ha : ∀ i < n, 0 < a i) (hb : ∀ j < n, 0 < b j)
    (hr : ∀ i < n, ∑ j ∈ Finset.range (n - i), a i * b j = ∑ j ∈ Finset.range (n - i), x i j)
    (hc : ∀ j < n, ∑ i ∈ Finset.range (n - j), a i * b j = ∑ i ∈ Finset.range (n - j), x i j) :
    Spec.IsMle n x a b := by
  refine ⟨ha, hb, fun a' b' ha' hb' => ?_⟩
  have e : Spec.poissonLik n x a' b' - Spec.poissonLik n x a b =
      ∑ i ∈ Finset.range n, ∑ j ∈ Finset.range (n - i), (a i * b j *
        (Real.log (a' i * b' j) - Real.log (a i * b j)) - (a' i * b' j - a i * b j)) := by
    have h1 := stair_additive (x := x) (y := fun i j => a i * b j) (fun i hi => (hr i hi).symm)
      (fun j hj => (hc j hj).symm) (fun i => Real.log (a' i) - Real.log (a i)) (fun j => Real.log (b' j) - Real.log (b j))
    have h2 : ∀ z : ℕ → ℕ → ℝ, ∑ i ∈ Finset.range n, ∑ j ∈ Finset.range (n - i), z i j *
        (Real.log (a' i * b' j) - Real.log (a i * b j)) =
        ∑ i ∈ Finset.range n, ∑ j ∈ Finset.range (n - i), z i j *
          ((Real.log (a' i) - Real.log (a i)) + (Real.log (b' j) - Real.log (b j))) := by
      intro z
      refine Finset.sum_congr rfl (fun i hi => Finset.sum_congr rfl (fun j hj => ?_))
      rw [Finset.mem_range] at hi hj
      rw [Real.log_mul (ha' i hi).ne' (hb' j (by omega)).ne', Real.log_mul (ha i hi).ne' (hb j (by omega)).ne']
      ring
    have h3 : Spec.poissonLik n x a' b' - Spec.poissonLik n x a b =
        ∑ i ∈ Finset.range n, ∑ j ∈ Finset.range (n - i), x i j * (Real.log (a' i * b' j) - Real.log (a i * b j)) -
        ∑ i ∈ Finset.range n, ∑ j ∈ Finset.range (n - i), (a' i * b' j - a i * b j) := by
      unfold Spec.poissonLik
      simp only [← Finset.sum_sub_distrib]
      exact Finset.sum_congr rfl (fun i _ => Finset.sum_congr rfl (fun j _ => by ring))
    rw [h3, h2 x, h1, ← h2 (fun i j => a i * b j)]
    simp only [← Finset.sum_sub_distrib]
  have h0 : Spec.poissonLik n x a' b' - Spec.poissonLik n x a b ≤ 0 := by
    rw [e]
    apply Finset.sum_nonpos
    intro i hi
    apply Finset.sum_nonpos
    intro j hj
    rw [Finset.mem_range] at hi hj
    have := poisson_cell (mul_pos (ha i hi) (hb j (by omega))) (mul_pos (ha' i hi) (hb' j (by omega)))
    linarith
  linarith

/-! ## A maximum has the margins of the data -/

theorem log_bound_eq {X M : ℝ} (h : ∀ s : ℝ, 0 < s → X * Real.log s - M * (s - 1) ≤ 0) : M = X := by
  have hd : HasDerivAt (fun s : ℝ => X * Real.log s - M * (s - 1)) (X * 1⁻¹ - M * 1) 1 :=
    ((Real.hasDerivAt_log one_ne_zero).const_mul X).sub (((hasDerivAt_id 1).sub_const 1).const_mul M)
  have hm : IsLocalMax (fun s : ℝ => X * Real.log s - M * (s - 1)) 1 := by
    filter_upwards [lt_mem_nhds (show (0 : ℝ) < 1 by norm_num)] with s hs
    simpa using h s hs
  have := hm.hasDerivAt_eq_zero hd
  rw [inv_one, mul_one, mul_one] at this
  linarith

theorem Spec.IsMle.row {x : ℕ → ℕ → ℝ} {a b : ℕ → ℝ} (h : Spec.IsMle n x a b) {i₀ : ℕ} (hi : i₀ < n) :
    ∑ j ∈ Finset.range (n - i₀), a i₀ * b j = ∑ j ∈ Finset.range (n - i₀), x i₀ j := by
  apply log_bound_eq
  intro s hs
  have hm := h.max (Function.update a i₀ (s * a i₀)) b (by
    intro i hi'
    by_cases e : i = i₀
    · rw [e, Function.update_self]; exact mul_pos hs (h.pos_a i₀ hi)
    · rw [Function.update_of_ne e]; exact h.pos_a i hi') h.pos_b
  have e : Spec.poissonLik n x (Function.update a i₀ (s * a i₀)) b - Spec.poissonLik n x a b =
      (∑ j ∈ Finset.range (n - i₀), x i₀ j) * Real.log s - (∑ j ∈ Finset.range (n - i₀), a i₀ * b j) * (s - 1) := by
    unfold Spec.poissonLik
    rw [← Finset.sum_sub_distrib, Finset.sum_eq_single i₀]
    · rw [← Finset.sum_sub_distrib, Finset.sum_mul, Finset.sum_mul, ← Finset.sum_sub_distrib]
      refine Finset.sum_congr rfl (fun j hj => ?_)
      rw [Finset.mem_range] at hj
      have h1 := h.pos_a i₀ hi
      have h2 := h.pos_b j (by omega)
      rw [Function.update_self, mul_assoc s, Real.log_mul hs.ne' (mul_pos h1 h2).ne']
      ring
    · intro i _ hne
      rw [Function.update_of_ne hne, sub_self]
    · intro hni
      exact absurd (Finset.mem_range.2 hi) hni
  linarith

theorem Spec.poissonLik_comm (x : ℕ → ℕ → ℝ) (a b : ℕ → ℝ) :
    Spec.poissonLik n x a b = Spec.poissonLik n (fun i j => x j i) b a := by
  unfold Spec.poissonLik
  rw [stair_comm]
  exact Finset.sum_congr rfl (fun i _ => Finset.sum_congr rfl (fun j _ => by rw [mul_comm (a j)]))

theorem Spec.IsMle.swap {x : ℕ → ℕ → ℝ} {a b : ℕ → ℝ} (h : Spec.IsMle n x a b) :
    Spec.IsMle n (fun i j => x j i) b a :=
  ⟨h.pos_b, h.pos_a, fun a' b' ha hb => by
    have := h.max b' a' hb ha
    rwa [Spec.poissonLik_comm x b' a', Spec.poissonLik_comm x a b] at this⟩

theorem Spec.IsMle.col {x : ℕ → ℕ → ℝ} {a b : ℕ → ℝ} (h : Spec.IsMle n x a b) {j : ℕ} (hj : j < n) :
    ∑ i ∈ Finset.range (n - j), a i * b j = ∑ i ∈ Finset.range (n - j), x i j := by
  have := h.swap.row hj
  rw [← this]
  exact Finset.sum_congr rfl (fun i _ => mul_comm _ _)

/-! ## Means with the margins of the data are the chain ladder ones -/

variable {c : ℕ → ℕ → ℝ} {a b : ℕ → ℝ}

theorem margins_cols (hr : ∀ i < n, a i * ∑ k ∈ Finset.range (n - i), b k = c i (n - 1 - i))
    (hc : ∀ j < n, (∑ i ∈ Finset.range (n - j), a i) * b j = ∑ i ∈ Finset.range (n - j), Spec.incr c i j) :
    ∀ k j, j + k + 1 = n →
      (∑ i ∈ Finset.range (n - j), a i) * ∑ k ∈ Finset.range (j + 1), b k = ∑ i ∈ Finset.range (n - j), c i j ∧
      (∑ i ∈ Finset.range (n - 1 - j), a i) * ∑ k ∈ Finset.range (j + 1), b k =
        ∑ i ∈ Finset.range (n - 1 - j), c i j := by
  intro k
  induction k with
  | zero =>
    intro j hj
    obtain rfl : j = n - 1 := by omega
    have := hr 0 (by omega)
    rw [show n - (n - 1) = 1 by omega, show n - 1 - (n - 1) = 0 by omega, show n - 1 + 1 = n by omega]
    simpa using this
  | succ k ih =>
    intro j hj
    obtain ⟨h1, -⟩ := ih (j + 1) (by omega)
    have h2 := hc (j + 1) (by omega)
    rw [show n - (j + 1) = n - 1 - j by omega] at h1 h2
    have h3 : ∑ i ∈ Finset.range (n - 1 - j), Spec.incr c i (j + 1) =
        ∑ i ∈ Finset.range (n - 1 - j), c i (j + 1) - ∑ i ∈ Finset.range (n - 1 - j), c i j := by
      rw [← Finset.sum_sub_distrib]
      exact Finset.sum_congr rfl (fun i _ => by simp [Spec.incr])
    have h4 : (∑ i ∈ Finset.range (n - 1 - j), a i) * ∑ k ∈ Finset.range (j + 1), b k =
        ∑ i ∈ Finset.range (n - 1 - j), c i j := by
      rw [Finset.sum_range_succ _ (j + 1)] at h1
      rw [h3] at h2
      linarith [mul_add (∑ i ∈ Finset.range (n - 1 - j), a i) (∑ k ∈ Finset.range (j + 1), b k) (b (j + 1))]
    refine ⟨?_, h4⟩
    have h5 := hr (n - 1 - j) (by omega)
    rw [show n - (n - 1 - j) = j + 1 by omega, show n - 1 - (n - 1 - j) = j by omega] at h5
    rw [show n - j = n - 1 - j + 1 by omega, Finset.sum_range_succ a, Finset.sum_range_succ (fun i => c i j), add_mul, h4,
      h5]

theorem Spec.IsMle.row' (h : Spec.IsMle n (Spec.incr c) a b) {i : ℕ} (hi : i < n) :
    a i * ∑ k ∈ Finset.range (n - i), b k = c i (n - 1 - i) := by
  have := h.row hi
  rw [← Finset.mul_sum, show n - i = n - 1 - i + 1 by omega, incr_sum] at this
  rw [show n - i = n - 1 - i + 1 by omega, this]

theorem Spec.IsMle.cum_succ (h : Spec.IsMle n (Spec.incr c) a b) (hp : Spec.Positive n c) {j : ℕ} (hj : j + 1 < n) :
    ∑ k ∈ Finset.range (j + 2), b k = Spec.wFactor n c j * ∑ k ∈ Finset.range (j + 1), b k := by
  have hcol : ∀ j < n, (∑ i ∈ Finset.range (n - j), a i) * b j = ∑ i ∈ Finset.range (n - j), Spec.incr c i j :=
    fun j hj => by rw [Finset.sum_mul]; exact h.col hj
  have h1 := (margins_cols (fun i hi => h.row' hi) hcol (n - 2 - j) (j + 1) (by omega)).1
  have h2 := (margins_cols (fun i hi => h.row' hi) hcol (n - 1 - j) j (by omega)).2
  rw [show n - (j + 1) = n - 1 - j by omega] at h1
  have hA : 0 < ∑ i ∈ Finset.range (n - 1 - j), a i := by
    apply Finset.sum_pos
    · intro i hi
      rw [Finset.mem_range] at hi
      exact h.pos_a i (by omega)
    · exact ⟨0, Finset.mem_range.2 (by omega)⟩
  have hs := wSum_pos hp (show j < n - 1 by omega) (Nat.zero_le 1)
  simp only [Nat.add_zero] at hs
  unfold Spec.wFactor
  rw [← h1, ← h2]
  rw [← h2] at hs
  have hB := (pos_iff_pos_of_mul_pos hs).1 hA
  field_simp

theorem Spec.IsMle.cum (h : Spec.IsMle n (Spec.incr c) a b) (hp : Spec.Positive n c) {i : ℕ} (hi : i < n) :
    ∀ j, n ≤ i + j + 1 → j < n → a i * ∑ k ∈ Finset.range (j + 1), b k =
      c i (n - 1 - i) * ∏ m ∈ Finset.Ico (n - 1 - i) j, Spec.wFactor n c m := by
  intro j
  induction j with
  | zero =>
    intro h1 h2
    have := h.row' hi
    rw [show n - i = 1 by omega] at this
    rw [show n - 1 - i = 0 by omega] at this ⊢
    simpa using this
  | succ j ih =>
    intro h1 h2
    by_cases e : n ≤ i + j + 1
    · rw [h.cum_succ hp (by omega), Finset.prod_Ico_succ_top (by omega), ← mul_assoc (c i (n - 1 - i)), ← ih e (by omega)]
      ring
    · have := h.row' hi
      rw [show n - i = j + 1 + 1 by omega, show n - 1 - i = j + 1 by omega] at this
      rw [show n - 1 - i = j + 1 by omega]
      simpa using this

theorem Spec.IsMle.fit (h : Spec.IsMle n (Spec.incr c) a b) (hp : Spec.Positive n c) {i : ℕ} :
    ∀ k j, i + j + k + 1 = n → a i * ∑ k ∈ Finset.range (j + 1), b k = Spec.fitCum n c i j := by
  intro k
  induction k with
  | zero =>
    intro j hj
    have := h.row' (show i < n by omega)
    obtain rfl : j = n - 1 - i := by omega
    rw [fitCum_latest, ← this, show n - 1 - i + 1 = n - i by omega]
  | succ k ih =>
    intro j hj
    have h1 := ih (j + 1) (by omega)
    rw [h.cum_succ hp (by omega), fitCum_succ hp (by omega)] at h1
    have hf := wFactor_pos hp (show j < n - 1 by omega)
    apply mul_right_cancel₀ hf.ne'
    rw [← h1]
    ring

theorem Spec.IsMle.fit_incr (h : Spec.IsMle n (Spec.incr c) a b) (hp : Spec.Positive n c) {i j : ℕ} (hij : i + j < n) :
    a i * b j = Spec.incr (Spec.fitCum n c) i j := by
  have h1 := h.fit hp (i := i) (n - 1 - i - j) j (by omega)
  unfold Spec.incr
  by_cases e : j = 0
  · subst e
    simpa using h1
  · have h2 := h.fit hp (i := i) (n - i - j) (j - 1) (by omega)
    rw [if_neg e, ← h1, ← h2, show j - 1 + 1 = j by omega, Finset.sum_range_succ]
    ring

theorem Spec.IsMle.factors (h : Spec.IsMle n (Spec.incr c) a b) (hp : Spec.Positive n c) {j : ℕ} (hj : j + 1 < n) :
    1 < Spec.wFactor n c j := by
  have h1 := h.cum_succ hp hj
  rw [Finset.sum_range_succ _ (j + 1)] at h1
  have hb := h.pos_b (j + 1) hj
  have hB : 0 < ∑ k ∈ Finset.range (j + 1), b k :=
    Finset.sum_pos (fun k hk => h.pos_b k (by rw [Finset.mem_range] at hk; omega)) ⟨0, Finset.mem_range.2 (by omega)⟩
  by_contra hcon
  nlinarith

/-! ## The chain ladder means -/

/-- Share of the ultimate that has emerged after period `j`. -/
noncomputable def Spec.emerged (n : ℕ) (c : ℕ → ℕ → ℝ) (j : ℕ) : ℝ :=
  (∏ m ∈ Finset.Ico j (n - 1), Spec.wFactor n c m)⁻¹

/-- Ultimate of origin `i`. -/
noncomputable def Spec.finalValue (n : ℕ) (c : ℕ → ℕ → ℝ) (i : ℕ) : ℝ :=
  c i (n - 1 - i) * ∏ m ∈ Finset.Ico (n - 1 - i) (n - 1), Spec.wFactor n c m

theorem prodFactor_pos (hp : Spec.Positive n c) (j : ℕ) : 0 < ∏ m ∈ Finset.Ico j (n - 1), Spec.wFactor n c m := by
  apply Finset.prod_pos
  intro m hm
  rw [Finset.mem_Ico] at hm
  exact wFactor_pos hp hm.2

theorem finalValue_emerged (hp : Spec.Positive n c) {i j : ℕ} (h : i + j < n) :
    Spec.finalValue n c i * Spec.emerged n c j = Spec.fitCum n c i j := by
  unfold Spec.finalValue Spec.emerged Spec.fitCum
  have h1 := Finset.prod_Ico_consecutive (Spec.wFactor n c) (show j ≤ n - 1 - i by omega) (show n - 1 - i ≤ n - 1 by omega)
  have h2 := prodFactor_pos hp (n - 1 - i)
  have h3 : 0 < ∏ m ∈ Finset.Ico j (n - 1 - i), Spec.wFactor n c m := by
    apply Finset.prod_pos
    intro m hm
    rw [Finset.mem_Ico] at hm
    exact wFactor_pos hp (by omega)
  rw [← h1]
  field_simp

/-- Share of the ultimate that emerges in period `j`. -/
noncomputable def Spec.emerging (n : ℕ) (c : ℕ → ℕ → ℝ) (j : ℕ) : ℝ :=
  if j = 0 then Spec.emerged n c 0 else Spec.emerged n c j - Spec.emerged n c (j - 1)

theorem finalValue_emerging (hp : Spec.Positive n c) {i j : ℕ} (h : i + j < n) :
    Spec.finalValue n c i * Spec.emerging n c j = Spec.incr (Spec.fitCum n c) i j := by
  unfold Spec.emerging Spec.incr
  split
  · exact finalValue_emerged hp (by omega)
  · rw [mul_sub, finalValue_emerged hp h, finalValue_emerged hp (by omega)]

theorem emerging_pos (hp : Spec.Positive n c) (hf : ∀ j, j + 1 < n → 1 < Spec.wFactor n c j) {j : ℕ} (hj : j < n) :
    0 < Spec.emerging n c j := by
  unfold Spec.emerging
  split
  · exact inv_pos.2 (prodFactor_pos hp 0)
  · rename_i e
    unfold Spec.emerged
    have h1 := prodFactor_pos hp j
    have h2 := hf (j - 1) (by omega)
    rw [sub_pos]
    apply inv_strictAnti₀ h1
    rw [Finset.prod_eq_prod_Ico_succ_bot (show j - 1 < n - 1 by omega), show j - 1 + 1 = j by omega]
    nlinarith

theorem fitIncr_cols (hp : Spec.Positive n c) {j : ℕ} (hj : j < n) :
    ∑ i ∈ Finset.range (n - j), Spec.incr (Spec.fitCum n c) i j = ∑ i ∈ Finset.range (n - j), Spec.incr c i j := by
  unfold Spec.incr
  by_cases h0 : j = 0
  · subst h0
    simp only [if_true]
    exact (fitCum_cols hp (n - 1) 0 (by omega)).1
  · simp only [if_neg h0, Finset.sum_sub_distrib]
    obtain ⟨h1, -⟩ := fitCum_cols hp (n - 1 - j) j (by omega)
    obtain ⟨-, h2⟩ := fitCum_cols hp (n - j) (j - 1) (by omega)
    rw [show n - 1 - (j - 1) = n - j by omega] at h2
    rw [h1, h2]

theorem chainLadder_mle (hp : Spec.Positive n c) (hf : ∀ j, j + 1 < n → 1 < Spec.wFactor n c j) :
    Spec.IsMle n (Spec.incr c) (Spec.finalValue n c) (Spec.emerging n c) := by
  apply mle_of_margins
  · intro i hi
    exact mul_pos (hp i _ (by omega)) (prodFactor_pos hp _)
  · intro j hj
    exact emerging_pos hp hf hj
  · intro i hi
    have e : ∀ j ∈ Finset.range (n - i), Spec.finalValue n c i * Spec.emerging n c j =
        Spec.incr (Spec.fitCum n c) i j := by
      intro j hj
      rw [Finset.mem_range] at hj
      exact finalValue_emerging hp (by omega)
    rw [Finset.sum_congr rfl e, show n - i = n - 1 - i + 1 by omega, incr_sum, incr_sum, fitCum_latest]
  · intro j hj
    have e : ∀ i ∈ Finset.range (n - j), Spec.finalValue n c i * Spec.emerging n c j =
        Spec.incr (Spec.fitCum n c) i j := by
      intro i hi
      rw [Finset.mem_range] at hi
      exact finalValue_emerging hp (by omega)
    rw [Finset.sum_congr rfl e, fitIncr_cols hp hj]

/-! ## The property -/

/-- **C125**: on staircases with positive amounts, the over-dispersed Poisson model has a maximum likelihood estimate
exactly if all factors are above 1.  Then the fitted increments of the bootstrap are its means of the observed cells,
and the ultimates and reserves of the chain ladder are the sums of its means of all and of the future cells. -/
theorem C125_mle (sq : Num ℝ → Num ℝ) (gm : List (Num ℝ) → Num ℝ) {t : Tri ℝ} (h : Spec.Stair t n c)
    (hp : Spec.Positive n c) (hn : 3 ≤ n) :
    ∃ fit r, bootFit sq gm t t.a2aind0 = .ok fit ∧ baseCL gm t t.a2aind0 "all-weighted" (.fin 1) = .ok r ∧
      ((∃ a b, Spec.IsMle n (Spec.incr c) a b) ↔ ∀ f ∈ (fit.ldfs.map Prod.snd).take (n - 1), ∃ y, f = .fin y ∧ 1 < y) ∧
      ∀ a b, Spec.IsMle n (Spec.incr c) a b →
        (∀ i j, i + j < n → fit.fitIncr.cell i j = .fin (a i * b j)) ∧
        ∀ i < n, ∃ row, r.rows[i]? = some row ∧ row.origin = t.oAt i ∧
          row.ultimate = .fin (∑ j ∈ Finset.range n, a i * b j) ∧
          row.reserve = .fin (∑ j ∈ Finset.Ico (n - i) n, a i * b j) := by
  obtain ⟨fit, hfit, hs⟩ := bootFit_stair sq gm h hp hn
  obtain ⟨r, hr, hrows, -⟩ := base_ults gm h hp hn (alpha := 1) le_rfl 1
  refine ⟨fit, r, hfit, hr, ?_, ?_⟩
  · have e : (fit.ldfs.map Prod.snd).take (n - 1) = (List.range (n - 1)).map (fun j => .fin (Spec.wFactor n c j)) := by
      rw [hs.ldfs, ← List.map_take, List.take_range, Nat.min_eq_left (by omega)]
      refine List.map_congr_left (fun j hj => ?_)
      rw [List.mem_range] at hj
      rw [if_pos (by omega)]
    rw [e]
    constructor
    · rintro ⟨a, b, hm⟩ f hf
      obtain ⟨j, hj, rfl⟩ := List.mem_map.1 hf
      rw [List.mem_range] at hj
      exact ⟨_, rfl, hm.factors hp (by omega)⟩
    · intro hf
      refine ⟨_, _, chainLadder_mle hp (fun j hj => ?_)⟩
      obtain ⟨y, hy, h1⟩ := hf _ (List.mem_map.2 ⟨j, List.mem_range.2 (by omega), rfl⟩)
      injection hy with hy
      rwa [hy]
  · intro a b hm
    refine ⟨fun i j hij => ?_, fun i hi => ?_⟩
    · rw [hm.fit_incr hp hij]
      exact hs.incr.obs i j hij
    · obtain ⟨row, h1, h2, h3, h4⟩ := hrows i hi
      have hu : Spec.ult n c (Spec.mackF 1 n c (fun _ _ => 1)) i * 1 = ∑ j ∈ Finset.range n, a i * b j := by
        have h5 := hm.cum hp hi (n - 1) (by omega) (by omega)
        rw [show n - 1 + 1 = n by omega] at h5
        rw [← Finset.mul_sum, h5, mul_one]
        unfold Spec.ult Spec.proj
        congr 1
        refine Finset.prod_congr rfl (fun m hm' => ?_)
        rw [Finset.mem_Ico] at hm'
        exact wFactor_eq_mackF hp hm'.2
      refine ⟨row, h1, h2, by rw [h3, hu], ?_⟩
      rw [h4, hu, Finset.sum_Ico_eq_sub _ (show n - i ≤ n by omega)]
      congr 2
      rw [← Finset.mul_sum, hm.row' hi]

/-! ## Cases -/

/-- Three origins with factors 2 and 3/2. -/
noncomputable def odpVals (i j : ℕ) : ℝ := (100 + 10 * i) * (j + 1)

/-- Ultimates 300, 330, 360 and equal shares of the periods are the estimate. -/
example : Spec.IsMle 3 (Spec.incr odpVals) (fun i => 300 + 30 * i) (fun _ => 1 / 3) := by
  apply mle_of_margins
  · intro i _
    positivity
  · intro j _
    norm_num
  · intro i hi
    rcases (show i = 0 ∨ i = 1 ∨ i = 2 by omega) with rfl | rfl | rfl <;>
      norm_num [Finset.sum_range_succ, Spec.incr, odpVals]
  · intro j hj
    rcases (show j = 0 ∨ j = 1 ∨ j = 2 by omega) with rfl | rfl | rfl <;>
      norm_num [Finset.sum_range_succ, Spec.incr, odpVals]

/-- An estimate is determined up to the split between origins and periods: the reserve of the last origin is 240. -/
example {a b : ℕ → ℝ} (h : Spec.IsMle 3 (Spec.incr odpVals) a b) : a 2 * b 1 + a 2 * b 2 = 240 := by
  have hp : Spec.Positive 3 odpVals := fun i j _ => by unfold odpVals; positivity
  have h1 := h.cum hp (i := 2) (by norm_num) 2 (by norm_num) (by norm_num)
  have h2 := h.row' (i := 2) (by norm_num)
  norm_num [Finset.sum_range_succ, Spec.wFactor, odpVals, Finset.prod_Ico_succ_top] at h1 h2
  linarith

/-- Claims that shrink in the last period: no estimate. -/
example : ¬ ∃ a b, Spec.IsMle 3 (Spec.incr (fun i j => if i = 0 ∧ j = 2 then 150 else odpVals i j)) a b := by
  rintro ⟨a, b, h⟩
  have hp : Spec.Positive 3 (fun i j => if i = 0 ∧ j = 2 then 150 else odpVals i j) := by
    intro i j _
    dsimp only
    split
    · norm_num
    · unfold odpVals; positivity
  have := h.factors hp (j := 1) (by norm_num)
  norm_num [Spec.wFactor, odpVals, Finset.sum_range_succ] at this

end Trikit
