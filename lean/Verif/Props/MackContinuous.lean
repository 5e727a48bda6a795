import Verif.Props.MackReal
import Mathlib.Topology.Algebra.Order.Field
import Mathlib.Topology.Order.Lattice
import Mathlib.Analysis.SpecialFunctions.Sqrt

/-!
# C205: standard errors and small changes of the amounts

Mack's formulas are continuous functions of the amounts.  What `mack_cl` reports (mack.py:115-180) is not: where the two
variances before the last one vanish the extrapolated variance is NaN and all errors are replaced by zero.
-/

set_option linter.unusedSectionVars false

open Filter Topology

namespace Trikit

variable {t ind : Tri ℝ} {n : ℕ} {c w : ℕ → ℕ → ℝ}

/-! ## specification -/

/-- The standard error that `mack_cl` reports in row `i` (row `n` is the total). -/
def Spec.StdErrIs (alpha : ℕ) (t ind : Tri ℝ) (dist : String) (i : ℕ) (s : ℝ) : Prop :=
  ∃ r, mackCall alpha t ind dist = .ok r ∧ r.stdErr[i]? = some (.fin s)

/-- The amounts `x m` are positive and tend to the amounts `c`. -/
structure Spec.AmountsTend (n : ℕ) (x : ℕ → ℕ → ℕ → ℝ) (c : ℕ → ℕ → ℝ) : Prop where
  pos : ∀ m, Spec.Positive n (x m)
  tend : ∀ i j, i + j < n → Tendsto (fun m => x m i j) atTop (𝓝 (c i j))

/-- Whenever amounts tend to `c`, the reported standard errors of all rows tend to those of `c`. -/
def Spec.ErrorsContinuous (alpha n : ℕ) (c : ℕ → ℕ → ℝ) (dist : String) : Prop :=
  ∀ (x : ℕ → ℕ → ℕ → ℝ) (T : ℕ → Tri ℝ) (t : Tri ℝ), Spec.AmountsTend n x c → (∀ m, Spec.Stair (T m) n (x m)) →
    Spec.Stair t n c → ∀ i ≤ n, ∀ (s : ℕ → ℝ) (s0 : ℝ), (∀ m, Spec.StdErrIs alpha (T m) (T m).a2aind0 dist i (s m)) →
      Spec.StdErrIs alpha t t.a2aind0 dist i s0 → Tendsto s atTop (𝓝 s0)

/-! ## Mack's formulas are continuous -/

theorem tendsto_sigLast {a b : ℕ → ℝ} {a0 b0 : ℝ} (ha : Tendsto a atTop (𝓝 a0)) (hb : Tendsto b atTop (𝓝 b0))
    (ha' : ∀ m, 0 ≤ a m) (hb' : ∀ m, 0 ≤ b m) (h0 : 0 ≤ a0) (h0' : 0 ≤ b0) :
    Tendsto (fun m => Spec.sigLast (a m) (b m)) atTop (𝓝 (Spec.sigLast a0 b0)) := by
  by_cases e : b0 = 0
  · subst e
    have e0 : Spec.sigLast a0 0 = 0 := by
      unfold Spec.sigLast
      rw [div_zero, min_eq_right h0, min_self]
    rw [e0]
    exact squeeze_zero (fun m => sigLast_nonneg (ha' m) (hb' m))
      (fun m => (min_le_right _ _).trans (min_le_right _ _)) hb
  · unfold Spec.sigLast
    exact ((ha.pow 2).div hb e).min (ha.min hb)

section
variable {x : ℕ → ℕ → ℕ → ℝ} (h : Spec.AmountsTend n x c) (hp : Spec.Positive n c) (hw : Spec.Weights n w) (alpha : ℕ)
include h hp hw

theorem tendsto_mackW {j : ℕ} (hj : j < n - 1) :
    Tendsto (fun m => Spec.mackW alpha n (x m) w j) atTop (𝓝 (Spec.mackW alpha n c w j)) := by
  unfold Spec.mackW Spec.colSum
  refine tendsto_finsetSum _ fun i hi => ?_
  rw [Finset.mem_range] at hi
  exact ((h.tend i j (by omega)).pow alpha).const_mul _

theorem tendsto_ratio {i j : ℕ} (hij : i + j + 1 < n) :
    Tendsto (fun m => x m i (j + 1) / x m i j) atTop (𝓝 (c i (j + 1) / c i j)) :=
  (h.tend i (j + 1) (by omega)).div (h.tend i j (by omega)) (hp i j (by omega)).ne'

theorem tendsto_mackF {j : ℕ} (hj : j < n - 1) :
    Tendsto (fun m => Spec.mackF alpha n (x m) w j) atTop (𝓝 (Spec.mackF alpha n c w j)) := by
  unfold Spec.mackF
  refine Tendsto.div ?_ (tendsto_mackW h hp hw alpha hj) (mackW_pos hp hw alpha hj).ne'
  unfold Spec.colSum
  refine tendsto_finsetSum _ fun i hi => ?_
  rw [Finset.mem_range] at hi
  exact (((h.tend i j (by omega)).pow alpha).const_mul _).mul (tendsto_ratio h hp hw (by omega))

theorem tendsto_sig0 {j : ℕ} (hj : j < n - 1) :
    Tendsto (fun m => Spec.sig0 alpha n (x m) w j) atTop (𝓝 (Spec.sig0 alpha n c w j)) := by
  unfold Spec.sig0 Spec.sqDev Spec.colSum
  refine Tendsto.div_const ?_ _
  refine tendsto_finsetSum _ fun i hi => ?_
  rw [Finset.mem_range] at hi
  exact (((h.tend i j (by omega)).pow alpha).const_mul _).mul
    (((tendsto_ratio h hp hw (by omega)).sub (tendsto_mackF h hp hw alpha hj)).pow 2)

theorem tendsto_sigma2 (hn : 4 ≤ n) {j : ℕ} (hj : j < n - 1) :
    Tendsto (fun m => Spec.sigma2 alpha n (x m) w j) atTop (𝓝 (Spec.sigma2 alpha n c w j)) := by
  unfold Spec.sigma2
  by_cases e : j + 2 < n
  · simp only [if_pos e]
    exact tendsto_sig0 h hp hw alpha hj
  · simp only [if_neg e]
    exact tendsto_sigLast (tendsto_sig0 h hp hw alpha (by omega)) (tendsto_sig0 h hp hw alpha (by omega))
      (fun m => sig0_nonneg (h.pos m) hw alpha _) (fun m => sig0_nonneg (h.pos m) hw alpha _)
      (sig0_nonneg hp hw alpha _) (sig0_nonneg hp hw alpha _)

theorem tendsto_ldfVar (hn : 4 ≤ n) {j : ℕ} (hj : j < n - 1) :
    Tendsto (fun m => Spec.ldfVar alpha n (x m) w j) atTop (𝓝 (Spec.ldfVar alpha n c w j)) :=
  (tendsto_sigma2 h hp hw alpha hn hj).div (tendsto_mackW h hp hw alpha hj) (mackW_pos hp hw alpha hj).ne'

theorem tendsto_proj {i k : ℕ} (hi : i < n) (hk : k ≤ n - 1) :
    Tendsto (fun m => Spec.proj n (x m) (Spec.mackF alpha n (x m) w) i k) atTop
      (𝓝 (Spec.proj n c (Spec.mackF alpha n c w) i k)) := by
  unfold Spec.proj
  refine (h.tend i _ (by omega)).mul (tendsto_finsetProd _ fun q hq => ?_)
  rw [Finset.mem_Ico] at hq
  exact tendsto_mackF h hp hw alpha (by omega)

theorem tendsto_mse (hn : 4 ≤ n) {i : ℕ} (hi : i < n) :
    Tendsto (fun m => Spec.mse alpha n (x m) w i) atTop (𝓝 (Spec.mse alpha n c w i)) := by
  have hF : ∀ k ∈ Finset.Ico (n - 1 - i) (n - 1), Tendsto (fun m => Spec.mackF alpha n (x m) w k) atTop
      (𝓝 (Spec.mackF alpha n c w k)) := fun k hk => tendsto_mackF h hp hw alpha (Finset.mem_Ico.1 hk).2
  unfold Spec.mse Spec.procVar Spec.paramVar
  refine Tendsto.add (tendsto_finsetSum _ fun k hk => ?_) ?_
  · rw [Finset.mem_Ico] at hk
    refine ((tendsto_proj h hp hw alpha hi (by omega)).mul (tendsto_sigma2 h hp hw alpha hn (by omega))).mul
      (tendsto_finsetProd _ fun q hq => ?_)
    rw [Finset.mem_Ico] at hq
    exact (tendsto_mackF h hp hw alpha (by omega)).pow 2
  · refine ((h.tend i _ (by omega)).pow 2).mul (Tendsto.sub (tendsto_finsetProd _ fun k hk => ?_)
      (tendsto_finsetProd _ fun k hk => (hF k hk).pow 2))
    exact ((hF k hk).pow 2).add (tendsto_ldfVar h hp hw alpha hn (Finset.mem_Ico.1 hk).2)

theorem tendsto_cross (hn : 4 ≤ n) {i : ℕ} (hi : i < n) :
    Tendsto (fun m => Spec.crossTerm n (x m) (Spec.mackF alpha n (x m) w) (Spec.sigma2 alpha n (x m) w) i) atTop
      (𝓝 (Spec.crossTerm n c (Spec.mackF alpha n c w) (Spec.sigma2 alpha n c w) i)) := by
  unfold Spec.crossTerm Spec.ult
  refine Tendsto.mul (Tendsto.mul ((tendsto_proj h hp hw alpha hi le_rfl).const_mul 2)
    (tendsto_finsetSum _ fun k hk => ?_)) (tendsto_finsetSum _ fun q hq => ?_)
  · rw [Finset.mem_Ico] at hk
    exact tendsto_proj h hp hw alpha hk.2 le_rfl
  · rw [Finset.mem_Ico] at hq
    refine Tendsto.div ((tendsto_sigma2 h hp hw alpha hn hq.2).div ((tendsto_mackF h hp hw alpha hq.2).pow 2)
      (pow_ne_zero 2 (mackF_pos hp hw alpha hq.2).ne')) (tendsto_finsetSum _ fun r hr => ?_) ?_
    · rw [Finset.mem_range] at hr
      exact h.tend r q (by omega)
    · refine (Finset.sum_pos (fun r hr => ?_) ⟨0, Finset.mem_range.2 (by omega)⟩).ne'
      rw [Finset.mem_range] at hr
      exact hp r q (by omega)

end

/-- Mean squared error of row `i`; row `n` is the total. -/
noncomputable def Spec.mseAll (alpha n : ℕ) (c w : ℕ → ℕ → ℝ) (i : ℕ) : ℝ :=
  if i < n then Spec.mse alpha n c w i
  else ∑ k ∈ Finset.range (n - 1), (Spec.mse alpha n c w (k + 1) +
    Spec.crossTerm n c (Spec.mackF alpha n c w) (Spec.sigma2 alpha n c w) (k + 1))

theorem tendsto_mseAll {x : ℕ → ℕ → ℕ → ℝ} (h : Spec.AmountsTend n x c) (hp : Spec.Positive n c)
    (hw : Spec.Weights n w) (alpha : ℕ) (hn : 4 ≤ n) (i : ℕ) :
    Tendsto (fun m => Spec.mseAll alpha n (x m) w i) atTop (𝓝 (Spec.mseAll alpha n c w i)) := by
  unfold Spec.mseAll
  by_cases e : i < n
  · simp only [if_pos e]
    exact tendsto_mse h hp hw alpha hn e
  · simp only [if_neg e]
    refine tendsto_finsetSum _ fun k hk => ?_
    rw [Finset.mem_range] at hk
    exact (tendsto_mse h hp hw alpha hn (by omega)).add (tendsto_cross h hp hw alpha hn (by omega))

theorem mseAll_nonneg (hp : Spec.Positive n c) (hw : Spec.Weights n w) (alpha i : ℕ) :
    0 ≤ Spec.mseAll alpha n c w i := by
  unfold Spec.mseAll
  split_ifs with e
  · exact mse_nonneg hp hw alpha e
  · refine Finset.sum_nonneg fun k hk => ?_
    rw [Finset.mem_range] at hk
    exact add_nonneg (mse_nonneg hp hw alpha (by omega)) (crossTerm_nonneg hp hw alpha (by omega))

/-- The reported standard errors: the roots of Mack's formulas, or zero. -/
theorem stdErrIs_iff (h : Spec.Stair t n c) (hp : Spec.Positive n c) (hi : IndW t ind n w) (hw : Spec.Weights n w)
    (hn : 4 ≤ n) (alpha : ℕ) {dist : String} (hdist : dist = "norm" ∨ dist = "lognorm") {i : ℕ} (hin : i ≤ n) (s : ℝ) :
    Spec.StdErrIs alpha t ind dist i s ↔
      (¬ Spec.Degenerate alpha n c w ∧ s = Real.sqrt (Spec.mseAll alpha n c w i)) ∨
      (Spec.Degenerate alpha n c w ∧ s = 0) := by
  obtain ⟨core, b, lab, hr, p⟩ := mack_parts h hp hi hw hn alpha
  obtain ⟨r, hr', -, hs, -, -⟩ := mackCall_ok hr hdist
  have key : ∀ v, r.stdErr[i]? = some (.fin v) → (Spec.StdErrIs alpha t ind dist i s ↔ s = v) := by
    intro v hv
    constructor
    · rintro ⟨r', h1, h2⟩
      rw [hr'] at h1
      obtain rfl := Except.ok.inj h1
      rw [hv] at h2
      exact (Num.fin.inj (Option.some.inj h2)).symm
    · rintro rfl
      exact ⟨r, hr', hv⟩
  by_cases hd : Spec.Degenerate alpha n c w
  · obtain ⟨-, -, h3, h4⟩ := p.degenerate (by omega) hp hw hd
    rw [key 0]
    · simp [hd]
    · rw [hs, h3, h4]
      by_cases e : i < n
      · rw [List.getElem?_append_left (by simpa using e)]
        simp [e, Num.sqrt_fin (le_refl (0 : ℝ))]
      · have : i = n := by omega
        subst this
        rw [List.getElem?_append_right (by simp)]
        simp [Num.sqrt_fin (le_refl (0 : ℝ))]
  · rw [key (Real.sqrt (Spec.mseAll alpha n c w i))]
    · simp [hd]
    · rw [hs, p.mse_eq h hp hw hd, p.total_eq (by omega) h hp hw hd]
      have h0 := mseAll_nonneg hp hw alpha i
      unfold Spec.mseAll at h0 ⊢
      by_cases e : i < n
      · rw [if_pos e] at h0 ⊢
        rw [List.getElem?_append_left (by simpa using e)]
        simp [e, Num.sqrt_fin h0]
      · have : i = n := by omega
        subst this
        rw [if_neg e] at h0 ⊢
        rw [List.getElem?_append_right (by simp)]
        simp [Num.sqrt_fin h0]

/-! ## C205 -/

theorem tendsto_degenerate {x : ℕ → ℕ → ℕ → ℝ} (h : Spec.AmountsTend n x c) (hp : Spec.Positive n c)
    (hw : Spec.Weights n w) (alpha : ℕ) (hn : 4 ≤ n) (hd : ¬ Spec.Degenerate alpha n c w) :
    ∀ᶠ m in atTop, ¬ Spec.Degenerate alpha n (x m) w := by
  unfold Spec.Degenerate at hd
  by_cases e : Spec.sig0 alpha n c w (n - 3) = 0
  · have e' : Spec.sig0 alpha n c w (n - 4) ≠ 0 := fun e' => hd ⟨e, e'⟩
    filter_upwards [(tendsto_sig0 h hp hw alpha (by omega)).eventually_ne e'] with m hm hc
    exact hm hc.2
  · filter_upwards [(tendsto_sig0 h hp hw alpha (by omega)).eventually_ne e] with m hm hc
    exact hm hc.1

/-- **C205, part that holds**: where one of the two variances before the last is not zero, the reported standard errors of all
rows follow small changes of the amounts, for every `alpha`, every choice of exclusions and any labels. -/
theorem C205_partial {x : ℕ → ℕ → ℕ → ℝ} {T I : ℕ → Tri ℝ} (hx : Spec.AmountsTend n x c) (hT : ∀ m, Spec.Stair (T m) n (x m))
    (hI : ∀ m, IndW (T m) (I m) n w) (h : Spec.Stair t n c) (hp : Spec.Positive n c) (hi : IndW t ind n w)
    (hw : Spec.Weights n w) (hn : 4 ≤ n) (alpha : ℕ) {dist : String} (hdist : dist = "norm" ∨ dist = "lognorm")
    (hd : ¬ Spec.Degenerate alpha n c w) {i : ℕ} (hin : i ≤ n) {s : ℕ → ℝ} {s0 : ℝ}
    (hs : ∀ m, Spec.StdErrIs alpha (T m) (I m) dist i (s m)) (hs0 : Spec.StdErrIs alpha t ind dist i s0) :
    Tendsto s atTop (𝓝 s0) := by
  rw [stdErrIs_iff h hp hi hw hn alpha hdist hin] at hs0
  have e0 : s0 = Real.sqrt (Spec.mseAll alpha n c w i) := by
    rcases hs0 with h | h
    · exact h.2
    · exact absurd h.1 hd
  rw [e0]
  refine Tendsto.congr' ?_ (tendsto_mseAll hx hp hw alpha hn i).sqrt
  filter_upwards [tendsto_degenerate hx hp hw alpha hn hd] with m hm
  rcases (stdErrIs_iff (hT m) (hx.pos m) (hI m) hw hn alpha hdist hin _).1 (hs m) with h | h
  · exact h.2.symm
  · exact absurd h.1 hm

theorem mseAll_zero (hz : ∀ j < n - 1, Spec.sigma2 alpha n c w j = 0) (i : ℕ) : Spec.mseAll alpha n c w i = 0 := by
  have hm : ∀ i < n, Spec.mse alpha n c w i = 0 := by
    intro i hi
    unfold Spec.mse Spec.procVar Spec.paramVar Spec.ldfVar
    have e1 : ∑ k ∈ Finset.Ico (n - 1 - i) (n - 1), Spec.proj n c (Spec.mackF alpha n c w) i k * Spec.sigma2 alpha n c w k *
        ∏ l ∈ Finset.Ico (k + 1) (n - 1), Spec.mackF alpha n c w l ^ 2 = 0 := by
      refine Finset.sum_eq_zero fun k hk => ?_
      rw [hz k (Finset.mem_Ico.1 hk).2]
      ring
    have e2 : ∏ k ∈ Finset.Ico (n - 1 - i) (n - 1), (Spec.mackF alpha n c w k ^ 2 +
        Spec.sigma2 alpha n c w k / Spec.mackW alpha n c w k) =
        ∏ k ∈ Finset.Ico (n - 1 - i) (n - 1), Spec.mackF alpha n c w k ^ 2 := by
      refine Finset.prod_congr rfl fun k hk => ?_
      rw [hz k (Finset.mem_Ico.1 hk).2]
      ring
    rw [e1, e2]
    ring
  unfold Spec.mseAll
  split_ifs with e
  · exact hm i e
  · refine Finset.sum_eq_zero fun k hk => ?_
    rw [Finset.mem_range] at hk
    rw [hm _ (by omega), zero_add]
    unfold Spec.crossTerm
    rw [Finset.sum_eq_zero (s := Finset.Ico (n - 1 - (k + 1)) (n - 1)), mul_zero]
    intro q hq
    rw [hz q (Finset.mem_Ico.1 hq).2, zero_div, zero_div]

/-- The amount of the oldest origin in the last period but one changed by `1 / (m + 1)` of itself. -/
noncomputable def nudge (n : ℕ) (c : ℕ → ℕ → ℝ) (m : ℕ) : ℕ → ℕ → ℝ := fun i j =>
  if i = 0 ∧ j = n - 2 then c i j * (1 + 1 / (m + 1)) else c i j

theorem nudge_tend (hp : Spec.Positive n c) : Spec.AmountsTend n (nudge n c) c := by
  constructor
  · intro m i j hij
    unfold nudge
    split_ifs
    · exact mul_pos (hp i j hij) (by positivity)
    · exact hp i j hij
  · intro i j _
    unfold nudge
    by_cases e : i = 0 ∧ j = n - 2
    · simp only [if_pos e]
      have := (tendsto_one_div_add_atTop_nhds_zero_nat (𝕜 := ℝ)).const_add (1 : ℝ)
      have := this.const_mul (c i j)
      rwa [add_zero, mul_one] at this
    · simp only [if_neg e]
      exact tendsto_const_nhds

/-- Without exclusions the changed amounts have a variance before the last. -/
theorem nudge_varies (hp : Spec.Positive n c) (hn : 4 ≤ n) (alpha m : ℕ)
    (hd : Spec.Degenerate alpha n c (fun _ _ => 1)) : ¬ Spec.Degenerate alpha n (nudge n c m) (fun _ _ => 1) := by
  have hw : Spec.Weights (K := ℝ) n (fun _ _ => 1) := Spec.Weights.one (by omega)
  rintro ⟨h1, _⟩
  have hd1 := hd.1
  rw [sig0_eq_zero hp hw alpha (by omega)] at hd1
  rw [sig0_eq_zero ((nudge_tend hp).pos m) hw alpha (by omega)] at h1
  have a := (hd1 0 (by omega) one_ne_zero).trans (hd1 1 (by omega) one_ne_zero).symm
  have b := (h1 0 (by omega) one_ne_zero).trans (h1 1 (by omega) one_ne_zero).symm
  have e : n - 3 + 1 = n - 2 := by omega
  have e1 : nudge n c m 0 (n - 3 + 1) = c 0 (n - 3 + 1) * (1 + 1 / (m + 1)) := by
    unfold nudge
    rw [if_pos ⟨rfl, e⟩]
  have e2 : nudge n c m 0 (n - 3) = c 0 (n - 3) := by
    unfold nudge
    rw [if_neg (by omega)]
  have e3 : ∀ j, nudge n c m 1 j = c 1 j := by
    intro j
    unfold nudge
    rw [if_neg (by omega)]
  rw [e1, e2, e3, e3, ← a, mul_div_right_comm] at b
  have hq : 0 < c 0 (n - 3 + 1) / c 0 (n - 3) := div_pos (hp 0 _ (by omega)) (hp 0 _ (by omega))
  have hm : (0 : ℝ) < 1 / (m + 1) := by positivity
  nlinarith [mul_pos hq hm]

/-- Where the two variances before the last vanish, changes of one amount that tend to zero give standard errors that tend to
Mack's formulas without a last variance, although the reported ones are zero. -/
theorem C205_jump (h : Spec.Stair t n c) (hp : Spec.Positive n c) (hn : 4 ≤ n) (alpha : ℕ) {dist : String}
    (hdist : dist = "norm" ∨ dist = "lognorm") (hd : Spec.Degenerate alpha n c (fun _ _ => 1)) {T : ℕ → Tri ℝ}
    (hT : ∀ m, Spec.Stair (T m) n (nudge n c m)) {i : ℕ} (hin : i ≤ n) :
    Spec.StdErrIs alpha t t.a2aind0 dist i 0 ∧ ∃ s : ℕ → ℝ, (∀ m, Spec.StdErrIs alpha (T m) (T m).a2aind0 dist i (s m)) ∧
      Tendsto s atTop (𝓝 (Real.sqrt (Spec.mseAll alpha n c (fun _ _ => 1) i))) := by
  have hw : Spec.Weights (K := ℝ) n (fun _ _ => 1) := Spec.Weights.one (by omega)
  have ht := nudge_tend hp
  refine ⟨(stdErrIs_iff h hp (h.indW0 hp.ne_zero) hw hn alpha hdist hin 0).2 (Or.inr ⟨hd, rfl⟩),
    fun m => Real.sqrt (Spec.mseAll alpha n (nudge n c m) (fun _ _ => 1) i), fun m => ?_,
    (tendsto_mseAll ht hp hw alpha hn i).sqrt⟩
  exact (stdErrIs_iff (hT m) (ht.pos m) ((hT m).indW0 (ht.pos m).ne_zero) hw hn alpha hdist hin _).2
    (Or.inl ⟨nudge_varies hp hn alpha m hd, rfl⟩)

theorem mseAll_total_pos (hp : Spec.Positive n c) (hw : Spec.Weights n w) (hn : 4 ≤ n) (alpha : ℕ) {j : ℕ}
    (hj : j < n - 1) (hpos : 0 < Spec.sigma2 alpha n c w j) : 0 < Spec.mseAll alpha n c w n := by
  unfold Spec.mseAll
  rw [if_neg (lt_irrefl n)]
  apply Finset.sum_pos'
  · intro k hk
    rw [Finset.mem_range] at hk
    exact add_nonneg (mse_nonneg hp hw alpha (by omega)) (crossTerm_nonneg hp hw alpha (by omega))
  · refine ⟨n - 2, Finset.mem_range.2 (by omega), ?_⟩
    apply add_pos_of_pos_of_nonneg _ (crossTerm_nonneg hp hw alpha (by omega))
    apply add_pos_of_pos_of_nonneg
    · exact procVar_pos hp (fun j hj => mackF_pos hp hw alpha hj) (fun j _ => sigma2_nonneg hp hw alpha j) (by omega)
        (by omega) hj hpos
    · exact paramVar_nonneg (fun j hj => ldfVar_nonneg hp hw alpha hj) _

/-- **C205, exactly** (no exclusions): the reported standard errors follow small changes of the amounts if and only if one of the
two variances before the last is not zero or all variances are zero. -/
theorem C205_exact (hp : Spec.Positive n c) (hn : 4 ≤ n) (alpha : ℕ) {dist : String}
    (hdist : dist = "norm" ∨ dist = "lognorm") :
    Spec.ErrorsContinuous alpha n c dist ↔
      ¬ Spec.Degenerate alpha n c (fun _ _ => 1) ∨ ∀ j < n - 1, Spec.sigma2 alpha n c (fun _ _ => 1) j = 0 := by
  have hw : Spec.Weights (K := ℝ) n (fun _ _ => 1) := Spec.Weights.one (by omega)
  constructor
  · intro hall
    by_contra hcon
    rw [not_or, not_not] at hcon
    obtain ⟨hd, hne⟩ := hcon
    push Not at hne
    obtain ⟨j, hj, hz⟩ := hne
    have hpos := lt_of_le_of_ne (sigma2_nonneg hp hw alpha j) (Ne.symm hz)
    obtain ⟨h1, s, h2, h3⟩ := C205_jump (stairTri_stair n c) hp hn alpha hdist hd
      (T := fun m => stairTri n (nudge n c m)) (fun m => stairTri_stair n _) (le_refl n)
    have h4 := hall _ _ _ (nudge_tend hp) (fun m => stairTri_stair n (nudge n c m)) (stairTri_stair n c) n le_rfl s 0 h2 h1
    have := tendsto_nhds_unique h3 h4
    rw [Real.sqrt_eq_zero'] at this
    exact absurd (mseAll_total_pos hp hw hn alpha hj hpos) (not_lt.2 this)
  · rintro (hd | hz) x T t hx hT ht i hin s s0 hs hs0
    · exact C205_partial hx hT (fun m => (hT m).indW0 (hx.pos m).ne_zero) ht hp (ht.indW0 hp.ne_zero) hw hn alpha hdist hd hin
        hs hs0
    · have e0 : s0 = 0 := by
        rcases (stdErrIs_iff ht hp (ht.indW0 hp.ne_zero) hw hn alpha hdist hin _).1 hs0 with h | h
        · rw [h.2, mseAll_zero hz, Real.sqrt_zero]
        · exact h.2
      rw [e0]
      have hlim := (tendsto_mseAll hx hp hw alpha hn i).sqrt
      rw [mseAll_zero hz, Real.sqrt_zero] at hlim
      refine squeeze_zero (fun m => ?_) (fun m => ?_) hlim
      · rcases (stdErrIs_iff (hT m) (hx.pos m) ((hT m).indW0 (hx.pos m).ne_zero) hw hn alpha hdist hin _).1 (hs m) with h | h
        · rw [h.2]; exact Real.sqrt_nonneg _
        · rw [h.2]
      · rcases (stdErrIs_iff (hT m) (hx.pos m) ((hT m).indW0 (hx.pos m).ne_zero) hw hn alpha hdist hin _).1 (hs m) with h | h
        · rw [h.2]
        · rw [h.2]; exact Real.sqrt_nonneg _

/-- **C205 is false of the code**: for the triangle of `C47_fails`, whose first link ratios are 1.5, 1.6, 1.7 and 1.8 and whose
later ones are all 2, arbitrarily small changes move standard errors by more than a fixed amount. -/
theorem C205_fails : Spec.Positive 5 mackFlat ∧ ¬ Spec.ErrorsContinuous 1 5 mackFlat "norm" := by
  refine ⟨mackFlat_pos, ?_⟩
  have hw : Spec.Weights (K := ℝ) 5 (fun _ _ => 1) := Spec.Weights.one (by norm_num)
  rw [C205_exact mackFlat_pos (by norm_num) 1 (Or.inl rfl)]
  have hne : ∀ i : ℕ, (150 + 10 * (i : ℝ)) ≠ 0 := fun i => by positivity
  have h12 : ∀ i, mackFlat i 2 / mackFlat i 1 = 2 ∧ mackFlat i 3 / mackFlat i 2 = 2 := by
    intro i
    have := hne i
    unfold mackFlat
    constructor
    · norm_num
      field_simp
    · norm_num
      field_simp
      norm_num
  have hd : Spec.Degenerate 1 5 mackFlat (fun _ _ => 1) := by
    have hz : ∀ j, j = 1 ∨ j = 2 → Spec.sig0 1 5 mackFlat (fun _ _ => 1) j = 0 := by
      intro j hj
      rw [sig0_eq_zero mackFlat_pos hw 1 (by omega)]
      have hr : ∀ i, mackFlat i (j + 1) / mackFlat i j = 2 := by
        intro i
        rcases hj with rfl | rfl
        · exact (h12 i).1
        · exact (h12 i).2
      intro i _ _
      rw [hr]
      unfold Spec.mackF
      have hW := (mackW_pos mackFlat_pos hw 1 (show j < 5 - 1 by omega)).ne'
      rw [eq_div_iff hW]
      unfold Spec.mackW Spec.colSum
      rw [Finset.mul_sum]
      refine Finset.sum_congr rfl fun q _ => ?_
      beta_reduce
      rw [hr]
      ring
    exact ⟨hz 2 (Or.inr rfl), hz 1 (Or.inl rfl)⟩
  rintro (h | h)
  · exact h hd
  · have h0 := h 0 (by norm_num)
    unfold Spec.sigma2 at h0
    rw [if_pos (by norm_num), sig0_eq_zero mackFlat_pos hw 1 (by norm_num)] at h0
    have := (h0 0 (by norm_num) one_ne_zero).trans (h0 1 (by norm_num) one_ne_zero).symm
    unfold mackFlat at this
    norm_num at this

/-- With first link ratios 1.5, 1.6 and 1.7 and four origins the standard errors follow small changes. -/
example : Spec.ErrorsContinuous 1 4 (fun i j => if j = 0 then 100 else 150 + 10 * i) "lognorm" := by
  have hp : Spec.Positive 4 (fun i j => if j = 0 then (100 : ℝ) else 150 + 10 * i) := by
    intro i j _
    beta_reduce
    split_ifs <;> positivity
  have hw : Spec.Weights (K := ℝ) 4 (fun _ _ => 1) := Spec.Weights.one (by norm_num)
  rw [C205_exact hp (by norm_num) 1 (Or.inr rfl)]
  left
  rintro ⟨_, h⟩
  rw [sig0_eq_zero hp hw 1 (by norm_num)] at h
  have := (h 0 (by norm_num) one_ne_zero).trans (h 1 (by norm_num) one_ne_zero).symm
  norm_num at this

end Trikit
