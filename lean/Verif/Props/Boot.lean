import Verif.BootFit
import Verif.RealFun
import Verif.Examples
import Mathlib.Data.Rat.Sqrt

/-! # Properties of the bootstrap fit (C51 - C54) -/

set_option linter.unusedSectionVars false

namespace Trikit

/-- Square root on rational numbers, exact on squares; used in examples only. -/
def exSqrt : Num ℚ → Num ℚ
  | .nan => .nan
  | .pinf => .pinf
  | .ninf => .nan
  | .fin x => if x < 0 then .nan else .fin (Rat.sqrt x)

/-- Values of the 3 x 3 bootstrap example; all fitted increments are 100. -/
def exBootVals : ℕ → ℕ → ℚ := fun i j =>
  ((([[110, 200, 300], [90, 200], [100]] : List (List ℚ)).getD i []).getD j 0)

/-- The 3 x 3 bootstrap example. -/
def exBoot : Tri ℚ := stairTri 3 exBootVals

theorem exBoot_stair : Spec.Stair exBoot 3 exBootVals := stairTri_stair 3 exBootVals

theorem exBootVals_pos : Spec.Positive 3 exBootVals := by
  intro i j h
  have hi : i < 3 := by omega
  have hj : j < 3 := by omega
  have : ∀ i < 3, ∀ j < 3, i + j < 3 → 0 < exBootVals i j := by decide +kernel
  exact this i hi j hj h

section
variable {K : Type} [Field K] [LinearOrder K] [IsStrictOrderedRing K]
variable {t : Tri K} {n : ℕ} {c : ℕ → ℕ → K}

/-! ## C51 -/

/-- **C51** on every positive staircase the fit of `boot_cl` succeeds; the fitted triangle has the labels
and the missing cells of the data, agrees with it on the latest diagonal, and each row develops with the
volume weighted factors, which are the reported ones. -/
theorem C51_fit (sq : Num K → Num K) (gm : List (Num K) → Num K) (h : Spec.Stair t n c)
    (hp : Spec.Positive n c) (hn : 3 ≤ n) :
    ∃ fit, bootFit sq gm t t.a2aind0 = .ok fit ∧
      fit.fitCum.origins = t.origins ∧ fit.fitCum.devs = t.devs ∧
      (∀ i < n, ∀ j < n, fit.fitCum.cell i j = .nan ↔ t.cell i j = .nan) ∧
      (∀ i < n, fit.fitCum.cell i (n - 1 - i) = t.cell i (n - 1 - i)) ∧
      (∀ j, j + 1 < n → (fit.ldfs.map Prod.snd)[j]? = some (.fin
        ((∑ i ∈ Finset.range (n - 1 - j), c i (j + 1)) / ∑ i ∈ Finset.range (n - 1 - j), c i j))) ∧
      ∀ i j, i + j + 1 < n → ∃ f, (fit.ldfs.map Prod.snd)[j]? = some f ∧
        fit.fitCum.cell i (j + 1) = fit.fitCum.cell i j * f := by
  obtain ⟨fit, hf, hs⟩ := bootFit_stair sq gm h hp hn
  have hl : ∀ j, j + 1 < n → (fit.ldfs.map Prod.snd)[j]? = some (.fin (Spec.wFactor n c j)) := by
    intro j hj
    rw [hs.ldfs, List.getElem?_map, List.getElem?_range (by omega), Option.map_some, if_pos hj]
  refine ⟨fit, hf, hs.cum_origins, hs.cum_devs, ?_, ?_, hl, ?_⟩
  · intro i hi j hj
    by_cases hij : i + j < n
    · rw [hs.cum.obs i j hij, h.obs i j hij]; simp
    · rw [hs.cum.miss i j hi hj (by omega), h.miss i j hi hj (by omega)]
  · intro i hi
    rw [hs.cum.obs i _ (by omega), h.obs i _ (by omega), fitCum_latest]
  · intro i j hij
    refine ⟨_, hl j (by omega), ?_⟩
    rw [hs.cum.obs i (j + 1) (by omega), hs.cum.obs i j (by omega), Num.fin_mul, fitCum_succ hp hij]

example : ((bootFit exSqrt (fun _ => .nan) exBoot exBoot.a2aind0).map (fun f => f.ldfs)) =
      .ok [(1, .fin 2), (2, .fin (3 / 2)), (3, .fin 1)] ∧
    ((bootFit exSqrt (fun _ => .nan) exBoot exBoot.a2aind0).map
      (fun f => (List.range 3).map f.fitCum.row)) = .ok
      [[.fin 100, .fin 200, .fin 300], [.fin 100, .fin 200, .nan], [.fin 100, .nan, .nan]] := by
  decide +kernel

/-! ## C52 -/

theorem sumSkip_prefix {n k : ℕ} (hk : k ≤ n) {f : ℕ → Num K} {g : ℕ → K}
    (h1 : ∀ j < k, f j = .fin (g j)) (h2 : ∀ j < n, k ≤ j → f j = .nan) :
    Num.sumSkip ((List.range n).map f) = .fin (∑ j ∈ Finset.range k, g j) := by
  rw [range_map_split hk, Num.sumSkip_append, List.map_congr_left (g := fun j => Num.fin (g j)),
    sumSkip_fin_range, Num.sumSkip_all_nan, add_zero]
  · intro j hj
    rw [List.mem_range] at hj
    exact h2 _ (by omega) (by omega)
  · intro j hj
    exact h1 j (List.mem_range.1 hj)

theorem Spec.Stair.rowSum (h : Spec.Stair t n c) {i : ℕ} (hi : i < n) :
    Num.sumSkip (t.row i) = .fin (∑ j ∈ Finset.range (n - i), c i j) := by
  unfold Tri.row
  rw [h.nc]
  apply sumSkip_prefix (by omega)
  · intro j hj; exact h.obs i j (by omega)
  · intro j hj hge; exact h.miss i j hi hj (by omega)

theorem Spec.Stair.colTotal (h : Spec.Stair t n c) {j : ℕ} (hj : j < n) :
    Num.sumSkip (t.col j) = .fin (∑ i ∈ Finset.range (n - j), c i j) := by
  unfold Tri.col
  rw [h.nr]
  apply sumSkip_prefix (by omega)
  · intro i hi; exact h.obs i j (by omega)
  · intro i hi hge; exact h.miss i j hi hj (by omega)

/-- **C52** the fitted increments have the row totals and the column totals of the observed increments
(`to_incr` of the data). -/
theorem C52_marginals (sq : Num K → Num K) (gm : List (Num K) → Num K) (h : Spec.Stair t n c)
    (hp : Spec.Positive n c) (hn : 3 ≤ n) :
    ∃ fit obs, bootFit sq gm t t.a2aind0 = .ok fit ∧ t.toIncr = .ok obs ∧
      (∀ i < n, Num.sumSkip (fit.fitIncr.row i) = Num.sumSkip (obs.row i)) ∧
      ∀ j < n, Num.sumSkip (fit.fitIncr.col j) = Num.sumSkip (obs.col j) := by
  obtain ⟨fit, hf, hs⟩ := bootFit_stair sq gm h hp hn
  obtain ⟨u, hu, -, -, hus⟩ := h.toIncr hp (by omega)
  refine ⟨fit, u, hf, hu, ?_, ?_⟩
  · intro i hi
    rw [hs.incr.rowSum hi, hus.rowSum hi]
    rw [show n - i = n - 1 - i + 1 by omega, incr_sum, incr_sum, fitCum_latest]
  · intro j hj
    rw [hs.incr.colTotal hj, hus.colTotal hj]
    congr 1
    unfold Spec.incr
    by_cases h0 : j = 0
    · subst h0
      simp only [if_true]
      exact (fitCum_cols hp (n - 1) 0 (by omega)).1
    · simp only [if_neg h0, Finset.sum_sub_distrib]
      obtain ⟨h1, -⟩ := fitCum_cols hp (n - 1 - j) j (by omega)
      obtain ⟨-, h2⟩ := fitCum_cols hp (n - j) (j - 1) (by omega)
      rw [show n - 1 - (j - 1) = n - j by omega] at h2
      rw [h1, h2]

example : ((bootFit exSqrt (fun _ => .nan) exBoot exBoot.a2aind0).map
      (fun f => (List.range 3).map f.fitIncr.row)) = .ok
        [[.fin 100, .fin 100, .fin 100], [.fin 100, .fin 100, .nan], [.fin 100, .nan, .nan]] ∧
    (exBoot.toIncr.map (fun u => (List.range 3).map u.row)) = .ok
        [[.fin 110, .fin 90, .fin 100], [.fin 90, .fin 110, .nan], [.fin 100, .nan, .nan]] := by
  decide +kernel

/-! ## C54 -/

/-- **C54, failure.** The degrees of freedom exceed the number of cells minus the number of parameters by
twice the number of origins, for every triangle. -/
theorem C54_dof (t : Tri K) :
    bootDof t = ((t.nbrCells : Int) - ((t.nr : Int) + (t.nc : Int) - 1)) + 2 * (t.nr : Int) := by
  unfold bootDof
  ring

/-- **C54 fails** on every triangle with an origin. -/
theorem C54_fails (t : Tri K) (h : 0 < t.nr) :
    bootDof t ≠ (t.nbrCells : Int) - ((t.nr : Int) + (t.nc : Int) - 1) := by
  rw [C54_dof]
  omega

theorem nbrCells_stair (h : Spec.Stair t n c) : t.nbrCells = ∑ j ∈ Finset.range n, (n - j) := by
  unfold Tri.nbrCells
  rw [h.nc]
  have : ∀ j ∈ List.range n, ((t.col j).filter (fun v => !v.isNaN)).length = n - j := by
    intro j hj
    rw [List.mem_range] at hj
    unfold Tri.col
    rw [h.nr, range_map_split (k := n - j) (by omega), List.filter_append, List.filter_eq_self.2,
      filter_nil_of]
    · simp
    · intro v hv
      rw [List.mem_map] at hv
      obtain ⟨i, hi, rfl⟩ := hv
      rw [List.mem_range] at hi
      rw [h.miss _ j (by omega) hj (by omega)]; simp
    · intro v hv
      rw [List.mem_map] at hv
      obtain ⟨i, hi, rfl⟩ := hv
      rw [List.mem_range] at hi
      rw [h.obs i j (by omega)]; simp
  rw [List.map_congr_left this]
  clear this h
  induction n with
  | zero => rfl
  | succ n ih =>
    rw [Finset.sum_range_succ']
    rw [List.range_succ_eq_map, List.map_cons, List.map_map, List.sum_cons]
    simp only [Function.comp_def, Nat.succ_eq_add_one, Nat.add_sub_add_right, Nat.sub_zero]
    rw [ih]
    omega

/-- **C54, what the code computes** on an `n x n` staircase: `n(n+1)/2 + 1` instead of
`n(n+1)/2 - 2n + 1` degrees of freedom. -/
theorem C54_stair_partial (h : Spec.Stair t n c) : 2 * bootDof t = (n : Int) * (n + 1) + 2 := by
  unfold bootDof
  rw [nbrCells_stair h, h.nr, h.nc]
  have : 2 * ∑ j ∈ Finset.range n, (n - j) = n * (n + 1) := by
    clear h
    induction n with
    | zero => rfl
    | succ n ih =>
      rw [Finset.sum_range_succ', Nat.mul_add]
      simp only [Nat.add_sub_add_right, Nat.sub_zero]
      rw [ih]
      ring
  have h2 : (2 : Int) * ((∑ j ∈ Finset.range n, (n - j) : ℕ) : Int) = (n : Int) * (n + 1) := by
    exact_mod_cast this
  linarith

example : exBoot.nbrCells = 6 ∧ bootDof exBoot = 7 ∧
    ((exBoot.nbrCells : Int) - ((exBoot.nr : Int) + (exBoot.nc : Int) - 1)) = 1 := by decide +kernel

end

/-! ## C53 -/

section
variable {t : Tri ℝ} {n : ℕ} {c : ℕ → ℕ → ℝ}

/-- Fitted increments of the data, in terms of the reported factors (specification). -/
noncomputable def Spec.fitIncr (n : ℕ) (c : ℕ → ℕ → ℝ) (i j : ℕ) : ℝ := Spec.incr (Spec.fitCum n c) i j

theorem dof_pos (h : Spec.Stair t n c) : (0 : ℝ) < ((bootDof t : Int) : ℝ) := by
  have h2 := C54_stair_partial h
  have : 0 < bootDof t := by nlinarith [Int.natCast_nonneg n]
  exact_mod_cast this

/-- **C53** on observed cells with a fitted increment other than zero the residual is
`(observed - fitted) / sqrt |fitted|`; adjusted residuals are a common positive multiple of the
residuals; the sampling distribution consists of the adjusted residuals outside the last origin and the
last period that are neither missing nor zero. -/
theorem C53_residuals (gm : List (Num ℝ) → Num ℝ) (h : Spec.Stair t n c) (hp : Spec.Positive n c)
    (hn : 3 ≤ n) :
    ∃ fit, bootFit Num.sqrt gm t t.a2aind0 = .ok fit ∧
      (∀ i j, i + j < n → fit.fitIncr.cell i j = .fin (Spec.fitIncr n c i j)) ∧
      (∀ i j, i + j < n → Spec.fitIncr n c i j ≠ 0 → fit.residUs.cell i j =
        .fin ((Spec.incr c i j - Spec.fitIncr n c i j) / Real.sqrt |Spec.fitIncr n c i j|)) ∧
      (∀ i < n, ∀ j < n, n ≤ i + j → fit.residUs.cell i j = .nan) ∧
      (∃ a : ℝ, 0 < a ∧ a ^ 2 = (t.nbrCells : ℝ) / ((bootDof t : Int) : ℝ) ∧
        ∀ i j, fit.residAdj.cell i j = .fin a * fit.residUs.cell i j) ∧
      (∀ v, v ∈ fit.sampling ↔ ∃ i j, i < n - 1 ∧ j < n - 1 ∧ v = fit.residAdj.cell i j ∧
        v ≠ .nan ∧ v ≠ .fin 0) ∧
      ((∀ i j, i + j < n → Spec.fitIncr n c i j ≠ 0) → fit.scale = .fin ((∑ j ∈ Finset.range n,
        ∑ i ∈ Finset.range (n - j), ((Spec.incr c i j - Spec.fitIncr n c i j) /
          Real.sqrt |Spec.fitIncr n c i j|) ^ 2) / ((bootDof t : Int) : ℝ))) := by
  obtain ⟨fit, hf, hs⟩ := bootFit_stair Num.sqrt gm h hp hn
  have hdof := dof_pos h
  have hcells : (0 : ℝ) < (t.nbrCells : ℝ) := by
    have : 0 < t.nbrCells := by
      rw [nbrCells_stair h]
      apply Finset.sum_pos
      · intro j hj; rw [Finset.mem_range] at hj; omega
      · exact ⟨0, Finset.mem_range.2 (by omega)⟩
    exact_mod_cast this
  have hq : 0 < (t.nbrCells : ℝ) / ((bootDof t : Int) : ℝ) := div_pos hcells hdof
  have hus : ∀ i j, i + j < n → Spec.fitIncr n c i j ≠ 0 → fit.residUs.cell i j =
        .fin ((Spec.incr c i j - Spec.fitIncr n c i j) / Real.sqrt |Spec.fitIncr n c i j|) := by
    intro i j hij hne
    rw [hs.us i j hij, Num.sqrt_fin (abs_nonneg _), Num.fin_div]
    · rfl
    · exact (Real.sqrt_pos.2 (abs_pos.2 hne)).ne'
  have hnr : fit.residUs.nr = n := by unfold Tri.nr; rw [hs.us_origins]; exact h.nr
  have hnc : fit.residUs.nc = n := by unfold Tri.nc; rw [hs.us_devs]; exact h.nc
  refine ⟨fit, hf, hs.incr.obs, hus, fun i hi j hj hij => hs.us_miss i j hi hj hij, ?_, ?_, ?_⟩
  · refine ⟨Real.sqrt ((t.nbrCells : ℝ) / ((bootDof t : Int) : ℝ)), Real.sqrt_pos.2 hq,
      Real.sq_sqrt hq.le, ?_⟩
    intro i j
    rw [hs.adj]
    unfold residAdj
    simp only
    rw [Num.sqrt_fin hq.le]
  · intro v
    rw [hs.sampling]
    have e1 : fit.residAdj.nr = n := by rw [hs.adj]; exact hnr
    have e2 : fit.residAdj.nc = n := by rw [hs.adj]; exact hnc
    unfold samplingDist
    rw [e1, e2, List.mem_filter]
    simp only [List.mem_flatMap, List.mem_map, List.mem_range, Bool.and_eq_true, Bool.not_eq_true']
    constructor
    · rintro ⟨⟨i, hi, j, hj, rfl⟩, h1, h2⟩
      refine ⟨i, j, hi, hj, rfl, (Num.isNaN_false_iff _).1 h1, ?_⟩
      intro e
      rw [e] at h2
      simp [Num.zero_def] at h2
    · rintro ⟨i, j, hi, hj, rfl, h1, h2⟩
      refine ⟨⟨i, hi, j, hj, rfl⟩, (Num.isNaN_false_iff _).2 h1, ?_⟩
      cases hv : fit.residAdj.cell i j with
      | nan => exact absurd hv h1
      | pinf => simp [Num.eqF, Num.zero_def]
      | ninf => simp [Num.eqF, Num.zero_def]
      | fin y =>
        rw [Num.zero_def, Num.eqF_fin]
        simp only [decide_eq_false_iff_not]
        rintro rfl
        exact h2 hv
  · intro hne
    rw [hs.scale]
    unfold scaleParam
    rw [hnc, List.map_congr_left (g := fun j => Num.fin (∑ i ∈ Finset.range (n - j),
      ((Spec.incr c i j - Spec.fitIncr n c i j) / Real.sqrt |Spec.fitIncr n c i j|) ^ 2)),
      sumSkip_fin_range, Num.fin_div _ _ hdof.ne']
    intro j hj
    rw [List.mem_range] at hj
    unfold Tri.col
    rw [hnr, List.map_map]
    apply sumSkip_prefix (by omega)
    · intro i hi
      simp only [Function.comp]
      rw [hus i j (by omega) (hne i j (by omega)), Num.pow_fin]
    · intro i hi hge
      simp only [Function.comp]
      rw [hs.us_miss i j hi hj (by omega)]
      rfl

end

example : ((bootFit exSqrt (fun _ => .nan) exBoot exBoot.a2aind0).map
      (fun f => (List.range 3).map f.residUs.row)) = .ok
        [[.fin 1, .fin (-1), .fin 0], [.fin (-1), .fin 1, .nan], [.fin 0, .nan, .nan]] ∧
    ((bootFit exSqrt (fun _ => .nan) exBoot exBoot.a2aind0).map (fun f => f.scale)) = .ok (.fin (4 / 7)) := by
  decide +kernel

end Trikit
