import Verif.Props.ExcludeHigh
import Verif.BootFit

/-!
# C216: excluded link ratios and the bootstrap

`boot_cl` (bootstrap.py:104-213) takes its factors from the row `all-weighted` of `a2a_avgs` (triangle.py:777-856).
Excluded link ratios should not enter the factors, the fitted triangle and the residuals.  `_weighted` looks at the amounts
and not at the indicator, so that exclusions change nothing, unless `a2a_avgs` raises.
-/

set_option linter.unusedSectionVars false

namespace Trikit

variable {K : Type} [Field K] [LinearOrder K] [IsStrictOrderedRing K]
variable {t ind : Tri K} {n : ℕ} {c w : ℕ → ℕ → K}

/-! ## specification -/

/-- Volume weighted factor of period `j` from the link ratios that are kept. -/
def Spec.keptFactor (n : ℕ) (c w : ℕ → ℕ → K) (j : ℕ) : K :=
  (∑ i ∈ Finset.range (n - 1 - j) with w i j = 1, c i (j + 1)) / ∑ i ∈ Finset.range (n - 1 - j) with w i j = 1, c i j

/-! ## weighted rows do not depend on the indicator -/

theorem ldfsByName_weighted (gm : List (Num K) → Num K) (h : Spec.Stair t n c) (hp : Spec.Positive n c) (hi : IndOn t ind n w)
    {tab : AvgTable K} (htab : a2aAvgs gm t ind = .ok tab) {k : ℕ} (hk : k < n - 1) (tail : Num K) :
    ldfsByName gm t ind (Spec.avgName "weighted" k) tail = ldfsByName gm t t.a2aind0 (Spec.avgName "weighted" k) tail := by
  obtain ⟨tab0, htab0⟩ := a2aAvgs_noexcl_ok gm h hp
  have hd : k = 0 ∨ k < t.a2a.nr := Or.inr (by rw [h.a2a_nr hp.ne_zero]; exact hk)
  obtain ⟨d1, v1, l1, m1⟩ := a2aAvgs_lookup htab (k := .weighted) (d := k) hd
  obtain ⟨d2, v2, l2, m2⟩ := a2aAvgs_lookup htab0 (k := .weighted) (d := k) hd
  rw [avgName_eq] at l1 l2
  rw [adj_nc h hp.ne_zero hi] at m1
  rw [adj_nc h hp.ne_zero (h.indOn0 hp.ne_zero)] at m2
  have e : v1 = v2 := by
    have : (Except.ok v1 : Except PyErr _) = .ok v2 := by rw [← m1, ← m2]; rfl
    injection this
  unfold ldfsByName
  rw [htab, htab0]
  show (match tab.rows.lookup (Spec.avgName AvgKind.weighted.name k) with | none => _ | some vals => _) =
    (match tab0.rows.lookup (Spec.avgName AvgKind.weighted.name k) with | none => _ | some vals => _)
  rw [l1, l2, d1, d2, e]

/-! ## C216 -/

/-- **C216, the code violates it.** For every positive staircase, generator, seed and number of simulations, and all exclusions
that keep the newest link ratio of every period: `boot_cl` returns exactly what it returns without exclusions. -/
theorem C216_boot_fails {S : Type} (P : Prng S K) (sq : Num K → Num K) (gm : List (Num K) → Num K) (h : Spec.Stair t n c)
    (hp : Spec.Positive n c) (hi : IndOn t ind n w) (hw : ∀ i j, i + j + 1 < n → w i j = 0 ∨ w i j = 1)
    (hkeep : ∀ i j, i + j + 2 = n → w i j = 1) (hn : 2 ≤ n) (sims : ℕ) (isGamma parametric : Bool) (arg : RandArg)
    (s : World S) :
    bootCall P sq gm t ind sims isGamma parametric arg s = bootCall P sq gm t t.a2aind0 sims isGamma parametric arg s := by
  obtain ⟨tab, htab⟩ := (C27_exclusion_partial gm h hp hi hw).1 (fun j hj => hkeep _ _ (by omega))
  have e := ldfsByName_weighted gm h hp hi htab (k := 0) (by omega) 1
  have e' : ldfsByName gm t ind "all-weighted" 1 = ldfsByName gm t t.a2aind0 "all-weighted" 1 := e
  unfold bootCall bootFit
  rw [e']

/-- The same of `base_cl` with weighted averages of any window. -/
theorem C216_base_fails (gm : List (Num K) → Num K) (h : Spec.Stair t n c) (hp : Spec.Positive n c) (hi : IndOn t ind n w)
    (hw : ∀ i j, i + j + 1 < n → w i j = 0 ∨ w i j = 1) (hkeep : ∀ i j, i + j + 2 = n → w i j = 1) {k : ℕ} (hk : k < n - 1)
    (tail : Num K) :
    baseCL gm t ind (Spec.avgName "weighted" k) tail = baseCL gm t t.a2aind0 (Spec.avgName "weighted" k) tail := by
  obtain ⟨tab, htab⟩ := (C27_exclusion_partial gm h hp hi hw).1 (fun j hj => hkeep _ _ (by omega))
  unfold baseCL
  rw [ldfsByName_weighted gm h hp hi htab hk]

/-- With the newest link ratio of some period excluded `boot_cl` raises `IndexError`, whatever the other arguments. -/
theorem C216_boot_raises {S : Type} (P : Prng S K) (sq : Num K → Num K) (gm : List (Num K) → Num K) (h : Spec.Stair t n c)
    (hp : Spec.Positive n c) (hi : IndOn t ind n w) (hw : ∀ i j, i + j + 1 < n → w i j = 0 ∨ w i j = 1)
    {i0 j0 : ℕ} (h0 : i0 + j0 + 2 = n) (hx : w i0 j0 = 0) (sims : ℕ) (isGamma parametric : Bool) (arg : RandArg)
    (s : World S) :
    bootCall P sq gm t ind sims isGamma parametric arg s = .error .indexError := by
  have htab := (C27_exclusion_partial gm h hp hi hw).2 ⟨j0, by omega, by rw [show n - 2 - j0 = i0 by omega]; exact hx⟩
  unfold bootCall bootFit ldfsByName
  rw [htab]
  rfl

/-- **C216, part that holds.** With exclusions that keep the newest link ratio of every period the factor of a period is the
one from the kept link ratios exactly when the excluded origins of the period together have developed like the kept ones, so
in particular when nothing of the period is excluded.  The full statement asks for it always. -/
theorem C216_factor_partial (sq : Num K → Num K) (gm : List (Num K) → Num K) (h : Spec.Stair t n c) (hp : Spec.Positive n c)
    (hi : IndOn t ind n w) (hw : ∀ i j, i + j + 1 < n → w i j = 0 ∨ w i j = 1) (hkeep : ∀ i j, i + j + 2 = n → w i j = 1)
    (hn : 3 ≤ n) :
    ∃ fit, bootFit sq gm t ind = .ok fit ∧ ∀ j < n - 1, ∃ f, fit.ldfs.iloc j = .fin f ∧
      (f = Spec.keptFactor n c w j ↔
        ∑ i ∈ Finset.range (n - 1 - j) with w i j = 0, c i (j + 1) =
          Spec.keptFactor n c w j * ∑ i ∈ Finset.range (n - 1 - j) with w i j = 0, c i j) := by
  obtain ⟨tab, htab⟩ := (C27_exclusion_partial gm h hp hi hw).1 (fun j hj => hkeep _ _ (by omega))
  have e : ldfsByName gm t ind "all-weighted" 1 = ldfsByName gm t t.a2aind0 "all-weighted" 1 :=
    ldfsByName_weighted gm h hp hi htab (k := 0) (by omega) 1
  obtain ⟨fit, h1, h2⟩ := bootFit_stair sq gm h hp hn
  refine ⟨fit, by rw [← h1]; unfold bootFit; rw [e], fun j hj => ⟨Spec.wFactor n c j, ?_, ?_⟩⟩
  · rw [iloc_of_snd h2.ldfs (by omega), if_pos (by omega)]
  · have hsplit : ∀ g : ℕ → K, ∑ i ∈ Finset.range (n - 1 - j), g i =
        ∑ i ∈ Finset.range (n - 1 - j) with w i j = 1, g i + ∑ i ∈ Finset.range (n - 1 - j) with w i j = 0, g i := by
      intro g
      rw [← Finset.sum_filter_add_sum_filter_not _ (fun i => w i j = 1)]
      congr 1
      apply Finset.sum_congr _ fun _ _ => rfl
      ext i
      simp only [Finset.mem_filter, Finset.mem_range]
      constructor
      · rintro ⟨a, b⟩; exact ⟨a, (hw i j (by omega)).resolve_right b⟩
      · rintro ⟨a, b⟩; exact ⟨a, by rw [b]; exact zero_ne_one⟩
    have hpos : 0 < ∑ i ∈ Finset.range (n - 1 - j) with w i j = 1, c i j := by
      refine Finset.sum_pos (fun i hi => hp _ _ ?_) ⟨n - 2 - j, ?_⟩
      · have := Finset.mem_range.1 (Finset.mem_filter.1 hi).1; omega
      · exact Finset.mem_filter.2 ⟨Finset.mem_range.2 (by omega), hkeep _ _ (by omega)⟩
    have hnn : 0 ≤ ∑ i ∈ Finset.range (n - 1 - j) with w i j = 0, c i j :=
      Finset.sum_nonneg fun i hi => (hp _ _ (by have := Finset.mem_range.1 (Finset.mem_filter.1 hi).1; omega)).le
    unfold Spec.wFactor Spec.keptFactor
    rw [hsplit (fun i => c i (j + 1)), hsplit (fun i => c i j), div_eq_iff (by positivity)]
    rw [mul_add, div_mul_cancel₀ _ hpos.ne', add_right_inj]

/-! ## an example -/

/-- Four origins. -/
def exExBoot : ℕ → ℕ → ℚ := fun i j =>
  (![![100, 200, 250, 260], ![200, 300, 330, 0], ![400, 700, 0, 0], ![100, 0, 0, 0]] : Fin 4 → Fin 4 → ℚ)
    (Fin.ofNat 4 i) (Fin.ofNat 4 j)

/-- With the link ratio 2 of the first origin excluded the kept link ratios give 5/3, but the factor of `boot_cl` stays
12/7. -/
example :
    Spec.keptFactor 4 exExBoot (fun i j => if i = 0 ∧ j = 0 then 0 else 1) 0 = 5 / 3 ∧
    (bootFit (fun x => x) (fun _ => .nan) (stairTri 4 exExBoot) ((stairTri 4 exExBoot).a2aind0.setAt 2001 1 0)).toOption.map
      (fun f => f.ldfs.map Prod.snd) = some [.fin (12 / 7), .fin (29 / 25), .fin (26 / 25), 1] ∧
    (bootFit (fun x => x) (fun _ => .nan) (stairTri 4 exExBoot) ((stairTri 4 exExBoot).a2aind0.setAt 2003 1 0)).toOption.isNone
      = true := by
  refine ⟨?_, ?_, ?_⟩ <;> decide +kernel

end Trikit
