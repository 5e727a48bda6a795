import Verif.Props.BootKeys
import Verif.Props.BootTable

/-! # Standard errors of the bootstrap for every triangle (C110) -/

set_option linter.unusedSectionVars false

namespace Trikit

theorem stdL_perm {K : Type} [Field K] [LinearOrder K] [IsStrictOrderedRing K] (sq : Num K → Num K)
    {l l' : List (Num K)} (h : l.Perm l') : stdL sq l = stdL sq l' := by
  unfold stdL
  rw [meanL_perm h, (h.map _).sum_eq, h.length_eq]

/-- **C110** for every triangle with distinct origin labels and increasing development labels, and all draws, finite or
not: with at least two simulations `_bs_std_error` has one entry per origin and one for the total, none is negative or
missing, and that of the total is at most the sum of the others. -/
theorem C110_every {t m : Tri ℝ} (sq : Num ℝ → Num ℝ) (ho : m.origins = t.origins) (hd : m.devs = t.devs)
    (hO : t.origins.Nodup) (hD : t.devs.Pairwise (· < ·)) (h0 : t.devs ≠ []) (scale : Num ℝ) {S : ℕ} (hS : 2 ≤ S)
    (draw : ℕ → Num ℝ) (gam : ℕ → Num ℝ → Num ℝ → Num ℝ) :
    ∃ e : ℕ → ℝ, ∃ T : ℝ,
      bootStdErr Num.sqrt t S (bootSims sq t m scale S draw gam).reserves =
        (List.range t.nr).map (fun i => Num.fin (e i)) ++ [.fin T] ∧
      (∀ i < t.nr, 0 ≤ e i) ∧ 0 ≤ T ∧ T ≤ ∑ i ∈ Finset.range t.nr, e i := by
  have h := C89_totals sq ho hd hO hD h0 scale S draw gam
  generalize (bootSims sq t m scale S draw gam).reserves = res at h ⊢
  obtain ⟨R, -, -, h1, h2, -⟩ := h
  refine ⟨fun i => Real.sqrt (Spec.sampleVar S (fun s => R s i)),
    Real.sqrt (Spec.sampleVar S (fun s => ∑ i ∈ Finset.range t.nr, R s i)), ?_,
    fun i _ => Real.sqrt_nonneg _, Real.sqrt_nonneg _, sqrt_var_sum_le S t.nr R⟩
  have e1 : t.origins.map (fun o => stdL Num.sqrt ((res.filter (fun r => decide (r.origin = o))).map ResRow.reserve)) =
      (List.range t.nr).map (fun i => Num.fin (Real.sqrt (Spec.sampleVar S (fun s => R s i)))) := by
    conv_lhs => rw [← origins_map t]
    rw [List.map_map]
    refine List.map_congr_left fun i hi => ?_
    rw [Function.comp_apply, stdL_perm _ (h1 i (List.mem_range.1 hi)), stdL_range _ hS,
      Num.sqrt_fin (sampleVar_nonneg hS _)]
  have e2 : stdL Num.sqrt (bootTotals S res) =
      .fin (Real.sqrt (Spec.sampleVar S (fun s => ∑ i ∈ Finset.range t.nr, R s i))) := by
    rw [h2, stdL_range _ hS, Num.sqrt_fin (sampleVar_nonneg hS _)]
  unfold bootStdErr
  rw [e1, e2]

/-- The example of C89 with a missing draw: the squares of the standard errors. -/
example : ((bootFit exSqrt (fun _ => .nan) exBoot exBoot.a2aind0).map (fun fit =>
      (bootSims exSqrt exBoot fit.fitIncr fit.scale 2 (fun p => if p = 3 then .nan else 0)
        (fun _ a b => a * b)).reserves)).map (fun r => bootStdErr (fun v => v) exBoot 2 r) =
    .ok [.fin 0, .fin 11250, .fin 11250, .fin 0] := by
  decide +kernel

end Trikit
