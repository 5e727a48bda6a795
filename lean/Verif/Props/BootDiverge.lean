import Verif.Unbounded
import Verif.Props.BootLimit

/-!
# Long runs of the parametric bootstrap (C202)

The simulated reserve of the second oldest origin of a parametric bootstrap has no mean (C199).  So the reserve and the
standard error reported for it do not settle, however many simulations are run.
-/

set_option linter.unusedSectionVars false

namespace Trikit

open MeasureTheory ProbabilityTheory Filter Topology

section
variable {Ω E : Type} [MeasurableSpace Ω] [MeasurableSpace E] {μ : Measure Ω} [IsProbabilityMeasure μ]
variable {t m : Tri ℝ} {n : ℕ} {c v w rt : ℕ → ℕ → ℝ} {Z : E → ℝ} {G : E → ℝ → ℝ → ℝ} {b : ℝ} {seed : ℕ → Ω → E}

/-- Draws of the simulations as one sequence. -/
theorem block_large (hs : Spec.Seeds μ seed) {F : (ℕ → E) → ℝ} (hF : Measurable F) {N : ℕ} (hN : 0 < N)
    (hc : ∀ e e' : ℕ → E, (∀ p < N, e p = e' p) → F e = F e') (hn : ¬ Integrable (fun ω => F (fun p => seed p ω)) μ) :
    ∀ᵐ ω ∂μ, ∀ κ : ℝ, ∀ s0 : ℕ, ∃ s ≥ s0, κ * s < |F (fun p => seed (s * N + p) ω)| := by
  refine draws_large (X := fun s ω => F (fun p => seed (s * N + p) ω))
    (fun s => hF.comp (measurable_pi_lambda _ (fun p => hs.meas _))) (fun s => hs.blockLaw hF N s) (fun κ => ?_) (by
      simpa using hn)
  have hsh : ∀ s, Measurable (fun (e : ℕ → E) p => e (s * N + p)) := fun s =>
    measurable_pi_lambda _ (fun p => measurable_pi_apply _)
  refine indep_sets hs (T := fun s => Finset.Ico (s * N) ((s + 1) * N)) (fun s s' hss => ?_)
    (B := fun s => {e | κ * s < |F (fun p => e (s * N + p))|})
    (fun s => measurableSet_lt measurable_const (hF.comp (hsh s)).abs) (fun s e e' he => ?_)
  · show Disjoint _ _
    rw [Finset.disjoint_left]
    intro p hp hp'
    rw [Finset.mem_Ico] at hp hp'
    apply hss
    have e : ∀ k, k * N ≤ p → p < (k + 1) * N → p / N = k := by
      intro k h1 h2
      rw [Nat.div_eq_iff hN]
      rw [Nat.succ_mul] at h2
      omega
    rw [← e s hp.1 hp.2, ← e s' hp'.1 hp'.2]
  · have : F (fun p => e (s * N + p)) = F (fun p => e' (s * N + p)) := by
      refine hc _ _ (fun p hp => he _ ?_)
      rw [Finset.mem_Ico, Nat.succ_mul]
      omega
    show κ * s < |F (fun p => e (s * N + p))| ↔ κ * s < |F (fun p => e' (s * N + p))|
    rw [this]

/-- Columns of a run of `S` simulations. -/
theorem run_columns (ht : Spec.Stair t n c) (hn : 0 < n) (hm : Spec.Stair m n v) (ho : m.origins = t.origins)
    (hd : m.devs = t.devs) (hv : ∀ i j, i + j < n → 0 < j → 0 ≤ v i j) (hb : 0 < b) (ω : Ω) {S : ℕ} (hS : 2 ≤ S) {i : ℕ}
    (hi : i < n) (h0 : 0 < i) :
    let res := (bootSims Num.sqrt t m (.fin b) S (Spec.residOf Z seed ω) (Spec.gammaOf G seed ω)).reserves
    let blk : ℕ → ℕ → E := fun s p => seed (s * (n * n) + p) ω
    let rt : ℕ → ℕ → ℝ := fun i j => √(Spec.startIncr v i j)
    (bootReserves t res)[i]? = some (.fin ((∑ s ∈ Finset.range S, blockUlt t n (Spec.startIncr v) rt Z G b (blk s) i) / S -
      c i (n - 1 - i))) ∧
    (bootStdErr Num.sqrt t S res)[i]? = some (.fin √(Spec.sampleVar S
      (fun s => blockRes t n (Spec.startIncr v) rt Z G b (blk s) i))) := by
  intro res blk rt
  have hsim := bootSims_stair' (S := S) ht hn (by omega) hm ho hd (sq := Num.sqrt) (rt := rt)
    (fun i j hij => Num.sqrt_fin (startIncr_nonneg' hv hij))
    (draw := Spec.residOf Z seed ω) (fun _ _ => rfl) (scale := .fin b) (gam := Spec.gammaOf G seed ω) (by
      intro p _ y
      rw [abs_div_fin hb]; rfl)
  have hres : (res.filter (fun r => decide (r.origin = t.oAt i))).map ResRow.reserve =
      (List.range S).map (fun s => .fin (blockRes t n (Spec.startIncr v) rt Z G b (blk s) i)) := by
    show (List.filter _ (bootSims _ _ _ _ _ _ _).reserves).map _ = _
    rw [hsim.reserves_origin ht hi, List.map_map]
    refine List.map_congr_left (fun s _ => ?_)
    rw [Function.comp_apply, (block_row hb.ne' s ω i).2]
  have hult : (res.filter (fun r => decide (r.origin = t.oAt i))).map ResRow.ultimate =
      (List.range S).map (fun s => .fin (blockUlt t n (Spec.startIncr v) rt Z G b (blk s) i)) := by
    show (List.filter _ (bootSims _ _ _ _ _ _ _).reserves).map _ = _
    rw [hsim.reserves_origin ht hi, List.map_map]
    refine List.map_congr_left (fun s _ => ?_)
    rw [Function.comp_apply, (block_row hb.ne' s ω i).1]
  constructor
  · have e1 : (bootUltimates t res)[i]? =
        some (.fin ((∑ s ∈ Finset.range S, blockUlt t n (Spec.startIncr v) rt Z G b (blk s) i) / S)) := by
      unfold bootUltimates
      rw [List.getElem?_map, List.getElem?_range (by rw [ht.nr]; exact hi), Option.map_some, if_neg (by omega), hult,
        meanSkip_range _ (by omega)]
    unfold bootReserves
    rw [List.getElem?_zipWith, e1, List.getElem?_range (by rw [ht.nr]; exact hi)]
    show some (Num.fin _ - Ser.get t.latestByOrigin (t.oAt i)) = _
    rw [ht.latest_get hi]
    rfl
  · have hlen : (t.origins.map (fun o => stdL Num.sqrt ((res.filter (fun r => decide (r.origin = o))).map
        ResRow.reserve))).length = n := by
      rw [List.length_map]; exact ht.nr
    unfold bootStdErr
    rw [List.getElem?_append_left (by rw [hlen]; exact hi), ← origins_map t, List.map_map, List.getElem?_map,
      List.getElem?_range (by rw [ht.nr]; exact hi), Option.map_some, Function.comp_apply, hres, stdL_range _ hS,
      Num.sqrt_fin (sampleVar_nonneg hS _)]

/-- **C202** The parametric bootstrap of a positive triangle of at least three origins whose columns do not shrink in
total, whose last factor is not 1 and whose residuals are not all equal: almost surely, for every bound and every number
of simulations, there is a larger number of simulations with which the summary reports a reserve of the second oldest
origin beyond the bound, and one with which it reports a standard error beyond the bound. -/
theorem C202_unbounded (gm : List (Num ℝ) → Num ℝ) (ht : Spec.Stair t n c) (hp : Spec.Positive n c) (hn : 3 ≤ n)
    (h1 : t.dAt 0 = 1) {fit : BootFit ℝ} (hf : bootFit Num.sqrt gm t t.a2aind0 = .ok fit)
    (hg : ∀ j, j + 1 < n → ∑ i ∈ Finset.range (n - 1 - j), c i j ≤ ∑ i ∈ Finset.range (n - 1 - j), c i (j + 1))
    (hlast : c 0 (n - 2) ≠ c 0 (n - 1)) {xs : List ℝ} (hxs : fit.sampling = xs.map Num.fin) {z z' : ℝ} (hz : z ∈ xs)
    (hz' : z' ∈ xs) (hzz : z ≠ z') (hb : 0 < b) (hsc : fit.scale = .fin b)
    (hs : Spec.Seeds μ seed) (hZ : Spec.Resid μ true xs Z seed) (hG : Spec.MeanDraws μ seed G b) :
    let run := fun S ω => (bootSims Num.sqrt t fit.fitIncr fit.scale S (Spec.residOf Z seed ω)
      (Spec.gammaOf G seed ω)).reserves
    let table := fun S ω => bootSummary t fit.ldfs (bootUltimates t (run S ω)) (bootReserves t (run S ω))
      (bootStdErr Num.sqrt t S (run S ω))
    ∀ᵐ ω ∂μ, ∀ (B : ℝ) (S0 : ℕ),
      (∃ S ≥ S0, ∃ rows row x, table S ω = .ok rows ∧ rows[1]? = some row ∧ row.reserve = .fin x ∧ B < |x|) ∧
      (∃ S ≥ S0, ∃ rows row x, table S ω = .ok rows ∧ rows[1]? = some row ∧ row.stdErr = .fin x ∧ B < x) := by
  intro run table
  obtain ⟨fit', hf', hfs⟩ := bootFit_stair Num.sqrt gm ht hp hn
  obtain rfl : fit' = fit := by
    rw [hf] at hf'
    exact (Except.ok.inj hf').symm
  obtain ⟨f1, -, -, -, -, -⟩ := fit_incr hp (by omega) hg
  have hx2 : 2 ≤ xs.length := by
    match xs, hz, hz' with
    | [a], hz, hz' =>
      rw [List.mem_singleton] at hz hz'
      exact absurd (hz.trans hz'.symm) hzz
    | _ :: _ :: _, _, _ => simp
  have hx : xs ≠ [] := by rintro rfl; simp at hx2
  have hnn : 0 < n * n := Nat.mul_pos (by omega) (by omega)
  obtain ⟨w, hw⟩ : ∃ w, w = Spec.startIncr (Spec.incr (Spec.fitCum n c)) := ⟨_, rfl⟩
  obtain ⟨rt, hrt⟩ : ∃ rt : ℕ → ℕ → ℝ, rt = fun i j => √(Spec.startIncr (Spec.incr (Spec.fitCum n c)) i j) := ⟨_, rfl⟩
  -- neither the reserve nor the ultimate has a mean
  have hR : ¬ Integrable (fun ω => blockRes t n w rt Z G b (fun p => seed p ω) 1) μ := by
    obtain ⟨R', q1, q2⟩ := C199_fit (s := 0) (S := 1) gm ht hp hn h1 hf hg hlast hxs hz hz' hzz hb hsc hs hZ hG one_pos
    have e : R' = fun ω => blockRes t n w rt Z G b (fun p => seed p ω) 1 := by
      funext ω
      obtain ⟨q, hq, hq1, hq2, hq3⟩ := q1 ω
      have hsim := bootSims_stair' (S := 1) ht (by omega) (by omega) hfs.incr hfs.incr_origins hfs.incr_devs
        (sq := Num.sqrt) (rt := rt) (fun i j hij => by rw [hrt]; exact Num.sqrt_fin (startIncr_nonneg' f1 hij))
        (draw := Spec.residOf Z seed ω) (fun _ _ => rfl) (scale := fit'.scale) (gam := Spec.gammaOf G seed ω) (by
          intro p _ y
          rw [hsc, abs_div_fin hb]; rfl)
      obtain ⟨s', i', hs', hi', rfl⟩ := hsim.mem_reserves.1 hq
      obtain rfl : i' = 1 := ht.oAt_inj hi' (by omega) hq2
      obtain rfl : s' = 0 := by omega
      have hbr := (block_row (t := t) (n := n) (w := w) (rt := rt) (Z := Z) (G := G) (seed := seed) hb.ne' 0 ω 1).2
      rw [hsc, ← hw, hbr] at hq3
      have := Num.fin.inj hq3
      rw [← this]
      simp
    rw [← e]
    exact q2
  have hU : ¬ Integrable (fun ω => blockUlt t n w rt Z G b (fun p => seed p ω) 1) μ := by
    intro hU
    obtain ⟨m1, -, -⟩ := resampled_moments (n := n) (s := 0) (v := Spec.incr (Spec.fitCum n c)) hZ hs hx (fun _ => hx2) 1
      (n - 1) (fun k hk => startIncr_nonneg' f1 (by omega))
    refine hR ((hU.sub (m1.integrable (by norm_num))).congr (ae_of_all _ (fun ω => ?_)))
    show _ - _ = blockRes t n w rt Z G b (fun p => seed p ω) 1
    unfold blockRes
    rw [if_neg one_ne_zero]
    congr 1
    unfold Spec.resampled blockCum Spec.simCum
    rw [show n - 1 - 1 + 1 = n - 1 by omega, hw, hrt]
  have lR := block_large hs (F := fun e => blockRes t n w rt Z G b e 1) (blockRes_meas hZ.meas hG.meas 1) hnn
    (fun e e' h => (block_congr h (by omega)).2) hR
  have lU := block_large hs (F := fun e => blockUlt t n w rt Z G b e 1) (blockUlt_meas hZ.meas hG.meas 1) hnn
    (fun e e' h => (block_congr h (by omega)).1) hU
  filter_upwards [lR, lU] with ω hωR hωU B S0
  have hcol := fun S (hS : 2 ≤ S) => run_columns (Z := Z) (G := G) (seed := seed) ht (by omega) hfs.incr
    hfs.incr_origins hfs.incr_devs f1 hb ω hS (i := 1) (by omega) one_pos
  rw [← hsc, ← hrt, ← hw] at hcol
  constructor
  · obtain ⟨S, hS, hlt⟩ := averages_large hωU (B + |c 1 (n - 1 - 1)|) (max S0 2)
    obtain ⟨rows, r', g1, g2, -, g4, -⟩ := summary_reserves gm ht hp hn hf f1 hb hsc (le_trans (le_max_right _ _) hS) ω
      (Z := Z) (G := G) (seed := seed)
    obtain ⟨row, k1, k2⟩ := g4.1 1 (by omega)
    refine ⟨S, le_trans (le_max_left _ _) hS, rows, row, _, g1, k1, k2, ?_⟩
    have := (hcol S (le_trans (le_max_right _ _) hS)).1
    rw [g2, List.getElem?_map, List.getElem?_range (by omega)] at this
    have e := Num.fin.inj (Option.some.inj this)
    rw [e]
    have := abs_sub_abs_le_abs_sub ((∑ s ∈ Finset.range S, blockUlt t n w rt Z G b
      (fun p => seed (s * (n * n) + p) ω) 1) / (S : ℝ)) (c 1 (n - 1 - 1))
    linarith
  · obtain ⟨S, hS, hlt⟩ := deviations_large hωR B (max S0 2)
    obtain ⟨rows, r', g1, -, -, -, g5⟩ := summary_reserves gm ht hp hn hf f1 hb hsc (le_trans (le_max_right _ _) hS) ω
      (Z := Z) (G := G) (seed := seed)
    obtain ⟨row, k1, k2⟩ := g5 1 (by omega)
    have := (hcol S (le_trans (le_max_right _ _) hS)).2
    rw [k2] at this
    exact ⟨S, le_trans (le_max_left _ _) hS, rows, row, _, g1, k1, Option.some.inj this, hlt⟩

end

/-- Runs of the parametric bootstrap of the example report reserves beyond a million for the second oldest origin, whose
chain ladder reserve is 10000. -/
example : ∃ (Ω : Type) (_ : MeasurableSpace Ω) (P : Measure Ω) (fit : BootFit ℝ) (draw : Ω → ℕ → Num ℝ)
    (gam : Ω → ℕ → Num ℝ → Num ℝ → Num ℝ), IsProbabilityMeasure P ∧
    bootFit Num.sqrt (fun _ => .nan) (stairTri 3 biasVals) (stairTri 3 biasVals).a2aind0 = .ok fit ∧
    ∀ᵐ ω ∂P, ∃ S ≥ 1000, ∃ rows row x,
      bootSummary (stairTri 3 biasVals) fit.ldfs
        (bootUltimates (stairTri 3 biasVals) (bootSims Num.sqrt (stairTri 3 biasVals) fit.fitIncr fit.scale S (draw ω)
          (gam ω)).reserves)
        (bootReserves (stairTri 3 biasVals) (bootSims Num.sqrt (stairTri 3 biasVals) fit.fitIncr fit.scale S (draw ω)
          (gam ω)).reserves)
        (bootStdErr Num.sqrt (stairTri 3 biasVals) S (bootSims Num.sqrt (stairTri 3 biasVals) fit.fitIncr fit.scale S
          (draw ω) (gam ω)).reserves) = .ok rows ∧ rows[1]? = some row ∧ row.reserve = .fin x ∧ 1000000 < |x| := by
  obtain ⟨fit, q, b, hf, hq, hq1, hxs, hb, hsc, hcell⟩ := biasVals_fit (fun _ => .nan)
  obtain ⟨Ω, E, _, _, μ, _, seed, Z, G, hs, hZ, hG⟩ := exists_bootDraws true (xs := [-q, q, q, -q]) (by simp) (by simp)
  have h := C202_unbounded (fun _ => .nan) (stairTri_stair 3 biasVals) biasVals_pos (by norm_num)
    rfl hf biasVals_grow (by norm_num [biasVals]) hxs (z := -q) (z' := q) (by simp) (by simp) (by linarith) hb hsc hs hZ
    (hG b hb)
  refine ⟨Ω, _, μ, fit, fun ω => Spec.residOf Z seed ω, fun ω => Spec.gammaOf G seed ω, inferInstance, hf, ?_⟩
  filter_upwards [h] with ω hω
  exact (hω 1000000 1000).1

end Trikit
