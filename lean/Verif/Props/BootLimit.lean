import Verif.Props.BootJensen

/-!
# Reported reserves of long bootstrap runs (C201)

The reserves a bootstrap reports are means over its simulations, and settle with the number of simulations.  They do
not settle at the reserves of `base_cl`.
-/

set_option linter.unusedSectionVars false

namespace Trikit

open MeasureTheory ProbabilityTheory Filter Topology

/-- Reserves of `base_cl` with all-weighted factors and no tail. -/
theorem base_reserves {K : Type} [Field K] [LinearOrder K] [IsStrictOrderedRing K] {t : Tri K} {n : ℕ} {c : ℕ → ℕ → K}
    (gm : List (Num K) → Num K) (h : Spec.Stair t n c) (hp : Spec.Positive n c) (hn : 3 ≤ n) :
    ∃ b, baseCL gm t t.a2aind0 "all-weighted" 1 = .ok b ∧
      (∀ i < n, ∃ row, b.rows[i]? = some row ∧ row.reserve = .fin (c i (n - 1 - i) *
        ∏ j ∈ Finset.Ico (n - 1 - i) (n - 1), Spec.wFactor n c j - c i (n - 1 - i))) ∧
      b.totReserve = .fin (∑ i ∈ Finset.range n, (c i (n - 1 - i) *
        ∏ j ∈ Finset.Ico (n - 1 - i) (n - 1), Spec.wFactor n c j - c i (n - 1 - i))) := by
  obtain ⟨r, lab, h1, _, _, _, h5⟩ := baseCL_stair h hp.ne_zero (h.indOn0 hp.ne_zero) hn
    (rowIs_weighted gm h hp (by omega)) 1
  have e : ∀ i < n, Spec.tailProd (Spec.withTail (Spec.mackF 1 n c (fun _ _ => 1)) n 1) n (n - 1 - i) =
      ∏ j ∈ Finset.Ico (n - 1 - i) (n - 1), Spec.wFactor n c j := by
    intro i hi
    rw [tailProd_withTail _ _ (by omega), mul_one]
    refine Finset.prod_congr rfl fun m hm => ?_
    rw [Finset.mem_Ico] at hm
    exact wFactor_eq_mackF hp (by omega)
  refine ⟨r, h1, fun i hi => ?_, ?_⟩
  · obtain ⟨row, a, -, -, -, -, -, -, z⟩ := h5.rows i hi
    exact ⟨row, a, by rw [z, e i hi]⟩
  · rw [h5.totReserve]
    congr 1
    exact Finset.sum_congr rfl (fun i hi => by rw [e i (Finset.mem_range.1 hi)])

/-- In a run of one simulation the ultimate of an origin is its reserve and its simulated latest value. -/
theorem SimSpec.ult_split {K : Type} [Field K] [LinearOrder K] [IsStrictOrderedRing K] {t : Tri K} {n : ℕ}
    {c : ℕ → ℕ → K} {x g : ℕ → ℕ → ℕ → K} {r : SimResult K} (ht : Spec.Stair t n c) (h : SimSpec t n 1 x g r) {i : ℕ}
    (hi : i < n) (h0 : 0 < i) {q : ResRow K} (hq : q ∈ r.reserves) (ho : q.origin = t.oAt i) {a u : K}
    (ha : q.reserve = .fin a)
    (hu : (r.reserves.filter (fun r => decide (r.origin = t.oAt i))).map ResRow.ultimate = [.fin u]) :
    u = a + x 0 i (n - 1 - i) := by
  obtain ⟨s', i', hs', hi', rfl⟩ := h.mem_reserves.1 hq
  obtain rfl : i' = i := ht.oAt_inj hi' hi ho
  obtain rfl : s' = 0 := by omega
  rw [h.reserves_origin ht hi] at hu
  simp only [List.range_one, List.map_cons, List.map_nil, List.cons.injEq, and_true] at hu
  unfold resRowAt at hu ha
  simp only [if_neg h0.ne', Num.fin.injEq] at hu ha
  rw [← hu, ← ha]
  ring

section
variable {Ω E : Type} [MeasurableSpace Ω] [MeasurableSpace E] {μ : Measure Ω} [IsProbabilityMeasure μ]
variable {t : Tri ℝ} {n : ℕ} {c : ℕ → ℕ → ℝ} {Z : E → ℝ} {G : E → ℝ → ℝ → ℝ} {b : ℝ} {seed : ℕ → Ω → E}

/-- The reserves of a summary of the bootstrap: `r i` of origin `i`, and their sum in total. -/
def Spec.ReportsReserves (n : ℕ) (rows : List (BootRow ℝ)) (r : ℕ → ℝ) : Prop :=
  (∀ i < n, ∃ row, rows[i]? = some row ∧ row.reserve = .fin (r i)) ∧
    ∃ tot, rows[n]? = some tot ∧ tot.origin = none ∧ tot.reserve = .fin (∑ i ∈ Finset.range n, r i)

/-- The summary of a run shows the reserves and the standard errors computed from its simulations. -/
theorem summary_reserves (gm : List (Num ℝ) → Num ℝ) (ht : Spec.Stair t n c) (hp : Spec.Positive n c) (hn : 3 ≤ n)
    {fit : BootFit ℝ} (hf : bootFit Num.sqrt gm t t.a2aind0 = .ok fit)
    (hv : ∀ i j, i + j < n → 0 < j → 0 ≤ Spec.incr (Spec.fitCum n c) i j) (hb : 0 < b) (hsc : fit.scale = .fin b)
    {S : ℕ} (hS : 2 ≤ S) (ω : Ω) :
    let res := (bootSims Num.sqrt t fit.fitIncr fit.scale S (Spec.residOf Z seed ω) (Spec.gammaOf G seed ω)).reserves
    ∃ rows r, bootSummary t fit.ldfs (bootUltimates t res) (bootReserves t res) (bootStdErr Num.sqrt t S res) = .ok rows ∧
      bootReserves t res = (List.range n).map (fun i => .fin (r i)) ∧ r 0 = 0 ∧ Spec.ReportsReserves n rows r ∧
      ∀ i ≤ n, ∃ row, rows[i]? = some row ∧ (bootStdErr Num.sqrt t S res)[i]? = some row.stdErr := by
  intro res
  have hsq : ∀ y : ℝ, 0 ≤ y → ∃ r, Num.sqrt (.fin y) = .fin r := fun y hy => ⟨_, Num.sqrt_fin hy⟩
  obtain ⟨fit2, base2, rows, L2, U2, R2, g1, -, g2, g3, g4⟩ := boot_table (S := S) (sq := Num.sqrt)
    (draw := Spec.residOf Z seed ω) (gam := Spec.gammaOf G seed ω) hsq gm ht hp hn hS hv (fun _ _ => rfl) (by
      intro fit2 hf2 p _ y
      rw [hf] at hf2
      cases hf2
      rw [hsc, abs_div_fin hb]; rfl)
  rw [hf] at g1
  cases g1
  obtain ⟨-, e2, e3⟩ := boot_columns (sq := Num.sqrt) ht (by omega) hS g2
  refine ⟨rows, _, g3, e2, by unfold Spec.bootUlt; simp, ⟨fun i hi => ?_, ?_⟩, fun i hi => ?_⟩
  · obtain ⟨row, -, k1, -, -, -, -, -, -, -, -, k2, -⟩ := g4.row i hi
    exact ⟨row, k1, k2⟩
  · obtain ⟨tot, k1, k2, -, -, -, -, -, k3, -⟩ := g4.total
    exact ⟨tot, k1, k2, k3⟩
  · rcases hi.lt_or_eq with hi | rfl
    · obtain ⟨row, -, k1, -, -, -, -, -, -, -, -, -, k2, -⟩ := g4.row i hi
      refine ⟨row, k1, ?_⟩
      show (bootStdErr Num.sqrt t S _)[i]? = _
      rw [e3, List.getElem?_append_left (by simpa using hi), List.getElem?_map, List.getElem?_range hi, k2]
      rfl
    · obtain ⟨tot, k1, -, -, -, -, -, -, -, k2, -⟩ := g4.total
      refine ⟨tot, k1, ?_⟩
      show (bootStdErr Num.sqrt t S _)[i]? = _
      rw [e3, List.getElem?_append_right (by simp), k2]
      simp

/-- **C201** For the bootstrap of a positive triangle of at least three origins whose columns do not shrink in total,
with residuals of mean 0 that leave all resampled increments positive: with the number of simulations growing, the
reserves in the summary almost surely settle at numbers `L` that are larger than the reserves of `base_cl`, for every
origin but the oldest and in total. -/
theorem C201_limit (gm : List (Num ℝ) → Num ℝ) (ht : Spec.Stair t n c) (hp : Spec.Positive n c) (hn : 3 ≤ n)
    (h1 : t.dAt 0 = 1) {fit : BootFit ℝ} (hf : bootFit Num.sqrt gm t t.a2aind0 = .ok fit)
    (hg : ∀ j, j + 1 < n → ∑ i ∈ Finset.range (n - 1 - j), c i j ≤ ∑ i ∈ Finset.range (n - 1 - j), c i (j + 1))
    {xs : List ℝ} (hxs : fit.sampling = xs.map Num.fin) (hx : xs ≠ []) (hx0 : xs.sum = 0)
    (hpos : ∀ r k, r + k < n → ∀ x, fit.fitIncr.cell r k = .fin x → ∀ z ∈ xs, 0 < x + z * √x)
    (hb : 0 < b) (hsc : fit.scale = .fin b)
    (hs : Spec.Seeds μ seed) (hZ : Spec.Resid μ false xs Z seed) (hG : Spec.MeanDraws μ seed G b) :
    let run := fun S ω => (bootSims Num.sqrt t fit.fitIncr fit.scale S (Spec.residOf Z seed ω)
      (Spec.gammaOf G seed ω)).reserves
    ∃ base, ∃ L r : ℕ → ℝ, baseCL gm t t.a2aind0 "all-weighted" 1 = .ok base ∧
      (∀ i < n, ∃ row, base.rows[i]? = some row ∧ row.reserve = .fin (r i)) ∧
      base.totReserve = .fin (∑ i ∈ Finset.range n, r i) ∧
      (∀ i < n, 0 < i → r i < L i) ∧ ∑ i ∈ Finset.range n, r i < ∑ i ∈ Finset.range n, L i ∧
      ∀ᵐ ω ∂μ, ∃ u : ℕ → ℕ → ℝ,
        (∀ S, 2 ≤ S → ∃ rows, bootSummary t fit.ldfs (bootUltimates t (run S ω)) (bootReserves t (run S ω))
          (bootStdErr Num.sqrt t S (run S ω)) = .ok rows ∧ Spec.ReportsReserves n rows (u S)) ∧
        ∀ i < n, Tendsto (fun S => u S i) atTop (𝓝 (L i)) := by
  intro run
  obtain ⟨fit', hf', hfs⟩ := bootFit_stair Num.sqrt gm ht hp hn
  obtain rfl : fit' = fit := by
    rw [hf] at hf'
    exact (Except.ok.inj hf').symm
  obtain ⟨f1, f2, -, -, -, -⟩ := fit_incr hp (by omega) hg
  obtain ⟨base, b1, b2, b3⟩ := base_reserves gm ht hp hn
  obtain ⟨r, hr⟩ : ∃ r : ℕ → ℝ, ∀ i, c i (n - 1 - i) * ∏ j ∈ Finset.Ico (n - 1 - i) (n - 1), Spec.wFactor n c j -
    c i (n - 1 - i) = r i := ⟨_, fun _ => rfl⟩
  simp only [hr] at b2 b3
  have hr0 : r 0 = 0 := by rw [← hr]; simp
  have hmean : Spec.residMean false xs = 0 := by
    unfold Spec.residMean Spec.meanList
    simp [hx0]
  have hsq : ∀ y : ℝ, 0 ≤ y → ∃ r, Num.sqrt (.fin y) = .fin r := fun y hy => ⟨_, Num.sqrt_fin hy⟩
  have hGm : Measurable (fun q : E × ℝ => G q.1 q.2 b) := hG.meas
  have C := C126_runs (sq := Num.sqrt) hsq ht (by omega) hfs.incr hfs.incr_origins hfs.incr_devs f1 hb.ne' hs hZ.meas hGm
  rw [← hsc] at C
  obtain ⟨R, U, -, cU, -, -, cl, -, -, -⟩ := C
  -- the mean of the simulated ultimate
  have key : ∀ i < n, 0 < i → Integrable (U 0 i) μ ∧ r i < ∫ ω, U 0 i ω ∂μ - c i (n - 1 - i) := by
    intro i hi h0
    obtain ⟨R', q1, q2, q3⟩ := C198_all_bias (s := 0) (S := 1) gm ht hp hn h1 hf hg hxs hx hx0 hpos hb hsc hs hZ hG
      one_pos hi h0
    obtain ⟨m1, m2, -⟩ := resampled_moments (n := n) (s := 0) (v := Spec.incr (Spec.fitCum n c)) hZ hs hx (by simp) i
      (n - i) (fun k hk => startIncr_nonneg' f1 (by omega))
    have hU : U 0 i = fun ω => R' ω + Spec.resampled (Spec.incr (Spec.fitCum n c)) Z n 0 i (n - i) (fun p => seed p ω) := by
      funext ω
      obtain ⟨q, hq, hq1, hq2, hq3⟩ := q1 ω
      have hsim := bootSims_stair' (S := 1) ht (by omega) (by omega) hfs.incr hfs.incr_origins hfs.incr_devs
        (sq := Num.sqrt) (rt := fun i j => √(Spec.startIncr (Spec.incr (Spec.fitCum n c)) i j))
        (fun i j hij => Num.sqrt_fin (startIncr_nonneg' f1 hij))
        (draw := Spec.residOf Z seed ω) (fun _ _ => rfl) (scale := fit'.scale) (gam := Spec.gammaOf G seed ω) (by
          intro p _ y
          rw [hsc, abs_div_fin hb]; rfl)
      have hu := cU 1 one_pos ω i hi
      rw [List.range_one, List.map_singleton] at hu
      have e := hsim.ult_split ht hi h0 hq hq2 hq3 hu
      rw [e]
      unfold Spec.resampled Spec.simCum
      rw [show n - 1 - i + 1 = n - i by omega]
      rfl
    have hi2 := m1.integrable (by norm_num)
    refine ⟨by rw [hU]; exact q2.add hi2, ?_⟩
    rw [hU, integral_add q2 hi2, m2, hmean]
    have e : ∑ k ∈ Finset.range (n - i), Spec.meanIncr (Spec.incr (Spec.fitCum n c)) 0 i k = c i (n - 1 - i) := by
      rw [← fitCum_latest (n := n) (c := c) i, ← incr_sum (Spec.fitCum n c), show n - 1 - i + 1 = n - i by omega]
      refine Finset.sum_congr rfl (fun k hk => ?_)
      rw [Finset.mem_range] at hk
      unfold Spec.meanIncr
      rw [zero_mul, add_zero, f2 i k (by omega)]
    rw [e]
    rw [hr] at q3
    linarith
  let L : ℕ → ℝ := fun i => if i = 0 then 0 else ∫ ω, U 0 i ω ∂μ - c i (n - 1 - i)
  have hL : ∀ i < n, 0 < i → r i < L i := by
    intro i hi h0
    simp only [L, if_neg h0.ne']
    exact (key i hi h0).2
  refine ⟨base, L, r, b1, b2, b3, hL, ?_, ?_⟩
  · refine Finset.sum_lt_sum (fun i hi => ?_) ⟨1, Finset.mem_range.2 (by omega), hL 1 (by omega) one_pos⟩
    rcases Nat.eq_zero_or_pos i with rfl | h0
    · rw [hr0]; simp [L]
    · exact (hL i (Finset.mem_range.1 hi) h0).le
  have hall : ∀ᵐ ω ∂μ, ∀ i : ℕ, i < n → 0 < i → ∃ u : ℕ → ℝ,
        (∀ S, 0 < S → (bootReserves t (run S ω))[i]? = some (.fin (u S - c i (n - 1 - i)))) ∧
        Tendsto u atTop (𝓝 (∫ ω, U 0 i ω ∂μ)) := by
    rw [ae_all_iff]
    intro i
    by_cases h : i < n ∧ 0 < i
    · filter_upwards [cl i h.1 h.2 (key i h.1 h.2).1] with ω hω _ _
      obtain ⟨u, u1, u2⟩ := hω
      exact ⟨u, fun S hS => (u1 S hS).2, u2⟩
    · exact ae_of_all _ (fun ω a b => absurd ⟨a, b⟩ h)
  filter_upwards [hall] with ω hω
  choose! u u1 u2 using hω
  refine ⟨fun S i => if i = 0 then 0 else u i S - c i (n - 1 - i), fun S hS => ?_, fun i hi => ?_⟩
  · obtain ⟨rows, r', g1, g2, g3, g4, -⟩ := summary_reserves gm ht hp hn hf f1 hb hsc hS ω (Z := Z) (G := G)
    have hu : ∀ i < n, r' i = if i = 0 then 0 else u i S - c i (n - 1 - i) := by
      intro i hi
      split
      · rename_i h0
        rw [h0, g3]
      · rename_i h0
        have := u1 i hi (by omega) S (by omega)
        have e3 : (bootReserves t (run S ω))[i]? = some (.fin (r' i)) := by
          show (bootReserves t _)[i]? = _
          rw [g2, List.getElem?_map, List.getElem?_range hi]; rfl
        rw [e3] at this
        exact Num.fin.inj (Option.some.inj this)
    refine ⟨rows, g1, fun i hi => ?_, ?_⟩
    · obtain ⟨row, k1, k2⟩ := g4.1 i hi
      exact ⟨row, k1, by rw [k2, hu i hi]⟩
    · obtain ⟨tot, k1, k2, k3⟩ := g4.2
      refine ⟨tot, k1, k2, ?_⟩
      rw [k3]
      congr 1
      exact Finset.sum_congr rfl (fun i hi => hu i (Finset.mem_range.1 hi))
  · simp only [L]
    split
    · exact tendsto_const_nhds
    · rename_i h0
      exact (u2 i hi (by omega)).sub_const _

/-- **C201** in words of the two tables: almost surely, from some number of simulations on, every reserve of the
summary of the bootstrap but the one of the oldest origin is larger than the reserve of `base_cl`, and so is the total. -/
theorem C201_exceeds (gm : List (Num ℝ) → Num ℝ) (ht : Spec.Stair t n c) (hp : Spec.Positive n c) (hn : 3 ≤ n)
    (h1 : t.dAt 0 = 1) {fit : BootFit ℝ} (hf : bootFit Num.sqrt gm t t.a2aind0 = .ok fit)
    (hg : ∀ j, j + 1 < n → ∑ i ∈ Finset.range (n - 1 - j), c i j ≤ ∑ i ∈ Finset.range (n - 1 - j), c i (j + 1))
    {xs : List ℝ} (hxs : fit.sampling = xs.map Num.fin) (hx : xs ≠ []) (hx0 : xs.sum = 0)
    (hpos : ∀ r k, r + k < n → ∀ x, fit.fitIncr.cell r k = .fin x → ∀ z ∈ xs, 0 < x + z * √x)
    (hb : 0 < b) (hsc : fit.scale = .fin b)
    (hs : Spec.Seeds μ seed) (hZ : Spec.Resid μ false xs Z seed) (hG : Spec.MeanDraws μ seed G b) :
    ∃ base, baseCL gm t t.a2aind0 "all-weighted" 1 = .ok base ∧ ∀ᵐ ω ∂μ, ∃ S0, ∀ S ≥ S0,
      let res := (bootSims Num.sqrt t fit.fitIncr fit.scale S (Spec.residOf Z seed ω) (Spec.gammaOf G seed ω)).reserves
      ∃ rows, bootSummary t fit.ldfs (bootUltimates t res) (bootReserves t res) (bootStdErr Num.sqrt t S res) = .ok rows ∧
        (∀ i < n, 0 < i → ∃ row brow x y, rows[i]? = some row ∧ base.rows[i]? = some brow ∧ brow.reserve = .fin x ∧
          row.reserve = .fin y ∧ x < y) ∧
        ∃ tot x y, rows[n]? = some tot ∧ base.totReserve = .fin x ∧ tot.reserve = .fin y ∧ x < y := by
  obtain ⟨base, L, r, b1, b2, b3, l1, l2, hlim⟩ := C201_limit gm ht hp hn h1 hf hg hxs hx hx0 hpos hb hsc hs hZ hG
  refine ⟨base, b1, ?_⟩
  filter_upwards [hlim] with ω hω
  obtain ⟨u, u1, u2⟩ := hω
  have ev : ∀ᶠ S in atTop, (∀ i ∈ Finset.range n, 0 < i → r i < u S i) ∧
      ∑ i ∈ Finset.range n, r i < ∑ i ∈ Finset.range n, u S i := by
    refine Filter.Eventually.and ?_ ?_
    · rw [Filter.eventually_all_finset]
      intro i hi
      rw [Finset.mem_range] at hi
      by_cases h0 : 0 < i
      · exact ((u2 i hi).eventually (lt_mem_nhds (l1 i hi h0))).mono (fun _ h _ => h)
      · exact Eventually.of_forall (fun _ h => absurd h h0)
    · exact (tendsto_finsetSum _ (fun i hi => u2 i (Finset.mem_range.1 hi))).eventually (lt_mem_nhds l2)
  obtain ⟨S0, hS0⟩ := eventually_atTop.1 ev
  refine ⟨max S0 2, fun S hS => ?_⟩
  obtain ⟨rows, r1, r2, tot, r3, -, r4⟩ := u1 S (le_trans (le_max_right _ _) hS)
  obtain ⟨e1, e2⟩ := hS0 S (le_trans (le_max_left _ _) hS)
  refine ⟨rows, r1, fun i hi h0 => ?_, tot, _, _, r3, b3, r4, e2⟩
  obtain ⟨row, a1, a2⟩ := r2 i hi
  obtain ⟨brow, c1, c2⟩ := b2 i hi
  exact ⟨row, brow, _, _, a1, c1, c2, a2, e1 i (Finset.mem_range.2 hi) h0⟩

end

/-- Long bootstrap runs of the example report more than the reserve of 30000 of `base_cl`. -/
example : ∃ (Ω : Type) (_ : MeasurableSpace Ω) (P : Measure Ω) (fit : BootFit ℝ) (draw : Ω → ℕ → Num ℝ)
    (gam : Ω → ℕ → Num ℝ → Num ℝ → Num ℝ) (base : BaseResult ℝ),
    IsProbabilityMeasure P ∧
    bootFit Num.sqrt (fun _ => .nan) (stairTri 3 biasVals) (stairTri 3 biasVals).a2aind0 = .ok fit ∧
    baseCL (fun _ => .nan) (stairTri 3 biasVals) (stairTri 3 biasVals).a2aind0 "all-weighted" 1 = .ok base ∧
    base.totReserve = .fin 30000 ∧ ∀ᵐ ω ∂P, ∃ S0, ∀ S ≥ S0, ∃ rows tot y,
      bootSummary (stairTri 3 biasVals) fit.ldfs
        (bootUltimates (stairTri 3 biasVals) (bootSims Num.sqrt (stairTri 3 biasVals) fit.fitIncr fit.scale S (draw ω)
          (gam ω)).reserves)
        (bootReserves (stairTri 3 biasVals) (bootSims Num.sqrt (stairTri 3 biasVals) fit.fitIncr fit.scale S (draw ω)
          (gam ω)).reserves)
        (bootStdErr Num.sqrt (stairTri 3 biasVals) S (bootSims Num.sqrt (stairTri 3 biasVals) fit.fitIncr fit.scale S
          (draw ω) (gam ω)).reserves) = .ok rows ∧ rows[3]? = some tot ∧ tot.reserve = .fin y ∧ 30000 < y := by
  obtain ⟨fit, q, b, hf, hq, hq1, hxs, hb, hsc, hcell⟩ := biasVals_fit (fun _ => .nan)
  obtain ⟨Ω, E, _, _, μ, _, seed, Z, G, hs, hZ, hG⟩ := exists_bootDraws false (xs := [-q, q, q, -q]) (by simp) (by simp)
  obtain ⟨base, h2, h3⟩ := C201_exceeds _ (stairTri_stair 3 biasVals) biasVals_pos
    (by norm_num) rfl hf biasVals_grow hxs (by simp) (by simp) (by
      intro r k hrk x hx z hz
      rw [hcell r k hrk] at hx
      obtain rfl := Num.fin.inj hx
      have h100 : √(10000 : ℝ) = 100 := by
        rw [show (10000 : ℝ) = 100 ^ 2 by norm_num]; exact Real.sqrt_sq (by norm_num)
      rw [h100]
      simp only [List.mem_cons, List.not_mem_nil, or_false] at hz
      rcases hz with rfl | rfl | rfl | rfl <;> linarith) hb hsc hs hZ (hG b hb)
  obtain ⟨base', g1, -, g3⟩ := base_reserves (fun _ => .nan) (stairTri_stair 3 biasVals) biasVals_pos (by norm_num)
  rw [h2] at g1
  cases g1
  obtain ⟨w0, w1⟩ := biasVals_factors
  have htot : base.totReserve = .fin 30000 := by
    rw [g3]
    congr 1
    norm_num [biasVals, Finset.sum_range_succ, Finset.prod_Ico_eq_prod_range, Finset.prod_range_succ, w0, w1]
  refine ⟨Ω, _, μ, fit, fun ω => Spec.residOf Z seed ω, fun ω => Spec.gammaOf G seed ω, base, inferInstance, hf, h2, htot,
    ?_⟩
  filter_upwards [h3] with ω hω
  obtain ⟨S0, hS⟩ := hω
  refine ⟨S0, fun S h => ?_⟩
  obtain ⟨rows, r1, -, tot, x, y, r2, r3, r4, r5⟩ := hS S h
  rw [htot] at r3
  cases r3
  exact ⟨rows, tot, y, r1, r2, r4, r5⟩

end Trikit
