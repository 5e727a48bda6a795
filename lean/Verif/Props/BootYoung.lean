import Verif.Props.BootScale

/-! # The youngest origin in the bootstrap (C104) -/

set_option linter.unusedSectionVars false

namespace Trikit

section
variable {K : Type} [Field K] [LinearOrder K] [IsStrictOrderedRing K]
variable {t t' : Tri K} {n S : ℕ} {c c' : ℕ → ℕ → K}

theorem wFactor_young (hcc : ∀ i < n - 1, ∀ j, i + j < n → c' i j = c i j) {j : ℕ} :
    Spec.wFactor n c' j = Spec.wFactor n c j := by
  unfold Spec.wFactor
  congr 1 <;>
  · refine Finset.sum_congr rfl fun i hi => ?_
    rw [Finset.mem_range] at hi
    exact hcc i (by omega) _ (by omega)

theorem fitCum_young (hcc : ∀ i < n - 1, ∀ j, i + j < n → c' i j = c i j) {i : ℕ} (hi : i < n - 1) (j : ℕ) :
    Spec.fitCum n c' i j = Spec.fitCum n c i j := by
  unfold Spec.fitCum
  rw [hcc i hi (n - 1 - i) (by omega)]
  congr 1
  exact Finset.prod_congr rfl fun m _ => wFactor_young hcc

theorem incr_young (hcc : ∀ i < n - 1, ∀ j, i + j < n → c' i j = c i j) {i : ℕ} (hi : i < n - 1) (j : ℕ) :
    Spec.incr (Spec.fitCum n c') i j = Spec.incr (Spec.fitCum n c) i j := by
  unfold Spec.incr
  rw [fitCum_young hcc hi, fitCum_young hcc hi, fitCum_young hcc hi]

/-- The youngest origin is fitted exactly. -/
theorem us_young {sq : Num K → Num K} {fit : BootFit K} (q : Spec.FitSpec sq t n c fit) (hp : Spec.Positive n c)
    (hn : 0 < n) (hpos : ∀ y : K, 0 < y → ∃ r, 0 < r ∧ sq (.fin y) = .fin r) : fit.residUs.cell (n - 1) 0 = .fin 0 := by
  have h0 : 0 < c (n - 1) 0 := hp _ _ (by omega)
  have e : Spec.incr (Spec.fitCum n c) (n - 1) 0 = c (n - 1) 0 := by
    unfold Spec.incr Spec.fitCum
    simp
  obtain ⟨r, hr, hs⟩ := hpos _ h0
  rw [q.us _ _ (by omega), e, abs_of_pos h0, hs, Num.fin_div _ _ hr.ne']
  unfold Spec.incr
  simp

/-- **C104** for the fit: on every positive staircase with at least three origins, another value of the youngest origin
leaves the factors, the residuals, the values drawn from, the scale parameter and the fitted
increments of all other origins unchanged. -/
theorem C104_fit {sq : Num K → Num K} (gm : List (Num K) → Num K)
    (hpos : ∀ y : K, 0 < y → ∃ r, 0 < r ∧ sq (.fin y) = .fin r) (h : Spec.Stair t n c) (hp : Spec.Positive n c)
    (h' : Spec.Stair t' n c') (hp' : Spec.Positive n c') (hn : 3 ≤ n)
    (hcc : ∀ i < n - 1, ∀ j, i + j < n → c' i j = c i j) :
    ∃ fit fit', bootFit sq gm t t.a2aind0 = .ok fit ∧ bootFit sq gm t' t'.a2aind0 = .ok fit' ∧
      fit'.ldfs.map Prod.snd = fit.ldfs.map Prod.snd ∧
      (∀ i < n, ∀ j < n, fit'.residUs.cell i j = fit.residUs.cell i j ∧
        fit'.residAdj.cell i j = fit.residAdj.cell i j) ∧
      fit'.sampling = fit.sampling ∧ fit'.scale = fit.scale ∧
      (∀ i < n - 1, ∀ j < n, fit'.fitIncr.cell i j = fit.fitIncr.cell i j) ∧
      fit.fitIncr.cell (n - 1) 0 = .fin (c (n - 1) 0) ∧ fit'.fitIncr.cell (n - 1) 0 = .fin (c' (n - 1) 0) := by
  obtain ⟨fit, hf, q⟩ := bootFit_stair sq gm h hp hn
  obtain ⟨fit', hf', q'⟩ := bootFit_stair sq gm h' hp' hn
  have hcells : t'.nbrCells = t.nbrCells := by rw [nbrCells_stair h, nbrCells_stair h']
  have hdof : bootDof t' = bootDof t := by
    unfold bootDof; rw [hcells, h.nr, h.nc, h'.nr, h'.nc]
  have hnr : fit.residUs.nr = n := by unfold Tri.nr; rw [q.us_origins]; exact h.nr
  have hnc : fit.residUs.nc = n := by unfold Tri.nc; rw [q.us_devs]; exact h.nc
  have hnr' : fit'.residUs.nr = n := by unfold Tri.nr; rw [q'.us_origins]; exact h'.nr
  have hnc' : fit'.residUs.nc = n := by unfold Tri.nc; rw [q'.us_devs]; exact h'.nc
  have hincr : ∀ i < n - 1, ∀ j < n, fit'.fitIncr.cell i j = fit.fitIncr.cell i j := by
    intro i hi j hj
    by_cases hij : i + j < n
    · rw [q.incr.obs i j hij, q'.incr.obs i j hij, incr_young hcc hi]
    · rw [q.incr.miss i j (by omega) hj (by omega), q'.incr.miss i j (by omega) hj (by omega)]
  have hci : ∀ i < n - 1, ∀ j, i + j < n → Spec.incr c' i j = Spec.incr c i j := by
    intro i hi j hij
    unfold Spec.incr
    rw [hcc i hi j hij, hcc i hi 0 (by omega), hcc i hi (j - 1) (by omega)]
  have hus : ∀ i < n, ∀ j < n, fit'.residUs.cell i j = fit.residUs.cell i j := by
    intro i hi j hj
    by_cases hij : i + j < n
    · by_cases hi' : i < n - 1
      · rw [q.us i j hij, q'.us i j hij, incr_young hcc hi', hci i hi' j hij]
      · obtain rfl : j = 0 := by omega
        obtain rfl : i = n - 1 := by omega
        rw [us_young q hp (by omega) hpos, us_young q' hp' (by omega) hpos]
    · rw [q.us_miss i j hi hj (by omega), q'.us_miss i j hi hj (by omega)]
  have hadj : ∀ i < n, ∀ j < n, fit'.residAdj.cell i j = fit.residAdj.cell i j := by
    intro i hi j hj
    rw [q.adj, q'.adj]
    show sq _ * fit'.residUs.cell i j = sq _ * fit.residUs.cell i j
    rw [hcells, hdof, hus i hi j hj]
  refine ⟨fit, fit', hf, hf', ?_, fun i hi j hj => ⟨hus i hi j hj, hadj i hi j hj⟩, ?_, ?_, hincr, ?_, ?_⟩
  · rw [q.ldfs, q'.ldfs]
    simp only [wFactor_young hcc]
  · have hnr2 : fit.residAdj.nr = n := by rw [q.adj]; exact hnr
    have hnc2 : fit.residAdj.nc = n := by rw [q.adj]; exact hnc
    have hnr2' : fit'.residAdj.nr = n := by rw [q'.adj]; exact hnr'
    have hnc2' : fit'.residAdj.nc = n := by rw [q'.adj]; exact hnc'
    rw [q.sampling, q'.sampling]
    unfold samplingDist
    rw [hnr2, hnc2, hnr2', hnc2']
    congr 1
    apply flatMap_congr_mem
    intro i hi
    rw [List.mem_range] at hi
    refine List.map_congr_left fun j hj => ?_
    rw [List.mem_range] at hj
    exact hadj i (by omega) j (by omega)
  · rw [q.scale, q'.scale]
    unfold scaleParam
    rw [hdof, hnc, hnc']
    congr 2
    refine List.map_congr_left fun j hj => ?_
    rw [List.mem_range] at hj
    unfold Tri.col
    rw [hnr, hnr', List.map_map, List.map_map]
    congr 1
    refine List.map_congr_left fun i hi => ?_
    rw [List.mem_range] at hi
    show (fit'.residUs.cell i j).pow 2 = (fit.residUs.cell i j).pow 2
    rw [hus i hi j hj]
  · rw [q.incr.obs _ _ (by omega)]
    simp [Spec.incr, Spec.fitCum]
  · rw [q'.incr.obs _ _ (by omega)]
    simp [Spec.incr, Spec.fitCum]

/-! ### simulations -/

section congr
variable {x y g g' : ℕ → ℕ → ℕ → K} {s : ℕ}

theorem simLdf_young (h : ∀ i < n - 1, ∀ j, i + j < n → x s i j = y s i j) (j : ℕ) :
    Spec.simLdf n x s j = Spec.simLdf n y s j := by
  have h1 : Spec.simA1 n x s (j + 1) = Spec.simA1 n y s (j + 1) := by
    unfold Spec.simA1
    refine Finset.sum_congr rfl fun i hi => ?_
    rw [Finset.mem_range] at hi
    exact h i (by omega) _ (by omega)
  have h2 : Spec.simA2 n x s j = Spec.simA2 n y s j := by
    unfold Spec.simA2
    refine Finset.sum_congr rfl fun i hi => ?_
    rw [Finset.mem_range] at hi
    exact h i (by omega) _ (by omega)
  unfold Spec.simLdf
  rw [h1, h2]

theorem simFull_young (h : ∀ i < n - 1, ∀ j, i + j < n → x s i j = y s i j) {i : ℕ} (hi : i < n - 1) (j : ℕ) :
    Spec.simFull n x s i j = Spec.simFull n y s i j := by
  unfold Spec.simFull Spec.simProj
  simp only [simLdf_young h, h i hi (n - 1 - i) (by omega)]
  by_cases hij : i + j < n
  · rw [if_pos hij, if_pos hij, h i hi j hij]
  · rw [if_neg hij, if_neg hij]

theorem simIncr_young (t : Tri K) (h : ∀ i < n - 1, ∀ j, i + j < n → x s i j = y s i j) {i : ℕ} (hi : i < n - 1)
    (j : ℕ) : Spec.simIncr t n x s i j = Spec.simIncr t n y s i j := by
  unfold Spec.simIncr
  rw [simFull_young h hi, simFull_young h hi]

theorem resRowAt_young (t : Tri K) (h : ∀ i < n - 1, ∀ j, i + j < n → x s i j = y s i j)
    (hg : ∀ i < n - 1, ∀ j < n, n ≤ i + j → g s i j = g' s i j) {i : ℕ} (hi : i < n - 1) :
    resRowAt t n x g s i = resRowAt t n y g' s i := by
  have e : ∑ k ∈ Finset.range n, Spec.finalIncr t n x g s i k = ∑ k ∈ Finset.range n, Spec.finalIncr t n y g' s i k := by
    refine Finset.sum_congr rfl fun k hk => ?_
    rw [Finset.mem_range] at hk
    unfold Spec.finalIncr
    rw [simIncr_young t h hi]
    by_cases hij : n ≤ i + k
    · rw [if_pos hij, if_pos hij, hg i hi k hk hij]
    · rw [if_neg hij, if_neg hij]
  unfold resRowAt
  rw [e, h i hi (n - 1 - i) (by omega)]

end congr

/-- **C104** for the simulations: with the same draws and with process errors drawn cell by cell, another value of the
youngest origin leaves every simulated factor, and every simulated ultimate and reserve of the other origins,
unchanged. -/
theorem C104_sims {sq : Num K → Num K} (gm : List (Num K) → Num K)
    (hpos : ∀ y : K, 0 < y → ∃ r, 0 < r ∧ sq (.fin y) = .fin r) (hz0 : ∃ r, sq (.fin 0) = .fin r)
    (h : Spec.Stair t n c) (hp : Spec.Positive n c)
    (h' : Spec.Stair t' n c') (hp' : Spec.Positive n c') (hn : 3 ≤ n) (hS : 0 < S)
    (ho : t'.origins = t.origins) (hd : t'.devs = t.devs)
    (hcc : ∀ i < n - 1, ∀ j, i + j < n → c' i j = c i j) (hf : ∀ j < n - 1, 1 ≤ Spec.wFactor n c j)
    {draw : ℕ → Num K} (hz : ∀ p < S * (n * n), (draw p).isFin = true) {gam : ℕ → Num K → Num K → Num K}
    (hg : ∀ p < S * (n * n), ∀ a b, (gam p a b).isFin = true) :
    ∃ fit fit', bootFit sq gm t t.a2aind0 = .ok fit ∧ bootFit sq gm t' t'.a2aind0 = .ok fit' ∧
      (bootSims sq t' fit'.fitIncr fit'.scale S draw gam).ldfs = (bootSims sq t fit.fitIncr fit.scale S draw gam).ldfs ∧
      (bootSims sq t' fit'.fitIncr fit'.scale S draw gam).reserves.filter (fun r => r.origin ≠ t.oAt (n - 1)) =
        (bootSims sq t fit.fitIncr fit.scale S draw gam).reserves.filter (fun r => r.origin ≠ t.oAt (n - 1)) := by
  obtain ⟨fit, fit', e1, e2, -, -, -, hscale, -⟩ := C104_fit gm hpos h hp h' hp' hn hcc
  obtain ⟨fit1, g1, q⟩ := bootFit_stair sq gm h hp hn
  obtain ⟨fit2, g2, q'⟩ := bootFit_stair sq gm h' hp' hn
  obtain rfl := Except.ok.inj (g1.symm.trans e1)
  obtain rfl := Except.ok.inj (g2.symm.trans e2)
  refine ⟨fit1, fit2, e1, e2, ?_⟩
  have hfin : ∀ y : K, 0 ≤ y → ∃ r, sq (.fin y) = .fin r := by
    intro y hy
    rcases hy.eq_or_lt with rfl | hy
    · exact hz0
    · obtain ⟨r, -, hr⟩ := hpos y hy
      exact ⟨r, hr⟩
  have hf' : ∀ j < n - 1, 1 ≤ Spec.wFactor n c' j := fun j hj => by rw [wFactor_young hcc]; exact hf j hj
  obtain ⟨rt, hrt⟩ := exists_roots (sq := sq) hfin (fun i j hij _ => fitIncr_nonneg hp hf i j hij)
  obtain ⟨rt', hrt'⟩ := exists_roots (sq := sq) hfin (fun i j hij _ => fitIncr_nonneg hp' hf' i j hij)
  have s1 := bootSims_stair h (by omega) hS q.incr q.incr_origins q.incr_devs hrt hz (scale := fit1.scale) hg
  have s2 := bootSims_stair h' (by omega) hS q'.incr q'.incr_origins q'.incr_devs hrt' hz (scale := fit2.scale) hg
  have hst : ∀ i < n - 1, ∀ j, Spec.startIncr (Spec.incr (Spec.fitCum n c')) i j =
      Spec.startIncr (Spec.incr (Spec.fitCum n c)) i j := by
    intro i hi j
    unfold Spec.startIncr
    rw [incr_young hcc hi]
  have hx : ∀ s < S, ∀ i < n - 1, ∀ j, i + j < n →
      Spec.simCum n (Spec.startIncr (Spec.incr (Spec.fitCum n c'))) rt' (finD draw) s i j =
      Spec.simCum n (Spec.startIncr (Spec.incr (Spec.fitCum n c))) rt (finD draw) s i j := by
    intro s hs i hi j hij
    unfold Spec.simCum
    refine Finset.sum_congr rfl fun k hk => ?_
    rw [Finset.mem_range] at hk
    have e : rt' i k = rt i k := by
      have a := hrt i k (by omega)
      have b := hrt' i k (by omega)
      rw [hst i hi, a] at b
      exact (Num.fin.inj b).symm
    rw [hst i hi, e]
  have hdAt : ∀ j, t'.dAt j = t.dAt j := fun j => by unfold Tri.dAt; rw [hd]
  have hoAt : ∀ j, t'.oAt j = t.oAt j := fun j => by unfold Tri.oAt; rw [ho]
  have hinc : ∀ (x : ℕ → ℕ → ℕ → K) s i j, Spec.simIncr t' n x s i j = Spec.simIncr t n x s i j := by
    intro x s i j
    unfold Spec.simIncr
    rw [hdAt]
  have hres : ∀ x g s i, resRowAt t' n x g s i = resRowAt t n x g s i := by
    intro x g s i
    unfold resRowAt Spec.finalIncr
    simp only [hinc, hoAt]
  constructor
  · rw [s1.ldfs, s2.ldfs]
    apply flatMap_congr_mem
    intro s hs
    rw [List.mem_range] at hs
    simp only [simLdf_young (hx s hs), hdAt]
  · rw [s1.reserves, s2.reserves, List.filter_flatMap, List.filter_flatMap]
    apply flatMap_congr_mem
    intro i hi
    rw [List.mem_range] at hi
    by_cases hi' : i < n - 1
    · congr 1
      refine List.map_congr_left fun s hs => ?_
      rw [List.mem_range] at hs
      rw [hres]
      refine resRowAt_young t (hx s hs) ?_ hi'
      intro k hk j hj _
      unfold gamD
      rw [hinc, simIncr_young t (hx s hs) hk, hscale]
    · obtain rfl : i = n - 1 := by omega
      rw [List.filter_eq_nil_iff.2, List.filter_eq_nil_iff.2]
      · intro r hr
        obtain ⟨s, -, rfl⟩ := List.mem_map.1 hr
        simp [resRowAt]
      · intro r hr
        obtain ⟨s, -, rfl⟩ := List.mem_map.1 hr
        simp [resRowAt, hoAt]

end

/-- The example with 150 instead of 100 for the youngest origin. -/
def exBootYoung : Tri ℚ := stairTri 3 (fun i j => if i = 2 then 150 else exBootVals i j)

/-- Same pool and scale, same reserve of the second origin, other reserve of the youngest. -/
example :
    (bootCall (stepPrng ℚ) exSqrt (fun _ => .nan) exBootYoung exBootYoung.a2aind0 2 true false (.int 0)
        ⟨fun _ => 0, fun _ => 0, 0⟩).map (fun p => (p.1.fit.sampling, p.1.fit.scale, p.1.reserves.getD 1 .nan)) =
      (bootCall (stepPrng ℚ) exSqrt (fun _ => .nan) exBoot exBoot.a2aind0 2 true false (.int 0)
        ⟨fun _ => 0, fun _ => 0, 0⟩).map (fun p => (p.1.fit.sampling, p.1.fit.scale, p.1.reserves.getD 1 .nan)) ∧
    (bootCall (stepPrng ℚ) exSqrt (fun _ => .nan) exBootYoung exBootYoung.a2aind0 2 true false (.int 0)
        ⟨fun _ => 0, fun _ => 0, 0⟩).map (fun p => p.1.reserves.getD 2 .nan) ≠
      (bootCall (stepPrng ℚ) exSqrt (fun _ => .nan) exBoot exBoot.a2aind0 2 true false (.int 0)
        ⟨fun _ => 0, fun _ => 0, 0⟩).map (fun p => p.1.reserves.getD 2 .nan) := by
  decide +kernel

end Trikit
