import Verif.Props.BootSumm
import Verif.Props.MackScale

/-! # Bootstrap in another currency (C103) -/

set_option linter.unusedSectionVars false

namespace Trikit

namespace Num
variable {K : Type} [Field K] [LinearOrder K] [IsStrictOrderedRing K]

theorem pos_mul_pow2 {a : K} (ha : 0 < a) (x : Num K) : (fin a * x).pow 2 = fin (a * a) * x.pow 2 := by
  have haa : 0 < a * a := mul_pos ha ha
  cases x with
  | nan => rfl
  | pinf => rw [pos_mul_pinf ha]; exact (pos_mul_pinf haa).symm
  | ninf => rw [pos_mul_ninf ha]; exact (pos_mul_pinf haa).symm
  | fin x => rw [fin_mul]; show fin _ = fin (a * a) * fin _; rw [fin_mul]; congr 1; ring

theorem pos_mul_abs {a : K} (ha : 0 < a) (x : Num K) : (fin a * x).abs' = fin a * x.abs' := by
  cases x with
  | nan => rfl
  | pinf => rw [pos_mul_pinf ha]; exact (pos_mul_pinf ha).symm
  | ninf => rw [pos_mul_ninf ha]; exact (pos_mul_pinf ha).symm
  | fin x =>
    rw [fin_mul]
    show fin _ = fin a * fin _
    rw [fin_mul]
    congr 1
    by_cases h : x < 0
    · rw [if_pos h, if_pos ((mul_neg_iff_of_pos ha).2 h)]; ring
    · rw [if_neg h, if_neg (fun h' => h ((mul_neg_iff_of_pos ha).1 h'))]

theorem pos_mul_eqF_zero {a : K} (ha : 0 < a) (x : Num K) : eqF (fin a * x) 0 = eqF x 0 := by
  cases x with
  | nan => rfl
  | pinf => rw [pos_mul_pinf ha]
  | ninf => rw [pos_mul_ninf ha]
  | fin x =>
    rw [fin_mul, zero_def]
    simp [eqF, ha.ne']

theorem pos_mul_isFin {a : K} (ha : 0 < a) (x : Num K) : (fin a * x).isFin = x.isFin := by
  cases x with
  | nan => rfl
  | pinf => rw [pos_mul_pinf ha]
  | ninf => rw [pos_mul_ninf ha]
  | fin x => rfl

theorem pos_mul_div_right {a : K} (ha : 0 < a) (x y : Num K) : (fin a * x) / y = fin a * (x / y) := by
  cases x with
  | nan => simp
  | pinf =>
    rw [pos_mul_pinf ha]
    cases y with
    | nan => rfl
    | pinf => rfl
    | ninf => rfl
    | fin y =>
      show (if y < 0 then ninf else pinf : Num K) = fin a * (if y < 0 then ninf else pinf)
      split
      · rw [pos_mul_ninf ha]
      · rw [pos_mul_pinf ha]
  | ninf =>
    rw [pos_mul_ninf ha]
    cases y with
    | nan => rfl
    | pinf => rfl
    | ninf => rfl
    | fin y =>
      show (if y < 0 then pinf else ninf : Num K) = fin a * (if y < 0 then pinf else ninf)
      split
      · rw [pos_mul_pinf ha]
      · rw [pos_mul_ninf ha]
  | fin x =>
    rw [fin_mul]
    cases y with
    | nan => rfl
    | pinf => show fin 0 = fin a * fin 0; rw [fin_mul, mul_zero]
    | ninf => show fin 0 = fin a * fin 0; rw [fin_mul, mul_zero]
    | fin y =>
      by_cases hy : y = 0
      · subst hy
        rw [fin_div_zero, fin_div_zero, infTimes_pos_mul ha, pos_mul_infTimes ha]
      · rw [fin_div _ _ hy, fin_div _ _ hy, fin_mul, mul_div_assoc]

theorem sum_pos_mul {a : K} (ha : 0 < a) (l : List (Num K)) :
    (l.map (fun x => fin a * x)).sum = fin a * l.sum := by
  induction l with
  | nil => show (0 : Num K) = fin a * fin 0; rw [fin_mul, mul_zero]; rfl
  | cons x l ih => rw [List.map_cons, List.sum_cons, List.sum_cons, ih, pos_mul_add ha]

end Num

section
variable {K : Type} [Field K] [LinearOrder K] [IsStrictOrderedRing K]
variable {t t' : Tri K} {n S : ℕ} {c : ℕ → ℕ → K} {s : K}

theorem wFactor_scale {a : K} (ha : a ≠ 0) (j : ℕ) : Spec.wFactor n (fun i j => a * c i j) j = Spec.wFactor n c j := by
  unfold Spec.wFactor
  rw [← Finset.mul_sum, ← Finset.mul_sum, ratio_scale ha]

theorem fitCum_scale {a : K} (ha : a ≠ 0) (i j : ℕ) :
    Spec.fitCum n (fun i j => a * c i j) i j = a * Spec.fitCum n c i j := by
  unfold Spec.fitCum
  simp only [wFactor_scale ha]
  rw [mul_div_assoc]

theorem incr_scale (a : K) (c : ℕ → ℕ → K) (i j : ℕ) :
    Spec.incr (fun i j => a * c i j) i j = a * Spec.incr c i j := by
  unfold Spec.incr
  split
  · rfl
  · rw [mul_sub]

theorem stdL_scale {sq : Num K → Num K} (hs : 0 < s) (hsq : ∀ v, sq (.fin (s * s) * v) = .fin s * sq v)
    (l : List (Num K)) : stdL sq (l.map (fun v => .fin s * v)) = .fin s * stdL sq l := by
  have hm : meanL (l.map (fun v => Num.fin s * v)) = .fin s * meanL l := by
    unfold meanL
    rw [Num.sum_pos_mul hs, List.length_map, Num.pos_mul_div_right hs]
  unfold stdL
  rw [← hsq]
  congr 1
  rw [hm, List.map_map, List.length_map, ← Num.pos_mul_div_right (mul_pos hs hs), ← Num.sum_pos_mul (mul_pos hs hs),
    List.map_map]
  congr 2
  refine List.map_congr_left fun v _ => ?_
  show (Num.fin s * v - Num.fin s * meanL l).pow 2 = Num.fin (s * s) * (v - meanL l).pow 2
  rw [← Num.pos_mul_sub hs, Num.pos_mul_pow2 hs]

/-- **C103** for the fit, staircase of any size: in a currency with amounts `s * s` times as large the factors are
the same, fitted increments and the scale parameter are multiplied by `s * s`, residuals and the
values drawn from by `s`. -/
theorem C103_fit {sq : Num K → Num K} (gm : List (Num K) → Num K) (hs : 0 < s)
    (hsq : ∀ v, sq (.fin (s * s) * v) = .fin s * sq v) (h : Spec.Stair t n c) (hp : Spec.Positive n c) (hn : 3 ≤ n) :
    ∃ fit fit', bootFit sq gm t t.a2aind0 = .ok fit ∧
      bootFit sq gm (t.scale (s * s)) (t.scale (s * s)).a2aind0 = .ok fit' ∧
      fit'.ldfs.map Prod.snd = fit.ldfs.map Prod.snd ∧
      (∀ i < n, ∀ j < n, fit'.fitIncr.cell i j = .fin (s * s) * fit.fitIncr.cell i j ∧
        fit'.residUs.cell i j = .fin s * fit.residUs.cell i j ∧
        fit'.residAdj.cell i j = .fin s * fit.residAdj.cell i j) ∧
      fit'.scale = .fin (s * s) * fit.scale ∧ fit'.sampling = fit.sampling.map (fun v => .fin s * v) := by
  have hss : 0 < s * s := mul_pos hs hs
  have h' := h.scale (s * s)
  have hp' := hp.scale hss
  obtain ⟨fit, hf, q⟩ := bootFit_stair sq gm h hp hn
  obtain ⟨fit', hf', q'⟩ := bootFit_stair sq gm h' hp' hn
  have hcells : (t.scale (s * s)).nbrCells = t.nbrCells := by rw [nbrCells_stair h, nbrCells_stair h']
  have hdof : bootDof (t.scale (s * s)) = bootDof t := by
    unfold bootDof; rw [hcells]; rfl
  have hnr : fit.residUs.nr = n := by unfold Tri.nr; rw [q.us_origins]; exact h.nr
  have hnc : fit.residUs.nc = n := by unfold Tri.nc; rw [q.us_devs]; exact h.nc
  have hnr' : fit'.residUs.nr = n := by unfold Tri.nr; rw [q'.us_origins]; exact h'.nr
  have hnc' : fit'.residUs.nc = n := by unfold Tri.nc; rw [q'.us_devs]; exact h'.nc
  have hfi : ∀ i j, Spec.incr (Spec.fitCum n (fun i j => s * s * c i j)) i j =
      s * s * Spec.incr (Spec.fitCum n c) i j := by
    intro i j
    rw [← incr_scale]
    congr 1
    funext i j
    exact fitCum_scale hss.ne' i j
  have hincr : ∀ i < n, ∀ j < n, fit'.fitIncr.cell i j = .fin (s * s) * fit.fitIncr.cell i j := by
    intro i hi j hj
    by_cases hij : i + j < n
    · rw [q.incr.obs i j hij, q'.incr.obs i j hij, hfi, Num.fin_mul]
    · rw [q.incr.miss i j hi hj (by omega), q'.incr.miss i j hi hj (by omega), Num.mul_nan]
  have hus : ∀ i < n, ∀ j < n, fit'.residUs.cell i j = .fin s * fit.residUs.cell i j := by
    intro i hi j hj
    by_cases hij : i + j < n
    · rw [q.us i j hij, q'.us i j hij, hfi, incr_scale, ← mul_sub, abs_mul, abs_of_pos hss, ← Num.fin_mul,
        ← Num.fin_mul (s * s) |Spec.incr (Spec.fitCum n c) i j|, hsq, ← Num.fin_mul s s, Num.pos_mul_assoc hs,
        Num.pos_mul_div hs, Num.pos_mul_div_right hs]
    · rw [q.us_miss i j hi hj (by omega), q'.us_miss i j hi hj (by omega), Num.mul_nan]
  have hadj : ∀ i < n, ∀ j < n, fit'.residAdj.cell i j = .fin s * fit.residAdj.cell i j := by
    intro i hi j hj
    rw [q.adj, q'.adj]
    show sq _ * fit'.residUs.cell i j = .fin s * (sq _ * fit.residUs.cell i j)
    rw [hcells, hdof, hus i hi j hj, Num.mul_comm', Num.pos_mul_assoc hs, Num.mul_comm' (fit.residUs.cell i j)]
  refine ⟨fit, fit', hf, hf', ?_, fun i hi j hj => ⟨hincr i hi j hj, hus i hi j hj, hadj i hi j hj⟩, ?_, ?_⟩
  · rw [q.ldfs, q'.ldfs]
    simp only [wFactor_scale hss.ne']
  · rw [q.scale, q'.scale]
    unfold scaleParam
    rw [hdof, ← Num.pos_mul_div_right hss, ← Num.sumSkip_pos_mul hss, List.map_map, hnc, hnc']
    congr 2
    refine List.map_congr_left fun j hj => ?_
    rw [List.mem_range] at hj
    show _ = Num.fin (s * s) * Num.sumSkip _
    rw [← Num.sumSkip_pos_mul hss, List.map_map]
    unfold Tri.col
    rw [hnr, hnr', List.map_map, List.map_map]
    congr 1
    refine List.map_congr_left fun i hi => ?_
    rw [List.mem_range] at hi
    show (fit'.residUs.cell i j).pow 2 = Num.fin (s * s) * (fit.residUs.cell i j).pow 2
    rw [hus i hi j hj, Num.pos_mul_pow2 hs]
  · have hnr2 : fit.residAdj.nr = n := by rw [q.adj]; exact hnr
    have hnc2 : fit.residAdj.nc = n := by rw [q.adj]; exact hnc
    have hnr2' : fit'.residAdj.nr = n := by rw [q'.adj]; exact hnr'
    have hnc2' : fit'.residAdj.nc = n := by rw [q'.adj]; exact hnc'
    rw [q.sampling, q'.sampling]
    unfold samplingDist
    rw [hnr2, hnc2, hnr2', hnc2']
    have e : (List.range (n - 1)).flatMap (fun i => (List.range (n - 1)).map (fun j => fit'.residAdj.cell i j)) =
        ((List.range (n - 1)).flatMap (fun i => (List.range (n - 1)).map (fun j => fit.residAdj.cell i j))).map
          (fun v => Num.fin s * v) := by
      rw [List.map_flatMap]
      apply flatMap_congr_mem
      intro i hi
      rw [List.mem_range] at hi
      rw [List.map_map]
      refine List.map_congr_left fun j hj => ?_
      rw [List.mem_range] at hj
      exact hadj i (by omega) j (by omega)
    rw [e, List.filter_map]
    congr 1
    apply List.filter_congr
    intro v _
    simp only [Function.comp, Num.pos_mul_isNaN hs, Num.pos_mul_eqF_zero hs]

/-! ### the simulations -/

/-- A row of the reserve distribution with amounts multiplied by `a`. -/
def ResRow.scale (a : K) (r : ResRow K) : ResRow K :=
  { r with latest := .fin a * r.latest, ultimate := .fin a * r.ultimate, reserve := .fin a * r.reserve }

variable {a : K} {x g : ℕ → ℕ → ℕ → K}

theorem simLdf_scale (ha : a ≠ 0) (s j : ℕ) :
    Spec.simLdf n (fun s i j => a * x s i j) s j = Spec.simLdf n x s j := by
  unfold Spec.simLdf Spec.simA1 Spec.simA2
  rw [← Finset.mul_sum, ← Finset.mul_sum, ratio_scale ha]
  simp [ha]

theorem simFull_scale (ha : a ≠ 0) (s i j : ℕ) :
    Spec.simFull n (fun s i j => a * x s i j) s i j = a * Spec.simFull n x s i j := by
  unfold Spec.simFull Spec.simProj
  simp only [simLdf_scale ha]
  split
  · rfl
  · split
    · rw [mul_zero]
    · rw [mul_assoc]

theorem simIncr_scale (t : Tri K) (ha : a ≠ 0) (s i j : ℕ) :
    Spec.simIncr t n (fun s i j => a * x s i j) s i j = a * Spec.simIncr t n x s i j := by
  unfold Spec.simIncr
  simp only [simFull_scale ha]
  rw [mul_add]
  congr 1
  · split
    · rfl
    · rw [mul_zero]
  · split
    · rw [mul_zero]
    · rw [mul_sub]

theorem finalIncr_scale (t : Tri K) (ha : 0 < a) (s i j : ℕ) :
    Spec.finalIncr t n (fun s i j => a * x s i j) (fun s i j => a * g s i j) s i j =
      a * Spec.finalIncr t n x g s i j := by
  unfold Spec.finalIncr
  rw [simIncr_scale t ha.ne']
  have : 0 < a * Spec.simIncr t n x s i j ↔ 0 < Spec.simIncr t n x s i j := by
    constructor
    · intro h
      by_contra h'
      exact absurd h (not_lt.2 (mul_nonpos_of_nonneg_of_nonpos ha.le (not_lt.1 h')))
    · exact fun h => mul_pos ha h
  simp only [this]
  split
  · rw [mul_assoc]
  · rfl

theorem resRowAt_scale (t : Tri K) (ha : 0 < a) (s i : ℕ) :
    resRowAt t n (fun s i j => a * x s i j) (fun s i j => a * g s i j) s i = (resRowAt t n x g s i).scale a := by
  unfold resRowAt ResRow.scale
  simp only [finalIncr_scale t ha, ← Finset.mul_sum, ← mul_sub, ResRow.mk.injEq, true_and]
  refine ⟨?_, ?_, ?_⟩
  · split <;> rw [Num.fin_mul]
  · rw [Num.fin_mul]
  · split
    · rw [Num.fin_mul, mul_zero]
    · rw [Num.fin_mul]

theorem abs_ratio_scale (ha : 0 < a) (d : K) (b : Num K) :
    (Num.fin (a * d) / (.fin a * b)).abs' = (Num.fin d / b).abs' := by
  rw [← Num.fin_mul, Num.pos_mul_div ha]

/-- Runs on scaled inputs give scaled reserves. -/
theorem bootSims_scale {m m' : Tri K} {v : ℕ → ℕ → K} {sq : Num K → Num K} (hs : 0 < s)
    (hfin : ∀ y : K, 0 ≤ y → ∃ r, sq (.fin y) = .fin r) (hsq : ∀ v, sq (.fin (s * s) * v) = .fin s * sq v)
    (ht : Spec.Stair t n c) (hn : 0 < n) (hS : 0 < S) (hm : Spec.Stair m n v)
    (hm' : Spec.Stair m' n (fun i j => s * s * v i j))
    (ho : m.origins = t.origins) (hd : m.devs = t.devs) (ho' : m'.origins = t.origins) (hd' : m'.devs = t.devs)
    (hv : ∀ i j, i + j < n → 0 ≤ v i j) {draw draw' : ℕ → Num K} (hz : ∀ p < S * (n * n), (draw p).isFin = true)
    (hzz : ∀ p, draw' p = .fin s * draw p) {scale : Num K} {gam gam' : ℕ → Num K → Num K → Num K}
    (hg : ∀ p < S * (n * n), ∀ a b, (gam p a b).isFin = true)
    (hgg : ∀ p a, gam' p a (.fin (s * s) * scale) = .fin (s * s) * gam p a scale)
    (hg' : ∀ p < S * (n * n), ∀ a b, (gam' p a b).isFin = true) :
    (bootSims sq (t.scale (s * s)) m' (.fin (s * s) * scale) S draw' gam').reserves =
      (bootSims sq t m scale S draw gam).reserves.map (ResRow.scale (s * s)) ∧
    ((bootSims sq (t.scale (s * s)) m' (.fin (s * s) * scale) S draw' gam').forecasts).map
        (fun r => (r.sampIncr / (.fin (s * s) * scale)).abs') =
      ((bootSims sq t m scale S draw gam).forecasts).map (fun r => (r.sampIncr / scale).abs') ∧
    ∀ r ∈ (bootSims sq t m scale S draw gam).forecasts, r.sampIncr.isFin = true := by
  have hss : 0 < s * s := mul_pos hs hs
  have hst : ∀ i j, i + j < n → Spec.startIncr v i j = v i j := by
    intro i j hij
    unfold Spec.startIncr
    rw [if_neg]
    rintro ⟨-, hlt⟩
    exact absurd hlt (not_lt.2 (hv i j hij))
  have hst' : ∀ i j, i + j < n → Spec.startIncr (fun i j => s * s * v i j) i j = s * s * v i j := by
    intro i j hij
    unfold Spec.startIncr
    rw [if_neg]
    rintro ⟨-, hlt⟩
    exact absurd hlt (not_lt.2 (mul_nonneg hss.le (hv i j hij)))
  obtain ⟨rt, hrt⟩ := exists_roots (sq := sq) hfin (fun i j hij _ => hv i j hij)
  have hrt' : ∀ i j, i + j < n → sq (.fin (Spec.startIncr (fun i j => s * s * v i j) i j)) = .fin (s * rt i j) := by
    intro i j hij
    rw [hst' i j hij, ← Num.fin_mul, hsq, ← hst i j hij, hrt i j hij, Num.fin_mul]
  have hz' : ∀ p < S * (n * n), (draw' p).isFin = true := by
    intro p hp
    rw [hzz, Num.pos_mul_isFin hs]
    exact hz p hp
  have q := bootSims_stair ht hn hS hm ho hd hrt hz (scale := scale) hg
  have q' := bootSims_stair (ht.scale (s * s)) hn hS hm' ho' hd' hrt' hz' (scale := .fin (s * s) * scale) hg'
  set x := Spec.simCum n (Spec.startIncr v) rt (finD draw) with hx
  set x' := Spec.simCum n (Spec.startIncr (fun i j => s * s * v i j)) (fun i j => s * rt i j) (finD draw') with hx'
  have hxx : ∀ q < S, ∀ i j, i + j < n → x' q i j = s * s * x q i j := by
    intro q hq i j hij
    rw [hx, hx']
    unfold Spec.simCum
    rw [Finset.mul_sum]
    refine Finset.sum_congr rfl fun k hk => ?_
    rw [Finset.mem_range] at hk
    have hp : q * (n * n) + (i * n + k) < S * (n * n) := posLt hq (by omega) (by omega)
    have e : finD draw' (q * (n * n) + (i * n + k)) = s * finD draw (q * (n * n) + (i * n + k)) := by
      have := finD_eq (hz' _ hp)
      rw [hzz, finD_eq (hz _ hp), Num.fin_mul] at this
      exact (Num.fin.inj this).symm
    rw [e, hst i k (by omega), hst' i k (by omega)]
    ring
  have hinc : ∀ q < S, ∀ i < n, ∀ j, Spec.simIncr t n x' q i j = s * s * Spec.simIncr t n x q i j := by
    intro q hq i hi j
    rw [simIncr_congr t (y := fun q i j => s * s * x q i j) (fun i j hij => hxx q hq i j hij) hi, simIncr_scale t hss.ne']
  have hgg2 : ∀ q < S, ∀ i < n, ∀ j < n, gamD (t.scale (s * s)) n x' (.fin (s * s) * scale) gam' q i j =
      s * s * gamD t n x scale gam q i j := by
    intro q hq i hi j hj
    unfold gamD
    show ((gam' _ (Num.fin (Spec.simIncr t n x' q i j) / _).abs' _).toFin).getD 0 = _
    rw [hinc q hq i hi, abs_ratio_scale hss, hgg]
    obtain ⟨y, hy⟩ := (Num.isFin_iff _).1 (hg _ (posLt hq hi hj) (Num.fin (Spec.simIncr t n x q i j) / scale).abs' scale)
    rw [hy, Num.fin_mul]
    rfl
  refine ⟨?_, ?_, ?_⟩
  · rw [q.reserves, q'.reserves, List.map_flatMap]
    apply flatMap_congr_mem
    intro i hi
    rw [List.mem_range] at hi
    rw [List.map_map]
    refine List.map_congr_left fun k hk => ?_
    rw [List.mem_range] at hk
    show resRowAt t n x' _ k i = _
    rw [resRowAt_congr t (y := fun q i j => s * s * x q i j)
      (g' := fun q i j => s * s * gamD t n x scale gam q i j) (fun i j hij => hxx k hk i j hij)
      (fun i hi j hj _ => hgg2 k hk i hi j hj) hi, resRowAt_scale t hss]
    rfl
  · rw [q.forecasts, q'.forecasts, List.map_flatMap, List.map_flatMap]
    apply flatMap_congr_mem
    intro k hk
    rw [List.mem_range] at hk
    rw [List.map_flatMap, List.map_flatMap]
    apply flatMap_congr_mem
    intro i hi
    rw [List.mem_range] at hi
    rw [List.map_map, List.map_map]
    refine List.map_congr_left fun j _ => ?_
    show (Num.fin (Spec.simIncr t n x' k i j) / _).abs' = (Num.fin (Spec.simIncr t n x k i j) / _).abs'
    rw [hinc k hk i hi, abs_ratio_scale hss]
  · intro r hr
    rw [q.forecasts] at hr
    simp only [List.mem_flatMap, List.mem_map] at hr
    obtain ⟨_, -, _, -, _, -, rfl⟩ := hr
    rfl

/-! ### the summary -/

theorem filter_scale_origin (a : K) (res : List (ResRow K)) (o : Int) :
    (res.map (ResRow.scale a)).filter (fun r => decide (r.origin = o)) =
      (res.filter (fun r => decide (r.origin = o))).map (ResRow.scale a) := by
  rw [List.filter_map]; rfl

theorem filter_scale_sim (a : K) (res : List (ResRow K)) (k : ℕ) :
    (res.map (ResRow.scale a)).filter (fun r => decide (r.sim = k)) =
      (res.filter (fun r => decide (r.sim = k))).map (ResRow.scale a) := by
  rw [List.filter_map]; rfl

theorem meanL_scale (ha : 0 < a) (l : List (Num K)) : meanL (l.map (fun v => .fin a * v)) = .fin a * meanL l := by
  unfold meanL
  rw [Num.sum_pos_mul ha, List.length_map, Num.pos_mul_div_right ha]

theorem meanSkip_scale (ha : 0 < a) (l : List (Num K)) :
    meanSkip (l.map (fun v => .fin a * v)) = .fin a * meanSkip l := by
  unfold meanSkip
  rw [← meanL_scale ha, List.filter_map]
  congr 2
  refine List.filter_congr fun v _ => ?_
  simp only [Function.comp_apply, Num.pos_mul_isNaN ha]

theorem bootUltimates_scale (ha : 0 < a) (t : Tri K) (res : List (ResRow K)) :
    bootUltimates (t.scale a) (res.map (ResRow.scale a)) = (bootUltimates t res).map (fun v => .fin a * v) := by
  unfold bootUltimates
  rw [List.map_map]
  refine List.map_congr_left fun i _ => ?_
  simp only [Function.comp]
  split
  · rw [Tri.scale_latest ha]
    exact Ser.get_map_scale _ _
  · rw [filter_scale_origin, List.map_map, ← meanSkip_scale ha, List.map_map]
    rfl

theorem bootReserves_scale (ha : 0 < a) (t : Tri K) (res : List (ResRow K)) :
    bootReserves (t.scale a) (res.map (ResRow.scale a)) = (bootReserves t res).map (fun v => .fin a * v) := by
  unfold bootReserves
  rw [bootUltimates_scale ha, List.map_zipWith, List.zipWith_map_right]
  congr 1
  funext i u
  rw [Num.pos_mul_sub ha, Tri.scale_latest ha]
  congr 1
  exact Ser.get_map_scale _ _

theorem bootTotals_scale (ha : 0 < a) (sims : ℕ) (res : List (ResRow K)) :
    bootTotals sims (res.map (ResRow.scale a)) = (bootTotals sims res).map (fun v => .fin a * v) := by
  unfold bootTotals
  rw [List.map_map]
  refine List.map_congr_left fun k _ => ?_
  simp only [Function.comp]
  rw [filter_scale_sim, ← Num.sumSkip_pos_mul ha, List.map_map, List.map_map]
  rfl

theorem bootStdErr_scale {sq : Num K → Num K} (ha : 0 < a) (hsq : ∀ v, sq (.fin (a * a) * v) = .fin a * sq v)
    (t : Tri K) (sims : ℕ) (res : List (ResRow K)) :
    bootStdErr sq (t.scale a) sims (res.map (ResRow.scale a)) =
      (bootStdErr sq t sims res).map (fun v => .fin a * v) := by
  unfold bootStdErr
  rw [bootTotals_scale ha, List.map_append, List.map_map, stdL_scale ha hsq]
  congr 1
  refine List.map_congr_left fun o _ => ?_
  simp only [Function.comp]
  rw [filter_scale_origin, ← stdL_scale ha hsq, List.map_map, List.map_map]
  rfl

/-- A generator whose draws follow the currency: `choice` picks positions, normal and gamma draws are standard
draws times their scale; draws with finite parameters are finite. -/
structure Spec.ScalesBy {G : Type} (P : Prng G K) (s : K) : Prop where
  choice : ∀ l m st, P.choice (l.map (fun v => .fin s * v)) m st =
    ((P.choice l m st).1.map (fun v => .fin s * v), (P.choice l m st).2)
  normal : ∀ b m st, P.normal (.fin s * b) m st =
    ((P.normal b m st).1.map (fun v => .fin s * v), (P.normal b m st).2)
  gamma : ∀ l b st, P.gamma l (.fin (s * s) * b) st =
    ((P.gamma l b st).1.map (fun v => .fin (s * s) * v), (P.gamma l b st).2)
  choice_fin : ∀ l m st, l ≠ [] → (∀ v ∈ l, v.isFin = true) →
    (P.choice l m st).1.length = m ∧ ∀ v ∈ (P.choice l m st).1, v.isFin = true
  normal_fin : ∀ b m st, b.isFin = true →
    (P.normal b m st).1.length = m ∧ ∀ v ∈ (P.normal b m st).1, v.isFin = true
  gamma_fin : ∀ l b st, (∀ v ∈ l, v.isFin = true) → b.isFin = true →
    (P.gamma l b st).1.length = l.length ∧ ∀ v ∈ (P.gamma l b st).1, v.isFin = true

theorem fitIncr_nonneg (hp : Spec.Positive n c) (hf : ∀ j < n - 1, 1 ≤ Spec.wFactor n c j) :
    ∀ i j, i + j < n → 0 ≤ Spec.incr (Spec.fitCum n c) i j := by
  intro i j hij
  cases j with
  | zero => exact (fitCum_pos hp hij).le
  | succ j =>
    show 0 ≤ (if j + 1 = 0 then _ else _)
    rw [if_neg (by omega), Nat.add_sub_cancel, fitCum_succ hp (by omega)]
    have h1 := fitCum_pos hp (show i + j < n by omega)
    have h2 := hf j (by omega)
    nlinarith

theorem getD_scale (hs : 0 < s) (l : List (Num K)) (p : ℕ) :
    (l.map (fun v => Num.fin s * v)).getD p .nan = .fin s * l.getD p .nan := by
  rw [List.getD_eq_getElem?_getD, List.getD_eq_getElem?_getD, List.getElem?_map]
  cases l[p]? <;> simp

theorem getD_fin {l : List (Num K)} (h : ∀ v ∈ l, v.isFin = true) {p : ℕ} (hp : p < l.length) :
    (l.getD p .nan).isFin = true := by
  rw [List.getD_eq_getElem?_getD, List.getElem?_eq_getElem hp]
  exact h _ (List.getElem_mem hp)

theorem getElem_lt_of_finite {l : List (Num K)} {m : ℕ} (h : l.length = m ∧ ∀ v ∈ l, v.isFin = true) :
    ∀ p < m, (l.getD p .nan).isFin = true :=
  fun _ hp => getD_fin h.2 (by rw [h.1]; exact hp)

/-- `bootCall` after the residual draws (a proof device, equal to that part of `bootCall` by `bootCall_eq`). -/
def bootTail {G : Type} (P : Prng G K) (sq : Num K → Num K) (t : Tri K) (S : ℕ) (isGamma : Bool) (arg : RandArg)
    (fit : BootFit K) (put1 : G → World G) (X : List (Num K) × G) : Except PyErr (BootResult K × World G) :=
  match getGen P (put1 X.2) arg with
  | .error e => .error e
  | .ok v => if isGamma = false then Except.error PyErr.valueError else
    let fc := bsForecasts t (bsSamples sq fit.fitIncr S (fun p => X.1.getD p .nan))
      (bsLdfs t S (bsSamples sq fit.fitIncr S (fun p => X.1.getD p .nan)))
    let gs := P.gamma (fc.map (fun r => (r.sampIncr / fit.scale).abs')) fit.scale v.1
    let sim := bootSims sq t fit.fitIncr fit.scale S (fun p => X.1.getD p .nan)
      (fun p _ _ => gs.1.getD p .nan)
    .ok (⟨fit, sim, bootUltimates t sim.reserves, bootReserves t sim.reserves,
      bootStdErr sq t S sim.reserves⟩, v.2 gs.2)

/-- `bootCall` after the fit and the first generator. -/
def bootRest {G : Type} (P : Prng G K) (sq : Num K → Num K) (t : Tri K) (S : ℕ) (isGamma parametric : Bool)
    (arg : RandArg) (fit : BootFit K) (s1 : G) (put1 : G → World G) : Except PyErr (BootResult K × World G) :=
  if parametric = true then
    bootTail P sq t S isGamma arg fit put1 (P.normal (stdL sq fit.sampling) (S * (t.nr * t.nc)) s1)
  else if fit.sampling = [] ∧ S * (t.nr * t.nc) ≠ 0 then .error .valueError
  else bootTail P sq t S isGamma arg fit put1 (P.choice fit.sampling (S * (t.nr * t.nc)) s1)

theorem bootCall_eq {G : Type} (P : Prng G K) (sq : Num K → Num K) (gm : List (Num K) → Num K) (t ind : Tri K)
    (S : ℕ) (isGamma parametric : Bool) (arg : RandArg) (w : World G) :
    bootCall P sq gm t ind S isGamma parametric arg w =
      match bootFit sq gm t ind with
      | .error e => .error e
      | .ok fit => match getGen P w arg with
        | .error e => .error e
        | .ok z => bootRest P sq t S isGamma parametric arg fit z.1 z.2 := by
  unfold bootCall bootRest bootTail
  cases bootFit sq gm t ind with
  | error e => rfl
  | ok fit =>
    simp only [bind, Except.bind]
    cases getGen P w arg with
    | error e => rfl
    | ok z =>
      obtain ⟨s1, put1⟩ := z
      dsimp only
      cases parametric with
      | true =>
        simp only [if_true]
        cases getGen P (put1 (P.normal (stdL sq fit.sampling) (S * (t.nr * t.nc)) s1).2) arg with
        | error e => rfl
        | ok v => cases isGamma <;> rfl
      | false =>
        simp only [Bool.false_eq_true, if_false]
        by_cases hc : fit.sampling = [] ∧ S * (t.nr * t.nc) ≠ 0
        · simp only [if_pos hc]
        simp only [if_neg hc]
        cases getGen P (put1 (P.choice fit.sampling (S * (t.nr * t.nc)) s1).2) arg with
        | error e => rfl
        | ok v => cases isGamma <;> rfl

/-- What a caller sees of a run. -/
def Spec.bootView {G : Type} (p : BootResult K × World G) :
    List (ResRow K) × List (Num K) × List (Num K) × List (Num K) × World G :=
  (p.1.sim.reserves, p.1.ultimates, p.1.reserves, p.1.stdErr, p.2)

/-- The same with amounts multiplied by `a`. -/
def Spec.bootViewScaled {G : Type} (a : K) (p : BootResult K × World G) :
    List (ResRow K) × List (Num K) × List (Num K) × List (Num K) × World G :=
  (p.1.sim.reserves.map (ResRow.scale a), p.1.ultimates.map (fun v => .fin a * v),
    p.1.reserves.map (fun v => .fin a * v), p.1.stdErr.map (fun v => .fin a * v), p.2)

/-- **C103** for the whole call: every simulated reserve, the reported ultimates and reserves and the standard
errors are multiplied, and the generators end in the same states; or the same exception is raised. -/
theorem C103_call {G : Type} {P : Prng G K} {sq : Num K → Num K} (gm : List (Num K) → Num K) (hs : 0 < s)
    (hfin : ∀ y : K, 0 ≤ y → ∃ r, sq (.fin y) = .fin r) (hsq : ∀ v, sq (.fin (s * s) * v) = .fin s * sq v)
    (hP : Spec.ScalesBy P s) (h : Spec.Stair t n c) (hp : Spec.Positive n c) (hn : 3 ≤ n)
    (hf : ∀ j < n - 1, 1 ≤ Spec.wFactor n c j) (hS : 0 < S) {parametric : Bool}
    (hpool : ∀ fit, bootFit sq gm t t.a2aind0 = .ok fit → (∃ b, b ≠ 0 ∧ fit.scale = .fin b) ∧
      if parametric then (stdL sq fit.sampling).isFin = true else ∀ v ∈ fit.sampling, v.isFin = true)
    (isGamma : Bool) (arg : RandArg) (w : World G) :
    (bootCall P sq gm (t.scale (s * s)) (t.scale (s * s)).a2aind0 S isGamma parametric arg w).map Spec.bootView =
      (bootCall P sq gm t t.a2aind0 S isGamma parametric arg w).map (Spec.bootViewScaled (s * s)) := by
  have hss : 0 < s * s := mul_pos hs hs
  obtain ⟨fit, fit', e1, e2, -, hcell, hscale, hsamp⟩ := C103_fit gm hs hsq h hp hn
  obtain ⟨fit1, g1, q⟩ := bootFit_stair sq gm h hp hn
  obtain ⟨fit2, g2, q'⟩ := bootFit_stair sq gm (h.scale (s * s)) (hp.scale hss) hn
  obtain rfl := Except.ok.inj (g1.symm.trans e1)
  obtain rfl := Except.ok.inj (g2.symm.trans e2)
  obtain ⟨⟨b, hb0, hb⟩, hpl⟩ := hpool _ e1
  have hv := fitIncr_nonneg hp hf
  have hm' : Spec.Stair fit2.fitIncr n (fun i j => s * s * Spec.incr (Spec.fitCum n c) i j) := by
    have := q'.incr
    refine ⟨this.nr, this.nc, this.origins, this.devs, ?_, this.miss⟩
    intro i j hij
    rw [(hcell i (by omega) j (by omega)).1, q.incr.obs i j hij, Num.fin_mul]
  have hsims := fun (draw draw' : ℕ → Num K) (gam gam' : ℕ → Num K → Num K → Num K) hz hzz hg hgg hg' =>
    bootSims_scale (S := S) (draw := draw) (draw' := draw') (gam := gam) (gam' := gam') (scale := fit1.scale) hs hfin hsq h
    (by omega) hS q.incr hm' q.incr_origins q.incr_devs q'.incr_origins q'.incr_devs hv hz hzz hg hgg hg'
  have hsize : (t.scale (s * s)).nr * (t.scale (s * s)).nc = t.nr * t.nc := rfl
  have hnn : t.nr * t.nc = n * n := by rw [h.nr, h.nc]
  -- draws and gamma values given
  have key : ∀ (D : List (Num K)) (st : G), (D.length = S * (t.nr * t.nc) ∧ ∀ v ∈ D, v.isFin = true) →
      let fc := bsForecasts t (bsSamples sq fit1.fitIncr S (fun p => D.getD p .nan))
        (bsLdfs t S (bsSamples sq fit1.fitIncr S (fun p => D.getD p .nan)))
      let D' := D.map (fun v => Num.fin s * v)
      let fc' := bsForecasts (t.scale (s * s)) (bsSamples sq fit2.fitIncr S (fun p => D'.getD p .nan))
        (bsLdfs (t.scale (s * s)) S (bsSamples sq fit2.fitIncr S (fun p => D'.getD p .nan)))
      let gs := P.gamma (fc.map (fun r => (r.sampIncr / fit1.scale).abs')) fit1.scale st
      let gs' := P.gamma (fc'.map (fun r => (r.sampIncr / fit2.scale).abs')) fit2.scale st
      gs'.2 = gs.2 ∧
      (bootSims sq (t.scale (s * s)) fit2.fitIncr fit2.scale S (fun p => D'.getD p .nan)
        (fun p _ _ => gs'.1.getD p .nan)).reserves =
      (bootSims sq t fit1.fitIncr fit1.scale S (fun p => D.getD p .nan)
        (fun p _ _ => gs.1.getD p .nan)).reserves.map (ResRow.scale (s * s)) := by
    intro D st hD fc D' fc' gs gs'
    rw [hnn] at hD
    have hz := getElem_lt_of_finite hD
    have hzz : ∀ p, D'.getD p .nan = .fin s * D.getD p .nan := getD_scale hs D
    obtain ⟨-, hsh, hfn⟩ := hsims (fun p => D.getD p .nan) (fun p => D'.getD p .nan) (fun _ _ _ => .fin 0)
      (fun _ _ _ => .fin 0) hz hzz (fun _ _ _ _ => rfl) (fun _ _ => by rw [Num.fin_mul, mul_zero]) (fun _ _ _ _ => rfl)
    have hsh' : fc'.map (fun r => (r.sampIncr / fit2.scale).abs') = fc.map (fun r => (r.sampIncr / fit1.scale).abs') := by
      rw [hscale]; exact hsh
    have hgs : gs' = (gs.1.map (fun v => Num.fin (s * s) * v), gs.2) := by
      show P.gamma _ _ st = _
      rw [hsh', hscale, hP.gamma]
    have hlen : fc.length = S * (n * n) := by
      show (bsForecasts t _ (bsLdfs t S _)).length = _
      obtain ⟨rt, hrt⟩ := exists_roots (sq := sq) hfin (fun i j hij _ => hv i j hij)
      have q := bootSims_stair h (by omega) hS q.incr q.incr_origins q.incr_devs hrt hz (scale := fit1.scale)
        (gam := fun _ _ _ => .fin 0) (fun _ _ _ _ => rfl)
      have := congrArg List.length q.forecasts
      rw [show (bootSims sq t fit1.fitIncr fit1.scale S (fun p => D.getD p .nan) fun _ _ _ => .fin 0).forecasts = fc
        from rfl] at this
      rw [this]
      simp
    have hgf := hP.gamma_fin (fc.map (fun r => (r.sampIncr / fit1.scale).abs')) fit1.scale st (by
      intro v hv
      obtain ⟨r, hr, rfl⟩ := List.mem_map.1 hv
      obtain ⟨y, hy⟩ := (Num.isFin_iff _).1 (hfn r hr)
      rw [hy, hb, Num.fin_div _ _ hb0]
      rfl) (by rw [hb]; rfl)
    rw [List.length_map, hlen] at hgf
    have hgz := getElem_lt_of_finite hgf
    refine ⟨by rw [hgs], ?_⟩
    obtain ⟨hR, -, -⟩ := hsims (fun p => D.getD p .nan) (fun p => D'.getD p .nan) (fun p _ _ => gs.1.getD p .nan)
      (fun p _ _ => gs'.1.getD p .nan) hz hzz (fun p hp _ _ => hgz p hp)
      (fun p _ => by rw [hgs]; exact getD_scale hss gs.1 p)
      (fun p hp _ _ => by
        rw [hgs]
        show ((gs.1.map (fun v => Num.fin (s * s) * v)).getD p .nan).isFin = true
        rw [getD_scale hss, Num.pos_mul_isFin hss]; exact hgz p hp)
    rw [hscale]
    exact hR
  have hsq2 : ∀ v, sq (.fin (s * s * (s * s)) * v) = .fin (s * s) * sq v := by
    intro v
    rw [← Num.fin_mul (s * s) (s * s), Num.pos_mul_assoc hss, hsq, hsq, ← Num.fin_mul s s, Num.pos_mul_assoc hs]
  rw [bootCall_eq, bootCall_eq, e1, e2]
  cases hgen : getGen P w arg with
  | error e => rfl
  | ok z =>
    obtain ⟨s1, put1⟩ := z
    have last : ∀ X X' : List (Num K) × G, X' = (X.1.map (fun v => Num.fin s * v), X.2) →
        (X.1.length = S * (t.nr * t.nc) ∧ ∀ v ∈ X.1, v.isFin = true) →
        (bootTail P sq (t.scale (s * s)) S isGamma arg fit2 put1 X').map Spec.bootView =
          (bootTail P sq t S isGamma arg fit1 put1 X).map (Spec.bootViewScaled (s * s)) := by
      rintro ⟨D, s1'⟩ X' rfl hD
      unfold bootTail
      dsimp only at hD ⊢
      cases getGen P (put1 s1') arg with
      | error e => rfl
      | ok v =>
        dsimp only
        cases isGamma with
        | false => rfl
        | true =>
          obtain ⟨k1, k2⟩ := key D v.1 hD
          simp only [Bool.true_eq_false, if_false, Except.map, Spec.bootView, Spec.bootViewScaled]
          rw [k1, k2, bootUltimates_scale hss, bootReserves_scale hss, bootStdErr_scale hss hsq2]
    show Except.map _ (bootRest P sq (t.scale (s * s)) S isGamma parametric arg fit2 s1 put1) =
      Except.map _ (bootRest P sq t S isGamma parametric arg fit1 s1 put1)
    unfold bootRest
    cases parametric with
    | true =>
      have hD := hP.normal_fin (stdL sq fit1.sampling) (S * (t.nr * t.nc)) s1 (by simpa using hpl)
      have e : P.normal (stdL sq fit2.sampling) (S * ((t.scale (s * s)).nr * (t.scale (s * s)).nc)) s1 =
          ((P.normal (stdL sq fit1.sampling) (S * (t.nr * t.nc)) s1).1.map (fun v => Num.fin s * v),
            (P.normal (stdL sq fit1.sampling) (S * (t.nr * t.nc)) s1).2) := by
        rw [hsamp, stdL_scale hs hsq, hP.normal]; rfl
      exact last _ _ e hD
    | false =>
      by_cases he : fit1.sampling = []
      · have he' : fit2.sampling = [] := by rw [hsamp, he]; rfl
        have h0 : S * (t.nr * t.nc) ≠ 0 := by
          rw [hnn]; exact (Nat.mul_pos hS (Nat.mul_pos (by omega) (by omega))).ne'
        rw [if_neg Bool.false_ne_true, if_neg Bool.false_ne_true, if_pos ⟨he', h0⟩, if_pos ⟨he, h0⟩]
        rfl
      · have he' : fit2.sampling ≠ [] := by rw [hsamp]; simpa using he
        have hD := hP.choice_fin fit1.sampling (S * (t.nr * t.nc)) s1 he (by simpa using hpl)
        have e : P.choice fit2.sampling (S * ((t.scale (s * s)).nr * (t.scale (s * s)).nc)) s1 =
            ((P.choice fit1.sampling (S * (t.nr * t.nc)) s1).1.map (fun v => Num.fin s * v),
              (P.choice fit1.sampling (S * (t.nr * t.nc)) s1).2) := by
          rw [hsamp, hP.choice]; rfl
        rw [if_neg Bool.false_ne_true, if_neg Bool.false_ne_true, if_neg (fun h => he' h.1), if_neg (fun h => he h.1)]
        exact last _ _ e hD

/-- Position draws: a generator that satisfies `Spec.ScalesBy` for every positive factor. -/
def stepPrng (K : Type) [Field K] [LinearOrder K] [IsStrictOrderedRing K] : Prng ℕ K where
  seed k := if k < 0 then .error .valueError else .ok k.toNat
  choice l n s := ((List.range n).map (fun p => l.getD ((s + p) % l.length) .nan), s + n)
  normal sd n s := ((List.range n).map (fun p => if (s + p) % 2 = 0 then sd else -sd), s + n)
  gamma l b s := (l.map (fun a => b * a), s + l.length)

theorem stepPrng_scales (hs : 0 < s) : Spec.ScalesBy (stepPrng K) s where
  choice l m st := by
    refine Prod.ext ?_ rfl
    show List.map _ _ = List.map _ (List.map _ _)
    rw [List.map_map]
    refine List.map_congr_left fun p _ => ?_
    rw [List.length_map, getD_scale hs]; rfl
  normal b m st := by
    refine Prod.ext ?_ rfl
    show List.map _ _ = List.map _ (List.map _ _)
    rw [List.map_map]
    refine List.map_congr_left fun p _ => ?_
    simp only [Function.comp]
    split
    · rfl
    · cases b with
      | fin x => simp
      | nan => rfl
      | pinf => rw [Num.pos_mul_pinf hs]; exact (Num.pos_mul_ninf hs).symm
      | ninf => rw [Num.pos_mul_ninf hs]; exact (Num.pos_mul_pinf hs).symm
  gamma l b st := by
    refine Prod.ext ?_ rfl
    show List.map _ _ = List.map _ (List.map _ _)
    rw [List.map_map]
    exact List.map_congr_left fun a _ => Num.pos_mul_assoc (mul_pos hs hs) b a
  choice_fin l m st hl hf := by
    refine ⟨by simp [stepPrng], ?_⟩
    intro v hv
    obtain ⟨p, -, rfl⟩ := List.mem_map.1 hv
    exact getD_fin hf (Nat.mod_lt _ (List.length_pos_iff.2 hl))
  normal_fin b m st hb := by
    refine ⟨by simp [stepPrng], ?_⟩
    intro v hv
    obtain ⟨p, -, rfl⟩ := List.mem_map.1 hv
    obtain ⟨x, rfl⟩ := (Num.isFin_iff _).1 hb
    split <;> rfl
  gamma_fin l b st hl hb := by
    refine ⟨by simp [stepPrng], ?_⟩
    intro v hv
    obtain ⟨a, ha, rfl⟩ := List.mem_map.1 hv
    obtain ⟨x, rfl⟩ := (Num.isFin_iff _).1 hb
    obtain ⟨y, rfl⟩ := (Num.isFin_iff _).1 (hl a ha)
    rfl

end

theorem Num.sqrt_mul_self {s : ℝ} (hs : 0 < s) (v : Num ℝ) : Num.sqrt (.fin (s * s) * v) = .fin s * Num.sqrt v := by
  cases v with
  | nan => rfl
  | pinf => rw [Num.pos_mul_pinf (mul_pos hs hs)]; exact (Num.pos_mul_pinf hs).symm
  | ninf => rw [Num.pos_mul_ninf (mul_pos hs hs)]; rfl
  | fin x =>
    rw [Num.fin_mul]
    by_cases hx : x < 0
    · have : s * s * x < 0 := mul_neg_of_pos_of_neg (mul_pos hs hs) hx
      simp only [Num.sqrt, if_pos hx, if_pos this]
      rfl
    · have hx := not_lt.1 hx
      rw [Num.sqrt_fin hx, Num.sqrt_fin (mul_nonneg (mul_pos hs hs).le hx), Num.fin_mul,
        Real.sqrt_mul (mul_pos hs hs).le, Real.sqrt_mul_self hs.le]

/-- **C103** with real numbers, for every positive factor: the generator's draws scale with the square root (residual
draws) and the factor itself (gamma draws). -/
theorem C103_real {G : Type} {P : Prng G ℝ} {t : Tri ℝ} {n S : ℕ} {c : ℕ → ℕ → ℝ} {a : ℝ}
    (gm : List (Num ℝ) → Num ℝ) (ha : 0 < a) (hP : Spec.ScalesBy P (Real.sqrt a)) (h : Spec.Stair t n c)
    (hp : Spec.Positive n c) (hn : 3 ≤ n) (hf : ∀ j < n - 1, 1 ≤ Spec.wFactor n c j) (hS : 0 < S) {parametric : Bool}
    (hpool : ∀ fit, bootFit Num.sqrt gm t t.a2aind0 = .ok fit → (∃ b, b ≠ 0 ∧ fit.scale = .fin b) ∧
      if parametric then (stdL Num.sqrt fit.sampling).isFin = true else ∀ v ∈ fit.sampling, v.isFin = true)
    (isGamma : Bool) (arg : RandArg) (w : World G) :
    (bootCall P Num.sqrt gm (t.scale a) (t.scale a).a2aind0 S isGamma parametric arg w).map Spec.bootView =
      (bootCall P Num.sqrt gm t t.a2aind0 S isGamma parametric arg w).map (Spec.bootViewScaled a) := by
  have hs := Real.sqrt_pos.2 ha
  have := C103_call gm hs (fun y hy => ⟨_, Num.sqrt_fin hy⟩) (Num.sqrt_mul_self hs) hP h hp hn hf hS hpool isGamma arg w
  rwa [Real.mul_self_sqrt ha.le] at this

/-- The example in a currency worth a quarter: reserves four times as large, residuals twice as large. -/
example :
    (bootCall (stepPrng ℚ) exSqrt (fun _ => .nan) (exBoot.scale 4) (exBoot.scale 4).a2aind0 2 true false (.int 0)
        ⟨fun _ => 0, fun _ => 0, 0⟩).map (fun p => (p.1.reserves, p.1.fit.sampling)) =
      (bootCall (stepPrng ℚ) exSqrt (fun _ => .nan) exBoot exBoot.a2aind0 2 true false (.int 0)
        ⟨fun _ => 0, fun _ => 0, 0⟩).map (fun p => (p.1.reserves.map (fun v => .fin 4 * v),
          p.1.fit.sampling.map (fun v => .fin 2 * v))) ∧
    ((bootCall (stepPrng ℚ) exSqrt (fun _ => .nan) exBoot exBoot.a2aind0 2 true false (.int 0)
        ⟨fun _ => 0, fun _ => 0, 0⟩).map (fun p => p.1.fit.sampling.length)) = .ok 4 := by
  decide +kernel

end Trikit
