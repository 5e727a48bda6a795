import Verif.BootSim
import Verif.Props.Boot

/-! # Properties of the bootstrap simulations (C55 - C60) -/

set_option linter.unusedSectionVars false

namespace Trikit

section
variable {K : Type} [Field K] [LinearOrder K] [IsStrictOrderedRing K]
variable {t m : Tri K} {n S : ℕ} {c v : ℕ → ℕ → K}

/-! ## C55 -/

theorem startIncr_fit (hp : Spec.Positive n c) {i j : ℕ} (h : i + j < n) :
    Spec.startIncr (Spec.incr (Spec.fitCum n c)) i j = Spec.incr (Spec.fitCum n c) i j := by
  unfold Spec.startIncr
  rw [if_neg]
  rintro ⟨rfl, h0⟩
  have := fitCum_pos hp h
  unfold Spec.incr at h0
  rw [if_pos rfl] at h0
  exact absurd h0 (not_lt.2 this.le)

/-- Simulated values without residuals are the fitted ones. -/
theorem simCum_zero (hp : Spec.Positive n c) (rt : ℕ → ℕ → K) (s : ℕ) {i j : ℕ} (h : i + j < n) :
    Spec.simCum n (Spec.startIncr (Spec.incr (Spec.fitCum n c))) rt (finD (fun _ => 0)) s i j =
      Spec.fitCum n c i j := by
  unfold Spec.simCum
  rw [← incr_sum (Spec.fitCum n c) i j]
  apply Finset.sum_congr rfl
  intro k hk
  rw [Finset.mem_range] at hk
  rw [startIncr_fit hp (by omega)]
  show _ + 0 * _ = _
  ring

theorem simLdf_fit (hp : Spec.Positive n c) {x : ℕ → ℕ → ℕ → K} {s : ℕ}
    (hx : ∀ i j, i + j < n → x s i j = Spec.fitCum n c i j) {j : ℕ} (hj : j + 1 < n) :
    Spec.simLdf n x s j = some (Spec.wFactor n c j) := by
  have h2 : Spec.simA2 n x s j = ∑ i ∈ Finset.range (n - 1 - j), c i j := by
    rw [← (fitCum_cols hp (n - 1 - j) j (by omega)).2]
    apply Finset.sum_congr rfl
    intro i hi
    rw [Finset.mem_range] at hi
    exact hx i j (by omega)
  have h1 : Spec.simA1 n x s (j + 1) = ∑ i ∈ Finset.range (n - 1 - j), c i (j + 1) := by
    rw [show n - 1 - j = n - (j + 1) by omega, ← (fitCum_cols hp (n - 1 - (j + 1)) (j + 1) (by omega)).1]
    apply Finset.sum_congr rfl
    intro i hi
    rw [Finset.mem_range] at hi
    exact hx i (j + 1) (by omega)
  have hpos := wSum_pos hp (show j < n - 1 by omega) (Nat.zero_le 1)
  simp only [Nat.add_zero] at hpos
  unfold Spec.simLdf
  rw [h1, h2, if_neg hpos.ne']
  rfl

theorem simProj_fit (hp : Spec.Positive n c) {x : ℕ → ℕ → ℕ → K} {s : ℕ}
    (hx : ∀ i j, i + j < n → x s i j = Spec.fitCum n c i j) {i j : ℕ} (hi : i < n) (hj : j < n)
    (hij : n ≤ i + j) :
    Spec.simProj n x s i j = c i (n - 1 - i) * ∏ k ∈ Finset.Ico (n - 1 - i) j, Spec.wFactor n c k := by
  unfold Spec.simProj
  rw [simLdf_fit hp hx (by omega), if_neg (by simp), hx i _ (by omega), fitCum_latest,
    Finset.prod_Ico_eq_prod_range, show j - (n - 1 - i) = i + j + 1 - n by omega]
  congr 1
  apply Finset.prod_congr rfl
  intro k hk
  rw [Finset.mem_range] at hk
  rw [simLdf_fit hp hx (by omega)]
  rfl

/-- **C55** without residuals every simulated cumulative triangle is the fitted one, its factors are the
all-weighted ones and its forecasts are those of the base chain ladder.  `hsq` is what is used of the
square root; fitted increments must not be negative (otherwise their root is not a number). -/
theorem C55_zero_residuals {sq : Num K → Num K} (gm : List (Num K) → Num K)
    (hsq : ∀ y : K, 0 ≤ y → ∃ r, sq (.fin y) = .fin r)
    (h : Spec.Stair t n c) (hp : Spec.Positive n c) (hn : 3 ≤ n) {fit : BootFit K}
    (hf : bootFit sq gm t t.a2aind0 = .ok fit)
    (hinc : ∀ i j, i + j < n → Num.le 0 (fit.fitIncr.cell i j) = true)
    (hS : 0 < S) {scale : Num K} {gam : ℕ → Num K → Num K → Num K}
    (hg : ∀ p < S * (n * n), ∀ a b, (gam p a b).isFin = true) :
    ∃ base, baseFromLdfs t fit.ldfs = .ok base ∧
      (bootSims sq t fit.fitIncr scale S (fun _ => 0) gam).samples.map
        (fun r => (r.sim, r.origin, r.dev, r.sampCum)) =
        (List.range S).flatMap (fun s => (List.range n).flatMap (fun i => (List.range n).map (fun j =>
          (s, t.oAt i, t.dAt j, fit.fitCum.cell i j)))) ∧
      (bootSims sq t fit.fitIncr scale S (fun _ => 0) gam).ldfs.map (fun r => (r.sim, r.dev, r.ldf)) =
        (List.range S).flatMap (fun s => (List.range (n - 1)).map (fun j =>
          (s, t.dAt j, (fit.ldfs.map Prod.snd).getD j .nan))) ∧
      (bootSims sq t fit.fitIncr scale S (fun _ => 0) gam).forecasts.map
        (fun r => (r.sim, r.origin, r.dev, r.sampCum)) =
        (List.range S).flatMap (fun s => (List.range n).flatMap (fun i => (List.range n).map (fun j =>
          (s, t.oAt i, t.dAt j, if i + j < n then fit.fitCum.cell i j else base.sqr.tri.cell i j)))) := by
  obtain ⟨fit', hf', hs⟩ := bootFit_stair sq gm h hp hn
  rw [hf] at hf'
  cases hf'
  have hv : ∀ i j, i + j < n → 0 < j → 0 ≤ Spec.incr (Spec.fitCum n c) i j := by
    intro i j hij _
    have := hinc i j hij
    rw [hs.incr.obs i j hij] at this
    simpa [Num.zero_def, Num.le_fin] using this
  obtain ⟨rt, hrt⟩ := exists_roots (sq := sq) hsq hv
  obtain ⟨base, hb, hbs⟩ := base_core h (by omega) (show LdfVals fit.ldfs n _ from hs.ldfs)
  have hsim := bootSims_stair h (show 0 < n by omega) hS hs.incr hs.incr_origins hs.incr_devs hrt
    (draw := fun _ => 0) (fun p _ => rfl) (scale := scale) hg
  generalize bootSims sq t fit.fitIncr scale S (fun _ => 0) gam = R at hsim ⊢
  have hx : ∀ s i j, i + j < n → Spec.simCum n (Spec.startIncr (Spec.incr (Spec.fitCum n c))) rt
      (finD (fun _ => 0)) s i j = Spec.fitCum n c i j := fun s i j hij => simCum_zero hp rt s hij
  generalize Spec.simCum n (Spec.startIncr (Spec.incr (Spec.fitCum n c))) rt
      (finD (fun _ => 0)) = x at hsim hx
  refine ⟨base, hb, ?_, ?_, ?_⟩
  · obtain ⟨row, htab⟩ := hsim.samples
    rw [htab.eq, List.map_flatMap]
    apply flatMap_congr_mem
    intro s hs'
    rw [List.mem_range] at hs'
    rw [List.map_flatMap]
    apply flatMap_congr_mem
    intro i hi
    rw [List.mem_range] at hi
    rw [List.map_map]
    apply List.map_congr_left
    intro j hj
    rw [List.mem_range] at hj
    show ((row s i j).sim, (row s i j).origin, (row s i j).dev, (row s i j).sampCum) = _
    rw [htab.sim, htab.origin, htab.dev]
    by_cases hij : i + j < n
    · rw [htab.obs s i j hs' hij, hs.cum.obs i j hij, hx s i j hij]
    · rw [htab.miss s i j hi hj (by omega), hs.cum.miss i j hi hj (by omega)]
  · rw [hsim.ldfs, List.map_flatMap]
    apply flatMap_congr_mem
    intro s hs'
    rw [List.map_filterMap, ← congrFun List.filterMap_eq_map' _]
    apply List.filterMap_congr
    intro j hj
    rw [List.mem_range] at hj
    rw [simLdf_fit hp (hx s) (by omega), hs.ldfs, List.getD_eq_getElem?_getD, List.getElem?_map,
      List.getElem?_range (by omega)]
    simp only [Option.map_some, Option.getD_some]
    rw [if_pos (show j + 1 < n by omega)]
  · rw [hsim.forecasts, List.map_flatMap]
    apply flatMap_congr_mem
    intro s hs'
    rw [List.map_flatMap]
    apply flatMap_congr_mem
    intro i hi
    rw [List.mem_range] at hi
    rw [List.map_map]
    apply List.map_congr_left
    intro j hj
    rw [List.mem_range] at hj
    show (s, t.oAt i, t.dAt j, Num.fin (Spec.simFull n x s i j)) = _
    unfold Spec.simFull
    by_cases hij : i + j < n
    · rw [if_pos hij, if_pos hij, hs.cum.obs i j hij, hx s i j hij]
    · rw [if_neg hij, if_neg hij, hbs.sqr_cells i hi j hj, if_neg hij,
        simProj_fit hp (hx s) hi hj (by omega)]
      congr 5
      apply Finset.prod_congr rfl
      intro k hk
      rw [Finset.mem_Ico] at hk
      rw [if_pos (by omega)]


/-! ## C56 -/

/-- **C56 (partial)** on staircases without negative fitted increments after the first period and with
finite draws, factors, forecasts and reserves of simulation `s` are determined by the residuals and gamma
draws of simulation `s`, whatever the other draws and the number of simulations.  Missing: triangles with
negative fitted increments, where it is false (`C56_fails`), and other shapes. -/
theorem C56_partial {sq : Num K → Num K} (hsq : ∀ y : K, 0 ≤ y → ∃ r, sq (.fin y) = .fin r)
    (ht : Spec.Stair t n c) (hn : 0 < n) (hm : Spec.Stair m n v) (ho : m.origins = t.origins)
    (hd : m.devs = t.devs) (hv : ∀ i j, i + j < n → 0 < j → 0 ≤ v i j) {scale : Num K}
    {S S' : ℕ} {draw draw' : ℕ → Num K} {gam gam' : ℕ → Num K → Num K → Num K}
    (hz : ∀ p < S * (n * n), (draw p).isFin = true) (hz' : ∀ p < S' * (n * n), (draw' p).isFin = true)
    (hg : ∀ p < S * (n * n), ∀ a b, (gam p a b).isFin = true)
    (hg' : ∀ p < S' * (n * n), ∀ a b, (gam' p a b).isFin = true)
    {s : ℕ} (hs : s < S) (hs' : s < S')
    (hdr : ∀ p, s * (n * n) ≤ p → p < (s + 1) * (n * n) → draw p = draw' p)
    (hga : ∀ p, s * (n * n) ≤ p → p < (s + 1) * (n * n) → gam p = gam' p) :
    (bootSims sq t m scale S draw gam).ldfs.filter (fun q => decide (q.sim = s)) =
      (bootSims sq t m scale S' draw' gam').ldfs.filter (fun q => decide (q.sim = s)) ∧
    (bootSims sq t m scale S draw gam).forecasts.filter (fun q => decide (q.sim = s)) =
      (bootSims sq t m scale S' draw' gam').forecasts.filter (fun q => decide (q.sim = s)) ∧
    (bootSims sq t m scale S draw gam).reserves.filter (fun q => decide (q.sim = s)) =
      (bootSims sq t m scale S' draw' gam').reserves.filter (fun q => decide (q.sim = s)) := by
  obtain ⟨rt, hrt⟩ := exists_roots (sq := sq) hsq hv
  have h1 := bootSims_stair ht hn (show 0 < S by omega) hm ho hd hrt hz (scale := scale) hg
  have h2 := bootSims_stair ht hn (show 0 < S' by omega) hm ho hd hrt hz' (scale := scale) hg'
  have hb : ∀ i j, i < n → j < n → s * (n * n) + (i * n + j) < (s + 1) * (n * n) :=
    fun i j hi hj => posLt (Nat.lt_succ_self s) hi hj
  have hx : ∀ i j, i + j < n → Spec.simCum n (Spec.startIncr v) rt (finD draw) s i j =
      Spec.simCum n (Spec.startIncr v) rt (finD draw') s i j := by
    intro i j hij
    unfold Spec.simCum
    apply Finset.sum_congr rfl
    intro k hk
    rw [Finset.mem_range] at hk
    unfold finD
    rw [hdr _ (Nat.le_add_right _ _) (hb i k (by omega) (by omega))]
  have hgg : ∀ i < n, ∀ j < n, n ≤ i + j →
      gamD t n (Spec.simCum n (Spec.startIncr v) rt (finD draw)) scale gam s i j =
      gamD t n (Spec.simCum n (Spec.startIncr v) rt (finD draw')) scale gam' s i j := by
    intro i hi j hj _
    unfold gamD
    rw [simIncr_congr t hx hi, hga _ (Nat.le_add_right _ _) (hb i j hi hj)]
  refine ⟨?_, ?_, ?_⟩
  · rw [h1.ldfs_sim hs, h2.ldfs_sim hs']
    apply List.filterMap_congr
    intro j _
    rw [simLdf_congr hx]
  · rw [h1.forecasts_sim hs, h2.forecasts_sim hs']
    apply flatMap_congr_mem
    intro i hi
    rw [List.mem_range] at hi
    apply List.map_congr_left
    intro j _
    rw [sqrdRowAt_congr t hx hi]
  · rw [h1.reserves_sim hs, h2.reserves_sim hs']
    apply List.map_congr_left
    intro i hi
    rw [List.mem_range] at hi
    rw [resRowAt_congr t hx hgg hi]

end

/-- A triangle whose last factor is below 1. -/
def leakVals : ℕ → ℕ → ℚ := fun i j =>
  ((([[110, 200, 100], [90, 200], [100]] : List (List ℚ)).getD i []).getD j 0)

def leakTri : Tri ℚ := stairTri 3 leakVals

/-- Two simulations on a triangle; `d` is the first residual of simulation 0, all others are 0; gamma
draws are their means. -/
def leakRun (t : Tri ℚ) (d : ℚ) : Except PyErr (SimResult ℚ) :=
  (bootFit exSqrt (fun _ => .nan) t t.a2aind0).map (fun fit =>
    bootSims exSqrt t fit.fitIncr fit.scale 2 (fun p => if p = 0 then .fin d else 0) (fun _ a b => a * b))

/-- **C56 fails** in general: with a fitted increment below 0 the last period has no simulated value, the
shift over the whole table then pairs the first period of simulation 1 with the last one of simulation 0,
and a residual of simulation 0 changes a factor and the reserves of simulation 1. -/
theorem C56_fails :
    (leakRun leakTri 0).map (fun r => (r.ldfs.filter (fun q => decide (q.sim = 1))).map
      (fun q => (q.dev, q.ldf))) = .ok [(2, .fin (3 / 2)), (1, .fin 2)] ∧
    (leakRun leakTri 1).map (fun r => (r.ldfs.filter (fun q => decide (q.sim = 1))).map
      (fun q => (q.dev, q.ldf))) = .ok [(2, .fin (10 / 7)), (1, .fin 2)] ∧
    (leakRun leakTri 0).map (fun r => (r.reserves.filter (fun q => decide (q.sim = 1))).map ResRow.reserve) ≠
    (leakRun leakTri 1).map (fun r => (r.reserves.filter (fun q => decide (q.sim = 1))).map ResRow.reserve) := by
  decide +kernel

/-- With non-negative fitted increments simulation 1 does not change, simulation 0 does. -/
example : (leakRun exBoot 0).map (fun r => r.ldfs.map (fun q => (q.sim, q.dev, q.ldf))) =
      .ok [(0, 1, .fin 2), (0, 2, .fin (3 / 2)), (1, 1, .fin 2), (1, 2, .fin (3 / 2))] ∧
    (leakRun exBoot 1).map (fun r => r.ldfs.map (fun q => (q.sim, q.dev, q.ldf))) =
      .ok [(0, 1, .fin (41 / 21)), (0, 2, .fin (31 / 21)), (1, 1, .fin 2), (1, 2, .fin (3 / 2))] := by
  decide +kernel

/-- C55 on the example: with residuals 0 all forecasts are those of the base chain ladder. -/
example : (leakRun exBoot 0).map (fun r => r.forecasts.map SqrdRow.sampCum) =
    .ok ((List.replicate 6 [Num.fin 100, .fin 200, .fin 300]).flatten) := by
  decide +kernel

/-! ## C57 -/

section
variable {K : Type} [Field K] [LinearOrder K] [IsStrictOrderedRing K]
variable {t m : Tri K} {n S : ℕ} {c v : ℕ → ℕ → K}

theorem gtGo_length {α β κ : Type} [DecidableEq κ] [Inhabited β] (key : α → κ) (f : List α → List β)
    (all : List α) : ∀ l seen, (gtGo key f all seen l).length = l.length := by
  intro l
  induction l with
  | nil => intro seen; rfl
  | cons a l ih => intro seen; simp [gtGo, ih]

theorem groupTransform_length {α β κ : Type} [DecidableEq κ] [Inhabited β] (key : α → κ)
    (f : List α → List β) (l : List α) : (groupTransform key f l).length = l.length :=
  gtGo_length key f l l []

theorem mem_zipWith {α β γ : Type} {f : α → β → γ} {l : List α} {l' : List β} {z : γ}
    (h : z ∈ List.zipWith f l l') : ∃ a ∈ l, ∃ b ∈ l', z = f a b := by
  induction l generalizing l' with
  | nil => simp at h
  | cons a l ih =>
    cases l' with
    | nil => simp at h
    | cons b l' =>
      rw [List.zipWith_cons_cons, List.mem_cons] at h
      rcases h with rfl | h
      · exact ⟨a, by simp, b, by simp, rfl⟩
      · obtain ⟨a', ha, b', hb, rfl⟩ := ih h
        exact ⟨a', by simp [ha], b', by simp [hb], rfl⟩

theorem map_zipWith_fst {α β γ δ : Type} {f : α → β → γ} {g : γ → δ} {k : α → δ} (h : ∀ a b, g (f a b) = k a)
    {l : List α} {l' : List β} (hl : l.length = l'.length) : (List.zipWith f l l').map g = l.map k := by
  induction l generalizing l' with
  | nil => rfl
  | cons a l ih =>
    cases l' with
    | nil => simp at hl
    | cons b l' =>
      rw [List.zipWith_cons_cons, List.map_cons, List.map_cons, h, ih (by simpa using hl)]

/-- **C57**, first part, for every triangle, all samples and all non-negative gamma draws: process error
keeps all rows, leaves observed increments unchanged and replaces each forecast increment by plus or minus
its gamma draw according to the sign of the increment. -/
theorem C57_process (t : Tri K) (samples : List (SampRow K)) (ldfs : List (LdfRow K)) (scale : Num K)
    {gam : ℕ → Num K → Num K → Num K} (hg : ∀ p a b, ∃ y : K, 0 ≤ y ∧ gam p a b = .fin y) :
    (bsProcess scale gam (bsForecasts t samples ldfs)).map ProcRow.base = bsForecasts t samples ldfs ∧
    ∀ q ∈ bsProcess scale gam (bsForecasts t samples ldfs),
      (q.base.fcst = false → q.finalIncr = q.base.sampIncr) ∧
      (q.base.fcst = true → ∃ y : K, 0 ≤ y ∧
        (∃ p, gam p (q.base.sampIncr / scale).abs' scale = .fin y) ∧
        (Num.lt 0 q.base.sampIncr = true → q.finalIncr = .fin y) ∧
        (Num.lt 0 q.base.sampIncr = false → q.finalIncr = .fin (-y))) := by
  have hsign : ∀ r ∈ bsForecasts t samples ldfs,
      r.sign = if Num.lt 0 r.sampIncr then 1 else .fin (-1) := by
    intro r hr
    unfold bsForecasts at hr
    obtain ⟨a, -, b, -, rfl⟩ := mem_zipWith hr
    rfl
  generalize bsForecasts t samples ldfs = rows at hsign
  unfold bsProcess
  constructor
  · simp only
    refine Eq.trans (map_zipWith_fst (g := ProcRow.base) (k := fun p : SqrdRow K × Num K => p.1)
      (f := fun p c => (⟨p.1, p.2, c⟩ : ProcRow K)) (fun _ _ => rfl) ?_) ?_
    · rw [groupTransform_length]
    rw [List.map_map]
    show rows.zipIdx.map Prod.fst = rows
    simp
  · intro q hq
    obtain ⟨a, ha, b, -, rfl⟩ := mem_zipWith hq
    rw [List.mem_map] at ha
    obtain ⟨⟨r, p⟩, hr, rfl⟩ := ha
    have hr' : r ∈ rows := by
      have := List.mem_zipIdx hr
      obtain ⟨_, _, h3⟩ := this
      rw [h3]; exact List.getElem_mem _
    simp only
    constructor
    · intro hf
      rw [hf]; rfl
    · intro hf
      obtain ⟨y, hy, hy'⟩ := hg p (r.sampIncr / scale).abs' scale
      refine ⟨y, hy, ⟨p, hy'⟩, ?_, ?_⟩
      · intro hl
        rw [if_pos hf, hy', hsign r hr', if_pos hl, Num.one_def, Num.fin_mul, mul_one]
      · intro hl
        rw [if_pos hf, hy', hsign r hr', if_neg (by rw [hl]; simp), Num.fin_mul, mul_neg_one]

theorem filter_flatMap_single' {α : Type} {p : α → Bool} {S s : ℕ} (hs : s < S) {f : ℕ → List α}
    (h : ∀ s' < S, s' ≠ s → ∀ x ∈ f s', p x = false) :
    ((List.range S).flatMap f).filter p = (f s).filter p := by
  have e : (List.range S).flatMap f = (List.range S).flatMap (fun s' => if s' < S then f s' else []) :=
    flatMap_congr_mem (fun i hi => by rw [if_pos (List.mem_range.1 hi)])
  rw [e, filter_flatMap_single hs, if_pos hs]
  intro s' hne x hx
  by_cases hlt : s' < S
  · rw [if_pos hlt] at hx
    exact h s' hlt hne x hx
  · rw [if_neg hlt] at hx
    simp at hx

/-- Rows of one origin in one simulation that are forecasts. -/
theorem SimSpec.proc_fcst {x g : ℕ → ℕ → ℕ → K} {r : SimResult K} (ht : Spec.Stair t n c)
    (h : SimSpec t n S x g r) {s i : ℕ} (hs : s < S) (hi : i < n) :
    Num.sumSkip ((r.proc.filter (fun q => decide (q.base.sim = s) && decide (q.base.origin = t.oAt i) &&
      q.base.fcst)).map ProcRow.finalIncr) = .fin (∑ k ∈ Finset.Ico (n - i) n, Spec.finalIncr t n x g s i k) := by
  have e : r.proc.filter (fun q => decide (q.base.sim = s) && decide (q.base.origin = t.oAt i) &&
      q.base.fcst) = (List.range (n - (n - i))).map (fun j => procRowAt t n x g s i (n - i + j)) := by
    rw [h.proc, filter_flatMap_single hs, filter_flatMap_single' hi, filter_range_ge (k := n - i) (by omega)]
    · intro j hj
      simp only [procRowAt, sqrdRowAt, decide_true, Bool.true_and]
      congr 1
      apply propext
      omega
    · intro i' hlt hi' q hq
      rw [List.mem_map] at hq
      obtain ⟨j, -, rfl⟩ := hq
      have : t.oAt i' ≠ t.oAt i := fun e => hi' (ht.oAt_inj hlt hi e)
      simp [procRowAt, sqrdRowAt, this]
    · intro s' hs' q hq
      simp only [List.mem_flatMap, List.mem_map] at hq
      obtain ⟨i, -, j, -, rfl⟩ := hq
      simp [procRowAt, sqrdRowAt, hs']
  rw [e, List.map_map]
  show Num.sumSkip ((List.range (n - (n - i))).map (fun j => Num.fin (Spec.finalIncr t n x g s i (n - i + j)))) = _
  rw [sumSkip_fin_range, Finset.sum_Ico_eq_sum_range]

/-- Reserve of a simulation in terms of its forecasts, for any labels: the observed part only cancels
when the first period has label 1. -/
theorem reserve_eq {x g : ℕ → ℕ → ℕ → K} {s i : ℕ} (hi : i < n) :
    (resRowAt t n x g s i).reserve = .fin (if i = 0 then 0 else
      (∑ k ∈ Finset.Ico (n - i) n, Spec.finalIncr t n x g s i k) - x s i 0 +
        ∑ k ∈ Finset.range (n - i), if t.dAt k = 1 then x s i k else 0) := by
  unfold resRowAt
  simp only
  split
  · rfl
  · rw [finalIncr_sum t x g s hi]
    congr 1
    ring

theorem label_one_sum (ht : Spec.Stair t n c) (h1 : t.dAt 0 = 1) {i : ℕ} (hi : i < n) (f : ℕ → K) :
    (∑ k ∈ Finset.range (n - i), if t.dAt k = 1 then f k else 0) = f 0 := by
  rw [Finset.sum_eq_single 0]
  · rw [if_pos h1]
  · intro k hk h0
    rw [Finset.mem_range] at hk
    rw [if_neg]
    intro e
    have := ht.dAt_inj (show k < n by omega) (show 0 < n by omega) (by rw [e, h1])
    exact h0 this
  · intro h
    exact absurd (Finset.mem_range.2 (by omega)) h

/-- **C57 (partial)**, second part, on staircases whose first development label is 1, without negative
fitted increments after the first period, for finite draws: each simulated reserve is the sum of the
forecast increments of its origin.  Missing: other labels, where it is false (`C57_fails`). -/
theorem C57_reserve_partial {sq : Num K → Num K} (hsq : ∀ y : K, 0 ≤ y → ∃ r, sq (.fin y) = .fin r)
    (ht : Spec.Stair t n c) (hn : 0 < n) (h1 : t.dAt 0 = 1) (hS : 0 < S) (hm : Spec.Stair m n v)
    (ho : m.origins = t.origins) (hd : m.devs = t.devs) (hv : ∀ i j, i + j < n → 0 < j → 0 ≤ v i j)
    {scale : Num K} {draw : ℕ → Num K} {gam : ℕ → Num K → Num K → Num K}
    (hz : ∀ p < S * (n * n), (draw p).isFin = true)
    (hg : ∀ p < S * (n * n), ∀ a b, (gam p a b).isFin = true) :
    ∀ r ∈ (bootSims sq t m scale S draw gam).reserves, r.reserve = Num.sumSkip
      (((bootSims sq t m scale S draw gam).proc.filter (fun q => decide (q.base.sim = r.sim) &&
        decide (q.base.origin = r.origin) && q.base.fcst)).map ProcRow.finalIncr) := by
  obtain ⟨rt, hrt⟩ := exists_roots (sq := sq) hsq hv
  have h := bootSims_stair ht hn hS hm ho hd hrt hz (scale := scale) hg
  intro r hr
  obtain ⟨s, i, hs, hi, rfl⟩ := h.mem_reserves.1 hr
  show _ = Num.sumSkip ((_ : List (ProcRow K)).map ProcRow.finalIncr)
  rw [show (resRowAt t n (Spec.simCum n (Spec.startIncr v) rt (finD draw))
    (gamD t n (Spec.simCum n (Spec.startIncr v) rt (finD draw)) scale gam) s i).sim = s from rfl,
    show (resRowAt t n (Spec.simCum n (Spec.startIncr v) rt (finD draw))
    (gamD t n (Spec.simCum n (Spec.startIncr v) rt (finD draw)) scale gam) s i).origin = t.oAt i from rfl,
    h.proc_fcst ht hs hi, reserve_eq hi]
  congr 1
  split
  · next h0 =>
    subst h0
    simp
  · rw [label_one_sum ht h1 hi]
    ring

/-! ## C58 -/

theorem simIncr_relabel {t t' : Tri K} {x : ℕ → ℕ → ℕ → K} {j : ℕ} (h1 : t.dAt j = 1 ↔ t'.dAt j = 1) (s i : ℕ) :
    Spec.simIncr t n x s i j = Spec.simIncr t' n x s i j := by
  unfold Spec.simIncr
  by_cases h : t.dAt j = 1
  · rw [if_pos h, if_pos (h1.1 h)]
  · rw [if_neg h, if_neg (fun e => h (h1.2 e))]

/-- **C58 (partial)** two staircases with the same values and origins, labels increasing in both, and
label 1 at the same place if at all: the same draws give the same reserves, totals and standard errors.
In particular when both first labels are 1.  Missing: other relabellings, where it is false
(`C58_fails`); the exact change is `C58_shift`. -/
theorem C58_partial {t' m' : Tri K} {sq : Num K → Num K} (hsq : ∀ y : K, 0 ≤ y → ∃ r, sq (.fin y) = .fin r)
    (ht : Spec.Stair t n c) (ht' : Spec.Stair t' n c) (hn : 0 < n) (hoo : t.origins = t'.origins)
    (h1 : ∀ j < n, t.dAt j = 1 ↔ t'.dAt j = 1)
    (hS : 0 < S) (hm : Spec.Stair m n v) (hm' : Spec.Stair m' n v)
    (ho : m.origins = t.origins) (ho' : m'.origins = t'.origins) (hd : m.devs = t.devs)
    (hd' : m'.devs = t'.devs) (hv : ∀ i j, i + j < n → 0 < j → 0 ≤ v i j)
    {scale : Num K} {draw : ℕ → Num K} {gam : ℕ → Num K → Num K → Num K}
    (hz : ∀ p < S * (n * n), (draw p).isFin = true)
    (hg : ∀ p < S * (n * n), ∀ a b, (gam p a b).isFin = true) :
    (bootSims sq t m scale S draw gam).reserves = (bootSims sq t' m' scale S draw gam).reserves := by
  obtain ⟨rt, hrt⟩ := exists_roots (sq := sq) hsq hv
  have h := bootSims_stair ht hn hS hm ho hd hrt hz (scale := scale) hg
  have h' := bootSims_stair ht' hn hS hm' ho' hd' hrt hz (scale := scale) hg
  rw [h.reserves, h'.reserves]
  apply flatMap_congr_mem
  intro i hi
  rw [List.mem_range] at hi
  apply List.map_congr_left
  intro s hs
  rw [List.mem_range] at hs
  generalize Spec.simCum n (Spec.startIncr v) rt (finD draw) = x
  have e : ∀ j < n, Spec.finalIncr t n x (gamD t n x scale gam) s i j =
      Spec.finalIncr t' n x (gamD t' n x scale gam) s i j := by
    intro j hj
    unfold Spec.finalIncr gamD
    rw [simIncr_relabel (h1 j hj)]
  have e' : ∑ k ∈ Finset.range n, Spec.finalIncr t n x (gamD t n x scale gam) s i k =
      ∑ k ∈ Finset.range n, Spec.finalIncr t' n x (gamD t' n x scale gam) s i k :=
    Finset.sum_congr rfl (fun j hj => e j (Finset.mem_range.1 hj))
  unfold resRowAt
  rw [e', oAt_congr hoo]

/-- **C58** what happens to the reserves when no label is 1: every simulated reserve, except that of the
first origin, is the sum of the forecasts minus the simulated value of the first period. -/
theorem C58_shift {sq : Num K → Num K} (hsq : ∀ y : K, 0 ≤ y → ∃ r, sq (.fin y) = .fin r)
    (ht : Spec.Stair t n c) (hn : 0 < n) (h1 : ∀ j < n, t.dAt j ≠ 1) (hS : 0 < S) (hm : Spec.Stair m n v)
    (ho : m.origins = t.origins) (hd : m.devs = t.devs) (hv : ∀ i j, i + j < n → 0 < j → 0 ≤ v i j)
    {scale : Num K} {draw : ℕ → Num K} {gam : ℕ → Num K → Num K → Num K}
    (hz : ∀ p < S * (n * n), (draw p).isFin = true)
    (hg : ∀ p < S * (n * n), ∀ a b, (gam p a b).isFin = true) :
    ∀ r ∈ (bootSims sq t m scale S draw gam).reserves, r.origin ≠ t.oAt 0 →
      ∃ q ∈ (bootSims sq t m scale S draw gam).samples, q.sim = r.sim ∧ q.origin = r.origin ∧
        q.dev = t.dAt 0 ∧ r.reserve = Num.sumSkip
      (((bootSims sq t m scale S draw gam).proc.filter (fun q => decide (q.base.sim = r.sim) &&
        decide (q.base.origin = r.origin) && q.base.fcst)).map ProcRow.finalIncr) - q.sampCum := by
  obtain ⟨rt, hrt⟩ := exists_roots (sq := sq) hsq hv
  have h := bootSims_stair ht hn hS hm ho hd hrt hz (scale := scale) hg
  generalize bootSims sq t m scale S draw gam = R at h
  generalize Spec.simCum n (Spec.startIncr v) rt (finD draw) = x at h
  generalize gamD t n x scale gam = g at h
  intro r hr hne
  obtain ⟨s, i, hs, hi, rfl⟩ := h.mem_reserves.1 hr
  obtain ⟨row, htab⟩ := h.samples
  refine ⟨row s i 0, ?_, htab.sim s i 0, htab.origin s i 0, htab.dev s i 0, ?_⟩
  · rw [htab.eq]
    simp only [List.mem_flatMap, List.mem_map, List.mem_range]
    exact ⟨s, hs, i, hi, 0, hn, rfl⟩
  · have h0 : i ≠ 0 := by
      rintro rfl
      exact hne rfl
    rw [show (resRowAt t n x g s i).sim = s from rfl, show (resRowAt t n x g s i).origin = t.oAt i from rfl,
      h.proc_fcst ht hs hi, reserve_eq hi, htab.obs s i 0 hs (by omega), Num.fin_sub, if_neg h0]
    have hz0 : (∑ k ∈ Finset.range (n - i), if t.dAt k = 1 then x s i k else 0) = 0 := by
      apply Finset.sum_eq_zero
      intro k hk
      rw [Finset.mem_range] at hk
      rw [if_neg (h1 k (by omega))]
    rw [hz0, add_zero]

/-- The scale parameter and the residuals that are sampled do not depend on the labels at all. -/
theorem C58_fit {t' : Tri K} (sq : Num K → Num K) (gm gm' : List (Num K) → Num K) (h : Spec.Stair t n c)
    (h' : Spec.Stair t' n c) (hp : Spec.Positive n c) (hn : 3 ≤ n) :
    ∃ fit fit', bootFit sq gm t t.a2aind0 = .ok fit ∧ bootFit sq gm' t' t'.a2aind0 = .ok fit' ∧
      fit.scale = fit'.scale ∧ fit.sampling = fit'.sampling ∧
      ∀ i < n, ∀ j < n, fit.fitIncr.cell i j = fit'.fitIncr.cell i j := by
  obtain ⟨fit, hf, hs⟩ := bootFit_stair sq gm h hp hn
  obtain ⟨fit', hf', hs'⟩ := bootFit_stair sq gm' h' hp hn
  have hcells : t.nbrCells = t'.nbrCells := by rw [nbrCells_stair h, nbrCells_stair h']
  have hdof : bootDof t = bootDof t' := by unfold bootDof; rw [hcells, h.nr, h.nc, h'.nr, h'.nc]
  have hnr : fit.residUs.nr = n := by unfold Tri.nr; rw [hs.us_origins]; exact h.nr
  have hnc : fit.residUs.nc = n := by unfold Tri.nc; rw [hs.us_devs]; exact h.nc
  have hnr' : fit'.residUs.nr = n := by unfold Tri.nr; rw [hs'.us_origins]; exact h'.nr
  have hnc' : fit'.residUs.nc = n := by unfold Tri.nc; rw [hs'.us_devs]; exact h'.nc
  have hcell : ∀ i < n, ∀ j < n, fit.residUs.cell i j = fit'.residUs.cell i j := by
    intro i hi j hj
    by_cases hij : i + j < n
    · rw [hs.us i j hij, hs'.us i j hij]
    · rw [hs.us_miss i j hi hj (by omega), hs'.us_miss i j hi hj (by omega)]
  refine ⟨fit, fit', hf, hf', ?_, ?_, ?_⟩
  · rw [hs.scale, hs'.scale]
    unfold scaleParam
    rw [hdof, hnc, hnc']
    congr 2
    apply List.map_congr_left
    intro j hj
    rw [List.mem_range] at hj
    congr 2
    unfold Tri.col
    rw [hnr, hnr']
    apply List.map_congr_left
    intro i hi
    rw [List.mem_range] at hi
    exact hcell i hi j hj
  · rw [hs.sampling, hs'.sampling, hs.adj, hs'.adj]
    unfold samplingDist residAdj
    rw [show Tri.nr { fit.residUs with cell := fun i j => sq (.fin ((t.nbrCells : K) / ((bootDof t : Int) : K))) * fit.residUs.cell i j } = n from hnr,
      show Tri.nc { fit.residUs with cell := fun i j => sq (.fin ((t.nbrCells : K) / ((bootDof t : Int) : K))) * fit.residUs.cell i j } = n from hnc,
      show Tri.nr { fit'.residUs with cell := fun i j => sq (.fin ((t'.nbrCells : K) / ((bootDof t' : Int) : K))) * fit'.residUs.cell i j } = n from hnr',
      show Tri.nc { fit'.residUs with cell := fun i j => sq (.fin ((t'.nbrCells : K) / ((bootDof t' : Int) : K))) * fit'.residUs.cell i j } = n from hnc']
    congr 1
    apply flatMap_congr_mem
    intro i hi
    rw [List.mem_range] at hi
    apply List.map_congr_left
    intro j hj
    rw [List.mem_range] at hj
    simp only
    rw [hdof, hcells, hcell i (by omega) j (by omega)]
  · intro i hi j hj
    by_cases hij : i + j < n
    · rw [hs.incr.obs i j hij, hs'.incr.obs i j hij]
    · rw [hs.incr.miss i j hi hj (by omega), hs'.incr.miss i j hi hj (by omega)]

end

/-- One simulation without residuals, gamma draws at their means. -/
def labelRun (t : Tri ℚ) : Except PyErr (SimResult ℚ) :=
  (bootFit exSqrt (fun _ => .nan) t t.a2aind0).map (fun fit =>
    bootSims exSqrt t fit.fitIncr fit.scale 1 (fun _ => 0) (fun _ a b => a * b))

/-- **C58 fails**: labels 12, 24, 36 instead of 1, 2, 3 reduce the reserves of the second and third origin
by the value of the first period. -/
theorem C58_fails :
    (labelRun exBoot).map (fun r => r.reserves.map ResRow.reserve) = .ok [.fin 0, .fin 100, .fin 200] ∧
    (labelRun { exBoot with devs := [12, 24, 36] }).map (fun r => r.reserves.map ResRow.reserve) =
      .ok [.fin 0, .fin 0, .fin 100] := by
  decide +kernel

/-- **C57 fails** for labels without 1: the reserve is not the sum of the forecast increments. -/
theorem C57_fails :
    (labelRun { exBoot with devs := [12, 24, 36] }).map (fun r => r.reserves.map ResRow.reserve) =
      .ok [.fin 0, .fin 0, .fin 100] ∧
    (labelRun { exBoot with devs := [12, 24, 36] }).map (fun r => (List.range 3).map (fun i =>
      Num.sumSkip ((r.proc.filter (fun q => decide (q.base.origin = 2001 + (i : Int)) && q.base.fcst)).map
        ProcRow.finalIncr))) = .ok [.fin 0, .fin 100, .fin 200] := by
  decide +kernel

/-! ## C59 -/

section
variable {K : Type} [Field K] [LinearOrder K]

/-- **C59** with an integer seed the result is a function of the arguments: it does not depend on the state
of any generator, and no generator is changed. -/
theorem C59_seed {S : Type} (P : Prng S K) (sq : Num K → Num K) (gm : List (Num K) → Num K) (t ind : Tri K)
    (sims : ℕ) (isGamma parametric : Bool) (k : Int) :
    ∃ r : Except PyErr (BootResult K), ∀ w : World S,
      bootCall P sq gm t ind sims isGamma parametric (.int k) w = r.map (fun b => (b, w)) := by
  unfold bootCall
  cases h : bootFit sq gm t ind with
  | error e => exact ⟨.error e, fun w => rfl⟩
  | ok fit =>
    cases hk : P.seed k with
    | error e => exact ⟨.error e, fun w => by simp [bind, Except.bind, getGen, hk, Except.map]⟩
    | ok s =>
      simp only [bind, Except.bind, getGen, hk, Except.map]
      cases parametric with
      | true =>
        cases isGamma with
        | false => exact ⟨.error .valueError, fun w => rfl⟩
        | true => exact ⟨.ok _, fun w => rfl⟩
      | false =>
        by_cases hc : fit.sampling = [] ∧ sims * (t.nr * t.nc) ≠ 0
        · simp only [if_pos hc]
          exact ⟨.error .valueError, fun w => rfl⟩
        · simp only [if_neg hc]
          cases isGamma with
          | false => exact ⟨.error .valueError, fun w => rfl⟩
          | true => exact ⟨.ok _, fun w => rfl⟩

/-- **C59** an argument of any other type never gives a result. -/
theorem C59_other {S : Type} (P : Prng S K) (sq : Num K → Num K) (gm : List (Num K) → Num K) (t ind : Tri K)
    (sims : ℕ) (isGamma parametric : Bool) (w : World S) :
    ∃ e, bootCall P sq gm t ind sims isGamma parametric .other w = .error e ∧
      ((∃ fit, bootFit sq gm t ind = .ok fit) → e = .unboundLocalError) := by
  unfold bootCall
  cases h : bootFit sq gm t ind with
  | error e =>
    refine ⟨e, rfl, ?_⟩
    rintro ⟨f, hf⟩
    cases hf
  | ok fit => exact ⟨_, rfl, fun _ => rfl⟩

theorem put_put {S : Type} (f : ℕ → S) (r : ℕ) (a b : S) :
    (fun x => if x = r then b else if x = r then a else f x) = fun x => if x = r then b else f x := by
  funext x
  by_cases h : x = r <;> simp [h]

/-- **C59** with a generator object the result depends on that generator only, and only it advances. -/
theorem C59_state {S : Type} (P : Prng S K) (sq : Num K → Num K) (gm : List (Num K) → Num K) (t ind : Tri K)
    (sims : ℕ) (isGamma parametric : Bool) (ref : ℕ) (s : S) :
    ∃ r : Except PyErr (BootResult K × S), ∀ w : World S, w.gens ref = s →
      bootCall P sq gm t ind sims isGamma parametric (.state ref) w = r.map (fun b => (b.1,
        { w with gens := fun x => if x = ref then b.2 else w.gens x })) := by
  refine ⟨(bootCall P sq gm t ind sims isGamma parametric (.state ref)
    ⟨fun _ => s, fun _ => s, 0⟩).map (fun p => (p.1, p.2.gens ref)), fun w hw => ?_⟩
  unfold bootCall
  cases h : bootFit sq gm t ind with
  | error e => rfl
  | ok fit =>
    simp only [bind, Except.bind, getGen, hw, if_true, put_put]
    cases parametric with
    | true =>
      cases isGamma with
      | false => rfl
      | true => simp [Except.map]
    | false =>
      by_cases hc : fit.sampling = [] ∧ sims * (t.nr * t.nc) ≠ 0
      · simp only [if_pos hc]
        rfl
      · simp only [if_neg hc]
        cases isGamma with
        | false => rfl
        | true => simp [Except.map]

/-- A generator for examples: states are numbers, draws walk through the given list. -/
def toyPrng : Prng ℕ ℚ where
  seed k := if k < 0 then .error .valueError else .ok k.toNat
  choice l n s := ((List.range n).map (fun p => l.getD ((s + p) % l.length) .nan), s + n)
  normal sd n s := ((List.range n).map (fun p => if (s + p) % 2 = 0 then sd else -sd), s + n)
  gamma l b s := (l.map (fun a => a * b), s + l.length)

/-- Reserves of a bootstrap run with the toy generator. -/
def toyRun (arg : RandArg) (w : World ℕ) : Except PyErr (List (Num ℚ)) :=
  (bootCall toyPrng exSqrt (fun _ => .nan) exBoot exBoot.a2aind0 1 true false arg w).map (fun p => p.1.reserves)

/-- An integer seed gives the same in two worlds, no seed does not, any other argument raises. -/
example : toyRun (.int 0) ⟨fun _ => 5, fun _ => 0, 0⟩ = toyRun (.int 0) ⟨fun _ => 0, fun _ => 7, 3⟩ ∧
    toyRun (.int 0) ⟨fun _ => 5, fun _ => 0, 0⟩ = .ok [.fin 0, .fin 119, .fin (3281 / 22)] ∧
    toyRun .none ⟨fun _ => 5, fun _ => 0, 0⟩ ≠ toyRun .none ⟨fun _ => 0, fun _ => 7, 3⟩ ∧
    toyRun (.int 0) ⟨fun _ => 5, fun _ => 0, 0⟩ ≠ toyRun (.int 1) ⟨fun _ => 5, fun _ => 0, 0⟩ ∧
    toyRun .other ⟨fun _ => 5, fun _ => 0, 0⟩ = .error .unboundLocalError ∧
    toyRun (.int (-1)) ⟨fun _ => 5, fun _ => 0, 0⟩ = .error .valueError := by
  decide +kernel

/-! ## C60 -/

theorem mem_mergeBack {p : CombRow K × ℕ → Bool} {q : FcRow K} :
    ∀ {l : List (CombRow K × ℕ)} {new : List (FcRow K)}, q ∈ mergeBack p l new →
      q ∈ new ∨ ∃ r ∈ l, q = keepRow r := by
  intro l
  induction l with
  | nil => intro new h; simp [mergeBack] at h
  | cons a l ih =>
    intro new h
    by_cases hp : p a = true
    · cases new with
      | nil =>
        simp only [mergeBack, if_pos hp] at h
        rcases ih h with h | ⟨r, hr, rfl⟩
        · exact Or.inl h
        · exact Or.inr ⟨r, by simp [hr], rfl⟩
      | cons v vs =>
        simp only [mergeBack, if_pos hp, List.mem_cons] at h
        rcases h with rfl | h
        · exact Or.inl (by simp)
        · rcases ih h with h | ⟨r, hr, rfl⟩
          · exact Or.inl (by simp [h])
          · exact Or.inr ⟨r, by simp [hr], rfl⟩
    · simp only [mergeBack, if_neg hp, List.mem_cons] at h
      rcases h with rfl | h
      · exact Or.inr ⟨a, by simp, rfl⟩
      · rcases ih h with h | ⟨r, hr, rfl⟩
        · exact Or.inl h
        · exact Or.inr ⟨r, by simp [hr], rfl⟩

theorem mem_insRes {r q : ResRow K} {l : List (ResRow K)} : q ∈ insRes r l ↔ q = r ∨ q ∈ l := by
  rw [(insRes_perm r l).mem_iff, List.mem_cons]

theorem mem_dropDups {α : Type} [DecidableEq α] {a : α} : ∀ {l : List α}, a ∈ dropDups l → a ∈ l := by
  intro l
  induction l with
  | nil => exact id
  | cons b l ih =>
    intro h
    rw [dropDups, List.mem_cons, List.mem_filter] at h
    rcases h with rfl | h
    · simp
    · exact List.mem_cons_of_mem _ (ih h.1)

/-- Rows of the first origin never carry a latest value. -/
theorem forecasts_first {t m : Tri K} (ho : m.origins = t.origins) (hs : t.origins.Pairwise (· < ·))
    (sq : Num K → Num K) (S : ℕ) (draw : ℕ → Num K) (ldfs : List (LdfRow K)) :
    ∀ r ∈ bsForecasts t (bsSamples sq m S draw) ldfs, r.origin = t.oAt 0 → r.lactCum = .nan := by
  intro r hr h0
  unfold bsForecasts at hr
  obtain ⟨a, ha, b, -, rfl⟩ := mem_zipWith hr
  clear hr
  simp only at h0 ⊢
  have hcomb : ∀ p ∈ (bsCombined t (bsSamples sq m S draw) ldfs).zipIdx, t.oAt 0 ≤ p.1.samp.origin := by
    intro p hp
    have h1 : p.1 ∈ bsCombined t (bsSamples sq m S draw) ldfs := by
      obtain ⟨_, _, h3⟩ := List.mem_zipIdx (show (p.1, p.2) ∈ _ from hp)
      rw [h3]; exact List.getElem_mem _
    unfold bsCombined at h1
    rw [List.mem_flatMap] at h1
    obtain ⟨r, hr, h2⟩ := h1
    have h3 : p.1.samp = r := by
      revert h2
      generalize ldfs.filter (fun l => l.sim = r.sim ∧ l.dev = r.dev) = ms
      intro h2
      cases ms with
      | nil =>
        simp only [List.mem_singleton] at h2
        rw [h2]
      | cons x xs =>
        simp only [List.mem_map] at h2
        obtain ⟨l, -, hl⟩ := h2
        rw [← hl]
    rw [h3]
    unfold bsSamples at hr
    obtain ⟨q, hq, x, -, rfl⟩ := mem_zipWith hr
    unfold sampRows at hq
    simp only [List.mem_flatMap, List.mem_map, List.mem_range] at hq
    obtain ⟨s, -, i, hi, j, -, rfl⟩ := hq
    simp only
    rw [oAt_congr ho]
    have hi' : i < t.origins.length := by unfold Tri.nr at hi; rw [ho] at hi; exact hi
    have e : ∀ k (hk : k < t.origins.length), t.oAt k = t.origins[k] := by
      intro k hk
      unfold Tri.oAt
      rw [List.getD_eq_getElem?_getD, List.getElem?_eq_getElem hk]; rfl
    rcases Nat.eq_zero_or_pos i with rfl | hpos
    · exact le_refl _
    · rw [e i hi', e 0 (by omega)]
      exact (List.pairwise_iff_getElem.1 hs 0 i (by omega) hi' hpos).le
  have hmin : ∀ p ∈ (bsCombined t (bsSamples sq m S draw) ldfs).zipIdx, p.1.samp.origin = t.oAt 0 →
      ((bsCombined t (bsSamples sq m S draw) ldfs).zipIdx.map (fun p => p.1.samp.origin)).min? =
        some (t.oAt 0) := by
    intro p hp hp0
    rw [List.min?_eq_some_iff]
    constructor
    · rw [List.mem_map]; exact ⟨p, hp, hp0⟩
    · intro o hoo
      rw [List.mem_map] at hoo
      obtain ⟨q, hq, rfl⟩ := hoo
      exact hcomb q hq
  rcases mem_mergeBack ha with h | ⟨p, hp, rfl⟩
  · exfalso
    unfold fcstRows at h
    obtain ⟨p, hp, q, -, rfl⟩ := mem_zipWith h
    rw [List.mem_filter] at hp
    have hm := hmin p hp.1 h0
    have := hp.2
    rw [hm] at this
    simp only [isFcstRow] at this
    simp only at h0
    rw [h0] at this
    simp at this
  · rfl

/-- **C60** in every simulation, for every triangle and all draws, the first origin has reserve 0. -/
theorem C60_reserve {t m : Tri K} (ho : m.origins = t.origins) (hs : t.origins.Pairwise (· < ·))
    (sq : Num K → Num K) (scale : Num K) (S : ℕ) (draw : ℕ → Num K) (gam : ℕ → Num K → Num K → Num K) :
    ∀ r ∈ (bootSims sq t m scale S draw gam).reserves, r.origin = t.oAt 0 → r.reserve = 0 := by
  intro r hr h0
  simp only [bootSims, bsReserves] at hr
  rw [(sortRes_perm _).mem_iff, List.mem_map] at hr
  obtain ⟨r', hr', rfl⟩ := hr
  have hr'' := mem_dropDups hr'
  rw [List.mem_map] at hr''
  obtain ⟨q, hq, rfl⟩ := hr''
  have hq' := (List.mem_filter.1 hq).1
  unfold bsProcess at hq'
  obtain ⟨a, ha, b, -, rfl⟩ := mem_zipWith hq'
  rw [List.mem_map] at ha
  obtain ⟨⟨f, p⟩, hf, rfl⟩ := ha
  have hf' : f ∈ bsForecasts t (bsSamples sq m S draw) (bsLdfs t S (bsSamples sq m S draw)) := by
    obtain ⟨_, _, h3⟩ := List.mem_zipIdx hf
    rw [h3]; exact List.getElem_mem _
  have := forecasts_first ho hs sq S draw _ f hf' h0
  simp only [this, Num.sub_nan]
  rfl

/-- **C60** the reported ultimate of the first origin is its latest value and the reported reserve is 0. -/
theorem C60_reported {t : Tri K} (h0 : 0 < t.nr) (res : List (ResRow K)) :
    (bootUltimates t res)[0]? = some (Ser.get t.latestByOrigin (t.oAt 0)) ∧
    (∀ x, Ser.get t.latestByOrigin (t.oAt 0) = .fin x → (bootReserves t res)[0]? = some 0) := by
  have h1 : (bootUltimates t res)[0]? = some (Ser.get t.latestByOrigin (t.oAt 0)) := by
    unfold bootUltimates
    rw [List.getElem?_map, List.getElem?_range h0]
    rfl
  refine ⟨h1, ?_⟩
  intro x hx
  unfold bootReserves
  rw [List.getElem?_zipWith, List.getElem?_range h0, h1]
  simp only [hx, Num.fin_sub, sub_self]
  rfl

/-- C60 on the example: two simulations, first origin 0, the others not. -/
example : (leakRun exBoot 1).map (fun r => r.reserves.map (fun q => (q.sim, q.origin, q.reserve))) =
    .ok [(0, 2001, 0), (1, 2001, 0), (0, 2002, .fin (2000 / 21)), (1, 2002, .fin 100),
      (0, 2003, .fin (83000 / 441)), (1, 2003, .fin 200)] := by
  decide +kernel

end

end Trikit
