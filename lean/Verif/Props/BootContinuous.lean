import Mathlib.Topology.Algebra.Order.Field
import Mathlib.Topology.Order.LiminfLimsup
import Mathlib.Analysis.SpecificLimits.Basic
import Verif.Props.SwapSim

/-!
# Simulated reserves and small changes of the draws (C218)

A simulation of `boot_cl` is a computation from residual draws and gamma draws.  Small changes of the residual draws
should change the reserves of the simulation by little.  That is so unless a column sum that a simulated factor
divides by vanishes; near such draws the simulated reserves are unbounded.
-/

set_option linter.unusedSectionVars false

open Filter Topology

namespace Trikit

variable {t m : Tri ℝ} {n S : ℕ} {c v rt : ℕ → ℕ → ℝ}

/-- The reserves of simulation `s` are `R 0, ..., R (n - 1)`. -/
def Spec.ReservesAre (r : SimResult ℝ) (s n : ℕ) (R : ℕ → ℝ) : Prop :=
  (r.reserves.filter (fun q => decide (q.sim = s))).map ResRow.reserve = (List.range n).map (fun i => .fin (R i))

/-- The gamma draw number `p` for the shape `a` is `γ p a`. -/
def Spec.GammaIs (phi : ℝ) (gam : ℕ → Num ℝ → Num ℝ → Num ℝ) (γ : ℕ → ℝ → ℝ) : Prop :=
  ∀ p a, 0 ≤ a → gam p (.fin a) (.fin phi) = .fin (γ p a)

/-- Reserve of an origin in terms of the simulated amounts. -/
noncomputable def simReserve (t : Tri ℝ) (n : ℕ) (phi : ℝ) (γ : ℕ → ℝ → ℝ) (x : ℕ → ℕ → ℕ → ℝ) (s i : ℕ) : ℝ :=
  if i = 0 then 0
  else ∑ k ∈ Finset.range n, Spec.finalIncr t n x
    (fun s i j => γ (s * (n * n) + (i * n + j)) |Spec.simIncr t n x s i j / phi|) s i k - x s i (n - 1 - i)

theorem gam_abs {phi : ℝ} (hphi : 0 < phi) {gam : ℕ → Num ℝ → Num ℝ → Num ℝ} {γ : ℕ → ℝ → ℝ}
    (hg : Spec.GammaIs phi gam γ) (p : ℕ) (y : ℝ) :
    gam p (Num.fin y / Num.fin phi).abs' (.fin phi) = .fin (γ p |y / phi|) := by
  rw [Num.fin_div _ _ hphi.ne']
  have e : (Num.fin (y / phi)).abs' = .fin |y / phi| := by
    show Num.fin (if y / phi < 0 then -(y / phi) else y / phi) = _
    split
    · rename_i h; rw [abs_of_neg h]
    · rename_i h; rw [abs_of_nonneg (not_lt.1 h)]
  rw [e]
  exact hg p _ (abs_nonneg _)

theorem reserves_are (ht : Spec.Stair t n c) (hn : 0 < n) (hm : Spec.Stair m n v) (ho : m.origins = t.origins)
    (hd : m.devs = t.devs) {sq : Num ℝ → Num ℝ}
    (hsq : ∀ i j, i + j < n → sq (.fin (Spec.startIncr v i j)) = .fin (rt i j)) {draw : ℕ → Num ℝ} {z : ℕ → ℝ}
    (hz : ∀ p, draw p = .fin (z p)) {phi : ℝ} (hphi : 0 < phi) {gam : ℕ → Num ℝ → Num ℝ → Num ℝ} {γ : ℕ → ℝ → ℝ}
    (hg : Spec.GammaIs phi gam γ) {s : ℕ} (hs : s < S) :
    Spec.ReservesAre (bootSims sq t m (.fin phi) S draw gam) s n
      (simReserve t n phi γ (Spec.simCum n (Spec.startIncr v) rt z) s) := by
  have h := bootSims_stair' ht hn (by omega : 0 < S) hm ho hd hsq (draw := draw)
    (fun p _ => by rw [hz p]; rfl) (scale := .fin phi) (gam := gam)
    (fun p _ y => by rw [gam_abs hphi hg]; rfl)
  have ez : finD draw = z := by funext p; unfold finD; rw [hz p]; rfl
  have eg : ∀ x, gamD t n x (.fin phi) gam =
      fun s i j => γ (s * (n * n) + (i * n + j)) |Spec.simIncr t n x s i j / phi| := by
    intro x; funext s i j
    unfold gamD
    rw [gam_abs hphi hg]; rfl
  rw [ez, eg] at h
  unfold Spec.ReservesAre
  rw [h.reserves_sim hs, List.map_map]
  refine List.map_congr_left (fun i _ => ?_)
  show (resRowAt t n _ _ s i).reserve = _
  unfold resRowAt simReserve
  by_cases h0 : i = 0 <;> simp [h0]

/-! ### continuity -/

section
variable {X : ℕ → ℕ → ℕ → ℕ → ℝ} {x : ℕ → ℕ → ℕ → ℝ} {s : ℕ}

theorem tendsto_simFull (hX : ∀ i j, i + j < n → Tendsto (fun k => X k s i j) atTop (𝓝 (x s i j)))
    (h0 : ∀ j, j + 1 < n → ∑ k ∈ Finset.range (n - 1 - j), x s k j ≠ 0) {i j : ℕ} (hi : i < n) (hj : j < n) :
    Tendsto (fun k => Spec.simFull n (X k) s i j) atTop (𝓝 (Spec.simFull n x s i j)) := by
  have hs : ∀ j e, j + 1 < n → e ≤ 1 → Tendsto (fun k => ∑ i ∈ Finset.range (n - 1 - j), X k s i (j + e)) atTop
      (𝓝 (∑ i ∈ Finset.range (n - 1 - j), x s i (j + e))) := by
    intro j e hj he
    refine tendsto_finsetSum _ (fun i hi => hX _ _ ?_)
    have := Finset.mem_range.1 hi
    omega
  have hev : ∀ᶠ k in atTop, ∀ j ∈ Finset.range (n - 1), ∑ i ∈ Finset.range (n - 1 - j), X k s i j ≠ 0 := by
    rw [Filter.eventually_all_finset]
    intro j hj
    have hj' := Finset.mem_range.1 hj
    exact (hs j 0 (by omega) zero_le_one).eventually_ne (h0 j (by omega))
  rw [simFull_clSq h0 hi hj]
  have : Tendsto (fun k => Spec.clSq n (X k s) (Spec.wFactor n (X k s)) i j) atTop
      (𝓝 (Spec.clSq n (x s) (Spec.wFactor n (x s)) i j)) := by
    unfold Spec.clSq
    by_cases hij : i + j < n
    · simp only [hij, if_true]
      exact hX i j hij
    · simp only [hij, if_false]
      refine (hX _ _ (by omega)).mul (tendsto_finsetProd _ (fun e he => ?_))
      have he' := Finset.mem_Ico.1 he
      unfold Spec.wFactor
      exact (hs e 1 (by omega) le_rfl).div (hs e 0 (by omega) zero_le_one) (h0 e (by omega))
  refine this.congr' ?_
  filter_upwards [hev] with k hk
  exact (simFull_clSq (fun j hj' => hk j (Finset.mem_range.2 (by omega))) hi hj).symm

theorem tendsto_simIncr (hX : ∀ i j, i + j < n → Tendsto (fun k => X k s i j) atTop (𝓝 (x s i j)))
    (h0 : ∀ j, j + 1 < n → ∑ k ∈ Finset.range (n - 1 - j), x s k j ≠ 0) {i j : ℕ} (hi : i < n) (hj : j < n) :
    Tendsto (fun k => Spec.simIncr t n (X k) s i j) atTop (𝓝 (Spec.simIncr t n x s i j)) := by
  unfold Spec.simIncr
  refine Tendsto.add ?_ ?_
  · split
    · exact tendsto_simFull hX h0 hi hj
    · exact tendsto_const_nhds
  · split
    · exact tendsto_const_nhds
    · exact (tendsto_simFull hX h0 hi hj).sub (tendsto_simFull hX h0 hi (by omega))

/-- A gamma draw with the sign of the increment depends continuously on the increment. -/
theorem signed_continuous {f : ℝ → ℝ} (hf : Continuous f) (hf0 : f 0 = 0) (phi : ℝ) :
    Continuous (fun y : ℝ => f |y / phi| * (if 0 < y then 1 else -1)) := by
  have e : (fun y : ℝ => f |y / phi| * (if 0 < y then 1 else -1)) =
      fun y => if y ≤ 0 then -f |y / phi| else f |y / phi| := by
    funext y
    by_cases h : 0 < y
    · rw [if_pos h, if_neg (not_le.2 h), mul_one]
    · rw [if_neg h, if_pos (not_lt.1 h), mul_neg_one]
  rw [e]
  have hc : Continuous (fun y : ℝ => f |y / phi|) := hf.comp (continuous_abs.comp (continuous_id.div_const phi))
  refine Continuous.if_le hc.neg hc continuous_id continuous_const ?_
  rintro y rfl
  simp [hf0]

theorem tendsto_simReserve (hX : ∀ i j, i + j < n → Tendsto (fun k => X k s i j) atTop (𝓝 (x s i j)))
    (h0 : ∀ j, j + 1 < n → ∑ k ∈ Finset.range (n - 1 - j), x s k j ≠ 0) (phi : ℝ) {γ : ℕ → ℝ → ℝ}
    (hγ : ∀ p, Continuous (γ p)) (hγ0 : ∀ p, γ p 0 = 0) {i : ℕ} (hi : i < n) :
    Tendsto (fun k => simReserve t n phi γ (X k) s i) atTop (𝓝 (simReserve t n phi γ x s i)) := by
  unfold simReserve
  split
  · exact tendsto_const_nhds
  · refine Tendsto.sub (tendsto_finsetSum _ (fun j hj => ?_)) (hX _ _ (by omega))
    have hj' := Finset.mem_range.1 hj
    have h1 := tendsto_simIncr (t := t) hX h0 hi hj'
    unfold Spec.finalIncr
    split
    · exact ((signed_continuous (hγ (s * (n * n) + (i * n + j))) (hγ0 _) phi).tendsto _).comp h1
    · exact h1

end

/-- **C218**, what holds: when residual draws tend to the draws of a run, with the same gamma draws as continuous
functions of the shape, the reserves of a simulation and their total tend to those of the run, provided that no
column sum which a factor of that simulation divides by vanishes.  The full statement would have no such condition
(`C218_fails`). -/
theorem C218_partial (ht : Spec.Stair t n c) (hn : 0 < n) (hm : Spec.Stair m n v) (ho : m.origins = t.origins)
    (hd : m.devs = t.devs) {sq : Num ℝ → Num ℝ}
    (hsq : ∀ i j, i + j < n → sq (.fin (Spec.startIncr v i j)) = .fin (rt i j)) {draw : ℕ → Num ℝ} {z : ℕ → ℝ}
    (hz : ∀ p, draw p = .fin (z p)) {draws : ℕ → ℕ → Num ℝ} {zs : ℕ → ℕ → ℝ} (hzs : ∀ k p, draws k p = .fin (zs k p))
    (hlim : ∀ p, Tendsto (fun k => zs k p) atTop (𝓝 (z p))) {phi : ℝ} (hphi : 0 < phi)
    {gam : ℕ → Num ℝ → Num ℝ → Num ℝ} {γ : ℕ → ℝ → ℝ} (hg : Spec.GammaIs phi gam γ) (hγ : ∀ p, Continuous (γ p))
    (hγ0 : ∀ p, γ p 0 = 0) {s : ℕ} (hs : s < S)
    (hne : ∀ j, j + 1 < n → ∑ i ∈ Finset.range (n - 1 - j), ∑ k ∈ Finset.range (j + 1),
      (Spec.startIncr v i k + z (s * (n * n) + (i * n + k)) * rt i k) ≠ 0) :
    ∃ (R : ℕ → ℕ → ℝ) (R0 : ℕ → ℝ),
      (∀ k, Spec.ReservesAre (bootSims sq t m (.fin phi) S (draws k) gam) s n (R k)) ∧
      Spec.ReservesAre (bootSims sq t m (.fin phi) S draw gam) s n R0 ∧
      (∀ i < n, Tendsto (fun k => R k i) atTop (𝓝 (R0 i))) ∧
      Tendsto (fun k => ∑ i ∈ Finset.range n, R k i) atTop (𝓝 (∑ i ∈ Finset.range n, R0 i)) := by
  have hX : ∀ i j, i + j < n → Tendsto (fun k => Spec.simCum n (Spec.startIncr v) rt (zs k) s i j) atTop
      (𝓝 (Spec.simCum n (Spec.startIncr v) rt z s i j)) := by
    intro i j _
    unfold Spec.simCum
    exact tendsto_finsetSum _ (fun e _ => ((hlim _).mul_const _).const_add _)
  have hall : ∀ i < n, Tendsto
      (fun k => simReserve t n phi γ (Spec.simCum n (Spec.startIncr v) rt (zs k)) s i) atTop
      (𝓝 (simReserve t n phi γ (Spec.simCum n (Spec.startIncr v) rt z) s i)) :=
    fun i hi => tendsto_simReserve hX hne phi hγ hγ0 hi
  exact ⟨_, _, fun k => reserves_are ht hn hm ho hd hsq (hzs k) hphi hg hs,
    reserves_are ht hn hm ho hd hsq hz hphi hg hs, hall,
    tendsto_finsetSum _ (fun i hi => hall i (Finset.mem_range.1 hi))⟩

/-- **C218 fails** near draws for which the simulated claims of the oldest origin before the last period add up to
zero (while the last increment of that origin and the latest amount of the next one do not vanish): raising the first
residual of the oldest origin by `1 / (k + 1)` makes the reserve of the second oldest origin grow beyond all
bounds. -/
theorem C218_fails (ht : Spec.Stair t n c) (hn : 2 ≤ n) (h1 : t.dAt 0 = 1) (hm : Spec.Stair m n v)
    (ho : m.origins = t.origins) (hd : m.devs = t.devs) {sq : Num ℝ → Num ℝ}
    (hsq : ∀ i j, i + j < n → sq (.fin (Spec.startIncr v i j)) = .fin (rt i j)) (z : ℕ → ℝ) {phi : ℝ} (hphi : 0 < phi)
    {gam : ℕ → Num ℝ → Num ℝ → Num ℝ} {γ : ℕ → ℝ → ℝ} (hg : Spec.GammaIs phi gam γ)
    (hγ : ∀ p, Tendsto (γ p) atTop atTop) {s : ℕ} (hs : s < S) (hr0 : rt 0 0 ≠ 0)
    (hzero : ∑ k ∈ Finset.range (n - 1), (Spec.startIncr v 0 k + z (s * (n * n) + k) * rt 0 k) = 0)
    (hlast : Spec.startIncr v 0 (n - 1) + z (s * (n * n) + (n - 1)) * rt 0 (n - 1) ≠ 0)
    (hnext : ∑ k ∈ Finset.range (n - 1), (Spec.startIncr v 1 k + z (s * (n * n) + (n + k)) * rt 1 k) ≠ 0) :
    ∃ R : ℕ → ℕ → ℝ, (∀ k : ℕ, Spec.ReservesAre (bootSims sq t m (.fin phi) S
        (fun p => .fin (if p = s * (n * n) then z p + 1 / ((k : ℝ) + 1) else z p)) gam) s n (R k)) ∧
      Tendsto (fun k => |R k 1|) atTop atTop := by
  set zs : ℕ → ℕ → ℝ := fun k p => if p = s * (n * n) then z p + 1 / ((k : ℝ) + 1) else z p with hzs
  refine ⟨fun k => simReserve t n phi γ (Spec.simCum n (Spec.startIncr v) rt (zs k)) s,
    fun k => reserves_are ht (by omega) hm ho hd hsq (fun p => rfl) hphi hg hs, ?_⟩
  set A := ∑ k ∈ Finset.range (n - 1), (Spec.startIncr v 1 k + z (s * (n * n) + (n + k)) * rt 1 k) with hA
  set d := Spec.startIncr v 0 (n - 1) + z (s * (n * n) + (n - 1)) * rt 0 (n - 1) with hdd
  -- simulated amounts
  have x1 : ∀ k, Spec.simCum n (Spec.startIncr v) rt (zs k) s 1 (n - 2) = A := by
    intro k
    unfold Spec.simCum
    rw [show n - 2 + 1 = n - 1 by omega, hA]
    refine Finset.sum_congr rfl (fun j _ => ?_)
    rw [hzs]
    beta_reduce
    rw [if_neg (by omega), one_mul]
  have x0 : ∀ k, Spec.simCum n (Spec.startIncr v) rt (zs k) s 0 (n - 2) = rt 0 0 / ((k : ℝ) + 1) := by
    intro k
    unfold Spec.simCum
    rw [show n - 2 + 1 = (n - 2) + 1 by omega, Finset.sum_range_succ']
    rw [show n - 1 = (n - 2) + 1 by omega, Finset.sum_range_succ'] at hzero
    have e : ∑ j ∈ Finset.range (n - 2), (Spec.startIncr v 0 (j + 1) + zs k (s * (n * n) + (0 * n + (j + 1))) *
        rt 0 (j + 1)) = ∑ j ∈ Finset.range (n - 2), (Spec.startIncr v 0 (j + 1) + z (s * (n * n) + (j + 1)) *
        rt 0 (j + 1)) := by
      refine Finset.sum_congr rfl (fun j _ => ?_)
      rw [hzs]
      beta_reduce
      rw [if_neg (by omega), zero_mul, zero_add]
    rw [e]
    have e2 : zs k (s * (n * n) + (0 * n + 0)) = z (s * (n * n) + 0) + 1 / ((k : ℝ) + 1) := by
      rw [hzs]
      beta_reduce
      rw [if_pos (by omega), zero_mul, add_zero]
    rw [e2]
    linear_combination hzero
  have xl : ∀ k, Spec.simCum n (Spec.startIncr v) rt (zs k) s 0 (n - 1) = rt 0 0 / ((k : ℝ) + 1) + d := by
    intro k
    rw [← x0 k]
    unfold Spec.simCum
    rw [show n - 1 + 1 = (n - 2 + 1) + 1 by omega, Finset.sum_range_succ]
    congr 1
    rw [hdd, hzs]
    beta_reduce
    rw [if_neg (by omega), zero_mul, zero_add, show n - 2 + 1 = n - 1 by omega]
  have heps : ∀ k : ℕ, rt 0 0 / ((k : ℝ) + 1) ≠ 0 := fun k => div_ne_zero hr0 (by positivity)
  have hinc : ∀ k, Spec.simIncr t n (Spec.simCum n (Spec.startIncr v) rt (zs k)) s 1 (n - 1) =
      A * d / rt 0 0 * ((k : ℝ) + 1) := by
    intro k
    have hl : Spec.simLdf n (Spec.simCum n (Spec.startIncr v) rt (zs k)) s (n - 2) =
        some ((rt 0 0 / ((k : ℝ) + 1) + d) / (rt 0 0 / ((k : ℝ) + 1))) := by
      unfold Spec.simLdf Spec.simA1 Spec.simA2
      rw [show n - 1 - (n - 2) = 1 by omega, show n - 2 + 1 = n - 1 by omega, show n - (n - 1) = 1 by omega]
      simp only [Finset.sum_range_one]
      rw [x0, xl, if_neg (heps k)]
    rw [simIncr_first ht h1 _ _ _ (by omega)]
    unfold Spec.incr
    rw [if_neg (by omega)]
    unfold Spec.simFull
    rw [if_neg (by omega), if_pos (by omega)]
    unfold Spec.simProj
    rw [show n - 1 - 1 = n - 2 by omega, hl, if_neg (by simp), show 1 + (n - 1) + 1 - n = 1 by omega,
      Finset.prod_range_one, add_zero, hl, x1]
    have := heps k
    have hk : (k : ℝ) + 1 ≠ 0 := by positivity
    simp only [Option.getD_some]
    field_simp
    ring
  have hres : ∀ k, |simReserve t n phi γ (Spec.simCum n (Spec.startIncr v) rt (zs k)) s 1| =
      abs (γ (s * (n * n) + (1 * n + (n - 1))) (abs (A * d / rt 0 0 * ((k : ℝ) + 1) / phi))) := by
    intro k
    have e := resRowAt_forecast ht h1 (Spec.simCum n (Spec.startIncr v) rt (zs k))
      (fun s i j => γ (s * (n * n) + (i * n + j))
        |Spec.simIncr t n (Spec.simCum n (Spec.startIncr v) rt (zs k)) s i j / phi|) s (i := 1) (by omega)
    unfold resRowAt at e
    simp only [one_ne_zero, if_false, Num.fin.injEq] at e
    unfold simReserve
    rw [if_neg one_ne_zero, e, Finset.sum_eq_single (n - 1)]
    · rw [if_pos (by omega)]
      unfold Spec.finalIncr
      rw [if_pos (by omega), abs_mul, hinc k]
      have : |(if 0 < A * d / rt 0 0 * ((k : ℝ) + 1) then (1 : ℝ) else -1)| = 1 := by split <;> simp
      rw [this, mul_one]
      beta_reduce
      rw [hinc k]
    · intro j hj hj'
      have := Finset.mem_range.1 hj
      rw [if_neg (by omega)]
    · intro hj
      exact absurd (Finset.mem_range.2 (by omega)) hj
  simp only [hres]
  refine tendsto_abs_atTop_atTop.comp ((hγ _).comp ?_)
  have hcst : 0 < |A * d / rt 0 0 / phi| := abs_pos.2 (div_ne_zero (div_ne_zero (mul_ne_zero hnext hlast) hr0) hphi.ne')
  have e : (fun k : ℕ => |A * d / rt 0 0 * ((k : ℝ) + 1) / phi|) =
      fun k : ℕ => |A * d / rt 0 0 / phi| * ((k : ℝ) + 1) := by
    funext k
    rw [← abs_of_pos (by positivity : (0 : ℝ) < (k : ℝ) + 1), ← abs_mul, abs_of_pos (by positivity : (0 : ℝ) < (k : ℝ) + 1)]
    congr 1
    ring
  rw [e]
  exact Tendsto.const_mul_atTop hcst (tendsto_atTop_add_const_right _ _ tendsto_natCast_atTop_atTop)

/-! ### concrete case -/

/-- The 3 x 3 example with one simulation in which the first residual of the oldest origin is `y` and all others 0,
and gamma draws at their means. -/
def exBootPole (y : ℚ) : Except PyErr (List (Num ℚ)) :=
  (bootFit exSqrt (fun _ => .nan) exBoot exBoot.a2aind0).map (fun fit =>
    (bootSims exSqrt exBoot fit.fitIncr fit.scale 1 (fun p => if p = 0 then .fin y else 0)
      (fun _ a b => a * b)).reserves.map ResRow.reserve)

/-- The reserve of the second origin is `2000 / (20 + y)`: it grows beyond all bounds as `y` tends to -20 from above,
and is -200 at -20, where the simulated factor is missing. -/
example : (exBootPole 0).map (fun l => l.getD 1 .nan) = .ok (.fin 100) ∧
    (exBootPole (-10)).map (fun l => l.getD 1 .nan) = .ok (.fin 200) ∧
    (exBootPole (-199 / 10)).map (fun l => l.getD 1 .nan) = .ok (.fin 20000) ∧
    (exBootPole (-20 + 1 / 1000)).map (fun l => l.getD 1 .nan) = .ok (.fin 2000000) ∧
    exBootPole (-20) = .ok [0, .fin (-200), .fin (-100)] := by
  decide +kernel

end Trikit
