import Verif.Props.Swap
import Verif.Props.BootSim
import Verif.Props.RoundedSim

/-!
# C170: simulated reserves when origins and development periods are exchanged
-/

set_option linter.unusedSectionVars false

namespace Trikit

section
variable {K : Type} [Field K] [LinearOrder K] [IsStrictOrderedRing K]
variable {t t' m m' : Tri K} {n S : ℕ} {c c' v : ℕ → ℕ → K}

/-- A simulated triangle whose column sums do not vanish is completed with its own volume weighted factors. -/
theorem simFull_clSq {x : ℕ → ℕ → ℕ → K} {s : ℕ} (h0 : ∀ j, j + 1 < n → ∑ k ∈ Finset.range (n - 1 - j), x s k j ≠ 0)
    {i j : ℕ} (hi : i < n) (hj : j < n) : Spec.simFull n x s i j = Spec.clSq n (x s) (Spec.wFactor n (x s)) i j := by
  have hl : ∀ k, k + 1 < n → Spec.simLdf n x s k = some (Spec.wFactor n (x s) k) := by
    intro k hk
    unfold Spec.simLdf Spec.simA1 Spec.simA2 Spec.wFactor
    rw [if_neg (h0 k hk), show n - (k + 1) = n - 1 - k by omega]
  unfold Spec.simFull Spec.clSq
  by_cases hij : i + j < n
  · rw [if_pos hij, if_pos hij]
  · rw [if_neg hij, if_neg hij]
    unfold Spec.simProj
    rw [hl (j - 1) (by omega), if_neg (by simp), Finset.prod_Ico_eq_prod_range, show j - (n - 1 - i) = i + j + 1 - n by omega]
    congr 1
    refine Finset.prod_congr rfl fun k hk => ?_
    rw [Finset.mem_range] at hk
    rw [hl _ (by omega)]
    rfl

theorem simIncr_first (ht : Spec.Stair t n c) (h1 : t.dAt 0 = 1) (x : ℕ → ℕ → ℕ → K) (s i : ℕ) {j : ℕ} (hj : j < n) :
    Spec.simIncr t n x s i j = Spec.incr (Spec.simFull n x s) i j := by
  unfold Spec.simIncr Spec.incr
  rcases j with _ | j
  · rw [if_pos h1, if_pos rfl, if_pos rfl, add_zero]
  · have : t.dAt 0 < t.dAt (j + 1) := Tri.dAt_lt ht.devs (by rw [ht.nc]; omega) (by omega)
    rw [if_neg (by omega), if_neg (by omega), if_neg (by omega), zero_add]

/-- With periods numbered from 1 a simulated reserve is the sum of the final increments of the forecast cells. -/
theorem resRowAt_forecast (ht : Spec.Stair t n c) (h1 : t.dAt 0 = 1) (x g : ℕ → ℕ → ℕ → K) (s : ℕ) {i : ℕ} (hi : i < n) :
    (resRowAt t n x g s i).reserve = .fin (∑ k ∈ Finset.range n, if n ≤ i + k then Spec.finalIncr t n x g s i k else 0) := by
  have e : ∑ k ∈ Finset.range n, (if n ≤ i + k then Spec.finalIncr t n x g s i k else 0) =
      ∑ k ∈ Finset.Ico (n - i) n, Spec.finalIncr t n x g s i k := by
    rw [← Finset.sum_filter]
    refine Finset.sum_congr ?_ fun _ _ => rfl
    ext k
    simp only [Finset.mem_filter, Finset.mem_range, Finset.mem_Ico]
    omega
  rw [e]
  unfold resRowAt
  by_cases h0 : i = 0
  · subst h0
    rw [if_pos rfl]
    simp
  · simp only [h0, if_false]
    rw [finalIncr_sum t x g s hi]
    have : ∑ k ∈ Finset.range (n - i), (if t.dAt k = 1 then x s i k else 0) = x s i 0 := by
      rw [Finset.sum_eq_single 0]
      · rw [if_pos h1]
      · intro k hk hk0
        rw [Finset.mem_range] at hk
        have : t.dAt 0 < t.dAt k := Tri.dAt_lt ht.devs (by rw [ht.nc]; omega) (by omega)
        rw [if_neg (by omega)]
      · intro hk
        rw [Finset.mem_range] at hk
        omega
    rw [this]
    congr 1
    ring

/-- The draws of a run, moved to the exchanged cells. -/
def Spec.DrawsSwapped {α : Type} (n S : ℕ) (z z' : ℕ → α) : Prop :=
  ∀ s < S, ∀ i < n, ∀ j < n, z' (s * (n * n) + (j * n + i)) = z (s * (n * n) + (i * n + j))

theorem cell_pos {s i j : ℕ} (hs : s < S) (hi : i < n) (hj : j < n) : s * (n * n) + (i * n + j) < S * (n * n) := by
  have h1 : i * n + j < n * n := by
    calc i * n + j < i * n + n := by omega
      _ = (i + 1) * n := by ring
      _ ≤ n * n := Nat.mul_le_mul_right _ hi
  calc s * (n * n) + (i * n + j) < s * (n * n) + n * n := by omega
    _ = (s + 1) * (n * n) := by ring
    _ ≤ S * (n * n) := Nat.mul_le_mul_right _ hs

/-- Totals of a run with periods numbered from 1. -/
theorem SimSpec.totals (ht : Spec.Stair t n c) (h1 : t.dAt 0 = 1) {x g : ℕ → ℕ → ℕ → K} {r : SimResult K}
    (h : SimSpec t n S x g r) : bootTotals S r.reserves = (List.range S).map (fun s => .fin (∑ i ∈ Finset.range n,
      ∑ k ∈ Finset.range n, if n ≤ i + k then Spec.finalIncr t n x g s i k else 0)) := by
  unfold bootTotals
  refine List.map_congr_left fun s hs => ?_
  rw [List.mem_range] at hs
  rw [h.reserves_sim hs, List.map_map]
  have : (List.range n).map (ResRow.reserve ∘ fun i => resRowAt t n x g s i) = (List.range n).map
      (fun i => .fin (∑ k ∈ Finset.range n, if n ≤ i + k then Spec.finalIncr t n x g s i k else 0)) :=
    List.map_congr_left fun i hi => resRowAt_forecast ht h1 x g s (List.mem_range.1 hi)
  rw [this, sumSkip_fin_range]

/-- **C170** for the fitted increments `v` of a triangle and of the exchanged one, with the draws of residuals and of the
gamma distribution of each cell moved along: every simulated total reserve is the same, and the final increments
of forecast cells are exchanged.  Both triangles number their periods from 1, and no column sum that a simulated factor
divides by vanishes. -/
theorem C170_sims (ht : Spec.Stair t n c) (ht' : Spec.Stair t' n c') (hn : 0 < n) (hS : 0 < S) (hm : Spec.Stair m n v)
    (hm' : Spec.Stair m' n (Spec.swap v)) (ho : m.origins = t.origins) (hd : m.devs = t.devs)
    (ho' : m'.origins = t'.origins) (hd' : m'.devs = t'.devs) (h1 : t.dAt 0 = 1) (h1' : t'.dAt 0 = 1)
    (hv : ∀ i j, i + j < n → 0 ≤ v i j) {sq : Num K → Num K} {rt : ℕ → ℕ → K}
    (hrt : ∀ i j, i + j < n → sq (.fin (v i j)) = .fin (rt i j)) {draw draw' : ℕ → Num K} {z : ℕ → K}
    (hz : ∀ p < S * (n * n), draw p = .fin (z p)) (hz' : ∀ p < S * (n * n), (draw' p).isFin = true)
    (hdr : Spec.DrawsSwapped n S draw draw') {scale : Num K} {gam gam' : ℕ → Num K → Num K → Num K}
    (hg : ∀ p < S * (n * n), ∀ y : K, (gam p (Num.fin y / scale).abs' scale).isFin = true)
    (hg' : ∀ p < S * (n * n), ∀ y : K, (gam' p (Num.fin y / scale).abs' scale).isFin = true)
    (hga : Spec.DrawsSwapped n S gam gam')
    (hne : ∀ s < S, ∀ j, j + 1 < n → ∑ i ∈ Finset.range (n - 1 - j), ∑ k ∈ Finset.range (j + 1),
      (v i k + z (s * (n * n) + (i * n + k)) * rt i k) ≠ 0) :
    let r := bootSims sq t m scale S draw gam
    let r' := bootSims sq t' m' scale S draw' gam'
    bootTotals S r'.reserves = bootTotals S r.reserves ∧
    ∀ s < S, ∀ i < n, ∀ j < n, n ≤ i + j →
      ∃ p p', r.proc[s * (n * n) + (i * n + j)]? = some p ∧ r'.proc[s * (n * n) + (j * n + i)]? = some p' ∧
        p'.finalIncr = p.finalIncr := by
  intro r r'
  have hst : ∀ i j, i + j < n → Spec.startIncr v i j = v i j := fun i j hij => by
    unfold Spec.startIncr; rw [if_neg]; rintro ⟨_, h⟩; exact absurd h (not_lt.2 (hv i j hij))
  have hst' : ∀ i j, i + j < n → Spec.startIncr (Spec.swap v) i j = v j i := fun i j hij => by
    unfold Spec.startIncr; rw [if_neg]; rfl; rintro ⟨_, h⟩; exact absurd h (not_lt.2 (hv j i (by omega)))
  have hfin : ∀ p < S * (n * n), finD draw p = z p := fun p hp => by unfold finD; rw [hz p hp]; rfl
  have hA := bootSims_stair' ht hn hS hm ho hd (rt := rt) (fun i j hij => by rw [hst i j hij]; exact hrt i j hij)
    (draw := draw) (fun p hp => by rw [hz p hp]; rfl) hg
  have hA' := bootSims_stair' ht' hn hS hm' ho' hd' (rt := fun i j => rt j i)
    (fun i j hij => by rw [hst' i j hij]; exact hrt j i (by omega)) (draw := draw') hz' hg'
  set x := Spec.simCum n (Spec.startIncr v) rt (finD draw) with hx
  set x' := Spec.simCum n (Spec.startIncr (Spec.swap v)) (fun i j => rt j i) (finD draw') with hx'
  -- simulated increments
  let y : ℕ → ℕ → ℕ → K := fun s i k => Spec.startIncr v i k + finD draw (s * (n * n) + (i * n + k)) * rt i k
  have hy : ∀ s, x s = Spec.cumOf (y s) := fun s => rfl
  have hy' : ∀ s < S, ∀ i j, i + j < n → x' s i j = Spec.cumOf (Spec.swap (y s)) i j := by
    intro s hs i j hij
    rw [hx']
    unfold Spec.simCum Spec.cumOf Spec.swap
    refine Finset.sum_congr rfl fun k hk => ?_
    rw [Finset.mem_range] at hk
    have hd : finD draw' (s * (n * n) + (i * n + k)) = finD draw (s * (n * n) + (k * n + i)) := by
      unfold finD
      rw [hdr s hs k (by omega) i (by omega)]
    show Spec.startIncr (Spec.swap v) i k + _ * rt k i = Spec.startIncr v k i + _ * rt k i
    rw [hst' i k (by omega), hst k i (by omega), hd]
  have hne0 : ∀ s < S, ∀ j, j + 1 < n → ∑ k ∈ Finset.range (n - 1 - j), Spec.cumOf (y s) k j ≠ 0 := by
    intro s hs j hj
    have := hne s hs j hj
    refine fun e => this (Eq.trans ?_ e)
    unfold Spec.cumOf
    refine Finset.sum_congr rfl fun i hi => Finset.sum_congr rfl fun k hk => ?_
    rw [Finset.mem_range] at hi hk
    show _ = Spec.startIncr v i k + _
    rw [hst i k (by omega), hfin _ (cell_pos hs (by omega) (by omega))]
  have hne0' : ∀ s < S, ∀ j, j + 1 < n → ∑ k ∈ Finset.range (n - 1 - j), Spec.cumOf (Spec.swap (y s)) k j ≠ 0 := by
    intro s hs j hj
    have := hne0 s hs (n - 2 - j) (by omega)
    rw [show n - 1 - (n - 2 - j) = j + 1 by omega, rect_swap, show n - 2 - j + 1 = n - 1 - j by omega] at this
    exact this
  have hcong : ∀ s < S, ∀ i < n, ∀ j < n, Spec.simFull n x' s i j =
      Spec.simFull n (fun s => Spec.cumOf (Spec.swap (y s))) s i j := fun s hs i hi j _ =>
    simFull_congr (fun a b hab => hy' s hs a b hab) hi j
  have hinc : ∀ s < S, ∀ i < n, ∀ j < n, Spec.simIncr t' n x' s j i = Spec.simIncr t n x s i j := by
    intro s hs i hi j hj
    rw [simIncr_first ht h1 _ _ _ hj, simIncr_first ht' h1' _ _ _ hi]
    have e1 : Spec.incr (Spec.simFull n x s) i j = Spec.incr (Spec.clSq n (x s) (Spec.wFactor n (x s))) i j := by
      unfold Spec.incr
      rw [simFull_clSq (hne0 s hs) hi hj, simFull_clSq (hne0 s hs) hi (by omega : j - 1 < n),
        simFull_clSq (hne0 s hs) hi (by omega : 0 < n)]
    have e2 : Spec.incr (Spec.simFull n x' s) j i = Spec.incr (Spec.clSq n (Spec.cumOf (Spec.swap (y s)))
        (Spec.wFactor n (Spec.cumOf (Spec.swap (y s))))) j i := by
      unfold Spec.incr
      rw [hcong s hs j hj i hi, hcong s hs j hj (i - 1) (by omega), hcong s hs j hj 0 (by omega),
        simFull_clSq (x := fun s => Spec.cumOf (Spec.swap (y s))) (hne0' s hs) hj hi,
        simFull_clSq (x := fun s => Spec.cumOf (Spec.swap (y s))) (hne0' s hs) hj (by omega : i - 1 < n),
        simFull_clSq (x := fun s => Spec.cumOf (Spec.swap (y s))) (hne0' s hs) hj (by omega : 0 < n)]
    rw [e1, e2, hy s]
    exact (incr_swap (hne0 s hs) hi hj).symm
  have hfi : ∀ s < S, ∀ i < n, ∀ j < n, n ≤ i + j →
      Spec.finalIncr t' n x' (gamD t' n x' scale gam') s j i = Spec.finalIncr t n x (gamD t n x scale gam) s i j := by
    intro s hs i hi j hj hij
    unfold Spec.finalIncr
    rw [if_pos (by omega), if_pos hij, hinc s hs i hi j hj]
    unfold gamD
    rw [hinc s hs i hi j hj, hga s hs i hi j hj]
  constructor
  · rw [hA.totals ht h1, hA'.totals ht' h1']
    refine List.map_congr_left fun s hs => ?_
    rw [List.mem_range] at hs
    rw [Finset.sum_comm]
    congr 1
    refine Finset.sum_congr rfl fun i hi => Finset.sum_congr rfl fun j hj => ?_
    rw [Finset.mem_range] at hi hj
    by_cases hij : n ≤ i + j
    · rw [if_pos (by omega), if_pos hij, hfi s hs i hi j hj hij]
    · rw [if_neg (by omega), if_neg hij]
  · intro s hs i hi j hj hij
    refine ⟨procRowAt t n x (gamD t n x scale gam) s i j, procRowAt t' n x' (gamD t' n x' scale gam') s j i, ?_, ?_, ?_⟩
    · show (bootSims sq t m scale S draw gam).proc[_]? = _
      rw [hA.proc]
      exact table_get (fun s i j => procRowAt t n x (gamD t n x scale gam) s i j) hs hi hj
    · show (bootSims sq t' m' scale S draw' gam').proc[_]? = _
      rw [hA'.proc]
      exact table_get (fun s i j => procRowAt t' n x' (gamD t' n x' scale gam') s i j) hs hj hi
    · show Num.fin _ = Num.fin _
      rw [hfi s hs i hi j hj hij]

/-- **C170** fit and simulations of a triangle of amounts `y` and of the exchanged triangle. -/
theorem C170_run (gm : List (Num K) → Num K) {y : ℕ → ℕ → K} (h : Spec.Stair t n (Spec.cumOf y))
    (hp : Spec.Positive n (Spec.cumOf y)) (h' : Spec.Stair t' n (Spec.cumOf (Spec.swap y)))
    (hp' : Spec.Positive n (Spec.cumOf (Spec.swap y))) (hn : 3 ≤ n) (hS : 0 < S) (h1 : t.dAt 0 = 1) (h1' : t'.dAt 0 = 1)
    {sq : Num K → Num K} {rt : ℕ → ℕ → K} (hv : ∀ i j, i + j < n → 0 ≤ Spec.incr (Spec.fitCum n (Spec.cumOf y)) i j)
    (hrt : ∀ i j, i + j < n → sq (.fin (Spec.incr (Spec.fitCum n (Spec.cumOf y)) i j)) = .fin (rt i j))
    {draw draw' : ℕ → Num K} {z : ℕ → K}
    (hz : ∀ p < S * (n * n), draw p = .fin (z p)) (hz' : ∀ p < S * (n * n), (draw' p).isFin = true)
    (hdr : Spec.DrawsSwapped n S draw draw') {gam gam' : ℕ → Num K → Num K → Num K}
    (hg : ∀ p < S * (n * n), ∀ a b, (gam p a b).isFin = true) (hg' : ∀ p < S * (n * n), ∀ a b, (gam' p a b).isFin = true)
    (hga : Spec.DrawsSwapped n S gam gam')
    (hne : ∀ s < S, ∀ j, j + 1 < n → ∑ i ∈ Finset.range (n - 1 - j), ∑ k ∈ Finset.range (j + 1),
      (Spec.incr (Spec.fitCum n (Spec.cumOf y)) i k + z (s * (n * n) + (i * n + k)) * rt i k) ≠ 0) :
    ∃ fit fit', bootFit sq gm t t.a2aind0 = .ok fit ∧ bootFit sq gm t' t'.a2aind0 = .ok fit' ∧
      bootTotals S (bootSims sq t' fit'.fitIncr fit'.scale S draw' gam').reserves =
        bootTotals S (bootSims sq t fit.fitIncr fit.scale S draw gam).reserves := by
  obtain ⟨fit, fit', a, a', -, hsc, -⟩ := C168_fit sq gm h hp h' hp' hn
  obtain ⟨f, b, q⟩ := bootFit_stair sq gm h hp hn
  obtain ⟨f', b', q'⟩ := bootFit_stair sq gm h' hp' hn
  rw [a] at b
  cases b
  rw [a'] at b'
  cases b'
  refine ⟨fit, fit', a, a', ?_⟩
  rw [hsc]
  have hm' : Spec.Stair fit'.fitIncr n (Spec.swap (Spec.incr (Spec.fitCum n (Spec.cumOf y)))) :=
    { nr := q'.incr.nr, nc := q'.incr.nc, origins := q'.incr.origins, devs := q'.incr.devs, miss := q'.incr.miss
      obs := fun i j hij => by
        rw [q'.incr.obs i j hij, fitIncr_swap hp hp' (show j + i < n by omega)]
        rfl }
  exact (C170_sims h h' (by omega) hS q.incr hm' q.incr_origins q.incr_devs q'.incr_origins q'.incr_devs h1 h1' hv hrt hz
    hz' hdr (fun p hp y => hg p hp _ _) (fun p hp y => hg' p hp _ _) hga hne).1

end

/-- The triangle of the example and the exchanged one. -/
def exSwapTri (swap : Bool) : Tri ℚ :=
  stairTri 3 (Spec.cumOf (if swap then Spec.swap exSwapAmounts else exSwapAmounts))

/-- Fitted increments, scale and pool of the example. -/
def exSwapFit (swap : Bool) : Option (List (List (Num ℚ)) × Num ℚ × List (Num ℚ)) :=
  (bootFit exSqrt (fun _ => .nan) (exSwapTri swap) (exSwapTri swap).a2aind0).toOption.map (fun f =>
    ((List.range 3).map (fun i => (List.range (3 - i)).map (fun j => f.fitIncr.cell i j)), f.scale, f.sampling))

/-- C168 on the example: fitted increments exchanged, scale equal, pool permuted. -/
example : exSwapFit false = some ([[.fin (15750 / 163), .fin (8700 / 163), .fin 20],
        [.fin (18480 / 163), .fin (10208 / 163)], [.fin 130]], .fin (287538679073536 / 3692023116832575),
        [.fin (264 / 815), .fin (-2200 / 5053), .fin (-440 / 1467), .fin (6600 / 16463)]) ∧
    exSwapFit true = some ([[.fin (15750 / 163), .fin (18480 / 163), .fin 130],
        [.fin (8700 / 163), .fin (10208 / 163)], [.fin 20]], .fin (287538679073536 / 3692023116832575),
        [.fin (264 / 815), .fin (-440 / 1467), .fin (-2200 / 5053), .fin (6600 / 16463)]) := by
  decide +kernel

/-- One simulation of the example, residuals not zero in two cells only. -/
def exSwapSim (swap : Bool) : Option (List (Num ℚ) × List (Num ℚ)) :=
  (bootFit exSqrt (fun _ => .nan) (exSwapTri swap) (exSwapTri swap).a2aind0).toOption.map (fun f =>
    let r := bootSims exSqrt (exSwapTri swap) f.fitIncr f.scale 1
      (fun p => if p = (if swap then 3 else 1) then .fin 1 else if p = (if swap then 1 else 3) then .fin (-1 / 2) else 0)
      (fun _ a b => a * b)
    (r.reserves.map ResRow.reserve, bootTotals 1 r.reserves))

/-- C170 on the example: other reserves by origin, the same total. -/
example : exSwapSim false = some ([.fin 0, .fin (13630 / 631), .fin (7233980 / 68779)], [.fin (8719650 / 68779)]) ∧
    exSwapSim true = some ([.fin 0, .fin (8580 / 109), .fin (3305670 / 68779)], [.fin (8719650 / 68779)]) := by
  decide +kernel

end Trikit
