import Verif.RoundedSimCore
import Verif.BootSim
import Verif.RoundedMackLemmas
import Verif.Props.RoundedSums
import Verif.Props.RoundedScale
import Verif.Props.RoundedBoot
import Verif.Props.Boot
import Verif.Props.BootScale

/-!
# C164, C165, C166: the simulations of the bootstrap chain ladder in double precision
-/

set_option linter.unusedSectionVars false

namespace Trikit

/-! ## exact arithmetic -/

section exact
variable {K : Type} [Field K] [LinearOrder K] [IsStrictOrderedRing K]

theorem kahanStep_id (s v : Num K) : kahanStep id (s, 0) v = (s + v, 0) := by
  cases s <;> cases v <;> first
    | rfl
    | (simp [kahanStep, Num.rounded_id, Num.zero_def]; done)
    | (simp [kahanStep, Num.rounded_id, Num.zero_def]; exact ⟨rfl, fun h => absurd h (by decide)⟩)
    | (simp [kahanStep, Num.rounded_id, Num.zero_def]; exact ⟨rfl, rfl⟩)

theorem kcumsumGo_id (l : List (Num K)) : ∀ s : Num K, kcumsumGo id (s, 0) l = cumsumGo s l := by
  induction l with
  | nil => intro s; rfl
  | cons v l ih =>
    intro s
    unfold kcumsumGo cumsumGo
    rw [kahanStep_id, ih, ih]

theorem kahanSum_id (l : List (Num K)) : kahanSum id l = Num.sumSkip l := by
  have key : ∀ (l : List (Num K)) (s : Num K), l.foldl (kahanStep id) (s, 0) = (s + l.sum, 0) := by
    intro l
    induction l with
    | nil => intro s; simp
    | cons v l ih => intro s; rw [List.foldl_cons, kahanStep_id, ih, List.sum_cons, add_assoc]
  unfold kahanSum Num.sumSkip
  rw [key]
  simp

theorem cumprodGoR_id (l : List (Num K)) : ∀ s : Num K, cumprodGoR id s l = cumprodGo s l := by
  induction l with
  | nil => intro s; rfl
  | cons v l ih =>
    intro s
    unfold cumprodGoR cumprodGo
    rw [ih, ih, Num.mulR_id]

/-- **C164, rounding left out**: with exact arithmetic the rounded simulations are the exact ones, for every table of
fitted increments, all draws and every triangle. -/
theorem C164_exact (sq : Num K → Num K) (t m : Tri K) (scale : Num K) (sims : ℕ) (draw : ℕ → Num K)
    (gam : ℕ → Num K → Num K → Num K) :
    bootSimsR id sq t m scale sims draw gam = bootSims sq t m scale sims draw gam := by
  have h1 : (kcumsumL id : List (Num K) → _) = cumsumL := funext fun l => kcumsumGo_id l 0
  have h2 : (kahanSum id : List (Num K) → _) = Num.sumSkip := funext kahanSum_id
  have h3 : (cumprodLR id : List (Num K) → _) = cumprodL := funext fun l => cumprodGoR_id l 1
  have h4 : (diffLR id : List (Num K) → _) = diffL := by
    funext l; unfold diffLR diffL; rw [Num.subR_id]
  have g1 : ∀ S, bsSamplesR id sq m S draw = bsSamples sq m S draw := by
    intro S
    unfold bsSamplesR bsSamples sampRowsR sampRows
    simp only [h1, Num.mulR_id, Num.addR_id]
  have g2 : ∀ S (l : List (SampRow K)), bsLdfsR id t S l = bsLdfs t S l := by
    intro S l
    unfold bsLdfsR bsLdfs aggRowsR aggRows
    simp only [h2, Num.divR_id]
    rfl
  have g3 : ∀ (l : List (SampRow K)) l', bsForecastsR id t l l' = bsForecasts t l l' := by
    intro l l'
    unfold bsForecastsR bsForecasts fcstRowsR fcstRows
    simp only [h3, h4, Num.mulR_id, Num.addR_id]
    rfl
  have g4 : ∀ l : List (SqrdRow K), bsProcessR id scale gam l = bsProcess scale gam l := by
    intro l
    unfold bsProcessR bsProcess
    simp only [h1, Num.mulR_id, Num.divR_id]
  have g5 : ∀ l : List (ProcRow K), bsReservesR id l = bsReserves l := by
    intro l
    unfold bsReservesR bsReserves
    simp only [Num.subR_id]
  unfold bootSimsR bootSims
  simp only [g1, g2, g3, g4, g5]

end exact

/-! ## error bounds -/

section error
variable {K : Type} [Field K] [LinearOrder K] [IsStrictOrderedRing K] {rd : K → K} {u : K}

theorem Spec.FormatRd.toIdem (h : Spec.FormatRd rd u) : Spec.Idem rd := by
  refine ⟨?_, h.idem⟩
  have := h.rel.err 0
  rw [abs_zero, mul_zero] at this
  have := abs_nonpos_iff.1 this
  linarith

theorem relErr_mono' (hr : Spec.RelErr rd u) {w : K} (h : u ≤ w) (h1 : w < 1) : Spec.RelErr rd w :=
  ⟨hr.nonneg.trans h, h1, fun x => (hr.err x).trans (mul_le_mul_of_nonneg_right h (abs_nonneg x))⟩

theorem near_of_abs (h0 : 0 ≤ u) (h1' : u ≤ 1) {x y : K} (hx : 0 < x) (h : |y - x| ≤ u * x) : Spec.Near u 1 x y := by
  obtain ⟨h1, h2⟩ := abs_le.1 h
  unfold Spec.Near
  rw [pow_one]
  constructor
  · linarith
  · nlinarith [mul_nonneg (mul_nonneg h0 h0) hx.le,
      mul_le_mul_of_nonneg_left (show y ≤ (1 + u) * x by linarith) (show 0 ≤ 1 - u by linarith)]

/-- Sampled increments as computed. -/
theorem samp_err (hr : Spec.RelErr rd u) (hu : 20 * u ≤ 1) (w z : K) {r r' : K} (hrt : |r' - r| ≤ u * |r|) :
    |rd (w + rd (z * r')) - (w + z * r)| ≤ 4 * u * (|w| + |z * r|) := by
  have h0 := hr.nonneg
  have hp : |z * r' - z * r| ≤ u * |z * r| := by
    rw [← mul_sub, abs_mul, abs_mul]
    nlinarith [mul_le_mul_of_nonneg_left hrt (abs_nonneg z)]
  have hq := hr.err (z * r')
  have hp' : |z * r'| ≤ (1 + u) * |z * r| := by
    have := abs_add_le (z * r' - z * r) (z * r)
    rw [sub_add_cancel] at this
    linarith
  have hs := hr.err (w + rd (z * r'))
  set P := |z * r| with hP
  have hP0 : 0 ≤ P := abs_nonneg _
  have hW0 : 0 ≤ |w| := abs_nonneg _
  have hq' : |rd (z * r') - z * r| ≤ (2 * u + u * u) * P := by
    have := abs_add_le (rd (z * r') - z * r') (z * r' - z * r)
    rw [sub_add_sub_cancel] at this
    nlinarith [mul_le_mul_of_nonneg_left hp' h0]
  have hqa : |rd (z * r')| ≤ (1 + 2 * u + u * u) * P := by
    have := abs_add_le (rd (z * r') - z * r) (z * r)
    rw [sub_add_cancel] at this
    linarith
  have hsum : |w + rd (z * r')| ≤ |w| + (1 + 2 * u + u * u) * P := (abs_add_le _ _).trans (by linarith)
  have h1 := mul_le_mul_of_nonneg_left hsum h0
  have h2 := abs_add_le (rd (w + rd (z * r')) - (w + rd (z * r'))) (rd (z * r') - z * r)
  rw [show rd (w + rd (z * r')) - (w + rd (z * r')) + (rd (z * r') - z * r) =
    rd (w + rd (z * r')) - (w + z * r) by ring] at h2
  have h3 : (3 * u + 3 * (u * u) + u * (u * u)) * P ≤ 4 * u * P := by
    refine mul_le_mul_of_nonneg_right ?_ hP0
    have : u * u ≤ u / 20 := by nlinarith
    have : u * (u * u) ≤ u / 20 := by nlinarith
    linarith
  have : u * |w| ≤ 4 * u * |w| := by nlinarith [mul_nonneg h0 hW0]
  linarith

/-- Compensated sums of perturbed numbers. -/
theorem kpre_err (hr : Spec.RelErr rd u) {a b e : ℕ → K} {m : ℕ} (hu : 20 * (m : K) * u ≤ 1)
    (h : ∀ k < m, |b k - a k| ≤ 4 * u * e k) (he : ∀ k < m, |a k| ≤ e k) :
    |Spec.kpre rd b m - ∑ k ∈ Finset.range m, a k| ≤ 14 * u * ∑ k ∈ Finset.range m, e k := by
  rcases Nat.eq_zero_or_pos m with rfl | hm
  · simp [Spec.kpre]
  have h0 := hr.nonneg
  have h20 : 20 * u ≤ 1 := by
    have : (1 : K) ≤ (m : K) := by exact_mod_cast hm
    nlinarith
  have hk := kfold_error hr ((List.range m).map b) (by simpa using hu)
  have e1 : ((List.range m).map b).sum = ∑ k ∈ Finset.range m, b k := by rw [list_sum_map_range]
  have e2 : (((List.range m).map b).map (fun x => |x|)).sum = ∑ k ∈ Finset.range m, |b k| := by
    rw [List.map_map, ← list_sum_map_range]; rfl
  rw [e1, e2] at hk
  have hb : ∑ k ∈ Finset.range m, |b k| ≤ (1 + 4 * u) * ∑ k ∈ Finset.range m, e k := by
    rw [Finset.mul_sum]
    refine Finset.sum_le_sum fun k hk => ?_
    have hk := Finset.mem_range.1 hk
    have := abs_add_le (b k - a k) (a k)
    rw [sub_add_cancel] at this
    linarith [h k hk, he k hk]
  have hd : |∑ k ∈ Finset.range m, b k - ∑ k ∈ Finset.range m, a k| ≤ 4 * u * ∑ k ∈ Finset.range m, e k := by
    rw [← Finset.sum_sub_distrib, Finset.mul_sum]
    exact (Finset.abs_sum_le_sum_abs _ _).trans (Finset.sum_le_sum fun k hk => h k (Finset.mem_range.1 hk))
  have hE : 0 ≤ ∑ k ∈ Finset.range m, e k :=
    Finset.sum_nonneg fun k hk => (abs_nonneg _).trans (he k (Finset.mem_range.1 hk))
  have h2 := abs_add_le (Spec.kpre rd b m - ∑ k ∈ Finset.range m, b k)
    (∑ k ∈ Finset.range m, b k - ∑ k ∈ Finset.range m, a k)
  rw [sub_add_sub_cancel] at h2
  have h3 := mul_le_mul_of_nonneg_left hb (show 0 ≤ 8 * u by linarith)
  have h4 : 8 * u * ((1 + 4 * u) * ∑ k ∈ Finset.range m, e k) ≤ 10 * u * ∑ k ∈ Finset.range m, e k := by
    rw [← mul_assoc]
    refine mul_le_mul_of_nonneg_right ?_ hE
    nlinarith
  unfold Spec.kpre at *
  linarith

/-- Compensated sums of nearly the same numbers that are not negative. -/
theorem kpre_near (hr : Spec.RelErr rd u) {e : K} (he : 14 * u ≤ e) (he1 : e < 1) {a b : ℕ → K} {m : ℕ}
    (hu : 20 * (m : K) * u ≤ 1) (h : ∀ k < m, 0 ≤ b k) (hab : ∀ k < m, (1 - e) * a k ≤ b k ∧ (1 - e) * b k ≤ a k)
    (hpos : 0 < ∑ k ∈ Finset.range m, a k) :
    0 < Spec.kpre rd b m ∧ Spec.Near e 2 (∑ k ∈ Finset.range m, a k) (Spec.kpre rd b m) := by
  have h0 := hr.nonneg
  have hk := kfold_error hr ((List.range m).map b) (by simpa using hu)
  have e1 : ((List.range m).map b).sum = ∑ k ∈ Finset.range m, b k := by rw [list_sum_map_range]
  have e2 : (((List.range m).map b).map (fun x => |x|)).sum = ∑ k ∈ Finset.range m, b k := by
    rw [List.map_map, ← list_sum_map_range]
    congr 1
    exact List.map_congr_left fun k hk => abs_of_nonneg (h k (List.mem_range.1 hk))
  rw [e1, e2] at hk
  have n1 : Spec.Near e 1 (∑ k ∈ Finset.range m, a k) (∑ k ∈ Finset.range m, b k) := by
    unfold Spec.Near
    rw [pow_one, Finset.mul_sum, Finset.mul_sum]
    exact ⟨Finset.sum_le_sum fun k hk => (hab k (Finset.mem_range.1 hk)).1,
      Finset.sum_le_sum fun k hk => (hab k (Finset.mem_range.1 hk)).2⟩
  have hb : 0 < ∑ k ∈ Finset.range m, b k := by
    have := n1.1
    rw [pow_one] at this
    exact lt_of_lt_of_le (mul_pos (by linarith) hpos) this
  have n2 : Spec.Near e 1 (∑ k ∈ Finset.range m, b k) (Spec.kpre rd b m) :=
    near_of_abs (by linarith) he1.le hb (hk.trans (mul_le_mul_of_nonneg_right (by linarith) hb.le))
  refine ⟨?_, near_trans he1 n1 n2⟩
  have := n2.1
  rw [pow_one] at this
  exact lt_of_lt_of_le (mul_pos (by linarith) hb) this

theorem cprodR_near (hr : Spec.RelErr rd u) {g : ℕ → Option K} {f f' : ℕ → K} {k : ℕ} (hf : ∀ i < k, 0 < f i)
    (hg : ∀ i < k, g i = some (f' i)) (hf' : ∀ i < k, 0 < f' i) (hn : ∀ i < k, Spec.Near u 5 (f i) (f' i)) :
    0 < Spec.cprodR rd g k ∧ Spec.Near u (6 * k) (∏ i ∈ Finset.range k, f i) (Spec.cprodR rd g k) := by
  induction k with
  | zero => exact ⟨one_pos, by simpa [Spec.cprodR] using near_refl hr.nonneg hr.lt_one (k := 0) (one_pos (α := K))⟩
  | succ k ih =>
    obtain ⟨h1, h2⟩ := ih (fun i hi => hf i (by omega)) (fun i hi => hg i (by omega)) (fun i hi => hf' i (by omega))
      (fun i hi => hn i (by omega))
    have e : Spec.cprodR rd g (k + 1) = rd (Spec.cprodR rd g k * f' k) := by
      rw [Spec.cprodR, hg k (by omega)]
    rw [e, Finset.prod_range_succ]
    have hp : 0 < Spec.cprodR rd g k * f' k := mul_pos h1 (hf' k (by omega))
    refine ⟨rd_pos hr hp, ?_⟩
    have := near_rd' hr hp (near_mul hr.lt_one (Finset.prod_pos fun i hi => hf i (by have := Finset.mem_range.1 hi; omega))
      h1 (hf k (by omega)) (hf' k (by omega)) h2 (hn k (by omega)))
    rwa [show 6 * k + 5 + 1 = 6 * (k + 1) by ring] at this


theorem near_one {e x y : K} : Spec.Near e 1 x y ↔ (1 - e) * x ≤ y ∧ (1 - e) * y ≤ x := by
  unfold Spec.Near; rw [pow_one]

variable {n : ℕ} {x x' : ℕ → ℕ → ℕ → K}

/-- Factors and projections from simulated values that are nearly right. -/
theorem simFull_near (hr : Spec.RelErr rd u) {e : K} (he : 14 * u ≤ e) (he1 : e < 1) (hu : 20 * (n : K) * u ≤ 1) {s : ℕ}
    (hx : ∀ i j, i + j < n → 0 < x s i j ∧ 0 < x' s i j ∧ Spec.Near e 1 (x s i j) (x' s i j)) {i j : ℕ} (hi : i < n)
    (hj : j < n) : 0 < Spec.simFull n x s i j ∧ 0 < Spec.simFullR rd n x' s i j ∧
      Spec.Near e (6 * (i + j + 1 - n) + 2) (Spec.simFull n x s i j) (Spec.simFullR rd n x' s i j) := by
  have h0 := hr.nonneg
  have e0 : 0 ≤ e := by linarith
  have hre : Spec.RelErr rd e := relErr_mono' hr (by linarith) he1
  have hun : ∀ m : ℕ, m ≤ n → 20 * (m : K) * u ≤ 1 := by
    intro m hm
    have : (m : K) ≤ n := by exact_mod_cast hm
    nlinarith
  -- column sums
  have hA1 : ∀ j < n, 0 < Spec.simA1 n x s j ∧ 0 < Spec.simA1R rd n x' s j ∧
      Spec.Near e 2 (Spec.simA1 n x s j) (Spec.simA1R rd n x' s j) := by
    intro j hj
    have hp : 0 < Spec.simA1 n x s j :=
      Finset.sum_pos (fun i hi => (hx i j (by have := Finset.mem_range.1 hi; omega)).1)
        (Finset.nonempty_range_iff.2 (by omega))
    exact ⟨hp, kpre_near hr he he1 (hun _ (by omega)) (fun i hi => (hx i j (by omega)).2.1.le)
      (fun i hi => near_one.1 (hx i j (by omega)).2.2) hp⟩
  have hA2 : ∀ j, j + 1 < n → 0 < Spec.simA2 n x s j ∧ 0 < Spec.simA2R rd n x' s j ∧
      Spec.Near e 2 (Spec.simA2 n x s j) (Spec.simA2R rd n x' s j) := by
    intro j hj
    have hp : 0 < Spec.simA2 n x s j :=
      Finset.sum_pos (fun i hi => (hx i j (by have := Finset.mem_range.1 hi; omega)).1)
        (Finset.nonempty_range_iff.2 (by omega))
    have heq : Spec.simA2 n x s j = ∑ i ∈ Finset.range (n - j), if i = n - 1 - j then 0 else x s i j := by
      unfold Spec.simA2
      rw [show n - j = n - 1 - j + 1 by omega, Finset.sum_range_succ, if_pos rfl, add_zero]
      exact Finset.sum_congr rfl fun i hi => by rw [if_neg (by have := Finset.mem_range.1 hi; omega)]
    refine ⟨hp, ?_⟩
    rw [heq] at hp ⊢
    refine kpre_near hr he he1 (hun _ (by omega)) (fun i hi => ?_) (fun i hi => ?_) hp
    · split
      · exact le_rfl
      · exact (hx i j (by omega)).2.1.le
    · split
      · simp
      · exact near_one.1 (hx i j (by omega)).2.2
  -- factors
  have hL : ∀ j, j + 1 < n → ∃ f f', Spec.simLdf n x s j = some f ∧ Spec.simLdfR rd n x' s j = some f' ∧ 0 < f ∧ 0 < f' ∧
      Spec.Near e 5 f f' := by
    intro j hj
    obtain ⟨a1, a2, a3⟩ := hA1 (j + 1) hj
    obtain ⟨b1, b2, b3⟩ := hA2 j hj
    refine ⟨_, _, ?_, ?_, div_pos a1 b1, rd_pos hr (div_pos a2 b2), near_rd' hre (div_pos a2 b2)
      (near_div he1 a1 a2 b1 b2 a3 b3)⟩
    · unfold Spec.simLdf; rw [if_neg b1.ne']
    · unfold Spec.simLdfR; rw [if_neg b2.ne']
  unfold Spec.simFull Spec.simFullR
  by_cases hij : i + j < n
  · rw [if_pos hij, if_pos hij]
    obtain ⟨h1, h2, h3⟩ := hx i j hij
    exact ⟨h1, h2, near_mono e0 he1 (by omega) h1 h2 h3⟩
  rw [if_neg hij, if_neg hij]
  obtain ⟨_, _, g1, g2, -⟩ := hL (j - 1) (by omega)
  unfold Spec.simProj Spec.simProjR
  rw [g1, g2, if_neg (by simp), if_neg (by simp)]
  obtain ⟨y1, y2, y3⟩ := hx i (n - 1 - i) (by omega)
  choose! f f' hf1 hf2 hf3 hf4 hf5 using hL
  have hprod : ∏ k ∈ Finset.range (i + j + 1 - n), (Spec.simLdf n x s (n - 1 - i + k)).getD 1 =
      ∏ k ∈ Finset.range (i + j + 1 - n), f (n - 1 - i + k) :=
    Finset.prod_congr rfl fun k hk => by
      have := Finset.mem_range.1 hk
      rw [hf1 _ (by omega)]; rfl
  have hc := cprodR_near (rd := rd) (u := e) hre (g := fun k => Spec.simLdfR rd n x' s (n - 1 - i + k))
    (f := fun k => f (n - 1 - i + k)) (f' := fun k => f' (n - 1 - i + k)) (k := i + j + 1 - n)
    (fun k hk => hf3 _ (by omega)) (fun k hk => hf2 _ (by omega)) (fun k hk => hf4 _ (by omega))
    (fun k hk => hf5 _ (by omega))
  rw [hprod]
  have hpp : 0 < ∏ k ∈ Finset.range (i + j + 1 - n), f (n - 1 - i + k) :=
    Finset.prod_pos fun k hk => hf3 _ (by have := Finset.mem_range.1 hk; omega)
  refine ⟨mul_pos y1 hpp, rd_pos hr (mul_pos y2 hc.1), ?_⟩
  have := near_rd' hre (mul_pos y2 hc.1) (near_mul he1 y1 y2 hpp hc.1 y3 hc.2)
  rwa [show 1 + 6 * (i + j + 1 - n) + 1 = 6 * (i + j + 1 - n) + 2 by ring] at this

theorem table_get {α : Type} {S n : ℕ} (f : ℕ → ℕ → ℕ → α) {s i j : ℕ} (hs : s < S) (hi : i < n) (hj : j < n) :
    ((List.range S).flatMap (fun s => (List.range n).flatMap (fun i => (List.range n).map (f s i))))[s * (n * n) +
      (i * n + j)]? = some (f s i j) := by
  have h : (f s i j, s * (n * n) + (i * n + j)) ∈ ((List.range S).flatMap (fun s => (List.range n).flatMap (fun i =>
      (List.range n).map (f s i)))).zipIdx := by
    rw [zipIdx_table]
    simp only [List.mem_flatMap, List.mem_map, List.mem_range]
    exact ⟨s, hs, i, hi, j, hj, rfl⟩
  exact List.mem_zipIdx_iff_getElem?.1 h

theorem table_length {α : Type} (S n : ℕ) (f : ℕ → ℕ → ℕ → α) :
    ((List.range S).flatMap (fun s => (List.range n).flatMap (fun i => (List.range n).map (f s i)))).length =
      S * (n * n) := by
  simp [List.length_flatMap]

/-- The simulated increments of each row are conditioned by `κ`: their partial sums are positive and not smaller than
`1/κ` times the sums of the absolute values of fitted increments and noise. -/
def Spec.Conditioned (κ : K) (n S : ℕ) (w rt : ℕ → ℕ → K) (z : ℕ → K) : Prop :=
  ∀ s < S, ∀ i j, i + j < n →
    0 < ∑ k ∈ Finset.range (j + 1), (w i k + z (s * (n * n) + (i * n + k)) * rt i k) ∧
    ∑ k ∈ Finset.range (j + 1), (|w i k| + |z (s * (n * n) + (i * n + k)) * rt i k|) ≤
      κ * ∑ k ∈ Finset.range (j + 1), (w i k + z (s * (n * n) + (i * n + k)) * rt i k)

variable {t m : Tri K} {c v : ℕ → ℕ → K} {S : ℕ}

/-- Two tables of completed simulated triangles agree up to rounding: `S` blocks of `n` rows of `n` values, the same labels
and forecast flags in the same order, values `k` columns beyond the diagonal within `(12k+4)·e`, relatively, and
increments within `(12k+5)·e` of the values they come from. -/
def Spec.SimClose (e : K) (n S : ℕ) (T T' : List (SqrdRow K)) : Prop :=
  T.length = S * (n * n) ∧ T'.length = S * (n * n) ∧
  ∃ y y' d d' : ℕ → ℕ → ℕ → K, ∀ s < S, ∀ i < n, ∀ j < n, ∃ r r',
    T[s * (n * n) + (i * n + j)]? = some r ∧ T'[s * (n * n) + (i * n + j)]? = some r' ∧
    (r'.sim, r'.origin, r'.dev, r'.fcst) = (r.sim, r.origin, r.dev, r.fcst) ∧
    r.sampCum = .fin (y s i j) ∧ r'.sampCum = .fin (y' s i j) ∧ 0 < y s i j ∧
    |y' s i j - y s i j| ≤ (12 * ((i + j + 1 - n : ℕ) : K) + 4) * e * y s i j ∧
    r.sampIncr = .fin (d s i j) ∧ r'.sampIncr = .fin (d' s i j) ∧
    |d' s i j - d s i j| ≤ (12 * ((i + j + 1 - n : ℕ) : K) + 5) * e * (y s i j + if j = 0 then 0 else y s i (j - 1))

/-- **C164**: completed simulated triangles in rounded arithmetic.  The rows are those of exact arithmetic, in the same
order with the same labels and forecast flags.  Values `k` columns beyond the diagonal are within `(12k+4)·14κu` of the
exact ones, relatively, and increments within `(12k+5)·14κu` of the values they come from. -/
theorem C164_error (hf : Spec.FormatRd rd u) (ht : Spec.Stair t n c) (hn : 0 < n) (hS : 0 < S) (hm : Spec.Stair m n v)
    (ho : m.origins = t.origins) (hd : m.devs = t.devs) (h1 : 1 ≤ t.dAt 0) {sq sqE : Num K → Num K} {rt rt' : ℕ → ℕ → K}
    (hsq : ∀ i j, i + j < n → sqE (.fin (Spec.startIncr v i j)) = .fin (rt i j))
    (hsq' : ∀ i j, i + j < n → sq (.fin (Spec.startIncr v i j)) = .fin (rt' i j) ∧ |rt' i j - rt i j| ≤ u * |rt i j|)
    {draw : ℕ → Num K} {z : ℕ → K} (hz : ∀ p < S * (n * n), draw p = .fin (z p)) {κ : K}
    (hκ : Spec.Conditioned κ n S (Spec.startIncr v) rt z) (hsmall : (12 * (n : K) + 4) * (14 * κ * u) ≤ 1)
    (scale scale' : Num K) (gam gam' : ℕ → Num K → Num K → Num K) :
    Spec.SimClose (14 * κ * u) n S (bootSims sqE t m scale' S draw gam').forecasts
      (bootSimsR rd sq t m scale S draw gam).forecasts := by
  have hr := hf.rel
  have u0 := hr.nonneg
  have hid := hf.toIdem
  obtain ⟨row, htab, -⟩ := bsSamples_tab (S := S) hm ho hd hsq (draw := draw) (z := z) hz
  obtain ⟨row', htab', -⟩ := bsSamplesR_tab (rd := rd) (S := S) hm ho hd (fun i j h => (hsq' i j h).1) (draw := draw)
    (z := z) hz
  have hF := bsForecasts_stair ht hn hS htab
  have hF' := bsForecastsR_stair hid (simCumR_fixed (n := n) hid (Spec.startIncr v) rt' z) ht hn hS htab'
  have eF : (bootSims sqE t m scale' S draw gam').forecasts = _ := hF
  have eF' : (bootSimsR rd sq t m scale S draw gam).forecasts = _ := hF'
  unfold Spec.SimClose
  rw [eF, eF', table_length, table_length]
  refine ⟨rfl, rfl, ?_⟩
  set x := Spec.simCum n (Spec.startIncr v) rt z with hxdef
  set x' := Spec.simCumR rd n (Spec.startIncr v) rt' z with hxdef'
  set e := 14 * κ * u with hedef
  -- the condition number is at least one
  have hκ1 : 1 ≤ κ := by
    obtain ⟨h2, h3⟩ := hκ 0 hS 0 0 (by omega)
    have : ∑ k ∈ Finset.range (0 + 1), (Spec.startIncr v 0 k + z (0 * (n * n) + (0 * n + k)) * rt 0 k) ≤
        ∑ k ∈ Finset.range (0 + 1), (|Spec.startIncr v 0 k| + |z (0 * (n * n) + (0 * n + k)) * rt 0 k|) :=
      Finset.sum_le_sum fun k _ => add_le_add (le_abs_self _) (le_abs_self _)
    by_contra hlt
    push Not at hlt
    nlinarith
  have he : 14 * u ≤ e := by rw [hedef]; nlinarith
  have e0 : 0 ≤ e := by linarith
  have hn1 : (1 : K) ≤ n := by exact_mod_cast hn
  have he1 : e < 1 := by nlinarith
  have hu : 20 * (n : K) * u ≤ 1 := by
    have h2 : (12 * (n : K) + 4) * (14 * u) ≤ 1 := (mul_le_mul_of_nonneg_left he (by linarith)).trans hsmall
    nlinarith [mul_nonneg (by linarith : (0 : K) ≤ n) u0]
  have h20 : 20 * u ≤ 1 := by nlinarith
  -- simulated values
  have hx : ∀ s < S, ∀ i j, i + j < n → 0 < x s i j ∧ 0 < x' s i j ∧ Spec.Near e 1 (x s i j) (x' s i j) := by
    intro s hs i j hij
    obtain ⟨h2, h3⟩ := hκ s hs i j hij
    have hj1 : 20 * ((j + 1 : ℕ) : K) * u ≤ 1 := by
      have : ((j + 1 : ℕ) : K) ≤ n := by exact_mod_cast (show j + 1 ≤ n by omega)
      nlinarith
    have h4 : |x' s i j - x s i j| ≤ 14 * u *
        ∑ k ∈ Finset.range (j + 1), (|Spec.startIncr v i k| + |z (s * (n * n) + (i * n + k)) * rt i k|) :=
      kpre_err hr hj1 (fun k hk => samp_err hr h20 _ _ (hsq' i k (by omega)).2) (fun k hk => abs_add_le _ _)
    have h5 : |x' s i j - x s i j| ≤ e * x s i j := by
      refine h4.trans ((mul_le_mul_of_nonneg_left h3 (by linarith)).trans (le_of_eq ?_))
      rw [hedef, hxdef]; unfold Spec.simCum; ring
    have h6 : 0 < x s i j := h2
    refine ⟨h6, ?_, near_of_abs e0 he1.le h6 h5⟩
    have := (abs_le.1 h5).1
    nlinarith
  have hfull := fun s (hs : s < S) i (hi : i < n) j (hj : j < n) => simFull_near hr he he1 hu (hx s hs) hi hj
  have herr : ∀ s < S, ∀ i < n, ∀ j < n, |Spec.simFullR rd n x' s i j - Spec.simFull n x s i j| ≤
      (12 * ((i + j + 1 - n : ℕ) : K) + 4) * e * Spec.simFull n x s i j ∧
      (12 * ((i + j + 1 - n : ℕ) : K) + 4) * e ≤ 1 := by
    intro s hs i hi j hj
    obtain ⟨h2, h3, h4⟩ := hfull s hs i hi j hj
    have hk : ((i + j + 1 - n : ℕ) : K) ≤ n := by exact_mod_cast (show i + j + 1 - n ≤ n by omega)
    have hk2 : (12 * ((i + j + 1 - n : ℕ) : K) + 4) * e ≤ 1 :=
      (mul_le_mul_of_nonneg_right (by linarith) e0).trans hsmall
    have := near_err e0 he1 (k := 6 * (i + j + 1 - n) + 2) (by push_cast; linarith) h2 h4
    push_cast at this
    refine ⟨this.trans (le_of_eq (by ring)), hk2⟩
  refine ⟨Spec.simFull n x, Spec.simFullR rd n x', Spec.simIncr t n x, Spec.simIncrR rd t n x', ?_⟩
  intro s hs i hi j hj
  refine ⟨_, _, table_get (sqrdRowAt t n x) hs hi hj, table_get (sqrdRowAtR rd t n x') hs hi hj, rfl, rfl, rfl,
    (hfull s hs i hi j hj).1, (herr s hs i hi j hj).1, rfl, rfl, ?_⟩
  have hdj : 0 < j → t.dAt j ≠ 1 := by
    intro h0
    have := Tri.dAt_lt ht.devs (j := 0) (j' := j) (by rw [ht.nc]; exact hj) h0
    omega
  obtain ⟨ea, eb⟩ := herr s hs i hi j hj
  have hy := (hfull s hs i hi j hj).1
  unfold Spec.simIncr Spec.simIncrR
  set k : K := ((i + j + 1 - n : ℕ) : K) with hk
  have hk0 : 0 ≤ k := by rw [hk]; exact_mod_cast Nat.zero_le _
  by_cases h0 : j = 0
  · subst h0
    rw [if_pos rfl, if_pos rfl, if_pos rfl, if_pos rfl, add_zero, add_zero]
    split
    · refine ea.trans ?_
      exact mul_le_mul_of_nonneg_right (mul_le_mul_of_nonneg_right (by linarith) e0) hy.le
    · rw [sub_zero, abs_zero]
      positivity
  · rw [if_neg (hdj (by omega)), if_neg (hdj (by omega)), if_neg h0, if_neg h0, if_neg h0, zero_add]
    obtain ⟨eaa, -⟩ := herr s hs i hi (j - 1) (by omega)
    have hy1 := (hfull s hs i hi (j - 1) (by omega)).1
    have hk' : ((i + (j - 1) + 1 - n : ℕ) : K) ≤ k := by
      rw [hk]; exact_mod_cast (show i + (j - 1) + 1 - n ≤ i + j + 1 - n by omega)
    have hb := hr.err (Spec.simFullR rd n x' s i j - Spec.simFullR rd n x' s i (j - 1))
    generalize Spec.simFull n x s i j = Y at *
    generalize Spec.simFull n x s i (j - 1) = Z at *
    generalize Spec.simFullR rd n x' s i j = Y' at *
    generalize Spec.simFullR rd n x' s i (j - 1) = Z' at *
    have ec : |Z' - Z| ≤ (12 * k + 4) * e * Z := eaa.trans
      (mul_le_mul_of_nonneg_right (mul_le_mul_of_nonneg_right (by linarith) e0) hy1.le)
    have h7 : |(Y' - Z') - (Y - Z)| ≤ (12 * k + 4) * e * (Y + Z) := by
      have := abs_add_le (Y' - Y) (-(Z' - Z))
      rw [abs_neg, show Y' - Y + -(Z' - Z) = (Y' - Z') - (Y - Z) by ring] at this
      linarith
    have h8 : |Y - Z| ≤ Y + Z := by
      rw [abs_le]; constructor <;> linarith
    have h9 : |Y' - Z'| ≤ 2 * (Y + Z) := by
      have := abs_add_le ((Y' - Z') - (Y - Z)) (Y - Z)
      rw [sub_add_cancel] at this
      nlinarith
    have h10 := abs_add_le (rd (Y' - Z') - (Y' - Z')) ((Y' - Z') - (Y - Z))
    rw [sub_add_sub_cancel] at h10
    nlinarith [mul_le_mul_of_nonneg_left h9 u0]

/-- **C164 in double precision** with the rounded root of real numbers. -/
theorem C164_float64 {t m : Tri ℝ} {n S : ℕ} {c v : ℕ → ℕ → ℝ} (ht : Spec.Stair t n c) (hn : 0 < n) (hS : 0 < S)
    (hm : Spec.Stair m n v) (ho : m.origins = t.origins) (hd : m.devs = t.devs) (h1 : 1 ≤ t.dAt 0)
    (hv : ∀ i j, i + j < n → 0 < j → 0 ≤ v i j) {draw : ℕ → Num ℝ} {z : ℕ → ℝ} (hz : ∀ p < S * (n * n), draw p = .fin (z p))
    {κ : ℝ} (hκ : Spec.Conditioned κ n S (Spec.startIncr v) (fun i j => √(Spec.startIncr v i j)) z)
    (hsmall : (12 * (n : ℝ) + 4) * (14 * κ) ≤ 2 ^ 53) (scale scale' : Num ℝ) (gam gam' : ℕ → Num ℝ → Num ℝ → Num ℝ) :
    Spec.SimClose (14 * κ * (1 / 2 ^ 53)) n S (bootSims Num.sqrt t m scale' S draw gam').forecasts
      (bootSimsR (floatRd 53) (fun v => (Num.sqrt v).rounded (floatRd 53)) t m scale S draw gam).forecasts := by
  have e : ((2 : ℝ) ^ (-((53 : ℕ) : ℤ))) = 1 / 2 ^ 53 := by
    rw [zpow_neg, zpow_natCast, one_div]
  have hF := floatRd_formatRd (K := ℝ) (p := 53) (by norm_num)
  rw [e] at hF
  have h0 : ∀ i j, i + j < n → 0 ≤ Spec.startIncr v i j := by
    intro i j hij
    unfold Spec.startIncr
    split
    · exact zero_le_one
    · rename_i h
      rcases Nat.eq_zero_or_pos j with rfl | hj
      · exact not_lt.1 (fun hlt => h ⟨rfl, hlt⟩)
      · exact hv i j hij hj
  refine C164_error hF ht hn hS hm ho hd h1 (rt' := fun i j => floatRd 53 √(Spec.startIncr v i j))
    (fun i j hij => Num.sqrt_fin (h0 i j hij)) (fun i j hij => ⟨?_, hF.rel.err _⟩) hz hκ ?_ scale scale' gam gam'
  · show (Num.sqrt _).rounded _ = _
    rw [Num.sqrt_fin (h0 i j hij)]; rfl
  · rw [mul_one_div, mul_div_assoc', div_le_one (by positivity)]
    exact hsmall

/-- The 3 x 3 staircase of increments 100. -/
def exHundred : Tri ℚ := stairTri 3 (fun _ _ => 100)

/-- Draws that alternate between 1/10 and -1/10. -/
def exAlt : ℕ → ℚ := fun p => if p % 2 = 0 then 1 / 10 else -1 / 10

theorem exHundred_stair : Spec.Stair exHundred 3 (fun _ _ => 100) := stairTri_stair 3 _

theorem exHundred_cond : Spec.Conditioned (2 : ℚ) 3 2 (Spec.startIncr (fun _ _ => 100)) (fun _ _ => 10) exAlt := by
  have key : ∀ s < 2, ∀ i < 3, ∀ j < 3, i + j < 3 →
      0 < ∑ k ∈ Finset.range (j + 1), (Spec.startIncr (fun _ _ => (100 : ℚ)) i k + exAlt (s * (3 * 3) + (i * 3 + k)) * 10) ∧
      ∑ k ∈ Finset.range (j + 1), (|Spec.startIncr (fun _ _ => (100 : ℚ)) i k| + |exAlt (s * (3 * 3) + (i * 3 + k)) * 10|) ≤
        2 * ∑ k ∈ Finset.range (j + 1),
          (Spec.startIncr (fun _ _ => (100 : ℚ)) i k + exAlt (s * (3 * 3) + (i * 3 + k)) * 10) := by
    decide +kernel
  exact fun s hs i j hij => key s hs i (by omega) j (by omega) hij

/-- Beside `C164_error`: two simulations of the staircase of increments 100 with noise 1 and -1; the value of the youngest
origin at the last period is not the exact one. -/
example : Spec.SimClose (14 * 2 * (1 / 2 ^ 53)) 3 2
      (bootSims exSqrt exHundred exHundred 1 2 (fun p => .fin (exAlt p)) (fun _ _ _ => 1)).forecasts
      (bootSimsR (floatRd 53) exSqrt exHundred exHundred 1 2 (fun p => .fin (exAlt p)) (fun _ _ _ => 1)).forecasts ∧
    (bootSims exSqrt exHundred exHundred 1 2 (fun p => .fin (exAlt p)) (fun _ _ _ => 1)).forecasts[8]?.map
        SqrdRow.sampCum ≠
      (bootSimsR (floatRd 53) exSqrt exHundred exHundred 1 2 (fun p => .fin (exAlt p)) (fun _ _ _ => 1)).forecasts[8]?.map
        SqrdRow.sampCum := by
  refine ⟨?_, by decide +kernel⟩
  have e : ((2 : ℚ) ^ (-((53 : ℕ) : ℤ))) = 1 / 2 ^ 53 := by
    rw [zpow_neg, zpow_natCast, one_div]
  have hF := floatRd_formatRd (K := ℚ) (p := 53) (by norm_num)
  rw [e] at hF
  have hroot : exSqrt (.fin 100) = .fin 10 := by decide +kernel
  have hst : ∀ i j, Spec.startIncr (fun _ _ => (100 : ℚ)) i j = 100 := by
    intro i j; unfold Spec.startIncr; rw [if_neg (by rintro ⟨-, h⟩; norm_num at h)]
  refine C164_error hF exHundred_stair (by norm_num) (by norm_num) exHundred_stair rfl rfl (by decide +kernel)
    (rt := fun _ _ => 10) (rt' := fun _ _ => 10) (fun i j _ => by rw [hst]; exact hroot)
    (fun i j _ => ⟨by rw [hst]; exact hroot, by norm_num⟩) (fun _ _ => rfl) exHundred_cond (by norm_num) _ _ _ _

/-! ## C165 -/

theorem table2_get {α : Type} {S n : ℕ} (f : ℕ → ℕ → α) {s i : ℕ} (hs : s < S) (hi : i < n) :
    ((List.range n).flatMap (fun i => (List.range S).map (f i)))[i * S + s]? = some (f i s) := by
  have h : (f i s, i * S + s) ∈ ((List.range n).flatMap (fun i => (List.range S).map (f i))).zipIdx := by
    rw [zipIdx_flatMap_range (L := S) (fun i _ => by simp)]
    simp only [List.mem_flatMap, List.mem_range]
    refine ⟨i, hi, ?_⟩
    rw [zipIdx_map_range, List.mem_map]
    exact ⟨s, List.mem_range.2 hs, by simp⟩
  exact List.mem_zipIdx_iff_getElem?.1 h

/-- Compensated sum of the increments of one row, observed part and forecasts. -/
theorem kpre_row (hr : Spec.RelErr rd u) (hu : 20 * (n : K) * u ≤ 1) {i : ℕ} (hi : i < n) {y f : ℕ → K}
    (h0 : f 0 = y 0 ∨ n ≤ i) (hf : ∀ j, 0 < j → i + j < n → f j = rd (y j - y (j - 1))) :
    |Spec.kpre rd f n - (y (n - 1 - i) + ∑ j ∈ Finset.Ico (n - i) n, f j)| ≤ u * (8 * |y 0| +
      47 / 5 * ∑ j ∈ Finset.range (n - 1 - i), |y (j + 1) - y j| + 8 * ∑ j ∈ Finset.Ico (n - i) n, |f j|) := by
  have u0 := hr.nonneg
  have hn1 : (1 : K) ≤ n := by exact_mod_cast (show 1 ≤ n by omega)
  have h20 : 20 * u ≤ 1 := by nlinarith
  have f0 : f 0 = y 0 := h0.resolve_right (by omega)
  obtain ⟨L, hL⟩ : ∃ L, n - i = L + 1 := ⟨n - i - 1, by omega⟩
  have hL' : n - 1 - i = L := by omega
  rw [hL']
  have hk := kfold_error hr ((List.range n).map f) (by simpa using hu)
  have e1 : ((List.range n).map f).sum = ∑ j ∈ Finset.range n, f j := by rw [list_sum_map_range]
  have e2 : (((List.range n).map f).map (fun x => |x|)).sum = ∑ j ∈ Finset.range n, |f j| := by
    rw [List.map_map, ← list_sum_map_range]; rfl
  rw [e1, e2] at hk
  have split : ∀ g : ℕ → K, ∑ j ∈ Finset.range n, g j = g 0 + ∑ j ∈ Finset.range L, g (j + 1) +
      ∑ j ∈ Finset.Ico (n - i) n, g j := by
    intro g
    rw [← Finset.sum_range_add_sum_Ico g (show n - i ≤ n by omega), hL, Finset.sum_range_succ']
    ring
  rw [split, split, f0] at hk
  set V := ∑ j ∈ Finset.range L, |y (j + 1) - y j| with hV
  set F := ∑ j ∈ Finset.Ico (n - i) n, |f j| with hF
  have hd : |∑ j ∈ Finset.range L, f (j + 1) - (y L - y 0)| ≤ u * V := by
    rw [← Finset.sum_range_sub, ← Finset.sum_sub_distrib, hV, Finset.mul_sum]
    refine (Finset.abs_sum_le_sum_abs _ _).trans (Finset.sum_le_sum fun j hj => ?_)
    have := Finset.mem_range.1 hj
    rw [hf (j + 1) (by omega) (by omega), Nat.add_sub_cancel]
    exact hr.err _
  have ha : ∑ j ∈ Finset.range L, |f (j + 1)| ≤ (1 + u) * V := by
    rw [hV, Finset.mul_sum]
    refine Finset.sum_le_sum fun j hj => ?_
    have := Finset.mem_range.1 hj
    rw [hf (j + 1) (by omega) (by omega), Nat.add_sub_cancel]
    have h1 := hr.err (y (j + 1) - y j)
    have h2 := abs_add_le (rd (y (j + 1) - y j) - (y (j + 1) - y j)) (y (j + 1) - y j)
    rw [sub_add_cancel] at h2
    linarith
  have V0 : 0 ≤ V := Finset.sum_nonneg fun _ _ => abs_nonneg _
  have F0 : 0 ≤ F := Finset.sum_nonneg fun _ _ => abs_nonneg _
  have Y0 : 0 ≤ |y 0| := abs_nonneg _
  have h3 := abs_add_le (Spec.kpre rd f n - (y 0 + ∑ j ∈ Finset.range L, f (j + 1) + ∑ j ∈ Finset.Ico (n - i) n, f j))
    (∑ j ∈ Finset.range L, f (j + 1) - (y L - y 0))
  rw [show Spec.kpre rd f n - (y 0 + ∑ j ∈ Finset.range L, f (j + 1) + ∑ j ∈ Finset.Ico (n - i) n, f j) +
    (∑ j ∈ Finset.range L, f (j + 1) - (y L - y 0)) =
    Spec.kpre rd f n - (y L + ∑ j ∈ Finset.Ico (n - i) n, f j) by ring] at h3
  have h4 : 8 * u * (|y 0| + ∑ j ∈ Finset.range L, |f (j + 1)| + F) ≤ 8 * u * (|y 0| + (1 + u) * V + F) :=
    mul_le_mul_of_nonneg_left (by linarith) (by linarith)
  have h5 : u * (u * V) ≤ 1 / 20 * (u * V) := mul_le_mul_of_nonneg_right (by linarith) (mul_nonneg u0 V0)
  have h6 : 0 ≤ u * F := mul_nonneg u0 F0
  have h7 : 0 ≤ u * |y 0| := mul_nonneg u0 Y0
  have h8 : 0 ≤ u * V := mul_nonneg u0 V0
  unfold Spec.kpre at *
  nlinarith

/-- **C165**: in rounded arithmetic, the simulated reserve of an origin is the sum of the forecast increments after process
error, and its ultimate the latest simulated value plus that sum, up to `10u` times the first simulated value, the
variation of the observed part of the simulated row and the absolute values of the forecast increments.  The oldest
origin has reserve 0, the others list the latest simulated value exactly.  Missing: equality, see `C165_fails`. -/
theorem C165_partial (hf : Spec.FormatRd rd u) (ht : Spec.Stair t n c) (hn : 0 < n) (hS : 0 < S) (hm : Spec.Stair m n v)
    (ho : m.origins = t.origins) (hd : m.devs = t.devs) (h1 : t.dAt 0 = 1) {sq : Num K → Num K}
    (hsq : ∀ y : K, 0 ≤ y → ∃ r, sq (.fin y) = .fin r) (hv : ∀ i j, i + j < n → 0 < j → 0 ≤ v i j)
    {draw : ℕ → Num K} (hz : ∀ p < S * (n * n), (draw p).isFin = true) (hu : 20 * (n : K) * u ≤ 1) {scale : Num K}
    {gam : ℕ → Num K → Num K → Num K} (hg : ∀ p < S * (n * n), ∀ a, (gam p a scale).isFin = true) :
    ∃ y f : ℕ → ℕ → ℕ → K, ∃ U R : ℕ → ℕ → K, ∀ s < S, ∀ i < n,
      (∀ j < n, ∃ r, (bootSimsR rd sq t m scale S draw gam).proc[s * (n * n) + (i * n + j)]? = some r ∧
        r.base.sampCum = .fin (y s i j) ∧ r.base.fcst = decide (n ≤ i + j) ∧ r.finalIncr = .fin (f s i j)) ∧
      (∃ q, (bootSimsR rd sq t m scale S draw gam).reserves[i * S + s]? = some q ∧ q.sim = s ∧ q.origin = t.oAt i ∧
        (0 < i → q.latest = .fin (y s i (n - 1 - i))) ∧ q.ultimate = .fin (U s i) ∧ q.reserve = .fin (R s i)) ∧
      (i = 0 → R s i = 0) ∧
      |R s i - ∑ j ∈ Finset.Ico (n - i) n, f s i j| ≤ 10 * u * (|y s i 0| +
        ∑ j ∈ Finset.range (n - 1 - i), |y s i (j + 1) - y s i j| + ∑ j ∈ Finset.Ico (n - i) n, |f s i j|) ∧
      |U s i - (y s i (n - 1 - i) + ∑ j ∈ Finset.Ico (n - i) n, f s i j)| ≤ 10 * u * (|y s i 0| +
        ∑ j ∈ Finset.range (n - 1 - i), |y s i (j + 1) - y s i j| + ∑ j ∈ Finset.Ico (n - i) n, |f s i j|) := by
  have hr := hf.rel
  have u0 := hr.nonneg
  have hn1 : (1 : K) ≤ n := by exact_mod_cast hn
  have h20 : 20 * u ≤ 1 := by nlinarith
  have hid := hf.toIdem
  obtain ⟨rt, hrt⟩ := exists_roots hsq hv
  have q := bootSimsR_stair (scale := scale) (gam := gam) hid ht hn hS hm ho hd hrt (fun p hp => finD_eq (hz p hp)) hg
  set x := Spec.simCumR rd n (Spec.startIncr v) rt (finD draw) with hx
  set g := gamDR rd t n x scale gam with hgdef
  rw [q.proc, q.reserves]
  refine ⟨Spec.simFullR rd n x, Spec.finalIncrR rd t n x g, fun s i => Spec.kpre rd (Spec.finalIncrR rd t n x g s i) n,
    fun s i => if i = 0 then 0 else rd (Spec.kpre rd (Spec.finalIncrR rd t n x g s i) n - x s i (n - 1 - i)), ?_⟩
  intro s hs i hi
  have hlast : Spec.simFullR rd n x s i (n - 1 - i) = x s i (n - 1 - i) := by
    unfold Spec.simFullR; rw [if_pos (by omega)]
  have hf0 : Spec.finalIncrR rd t n x g s i 0 = Spec.simFullR rd n x s i 0 := by
    unfold Spec.finalIncrR
    rw [if_neg (by omega)]
    unfold Spec.simIncrR
    rw [if_pos h1, if_pos rfl]
  have hfj : ∀ j, 0 < j → i + j < n → Spec.finalIncrR rd t n x g s i j =
      rd (Spec.simFullR rd n x s i j - Spec.simFullR rd n x s i (j - 1)) := by
    intro j hj hij
    unfold Spec.finalIncrR
    rw [if_neg (by omega)]
    unfold Spec.simIncrR
    have : t.dAt j ≠ 1 := by
      have := Tri.dAt_lt ht.devs (j := 0) (j' := j) (by rw [ht.nc]; omega) hj
      omega
    rw [if_neg this, if_neg (by omega)]
  have hrow := kpre_row hr hu hi (.inl hf0) hfj
  rw [hlast] at hrow
  refine ⟨fun j hj => ⟨_, table_get (procRowAtR rd t n x g) hs hi hj, rfl, rfl, rfl⟩,
    ⟨_, table2_get (fun i s => resRowAtR rd t n x g s i) hs hi, rfl, rfl, ?_, rfl, ?_⟩, fun h => if_pos h, ?_, ?_⟩
  · intro h0
    show (if i = 0 then _ else _) = _
    rw [if_neg (by omega), hlast]
  · show (if i = 0 then Num.fin 0 else _) = Num.fin (if i = 0 then 0 else _)
    split <;> rfl
  · beta_reduce
    generalize hy : Spec.simFullR rd n x s i = y at *
    generalize Spec.finalIncrR rd t n x g s i = f at *
    generalize x s i (n - 1 - i) = l at *
    by_cases h0 : i = 0
    · simp only [if_pos h0]
      rw [h0, Nat.sub_zero, Finset.Ico_self, Finset.sum_empty, sub_zero, abs_zero]
      positivity
    · simp only [if_neg h0]
      set U := Spec.kpre rd f n
      have hF := Finset.abs_sum_le_sum_abs f (Finset.Ico (n - i) n)
      set V := ∑ j ∈ Finset.range (n - 1 - i), |y (j + 1) - y j|
      set F := ∑ j ∈ Finset.Ico (n - i) n, |f j|
      set G := ∑ j ∈ Finset.Ico (n - i) n, f j
      have V0 : 0 ≤ V := Finset.sum_nonneg fun _ _ => abs_nonneg _
      have F0 : 0 ≤ F := Finset.sum_nonneg fun _ _ => abs_nonneg _
      have Y0 : 0 ≤ |y 0| := abs_nonneg _
      have a1 := hr.err (U - l)
      have a2 := abs_add_le (rd (U - l) - (U - l)) (U - (l + G))
      rw [show rd (U - l) - (U - l) + (U - (l + G)) = rd (U - l) - G by ring] at a2
      have a3 := abs_add_le (U - (l + G)) G
      rw [show U - (l + G) + G = U - l by ring] at a3
      have a4 := mul_le_mul_of_nonneg_left (a3.trans (add_le_add hrow hF)) u0
      have a5 : u * (u * (8 * |y 0| + 47 / 5 * V + 8 * F)) ≤ 1 / 20 * (u * (8 * |y 0| + 47 / 5 * V + 8 * F)) :=
        mul_le_mul_of_nonneg_right (by linarith) (by positivity)
      have h6 : 0 ≤ u * F := mul_nonneg u0 F0
      have h7 : 0 ≤ u * |y 0| := mul_nonneg u0 Y0
      have h8 : 0 ≤ u * V := mul_nonneg u0 V0
      linarith
  · rw [hlast]
    refine hrow.trans ?_
    have V0 : 0 ≤ ∑ j ∈ Finset.range (n - 1 - i), |Spec.simFullR rd n x s i (j + 1) - Spec.simFullR rd n x s i j| :=
      Finset.sum_nonneg fun _ _ => abs_nonneg _
    have F0 : 0 ≤ ∑ j ∈ Finset.Ico (n - i) n, |Spec.finalIncrR rd t n x g s i j| :=
      Finset.sum_nonneg fun _ _ => abs_nonneg _
    have h6 := mul_nonneg u0 F0
    have h7 := mul_nonneg u0 (abs_nonneg (Spec.simFullR rd n x s i 0))
    have h8 := mul_nonneg u0 V0
    linarith

/-- **C165 fails** in double precision: the only forecast increment of the second origin of the staircase of increments 100
is 0.1, its simulated reserve is not. -/
theorem C165_fails :
    let r := bootSimsR (floatRd 53) exSqrt exHundred exHundred 1 1 (fun _ => 0) (fun _ _ _ => .fin (floatRd 53 (1 / 10)))
    r.proc.filterMap (fun p => if p.base.origin = 2002 ∧ p.base.fcst then some p.finalIncr else none) =
      [.fin (floatRd 53 (1 / 10))] ∧
    r.reserves.filterMap (fun q => if q.origin = 2002 then some (decide (q.reserve = .fin (floatRd 53 (1 / 10)))) else none) =
      [false] := by
  decide +kernel

/-- Beside `C165_partial`: the same run satisfies its hypotheses. -/
example : ∃ y f : ℕ → ℕ → ℕ → ℚ, ∃ U R : ℕ → ℕ → ℚ,
    |R 0 2 - ∑ j ∈ Finset.Ico (3 - 2) 3, f 0 2 j| ≤ 10 * (1 / 2 ^ 53) * (|y 0 2 0| +
      ∑ j ∈ Finset.range (3 - 1 - 2), |y 0 2 (j + 1) - y 0 2 j| + ∑ j ∈ Finset.Ico (3 - 2) 3, |f 0 2 j|) ∧
    (bootSimsR (floatRd 53) exSqrt exHundred exHundred 1 1 (fun _ => 0)
      (fun _ _ _ => .fin (floatRd 53 (1 / 10)))).reserves[2]?.map ResRow.reserve = some (.fin (R 0 2)) := by
  have e : ((2 : ℚ) ^ (-((53 : ℕ) : ℤ))) = 1 / 2 ^ 53 := by
    rw [zpow_neg, zpow_natCast, one_div]
  have hF := floatRd_formatRd (K := ℚ) (p := 53) (by norm_num)
  rw [e] at hF
  obtain ⟨y, f, U, R, h⟩ := C165_partial (S := 1) (sq := exSqrt) (draw := fun _ => 0) (scale := 1)
    (gam := fun _ _ _ => .fin (floatRd 53 (1 / 10))) hF exHundred_stair (by norm_num) (by norm_num) exHundred_stair rfl rfl
    (by decide +kernel) (fun y hy => ⟨Rat.sqrt y, if_neg (not_lt.2 hy)⟩) (fun _ _ _ _ => by norm_num) (fun _ _ => rfl)
    (by norm_num) (fun _ _ _ => rfl)
  obtain ⟨-, ⟨q, h1, -, -, -, -, h2⟩, -, h3, -⟩ := h 0 (by norm_num) 2 (by norm_num)
  exact ⟨y, f, U, R, h3, by rw [show 2 = 2 * 1 + 0 from rfl, h1]; exact congrArg some h2⟩

/-! ## C166 -/

/-- A row of the completed simulated triangles with amounts multiplied by `a`. -/
def SqrdRow.scale (a : K) (r : SqrdRow K) : SqrdRow K :=
  { r with sampCum := .fin a * r.sampCum, lactCum := .fin a * r.lactCum, sampIncr := .fin a * r.sampIncr }

/-- The same after process error. -/
def ProcRow.scale (a : K) (r : ProcRow K) : ProcRow K :=
  { base := r.base.scale a, finalIncr := .fin a * r.finalIncr, ultimate := .fin a * r.ultimate }

variable {a : K} {g : ℕ → ℕ → ℕ → K}

theorem kpre_scale (hh : Spec.Homog rd a) (f : ℕ → K) (k : ℕ) :
    Spec.kpre rd (fun i => a * f i) k = a * Spec.kpre rd f k := by
  have key : ∀ (l : List ℕ) (s c : K), (l.map (fun i => a * f i)).foldl (Spec.kstep rd) (a * s, a * c) =
      (a * ((l.map f).foldl (Spec.kstep rd) (s, c)).1, a * ((l.map f).foldl (Spec.kstep rd) (s, c)).2) := by
    intro l
    induction l with
    | nil => intro s c; rfl
    | cons i l ih =>
      intro s c
      rw [List.map_cons, List.map_cons, List.foldl_cons, List.foldl_cons]
      have : Spec.kstep rd (a * s, a * c) (a * f i) = (a * (Spec.kstep rd (s, c) (f i)).1, a * (Spec.kstep rd (s, c) (f i)).2) := by
        simp only [Spec.kstep, ← mul_sub, ← mul_add, hh _]
      rw [this, ih]
  have := key (List.range k) 0 0
  rw [mul_zero] at this
  unfold Spec.kpre
  rw [this]

theorem simA2R_scale (hh : Spec.Homog rd a) (s j : ℕ) :
    Spec.simA2R rd n (fun s i j => a * x s i j) s j = a * Spec.simA2R rd n x s j := by
  unfold Spec.simA2R
  rw [← kpre_scale hh]
  congr 1
  funext i
  rw [mul_ite, mul_zero]

theorem simLdfR_scale (hh : Spec.Homog rd a) (ha : a ≠ 0) (s j : ℕ) :
    Spec.simLdfR rd n (fun s i j => a * x s i j) s j = Spec.simLdfR rd n x s j := by
  unfold Spec.simLdfR Spec.simA1R
  rw [simA2R_scale hh, kpre_scale hh, mul_div_mul_left _ _ ha]
  simp [ha]

theorem simFullR_scale (hh : Spec.Homog rd a) (ha : a ≠ 0) (s i j : ℕ) :
    Spec.simFullR rd n (fun s i j => a * x s i j) s i j = a * Spec.simFullR rd n x s i j := by
  unfold Spec.simFullR Spec.simProjR
  simp only [simLdfR_scale hh ha]
  split
  · rfl
  · split
    · rw [mul_zero]
    · rw [mul_assoc, hh]

theorem simIncrR_scale (hh : Spec.Homog rd a) (ha : a ≠ 0) (s i j : ℕ) :
    Spec.simIncrR rd t n (fun s i j => a * x s i j) s i j = a * Spec.simIncrR rd t n x s i j := by
  unfold Spec.simIncrR
  simp only [simFullR_scale hh ha, ← mul_sub, hh _, ← mul_add]
  split
  · split <;> rfl
  · split
    · rw [mul_zero]
    · rfl

theorem finalIncrR_scale (hh : Spec.Homog rd a) (ha : 0 < a) (s i j : ℕ) :
    Spec.finalIncrR rd t n (fun s i j => a * x s i j) (fun s i j => a * g s i j) s i j =
      a * Spec.finalIncrR rd t n x g s i j := by
  unfold Spec.finalIncrR
  rw [simIncrR_scale hh ha.ne']
  simp only [mul_pos_iff_of_pos_left ha]
  split
  · rw [mul_assoc, hh]
  · rfl

theorem sqrdRowAtR_scale (hh : Spec.Homog rd a) (ha : 0 < a) (s i j : ℕ) :
    sqrdRowAtR rd t n (fun s i j => a * x s i j) s i j = (sqrdRowAtR rd t n x s i j).scale a := by
  unfold sqrdRowAtR SqrdRow.scale
  simp only [simFullR_scale hh ha.ne', simIncrR_scale hh ha.ne', mul_pos_iff_of_pos_left ha, Num.fin_mul, SqrdRow.mk.injEq,
    true_and, and_true]
  split
  · rw [Num.fin_mul]
  · rfl

theorem procRowAtR_scale (hh : Spec.Homog rd a) (ha : 0 < a) (s i j : ℕ) :
    procRowAtR rd t n (fun s i j => a * x s i j) (fun s i j => a * g s i j) s i j = (procRowAtR rd t n x g s i j).scale a := by
  unfold procRowAtR ProcRow.scale
  have : Spec.finalIncrR rd t n (fun s i j => a * x s i j) (fun s i j => a * g s i j) s i =
      fun j => a * Spec.finalIncrR rd t n x g s i j := funext fun j => finalIncrR_scale hh ha s i j
  rw [sqrdRowAtR_scale hh ha, this, kpre_scale hh, Num.fin_mul, Num.fin_mul]

theorem resRowAtR_scale (hh : Spec.Homog rd a) (ha : 0 < a) (s i : ℕ) :
    resRowAtR rd t n (fun s i j => a * x s i j) (fun s i j => a * g s i j) s i = (resRowAtR rd t n x g s i).scale a := by
  unfold resRowAtR ResRow.scale
  have : Spec.finalIncrR rd t n (fun s i j => a * x s i j) (fun s i j => a * g s i j) s i =
      fun j => a * Spec.finalIncrR rd t n x g s i j := funext fun j => finalIncrR_scale hh ha s i j
  simp only [this, kpre_scale hh, ← mul_sub, hh _, ResRow.mk.injEq, true_and]
  refine ⟨?_, ?_, ?_⟩
  · split <;> rw [Num.fin_mul]
  · rw [Num.fin_mul]
  · split
    · rw [Num.fin_mul, mul_zero]
    · rw [Num.fin_mul]

/-- **C166** for scales the arithmetic respects.  Fitted increments and scale parameter `s * s` times as large and residual
draws `s` times as large give the same simulated factors, and completed triangles, process errors and reserves `s * s`
times as large, bit by bit. -/
theorem C166_homog {s : K} (hid : Spec.Idem rd) (hs : 0 < s) (hh : Spec.Homog rd s) {sq : Num K → Num K}
    (hfin : ∀ y : K, 0 ≤ y → ∃ r, sq (.fin y) = .fin r) (hsq : ∀ v, sq (.fin (s * s) * v) = .fin s * sq v)
    (ht : Spec.Stair t n c) (hn : 0 < n) (hS : 0 < S) (hm : Spec.Stair m n v)
    (ho : m.origins = t.origins) (hd : m.devs = t.devs) (hv : ∀ i j, i + j < n → 0 ≤ v i j) {m' : Tri K}
    (hm' : Spec.Stair m' n (fun i j => s * s * v i j)) (ho' : m'.origins = t.origins) (hd' : m'.devs = t.devs)
    {draw : ℕ → Num K} (hz : ∀ p < S * (n * n), (draw p).isFin = true) {scale : Num K} {gam : ℕ → Num K → Num K → Num K}
    (hg : ∀ p < S * (n * n), ∀ a, (gam p a scale).isFin = true)
    (hgg : ∀ p a, gam p a (.fin (s * s) * scale) = .fin (s * s) * gam p a scale) :
    let r := bootSimsR rd sq t m scale S draw gam
    let r' := bootSimsR rd sq (t.scale (s * s)) m' (.fin (s * s) * scale) S (fun p => .fin s * draw p) gam
    r'.ldfs = r.ldfs ∧ r'.forecasts = r.forecasts.map (SqrdRow.scale (s * s)) ∧
      r'.proc = r.proc.map (ProcRow.scale (s * s)) ∧ r'.reserves = r.reserves.map (ResRow.scale (s * s)) := by
  intro r r'
  have hss : 0 < s * s := mul_pos hs hs
  have hh2 : Spec.Homog rd (s * s) := hh.sq
  -- fitted increments outside the staircase do not matter
  set w : ℕ → ℕ → K := fun i j => if i + j < n then v i j else 0 with hw
  have hw0 : ∀ i j, 0 ≤ w i j := by
    intro i j
    simp only [hw]
    split
    · rename_i h; exact hv i j h
    · exact le_rfl
  have hmw : Spec.Stair m n w := ⟨hm.nr, hm.nc, hm.origins, hm.devs, fun i j h => by
    rw [hm.obs i j h]; simp only [hw]; rw [if_pos h], hm.miss⟩
  have hmw' : Spec.Stair m' n (fun i j => s * s * w i j) := ⟨hm'.nr, hm'.nc, hm'.origins, hm'.devs, fun i j h => by
    rw [hm'.obs i j h]; simp only [hw]; rw [if_pos h], hm'.miss⟩
  have hst : Spec.startIncr w = w := by
    funext i j
    unfold Spec.startIncr
    rw [if_neg (fun h => absurd h.2 (not_lt.2 (hw0 i j)))]
  have hst' : Spec.startIncr (fun i j => s * s * w i j) = fun i j => s * s * w i j := by
    funext i j
    unfold Spec.startIncr
    rw [if_neg (fun h => absurd h.2 (not_lt.2 (mul_nonneg hss.le (hw0 i j))))]
  obtain ⟨rt, hrt⟩ := exists_roots (sq := sq) (n := n) hfin (fun i j _ _ => hw0 i j)
  rw [hst] at hrt
  have q := bootSimsR_stair (rd := rd) (scale := scale) (gam := gam) hid ht hn hS hmw ho hd (rt := rt)
    (by rw [hst]; exact hrt) (fun p hp => finD_eq (hz p hp)) hg
  have q' := bootSimsR_stair (rd := rd) (sq := sq) (draw := fun p => .fin s * draw p) (scale := .fin (s * s) * scale) (gam := gam)
    hid (ht.scale (s * s)) hn hS hmw' ho' hd' (rt := fun i j => s * rt i j) (by
      intro i j hij
      rw [hst', ← Num.fin_mul, hsq, hrt i j hij, Num.fin_mul]) (z := fun p => s * finD draw p)
    (fun p hp => by rw [finD_eq (hz p hp), Num.fin_mul]) (fun p hp a => by
      rw [hgg, Num.pos_mul_isFin hss]; exact hg p hp a)
  rw [hst] at q
  rw [hst'] at q'
  set x := Spec.simCumR rd n w rt (finD draw) with hx
  have hxx : Spec.simCumR rd n (fun i j => s * s * w i j) (fun i j => s * rt i j) (fun p => s * finD draw p) =
      fun k i j => s * s * x k i j := by
    funext k i j
    rw [hx]
    unfold Spec.simCumR
    rw [← kpre_scale hh2]
    congr 1
    funext l
    unfold Spec.simSampR
    beta_reduce
    rw [mul_mul_mul_comm, hh2, ← mul_add, hh2]
  rw [hxx] at q'
  have hgD : gamDR rd (t.scale (s * s)) n (fun k i j => s * s * x k i j) (.fin (s * s) * scale) gam =
      fun k i j => s * s * gamDR rd t n x scale gam k i j := by
    funext k i j
    unfold gamDR
    have : Spec.simIncrR rd (t.scale (s * s)) n (fun k i j => s * s * x k i j) k i j = s * s * Spec.simIncrR rd t n x k i j :=
      simIncrR_scale (t := t) hh2 hss.ne' k i j
    have hdiv : Num.divR rd (Num.fin (s * s * Spec.simIncrR rd t n x k i j)) (.fin (s * s) * scale) =
        Num.divR rd (Num.fin (Spec.simIncrR rd t n x k i j)) scale := by
      unfold Num.divR
      rw [← Num.fin_mul (s * s), Num.pos_mul_div hss]
    rw [this, hgg, hdiv]
    cases h : gam (k * (n * n) + (i * n + j)) (Num.divR rd (Num.fin (Spec.simIncrR rd t n x k i j)) scale).abs' scale with
    | fin y => rw [Num.fin_mul]; rfl
    | nan => exact (mul_zero _).symm
    | pinf => rw [Num.pos_mul_pinf hss]; exact (mul_zero _).symm
    | ninf => rw [Num.pos_mul_ninf hss]; exact (mul_zero _).symm
  rw [hgD] at q'
  refine ⟨?_, ?_, ?_, ?_⟩
  · rw [q.ldfs, q'.ldfs]
    simp only [simLdfR_scale hh2 hss.ne']
    rfl
  · rw [q.forecasts, q'.forecasts]
    simp only [List.map_flatMap, List.map_map]
    refine flatMap_congr_mem fun k _ => flatMap_congr_mem fun i _ => List.map_congr_left fun j _ => ?_
    exact sqrdRowAtR_scale (t := t) hh2 hss k i j
  · rw [q.proc, q'.proc]
    simp only [List.map_flatMap, List.map_map]
    refine flatMap_congr_mem fun k _ => flatMap_congr_mem fun i _ => List.map_congr_left fun j _ => ?_
    exact procRowAtR_scale (t := t) hh2 hss k i j
  · rw [q.reserves, q'.reserves]
    simp only [List.map_flatMap, List.map_map]
    refine flatMap_congr_mem fun i _ => List.map_congr_left fun k _ => ?_
    exact resRowAtR_scale (t := t) hh2 hss k i

/-- **C166**: a whole run in double precision with the rounded root of real numbers, from the fit to the reserves, on
amounts four to any power times as large.  Residuals are drawn by position; gamma draws are standard draws times the
scale parameter, rounded.  The simulated factors are the same, completed triangles, process errors and reserves go with
the amounts, bit by bit. -/
theorem C166_float64 {t : Tri ℝ} {n S : ℕ} {c : ℕ → ℕ → ℝ} {br : ℕ → SumTree} (hb : Spec.Bracketing br)
    (gm : List (Num ℝ) → Num ℝ) (e : ℤ) (h : Spec.Stair t n c) (hp : Spec.Positive n c) (hn : 3 ≤ n) (hS : 0 < S)
    (hc : ∀ i < n, floatRd 53 (c i 0) = c i 0) {fit : BootFit ℝ}
    (hfit : bootFitR br (floatRd 53) (fun v => (Num.sqrt v).rounded (floatRd 53)) gm t t.a2aind0 = .ok fit)
    (hv : ∀ i j, i + j < n → ∃ y, fit.fitIncr.cell i j = .fin y ∧ 0 ≤ y) (hscale : fit.scale.isFin = true) {pick : ℕ → ℕ}
    (hz : ∀ p < S * (n * n), (fit.sampling.getD (pick p) .nan).isFin = true) (G : ℕ → Num ℝ → ℝ) :
    ∃ fit', bootFitR br (floatRd 53) (fun v => (Num.sqrt v).rounded (floatRd 53)) gm (t.scale (4 ^ e))
        (t.scale (4 ^ e)).a2aind0 = .ok fit' ∧
      let r := bootSimsR (floatRd 53) (fun v => (Num.sqrt v).rounded (floatRd 53)) t fit.fitIncr fit.scale S
        (fun p => fit.sampling.getD (pick p) .nan) (fun p a b => Num.mulR (floatRd 53) b (.fin (G p a)))
      let r' := bootSimsR (floatRd 53) (fun v => (Num.sqrt v).rounded (floatRd 53)) (t.scale (4 ^ e)) fit'.fitIncr fit'.scale S
        (fun p => fit'.sampling.getD (pick p) .nan) (fun p a b => Num.mulR (floatRd 53) b (.fin (G p a)))
      r'.ldfs = r.ldfs ∧ r'.forecasts = r.forecasts.map (SqrdRow.scale (4 ^ e)) ∧
        r'.proc = r.proc.map (ProcRow.scale (4 ^ e)) ∧ r'.reserves = r.reserves.map (ResRow.scale (4 ^ e)) := by
  have h2 : (0 : ℝ) < 2 ^ e := zpow_pos (by norm_num) _
  have e4 : (4 : ℝ) ^ e = 2 ^ e * 2 ^ e := by rw [← mul_zpow]; norm_num
  have hF := floatRd_formatRd (K := ℝ) (p := 53) (by norm_num)
  have hh := floatRd_homog (K := ℝ) 53 e
  have hsq : ∀ v, (Num.sqrt (.fin (2 ^ e * 2 ^ e) * v)).rounded (floatRd 53) =
      .fin (2 ^ e) * (Num.sqrt v).rounded (floatRd 53) := fun v => by
    rw [Num.sqrt_mul_self h2, Num.rounded_scale hh h2]
  obtain ⟨f1, f2, a1, a2, -, -, -, a4, a5, a6⟩ := C161_partial (s := (2 : ℝ) ^ e)
    (sq := fun v => (Num.sqrt v).rounded (floatRd 53)) hF hb gm h2 hh hsq h hp hn hc
  obtain rfl : f1 = fit := Except.ok.inj (a1.symm.trans hfit)
  obtain ⟨f3, b1, q⟩ := bootFitR_stair hF hb (fun v => (Num.sqrt v).rounded (floatRd 53)) gm h hp hn hc
  obtain rfl : f3 = f1 := Except.ok.inj (b1.symm.trans hfit)
  obtain ⟨f4, b2, q'⟩ := bootFitR_stair hF hb (fun v => (Num.sqrt v).rounded (floatRd 53)) gm (h.scale (2 ^ e * 2 ^ e))
    (hp.scale (mul_pos h2 h2)) hn (fun i hi => by rw [(hh.sq) (c i 0), hc i hi])
  obtain rfl : f4 = f2 := Except.ok.inj (b2.symm.trans a2)
  rw [e4]
  refine ⟨f4, a2, ?_⟩
  have hinc := q.incr
  have hinc' : Spec.Stair f4.fitIncr n (fun i j => 2 ^ e * 2 ^ e * Spec.fitIncrR br (floatRd 53) n c i j) := by
    refine ⟨q'.incr.nr, q'.incr.nc, q'.incr.origins, q'.incr.devs, fun i j hij => ?_, q'.incr.miss⟩
    rw [(a4 i (by omega) j (by omega)).2.1, hinc.obs i j hij, Num.fin_mul]
  have := C166_homog (s := (2 : ℝ) ^ e) (sq := fun v => (Num.sqrt v).rounded (floatRd 53)) (S := S) (m' := f4.fitIncr)
    (draw := fun p => f3.sampling.getD (pick p) .nan) (scale := f3.scale)
    (gam := fun p a b => Num.mulR (floatRd 53) b (.fin (G p a))) hF.toIdem h2 hh (fun y hy => ⟨floatRd 53 √y, by
      show (Num.sqrt _).rounded _ = _
      rw [Num.sqrt_fin hy]; rfl⟩) hsq h (by omega) hS hinc q.incr_origins q.incr_devs (fun i j hij => by
      obtain ⟨y, h3, h4⟩ := hv i j hij
      rw [hinc.obs i j hij] at h3
      rwa [Num.fin.inj h3]) hinc' q'.incr_origins q'.incr_devs hz (fun p _ a => by
      obtain ⟨y, hy⟩ := (Num.isFin_iff _).1 hscale
      rw [hy]; rfl) (fun p a => by
      unfold Num.mulR
      rw [Num.pos_mul_assoc (mul_pos h2 h2), Num.rounded_scale hh.sq (mul_pos h2 h2)])
  have hdr : (fun p => f4.sampling.getD (pick p) .nan) = fun p => Num.fin ((2 : ℝ) ^ e) * f3.sampling.getD (pick p) .nan := by
    funext p
    rw [a6, getD_scale h2]
  rw [hdr, a5]
  exact this

/-- Beside `C166_homog`: two simulations of the staircase of increments 100 in double precision, amounts in quarters of the
currency. -/
example :
    let sq : Num ℝ → Num ℝ := fun v => (Num.sqrt v).rounded (floatRd 53)
    let gam : ℕ → Num ℝ → Num ℝ → Num ℝ := fun p _ b => Num.mulR (floatRd 53) b (.fin (1 + p))
    (bootSimsR (floatRd 53) sq ((stairTri 3 fun _ _ => 100).scale (2 * 2)) ((stairTri 3 fun _ _ => 100).scale (2 * 2))
        (.fin (2 * 2) * .fin 3) 2 (fun p => .fin 2 * .fin (p / 10)) gam).reserves =
      (bootSimsR (floatRd 53) sq (stairTri 3 fun _ _ => 100) (stairTri 3 fun _ _ => 100) (.fin 3) 2 (fun p => .fin (p / 10))
        gam).reserves.map (ResRow.scale (2 * 2)) := by
  intro sq gam
  have h := stairTri_stair 3 (fun _ _ => (100 : ℝ))
  have hF := floatRd_formatRd (K := ℝ) (p := 53) (by norm_num)
  have hh : Spec.Homog (floatRd 53 : ℝ → ℝ) 2 := by simpa using floatRd_homog (K := ℝ) 53 1
  have h2 : (0 : ℝ) < 2 := by norm_num
  exact (C166_homog (s := (2 : ℝ)) (rd := floatRd 53) (sq := sq) (S := 2) (draw := fun p => .fin (p / 10)) (scale := .fin 3)
    (gam := gam) hF.toIdem h2 hh
    (fun y hy => ⟨floatRd 53 √y, by show (Num.sqrt _).rounded _ = _; rw [Num.sqrt_fin hy]; rfl⟩)
    (fun v => by show (Num.sqrt _).rounded _ = _; rw [Num.sqrt_mul_self h2, Num.rounded_scale hh h2]) h (by norm_num)
    (by norm_num) h rfl rfl (fun _ _ _ => by norm_num) (m' := (stairTri 3 fun _ _ => (100 : ℝ)).scale (2 * 2))
    (h.scale (2 * 2)) rfl rfl (fun _ _ => rfl) (fun _ _ _ => rfl) (fun p a => by
      show Num.mulR _ _ _ = _ * Num.mulR _ _ _
      unfold Num.mulR
      rw [Num.pos_mul_assoc (mul_pos h2 h2), Num.rounded_scale hh.sq (mul_pos h2 h2)])).2.2.2

end error

end Trikit
