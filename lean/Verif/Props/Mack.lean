import Verif.MackCore
import Verif.Props.BaseMore

/-! # C41-C47, C50: Mack chain ladder -/

set_option linter.unusedSectionVars false

namespace Trikit

variable {K : Type}

/-- Exclusion weights: not negative and every development period keeps a link ratio. -/
structure Spec.Weights [Zero K] [LT K] [LE K] (n : ℕ) (w : ℕ → ℕ → K) : Prop where
  nonneg : ∀ i j, i + j + 1 < n → 0 ≤ w i j
  kept : ∀ j < n - 1, ∃ i, i + j + 1 < n ∧ 0 < w i j

section
variable [Field K] [LinearOrder K] [IsStrictOrderedRing K]
variable {t ind : Tri K} {n : ℕ} {c w : ℕ → ℕ → K}

theorem Spec.Weights.one (hn : 1 ≤ n) : Spec.Weights (K := K) n (fun _ _ => 1) :=
  ⟨fun _ _ _ => zero_le_one, fun j hj => ⟨0, by omega, one_pos⟩⟩

theorem mackW_pos (hp : Spec.Positive n c) (hw : Spec.Weights n w) (alpha : ℕ) {j : ℕ}
    (hj : j < n - 1) : 0 < Spec.mackW alpha n c w j := by
  unfold Spec.mackW Spec.colSum
  obtain ⟨i, hi, hpos⟩ := hw.kept j hj
  apply Finset.sum_pos'
  · intro k hk
    rw [Finset.mem_range] at hk
    exact mul_nonneg (hw.nonneg k j (by omega)) (pow_nonneg (hp k j (by omega)).le _)
  · exact ⟨i, Finset.mem_range.2 (by omega), mul_pos hpos (pow_pos (hp i j (by omega)) _)⟩

theorem mackF_pos (hp : Spec.Positive n c) (hw : Spec.Weights n w) (alpha : ℕ) {j : ℕ}
    (hj : j < n - 1) : 0 < Spec.mackF alpha n c w j := by
  unfold Spec.mackF
  apply div_pos _ (mackW_pos hp hw alpha hj)
  unfold Spec.colSum
  obtain ⟨i, hi, hpos⟩ := hw.kept j hj
  apply Finset.sum_pos'
  · intro k hk
    rw [Finset.mem_range] at hk
    exact mul_nonneg (mul_nonneg (hw.nonneg k j (by omega)) (pow_nonneg (hp k j (by omega)).le _))
      (div_pos (hp k (j + 1) (by omega)) (hp k j (by omega))).le
  · exact ⟨i, Finset.mem_range.2 (by omega), mul_pos (mul_pos hpos (pow_pos (hp i j (by omega)) _))
      (div_pos (hp i (j + 1) (by omega)) (hp i j (by omega)))⟩

theorem sqDev_nonneg (hp : Spec.Positive n c) (hw : Spec.Weights n w) (alpha : ℕ) (f : K) (j : ℕ) :
    0 ≤ Spec.sqDev alpha n c w f j := by
  unfold Spec.sqDev Spec.colSum
  apply Finset.sum_nonneg
  intro k hk
  rw [Finset.mem_range] at hk
  exact mul_nonneg (mul_nonneg (hw.nonneg k j (by omega)) (pow_nonneg (hp k j (by omega)).le _))
    (sq_nonneg _)

theorem sqDev_eq_zero (hp : Spec.Positive n c) (hw : Spec.Weights n w) (alpha : ℕ) (f : K) (j : ℕ) :
    Spec.sqDev alpha n c w f j = 0 ↔ ∀ i, i + j + 1 < n → w i j ≠ 0 → c i (j + 1) / c i j = f := by
  unfold Spec.sqDev Spec.colSum
  rw [Finset.sum_eq_zero_iff_of_nonneg]
  · constructor
    · intro h i hi hwi
      have := h i (Finset.mem_range.2 (by omega))
      have hcp : c i j ^ alpha ≠ 0 := pow_ne_zero _ (hp i j (by omega)).ne'
      have h2 := (mul_eq_zero.1 this).resolve_left (mul_ne_zero hwi hcp)
      exact sub_eq_zero.1 (pow_eq_zero_iff (two_ne_zero) |>.1 h2)
    · intro h i hi
      rw [Finset.mem_range] at hi
      by_cases e : w i j = 0
      · rw [e]; simp
      · rw [h i (by omega) e]; simp
  · intro k hk
    rw [Finset.mem_range] at hk
    exact mul_nonneg (mul_nonneg (hw.nonneg k j (by omega)) (pow_nonneg (hp k j (by omega)).le _))
      (sq_nonneg _)

theorem sig0_nonneg (hp : Spec.Positive n c) (hw : Spec.Weights n w) (alpha : ℕ) (j : ℕ) :
    0 ≤ Spec.sig0 alpha n c w j := by
  unfold Spec.sig0
  exact div_nonneg (sqDev_nonneg hp hw alpha _ j) (Nat.cast_nonneg _)

theorem sig0_eq_zero (hp : Spec.Positive n c) (hw : Spec.Weights n w) (alpha : ℕ) {j : ℕ}
    (hj : j + 2 < n) : Spec.sig0 alpha n c w j = 0 ↔
      ∀ i, i + j + 1 < n → w i j ≠ 0 → c i (j + 1) / c i j = Spec.mackF alpha n c w j := by
  rw [← sqDev_eq_zero hp hw alpha]
  unfold Spec.sig0
  rw [div_eq_zero_iff, or_iff_left]
  exact_mod_cast (by omega : n - j - 2 ≠ 0)

theorem lastVar_spec {a b : K} (ha : 0 ≤ a) (hb : 0 ≤ b) :
    (¬(a = 0 ∧ b = 0) → lastVar a b = .fin (Spec.sigLast a b)) ∧
    (a = 0 ∧ b = 0 → lastVar a b = .nan) := by
  unfold lastVar
  rw [npMin2_fin, Num.pow_fin]
  constructor
  · intro hne
    by_cases e : b = 0
    · subst e
      have hapos : 0 < a := lt_of_le_of_ne ha (fun h => hne ⟨h.symm, rfl⟩)
      rw [Num.fin_div_zero]
      unfold Num.infTimes
      rw [if_neg (pow_ne_zero 2 hapos.ne'), if_pos (by positivity)]
      unfold npMin2
      rw [if_neg (by simp [Num.isNaN]), if_pos (by rfl)]
      unfold Spec.sigLast
      rw [div_zero, min_eq_right ha]
      simp
    · rw [Num.fin_div _ _ e, npMin2_fin]; rfl
  · rintro ⟨rfl, rfl⟩
    rw [Num.fin_div_zero]
    unfold Num.infTimes npMin2
    simp

theorem sigLast_nonneg {a b : K} (ha : 0 ≤ a) (hb : 0 ≤ b) : 0 ≤ Spec.sigLast a b :=
  le_min (div_nonneg (sq_nonneg a) hb) (le_min ha hb)

/-- The two variances from which the last one is extrapolated both vanish. -/
def Spec.Degenerate (alpha n : ℕ) (c w : ℕ → ℕ → K) : Prop :=
  Spec.sig0 alpha n c w (n - 3) = 0 ∧ Spec.sig0 alpha n c w (n - 4) = 0

theorem storedVar_fin (hp : Spec.Positive n c) (hw : Spec.Weights n w) {alpha : ℕ}
    (hd : ¬ Spec.Degenerate alpha n c w) (j : ℕ) :
    storedVar alpha n c w j = .fin (Spec.sigma2 alpha n c w j) := by
  unfold storedVar Spec.sigma2
  split
  · rfl
  · exact (lastVar_spec (sig0_nonneg hp hw alpha _) (sig0_nonneg hp hw alpha _)).1 hd

theorem storedVar_degenerate (hp : Spec.Positive n c) (hw : Spec.Weights n w) {alpha : ℕ}
    (hn : 2 ≤ n) (hd : Spec.Degenerate alpha n c w) : storedVar alpha n c w (n - 2) = .nan := by
  unfold storedVar
  rw [if_neg (by omega)]
  exact (lastVar_spec (sig0_nonneg hp hw alpha _) (sig0_nonneg hp hw alpha _)).2 hd

theorem sigma2_nonneg (hp : Spec.Positive n c) (hw : Spec.Weights n w) (alpha j : ℕ) :
    0 ≤ Spec.sigma2 alpha n c w j := by
  unfold Spec.sigma2
  split
  · exact sig0_nonneg hp hw alpha _
  · exact sigLast_nonneg (sig0_nonneg hp hw alpha _) (sig0_nonneg hp hw alpha _)

theorem ldfVar_nonneg (hp : Spec.Positive n c) (hw : Spec.Weights n w) (alpha : ℕ) {j : ℕ}
    (hj : j < n - 1) : 0 ≤ Spec.ldfVar alpha n c w j :=
  div_nonneg (sigma2_nonneg hp hw alpha j) (mackW_pos hp hw alpha hj).le

/-! ## C42 -/

/-- **C42.** On a positive staircase, with any exclusion weights that keep a link ratio in every
period, the Mack factor of every period satisfies the normal equation and is the unique minimiser of
the weighted squared deviations. -/
theorem C42_least_squares (h : Spec.Stair t n c) (hp : Spec.Positive n c) (hi : IndW t ind n w)
    (hw : Spec.Weights n w) (hn : 3 ≤ n) (alpha : ℕ) (tail : K) :
    ∃ l, mackLdfs alpha t ind (.fin tail) = .ok l ∧ l.length = n ∧
      (l.map Prod.snd)[n - 1]? = some (.fin tail) ∧ ∀ j < n - 1, ∃ f,
        l[j]? = some (t.dAt j, .fin f) ∧
        (∑ i ∈ Finset.range (n - 1 - j), w i j * c i j ^ alpha * (c i (j + 1) / c i j - f)) = 0 ∧
        ∀ g, g ≠ f →
          (∑ i ∈ Finset.range (n - 1 - j), w i j * c i j ^ alpha * (c i (j + 1) / c i j - f) ^ 2) <
          ∑ i ∈ Finset.range (n - 1 - j), w i j * c i j ^ alpha * (c i (j + 1) / c i j - g) ^ 2 := by
  obtain ⟨lab, h1, h2, h3⟩ := mackLdfs_stair h hp.ne_zero hi hn alpha
    (fun j hj => (mackW_pos hp hw alpha hj).ne') tail
  refine ⟨_, h3, ?_, ?_, ?_⟩
  · rw [List.length_zip]
    have : t.devs.length = n := h.nc
    simp [this]; omega
  · have : t.devs.length = n := h.nc
    rw [List.map_snd_zip (by simp [this]; omega), List.getElem?_map, List.getElem?_range (by omega)]
    unfold Spec.withTail
    rw [Option.map_some, if_neg (by omega)]
  · intro j hj
    refine ⟨Spec.mackF alpha n c w j, ?_, ?_, ?_⟩
    · rw [h.take_devs, List.getElem?_zip_eq_some]
      constructor
      · rw [List.getElem?_append_left (by simpa using hj)]; simp [hj]
      · rw [List.getElem?_map, List.getElem?_range (by omega)]
        unfold Spec.withTail
        rw [Option.map_some, if_pos (by omega)]
    all_goals
      have hW := mackW_pos hp hw alpha hj
      have hnorm : (∑ i ∈ Finset.range (n - 1 - j),
          w i j * c i j ^ alpha * (c i (j + 1) / c i j - Spec.mackF alpha n c w j)) = 0 := by
        have e : ∀ i ∈ Finset.range (n - 1 - j),
            w i j * c i j ^ alpha * (c i (j + 1) / c i j - Spec.mackF alpha n c w j) =
            w i j * c i j ^ alpha * (c i (j + 1) / c i j) -
              w i j * c i j ^ alpha * Spec.mackF alpha n c w j := fun i _ => by ring
        rw [Finset.sum_congr rfl e, Finset.sum_sub_distrib, ← Finset.sum_mul]
        show Spec.colSum n j (fun i => w i j * c i j ^ alpha * (c i (j + 1) / c i j)) -
          Spec.mackW alpha n c w j * Spec.mackF alpha n c w j = 0
        unfold Spec.mackF
        rw [mul_div_cancel₀ _ hW.ne', sub_self]
    · exact hnorm
    · intro g hg
      have e : ∀ i ∈ Finset.range (n - 1 - j),
          w i j * c i j ^ alpha * (c i (j + 1) / c i j - g) ^ 2 =
          w i j * c i j ^ alpha * (c i (j + 1) / c i j - Spec.mackF alpha n c w j) ^ 2 +
          (2 * (Spec.mackF alpha n c w j - g)) * (w i j * c i j ^ alpha *
            (c i (j + 1) / c i j - Spec.mackF alpha n c w j)) +
          w i j * c i j ^ alpha * (Spec.mackF alpha n c w j - g) ^ 2 := fun i _ => by ring
      rw [Finset.sum_congr rfl e, Finset.sum_add_distrib, Finset.sum_add_distrib, ← Finset.mul_sum,
        hnorm, mul_zero, add_zero, ← Finset.sum_mul]
      have : 0 < Spec.mackW alpha n c w j * (Spec.mackF alpha n c w j - g) ^ 2 :=
        mul_pos hW (pow_pos (abs_pos.2 (sub_ne_zero.2 (Ne.symm hg))) 2 |>.trans_eq (sq_abs _))
      exact lt_add_of_pos_right _ this

/-! ## C41 and C50 -/

theorem rowIs_noexcl (gm : List (Num K) → Num K) (h : Spec.Stair t n c) (hp : Spec.Positive n c)
    (kind : AvgKind) {g : ℕ → K} (hn : 2 ≤ n)
    (hg : ∀ j < n - 1, avgEntry gm t t.a2aind0 kind 0 j = .ok (.fin (g j))) :
    Spec.RowIs gm t t.a2aind0 (Spec.avgName kind.name 0)
      ((List.range (n - 1)).map (fun j => .fin (g j))) := by
  obtain ⟨tab, htab⟩ := a2aAvgs_noexcl_ok gm h hp
  refine ⟨tab, htab, ?_⟩
  obtain ⟨_, vals, h1, h2⟩ := a2aAvgs_lookup htab (k := kind) (d := 0) (Or.inl rfl)
  rw [avgName_eq] at h1
  rw [h1]
  rw [adj_nc h hp.ne_zero (h.indOn0 hp.ne_zero)] at h2
  have h3 : (List.range (n - 1)).mapM (avgEntry gm t t.a2aind0 kind 0) =
      .ok ((List.range (n - 1)).map (fun j => .fin (g j))) := by
    apply mapM_ok
    intro j hj
    exact hg j (List.mem_range.1 hj)
  rw [h3] at h2
  injection h2 with h2
  rw [h2]

theorem rowIs_weighted (gm : List (Num K) → Num K) (h : Spec.Stair t n c) (hp : Spec.Positive n c)
    (hn : 2 ≤ n) : Spec.RowIs gm t t.a2aind0 "all-weighted"
      ((List.range (n - 1)).map (fun j => .fin (Spec.mackF 1 n c (fun _ _ => 1) j))) := by
  refine rowIs_noexcl gm h hp .weighted hn ?_
  intro j hj
  rw [entry_weighted h hj]
  have hW : wOrigins n 0 j = List.range (n - 1 - j) := by
    unfold wOrigins Spec.lastN; rw [if_pos rfl]
  have hpos := mackW_pos hp (Spec.Weights.one (by omega)) 1 hj
  have hden : ((List.range (n - 1 - j)).map (fun i => c i j)).sum =
      Spec.mackW 1 n c (fun _ _ => 1) j := by
    rw [list_range_sum]; unfold Spec.mackW Spec.colSum; simp
  have hnum : ((List.range (n - 1 - j)).map (fun i => c i (j + 1))).sum =
      Spec.colSum n j (fun i => 1 * c i j ^ 1 * (c i (j + 1) / c i j)) := by
    rw [list_range_sum]; unfold Spec.colSum
    apply Finset.sum_congr rfl
    intro i hi
    rw [Finset.mem_range] at hi
    have := (hp i j (by omega)).ne'
    field_simp
  rw [hW, hden, hnum, Num.fin_div _ _ hpos.ne']
  rfl

theorem rowIs_simple (gm : List (Num K) → Num K) (h : Spec.Stair t n c) (hp : Spec.Positive n c)
    (hn : 2 ≤ n) : Spec.RowIs gm t t.a2aind0 "all-simple"
      ((List.range (n - 1)).map (fun j => .fin (Spec.mackF 0 n c (fun _ _ => 1) j))) := by
  refine rowIs_noexcl gm h hp .simple hn ?_
  intro j hj
  rw [entry_simple h hp.ne_zero (h.indOn0 hp.ne_zero) hj, window_noexcl hp]
  have hl : Spec.lastN 0 (Spec.ratios n c j) = Spec.ratios n c j := by
    unfold Spec.lastN; rw [if_pos rfl]
  rw [hl, simpleAvg_fin (ratios_ne_nil hj)]
  congr 2
  unfold Spec.mean Spec.mackF Spec.mackW Spec.colSum Spec.ratios
  rw [list_range_sum]
  simp

theorem mack_eq_base (gm : List (Num K) → Num K) (h : Spec.Stair t n c) (hp : Spec.Positive n c)
    (hn : 3 ≤ n) {alpha : ℕ} {sel : String}
    (hrow : Spec.RowIs gm t t.a2aind0 sel
      ((List.range (n - 1)).map (fun j => .fin (Spec.mackF alpha n c (fun _ _ => 1) j)))) (tail : K) :
    ∃ l, mackLdfs alpha t t.a2aind0 (.fin tail) = .ok l ∧
      ldfsByName gm t t.a2aind0 sel (.fin tail) = .ok l := by
  have hW := fun j hj => (mackW_pos (j := j) hp (Spec.Weights.one (K := K) (n := n) (by omega))
    alpha hj).ne'
  obtain ⟨lab, h1, h2, h3⟩ := mackLdfs_stair h hp.ne_zero (h.indW0 hp.ne_zero) hn alpha hW tail
  have hind := h.indOn0 hp.ne_zero
  obtain ⟨_, lab', h1', _, h3'⟩ := ldfsByName_spec h.devs hind.origins hind.devs
    (by rw [h.a2a_nc hp.ne_zero]; omega) hrow (.fin tail)
  have hdev : t.a2a.devs = t.devs.take (n - 1) := (C22_a2a h hp.ne_zero).2.1
  rw [hdev] at h1' h3'
  rw [h1] at h1'
  injection h1' with h1'
  subst h1'
  refine ⟨_, h3, ?_⟩
  rw [h3']
  congr 2
  obtain ⟨m, rfl⟩ : ∃ m, n = m + 1 := ⟨n - 1, by omega⟩
  rw [List.range_succ, List.map_append, Nat.add_sub_cancel]
  congr 1
  · apply List.map_congr_left
    intro j hj
    rw [List.mem_range] at hj
    unfold Spec.withTail
    rw [if_pos (by omega)]
  · simp [Spec.withTail]

/-- **C41.** `alpha = 1` gives the factors of "all-weighted" (labels and final entry included),
`alpha = 0` those of "all-simple", and `alpha = 2` the least squares slopes through the origin
`sum C_j C_{j+1} / sum C_j^2`. -/
theorem C41_factors (gm : List (Num K) → Num K) (h : Spec.Stair t n c) (hp : Spec.Positive n c)
    (hn : 3 ≤ n) :
    (∃ l, mackLdfs 1 t t.a2aind0 1 = .ok l ∧ ldfsByName gm t t.a2aind0 "all-weighted" 1 = .ok l) ∧
    (∃ l, mackLdfs 0 t t.a2aind0 1 = .ok l ∧ ldfsByName gm t t.a2aind0 "all-simple" 1 = .ok l) ∧
    ∃ l, mackLdfs 2 t t.a2aind0 1 = .ok l ∧ ∀ j < n - 1, l[j]? = some (t.dAt j,
      .fin ((∑ i ∈ Finset.range (n - 1 - j), c i j * c i (j + 1)) /
        ∑ i ∈ Finset.range (n - 1 - j), c i j * c i j)) := by
  refine ⟨mack_eq_base gm h hp hn (rowIs_weighted gm h hp (by omega)) 1,
    mack_eq_base gm h hp hn (rowIs_simple gm h hp (by omega)) 1, ?_⟩
  have hW := fun j hj => (mackW_pos (j := j) hp (Spec.Weights.one (K := K) (n := n) (by omega))
    2 hj).ne'
  obtain ⟨lab, h1, h2, h3⟩ := mackLdfs_stair h hp.ne_zero (h.indW0 hp.ne_zero) hn 2 hW 1
  refine ⟨_, h3, ?_⟩
  intro j hj
  rw [h.take_devs, List.getElem?_zip_eq_some]
  constructor
  · rw [List.getElem?_append_left (by simpa using hj)]; simp [hj]
  · rw [List.getElem?_map, List.getElem?_range (by omega)]
    unfold Spec.withTail
    rw [Option.map_some, if_pos (by omega)]
    congr 2
    unfold Spec.mackF Spec.mackW Spec.colSum
    congr 1
    · apply Finset.sum_congr rfl
      intro i hi
      rw [Finset.mem_range] at hi
      have := (hp i j (by omega)).ne'
      field_simp
    · apply Finset.sum_congr rfl
      intro i _
      ring

example : (mackLdfs 1 exTri exTri.a2aind0 1).toOption =
      some [(1, .fin (494 / 330)), (2, .fin (400 / 326)), (3, .fin (198 / 180)), (4, .fin 1)] ∧
    (mackLdfs 0 exTri exTri.a2aind0 1).toOption =
      some [(1, .fin (3 / 2)), (2, .fin (49 / 40)), (3, .fin (11 / 10)), (4, .fin 1)] ∧
    (mackLdfs 2 exTri exTri.a2aind0 1).toOption =
      some [(1, .fin ((15000 + 19360 + 20160) / (10000 + 12100 + 14400))),
        (2, .fin ((27000 + 38720) / (22500 + 30976))), (3, .fin (11 / 10)), (4, .fin 1)] := by
  decide +kernel

/-- **C50.** `mack_cl(alpha=1)` has the same factors, cumulative factors, summary rows, totals and
squared triangle as `base_cl()` (`sel="all-weighted"`, `tail=1.0`). -/
theorem C50_point_estimates (gm : List (Num K) → Num K) (h : Spec.Stair t n c)
    (hp : Spec.Positive n c) (hn : 4 ≤ n) :
    ∃ r b, mackCore 1 t t.a2aind0 = .ok r ∧ baseCL gm t t.a2aind0 "all-weighted" 1 = .ok b ∧
      r.ldfs = b.ldfs ∧ r.cldfs = b.cldfs ∧ r.rows = b.rows ∧ r.totLatest = b.totLatest ∧
      r.totUltimate = b.totUltimate ∧ r.totReserve = b.totReserve ∧ r.sqr = b.sqr := by
  have hW := fun j hj => (mackW_pos (j := j) hp (Spec.Weights.one (K := K) (n := n) (by omega))
    1 hj).ne'
  obtain ⟨r, b, lab, hr, p⟩ := mackCore_stair h hp.ne_zero (h.indW0 hp.ne_zero) hn 1 hW
  obtain ⟨l, h1, h2⟩ := mack_eq_base gm h hp (by omega) (rowIs_weighted gm h hp (by omega)) 1
  refine ⟨r, b, hr, ?_, p.spec.factors.symm, p.cldfs, p.rows, p.totLatest, p.totUltimate,
    p.totReserve, p.sqr⟩
  obtain ⟨lab', h1', _, h3'⟩ := mackLdfs_stair h hp.ne_zero (h.indW0 hp.ne_zero) (by omega) 1 hW 1
  have hl : l = r.ldfs := by
    rw [h1] at h3'
    have e := p.tailLab
    rw [h1'] at e
    injection e with e
    subst e
    rw [p.factors]
    injection h3'
  unfold baseCL
  rw [show (1 : Num K) = .fin 1 from rfl, h2, hl]
  exact p.base

example : (mackCore 1 exTri exTri.a2aind0).toOption.map (fun r => r.rows.map SummRow.ultimate) =
    (baseCL (fun _ => .nan) exTri exTri.a2aind0 "all-weighted" 1).toOption.map
      (fun r => r.rows.map SummRow.ultimate) := by
  decide +kernel

end

end Trikit
