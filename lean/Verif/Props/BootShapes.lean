import Verif.BootShapes
import Verif.BootSim
import Verif.Props.Shapes
import Mathlib.Tactic.Positivity
import Mathlib.Algebra.Order.BigOperators.Group.Finset

/-!
# C129, C130: simulations of `boot_cl` on triangles that are not square staircases

C129: `_bs_ldfs` (bootstrap.py:517-545) divides the sum of a simulated column by the sum of the previous
column without its last origin, taken from the previous row of the table.  These are the same origins,
and the same simulation, exactly on square staircases.

C130: `_bs_forecasts` (bootstrap.py:548-611) shifts the cumulated factors over the whole table, which is
harmless only when no factor is stored for the last period.
-/

set_option linter.unusedSectionVars false

namespace Trikit

section
variable {K : Type} [Field K] [LinearOrder K] [IsStrictOrderedRing K]

/-- The volume weighted development factor of simulation `s` from period `j` to `j + 1`: both sums over
the `k` origins that are observed in period `j + 1`. -/
def Spec.weightedStep (x : ℕ → ℕ → ℕ → K) (k s j : ℕ) : K :=
  (∑ i ∈ Finset.range k, x s i (j + 1)) / ∑ i ∈ Finset.range k, x s i j

/-- The table of simulated factors as it should be: per simulation one factor for every period but the
last. -/
def Spec.FactorTable (t : Tri K) (n m : ℕ) (len : ℕ → ℕ) (S : ℕ) (x : ℕ → ℕ → ℕ → K) :
    List (LdfRow K) :=
  (List.range S).flatMap (fun s => (List.range (m - 1)).map (fun j =>
    ⟨s, t.dAt j, .fin (Spec.weightedStep x ((Finset.range n).filter (fun i => j + 1 < len i)).card s j)⟩))

theorem Spec.card_eq_hgt (n : ℕ) (len : ℕ → ℕ) (j : ℕ) :
    ((Finset.range n).filter (fun i => j < len i)).card = Spec.hgt n len j := by
  unfold Spec.hgt
  rw [Nat.count_eq_card_filter_range]

theorem sum_range_lt {f : ℕ → K} {a b k : ℕ} (hf : ∀ i < k, 0 < f i) (hab : a < b) (hb : b ≤ k) :
    ∑ i ∈ Finset.range a, f i < ∑ i ∈ Finset.range b, f i := by
  apply Finset.sum_lt_sum_of_subset (i := a)
  · intro i hi; rw [Finset.mem_range] at hi ⊢; omega
  · rw [Finset.mem_range]; exact hab
  · rw [Finset.mem_range]; omega
  · exact hf a (by omega)
  · intro i hi _; rw [Finset.mem_range] at hi; exact (hf i (by omega)).le

theorem sum_range_inj {f : ℕ → K} {a b k : ℕ} (hf : ∀ i < k, 0 < f i) (ha : a ≤ k) (hb : b ≤ k)
    (e : ∑ i ∈ Finset.range a, f i = ∑ i ∈ Finset.range b, f i) : a = b := by
  rcases lt_trichotomy a b with h | h | h
  · exact absurd e (ne_of_lt (sum_range_lt hf h hb))
  · exact h
  · exact absurd e (ne_of_gt (sum_range_lt hf h ha))

variable {t u : Tri K} {n m S : ℕ} {len : ℕ → ℕ} {c v : ℕ → ℕ → K}

/-- The factors of a table of positive simulated values are the volume weighted factors of each
simulation exactly on square staircases. -/
theorem bsLdfs_right_iff (ht : Spec.Young t n m len c) {samples : List (SampRow K)}
    {row : ℕ → ℕ → ℕ → SampRow K} {x : ℕ → ℕ → ℕ → K} (hx : YTab t n m len S samples row x)
    (hpos : ∀ s < S, ∀ i < n, ∀ j < len i, 0 < x s i j) (hS : 2 ≤ S) (hm : 2 ≤ m) :
    bsLdfs t S samples = Spec.FactorTable t n m len S x ↔ n = m ∧ ∀ i < n, len i = n - i := by
  have hcol : ∀ s < S, ∀ j, ∀ i < Spec.hgt n len j, 0 < x s i j := by
    intro s hs j i hi
    have hle := Spec.hgt_le n len j
    exact hpos s hs i (by omega) j ((ht.lt_hgt j (by omega)).1 hi)
  have hmono : ∀ j, Spec.hgt n len (j + 1) ≤ Spec.hgt n len j := by
    intro j
    by_contra hcon
    have hle := Spec.hgt_le n len (j + 1)
    have h1 : j + 1 < len (Spec.hgt n len j) := (ht.lt_hgt (j + 1) (by omega)).1 (by omega)
    have := (ht.lt_hgt j (show Spec.hgt n len j < n by omega)).2 (by omega)
    omega
  rw [bsLdfs_young ht hx]
  unfold Spec.FactorTable
  simp only [Spec.card_eq_hgt]
  constructor
  · intro e
    -- rows of simulation 1
    have hmem := fun r : LdfRow K => (congrArg (fun l => r ∈ l) e).to_iff
    beta_reduce at hmem
    have hstep : ∀ j < m - 1, Spec.hgt n len j - 1 = Spec.hgt n len (j + 1) := by
      intro j hj
      have hr := (hmem ⟨1, t.dAt j, .fin (Spec.weightedStep x (Spec.hgt n len (j + 1)) 1 j)⟩).2
        (List.mem_flatMap.2 ⟨1, List.mem_range.2 (by omega), List.mem_map.2
          ⟨j, List.mem_range.2 hj, rfl⟩⟩)
      obtain ⟨s, hs, hr⟩ := List.mem_flatMap.1 hr
      rw [List.mem_range] at hs
      rcases List.mem_append.1 hr with hr | hr
      · exfalso
        split at hr
        · simp at hr
        · unfold ldfRowOf at hr
          simp only [Option.mem_toList, Option.mem_def, Option.map_eq_some_iff] at hr
          obtain ⟨f, -, hr⟩ := hr
          have := congrArg LdfRow.dev hr
          simp only at this
          have := ht.dAt_inj (by omega) (by omega) this
          omega
      · rw [List.mem_filterMap] at hr
        obtain ⟨k, hk, hr⟩ := hr
        rw [List.mem_range] at hk
        unfold ldfRowOf at hr
        rw [Option.map_eq_some_iff] at hr
        obtain ⟨f, hf, hr⟩ := hr
        have e1 := congrArg LdfRow.sim hr
        have e2 := congrArg LdfRow.dev hr
        have e3 := congrArg LdfRow.ldf hr
        simp only at e1 e2 e3
        have hkj := ht.dAt_inj (by omega) (by omega) e2
        subst hkj
        subst e1
        unfold Spec.quot at hf
        split at hf
        · cases hf
        · rename_i hne
          injection hf with hf
          injection e3 with e3
          rw [← hf] at e3
          have hp0 : 0 < Spec.hgt n len (k + 1) := ht.hgt_pos (by omega)
          have hnum : 0 < ∑ i ∈ Finset.range (Spec.hgt n len (k + 1)), x 1 i (k + 1) :=
            Finset.sum_pos (fun i hi => hcol 1 hs _ i (Finset.mem_range.1 hi))
              (Finset.nonempty_range_iff.2 (by omega))
          have hmk := hmono k
          have hden : 0 < ∑ i ∈ Finset.range (Spec.hgt n len (k + 1)), x 1 i k :=
            Finset.sum_pos (fun i hi => hcol 1 hs _ i (by
              have := Finset.mem_range.1 hi; omega)) (Finset.nonempty_range_iff.2 (by omega))
          unfold Spec.simSum at e3 hne
          unfold Spec.weightedStep at e3
          rw [div_eq_div_iff hne hden.ne'] at e3
          have e4 := mul_left_cancel₀ hnum.ne' e3
          exact (sum_range_inj (hcol 1 hs k) hmk (by omega) e4).symm
    have hlast : Spec.hgt n len (m - 1) = 1 := by
      have hp := ht.hgt_pos (show m - 1 < m by omega)
      by_contra hne
      have hd : 0 < Spec.simSum x 0 (m - 1) (Spec.hgt n len (m - 1) - 1) :=
        Finset.sum_pos (fun i hi => hcol 0 (by omega) _ i (by
          have := Finset.mem_range.1 hi; omega)) (Finset.nonempty_range_iff.2 (by omega))
      have hr := (hmem ⟨1, t.dAt (m - 1), .fin (Spec.simSum x 1 0 (Spec.hgt n len 0) /
        Spec.simSum x 0 (m - 1) (Spec.hgt n len (m - 1) - 1))⟩).1 (by
          rw [List.mem_flatMap]
          refine ⟨1, List.mem_range.2 (by omega), List.mem_append.2 (Or.inl ?_)⟩
          rw [if_neg (by norm_num)]
          unfold ldfRowOf Spec.quot
          rw [Nat.sub_self, if_neg hd.ne']
          simp)
      obtain ⟨s, hs, hr⟩ := List.mem_flatMap.1 hr
      obtain ⟨j, hj, hr⟩ := List.mem_map.1 hr
      rw [List.mem_range] at hj
      have e2 := congrArg LdfRow.dev hr
      simp only at e2
      have := ht.dAt_inj (by omega) (by omega) e2
      omega
    have hh : ∀ d < m, Spec.hgt n len (m - 1 - d) = d + 1 := by
      intro d
      induction d with
      | zero => intro _; simpa using hlast
      | succ d ih =>
        intro hd
        have h1 := ih (by omega)
        have h2 := hstep (m - 1 - (d + 1)) (by omega)
        rw [show m - 1 - (d + 1) + 1 = m - 1 - d by omega, h1] at h2
        omega
    have hn0 : Spec.hgt n len 0 = n := by
      have hle := Spec.hgt_le n len 0
      by_contra hne
      have := (ht.lt_hgt 0 (show n - 1 < n by have := ht.ne; omega)).2
        (by have := ht.one (n - 1) (by have := ht.ne; omega); omega)
      omega
    have hnm : n = m := by
      have := hh (m - 1) (by omega)
      rw [Nat.sub_self, hn0] at this
      omega
    subst hnm
    refine ⟨rfl, fun i hi => ?_⟩
    have h1 := ht.one i hi
    have h2 := ht.len_le hi
    have hj : ∀ j < n, Spec.hgt n len j = n - j := by
      intro j hj
      have := hh (n - 1 - j) (by omega)
      rw [show n - 1 - (n - 1 - j) = j by omega] at this
      omega
    apply le_antisymm
    · have := (ht.lt_hgt (len i - 1) hi).2 (by omega)
      rw [hj _ (by omega)] at this
      omega
    · by_contra hcon
      have := (ht.lt_hgt (len i) hi).1 (by rw [hj _ (by omega)]; omega)
      omega
  · rintro ⟨rfl, hlen⟩
    have hj : ∀ j < n, Spec.hgt n len j = n - j := by
      intro j hj
      apply le_antisymm
      · by_contra hcon
        have hle := Spec.hgt_le n len j
        have := (ht.lt_hgt j (show n - j < n by omega)).1 (by omega)
        rw [hlen _ (by omega)] at this
        omega
      · by_contra hcon
        have := (ht.lt_hgt j (show n - j - 1 < n by omega)).2 (by rw [hlen _ (by omega)]; omega)
        omega
    apply flatMap_congr_mem
    intro s hs
    rw [List.mem_range] at hs
    have h0 : (if s = 0 then [] else (ldfRowOf s (t.dAt (n - 1))
        (Spec.quot (Spec.simSum x s 0 (Spec.hgt n len 0))
        (Spec.simSum x (s - 1) (n - 1) (Spec.hgt n len (n - 1) - 1)))).toList) = [] := by
      split
      · rfl
      · rw [hj (n - 1) (by omega), show n - (n - 1) - 1 = 0 by omega]
        unfold Spec.simSum Spec.quot
        simp [ldfRowOf]
    rw [h0, List.nil_append]
    refine Eq.trans (List.filterMap_congr (g := fun j => some (⟨s, t.dAt j,
      .fin (Spec.weightedStep x (Spec.hgt n len (j + 1)) s j)⟩ : LdfRow K)) ?_)
      (congrFun List.filterMap_eq_map' _)
    intro j hjm
    rw [List.mem_range] at hjm
    have e : Spec.hgt n len j - 1 = Spec.hgt n len (j + 1) := by
      rw [hj j (by omega), hj (j + 1) (by omega)]; omega
    have hp0 : 0 < Spec.hgt n len (j + 1) := ht.hgt_pos (by omega)
    have hmk := hmono j
    have hden : 0 < ∑ i ∈ Finset.range (Spec.hgt n len (j + 1)), x s i j :=
      Finset.sum_pos (fun i hi => hcol s hs _ i (by
        have := Finset.mem_range.1 hi; omega)) (Finset.nonempty_range_iff.2 (by omega))
    unfold ldfRowOf Spec.quot Spec.simSum
    rw [e, if_neg hden.ne']
    rfl

/-- **C129 (partial).**  Full claim: on every triangle the factors simulated by `boot_cl` are, per
simulation, the volume weighted development factors of that simulation: the amounts of the origins
observed in the next period over the amounts of the same origins.  Here `t` is the triangle and `u` its
fitted increments, of any shape `len`; the simulated amounts are positive and there are at least two
simulations.  The claim holds exactly when the triangle is a square staircase.
Missing: all other triangles (`C129_fails`). -/
theorem C129_partial (ht : Spec.Young t n m len c) (hu : Spec.Young u n m len v)
    (ho : u.origins = t.origins) (hd : u.devs = t.devs) {sq : Num K → Num K} {rt : ℕ → ℕ → K}
    (hsq : ∀ i < n, ∀ j < len i, sq (.fin (Spec.startIncr v i j)) = .fin (rt i j))
    {draw : ℕ → Num K} {z : ℕ → K} (hz : ∀ p < S * (n * m), draw p = .fin (z p))
    (hpos : ∀ s < S, ∀ i < n, ∀ j < len i, 0 < Spec.simCumY n m (Spec.startIncr v) rt z s i j)
    (hS : 2 ≤ S) (hm : 2 ≤ m) :
    bsLdfs t S (bsSamples sq u S draw) =
        Spec.FactorTable t n m len S (Spec.simCumY n m (Spec.startIncr v) rt z) ↔
      n = m ∧ ∀ i < n, len i = n - i := by
  obtain ⟨row, hx⟩ := bsSamples_young (S := S) hu ho hd hsq hz
  exact bsLdfs_right_iff ht hx hpos hS hm

end

/-- The simulated factors of two simulations with all residuals zero, beside the fitted factors. -/
def zeroRun (t : Tri ℚ) : Except PyErr (List (Int × Num ℚ) × List (ℕ × Int × Num ℚ)) :=
  (bootFit (fun x => x) (fun _ => .nan) t t.a2aind0).map (fun f =>
    (f.ldfs, (bsLdfs t 2 (bsSamples (fun x => x) f.fitIncr 2 (fun _ => 0))).map
      (fun r => (r.sim, r.dev, r.ldf))))

/-- On a square staircase every simulation without residuals has the fitted factors. -/
example : zeroRun exTri = .ok
    ([(1, .fin (247 / 165)), (2, .fin (200 / 163)), (3, .fin (11 / 10)), (4, .fin 1)],
      [(0, 1, .fin (247 / 165)), (0, 2, .fin (200 / 163)), (0, 3, .fin (11 / 10)),
       (1, 1, .fin (247 / 165)), (1, 2, .fin (200 / 163)), (1, 3, .fin (11 / 10))]) := by
  decide +kernel

/-- The 4 x 4 example without the third period of the second origin. -/
def lateTri : Tri ℚ := youngTri 4 4 lateLen exVals

/-- C129 is violated.  (1) When one origin has not reported its latest amount, a simulation without
residuals, which repeats the fitted triangle, has the factor 90/163 instead of the fitted 6/5 and no
factor at all for period 3.  (2) With four origins and three periods the second simulation has a factor
for the last period, made of amounts of both simulations. -/
theorem C129_fails :
    zeroRun lateTri = .ok
      ([(1, .fin (247 / 165)), (2, .fin (6 / 5)), (3, .fin (11 / 10)), (4, .fin 1)],
        [(0, 1, .fin (247 / 165)), (0, 2, .fin (90 / 163)), (1, 1, .fin (247 / 165)),
         (1, 2, .fin (90 / 163))]) ∧
    zeroRun trapTri = .ok
      ([(1, .fin (247 / 165)), (2, .fin (115 / 106)), (3, .fin 1)],
        [(0, 1, .fin (247 / 165)), (0, 2, .fin (115 / 106)), (1, 3, .fin (92 / 33)),
         (1, 1, .fin (247 / 165)), (1, 2, .fin (115 / 106))]) := by
  constructor <;> decide +kernel

/-! ## C130 -/

/-- The observed cells (simulation, origin, period) with their sampled amounts, and with the amounts they
have after the triangle is completed; residuals zero, two simulations. -/
def keptRun (t : Tri ℚ) : Except PyErr (List (ℕ × Int × Int × Num ℚ) × List (ℕ × Int × Int × Num ℚ)) :=
  (bootFit (fun x => x) (fun _ => .nan) t t.a2aind0).map (fun f =>
    let s := bsSamples (fun x => x) f.fitIncr 2 (fun _ => 0)
    let fc := bsForecasts t s (bsLdfs t 2 s)
    (((s.filter (fun r => !r.fcst)).map (fun r => (r.sim, r.origin, r.dev, r.sampCum))),
      ((fc.filter (fun r => !r.fcst)).map (fun r => (r.sim, r.origin, r.dev, r.sampCum)))))

/-- C130 is violated on a triangle with four origins and three periods: in the second simulation the
amount 176 of origin 2003 becomes 2000/3 and the amount 130 of origin 2004 becomes 915070/1749; all
other observed cells are unchanged. -/
theorem C130_fails :
    (keptRun trapTri).map (fun p => ((List.zip p.1 p.2).filter (fun q => decide (q.1 ≠ q.2))).map
        (fun q => (q.1.1, q.1.2.1, q.1.2.2.2, q.2.2.2.2))) =
      .ok [(1, 2003, .fin 176, .fin (2000 / 3)), (1, 2004, .fin 130, .fin (915070 / 1749))] ∧
    (keptRun trapTri).map (fun p => (p.1.map (fun q => (q.1, q.2.1, q.2.2.1)),
      p.1.map (fun q => (q.1, q.2.1, q.2.2.1)) == p.2.map (fun q => (q.1, q.2.1, q.2.2.1)))) =
      .ok ((List.range 2).flatMap (fun s => [(s, 2001, 1), (s, 2001, 2), (s, 2001, 3), (s, 2002, 1),
        (s, 2002, 2), (s, 2002, 3), (s, 2003, 1), (s, 2003, 2), (s, 2004, 1)]), true) := by
  constructor <;> decide +kernel

section
variable {K : Type} [Field K] [LinearOrder K] [IsStrictOrderedRing K]

/-- **C130 (partial).**  Full claim: completing a simulated triangle leaves the sampled amounts of the
observed cells as they are.  On square staircases every cell that is not a forecast has, in every
simulation, the same amount in the completed table as in the table of samples.
Missing: other shapes (`C130_fails`). -/
theorem C130_partial {t u : Tri K} {n S : ℕ} {c v : ℕ → ℕ → K} (ht : Spec.Stair t n c) (hn : 0 < n)
    (hS : 0 < S) (hu : Spec.Stair u n v) (ho : u.origins = t.origins) (hd : u.devs = t.devs)
    {sq : Num K → Num K} {rt : ℕ → ℕ → K}
    (hsq : ∀ i j, i + j < n → sq (.fin (Spec.startIncr v i j)) = .fin (rt i j))
    {draw : ℕ → Num K} (hz : ∀ p < S * (n * n), (draw p).isFin = true) :
    let s := bsSamples sq u S draw
    let fc := bsForecasts t s (bsLdfs t S s)
    (fc.filter (fun r => !r.fcst)).map (fun r => (r.sim, r.origin, r.dev, r.sampCum)) =
      (s.filter (fun r => !r.fcst)).map (fun r => (r.sim, r.origin, r.dev, r.sampCum)) ∧
    fc.map (fun r => (r.sim, r.origin, r.dev, r.fcst)) = s.map (fun r => (r.sim, r.origin, r.dev, r.fcst)) := by
  obtain ⟨row, htab, -⟩ := bsSamples_tab (S := S) hu ho hd hsq (draw := draw) (z := finD draw)
    (fun p hp => finD_eq (hz p hp))
  intro s fc
  have hf : fc = _ := bsForecasts_stair ht hn hS htab
  have hs : s = _ := htab.eq
  rw [hf, hs]
  have hcell : ∀ a < S, ∀ i < n, ∀ j < n,
      (sqrdRowAt t n (Spec.simCum n (Spec.startIncr v) rt (finD draw)) a i j).fcst = (row a i j).fcst := by
    intro a ha i hi j hj
    rw [htab.fcst a i j hi hj]; rfl
  constructor
  · simp only [List.filter_flatMap, List.map_flatMap]
    apply flatMap_congr_mem
    intro a ha
    apply flatMap_congr_mem
    intro i hi
    rw [List.mem_range] at ha hi
    rw [List.filter_map, List.filter_map, List.map_map, List.map_map]
    have hfil : (List.range n).filter ((fun r : SqrdRow K => !r.fcst) ∘ fun j =>
        sqrdRowAt t n (Spec.simCum n (Spec.startIncr v) rt (finD draw)) a i j) =
        (List.range n).filter ((fun r : SampRow K => !r.fcst) ∘ fun j => row a i j) := by
      apply List.filter_congr
      intro j hj
      rw [List.mem_range] at hj
      simp only [Function.comp]
      rw [hcell a ha i hi j hj]
    rw [hfil]
    apply List.map_congr_left
    intro j hj
    rw [List.mem_filter, List.mem_range] at hj
    obtain ⟨hj, hb⟩ := hj
    simp only [Function.comp] at hb ⊢
    rw [htab.fcst a i j hi hj] at hb
    have hij : i + j < n := by simpa using hb
    rw [htab.sim, htab.origin, htab.dev, htab.obs a i j ha hij]
    unfold sqrdRowAt Spec.simFull
    rw [if_pos hij]
  · simp only [List.map_flatMap, List.map_map]
    apply flatMap_congr_mem
    intro a ha
    apply flatMap_congr_mem
    intro i hi
    apply List.map_congr_left
    intro j hj
    rw [List.mem_range] at ha hi hj
    simp only [Function.comp]
    rw [hcell a ha i hi j hj, htab.sim, htab.origin, htab.dev]
    rfl

end

end Trikit
