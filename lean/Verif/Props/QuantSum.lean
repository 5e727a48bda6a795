import Verif.Props.BootKeys
import Verif.Props.QuantStable
import Verif.Props.Divers
import Verif.Props.MackSpread

/-!
# Quantiles of the total beside the quantiles of the origins (C217)

Reserves are set by origin and for the whole portfolio.  Above the median the quantile of the total should not be
larger than the sum of the quantiles of the origins, since the origins do not have their bad outcomes together.
For the normal distribution of Mack chain ladder this is a question of the standard errors alone, and with
`alpha = 1` it holds.  For the bootstrap it holds at the level 1, with equality at every level when the reserves of
the origins always move in the same direction, and fails otherwise.
-/

set_option linter.unusedSectionVars false

namespace Trikit

section
variable {K : Type} [Field K] [LinearOrder K] [IsStrictOrderedRing K] [FloorRing K]

/-- Percentile of the values `f 0, ..., f (S - 1)`. -/
def Spec.pct (m : Interp) (S : ℕ) (f : ℕ → K) (q : K) : K :=
  Spec.interp (fun k => (((List.range S).map f).insertionSort (· ≤ ·)).getD k 0) S (Spec.pos m S q)

/-- In any two simulations no origin is higher where another one is lower. -/
def Spec.Together (S n : ℕ) (R : ℕ → ℕ → K) : Prop :=
  ∀ i < n, ∀ k < n, ∀ s < S, ∀ s' < S, R s i < R s' i → R s k ≤ R s' k

theorem sort_unique {l l' : List K} (h : l.Perm l') (hs : l'.Pairwise (· ≤ ·)) : l.insertionSort (· ≤ ·) = l' :=
  List.Perm.eq_of_pairwise (le := (· ≤ ·)) (fun _ _ _ _ => le_antisymm) (List.pairwise_insertionSort _ _) hs
    ((List.perm_insertionSort _ _).trans h)

theorem percentile_pct (m : Interp) {S : ℕ} (hS : 0 < S) {f : ℕ → K} {l : List (Num K)}
    (hl : l.Perm ((List.range S).map (fun s => Num.fin (f s)))) {q : K} (h0 : 0 ≤ q) (h1 : q ≤ 1) :
    percentile m l q = .fin (Spec.pct m S f q) := by
  have hfs : ∃ fs : List K, l = fs.map Num.fin := by
    have hall : ∀ v ∈ l, ∃ x : K, v = .fin x := by
      intro v hv
      obtain ⟨s, -, rfl⟩ := List.mem_map.1 (hl.mem_iff.1 hv)
      exact ⟨_, rfl⟩
    clear hl
    induction l with
    | nil => exact ⟨[], rfl⟩
    | cons v l ih =>
      obtain ⟨x, rfl⟩ := hall v (by simp)
      obtain ⟨fs, rfl⟩ := ih (fun v hv => hall v (by simp [hv]))
      exact ⟨x :: fs, rfl⟩
  obtain ⟨fs, rfl⟩ := hfs
  have hp : fs.Perm ((List.range S).map f) := by
    have := hl.filterMap Num.toFin
    rw [List.filterMap_map, List.filterMap_map] at this
    have e1 : (fs.filterMap (Num.toFin ∘ Num.fin)) = fs := by
      rw [show (Num.toFin ∘ Num.fin : K → Option K) = some from rfl, List.filterMap_some]
    have e2 : (List.range S).filterMap (Num.toFin ∘ fun s => Num.fin (f s)) = (List.range S).map f := by
      rw [show (Num.toFin ∘ fun s => Num.fin (f s)) = some ∘ f from rfl, List.filterMap_eq_map]
    rwa [e1, e2] at this
  have hlen : fs.length = S := by rw [hp.length_eq]; simp
  have hne : fs ≠ [] := List.length_pos_iff.1 (by omega)
  rw [percentile_eq m hne h0 h1, hlen, sort_unique (hp.trans (List.perm_insertionSort (· ≤ ·) _).symm)
    (List.pairwise_insertionSort _ _)]
  rfl

/-- At the levels 1 and 0 the percentile is the largest and the smallest value. -/
theorem pct_ends (m : Interp) {S : ℕ} (hS : 0 < S) (f : ℕ → K) :
    (∃ s < S, Spec.pct m S f 1 = f s) ∧ (∃ s < S, Spec.pct m S f 0 = f s) ∧
      ∀ s < S, Spec.pct m S f 0 ≤ f s ∧ f s ≤ Spec.pct m S f 1 := by
  have hne : (List.range S).map (fun s => Num.fin (f s)) ≠ [] := by
    rw [← List.length_pos_iff]; simpa using hS
  obtain ⟨P, lo, hi, hlo, hhi, hb, hP, e0, e1, -⟩ := C63_percentile m hne (by
    intro v hv
    obtain ⟨s, -, rfl⟩ := List.mem_map.1 hv
    rfl)
  have e : ∀ q, 0 ≤ q → q ≤ 1 → P q = Spec.pct m S f q := by
    intro q h0 h1
    have := (hP q h0 h1).1
    rw [percentile_pct m hS (List.Perm.refl _) h0 h1] at this
    exact (Num.fin.inj this).symm
  rw [← e 0 le_rfl zero_le_one, ← e 1 zero_le_one le_rfl, e0, e1]
  have hmem : ∀ x, Num.fin x ∈ (List.range S).map (fun s => Num.fin (f s)) → ∃ s < S, x = f s := by
    intro x hx
    obtain ⟨s, hs, h⟩ := List.mem_map.1 hx
    exact ⟨s, List.mem_range.1 hs, (Num.fin.inj h).symm⟩
  exact ⟨hmem _ hhi, hmem _ hlo, fun s hs => hb _ (List.mem_map.2 ⟨s, List.mem_range.2 hs, rfl⟩)⟩

theorem interp_sum {n S : ℕ} (f : ℕ → ℕ → K) (v : K) :
    Spec.interp (fun k => ∑ i ∈ Finset.range n, f i k) S v = ∑ i ∈ Finset.range n, Spec.interp (f i) S v := by
  unfold Spec.interp
  split
  · rfl
  · rw [← Finset.sum_sub_distrib, Finset.sum_mul, ← Finset.sum_add_distrib]

/-- Values that always move in the same direction have percentiles that add up. -/
theorem pct_together (m : Interp) {S n : ℕ} {R : ℕ → ℕ → K} (h : Spec.Together S n R) (q : K) :
    Spec.pct m S (fun s => ∑ i ∈ Finset.range n, R s i) q =
      ∑ i ∈ Finset.range n, Spec.pct m S (fun s => R s i) q := by
  obtain ⟨L, hL, hsort⟩ : ∃ L : List ℕ, L.Perm (List.range S) ∧
      L.Pairwise (fun a b => ∑ i ∈ Finset.range n, R a i ≤ ∑ i ∈ Finset.range n, R b i) := by
    refine ⟨(List.range S).insertionSort
      (fun a b => ∑ i ∈ Finset.range n, R a i ≤ ∑ i ∈ Finset.range n, R b i), List.perm_insertionSort _ _, ?_⟩
    haveI : Std.Total (fun a b : ℕ => ∑ i ∈ Finset.range n, R a i ≤ ∑ i ∈ Finset.range n, R b i) :=
      ⟨fun a b => le_total _ _⟩
    haveI : IsTrans ℕ (fun a b : ℕ => ∑ i ∈ Finset.range n, R a i ≤ ∑ i ∈ Finset.range n, R b i) :=
      ⟨fun a b c => le_trans⟩
    exact List.pairwise_insertionSort _ _
  have hmem : ∀ s ∈ L, s < S := fun s hs => List.mem_range.1 (hL.mem_iff.1 hs)
  have hrow : ∀ i < n, ((List.range S).map (fun s => R s i)).insertionSort (· ≤ ·) = L.map (fun s => R s i) := by
    intro i hi
    refine sort_unique (hL.symm.map _) ?_
    rw [List.pairwise_map]
    refine hsort.imp_of_mem ?_
    intro a b ha hb hab
    by_contra hlt
    rw [not_le] at hlt
    have : ∑ i ∈ Finset.range n, R b i < ∑ i ∈ Finset.range n, R a i :=
      Finset.sum_lt_sum (fun k hk => h i hi k (Finset.mem_range.1 hk) b (hmem b hb) a (hmem a ha) hlt)
        ⟨i, Finset.mem_range.2 hi, hlt⟩
    exact absurd hab (not_le.2 this)
  have htot : ((List.range S).map (fun s => ∑ i ∈ Finset.range n, R s i)).insertionSort (· ≤ ·) =
      L.map (fun s => ∑ i ∈ Finset.range n, R s i) :=
    sort_unique (hL.symm.map _) (List.pairwise_map.2 hsort)
  unfold Spec.pct
  rw [htot, show (fun k => (L.map (fun s => ∑ i ∈ Finset.range n, R s i)).getD k 0) =
    fun k => ∑ i ∈ Finset.range n, (L.map (fun s => R s i)).getD k 0 from ?_, interp_sum]
  · exact Finset.sum_congr rfl (fun i hi => by rw [hrow i (Finset.mem_range.1 hi)])
  · funext k
    simp only [List.getD_eq_getElem?_getD, List.getElem?_map]
    cases L[k]? <;> simp

theorem column_pct {t : Tri K} {res : List (ResRow K)} (me : Interp) {S : ℕ} (hS : 0 < S) {R : ℕ → ℕ → K}
    (h3 : ∀ i < t.nr, ((res.filter (fun q => decide (q.origin = t.oAt i))).map ResRow.reserve).Perm
        ((List.range S).map (fun s => .fin (R s i))))
    (h4 : bootTotals S res = (List.range S).map (fun s => .fin (∑ i ∈ Finset.range t.nr, R s i))) {q : K}
    (hq0 : 0 ≤ q) (hq1 : q ≤ 1) :
    quantileColumn me none (reserveRows t S res) q =
      (List.range t.nr).map (fun i => .fin (Spec.pct me S (fun s => R s i) q)) ++
        [.fin (Spec.pct me S (fun s => ∑ i ∈ Finset.range t.nr, R s i) q)] := by
  have hrows : reserveRows t S res = (List.range t.nr).map (fun i =>
      (res.filter (fun r => decide (r.origin = t.oAt i))).map ResRow.reserve) ++ [bootTotals S res] := by
    unfold reserveRows
    conv_lhs => rw [← origins_map t, List.map_map]
    rfl
  rw [hrows, h4]
  unfold quantileColumn
  rw [List.map_append, List.map_map, List.map_singleton, percentile_pct me hS (List.Perm.refl _) hq0 hq1]
  congr 1
  refine List.map_congr_left (fun i hi => ?_)
  show percentile me _ q = _
  exact percentile_pct me hS (h3 i (List.mem_range.1 hi)) hq0 hq1

/-- **C217** for the bootstrap, what holds (any triangle with distinct labels, any draws, every interpolation
method): the largest simulated total is at most the sum of the largest reserves of the origins, the smallest at least
the sum of the smallest ones, and when the origins always move in the same direction the quantiles add up at every
level.  The full statement would have the inequality at all levels from one half on. -/
theorem C217_boot_partial {t m : Tri K} (sq : Num K → Num K) (ho : m.origins = t.origins) (hd : m.devs = t.devs)
    (hO : t.origins.Nodup) (hD : t.devs.Pairwise (· < ·)) (h0 : t.devs ≠ []) (scale : Num K) {S : ℕ} (hS : 0 < S)
    (draw : ℕ → Num K) (gam : ℕ → Num K → Num K → Num K) (me : Interp) :
    let res := (bootSims sq t m scale S draw gam).reserves
    ∃ R : ℕ → ℕ → K,
      (∀ s < S, ∀ i < t.nr, (res.filter (fun q => decide (q.sim = s) && decide (q.origin = t.oAt i))).map
        ResRow.reserve = [.fin (R s i)]) ∧
      ∀ q, 0 ≤ q → q ≤ 1 → ∃ (Q : ℕ → K) (T : K),
        quantileColumn me none (reserveRows t S res) q = (List.range t.nr).map (fun i => .fin (Q i)) ++ [.fin T] ∧
        (q = 1 → T ≤ ∑ i ∈ Finset.range t.nr, Q i) ∧ (q = 0 → ∑ i ∈ Finset.range t.nr, Q i ≤ T) ∧
        (Spec.Together S t.nr R → T = ∑ i ∈ Finset.range t.nr, Q i) := by
  intro res
  obtain ⟨R, h1, -, h3, h4, -⟩ := C89_totals sq ho hd hO hD h0 scale S draw gam
  refine ⟨R, h1, fun q hq0 hq1 => ⟨fun i => Spec.pct me S (fun s => R s i) q,
    Spec.pct me S (fun s => ∑ i ∈ Finset.range t.nr, R s i) q, ?_, ?_, ?_, fun h => pct_together me h q⟩⟩
  · exact column_pct me hS h3 h4 hq0 hq1
  · rintro rfl
    obtain ⟨⟨s, hs, e⟩, -, -⟩ := pct_ends me hS (fun s => ∑ i ∈ Finset.range t.nr, R s i)
    rw [e]
    exact Finset.sum_le_sum (fun i _ => ((pct_ends me hS (fun s => R s i)).2.2 s hs).2)
  · rintro rfl
    obtain ⟨-, ⟨s, hs, e⟩, -⟩ := pct_ends me hS (fun s => ∑ i ∈ Finset.range t.nr, R s i)
    rw [e]
    exact Finset.sum_le_sum (fun i _ => ((pct_ends me hS (fun s => R s i)).2.2 s hs).1)

end

/-- Three simulations of the 3 x 3 example: one bad outcome of the second origin, another one of the third. -/
def exQuantSum : Except PyErr (List (List (Num ℚ))) :=
  (bootFit exSqrt (fun _ => .nan) exBoot exBoot.a2aind0).map (fun fit => reserveRows exBoot 3
    (bootSims exSqrt exBoot fit.fitIncr fit.scale 3 (fun _ => 0)
      (fun k _ _ => if k = 5 ∨ k = 16 then .fin 300 else .fin 100)).reserves)

/-- **C217 fails** for the bootstrap: at the level .6 the quantile of the total exceeds the sum of the quantiles of
the origins by every interpolation method but `higher`. -/
theorem C217_boot_fails : exQuantSum = .ok [[0, 0, 0], [.fin 300, .fin 100, .fin 100],
      [.fin 200, .fin 400, .fin 200], [.fin 500, .fin 500, .fin 300]] ∧
    exQuantSum.map (fun rows => quantileColumn .linear none rows (3 / 5)) =
      .ok [0, .fin 140, .fin 240, .fin 500] ∧
    (∀ me ∈ [Interp.lower, .nearest], exQuantSum.map (fun rows => quantileColumn me none rows (3 / 5)) =
      .ok [0, .fin 100, .fin 200, .fin 500]) ∧
    exQuantSum.map (fun rows => quantileColumn .midpoint none rows (3 / 5)) =
      .ok [0, .fin 200, .fin 300, .fin 500] := by
  decide +kernel

/-! ### Mack chain ladder -/

section
variable {t ind : Tri ℝ} {n : ℕ} {c w : ℕ → ℕ → ℝ}

/-- Reported reserves and standard errors of a run; those of the total come last. -/
theorem mack_reports (h : Spec.Stair t n c) (hp : Spec.Positive n c) (hi : IndW t ind n w) (hw : Spec.Weights n w)
    (hn : 4 ≤ n) (alpha : ℕ) {dist : String} (hd : dist = "norm" ∨ dist = "lognorm") :
    ∃ (r : MackResult) (R s : ℕ → ℝ) (T : ℝ), mackCall alpha t ind dist = .ok r ∧
      (∀ i < n, Spec.Reports r i (R i) (s i)) ∧ Spec.Reports r n (∑ i ∈ Finset.range n, R i) T ∧
      R 0 = 0 ∧ s 0 = 0 ∧ (∀ i < n, 0 ≤ s i) ∧ 0 ≤ T ∧ ∑ i ∈ Finset.range n, s i ^ 2 ≤ T ^ 2 := by
  obtain ⟨core, b, lab, hr, p⟩ := mack_parts h hp hi hw hn alpha
  obtain ⟨r, s, T, hr1, -, hse, hs0, hT, hT0, hsum⟩ := C46_std_errors h hp hi hw hn alpha hd
  obtain ⟨r', hr2, hcore, -, -, -⟩ := mackCall_ok hr hd
  rw [hr1] at hr2
  obtain rfl := Except.ok.inj hr2
  have hrows : core.rows.length = n := by rw [p.rows, p.spec.rows_length]
  refine ⟨r, fun i => c i (n - 1 - i) * Spec.tailProd (Spec.mackAll alpha n c w) n (n - 1 - i) - c i (n - 1 - i), s,
    T, hr1, ?_, ⟨hT, ?_⟩, ?_, hs0, fun i hi' => (hse i hi').2.1, hT0, hsum⟩
  · intro i hlt
    obtain ⟨row, hrow, -, -, -, -, -, -, hres⟩ := p.spec.rows i hlt
    refine ⟨(hse i hlt).1, ?_⟩
    rw [hcore, List.getElem?_append_left (by simpa [hrows] using hlt), List.getElem?_map, p.rows, hrow]
    show some row.reserve = _
    rw [hres]
  · rw [hcore, List.getElem?_append_right (by simp [hrows])]
    simp only [List.length_map, hrows, Nat.sub_self, List.getElem?_cons_zero]
    rw [p.totReserve, p.spec.totReserve]
  · obtain ⟨k, rfl⟩ : ∃ k, n = k + 1 := ⟨n - 1, by omega⟩
    simp [Spec.tailProd, Spec.mackAll, Spec.withTail]

/-- **C217** for the normal distribution of Mack chain ladder (any exponent, any exclusions): when the origins after
the oldest have positive standard errors, the quantile of the total exceeds the sum of theirs by the standard normal
quantile times the difference of the standard errors.  The oldest origin has no quantile, and no reserve. -/
theorem C217_norm (h : Spec.Stair t n c) (hp : Spec.Positive n c) (hi : IndW t ind n w) (hw : Spec.Weights n w)
    (hn : 4 ≤ n) (alpha : ℕ) :
    ∃ (r : MackResult) (s : ℕ → ℝ) (T : ℝ), mackCall alpha t ind "norm" = .ok r ∧
      (∀ i < n, r.stdErr[i]? = some (.fin (s i))) ∧ r.stdErr[n]? = some (.fin T) ∧
      ((∀ i, 0 < i → i < n → 0 < s i) → ∀ (z : ℝ → Num ℝ) (q x : ℝ), z q = .fin x →
        ∃ (y : ℕ → ℝ) (Y : ℝ), (∀ i, 0 < i → i < n → (r.getQuantile z q)[i]? = some (.fin (y i))) ∧
          (r.getQuantile z q)[0]? = some .nan ∧ (r.getQuantile z q)[n]? = some (.fin Y) ∧
          Y - ∑ i ∈ Finset.Ico 1 n, y i = x * (T - ∑ i ∈ Finset.range n, s i)) := by
  obtain ⟨r, R, s, T, hr, h1, h2, hR0, hs0, hs, hT, hsum⟩ := mack_reports h hp hi hw hn alpha (Or.inl rfl)
  refine ⟨r, s, T, hr, fun i hi' => (h1 i hi').1, h2.1, ?_⟩
  intro hpos z q x hz
  have hTpos : 0 < T := by
    have h3 : s 1 ^ 2 ≤ ∑ i ∈ Finset.range n, s i ^ 2 :=
      Finset.single_le_sum (f := fun i => s i ^ 2) (fun i _ => sq_nonneg _) (Finset.mem_range.2 (by omega))
    have h4 := hpos 1 one_pos (by omega)
    by_contra hc
    have : T = 0 := le_antisymm (not_lt.1 hc) hT
    subst this
    nlinarith
  refine ⟨fun i => R i + s i * x, _, fun i h0 hi' => norm_quantile hr (h1 i hi') (hpos i h0 hi') hz, ?_,
    norm_quantile hr h2 hTpos hz, ?_⟩
  · obtain ⟨v, hv, hq⟩ := reports_rv (Or.inl rfl) hr (h1 0 (by omega))
    rw [hq]
    unfold mackRV at hv
    rw [if_pos rfl] at hv
    obtain rfl := Except.ok.inj hv
    simp [RV.ppf, hs0, Num.zero_def, Num.lt_fin]
  · have e : ∀ g : ℕ → ℝ, g 0 = 0 → ∑ i ∈ Finset.range n, g i = ∑ i ∈ Finset.Ico 1 n, g i := by
      intro g hg
      rw [Finset.range_eq_Ico, Finset.sum_eq_sum_Ico_succ_bot (by omega), hg, zero_add]
    rw [e R hR0, e s hs0, Finset.sum_add_distrib, ← Finset.sum_mul]
    ring

/-- **C217** for the normal distribution with `alpha = 1`: at the levels from one half on (`0 ≤ x`) the quantile of
the total is at most the sum of the quantiles of the origins, and at the levels below at least that sum.  Missing:
other exponents, for which the standard error of the total may exceed the sum of the others (`C109_fails`). -/
theorem C217_norm_partial (h : Spec.Stair t n c) (hp : Spec.Positive n c) (hi : IndW t ind n w)
    (hw : Spec.Weights n w) (hw1 : ∀ i j, i + j + 1 < n → w i j ≤ 1) (hn : 4 ≤ n) :
    ∃ r, mackCall 1 t ind "norm" = .ok r ∧
      ((∀ i, 0 < i → i < n → ∃ s > 0, r.stdErr[i]? = some (.fin s)) → ∀ (z : ℝ → Num ℝ) (q x : ℝ), z q = .fin x →
        ∃ (y : ℕ → ℝ) (Y : ℝ), (∀ i, 0 < i → i < n → (r.getQuantile z q)[i]? = some (.fin (y i))) ∧
          (r.getQuantile z q)[n]? = some (.fin Y) ∧
          (0 ≤ x → Y ≤ ∑ i ∈ Finset.Ico 1 n, y i) ∧ (x ≤ 0 → ∑ i ∈ Finset.Ico 1 n, y i ≤ Y)) := by
  obtain ⟨r, s, T, hr, h1, h2, hq⟩ := C217_norm h hp hi hw hn 1
  obtain ⟨r', s', T', hr', h1', h2', -, hle⟩ := C109_real_partial h hp hi hw hw1 hn (dist := "norm") (Or.inl rfl)
  rw [hr] at hr'
  obtain rfl := Except.ok.inj hr'
  have es : ∀ i < n, s i = s' i := by
    intro i hi'
    have := h1 i hi'
    rw [h1' i hi', Option.some_inj] at this
    exact (Num.fin.inj this).symm
  have eT : T = T' := by
    rw [h2', Option.some_inj] at h2
    exact (Num.fin.inj h2).symm
  have hTs : T ≤ ∑ i ∈ Finset.range n, s i := by
    rw [eT, Finset.sum_congr rfl (fun i hi' => es i (Finset.mem_range.1 hi'))]
    exact hle
  refine ⟨r, hr, ?_⟩
  intro hpos z q x hz
  obtain ⟨y, Y, hy, -, hY, hd⟩ := hq (by
    intro i h0 hi'
    obtain ⟨u, hu, e⟩ := hpos i h0 hi'
    rw [h1 i hi', Option.some_inj] at e
    rw [Num.fin.inj e]; exact hu) z q x hz
  exact ⟨y, Y, hy, hY, fun hx => by nlinarith, fun hx => by nlinarith⟩

/-- **C217 fails** for the lognormal distribution at the median: when the total is relatively less uncertain than
every origin with a reserve, its reported median exceeds the sum of theirs. -/
theorem C217_lognorm_fails {alpha : ℕ} {r : MackResult} (h : mackCall alpha t ind "lognorm" = .ok r) {J : Finset ℕ}
    (hJ : J.Nonempty) {R s : ℕ → ℝ} {k : ℕ} {T : ℝ} (hr : ∀ i ∈ J, Spec.Reports r i (R i) (s i))
    (hk : Spec.Reports r k (∑ i ∈ J, R i) T) (hR : ∀ i ∈ J, 1 ≤ R i) (hT : 0 < T)
    (hcv : ∀ i ∈ J, T / ∑ i ∈ J, R i < s i / R i) {z : ℝ → Num ℝ} {q : ℝ} (hz : z q = .fin 0) :
    ∃ (y : ℕ → ℝ) (Y : ℝ), (∀ i ∈ J, (r.getQuantile z q)[i]? = some (.fin (y i))) ∧
      (r.getQuantile z q)[k]? = some (.fin Y) ∧ ∑ i ∈ J, y i < Y := by
  obtain ⟨i0, hi0⟩ := hJ
  have hsum : 1 ≤ ∑ i ∈ J, R i :=
    le_trans (hR i0 hi0) (Finset.single_le_sum (fun i hi' => le_trans zero_le_one (hR i hi')) hi0)
  have hcT : 0 < T / ∑ i ∈ J, R i := div_pos hT (by linarith)
  have hs : ∀ i ∈ J, 0 < s i := by
    intro i hi'
    have h1 := lt_trans hcT (hcv i hi')
    have h2 := hR i hi'
    by_contra hc
    exact absurd h1 (not_lt.2 (div_nonpos_of_nonpos_of_nonneg (not_lt.1 hc) (by linarith)))
  obtain ⟨Y, hY, -, -, eY⟩ := C212_lognorm_bound h hk hsum hT hz
  have hy : ∀ i ∈ J, (r.getQuantile z q)[i]? = some (.fin (R i / √(1 + (s i / R i) ^ 2))) := by
    intro i hi'
    obtain ⟨y, h1, -, -, e⟩ := C212_lognorm_bound h (hr i hi') (hR i hi') (hs i hi') hz
    rw [h1, e rfl]
  refine ⟨_, Y, hy, hY, ?_⟩
  rw [eY rfl, Finset.sum_div]
  refine Finset.sum_lt_sum_of_nonempty ⟨i0, hi0⟩ (fun i hi' => ?_)
  have h1 := hcv i hi'
  have h2 := hR i hi'
  apply div_lt_div_of_pos_left (by linarith) (Real.sqrt_pos.2 (by positivity))
  apply Real.sqrt_lt_sqrt (by positivity)
  have : (T / ∑ i ∈ J, R i) ^ 2 < (s i / R i) ^ 2 := by gcongr
  linarith

end

/-! ### concrete cases -/

/-- The 4 x 4 example meets the conditions of `C217_lognorm_fails`: reserves of at least 1 whose relative squared
errors, above .036, .022 and .026, exceed that of the total, below .015. -/
example : (mackCore 1 (stairTri (K := ℚ) 4 exVals) (stairTri (K := ℚ) 4 exVals).a2aind0).toOption.map
      (fun r => (r.mse, r.totMse, r.rows.map SummRow.reserve, r.totReserve)) =
    some ([0, .fin (175692000 / 10069651), .fin (3206726383014 / 41033827825),
        .fin (1403795757769301 / 2954435603400)], .fin (65321634604604611 / 96314600670840),
      [0, .fin 22, .fin (9576 / 163), .fin (64870 / 489)], .fin (104356 / 489)) ∧
    (36 / 1000 * 22 ^ 2 : ℚ) < 175692000 / 10069651 ∧
    (22 / 1000 * (9576 / 163) ^ 2 : ℚ) < 3206726383014 / 41033827825 ∧
    (26 / 1000 * (64870 / 489) ^ 2 : ℚ) < 1403795757769301 / 2954435603400 ∧
    (65321634604604611 / 96314600670840 : ℚ) < 15 / 1000 * (104356 / 489) ^ 2 := by
  decide +kernel

/-- Three simulations in which the two younger origins move together: their quantiles add up to that of the total. -/
example : ((bootFit exSqrt (fun _ => .nan) exBoot exBoot.a2aind0).map (fun fit => reserveRows exBoot 3
      (bootSims exSqrt exBoot fit.fitIncr fit.scale 3 (fun _ => 0) (fun k _ _ => .fin (40 - k))).reserves)).map
      (fun rows => (rows, quantileColumn .linear none rows (3 / 5))) =
    .ok ([[0, 0, 0], [.fin 35, .fin 26, .fin 17], [.fin 65, .fin 47, .fin 29], [.fin 100, .fin 73, .fin 46]],
      [0, .fin (139 / 5), .fin (253 / 5), .fin (392 / 5)]) ∧ (139 / 5 + 253 / 5 : ℚ) = 392 / 5 := by
  decide +kernel

/-- The volatile triangle of `C212` with `alpha = 1`: the standard errors of the younger origins are at least 203, 166
and 362, that of the total is below 526 = 731 - 205, so its 95% quantile is at least 300 below the sum of the others. -/
example : (mackCore 1 (stairTri (K := ℚ) 4 exSpread) (stairTri (K := ℚ) 4 exSpread).a2aind0).toOption.map
      (fun r => (r.mse, r.totMse)) =
    some ([0, .fin (3546816336 / 85789), .fin (650762542242 / 23591975), .fin (3719806507841 / 28310370)],
      .fin (429916578606419 / 1557070350)) ∧
    (203 : ℚ) ^ 2 ≤ 3546816336 / 85789 ∧ (166 : ℚ) ^ 2 ≤ 650762542242 / 23591975 ∧
    (362 : ℚ) ^ 2 ≤ 3719806507841 / 28310370 ∧ (429916578606419 / 1557070350 : ℚ) < 526 ^ 2 := by
  decide +kernel

end Trikit
