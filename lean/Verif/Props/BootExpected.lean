import Verif.Props.Influence
import Verif.Props.Boot

/-!
# C224: development as expected and the fit of the bootstrap

`boot_cl` (bootstrap.py:156-168) at two evaluations, the second one period later, every origin having developed with the
factors of the first.  The new cells lie on the fit, so nothing but the number of cells has changed and the residuals that
are sampled should not grow.  With the degrees of freedom of C54 they do.
-/

set_option linter.unusedSectionVars false

namespace Trikit

/-! ### fitted values -/

section
variable {K : Type} [Field K] [LinearOrder K] [IsStrictOrderedRing K]
variable {n : ℕ} {c c' : ℕ → ℕ → K} {tail : K}

theorem wFactor_expected (hp : Spec.Positive n c) (hn : 3 ≤ n)
    (he : Spec.AsExpected n c c' (Spec.wFactor n c) tail) (hp' : Spec.Positive (n + 1) c') {j : ℕ} (hj : j < n) :
    Spec.wFactor (n + 1) c' j = if j < n - 1 then Spec.wFactor n c j else tail := by
  have hw := Spec.Weights.one (K := K) (n := n) (by omega)
  have hw' := Spec.Weights.one (K := K) (n := n + 1) (by omega)
  have he' : Spec.AsExpected n c c' (Spec.mackF 1 n c (fun _ _ => 1)) tail :=
    ⟨he.same, fun i h1 h2 => by rw [he.next i h1 h2, wFactor_eq_mackF hp (by omega)], he.oldest, he.fresh⟩
  rw [← wFactor_eq_mackF hp' (by omega), mackF_expected hp hw he' hp' hw' (fun _ _ _ => rfl) hj]
  split
  · rw [wFactor_eq_mackF hp (by omega)]
  · rfl

/-- The latest value of an old origin is the previous one times the factor of its period. -/
theorem latest_expected (hp : Spec.Positive n c) (hn : 3 ≤ n)
    (he : Spec.AsExpected n c c' (Spec.wFactor n c) tail) (hp' : Spec.Positive (n + 1) c') {i : ℕ} (hi : i < n) :
    c' i (n - i) = c i (n - 1 - i) * Spec.wFactor (n + 1) c' (n - 1 - i) := by
  rw [wFactor_expected hp hn he hp' (by omega)]
  by_cases h0 : i = 0
  · subst h0
    rw [if_neg (by omega), Nat.sub_zero, Nat.sub_zero, he.oldest]
  · rw [if_pos (by omega), he.next i (by omega) hi]

theorem fitCum_expected (hp : Spec.Positive n c) (hn : 3 ≤ n)
    (he : Spec.AsExpected n c c' (Spec.wFactor n c) tail) (hp' : Spec.Positive (n + 1) c') {i j : ℕ} (hij : i + j < n) :
    Spec.fitCum (n + 1) c' i j = Spec.fitCum n c i j := by
  unfold Spec.fitCum
  have e : n + 1 - 1 - i = n - 1 - i + 1 := by omega
  have e' : n - i = n - 1 - i + 1 := by omega
  have hl := latest_expected hp hn he hp' (i := i) (by omega)
  rw [e'] at hl
  rw [e, Finset.prod_Ico_succ_top (by omega), hl]
  have h1 : ∏ m ∈ Finset.Ico j (n - 1 - i), Spec.wFactor (n + 1) c' m =
      ∏ m ∈ Finset.Ico j (n - 1 - i), Spec.wFactor n c m :=
    Finset.prod_congr rfl fun m hm => by
      rw [Finset.mem_Ico] at hm
      rw [wFactor_expected hp hn he hp' (by omega), if_pos (by omega)]
  rw [h1, mul_div_mul_right _ _ (wFactor_pos hp' (by omega)).ne']

/-- The new cells lie on the fit. -/
theorem fitIncr_new (hp : Spec.Positive n c) (hn : 3 ≤ n)
    (he : Spec.AsExpected n c c' (Spec.wFactor n c) tail) (hp' : Spec.Positive (n + 1) c') {i j : ℕ} (hij : i + j = n) :
    Spec.incr (Spec.fitCum (n + 1) c') i j = Spec.incr c' i j := by
  have hl : Spec.fitCum (n + 1) c' i j = c' i j := by
    have := fitCum_latest (n := n + 1) (c := c') i
    rwa [show n + 1 - 1 - i = j by omega] at this
  unfold Spec.incr
  by_cases h0 : j = 0
  · subst h0
    rw [if_pos rfl, if_pos rfl, hl]
  · rw [if_neg h0, if_neg h0, hl, fitCum_expected hp hn he hp' (by omega), he.same i (j - 1) (by omega)]
    have := fitCum_latest (n := n) (c := c) i
    rw [show n - 1 - i = j - 1 by omega] at this
    rw [this]

theorem incr_expected (he : Spec.AsExpected n c c' (Spec.wFactor n c) tail) {i j : ℕ} (hij : i + j < n) :
    Spec.incr c' i j = Spec.incr c i j := by
  unfold Spec.incr
  split
  · rw [he.same _ _ (by omega)]
  · rw [he.same _ _ (by omega), he.same _ _ (by omega)]

theorem fitIncr_expected (hp : Spec.Positive n c) (hn : 3 ≤ n)
    (he : Spec.AsExpected n c c' (Spec.wFactor n c) tail) (hp' : Spec.Positive (n + 1) c') {i j : ℕ} (hij : i + j < n) :
    Spec.incr (Spec.fitCum (n + 1) c') i j = Spec.incr (Spec.fitCum n c) i j := by
  unfold Spec.incr
  split
  · rw [fitCum_expected hp hn he hp' (by omega)]
  · rw [fitCum_expected hp hn he hp' (by omega), fitCum_expected hp hn he hp' (by omega)]

/-- The first cell of the youngest origin and the last of the oldest one lie on the fit. -/
theorem fitIncr_corner (hp : Spec.Positive n c) (hn : 3 ≤ n) {i j : ℕ} (hij : i + j < n) (h : i = n - 1 ∨ j = n - 1) :
    Spec.incr (Spec.fitCum n c) i j = Spec.incr c i j := by
  have hl := fitCum_latest (n := n) (c := c) i
  unfold Spec.incr
  rcases h with h | h
  · obtain rfl : j = 0 := by omega
    rw [show n - 1 - i = 0 by omega] at hl
    rw [if_pos rfl, if_pos rfl, hl]
  · obtain rfl : i = 0 := by omega
    subst h
    have e := fitCum_succ hp (i := 0) (j := n - 2) (by omega)
    rw [Nat.sub_zero] at hl
    rw [show n - 2 + 1 = n - 1 by omega, hl] at e
    have hw : Spec.wFactor n c (n - 2) = c 0 (n - 1) / c 0 (n - 2) := by
      unfold Spec.wFactor
      rw [show n - 1 - (n - 2) = 1 by omega, Finset.sum_range_one, Finset.sum_range_one,
        show n - 2 + 1 = n - 1 by omega]
    have h1 := (hp 0 (n - 1) (by omega)).ne'
    have h2 := (hp 0 (n - 2) (by omega)).ne'
    have e2 : Spec.fitCum n c 0 (n - 2) = c 0 (n - 2) := by
      rw [hw] at e
      field_simp at e
      exact e.symm
    rw [if_neg (by omega), if_neg (by omega), hl, show n - 1 - 1 = n - 2 by omega, e2]

end

/-! ### lists of residuals -/

section
variable {K : Type} [Field K] [LinearOrder K] [IsStrictOrderedRing K]

/-- Values that `_sampling_dist` keeps. -/
def keepsResid (v : Num K) : Bool := !v.isNaN && !Num.eqF v 0

theorem keepsResid_mul {a : K} (ha : 0 < a) (v : Num K) : keepsResid (.fin a * v) = keepsResid v := by
  unfold keepsResid
  cases v with
  | nan => rfl
  | pinf =>
    have : (Num.fin a * Num.pinf : Num K) = .pinf := by
      show Num.infTimes a = _
      simp [Num.infTimes, ha, ha.ne']
    rw [this]
  | ninf =>
    have : (Num.fin a * Num.ninf : Num K) = .ninf := by
      show Num.infTimes (-a) = _
      simp [Num.infTimes, ha.ne', not_lt.2 ha.le]
    rw [this]
  | fin x =>
    rw [Num.fin_mul]
    simp [Num.zero_def, ha.ne']

theorem fin_mul_mul {a b : K} (ha : 0 < a) (hb : 0 < b) (v : Num K) :
    Num.fin b * (Num.fin a * v) = .fin (b * a) * v := by
  have hab := mul_pos hb ha
  have p : ∀ x : K, 0 < x → (Num.fin x * Num.pinf : Num K) = .pinf := fun x hx => by
    show Num.infTimes x = _
    simp [Num.infTimes, hx, hx.ne']
  have q : ∀ x : K, 0 < x → (Num.fin x * Num.ninf : Num K) = .ninf := fun x hx => by
    show Num.infTimes (-x) = _
    simp [Num.infTimes, hx.ne', not_lt.2 hx.le]
  cases v with
  | nan => rfl
  | pinf => rw [p a ha, p b hb, p _ hab]
  | ninf => rw [q a ha, q b hb, q _ hab]
  | fin x => simp only [Num.fin_mul, mul_assoc]

/-- Adding a row and a column of values that are not kept changes nothing. -/
theorem kept_grow {m : ℕ} {g g' : ℕ → ℕ → Num K}
    (h : ∀ i < m, ∀ j < m, (keepsResid (g i j) = true ∨ keepsResid (g' i j) = true) → g' i j = g i j)
    (hr : ∀ j < m + 1, keepsResid (g' m j) = false) (hc : ∀ i < m + 1, keepsResid (g' i m) = false) :
    ((List.range (m + 1)).flatMap (fun i => (List.range (m + 1)).map (fun j => g' i j))).filter keepsResid =
      ((List.range m).flatMap (fun i => (List.range m).map (fun j => g i j))).filter keepsResid := by
  have hlast : ((List.range (m + 1)).map (fun j => g' m j)).filter keepsResid = [] := by
    rw [List.filter_eq_nil_iff]
    intro v hv
    obtain ⟨j, hj, rfl⟩ := List.mem_map.1 hv
    rw [hr j (List.mem_range.1 hj)]
    exact Bool.false_ne_true
  rw [List.range_succ, List.flatMap_append, List.filter_append, List.flatMap_singleton, ← List.range_succ, hlast,
    List.append_nil, List.filter_flatMap, List.filter_flatMap]
  have key : ∀ (l : List ℕ) (i : ℕ), i < m → (∀ j ∈ l, j < m) →
      (l.map (fun j => g' i j)).filter keepsResid = (l.map (fun j => g i j)).filter keepsResid := by
    intro l i hi
    induction l with
    | nil => intro _; rfl
    | cons j l ih =>
      intro hl
      have hj := hl j (List.mem_cons_self ..)
      have ih := ih fun k hk => hl k (List.mem_cons_of_mem _ hk)
      rw [List.map_cons, List.map_cons]
      by_cases hk : keepsResid (g i j) = true ∨ keepsResid (g' i j) = true
      · rw [h i hi j hj hk, List.filter_cons, List.filter_cons, ih]
      · have h1 : ¬ keepsResid (g i j) = true := fun e => hk (Or.inl e)
        have h2 : ¬ keepsResid (g' i j) = true := fun e => hk (Or.inr e)
        rw [List.filter_cons_of_neg h1, List.filter_cons_of_neg h2, ih]
  have hrow : ∀ i ∈ List.range m, ((List.range (m + 1)).map (fun j => g' i j)).filter keepsResid =
      ((List.range m).map (fun j => g i j)).filter keepsResid := by
    intro i hi
    rw [List.mem_range] at hi
    rw [List.range_succ, List.map_append, List.filter_append, List.map_singleton,
      List.filter_cons_of_neg (by rw [hc i (by omega)]; exact Bool.false_ne_true), List.filter_nil, List.append_nil]
    exact key _ i hi fun j hj => List.mem_range.1 hj
  exact List.flatMap_congr hrow

/-- The sampled values are the kept residuals times the adjustment. -/
theorem sampling_scaled {a : K} (ha : 0 < a) (m : ℕ) (g : ℕ → ℕ → Num K) :
    ((List.range m).flatMap (fun i => (List.range m).map (fun j => .fin a * g i j))).filter keepsResid =
      (((List.range m).flatMap (fun i => (List.range m).map (fun j => g i j))).filter keepsResid).map (fun v => .fin a * v) := by
  have e : (List.range m).flatMap (fun i => (List.range m).map (fun j => Num.fin a * g i j)) =
      ((List.range m).flatMap (fun i => (List.range m).map (fun j => g i j))).map (fun v => .fin a * v) := by
    rw [List.map_flatMap]
    simp only [List.map_map]
    rfl
  rw [e, List.filter_map]
  congr 1
  refine List.filter_congr fun v _ => ?_
  exact keepsResid_mul ha v

end

/-! ### C224 -/

section
variable {t t' : Tri ℝ} {n : ℕ} {c c' : ℕ → ℕ → ℝ} {tail : ℝ}

/-- A residual of a cell on the fit is zero, or missing when the fitted increment is zero. -/
theorem resid_onfit (x : ℝ) : (Num.fin 0 / Num.sqrt (.fin |x|) = .fin 0 ∧ x ≠ 0) ∨
    (Num.fin 0 / Num.sqrt (.fin |x|) = .nan ∧ x = 0) := by
  rw [Num.sqrt_fin (abs_nonneg _)]
  by_cases h : x = 0
  · right
    refine ⟨?_, h⟩
    rw [h, abs_zero, Real.sqrt_zero, Num.fin_div_zero]
    simp [Num.infTimes]
  · left
    refine ⟨?_, h⟩
    rw [Num.fin_div _ _ (Real.sqrt_pos.2 (abs_pos.2 h)).ne', zero_div]

theorem resid_onfit_dropped (x : ℝ) : keepsResid (Num.fin 0 / Num.sqrt (.fin |x|)) = false := by
  rcases resid_onfit x with h | h
  · rw [h.1]; simp [keepsResid, Num.zero_def]
  · rw [h.1]; rfl

theorem sumSkip_onfit {l : List (Num ℝ)} (h : ∀ v ∈ l, v = .fin 0 ∨ v = .nan) : Num.sumSkip l = 0 := by
  induction l with
  | nil => rfl
  | cons v l ih =>
    have ih := ih fun w hw => h w (List.mem_cons_of_mem _ hw)
    rcases h v (List.mem_cons_self ..) with e | e
    · rw [e, Num.sumSkip_cons_fin, ih]
      simp [Num.zero_def]
    · rw [e, Num.sumSkip_cons_nan, ih]

theorem num_rescale {d d' : ℝ} (hd : 0 < d) (hd' : 0 < d') (v : Num ℝ) :
    v / .fin d' = .fin (d / d') * (v / .fin d) := by
  have hq := div_pos hd hd'
  cases v with
  | nan => rfl
  | pinf =>
    have e : ∀ x : ℝ, 0 < x → (Num.pinf / Num.fin x : Num ℝ) = .pinf := fun x hx => by
      show Num.div _ _ = _
      simp [Num.div, Num.infTimes, hx, hx.ne', hx.le]
    rw [e d hd, e d' hd']
    show _ = Num.infTimes _
    simp [Num.infTimes, hq, hq.ne']
  | ninf =>
    have e : ∀ x : ℝ, 0 < x → (Num.ninf / Num.fin x : Num ℝ) = .ninf := fun x hx => by
      show Num.div _ _ = _
      simp [Num.div, Num.infTimes, hx, hx.ne', hx.le]
    rw [e d hd, e d' hd']
    show _ = Num.infTimes _
    simp [Num.infTimes, hq.ne', not_lt.2 hq.le]
  | fin x =>
    rw [Num.fin_div _ _ hd.ne', Num.fin_div _ _ hd'.ne', Num.fin_mul]
    congr 1
    field_simp

/-- What the two fits have in common. -/
structure ExpectedFits (t t' : Tri ℝ) (n : ℕ) (c c' : ℕ → ℕ → ℝ) (fit fit' : BootFit ℝ) : Prop where
  spec : Spec.FitSpec Num.sqrt t n c fit
  spec' : Spec.FitSpec Num.sqrt t' (n + 1) c' fit'
  cum : ∀ i j, i + j < n → fit'.fitCum.cell i j = fit.fitCum.cell i j
  us : ∀ i j, i + j < n → fit'.residUs.cell i j = fit.residUs.cell i j
  new : ∀ i j, i + j = n → fit'.residUs.cell i j = .fin 0 ∨
    (fit'.residUs.cell i j = .nan ∧ fit'.fitIncr.cell i j = .fin 0)
  corner : ∀ i j, i + j < n → (i = n - 1 ∨ j = n - 1) → keepsResid (fit.residUs.cell i j) = false

theorem expectedFits (gm : List (Num ℝ) → Num ℝ) (h : Spec.Stair t n c) (hp : Spec.Positive n c)
    (h' : Spec.Stair t' (n + 1) c') (hn : 3 ≤ n) (htail : 0 < tail) {f : ℕ → ℝ} {fit : BootFit ℝ}
    (hf : bootFit Num.sqrt gm t t.a2aind0 = .ok fit)
    (hF : ∀ j < n - 1, (fit.ldfs.map Prod.snd)[j]? = some (.fin (f j))) (he : Spec.AsExpected n c c' f tail) :
    ∃ fit', bootFit Num.sqrt gm t' t'.a2aind0 = .ok fit' ∧ ExpectedFits t t' n c c' fit fit' := by
  obtain ⟨fit1, hf1, hs⟩ := bootFit_stair Num.sqrt gm h hp hn
  obtain rfl : fit1 = fit := Except.ok.inj (hf1.symm.trans hf)
  have hff : ∀ j < n - 1, f j = Spec.wFactor n c j := by
    intro j hj
    have := hF j hj
    rw [hs.ldfs, List.getElem?_map, List.getElem?_range (by omega), Option.map_some, if_pos (by omega)] at this
    exact (Num.fin.inj (Option.some.inj this)).symm
  have he' : Spec.AsExpected n c c' (Spec.wFactor n c) tail :=
    ⟨he.same, fun i h1 h2 => by rw [he.next i h1 h2, hff _ (by omega)], he.oldest, he.fresh⟩
  have hp' := he'.pos (by omega) hp (fun j hj => wFactor_pos hp hj) htail
  obtain ⟨fit', hf', hs'⟩ := bootFit_stair Num.sqrt gm h' hp' (by omega)
  refine ⟨fit', hf', hs, hs', ?_, ?_, ?_, ?_⟩
  · intro i j hij
    rw [hs'.cum.obs i j (by omega), hs.cum.obs i j hij, fitCum_expected hp hn he' hp' hij]
  · intro i j hij
    rw [hs'.us i j (by omega), hs.us i j hij, fitIncr_expected hp hn he' hp' hij, incr_expected he' hij]
  · intro i j hij
    have e := fitIncr_new hp hn he' hp' hij
    rw [hs'.us i j (by omega), hs'.incr.obs i j (by omega), e, sub_self]
    rcases resid_onfit (Spec.incr c' i j) with h1 | h1
    · exact Or.inl h1.1
    · exact Or.inr ⟨h1.1, by rw [h1.2]⟩
  · intro i j hij hc
    rw [hs.us i j hij, fitIncr_corner hp hn hij hc, sub_self]
    exact resid_onfit_dropped _

theorem ExpectedFits.onfit {fit fit' : BootFit ℝ} (h : ExpectedFits t t' n c c' fit fit') {i j : ℕ} (hi : i < n + 1)
    (hj : j < n + 1) (hij : n ≤ i + j) : keepsResid (fit'.residUs.cell i j) = false := by
  by_cases e : i + j = n
  · rcases h.new i j e with h1 | h1
    · rw [h1]; simp [keepsResid, Num.zero_def]
    · rw [h1.1]; rfl
  · rw [h.spec'.us_miss i j hi hj (by omega)]; rfl

/-- Twice the degrees of freedom and the number of cells of a staircase. -/
theorem cells_stair (h : Spec.Stair t n c) : (2 : ℝ) * (t.nbrCells : ℝ) = n * (n + 1) ∧
    (2 : ℝ) * ((bootDof t : Int) : ℝ) = n * (n + 1) + 2 := by
  have h2 := C54_stair_partial h
  have e : (2 : Int) * (t.nbrCells : Int) = n * (n + 1) := by
    have := C54_dof t
    rw [h.nr, h.nc] at this
    linarith
  constructor
  · exact_mod_cast e
  · exact_mod_cast h2

/-- **C224, partial.** For every positive staircase of at least three origins: when every origin develops with the factors
of the last fit (the oldest one with any positive factor), the next fit has the same fitted values and the same
residuals in the old cells, the residual of a new cell is zero (or missing, if the cell has an increment of zero), and the
scale parameter is the old one times the old over the new degrees of freedom, a share below one.  Missing: that the
residuals that are sampled do not grow (`C224_fails`). -/
theorem C224_fit_partial (gm : List (Num ℝ) → Num ℝ) (h : Spec.Stair t n c) (hp : Spec.Positive n c)
    (h' : Spec.Stair t' (n + 1) c') (hn : 3 ≤ n) (htail : 0 < tail) {f : ℕ → ℝ} {fit : BootFit ℝ}
    (hf : bootFit Num.sqrt gm t t.a2aind0 = .ok fit)
    (hF : ∀ j < n - 1, (fit.ldfs.map Prod.snd)[j]? = some (.fin (f j))) (he : Spec.AsExpected n c c' f tail) :
    ∃ fit', bootFit Num.sqrt gm t' t'.a2aind0 = .ok fit' ∧
      (∀ i j, i + j < n → fit'.fitCum.cell i j = fit.fitCum.cell i j) ∧
      (∀ i j, i + j < n → fit'.residUs.cell i j = fit.residUs.cell i j) ∧
      (∀ i j, i + j = n → fit'.residUs.cell i j = .fin 0 ∨
        (fit'.residUs.cell i j = .nan ∧ fit'.fitIncr.cell i j = .fin 0)) ∧
      ∃ q : ℝ, 0 < q ∧ q < 1 ∧ q * ((bootDof t' : Int) : ℝ) = ((bootDof t : Int) : ℝ) ∧
        fit'.scale = .fin q * fit.scale := by
  obtain ⟨fit', hf', x⟩ := expectedFits gm h hp h' hn htail hf hF he
  refine ⟨fit', hf', x.cum, x.us, x.new, ?_⟩
  have hd := dof_pos h
  have hd' := dof_pos h'
  have hlt : ((bootDof t : Int) : ℝ) < ((bootDof t' : Int) : ℝ) := by
    have h1 := (cells_stair h).2
    have h2 := (cells_stair h').2
    push_cast at h2
    have : (0 : ℝ) ≤ n := Nat.cast_nonneg n
    nlinarith
  refine ⟨((bootDof t : Int) : ℝ) / ((bootDof t' : Int) : ℝ), div_pos hd hd', (div_lt_one hd').2 hlt,
    div_mul_cancel₀ _ hd'.ne', ?_⟩
  have hnr : fit.residUs.nr = n := by unfold Tri.nr; rw [x.spec.us_origins]; exact h.nr
  have hnc : fit.residUs.nc = n := by unfold Tri.nc; rw [x.spec.us_devs]; exact h.nc
  have hnr' : fit'.residUs.nr = n + 1 := by unfold Tri.nr; rw [x.spec'.us_origins]; exact h'.nr
  have hnc' : fit'.residUs.nc = n + 1 := by unfold Tri.nc; rw [x.spec'.us_devs]; exact h'.nc
  rw [x.spec.scale, x.spec'.scale]
  unfold scaleParam Tri.col
  rw [hnc, hnc', hnr, hnr']
  have onfit : ∀ i < n + 1, ∀ j < n + 1, n ≤ i + j →
      (fit'.residUs.cell i j).pow 2 = .fin 0 ∨ (fit'.residUs.cell i j).pow 2 = .nan := by
    intro i hi j hj hij
    by_cases e : i + j = n
    · rcases x.new i j e with h1 | h1
      · left
        rw [h1, Num.pow_fin, zero_pow two_ne_zero]
      · right
        rw [h1.1]; rfl
    · right
      rw [x.spec'.us_miss i j hi hj (by omega)]; rfl
  have col : ∀ j < n, Num.sumSkip (((List.range (n + 1)).map (fun i => fit'.residUs.cell i j)).map (fun v => v.pow 2)) =
      Num.sumSkip (((List.range n).map (fun i => fit.residUs.cell i j)).map (fun v => v.pow 2)) := by
    intro j hj
    rw [List.map_map, List.map_map, range_map_split (n := n + 1) (k := n - j) (by omega),
      range_map_split (n := n) (k := n - j) (by omega), Num.sumSkip_append, Num.sumSkip_append]
    rw [sumSkip_onfit (l := (List.range (n + 1 - (n - j))).map _), sumSkip_onfit (l := (List.range (n - (n - j))).map _)]
    · congr 2
      refine List.map_congr_left fun i hi => ?_
      rw [List.mem_range] at hi
      simp only [Function.comp]
      rw [x.us i j (by omega)]
    · intro v hv
      obtain ⟨k, hk, rfl⟩ := List.mem_map.1 hv
      rw [List.mem_range] at hk
      simp only [Function.comp]
      right
      rw [x.spec.us_miss _ j (by omega) hj (by omega)]; rfl
    · intro v hv
      obtain ⟨k, hk, rfl⟩ := List.mem_map.1 hv
      rw [List.mem_range] at hk
      exact onfit _ (by omega) j (by omega) (by omega)
  rw [List.range_succ, List.map_append, Num.sumSkip_append, List.map_singleton, ← List.range_succ,
    List.map_congr_left fun j hj => col j (List.mem_range.1 hj),
    sumSkip_onfit (l := ((List.range (n + 1)).map (fun i => fit'.residUs.cell i n)).map _)]
  · rw [show Num.sumSkip [(0 : Num ℝ)] = 0 from by simp [Num.zero_def], add_zero]
    exact num_rescale hd hd' _
  · intro v hv
    rw [List.map_map] at hv
    obtain ⟨k, hk, rfl⟩ := List.mem_map.1 hv
    rw [List.mem_range] at hk
    exact onfit k hk n (by omega) (by omega)

/-- **C224 fails.** In the same situation the residuals that are sampled are the old ones, in the same order, times a number
above one: `_resid_adj` multiplies with the root of cells over degrees of freedom, and the degrees of freedom of C54 exceed
the number of cells. -/
theorem C224_fails (gm : List (Num ℝ) → Num ℝ) (h : Spec.Stair t n c) (hp : Spec.Positive n c)
    (h' : Spec.Stair t' (n + 1) c') (hn : 3 ≤ n) (htail : 0 < tail) {f : ℕ → ℝ} {fit : BootFit ℝ}
    (hf : bootFit Num.sqrt gm t t.a2aind0 = .ok fit)
    (hF : ∀ j < n - 1, (fit.ldfs.map Prod.snd)[j]? = some (.fin (f j))) (he : Spec.AsExpected n c c' f tail) :
    ∃ fit', bootFit Num.sqrt gm t' t'.a2aind0 = .ok fit' ∧
      ∃ a : ℝ, 1 < a ∧ fit'.sampling = fit.sampling.map (fun v => .fin a * v) ∧
        ∀ y : ℝ, .fin y ∈ fit.sampling → |y| < |a * y| := by
  obtain ⟨fit', hf', x⟩ := expectedFits gm h hp h' hn htail hf hF he
  refine ⟨fit', hf', ?_⟩
  have hd := dof_pos h
  have hd' := dof_pos h'
  obtain ⟨c1, c2⟩ := cells_stair h
  obtain ⟨c1', c2'⟩ := cells_stair h'
  have hn0 : (3 : ℝ) ≤ n := by exact_mod_cast hn
  push_cast at c1' c2'
  have hN : (0 : ℝ) < (t.nbrCells : ℝ) := by nlinarith
  have hN' : (0 : ℝ) < (t'.nbrCells : ℝ) := by nlinarith
  have hq := div_pos hN hd
  have hq' := div_pos hN' hd'
  have hlt : (t.nbrCells : ℝ) / ((bootDof t : Int) : ℝ) < (t'.nbrCells : ℝ) / ((bootDof t' : Int) : ℝ) := by
    rw [div_lt_div_iff₀ hd hd']
    nlinarith
  have hs := Real.sqrt_pos.2 hq
  have hs' := Real.sqrt_pos.2 hq'
  set s := Real.sqrt ((t.nbrCells : ℝ) / ((bootDof t : Int) : ℝ)) with hsdef
  set s' := Real.sqrt ((t'.nbrCells : ℝ) / ((bootDof t' : Int) : ℝ)) with hsdef'
  have hss : s < s' := Real.sqrt_lt_sqrt hq.le hlt
  have hnr : fit.residUs.nr = n := by unfold Tri.nr; rw [x.spec.us_origins]; exact h.nr
  have hnc : fit.residUs.nc = n := by unfold Tri.nc; rw [x.spec.us_devs]; exact h.nc
  have hnr' : fit'.residUs.nr = n + 1 := by unfold Tri.nr; rw [x.spec'.us_origins]; exact h'.nr
  have hnc' : fit'.residUs.nc = n + 1 := by unfold Tri.nc; rw [x.spec'.us_devs]; exact h'.nc
  have e1 : fit.sampling = (((List.range (n - 1)).flatMap (fun i => (List.range (n - 1)).map
      (fun j => fit.residUs.cell i j))).filter keepsResid).map (fun v => .fin s * v) := by
    rw [x.spec.sampling, x.spec.adj, ← sampling_scaled hs]
    have a1 : (residAdj Num.sqrt t fit.residUs).nr = n := hnr
    have a2 : (residAdj Num.sqrt t fit.residUs).nc = n := hnc
    unfold samplingDist
    rw [a1, a2]
    unfold residAdj
    rw [Num.sqrt_fin hq.le]
    rfl
  have e2 : fit'.sampling = (((List.range n).flatMap (fun i => (List.range n).map
      (fun j => fit'.residUs.cell i j))).filter keepsResid).map (fun v => .fin s' * v) := by
    rw [x.spec'.sampling, x.spec'.adj, ← sampling_scaled hs']
    have a1 : (residAdj Num.sqrt t' fit'.residUs).nr = n + 1 := hnr'
    have a2 : (residAdj Num.sqrt t' fit'.residUs).nc = n + 1 := hnc'
    unfold samplingDist
    rw [a1, a2]
    unfold residAdj
    rw [Num.sqrt_fin hq'.le]
    rfl
  obtain ⟨m, rfl⟩ : ∃ m, n = m + 1 := ⟨n - 1, by omega⟩
  rw [Nat.add_sub_cancel] at e1
  have grow := kept_grow (m := m) (g := fit.residUs.cell) (g' := fit'.residUs.cell) ?_ ?_ ?_
  · rw [grow] at e2
    have ha : 1 < s' / s := (one_lt_div hs).2 hss
    refine ⟨s' / s, ha, ?_, ?_⟩
    · rw [e1, e2, List.map_map]
      refine List.map_congr_left fun v _ => ?_
      simp only [Function.comp]
      rw [fin_mul_mul hs (div_pos hs' hs), div_mul_cancel₀ _ hs.ne']
    · intro y hy
      have hy0 : y ≠ 0 := by
        rintro rfl
        rw [x.spec.sampling] at hy
        unfold samplingDist at hy
        have := (List.mem_filter.1 hy).2
        simp [Num.zero_def] at this
      rw [abs_mul, abs_of_pos (lt_trans one_pos ha)]
      exact lt_mul_of_one_lt_left (abs_pos.2 hy0) ha
  · intro i hi j hj hk
    by_cases hij : i + j < m + 1
    · exact x.us i j hij
    · exfalso
      rcases hk with hk | hk
      · rw [x.spec.us_miss i j (by omega) (by omega) (by omega)] at hk
        exact Bool.false_ne_true hk
      · rw [x.onfit (by omega) (by omega) (by omega)] at hk
        exact Bool.false_ne_true hk
  · intro j hj
    by_cases hij : m + j < m + 1
    · rw [x.us m j hij]
      exact x.corner m j hij (Or.inl (by omega))
    · exact x.onfit (by omega) (by omega) (by omega)
  · intro i hi
    by_cases hij : i + m < m + 1
    · rw [x.us i m hij]
      exact x.corner i m hij (Or.inr (by omega))
    · exact x.onfit (by omega) (by omega) (by omega)

end

/-- Values of the bootstrap example one evaluation later, developed with the fitted factors 2, 3 / 2 and a tail of 1. -/
def exBootNext : ℕ → ℕ → ℚ := fun i j =>
  ((([[110, 200, 300, 300], [90, 200, 300], [100, 200], [7]] : List (List ℚ)).getD i []).getD j 0)

/-- C224 on the example: the same residuals in the old cells, zeros in the new ones (missing for the last period, which
has an increment of zero), and `4 / 7` of the old scale becomes `4 / 11`. -/
example : ((bootFit exSqrt (fun _ => .nan) (stairTri 4 exBootNext) (stairTri 4 exBootNext).a2aind0).map
      (fun f => (List.range 4).map f.residUs.row)) = .ok
        [[.fin 1, .fin (-1), .fin 0, .nan], [.fin (-1), .fin 1, .fin 0, .nan], [.fin 0, .fin 0, .nan, .nan],
          [.fin 0, .nan, .nan, .nan]] ∧
    ((bootFit exSqrt (fun _ => .nan) (stairTri 4 exBootNext) (stairTri 4 exBootNext).a2aind0).map (fun f => f.scale)) =
      .ok (.fin (4 / 11)) := by
  decide +kernel

end Trikit
