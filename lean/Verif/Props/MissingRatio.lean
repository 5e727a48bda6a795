import Verif.Props.MackObj
import Verif.Props.UnknownLabel

/-! # Assignments to link ratios that do not exist (C157) -/

set_option linter.unusedSectionVars false

namespace Trikit

variable {K : Type} [Field K] [LinearOrder K] [IsStrictOrderedRing K]
variable {t : Tri K} {n : ℕ} {c : ℕ → ℕ → K}

/-- The assignment names a link ratio of the triangle that exists. -/
def Spec.observed (t : Tri K) (n : ℕ) (a : Assign K) : Bool :=
  (List.range n).any (fun i => (List.range (n - 1 - i)).any (fun j => a.origin == t.oAt i && a.dev == t.dAt j))

theorem observed_iff (a : Assign K) :
    Spec.observed t n a = true ↔ ∃ i j, i + j + 1 < n ∧ a.origin = t.oAt i ∧ a.dev = t.dAt j := by
  unfold Spec.observed
  simp only [List.any_eq_true, List.mem_range, Bool.and_eq_true, beq_iff_eq]
  constructor
  · rintro ⟨i, hi, j, hj, e⟩; exact ⟨i, j, by omega, e⟩
  · rintro ⟨i, j, hij, e⟩; exact ⟨i, by omega, j, by omega, e⟩

/-- Two indicators with the labels of the link ratios and the same entries where a link ratio exists. -/
structure SameOn (t : Tri K) (n : ℕ) (a b : Tri K) : Prop where
  ao : a.origins = t.a2a.origins
  ad : a.devs = t.a2a.devs
  bo : b.origins = t.a2a.origins
  bd : b.devs = t.a2a.devs
  vals : ∀ i j, i + j + 1 < n → a.cell i j = b.cell i j

/-- Removing the assignments to missing link ratios from a history gives the same indicator where it matters. -/
theorem history_observed (h : Spec.Stair t n c) (hc : ∀ i j, i + j < n → c i j ≠ 0) (l : List (Assign K))
    (hl : ∀ a ∈ l, a.origin ∈ t.a2a.origins ∧ a.dev ∈ t.a2a.devs) :
    ∃ f g, IndState.assignAll (IndState.read { tri := t }).1 l = .ok { tri := t, ind := some f } ∧
      IndState.assignAll (IndState.read { tri := t }).1 (l.filter (Spec.observed t n)) = .ok { tri := t, ind := some g } ∧
      SameOn t n f g := by
  obtain ⟨ha, hb, hcell⟩ := h.a2a_spec hc
  obtain ⟨f, f1, f2, f3, f4⟩ := assignAll_spec t l t.a2aind0 hl
  obtain ⟨g, g1, g2, g3, g4⟩ := assignAll_spec t (l.filter (Spec.observed t n)) t.a2aind0
    (fun a ha' => hl a (List.mem_of_mem_filter ha'))
  refine ⟨f, g, f1, g1, f2, f3, g2, g3, ?_⟩
  intro i j hij
  have hi : i < t.a2aind0.nr := by change i < t.a2a.nr; rw [h.a2a_nr hc]; omega
  have hj : j < t.a2aind0.nc := by change j < t.a2a.nc; rw [h.a2a_nc hc]; omega
  have hoAt : t.a2aind0.oAt i = t.oAt i := by
    change t.a2a.origins.getD i 0 = _
    rw [ha, List.getD_eq_getElem?_getD, List.getElem?_map, List.getElem?_range (by omega)]
    rfl
  have hdAt : t.a2aind0.dAt j = t.dAt j := by
    change t.a2a.devs.getD j 0 = _
    rw [hb, List.getD_eq_getElem?_getD, List.getElem?_map, List.getElem?_range (by omega)]
    rfl
  rw [f4 i hi j hj, g4 i hi j hj, hoAt, hdAt]
  congr 1
  unfold Spec.lastAssigned
  rw [← List.filter_reverse, List.find?_filter]
  congr 2
  funext a
  by_cases e : (a.origin == t.oAt i && a.dev == t.dAt j) = true
  · have : Spec.observed t n a = true := by
      rw [observed_iff]
      rw [Bool.and_eq_true, beq_iff_eq, beq_iff_eq] at e
      exact ⟨i, j, hij, e⟩
    simp [e, this]
  · simp [e]

section
variable {a b : Tri K}

theorem SameOn.avgs (hs : SameOn t n a b) (h : Spec.Stair t n c) (hc : ∀ i j, i + j < n → c i j ≠ 0)
    (gm : List (Num K) → Num K) : a2aAvgs gm t a = a2aAvgs gm t b := by
  have e1 := alignOp_same (fun x y : Num K => x * y) (a := t.a2a) (b := a) hs.ao.symm hs.ad.symm
  have e2 := alignOp_same (fun x y : Num K => x * y) (a := t.a2a) (b := b) hs.bo.symm hs.bd.symm
  apply a2aAvgs_congr
  · rw [e1, e2]; rfl
  · intro k d j hj
    rw [e1] at hj
    have hj' : j < n - 1 := by have : j < t.a2a.nc := hj; rwa [h.a2a_nc hc] at this
    unfold avgEntry
    have hcol : (Tri.alignOp (· * ·) t.a2a a).col j = (Tri.alignOp (· * ·) t.a2a b).col j := by
      rw [e1, e2]
      unfold Tri.col
      apply List.map_congr_left
      intro i hi
      have hi' : i < n - 1 := by
        have : i < t.a2a.nr := List.mem_range.1 hi
        rwa [h.a2a_nr hc] at this
      show t.a2a.cell i j * a.cell i j = t.a2a.cell i j * b.cell i j
      rw [(h.a2a_spec hc).2.2 i hi' j hj']
      by_cases e : i + j + 1 < n
      · rw [hs.vals i j e]
      · rw [if_neg e, Num.nan_mul, Num.nan_mul]
    unfold avgCell
    rw [hcol]

theorem SameOn.modInd (hs : SameOn t n a b) {i j : ℕ} (hij : i + j + 1 < n) :
    a.modInd.cell i j = b.modInd.cell i j := by
  unfold Tri.modInd; simp only; rw [hs.vals i j hij]

theorem powT_nan (h : Spec.Stair t n c) {alpha : ℕ} (hα : 1 ≤ alpha) {i j : ℕ} (hi : i < n - 1) (hj : j < n - 1)
    (hij : n ≤ i + j + 1) : (t.modTri.powT alpha).cell i j = .nan := by
  unfold Tri.powT
  simp only
  rw [h.modTri.2.2 i hi j hj, if_neg (by omega)]
  obtain ⟨m, rfl⟩ : ∃ m, alpha = m + 1 := ⟨alpha - 1, by omega⟩
  rfl

theorem SameOn.wC (hs : SameOn t n a b) (h : Spec.Stair t n c) {alpha : ℕ} (hα : 1 ≤ alpha) {i j : ℕ}
    (hi : i < n - 1) (hj : j < n - 1) :
    a.modInd.cell i j * (t.modTri.powT alpha).cell i j = b.modInd.cell i j * (t.modTri.powT alpha).cell i j := by
  by_cases e : i + j + 1 < n
  · rw [hs.modInd e]
  · rw [powT_nan h hα hi hj (by omega), Num.mul_nan, Num.mul_nan]

theorem colSums_congr {a b : Tri K} (ho : a.origins = b.origins) (hd : a.devs = b.devs)
    (hcell : ∀ i < a.nr, ∀ j < a.nc, a.cell i j = b.cell i j) : a.colSums = b.colSums := by
  unfold Tri.colSums
  have hnc : a.nc = b.nc := by unfold Tri.nc; rw [hd]
  have hnr : a.nr = b.nr := by unfold Tri.nr; rw [ho]
  rw [← hnc]
  apply List.map_congr_left
  intro j hj
  have h1 : a.dAt j = b.dAt j := by unfold Tri.dAt; rw [hd]
  have h2 : a.col j = b.col j := by
    unfold Tri.col
    rw [← hnr]
    apply List.map_congr_left
    intro i hi
    exact hcell i (List.mem_range.1 hi) j (List.mem_range.1 hj)
  rw [h1, h2]

/-- The numerators of the factors are the same for every exponent. -/
theorem SameOn.num (hs : SameOn t n a b) (h : Spec.Stair t n c) (hc : ∀ i j, i + j < n → c i j ≠ 0) (alpha : ℕ) :
    (Tri.alignOp (· * ·) (Tri.alignOp (· * ·) t.a2a a.modInd) (t.modTri.powT alpha)).colSums =
      (Tri.alignOp (· * ·) (Tri.alignOp (· * ·) t.a2a b.modInd) (t.modTri.powT alpha)).colSums := by
  obtain ⟨hao, had, hac⟩ := h.a2a_spec hc
  rw [alignOp_same (fun x1 x2 => x1 * x2) (a := t.a2a) (b := a.modInd) hs.ao.symm hs.ad.symm,
    alignOp_same (fun x1 x2 => x1 * x2) (a := t.a2a) (b := b.modInd) hs.bo.symm hs.bd.symm,
    alignOp_same (fun x1 x2 => x1 * x2) (a :=
      { t.a2a with cell := fun i j => t.a2a.cell i j * a.modInd.cell i j }) (b := t.modTri.powT alpha)
      (hao.trans h.modTri.1.symm) (had.trans h.modTri.2.1.symm),
    alignOp_same (fun x1 x2 => x1 * x2) (a :=
      { t.a2a with cell := fun i j => t.a2a.cell i j * b.modInd.cell i j }) (b := t.modTri.powT alpha)
      (hao.trans h.modTri.1.symm) (had.trans h.modTri.2.1.symm)]
  refine colSums_congr rfl rfl ?_
  intro i hi j hj
  have hi' : i < n - 1 := by have : i < t.a2a.nr := hi; rwa [h.a2a_nr hc] at this
  have hj' : j < n - 1 := by have : j < t.a2a.nc := hj; rwa [h.a2a_nc hc] at this
  show t.a2a.cell i j * a.modInd.cell i j * _ = t.a2a.cell i j * b.modInd.cell i j * _
  by_cases e : i + j + 1 < n
  · rw [hs.modInd e]
  · rw [hac i hi' j hj', if_neg e, Num.nan_mul, Num.nan_mul, Num.nan_mul, Num.nan_mul]

theorem SameOn.den (hs : SameOn t n a b) (h : Spec.Stair t n c) (hc : ∀ i j, i + j < n → c i j ≠ 0) {alpha : ℕ}
    (hα : 1 ≤ alpha) :
    (Tri.alignOp (· * ·) a.modInd (t.modTri.powT alpha)).colSums =
      (Tri.alignOp (· * ·) b.modInd (t.modTri.powT alpha)).colSums := by
  obtain ⟨hao, had, _⟩ := h.a2a_spec hc
  rw [alignOp_same (fun x1 x2 => x1 * x2) (a := a.modInd) (b := t.modTri.powT alpha)
      ((hs.ao.trans hao).trans h.modTri.1.symm) ((hs.ad.trans had).trans h.modTri.2.1.symm),
    alignOp_same (fun x1 x2 => x1 * x2) (a := b.modInd) (b := t.modTri.powT alpha)
      ((hs.bo.trans hao).trans h.modTri.1.symm) ((hs.bd.trans had).trans h.modTri.2.1.symm)]
  refine colSums_congr (hs.ao.trans hs.bo.symm) (hs.ad.trans hs.bd.symm) ?_
  intro i hi j hj
  have hi' : i < n - 1 := by
    have : i < a.origins.length := hi
    rw [hs.ao] at this
    have h2 : i < t.a2a.nr := this
    rwa [h.a2a_nr hc] at h2
  have hj' : j < n - 1 := by
    have : j < a.devs.length := hj
    rw [hs.ad] at this
    have h2 : j < t.a2a.nc := this
    rwa [h.a2a_nc hc] at h2
  exact hs.wC h hα hi' hj'

theorem SameOn.wCat (hs : SameOn t n a b) (h : Spec.Stair t n c) (hc : ∀ i j, i + j < n → c i j ≠ 0) {alpha : ℕ}
    (hα : 1 ≤ alpha) {o d : Int} (ho : o ∈ t.a2a.origins) :
    a.modInd.at' o d * (t.modTri.powT alpha).at' o d = b.modInd.at' o d * (t.modTri.powT alpha).at' o d := by
  obtain ⟨hao, had, _⟩ := h.a2a_spec hc
  by_cases hd : d ∈ t.a2a.devs
  · rw [hao] at ho
    rw [had] at hd
    obtain ⟨i, hi, rfl⟩ := List.mem_map.1 ho
    obtain ⟨j, hj, rfl⟩ := List.mem_map.1 hd
    rw [List.mem_range] at hi hj
    rw [h.at_eq (a := a.modInd) (hs.ao.trans hao) (hs.ad.trans had) hi hj,
      h.at_eq (a := b.modInd) (hs.bo.trans hao) (hs.bd.trans had) hi hj,
      h.at_eq (a := t.modTri.powT alpha) h.modTri.1 h.modTri.2.1 hi hj]
    exact hs.wC h hα hi hj
  · have h1 : a.modInd.at' o d = .nan := by
      unfold Tri.at'
      rw [if_neg]
      intro hh
      exact hd (hs.ad ▸ hh.2)
    have h2 : b.modInd.at' o d = .nan := by
      unfold Tri.at'
      rw [if_neg]
      intro hh
      exact hd (hs.bd ▸ hh.2)
    rw [h1, h2]

/-- All results of a Mack estimator with `alpha >= 1` are the same for the two indicators. -/
theorem SameOn.mack (hs : SameOn t n a b) (h : Spec.Stair t n c) (hc : ∀ i j, i + j < n → c i j ≠ 0) {alpha : ℕ}
    (hα : 1 ≤ alpha) : mackCore alpha t a = mackCore alpha t b := by
  have h1 : mackLdfs alpha t a 1 = mackLdfs alpha t b 1 := by
    unfold mackLdfs
    simp only
    rw [hs.num h hc alpha, hs.den h hc hα]
  have h2 : ∀ l, devpVariance alpha t a l = devpVariance alpha t b l := by
    intro l
    have : ∀ f d, devpSum alpha t a f d = devpSum alpha t b f d := by
      intro f d
      unfold devpSum
      congr 1
      apply List.map_congr_left
      intro o ho
      rw [hs.wCat h hc hα ho]
    unfold devpVariance
    simp only [this, hs.ad, hs.bd]
  have h3 : ∀ l, ldfVariance alpha t a l = ldfVariance alpha t b l := by
    intro l
    have : ∀ d, a.origins.map (fun o => a.modInd.at' o d * (t.modTri.powT alpha).at' o d) =
        b.origins.map (fun o => b.modInd.at' o d * (t.modTri.powT alpha).at' o d) := by
      intro d
      rw [hs.ao, hs.bo]
      apply List.map_congr_left
      intro o ho
      exact hs.wCat h hc hα ho
    unfold ldfVariance
    simp only [this, hs.ad, hs.bd]
  unfold mackCore
  rw [h1]
  simp only [h2, h3]

end

/-- **C157 for averages.** In any history of assignments within the table of link ratios, the assignments to link ratios
that do not exist can be left out: `a2a_avgs()` returns the same. -/
theorem C157_avgs (gm : List (Num K) → Num K) (h : Spec.Stair t n c) (hp : Spec.Positive n c) (l : List (Assign K))
    (hl : ∀ a ∈ l, a.origin ∈ t.a2a.origins ∧ a.dev ∈ t.a2a.devs) :
    ∃ s s', IndState.assignAll (IndState.read { tri := t }).1 l = .ok s ∧
      IndState.assignAll (IndState.read { tri := t }).1 (l.filter (Spec.observed t n)) = .ok s' ∧
      (s.avgs gm).2 = (s'.avgs gm).2 := by
  obtain ⟨f, g, h1, h2, hs⟩ := history_observed h hp.ne_zero l hl
  exact ⟨_, _, h1, h2, hs.avgs h hp.ne_zero gm⟩

/-- **C157 for Mack, part that holds.** The same for every result of `mack_cl` with `alpha >= 1`.  Missing: `alpha = 0`
(`C157_alpha0_fails`). -/
theorem C157_mack_partial (h : Spec.Stair t n c) (hp : Spec.Positive n c) (l : List (Assign K))
    (hl : ∀ a ∈ l, a.origin ∈ t.a2a.origins ∧ a.dev ∈ t.a2a.devs) {alpha : ℕ} (hα : 1 ≤ alpha) :
    ∃ s s', IndState.assignAll (IndState.read { tri := t }).1 l = .ok s ∧
      IndState.assignAll (IndState.read { tri := t }).1 (l.filter (Spec.observed t n)) = .ok s' ∧
      (s.mackCl alpha).2 = (s'.mackCl alpha).2 := by
  obtain ⟨f, g, h1, h2, hs⟩ := history_observed h hp.ne_zero l hl
  refine ⟨_, _, h1, h2, ?_⟩
  rw [mackCl_eq, mackCl_eq]
  exact hs.mack h hp.ne_zero hα

/-! ### `alpha = 0` -/

theorem sumSkip_one {m i : ℕ} (hi : i < m) {x y : ℕ → Num K} {v : K} (hx : x i = .nan) (hy : y i = .fin v)
    (he : ∀ k < m, k ≠ i → y k = x k) :
    Num.sumSkip ((List.range m).map y) = Num.sumSkip ((List.range m).map x) + .fin v := by
  induction m with
  | zero => omega
  | succ m ih =>
    rw [List.range_succ, List.map_append, List.map_append, Num.sumSkip_append, Num.sumSkip_append,
      List.map_singleton, List.map_singleton]
    by_cases e : i = m
    · subst e
      have : (List.range i).map y = (List.range i).map x :=
        List.map_congr_left fun k hk => he k (by have := List.mem_range.1 hk; omega) (by have := List.mem_range.1 hk; omega)
      rw [this, hx, hy, Num.sumSkip_cons_fin, Num.sumSkip_nil, Num.sumSkip_cons_nan, Num.sumSkip_nil, add_zero, add_zero]
    · rw [ih (by omega) (fun k hk hki => he k (by omega) hki), he m (by omega) (by omega)]
      rw [add_right_comm]

/-- **C157 fails for `alpha = 0`.** Setting the indicator of a link ratio that does not exist to one divides the sum of
the link ratios of the period by one more than their number (`nan ** 0` is 1), so that the factor is too small. -/
theorem C157_alpha0_fails (h : Spec.Stair t n c) (hp : Spec.Positive n c) (hn : 3 ≤ n) {i j : ℕ} (hi : i < n - 1)
    (hj : j < n - 1) (hij : n ≤ i + j + 1) :
    ∃ s f, IndState.assign (IndState.read { tri := t }).1 ⟨t.oAt i, t.dAt j, .fin 1⟩ = .ok s ∧
      mackLdfs 0 t s.read.2 1 = .ok f ∧
      f[j]? = some (t.dAt j, .fin ((Spec.ratios n c j).sum / ((n - 1 - j : ℕ) + 1))) ∧
      (Spec.ratios n c j).sum / ((n - 1 - j : ℕ) + 1) < (Spec.ratios n c j).sum / (n - 1 - j : ℕ) := by
  have hc := hp.ne_zero
  obtain ⟨hao, had, hac⟩ := h.a2a_spec hc
  have h0 := h.indW0 hc
  have hmo : t.oAt i ∈ t.a2aind0.origins := by
    change t.oAt i ∈ t.a2a.origins; rw [hao]; exact List.mem_map_of_mem (List.mem_range.2 hi)
  have hmd : t.dAt j ∈ t.a2aind0.devs := by
    change t.dAt j ∈ t.a2a.devs; rw [had]; exact List.mem_map_of_mem (List.mem_range.2 hj)
  set b := t.a2aind0.setAt (t.oAt i) (t.dAt j) (.fin 1) with hb
  have hbo : b.origins = t.a2a.origins := by rw [hb]; unfold Tri.setAt; simp only; rw [if_pos hmo]; rfl
  have hbd : b.devs = t.a2a.devs := by rw [hb]; unfold Tri.setAt; simp only; rw [if_pos hmd]; rfl
  have hbcell : ∀ k < n - 1, ∀ l < n - 1, b.cell k l = if k = i ∧ l = j then .fin 1 else t.a2aind0.cell k l := by
    intro k hk l hl
    rw [hb]
    unfold Tri.setAt
    simp only
    rw [if_pos hmo, if_pos hmd]
    have e1 : t.a2aind0.origins[k]? = some (t.oAt k) := by
      change t.a2a.origins[k]? = _; rw [hao, List.getElem?_map, List.getElem?_range hk]; rfl
    have e2 : t.a2aind0.devs[l]? = some (t.dAt l) := by
      change t.a2a.devs[l]? = _; rw [had, List.getElem?_map, List.getElem?_range hl]; rfl
    rw [e1, e2]
    have e3 : (some (t.oAt k) = some (t.oAt i) ∧ some (t.dAt l) = some (t.dAt j)) ↔ (k = i ∧ l = j) := by
      constructor
      · rintro ⟨x, y⟩
        exact ⟨h.oAt_inj (by omega) (by omega) (Option.some.inj x), h.dAt_inj (by omega) (by omega) (Option.some.inj y)⟩
      · rintro ⟨rfl, rfl⟩; exact ⟨rfl, rfl⟩
    simp only [e3]
    have e4 : k < t.a2aind0.nr ∧ l < t.a2aind0.nc := by
      change k < t.a2a.nr ∧ l < t.a2a.nc
      rw [h.a2a_nr hc, h.a2a_nc hc]; exact ⟨hk, hl⟩
    by_cases e : k = i ∧ l = j
    · rw [if_pos e, if_pos e]
    · rw [if_neg e, if_neg e, if_pos e4]
  have hs : SameOn t n b t.a2aind0 := by
    refine ⟨hbo, hbd, rfl, rfl, ?_⟩
    intro k l hkl
    rw [hbcell k (by omega) l (by omega), if_neg (by rintro ⟨rfl, rfl⟩; omega)]
  -- numerators
  have hnum := (hs.num h hc 0).trans (mackNum h hc h0 0)
  -- denominators
  have hden := colSums_eq (a := Tri.alignOp (· * ·) b.modInd (t.modTri.powT 0)) (m := n - 1) (dl := t.dAt)
    (g := fun l => Num.sumSkip ((Tri.alignOp (· * ·) b.modInd (t.modTri.powT 0)).col l))
    (by
      rw [alignOp_same (fun x1 x2 => x1 * x2) (a := b.modInd) (b := t.modTri.powT 0)
        ((hbo.trans hao).trans h.modTri.1.symm) ((hbd.trans had).trans h.modTri.2.1.symm)]
      exact hbd.trans had) (fun _ _ => rfl)
  have hdj : Num.sumSkip ((Tri.alignOp (· * ·) b.modInd (t.modTri.powT 0)).col j) =
      .fin (((n - 1 - j : ℕ) : K) + 1) := by
    rw [alignOp_same (fun x1 x2 => x1 * x2) (a := b.modInd) (b := t.modTri.powT 0)
        ((hbo.trans hao).trans h.modTri.1.symm) ((hbd.trans had).trans h.modTri.2.1.symm)]
    unfold Tri.col
    have hnr : ({ b.modInd with cell := (fun i j => b.modInd.cell i j * (t.modTri.powT 0).cell i j) } : Tri K).nr =
        n - 1 := by
      show b.origins.length = n - 1
      rw [hbo, hao]; simp
    rw [hnr]
    have hone : ∀ k l, (t.modTri.powT 0).cell k l = .fin 1 := by
      intro k l
      unfold Tri.powT; simp only
      cases t.modTri.cell k l <;> simp [Num.pow]
    have hmod : ∀ k < n - 1, k ≠ i → b.modInd.cell k j = t.a2aind0.modInd.cell k j := by
      intro k hk hki
      have e := hbcell k hk j hj
      rw [if_neg (fun hh => hki hh.1)] at e
      unfold Tri.modInd; simp only
      rw [e]
    rw [sumSkip_one (x := fun k => t.a2aind0.modInd.cell k j * (t.modTri.powT 0).cell k j) hi (v := 1)]
    · rw [sumSkip_range (n := n) (j := j) (g := fun _ => (1 : K)) (by omega)]
      · rw [Num.fin_add]; unfold Spec.colSum; simp
      · intro k hk
        left
        rw [h0.modInd.1 k j hk, hone]; simp
      · intro k hk hkj
        rw [h0.modInd.2 k hk j hj hkj, Num.nan_mul]
    · show t.a2aind0.modInd.cell i j * _ = _
      rw [h0.modInd.2 i hi j hj hij, Num.nan_mul]
    · show b.modInd.cell i j * _ = _
      have e := hbcell i hi j hj
      rw [if_pos ⟨rfl, rfl⟩] at e
      rw [hone]
      unfold Tri.modInd; simp only
      rw [e, Num.zero_def, Num.eqF_fin]
      simp
    · intro k hk hki
      show b.modInd.cell k j * _ = t.a2aind0.modInd.cell k j * _
      rw [hmod k hk hki]
  have htake := h.take_devs
  have hlen : (t.devs.take (n - 1)).length = n - 1 := by rw [htake]; simp
  obtain ⟨lab, hl1, hl2⟩ := tailLabel_spec (h.devs.sublist (List.take_sublist (n - 1) _)) (by rw [hlen]; omega)
  have hsum : Spec.colSum n j (fun i => (1 : K) * c i j ^ 0 * (c i (j + 1) / c i j)) = (Spec.ratios n c j).sum := by
    unfold Spec.colSum Spec.ratios
    rw [← list_range_sum]
    simp
  have hm : (0 : K) < ((n - 1 - j : ℕ) : K) := Nat.cast_pos.2 (by omega)
  refine ⟨_, Ser.locSet ((List.range (n - 1)).map (fun l => (t.dAt l,
      Num.fin (Spec.colSum n l (fun i => (1 : K) * c i l ^ 0 * (c i (l + 1) / c i l))) /
        Num.sumSkip ((Tri.alignOp (· * ·) b.modInd (t.modTri.powT 0)).col l)))) lab 1, rfl, ?_, ?_, ?_⟩
  · show mackLdfs 0 t b 1 = _
    unfold mackLdfs
    simp only
    rw [hnum, hden]
    unfold Ser.divS
    rw [if_pos (by rw [List.map_map, List.map_map]; rfl), List.zipWith_map, List.zipWith_self]
    simp only [List.map_map]
    have : (List.range (n - 1)).map (Prod.fst ∘ fun l => (t.dAt l,
        Num.fin (Spec.colSum n l (fun i => (1 : K) * c i l ^ 0 * (c i (l + 1) / c i l))) /
        Num.sumSkip ((Tri.alignOp (· * ·) b.modInd (t.modTri.powT 0)).col l))) = t.devs.take (n - 1) := by
      rw [htake]; rfl
    rw [this, hl1]
    rfl
  · unfold Ser.locSet
    rw [if_neg]
    · rw [List.getElem?_append_left (by simpa using hj), List.getElem?_map, List.getElem?_range hj]
      simp only [Option.map_some]
      rw [hdj, hsum, Num.fin_div _ _ (by positivity)]
    · rw [List.map_map]
      intro hmem
      have : (List.range (n - 1)).map t.dAt = t.devs.take (n - 1) := htake.symm
      exact lt_irrefl _ (hl2 _ (this ▸ hmem))
  · have hpos : 0 < (Spec.ratios n c j).sum := by
      unfold Spec.ratios
      rw [list_range_sum]
      apply Finset.sum_pos
      · intro k hk
        rw [Finset.mem_range] at hk
        exact div_pos (hp k (j + 1) (by omega)) (hp k j (by omega))
      · exact ⟨0, Finset.mem_range.2 (by omega)⟩
    exact div_lt_div_of_pos_left hpos hm (by linarith)

/-- Both parts on the example: one real exclusion and two entries for link ratios that do not exist. -/
def exHist : List (Assign ℚ) :=
  [⟨exTri.oAt 2, exTri.dAt 2, .fin 1⟩, ⟨exTri.oAt 0, exTri.dAt 0, .fin 0⟩, ⟨exTri.oAt 1, exTri.dAt 2, .fin 1⟩]

example : exHist.filter (Spec.observed exTri 4) = [⟨exTri.oAt 0, exTri.dAt 0, .fin 0⟩] := rfl

example : ∃ s s', IndState.assignAll (IndState.read { tri := exTri }).1 exHist = .ok s ∧
    IndState.assignAll (IndState.read { tri := exTri }).1 (exHist.filter (Spec.observed exTri 4)) = .ok s' ∧
    (s.mackCl 1).2 = (s'.mackCl 1).2 :=
  C157_mack_partial exTri_stair exVals_pos exHist (by decide +kernel) le_rfl

end Trikit
