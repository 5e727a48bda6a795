import Verif.Mack
import Verif.Props.Base

/-! # Lemmas on the Mack model -/

set_option linter.unusedSectionVars false

namespace Trikit

variable {K : Type}

/-! ### the reduced triangle -/

section
variable [Field K] [LinearOrder K]

theorem keepIdx_rows {t : Tri K} {n m : ℕ} {p : ℕ → ℕ → Prop} [DecidableRel p]
    (hnr : t.nr = n) (hm : m ≤ n)
    (hcell : ∀ i < n, ∀ j < t.nc, t.cell i j ≠ .nan ↔ p i j)
    (hp : ∀ i < n, (∃ j < t.nc, p i j) ↔ i < m) :
    Tri.keepIdx t.nr (fun i => (List.range t.nc).any (fun j => !(t.cell i j).isNaN)) =
      List.range m := by
  rw [hnr]
  apply keepIdx_lt hm
  intro i hi
  rw [List.any_eq_true, ← hp i hi]
  constructor
  · rintro ⟨j, hj, hn⟩
    rw [List.mem_range] at hj
    refine ⟨j, hj, (hcell i hi j hj).1 ?_⟩
    rw [← Num.isNaN_false_iff]; simpa using hn
  · rintro ⟨j, hj, hn⟩
    refine ⟨j, List.mem_range.2 hj, ?_⟩
    have := (hcell i hi j hj).2 hn
    rw [← Num.isNaN_false_iff] at this
    simpa using this

theorem keepIdx_cols {t : Tri K} {n m : ℕ} {p : ℕ → ℕ → Prop} [DecidableRel p]
    (hnc : t.nc = n) (hm : m ≤ n)
    (hcell : ∀ i < t.nr, ∀ j < n, t.cell i j ≠ .nan ↔ p i j)
    (hp : ∀ j < n, (∃ i < t.nr, p i j) ↔ j < m) :
    Tri.keepIdx t.nc (fun j => (List.range t.nr).any (fun i => !(t.cell i j).isNaN)) =
      List.range m := by
  rw [hnc]
  apply keepIdx_lt hm
  intro j hj
  rw [List.any_eq_true, ← hp j hj]
  constructor
  · rintro ⟨i, hi, hn⟩
    rw [List.mem_range] at hi
    refine ⟨i, hi, (hcell i hi j hj).1 ?_⟩
    rw [← Num.isNaN_false_iff]; simpa using hn
  · rintro ⟨i, hi, hn⟩
    refine ⟨i, List.mem_range.2 hi, ?_⟩
    have := (hcell i hi j hj).2 hn
    rw [← Num.isNaN_false_iff] at this
    simpa using this

theorem Spec.Stair.modTri {t : Tri K} {n : ℕ} {c : ℕ → ℕ → K} (h : Spec.Stair t n c) :
    t.modTri.origins = (List.range (n - 1)).map t.oAt ∧
    t.modTri.devs = (List.range (n - 1)).map t.dAt ∧
    ∀ i < n - 1, ∀ j < n - 1, t.modTri.cell i j = if i + j + 1 < n then .fin (c i j) else .nan := by
  set a : Tri K := { t with cell := fun i j => if t.rlvi i = some j then .nan else t.cell i j } with ha
  have hcell : ∀ i < n, ∀ j < n, a.cell i j = if i + j + 1 < n then .fin (c i j) else .nan := by
    intro i hi j hj
    show (if t.rlvi i = some j then Num.nan else t.cell i j) = _
    rw [h.staircase.rlvi hi]
    by_cases e : i + j + 1 < n
    · rw [if_neg (by simp; omega), if_pos e, h.obs i j (by omega)]
    · rw [if_neg e]
      by_cases e' : n - 1 - i = j
      · rw [if_pos (by rw [e'])]
      · rw [if_neg (by simp; omega), h.miss i j hi hj (by omega)]
  have hnr : a.nr = n := h.nr
  have hnc : a.nc = n := h.nc
  have hk1 := keepIdx_rows (t := a) (n := n) (m := n - 1) (p := fun i j => i + j + 1 < n) hnr
    (by omega) (by
      intro i hi j hj
      rw [hnc] at hj
      rw [hcell i hi j hj]
      by_cases e : i + j + 1 < n <;> simp [e]) (by
      intro i hi
      rw [hnc]
      constructor
      · rintro ⟨j, _, hj⟩; omega
      · intro hi'; exact ⟨0, by omega, by omega⟩)
  set b : Tri K := a.dropNaNRows with hb
  have hbo : b.origins = (List.range (n - 1)).map t.oAt := by
    rw [hb]; unfold Tri.dropNaNRows; simp only; rw [hk1]; rfl
  have hbd : b.devs = t.devs := rfl
  have hbcell : ∀ i < n - 1, ∀ j < n, b.cell i j = if i + j + 1 < n then .fin (c i j) else .nan := by
    intro i hi j hj
    rw [hb]; unfold Tri.dropNaNRows; simp only; rw [hk1]
    simp only [List.getElem?_range hi]
    exact hcell i (by omega) j hj
  have hbnr : b.nr = n - 1 := by unfold Tri.nr; rw [hbo]; simp
  have hbnc : b.nc = n := h.nc
  have hk2 := keepIdx_cols (t := b) (n := n) (m := n - 1) (p := fun i j => i + j + 1 < n) hbnc
    (by omega) (by
      intro i hi j hj
      rw [hbnr] at hi
      rw [hbcell i hi j hj]
      by_cases e : i + j + 1 < n <;> simp [e]) (by
      intro j hj
      rw [hbnr]
      constructor
      · rintro ⟨i, _, hi⟩; omega
      · intro hj'; exact ⟨0, by omega, by omega⟩)
  have hm : t.modTri = b.dropNaNCols := rfl
  rw [hm]
  unfold Tri.dropNaNCols
  simp only
  rw [hk2]
  refine ⟨hbo, rfl, ?_⟩
  intro i hi j hj
  simp only [List.getElem?_range hj]
  exact hbcell i hi j (by omega)

/-! ### indicators -/

/-- An indicator frame with weights `w` at observed link ratios and 0 or NaN elsewhere. -/
structure IndW (t ind : Tri K) (n : ℕ) (w : ℕ → ℕ → K) : Prop extends IndOn t ind n w where
  miss : ∀ i < n - 1, ∀ j < n - 1, n ≤ i + j + 1 → ind.cell i j = 0 ∨ ind.cell i j = .nan

theorem Spec.Stair.indW0 {t : Tri K} {n : ℕ} {c : ℕ → ℕ → K} (h : Spec.Stair t n c)
    (hc : ∀ i j, i + j < n → c i j ≠ 0) : IndW t t.a2aind0 n (fun _ _ => 1) := by
  refine ⟨h.indOn0 hc, ?_⟩
  intro i hi j hj hij
  left
  unfold Tri.a2aind0
  simp only
  rw [(h.a2a_spec hc).2.2 i hi j hj, if_neg (show ¬ i + j + 1 < n by omega)]
  rfl

theorem IndW.modInd {t ind : Tri K} {n : ℕ} {w : ℕ → ℕ → K} (hi : IndW t ind n w) :
    (∀ i j, i + j + 1 < n → ind.modInd.cell i j = if w i j = 0 then .nan else .fin (w i j)) ∧
    ∀ i < n - 1, ∀ j < n - 1, n ≤ i + j + 1 → ind.modInd.cell i j = .nan := by
  constructor
  · intro i j hij
    unfold Tri.modInd
    simp only
    rw [hi.vals i j hij, Num.zero_def, Num.eqF_fin]
    by_cases e : w i j = 0 <;> simp [e]
  · intro i h1 j h2 h3
    unfold Tri.modInd
    simp only
    rcases hi.miss i h1 j h2 h3 with e | e <;> rw [e]
    · rw [Num.zero_def, Num.eqF_fin]; simp
    · simp

theorem idxOf_map_range {f : ℕ → Int} {m : ℕ} (hinj : ∀ i < m, ∀ j < m, f i = f j → i = j) {i : ℕ}
    (hi : i < m) : ((List.range m).map f).idxOf (f i) = i := by
  have hnd : ((List.range m).map f).Nodup := by
    rw [List.nodup_map_iff_inj_on List.nodup_range]
    intro a ha b hb
    exact hinj a (List.mem_range.1 ha) b (List.mem_range.1 hb)
  have hl : i < ((List.range m).map f).length := by simpa using hi
  have := hnd.idxOf_getElem i hl
  simpa using this

theorem Spec.Stair.oAt_inj {t : Tri K} {n : ℕ} {c : ℕ → ℕ → K} (h : Spec.Stair t n c) {i j : ℕ}
    (hi : i < n) (hj : j < n) (e : t.oAt i = t.oAt j) : i = j := by
  have h1 := h.oAt_get hi
  have h2 := h.oAt_get hj
  rw [e, ← h2] at h1
  exact (List.getElem?_inj (by rw [← h.nr] at hi; exact hi) h.origins.nodup).1 h1

theorem Spec.Stair.dAt_inj {t : Tri K} {n : ℕ} {c : ℕ → ℕ → K} (h : Spec.Stair t n c) {i j : ℕ}
    (hi : i < n) (hj : j < n) (e : t.dAt i = t.dAt j) : i = j := by
  have h1 := h.dAt_get hi
  have h2 := h.dAt_get hj
  rw [e, ← h2] at h1
  exact (List.getElem?_inj (by rw [← h.nc] at hi; exact hi) h.devs.nodup).1 h1

/-- Label access in a frame carrying the first `n - 1` labels of a staircase. -/
theorem Spec.Stair.at_eq {t a : Tri K} {n : ℕ} {c : ℕ → ℕ → K} (h : Spec.Stair t n c)
    (ho : a.origins = (List.range (n - 1)).map t.oAt) (hd : a.devs = (List.range (n - 1)).map t.dAt)
    {i j : ℕ} (hi : i < n - 1) (hj : j < n - 1) : a.at' (t.oAt i) (t.dAt j) = a.cell i j := by
  unfold Tri.at'
  rw [ho, hd, if_pos ⟨List.mem_map_of_mem (List.mem_range.2 hi),
    List.mem_map_of_mem (List.mem_range.2 hj)⟩,
    idxOf_map_range (fun a ha b hb => h.oAt_inj (by omega) (by omega)) hi,
    idxOf_map_range (fun a ha b hb => h.dAt_inj (by omega) (by omega)) hj]

/-! ### sums over included link ratios -/

/-- Sum over the origins with observed link ratio in period `j`. -/
def Spec.colSum (n j : ℕ) (g : ℕ → K) : K := ∑ i ∈ Finset.range (n - 1 - j), g i

/-- A skipped sum whose terms are missing (with zero value of `g`) or `g`. -/
theorem sumSkip_range {n j : ℕ} {x : ℕ → Num K} {g : ℕ → K} (hj : j ≤ n - 1)
    (h1 : ∀ i, i + j + 1 < n → x i = .fin (g i) ∨ (x i = .nan ∧ g i = 0))
    (h2 : ∀ i < n - 1, n ≤ i + j + 1 → x i = .nan) :
    Num.sumSkip ((List.range (n - 1)).map x) = .fin (Spec.colSum n j g) := by
  have e : n - 1 = (n - 1 - j) + j := by omega
  rw [e, List.range_add, List.map_append, Num.sumSkip_append]
  have hz : Num.sumSkip (((List.range j).map (fun k => n - 1 - j + k)).map x) = 0 := by
    have : ((List.range j).map (fun k => n - 1 - j + k)).map x = List.replicate j .nan := by
      rw [List.eq_replicate_iff]
      refine ⟨by simp, ?_⟩
      intro b hb
      obtain ⟨y, hy, rfl⟩ := List.mem_map.1 hb
      obtain ⟨k, hk, rfl⟩ := List.mem_map.1 hy
      rw [List.mem_range] at hk
      exact h2 _ (by omega) (by omega)
    rw [this]
    clear this e
    clear h2 h1 hj
    induction j with
    | zero => rfl
    | succ j ih => rw [List.replicate_succ, Num.sumSkip_cons_nan, ih]
  rw [hz, add_zero]
  unfold Spec.colSum
  have h1' : ∀ i < n - 1 - j, x i = .fin (g i) ∨ (x i = .nan ∧ g i = 0) :=
    fun i hi => h1 i (by omega)
  clear h1 h2 hz e hj
  generalize n - 1 - j = m at *
  induction m with
  | zero => rfl
  | succ m ih =>
    rw [List.range_succ, List.map_append, Num.sumSkip_append, ih (fun i hi => h1' i (by omega)),
      Finset.sum_range_succ, List.map_singleton]
    rcases h1' m (by omega) with e | ⟨e, e'⟩
    · rw [e, Num.sumSkip_cons_fin, Num.sumSkip_nil, add_zero, Num.fin_add]
    · rw [e, e', Num.sumSkip_cons_nan, Num.sumSkip_nil, add_zero, add_zero]

/-- Total weight of period `j`. -/
def Spec.mackW (alpha n : ℕ) (c w : ℕ → ℕ → K) (j : ℕ) : K :=
  Spec.colSum n j (fun i => w i j * c i j ^ alpha)

/-- Mack's development factor of period `j` with weight exponent `alpha`: the weighted mean of the
link ratios with weights `w * C^alpha`. -/
def Spec.mackF (alpha n : ℕ) (c w : ℕ → ℕ → K) (j : ℕ) : K :=
  Spec.colSum n j (fun i => w i j * c i j ^ alpha * (c i (j + 1) / c i j)) / Spec.mackW alpha n c w j

/-- Weighted squared deviation of the link ratios of period `j` from `f`. -/
def Spec.sqDev (alpha n : ℕ) (c w : ℕ → ℕ → K) (f : K) (j : ℕ) : K :=
  Spec.colSum n j (fun i => w i j * c i j ^ alpha * (c i (j + 1) / c i j - f) ^ 2)

theorem alignOp_same (f : Num K → Num K → Num K) {a b : Tri K} (ho : a.origins = b.origins)
    (hd : a.devs = b.devs) :
    Tri.alignOp f a b = { a with cell := fun i j => f (a.cell i j) (b.cell i j) } := by
  unfold Tri.alignOp
  rw [if_pos ⟨ho, hd⟩]

theorem colSums_eq {a : Tri K} {m : ℕ} {dl : ℕ → Int} {g : ℕ → Num K}
    (hd : a.devs = (List.range m).map dl)
    (hg : ∀ j < m, Num.sumSkip (a.col j) = g j) :
    a.colSums = (List.range m).map (fun j => (dl j, g j)) := by
  unfold Tri.colSums
  have hnc : a.nc = m := by unfold Tri.nc; rw [hd]; simp
  rw [hnc]
  apply List.map_congr_left
  intro j hj
  rw [List.mem_range] at hj
  rw [hg j hj]
  unfold Tri.dAt
  rw [hd, List.getD_eq_getElem?_getD]
  simp [hj]

variable {t ind : Tri K} {n : ℕ} {c w : ℕ → ℕ → K}

theorem powT_cell (h : Spec.Stair t n c) (alpha : ℕ) {i j : ℕ} (hij : i + j + 1 < n) :
    (t.modTri.powT alpha).cell i j = .fin (c i j ^ alpha) := by
  unfold Tri.powT
  simp only
  rw [h.modTri.2.2 i (by omega) j (by omega), if_pos hij, Num.pow_fin]

/-- Weighted power `w * C^alpha` (mack.py:269, 297). -/
theorem wC_cell (h : Spec.Stair t n c) (hi : IndW t ind n w) (alpha : ℕ) {i j : ℕ}
    (hij : i + j + 1 < n) :
    ind.modInd.cell i j * (t.modTri.powT alpha).cell i j = .fin (w i j * c i j ^ alpha) ∨
    (ind.modInd.cell i j * (t.modTri.powT alpha).cell i j = .nan ∧ w i j = 0) := by
  rw [hi.modInd.1 i j hij, powT_cell h alpha hij]
  by_cases e : w i j = 0
  · right; rw [if_pos e, Num.nan_mul]; exact ⟨rfl, e⟩
  · left; rw [if_neg e, Num.fin_mul]

theorem mackDen (h : Spec.Stair t n c) (hc : ∀ i j, i + j < n → c i j ≠ 0)
    (hi : IndW t ind n w) (alpha : ℕ) :
    (Tri.alignOp (· * ·) ind.modInd (t.modTri.powT alpha)).colSums =
      (List.range (n - 1)).map (fun j => (t.dAt j, .fin (Spec.mackW alpha n c w j))) := by
  have hio : ind.origins = (List.range (n - 1)).map t.oAt := by rw [hi.origins, (h.a2a_spec hc).1]
  have hid : ind.devs = (List.range (n - 1)).map t.dAt := by rw [hi.devs, (h.a2a_spec hc).2.1]
  rw [alignOp_same (fun x1 x2 => x1 * x2) (a := ind.modInd) (b := t.modTri.powT alpha)
    (hio.trans h.modTri.1.symm) (hid.trans h.modTri.2.1.symm)]
  refine colSums_eq (dl := t.dAt) (g := fun j => .fin (Spec.mackW alpha n c w j)) hid ?_
  intro j hj
  unfold Tri.col
  have hnr : ({ ind.modInd with cell := fun i j => ind.modInd.cell i j *
      (t.modTri.powT alpha).cell i j } : Tri K).nr = n - 1 := by
    show ind.origins.length = n - 1
    rw [hio]; simp
  rw [hnr]
  apply sumSkip_range (by omega)
  · intro i hij
    rcases wC_cell h hi alpha hij with e | ⟨e, e'⟩
    · exact Or.inl e
    · exact Or.inr ⟨e, by rw [e', zero_mul]⟩
  · intro i hi' hij
    show ind.modInd.cell i j * _ = _
    rw [hi.modInd.2 i hi' j hj hij, Num.nan_mul]

theorem mackNum (h : Spec.Stair t n c) (hc : ∀ i j, i + j < n → c i j ≠ 0)
    (hi : IndW t ind n w) (alpha : ℕ) :
    (Tri.alignOp (· * ·) (Tri.alignOp (· * ·) t.a2a ind.modInd) (t.modTri.powT alpha)).colSums =
      (List.range (n - 1)).map (fun j => (t.dAt j,
        .fin (Spec.colSum n j (fun i => w i j * c i j ^ alpha * (c i (j + 1) / c i j))))) := by
  obtain ⟨hao, had, hac⟩ := h.a2a_spec hc
  have hio : ind.origins = (List.range (n - 1)).map t.oAt := by rw [hi.origins, hao]
  have hid : ind.devs = (List.range (n - 1)).map t.dAt := by rw [hi.devs, had]
  rw [alignOp_same (fun x1 x2 => x1 * x2) (a := t.a2a) (b := ind.modInd) (hao.trans hio.symm)
    (had.trans hid.symm),
    alignOp_same (fun x1 x2 => x1 * x2) (a :=
      { t.a2a with cell := fun i j => t.a2a.cell i j * ind.modInd.cell i j }) (b := t.modTri.powT alpha)
    (hao.trans h.modTri.1.symm) (had.trans h.modTri.2.1.symm)]
  refine colSums_eq (dl := t.dAt) (g := fun j =>
    .fin (Spec.colSum n j (fun i => w i j * c i j ^ alpha * (c i (j + 1) / c i j)))) had ?_
  intro j hj
  unfold Tri.col
  have hnr : ({ t.a2a with cell := fun i j => t.a2a.cell i j * ind.modInd.cell i j *
      (t.modTri.powT alpha).cell i j } : Tri K).nr = n - 1 := h.a2a_nr hc
  rw [hnr]
  apply sumSkip_range (by omega)
  · intro i hij
    show t.a2a.cell i j * ind.modInd.cell i j * (t.modTri.powT alpha).cell i j = _ ∨
      (t.a2a.cell i j * ind.modInd.cell i j * (t.modTri.powT alpha).cell i j = _ ∧ _)
    rw [hac i (by omega) j hj, if_pos hij, hi.modInd.1 i j hij, powT_cell h alpha hij]
    by_cases e : w i j = 0
    · right; rw [if_pos e, Num.mul_nan, Num.nan_mul, e]; simp
    · left; rw [if_neg e, Num.fin_mul, Num.fin_mul]; congr 1; ring
  · intro i hi' hij
    show t.a2a.cell i j * _ * _ = _
    rw [hac i hi' j hj, if_neg (by omega), Num.nan_mul, Num.nan_mul]

/-- The factors of `mack_cl` on a staircase. -/
theorem mackLdfs_stair (h : Spec.Stair t n c) (hc : ∀ i j, i + j < n → c i j ≠ 0)
    (hi : IndW t ind n w) (hn : 3 ≤ n) (alpha : ℕ)
    (hw : ∀ j < n - 1, Spec.mackW alpha n c w j ≠ 0) (tail : K) :
    ∃ lab, tailLabel (t.devs.take (n - 1)) = .ok lab ∧ (∀ j < n - 1, t.dAt j < lab) ∧
      mackLdfs alpha t ind (.fin tail) = .ok ((t.devs.take (n - 1) ++ [lab]).zip
        ((List.range n).map (fun j => .fin (Spec.withTail (Spec.mackF alpha n c w) n tail j)))) := by
  have htake : t.devs.take (n - 1) = (List.range (n - 1)).map t.dAt := by
    conv_lhs => rw [h.devs_eq]
    rw [← List.map_take, List.take_range]
    congr 2; omega
  have hdiv : Ser.divS
      ((List.range (n - 1)).map (fun j => (t.dAt j, (Num.fin (Spec.colSum n j
        (fun i => w i j * c i j ^ alpha * (c i (j + 1) / c i j))) : Num K))))
      ((List.range (n - 1)).map (fun j => (t.dAt j, .fin (Spec.mackW alpha n c w j)))) =
      (List.range (n - 1)).map (fun j => (t.dAt j, .fin (Spec.mackF alpha n c w j))) := by
    unfold Ser.divS
    rw [if_pos (by rw [List.map_map, List.map_map]; rfl)]
    rw [List.zipWith_map, List.zipWith_self]
    apply List.map_congr_left
    intro j hj
    rw [List.mem_range] at hj
    simp only
    rw [Num.fin_div _ _ (hw j hj)]
    rfl
  have hfst : ((List.range (n - 1)).map (fun j =>
      (t.dAt j, (Num.fin (Spec.mackF alpha n c w j) : Num K)))).map Prod.fst =
      t.devs.take (n - 1) := by rw [htake, List.map_map]; rfl
  have hinc : Spec.Increasing (t.devs.take (n - 1)) := h.devs.sublist (List.take_sublist _ _)
  have hlen : (t.devs.take (n - 1)).length = n - 1 := by rw [htake]; simp
  obtain ⟨lab, h1, h2⟩ := tailLabel_spec hinc (by rw [hlen]; omega)
  refine ⟨lab, h1, ?_, ?_⟩
  · intro j hj
    apply h2
    rw [htake]
    exact List.mem_map_of_mem (List.mem_range.2 hj)
  · unfold mackLdfs
    simp only
    rw [mackNum h hc hi alpha, mackDen h hc hi alpha, hdiv, hfst, h1]
    show Except.ok _ = Except.ok _
    congr 1
    unfold Ser.locSet
    rw [hfst, if_neg (fun hm => lt_irrefl _ (h2 _ hm))]
    obtain ⟨m, rfl⟩ : ∃ m, n = m + 1 := ⟨n - 1, by omega⟩
    rw [List.range_succ, List.map_append, List.zip_append (by rw [hlen]; simp), htake]
    congr 1
    · rw [Nat.add_sub_cancel, List.zip_map']
      apply List.map_congr_left
      intro j hj
      rw [List.mem_range] at hj
      unfold Spec.withTail
      rw [if_pos (by omega)]
    · simp [Spec.withTail]

end
end Trikit
