import Verif.BootShapes
import Verif.MackCore

/-! # `mack_cl` on triangles that are not staircases: lemmas -/

set_option linter.unusedSectionVars false

namespace Trikit

variable {K : Type} [Field K] [LinearOrder K]
variable {t ind : Tri K} {n m : ℕ} {len : ℕ → ℕ} {c w : ℕ → ℕ → K}

theorem Spec.hgt_anti {n : ℕ} {len : ℕ → ℕ} {j k : ℕ} (h : j ≤ k) :
    Spec.hgt n len k ≤ Spec.hgt n len j := by
  unfold Spec.hgt
  exact Nat.count_mono_left (fun i _ hi => by omega)

theorem sumSkip_head {H p : ℕ} (hp : p ≤ H) {x : ℕ → Num K} {g : ℕ → K}
    (h1 : ∀ i < p, x i = .fin (g i) ∨ (x i = .nan ∧ g i = 0))
    (h2 : ∀ i < H, p ≤ i → x i = .nan) :
    Num.sumSkip ((List.range H).map x) = .fin (∑ i ∈ Finset.range p, g i) := by
  have := sumSkip_range (n := H + 1) (j := H - p) (x := x) (g := g) (by omega)
    (fun i hi => h1 i (by omega)) (fun i hi hi' => h2 i (by omega) (by omega))
  unfold Spec.colSum at this
  rw [show H + 1 - 1 - (H - p) = p by omega] at this
  exact this

theorem Spec.Young.a2a_spec (h : Spec.Young t n m len c) (hc : ∀ i < n, ∀ j < len i, c i j ≠ 0)
    (hm : 2 ≤ m) :
    t.a2a.origins = (List.range (Spec.hgt n len 1)).map t.oAt ∧
    ∀ i < Spec.hgt n len 1, ∀ j < m - 1, t.a2a.cell i j =
      if j + 1 < len i then .fin (c i (j + 1) / c i j) else .nan := by
  have hH := Spec.hgt_le n len 1
  have hkc : Tri.keepIdx t.linkRatios.nc
      (fun j => (List.range t.linkRatios.nr).any (fun i => !(t.linkRatios.cell i j).isNaN)) =
      List.range (m - 1) := by
    refine keepIdx_cols (n := m) (p := fun i j => j + 1 < len i) h.nc (by omega) ?_ ?_
    · intro i hi j hj
      have hi' : i < n := by rw [← h.nr]; exact hi
      rw [h.linkRatios hc hi' hj]
      by_cases e : j + 1 < len i <;> simp [e]
    · intro j hj
      have hnr : t.linkRatios.nr = n := h.nr
      rw [hnr]
      constructor
      · rintro ⟨i, hi, hl⟩
        have := h.len_le hi
        omega
      · intro hj'
        exact ⟨0, h.ne, by rw [h.full]; omega⟩
  have hcell : ∀ i < n, ∀ j < m - 1, t.linkRatios.dropNaNCols.cell i j =
      if j + 1 < len i then .fin (c i (j + 1) / c i j) else .nan := by
    intro i hi j hj
    unfold Tri.dropNaNCols
    simp only
    rw [hkc]
    simp only [List.getElem?_range hj]
    exact h.linkRatios hc hi (by omega)
  have hnc : t.linkRatios.dropNaNCols.nc = m - 1 := by
    unfold Tri.nc Tri.dropNaNCols
    simp only
    rw [hkc]; simp
  have hkr : Tri.keepIdx t.linkRatios.dropNaNCols.nr
      (fun i => (List.range t.linkRatios.dropNaNCols.nc).any
        (fun j => !(t.linkRatios.dropNaNCols.cell i j).isNaN)) = List.range (Spec.hgt n len 1) := by
    refine keepIdx_rows (n := n) (p := fun i j => j + 1 < len i) h.nr hH ?_ ?_
    · intro i hi j hj
      rw [hnc] at hj
      rw [hcell i hi j hj]
      by_cases e : j + 1 < len i <;> simp [e]
    · intro i hi
      rw [hnc, h.lt_hgt 1 hi]
      constructor
      · rintro ⟨j, hj, hl⟩; omega
      · intro hl; exact ⟨0, by omega, by omega⟩
  refine ⟨?_, ?_⟩
  · unfold Tri.a2a
    rw [Tri.dropNaNRows]
    simp only
    rw [hkr]; rfl
  · intro i hi j hj
    unfold Tri.a2a
    rw [Tri.dropNaNRows]
    simp only
    rw [hkr]
    simp only [List.getElem?_range hi]
    exact hcell i (by omega) j hj

theorem Spec.Young.modTri (h : Spec.Young t n m len c) (hm : 2 ≤ m) :
    t.modTri.origins = (List.range (Spec.hgt n len 1)).map t.oAt ∧
    ∀ i < Spec.hgt n len 1, ∀ j < m - 1, t.modTri.cell i j =
      if j + 1 < len i then .fin (c i j) else .nan := by
  have hH := Spec.hgt_le n len 1
  set a : Tri K := { t with cell := fun i j => if t.rlvi i = some j then .nan else t.cell i j } with ha
  have hcell : ∀ i < n, ∀ j < m, a.cell i j = if j + 1 < len i then .fin (c i j) else .nan := by
    intro i hi j hj
    have h1 := h.one i hi
    show (if t.rlvi i = some j then Num.nan else t.cell i j) = _
    rw [h.rlvi hi]
    by_cases e : j + 1 < len i
    · rw [if_neg (by simp; omega), if_pos e, h.obs i hi j (by omega)]
    · rw [if_neg e]
      by_cases e' : len i - 1 = j
      · rw [if_pos (by rw [e'])]
      · rw [if_neg (by simpa using e'), h.miss i hi j hj (by omega)]
  have hnr : a.nr = n := h.nr
  have hnc : a.nc = m := h.nc
  have hk1 := keepIdx_rows (t := a) (n := n) (m := Spec.hgt n len 1) (p := fun i j => j + 1 < len i) hnr
    hH (by
      intro i hi j hj
      rw [hnc] at hj
      rw [hcell i hi j hj]
      by_cases e : j + 1 < len i <;> simp [e]) (by
      intro i hi
      rw [hnc, h.lt_hgt 1 hi]
      constructor
      · rintro ⟨j, _, hj⟩; omega
      · intro hi'; exact ⟨0, by omega, by omega⟩)
  set b : Tri K := a.dropNaNRows with hb
  have hbo : b.origins = (List.range (Spec.hgt n len 1)).map t.oAt := by
    rw [hb]; unfold Tri.dropNaNRows; simp only; rw [hk1]; rfl
  have hbcell : ∀ i < Spec.hgt n len 1, ∀ j < m, b.cell i j =
      if j + 1 < len i then .fin (c i j) else .nan := by
    intro i hi j hj
    rw [hb]; unfold Tri.dropNaNRows; simp only; rw [hk1]
    simp only [List.getElem?_range hi]
    exact hcell i (by omega) j hj
  have hbnr : b.nr = Spec.hgt n len 1 := by unfold Tri.nr; rw [hbo]; simp
  have hbnc : b.nc = m := h.nc
  have hk2 := keepIdx_cols (t := b) (n := m) (m := m - 1) (p := fun i j => j + 1 < len i) hbnc
    (by omega) (by
      intro i hi j hj
      rw [hbnr] at hi
      rw [hbcell i hi j hj]
      by_cases e : j + 1 < len i <;> simp [e]) (by
      intro j hj
      rw [hbnr]
      constructor
      · rintro ⟨i, hi, hl⟩
        have := h.len_le (i := i) (by omega)
        omega
      · intro hj'
        exact ⟨0, h.hgt_pos (by omega), by rw [h.full]; omega⟩)
  have hmt : t.modTri = b.dropNaNCols := rfl
  rw [hmt]
  unfold Tri.dropNaNCols
  simp only
  rw [hk2]
  refine ⟨hbo, ?_⟩
  intro i hi j hj
  simp only [List.getElem?_range hj]
  exact hbcell i hi j (by omega)

/-- An indicator with weights `w` at the observed link ratios and 0 or NaN elsewhere. -/
structure IndY (t ind : Tri K) (n m : ℕ) (len : ℕ → ℕ) (w : ℕ → ℕ → K) : Prop where
  origins : ind.origins = t.a2a.origins
  devs : ind.devs = t.a2a.devs
  vals : ∀ i < n, ∀ j, j + 1 < len i → ind.cell i j = .fin (w i j)
  miss : ∀ i < Spec.hgt n len 1, ∀ j < m - 1, len i ≤ j + 1 → ind.cell i j = 0 ∨ ind.cell i j = .nan

theorem Spec.Young.indY0 (h : Spec.Young t n m len c) (hc : ∀ i < n, ∀ j < len i, c i j ≠ 0)
    (hm : 2 ≤ m) : IndY t t.a2aind0 n m len (fun _ _ => 1) := by
  refine ⟨rfl, rfl, ?_, ?_⟩
  · intro i hi j hj
    have hl := h.len_le hi
    unfold Tri.a2aind0
    simp only
    rw [(h.a2a_spec hc hm).2 i ((h.lt_hgt 1 hi).2 (by omega)) j (by omega), if_pos hj]
    rfl
  · intro i hi j hj hij
    left
    unfold Tri.a2aind0
    simp only
    rw [(h.a2a_spec hc hm).2 i hi j hj, if_neg (show ¬ j + 1 < len i by omega)]
    rfl

theorem IndY.modInd (hi : IndY t ind n m len w) :
    (∀ i < n, ∀ j, j + 1 < len i → ind.modInd.cell i j = if w i j = 0 then .nan else .fin (w i j)) ∧
    ∀ i < Spec.hgt n len 1, ∀ j < m - 1, len i ≤ j + 1 → ind.modInd.cell i j = .nan := by
  constructor
  · intro i h1 j hij
    unfold Tri.modInd
    simp only
    rw [hi.vals i h1 j hij, Num.zero_def, Num.eqF_fin]
    by_cases e : w i j = 0 <;> simp [e]
  · intro i h1 j h2 h3
    unfold Tri.modInd
    simp only
    rcases hi.miss i h1 j h2 h3 with e | e <;> rw [e]
    · rw [Num.zero_def, Num.eqF_fin]; simp
    · simp

theorem Spec.Young.at_eq {a : Tri K} (h : Spec.Young t n m len c)
    (ho : a.origins = (List.range (Spec.hgt n len 1)).map t.oAt)
    (hd : a.devs = (List.range (m - 1)).map t.dAt)
    {i j : ℕ} (hi : i < Spec.hgt n len 1) (hj : j < m - 1) : a.at' (t.oAt i) (t.dAt j) = a.cell i j := by
  have hH := Spec.hgt_le n len 1
  unfold Tri.at'
  rw [ho, hd, if_pos ⟨List.mem_map_of_mem (List.mem_range.2 hi),
    List.mem_map_of_mem (List.mem_range.2 hj)⟩,
    idxOf_map_range (fun a ha b hb => h.oAt_inj (by omega) (by omega)) hi,
    idxOf_map_range (fun a ha b hb => h.dAt_inj (by omega) (by omega)) hj]

/-- Total weight of the link ratios of period `j`. -/
def Spec.wTot (alpha n : ℕ) (len : ℕ → ℕ) (c w : ℕ → ℕ → K) (j : ℕ) : K :=
  ∑ i ∈ Finset.range (Spec.hgt n len (j + 1)), w i j * c i j ^ alpha

/-- Weighted mean of the link ratios of period `j` (weights `w * C^alpha`). -/
def Spec.wMean (alpha n : ℕ) (len : ℕ → ℕ) (c w : ℕ → ℕ → K) (j : ℕ) : K :=
  (∑ i ∈ Finset.range (Spec.hgt n len (j + 1)), w i j * c i j ^ alpha * (c i (j + 1) / c i j)) /
    Spec.wTot alpha n len c w j

/-- Weighted squared deviations of the link ratios of period `j` from `f`. -/
def Spec.wDev (alpha n : ℕ) (len : ℕ → ℕ) (c w : ℕ → ℕ → K) (f : K) (j : ℕ) : K :=
  ∑ i ∈ Finset.range (Spec.hgt n len (j + 1)), w i j * c i j ^ alpha * (c i (j + 1) / c i j - f) ^ 2

section
variable (h : Spec.Young t n m len c) (hc : ∀ i < n, ∀ j < len i, c i j ≠ 0)
  (hi : IndY t ind n m len w) (hm : 2 ≤ m)
include h hi hm

theorem Spec.Young.wC_cell (alpha : ℕ) {i j : ℕ} (hin : i < n) (hij : j + 1 < len i) :
    (t.modTri.powT alpha).cell i j = .fin (c i j ^ alpha) ∧
    (ind.modInd.cell i j * (t.modTri.powT alpha).cell i j = .fin (w i j * c i j ^ alpha) ∨
    (ind.modInd.cell i j * (t.modTri.powT alpha).cell i j = .nan ∧ w i j = 0)) := by
  have hl := h.len_le hin
  have hp : (t.modTri.powT alpha).cell i j = .fin (c i j ^ alpha) := by
    unfold Tri.powT
    simp only
    rw [(h.modTri hm).2 i ((h.lt_hgt 1 hin).2 (by omega)) j (by omega), if_pos hij, Num.pow_fin]
  refine ⟨hp, ?_⟩
  rw [hi.modInd.1 i hin j hij, hp]
  by_cases e : w i j = 0
  · right; rw [if_pos e, Num.nan_mul]; exact ⟨rfl, e⟩
  · left; rw [if_neg e, Num.fin_mul]

include hc

theorem Spec.Young.wSum (alpha : ℕ) {j : ℕ} (hj : j < m - 1) :
    Num.sumSkip ((List.range (Spec.hgt n len 1)).map (fun i =>
      ind.modInd.cell i j * (t.modTri.powT alpha).cell i j)) = .fin (Spec.wTot alpha n len c w j) := by
  have hH := Spec.hgt_le n len 1
  apply sumSkip_head (Spec.hgt_anti (by omega))
  · intro i hij
    have hin : i < n := by have := Spec.hgt_le n len (j + 1); omega
    rcases (h.wC_cell hi hm alpha hin ((h.lt_hgt (j + 1) hin).1 hij)).2 with e | ⟨e, e'⟩
    · exact Or.inl e
    · exact Or.inr ⟨e, by rw [e', zero_mul]⟩
  · intro i hi' hij
    have hin : i < n := by omega
    have : ¬ (j + 1 < len i) := fun e => by have := (h.lt_hgt (j + 1) hin).2 e; omega
    rw [hi.modInd.2 i hi' j hj (by omega), Num.nan_mul]

theorem Spec.Young.devpSum (alpha : ℕ) (f : K) {j : ℕ} (hj : j < m - 1) :
    devpSum alpha t ind (.fin f) (t.dAt j) = .fin (Spec.wDev alpha n len c w f j) := by
  obtain ⟨hao, hac⟩ := h.a2a_spec hc hm
  have had := h.a2a_devs hc
  have hH := Spec.hgt_le n len 1
  have hio := hi.origins.trans hao
  have hid := hi.devs.trans had
  unfold Trikit.devpSum
  rw [hao, List.map_map]
  have e : (List.range (Spec.hgt n len 1)).map ((fun o => ind.modInd.at' o (t.dAt j) *
      (t.modTri.powT alpha).at' o (t.dAt j) * (t.a2a.at' o (t.dAt j) - .fin f).pow 2) ∘ t.oAt) =
      (List.range (Spec.hgt n len 1)).map (fun i => ind.modInd.cell i j * (t.modTri.powT alpha).cell i j *
        (t.a2a.cell i j - .fin f).pow 2) := by
    apply List.map_congr_left
    intro i hi'
    rw [List.mem_range] at hi'
    simp only [Function.comp_apply]
    rw [h.at_eq (a := ind.modInd) hio hid hi' hj,
      h.at_eq (a := t.modTri.powT alpha) (h.modTri hm).1 (h.modTri_devs hm) hi' hj,
      h.at_eq (a := t.a2a) hao had hi' hj]
  rw [e]
  apply sumSkip_head (Spec.hgt_anti (by omega))
  · intro i hij
    have hin : i < n := by have := Spec.hgt_le n len (j + 1); omega
    have hl := (h.lt_hgt (j + 1) hin).1 hij
    rw [hac i ((h.lt_hgt 1 hin).2 (by omega)) j hj, if_pos hl, Num.fin_sub, Num.pow_fin]
    rcases (h.wC_cell hi hm alpha hin hl).2 with e | ⟨e, e'⟩
    · left; rw [e, Num.fin_mul]
    · right; rw [e, Num.nan_mul, e']; simp
  · intro i hi' hij
    have hin : i < n := by omega
    have : ¬ (j + 1 < len i) := fun e => by have := (h.lt_hgt (j + 1) hin).2 e; omega
    rw [hi.modInd.2 i hi' j hj (by omega), Num.nan_mul, Num.nan_mul]

/-- The factors of `mack_cl` on a triangle of any shape. -/
theorem Spec.Young.mackLdfs (hm3 : 3 ≤ m) (alpha : ℕ)
    (hw : ∀ j < m - 1, Spec.wTot alpha n len c w j ≠ 0) :
    ∃ lab, (∀ j < m - 1, t.dAt j < lab) ∧
      mackLdfs alpha t ind 1 = .ok ((List.range (m - 1)).map (fun j =>
        (t.dAt j, Num.fin (Spec.wMean alpha n len c w j))) ++ [(lab, 1)]) := by
  obtain ⟨hao, hac⟩ := h.a2a_spec hc hm
  have had := h.a2a_devs hc
  have hH := Spec.hgt_le n len 1
  have hio := hi.origins.trans hao
  have hid := hi.devs.trans had
  have hmo := (h.modTri hm).1
  have hmd := h.modTri_devs hm
  have hden : (Tri.alignOp (· * ·) ind.modInd (t.modTri.powT alpha)).colSums =
      (List.range (m - 1)).map (fun j => (t.dAt j, .fin (Spec.wTot alpha n len c w j))) := by
    rw [alignOp_same (fun x1 x2 => x1 * x2) (a := ind.modInd) (b := t.modTri.powT alpha)
      (hio.trans hmo.symm) (hid.trans hmd.symm)]
    refine colSums_eq (dl := t.dAt) (g := fun j => .fin (Spec.wTot alpha n len c w j)) hid ?_
    intro j hj
    unfold Tri.col
    have hnr : ({ ind.modInd with cell := fun i j => ind.modInd.cell i j *
        (t.modTri.powT alpha).cell i j } : Tri K).nr = Spec.hgt n len 1 := by
      show ind.origins.length = _
      rw [hio]; simp
    rw [hnr]
    exact h.wSum hc hi hm alpha hj
  have hnum : (Tri.alignOp (· * ·) (Tri.alignOp (· * ·) t.a2a ind.modInd) (t.modTri.powT alpha)).colSums =
      (List.range (m - 1)).map (fun j => (t.dAt j,
        .fin (∑ i ∈ Finset.range (Spec.hgt n len (j + 1)),
          w i j * c i j ^ alpha * (c i (j + 1) / c i j)))) := by
    rw [alignOp_same (fun x1 x2 => x1 * x2) (a := t.a2a) (b := ind.modInd) (hao.trans hio.symm)
      (had.trans hid.symm),
      alignOp_same (fun x1 x2 => x1 * x2) (a :=
        { t.a2a with cell := fun i j => t.a2a.cell i j * ind.modInd.cell i j }) (b := t.modTri.powT alpha)
      (hao.trans hmo.symm) (had.trans hmd.symm)]
    refine colSums_eq (dl := t.dAt) (g := fun j =>
      .fin (∑ i ∈ Finset.range (Spec.hgt n len (j + 1)),
        w i j * c i j ^ alpha * (c i (j + 1) / c i j))) had ?_
    intro j hj
    unfold Tri.col
    have hnr : ({ t.a2a with cell := fun i j => t.a2a.cell i j * ind.modInd.cell i j *
        (t.modTri.powT alpha).cell i j } : Tri K).nr = Spec.hgt n len 1 := by
      show t.a2a.origins.length = _
      rw [hao]; simp
    rw [hnr]
    apply sumSkip_head (Spec.hgt_anti (by omega))
    · intro i hij
      have hin : i < n := by have := Spec.hgt_le n len (j + 1); omega
      have hl := (h.lt_hgt (j + 1) hin).1 hij
      show t.a2a.cell i j * ind.modInd.cell i j * (t.modTri.powT alpha).cell i j = _ ∨
        (t.a2a.cell i j * ind.modInd.cell i j * (t.modTri.powT alpha).cell i j = _ ∧ _)
      rw [hac i ((h.lt_hgt 1 hin).2 (by omega)) j hj, if_pos hl, hi.modInd.1 i hin j hl,
        (h.wC_cell hi hm alpha hin hl).1]
      by_cases e : w i j = 0
      · right; rw [if_pos e, Num.mul_nan, Num.nan_mul, e]; simp
      · left; rw [if_neg e, Num.fin_mul, Num.fin_mul]; congr 1; ring
    · intro i hi' hij
      have hin : i < n := by omega
      have : ¬ (j + 1 < len i) := fun e => by have := (h.lt_hgt (j + 1) hin).2 e; omega
      show t.a2a.cell i j * _ * _ = _
      rw [hac i hi' j hj, if_neg this, Num.nan_mul, Num.nan_mul]
  have hdiv : Ser.divS
      ((List.range (m - 1)).map (fun j => (t.dAt j, (Num.fin (∑ i ∈ Finset.range (Spec.hgt n len (j + 1)),
          w i j * c i j ^ alpha * (c i (j + 1) / c i j)) : Num K))))
      ((List.range (m - 1)).map (fun j => (t.dAt j, .fin (Spec.wTot alpha n len c w j)))) =
      (List.range (m - 1)).map (fun j => (t.dAt j, .fin (Spec.wMean alpha n len c w j))) := by
    unfold Ser.divS
    rw [if_pos (by rw [List.map_map, List.map_map]; rfl)]
    rw [List.zipWith_map, List.zipWith_self]
    apply List.map_congr_left
    intro j hj
    rw [List.mem_range] at hj
    simp only
    rw [Num.fin_div _ _ (hw j hj)]
    rfl
  have hfst : ((List.range (m - 1)).map (fun j =>
      (t.dAt j, (Num.fin (Spec.wMean alpha n len c w j) : Num K)))).map Prod.fst =
      (List.range (m - 1)).map t.dAt := by rw [List.map_map]; rfl
  obtain ⟨lab, h1, h2⟩ := tailLabel_spec h.devs_take (by simp; omega)
  refine ⟨lab, fun j hj => h2 _ (List.mem_map_of_mem (List.mem_range.2 hj)), ?_⟩
  unfold Trikit.mackLdfs
  simp only
  rw [hnum, hden, hdiv, hfst, h1]
  show Except.ok _ = Except.ok _
  congr 1
  unfold Ser.locSet
  rw [hfst, if_neg (fun hmem => lt_irrefl _ (h2 _ hmem))]

end

section
variable [CharZero K] (h : Spec.Young t n n len c) (hc : ∀ i < n, ∀ j < len i, c i j ≠ 0)
  (hi : IndY t ind n n len w)
include h hc hi

/-- The divisor of the squared deviations is taken from the number of origins. -/
def Spec.posVar (alpha n : ℕ) (len : ℕ → ℕ) (c w : ℕ → ℕ → K) (j : ℕ) : K :=
  Spec.wDev alpha n len c w (Spec.wMean alpha n len c w j) j / ((n - j - 2 : ℕ) : K)

/-- The stored variances: the last one is extrapolated. -/
def Spec.posStored (alpha n : ℕ) (len : ℕ → ℕ) (c w : ℕ → ℕ → K) (j : ℕ) : Num K :=
  if j + 2 < n then .fin (Spec.posVar alpha n len c w j)
  else lastVar (Spec.posVar alpha n len c w (n - 3)) (Spec.posVar alpha n len c w (n - 4))

theorem Spec.Young.devpVariance (hn : 4 ≤ n) (alpha : ℕ) {lab : Int}
    (hlab : ∀ j < n - 1, t.dAt j < lab) {l : Ser K} (hl : l = (List.range (n - 1)).map (fun j =>
        (t.dAt j, Num.fin (Spec.wMean alpha n len c w j))) ++ [(lab, 1)]) :
    devpVariance alpha t ind l = .ok ((List.range (n - 1)).map (fun j =>
      (t.dAt j, Spec.posStored alpha n len c w j))) := by
  have had := h.a2a_devs hc
  have hid := hi.devs.trans had
  have hmd := h.modTri_devs (by omega)
  have hfst : l.map Prod.fst = (List.range (n - 1)).map t.dAt ++ [lab] := by
    rw [hl]; simp
  have hget : ∀ j < n - 1, Ser.get l (t.dAt j) = .fin (Spec.wMean alpha n len c w j) := by
    intro j hj
    have hz : l = ((List.range (n - 1)).map t.dAt ++ [lab]).zip ((List.range (n - 1)).map
        (fun j => Num.fin (Spec.wMean alpha n len c w j)) ++ [1]) := by
      rw [List.zip_append (by simp), List.zip_map', hl]; rfl
    rw [hz]
    refine Ser.get_zip ?_ ?_ ?_ (k := j)
    · rw [List.nodup_append]
      refine ⟨h.devs_take.nodup, by simp, ?_⟩
      intro a ha b hb e
      rw [List.mem_singleton] at hb
      obtain ⟨k, hk, rfl⟩ := List.mem_map.1 ha
      rw [List.mem_range] at hk
      have := hlab k hk
      omega
    · rw [List.getElem?_append_left (by simpa using hj)]; simp [hj]
    · rw [List.getElem?_append_left (by simpa using hj)]; simp [hj]
  have hdev : t.devs.dropLast.dropLast = (List.range (n - 2)).map t.dAt := by
    rw [h.devs_eq, dropLast_range_map, dropLast_range_map]; rfl
  have hvals : ((List.range (n - 1)).map t.dAt).map (fun d =>
      if d ∈ (List.range (n - 2)).map t.dAt then
        Trikit.devpSum alpha t ind (Ser.get l d) d /
          .fin (((t.nr : Int) - (((List.range (n - 2)).map t.dAt).idxOf d : Int) - 2 : Int) : K)
      else .nan) = (List.range (n - 1)).map (fun j =>
        if j + 2 < n then Num.fin (Spec.posVar alpha n len c w j) else .nan) := by
    rw [List.map_map]
    apply List.map_congr_left
    intro j hj
    rw [List.mem_range] at hj
    simp only [Function.comp_apply]
    by_cases e : j + 2 < n
    · rw [if_pos (List.mem_map_of_mem (List.mem_range.2 (by omega))), if_pos e, hget j hj,
        idxOf_map_range (fun a ha b hb => h.dAt_inj (by omega) (by omega)) (by omega)]
      have hcast : (((t.nr : Int) - (j : Int) - 2 : Int) : K) = ((n - j - 2 : ℕ) : K) := by
        rw [h.nr]
        have : ((n : Int) - (j : Int) - 2) = ((n - j - 2 : ℕ) : Int) := by omega
        rw [this]; simp
      rw [h.devpSum hc hi (by omega) alpha _ hj, hcast, Num.fin_div]
      · rfl
      · exact_mod_cast (by omega : n - j - 2 ≠ 0)
    · rw [if_neg, if_neg e]
      intro hm
      obtain ⟨k, hk, e'⟩ := List.mem_map.1 hm
      rw [List.mem_range] at hk
      have := h.dAt_inj (by omega) (by omega) e'
      omega
  unfold Trikit.devpVariance
  simp only
  rw [hfst, hdev, List.dropLast_concat, hvals]
  rw [if_neg]
  · rw [if_neg (by simp; omega)]
    congr 1
    rw [dropLast_range_map, List.length_map, List.length_range]
    have g1 : ((List.range (n - 1)).map (fun j =>
        if j + 2 < n then (Num.fin (Spec.posVar alpha n len c w j) : Num K) else .nan)).getD (n - 1 - 2)
        .nan = .fin (Spec.posVar alpha n len c w (n - 3)) := by
      rw [List.getD_eq_getElem?_getD, List.getElem?_map, List.getElem?_range (by omega)]
      simp only [Option.map_some, Option.getD_some]
      rw [if_pos (by omega)]; congr 2
    have g2 : ((List.range (n - 1)).map (fun j =>
        if j + 2 < n then (Num.fin (Spec.posVar alpha n len c w j) : Num K) else .nan)).getD (n - 1 - 3)
        .nan = .fin (Spec.posVar alpha n len c w (n - 4)) := by
      rw [List.getD_eq_getElem?_getD, List.getElem?_map, List.getElem?_range (by omega)]
      simp only [Option.map_some, Option.getD_some]
      rw [if_pos (by omega)]; congr 2
    rw [g1, g2]
    obtain ⟨k, hk⟩ : ∃ k, n = k + 2 := ⟨n - 2, by omega⟩
    have e1 : n - 1 = k + 1 := by omega
    rw [e1, List.range_succ, List.map_append, List.map_append, Nat.add_sub_cancel,
      List.zip_append (by simp), List.zip_map']
    congr 1
    · apply List.map_congr_left
      intro j hj
      rw [List.mem_range] at hj
      unfold Spec.posStored
      rw [if_pos (by omega), if_pos (by omega)]
    · simp only [List.map_cons, List.map_nil, List.zip_cons_cons, List.zip_nil_right]
      unfold Spec.posStored lastVar
      rw [if_neg (by omega)]
  · rw [Bool.not_eq_false, List.all_eq_true]
    intro d hd
    rw [decide_eq_true_iff]
    obtain ⟨j, hj, rfl⟩ := List.mem_map.1 hd
    rw [List.mem_range] at hj
    have hm : t.dAt j ∈ (List.range (n - 1)).map t.dAt :=
      List.mem_map_of_mem (List.mem_range.2 (by omega))
    rw [hid, hmd, had]
    exact ⟨hm, hm, hm, List.mem_append_left _ hm⟩

theorem Spec.Young.ldfVariance (hn : 2 ≤ n) (alpha : ℕ) (v : ℕ → Num K) :
    ldfVariance alpha t ind ((List.range (n - 1)).map (fun j => (t.dAt j, v j))) =
      .ok ((List.range (n - 1)).map (fun j =>
        (t.dAt j, v j / .fin (Spec.wTot alpha n len c w j)))) := by
  obtain ⟨hao, hac⟩ := h.a2a_spec hc hn
  have had := h.a2a_devs hc
  have hio := hi.origins.trans hao
  have hid := hi.devs.trans had
  unfold Trikit.ldfVariance
  rw [if_neg]
  · congr 1
    rw [List.map_map]
    apply List.map_congr_left
    intro j hj
    have hm : t.dAt j ∈ ind.devs := by rw [hid]; exact List.mem_map_of_mem hj
    rw [List.mem_range] at hj
    simp only [Function.comp_apply]
    rw [if_pos hm]
    congr 2
    rw [hio, List.map_map, ← h.wSum hc hi hn alpha hj]
    congr 1
    apply List.map_congr_left
    intro i hi'
    rw [List.mem_range] at hi'
    simp only [Function.comp_apply]
    rw [h.at_eq (a := ind.modInd) hio hid hi' hj,
      h.at_eq (a := t.modTri.powT alpha) (h.modTri hn).1 (h.modTri_devs hn) hi' hj]
  · rw [Bool.not_eq_false, List.all_eq_true]
    intro d hd
    rw [decide_eq_true_iff, h.modTri_devs hn, List.map_map]
    rw [hid] at hd
    exact ⟨hd, hd⟩

/-- What `mack_cl` computes on a triangle with as many origins as periods, before square roots. -/
theorem Spec.Young.mackCore (hn : 4 ≤ n) (alpha : ℕ)
    (hw : ∀ j < n - 1, Spec.wTot alpha n len c w j ≠ 0) :
    ∃ r b lab, mackCore alpha t ind = .ok r ∧
      r.ldfs = (List.range (n - 1)).map (fun j =>
        (t.dAt j, Num.fin (Spec.wMean alpha n len c w j))) ++ [(lab, 1)] ∧
      baseFromLdfs t r.ldfs = .ok b ∧ r.rows = b.rows ∧ r.sqr = b.sqr ∧
      r.devpvar = (List.range (n - 1)).map (fun j => (t.dAt j, Spec.posStored alpha n len c w j)) ∧
      r.ldfvar = (List.range (n - 1)).map (fun j =>
        (t.dAt j, Spec.posStored alpha n len c w j / .fin (Spec.wTot alpha n len c w j))) ∧
      r.procErr = processError r.sqr.tri.cell r.ldfs.iloc r.devpvar.iloc n ∧
      r.paramErr = parameterError r.sqr.tri.cell r.ldfs.iloc r.ldfvar.iloc n ∧
      r.mse = List.zipWith (· + ·) r.procErr r.paramErr := by
  obtain ⟨lab, h2, h3⟩ := h.mackLdfs hc hi (by omega) (by omega) alpha hw
  set l := (List.range (n - 1)).map (fun j =>
        (t.dAt j, Num.fin (Spec.wMean alpha n len c w j))) ++ [(lab, 1)] with hl
  have hv : LdfVals l n (Spec.withTail (Spec.wMean alpha n len c w) n 1) := by
    unfold LdfVals
    obtain ⟨k, hk⟩ : ∃ k, n = k + 1 := ⟨n - 1, by omega⟩
    rw [hl, List.map_append, List.map_map, hk, Nat.add_sub_cancel, List.range_succ, List.map_append]
    congr 1
    · apply List.map_congr_left
      intro j hj
      rw [List.mem_range] at hj
      simp only [Function.comp_apply]
      unfold Spec.withTail
      rw [if_pos (by omega)]
    · simp [Spec.withTail]; rfl
  obtain ⟨b, hb, -⟩ := h.base_core hv
  have hd := h.devpVariance hc hi hn alpha h2 hl
  have hlv := h.ldfVariance hc hi (by omega) alpha (Spec.posStored alpha n len c w)
  have hlen : ¬ ((List.range (n - 1)).map (fun j => (t.dAt j, Spec.posStored alpha n len c w j))).length <
      t.nc - 1 := by rw [h.nc]; simp
  unfold Trikit.mackCore
  rw [h3]
  simp only [bind, Except.bind]
  rw [hb]
  simp only
  rw [hd]
  simp only
  rw [hlv]
  simp only
  rw [if_neg hlen]
  refine ⟨_, b, lab, rfl, rfl, hb, rfl, rfl, rfl, rfl, ?_, ?_, rfl⟩ <;> simp only [h.nc]

end
end Trikit
