import Verif.MackCore
import Verif.Props.Base

/-!
# Triangles of other shapes

Helper lemmas on triangles whose origins are observed from the first period on, older origins at
least as long as younger ones.  The number of origins and of periods may differ and an origin may
lack its latest amounts.
-/

set_option linter.unusedSectionVars false

namespace Trikit

variable {K : Type}

/-- `n` origins, `m` development periods; origin `i` is observed for its first `len i` periods with
values `c`, the oldest origin for all of them, older origins at least as long as younger ones. -/
structure Spec.Young (t : Tri K) (n m : ℕ) (len : ℕ → ℕ) (c : ℕ → ℕ → K) : Prop where
  nr : t.nr = n
  nc : t.nc = m
  origins : Spec.Increasing t.origins
  devs : Spec.Increasing t.devs
  ne : 1 ≤ n
  full : len 0 = m
  one : ∀ i < n, 1 ≤ len i
  anti : ∀ i k, i ≤ k → k < n → len k ≤ len i
  obs : ∀ i < n, ∀ j < len i, t.cell i j = .fin (c i j)
  miss : ∀ i < n, ∀ j < m, len i ≤ j → t.cell i j = .nan

/-- The triangle of shape `len` with values `c`, origins 2001, ... and periods 1, ... -/
def youngTri (n m : ℕ) (len : ℕ → ℕ) (c : ℕ → ℕ → K) : Tri K :=
  { origins := (List.range n).map (fun i : ℕ => 2001 + (i : Int))
    devs := (List.range m).map (fun j : ℕ => 1 + (j : Int))
    cell := fun i j => if j < len i then .fin (c i j) else .nan }

theorem youngTri_young {n m : ℕ} {len : ℕ → ℕ} (c : ℕ → ℕ → K) (hn : 1 ≤ n) (h0 : len 0 = m)
    (h1 : ∀ i < n, 1 ≤ len i) (ha : ∀ i k, i ≤ k → k < n → len k ≤ len i) :
    Spec.Young (youngTri n m len c) n m len c := by
  refine ⟨by simp [Tri.nr, youngTri], by simp [Tri.nc, youngTri], range_map_increasing _ _,
    range_map_increasing _ _, hn, h0, h1, ha, ?_, ?_⟩
  · intro i _ j hj; simp [youngTri, hj]
  · intro i _ j _ hj; simp [youngTri, hj]

/-- Staircases are the shape `len i = n - i`. -/
theorem Spec.Stair.young {t : Tri K} {n : ℕ} {c : ℕ → ℕ → K} (h : Spec.Stair t n c) (hn : 1 ≤ n) :
    Spec.Young t n n (fun i => n - i) c :=
  ⟨h.nr, h.nc, h.origins, h.devs, hn, by simp, fun i hi => by omega, fun i k _ _ => by omega,
    fun i _ j hj => h.obs i j (by omega), fun i hi j hj h' => h.miss i j hi hj (by omega)⟩

section
variable {t : Tri K} {n m : ℕ} {len : ℕ → ℕ} {c : ℕ → ℕ → K}

theorem Spec.Young.len_le (h : Spec.Young t n m len c) {i : ℕ} (hi : i < n) : len i ≤ m := by
  rw [← h.full]; exact h.anti 0 i (by omega) hi

theorem Spec.Young.m_pos (h : Spec.Young t n m len c) : 1 ≤ m := by
  rw [← h.full]; exact h.one 0 h.ne

theorem Spec.Young.rlvi (h : Spec.Young t n m len c) {i : ℕ} (hi : i < n) :
    t.rlvi i = some (len i - 1) := by
  have h1 := h.one i hi
  have h2 := h.len_le hi
  unfold Tri.rlvi
  rw [h.nc, lastValid_some]
  refine ⟨by omega, ?_, ?_⟩
  · rw [h.obs i hi (len i - 1) (by omega)]; simp
  · intro j hj hj'
    exact h.miss i hi j hj' (by omega)

theorem Spec.Young.colsObserved (h : Spec.Young t n m len c) : Spec.ColsObserved t := by
  intro j hj
  rw [h.nc] at hj
  refine ⟨0, by rw [h.nr]; exact h.ne, ?_⟩
  rw [h.obs 0 h.ne j (by rw [h.full]; exact hj)]; simp

theorem Spec.Young.triindAt (h : Spec.Young t n m len c) {i j : ℕ} (hi : i < n) (hj : j < m) :
    t.triindAt i j = decide (len i ≤ j) := by
  have hc := h.colsObserved j (by rw [h.nc]; exact hj)
  by_cases e : len i ≤ j
  · rw [decide_eq_true e]
    by_contra hne
    have hf : t.triindAt i j = false := by simpa using hne
    rw [Tri.triindAt_false (by rw [h.nr]; exact hi) hc] at hf
    obtain ⟨r, ha, hb, hcc⟩ := hf
    rw [h.nr] at hb
    exact hcc (h.miss r hb j hj (le_trans (h.anti i r ha hb) e))
  · rw [decide_eq_false e, Tri.triindAt_false (by rw [h.nr]; exact hi) hc]
    exact ⟨i, le_refl _, by rw [h.nr]; exact hi, by rw [h.obs i hi j (by omega)]; simp⟩

theorem Spec.Young.latestByOrigin (h : Spec.Young t n m len c) :
    t.latestByOrigin = (List.range n).map (fun i => (t.oAt i, Num.fin (c i (len i - 1)))) := by
  unfold Tri.latestByOrigin
  rw [Tri.latest_of_rlvi (m := fun i => len i - 1)
    (fun i hi => h.rlvi (by rw [h.nr] at hi; exact hi)), List.map_map, h.nr]
  apply List.map_congr_left
  intro i hi
  rw [List.mem_range] at hi
  have := h.one i hi
  simp only [Function.comp_apply]
  rw [h.obs i hi (len i - 1) (by omega)]

theorem Spec.Young.oAt_get (h : Spec.Young t n m len c) {i : ℕ} (hi : i < n) :
    t.origins[i]? = some (t.oAt i) := Tri.origins_get (by rw [h.nr]; exact hi)

theorem Spec.Young.dAt_get (h : Spec.Young t n m len c) {j : ℕ} (hj : j < m) :
    t.devs[j]? = some (t.dAt j) := Tri.devs_get (by rw [h.nc]; exact hj)

theorem Spec.Young.origins_eq (h : Spec.Young t n m len c) :
    t.origins = (List.range n).map t.oAt := by
  apply List.ext_getElem?
  intro i
  rw [List.getElem?_map]
  by_cases hi : i < n
  · rw [List.getElem?_range hi, h.oAt_get hi]; rfl
  · rw [List.getElem?_eq_none (by rw [← h.nr] at hi; exact not_lt.1 hi),
      List.getElem?_eq_none (by simpa using hi)]; rfl

theorem Spec.Young.devs_eq (h : Spec.Young t n m len c) :
    t.devs = (List.range m).map t.dAt := by
  apply List.ext_getElem?
  intro i
  rw [List.getElem?_map]
  by_cases hi : i < m
  · rw [List.getElem?_range hi, h.dAt_get hi]; rfl
  · rw [List.getElem?_eq_none (by rw [← h.nc] at hi; exact not_lt.1 hi),
      List.getElem?_eq_none (by simpa using hi)]; rfl

theorem Spec.Young.latest_get (h : Spec.Young t n m len c) {i : ℕ} (hi : i < n) :
    Ser.get t.latestByOrigin (t.oAt i) = .fin (c i (len i - 1)) := by
  have hz : t.latestByOrigin = t.origins.zip ((List.range n).map
      (fun i => Num.fin (c i (len i - 1)))) := by
    rw [h.latestByOrigin, h.origins_eq, List.zip_map']
  rw [hz]
  exact Ser.get_zip h.origins.nodup (h.oAt_get hi) (by simp [hi])

theorem Spec.Young.maturity (h : Spec.Young t n m len c) :
    t.maturity = .ok ((List.range n).map (fun k => t.dAt (len k - 1))) := by
  unfold Tri.maturity
  rw [Tri.triind_ok h.colsObserved]
  show List.mapM _ _ = _
  rw [h.nr, h.nc]
  apply mapM_ok
  intro i hi
  rw [List.mem_range] at hi
  have h1 := h.one i hi
  have h2 := h.len_le hi
  have : Tri.lastZero (t.triindAt i) m = some (len i - 1) := by
    rw [lastZero_some]
    refine ⟨by omega, ?_, ?_⟩
    · rw [h.triindAt hi (by omega)]; simp; omega
    · intro j hj hj'
      rw [h.triindAt hi hj']; simp; omega
  simp only [this]

variable [Field K] [LinearOrder K]

/-- Cells of the squared triangle. -/
theorem Spec.Young.sqrCell (h : Spec.Young t n m len c) (f : ℕ → K)
    {g : ℕ → Num K} (hg : ∀ j, j + 1 < m → g j = .fin (f j)) {i : ℕ} (hi : i < n) :
    ∀ j < m, sqrCell t g i j = .fin (if j < len i then c i j
      else c i (len i - 1) * ∏ k ∈ Finset.Ico (len i - 1) j, f k) := by
  have h1 := h.one i hi
  intro j
  induction j with
  | zero => intro hj; rw [Trikit.sqrCell, h.obs i hi 0 (by omega), if_pos (by omega)]
  | succ j ih =>
    intro hj
    rw [Trikit.sqrCell, h.triindAt hi hj]
    by_cases e : j + 1 < len i
    · rw [if_neg (by simp; omega), h.obs i hi (j + 1) e, if_pos e]
    · rw [if_pos (by simp; omega), ih (by omega), hg j (by omega), Num.fin_mul, if_neg e]
      congr 1
      by_cases e' : j < len i
      · rw [if_pos e']
        have hij : len i - 1 = j := by omega
        rw [hij, Finset.prod_Ico_succ_top (le_refl j), Finset.Ico_self, Finset.prod_empty, one_mul]
      · rw [if_neg e', Finset.prod_Ico_succ_top (by omega), mul_assoc]

/-- `_ultimates` needs as many factors as origins (unless there is a single factor). -/
theorem Spec.Young.ultimatesOf_raises (h : Spec.Young t n m len c) {cl : Ser K}
    (hl : cl.length ≠ n) (h1 : cl.length ≠ 1) : ultimatesOf t cl = .error .valueError := by
  unfold ultimatesOf
  simp only
  have ha : (t.latestByOrigin.map Prod.snd).length = n := by rw [h.latestByOrigin]; simp
  have hb : ((cl.map Prod.snd).reverse).length = cl.length := by simp
  rw [ha, hb, h.nr, if_neg (by omega), if_neg (by omega), if_neg (by omega)]

theorem cldfsOf_length (l : Ser K) : (cldfsOf l).length = l.length := by
  unfold cldfsOf
  rw [List.length_zip, cumprodRev_length]; simp

theorem Spec.Young.baseFromLdfs_raises (h : Spec.Young t n m len c) {l : Ser K}
    (hl : l.length ≠ n) (h1 : l.length ≠ 1) : baseFromLdfs t l = .error .valueError := by
  unfold baseFromLdfs
  simp only
  rw [h.ultimatesOf_raises (by rw [cldfsOf_length]; exact hl) (by rw [cldfsOf_length]; exact h1)]
  rfl

/-- What `base_cl` returns on a triangle with as many origins as periods, whatever the lengths of
the origins. -/
theorem Spec.Young.base_core (h : Spec.Young t n n len c) {ldfs : Ser K} {f : ℕ → K}
    (hf : LdfVals ldfs n f) :
    ∃ r, baseFromLdfs t ldfs = .ok r ∧ r.ldfs = ldfs ∧ r.rows.length = n ∧
      (∀ i < n, ∃ row, r.rows[i]? = some row ∧ row.origin = t.oAt i ∧
        row.maturity = t.dAt (len i - 1) ∧ row.latest = .fin (c i (len i - 1)) ∧
        row.cldf = Ser.get (cldfsOf ldfs) (t.dAt (len i - 1)) ∧
        row.ultimate = .fin (c i (len i - 1) * Spec.tailProd f n (n - 1 - i)) ∧
        row.reserve = .fin (c i (len i - 1) * Spec.tailProd f n (n - 1 - i) - c i (len i - 1))) ∧
      r.sqr.ultimate = (List.range n).map
        (fun i => Num.fin (c i (len i - 1) * Spec.tailProd f n (len i - 1))) := by
  have hlen := hf.length
  have hn := h.ne
  have hlat : t.latestByOrigin.map Prod.snd =
      (List.range n).map (fun i => Num.fin (c i (len i - 1))) := by
    rw [h.latestByOrigin, List.map_map]; rfl
  have hrev : ((List.range n).map (fun j => (Num.fin (Spec.tailProd f n j) : Num K))).reverse =
      (List.range n).map (fun i => Num.fin (Spec.tailProd f n (n - 1 - i))) := by
    apply List.ext_getElem
    · simp
    · intro i h1 h2
      simp
  have hult : ultimatesOf t (cldfsOf ldfs) = .ok ((List.range n).map
      (fun i => Num.fin (c i (len i - 1) * Spec.tailProd f n (n - 1 - i)))) := by
    unfold ultimatesOf
    simp only
    rw [hlat, cldfs_snd hf, hrev, h.nr, if_pos (by simp)]
    congr 1
    apply List.ext_getElem
    · simp
    · intro i h1 h2
      simp
  have hres : reservesOf t ((List.range n).map
      (fun i => Num.fin (c i (len i - 1) * Spec.tailProd f n (n - 1 - i)))) =
      (List.range n).map (fun i => Num.fin (c i (len i - 1) * Spec.tailProd f n (n - 1 - i) -
        c i (len i - 1))) := by
    unfold reservesOf
    rw [h.origins_eq, List.zip_map', List.map_map]
    apply List.map_congr_left
    intro i hi
    rw [List.mem_range] at hi
    simp only [Function.comp_apply]
    rw [h.latest_get hi, Num.fin_sub]
  have hg : ∀ j, j < n → (ldfs.map Prod.snd).getD j .nan = .fin (f j) := by
    intro j hj
    rw [hf, List.getD_eq_getElem?_getD]
    simp [hj]
  have hsqr := fun i (hi : i < n) => h.sqrCell f
    (g := fun j => (ldfs.map Prod.snd).getD j .nan) (fun j hj => hg j (by omega)) hi
  have hlast : (ldfs.map Prod.snd).getLastD .nan = .fin (f (n - 1)) := by
    rw [hf]
    obtain ⟨k, rfl⟩ : ∃ k, n = k + 1 := ⟨n - 1, by omega⟩
    rw [List.range_succ, List.map_append]
    simp
  have hsq : trisqrdOf t ldfs = .ok
      { tri := { t with cell := fun i j =>
          Trikit.sqrCell t (fun j => (ldfs.map Prod.snd).getD j .nan) i j },
        ultimate := (List.range n).map
          (fun i => Num.fin (c i (len i - 1) * Spec.tailProd f n (len i - 1))) } := by
    unfold trisqrdOf
    rw [Tri.triind_ok h.colsObserved]
    show (if _ then _ else _) = _
    rw [if_neg]
    · congr 2
      rw [h.nr, h.nc]
      apply List.map_congr_left
      intro i hi
      rw [List.mem_range] at hi
      have h1 := h.one i hi
      have h2 := h.len_le hi
      rw [hsqr i hi (n - 1) (by omega), hlast, Num.fin_mul]
      congr 1
      have htop : Spec.tailProd f n (len i - 1) =
          (∏ m ∈ Finset.Ico (len i - 1) (n - 1), f m) * f (n - 1) := by
        unfold Spec.tailProd
        obtain ⟨k, rfl⟩ : ∃ k, n = k + 1 := ⟨n - 1, by omega⟩
        rw [Finset.prod_Ico_succ_top (by omega)]
        rfl
      by_cases e : n - 1 < len i
      · have hl : len i = n := by omega
        rw [if_pos e, htop, hl]
        simp
      · rw [if_neg e, htop, mul_assoc]
    · rw [h.nc, hlen]
      rintro (h1 | h1)
      · omega
      · rw [h1] at hlen; simp at hlen; omega
  unfold baseFromLdfs
  simp only
  rw [hult, h.maturity, hsq]
  refine ⟨_, rfl, rfl, by simp [h.nr], ?_, rfl⟩
  intro i hi
  have hmat : ((List.range n).map (fun k => t.dAt (len k - 1))).getD i 0 = t.dAt (len i - 1) := by
    rw [List.getD_eq_getElem?_getD]; simp [hi]
  refine ⟨_, by simp only [List.getElem?_map, h.nr, List.getElem?_range hi]; rfl, rfl, hmat,
    h.latest_get hi, ?_, ?_, ?_⟩
  · simp only [hmat]
  · simp only; rw [List.getD_eq_getElem?_getD]; simp [hi]
  · simp only [hres]; rw [List.getD_eq_getElem?_getD]; simp [hi]


/-! ### labels of link ratios and factors -/

theorem Spec.Young.linkRatios (h : Spec.Young t n m len c) (hc : ∀ i < n, ∀ j < len i, c i j ≠ 0)
    {i j : ℕ} (hi : i < n) (hj : j < m) :
    t.linkRatios.cell i j = if j + 1 < len i then .fin (c i (j + 1) / c i j) else .nan := by
  have h2 := h.len_le hi
  unfold Tri.linkRatios
  simp only [h.nc]
  by_cases h1 : j + 1 < len i
  · rw [if_pos h1, if_pos (by omega), h.obs i hi (j + 1) (by omega), h.obs i hi j (by omega),
      Num.fin_div _ _ (hc i hi j (by omega))]
  · rw [if_neg h1]
    by_cases h2 : j + 1 < m
    · rw [if_pos h2, h.miss i hi (j + 1) h2 (by omega), Num.nan_div]
    · rw [if_neg h2, Num.nan_div]

theorem Spec.Young.a2a_devs (h : Spec.Young t n m len c) (hc : ∀ i < n, ∀ j < len i, c i j ≠ 0) :
    t.a2a.devs = (List.range (m - 1)).map t.dAt := by
  have hkeep : Tri.keepIdx t.linkRatios.nc
      (fun j => (List.range t.linkRatios.nr).any (fun i => !(t.linkRatios.cell i j).isNaN)) =
      List.range (m - 1) := by
    have hnr : t.linkRatios.nr = n := h.nr
    have hnc : t.linkRatios.nc = m := h.nc
    rw [hnr, hnc]
    apply keepIdx_lt (by omega)
    intro j hj
    rw [List.any_eq_true]
    constructor
    · rintro ⟨i, hi, hn⟩
      rw [List.mem_range] at hi
      rw [h.linkRatios hc hi hj] at hn
      have := h.len_le hi
      by_contra hcon
      rw [if_neg (by omega)] at hn
      simp at hn
    · intro hj'
      refine ⟨0, List.mem_range.2 h.ne, ?_⟩
      rw [h.linkRatios hc h.ne hj, if_pos (by rw [h.full]; omega)]
      simp
  unfold Tri.a2a Tri.dropNaNRows Tri.dropNaNCols
  simp only
  rw [hkeep]; rfl

theorem Spec.Young.modTri_devs (h : Spec.Young t n m len c) (hm : 2 ≤ m) :
    t.modTri.devs = (List.range (m - 1)).map t.dAt := by
  set b : Tri K := { t with cell := fun i j => if t.rlvi i = some j then .nan else t.cell i j }
    with hb
  have hcell : ∀ i < n, ∀ j < m, b.cell i j = if j + 1 < len i then .fin (c i j) else .nan := by
    intro i hi j hj
    have h1 := h.one i hi
    show (if t.rlvi i = some j then .nan else t.cell i j) = _
    rw [h.rlvi hi]
    by_cases e : j + 1 < len i
    · rw [if_neg (by simp; omega), if_pos e, h.obs i hi j (by omega)]
    · rw [if_neg e]
      by_cases e' : len i - 1 = j
      · rw [if_pos (by rw [e'])]
      · rw [if_neg (by simpa using e'), h.miss i hi j hj (by omega)]
  have hbr : b.nr = n := h.nr
  have hbc : b.nc = m := h.nc
  have h0mem : 0 ∈ Tri.keepIdx b.nr (fun i => (List.range b.nc).any (fun j => !(b.cell i j).isNaN)) := by
    unfold Tri.keepIdx
    rw [List.mem_filter, hbr, hbc]
    refine ⟨List.mem_range.2 h.ne, List.any_eq_true.2 ⟨0, List.mem_range.2 (by omega), ?_⟩⟩
    rw [hcell 0 h.ne 0 (by omega), if_pos (by rw [h.full]; omega)]
    simp
  have hmt : t.modTri = b.dropNaNRows.dropNaNCols := rfl
  have hkeep : Tri.keepIdx b.dropNaNRows.nc (fun j => (List.range b.dropNaNRows.nr).any
      (fun i => !(b.dropNaNRows.cell i j).isNaN)) = List.range (m - 1) := by
    have hnc : b.dropNaNRows.nc = m := h.nc
    rw [hnc]
    apply keepIdx_lt (by omega)
    intro j hj
    rw [List.any_eq_true]
    constructor
    · rintro ⟨k, hk, hn⟩
      unfold Tri.dropNaNRows at hn
      simp only at hn
      cases hq : (Tri.keepIdx b.nr (fun i => (List.range b.nc).any
        (fun j => !(b.cell i j).isNaN)))[k]? with
      | none => rw [hq] at hn; simp at hn
      | some i =>
        rw [hq] at hn
        have hmem := List.mem_of_getElem? hq
        unfold Tri.keepIdx at hmem
        rw [List.mem_filter, hbr, List.mem_range] at hmem
        simp only at hn
        rw [hcell i hmem.1 j hj] at hn
        have := h.len_le hmem.1
        by_contra hcon
        rw [if_neg (by omega)] at hn
        simp at hn
    · intro hj'
      obtain ⟨k, hk, hk'⟩ := List.mem_iff_getElem.1 h0mem
      refine ⟨k, List.mem_range.2 ?_, ?_⟩
      · unfold Tri.nr Tri.dropNaNRows
        simpa using hk
      · unfold Tri.dropNaNRows
        simp only
        rw [List.getElem?_eq_getElem hk, hk']
        simp only
        rw [hcell 0 h.ne j hj, if_pos (by rw [h.full]; omega)]
        simp
  rw [hmt, Tri.dropNaNCols]
  simp only
  rw [hkeep]; rfl

theorem alignOp_devs {f : Num K → Num K → Num K} {a b : Tri K} {l : List Int}
    (hl : Spec.Increasing l) (ha : a.devs = l) (hb : b.devs = l) : (Tri.alignOp f a b).devs = l := by
  unfold Tri.alignOp
  split
  · exact ha
  · simp only [ha, hb]
    exact labels_eq_of_mem hl (fun x => by simp)

theorem colSums_fst (a : Tri K) : a.colSums.map Prod.fst = a.devs := by
  unfold Tri.colSums
  rw [List.map_map]
  apply List.ext_getElem?
  intro i
  rw [List.getElem?_map]
  by_cases hi : i < a.nc
  · rw [List.getElem?_range hi, Tri.devs_get hi]; rfl
  · rw [List.getElem?_eq_none (by simpa using hi), List.getElem?_eq_none (not_lt.1 hi)]; rfl

theorem divS_fst {a b : Ser K} {l : List Int} (ha : a.map Prod.fst = l) (hb : b.map Prod.fst = l) :
    (Ser.divS a b).map Prod.fst = l := by
  unfold Ser.divS
  rw [if_pos (by rw [ha, hb])]
  have hlen : a.length = b.length := by
    have h1 := congrArg List.length ha
    have h2 := congrArg List.length hb
    simp only [List.length_map] at h1 h2
    rw [h1, h2]
  rw [List.map_zipWith]
  subst ha
  clear hb
  induction a generalizing b with
  | nil => rfl
  | cons x a ih =>
    cases b with
    | nil => simp at hlen
    | cons y b => simp only [List.zipWith_cons_cons, List.map_cons]; rw [ih (by simpa using hlen)]

theorem locSet_length_new {s : Ser K} {d : Int} {v : Num K} (h : d ∉ s.map Prod.fst) :
    (Ser.locSet s d v).length = s.length + 1 := by
  unfold Ser.locSet
  rw [if_neg h]; simp

theorem Spec.Young.devs_take (h : Spec.Young t n m len c) :
    Spec.Increasing ((List.range (m - 1)).map t.dAt) := by
  have : (List.range (m - 1)).map t.dAt = t.devs.take (m - 1) := by
    conv_rhs => rw [h.devs_eq]
    rw [← List.map_take, List.take_range]
    congr 2; omega
  rw [this]
  exact h.devs.sublist (List.take_sublist _ _)

/-- Mack factors, if they are found, are as many as development periods. -/
theorem Spec.Young.mackLdfs_length (h : Spec.Young t n m len c)
    (hc : ∀ i < n, ∀ j < len i, c i j ≠ 0) {ind : Tri K} (hi : ind.devs = t.a2a.devs) {alpha : ℕ}
    {tail : Num K} {l : Ser K} (hl : mackLdfs alpha t ind tail = .ok l) : 3 ≤ m ∧ l.length = m := by
  have hinc := h.devs_take
  have ha := h.a2a_devs hc
  have hw : ind.modInd.devs = (List.range (m - 1)).map t.dAt := by rw [← ha, ← hi]; rfl
  have hnum : ∀ C : Tri K, C.devs = (List.range (m - 1)).map t.dAt →
      (Ser.divS (Tri.alignOp (· * ·) (Tri.alignOp (· * ·) t.a2a ind.modInd) C).colSums
        (Tri.alignOp (· * ·) ind.modInd C).colSums).map Prod.fst = (List.range (m - 1)).map t.dAt := by
    intro C hC
    apply divS_fst
    · rw [colSums_fst]; exact alignOp_devs hinc (alignOp_devs hinc ha hw) hC
    · rw [colSums_fst]; exact alignOp_devs hinc hw hC
  have h1 := h.m_pos
  by_cases hm : 2 ≤ m
  · have hC : (t.modTri.powT alpha).devs = (List.range (m - 1)).map t.dAt := h.modTri_devs hm
    have hfst := hnum _ hC
    unfold mackLdfs at hl
    simp only at hl
    rw [hfst] at hl
    by_cases h3 : 3 ≤ m
    · refine ⟨h3, ?_⟩
      obtain ⟨lab, e1, e2⟩ := tailLabel_spec hinc (by simp; omega)
      rw [e1] at hl
      injection hl with hl'
      rw [← hl', locSet_length_new]
      · have := congrArg List.length hfst
        simp only [List.length_map, List.length_range] at this
        rw [this]; omega
      · rw [hfst]; exact fun hm => lt_irrefl _ (e2 _ hm)
    · rw [tailLabel_short (by simp; omega)] at hl
      cases hl
  · exfalso
    have hm1 : m = 1 := by omega
    subst hm1
    -- a single period: no link ratios, no value before the latest one
    have hC : (t.modTri.powT alpha).devs = [] := by
      have hcell : ∀ i < n, t.rlvi i = some 0 := by
        intro i hi
        rw [h.rlvi hi]
        have := h.len_le hi
        congr 1; omega
      show t.modTri.devs = []
      set b : Tri K := { t with cell := fun i j => if t.rlvi i = some j then .nan else t.cell i j }
        with hb
      have hmt : t.modTri = b.dropNaNRows.dropNaNCols := rfl
      rw [hmt, Tri.dropNaNCols]
      simp only
      have hnr : b.dropNaNRows.nr = 0 := by
        unfold Tri.nr Tri.dropNaNRows
        simp only [List.length_map]
        unfold Tri.keepIdx
        rw [List.filter_eq_nil_iff.2]
        · rfl
        · intro i hi
          rw [List.mem_range] at hi
          have hi' : i < n := by have := h.nr; exact this ▸ hi
          have hbc : b.nc = 1 := h.nc
          rw [hbc]
          simp only [List.range_one, List.any_cons, List.any_nil, Bool.or_false]
          show ¬ (!(if t.rlvi i = some 0 then Num.nan else t.cell i 0).isNaN) = true
          rw [hcell i hi', if_pos rfl]; simp
      rw [hnr]
      unfold Tri.keepIdx
      simp
    have hfst := hnum _ (by rw [hC]; rfl)
    unfold mackLdfs at hl
    simp only at hl
    rw [hfst, tailLabel_short (by simp)] at hl
    cases hl

/-- Factors selected by name, if they are found, are as many as development periods. -/
theorem Spec.Young.ldfsByName_length (h : Spec.Young t n m len c)
    (hc : ∀ i < n, ∀ j < len i, c i j ≠ 0) {ind : Tri K} (ho : ind.origins = t.a2a.origins)
    (hi : ind.devs = t.a2a.devs) {gm : List (Num K) → Num K} {sel : String} {tail : Num K} {l : Ser K}
    (hl : ldfsByName gm t ind sel tail = .ok l) : 3 ≤ m ∧ l.length = m := by
  obtain ⟨vals, hrow, h2⟩ := ldfsByName_ok hl
  obtain ⟨hv, lab, _, _, he⟩ := ldfsByName_spec h.devs ho hi h2 hrow tail
  have hd : t.a2a.devs.length = m - 1 := by rw [h.a2a_devs hc]; simp
  have h2' : 2 ≤ m - 1 := by rw [← hd]; exact h2
  rw [hl] at he
  have he' : l = (t.a2a.devs ++ [lab]).zip (vals ++ [tail]) := by injection he
  refine ⟨by omega, ?_⟩
  rw [he', List.length_zip, List.length_append, List.length_append, hv, hd]
  simp; omega

/-- When the latest origin has two or more periods the weighted averages fail. -/
theorem Spec.Young.a2aAvgs_raises (h : Spec.Young t n m len c)
    (hc : ∀ i < n, ∀ j < len i, c i j ≠ 0) {ind : Tri K} (ho : ind.origins = t.a2a.origins)
    (hi : ind.devs = t.a2a.devs) (hlast : 2 ≤ len (n - 1)) (gm : List (Num K) → Num K) :
    ∃ e, a2aAvgs gm t ind = .error e := by
  cases hr : a2aAvgs gm t ind with
  | error e => exact ⟨e, rfl⟩
  | ok tab =>
    exfalso
    have hn := h.ne
    have hm := h.len_le (i := n - 1) (by omega)
    have hnc : (Tri.alignOp (· * ·) t.a2a ind).nc = m - 1 := by
      rw [alignOp_same_nc ho hi]; unfold Tri.nc; rw [h.a2a_devs hc]; simp
    unfold a2aAvgs at hr
    simp only at hr
    cases hrows : (avgGrid t.a2a.nr).mapM (fun p => do
        let vals ← (List.range (Tri.alignOp (· * ·) t.a2a ind).nc).mapM
          (fun j => avgCell gm t (Tri.alignOp (· * ·) t.a2a ind) p.1 p.2 j)
        pure (avgLabel p.1 p.2, vals)) with
    | error e => rw [hrows] at hr; cases hr
    | ok rows =>
      have hmem : ((.weighted, 0) : AvgKind × ℕ) ∈ avgGrid t.a2a.nr := by
        unfold avgGrid; simp [avgPeriods]
      obtain ⟨b, hb⟩ := mapM_ok_mem hrows hmem
      simp only at hb
      cases hv : (List.range (Tri.alignOp (· * ·) t.a2a ind).nc).mapM
          (fun j => avgCell gm t (Tri.alignOp (· * ·) t.a2a ind) .weighted 0 j) with
      | error e => rw [hv] at hb; cases hb
      | ok vals =>
        obtain ⟨v, hv'⟩ := mapM_ok_mem hv (a := 0) (by rw [hnc]; exact List.mem_range.2 (by omega))
        unfold avgCell weightedAvg at hv'
        simp only at hv'
        rw [if_pos] at hv'
        · cases hv'
        · rw [List.filter_eq_self.2]
          · unfold Tri.col; simp
          · intro x hx
            unfold Tri.col at hx
            obtain ⟨i, hi', rfl⟩ := List.mem_map.1 hx
            rw [List.mem_range, h.nr] at hi'
            rw [h.obs i hi' 1 (by have := h.anti i (n - 1) (by omega) (by omega); omega)]
            rfl

end

end Trikit
