import Mathlib.Algebra.BigOperators.Intervals
import Verif.Props.Averages

/-! # Lemmas on the base chain ladder -/

set_option linter.unusedSectionVars false

namespace Trikit

variable {K : Type}

/-! ### the label of the tail -/

theorem labelDiffs_pos {l : List Int} (h : Spec.Increasing l) : ∀ d ∈ labelDiffs l, 0 < d := by
  intro d hd
  unfold labelDiffs at hd
  obtain ⟨k, hk⟩ := List.getElem?_of_mem hd
  rw [List.getElem?_zipWith, List.getElem?_tail] at hk
  cases h1 : l[k + 1]? with
  | none => simp [h1] at hk
  | some b =>
    cases h2 : l[k]? with
    | none => simp [h2] at hk
    | some a =>
      rw [h1, h2] at hk
      simp only [Option.some.injEq] at hk
      obtain ⟨h1a, h1b⟩ := List.getElem?_eq_some_iff.1 h1
      obtain ⟨h2a, h2b⟩ := List.getElem?_eq_some_iff.1 h2
      have := List.pairwise_iff_getElem.1 h k (k + 1) h2a h1a (by omega)
      rw [h1b, h2b] at this
      omega

theorem labelDiffs_length (l : List Int) : (labelDiffs l).length = l.length - 1 := by
  unfold labelDiffs
  rw [List.length_zipWith, List.length_tail]; omega

theorem minIncrement_pos {l : List Int} (h : Spec.Increasing l) (hl : 2 ≤ l.length) :
    ∃ d, minIncrement l = .ok d ∧ 0 < d := by
  unfold minIncrement
  cases hm : (labelDiffs l).min? with
  | none =>
    rw [List.min?_eq_none_iff] at hm
    have := labelDiffs_length l
    rw [hm] at this; simp at this; omega
  | some d => exact ⟨d, rfl, labelDiffs_pos h d (List.min?_mem hm)⟩

theorem tailLabel_spec {l : List Int} (h : Spec.Increasing l) (hl : 2 ≤ l.length) :
    ∃ lab, tailLabel l = .ok lab ∧ ∀ x ∈ l, x < lab := by
  obtain ⟨d, hd, hpos⟩ := minIncrement_pos h hl
  unfold tailLabel
  rw [hd]
  cases hm : l.max? with
  | none => rw [List.max?_eq_none_iff] at hm; subst hm; simp at hl
  | some m =>
    refine ⟨m + d, rfl, fun x hx => ?_⟩
    have := (List.max?_eq_some_iff.1 hm).2 x hx
    omega

theorem tailLabel_short {l : List Int} (hl : l.length < 2) : tailLabel l = .error .indexError := by
  unfold tailLabel minIncrement
  have : labelDiffs l = [] := by
    rw [← List.length_eq_zero_iff, labelDiffs_length]; omega
  rw [this]; rfl

/-- Evenly spaced labels. -/
def Spec.EvenlySpaced (l : List Int) : Prop :=
  ∃ a s : Int, 0 < s ∧ l = (List.range l.length).map (fun j : ℕ => a + s * (j : Int))

theorem tailLabel_even {a s : Int} (hs : 0 < s) {n : ℕ} (hn : 2 ≤ n) :
    tailLabel ((List.range n).map (fun j : ℕ => a + s * (j : Int))) = .ok (a + s * (n : Int)) := by
  have hdiff : ∀ d ∈ labelDiffs ((List.range n).map (fun j : ℕ => a + s * (j : Int))), d = s := by
    intro d hd
    unfold labelDiffs at hd
    obtain ⟨k, hk⟩ := List.getElem?_of_mem hd
    rw [List.getElem?_zipWith, List.getElem?_tail] at hk
    by_cases hkn : k + 1 < n
    · rw [List.getElem?_map, List.getElem?_range hkn, List.getElem?_map,
        List.getElem?_range (by omega)] at hk
      simp only [Option.map_some, Option.some.injEq] at hk
      rw [← hk]; push_cast; ring
    · rw [List.getElem?_eq_none (by simpa using hkn)] at hk
      simp at hk
  have hinc : minIncrement ((List.range n).map (fun j : ℕ => a + s * (j : Int))) = .ok s := by
    unfold minIncrement
    cases hm : (labelDiffs ((List.range n).map (fun j : ℕ => a + s * (j : Int)))).min? with
    | none =>
      rw [List.min?_eq_none_iff] at hm
      have := labelDiffs_length ((List.range n).map (fun j : ℕ => a + s * (j : Int)))
      rw [hm] at this; simp at this; omega
    | some d => rw [hdiff d (List.min?_mem hm)]
  have hmax : ((List.range n).map (fun j : ℕ => a + s * (j : Int))).max? =
      some (a + s * ((n : Int) - 1)) := by
    rw [List.max?_eq_some_iff]
    constructor
    · refine List.mem_map.2 ⟨n - 1, List.mem_range.2 (by omega), ?_⟩
      rw [Nat.cast_sub (by omega)]; rfl
    · intro b hb
      obtain ⟨j, hj, rfl⟩ := List.mem_map.1 hb
      rw [List.mem_range] at hj
      have : (j : Int) ≤ (n : Int) - 1 := by omega
      nlinarith
  unfold tailLabel
  rw [hinc]
  show (match List.max? _ with
    | some m => (Except.ok (m + s) : Except PyErr Int)
    | none => .error .valueError) = _
  rw [hmax]
  show Except.ok _ = Except.ok _
  congr 1; ring

/-! ### lookups in Series -/

theorem Ser.get_zip {ls : List Int} (hnd : ls.Nodup) {vs : List (Num K)}
    {k : ℕ} {a : Int} {v : Num K} (h1 : ls[k]? = some a) (h2 : vs[k]? = some v) :
    Ser.get (ls.zip vs) a = v := by
  unfold Ser.get
  induction ls generalizing vs k with
  | nil => simp at h1
  | cons x ls ih =>
    cases vs with
    | nil => simp at h2
    | cons y vs =>
      rw [List.zip_cons_cons, List.find?_cons]
      cases k with
      | zero =>
        simp at h1 h2
        subst h1; subst h2
        simp
      | succ k =>
        have h1' : ls[k]? = some a := by simpa using h1
        have hne : x ≠ a := by
          rintro rfl
          exact (List.nodup_cons.1 hnd).1 (List.mem_of_getElem? h1')
        have : (x == a) = false := by simpa using hne
        simp only [this]
        exact ih (List.nodup_cons.1 hnd).2 h1' (by simpa using h2)

theorem Ser.get_zip_none {ls : List Int} {vs : List (Num K)} {a : Int} (h : a ∉ ls) :
    Ser.get (ls.zip vs) a = .nan := by
  unfold Ser.get
  rw [List.find?_eq_none.2]
  rintro ⟨x, y⟩ hp
  have := (List.of_mem_zip hp).1
  simp only [beq_iff_eq]
  rintro rfl
  exact h this

/-! ### products -/

section
variable [Field K] [LinearOrder K]

theorem cumprodRev_fin (l : List K) :
    cumprodRev (l.map Num.fin) = (List.range l.length).map (fun j => Num.fin (l.drop j).prod) := by
  induction l with
  | nil => rfl
  | cons a l ih =>
    rw [List.map_cons, cumprodRev, ih]
    cases l with
    | nil => simp
    | cons b l =>
      rw [List.length_cons, List.length_cons]
      rw [List.range_succ_eq_map (n := l.length), List.map_cons]
      simp only
      rw [List.range_succ_eq_map, List.map_cons, List.map_map]
      congr 1
      · simp [mul_comm]
      · rw [List.map_map, List.length_cons, List.range_succ_eq_map, List.map_cons, List.map_map]
        rfl

theorem cumprodRev_length (l : List (Num K)) : (cumprodRev l).length = l.length := by
  induction l with
  | nil => rfl
  | cons a l ih =>
    rw [cumprodRev]
    split
    · rename_i h; rw [h] at ih; simp at ih; simp [ih]
    · rename_i h; rw [h] at ih; simp at ih; simp [ih]

/-- Recursion of the cumulative products, for any values (NaN included). -/
theorem cumprodRev_step (l : List (Num K)) (j : ℕ) {x c : Num K} (hx : l[j]? = some x)
    (hc : (cumprodRev l)[j + 1]? = some c) : (cumprodRev l)[j]? = some (c * x) := by
  induction l generalizing j with
  | nil => simp at hx
  | cons a l ih =>
    have hlen := cumprodRev_length l
    rw [cumprodRev] at hc ⊢
    cases h : cumprodRev l with
    | nil => rw [h] at hc; simp at hc
    | cons b bs =>
      rw [h] at hc
      cases j with
      | zero => simp at hc hx ⊢; rw [hc, hx]
      | succ j =>
        simp only [List.getElem?_cons_succ] at hc hx ⊢
        have := ih j hx (by rw [h]; exact hc)
        rw [h] at this; exact this

theorem cumprodRev_last (l : List (Num K)) : (cumprodRev l).getLast? = l.getLast? := by
  induction l with
  | nil => rfl
  | cons a l ih =>
    rw [cumprodRev]
    cases h : cumprodRev l with
    | nil =>
      have hlen := cumprodRev_length l
      rw [h] at hlen
      simp at hlen
      have : l = [] := List.length_eq_zero_iff.1 (by simpa using hlen.symm)
      subst this; rfl
    | cons b bs =>
      rw [h] at ih
      show ((b * a) :: b :: bs).getLast? = _
      rw [List.getLast?_cons_cons, ih]
      cases l with
      | nil => simp [cumprodRev] at h
      | cons x l => rw [List.getLast?_cons_cons]

/-- The product of the factors of positions `j, ..., n-1`. -/
def Spec.tailProd (f : ℕ → K) (n j : ℕ) : K := ∏ m ∈ Finset.Ico j n, f m

theorem drop_range_prod (f : ℕ → K) (n j : ℕ) :
    (((List.range n).map f).drop j).prod = Spec.tailProd f n j := by
  unfold Spec.tailProd
  rw [← List.map_drop, Finset.prod_eq_multiset_prod]
  have : (Finset.Ico j n).val = ((List.range n).drop j : Multiset ℕ) := by
    rw [← Multiset.coe_eq_coe.2 (List.Perm.refl _)]
    show ((List.range' j (n - j) : List ℕ) : Multiset ℕ) = _
    congr 1
    rw [List.range_eq_range', List.drop_range']
    simp
  rw [this, Multiset.map_coe, Multiset.prod_coe]

/-- The factors have values `f 0, ..., f (n-1)`. -/
def LdfVals (ldfs : Ser K) (n : ℕ) (f : ℕ → K) : Prop :=
  ldfs.map Prod.snd = (List.range n).map (fun j => Num.fin (f j))

theorem LdfVals.length {ldfs : Ser K} {n : ℕ} {f : ℕ → K} (h : LdfVals ldfs n f) :
    ldfs.length = n := by
  have := congrArg List.length h
  simpa using this

theorem cldfs_snd {ldfs : Ser K} {n : ℕ} {f : ℕ → K} (h : LdfVals ldfs n f) :
    (cldfsOf ldfs).map Prod.snd = (List.range n).map (fun j => Num.fin (Spec.tailProd f n j)) := by
  unfold cldfsOf
  rw [List.map_snd_zip (by rw [cumprodRev_length]; simp)]
  rw [h]
  have : (List.range n).map (fun j => Num.fin (f j)) = ((List.range n).map f).map Num.fin := by
    rw [List.map_map]; rfl
  rw [this, cumprodRev_fin]
  rw [List.length_map, List.length_range]
  apply List.map_congr_left
  intro j _
  rw [drop_range_prod]

theorem cldfs_fst (ldfs : Ser K) : (cldfsOf ldfs).map Prod.fst = ldfs.map Prod.fst := by
  unfold cldfsOf
  rw [List.map_fst_zip (by rw [cumprodRev_length]; simp)]

theorem cldfs_get {ldfs : Ser K} {n : ℕ} {f : ℕ → K} (h : LdfVals ldfs n f)
    (hnd : (ldfs.map Prod.fst).Nodup) {j : ℕ} (hj : j < n) {d : Int}
    (hd : (ldfs.map Prod.fst)[j]? = some d) :
    Ser.get (cldfsOf ldfs) d = .fin (Spec.tailProd f n j) := by
  have hs := cldfs_snd h
  have hz : cldfsOf ldfs = (ldfs.map Prod.fst).zip ((cldfsOf ldfs).map Prod.snd) := by
    unfold cldfsOf
    rw [List.map_snd_zip (by rw [cumprodRev_length]; simp)]
  rw [hz]
  apply Ser.get_zip hnd hd
  rw [hs]; simp [hj]

theorem cldfs_get_none {ldfs : Ser K} {d : Int} (hd : d ∉ ldfs.map Prod.fst) :
    Ser.get (cldfsOf ldfs) d = .nan := by
  unfold cldfsOf
  exact Ser.get_zip_none hd

/-! ### results on staircases -/

theorem Spec.Stair.latestByOrigin {t : Tri K} {n : ℕ} {c : ℕ → ℕ → K} (h : Spec.Stair t n c) :
    t.latestByOrigin = (List.range n).map (fun i => (t.oAt i, Num.fin (c i (n - 1 - i)))) := by
  unfold Tri.latestByOrigin
  rw [h.staircase.latest, List.map_map]
  apply List.map_congr_left
  intro i hi
  rw [List.mem_range] at hi
  simp only [Function.comp_apply]
  rw [h.obs i (n - 1 - i) (by omega)]

theorem Spec.Stair.oAt_get {t : Tri K} {n : ℕ} {c : ℕ → ℕ → K} (h : Spec.Stair t n c) {i : ℕ}
    (hi : i < n) : t.origins[i]? = some (t.oAt i) := Tri.origins_get (by rw [h.nr]; exact hi)

theorem Spec.Stair.dAt_get {t : Tri K} {n : ℕ} {c : ℕ → ℕ → K} (h : Spec.Stair t n c) {i : ℕ}
    (hi : i < n) : t.devs[i]? = some (t.dAt i) := Tri.devs_get (by rw [h.nc]; exact hi)

theorem Spec.Stair.origins_eq {t : Tri K} {n : ℕ} {c : ℕ → ℕ → K} (h : Spec.Stair t n c) :
    t.origins = (List.range n).map t.oAt := by
  apply List.ext_getElem?
  intro i
  rw [List.getElem?_map]
  by_cases hi : i < n
  · rw [List.getElem?_range hi, h.oAt_get hi]; rfl
  · rw [List.getElem?_eq_none (by rw [← h.nr] at hi; exact not_lt.1 hi),
      List.getElem?_eq_none (by simpa using hi)]; rfl

theorem Spec.Stair.devs_eq {t : Tri K} {n : ℕ} {c : ℕ → ℕ → K} (h : Spec.Stair t n c) :
    t.devs = (List.range n).map t.dAt := by
  apply List.ext_getElem?
  intro i
  rw [List.getElem?_map]
  by_cases hi : i < n
  · rw [List.getElem?_range hi, h.dAt_get hi]; rfl
  · rw [List.getElem?_eq_none (by rw [← h.nc] at hi; exact not_lt.1 hi),
      List.getElem?_eq_none (by simpa using hi)]; rfl

theorem Spec.Increasing.nodup {l : List Int} (h : Spec.Increasing l) : l.Nodup :=
  h.imp (fun hab => ne_of_lt hab)

theorem Spec.Stair.latest_get {t : Tri K} {n : ℕ} {c : ℕ → ℕ → K} (h : Spec.Stair t n c) {i : ℕ}
    (hi : i < n) : Ser.get t.latestByOrigin (t.oAt i) = .fin (c i (n - 1 - i)) := by
  have hz : t.latestByOrigin = t.origins.zip ((List.range n).map
      (fun i => Num.fin (c i (n - 1 - i)))) := by
    rw [h.latestByOrigin, h.origins_eq, List.zip_map']
  rw [hz]
  exact Ser.get_zip h.origins.nodup (h.oAt_get hi) (by simp [hi])

theorem Spec.Stair.maturity {t : Tri K} {n : ℕ} {c : ℕ → ℕ → K} (h : Spec.Stair t n c) :
    t.maturity = .ok ((List.range n).map (fun k => t.dAt (n - 1 - k))) := by
  have hs := h.staircase
  unfold Tri.maturity
  rw [Tri.triind_ok hs.colsObserved]
  show List.mapM _ _ = _
  rw [h.nr, h.nc]
  apply mapM_ok
  intro i hi
  rw [List.mem_range] at hi
  have : Tri.lastZero (t.triindAt i) n = some (n - 1 - i) := by
    rw [lastZero_some]
    refine ⟨by omega, ?_, ?_⟩
    · rw [hs.triindAt i (by omega)]; simp; omega
    · intro m hm hm'
      rw [hs.triindAt i hm']; simp; omega
  simp only [this]

/-- Cells of the squared staircase. -/
theorem Spec.Stair.sqrCell {t : Tri K} {n : ℕ} {c : ℕ → ℕ → K} (h : Spec.Stair t n c) (f : ℕ → K)
    {g : ℕ → Num K} (hg : ∀ j, j + 1 < n → g j = .fin (f j)) {i : ℕ} (hi : i < n) :
    ∀ j < n, sqrCell t g i j = .fin (if i + j < n then c i j
      else c i (n - 1 - i) * ∏ m ∈ Finset.Ico (n - 1 - i) j, f m) := by
  intro j
  induction j with
  | zero => intro hj; rw [Trikit.sqrCell, h.obs i 0 (by omega), if_pos (by omega)]
  | succ j ih =>
    intro hj
    rw [Trikit.sqrCell, h.staircase.triindAt i hj]
    by_cases e : i + (j + 1) < n
    · rw [if_neg (by simp; omega), h.obs i (j + 1) e, if_pos e]
    · rw [if_pos (by simp; omega), ih (by omega), hg j (by omega), Num.fin_mul, if_neg e]
      congr 1
      by_cases e' : i + j < n
      · rw [if_pos e']
        have hij : n - 1 - i = j := by omega
        rw [hij, Finset.prod_Ico_succ_top (le_refl j), Finset.Ico_self, Finset.prod_empty, one_mul]
      · rw [if_neg e', Finset.prod_Ico_succ_top (by omega), mul_assoc]

/-- What a result of `base_cl` must contain: staircase values `c`, factors `f` (the last one is the
tail). -/
structure Spec.BaseSpec (t : Tri K) (n : ℕ) (c : ℕ → ℕ → K) (f : ℕ → K) (ldfs : Ser K)
    (r : BaseResult K) : Prop where
  factors : r.ldfs = ldfs
  cldfs_labels : r.cldfs.map Prod.fst = ldfs.map Prod.fst
  cldfs_values : r.cldfs.map Prod.snd =
    (List.range n).map (fun j => Num.fin (Spec.tailProd f n j))
  rows_length : r.rows.length = n
  rows : ∀ i < n, ∃ row, r.rows[i]? = some row ∧ row.origin = t.oAt i ∧
    row.maturity = t.dAt (n - 1 - i) ∧ row.cldf = Ser.get r.cldfs (t.dAt (n - 1 - i)) ∧
    row.emergence = 1 / row.cldf ∧ row.latest = .fin (c i (n - 1 - i)) ∧
    row.ultimate = .fin (c i (n - 1 - i) * Spec.tailProd f n (n - 1 - i)) ∧
    row.reserve = .fin (c i (n - 1 - i) * Spec.tailProd f n (n - 1 - i) - c i (n - 1 - i))
  totLatest : r.totLatest = .fin (∑ i ∈ Finset.range n, c i (n - 1 - i))
  totUltimate : r.totUltimate =
    .fin (∑ i ∈ Finset.range n, c i (n - 1 - i) * Spec.tailProd f n (n - 1 - i))
  totReserve : r.totReserve =
    .fin (∑ i ∈ Finset.range n,
      (c i (n - 1 - i) * Spec.tailProd f n (n - 1 - i) - c i (n - 1 - i)))
  sqr_origins : r.sqr.tri.origins = t.origins
  sqr_devs : r.sqr.tri.devs = t.devs
  sqr_cells : ∀ i < n, ∀ j < n, r.sqr.tri.cell i j = .fin (if i + j < n then c i j
      else c i (n - 1 - i) * ∏ m ∈ Finset.Ico (n - 1 - i) j, f m)
  sqr_ultimate : r.sqr.ultimate =
    (List.range n).map (fun i => .fin (c i (n - 1 - i) * Spec.tailProd f n (n - 1 - i)))

theorem list_range_sum (g : ℕ → K) (n : ℕ) :
    ((List.range n).map g).sum = ∑ i ∈ Finset.range n, g i := by
  induction n with
  | zero => rfl
  | succ n ih =>
    rw [List.range_succ, List.map_append, List.sum_append, ih, Finset.sum_range_succ]
    simp

theorem Spec.tailProd_succ (f : ℕ → K) {n j : ℕ} (h : j < n) :
    Spec.tailProd f n j = f j * Spec.tailProd f n (j + 1) := by
  unfold Spec.tailProd
  rw [Finset.prod_eq_prod_Ico_succ_bot h]

theorem base_core {t : Tri K} {n : ℕ} {c : ℕ → ℕ → K} (h : Spec.Stair t n c) (hn : 1 ≤ n)
    {ldfs : Ser K} {f : ℕ → K} (hf : LdfVals ldfs n f) :
    ∃ r, baseFromLdfs t ldfs = .ok r ∧ Spec.BaseSpec t n c f ldfs r := by
  have hlen := hf.length
  have hlat : t.latestByOrigin.map Prod.snd =
      (List.range n).map (fun i => Num.fin (c i (n - 1 - i))) := by
    rw [h.latestByOrigin, List.map_map]; rfl
  have hrev : ((List.range n).map (fun j => (Num.fin (Spec.tailProd f n j) : Num K))).reverse =
      (List.range n).map (fun i => Num.fin (Spec.tailProd f n (n - 1 - i))) := by
    apply List.ext_getElem
    · simp
    · intro i h1 h2
      simp
  have hult : ultimatesOf t (cldfsOf ldfs) = .ok ((List.range n).map
      (fun i => Num.fin (c i (n - 1 - i) * Spec.tailProd f n (n - 1 - i)))) := by
    unfold ultimatesOf
    simp only
    rw [hlat, cldfs_snd hf, hrev, h.nr, if_pos (by simp)]
    congr 1
    apply List.ext_getElem
    · simp
    · intro i h1 h2
      simp
  have hres : reservesOf t ((List.range n).map
      (fun i => Num.fin (c i (n - 1 - i) * Spec.tailProd f n (n - 1 - i)))) =
      (List.range n).map (fun i => Num.fin (c i (n - 1 - i) * Spec.tailProd f n (n - 1 - i) -
        c i (n - 1 - i))) := by
    unfold reservesOf
    rw [h.origins_eq, List.zip_map', List.map_map]
    apply List.map_congr_left
    intro i hi
    rw [List.mem_range] at hi
    simp only [Function.comp_apply]
    rw [h.latest_get hi, Num.fin_sub]
  have hg : ∀ j, j < n → (ldfs.map Prod.snd).getD j .nan = .fin (f j) := by
    intro j hj
    rw [hf, List.getD_eq_getElem?_getD]
    simp [hj]
  have hsqr := fun i (hi : i < n) => h.sqrCell f
    (g := fun j => (ldfs.map Prod.snd).getD j .nan) (fun j hj => hg j (by omega)) hi
  have hlast : (ldfs.map Prod.snd).getLastD .nan = .fin (f (n - 1)) := by
    rw [hf]
    obtain ⟨m, rfl⟩ : ∃ m, n = m + 1 := ⟨n - 1, by omega⟩
    rw [List.range_succ, List.map_append]
    simp
  have hsq : trisqrdOf t ldfs = .ok
      { tri := { t with cell := fun i j =>
          Trikit.sqrCell t (fun j => (ldfs.map Prod.snd).getD j .nan) i j },
        ultimate := (List.range n).map
          (fun i => Num.fin (c i (n - 1 - i) * Spec.tailProd f n (n - 1 - i))) } := by
    unfold trisqrdOf
    rw [Tri.triind_ok h.staircase.colsObserved]
    show (if _ then _ else _) = _
    rw [if_neg]
    · congr 2
      rw [h.nr, h.nc]
      apply List.map_congr_left
      intro i hi
      rw [List.mem_range] at hi
      rw [hsqr i hi (n - 1) (by omega), hlast, Num.fin_mul]
      congr 1
      have htop : Spec.tailProd f n (n - 1 - i) =
          (∏ m ∈ Finset.Ico (n - 1 - i) (n - 1), f m) * f (n - 1) := by
        unfold Spec.tailProd
        obtain ⟨m, rfl⟩ : ∃ m, n = m + 1 := ⟨n - 1, by omega⟩
        rw [Finset.prod_Ico_succ_top (by omega)]
        rfl
      by_cases e : i + (n - 1) < n
      · have hi0 : i = 0 := by omega
        subst hi0
        rw [if_pos e, htop]
        simp
      · rw [if_neg e, htop, mul_assoc]
    · rw [h.nc, hlen]
      rintro (h1 | h1)
      · omega
      · rw [h1] at hlen; simp at hlen; omega
  unfold baseFromLdfs
  simp only
  rw [hult, h.maturity, hsq]
  refine ⟨_, rfl, ?_⟩
  have hrows : ∀ i < n, ((List.range n).map (fun i => Num.fin (c i (n - 1 - i) *
      Spec.tailProd f n (n - 1 - i)))).getD i .nan =
      Num.fin (c i (n - 1 - i) * Spec.tailProd f n (n - 1 - i)) := by
    intro i hi
    rw [List.getD_eq_getElem?_getD]; simp [hi]
  have hrowsr : ∀ i < n, ((List.range n).map (fun i => Num.fin (c i (n - 1 - i) *
      Spec.tailProd f n (n - 1 - i) - c i (n - 1 - i)))).getD i .nan =
      Num.fin (c i (n - 1 - i) * Spec.tailProd f n (n - 1 - i) - c i (n - 1 - i)) := by
    intro i hi
    rw [List.getD_eq_getElem?_getD]; simp [hi]
  have hmat : ∀ i < n, ((List.range n).map (fun k => t.dAt (n - 1 - k))).getD i 0 =
      t.dAt (n - 1 - i) := by
    intro i hi
    rw [List.getD_eq_getElem?_getD]; simp [hi]
  refine ⟨rfl, cldfs_fst ldfs, cldfs_snd hf, by simp [h.nr], ?_, ?_, ?_, ?_, rfl, rfl, ?_, rfl⟩
  · intro i hi
    refine ⟨_, by simp only [List.getElem?_map, h.nr, List.getElem?_range hi]; rfl, rfl, ?_, ?_,
      rfl, ?_, ?_, ?_⟩
    · exact hmat i hi
    · simp only [hmat i hi]
    · exact h.latest_get hi
    · exact hrows i hi
    · simp only [hres]; exact hrowsr i hi
  · simp only [List.map_map]
    rw [h.nr, Num.sumSkip_map_fin' _ _ (fun i => c i (n - 1 - i)), list_range_sum]
    intro i hi
    exact h.latest_get (List.mem_range.1 hi)
  · simp only [List.map_map]
    rw [h.nr, Num.sumSkip_map_fin' _ _
      (fun i => c i (n - 1 - i) * Spec.tailProd f n (n - 1 - i)), list_range_sum]
    intro i hi
    exact hrows i (List.mem_range.1 hi)
  · simp only [List.map_map]
    rw [h.nr, Num.sumSkip_map_fin' _ _
      (fun i => c i (n - 1 - i) * Spec.tailProd f n (n - 1 - i) - c i (n - 1 - i)),
      list_range_sum]
    intro i hi
    simp only [Function.comp_apply, hres]
    exact hrowsr i (List.mem_range.1 hi)
  · intro i hi j hj
    exact hsqr i hi j hj

end

end Trikit
