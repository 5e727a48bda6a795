import Mathlib.Tactic.FieldSimp
import Verif.BaseLemmas

/-! # C30-C40: base chain ladder -/

set_option linter.unusedSectionVars false

namespace Trikit

variable {K : Type}

section
variable [Field K] [LinearOrder K]

theorem getD_getElem {α : Type} (l : List α) (d : α) {k : ℕ} (h : k < l.length) :
    l.getD k d = l[k] := by
  rw [List.getD_eq_getElem?_getD, List.getElem?_eq_getElem h]; rfl

theorem take_zip' {α β : Type} (k : ℕ) (l : List α) (m : List β) :
    (l.zip m).take k = (l.take k).zip (m.take k) := by
  rw [List.zip_eq_zipWith, List.zip_eq_zipWith, List.take_zipWith]

/-! ### labels of the link ratios -/

theorem keepIdx_increasing {l : List Int} (h : Spec.Increasing l) (p : ℕ → Bool) :
    Spec.Increasing ((Tri.keepIdx l.length p).map (fun j => l.getD j 0)) := by
  unfold Spec.Increasing Tri.keepIdx
  rw [List.pairwise_map]
  have hr : (List.range l.length).Pairwise (fun a b => a < b) := List.pairwise_lt_range
  have := hr.filter p
  refine List.Pairwise.imp_of_mem ?_ this
  intro a b ha hb hab
  have ha' := List.mem_range.1 (List.mem_filter.1 ha).1
  have hb' := List.mem_range.1 (List.mem_filter.1 hb).1
  rw [getD_getElem l 0 ha', getD_getElem l 0 hb']
  exact List.pairwise_iff_getElem.1 h a b ha' hb' hab

theorem a2a_devs_increasing {t : Tri K} (h : Spec.Increasing t.devs) :
    Spec.Increasing t.a2a.devs :=
  keepIdx_increasing (l := t.linkRatios.devs) h _

/-! ### the selected factors -/

/-- Row `sel` of the table of averages (indicator `ind`) has the values `vals`. -/
def Spec.RowIs (gm : List (Num K) → Num K) (t ind : Tri K) (sel : String) (vals : List (Num K)) :
    Prop :=
  ∃ tab, a2aAvgs gm t ind = .ok tab ∧ tab.rows.lookup sel = some vals

/-- The factors of the staircase: `f j` for the first `n - 1` periods, then the tail. -/
def Spec.withTail (f : ℕ → K) (n : ℕ) (tail : K) : ℕ → K := fun j => if j + 1 < n then f j else tail

theorem mem_of_lookup {β : Type} {l : List (String × β)} {k : String} {v : β}
    (h : l.lookup k = some v) : (k, v) ∈ l := by
  induction l with
  | nil => simp at h
  | cons p l ih =>
    obtain ⟨a, b⟩ := p
    rw [List.lookup_cons] at h
    split at h
    · rename_i e
      simp only [beq_iff_eq] at e
      simp only [Option.some.injEq] at h
      simp [e, h]
    · exact List.mem_cons_of_mem _ (ih h)

theorem a2aAvgs_parts {gm : List (Num K) → Num K} {t ind : Tri K} {tab : AvgTable K}
    (h : a2aAvgs gm t ind = .ok tab) : tab.devs = t.a2a.devs ∧
      ∀ p ∈ tab.rows, p.2.length = (Tri.alignOp (· * ·) t.a2a ind).nc := by
  unfold a2aAvgs at h
  simp only at h
  cases hm : (avgGrid t.a2a.nr).mapM (fun p => do
      let vals ← (List.range (Tri.alignOp (· * ·) t.a2a ind).nc).mapM
        (fun j => avgCell gm t (Tri.alignOp (· * ·) t.a2a ind) p.1 p.2 j)
      (pure (avgLabel p.1 p.2, vals) : Except PyErr (String × List (Num K)))) with
  | error e => rw [hm] at h; cases h
  | ok rows =>
    rw [hm] at h
    have h' : ({ devs := t.a2a.devs, rows := rows } : AvgTable K) = tab := by
      injection h
    subst h'
    refine ⟨rfl, ?_⟩
    rw [mapM_ok_iff] at hm
    show ∀ p ∈ rows, _
    clear h
    generalize avgGrid t.a2a.nr = grid at hm
    induction hm with
    | nil => intro p hp; simp at hp
    | @cons x y l r hxy _ ih =>
      intro p hp
      rcases List.mem_cons.1 hp with e | e
      · subst e
        cases hv : (List.range (Tri.alignOp (· * ·) t.a2a ind).nc).mapM
            (fun j => avgCell gm t (Tri.alignOp (· * ·) t.a2a ind) x.1 x.2 j) with
        | error e => rw [hv] at hxy; cases hxy
        | ok vals =>
          rw [hv] at hxy
          have : (avgLabel x.1 x.2, vals) = p := by injection hxy
          subst this
          have := (mapM_ok_iff.1 hv).length_eq
          simpa using this.symm
      · exact ih p e

theorem alignOp_same_nc {a b : Tri K} (ho : b.origins = a.origins) (hd : b.devs = a.devs) :
    (Tri.alignOp (· * ·) a b).nc = a.nc := by
  unfold Tri.alignOp
  rw [if_pos ⟨ho.symm, hd.symm⟩]; rfl

/-- The factors are the selected row followed by the tail under a larger label. -/
theorem ldfsByName_spec {gm : List (Num K) → Num K} {t ind : Tri K} (hd : Spec.Increasing t.devs)
    (ho : ind.origins = t.a2a.origins) (hdv : ind.devs = t.a2a.devs) (h2 : 2 ≤ t.a2a.nc)
    {sel : String} {vals : List (Num K)} (hrow : Spec.RowIs gm t ind sel vals) (tail : Num K) :
    vals.length = t.a2a.devs.length ∧ ∃ lab, tailLabel t.a2a.devs = .ok lab ∧
      (∀ x ∈ t.a2a.devs, x < lab) ∧
      ldfsByName gm t ind sel tail = .ok ((t.a2a.devs ++ [lab]).zip (vals ++ [tail])) := by
  obtain ⟨tab, htab, hl⟩ := hrow
  obtain ⟨h1, hlen⟩ := a2aAvgs_parts htab
  have hvl : vals.length = t.a2a.devs.length := by
    have := hlen _ (mem_of_lookup hl)
    rw [alignOp_same_nc ho hdv] at this
    exact this
  obtain ⟨lab, hlab, hgt⟩ := tailLabel_spec (a2a_devs_increasing hd) h2
  refine ⟨hvl, lab, hlab, hgt, ?_⟩
  unfold ldfsByName
  rw [htab]
  show (match tab.rows.lookup sel with
    | none => _
    | some vals => _) = _
  rw [hl, h1]
  show (do
    let lab ← tailLabel t.a2a.devs
    Except.ok (Ser.locSet (t.a2a.devs.zip vals) lab tail)) = _
  rw [hlab]
  show Except.ok _ = Except.ok _
  congr 1
  unfold Ser.locSet
  rw [List.map_fst_zip (le_of_eq hvl.symm), if_neg (fun hm => lt_irrefl _ (hgt _ hm)),
    List.zip_append hvl.symm]
  rfl

theorem ldfsByName_ok {gm : List (Num K) → Num K} {t ind : Tri K} {sel : String} {tail : Num K}
    {l : Ser K} (h : ldfsByName gm t ind sel tail = .ok l) :
    ∃ vals, Spec.RowIs gm t ind sel vals ∧ 2 ≤ t.a2a.nc := by
  unfold ldfsByName at h
  cases htab : a2aAvgs gm t ind with
  | error e => rw [htab] at h; cases h
  | ok tab =>
    rw [htab] at h
    have h' : (match tab.rows.lookup sel with
      | none => (.error .keyError : Except PyErr (Ser K))
      | some vals => do
        let lab ← tailLabel tab.devs
        .ok (Ser.locSet (tab.devs.zip vals) lab tail)) = .ok l := h
    cases hl : tab.rows.lookup sel with
    | none => rw [hl] at h'; cases h'
    | some vals =>
      refine ⟨vals, ⟨tab, htab, hl⟩, ?_⟩
      by_contra hlt
      rw [hl] at h'
      simp only at h'
      have hs : tailLabel tab.devs = .error .indexError := by
        apply tailLabel_short
        rw [(a2aAvgs_parts htab).1]
        show t.a2a.nc < 2
        omega
      rw [hs] at h'
      cases h'

theorem baseFromLdfs_fields {t : Tri K} {l : Ser K} {r : BaseResult K}
    (h : baseFromLdfs t l = .ok r) : r.ldfs = l ∧ r.cldfs = cldfsOf l := by
  unfold baseFromLdfs at h
  simp only at h
  cases h1 : ultimatesOf t (cldfsOf l) with
  | error e => rw [h1] at h; cases h
  | ok u =>
    cases h2 : t.maturity with
    | error e => rw [h1, h2] at h; cases h
    | ok m =>
      cases h3 : trisqrdOf t l with
      | error e => rw [h1, h2, h3] at h; cases h
      | ok s =>
        rw [h1, h2, h3] at h
        injection h with h
        subst h
        exact ⟨rfl, rfl⟩

/-! ## C30 -/

/-- The cumulative factors `cs` belong to the factors `vals ++ [tail]`. -/
def Spec.CumulativeOf (vals : List (Num K)) (tail : Num K) (cs : List (Num K)) : Prop :=
  cs.length = vals.length + 1 ∧ cs[vals.length]? = some tail ∧
    (∀ j x y, vals[j]? = some x → cs[j + 1]? = some y → cs[j]? = some (y * x)) ∧
    ∀ (f : ℕ → K) (tl : K), tail = .fin tl → vals = (List.range vals.length).map (fun j => .fin (f j)) →
      ∀ j ≤ vals.length, cs[j]? = some (.fin ((∏ m ∈ Finset.Ico j vals.length, f m) * tl))

theorem cumulativeOf_cumprodRev (vals : List (Num K)) (tail : Num K) :
    Spec.CumulativeOf vals tail (cumprodRev (vals ++ [tail])) := by
  have hlen : (cumprodRev (vals ++ [tail])).length = vals.length + 1 := by
    rw [cumprodRev_length]; simp
  refine ⟨hlen, ?_, ?_, ?_⟩
  · have := cumprodRev_last (vals ++ [tail])
    rw [List.getLast?_eq_getElem?, hlen] at this
    simpa using this
  · intro j x y hx hy
    apply cumprodRev_step _ _ _ hy
    rw [List.getElem?_append_left (List.getElem?_eq_some_iff.1 hx).1]; exact hx
  · intro f tl ht hv j hj
    subst ht
    generalize vals.length = m at *
    subst hv
    have : (List.range m).map (fun j => Num.fin (f j)) ++ [Num.fin tl] =
        ((List.range (m + 1)).map (fun j => if j < m then f j else tl)).map Num.fin := by
      rw [List.range_succ, List.map_append, List.map_append, List.map_map]
      congr 1
      · apply List.map_congr_left
        intro i hi
        simp [List.mem_range.1 hi]
      · simp
    rw [this, cumprodRev_fin, List.getElem?_map, List.length_map, List.length_range,
      List.getElem?_range (by omega)]
    simp only [Option.map_some]
    rw [drop_range_prod]
    unfold Spec.tailProd
    rw [Finset.prod_Ico_succ_top hj]
    congr 2
    have h1 : ∏ x ∈ Finset.Ico j m, (if x < m then f x else tl) = ∏ x ∈ Finset.Ico j m, f x := by
      apply Finset.prod_congr rfl
      intro x hx
      rw [if_pos (Finset.mem_Ico.1 hx).2]
    rw [h1]; simp

/-- **C30** cumulative factors are tail products: selection by name, for every triangle and every
indicator frame for which `base_cl` returns. -/
theorem C30_cldfs {gm : List (Num K) → Num K} {t ind : Tri K} (hd : Spec.Increasing t.devs)
    (ho : ind.origins = t.a2a.origins) (hdv : ind.devs = t.a2a.devs) {sel : String}
    {tail : Num K} {r : BaseResult K} (h : baseCL gm t ind sel tail = .ok r) :
    ∃ vals, Spec.RowIs gm t ind sel vals ∧ r.ldfs.map Prod.snd = vals ++ [tail] ∧
      r.cldfs.map Prod.fst = r.ldfs.map Prod.fst ∧
      Spec.CumulativeOf vals tail (r.cldfs.map Prod.snd) := by
  unfold baseCL at h
  cases hl : ldfsByName gm t ind sel tail with
  | error e => rw [hl] at h; cases h
  | ok l =>
    rw [hl] at h
    obtain ⟨hr1, hr2⟩ := baseFromLdfs_fields (show baseFromLdfs t l = .ok r from h)
    obtain ⟨vals, hrow, h2⟩ := ldfsByName_ok hl
    obtain ⟨hvl, lab, _, _, hs⟩ := ldfsByName_spec hd ho hdv h2 hrow tail
    rw [hl] at hs
    have hs' : l = (t.a2a.devs ++ [lab]).zip (vals ++ [tail]) := by injection hs
    have hsnd : l.map Prod.snd = vals ++ [tail] := by
      rw [hs', List.map_snd_zip (by simp [hvl])]
    refine ⟨vals, hrow, by rw [hr1, hsnd], by rw [hr1, hr2, cldfs_fst], ?_⟩
    rw [hr2]
    unfold cldfsOf
    rw [List.map_snd_zip (by rw [cumprodRev_length]; simp), hsnd]
    exact cumulativeOf_cumprodRev vals tail

/-- **C30** for factors given as an array. -/
theorem C30_cldfs_array {t : Tri K} {sel : List (Num K)} {tail : Num K} {r : BaseResult K}
    (h : baseCLArray t sel tail = .ok r) : r.ldfs = t.devs.zip (sel ++ [tail]) ∧
      r.cldfs.map Prod.fst = t.devs ∧ Spec.CumulativeOf sel tail (r.cldfs.map Prod.snd) := by
  unfold baseCLArray ldfsByArray at h
  by_cases hlen : (sel ++ [tail]).length = t.nc
  · rw [if_pos hlen] at h
    obtain ⟨hr1, hr2⟩ := baseFromLdfs_fields
      (show baseFromLdfs t (t.devs.zip (sel ++ [tail])) = .ok r from h)
    have hfst : (t.devs.zip (sel ++ [tail])).map Prod.fst = t.devs :=
      List.map_fst_zip (le_of_eq hlen.symm)
    have hsnd : (t.devs.zip (sel ++ [tail])).map Prod.snd = sel ++ [tail] :=
      List.map_snd_zip (le_of_eq hlen)
    refine ⟨hr1, by rw [hr2, cldfs_fst, hfst], ?_⟩
    rw [hr2]
    unfold cldfsOf
    rw [List.map_snd_zip (by rw [cumprodRev_length]; simp), hsnd]
    exact cumulativeOf_cumprodRev sel tail
  · rw [if_neg hlen] at h; cases h

example : ((baseCL (fun _ => .nan) exTri exTri.a2aind0 "all-weighted" (.fin (11 / 10))).map
      (fun r => (r.ldfs, r.cldfs))) =
    .ok ([(1, .fin (494 / 330)), (2, .fin (400 / 326)), (3, .fin (198 / 180)), (4, .fin (11 / 10))],
      [(1, .fin (494 / 330 * (400 / 326) * (198 / 180) * (11 / 10))),
        (2, .fin (400 / 326 * (198 / 180) * (11 / 10))),
        (3, .fin (198 / 180 * (11 / 10))), (4, .fin (11 / 10))]) := by
  decide +kernel

/-! ## C31, C32: all results on staircases -/

/-- On a staircase `base_cl` returns for every selected row of numbers, with the results of
`Spec.BaseSpec`; the factors carry the labels of the first `n - 1` periods and the label computed
for the tail. -/
theorem baseCL_stair {gm : List (Num K) → Num K} {t ind : Tri K} {n : ℕ} {c w : ℕ → ℕ → K}
    (h : Spec.Stair t n c) (hc : ∀ i j, i + j < n → c i j ≠ 0) (hi : IndOn t ind n w) (hn : 3 ≤ n)
    {sel : String} {f : ℕ → K}
    (hsel : Spec.RowIs gm t ind sel ((List.range (n - 1)).map (fun j => .fin (f j)))) (tail : K) :
    ∃ r lab, baseCL gm t ind sel (.fin tail) = .ok r ∧ tailLabel (t.devs.take (n - 1)) = .ok lab ∧
      (∀ j < n - 1, t.dAt j < lab) ∧
      r.ldfs = (t.devs.take (n - 1) ++ [lab]).zip
        ((List.range n).map (fun j => .fin (Spec.withTail f n tail j))) ∧
      Spec.BaseSpec t n c (Spec.withTail f n tail) r.ldfs r := by
  have hdev : t.a2a.devs = t.devs.take (n - 1) := (C22_a2a h hc).2.1
  obtain ⟨_, lab, h1, h2, h3⟩ := ldfsByName_spec h.devs hi.origins hi.devs
    (by rw [h.a2a_nc hc]; omega) hsel (.fin tail)
  have hvals : (List.range (n - 1)).map (fun j => (Num.fin (f j) : Num K)) ++ [Num.fin tail] =
      (List.range n).map (fun j => .fin (Spec.withTail f n tail j)) := by
    obtain ⟨m, rfl⟩ : ∃ m, n = m + 1 := ⟨n - 1, by omega⟩
    rw [List.range_succ, List.map_append]
    congr 1
    · apply List.map_congr_left
      intro j hj
      rw [List.mem_range] at hj
      unfold Spec.withTail
      rw [if_pos (by omega)]
    · simp [Spec.withTail]
  rw [hvals, hdev] at h3
  rw [hdev] at h1 h2
  have hval : LdfVals ((t.devs.take (n - 1) ++ [lab]).zip
      ((List.range n).map (fun j => (Num.fin (Spec.withTail f n tail j) : Num K)))) n
      (Spec.withTail f n tail) := by
    unfold LdfVals
    rw [List.map_snd_zip]
    have : t.devs.length = n := h.nc
    simp [this]; omega
  obtain ⟨r, hr, hs⟩ := base_core h (by omega) hval
  refine ⟨r, lab, ?_, h1, ?_, hs.factors, ?_⟩
  · unfold baseCL
    rw [h3]
    exact hr
  · intro j hj
    apply h2
    have := h.dAt_get (show j < n by omega)
    rw [List.mem_iff_getElem?]
    exact ⟨j, by rw [List.getElem?_take, if_pos hj]; exact this⟩
  · rw [hs.factors]; exact hs

/-- Labels of the factors when the development labels are evenly spaced. -/
theorem even_tailLabel {t : Tri K} {n : ℕ} {c : ℕ → ℕ → K} (h : Spec.Stair t n c) (hn : 3 ≤ n)
    (he : Spec.EvenlySpaced t.devs) {lab : Int} (hl : tailLabel (t.devs.take (n - 1)) = .ok lab) :
    lab = t.dAt (n - 1) ∧ t.devs.take (n - 1) ++ [lab] = t.devs := by
  obtain ⟨a, s, hs, hd⟩ := he
  have hlen : t.devs.length = n := h.nc
  rw [hlen] at hd
  have htake : t.devs.take (n - 1) =
      (List.range (n - 1)).map (fun j : ℕ => a + s * (j : Int)) := by
    rw [hd, ← List.map_take, List.take_range]
    congr 2; omega
  rw [htake, tailLabel_even hs (by omega)] at hl
  have hlab : a + s * ((n - 1 : ℕ) : Int) = lab := by injection hl
  have hat : t.dAt (n - 1) = a + s * ((n - 1 : ℕ) : Int) := by
    have := h.dAt_get (show n - 1 < n by omega)
    rw [hd, List.getElem?_map, List.getElem?_range (by omega)] at this
    simpa using this.symm
  refine ⟨by rw [hat, hlab], ?_⟩
  rw [htake, ← hlab]
  conv_rhs => rw [hd]
  obtain ⟨m, rfl⟩ : ∃ m, n = m + 1 := ⟨n - 1, by omega⟩
  rw [List.range_succ, List.map_append]
  rfl

/-- **C31** ultimates, reserves, emergence and totals on staircases with evenly spaced labels. -/
theorem C31_summary {gm : List (Num K) → Num K} {t ind : Tri K} {n : ℕ} {c w : ℕ → ℕ → K}
    (h : Spec.Stair t n c) (hc : ∀ i j, i + j < n → c i j ≠ 0) (hi : IndOn t ind n w) (hn : 3 ≤ n)
    (he : Spec.EvenlySpaced t.devs) {sel : String} {f : ℕ → K}
    (hsel : Spec.RowIs gm t ind sel ((List.range (n - 1)).map (fun j => .fin (f j)))) (tail : K) :
    ∃ r, baseCL gm t ind sel (.fin tail) = .ok r ∧ r.rows.length = n ∧
      let cldf : ℕ → K := fun j => (∏ m ∈ Finset.Ico j (n - 1), f m) * tail
      let ult : ℕ → K := fun i => c i (n - 1 - i) * cldf (n - 1 - i)
      (∀ i < n, ∃ row, r.rows[i]? = some row ∧ row.origin = t.oAt i ∧
        row.maturity = t.dAt (n - 1 - i) ∧ row.cldf = .fin (cldf (n - 1 - i)) ∧
        row.emergence = .fin 1 / .fin (cldf (n - 1 - i)) ∧ row.latest = .fin (c i (n - 1 - i)) ∧
        row.ultimate = .fin (ult i) ∧ row.reserve = .fin (ult i - c i (n - 1 - i))) ∧
      r.totLatest = .fin (∑ i ∈ Finset.range n, c i (n - 1 - i)) ∧
      r.totUltimate = .fin (∑ i ∈ Finset.range n, ult i) ∧
      r.totReserve = .fin (∑ i ∈ Finset.range n, (ult i - c i (n - 1 - i))) := by
  obtain ⟨r, lab, hr, hl, hlt, hldf, hs⟩ := baseCL_stair h hc hi hn hsel tail
  obtain ⟨hlab, hdevs⟩ := even_tailLabel h hn he hl
  rw [hdevs] at hldf
  have hprod : ∀ j < n, Spec.tailProd (Spec.withTail f n tail) n j =
      (∏ m ∈ Finset.Ico j (n - 1), f m) * tail := by
    intro j hj
    unfold Spec.tailProd
    obtain ⟨m, rfl⟩ : ∃ m, n = m + 1 := ⟨n - 1, by omega⟩
    rw [Finset.prod_Ico_succ_top (by omega)]
    congr 1
    · apply Finset.prod_congr rfl
      intro x hx
      have := (Finset.mem_Ico.1 hx).2
      simp [Spec.withTail]; omega
    · simp [Spec.withTail]
  have hfst : r.ldfs.map Prod.fst = t.devs := by
    rw [hldf, List.map_fst_zip]
    have : t.devs.length = n := h.nc
    simp [this]
  have hvals : LdfVals r.ldfs n (Spec.withTail f n tail) := by
    unfold LdfVals
    rw [hldf, List.map_snd_zip]
    have : t.devs.length = n := h.nc
    simp [this]
  have hcl : r.cldfs = cldfsOf r.ldfs := by
    unfold baseCL at hr
    cases hx : ldfsByName gm t ind sel (.fin tail) with
    | error e => rw [hx] at hr; cases hr
    | ok l =>
      rw [hx] at hr
      obtain ⟨h1, h2⟩ := baseFromLdfs_fields (show baseFromLdfs t l = .ok r from hr)
      rw [h1, h2]
  refine ⟨r, hr, hs.rows_length, ?_, hs.totLatest, ?_, ?_⟩
  · intro i hi'
    obtain ⟨row, h1, h2, h3, h4, h5, h6, h7, h8⟩ := hs.rows i hi'
    have hcv : row.cldf = .fin ((∏ m ∈ Finset.Ico (n - 1 - i) (n - 1), f m) * tail) := by
      rw [h4, hcl, cldfs_get hvals (by rw [hfst]; exact h.devs.nodup)
        (show n - 1 - i < n by omega) (by rw [hfst]; exact h.dAt_get (by omega)),
        hprod _ (by omega)]
    rw [hprod _ (by omega)] at h7 h8
    exact ⟨row, h1, h2, h3, hcv, by rw [h5, hcv]; rfl, h6, h7, h8⟩
  · rw [hs.totUltimate]
    congr 1
    apply Finset.sum_congr rfl
    intro i hi'
    rw [hprod _ (by have := Finset.mem_range.1 hi'; omega)]
  · rw [hs.totReserve]
    congr 1
    apply Finset.sum_congr rfl
    intro i hi'
    rw [hprod _ (by have := Finset.mem_range.1 hi'; omega)]

/-- **C32** the squared triangle: actual cells are kept, each projected cell is the cell to its left
times the factor of the left period, the ultimate column is that of the summary.  For selections by
name (any increasing labels) and, through `C32_array`, for arbitrary factors. -/
theorem C32_trisqrd {t : Tri K} {n : ℕ} {c : ℕ → ℕ → K} (h : Spec.Stair t n c) (hn : 1 ≤ n)
    {ldfs : Ser K} {f : ℕ → K} (hf : LdfVals ldfs n f) :
    ∃ r, baseFromLdfs t ldfs = .ok r ∧ r.sqr.tri.origins = t.origins ∧ r.sqr.tri.devs = t.devs ∧
      (∀ i j, i + j < n → r.sqr.tri.cell i j = t.cell i j) ∧
      (∀ i j, i < n → j + 1 < n → n ≤ i + j + 1 →
        ∃ x, r.sqr.tri.cell i j = .fin x ∧ r.sqr.tri.cell i (j + 1) = .fin (x * f j)) ∧
      (∀ i < n, ∃ x, r.sqr.tri.cell i (n - 1) = .fin x ∧
        r.sqr.ultimate[i]? = some (.fin (x * f (n - 1)))) ∧
      r.sqr.ultimate = r.rows.map SummRow.ultimate := by
  obtain ⟨r, hr, hs⟩ := base_core h hn hf
  have htop : ∀ i < n, Spec.tailProd f n (n - 1 - i) =
      (∏ m ∈ Finset.Ico (n - 1 - i) (n - 1), f m) * f (n - 1) := by
    intro i hi
    unfold Spec.tailProd
    obtain ⟨m, rfl⟩ : ∃ m, n = m + 1 := ⟨n - 1, by omega⟩
    rw [Finset.prod_Ico_succ_top (by omega)]
    rfl
  refine ⟨r, hr, hs.sqr_origins, hs.sqr_devs, ?_, ?_, ?_, ?_⟩
  · intro i j hij
    rw [hs.sqr_cells i (by omega) j (by omega), if_pos hij, h.obs i j hij]
  · intro i j hi hj hij
    refine ⟨_, hs.sqr_cells i hi j (by omega), ?_⟩
    rw [hs.sqr_cells i hi (j + 1) hj, if_neg (by omega)]
    by_cases e : i + j < n
    · rw [if_pos e]
      have : n - 1 - i = j := by omega
      rw [this, Finset.prod_Ico_succ_top (le_refl j), Finset.Ico_self, Finset.prod_empty, one_mul]
    · rw [if_neg e, Finset.prod_Ico_succ_top (by omega), mul_assoc]
  · intro i hi
    refine ⟨_, hs.sqr_cells i hi (n - 1) (by omega), ?_⟩
    rw [hs.sqr_ultimate]
    simp only [List.getElem?_map, List.getElem?_range hi, Option.map_some]
    rw [htop i hi]
    by_cases e : i + (n - 1) < n
    · have : i = 0 := by omega
      subst this
      rw [if_pos e]; simp
    · rw [if_neg e, mul_assoc]
  · rw [hs.sqr_ultimate]
    apply List.ext_getElem?
    intro i
    by_cases hi : i < n
    · obtain ⟨row, h1, _, _, _, _, _, h7, _⟩ := hs.rows i hi
      rw [List.getElem?_map, List.getElem?_map, h1, List.getElem?_range hi]
      simp [h7]
    · rw [List.getElem?_eq_none (by simpa using hi), List.getElem?_eq_none (by
        rw [List.length_map, hs.rows_length]; omega)]

example : ((baseCL (fun _ => .nan) exTri exTri.a2aind0 "all-weighted" (.fin (11 / 10))).map
      (fun r => r.rows.map (fun x => [x.latest, x.ultimate, x.reserve]))) =
    .ok [[.fin 198, .fin (198 * (11 / 10)), .fin (198 / 10)],
      [.fin 220, .fin (220 * (121 / 100)), .fin (220 * (21 / 100))],
      [.fin 168, .fin (168 * (400 / 326) * (121 / 100)),
        .fin (168 * (400 / 326) * (121 / 100) - 168)],
      [.fin 130, .fin (130 * (494 / 330) * (400 / 326) * (121 / 100)),
        .fin (130 * (494 / 330) * (400 / 326) * (121 / 100) - 130)]] := by
  decide +kernel

example : ((baseCL (fun _ => .nan) exTri exTri.a2aind0 "all-weighted" (.fin (11 / 10))).map
      (fun r => (r.rows.map SummRow.maturity, r.totLatest, r.totReserve))) =
    .ok ([4, 3, 2, 1], .fin 716, .fin (198 / 10 + 220 * (21 / 100) +
      (168 * (400 / 326) * (121 / 100) - 168) +
        (130 * (494 / 330) * (400 / 326) * (121 / 100) - 130))) := by
  decide +kernel

example : ((baseCL (fun _ => .nan) exTri exTri.a2aind0 "all-weighted" (.fin (11 / 10))).map
      (fun r => (r.sqr.tri.row 2, r.sqr.ultimate[2]?))) =
    .ok ([.fin 120, .fin 168, .fin (168 * (400 / 326)), .fin (168 * (400 / 326) * (11 / 10))],
      some (.fin (168 * (400 / 326) * (121 / 100)))) := by
  decide +kernel

/-! ## C33, C36: the tail -/

theorem tailProd_withTail (f : ℕ → K) {n : ℕ} (tail : K) {j : ℕ} (hj : j < n) :
    Spec.tailProd (Spec.withTail f n tail) n j = (∏ m ∈ Finset.Ico j (n - 1), f m) * tail := by
  unfold Spec.tailProd
  obtain ⟨m, rfl⟩ : ∃ m, n = m + 1 := ⟨n - 1, by omega⟩
  rw [Finset.prod_Ico_succ_top (by omega)]
  congr 1
  · apply Finset.prod_congr rfl
    intro x hx
    have := (Finset.mem_Ico.1 hx).2
    simp [Spec.withTail]; omega
  · simp [Spec.withTail]

/-- **C33** changing the tail from `t1` to `t2` multiplies every ultimate by `t2 / t1` and leaves the
factors (all but the last), their labels and the projected cells unchanged. -/
theorem C33_tail {gm : List (Num K) → Num K} {t ind : Tri K} {n : ℕ} {c w : ℕ → ℕ → K}
    (h : Spec.Stair t n c) (hc : ∀ i j, i + j < n → c i j ≠ 0) (hi : IndOn t ind n w) (hn : 3 ≤ n)
    {sel : String} {f : ℕ → K}
    (hsel : Spec.RowIs gm t ind sel ((List.range (n - 1)).map (fun j => .fin (f j))))
    {t1 t2 : K} (ht : t1 ≠ 0) :
    ∃ r1 r2, baseCL gm t ind sel (.fin t1) = .ok r1 ∧ baseCL gm t ind sel (.fin t2) = .ok r2 ∧
      r1.ldfs.take (n - 1) = r2.ldfs.take (n - 1) ∧
      r1.ldfs.map Prod.fst = r2.ldfs.map Prod.fst ∧
      (∀ i < n, ∃ u row1 row2, r1.rows[i]? = some row1 ∧ r2.rows[i]? = some row2 ∧
        row1.ultimate = .fin u ∧ row2.ultimate = .fin (u * (t2 / t1)) ∧
        row1.latest = row2.latest) ∧
      ∀ i < n, ∀ j < n, r1.sqr.tri.cell i j = r2.sqr.tri.cell i j := by
  obtain ⟨r1, lab1, hr1, hl1, _, hldf1, hs1⟩ := baseCL_stair h hc hi hn hsel t1
  obtain ⟨r2, lab2, hr2, hl2, _, hldf2, hs2⟩ := baseCL_stair h hc hi hn hsel t2
  have hlab : lab1 = lab2 := by rw [hl1] at hl2; injection hl2
  subst hlab
  have hlen : t.devs.length = n := h.nc
  refine ⟨r1, r2, hr1, hr2, ?_, ?_, ?_, ?_⟩
  · rw [hldf1, hldf2, take_zip', take_zip']
    congr 1
    rw [← List.map_take, ← List.map_take]
    apply List.map_congr_left
    intro j hj
    rw [List.take_range, List.mem_range] at hj
    unfold Spec.withTail
    rw [if_pos (by omega), if_pos (by omega)]
  · rw [hldf1, hldf2, List.map_fst_zip (by simp [hlen]; omega),
      List.map_fst_zip (by simp [hlen]; omega)]
  · intro i hi'
    obtain ⟨row1, a1, _, _, _, _, a6, a7, _⟩ := hs1.rows i hi'
    obtain ⟨row2, b1, _, _, _, _, b6, b7, _⟩ := hs2.rows i hi'
    refine ⟨_, row1, row2, a1, b1, a7, ?_, by rw [a6, b6]⟩
    rw [b7, tailProd_withTail f t2 (by omega), tailProd_withTail f t1 (by omega)]
    congr 1
    field_simp
  · intro i hi' j hj
    rw [hs1.sqr_cells i hi' j hj, hs2.sqr_cells i hi' j hj]
    have : ∏ m ∈ Finset.Ico (n - 1 - i) j, Spec.withTail f n t1 m =
        ∏ m ∈ Finset.Ico (n - 1 - i) j, Spec.withTail f n t2 m := by
      apply Finset.prod_congr rfl
      intro m hm
      have := (Finset.mem_Ico.1 hm).2
      unfold Spec.withTail
      rw [if_pos (by omega), if_pos (by omega)]
    rw [this]

/-- **C36** the oldest origin: its ultimate is latest times tail, its cumulative factor the tail; with
tail 1 there is no reserve. -/
theorem C36_oldest {gm : List (Num K) → Num K} {t ind : Tri K} {n : ℕ} {c w : ℕ → ℕ → K}
    (h : Spec.Stair t n c) (hc : ∀ i j, i + j < n → c i j ≠ 0) (hi : IndOn t ind n w) (hn : 3 ≤ n)
    (he : Spec.EvenlySpaced t.devs) {sel : String} {f : ℕ → K}
    (hsel : Spec.RowIs gm t ind sel ((List.range (n - 1)).map (fun j => .fin (f j)))) (tail : K) :
    ∃ r row, baseCL gm t ind sel (.fin tail) = .ok r ∧ r.rows[0]? = some row ∧
      row.latest = .fin (c 0 (n - 1)) ∧ row.cldf = .fin tail ∧
      row.ultimate = .fin (c 0 (n - 1) * tail) ∧
      (tail = 1 → row.ultimate = row.latest ∧ row.reserve = .fin 0 ∧ row.emergence = .fin 1) := by
  obtain ⟨r, hr, _, hrows, _⟩ := C31_summary h hc hi hn he hsel tail
  obtain ⟨row, h1, _, _, h4, h5, h6, h7, h8⟩ := hrows 0 (by omega)
  simp only [Nat.sub_zero, Finset.Ico_self, Finset.prod_empty, one_mul] at h4 h5 h6 h7 h8
  refine ⟨r, row, hr, h1, h6, h4, h7, ?_⟩
  rintro rfl
  refine ⟨by rw [h7, h6, mul_one], by rw [h8]; simp, by rw [h5, Num.fin_div _ _ one_ne_zero]; simp⟩

/-! ## C37: factor arrays -/

/-- **C37** an array of factors is accepted iff it has `n - 1` entries; it is then used in order,
followed by the tail; otherwise `ValueError`. -/
theorem C37_array {t : Tri K} {n : ℕ} {c : ℕ → ℕ → K} (h : Spec.Stair t n c) (hn : 1 ≤ n)
    (sel : List K) (tail : K) :
    (sel.length = n - 1 → ∃ r, baseCLArray t (sel.map .fin) (.fin tail) = .ok r ∧
      r.ldfs = t.devs.zip ((sel ++ [tail]).map .fin) ∧
      ∀ i < n, ∃ row, r.rows[i]? = some row ∧
        row.cldf = .fin ((sel.drop (n - 1 - i)).prod * tail) ∧
        row.ultimate = .fin (c i (n - 1 - i) * ((sel.drop (n - 1 - i)).prod * tail))) ∧
    (sel.length ≠ n - 1 → baseCLArray t (sel.map .fin) (.fin tail) = .error .valueError) := by
  have hlen : t.devs.length = n := h.nc
  constructor
  · intro hs
    have hv : (sel.map Num.fin ++ [Num.fin tail]) =
        (List.range n).map (fun j => Num.fin ((sel ++ [tail]).getD j 0)) := by
      apply List.ext_getElem
      · simp; omega
      · intro j h1 h2
        simp at h1 h2
        rw [List.getElem_map, List.getElem_range,
          getD_getElem _ _ (by simp; omega)]
        have : (sel.map Num.fin ++ [Num.fin tail]) = ((sel ++ [tail]).map Num.fin) := by simp
        simp only [this, List.getElem_map]
    have hl2 : (sel.map Num.fin ++ [Num.fin tail]).length = t.nc := by
      rw [h.nc]; simp; omega
    have hval : LdfVals (t.devs.zip (sel.map Num.fin ++ [Num.fin tail])) n
        (fun j => (sel ++ [tail]).getD j 0) := by
      unfold LdfVals
      rw [List.map_snd_zip (le_of_eq hl2), hv]
    obtain ⟨r, hr, hsp⟩ := base_core h hn hval
    have hfst : (t.devs.zip (sel.map Num.fin ++ [Num.fin tail])).map Prod.fst = t.devs :=
      List.map_fst_zip (le_of_eq hl2.symm)
    have hprod : ∀ j < n, Spec.tailProd (fun j => (sel ++ [tail]).getD j 0) n j =
        (sel.drop j).prod * tail := by
      intro j hj
      rw [← drop_range_prod]
      have : (List.range n).map (fun j => (sel ++ [tail]).getD j 0) = sel ++ [tail] := by
        apply List.ext_getElem
        · simp; omega
        · intro k h1 h2
          rw [List.getElem_map, List.getElem_range, getD_getElem _ _ h2]
      rw [this, List.drop_append_of_le_length (by omega), List.prod_append]
      simp
    refine ⟨r, ?_, ?_, ?_⟩
    · unfold baseCLArray ldfsByArray
      rw [if_pos hl2]
      exact hr
    · rw [hsp.factors]; simp
    · intro i hi
      obtain ⟨row, h1, _, _, h4, _, _, h7, _⟩ := hsp.rows i hi
      refine ⟨row, h1, ?_, ?_⟩
      · rw [h4, (baseFromLdfs_fields hr).2, cldfs_get hval (by rw [hfst]; exact h.devs.nodup)
          (show n - 1 - i < n by omega) (by rw [hfst]; exact h.dAt_get (by omega)),
          hprod _ (by omega)]
      · rw [h7, hprod _ (by omega)]
  · intro hs
    unfold baseCLArray ldfsByArray
    rw [if_neg (by rw [h.nc]; simp; omega)]
    rfl

example : ((baseCLArray exTri [.fin 2, .fin (3 / 2), .fin (5 / 4)] (.fin 1)).map
      (fun r => r.rows.map (fun x => (x.cldf, x.ultimate)))) =
    .ok [(.fin 1, .fin 198), (.fin (5 / 4), .fin 275), (.fin (15 / 8), .fin 315),
      (.fin (15 / 4), .fin (975 / 2))] := by
  decide +kernel

example : (baseCLArray exTri [.fin 2, .fin (3 / 2), .fin (5 / 4), .fin 1] (.fin 1)).map
    (fun r => r.ldfs) = .error .valueError := by
  decide +kernel

/-! ## C38: factor Series -/

/-- **C38 is false of the code**: for every Series of the right length with increasing labels (at
least two) the call appends the tail to the caller's Series, and the same call repeated raises
`ValueError`. -/
theorem C38_series_fails (t : Tri K) (sel : Ser K) (tail : Num K)
    (hinc : Spec.Increasing (sel.map Prod.fst)) (hlen : sel.length = t.nc - 1) (h2 : 2 ≤ sel.length) :
    ∃ lab, (baseCLSeries t sel tail).1 = sel ++ [(lab, tail)] ∧
      baseCLSeries t (baseCLSeries t sel tail).1 tail = (sel ++ [(lab, tail)], .error .valueError) := by
  obtain ⟨lab, hl, hgt⟩ := tailLabel_spec hinc (by simpa using h2)
  have h1 : (ldfsBySeries t sel tail).1 = sel ++ [(lab, tail)] := by
    unfold ldfsBySeries
    rw [if_neg (by simpa using hlen), hl]
    have hset : Ser.locSet sel lab tail = sel ++ [(lab, tail)] := by
      unfold Ser.locSet
      rw [if_neg (fun hm => lt_irrefl _ (hgt _ hm))]
    simp only [hset]
    split <;> rfl
  refine ⟨lab, h1, ?_⟩
  show baseCLSeries t (ldfsBySeries t sel tail).1 tail = _
  rw [h1]
  have h3 : ldfsBySeries t (sel ++ [(lab, tail)]) tail = (sel ++ [(lab, tail)], .error .valueError) := by
    unfold ldfsBySeries
    rw [if_pos (by simp; omega)]
  unfold baseCLSeries
  rw [h3]
  rfl

example : ((baseCLSeries exTri [(1, .fin 2), (2, .fin (3 / 2)), (3, .fin (5 / 4))] (.fin 1)).1) =
      [(1, .fin 2), (2, .fin (3 / 2)), (3, .fin (5 / 4)), (4, .fin 1)] := by
  decide +kernel

/-- **C38, partial**: the first call with a Series labelled by the development periods gives the
result of the array of its values (missing: the Series is modified, `C38_series_fails`). -/
theorem C38_series_partial {t : Tri K} {n : ℕ} {c : ℕ → ℕ → K} (h : Spec.Stair t n c) (hn : 3 ≤ n)
    (he : Spec.EvenlySpaced t.devs) (vals : List (Num K)) (hv : vals.length = n - 1)
    (tail : Num K) :
    (baseCLSeries t ((t.devs.take (n - 1)).zip vals) tail).2 = baseCLArray t vals tail := by
  have hlen : t.devs.length = n := h.nc
  have hfst : ((t.devs.take (n - 1)).zip vals).map Prod.fst = t.devs.take (n - 1) := by
    rw [List.map_fst_zip]; simp [hlen, hv]
  have hinc : Spec.Increasing (t.devs.take (n - 1)) := h.devs.sublist (List.take_sublist _ _)
  obtain ⟨lab, hl, hgt⟩ := tailLabel_spec hinc (by simp [hlen]; omega)
  obtain ⟨_, hdevs⟩ := even_tailLabel h hn he hl
  have hset : Ser.locSet ((t.devs.take (n - 1)).zip vals) lab tail = t.devs.zip (vals ++ [tail]) := by
    unfold Ser.locSet
    rw [hfst, if_neg (fun hm => lt_irrefl _ (hgt _ hm))]
    conv_rhs => rw [← hdevs]
    rw [List.zip_append (by simp [hlen, hv])]
    rfl
  have hl2 : (vals ++ [tail]).length = t.nc := by rw [h.nc]; simp; omega
  have hfst2 : (t.devs.zip (vals ++ [tail])).map Prod.fst = t.devs :=
    List.map_fst_zip (le_of_eq hl2.symm)
  have hre : t.devs.map (fun d => (d, Ser.get (t.devs.zip (vals ++ [tail])) d)) =
      t.devs.zip (vals ++ [tail]) := by
    apply List.ext_getElem?
    intro k
    by_cases hk : k < n
    · have h1 := h.dAt_get hk
      have h2 : (vals ++ [tail])[k]? = some ((vals ++ [tail])[k]'(by rw [hl2, h.nc]; exact hk)) :=
        List.getElem?_eq_getElem _
      rw [List.getElem?_map, h1, Option.map_some, Ser.get_zip h.devs.nodup h1 h2,
        List.getElem?_zip_eq_some (z := (t.dAt k, _)) |>.2 ⟨h1, h2⟩]
    · rw [List.getElem?_eq_none (by simp [hlen]; omega), List.getElem?_eq_none (by
        simp [hlen]; omega)]
  have hs : ldfsBySeries t ((t.devs.take (n - 1)).zip vals) tail =
      (t.devs.zip (vals ++ [tail]), .ok (t.devs.zip (vals ++ [tail]))) := by
    unfold ldfsBySeries
    rw [if_neg (by rw [h.nc]; simp [hlen, hv]), hfst, hl]
    simp only [hset, hfst2]
    rw [if_pos h.devs.nodup, hre]
  unfold baseCLSeries baseCLArray ldfsByArray
  rw [hs, if_pos hl2]
  rfl

/-! ## C39: irregular labels -/

/-- **C39 is false of the code**: with development labels 1, 2, 4 the tail is stored under label 3 and
the oldest origin gets neither cumulative factor nor emergence. -/
theorem C39_irregular_fails :
    let t : Tri ℚ := { stairTri 3 exVals with devs := [1, 2, 4] }
    (baseCL (fun _ => .nan) t t.a2aind0 "all-simple" (.fin 1)).map
      (fun r => (r.cldfs.map Prod.fst, r.rows.map (fun x => (x.maturity, x.cldf.isNaN,
        x.emergence.isNaN)))) =
      .ok ([1, 2, 3], [(4, true, true), (2, false, false), (1, false, false)]) := by
  decide +kernel

/-- **C39, partial**: every origin but the oldest has cumulative factor and emergence whatever the
labels; the oldest has them iff the last label is the label computed for the tail, i.e. the previous
label plus the smallest earlier step. -/
theorem C39_irregular_partial {gm : List (Num K) → Num K} {t ind : Tri K} {n : ℕ} {c w : ℕ → ℕ → K}
    (h : Spec.Stair t n c) (hc : ∀ i j, i + j < n → c i j ≠ 0) (hi : IndOn t ind n w) (hn : 3 ≤ n)
    {sel : String} {f : ℕ → K}
    (hsel : Spec.RowIs gm t ind sel ((List.range (n - 1)).map (fun j => .fin (f j)))) (tail : K) :
    ∃ r lab, baseCL gm t ind sel (.fin tail) = .ok r ∧
      tailLabel (t.devs.take (n - 1)) = .ok lab ∧
      (∀ i < n, 0 < i → ∃ row, r.rows[i]? = some row ∧
        row.cldf = .fin ((∏ m ∈ Finset.Ico (n - 1 - i) (n - 1), f m) * tail)) ∧
      ∃ row, r.rows[0]? = some row ∧
        row.cldf = if lab = t.dAt (n - 1) then .fin tail else .nan := by
  obtain ⟨r, lab, hr, hl, hlt, hldf, hs⟩ := baseCL_stair h hc hi hn hsel tail
  have hlen : t.devs.length = n := h.nc
  have hfst : r.ldfs.map Prod.fst = t.devs.take (n - 1) ++ [lab] := by
    rw [hldf, List.map_fst_zip]
    simp [hlen]; omega
  have hvals : LdfVals r.ldfs n (Spec.withTail f n tail) := by
    unfold LdfVals
    rw [hldf, List.map_snd_zip]
    simp [hlen]; omega
  have hcl : r.cldfs = cldfsOf r.ldfs := by
    unfold baseCL at hr
    cases hx : ldfsByName gm t ind sel (.fin tail) with
    | error e => rw [hx] at hr; cases hr
    | ok l =>
      rw [hx] at hr
      obtain ⟨h1, h2⟩ := baseFromLdfs_fields (show baseFromLdfs t l = .ok r from hr)
      rw [h1, h2]
  have hmem : ∀ x ∈ t.devs.take (n - 1), ∃ j < n - 1, x = t.dAt j := by
    intro x hx
    obtain ⟨j, hj⟩ := List.getElem?_of_mem hx
    rw [List.getElem?_take] at hj
    split at hj
    · rename_i hjn
      rw [h.dAt_get (by omega)] at hj
      exact ⟨j, hjn, by simpa using hj.symm⟩
    · cases hj
  have hnd : (r.ldfs.map Prod.fst).Nodup := by
    rw [hfst]
    apply List.Nodup.append
    · exact (h.devs.sublist (List.take_sublist _ _) : Spec.Increasing _).nodup
    · simp
    · intro x hx hx'
      simp at hx'
      obtain ⟨j, hj, e⟩ := hmem x hx
      have := hlt j hj
      omega
  refine ⟨r, lab, hr, hl, ?_, ?_⟩
  · intro i hi' hpos
    obtain ⟨row, h1, _, _, h4, _⟩ := hs.rows i hi'
    refine ⟨row, h1, ?_⟩
    rw [h4, hcl, cldfs_get hvals hnd (show n - 1 - i < n by omega), tailProd_withTail f tail (by omega)]
    rw [hfst, List.getElem?_append_left (by simp [hlen]; omega), List.getElem?_take,
      if_pos (by omega)]
    exact h.dAt_get (by omega)
  · obtain ⟨row, h1, _, _, h4, _⟩ := hs.rows 0 (by omega)
    refine ⟨row, h1, ?_⟩
    rw [h4, hcl]
    by_cases e : lab = t.dAt (n - 1)
    · rw [if_pos e, cldfs_get hvals hnd (show n - 1 < n by omega)]
      · rw [tailProd_withTail f tail (by omega)]; simp
      · rw [hfst, List.getElem?_append_right (by simp [hlen])]
        simp [hlen, e]
    · rw [if_neg e, Nat.sub_zero]
      apply cldfs_get_none
      rw [hfst]
      intro hm
      rcases List.mem_append.1 hm with hm | hm
      · obtain ⟨j, hj, e2⟩ := hmem _ hm
        have hp := List.pairwise_iff_getElem.1 h.devs j (n - 1) (by omega) (by omega) hj
        have e3 : t.devs[j]? = some (t.dAt j) := h.dAt_get (by omega)
        have e4 : t.devs[n - 1]? = some (t.dAt (n - 1)) := h.dAt_get (by omega)
        rw [List.getElem?_eq_getElem (by omega)] at e3 e4
        simp only [Option.some.injEq] at e3 e4
        rw [e3, e4] at hp
        omega
      · simp at hm; exact e hm.symm

/-- `base_cl` by name passes on every exception of `a2a_avgs`: with the most recent link ratio of some
period excluded (C27) no average can be selected, not even one that excludes nothing. -/
theorem C27_base_cl {gm : List (Num K) → Num K} {t ind : Tri K} {e : PyErr}
    (h : a2aAvgs gm t ind = .error e) (sel : String) (tail : Num K) :
    baseCL gm t ind sel tail = .error e := by
  unfold baseCL ldfsByName
  rw [h]
  rfl

end

end Trikit
