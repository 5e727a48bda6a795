import Verif.Props.Exclusions
import Verif.Props.LinkRatios
import Verif.Shapes

/-! # Exclusions with labels the triangle does not have (C155) -/

set_option linter.unusedSectionVars false

namespace Trikit

variable {K : Type} [Field K] [LinearOrder K] [IsStrictOrderedRing K]

/-- The window of an average stops at the first missing value. -/
theorem avgWindow_stop (l : List K) (rest : List (Num K)) (k : ℕ) :
    avgWindow (l.map Num.fin ++ Num.nan :: rest) k =
      ((Spec.lastN k l).filter (fun x => decide (0 < x))).map Num.fin := by
  have hidx : (l.map Num.fin ++ Num.nan :: rest).findIdx Num.isNaN = l.length := by
    induction l with
    | nil => simp [List.findIdx_cons]
    | cons a l ih => simp [List.findIdx_cons, ih]
  unfold avgWindow
  simp only
  rw [hidx]
  unfold pySlice
  have : (l.map Num.fin ++ Num.nan :: rest).take l.length = l.map Num.fin := by
    rw [List.take_append_of_le_length (by simp), List.take_of_length_le (by simp)]
  rw [this]
  have e : (l.map Num.fin).drop (if k = 0 then 0 else l.length - k) =
      (Spec.lastN k l).map (Num.fin (K := K)) := by
    unfold Spec.lastN
    split
    · simp
    · rw [List.map_drop]
  rw [e, List.filter_map]
  congr 1

theorem map_range_get {α : Type} (os : List Int) (g : Int → α) (z : α) :
    (List.range os.length).map (fun i => match os[i]? with
      | some o => g o
      | none => z) = os.map g := by
  apply List.ext_getElem
  · simp
  · intro i h1 h2
    have : i < os.length := by simpa using h1
    simp [List.getElem?_eq_getElem this]

/-- A column of an aligned product, label by label. -/
theorem alignOp_col {f : Num K → Num K → Num K} {a b : Tri K} (hne : ¬ (a.origins = b.origins ∧ a.devs = b.devs)) {j : ℕ}
    {d : Int} (hd : (labels (a.devs ++ b.devs))[j]? = some d) :
    (Tri.alignOp f a b).col j = (labels (a.origins ++ b.origins)).map (fun o => f (a.at' o d) (b.at' o d)) := by
  rw [← map_range_get _ _ Num.nan]
  unfold Tri.alignOp
  rw [if_neg hne]
  unfold Tri.col Tri.nr
  simp only [hd]
  apply List.map_congr_left
  intro i _
  cases (labels (a.origins ++ b.origins))[i]? <;> rfl

variable {t : Tri K} {n : ℕ} {c : ℕ → ℕ → K}

/-- Cell of the link ratios by label. -/
theorem a2a_at (h : Spec.Stair t n c) (hc : ∀ i j, i + j < n → c i j ≠ 0) {i j : ℕ} (hi : i < n - 1) (hj : j < n - 1) :
    t.a2a.at' (t.oAt i) (t.dAt j) = if i + j + 1 < n then .fin (c i (j + 1) / c i j) else .nan := by
  obtain ⟨e1, e2, e3⟩ := h.a2a_spec hc
  have hio := idxOf_map_range (f := t.oAt) (m := n - 1) (fun a ha b hb => h.oAt_inj (by omega) (by omega)) hi
  have hid := idxOf_map_range (f := t.dAt) (m := n - 1) (fun a ha b hb => h.dAt_inj (by omega) (by omega)) hj
  unfold Tri.at'
  rw [if_pos ⟨by rw [e1]; exact List.mem_map.2 ⟨i, List.mem_range.2 hi, rfl⟩,
    by rw [e2]; exact List.mem_map.2 ⟨j, List.mem_range.2 hj, rfl⟩⟩, e1, e2, hio, hid, e3 i hi j hj]

/-- A new origin label leaves the indicator of the existing cells as it was. -/
theorem setAt_at (h : Spec.Stair t n c) (hc : ∀ i j, i + j < n → c i j ≠ 0) {o d : Int} (v : Num K)
    (ho : o ∉ t.a2a.origins) (hd : d ∈ t.a2a.devs) {i j : ℕ} (hi : i < n - 1) (hj : j < n - 1) :
    (t.a2aind0.setAt o d v).at' (t.oAt i) (t.dAt j) = t.a2aind0.cell i j := by
  obtain ⟨e1, e2, _⟩ := h.a2a_spec hc
  have hio := idxOf_map_range (f := t.oAt) (m := n - 1) (fun a ha b hb => h.oAt_inj (by omega) (by omega)) hi
  have hid := idxOf_map_range (f := t.dAt) (m := n - 1) (fun a ha b hb => h.dAt_inj (by omega) (by omega)) hj
  have hm : t.oAt i ∈ t.a2a.origins := by rw [e1]; exact List.mem_map.2 ⟨i, List.mem_range.2 hi, rfl⟩
  have hmd : t.dAt j ∈ t.a2a.devs := by rw [e2]; exact List.mem_map.2 ⟨j, List.mem_range.2 hj, rfl⟩
  have hos : (t.a2aind0.setAt o d v).origins = t.a2a.origins ++ [o] := by
    unfold Tri.setAt
    simp only
    rw [if_neg (show o ∉ t.a2aind0.origins from ho)]
    rfl
  have hds : (t.a2aind0.setAt o d v).devs = t.a2a.devs := by
    unfold Tri.setAt
    simp only
    rw [if_pos (show d ∈ t.a2aind0.devs from hd)]
    rfl
  unfold Tri.at'
  rw [if_pos ⟨by rw [hos]; exact List.mem_append_left _ hm, by rw [hds]; exact hmd⟩, hos, hds,
    List.idxOf_append_of_mem hm, e1, e2, hio, hid]
  have hnr : t.a2aind0.nr = n - 1 := h.a2a_nr hc
  have hnc : t.a2aind0.nc = n - 1 := h.a2a_nc hc
  unfold Tri.setAt
  simp only
  rw [if_neg, if_pos ⟨by omega, by omega⟩]
  rintro ⟨a, -⟩
  rw [if_neg (show o ∉ t.a2aind0.origins from ho)] at a
  rw [List.getElem?_append_left (by rw [show t.a2aind0.origins.length = n - 1 from hnr]; exact hi),
    show t.a2aind0.origins = (List.range (n - 1)).map t.oAt from e1] at a
  simp only [List.getElem?_map, List.getElem?_range hi, Option.map_some, Option.some.injEq] at a
  exact ho (a ▸ hm)

/-- Position of a label among the origins that have link ratios. -/
structure Spec.Between (t : Tri K) (n : ℕ) (o : Int) (p : ℕ) : Prop where
  le : p ≤ n - 1
  above : ∀ i < p, t.oAt i < o
  below : ∀ i, p ≤ i → i < n - 1 → o < t.oAt i

theorem Spec.Between.not_mem (h : Spec.Stair t n c) (hc : ∀ i j, i + j < n → c i j ≠ 0) {o : Int} {p : ℕ}
    (hb : Spec.Between t n o p) : o ∉ t.a2a.origins := by
  rw [(h.a2a_spec hc).1]
  intro hm
  obtain ⟨i, hi, e⟩ := List.mem_map.1 hm
  rcases Nat.lt_or_ge i p with h1 | h1
  · exact absurd e (hb.above i h1).ne
  · exact absurd e (hb.below i h1 (List.mem_range.1 hi)).ne'

theorem union_origins (h : Spec.Stair t n c) (hc : ∀ i j, i + j < n → c i j ≠ 0) {o : Int} {p : ℕ}
    (hb : Spec.Between t n o p) :
    labels (t.a2a.origins ++ (t.a2a.origins ++ [o])) =
      (List.range p).map t.oAt ++ o :: (List.range (n - 1 - p)).map (fun i => t.oAt (p + i)) := by
  have e1 := (h.a2a_spec hc).1
  have hlt : ∀ i i', i < i' → i' < n - 1 → t.oAt i < t.oAt i' := fun i i' h1 h2 =>
    Tri.oAt_lt h.origins (by rw [h.nr]; omega) h1
  have hle := hb.le
  apply labels_eq_of_mem
  · rw [List.pairwise_append, List.pairwise_cons]
    refine ⟨?_, ⟨?_, ?_⟩, ?_⟩
    · rw [List.pairwise_map]
      exact List.pairwise_lt_range.imp_of_mem fun _ hb' hab => hlt _ _ hab (by
        have := List.mem_range.1 hb'; omega)
    · intro x hx
      obtain ⟨i, hi, rfl⟩ := List.mem_map.1 hx
      exact hb.below _ (by omega) (by have := List.mem_range.1 hi; omega)
    · rw [List.pairwise_map]
      exact List.pairwise_lt_range.imp_of_mem fun _ hb' hab => hlt _ _ (by omega) (by
        have := List.mem_range.1 hb'; omega)
    · intro x hx y hy
      obtain ⟨i, hi, rfl⟩ := List.mem_map.1 hx
      have hi' := List.mem_range.1 hi
      rcases List.mem_cons.1 hy with rfl | hy
      · exact hb.above i hi'
      · obtain ⟨i', h2, rfl⟩ := List.mem_map.1 hy
        exact hlt _ _ (by omega) (by have := List.mem_range.1 h2; omega)
  · intro x
    rw [e1]
    simp only [List.mem_append, List.mem_cons, List.mem_map, List.mem_range, List.not_mem_nil, or_false]
    constructor
    · rintro (⟨i, hi, rfl⟩ | rfl | ⟨i, hi, rfl⟩)
      · exact Or.inl ⟨i, by omega, rfl⟩
      · exact Or.inr (Or.inr rfl)
      · exact Or.inl ⟨p + i, by omega, rfl⟩
    · have key : (∃ a < n - 1, t.oAt a = x) → (∃ a < p, t.oAt a = x) ∨ x = o ∨ ∃ a < n - 1 - p, t.oAt (p + a) = x := by
        rintro ⟨i, hi, rfl⟩
        rcases Nat.lt_or_ge i p with h1 | h1
        · exact Or.inl ⟨i, h1, rfl⟩
        · exact Or.inr (Or.inr ⟨i - p, by omega, by congr 1; omega⟩)
      rintro (h1 | h1 | rfl)
      · exact key h1
      · exact key h1
      · exact Or.inr (Or.inl rfl)

theorem union_devs (h : Spec.Stair t n c) (hc : ∀ i j, i + j < n → c i j ≠ 0) :
    labels (t.a2a.devs ++ t.a2a.devs) = (List.range (n - 1)).map t.dAt := by
  have e2 := (h.a2a_spec hc).2.1
  apply labels_eq_of_mem
  · rw [List.pairwise_map]
    exact List.pairwise_lt_range.imp_of_mem fun _ hb' hab => Tri.dAt_lt h.devs (by
      rw [h.nc]; have := List.mem_range.1 hb'; omega) hab
  · intro x
    rw [e2]
    simp

/-- The adjusted link ratios after an assignment to a new origin label: those of the origins before the label, then a
missing value. -/
theorem unknown_col (h : Spec.Stair t n c) (hc : ∀ i j, i + j < n → c i j ≠ 0) {o d : Int} (v : Num K) {p : ℕ}
    (hb : Spec.Between t n o p) (hd : d ∈ t.a2a.devs) {j : ℕ} (hj : j < n - 1) :
    (Tri.alignOp (· * ·) t.a2a (t.a2aind0.setAt o d v)).nc = n - 1 ∧
    ∃ rest, (Tri.alignOp (· * ·) t.a2a (t.a2aind0.setAt o d v)).col j =
      ((List.range (min p (n - 1 - j))).map (fun i => c i (j + 1) / c i j)).map .fin ++ .nan :: rest := by
  have ho := hb.not_mem h hc
  have hos : (t.a2aind0.setAt o d v).origins = t.a2a.origins ++ [o] := by
    unfold Tri.setAt
    simp only
    rw [if_neg (show o ∉ t.a2aind0.origins from ho)]
    rfl
  have hds : (t.a2aind0.setAt o d v).devs = t.a2a.devs := by
    unfold Tri.setAt
    simp only
    rw [if_pos (show d ∈ t.a2aind0.devs from hd)]
    rfl
  have hne : ¬ (t.a2a.origins = (t.a2aind0.setAt o d v).origins ∧ t.a2a.devs = (t.a2aind0.setAt o d v).devs) := by
    rintro ⟨e, -⟩
    rw [hos] at e
    simpa using congrArg List.length e
  have hdv : labels (t.a2a.devs ++ (t.a2aind0.setAt o d v).devs) = (List.range (n - 1)).map t.dAt := by
    rw [hds]; exact union_devs h hc
  constructor
  · unfold Tri.alignOp
    rw [if_neg hne]
    unfold Tri.nc
    simp only [hdv, List.length_map, List.length_range]
  rw [alignOp_col hne (d := t.dAt j) (by rw [hdv]; simp [hj]), hos, union_origins h hc hb, List.map_append,
    List.map_cons, List.map_map]
  have hnan : t.a2a.at' o (t.dAt j) = .nan := by
    unfold Tri.at'
    rw [if_neg (fun x => ho x.1)]
  have hcell : ∀ i < n - 1, t.a2a.at' (t.oAt i) (t.dAt j) * (t.a2aind0.setAt o d v).at' (t.oAt i) (t.dAt j) =
      if i + j + 1 < n then .fin (c i (j + 1) / c i j) else .nan := by
    intro i hi
    rw [a2a_at h hc hi hj, setAt_at h hc v ho hd hi hj]
    split
    · rename_i hij
      rw [(h.indOn0 hc).vals i j hij]
      show Num.fin _ = _
      rw [mul_one]
    · rfl
  have hle := hb.le
  have hq : (List.range p).map ((fun o' => t.a2a.at' o' (t.dAt j) * (t.a2aind0.setAt o d v).at' o' (t.dAt j)) ∘ t.oAt) =
      ((List.range (min p (n - 1 - j))).map (fun i => c i (j + 1) / c i j)).map Num.fin ++
        List.replicate (p - (n - 1 - j)) Num.nan := by
    apply List.ext_getElem
    · simp; omega
    · intro i h1 h2
      have hip : i < p := by simpa using h1
      simp only [List.getElem_map, List.getElem_range, Function.comp_apply]
      rw [hcell i (by omega)]
      by_cases hij : i + j + 1 < n
      · rw [if_pos hij, List.getElem_append_left (by simp; omega)]
        simp
      · rw [if_neg hij, List.getElem_append_right (by simp; omega)]
        simp
  rw [hq, hnan, List.append_assoc]
  cases e : p - (n - 1 - j) with
  | zero => exact ⟨_, rfl⟩
  | succ m => exact ⟨_, rfl⟩

/-- The link ratios of period `j` of the origins before position `p`. -/
def Spec.ratiosBefore (n p : ℕ) (c : ℕ → ℕ → K) (j : ℕ) : List K :=
  (List.range (min p (n - 1 - j))).map (fun i => c i (j + 1) / c i j)

theorem unknown_window (h : Spec.Stair t n c) (hp : Spec.Positive n c) {o d : Int} (v : Num K) {p : ℕ}
    (hb : Spec.Between t n o p) (hd : d ∈ t.a2a.devs) {j : ℕ} (hj : j < n - 1) (k : ℕ) :
    avgWindow ((Tri.alignOp (· * ·) t.a2a (t.a2aind0.setAt o d v)).col j) k =
      (Spec.lastN k (Spec.ratiosBefore n p c j)).map .fin := by
  obtain ⟨rest, e⟩ := (unknown_col h hp.ne_zero v hb hd hj).2
  rw [e, avgWindow_stop, List.filter_eq_self.2]
  · rfl
  · intro x hx
    obtain ⟨i, hi, rfl⟩ := List.mem_map.1 (lastN_subset _ _ x hx)
    have := List.mem_range.1 hi
    exact decide_eq_true (div_pos (hp _ _ (by omega)) (hp _ _ (by omega)))

theorem medial_ok_or (l : List (Num K)) : (∃ v, medialAvg l = .ok v) ∨ medialAvg l = .error .indexError := by
  unfold medialAvg
  cases npSort l with
  | nil => exact Or.inr rfl
  | cons a rest =>
    left
    simp only
    repeat' split
    all_goals exact ⟨_, rfl⟩

theorem avgEntry_ok_or (gm : List (Num K) → Num K) (t ind : Tri K) (k : AvgKind) (d j : ℕ) :
    (∃ v, avgEntry gm t ind k d j = .ok v) ∨ avgEntry gm t ind k d j = .error .indexError := by
  unfold avgEntry avgCell
  cases k with
  | simple => exact Or.inl ⟨_, rfl⟩
  | geometric => exact Or.inl ⟨_, rfl⟩
  | medial => exact medial_ok_or _
  | weighted =>
    simp only
    unfold weightedAvg
    simp only
    split
    · exact Or.inr rfl
    · exact Or.inl ⟨_, rfl⟩

/-- The object after reading the indicator and one assignment. -/
theorem assign_one (t : Tri K) (o d : Int) (v : Num K) :
    IndState.assign (IndState.read { tri := t }).1 ⟨o, d, v⟩ =
      .ok { tri := t, ind := some (t.a2aind0.setAt o d v) } := rfl

/-- **C155 fails for labels before the first origin.** The assignment is accepted, and afterwards `a2a_avgs()` raises
`IndexError`. -/
theorem C155_early_fails (gm : List (Num K) → Num K) (h : Spec.Stair t n c) (hp : Spec.Positive n c) (hn : 2 ≤ n)
    {o d : Int} (v : Num K) (ho : o < t.oAt 0) (hd : d ∈ t.a2a.devs) :
    ∃ s, IndState.assign (IndState.read { tri := t }).1 ⟨o, d, v⟩ = .ok s ∧
      (s.avgs gm).2 = .error .indexError := by
  have hb : Spec.Between t n o 0 := ⟨by omega, fun i hi => by omega, fun i _ hi => by
    rcases Nat.eq_zero_or_pos i with e | e
    · rw [e]; exact ho
    · exact ho.trans (Tri.oAt_lt h.origins (by rw [h.nr]; omega) e)⟩
  refine ⟨_, assign_one t o d v, ?_⟩
  show a2aAvgs gm t (t.a2aind0.setAt o d v) = _
  apply a2aAvgs_error_of
  · intro k d' _ j _
    exact avgEntry_ok_or gm _ _ _ _ _
  · refine ⟨.medial, 0, 0, Or.inl rfl, ?_, ?_⟩
    · rw [(unknown_col h hp.ne_zero v hb hd (j := 0) (by omega)).1]; omega
    · unfold avgEntry avgCell
      simp only
      rw [unknown_window h hp v hb hd (by omega)]
      simp [Spec.ratiosBefore, Spec.lastN, medialAvg_nil]

/-- The averages after an assignment to an origin label that has no link ratios and comes after the first origin: only
the link ratios of the origins before the label are averaged, and weighted averages are not affected. -/
theorem C155_value (gm : List (Num K) → Num K) (h : Spec.Stair t n c) (hp : Spec.Positive n c)
    {o d : Int} (v : Num K) {p : ℕ} (hb : Spec.Between t n o p) (hp1 : 1 ≤ p) (hd : d ∈ t.a2a.devs) :
    ∃ s tab, IndState.assign (IndState.read { tri := t }).1 ⟨o, d, v⟩ = .ok s ∧ (s.avgs gm).2 = .ok tab ∧
      ∀ k < n - 1, ∀ j < n - 1,
        Spec.entry tab (Spec.avgName "simple" k) j =
          some (.fin (Spec.mean (Spec.lastN k (Spec.ratiosBefore n p c j)))) ∧
        Spec.entry tab (Spec.avgName "geometric" k) j =
          some (gm ((Spec.lastN k (Spec.ratiosBefore n p c j)).map .fin)) ∧
        Spec.entry tab (Spec.avgName "weighted" k) j = some (.fin (Spec.wavg n k c j)) := by
  have hc := hp.ne_zero
  have hle := hb.le
  have hne : ∀ k, ∀ j < n - 1, Spec.lastN k (Spec.ratiosBefore n p c j) ≠ [] := fun k j hj =>
    lastN_ne_nil k (by simp [Spec.ratiosBefore]; omega)
  have hnc : ∀ j < n - 1, (Tri.alignOp (· * ·) t.a2a (t.a2aind0.setAt o d v)).nc = n - 1 := fun j hj =>
    (unknown_col h hc v hb hd hj).1
  have hnc' := hnc 0 (by omega)
  have hw : ∀ k, ∀ j < n - 1, avgEntry gm t (t.a2aind0.setAt o d v) .weighted k j = .ok (.fin (Spec.wavg n k c j)) :=
    fun k j hj => entry_wavg (gm := gm) h hp k hj
  obtain ⟨tab, htab⟩ : ∃ tab, a2aAvgs gm t (t.a2aind0.setAt o d v) = .ok tab := by
    apply a2aAvgs_ok_of
    intro k d' _ j hj
    rw [hnc'] at hj
    cases k with
    | simple => exact ⟨_, rfl⟩
    | geometric => exact ⟨_, rfl⟩
    | weighted => exact ⟨_, hw d' j hj⟩
    | medial =>
      rcases medial_ok_or (avgWindow ((Tri.alignOp (· * ·) t.a2a (t.a2aind0.setAt o d v)).col j) d') with e | e
      · exact e
      · exfalso
        rw [unknown_window h hp v hb hd hj] at e
        obtain ⟨lo, hi, h1, h2, h3, h4⟩ := exists_min_max (hne d' j hj)
        rw [medialAvg_spec h1 h2 h3 h4] at e
        cases e
  refine ⟨_, tab, assign_one t o d v, htab, ?_⟩
  intro k hk j hj
  have hj' : j < (Tri.alignOp (· * ·) t.a2a (t.a2aind0.setAt o d v)).nc := by rw [hnc']; exact hj
  have hk' : k = 0 ∨ k < t.a2a.nr := Or.inr (by rw [h.a2a_nr hc]; exact hk)
  refine ⟨?_, ?_, ?_⟩
  · apply entry_of_ok htab .simple hk' hj'
    unfold avgEntry avgCell
    simp only
    rw [unknown_window h hp v hb hd hj, simpleAvg_fin (hne k j hj)]
  · apply entry_of_ok htab .geometric hk' hj'
    unfold avgEntry avgCell
    simp only
    rw [unknown_window h hp v hb hd hj]
    unfold geometricAvg
    rw [if_neg (by simpa using hne k j hj)]
  · exact entry_of_ok htab .weighted hk' hj' (hw k j hj)

/-- **C155 fails for labels between the origins.** After an assignment to a label between two origins that have link
ratios the one-year average of the first period is the link ratio of the origin before the label; the more recent ones
are ignored. -/
theorem C155_between_fails (gm : List (Num K) → Num K) (h : Spec.Stair t n c) (hp : Spec.Positive n c)
    {o d : Int} (v : Num K) {p : ℕ} (hb : Spec.Between t n o p) (hp1 : 1 ≤ p) (hp2 : p < n - 1) (hd : d ∈ t.a2a.devs)
    (hdiff : c (p - 1) 1 / c (p - 1) 0 ≠ c (n - 2) 1 / c (n - 2) 0) :
    ∃ s tab0 tab, (IndState.avgs gm { tri := t }).2 = .ok tab0 ∧
      IndState.assign (IndState.read { tri := t }).1 ⟨o, d, v⟩ = .ok s ∧ (s.avgs gm).2 = .ok tab ∧
      Spec.entry tab0 (Spec.avgName "simple" 1) 0 = some (.fin (c (n - 2) 1 / c (n - 2) 0)) ∧
      Spec.entry tab (Spec.avgName "simple" 1) 0 = some (.fin (c (p - 1) 1 / c (p - 1) 0)) ∧
      Spec.entry tab (Spec.avgName "simple" 1) 0 ≠ Spec.entry tab0 (Spec.avgName "simple" 1) 0 := by
  obtain ⟨s, tab, h1, h2, h3⟩ := C155_value gm h hp v hb hp1 hd
  obtain ⟨tab0, h4, -, h5⟩ := C24_simple gm h hp
  obtain ⟨v0, e0, ev, -⟩ := h5 1 (by omega) 0 (by omega)
  rw [ev] at e0
  have e1 := (h3 1 (by omega) 0 (by omega)).1
  have one : ∀ m : ℕ, 1 ≤ m → Spec.mean (Spec.lastN 1 ((List.range m).map (fun i => c i (0 + 1) / c i 0))) =
      c (m - 1) 1 / c (m - 1) 0 := by
    intro m hm
    obtain ⟨m, rfl⟩ : ∃ q, m = q + 1 := ⟨m - 1, by omega⟩
    simp [Spec.lastN, Spec.mean, List.range_succ]
  unfold Spec.ratiosBefore at e1
  rw [one _ (by omega), show min p (n - 1 - 0) - 1 = p - 1 by omega] at e1
  unfold Spec.ratios at e0
  rw [one _ (by omega), show n - 1 - 0 - 1 = n - 2 by omega] at e0
  refine ⟨s, tab0, tab, h4, h1, h2, e0, e1, ?_⟩
  rw [e0, e1]
  intro e
  exact hdiff (Num.fin.inj (Option.some.inj e))

theorem a2aAvgs_congr {gm : List (Num K) → Num K} {t ind ind' : Tri K}
    (hnc : (Tri.alignOp (· * ·) t.a2a ind).nc = (Tri.alignOp (· * ·) t.a2a ind').nc)
    (he : ∀ k d, ∀ j < (Tri.alignOp (· * ·) t.a2a ind).nc, avgEntry gm t ind k d j = avgEntry gm t ind' k d j) :
    a2aAvgs gm t ind = a2aAvgs gm t ind' := by
  unfold a2aAvgs
  simp only
  have : ∀ (k : AvgKind) (d : ℕ),
      (List.range (Tri.alignOp (· * ·) t.a2a ind).nc).mapM
        (fun j => avgCell gm t (Tri.alignOp (· * ·) t.a2a ind) k d j) =
      (List.range (Tri.alignOp (· * ·) t.a2a ind').nc).mapM
        (fun j => avgCell gm t (Tri.alignOp (· * ·) t.a2a ind') k d j) := by
    intro k d
    rw [← hnc]
    exact mapM_congr' fun j hj => he k d j (List.mem_range.1 hj)
  simp only [this]

/-- **C155, part that holds.** An assignment to a label later than all origins that have link ratios, for example the
latest origin, leaves `a2a_avgs()` as it was.  Missing: earlier labels (`C155_early_fails`, `C155_between_fails`) and
unknown development periods (`C155_unknown_dev_fails`). -/
theorem C155_late_partial (gm : List (Num K) → Num K) (h : Spec.Stair t n c) (hp : Spec.Positive n c)
    {o d : Int} (v : Num K) (ho : ∀ i < n - 1, t.oAt i < o) (hd : d ∈ t.a2a.devs) :
    ∃ s tab, IndState.assign (IndState.read { tri := t }).1 ⟨o, d, v⟩ = .ok s ∧
      (IndState.avgs gm { tri := t }).2 = .ok tab ∧ (s.avgs gm).2 = .ok tab := by
  have hc := hp.ne_zero
  have hb : Spec.Between t n o (n - 1) := ⟨le_rfl, ho, fun i h1 h2 => by omega⟩
  obtain ⟨tab, htab⟩ := a2aAvgs_noexcl_ok gm h hp
  refine ⟨_, tab, assign_one t o d v, htab, ?_⟩
  show a2aAvgs gm t (t.a2aind0.setAt o d v) = _
  rw [← htab]
  have hn : 0 < n - 1 := by
    rw [(h.a2a_spec hc).2.1] at hd
    obtain ⟨j, hj, -⟩ := List.mem_map.1 hd
    have := List.mem_range.1 hj
    omega
  have hnc := (unknown_col h hc v hb hd hn).1
  apply a2aAvgs_congr
  · rw [hnc, adj_nc h hc (h.indOn0 hc)]
  · intro k d' j hj
    rw [hnc] at hj
    have hw : avgWindow ((Tri.alignOp (· * ·) t.a2a (t.a2aind0.setAt o d v)).col j) d' =
        avgWindow ((Tri.alignOp (· * ·) t.a2a t.a2aind0).col j) d' := by
      rw [unknown_window h hp v hb hd hj, entry_window h hc (h.indOn0 hc) hj, window_noexcl hp]
      unfold Spec.ratiosBefore Spec.ratios
      rw [show min (n - 1) (n - 1 - j) = n - 1 - j by omega]
    unfold avgEntry avgCell
    cases k <;> simp only [hw]

/-- **C155 fails for unknown development periods.** Whatever the triangle and the origin, the assignment is accepted and afterwards
`a2a_avgs()` raises `IndexError`. -/
theorem C155_unknown_dev_fails (gm : List (Num K) → Num K) (t : Tri K) (o : Int) {d : Int} (v : Num K) (hd : d ∉ t.a2a.devs) :
    ∃ s, IndState.assign (IndState.read { tri := t }).1 ⟨o, d, v⟩ = .ok s ∧
      (s.avgs gm).2 = .error .indexError := by
  refine ⟨_, assign_one t o d v, ?_⟩
  show a2aAvgs gm t (t.a2aind0.setAt o d v) = _
  have hds : (t.a2aind0.setAt o d v).devs = t.a2a.devs ++ [d] := by
    unfold Tri.setAt
    simp only
    rw [if_neg (show d ∉ t.a2aind0.devs from hd)]
    rfl
  have hne : ¬ (t.a2a.origins = (t.a2aind0.setAt o d v).origins ∧ t.a2a.devs = (t.a2aind0.setAt o d v).devs) := by
    rintro ⟨-, e⟩
    rw [hds] at e
    simpa using congrArg List.length e
  have hmem : d ∈ labels (t.a2a.devs ++ (t.a2aind0.setAt o d v).devs) := by
    rw [mem_labels, hds]; simp
  obtain ⟨j, hj, hj'⟩ := List.getElem_of_mem hmem
  apply a2aAvgs_error_of
  · intro k d' _ j _
    exact avgEntry_ok_or gm _ _ _ _ _
  · refine ⟨.medial, 0, j, Or.inl rfl, ?_, ?_⟩
    · unfold Tri.alignOp
      rw [if_neg hne]
      exact hj
    · unfold avgEntry avgCell
      simp only
      rw [alignOp_col hne (d := d) (by rw [List.getElem?_eq_getElem hj, hj'])]
      have : ∀ o', t.a2a.at' o' d * (t.a2aind0.setAt o d v).at' o' d = .nan := by
        intro o'
        have : t.a2a.at' o' d = .nan := by
          unfold Tri.at'
          rw [if_neg (fun x => hd x.2)]
        rw [this]; rfl
      simp only [this]
      have hnil : ∀ l : List Int, avgWindow (l.map (fun _ => (Num.nan : Num K))) 0 = [] := by
        intro l
        cases l with
        | nil => rfl
        | cons a l => simp [avgWindow, pySlice, List.findIdx_cons, Num.isNaN]
      rw [hnil, medialAvg_nil]

/-- `exTri` has origins 2001 to 2004 and periods 1 to 4: the label 1999 is accepted and breaks the averages, 2004 (which
has no link ratio) is harmless, period 7 breaks them. -/
example : ((IndState.assign (IndState.read { tri := exTri }).1 ⟨1999, 1, .fin 0⟩).bind
      (fun s => (s.avgs (fun _ => .nan)).2.map (fun tab => Spec.entry tab "all-simple" 0)) = .error .indexError) ∧
    ((IndState.assign (IndState.read { tri := exTri }).1 ⟨2004, 1, .fin 0⟩).bind
      (fun s => (s.avgs (fun _ => .nan)).2.map (fun tab => Spec.entry tab "simple-1" 0)) =
        (IndState.avgs (fun _ => .nan) { tri := exTri }).2.map (fun tab => Spec.entry tab "simple-1" 0)) ∧
    ((IndState.assign (IndState.read { tri := exTri }).1 ⟨2001, 7, .fin 0⟩).bind
      (fun s => (s.avgs (fun _ => .nan)).2.map (fun tab => Spec.entry tab "all-simple" 0)) = .error .indexError) := by
  decide +kernel

/-- Origins 10, 20, 30, 40: an exclusion with the mistyped label 25 drops the link ratios of 30 from the averages. -/
def exWide : Tri ℚ := { exTri with origins := [10, 20, 30, 40] }

theorem exWide_stair : Spec.Stair exWide 4 exVals :=
  { exTri_stair with origins := by unfold Spec.Increasing; decide, nr := rfl }

example : ∃ s tab0 tab, (IndState.avgs (fun _ => .nan) { tri := exWide }).2 = .ok tab0 ∧
    IndState.assign (IndState.read { tri := exWide }).1 ⟨25, 1, .fin 0⟩ = .ok s ∧
    (s.avgs (fun _ => .nan)).2 = .ok tab ∧
    Spec.entry tab0 (Spec.avgName "simple" 1) 0 = some (.fin (exVals 2 1 / exVals 2 0)) ∧
    Spec.entry tab (Spec.avgName "simple" 1) 0 = some (.fin (exVals 1 1 / exVals 1 0)) ∧
    Spec.entry tab (Spec.avgName "simple" 1) 0 ≠ Spec.entry tab0 (Spec.avgName "simple" 1) 0 :=
  C155_between_fails _ exWide_stair exVals_pos _ (p := 2)
    ⟨by decide, by decide +kernel, fun i h1 h2 => by
      obtain rfl : i = 2 := by omega
      decide +kernel⟩ (by decide) (by decide) (by decide +kernel) (by decide +kernel)

end Trikit
