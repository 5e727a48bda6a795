import Verif.AvgLemmas

/-! # Lemmas on the table of averages -/

set_option linter.unusedSectionVars false

namespace Trikit

variable {K : Type}

/-! ### mapM in `Except` -/

theorem mapM_ok_iff {α β : Type} {f : α → Except PyErr β} {l : List α} {r : List β} :
    l.mapM f = .ok r ↔ List.Forall₂ (fun a b => f a = .ok b) l r := by
  induction l generalizing r with
  | nil =>
    rw [List.mapM_nil]
    constructor
    · intro h
      have : r = [] := by injection h with h; exact h.symm
      subst this; exact List.Forall₂.nil
    · intro h; cases h; rfl
  | cons a l ih =>
    rw [List.mapM_cons]
    constructor
    · intro h
      cases ha : f a with
      | error e => rw [ha] at h; cases h
      | ok b =>
        rw [ha] at h
        cases hl : l.mapM f with
        | error e => rw [hl] at h; cases h
        | ok bs =>
          rw [hl] at h
          have : r = b :: bs := by injection h with h; exact h.symm
          subst this
          exact List.Forall₂.cons ha (ih.1 hl)
    · intro h
      cases h with
      | cons h1 h2 =>
        rw [h1, ih.2 h2]; rfl

theorem mapM_total {α β : Type} {f : α → Except PyErr β} {l : List α}
    (h : ∀ a ∈ l, ∃ b, f a = .ok b) : ∃ r, l.mapM f = .ok r := by
  induction l with
  | nil => exact ⟨[], rfl⟩
  | cons a l ih =>
    obtain ⟨b, hb⟩ := h a (by simp)
    obtain ⟨r, hr⟩ := ih (fun x hx => h x (by simp [hx]))
    exact ⟨b :: r, by rw [List.mapM_cons, hb, hr]; rfl⟩

theorem mapM_ok_mem {α β : Type} {f : α → Except PyErr β} {l : List α} {r : List β}
    (h : l.mapM f = .ok r) {a : α} (ha : a ∈ l) : ∃ b, f a = .ok b := by
  rw [mapM_ok_iff] at h
  induction h with
  | nil => simp at ha
  | cons h1 _ ih =>
    rcases List.mem_cons.1 ha with e | e
    · subst e; exact ⟨_, h1⟩
    · exact ih e

/-- A single possible error. -/
theorem mapM_error_of {α β : Type} {f : α → Except PyErr β} {l : List α} {e : PyErr}
    (hall : ∀ a ∈ l, (∃ b, f a = .ok b) ∨ f a = .error e) (hex : ∃ a ∈ l, f a = .error e) :
    l.mapM f = .error e := by
  induction l with
  | nil => obtain ⟨a, ha, _⟩ := hex; simp at ha
  | cons a l ih =>
    rw [List.mapM_cons]
    rcases hall a (by simp) with ⟨b, hb⟩ | he
    · rw [hb]
      obtain ⟨x, hx, hxe⟩ := hex
      have hx' : x ∈ l := by
        rcases List.mem_cons.1 hx with h | h
        · subst h; rw [hb] at hxe; cases hxe
        · exact h
      have hrec := ih (fun y hy => hall y (by simp [hy])) ⟨x, hx', hxe⟩
      show (do let bs ← List.mapM f l; pure (b :: bs)) = _
      rw [hrec]; rfl
    · rw [he]; rfl

theorem lookup_forall₂ {α β γ : Type} [BEq β] [LawfulBEq β] {key : α → β} {P : α → γ → Prop}
    {l : List α} {r : List (β × γ)}
    (h : List.Forall₂ (fun a b => b.1 = key a ∧ P a b.2) l r) {a : α} (ha : a ∈ l)
    (hinj : ∀ b ∈ l, key b = key a → b = a) :
    ∃ v, r.lookup (key a) = some v ∧ P a v := by
  induction h with
  | nil => simp at ha
  | @cons x y l' r' hxy _ ih =>
    obtain ⟨y1, y2⟩ := y
    obtain ⟨h1, h2⟩ := hxy
    simp only at h1 h2
    rw [List.lookup_cons]
    by_cases e : key a == y1
    · rw [e]
      have : x = a := hinj x (by simp) (by rw [← h1]; exact (beq_iff_eq.1 e).symm)
      subst this
      exact ⟨y2, rfl, h2⟩
    · rw [Bool.not_eq_true] at e
      rw [e]
      have hm : a ∈ l' := by
        rcases List.mem_cons.1 ha with h | h
        · subst h; rw [h1] at e; simp at e
        · exact h
      exact ih hm (fun b hb => hinj b (by simp [hb]))

section
variable [Field K] [LinearOrder K]

/-- Column functions of the table of averages. -/
def avgEntry (gm : List (Num K) → Num K) (t ind : Tri K) (k : AvgKind) (d j : ℕ) :
    Except PyErr (Num K) :=
  avgCell gm t (Tri.alignOp (· * ·) t.a2a ind) k d j

theorem a2aAvgs_lookup {gm : List (Num K) → Num K} {t ind : Tri K} {tab : AvgTable K}
    (h : a2aAvgs gm t ind = .ok tab) {k : AvgKind} {d : ℕ} (hd : d = 0 ∨ d < t.a2a.nr) :
    tab.devs = t.a2a.devs ∧ ∃ vals, tab.rows.lookup (avgLabel k d) = some vals ∧
      (List.range (Tri.alignOp (· * ·) t.a2a ind).nc).mapM (avgEntry gm t ind k d) = .ok vals := by
  unfold a2aAvgs at h
  simp only at h
  cases hm : (avgGrid t.a2a.nr).mapM (fun p => do
      let vals ← (List.range (Tri.alignOp (· * ·) t.a2a ind).nc).mapM
        (fun j => avgCell gm t (Tri.alignOp (· * ·) t.a2a ind) p.1 p.2 j)
      (pure (avgLabel p.1 p.2, vals) : Except PyErr (String × List (Num K)))) with
  | error e => rw [hm] at h; cases h
  | ok rows =>
    rw [hm] at h
    have htab : tab = { devs := t.a2a.devs, rows := rows } := by injection h with h; exact h.symm
    subst htab
    refine ⟨rfl, ?_⟩
    rw [mapM_ok_iff] at hm
    have hf : List.Forall₂ (fun (a : AvgKind × ℕ) (b : String × List (Num K)) =>
        b.1 = avgLabel a.1 a.2 ∧ (fun (a : AvgKind × ℕ) vals =>
          (List.range (Tri.alignOp (· * ·) t.a2a ind).nc).mapM (avgEntry gm t ind a.1 a.2)
            = .ok vals) a b.2) (avgGrid t.a2a.nr) rows := by
      refine hm.imp ?_
      intro a b hab
      cases hv : (List.range (Tri.alignOp (· * ·) t.a2a ind).nc).mapM
        (fun j => avgCell gm t (Tri.alignOp (· * ·) t.a2a ind) a.1 a.2 j) with
      | error e => rw [hv] at hab; cases hab
      | ok vals =>
        rw [hv] at hab
        have : b = (avgLabel a.1 a.2, vals) := by injection hab with h; exact h.symm
        subst this
        exact ⟨rfl, hv⟩
    exact lookup_forall₂ (key := fun a : AvgKind × ℕ => avgLabel a.1 a.2)
      (P := fun (a : AvgKind × ℕ) vals =>
          (List.range (Tri.alignOp (· * ·) t.a2a ind).nc).mapM (avgEntry gm t ind a.1 a.2)
            = .ok vals) hf
      (a := (k, d)) (mem_avgGrid.2 hd)
      (fun b _ hb => by
        obtain ⟨h1, h2⟩ := avgLabel_inj hb
        exact Prod.ext h1 h2)

theorem a2aAvgs_ok_of {gm : List (Num K) → Num K} {t ind : Tri K}
    (h : ∀ k d, (d = 0 ∨ d < t.a2a.nr) → ∀ j < (Tri.alignOp (· * ·) t.a2a ind).nc,
      ∃ v, avgEntry gm t ind k d j = .ok v) : ∃ tab, a2aAvgs gm t ind = .ok tab := by
  unfold a2aAvgs
  simp only
  have : ∃ rows, (avgGrid t.a2a.nr).mapM (fun p => do
      let vals ← (List.range (Tri.alignOp (· * ·) t.a2a ind).nc).mapM
        (fun j => avgCell gm t (Tri.alignOp (· * ·) t.a2a ind) p.1 p.2 j)
      (pure (avgLabel p.1 p.2, vals) : Except PyErr (String × List (Num K)))) = .ok rows := by
    apply mapM_total
    rintro ⟨k, d⟩ hp
    obtain ⟨r, hr⟩ := mapM_total (f := fun j =>
      avgCell gm t (Tri.alignOp (· * ·) t.a2a ind) k d j)
      (l := List.range (Tri.alignOp (· * ·) t.a2a ind).nc)
      (fun j hj => h k d (mem_avgGrid.1 hp) j (List.mem_range.1 hj))
    refine ⟨(avgLabel k d, r), ?_⟩
    simp only
    rw [hr]; rfl
  obtain ⟨rows, hr⟩ := this
  exact ⟨{ devs := t.a2a.devs, rows := rows }, by rw [hr]; rfl⟩

theorem a2aAvgs_ok_entry {gm : List (Num K) → Num K} {t ind : Tri K} {tab : AvgTable K}
    (h : a2aAvgs gm t ind = .ok tab) (k : AvgKind) {d : ℕ} (hd : d = 0 ∨ d < t.a2a.nr) {j : ℕ}
    (hj : j < (Tri.alignOp (· * ·) t.a2a ind).nc) : ∃ v, avgEntry gm t ind k d j = .ok v := by
  obtain ⟨_, vals, _, hm⟩ := a2aAvgs_lookup h (k := k) hd
  exact mapM_ok_mem hm (List.mem_range.2 hj)

theorem a2aAvgs_error_of {gm : List (Num K) → Num K} {t ind : Tri K} {e : PyErr}
    (hall : ∀ k d, (d = 0 ∨ d < t.a2a.nr) → ∀ j < (Tri.alignOp (· * ·) t.a2a ind).nc,
      (∃ v, avgEntry gm t ind k d j = .ok v) ∨ avgEntry gm t ind k d j = .error e)
    (hex : ∃ k d j, (d = 0 ∨ d < t.a2a.nr) ∧ j < (Tri.alignOp (· * ·) t.a2a ind).nc ∧
      avgEntry gm t ind k d j = .error e) : a2aAvgs gm t ind = .error e := by
  unfold a2aAvgs
  simp only
  have : (avgGrid t.a2a.nr).mapM (fun p => do
      let vals ← (List.range (Tri.alignOp (· * ·) t.a2a ind).nc).mapM
        (fun j => avgCell gm t (Tri.alignOp (· * ·) t.a2a ind) p.1 p.2 j)
      (pure (avgLabel p.1 p.2, vals) : Except PyErr (String × List (Num K)))) = .error e := by
    apply mapM_error_of
    · rintro ⟨k, d⟩ hp
      have hd := mem_avgGrid.1 hp
      simp only
      by_cases hbad : ∃ j ∈ List.range (Tri.alignOp (· * ·) t.a2a ind).nc,
          avgCell gm t (Tri.alignOp (· * ·) t.a2a ind) k d j = .error e
      · right
        rw [mapM_error_of (f := fun j => avgCell gm t (Tri.alignOp (· * ·) t.a2a ind) k d j) (e := e)
          (fun j hj => hall k d hd j (List.mem_range.1 hj)) hbad]
        rfl
      · left
        obtain ⟨r, hr⟩ := mapM_total (f := fun j =>
          avgCell gm t (Tri.alignOp (· * ·) t.a2a ind) k d j)
          (l := List.range (Tri.alignOp (· * ·) t.a2a ind).nc)
          (fun j hj => by
            rcases hall k d hd j (List.mem_range.1 hj) with h | h
            · exact h
            · exact absurd ⟨j, hj, h⟩ hbad)
        exact ⟨(avgLabel k d, r), by rw [hr]; rfl⟩
    · obtain ⟨k, d, j, hd, hj, he⟩ := hex
      refine ⟨(k, d), mem_avgGrid.2 hd, ?_⟩
      simp only
      rw [mapM_error_of (f := fun j => avgCell gm t (Tri.alignOp (· * ·) t.a2a ind) k d j) (e := e)
          (fun j hj => hall k d hd j (List.mem_range.1 hj))
        ⟨j, List.mem_range.2 hj, he⟩]
      rfl
  rw [this]; rfl

/-! ### entries on staircases -/

theorem entry_window {t ind : Tri K} {n : ℕ} {c w : ℕ → ℕ → K}
    (h : Spec.Stair t n c) (hc : ∀ i j, i + j < n → c i j ≠ 0) (hi : IndOn t ind n w) {j : ℕ}
    (hj : j < n - 1) (d : ℕ) :
    avgWindow ((Tri.alignOp (· * ·) t.a2a ind).col j) d =
      ((Spec.lastN d (adjRatios n c w j)).filter (fun x => decide (0 < x))).map Num.fin := by
  rw [adj_col h hc hi hj, avgWindow_spec]

theorem entry_simple {gm : List (Num K) → Num K} {t ind : Tri K} {n : ℕ} {c w : ℕ → ℕ → K}
    (h : Spec.Stair t n c) (hc : ∀ i j, i + j < n → c i j ≠ 0) (hi : IndOn t ind n w) {j : ℕ}
    (hj : j < n - 1) (d : ℕ) :
    avgEntry gm t ind .simple d j = .ok (simpleAvg
      (((Spec.lastN d (adjRatios n c w j)).filter (fun x => decide (0 < x))).map Num.fin)) := by
  unfold avgEntry avgCell
  simp only
  rw [entry_window h hc hi hj]

theorem entry_geometric {gm : List (Num K) → Num K} {t ind : Tri K} {n : ℕ} {c w : ℕ → ℕ → K}
    (h : Spec.Stair t n c) (hc : ∀ i j, i + j < n → c i j ≠ 0) (hi : IndOn t ind n w) {j : ℕ}
    (hj : j < n - 1) (d : ℕ) :
    avgEntry gm t ind .geometric d j = .ok (geometricAvg gm
      (((Spec.lastN d (adjRatios n c w j)).filter (fun x => decide (0 < x))).map Num.fin)) := by
  unfold avgEntry avgCell
  simp only
  rw [entry_window h hc hi hj]

theorem entry_medial {gm : List (Num K) → Num K} {t ind : Tri K} {n : ℕ} {c w : ℕ → ℕ → K}
    (h : Spec.Stair t n c) (hc : ∀ i j, i + j < n → c i j ≠ 0) (hi : IndOn t ind n w) {j : ℕ}
    (hj : j < n - 1) (d : ℕ) :
    avgEntry gm t ind .medial d j = medialAvg
      (((Spec.lastN d (adjRatios n c w j)).filter (fun x => decide (0 < x))).map Num.fin) := by
  unfold avgEntry avgCell
  simp only
  rw [entry_window h hc hi hj]

theorem Spec.Stair.col {t : Tri K} {n : ℕ} {c : ℕ → ℕ → K} (h : Spec.Stair t n c) {j : ℕ}
    (hj : j < n) : t.col j =
      ((List.range (n - j)).map (fun i => c i j)).map Num.fin ++ List.replicate j .nan := by
  unfold Tri.col
  rw [h.nr]
  have e : n = (n - j) + j := by omega
  conv_lhs => rw [e]
  rw [List.range_add, List.map_append, List.map_map, List.map_map]
  congr 1
  · apply List.map_congr_left
    intro i hi
    rw [List.mem_range] at hi
    exact h.obs i j (by omega)
  · rw [List.eq_replicate_iff]
    refine ⟨by simp, ?_⟩
    intro v hv
    obtain ⟨x, hx, rfl⟩ := List.mem_map.1 hv
    rw [List.mem_range] at hx
    show t.cell (n - j + x) j = .nan
    exact h.miss (n - j + x) j (by omega) hj (by omega)

theorem filter_fin_nan (l : List K) (m : ℕ) :
    ((l.map Num.fin ++ List.replicate m Num.nan).filter (fun v => !v.isNaN)) = l.map Num.fin := by
  rw [List.filter_append, List.filter_eq_self.2, List.filter_eq_nil_iff.2, List.append_nil]
  · intro v hv; rw [List.eq_of_mem_replicate hv]; simp
  · intro v hv; obtain ⟨x, _, rfl⟩ := List.mem_map.1 hv; simp

/-- The origins entering a weighted average. -/
def wOrigins (n d j : ℕ) : List ℕ := Spec.lastN d (List.range (n - 1 - j))

theorem weightedAvg_spec {t : Tri K} {n : ℕ} {c : ℕ → ℕ → K} (h : Spec.Stair t n c) {j : ℕ}
    (hj : j < n - 1) (d : ℕ) :
    weightedAvg t d j = .ok (.fin ((wOrigins n d j).map (fun i => c i (j + 1))).sum /
      .fin ((wOrigins n d j).map (fun i => c i j)).sum) := by
  unfold weightedAvg
  simp only
  rw [h.col (show j + 1 < n by omega), h.col (show j < n by omega), filter_fin_nan, h.nr]
  have hlen : (((List.range (n - (j + 1))).map (fun i => c i (j + 1))).map Num.fin).length =
    n - (j + 1) := by simp
  rw [hlen, if_neg (by omega)]
  have e1 : n - (j + 1) = n - 1 - j := by omega
  rw [e1]
  have slice : ∀ (f : ℕ → K) (m p : ℕ), n - 1 - j ≤ m →
      Num.sumSkip (pySlice (((List.range m).map f).map Num.fin ++ List.replicate p Num.nan)
        (if d = 0 then 0 else n - 1 - j - d) (n - 1 - j)) =
      .fin (((wOrigins n d j).map f).sum) := by
    intro f m p hm
    unfold pySlice wOrigins
    rw [List.take_append_of_le_length (by simpa using hm), ← List.map_take, ← List.map_take,
      List.take_range, Nat.min_eq_left hm, ← List.map_drop, ← List.map_drop, Num.sumSkip_map_fin]
    unfold Spec.lastN
    split <;> simp
  rw [slice _ _ _ (by omega), slice _ _ _ (by omega)]

theorem entry_weighted {gm : List (Num K) → Num K} {t ind : Tri K} {n : ℕ} {c : ℕ → ℕ → K}
    (h : Spec.Stair t n c) {j : ℕ} (hj : j < n - 1) (d : ℕ) :
    avgEntry gm t ind .weighted d j =
      .ok (.fin ((wOrigins n d j).map (fun i => c i (j + 1))).sum /
        .fin ((wOrigins n d j).map (fun i => c i j)).sum) := by
  unfold avgEntry avgCell
  simp only
  rw [weightedAvg_spec h hj]

/-! ### sorting, medial averages -/

theorem insNum_fin (x : K) (l : List K) :
    ∃ l' : List K, insNum (.fin x) (l.map Num.fin) = l'.map Num.fin ∧ l'.Perm (x :: l) := by
  induction l with
  | nil => exact ⟨[x], rfl, List.Perm.refl _⟩
  | cons y l ih =>
    rw [List.map_cons, insNum]
    split
    · obtain ⟨l', h1, h2⟩ := ih
      exact ⟨y :: l', by rw [h1]; rfl, (h2.cons y).trans (List.Perm.swap x y l)⟩
    · exact ⟨x :: y :: l, rfl, List.Perm.refl _⟩

theorem npSort_fin (l : List K) : ∃ l' : List K, npSort (l.map Num.fin) = l'.map Num.fin ∧ l'.Perm l := by
  induction l with
  | nil => exact ⟨[], rfl, List.Perm.refl _⟩
  | cons x l ih =>
    obtain ⟨l', h1, h2⟩ := ih
    have : npSort ((x :: l).map Num.fin) = insNum (.fin x) (npSort (l.map Num.fin)) := rfl
    rw [this, h1]
    obtain ⟨m, h3, h4⟩ := insNum_fin x l'
    exact ⟨m, h3, h4.trans (h2.cons x)⟩

theorem npMin_fin (a : K) (l : List K) :
    ∃ m, npMin (.fin a) (l.map Num.fin) = .fin m ∧ m ∈ a :: l ∧ ∀ x ∈ a :: l, m ≤ x := by
  induction l generalizing a with
  | nil => exact ⟨a, rfl, by simp, by simp⟩
  | cons b l ih =>
    rw [List.map_cons, npMin, Num.lt_fin]
    by_cases h : b < a
    · rw [if_pos (by simpa using h)]
      obtain ⟨m, h1, h2, h3⟩ := ih b
      refine ⟨m, h1, List.mem_cons_of_mem _ h2, ?_⟩
      intro x hx
      rcases List.mem_cons.1 hx with rfl | hx
      · exact (h3 b (by simp)).trans h.le
      · exact h3 x hx
    · rw [if_neg (by simpa using h)]
      obtain ⟨m, h1, h2, h3⟩ := ih a
      refine ⟨m, h1, ?_, ?_⟩
      · rcases List.mem_cons.1 h2 with rfl | hx
        · simp
        · exact List.mem_cons_of_mem _ (List.mem_cons_of_mem _ hx)
      · intro x hx
        rcases List.mem_cons.1 hx with rfl | hx
        · exact h3 x (by simp)
        · rcases List.mem_cons.1 hx with rfl | hx
          · exact (h3 a (by simp)).trans (not_lt.1 h)
          · exact h3 x (List.mem_cons_of_mem _ hx)

theorem npMax_fin (a : K) (l : List K) :
    ∃ m, npMax (.fin a) (l.map Num.fin) = .fin m ∧ m ∈ a :: l ∧ ∀ x ∈ a :: l, x ≤ m := by
  induction l generalizing a with
  | nil => exact ⟨a, rfl, by simp, by simp⟩
  | cons b l ih =>
    rw [List.map_cons, npMax, Num.lt_fin]
    by_cases h : a < b
    · rw [if_pos (by simpa using h)]
      obtain ⟨m, h1, h2, h3⟩ := ih b
      refine ⟨m, h1, List.mem_cons_of_mem _ h2, ?_⟩
      intro x hx
      rcases List.mem_cons.1 hx with rfl | hx
      · exact h.le.trans (h3 b (by simp))
      · exact h3 x hx
    · rw [if_neg (by simpa using h)]
      obtain ⟨m, h1, h2, h3⟩ := ih a
      refine ⟨m, h1, ?_, ?_⟩
      · rcases List.mem_cons.1 h2 with rfl | hx
        · simp
        · exact List.mem_cons_of_mem _ (List.mem_cons_of_mem _ hx)
      · intro x hx
        rcases List.mem_cons.1 hx with rfl | hx
        · exact h3 x (by simp)
        · rcases List.mem_cons.1 hx with rfl | hx
          · exact (not_lt.1 h).trans (h3 a (by simp))
          · exact h3 x (List.mem_cons_of_mem _ hx)

theorem mean_perm {l l' : List K} (h : l.Perm l') : Spec.mean l = Spec.mean l' := by
  unfold Spec.mean
  rw [h.sum_eq, h.length_eq]

theorem medialAvg_nil : medialAvg ([] : List (Num K)) = .error .indexError := rfl

end

section order
variable [Field K] [LinearOrder K] [IsStrictOrderedRing K]

/-- Full description of the medial average of numbers. -/
theorem medialAvg_spec {l : List K} {lo hi : K} (hlo : lo ∈ l) (hlo' : ∀ x ∈ l, lo ≤ x)
    (hhi : hi ∈ l) (hhi' : ∀ x ∈ l, x ≤ hi) :
    medialAvg (l.map Num.fin) = .ok (
      if lo = hi then .fin lo
      else if l.length ≤ 2 then .fin (Spec.mean l)
      else if l.filter (fun x => x ≠ lo ∧ x ≠ hi) = [] then .nan
      else .fin (Spec.mean (l.filter (fun x => x ≠ lo ∧ x ≠ hi)))) := by
  obtain ⟨l', h1, h2⟩ := npSort_fin l
  unfold medialAvg
  rw [h1]
  cases l' with
  | nil =>
    have := h2.symm.subset hlo
    simp at this
  | cons a rest =>
    simp only [List.map_cons]
    have ha : a ∈ l := h2.subset (by simp)
    by_cases heq : lo = hi
    · rw [if_pos heq, if_pos]
      · have : a = lo := le_antisymm (heq ▸ hhi' a ha) (hlo' a ha)
        rw [this]
      · rw [← List.map_cons, List.all_map, List.all_eq_true]
        intro x hx
        have hx' : x ∈ l := h2.subset hx
        have e1 : x = lo := le_antisymm (heq ▸ hhi' x hx') (hlo' x hx')
        have e2 : a = lo := le_antisymm (heq ▸ hhi' a ha) (hlo' a ha)
        simp [e1, e2]
    · rw [if_neg heq, if_neg]
      · have hl1 : (Num.fin a :: rest.map Num.fin).length = l.length := by
          rw [← h2.length_eq]; simp
        have hne1 : l.length ≠ 1 := by
          intro e
          obtain ⟨x, rfl⟩ := List.length_eq_one_iff.1 e
          simp at hlo hhi
          exact heq (hlo.trans hhi.symm)
        rw [hl1, if_neg hne1]
        have hl0 : l.length ≠ 0 := by
          rintro e; rw [List.length_eq_zero_iff] at e; rw [e] at hlo; simp at hlo
        by_cases h22 : l.length = 2
        · rw [if_pos h22, if_pos (by omega), ← List.map_cons, npMean_fin (by simp), mean_perm h2]
        · rw [if_neg h22, if_neg (show ¬ l.length ≤ 2 by omega)]
          obtain ⟨m, hm1, hm2, hm3⟩ := npMin_fin a rest
          obtain ⟨M, hM1, hM2, hM3⟩ := npMax_fin a rest
          have em : m = lo := le_antisymm (hm3 lo (h2.symm.subset hlo)) (hlo' m (h2.subset hm2))
          have eM : M = hi := le_antisymm (hhi' M (h2.subset hM2)) (hM3 hi (h2.symm.subset hhi))
          rw [hm1, hM1, em, eM, ← List.map_cons, List.filter_map]
          have hfilt : ((a :: rest).filter
              ((fun v => !(Num.eqF v (.fin lo)) && !(Num.eqF v (.fin hi))) ∘ Num.fin)).Perm
              (l.filter (fun x => x ≠ lo ∧ x ≠ hi)) := by
            have : (fun x : K => decide (x ≠ lo ∧ x ≠ hi)) =
                ((fun v => !(Num.eqF v (.fin lo)) && !(Num.eqF v (.fin hi))) ∘ Num.fin) := by
              funext x
              simp [Function.comp]
            rw [this]
            exact h2.filter _
          by_cases hnil : l.filter (fun x => x ≠ lo ∧ x ≠ hi) = []
          · rw [if_pos hnil, if_pos]
            rw [hnil] at hfilt
            rw [hfilt.eq_nil]; rfl
          · have hne : (a :: rest).filter
              ((fun v => !(Num.eqF v (.fin lo)) && !(Num.eqF v (.fin hi))) ∘ Num.fin) ≠ [] := by
              intro e; rw [e] at hfilt; exact hnil hfilt.symm.eq_nil
            rw [if_neg hnil, if_neg (by simpa using hne), npMean_fin hne, mean_perm hfilt]
      · rw [← List.map_cons, List.all_map, List.all_eq_true]
        intro hall
        have e1 : lo = a := by simpa using hall lo (h2.symm.subset hlo)
        have e2 : hi = a := by simpa using hall hi (h2.symm.subset hhi)
        exact heq (e1.trans e2.symm)

theorem exists_min_max {l : List K} (h : l ≠ []) :
    ∃ lo hi, lo ∈ l ∧ (∀ x ∈ l, lo ≤ x) ∧ hi ∈ l ∧ ∀ x ∈ l, x ≤ hi := by
  cases l with
  | nil => exact absurd rfl h
  | cons a l =>
    obtain ⟨m, _, h2, h3⟩ := npMin_fin a l
    obtain ⟨M, _, h5, h6⟩ := npMax_fin a l
    exact ⟨m, M, h2, h3, h5, h6⟩

end order

end Trikit
