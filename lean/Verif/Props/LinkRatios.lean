import Verif.Examples
import Verif.Exclude

/-! # Link ratios, exclusions and averages (C22 - C29) -/

set_option linter.unusedSectionVars false

namespace Trikit

variable {K : Type}

/-- Row name of an average: "all-simple", "simple-3", ... (`k = 0` stands for "all"). -/
def Spec.avgName (kind : String) (k : ℕ) : String :=
  if k = 0 then "all-" ++ kind else kind ++ "-" ++ toString k

/-- The entry of a table of averages in row `name` and column position `j`. -/
def Spec.entry (tab : AvgTable K) (name : String) (j : ℕ) : Option (Num K) :=
  (tab.rows.lookup name).bind (fun vals => vals[j]?)

theorem Spec.Positive.ne_zero [Field K] [LinearOrder K] {n : ℕ} {c : ℕ → ℕ → K}
    (h : Spec.Positive n c) : ∀ i j, i + j < n → c i j ≠ 0 := fun i j hij => (h i j hij).ne'

section
variable [Field K] [LinearOrder K]

theorem entry_of_ok {gm : List (Num K) → Num K} {t ind : Tri K} {tab : AvgTable K}
    (h : a2aAvgs gm t ind = .ok tab) (k : AvgKind) {d : ℕ} (hd : d = 0 ∨ d < t.a2a.nr) {j : ℕ}
    (hj : j < (Tri.alignOp (· * ·) t.a2a ind).nc) {v : Num K}
    (hv : avgEntry gm t ind k d j = .ok v) : Spec.entry tab (avgLabel k d) j = some v := by
  obtain ⟨_, vals, h1, h2⟩ := a2aAvgs_lookup h (k := k) hd
  unfold Spec.entry
  rw [h1, Option.bind_some]
  rw [mapM_ok_iff] at h2
  have hlen := h2.length_eq
  rw [List.length_range] at hlen
  have hjl : j < vals.length := by omega
  rw [List.getElem?_eq_getElem hjl]
  have := (List.forall₂_iff_get.1 h2).2 j (by simpa using hj) hjl
  simp only [List.get_eq_getElem, List.getElem_range] at this
  rw [hv] at this
  injection this with this
  rw [this]

/-! ## C22 -/

/-- **C22.** Age-to-age factors of a staircase with nonzero values. -/
theorem C22_a2a {t : Tri K} {n : ℕ} {c : ℕ → ℕ → K} (h : Spec.Stair t n c)
    (hc : ∀ i j, i + j < n → c i j ≠ 0) :
    t.a2a.origins = t.origins.take (n - 1) ∧ t.a2a.devs = t.devs.take (n - 1) ∧
    (∀ i < n - 1, ∀ j < n - 1,
      (i + j + 1 < n → t.a2a.cell i j = .fin (c i (j + 1) / c i j)) ∧
      (n ≤ i + j + 1 → t.a2a.cell i j = .nan)) ∧
    ∀ i < n - 1, ∃ r : ℕ → K, (∀ j < n - 1 - i, t.a2a.cell i j = .fin (r j)) ∧
      ((List.range (n - 1 - i)).map r).prod = c i (n - 1 - i) / c i 0 := by
  obtain ⟨h1, h2, h3⟩ := h.a2a_spec hc
  have htake : ∀ (l : List Int) (f : ℕ → Int), l.length = n → (∀ i < n, l[i]? = some (f i)) →
      (List.range (n - 1)).map f = l.take (n - 1) := by
    intro l f hl hf
    apply List.ext_getElem?
    intro i
    rw [List.getElem?_map, List.getElem?_take]
    by_cases hi : i < n - 1
    · rw [if_pos hi, List.getElem?_range hi, hf i (by omega)]; rfl
    · rw [if_neg hi, List.getElem?_eq_none (by simpa using hi)]; rfl
  refine ⟨?_, ?_, ?_, ?_⟩
  · rw [h1]
    exact htake _ _ h.nr (fun i hi => Tri.origins_get (by rw [h.nr]; exact hi))
  · rw [h2]
    exact htake _ _ h.nc (fun i hi => Tri.devs_get (by rw [h.nc]; exact hi))
  · intro i hi j hj
    rw [h3 i hi j hj]
    exact ⟨fun hh => if_pos hh, fun hh => if_neg (by omega)⟩
  · intro i hi
    refine ⟨fun j => c i (j + 1) / c i j, ?_, ?_⟩
    · intro j hj
      rw [h3 i hi j (by omega), if_pos (by omega)]
    · have : ∀ m, i + m < n → ((List.range m).map (fun j => c i (j + 1) / c i j)).prod =
          c i m / c i 0 := by
        intro m
        induction m with
        | zero => intro hm; simp [div_self (hc i 0 (by omega))]
        | succ m ih =>
          intro hm
          rw [List.range_succ, List.map_append, List.prod_append, ih (by omega)]
          simp only [List.map_cons, List.map_nil, List.prod_cons, List.prod_nil, mul_one]
          rw [div_mul_div_comm, mul_comm (c i m), mul_div_mul_right _ _ (hc i m (by omega))]
      exact this (n - 1 - i) (by omega)

example : (exTri.a2a).dump = ([2001, 2002, 2003], [1, 2, 3],
    [[.fin (3/2), .fin (6/5), .fin (11/10)], [.fin (8/5), .fin (5/4), .nan],
     [.fin (7/5), .nan, .nan]]) := by decide +kernel

/-! ## C23 -/

/-- The most recent value assigned to `(o, d)` in a history of assignments. -/
def Spec.lastAssigned (l : List (Assign K)) (o d : Int) : Option (Num K) :=
  (l.reverse.find? (fun a => a.origin == o && a.dev == d)).map Assign.value

theorem assignAll_spec (t : Tri K) (l : List (Assign K)) :
    ∀ (f : Tri K), (∀ a ∈ l, a.origin ∈ f.origins ∧ a.dev ∈ f.devs) →
    ∃ g, IndState.assignAll { tri := t, ind := some f } l = .ok { tri := t, ind := some g } ∧
      g.origins = f.origins ∧ g.devs = f.devs ∧
      ∀ i < f.nr, ∀ j < f.nc, g.cell i j =
        (Spec.lastAssigned l (f.oAt i) (f.dAt j)).getD (f.cell i j) := by
  induction l using List.reverseRecOn with
  | nil =>
    intro f _
    exact ⟨f, rfl, rfl, rfl, fun i _ j _ => rfl⟩
  | append_singleton l a ih =>
    intro f hl
    obtain ⟨g, h1, h2, h3, h4⟩ := ih f (fun b hb => hl b (by simp [hb]))
    obtain ⟨ha1, ha2⟩ := hl a (by simp)
    refine ⟨g.setAt a.origin a.dev a.value, ?_, ?_, ?_, ?_⟩
    · unfold IndState.assignAll at h1 ⊢
      rw [List.foldlM_append, h1]
      rfl
    · unfold Tri.setAt; simp only; rw [if_pos (h2 ▸ ha1), h2]
    · unfold Tri.setAt; simp only; rw [if_pos (h3 ▸ ha2), h3]
    · intro i hi j hj
      unfold Tri.setAt
      simp only
      simp only [h2, h3, if_pos ha1, if_pos ha2, Tri.origins_get hi, Tri.devs_get hj,
        Option.some.injEq]
      unfold Spec.lastAssigned
      rw [List.reverse_append, List.reverse_singleton, List.singleton_append, List.find?_cons]
      by_cases e : f.oAt i = a.origin ∧ f.dAt j = a.dev
      · rw [if_pos e]
        have : (a.origin == f.oAt i && a.dev == f.dAt j) = true := by simp [e.1, e.2]
        rw [this]
        rfl
      · rw [if_neg e]
        have : (a.origin == f.oAt i && a.dev == f.dAt j) = false := by
          rw [Bool.eq_false_iff]
          intro hc
          simp only [Bool.and_eq_true, beq_iff_eq] at hc
          exact e ⟨hc.1.symm, hc.2.symm⟩
        rw [this]
        have hnr : g.nr = f.nr := by unfold Tri.nr; rw [h2]
        have hnc : g.nc = f.nc := by unfold Tri.nc; rw [h3]
        rw [hnr, hnc, if_pos ⟨hi, hj⟩, h4 i hi j hj]
        rfl

/-- **C23, after the indicator has been read once.** The exclusion indicator is a map: it starts with 1 on observed and 0 on missing link
ratios; after reading it and any history of assignments to existing labels each entry is the value
most recently assigned to it, or its initial value; the triangle (hence every other attribute) is
unchanged.  Missing: assignments before the first read, which raise (`C23_unread_fails`). -/
theorem C23_a2aind_partial (t : Tri K) (l : List (Assign K))
    (hl : ∀ a ∈ l, a.origin ∈ t.a2a.origins ∧ a.dev ∈ t.a2a.devs) :
    ∃ s, IndState.assignAll (IndState.read { tri := t }).1 l = .ok s ∧ s.tri = t ∧
      s.read.1 = s ∧ s.read.2.origins = t.a2a.origins ∧ s.read.2.devs = t.a2a.devs ∧
      ∀ i < t.a2a.nr, ∀ j < t.a2a.nc, s.read.2.cell i j =
        match Spec.lastAssigned l (t.a2a.oAt i) (t.a2a.dAt j) with
        | some v => v
        | none => if t.a2a.cell i j = .nan then .fin 0 else .fin 1 := by
  obtain ⟨g, h1, h2, h3, h4⟩ := assignAll_spec t l t.a2aind0 hl
  refine ⟨{ tri := t, ind := some g }, h1, rfl, rfl, h2, h3, ?_⟩
  intro i hi j hj
  show g.cell i j = _
  rw [h4 i hi j hj]
  show (Spec.lastAssigned l (t.a2a.oAt i) (t.a2a.dAt j)).getD (t.a2aind0.cell i j) = _
  cases Spec.lastAssigned l (t.a2a.oAt i) (t.a2a.dAt j) with
  | some v => rfl
  | none =>
    show t.a2aind0.cell i j = _
    unfold Tri.a2aind0
    simp only
    by_cases e : t.a2a.cell i j = .nan
    · rw [if_pos e, if_pos ((Num.isNaN_iff _).2 e)]; rfl
    · rw [if_neg e, if_neg (by rw [Num.isNaN_iff]; exact e)]; rfl

/-- **C23 is false of the code** for an indicator never read: the assignment raises
`AttributeError`. -/
theorem C23_unread_fails (t : Tri K) (a : Assign K) :
    IndState.assign { tri := t } a = .error .attributeError := rfl

example : (IndState.assignAll (IndState.read { tri := exTri }).1
      [⟨2001, 2, .fin 0⟩, ⟨2002, 1, .fin 0⟩, ⟨2001, 2, .fin 1⟩, ⟨2001, 1, .fin 0⟩]).map
      (fun s => s.read.2.dump) =
    .ok ([2001, 2002, 2003], [1, 2, 3],
      [[.fin 0, .fin 1, .fin 1], [.fin 0, .fin 1, .fin 0], [.fin 1, .fin 0, .fin 0]]) := by
  decide +kernel

end

section order
variable [Field K] [LinearOrder K] [IsStrictOrderedRing K]

theorem ratios_pos {n : ℕ} {c : ℕ → ℕ → K} (hp : Spec.Positive n c) (j : ℕ) :
    ∀ x ∈ Spec.ratios n c j, 0 < x := by
  intro x hx
  unfold Spec.ratios at hx
  obtain ⟨i, hi, rfl⟩ := List.mem_map.1 hx
  rw [List.mem_range] at hi
  exact div_pos (hp _ _ (by omega)) (hp _ _ (by omega))

theorem ratios_ne_nil {n : ℕ} {c : ℕ → ℕ → K} {j : ℕ} (hj : j < n - 1) :
    Spec.ratios n c j ≠ [] := by
  unfold Spec.ratios
  simp; omega

/-- Window of an unadjusted staircase. -/
theorem window_noexcl {n : ℕ} {c : ℕ → ℕ → K} (hp : Spec.Positive n c) (d j : ℕ) :
    (Spec.lastN d (adjRatios n c (fun _ _ => 1) j)).filter (fun x => decide (0 < x)) =
      Spec.lastN d (Spec.ratios n c j) := by
  rw [adjRatios_one, filter_pos_eq _ (fun x hx => ratios_pos hp j x (lastN_subset _ _ x hx))]

/-- Without exclusions `a2a_avgs` returns on every positive staircase. -/
theorem a2aAvgs_noexcl_ok (gm : List (Num K) → Num K) {t : Tri K} {n : ℕ} {c : ℕ → ℕ → K}
    (h : Spec.Stair t n c) (hp : Spec.Positive n c) : ∃ tab, a2aAvgs gm t t.a2aind0 = .ok tab := by
  have hind := h.indOn0 hp.ne_zero
  apply a2aAvgs_ok_of
  intro k d _ j hj
  rw [adj_nc h hp.ne_zero hind] at hj
  cases k with
  | simple => exact ⟨_, entry_simple h hp.ne_zero hind hj d⟩
  | geometric => exact ⟨_, entry_geometric h hp.ne_zero hind hj d⟩
  | weighted => exact ⟨_, entry_weighted h hj d⟩
  | medial =>
    rw [entry_medial h hp.ne_zero hind hj d, window_noexcl hp]
    obtain ⟨lo, hi, h1, h2, h3, h4⟩ := exists_min_max (lastN_ne_nil d (ratios_ne_nil (c := c) hj))
    exact ⟨_, medialAvg_spec h1 h2 h3 h4⟩

/-- Entry of the table without exclusions. -/
theorem entry_noexcl {gm : List (Num K) → Num K} {t : Tri K} {n : ℕ} {c : ℕ → ℕ → K}
    (h : Spec.Stair t n c) (hp : Spec.Positive n c) {tab : AvgTable K}
    (htab : a2aAvgs gm t t.a2aind0 = .ok tab) (k : AvgKind) {d j : ℕ} (hd : d < n - 1)
    (hj : j < n - 1) {v : Num K} (hv : avgEntry gm t t.a2aind0 k d j = .ok v) :
    Spec.entry tab (avgLabel k d) j = some v := by
  apply entry_of_ok htab k (Or.inr (by rw [h.a2a_nr hp.ne_zero]; exact hd)) _ hv
  rw [adj_nc h hp.ne_zero (h.indOn0 hp.ne_zero)]
  exact hj

/-! ## C24 -/

/-- **C24.** Simple averages.  `k = 0` is the row "all-simple", `0 < k < n - 1` the row "simple-k";
these are all the rows of this kind that `a2a_avgs()` has. -/
theorem C24_simple (gm : List (Num K) → Num K) {t : Tri K} {n : ℕ} {c : ℕ → ℕ → K}
    (h : Spec.Stair t n c) (hp : Spec.Positive n c) :
    ∃ tab, a2aAvgs gm t t.a2aind0 = .ok tab ∧ tab.devs = t.devs.take (n - 1) ∧
      ∀ k < n - 1, ∀ j < n - 1, ∃ v,
        Spec.entry tab (Spec.avgName "simple" k) j = some (.fin v) ∧
        v = Spec.mean (Spec.lastN k (Spec.ratios n c j)) ∧
        ∃ a ∈ Spec.lastN k (Spec.ratios n c j), ∃ b ∈ Spec.lastN k (Spec.ratios n c j),
          a ≤ v ∧ v ≤ b := by
  obtain ⟨tab, htab⟩ := a2aAvgs_noexcl_ok gm h hp
  refine ⟨tab, htab, ?_, ?_⟩
  · rw [(a2aAvgs_lookup htab (k := .simple) (Or.inl rfl)).1]
    exact (C22_a2a h hp.ne_zero).2.1
  · intro k hk j hj
    have hne := lastN_ne_nil k (ratios_ne_nil (c := c) hj)
    obtain ⟨lo, hi, h1, h2, h3, h4⟩ := exists_min_max hne
    refine ⟨_, ?_, rfl, lo, h1, hi, h3, le_mean hne h2, mean_le hne h4⟩
    apply entry_noexcl h hp htab .simple hk hj
    rw [entry_simple h hp.ne_zero (h.indOn0 hp.ne_zero) hj, window_noexcl hp, simpleAvg_fin hne]

example : (a2aAvgs (fun _ => .nan) exTri exTri.a2aind0).map (fun tab =>
    (Spec.entry tab "simple-2" 0, Spec.entry tab "all-simple" 0, Spec.entry tab "simple-1" 1)) =
    .ok (some (.fin (3/2)), some (.fin (3/2)), some (.fin (5/4))) := by decide +kernel

/-! ## C25 -/

theorem sum_pos_of {l : List ℕ} (hl : l ≠ []) {f : ℕ → K} (h : ∀ i ∈ l, 0 < f i) :
    0 < (l.map f).sum := by
  induction l with
  | nil => exact absurd rfl hl
  | cons a l ih =>
    rw [List.map_cons, List.sum_cons]
    by_cases e : l = []
    · subst e; simpa using h a (by simp)
    · exact add_pos (h a (by simp)) (ih e (fun i hi => h i (by simp [hi])))

theorem mediant_le {l : List ℕ} {f g : ℕ → K} {b : K} (hg : ∀ i ∈ l, 0 < g i)
    (hb : ∀ i ∈ l, f i / g i ≤ b) : (l.map f).sum ≤ b * (l.map g).sum := by
  induction l with
  | nil => simp
  | cons a l ih =>
    rw [List.map_cons, List.sum_cons, List.map_cons, List.sum_cons, mul_add]
    have h1 := (div_le_iff₀ (hg a (by simp))).1 (hb a (by simp))
    have h2 := ih (fun i hi => hg i (by simp [hi])) (fun i hi => hb i (by simp [hi]))
    exact add_le_add h1 h2

theorem le_mediant {l : List ℕ} {f g : ℕ → K} {b : K} (hg : ∀ i ∈ l, 0 < g i)
    (hb : ∀ i ∈ l, b ≤ f i / g i) : b * (l.map g).sum ≤ (l.map f).sum := by
  induction l with
  | nil => simp
  | cons a l ih =>
    rw [List.map_cons, List.sum_cons, List.map_cons, List.sum_cons, mul_add]
    have h1 := (le_div_iff₀ (hg a (by simp))).1 (hb a (by simp))
    have h2 := ih (fun i hi => hg i (by simp [hi])) (fun i hi => hb i (by simp [hi]))
    exact add_le_add h1 h2

/-- **C25.** Weighted averages: sum of next-period values over sum of current-period values on the
last `k` (`k = 0`: all) origins observed in both periods; equal to the value-weighted mean of the
link ratios and between the smallest and the largest of them. -/
theorem C25_weighted (gm : List (Num K) → Num K) {t : Tri K} {n : ℕ} {c : ℕ → ℕ → K}
    (h : Spec.Stair t n c) (hp : Spec.Positive n c) :
    ∃ tab, a2aAvgs gm t t.a2aind0 = .ok tab ∧
      ∀ k < n - 1, ∀ j < n - 1, ∃ v,
        Spec.entry tab (Spec.avgName "weighted" k) j = some (.fin v) ∧
        let W := Spec.lastN k (List.range (n - 1 - j))
        v = (W.map (fun i => c i (j + 1))).sum / (W.map (fun i => c i j)).sum ∧
        v = (W.map (fun i => c i j * (c i (j + 1) / c i j))).sum / (W.map (fun i => c i j)).sum ∧
        ∃ a ∈ W, ∃ b ∈ W, c a (j + 1) / c a j ≤ v ∧ v ≤ c b (j + 1) / c b j := by
  obtain ⟨tab, htab⟩ := a2aAvgs_noexcl_ok gm h hp
  refine ⟨tab, htab, ?_⟩
  intro k hk j hj
  have hW : Spec.lastN k (List.range (n - 1 - j)) ≠ [] := lastN_ne_nil k (by simp; omega)
  have hmem : ∀ i ∈ Spec.lastN k (List.range (n - 1 - j)), i < n - 1 - j :=
    fun i hi => List.mem_range.1 (lastN_subset _ _ i hi)
  have hpos : ∀ i ∈ Spec.lastN k (List.range (n - 1 - j)), 0 < c i j :=
    fun i hi => hp i j (by have := hmem i hi; omega)
  have hden := sum_pos_of hW hpos
  refine ⟨_, ?_, rfl, ?_, ?_⟩
  · apply entry_noexcl h hp htab .weighted hk hj
    rw [entry_weighted h hj, Num.fin_div]
    · rfl
    · exact hden.ne'
  · congr 2
    apply List.map_congr_left
    intro i hi
    rw [mul_div_cancel₀ _ (hpos i hi).ne']
  · obtain ⟨lo, hi, h1, h2, h3, h4⟩ := exists_min_max
      (l := (Spec.lastN k (List.range (n - 1 - j))).map (fun i => c i (j + 1) / c i j))
      (by simpa using hW)
    obtain ⟨a, ha, rfl⟩ := List.mem_map.1 h1
    obtain ⟨b, hb, rfl⟩ := List.mem_map.1 h3
    refine ⟨a, ha, b, hb, ?_, ?_⟩
    · rw [le_div_iff₀ hden]
      exact le_mediant hpos (fun i hi => h2 _ (List.mem_map_of_mem (f := fun i => c i (j + 1) / c i j) hi))
    · rw [div_le_iff₀ hden]
      exact mediant_le hpos (fun i hi => h4 _ (List.mem_map_of_mem (f := fun i => c i (j + 1) / c i j) hi))

example : (a2aAvgs (fun _ => .nan) exTri exTri.a2aind0).map (fun tab =>
    (Spec.entry tab "weighted-2" 0, Spec.entry tab "all-weighted" 0)) =
    .ok (some (.fin (344/230)), some (.fin (494/330))) := by decide +kernel

end order

end Trikit
