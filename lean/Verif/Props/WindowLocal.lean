import Verif.Props.OriginScale

/-!
# C208: averages of the last `k` years look only at the last `k + 1` calendar years

`a2a_avgs` (triangle.py:777-856) and `base_cl` (base.py:25-170).
-/

set_option linter.unusedSectionVars false

namespace Trikit

section
variable {K : Type} [Field K] [LinearOrder K] [IsStrictOrderedRing K]
variable {t t' : Tri K} {n : ℕ} {c c' : ℕ → ℕ → K}

/-! ## specification -/

/-- Two triangles agree on the latest diagonal and the `k` diagonals before it. -/
def Spec.AgreeLate (n k : ℕ) (c c' : ℕ → ℕ → K) : Prop := ∀ i j, i + j < n → n ≤ i + j + k + 1 → c i j = c' i j

/-- Equal results; in the squared triangle the latest diagonal and everything after it. -/
structure Spec.SameEstimates (n : ℕ) (r r' : BaseResult K) : Prop where
  ldfs : r'.ldfs = r.ldfs
  cldfs : r'.cldfs = r.cldfs
  rows : r'.rows = r.rows
  totLatest : r'.totLatest = r.totLatest
  totUltimate : r'.totUltimate = r.totUltimate
  totReserve : r'.totReserve = r.totReserve
  sqr_ultimate : r'.sqr.ultimate = r.sqr.ultimate
  sqr : ∀ i < n, ∀ j < n, n ≤ i + j + 1 → r'.sqr.tri.cell i j = r.sqr.tri.cell i j

/-! ## averages -/

theorem IndOn.transfer {ind : Tri K} {w : ℕ → ℕ → K} (h : Spec.Stair t n c) (h' : Spec.Stair t' n c')
    (ho : t.origins = t'.origins) (hd : t.devs = t'.devs) (hc : ∀ i j, i + j < n → c i j ≠ 0)
    (hc' : ∀ i j, i + j < n → c' i j ≠ 0) (hi : IndOn t ind n w) : IndOn t' ind n w := by
  refine ⟨?_, ?_, hi.vals⟩
  · rw [hi.origins, (C22_a2a h hc).1, (C22_a2a h' hc').1, ho]
  · rw [hi.devs, (C22_a2a h hc).2.1, (C22_a2a h' hc').2.1, hd]

theorem mem_wOrigins {k j i : ℕ} (hk : 1 ≤ k) (hi : i ∈ wOrigins n k j) : i + j + 1 < n ∧ n ≤ i + j + k + 1 := by
  unfold wOrigins Spec.lastN at hi
  rw [if_neg (by omega), List.mem_iff_getElem?] at hi
  obtain ⟨m, hm⟩ := hi
  rw [List.getElem?_drop, List.length_range, List.getElem?_eq_some_iff] at hm
  obtain ⟨h1, h2⟩ := hm
  rw [List.length_range] at h1
  rw [List.getElem_range] at h2
  omega

theorem adj_lastN (w : ℕ → ℕ → K) (k j : ℕ) :
    Spec.lastN k (adjRatios n c w j) = (wOrigins n k j).map (fun i => c i (j + 1) / c i j * w i j) := by
  unfold adjRatios wOrigins
  rw [lastN_map]

theorem lastN_sign (hp : Spec.Positive n c) (hp' : Spec.Positive n c') (w : ℕ → ℕ → K) (d j : ℕ) :
    (Spec.lastN d (adjRatios n c w j)).filter (fun x => decide (0 < x)) = [] ↔
      (Spec.lastN d (adjRatios n c' w j)).filter (fun x => decide (0 < x)) = [] := by
  rw [adj_lastN, adj_lastN, List.filter_eq_nil_iff, List.filter_eq_nil_iff]
  have key : ∀ {x : ℕ → ℕ → K}, Spec.Positive n x → ∀ i ∈ wOrigins n d j,
      (0 < x i (j + 1) / x i j * w i j ↔ 0 < w i j) := fun {x} hx i hi => by
    have hlt : i < n - 1 - j := List.mem_range.1 (lastN_subset _ _ i hi)
    have : 0 < x i (j + 1) / x i j := div_pos (hx _ _ (by omega)) (hx _ _ (by omega))
    exact mul_pos_iff_of_pos_left this
  constructor
  · intro h y hy
    obtain ⟨i, hi, rfl⟩ := List.mem_map.1 hy
    have := h _ (List.mem_map.2 ⟨i, hi, rfl⟩)
    simp only [decide_eq_true_eq] at this ⊢
    rw [key hp' i hi]; rw [key hp i hi] at this; exact this
  · intro h y hy
    obtain ⟨i, hi, rfl⟩ := List.mem_map.1 hy
    have := h _ (List.mem_map.2 ⟨i, hi, rfl⟩)
    simp only [decide_eq_true_eq] at this ⊢
    rw [key hp i hi]; rw [key hp' i hi] at this; exact this

theorem avgEntry_sameError (gm : List (Num K) → Num K) (h : Spec.Stair t n c) (h' : Spec.Stair t' n c')
    (hp : Spec.Positive n c) (hp' : Spec.Positive n c') {ind : Tri K} {w : ℕ → ℕ → K} (hi : IndOn t ind n w)
    (hi' : IndOn t' ind n w) (kind : AvgKind) (d : ℕ) {j : ℕ} (hj : j < n - 1) :
    SameError (avgEntry gm t ind kind d j) (avgEntry gm t' ind kind d j) := by
  cases kind with
  | simple => exact Or.inr ⟨⟨_, entry_simple h hp.ne_zero hi hj d⟩, ⟨_, entry_simple h' hp'.ne_zero hi' hj d⟩⟩
  | geometric => exact Or.inr ⟨⟨_, entry_geometric h hp.ne_zero hi hj d⟩, ⟨_, entry_geometric h' hp'.ne_zero hi' hj d⟩⟩
  | weighted => exact Or.inr ⟨⟨_, entry_weighted h hj d⟩, ⟨_, entry_weighted h' hj d⟩⟩
  | medial =>
    have e1 := entry_medial (gm := gm) h hp.ne_zero hi hj d
    have e2 := entry_medial (gm := gm) h' hp'.ne_zero hi' hj d
    rcases entry_ok_or (gm := gm) h hp.ne_zero hi .medial d hj with a | a
    · rcases entry_ok_or (gm := gm) h' hp'.ne_zero hi' .medial d hj with b | b
      · exact Or.inr ⟨a, b⟩
      · have := (lastN_sign hp hp' w d j).2 b.2
        rw [e1, this] at a
        obtain ⟨v, hv⟩ := a
        cases hv
    · have := (lastN_sign hp hp' w d j).1 a.2
      refine Or.inl ⟨_, a.1, ?_⟩
      rw [e2, this]; rfl

theorem avgEntry_late (gm : List (Num K) → Num K) (h : Spec.Stair t n c) (h' : Spec.Stair t' n c')
    (hp : Spec.Positive n c) (hp' : Spec.Positive n c') {ind : Tri K} {w : ℕ → ℕ → K} (hi : IndOn t ind n w)
    (hi' : IndOn t' ind n w) (kind : AvgKind) {k : ℕ} (hk : 1 ≤ k) (hag : Spec.AgreeLate n k c c') {j : ℕ}
    (hj : j < n - 1) : avgEntry gm t ind kind k j = avgEntry gm t' ind kind k j := by
  have hadj : Spec.lastN k (adjRatios n c w j) = Spec.lastN k (adjRatios n c' w j) := by
    rw [adj_lastN, adj_lastN]
    apply List.map_congr_left
    intro i hi
    have := mem_wOrigins hk hi
    rw [hag i j (by omega) (by omega), hag i (j + 1) (by omega) (by omega)]
  cases kind with
  | simple => rw [entry_simple h hp.ne_zero hi hj, entry_simple h' hp'.ne_zero hi' hj, hadj]
  | geometric => rw [entry_geometric h hp.ne_zero hi hj, entry_geometric h' hp'.ne_zero hi' hj, hadj]
  | medial => rw [entry_medial h hp.ne_zero hi hj, entry_medial h' hp'.ne_zero hi' hj, hadj]
  | weighted =>
    rw [entry_weighted h hj, entry_weighted h' hj]
    have e1 : (wOrigins n k j).map (fun i => c i (j + 1)) = (wOrigins n k j).map (fun i => c' i (j + 1)) :=
      List.map_congr_left fun i hi => by
        have := mem_wOrigins hk hi
        exact hag i (j + 1) (by omega) (by omega)
    have e2 : (wOrigins n k j).map (fun i => c i j) = (wOrigins n k j).map (fun i => c' i j) :=
      List.map_congr_left fun i hi => by
        have := mem_wOrigins hk hi
        exact hag i j (by omega) (by omega)
    rw [e1, e2]

theorem a2aAvgs_stair_sameError (gm : List (Num K) → Num K) (h : Spec.Stair t n c) (h' : Spec.Stair t' n c')
    (hp : Spec.Positive n c) (hp' : Spec.Positive n c') {ind : Tri K} {w : ℕ → ℕ → K} (hi : IndOn t ind n w)
    (hi' : IndOn t' ind n w) : SameError (a2aAvgs gm t ind) (a2aAvgs gm t' ind) := by
  have hnc := adj_nc h hp.ne_zero hi
  have hnc' := adj_nc h' hp'.ne_zero hi'
  have hnr := h.a2a_nr hp.ne_zero
  have hnr' := h'.a2a_nr hp'.ne_zero
  have hcell : ∀ k d j, j < n - 1 → SameError (avgCell gm t (Tri.alignOp (· * ·) t.a2a ind) k d j)
      (avgCell gm t' (Tri.alignOp (· * ·) t'.a2a ind) k d j) := fun k d j hj =>
    avgEntry_sameError gm h h' hp hp' hi hi' k d hj
  unfold a2aAvgs
  simp only [hnc, hnc', hnr, hnr']
  have := sameError_mapM (l := avgGrid (n - 1))
    (f := fun p => do
      let vals ← (List.range (n - 1)).mapM (fun j => avgCell gm t (Tri.alignOp (· * ·) t.a2a ind) p.1 p.2 j)
      (pure (avgLabel p.1 p.2, vals) : Except PyErr (String × List (Num K))))
    (g := fun p => do
      let vals ← (List.range (n - 1)).mapM (fun j => avgCell gm t' (Tri.alignOp (· * ·) t'.a2a ind) p.1 p.2 j)
      (pure (avgLabel p.1 p.2, vals) : Except PyErr (String × List (Num K))))
    (fun p _ => by
      rcases sameError_mapM (l := List.range (n - 1))
        (fun j hj => hcell p.1 p.2 j (List.mem_range.1 hj)) with ⟨e, h1, h2⟩ | ⟨⟨u, h1⟩, ⟨v, h2⟩⟩
      · beta_reduce; rw [h1, h2]; exact Or.inl ⟨e, rfl, rfl⟩
      · beta_reduce; rw [h1, h2]; exact Or.inr ⟨⟨_, rfl⟩, ⟨_, rfl⟩⟩)
  rcases this with ⟨e, h1, h2⟩ | ⟨⟨u, h1⟩, ⟨v, h2⟩⟩
  · rw [h1, h2]; exact Or.inl ⟨e, rfl, rfl⟩
  · rw [h1, h2]; exact Or.inr ⟨⟨_, rfl⟩, ⟨_, rfl⟩⟩

theorem ldfsByName_late (gm : List (Num K) → Num K) (h : Spec.Stair t n c) (h' : Spec.Stair t' n c')
    (ho : t.origins = t'.origins) (hd : t.devs = t'.devs)
    (hp : Spec.Positive n c) (hp' : Spec.Positive n c') {ind : Tri K} {w : ℕ → ℕ → K} (hi : IndOn t ind n w)
    (kind : AvgKind) {k : ℕ} (hk : 1 ≤ k) (hkn : k < n - 1) (hag : Spec.AgreeLate n k c c') (tail : Num K) :
    ldfsByName gm t ind (Spec.avgName kind.name k) tail = ldfsByName gm t' ind (Spec.avgName kind.name k) tail := by
  have hi' := hi.transfer h h' ho hd hp.ne_zero hp'.ne_zero
  unfold ldfsByName
  rcases a2aAvgs_stair_sameError gm h h' hp hp' hi hi' with ⟨e, h1, h2⟩ | ⟨⟨u, h1⟩, ⟨v, h2⟩⟩
  · rw [h1, h2]
  · rw [h1, h2]
    obtain ⟨d1, vals, l1, m1⟩ := a2aAvgs_lookup h1 (k := kind) (d := k) (Or.inr (by rw [h.a2a_nr hp.ne_zero]; exact hkn))
    obtain ⟨d2, vals', l2, m2⟩ := a2aAvgs_lookup h2 (k := kind) (d := k)
      (Or.inr (by rw [h'.a2a_nr hp'.ne_zero]; exact hkn))
    rw [adj_nc h hp.ne_zero hi, mapM_congr' (fun j hj =>
      avgEntry_late gm h h' hp hp' hi hi' kind hk hag (List.mem_range.1 hj))] at m1
    rw [adj_nc h' hp'.ne_zero hi', m1] at m2
    have e := Except.ok.inj m2
    have ed : u.devs = v.devs := by rw [d1, d2, (C22_a2a h hp.ne_zero).2.1, (C22_a2a h' hp'.ne_zero).2.1, hd]
    rw [avgName_eq] at l1 l2
    show (match u.rows.lookup (Spec.avgName kind.name k) with
      | none => Except.error PyErr.keyError
      | some vals => _) = (match v.rows.lookup (Spec.avgName kind.name k) with
      | none => Except.error PyErr.keyError
      | some vals => _)
    rw [l1, l2, e, ed]

/-! ## results -/

theorem sqrCell_late (h : Spec.Stair t n c) (h' : Spec.Stair t' n c')
    (hag : ∀ i < n, c i (n - 1 - i) = c' i (n - 1 - i)) (g : ℕ → Num K) {i : ℕ} (hin : i < n) :
    ∀ j, j < n → n ≤ i + j + 1 → sqrCell t g i j = sqrCell t' g i j := by
  have hobs : ∀ j, j < n → i + j + 1 = n → t.cell i j = t'.cell i j := fun j hj e => by
    rw [h.obs i j (by omega), h'.obs i j (by omega), show j = n - 1 - i by omega, hag i hin]
  intro j
  induction j with
  | zero =>
    intro hj hij
    exact hobs 0 hj (by omega)
  | succ j ih =>
    intro hj hij
    rw [sqrCell, sqrCell, h.staircase.triindAt i hj, h'.staircase.triindAt i hj]
    by_cases e : n ≤ i + (j + 1)
    · rw [if_pos (by simpa using e), if_pos (by simpa using e), ih (by omega) (by omega)]
    · rw [if_neg (by simpa using e), if_neg (by simpa using e), hobs (j + 1) hj (by omega)]

theorem baseFromLdfs_late (h : Spec.Stair t n c) (h' : Spec.Stair t' n c') (ho : t.origins = t'.origins)
    (hd : t.devs = t'.devs) (hn : 1 ≤ n) (hag : ∀ i < n, c i (n - 1 - i) = c' i (n - 1 - i)) (l : Ser K) :
    (∃ e, baseFromLdfs t l = .error e ∧ baseFromLdfs t' l = .error e) ∨
    ∃ r r', baseFromLdfs t l = .ok r ∧ baseFromLdfs t' l = .ok r' ∧ Spec.SameEstimates n r r' := by
  have eo : ∀ i, t'.oAt i = t.oAt i := fun i => by unfold Tri.oAt; rw [ho]
  have ed : ∀ i, t'.dAt i = t.dAt i := fun i => by unfold Tri.dAt; rw [hd]
  have el : t'.latestByOrigin = t.latestByOrigin := by
    rw [h.latestByOrigin, h'.latestByOrigin]
    apply List.map_congr_left
    intro i hi
    rw [eo, hag i (List.mem_range.1 hi)]
  have em : t'.maturity = t.maturity := by
    rw [h.maturity, h'.maturity]
    simp only [ed]
  have hnr : t'.nr = t.nr := by rw [h.nr, h'.nr]
  have hnc : t'.nc = t.nc := by rw [h.nc, h'.nc]
  have eu : ultimatesOf t' (cldfsOf l) = ultimatesOf t (cldfsOf l) := by
    unfold ultimatesOf
    rw [el, hnr]
  have er : ∀ u, reservesOf t' u = reservesOf t u := fun u => by
    unfold reservesOf
    rw [el, ho]
  have hs : (∃ e, trisqrdOf t l = .error e ∧ trisqrdOf t' l = .error e) ∨ ∃ s s', trisqrdOf t l = .ok s ∧
      trisqrdOf t' l = .ok s' ∧ s'.ultimate = s.ultimate ∧
      ∀ i < n, ∀ j < n, n ≤ i + j + 1 → s'.tri.cell i j = s.tri.cell i j := by
    unfold trisqrdOf
    rw [Tri.triind_ok h.staircase.colsObserved, Tri.triind_ok h'.staircase.colsObserved]
    show (∃ e, (if l.length < t.nc - 1 ∨ l = [] then _ else _) = _ ∧
      (if l.length < t'.nc - 1 ∨ l = [] then _ else _) = _) ∨ ∃ s s', (if l.length < t.nc - 1 ∨ l = [] then _ else _) = _ ∧
      (if l.length < t'.nc - 1 ∨ l = [] then _ else _) = _ ∧ _
    rw [hnc]
    by_cases hl : l.length < t.nc - 1 ∨ l = []
    · left; refine ⟨_, if_pos hl, if_pos hl⟩
    · right
      refine ⟨_, _, if_neg hl, if_neg hl, ?_, ?_⟩
      · show (List.range t'.nr).map _ = (List.range t.nr).map _
        rw [hnr, h.nr]
        apply List.map_congr_left
        intro i hi
        rw [List.mem_range] at hi
        rw [h.nc, sqrCell_late h h' hag _ hi (n - 1) (by omega) (by omega)]
      · intro i hi j hj hij
        exact (sqrCell_late h h' hag _ hi j hj hij).symm
  unfold baseFromLdfs
  simp only [eu, em, er]
  cases ultimatesOf t (cldfsOf l) with
  | error e => exact Or.inl ⟨e, rfl, rfl⟩
  | ok u =>
    cases t.maturity with
    | error e => exact Or.inl ⟨e, rfl, rfl⟩
    | ok m =>
      rcases hs with ⟨e, h1, h2⟩ | ⟨s, s', h1, h2, h3, h4⟩
      · rw [h1, h2]; exact Or.inl ⟨e, rfl, rfl⟩
      · rw [h1, h2]
        refine Or.inr ⟨_, _, rfl, rfl, ?_⟩
        simp only [el, eo, hnr]
        exact ⟨rfl, rfl, rfl, rfl, rfl, rfl, h3, h4⟩

/-- **C208.** Two positive staircases with the same labels and the same amounts on the last `k + 1` diagonals: with any indicator,
any kind of average of the last `k` years and any tail, `base_cl` raises the same exception or returns the same factors,
summary, total and projections. -/
theorem C208_window (gm : List (Num K) → Num K) (h : Spec.Stair t n c) (h' : Spec.Stair t' n c')
    (ho : t.origins = t'.origins) (hd : t.devs = t'.devs)
    (hp : Spec.Positive n c) (hp' : Spec.Positive n c') {ind : Tri K} {w : ℕ → ℕ → K} (hi : IndOn t ind n w)
    (kind : AvgKind) {k : ℕ} (hk : 1 ≤ k) (hkn : k < n - 1) (hag : Spec.AgreeLate n k c c') (tail : Num K) :
    (∃ e, baseCL gm t ind (Spec.avgName kind.name k) tail = .error e ∧
      baseCL gm t' ind (Spec.avgName kind.name k) tail = .error e) ∨
    ∃ r r', baseCL gm t ind (Spec.avgName kind.name k) tail = .ok r ∧
      baseCL gm t' ind (Spec.avgName kind.name k) tail = .ok r' ∧ Spec.SameEstimates n r r' := by
  unfold baseCL
  rw [ldfsByName_late gm h h' ho hd hp hp' hi kind hk hkn hag tail]
  cases ldfsByName gm t' ind (Spec.avgName kind.name k) tail with
  | error e => exact Or.inl ⟨e, rfl, rfl⟩
  | ok l =>
    exact baseFromLdfs_late h h' ho hd (by omega) (fun i hi => hag i (n - 1 - i) (by omega) (by omega)) l

end

/-! ## the number of diagonals is sharp, and an example -/

/-- Growing amounts with `x` as first amount of origin `o`. -/
def exLate (o : ℕ) (x : ℚ) : ℕ → ℕ → ℚ := fun i j => if i = o ∧ j = 0 then x else 100 + 10 * i * j

/-- Averages of the last two years of a triangle with four periods do not see the first amount of the oldest origin, which is
on the fourth diagonal counted from the latest; averages of all years do. -/
example :
    ([50, 90].map fun x => (["weighted-2", "all-weighted"].map fun s =>
      ((baseCL (fun _ => .nan) (stairTri 4 (exLate 0 x)) (stairTri 4 (exLate 0 x)).a2aind0 s 1).map
        (fun r => r.ldfs.map Prod.snd)).toOption)) =
      [[some [.fin (23 / 20), .fin (22 / 21), .fin 1, .fin 1], some [.fin (33 / 25), .fin (22 / 21), .fin 1, .fin 1]],
       [some [.fin (23 / 20), .fin (22 / 21), .fin 1, .fin 1], some [.fin (33 / 29), .fin (22 / 21), .fin 1, .fin 1]]] := by
  decide +kernel

/-- They do see the first amount of the second origin, on the third diagonal. -/
theorem C208_sharp :
    ([100, 130].map fun x =>
      ((baseCL (fun _ => .nan) (stairTri 4 (exLate 1 x)) (stairTri 4 (exLate 1 x)).a2aind0 "weighted-2" 1).map
        (fun r => r.ldfs.map Prod.snd)).toOption) =
      [some [.fin (23 / 20), .fin (22 / 21), .fin 1, .fin 1], some [.fin 1, .fin (22 / 21), .fin 1, .fin 1]] := by
  decide +kernel

end Trikit
