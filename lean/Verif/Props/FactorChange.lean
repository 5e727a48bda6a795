import Verif.Props.RoundedSel

/-!
# C226: changing a selected factor of `base_cl`

The caller of `base_cl` passes the factors (base.py:97-107).  What another choice does to the results, in exact and in rounded
arithmetic; amounts may be negative or zero.
-/

set_option linter.unusedSectionVars false

namespace Trikit

section
variable {K : Type} [Field K] [LinearOrder K] [IsStrictOrderedRing K]
variable {t : Tri K} {n N : ℕ} {c : ℕ → ℕ → K} {br : ℕ → SumTree} {rd : K → K} {f f' : ℕ → K}

/-! ### products of factors -/

theorem tailProdR_le (hm : Spec.MonoRd rd N) (hf : ∀ j < n, 0 ≤ f j ∧ f j ≤ f' j) :
    ∀ d, d < n → 0 ≤ Spec.tailProdR rd f n (n - 1 - d) ∧
      Spec.tailProdR rd f n (n - 1 - d) ≤ Spec.tailProdR rd f' n (n - 1 - d) := by
  intro d
  induction d with
  | zero =>
    intro hd
    rw [Nat.sub_zero, tailProdR_last rd f hd, tailProdR_last rd f' hd]
    exact hf _ (by omega)
  | succ d ih =>
    intro hd
    obtain ⟨h1, h2⟩ := ih (by omega)
    obtain ⟨h3, h4⟩ := hf (n - 1 - (d + 1)) (by omega)
    rw [show n - 1 - d = n - 1 - (d + 1) + 1 by omega] at h1 h2
    rw [tailProdR_succ rd f (by omega), tailProdR_succ rd f' (by omega)]
    exact ⟨hm.zero.symm.le.trans (hm.mono (mul_nonneg h1 h3)), hm.mono (mul_le_mul h2 h4 h3 (h1.trans h2))⟩

theorem tailProdR_congr {j : ℕ} (hf : ∀ m, j ≤ m → m < n → f m = f' m) :
    Spec.tailProdR rd f n j = Spec.tailProdR rd f' n j := by
  unfold Spec.tailProdR
  congr 1
  apply List.ext_getElem
  · simp
  · intro m h1 h2
    simp only [List.length_drop, List.length_map, List.length_range] at h1
    rw [List.getElem_drop, List.getElem_drop, List.getElem_map, List.getElem_map, List.getElem_range]
    exact hf _ (by omega) (by omega)

theorem projR_congr {j : ℕ} (a : K) : ∀ s, (∀ m, j ≤ m → m < j + s → f m = f' m) →
    Spec.projR rd a f j s = Spec.projR rd a f' j s := by
  intro s
  induction s with
  | zero => intro _; rfl
  | succ s ih =>
    intro h
    rw [Spec.projR, Spec.projR, ih fun m h1 h2 => h m h1 (by omega), h _ (by omega) (by omega)]

theorem projR_mono (hm : Spec.MonoRd rd N) {a : K} (ha : 0 ≤ a) {j : ℕ} : ∀ s, (∀ m, j ≤ m → m < j + s → 0 ≤ f m ∧ f m ≤ f' m) →
    0 ≤ Spec.projR rd a f j s ∧ Spec.projR rd a f j s ≤ Spec.projR rd a f' j s := by
  intro s
  induction s with
  | zero => intro _; exact ⟨ha, le_rfl⟩
  | succ s ih =>
    intro h
    obtain ⟨h1, h2⟩ := ih fun m x y => h m x (by omega)
    obtain ⟨h3, h4⟩ := h (j + s) (by omega) (by omega)
    rw [Spec.projR, Spec.projR]
    exact ⟨hm.zero.symm.le.trans (hm.mono (mul_nonneg h1 h3)), hm.mono (mul_le_mul h2 h4 h3 (h1.trans h2))⟩

/-! ### C226 -/

/-- **C226 (higher factors).** Given factors and tail, none negative, and others at least as high, every operation rounded:
every ultimate, reserve and forecast of an origin with latest amount of at least zero is at least as high, every ultimate of an
origin with a negative one at most as high; when no latest amount is negative, the totals are at least as high. -/
theorem C226_higher (h : Spec.Stair t n c) (hn : 1 ≤ n) (hm : Spec.MonoRd rd N) (hb : Spec.Bracketing br) {sel sel' : List K}
    (hs : sel.length = n - 1) (hs' : sel'.length = n - 1) {tail tail' : K}
    (hle : List.Forall₂ (fun x y => 0 ≤ x ∧ x ≤ y) (sel ++ [tail]) (sel' ++ [tail'])) :
    ∃ r r', baseCLArrayR br rd t (sel.map .fin) (.fin tail) = .ok r ∧
      baseCLArrayR br rd t (sel'.map .fin) (.fin tail') = .ok r' ∧
      (∀ i < n, ∃ (row row' : SummRow K) (L U U' R R' : K), r.rows[i]? = some row ∧ r'.rows[i]? = some row' ∧
        row.latest = .fin L ∧ row'.latest = .fin L ∧ row.ultimate = .fin U ∧ row'.ultimate = .fin U' ∧
        row.reserve = .fin R ∧ row'.reserve = .fin R' ∧ (0 ≤ L → U ≤ U' ∧ R ≤ R') ∧ (L ≤ 0 → U' ≤ U ∧ R' ≤ R)) ∧
      (∀ i < n, 0 ≤ c i (n - 1 - i) → ∀ j < n, ∃ x y : K, r.sqr.tri.cell i j = .fin x ∧ r'.sqr.tri.cell i j = .fin y ∧ x ≤ y) ∧
      ((∀ i < n, 0 ≤ c i (n - 1 - i)) → ∃ L U U' R R' : K, r.totLatest = .fin L ∧ r'.totLatest = .fin L ∧
        r.totUltimate = .fin U ∧ r'.totUltimate = .fin U' ∧ r.totReserve = .fin R ∧ r'.totReserve = .fin R' ∧
        U ≤ U' ∧ R ≤ R') := by
  obtain ⟨e1, _, e3⟩ := array_vals h hn hs tail
  obtain ⟨r, s1, s2⟩ := base_coreR br rd h hn e3
  obtain ⟨e1', _, e3'⟩ := array_vals h hn hs' tail'
  obtain ⟨r', s1', s2'⟩ := base_coreR br rd h hn e3'
  have hff : ∀ j < n, 0 ≤ (sel ++ [tail]).getD j 1 ∧ (sel ++ [tail]).getD j 1 ≤ (sel' ++ [tail']).getD j 1 := fun j hj => by
    have h1 : j < (sel ++ [tail]).length := by simp [hs]; omega
    have h2 : j < (sel' ++ [tail']).length := by simp [hs']; omega
    rw [getD_getElem _ _ h1, getD_getElem _ _ h2]
    exact hle.get h1 h2
  have hU : ∀ i < n, 0 ≤ c i (n - 1 - i) → _ := fun i hi h0 =>
    hm.mono (mul_le_mul_of_nonneg_left (tailProdR_le hm hff i hi).2 h0)
  refine ⟨r, r', by unfold baseCLArrayR; rw [e1]; exact s1, by unfold baseCLArrayR; rw [e1']; exact s1', fun i hi => ?_,
    fun i hi h0 j hj => ?_, fun h0 => ?_⟩
  · obtain ⟨row, a1, _, _, _, _, a6, a7, a8⟩ := s2.rows i hi
    obtain ⟨row', b1, _, _, _, _, b6, b7, b8⟩ := s2'.rows i hi
    refine ⟨row, row', _, _, _, _, _, a1, b1, a6, b6, a7, b7, a8, b8, fun h0 => ?_, fun h0 => ?_⟩
    · exact ⟨hU i hi h0, hm.mono (sub_le_sub_right (hU i hi h0) _)⟩
    · have := hm.mono (mul_le_mul_of_nonpos_left (tailProdR_le hm hff i hi).2 h0)
      exact ⟨this, hm.mono (sub_le_sub_right this _)⟩
  · refine ⟨_, _, s2.sqr_cells i hi j hj, s2'.sqr_cells i hi j hj, ?_⟩
    split
    · exact le_rfl
    · exact (projR_mono hm h0 _ fun m _ h2 => hff m (by omega)).2
  · refine ⟨_, _, _, _, _, s2.totLatest, s2'.totLatest, s2.totUltimate, s2'.totUltimate, s2.totReserve, s2'.totReserve, ?_, ?_⟩
    · exact sumR_mono hm hb fun i hi => hU i (List.mem_range.1 hi) (h0 i (List.mem_range.1 hi))
    · exact sumR_mono hm hb fun i hi =>
        hm.mono (sub_le_sub_right (hU i (List.mem_range.1 hi) (h0 i (List.mem_range.1 hi))) _)

/-- **C226 (periods passed).** When two selections agree from the latest period of origin `i` on, the results of this origin
are the same numbers, whatever the rounding. -/
theorem C226_passed (h : Spec.Stair t n c) (hn : 1 ≤ n) {sel sel' : List K} (hs : sel.length = n - 1)
    (hs' : sel'.length = n - 1) {tail tail' : K} {i : ℕ} (hi : i < n)
    (heq : (sel ++ [tail]).drop (n - 1 - i) = (sel' ++ [tail']).drop (n - 1 - i)) :
    ∃ r r' row row', baseCLArrayR br rd t (sel.map .fin) (.fin tail) = .ok r ∧
      baseCLArrayR br rd t (sel'.map .fin) (.fin tail') = .ok r' ∧ r.rows[i]? = some row ∧ r'.rows[i]? = some row' ∧
      row'.latest = row.latest ∧ row'.ultimate = row.ultimate ∧ row'.reserve = row.reserve ∧
      (∀ j < n, r'.sqr.tri.cell i j = r.sqr.tri.cell i j) ∧ r'.sqr.ultimate[i]? = r.sqr.ultimate[i]? ∧
      ∀ j, n - 1 - i ≤ j → (r'.cldfs.map Prod.snd)[j]? = (r.cldfs.map Prod.snd)[j]? := by
  obtain ⟨e1, _, e3⟩ := array_vals h hn hs tail
  obtain ⟨r, s1, s2⟩ := base_coreR br rd h hn e3
  obtain ⟨e1', _, e3'⟩ := array_vals h hn hs' tail'
  obtain ⟨r', s1', s2'⟩ := base_coreR br rd h hn e3'
  have hff : ∀ j, n - 1 - i ≤ j → j < n → (sel' ++ [tail']).getD j 1 = (sel ++ [tail]).getD j 1 := fun j h1 _ => by
    have := congrArg (fun l => l[j - (n - 1 - i)]?) heq
    simp only [List.getElem?_drop] at this
    rw [show n - 1 - i + (j - (n - 1 - i)) = j by omega] at this
    rw [List.getD_eq_getElem?_getD, List.getD_eq_getElem?_getD, this]
  obtain ⟨row, a1, _, _, _, _, a6, a7, a8⟩ := s2.rows i hi
  obtain ⟨row', b1, _, _, _, _, b6, b7, b8⟩ := s2'.rows i hi
  refine ⟨r, r', row, row', by unfold baseCLArrayR; rw [e1]; exact s1, by unfold baseCLArrayR; rw [e1']; exact s1', a1, b1,
    b6.trans a6.symm, ?_, ?_, fun j hj => ?_, ?_, fun j hj => ?_⟩
  · rw [a7, b7, tailProdR_congr hff]
  · rw [a8, b8, tailProdR_congr hff]
  · rw [s2.sqr_cells i hi j hj, s2'.sqr_cells i hi j hj]
    split
    · rfl
    · rw [projR_congr _ _ fun m h1 h2 => hff m h1 (by omega)]
  · rw [s2.sqr_ultimate, s2'.sqr_ultimate, List.getElem?_map, List.getElem?_map, List.getElem?_range hi]
    simp only [Option.map_some]
    rw [projR_congr _ _ fun m h1 h2 => hff m h1 (by omega)]
  · rw [s2.cldfs_values, s2'.cldfs_values, List.getElem?_map, List.getElem?_map]
    by_cases hjn : j < n
    · rw [List.getElem?_range hjn]
      simp only [Option.map_some]
      rw [tailProdR_congr fun m h1 h2 => hff m (by omega) h2]
    · rw [List.getElem?_eq_none (by simp; omega)]; rfl

/-- **C226 (one factor).** Multiplying the factor of one period by `q` multiplies exactly the ultimates of the origins that
have not passed it by `q`, and moves the total reserve by `q - 1` times their sum. -/
theorem C226_factor (h : Spec.Stair t n c) (hn : 1 ≤ n) {sel : List K} (hs : sel.length = n - 1) (tail q : K) {p : ℕ}
    (hp : p < n - 1) :
    ∃ (r r' : BaseResult K) (u : ℕ → K), baseCLArray t (sel.map .fin) (.fin tail) = .ok r ∧
      baseCLArray t ((sel.modify p (q * ·)).map .fin) (.fin tail) = .ok r' ∧
      (∀ i < n, ∃ row row', r.rows[i]? = some row ∧ r'.rows[i]? = some row' ∧ row.ultimate = .fin (u i) ∧
        row'.ultimate = .fin (if n - 1 - i ≤ p then q * u i else u i)) ∧
      ∃ R : K, r.totReserve = .fin R ∧
        r'.totReserve = .fin (R + (q - 1) * ∑ i ∈ (Finset.range n).filter (fun i => n - 1 - i ≤ p), u i) := by
  obtain ⟨e1, _, e3⟩ := array_vals h hn hs tail
  obtain ⟨r, s1, s2⟩ := base_core h hn e3
  obtain ⟨e1', _, e3'⟩ := array_vals h hn (sel := sel.modify p (q * ·)) (by simpa using hs) tail
  obtain ⟨r', s1', s2'⟩ := base_core h hn e3'
  have hff : ∀ j < n, (sel.modify p (q * ·) ++ [tail]).getD j 1 = (if j = p then q else 1) * (sel ++ [tail]).getD j 1 := by
    intro j hj
    rw [List.getD_eq_getElem?_getD, List.getD_eq_getElem?_getD]
    by_cases hj1 : j < n - 1
    · rw [List.getElem?_append_left (by simpa [hs] using hj1), List.getElem?_append_left (by omega), List.getElem?_modify]
      by_cases e : p = j
      · subst e
        rw [if_pos rfl]
        simp [hs, hj1]
      · rw [if_neg (Ne.symm e)]
        simp [e]
    · rw [if_neg (by omega), one_mul, List.getElem?_append_right (by simp [hs]; omega),
        List.getElem?_append_right (by omega), List.length_modify]
  have hprod : ∀ a ≤ n, Spec.tailProd (fun j => (sel.modify p (q * ·) ++ [tail]).getD j 1) n a =
      (if a ≤ p then q else 1) * Spec.tailProd (fun j => (sel ++ [tail]).getD j 1) n a := by
    intro a _
    unfold Spec.tailProd
    rw [Finset.prod_congr rfl fun j hj => hff j (Finset.mem_Ico.1 hj).2, Finset.prod_mul_distrib, Finset.prod_ite_eq']
    congr 1
    by_cases e : a ≤ p
    · rw [if_pos e, if_pos (Finset.mem_Ico.2 ⟨e, by omega⟩)]
    · rw [if_neg e, if_neg (by rw [Finset.mem_Ico]; omega)]
  set u : ℕ → K := fun i => c i (n - 1 - i) * Spec.tailProd (fun j => (sel ++ [tail]).getD j 1) n (n - 1 - i) with hu
  have hU : ∀ i < n, c i (n - 1 - i) * Spec.tailProd (fun j => (sel.modify p (q * ·) ++ [tail]).getD j 1) n (n - 1 - i) =
      if n - 1 - i ≤ p then q * u i else u i := by
    intro i hi
    rw [hprod _ (by omega), hu]
    split <;> ring
  refine ⟨r, r', u, by unfold baseCLArray; rw [e1]; exact s1, by unfold baseCLArray; rw [e1']; exact s1', fun i hi => ?_,
    _, s2.totReserve, ?_⟩
  · obtain ⟨row, a1, _, _, _, _, a6, a7, a8⟩ := s2.rows i hi
    obtain ⟨row', b1, _, _, _, _, b6, b7, b8⟩ := s2'.rows i hi
    exact ⟨row, row', a1, b1, a7, by rw [b7, hU i hi]⟩
  · rw [s2'.totReserve, Finset.mul_sum, Finset.sum_filter, ← Finset.sum_add_distrib]
    congr 1
    refine Finset.sum_congr rfl fun i hi => ?_
    rw [hU i (Finset.mem_range.1 hi)]
    split <;> simp only [hu] <;> ring

end

/-- A concrete case in five binary digits: the factor of the second period raised from 5/4 to 11/8 leaves the two oldest
origins and raises the two youngest. -/
example : [(5/4 : ℚ), 11/8].map (fun x =>
    ((baseCLArrayR (fun n => seqTree (n - 1)) (floatRd 5) exTri [.fin (3/2), .fin x, .fin (9/8)] (.fin 1)).map
      (fun r => r.rows.map (fun x => x.ultimate))).toOption) =
    [some [.fin 200, .fin 248, .fin 232, .fin 256], some [.fin 200, .fin 248, .fin 256, .fin 304]] := by decide +kernel

end Trikit
