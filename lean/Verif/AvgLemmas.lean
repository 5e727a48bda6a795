import Std.Data.String.ToNat
import Verif.AccessLemmas
import Verif.Base

/-! # Lemmas on link ratios and averages -/

set_option linter.unusedSectionVars false

namespace Trikit

variable {K : Type}

theorem Spec.Staircase.exists_stair [Zero K] {t : Tri K} {n : ℕ} (h : Spec.Staircase t n) :
    ∃ c, Spec.Stair t n c := by
  obtain ⟨h1, h2, h3, h4, h5⟩ := h
  refine ⟨fun i j => match t.cell i j with
    | .fin x => x
    | _ => 0, h1, h2, h3, h4, ?_, fun i j hi hj hn => (h5 i hi j hj).2 hn⟩
  intro i j hij
  obtain ⟨x, hx⟩ := (h5 i (by omega) j (by omega)).1 hij
  simp [hx]

theorem Spec.Stair.staircase {t : Tri K} {n : ℕ} {c : ℕ → ℕ → K} (h : Spec.Stair t n c) :
    Spec.Staircase t n :=
  ⟨h.nr, h.nc, h.origins, h.devs, fun i hi j hj =>
    ⟨fun hij => ⟨_, h.obs i j hij⟩, fun hij => h.miss i j hi hj hij⟩⟩

theorem filter_range_lt {n m : ℕ} {p : ℕ → Bool} (hm : m ≤ n)
    (h : ∀ j < n, p j = true ↔ j < m) : (List.range n).filter p = List.range m := by
  obtain ⟨k, rfl⟩ := Nat.exists_eq_add_of_le hm
  rw [List.range_add, List.filter_append, List.filter_eq_self.2, List.filter_eq_nil_iff.2,
    List.append_nil]
  · intro a ha
    obtain ⟨x, hx, rfl⟩ := List.mem_map.1 ha
    rw [List.mem_range] at hx
    rw [h _ (by omega)]; omega
  · intro a ha
    rw [List.mem_range] at ha
    rw [h _ (by omega)]; exact ha

section
variable [Field K] [LinearOrder K]

/-- Link ratio cell of a staircase. -/
theorem Spec.Stair.linkRatios {t : Tri K} {n : ℕ} {c : ℕ → ℕ → K} (h : Spec.Stair t n c)
    (hc : ∀ i j, i + j < n → c i j ≠ 0) {i j : ℕ} (hi : i < n) (hj : j < n) :
    t.linkRatios.cell i j = if i + j + 1 < n then .fin (c i (j + 1) / c i j) else .nan := by
  unfold Tri.linkRatios
  simp only [h.nc]
  by_cases h1 : i + j + 1 < n
  · rw [if_pos h1, if_pos (by omega), h.obs i (j + 1) (by omega), h.obs i j (by omega),
      Num.fin_div _ _ (hc i j (by omega))]
  · rw [if_neg h1]
    by_cases h2 : j + 1 < n
    · rw [if_pos h2, h.miss i (j + 1) hi h2 (by omega), Num.nan_div]
    · rw [if_neg h2, Num.nan_div]

theorem keepIdx_lt {n m : ℕ} {p : ℕ → Bool} (hm : m ≤ n)
    (h : ∀ j < n, p j = true ↔ j < m) : Tri.keepIdx n p = List.range m := filter_range_lt hm h

theorem Spec.Stair.dropCols {t : Tri K} {n : ℕ} {c : ℕ → ℕ → K} (h : Spec.Stair t n c)
    (hc : ∀ i j, i + j < n → c i j ≠ 0) :
    Tri.keepIdx t.linkRatios.nc
      (fun j => (List.range t.linkRatios.nr).any (fun i => !(t.linkRatios.cell i j).isNaN)) =
      List.range (n - 1) := by
  have hnr : t.linkRatios.nr = n := h.nr
  have hnc : t.linkRatios.nc = n := h.nc
  rw [hnr, hnc]
  apply keepIdx_lt (by omega)
  intro j hj
  rw [List.any_eq_true]
  constructor
  · rintro ⟨i, hi, hn⟩
    rw [List.mem_range] at hi
    rw [h.linkRatios hc hi hj] at hn
    by_contra hcon
    rw [if_neg (by omega)] at hn
    simp at hn
  · intro hj'
    refine ⟨0, List.mem_range.2 (by omega), ?_⟩
    rw [h.linkRatios hc (by omega) hj, if_pos (by omega)]
    simp

theorem Spec.Stair.a2a_spec {t : Tri K} {n : ℕ} {c : ℕ → ℕ → K} (h : Spec.Stair t n c)
    (hc : ∀ i j, i + j < n → c i j ≠ 0) :
    t.a2a.origins = (List.range (n - 1)).map t.oAt ∧ t.a2a.devs = (List.range (n - 1)).map t.dAt ∧
    ∀ i < n - 1, ∀ j < n - 1, t.a2a.cell i j =
      if i + j + 1 < n then .fin (c i (j + 1) / c i j) else .nan := by
  have hd1 : t.linkRatios.dropNaNCols.devs = (List.range (n - 1)).map t.dAt := by
    unfold Tri.dropNaNCols
    simp only
    rw [h.dropCols hc]; rfl
  have hcell : ∀ i < n, ∀ j < n - 1, t.linkRatios.dropNaNCols.cell i j =
      if i + j + 1 < n then .fin (c i (j + 1) / c i j) else .nan := by
    intro i hi j hj
    unfold Tri.dropNaNCols
    simp only
    rw [h.dropCols hc]
    simp only [List.getElem?_range hj]
    exact h.linkRatios hc hi (by omega)
  have hnr : t.linkRatios.dropNaNCols.nr = n := h.nr
  have hnc : t.linkRatios.dropNaNCols.nc = n - 1 := by unfold Tri.nc; rw [hd1]; simp
  have hkeep : Tri.keepIdx t.linkRatios.dropNaNCols.nr
      (fun i => (List.range t.linkRatios.dropNaNCols.nc).any
        (fun j => !(t.linkRatios.dropNaNCols.cell i j).isNaN)) = List.range (n - 1) := by
    rw [hnr, hnc]
    apply keepIdx_lt (by omega)
    intro i hi
    rw [List.any_eq_true]
    constructor
    · rintro ⟨j, hj, hn⟩
      rw [List.mem_range] at hj
      rw [hcell i hi j hj] at hn
      by_contra hcon
      rw [if_neg (by omega)] at hn
      simp at hn
    · intro hi'
      refine ⟨0, List.mem_range.2 (by omega), ?_⟩
      rw [hcell i hi 0 (by omega), if_pos (by omega)]
      simp
  refine ⟨?_, ?_, ?_⟩
  · unfold Tri.a2a
    rw [Tri.dropNaNRows]
    simp only
    rw [hkeep]; rfl
  · unfold Tri.a2a
    rw [Tri.dropNaNRows]
    exact hd1
  · intro i hi j hj
    unfold Tri.a2a
    rw [Tri.dropNaNRows]
    simp only
    rw [hkeep]
    simp only [List.getElem?_range hi]
    exact hcell i (by omega) j hj

theorem Spec.Stair.a2a_nr {t : Tri K} {n : ℕ} {c : ℕ → ℕ → K} (h : Spec.Stair t n c)
    (hc : ∀ i j, i + j < n → c i j ≠ 0) : t.a2a.nr = n - 1 := by
  unfold Tri.nr; rw [(h.a2a_spec hc).1]; simp

theorem Spec.Stair.a2a_nc {t : Tri K} {n : ℕ} {c : ℕ → ℕ → K} (h : Spec.Stair t n c)
    (hc : ∀ i j, i + j < n → c i j ≠ 0) : t.a2a.nc = n - 1 := by
  unfold Tri.nc; rw [(h.a2a_spec hc).2.1]; simp

/-! ### adjusted link ratios -/

/-- An indicator frame with the labels of `a2a`; `w` gives its entries at observed link ratios. -/
structure IndOn (t ind : Tri K) (n : ℕ) (w : ℕ → ℕ → K) : Prop where
  origins : ind.origins = t.a2a.origins
  devs : ind.devs = t.a2a.devs
  vals : ∀ i j, i + j + 1 < n → ind.cell i j = .fin (w i j)

/-- The adjusted link ratios of column `j`. -/
def adjRatios (n : ℕ) (c w : ℕ → ℕ → K) (j : ℕ) : List K :=
  (List.range (n - 1 - j)).map (fun i => c i (j + 1) / c i j * w i j)

theorem adjRatios_one (n : ℕ) (c : ℕ → ℕ → K) (j : ℕ) :
    adjRatios n c (fun _ _ => 1) j = Spec.ratios n c j := by
  unfold adjRatios Spec.ratios; simp

theorem Spec.Stair.indOn0 {t : Tri K} {n : ℕ} {c : ℕ → ℕ → K} (h : Spec.Stair t n c)
    (hc : ∀ i j, i + j < n → c i j ≠ 0) : IndOn t t.a2aind0 n (fun _ _ => 1) := by
  refine ⟨rfl, rfl, ?_⟩
  intro i j hij
  unfold Tri.a2aind0
  simp only
  rw [(h.a2a_spec hc).2.2 i (by omega) j (by omega), if_pos hij]
  rfl

theorem adj_col {t ind : Tri K} {n : ℕ} {c w : ℕ → ℕ → K} (h : Spec.Stair t n c)
    (hc : ∀ i j, i + j < n → c i j ≠ 0) (hi : IndOn t ind n w) {j : ℕ} (hj : j < n - 1) :
    (Tri.alignOp (· * ·) t.a2a ind).col j =
      (adjRatios n c w j).map .fin ++ List.replicate j .nan := by
  unfold Tri.alignOp
  rw [if_pos ⟨hi.origins.symm, hi.devs.symm⟩]
  unfold Tri.col
  have : Tri.nr { t.a2a with cell := fun i j => t.a2a.cell i j * ind.cell i j } = n - 1 :=
    h.a2a_nr hc
  rw [this]
  have e : n - 1 = (n - 1 - j) + j := by omega
  conv_lhs => rw [e]
  rw [List.range_add, List.map_append, List.map_map]
  congr 1
  · unfold adjRatios
    rw [List.map_map]
    apply List.map_congr_left
    intro i hi'
    rw [List.mem_range] at hi'
    simp only [Function.comp_apply]
    rw [(h.a2a_spec hc).2.2 i (by omega) j hj, if_pos (by omega), hi.vals i j (by omega)]
    rfl
  · rw [List.eq_replicate_iff]
    refine ⟨by simp, ?_⟩
    intro v hv
    obtain ⟨x, hx, rfl⟩ := List.mem_map.1 hv
    rw [List.mem_range] at hx
    simp only [Function.comp_apply]
    rw [(h.a2a_spec hc).2.2 _ (by omega) j hj, if_neg (by omega), Num.nan_mul]

theorem adj_nc {t ind : Tri K} {n : ℕ} {c w : ℕ → ℕ → K} (h : Spec.Stair t n c)
    (hc : ∀ i j, i + j < n → c i j ≠ 0) (hi : IndOn t ind n w) :
    (Tri.alignOp (· * ·) t.a2a ind).nc = n - 1 := by
  unfold Tri.alignOp
  rw [if_pos ⟨hi.origins.symm, hi.devs.symm⟩]
  exact h.a2a_nc hc

theorem findIdx_fin_nan (l : List K) (m : ℕ) :
    (l.map Num.fin ++ List.replicate m Num.nan).findIdx Num.isNaN = l.length := by
  induction l with
  | nil =>
    cases m with
    | zero => rfl
    | succ m => simp [List.replicate_succ, List.findIdx_cons]
  | cons a l ih => simp [List.findIdx_cons, ih]

/-- The window of an average. -/
theorem avgWindow_spec (l : List K) (m k : ℕ) :
    avgWindow (l.map Num.fin ++ List.replicate m Num.nan) k =
      ((Spec.lastN k l).filter (fun x => decide (0 < x))).map Num.fin := by
  unfold avgWindow
  simp only
  rw [findIdx_fin_nan]
  unfold pySlice
  have : (l.map Num.fin ++ List.replicate m Num.nan).take l.length = l.map Num.fin := by
    rw [List.take_append_of_le_length (by simp), List.take_of_length_le (by simp)]
  rw [this]
  have e : (l.map Num.fin).drop (if k = 0 then 0 else l.length - k) =
      (Spec.lastN k l).map (Num.fin (K := K)) := by
    unfold Spec.lastN
    split
    · simp
    · rw [List.map_drop]
  rw [e, List.filter_map]
  congr 1

theorem lastN_subset {α : Type} (k : ℕ) (l : List α) : ∀ x ∈ Spec.lastN k l, x ∈ l := by
  intro x hx
  unfold Spec.lastN at hx
  split at hx
  · exact hx
  · exact List.mem_of_mem_drop hx

theorem lastN_ne_nil {α : Type} (k : ℕ) {l : List α} (h : l ≠ []) : Spec.lastN k l ≠ [] := by
  unfold Spec.lastN
  split
  · exact h
  · intro hc
    rw [List.drop_eq_nil_iff] at hc
    have := List.length_pos_of_ne_nil h
    omega

theorem lastN_of_length_le {α : Type} {k : ℕ} {l : List α} (h : l.length ≤ k) :
    Spec.lastN k l = l := by
  unfold Spec.lastN
  split
  · rfl
  · rw [Nat.sub_eq_zero_of_le h, List.drop_zero]

theorem lastN_length {α : Type} {k : ℕ} (hk : k ≠ 0) (l : List α) :
    (Spec.lastN k l).length = min k l.length := by
  unfold Spec.lastN
  rw [if_neg hk, List.length_drop]; omega

theorem lastN_map {α β : Type} (f : α → β) (k : ℕ) (l : List α) :
    Spec.lastN k (l.map f) = (Spec.lastN k l).map f := by
  unfold Spec.lastN
  split
  · rfl
  · rw [List.length_map, List.map_drop]

theorem filter_pos_eq (l : List K) (h : ∀ x ∈ l, 0 < x) :
    l.filter (fun x => decide (0 < x)) = l := by
  rw [List.filter_eq_self]
  intro x hx
  simpa using h x hx

/-! ### means -/

theorem npMean_fin [CharZero K] {l : List K} (h : l ≠ []) :
    npMean (l.map Num.fin) = .fin (Spec.mean l) := by
  unfold npMean Spec.mean
  rw [Num.sum_map_fin, List.length_map, Num.fin_div]
  have := List.length_pos_of_ne_nil h
  exact_mod_cast this.ne'

theorem simpleAvg_fin [CharZero K] {l : List K} (h : l ≠ []) :
    simpleAvg (l.map Num.fin) = .fin (Spec.mean l) := by
  unfold simpleAvg
  rw [if_neg (by simpa using h), npMean_fin h]

end

section order
variable [Field K] [LinearOrder K] [IsStrictOrderedRing K]

theorem sum_le_length_mul {l : List K} {b : K} (h : ∀ x ∈ l, x ≤ b) :
    l.sum ≤ b * (l.length : K) := by
  induction l with
  | nil => simp
  | cons a l ih =>
    have h1 := h a (by simp)
    have h2 := ih (fun x hx => h x (by simp [hx]))
    rw [List.sum_cons, List.length_cons]
    push_cast
    linarith

theorem length_mul_le_sum {l : List K} {b : K} (h : ∀ x ∈ l, b ≤ x) :
    b * (l.length : K) ≤ l.sum := by
  induction l with
  | nil => simp
  | cons a l ih =>
    have h1 := h a (by simp)
    have h2 := ih (fun x hx => h x (by simp [hx]))
    rw [List.sum_cons, List.length_cons]
    push_cast
    linarith

theorem mean_le {l : List K} (hl : l ≠ []) {b : K} (h : ∀ x ∈ l, x ≤ b) : Spec.mean l ≤ b := by
  unfold Spec.mean
  have hpos : (0 : K) < l.length := by exact_mod_cast List.length_pos_of_ne_nil hl
  rw [div_le_iff₀ hpos]
  exact sum_le_length_mul h

theorem le_mean {l : List K} (hl : l ≠ []) {b : K} (h : ∀ x ∈ l, b ≤ x) : b ≤ Spec.mean l := by
  unfold Spec.mean
  have hpos : (0 : K) < l.length := by exact_mod_cast List.length_pos_of_ne_nil hl
  rw [le_div_iff₀ hpos]
  exact length_mul_le_sum h

theorem mean_replicate {m : ℕ} (hm : m ≠ 0) (x : K) : Spec.mean (List.replicate m x) = x := by
  have hne : List.replicate m x ≠ [] := by simpa using hm
  apply le_antisymm
  · exact mean_le hne (fun y hy => (List.eq_of_mem_replicate hy).le)
  · exact le_mean hne (fun y hy => (List.eq_of_mem_replicate hy).ge)

end order

/-! ### labels of the averages -/

theorem avgLabel_inj {k k' : AvgKind} {d d' : ℕ} (h : avgLabel k d = avgLabel k' d') :
    k = k' ∧ d = d' := by
  have h' : (avgLabel k d).toList = (avgLabel k' d').toList := by rw [h]
  unfold avgLabel at h'
  have hrepr : ∀ m : ℕ, toString m = Nat.repr m := fun _ => rfl
  by_cases e : d = 0 <;> by_cases e' : d' = 0
  · subst e; subst e'
    simp only [if_true, String.toList_append] at h'
    have := List.append_cancel_left h'
    refine ⟨?_, rfl⟩
    cases k <;> cases k' <;> first | rfl | (exfalso; revert this; decide)
  · exfalso
    rw [if_pos e, if_neg e'] at h'
    simp only [String.toList_append, List.append_assoc] at h'
    cases k' <;> simp [AvgKind.name] at h'
  · exfalso
    rw [if_neg e, if_pos e'] at h'
    simp only [String.toList_append, List.append_assoc] at h'
    cases k <;> simp [AvgKind.name] at h'
  · rw [if_neg e, if_neg e'] at h'
    simp only [String.toList_append, List.append_assoc] at h'
    have key : k = k' := by
      cases k <;> cases k' <;> first | rfl | (exfalso; simp [AvgKind.name] at h')
    subst key
    refine ⟨rfl, ?_⟩
    have h2 := List.append_cancel_left (List.append_cancel_left h')
    exact Nat.repr_injective (String.toList_inj.1 h2)

theorem lookup_map_inj {α β γ : Type} [BEq β] [LawfulBEq β] {f : α → β} {g : α → γ} {l : List α}
    {a : α} (ha : a ∈ l) (hf : ∀ b ∈ l, f b = f a → b = a) :
    (l.map (fun x => (f x, g x))).lookup (f a) = some (g a) := by
  induction l with
  | nil => simp at ha
  | cons b l ih =>
    rw [List.map_cons, List.lookup_cons]
    by_cases e : f a == f b
    · rw [e]
      have := hf b (by simp) (by simpa using (beq_iff_eq.1 e).symm)
      subst this; rfl
    · rw [Bool.not_eq_true] at e
      rw [e]
      have hm : a ∈ l := by
        rcases List.mem_cons.1 ha with h | h
        · subst h; simp at e
        · exact h
      exact ih hm (fun b hb => hf b (by simp [hb]))

theorem mem_avgGrid {rows d : ℕ} {k : AvgKind} : (k, d) ∈ avgGrid rows ↔ d = 0 ∨ d < rows := by
  unfold avgGrid avgPeriods
  simp only [List.mem_flatMap, List.mem_map, List.mem_append, List.mem_singleton, Prod.mk.injEq]
  have ht : ∀ x, x ∈ (List.range rows).tail ↔ 0 < x ∧ x < rows := by
    intro x
    cases rows with
    | zero => simp
    | succ r =>
      rw [List.range_succ_eq_map, List.tail_cons, List.mem_map]
      constructor
      · rintro ⟨y, hy, rfl⟩; rw [List.mem_range] at hy; omega
      · rintro ⟨h1, h2⟩; exact ⟨x - 1, by rw [List.mem_range]; omega, by omega⟩
  constructor
  · rintro ⟨k', _, a, ha, rfl, rfl⟩
    rcases ha with h | h
    · exact Or.inr ((ht _).1 h).2
    · exact Or.inl h
  · intro h
    refine ⟨k, by cases k <;> simp, d, ?_, rfl, rfl⟩
    by_cases e : d = 0
    · exact Or.inr e
    · exact Or.inl ((ht _).2 ⟨by omega, by omega⟩)

end Trikit
