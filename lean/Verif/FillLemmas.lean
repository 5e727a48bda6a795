import Verif.RecLemmas
import Verif.Spec

/-! # Last valid positions, the triangle indicator and the fill loop -/

set_option linter.unusedSectionVars false

namespace Trikit

variable {K : Type}

theorem lastValid_some {f : ℕ → Num K} {n k : ℕ} :
    lastValid f n = some k ↔ k < n ∧ f k ≠ .nan ∧ ∀ m, k < m → m < n → f m = .nan := by
  induction n with
  | zero => simp [lastValid]
  | succ n ih =>
    unfold lastValid
    by_cases h : (f n).isNaN = true
    · rw [if_pos h, ih]
      have hn : f n = .nan := (Num.isNaN_iff _).1 h
      constructor
      · rintro ⟨h1, h2, h3⟩
        refine ⟨by omega, h2, fun m hm hm' => ?_⟩
        by_cases e : m = n
        · rw [e, hn]
        · exact h3 m hm (by omega)
      · rintro ⟨h1, h2, h3⟩
        refine ⟨?_, h2, fun m hm hm' => h3 m hm (by omega)⟩
        by_contra hc
        have : k = n := by omega
        exact h2 (this ▸ hn)
    · rw [if_neg h]
      have hn : f n ≠ .nan := fun e => h ((Num.isNaN_iff _).2 e)
      constructor
      · intro e
        have : n = k := by injection e
        subst this
        exact ⟨by omega, hn, fun m hm hm' => by omega⟩
      · rintro ⟨h1, h2, h3⟩
        by_cases e : k = n
        · rw [e]
        · exact absurd (h3 n (by omega) (by omega)) hn

theorem lastValid_none {f : ℕ → Num K} {n : ℕ} :
    lastValid f n = none ↔ ∀ k < n, f k = .nan := by
  induction n with
  | zero => simp [lastValid]
  | succ n ih =>
    unfold lastValid
    by_cases h : (f n).isNaN = true
    · rw [if_pos h, ih]
      have hn : f n = .nan := (Num.isNaN_iff _).1 h
      constructor
      · intro h3 k hk
        by_cases e : k = n
        · rw [e, hn]
        · exact h3 k (by omega)
      · intro h3 k hk; exact h3 k (by omega)
    · rw [if_neg h]
      have hn : f n ≠ .nan := fun e => h ((Num.isNaN_iff _).2 e)
      simp only [reduceCtorEq, false_iff]
      intro h3; exact hn (h3 n (by omega))

theorem lastValid_isSome {f : ℕ → Num K} {n : ℕ} :
    (lastValid f n).isSome = true ↔ ∃ k < n, f k ≠ .nan := by
  cases h : lastValid f n with
  | none =>
    rw [lastValid_none] at h
    simp only [Option.isSome_none, Bool.false_eq_true, false_iff]
    rintro ⟨k, hk, hk'⟩; exact hk' (h k hk)
  | some k =>
    rw [lastValid_some] at h
    simp only [Option.isSome_some, true_iff]
    exact ⟨k, h.1, h.2.1⟩

theorem lastValid_congr {f g : ℕ → Num K} {n : ℕ} (h : ∀ k < n, (f k = .nan ↔ g k = .nan)) :
    lastValid f n = lastValid g n := by
  induction n with
  | zero => rfl
  | succ n ih =>
    have hn := h n (by omega)
    have e : (f n).isNaN = (g n).isNaN := by
      rw [Bool.eq_iff_iff, Num.isNaN_iff, Num.isNaN_iff, hn]
    unfold lastValid
    rw [e, ih (fun k hk => h k (by omega))]

namespace Tri

theorem triindAt_false {t : Tri K} {i j : ℕ} (_hi : i < t.nr) (hc : ∃ r < t.nr, t.cell r j ≠ .nan) :
    t.triindAt i j = false ↔ ∃ r, i ≤ r ∧ r < t.nr ∧ t.cell r j ≠ .nan := by
  unfold triindAt clvi
  cases h : lastValid (fun r => t.cell r j) t.nr with
  | none =>
    rw [lastValid_none] at h
    obtain ⟨r, hr, hr'⟩ := hc
    exact absurd (h r hr) hr'
  | some k =>
    rw [lastValid_some] at h
    obtain ⟨h1, h2, h3⟩ := h
    simp only [decide_eq_false_iff_not, not_lt]
    constructor
    · intro hik; exact ⟨k, hik, h1, h2⟩
    · rintro ⟨r, hr1, hr2, hr3⟩
      by_contra hc
      exact hr3 (h3 r (by omega) hr2)

theorem triindAt_observed {t : Tri K} {i j : ℕ} (hi : i < t.nr) (h : t.cell i j ≠ .nan) :
    t.triindAt i j = false :=
  (triindAt_false hi ⟨i, hi, h⟩).2 ⟨i, le_refl _, hi, h⟩

theorem triind_ok {t : Tri K} (h : Spec.ColsObserved t) : t.triind = .ok t.triindAt := by
  unfold triind
  rw [if_pos]
  rw [List.all_eq_true]
  intro j hj
  rw [List.mem_range] at hj
  unfold clvi
  rw [lastValid_isSome]
  exact h j hj

theorem triind_error {t : Tri K} (h : ¬ Spec.ColsObserved t) : t.triind = .error .keyError := by
  unfold triind
  rw [if_neg]
  rw [List.all_eq_true]
  intro h'
  apply h
  intro j hj
  have := h' j (List.mem_range.2 hj)
  unfold clvi at this
  exact lastValid_isSome.1 this

theorem triindAt_congr {a b : Tri K} (hr : a.nr = b.nr) {j : ℕ}
    (h : ∀ i < a.nr, (a.cell i j = .nan ↔ b.cell i j = .nan)) (i : ℕ) :
    a.triindAt i j = b.triindAt i j := by
  unfold triindAt clvi
  rw [← hr, lastValid_congr h]

end Tri

section
variable [Field K] [LinearOrder K]

theorem fillRow_congr {f g : ℕ → Num K} {p q : ℕ → Bool} {j : ℕ} (hf : ∀ k ≤ j, f k = g k)
    (h : ∀ k, 1 ≤ k → k ≤ j → p k = q k) : fillRow f p j = fillRow g q j := by
  induction j with
  | zero => unfold fillRow; rw [hf 0 (le_refl _)]
  | succ j ih =>
    unfold fillRow
    rw [h (j + 1) (by omega) (le_refl _), hf (j + 1) (le_refl _),
      ih (fun k hk => hf k (by omega)) (fun k h1 h2 => h k h1 (by omega))]

theorem fillRow_observed {f : ℕ → Num K} {p : ℕ → Bool} {j : ℕ} (h : f j ≠ .nan) :
    fillRow f p j = f j := by
  have hn : (f j).isNaN = false := (Num.isNaN_false_iff _).2 h
  cases j with
  | zero => unfold fillRow; simp [hn]
  | succ j => unfold fillRow; simp [hn]

/-- The frame of which `fillObj` reads the indicator. -/
def fillHead (u : Tri K) : Tri K :=
  { u with cell := fun i j => if i = 0 ∧ j = 0 ∧ (u.cell 0 0).isNaN = true then 1 else u.cell i j }

theorem fillHead_colsObserved {u : Tri K} (h : Spec.ColsObserved u) :
    Spec.ColsObserved (fillHead u) := by
  intro j hj
  obtain ⟨i, hi, hi'⟩ := h j hj
  refine ⟨i, hi, ?_⟩
  simp only [fillHead]
  split
  · simp [Num.one_def]
  · exact hi'

theorem fillObj_ok {u : Tri K} (h : Spec.ColsObserved u) :
    ∃ o, fillObj u = .ok o ∧ o.tri.origins = u.origins ∧ o.tri.devs = u.devs ∧
      (∀ i j, j < u.nc → o.tri.cell i j = fillRow (u.cell i) (u.triindAt i) j) ∧
      o.triindC = (if u.nc ≤ 1 then none else some (fillHead u).triindAt) := by
  unfold fillObj
  by_cases hc : u.nc ≤ 1
  · rw [if_pos hc]
    refine ⟨_, rfl, rfl, rfl, ?_, by rw [if_pos hc]⟩
    intro i j hj
    apply fillRow_congr (fun _ _ => rfl)
    intro k h1 h2; omega
  · rw [if_neg hc, if_neg hc]
    have ht := Tri.triind_ok (fillHead_colsObserved h)
    unfold fillHead at ht
    simp only [ht]
    refine ⟨_, rfl, rfl, rfl, ?_, rfl⟩
    intro i j hj
    apply fillRow_congr (fun _ _ => rfl)
    intro k h1 h2
    apply Tri.triindAt_congr (by rfl)
    intro r hr
    simp only
    rw [if_neg (by omega)]

theorem fillTri_ok {u : Tri K} (h : Spec.ColsObserved u) :
    ∃ t, fillTri u = .ok t ∧ t.origins = u.origins ∧ t.devs = u.devs ∧
      ∀ i j, j < u.nc → t.cell i j = fillRow (u.cell i) (u.triindAt i) j := by
  obtain ⟨o, h1, h2, h3, h4, _⟩ := fillObj_ok h
  exact ⟨o.tri, by unfold fillTri; rw [h1]; rfl, h2, h3, h4⟩

/-- The pivot of tame records has an observed cell in every column and row. -/
theorem pivot_colsObserved {recs : List (Rec K)} (h : TameRecs recs) :
    Spec.ColsObserved (pivot recs) := by
  intro j hj
  have hd := (mem_pivot_devs recs _).1 ((pivot recs).dAt_mem hj)
  obtain ⟨r, hr, hrd⟩ := hd
  have ho : r.origin ∈ (pivot recs).origins := (mem_pivot_origins recs _).2 ⟨r, hr, rfl⟩
  obtain ⟨i, hi⟩ := List.getElem?_of_mem ho
  refine ⟨i, (List.getElem?_eq_some_iff.1 hi).1, ?_⟩
  rw [pivot_cell hi ((pivot recs).devs_get hj)]
  obtain ⟨x, hx⟩ := groupCell_fin h ⟨r, hr, rfl, hrd⟩
  rw [hx]; simp

theorem pivot_rowsObserved {recs : List (Rec K)} (h : TameRecs recs) :
    Spec.RowsObserved (pivot recs) := by
  intro i hi
  obtain ⟨r, hr, hro⟩ := (mem_pivot_origins recs _).1 ((pivot recs).oAt_mem hi)
  have hd : r.dev ∈ (pivot recs).devs := (mem_pivot_devs recs _).2 ⟨r, hr, rfl⟩
  obtain ⟨j, hj⟩ := List.getElem?_of_mem hd
  refine ⟨j, (List.getElem?_eq_some_iff.1 hj).1, ?_⟩
  rw [pivot_cell ((pivot recs).origins_get hi) hj]
  obtain ⟨x, hx⟩ := groupCell_fin h ⟨r, hr, hro, rfl⟩
  rw [hx]; simp

theorem cumRecs_ne_nil {recs : List (Rec K)} (h : recs ≠ []) : cumRecs recs ≠ [] := by
  intro hc
  have := (cumRecs_sameKeys recs).length
  rw [hc] at this
  exact h (List.length_eq_zero_iff.1 this.symm)

theorem cumTri_eq {recs : List (Rec K)} (h : recs ≠ []) :
    cumTri recs = .ok (pivot (negHandler (cumRecs recs))) := by
  unfold cumTri baseInit
  rw [if_neg (cumRecs_ne_nil h)]

/-- The accumulated triangle before filling. -/
def preFill (recs : List (Rec K)) : Tri K := pivot (negHandler (cumRecs recs))

theorem preFill_colsObserved {recs : List (Rec K)} (h : TameRecs recs) :
    Spec.ColsObserved (preFill recs) := pivot_colsObserved (cumRecs_tame h).negHandler

theorem preFill_rowsObserved {recs : List (Rec K)} (h : TameRecs recs) :
    Spec.RowsObserved (preFill recs) := pivot_rowsObserved (cumRecs_tame h).negHandler

theorem totriCum_ok {recs : List (Rec K)} (hne : recs ≠ []) (h : TameRecs recs) :
    ∃ t, totriCum recs = .ok t ∧ t.origins = (preFill recs).origins ∧
      t.devs = (preFill recs).devs ∧
      ∀ i j, j < t.nc → t.cell i j =
        fillRow ((preFill recs).cell i) ((preFill recs).triindAt i) j := by
  obtain ⟨t, h1, h2, h3, h4⟩ := fillTri_ok (preFill_colsObserved h)
  refine ⟨t, ?_, h2, h3, ?_⟩
  · unfold totriCum; rw [cumTri_eq hne]; exact h1
  · intro i j hj; apply h4; unfold Tri.nc at hj ⊢; rw [← h3]; exact hj

end

end Trikit
