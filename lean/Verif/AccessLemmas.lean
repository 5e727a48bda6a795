import Verif.RoundLemmas
import Verif.Cache

/-! # Lemmas on accessors and stored attributes -/

set_option linter.unusedSectionVars false

namespace Trikit

variable {K : Type}

theorem lastZero_some {ind : ℕ → Bool} {n k : ℕ} :
    Tri.lastZero ind n = some k ↔ k < n ∧ ind k = false ∧ ∀ m, k < m → m < n → ind m = true := by
  induction n with
  | zero => simp [Tri.lastZero]
  | succ n ih =>
    unfold Tri.lastZero
    by_cases h : ind n = true
    · rw [if_pos h, ih]
      constructor
      · rintro ⟨h1, h2, h3⟩
        refine ⟨by omega, h2, fun m hm hm' => ?_⟩
        by_cases e : m = n
        · rw [e, h]
        · exact h3 m hm (by omega)
      · rintro ⟨h1, h2, h3⟩
        refine ⟨?_, h2, fun m hm hm' => h3 m hm (by omega)⟩
        by_contra hc
        have : k = n := by omega
        rw [this, h] at h2; simp at h2
    · rw [if_neg h]
      have hn : ind n = false := by simpa using h
      constructor
      · intro e
        have : n = k := by injection e
        subst this
        exact ⟨by omega, hn, fun m hm hm' => by omega⟩
      · rintro ⟨h1, h2, h3⟩
        by_cases e : k = n
        · rw [e]
        · exact absurd (h3 n (by omega) (by omega)) h

theorem lastZero_congr {f g : ℕ → Bool} {n : ℕ} (h : ∀ k < n, f k = g k) :
    Tri.lastZero f n = Tri.lastZero g n := by
  induction n with
  | zero => rfl
  | succ n ih =>
    unfold Tri.lastZero
    rw [h n (by omega), ih (fun k hk => h k (by omega))]

theorem mapM_ok {α β : Type} {f : α → Except PyErr β} {g : α → β} {l : List α}
    (h : ∀ a ∈ l, f a = .ok (g a)) : l.mapM f = .ok (l.map g) := by
  induction l with
  | nil => rfl
  | cons a l ih =>
    rw [List.mapM_cons, h a (by simp), ih (fun b hb => h b (by simp [hb]))]
    rfl

theorem mapM_error {α β : Type} {f : α → Except PyErr β} {e : PyErr} {l : List α} {a : α}
    {rest : List α} (hl : l = a :: rest) (h : f a = .error e) : l.mapM f = .error e := by
  subst hl; rw [List.mapM_cons, h]; rfl

theorem mapM_map' {α β γ : Type} {f : β → Except PyErr γ} {g : α → β} (l : List α) :
    (l.map g).mapM f = l.mapM (fun a => f (g a)) := by
  induction l with
  | nil => rfl
  | cons a l ih => rw [List.map_cons, List.mapM_cons, List.mapM_cons, ih]

theorem mapM_congr' {α β : Type} {f g : α → Except PyErr β} {l : List α}
    (h : ∀ a ∈ l, f a = g a) : l.mapM f = l.mapM g := by
  induction l with
  | nil => rfl
  | cons a l ih =>
    rw [List.mapM_cons, List.mapM_cons, h a (by simp), ih (fun b hb => h b (by simp [hb]))]

/-! ### latest -/

theorem filterMap_all_some {α β : Type} {f : α → Option β} {g : α → β} {l : List α}
    (h : ∀ a ∈ l, f a = some (g a)) : l.filterMap f = l.map g := by
  induction l with
  | nil => rfl
  | cons a l ih =>
    rw [List.filterMap_cons, h a (by simp), ih (fun b hb => h b (by simp [hb]))]
    rfl

theorem Tri.latest_of_rlvi {t : Tri K} {m : ℕ → ℕ} (h : ∀ i < t.nr, t.rlvi i = some (m i)) :
    t.latest = (List.range t.nr).map (fun i => ⟨t.oAt i, t.dAt (m i), t.cell i (m i)⟩) := by
  unfold Tri.latest
  apply filterMap_all_some
  intro i hi
  rw [h i (List.mem_range.1 hi)]

theorem Tri.exists_rlvi {t : Tri K} (hr : Spec.RowsObserved t) :
    ∃ m : ℕ → ℕ, ∀ i < t.nr, t.rlvi i = some (m i) := by
  refine ⟨fun i => (t.rlvi i).getD 0, fun i hi => ?_⟩
  have : (t.rlvi i).isSome = true := lastValid_isSome.2 (hr i hi)
  cases h : t.rlvi i with
  | none => rw [h] at this; simp at this
  | some k => simp [h]

/-! ### staircases -/

theorem Spec.Staircase.rlvi {t : Tri K} {n : ℕ} (h : Spec.Staircase t n) {i : ℕ} (hi : i < n) :
    t.rlvi i = some (n - 1 - i) := by
  obtain ⟨h1, h2, _, _, h5⟩ := h
  unfold Tri.rlvi
  rw [h2, lastValid_some]
  refine ⟨by omega, ?_, ?_⟩
  · obtain ⟨x, hx⟩ := (h5 i hi (n - 1 - i) (by omega)).1 (by omega)
    rw [hx]; simp
  · intro m hm hm'
    exact (h5 i hi m hm').2 (by omega)

theorem Spec.Staircase.clvi {t : Tri K} {n : ℕ} (h : Spec.Staircase t n) {j : ℕ} (hj : j < n) :
    t.clvi j = some (n - 1 - j) := by
  obtain ⟨h1, h2, _, _, h5⟩ := h
  unfold Tri.clvi
  rw [h1, lastValid_some]
  refine ⟨by omega, ?_, ?_⟩
  · obtain ⟨x, hx⟩ := (h5 (n - 1 - j) (by omega) j hj).1 (by omega)
    rw [hx]; simp
  · intro m hm hm'
    exact (h5 m hm' j hj).2 (by omega)

theorem Spec.Staircase.colsObserved {t : Tri K} {n : ℕ} (h : Spec.Staircase t n) :
    Spec.ColsObserved t := by
  intro j hj
  rw [h.2.1] at hj
  obtain ⟨x, hx⟩ := (h.2.2.2.2 0 (by omega) j hj).1 (by omega)
  exact ⟨0, by rw [h.1]; omega, by rw [hx]; simp⟩

theorem Spec.Staircase.rowsObserved {t : Tri K} {n : ℕ} (h : Spec.Staircase t n) :
    Spec.RowsObserved t := by
  intro j hj
  rw [h.1] at hj
  obtain ⟨x, hx⟩ := (h.2.2.2.2 j hj 0 (by omega)).1 (by omega)
  exact ⟨0, by rw [h.2.1]; omega, by rw [hx]; simp⟩

theorem Spec.Staircase.triindAt {t : Tri K} {n : ℕ} (h : Spec.Staircase t n) (i : ℕ) {j : ℕ}
    (hj : j < n) : t.triindAt i j = decide (n ≤ i + j) := by
  unfold Tri.triindAt
  rw [h.clvi hj]
  simp only
  congr 1
  rw [eq_iff_iff]; omega

theorem Spec.Staircase.latest {t : Tri K} {n : ℕ} (h : Spec.Staircase t n) :
    t.latest = (List.range n).map
      (fun i => ⟨t.oAt i, t.dAt (n - 1 - i), t.cell i (n - 1 - i)⟩) := by
  have := Tri.latest_of_rlvi (t := t) (m := fun i => n - 1 - i)
    (fun i hi => h.rlvi (by rw [h.1] at hi; exact hi))
  rw [h.1] at this
  exact this

/-! ### the fill loop keeps the last valid rows -/

section
variable [Field K] [LinearOrder K]

theorem fillRow_masked {f : ℕ → Num K} {p : ℕ → Bool} {j : ℕ} (hj : j ≠ 0) (h : p j = true) :
    fillRow f p j = f j := by
  cases j with
  | zero => exact absurd rfl hj
  | succ j => unfold fillRow; simp [h]

theorem fill_clvi {u t : Tri K} (ho : t.origins = u.origins)
    (hcell : ∀ i j, j < u.nc → t.cell i j = fillRow (u.cell i) (u.triindAt i) j)
    (hc : Spec.ColsObserved u) {j : ℕ} (hj : j < u.nc)
    (h0 : j ≠ 0 ∨ ∀ i < u.nr, u.cell i 0 ≠ .nan) : t.clvi j = u.clvi j := by
  have hnr : t.nr = u.nr := by unfold Tri.nr; rw [ho]
  have hs : (u.clvi j).isSome = true := lastValid_isSome.2 (hc j hj)
  cases h : u.clvi j with
  | none => rw [h] at hs; simp at hs
  | some k =>
    unfold Tri.clvi at h ⊢
    rw [lastValid_some] at h
    obtain ⟨h1, h2, h3⟩ := h
    rw [hnr, lastValid_some]
    refine ⟨h1, ?_, ?_⟩
    · simp only [hcell k j hj]
      rw [fillRow_observed h2]; exact h2
    · intro m hm hm'
      simp only [hcell m j hj]
      by_cases e : j = 0
      · subst e
        rcases h0 with h0 | h0
        · exact absurd rfl h0
        · exact absurd (h3 m hm hm') (h0 m hm')
      · rw [fillRow_masked e]
        · exact h3 m hm hm'
        · by_contra hcon
          have hf : u.triindAt m j = false := by simpa using hcon
          rw [Tri.triindAt_false hm' (hc j hj)] at hf
          obtain ⟨r, ha, hb, hcc⟩ := hf
          exact hcc (h3 r (by omega) hb)

theorem fillHead_clvi {u : Tri K} {j : ℕ} (h0 : j ≠ 0 ∨ u.cell 0 0 ≠ .nan) :
    (fillHead u).clvi j = u.clvi j := by
  unfold Tri.clvi
  apply lastValid_congr
  intro k hk
  simp only [fillHead]
  rw [if_neg]
  rintro ⟨rfl, rfl, hn⟩
  rcases h0 with h | h
  · exact h rfl
  · exact h ((Num.isNaN_iff _).1 hn)

/-! ### stored attributes -/

/-- Every stored value equals the recomputed one. -/
structure Coherent (s : ObjState K) : Prop where
  nbrCells : ∀ v, s.nbrCells = some v → v = s.tri.nbrCells
  triind : ∀ v, s.triind = some v →
    v = (List.range s.tri.nr).map (fun i => (List.range s.tri.nc).map (s.tri.triindAt i))
  rlvi : ∀ v, s.rlvi = some v → v = s.tri.rlviL
  clvi : ∀ v, s.clvi = some v → v = s.tri.clviL
  latest : ∀ v, s.latest = some v → v = s.tri.latest
  latestByOrigin : ∀ v, s.latestByOrigin = some v → v = s.tri.latestByOrigin
  latestByDevp : ∀ v, s.latestByDevp = some v → v = byDevpFrom s.tri.latest
  devp : ∀ v, s.devp = some v → v = s.tri.devs
  origins : ∀ v, s.origins = some v → v = s.tri.origins
  maturity : ∀ v, s.maturity = some v → fresh s.tri .maturity = .mat (.ok v)
  a2a : ∀ v, s.a2a = some v → v = s.tri.a2a
  a2aind : ∀ v, s.a2aind = some v → v = s.tri.a2aind0

theorem coherent_new (t : Tri K) : Coherent { tri := t } := by
  constructor <;> (intro v h; simp at h)

theorem triindFrom_clviL (t : Tri K) : triindFrom t.nr t.clviL =
    (List.range t.nr).map (fun i => (List.range t.nc).map (t.triindAt i)) := by
  unfold triindFrom Tri.clviL
  apply List.map_congr_left
  intro i _
  rw [List.map_map]
  apply List.map_congr_left
  intro j _
  rfl

theorem maturityFrom_fresh (t : Tri K) :
    maturityFrom t ((List.range t.nr).map (fun i => (List.range t.nc).map (t.triindAt i))) =
      (List.range t.nr).mapM (fun i =>
        match Tri.lastZero (t.triindAt i) t.nc with
        | some j => .ok (t.dAt j)
        | none => .error .valueError) := by
  unfold maturityFrom
  rw [mapM_map']
  apply mapM_congr'
  intro i _
  have : Tri.lastZero (fun j => ((List.range t.nc).map (t.triindAt i)).getD j true) t.nc =
      Tri.lastZero (t.triindAt i) t.nc := by
    apply lastZero_congr
    intro k hk
    simp [List.getD_eq_getElem?_getD, hk]
  simp only [this]
  cases Tri.lastZero (t.triindAt i) t.nc <;> rfl

theorem readClvi_spec {s : ObjState K} (h : Coherent s) :
    (readClvi s).1 = s.tri.clviL ∧ (readClvi s).2.tri = s.tri ∧ Coherent (readClvi s).2 ∧
      (readClvi s).2.triind = s.triind ∧ (readClvi s).2.maturity = s.maturity := by
  unfold readClvi
  cases hc : s.clvi with
  | some v => exact ⟨h.clvi v hc, rfl, h, rfl, rfl⟩
  | none =>
    refine ⟨rfl, rfl, ?_, rfl, rfl⟩
    exact { h with clvi := fun v hv => by simp at hv; exact hv.symm }

theorem readTriind_spec {s : ObjState K} (h : Coherent s) :
    (readTriind s).1 =
      (List.range s.tri.nr).map (fun i => (List.range s.tri.nc).map (s.tri.triindAt i)) ∧
      (readTriind s).2.tri = s.tri ∧ Coherent (readTriind s).2 ∧
      (readTriind s).2.maturity = s.maturity := by
  unfold readTriind
  cases hc : s.triind with
  | some v => exact ⟨h.triind v hc, rfl, h, rfl⟩
  | none =>
    obtain ⟨h1, h2, h3, h4, h5⟩ := readClvi_spec h
    simp only [h1, triindFrom_clviL]
    refine ⟨trivial, h2, ?_, h5⟩
    exact { h3 with triind := fun v hv => by simp at hv; rw [h2]; exact hv.symm }

theorem readLatest_spec {s : ObjState K} (h : Coherent s) :
    (readLatest s).1 = s.tri.latest ∧ (readLatest s).2.tri = s.tri ∧
      Coherent (readLatest s).2 := by
  unfold readLatest
  cases hc : s.latest with
  | some v => exact ⟨h.latest v hc, rfl, h⟩
  | none =>
    refine ⟨rfl, rfl, ?_⟩
    exact { h with latest := fun v hv => by simp at hv; exact hv.symm }

theorem readA2a_spec {s : ObjState K} (h : Coherent s) :
    (readA2a s).1 = s.tri.a2a ∧ (readA2a s).2.tri = s.tri ∧ Coherent (readA2a s).2 := by
  unfold readA2a
  cases hc : s.a2a with
  | some v => exact ⟨h.a2a v hc, rfl, h⟩
  | none =>
    refine ⟨rfl, rfl, ?_⟩
    exact { h with a2a := fun v hv => by simp at hv; exact hv.symm }

theorem readNbr_spec {s : ObjState K} (h : Coherent s) :
    (readNbr s).1 = s.tri.nbrCells ∧ (readNbr s).2.tri = s.tri ∧ Coherent (readNbr s).2 := by
  unfold readNbr
  cases hc : s.nbrCells with
  | some v => exact ⟨h.nbrCells v hc, rfl, h⟩
  | none => exact ⟨rfl, rfl, { h with nbrCells := fun v hv => by simp at hv; exact hv.symm }⟩

theorem readRlvi_spec {s : ObjState K} (h : Coherent s) :
    (readRlvi s).1 = s.tri.rlviL ∧ (readRlvi s).2.tri = s.tri ∧ Coherent (readRlvi s).2 := by
  unfold readRlvi
  cases hc : s.rlvi with
  | some v => exact ⟨h.rlvi v hc, rfl, h⟩
  | none => exact ⟨rfl, rfl, { h with rlvi := fun v hv => by simp at hv; exact hv.symm }⟩

theorem readDevp_spec {s : ObjState K} (h : Coherent s) :
    (readDevp s).1 = s.tri.devs ∧ (readDevp s).2.tri = s.tri ∧ Coherent (readDevp s).2 := by
  unfold readDevp
  cases hc : s.devp with
  | some v => exact ⟨h.devp v hc, rfl, h⟩
  | none => exact ⟨rfl, rfl, { h with devp := fun v hv => by simp at hv; exact hv.symm }⟩

theorem readOrigins_spec {s : ObjState K} (h : Coherent s) :
    (readOrigins s).1 = s.tri.origins ∧ (readOrigins s).2.tri = s.tri ∧
      Coherent (readOrigins s).2 := by
  unfold readOrigins
  cases hc : s.origins with
  | some v => exact ⟨h.origins v hc, rfl, h⟩
  | none => exact ⟨rfl, rfl, { h with origins := fun v hv => by simp at hv; exact hv.symm }⟩

theorem readByOrigin_spec {s : ObjState K} (h : Coherent s) :
    (readByOrigin s).1 = s.tri.latestByOrigin ∧ (readByOrigin s).2.tri = s.tri ∧
      Coherent (readByOrigin s).2 := by
  unfold readByOrigin
  cases hc : s.latestByOrigin with
  | some v => exact ⟨h.latestByOrigin v hc, rfl, h⟩
  | none =>
    obtain ⟨h1, h2, h3⟩ := readLatest_spec h
    have e : byOriginFrom (readLatest s).1 = s.tri.latestByOrigin := by rw [h1]; rfl
    refine ⟨e, h2, { h3 with latestByOrigin := ?_ }⟩
    intro v hv
    simp only [Option.some.injEq] at hv
    simp only [h2]; rw [← hv, e]

theorem readByDevp_spec {s : ObjState K} (h : Coherent s) :
    (readByDevp s).1 = byDevpFrom s.tri.latest ∧ (readByDevp s).2.tri = s.tri ∧
      Coherent (readByDevp s).2 := by
  unfold readByDevp
  cases hc : s.latestByDevp with
  | some v => exact ⟨h.latestByDevp v hc, rfl, h⟩
  | none =>
    obtain ⟨h1, h2, h3⟩ := readLatest_spec h
    refine ⟨by rw [h1], h2, { h3 with latestByDevp := ?_ }⟩
    intro v hv
    simp only [Option.some.injEq] at hv
    simp only [h2]; rw [← hv, h1]

theorem readA2aind_spec {s : ObjState K} (h : Coherent s) :
    (readA2aind s).1 = s.tri.a2aind0 ∧ (readA2aind s).2.tri = s.tri ∧
      Coherent (readA2aind s).2 := by
  unfold readA2aind
  cases hc : s.a2aind with
  | some v => exact ⟨h.a2aind v hc, rfl, h⟩
  | none =>
    obtain ⟨h1, h2, h3⟩ := readA2a_spec h
    have e : a2aindFrom (readA2a s).1 = s.tri.a2aind0 := by rw [h1]; rfl
    refine ⟨e, h2, { h3 with a2aind := ?_ }⟩
    intro v hv
    simp only [Option.some.injEq] at hv
    simp only [h2]; rw [← hv, e]

theorem readMaturity_spec {s : ObjState K} (h : Coherent s) :
    .mat (readMaturity s).1 = fresh s.tri .maturity ∧ (readMaturity s).2.tri = s.tri ∧
      Coherent (readMaturity s).2 := by
  unfold readMaturity
  cases hc : s.maturity with
  | some v => exact ⟨(h.maturity v hc).symm, rfl, h⟩
  | none =>
    obtain ⟨h1, h2, h3, h4⟩ := readTriind_spec h
    have hm : fresh s.tri .maturity = .mat (maturityFrom s.tri (readTriind s).1) := by
      rw [h1, maturityFrom_fresh]; rfl
    cases hr : maturityFrom s.tri (readTriind s).1 with
    | error e =>
      simp only
      exact ⟨by rw [hm, hr], h2, h3⟩
    | ok v =>
      simp only
      refine ⟨by rw [hm, hr], h2, { h3 with maturity := ?_ }⟩
      intro w hw
      simp only [Option.some.injEq] at hw
      subst hw
      simp only [h2]
      rw [hm, hr]

theorem readAttr_spec {s : ObjState K} (h : Coherent s) (a : Attr) :
    (readAttr s a).1 = fresh s.tri a ∧ (readAttr s a).2.tri = s.tri ∧
      Coherent (readAttr s a).2 := by
  cases a with
  | nbrCells =>
    obtain ⟨h1, h2, h3⟩ := readNbr_spec h; exact ⟨congrArg AttrVal.count h1, h2, h3⟩
  | triind =>
    obtain ⟨h1, h2, h3, _⟩ := readTriind_spec h; exact ⟨congrArg AttrVal.ind h1, h2, h3⟩
  | rlvi =>
    obtain ⟨h1, h2, h3⟩ := readRlvi_spec h; exact ⟨congrArg AttrVal.offs h1, h2, h3⟩
  | clvi =>
    obtain ⟨h1, h2, h3, _⟩ := readClvi_spec h; exact ⟨congrArg AttrVal.offs h1, h2, h3⟩
  | latest =>
    obtain ⟨h1, h2, h3⟩ := readLatest_spec h; exact ⟨congrArg AttrVal.recs h1, h2, h3⟩
  | latestByOrigin =>
    obtain ⟨h1, h2, h3⟩ := readByOrigin_spec h; exact ⟨congrArg AttrVal.ser h1, h2, h3⟩
  | latestByDevp =>
    obtain ⟨h1, h2, h3⟩ := readByDevp_spec h; exact ⟨congrArg AttrVal.ser h1, h2, h3⟩
  | devp =>
    obtain ⟨h1, h2, h3⟩ := readDevp_spec h; exact ⟨congrArg AttrVal.labs h1, h2, h3⟩
  | origins =>
    obtain ⟨h1, h2, h3⟩ := readOrigins_spec h; exact ⟨congrArg AttrVal.labs h1, h2, h3⟩
  | maturity => exact readMaturity_spec h
  | a2a =>
    obtain ⟨h1, h2, h3⟩ := readA2a_spec h; exact ⟨congrArg frameVal h1, h2, h3⟩
  | a2aind =>
    obtain ⟨h1, h2, h3⟩ := readA2aind_spec h; exact ⟨congrArg frameVal h1, h2, h3⟩

theorem readAll_spec {s : ObjState K} (h : Coherent s) (l : List Attr) :
    (readAll s l).1 = l.map (fresh s.tri) ∧ Coherent (readAll s l).2 := by
  induction l generalizing s with
  | nil => exact ⟨rfl, h⟩
  | cons a l ih =>
    obtain ⟨h1, h2, h3⟩ := readAttr_spec h a
    obtain ⟨h4, h5⟩ := ih h3
    unfold readAll
    refine ⟨?_, h5⟩
    simp only [List.map_cons]
    rw [h1, h4, h2]

end

end Trikit
