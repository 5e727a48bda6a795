import Verif.Props.Averages
import Verif.Props.Windows

/-! # Averages after a history of exclusions (C26) -/

set_option linter.unusedSectionVars false

namespace Trikit

variable {K : Type} [Field K] [LinearOrder K] [IsStrictOrderedRing K]

/-- Link ratios of period `j` of the last `k` origins (all for 0) that the history has not excluded. -/
def Spec.keptRatios (t : Tri K) (n : ℕ) (c : ℕ → ℕ → K) (l : List (Assign K)) (k j : ℕ) : List K :=
  ((Spec.lastN k (List.range (n - 1 - j))).filter
    (fun i => decide (Spec.lastAssigned l (t.oAt i) (t.dAt j) ≠ some (.fin 0)))).map (fun i => c i (j + 1) / c i j)

theorem kept_window {t : Tri K} {n : ℕ} {c w : ℕ → ℕ → K} (hp : Spec.Positive n c) (l : List (Assign K))
    (hbin : ∀ a ∈ l, a.value = .fin 0 ∨ a.value = .fin 1)
    (hw : ∀ i j, i + j + 1 < n → .fin (w i j) = (Spec.lastAssigned l (t.oAt i) (t.dAt j)).getD (.fin 1)) (k : ℕ) {j : ℕ}
    (hj : j < n - 1) :
    (Spec.lastN k (adjRatios n c w j)).filter (fun x => decide (0 < x)) = Spec.keptRatios t n c l k j := by
  unfold adjRatios Spec.keptRatios
  rw [lastN_map, List.filter_map]
  have hlast : ∀ o d, Spec.lastAssigned l o d = none ∨ Spec.lastAssigned l o d = some (.fin 0) ∨
      Spec.lastAssigned l o d = some (.fin 1) := by
    intro o d
    unfold Spec.lastAssigned
    cases e : l.reverse.find? (fun a => a.origin == o && a.dev == d) with
    | none => left; rfl
    | some a =>
      right
      rcases hbin a (List.mem_reverse.1 (List.mem_of_find?_eq_some e)) with h | h
      · left; simp [h]
      · right; simp [h]
  have hlt : ∀ i ∈ Spec.lastN k (List.range (n - 1 - j)), i + j + 1 < n := fun i hi => by
    have := List.mem_range.1 (lastN_subset _ _ i hi); omega
  have hpos : ∀ i, i + j + 1 < n → 0 < c i (j + 1) / c i j := fun i hi =>
    div_pos (hp _ _ (by omega)) (hp _ _ (by omega))
  have hfil : (Spec.lastN k (List.range (n - 1 - j))).filter
      ((fun x => decide (0 < x)) ∘ fun i => c i (j + 1) / c i j * w i j) =
      (Spec.lastN k (List.range (n - 1 - j))).filter
        (fun i => decide (Spec.lastAssigned l (t.oAt i) (t.dAt j) ≠ some (.fin 0))) := by
    apply List.filter_congr
    intro i hi
    have h1 := hlt i hi
    have h2 := hw i j h1
    simp only [Function.comp_apply, decide_eq_decide]
    rcases hlast (t.oAt i) (t.dAt j) with e | e | e
    · rw [e] at h2 ⊢
      have : w i j = 1 := Num.fin.inj h2
      simp [this, hpos i h1]
    · rw [e] at h2 ⊢
      have : w i j = 0 := Num.fin.inj h2
      simp [this]
    · rw [e] at h2 ⊢
      have : w i j = 1 := Num.fin.inj h2
      simp [this, hpos i h1]
  rw [hfil]
  apply List.map_congr_left
  intro i hi
  rw [List.mem_filter] at hi
  have h1 := hlt i hi.1
  have h2 := hw i j h1
  have h3 := hi.2
  simp only [ne_eq, decide_eq_true_eq] at h3
  rcases hlast (t.oAt i) (t.dAt j) with e | e | e
  · rw [e] at h2
    have : w i j = 1 := Num.fin.inj h2
    rw [this, mul_one]
  · exact absurd e h3
  · rw [e] at h2
    have : w i j = 1 := Num.fin.inj h2
    rw [this, mul_one]

theorem kept_ne_nil {t : Tri K} {n : ℕ} (c : ℕ → ℕ → K) (l : List (Assign K)) (k : ℕ) {j : ℕ} (hj : j < n - 1)
    (hlast : Spec.lastAssigned l (t.oAt (n - 2 - j)) (t.dAt j) ≠ some (.fin 0)) : Spec.keptRatios t n c l k j ≠ [] := by
  have hmem : n - 2 - j ∈ Spec.lastN k (List.range (n - 1 - j)) := by
    have e : List.range (n - 1 - j) = List.range (n - 2 - j) ++ [n - 2 - j] := by
      rw [show n - 1 - j = n - 2 - j + 1 by omega, List.range_succ]
    unfold Spec.lastN
    split
    · rw [List.mem_range]; omega
    · rename_i hk
      rw [e, List.drop_append_of_le_length (by simp; omega)]
      simp
  intro e
  unfold Spec.keptRatios at e
  rw [List.map_eq_nil_iff, List.filter_eq_nil_iff] at e
  exact e _ hmem (by simpa using hlast)

/-- **C26, part that holds, as a history.** On a positive staircase, after reading the indicator and any history of
assignments of 0 and 1 to existing labels that keeps the most recent link ratio of every period, `a2a_avgs()` returns and
leaves the object as it is; simple averages are the means and geometric averages the geometric means of the link
ratios that are in the window and not excluded.  Missing: weighted averages, which ignore exclusions (last line), and
histories that exclude a most recent link ratio (`C27_exclusion_fails`). -/
theorem C26_history_partial (gm : List (Num K) → Num K) {t : Tri K} {n : ℕ} {c : ℕ → ℕ → K} (h : Spec.Stair t n c)
    (hp : Spec.Positive n c) (l : List (Assign K)) (hl : ∀ a ∈ l, a.origin ∈ t.a2a.origins ∧ a.dev ∈ t.a2a.devs)
    (hbin : ∀ a ∈ l, a.value = .fin 0 ∨ a.value = .fin 1)
    (hlast : ∀ j < n - 1, Spec.lastAssigned l (t.oAt (n - 2 - j)) (t.dAt j) ≠ some (.fin 0)) :
    ∃ s tab, IndState.assignAll (IndState.read { tri := t }).1 l = .ok s ∧ s.avgs gm = (s, .ok tab) ∧
      ∀ k < n - 1, ∀ j < n - 1,
        Spec.keptRatios t n c l k j ≠ [] ∧
        Spec.entry tab (Spec.avgName "simple" k) j = some (.fin (Spec.mean (Spec.keptRatios t n c l k j))) ∧
        Spec.entry tab (Spec.avgName "geometric" k) j = some (gm ((Spec.keptRatios t n c l k j).map .fin)) ∧
        Spec.entry tab (Spec.avgName "weighted" k) j = some (.fin (Spec.wavg n k c j)) := by
  have hc := hp.ne_zero
  obtain ⟨s, w, h1, h2, h3, h4⟩ := indOn_of_history h hc l hl
    (fun a ha => by rcases hbin a ha with e | e <;> exact ⟨_, e⟩)
  have hs : s.read.1 = s := by
    obtain ⟨s', a1, _, a3, _⟩ := C23_a2aind_partial t l hl
    rw [h1] at a1
    have e := Except.ok.inj a1
    rw [e]; exact a3
  have hwin := fun k j (hj : j < n - 1) => kept_window (t := t) hp l hbin h4 k hj
  have hne := fun k j (hj : j < n - 1) => kept_ne_nil (t := t) c l k hj (hlast j hj)
  have hw01 : ∀ i j, i + j + 1 < n → w i j = 0 ∨ w i j = 1 := by
    intro i j hij
    have e := h4 i j hij
    unfold Spec.lastAssigned at e
    cases e2 : l.reverse.find? (fun a => a.origin == t.oAt i && a.dev == t.dAt j) with
    | none => rw [e2] at e; exact Or.inr (Num.fin.inj e)
    | some a =>
      rw [e2] at e
      rcases hbin a (List.mem_reverse.1 (List.mem_of_find?_eq_some e2)) with h | h
      · left; simp only [Option.map_some, Option.getD_some, h] at e; exact Num.fin.inj e
      · right; simp only [Option.map_some, Option.getD_some, h] at e; exact Num.fin.inj e
  have hkeep : ∀ j < n - 1, w (n - 2 - j) j = 1 := by
    intro j hj
    rcases hw01 (n - 2 - j) j (by omega) with e | e
    · exfalso
      have e1 := h4 (n - 2 - j) j (by omega)
      rw [e] at e1
      cases e2 : Spec.lastAssigned l (t.oAt (n - 2 - j)) (t.dAt j) with
      | none => rw [e2] at e1; exact zero_ne_one (Num.fin.inj e1)
      | some v => rw [e2] at e1; exact hlast j hj (by rw [e2, e1]; rfl)
    · exact e
  obtain ⟨tab, htab⟩ := (C27_exclusion_partial gm h hp h3 hw01).1 hkeep
  refine ⟨s, tab, h1, ?_, ?_⟩
  · unfold IndState.avgs
    rw [hs, h2, htab]
  · intro k hk j hj
    have hj' : j < (Tri.alignOp (· * ·) t.a2a s.read.2).nc := by rw [adj_nc h hc h3]; exact hj
    have hk' : k = 0 ∨ k < t.a2a.nr := Or.inr (by rw [h.a2a_nr hc]; exact hk)
    refine ⟨hne k j hj, ?_, ?_, ?_⟩
    · apply entry_of_ok htab .simple hk' hj'
      rw [entry_simple h hc h3 hj, hwin k j hj, simpleAvg_fin (hne k j hj)]
    · apply entry_of_ok htab .geometric hk' hj'
      rw [entry_geometric h hc h3 hj, hwin k j hj]
      unfold geometricAvg
      rw [if_neg (by simpa using hne k j hj)]
    · apply entry_of_ok htab .weighted hk' hj'
      exact entry_wavg (gm := gm) h hp k hj

example : (IndState.assignAll (IndState.read { tri := exTri }).1 [⟨2001, 1, .fin 0⟩, ⟨2002, 2, .fin 0⟩,
      ⟨2002, 2, .fin 1⟩]).bind (fun s => (s.avgs (fun _ => .nan)).2.map (fun tab =>
        [Spec.entry tab "all-simple" 0, Spec.entry tab "all-simple" 1])) =
    .ok [some (.fin (3 / 2)), some (.fin (49 / 40))] := by
  decide +kernel

end Trikit
