import Verif.Props.MedialUpdate

/-!
# C240: how far one exclusion moves a medial average

`a2a_avgs` with `_medial` (triangle.py:523-574 and 777-856) before and after one more assignment of 0 to `a2aind` (triangle.py:592-697).
-/

set_option linter.unusedSectionVars false

namespace Trikit

section
variable {K : Type} [Field K] [LinearOrder K] [IsStrictOrderedRing K] {t : Tri K} {n : ℕ} {c : ℕ → ℕ → K}

/-- **C240.** Any positive staircase, any history of assignments of 0 and 1 to the indicator, any window `k` (0: all years), and one more
link ratio `x` of period `j` excluded, one that is kept so far and lies in the window, when the `m ≥ 4` kept ratios of the window
differ.  The medial average moves away from `x`, cut off at the smallest and the largest of those that stay, by one over
`m - 3` of the distance; so an outlier counts no more than its neighbour. -/
theorem C240_medial (gm : List (Num K) → Num K) (h : Spec.Stair t n c) (hp : Spec.Positive n c) {l : List (Assign K)}
    (hl : Spec.ZeroOneHistory t n l) {i j : ℕ} (hij : i + j + 2 < n)
    (hkept : Spec.lastAssigned l (t.oAt i) (t.dAt j) ≠ some (.fin 0)) {k : ℕ} (hk : k < n - 1) (hu : Spec.InWindow n k i j)
    (hdiff : (Spec.keptRatios t n c l k j).Nodup) (h4 : 4 ≤ (Spec.keptRatios t n c l k j).length) :
    ∃ (s s' : IndState K) (tab tab' : AvgTable K) (f f' lo hi : K),
      IndState.assignAll (IndState.read { tri := t }).1 l = .ok s ∧
      IndState.assignAll (IndState.read { tri := t }).1 (l ++ [⟨t.oAt i, t.dAt j, .fin 0⟩]) = .ok s' ∧
      s.avgs gm = (s, .ok tab) ∧ s'.avgs gm = (s', .ok tab') ∧
      Spec.entry tab (Spec.avgName "medial" k) j = some (.fin f) ∧ Spec.entry tab' (Spec.avgName "medial" k) j = some (.fin f') ∧
      Ends ((Spec.keptRatios t n c l k j).erase (c i (j + 1) / c i j)) lo hi ∧
      f' = f - (max lo (min hi (c i (j + 1) / c i j)) - f) / (((Spec.keptRatios t n c l k j).length : K) - 3) := by
  have hl' := ZeroOneHistory.append h hp hl hij
  obtain ⟨s, tab, a1, a2, a3⟩ := C26_history_partial gm h hp l hl.labels hl.binary hl.recent
  obtain ⟨s', tab', b1, b2, b3⟩ := C26_history_partial gm h hp _ hl'.labels hl'.binary hl'.recent
  have hmem := mem_keptIdx (t := t) (n := n) (l := l) (k := k) (i := i) (j := j) (by omega) hkept
  set x := c i (j + 1) / c i j with hx
  set L := Spec.keptRatios t n c l k j with hL
  have hin : Spec.keptRatios t n c (l ++ [⟨t.oAt i, t.dAt j, .fin 0⟩]) k j = L.erase x := by
    rw [hdiff.erase_eq_filter, hL, keptRatios_eq, keptIdx_append h l (by omega) k (by omega), if_pos rfl, keptRatios_eq,
      List.filter_map]
    congr 1
    refine List.filter_congr fun p hp1 => ?_
    have hdj := hdiff
    rw [hL, keptRatios_eq] at hdj
    rw [Bool.eq_iff_iff]
    simp only [decide_eq_true_eq, Function.comp, bne_iff_ne]
    exact not_congr ⟨fun e => by rw [e], fun e => List.inj_on_of_nodup_map hdj hp1 (hmem.2 hu) e⟩
  have hxL : x ∈ L := by rw [hL, keptRatios_eq]; exact List.mem_map.2 ⟨i, hmem.2 hu, rfl⟩
  have hd' := hdiff.erase x
  have hlen := erase_len hxL
  have hne : L.erase x ≠ [] := fun e => by rw [e] at hlen; simp at hlen; omega
  obtain ⟨lo, hi, g⟩ := exists_ends hne
  have e1 := medial_history gm h hp hl hk a1 a2 (j := j) (by omega) (List.ne_nil_of_mem hxL) hdiff
  have e2 := medial_history gm h hp hl' hk b1 b2 (j := j) (by omega) (by rw [hin]; exact hne) (by rw [hin]; exact hd')
  rw [hin] at e2
  have hm := medial_add hd' (by omega) (fun hh => (hdiff.mem_erase_iff.1 hh).1 rfl) g (List.perm_cons_erase hxL)
  have hlK : ((L.erase x).length : K) = (L.length : K) - 1 := by rw [← hlen]; push_cast; ring
  have h4K : (4 : K) ≤ L.length := by exact_mod_cast h4
  refine ⟨s, s', tab, tab', _, _, lo, hi, a1, b1, a2, b2, e1, e2, g, ?_⟩
  rw [hlK] at hm
  have d1 : (L.length : K) - 1 - 1 ≠ 0 := by linarith
  have d3 : (L.length : K) - 3 ≠ 0 := by linarith
  rw [eq_div_iff d1] at hm
  field_simp
  linarith

end

/-- A concrete case: of 7, 4, 1, 2, 3 without the 7, which counts like the 4, the average falls from 3 by half of the way to 4. -/
example : [[], [(⟨2001, 1, .fin 0⟩ : Assign ℚ)]].map (fun l =>
    (IndState.assignAll (IndState.read { tri := stairTri 6 exMedialJump }).1 l).toOption.bind (fun s =>
      (s.avgs (fun _ => .nan)).2.toOption.bind (fun tab => Spec.entry tab "all-medial" 0))) =
    [some (.fin 3), some (.fin (3 - (4 - 3) / 2))] := by decide +kernel

end Trikit
