import Verif.Props.WindowExpected
import Verif.Props.MissingFactor

/-!
# C230: the medial average of the last three years after development as expected

`base_cl` (base.py:25-170) with `medial-3` of `a2a_avgs` (triangle.py:777-856; `_medial`, triangle.py:523-574, drops every
ratio equal to the smallest or largest one) at two evaluations, the second one period later, every origin having developed
with the factors of the first.
-/

set_option linter.unusedSectionVars false

namespace Trikit

section
variable {t t' : Tri ℝ} {n : ℕ} {c c' : ℕ → ℕ → ℝ} {f : ℕ → ℝ} {tail : ℝ}

/-- Factors in the result of `base_cl` are the entries of the table of averages, numbers or not. -/
theorem baseCL_iloc (h : Spec.Stair t n c) (hp : Spec.Positive n c) (hn : 3 ≤ n) (kind : AvgKind) {k : ℕ} (hk : k < n - 1)
    {tail : Num ℝ} {r : BaseResult ℝ} (hr : baseCL gmean t t.a2aind0 (Spec.avgName kind.name k) tail = .ok r) {j : ℕ}
    (hj : j < n - 1) : avgEntry gmean t t.a2aind0 kind k j = .ok (r.ldfs.iloc j) := by
  have hi := h.indOn0 hp.ne_zero
  obtain ⟨tab, htab⟩ := a2aAvgs_noexcl_ok gmean h hp
  have hd : k = 0 ∨ k < t.a2a.nr := Or.inr (by rw [h.a2a_nr hp.ne_zero]; exact hk)
  obtain ⟨_, vals, l1, m1⟩ := a2aAvgs_lookup htab (k := kind) (d := k) hd
  have l0 := l1
  rw [avgName_eq] at l1
  rw [adj_nc h hp.ne_zero hi] at m1
  obtain ⟨hlen, lab, _, _, hl⟩ := ldfsByName_spec h.devs hi.origins hi.devs
    (by rw [h.a2a_nc hp.ne_zero]; omega) ⟨tab, htab, l1⟩ tail
  have hlr : r.ldfs = (t.a2a.devs ++ [lab]).zip (vals ++ [tail]) := by
    unfold baseCL at hr
    rw [hl] at hr
    have hr' : baseFromLdfs t ((t.a2a.devs ++ [lab]).zip (vals ++ [tail])) = .ok r := hr
    exact baseFromLdfs_ldfs hr'
  obtain ⟨v, hv1⟩ := a2aAvgs_ok_entry htab kind (d := k) hd (j := j) (by rw [adj_nc h hp.ne_zero hi]; exact hj)
  have hent := entry_of_ok htab kind (d := k) hd (j := j) (by rw [adj_nc h hp.ne_zero hi]; exact hj) hv1
  unfold Spec.entry at hent
  rw [avgName_eq, l1, Option.bind_some] at hent
  have hlt : j < vals.length := (List.getElem?_eq_some_iff.1 hent).1
  rw [hv1]
  unfold Ser.iloc
  rw [hlr, List.map_snd_zip (by simp [hlen]), List.getD_eq_getElem?_getD, List.getElem?_append_left hlt, hent]
  rfl

theorem medial_three {a b d : ℝ} (h1 : a < b) (h2 : b < d) {l : List ℝ} (hl : l.Perm [a, b, d]) :
    medialAvg (l.map Num.fin) = .ok (.fin b) := by
  have hm : ∀ x, x ∈ l ↔ x = a ∨ x = b ∨ x = d := fun x => by rw [hl.mem_iff]; simp
  have hlen : l.length = 3 := hl.length_eq
  rw [medialAvg_spec (lo := a) (hi := d) ((hm a).2 (Or.inl rfl))
    (fun x hx => by rcases (hm x).1 hx with rfl | rfl | rfl <;> linarith) ((hm d).2 (Or.inr (Or.inr rfl)))
    (fun x hx => by rcases (hm x).1 hx with rfl | rfl | rfl <;> linarith), if_neg (h1.trans h2).ne, if_neg (by omega)]
  have hf : l.filter (fun x => decide (x ≠ a ∧ x ≠ d)) = [b] := by
    have := hl.filter (fun x => decide (x ≠ a ∧ x ≠ d))
    rw [show [a, b, d].filter (fun x => decide (x ≠ a ∧ x ≠ d)) = [b] by
      simp [h1.ne', h2.ne]] at this
    exact List.perm_singleton.1 this
  rw [hf, if_neg (List.cons_ne_nil _ _)]
  simp [Spec.mean]

theorem medial_two_values {a b : ℝ} (hab : a < b) {l : List ℝ} (hl : ∀ x, x ∈ l ↔ x = a ∨ x = b) (hlen : 3 ≤ l.length) :
    medialAvg (l.map Num.fin) = .ok .nan := by
  rw [medialAvg_spec (lo := a) (hi := b) ((hl a).2 (Or.inl rfl))
    (fun x hx => by rcases (hl x).1 hx with rfl | rfl <;> linarith) ((hl b).2 (Or.inr rfl))
    (fun x hx => by rcases (hl x).1 hx with rfl | rfl <;> linarith), if_neg hab.ne, if_neg (by omega), if_pos]
  rw [List.filter_eq_nil_iff]
  intro x hx
  rcases (hl x).1 hx with rfl | rfl <;> simp

/-- Of three different ratios the medial average is the middle one; when `a` leaves and the average itself joins, the next
average is missing unless `a` was the middle one. -/
theorem medial_three_next {a b d m : ℝ} (h1 : a ≠ b) (h2 : a ≠ d) (h3 : b ≠ d)
    (hm : medialAvg ([a, b, d].map Num.fin) = .ok (.fin m)) :
    (a = m → medialAvg ([b, d, m].map Num.fin) = .ok (.fin m)) ∧
      (a ≠ m → medialAvg ([b, d, m].map Num.fin) = .ok .nan) := by
  have mid : ∀ x y z : ℝ, x < y → y < z → [a, b, d].Perm [x, y, z] → m = y := fun x y z hxy hyz hpm =>
    Num.fin.inj (Except.ok.inj (hm.symm.trans (medial_three hxy hyz hpm)))
  have two : (m = b ∨ m = d) → medialAvg ([b, d, m].map Num.fin) = .ok .nan := fun hmm => by
    rcases lt_or_gt_of_ne h3 with hlt | hlt
    · refine medial_two_values hlt (fun x => ?_) (by simp)
      rcases hmm with rfl | rfl <;> simp <;> tauto
    · refine medial_two_values hlt (fun x => ?_) (by simp)
      rcases hmm with rfl | rfl <;> simp <;> tauto
  rcases lt_or_gt_of_ne h1 with ab | ab <;> rcases lt_or_gt_of_ne h2 with ad | ad <;> rcases lt_or_gt_of_ne h3 with bd | bd
  · obtain rfl := mid a b d ab bd (List.Perm.refl _)
    exact ⟨fun e => absurd e ab.ne, fun _ => two (Or.inl rfl)⟩
  · obtain rfl := mid a d b ad bd (List.Perm.cons _ (List.Perm.swap _ _ _))
    exact ⟨fun e => absurd e ad.ne, fun _ => two (Or.inr rfl)⟩
  · exact absurd (ab.trans (bd.trans ad)) (lt_irrefl _)
  · obtain rfl := mid d a b ad ab (by
      exact (List.perm_append_comm (l₁ := [a, b]) (l₂ := [d])))
    refine ⟨fun _ => medial_three ad ab ?_, fun e => absurd rfl e⟩
    exact (List.Perm.swap _ _ _).trans (List.Perm.cons _ (List.Perm.swap _ _ _))
  · obtain rfl := mid b a d ab ad (List.Perm.swap _ _ _)
    refine ⟨fun _ => medial_three ab ad ?_, fun e => absurd rfl e⟩
    exact List.Perm.cons _ (List.Perm.swap _ _ _)
  · exact absurd (ab.trans (ad.trans bd)) (lt_irrefl _)
  · obtain rfl := mid b d a bd ad (by
      exact (List.perm_append_comm (l₁ := [a]) (l₂ := [b, d])))
    exact ⟨fun e => absurd e ad.ne', fun _ => two (Or.inr rfl)⟩
  · obtain rfl := mid d b a bd ab (by
      exact (List.Perm.swap _ _ _).trans ((List.Perm.cons _ (List.Perm.swap _ _ _)).trans (List.Perm.swap _ _ _)))
    exact ⟨fun e => absurd e ab.ne', fun _ => two (Or.inl rfl)⟩

/-- Link ratio of origin `i` from period `j` to the next. -/
noncomputable def Spec.stepRatio (c : ℕ → ℕ → ℝ) (i j : ℕ) : ℝ := c i (j + 1) / c i j

/-- **C230.** For every positive staircase of at least five origins, `base_cl` with `medial-3`, every positive tail: let every
origin develop with the factors of the last estimate, and let the last three link ratios of period `j` differ.  Then at the
next evaluation the factor of the period is unchanged when the ratio that leaves was the middle one, and missing otherwise;
ultimate and reserve of every origin that has yet to pass the period are then missing. -/
theorem C230_medial (h : Spec.Stair t n c) (hp : Spec.Positive n c) (h' : Spec.Stair t' (n + 1) c') (hn : 5 ≤ n)
    (htail : 0 < tail) {r r' : BaseResult ℝ} (hr : baseCL gmean t t.a2aind0 "medial-3" (.fin tail) = .ok r)
    (hf : r.ldfs.map Prod.snd = (List.range n).map (fun j => .fin (f j))) (he : Spec.AsExpected n c c' f tail)
    (hr' : baseCL gmean t' t'.a2aind0 "medial-3" 1 = .ok r') {m j : ℕ} (hm : m + 3 + j + 1 = n)
    (h01 : Spec.stepRatio c m j ≠ Spec.stepRatio c (m + 1) j) (h02 : Spec.stepRatio c m j ≠ Spec.stepRatio c (m + 2) j)
    (h12 : Spec.stepRatio c (m + 1) j ≠ Spec.stepRatio c (m + 2) j) :
    (Spec.stepRatio c m j = f j → r'.ldfs.iloc j = .fin (f j)) ∧
      (Spec.stepRatio c m j ≠ f j → r'.ldfs.iloc j = .nan ∧
        ∀ i, n - j ≤ i → i ≤ n → ∃ row, r'.rows[i]? = some row ∧ row.ultimate = .nan ∧ row.reserve = .nan) := by
  have hname : Spec.avgName AvgKind.medial.name 3 = "medial-3" := by decide +kernel
  rw [← hname] at hr hr'
  obtain ⟨e1, e2, _⟩ := baseCL_entries h hp (h.indOn0 hp.ne_zero) (by omega) .medial (by omega) hr hf
  have hp' := he.pos (by omega) hp (fun j hj => entry_pos h hp .medial hj (e2 j hj)) htail
  have hj : j < n - 1 := by omega
  have e := e2 j hj
  have e' := baseCL_iloc h' hp' (by omega) .medial (by omega) hr' (show j < n + 1 - 1 by omega)
  rw [entry_medial h hp.ne_zero (h.indOn0 hp.ne_zero) hj, window_noexcl hp] at e
  rw [entry_medial h' hp'.ne_zero (h'.indOn0 hp'.ne_zero) (by omega), window_noexcl hp', ratios_next hp he hj] at e'
  have hw : ∃ p : List ℝ, p.length = m ∧ Spec.ratios n c j =
      p ++ [Spec.stepRatio c m j, Spec.stepRatio c (m + 1) j, Spec.stepRatio c (m + 2) j] := by
    refine ⟨(List.range m).map (fun i => c i (j + 1) / c i j), by simp, ?_⟩
    unfold Spec.ratios
    rw [show n - 1 - j = m + 1 + 1 + 1 by omega, List.range_succ, List.range_succ, List.range_succ]
    simp [Spec.stepRatio]
  obtain ⟨p, hpl, hw⟩ := hw
  rw [hw] at e e'
  have w1 : ∀ x y z : ℝ, Spec.lastN 3 (p ++ [x, y, z]) = [x, y, z] := fun x y z => by
    unfold Spec.lastN
    rw [if_neg (by omega), List.length_append, List.drop_append_of_le_length (by simp)]
    simp
  have w2 : ∀ x y z w : ℝ, Spec.lastN 3 (p ++ [x, y, z] ++ [w]) = [y, z, w] := fun x y z w => by
    unfold Spec.lastN
    rw [if_neg (by omega), show p ++ [x, y, z] ++ [w] = (p ++ [x]) ++ [y, z, w] by simp, List.length_append,
      List.drop_append_of_le_length (by simp)]
    simp
  rw [w1] at e
  rw [w2] at e'
  obtain ⟨k1, k2⟩ := medial_three_next h01 h02 h12 e
  refine ⟨fun hq => ?_, fun hq => ?_⟩
  · rw [k1 hq] at e'
    exact (Except.ok.inj e').symm
  · rw [k2 hq] at e'
    have hnan := (Except.ok.inj e').symm
    refine ⟨hnan, fun i hi1 hi2 => ?_⟩
    obtain ⟨_, h2, _⟩ := run_core h' (by omega) (Or.inl ⟨_, _, _, _, hr'⟩)
    obtain ⟨row, x1, _, x2, x3⟩ := h2 i (by omega)
    have hcum := cumAt_waits (n := n + 1) (F := r'.ldfs.iloc) (i := i) ⟨j, by omega, by omega, hnan⟩
    rw [hcum] at x2 x3
    exact ⟨row, x1, by rw [x2]; rfl, by rw [x3]; rfl⟩

end

/-- Five origins; the ratios of the first period are 1, 2, 3, 1.  The sixth diagonal is what `medial-3` expects. -/
def exMedial (i j : ℕ) : ℚ :=
  if j = 0 then 100 else if i = 0 ∨ i = 3 then 100 else if i = 1 then 200 else if i = 2 then 300 else if i = 4 then 200 else 100

/-- A concrete case: the factor 2 of the first period stays, as the ratio 2 leaves; two periods later, again as expected, it
would be missing. -/
example : [stairTri 5 exMedial, stairTri 6 exMedial, stairTri 7 (fun i j => if i = 5 ∧ 1 ≤ j then 200 else exMedial i j)].map (fun t =>
    ((baseCL (fun _ => .nan) t t.a2aind0 "medial-3" 1).toOption.map (fun r => r.ldfs.iloc 0))) =
    [some (.fin 2), some (.fin 2), some .nan] := by decide +kernel

end Trikit
