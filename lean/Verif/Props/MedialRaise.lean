import Verif.Props.Windows

/-!
# C139 for medial averages

`C139_medial_fails` shows that a raised latest value can lower an ultimate when `_medial` (triangle.py:523-574) is
used.  Here: it cannot, as long as the link ratio that is raised ties neither before nor after with the smallest or
the largest of the other ratios of its window.
-/

set_option linter.unusedSectionVars false

namespace Trikit

section
variable {K : Type} [Field K] [LinearOrder K] [IsStrictOrderedRing K]

/-- The raised link ratio is `x` before and `x'` after, `o` are the other ratios of the window.  Either there is at
most one other ratio; or the ratio keeps its value and the window has a medial average (all ratios are equal or one lies
strictly between two others); or the other ratios are not all equal and neither `x` nor `x'` ties with the smallest
or the largest of them. -/
def Spec.NoTie (o : List K) (x x' : K) : Prop :=
  o.length ≤ 1 ∨
  (x = x' ∧ ((∀ y ∈ o, y = x) ∨ ∃ a ∈ o ++ [x], ∃ m ∈ o ++ [x], ∃ b ∈ o ++ [x], a < m ∧ m < b)) ∨
  ∃ lo ∈ o, ∃ hi ∈ o, lo < hi ∧ (∀ y ∈ o, lo ≤ y ∧ y ≤ hi) ∧ x ≠ lo ∧ x ≠ hi ∧ x' ≠ lo ∧ x' ≠ hi

theorem drop_hi {lo hi : K} (hne : lo ≠ hi) (l : List K) :
    (l.filter (fun y => y ≠ hi)).sum = (l.filter (fun y => y ≠ lo ∧ y ≠ hi)).sum + l.count lo * lo ∧
      (l.filter (fun y => y ≠ hi)).length = (l.filter (fun y => y ≠ lo ∧ y ≠ hi)).length + l.count lo := by
  induction l with
  | nil => simp
  | cons a l ih =>
    obtain ⟨h1, h2⟩ := ih
    by_cases ha : a = lo
    · subst ha
      simp only [List.filter_cons, ne_eq, hne, not_false_eq_true, decide_true, if_true, not_true_eq_false,
        false_and, decide_false, List.sum_cons, List.length_cons, List.count_cons_self]
      simp only [ne_eq, Bool.false_eq_true, if_false] at h1 h2 ⊢
      rw [h1, h2]
      push_cast
      exact ⟨by ring, by omega⟩
    · by_cases hb : a = hi
      · subst hb
        simp [List.count_cons_of_ne ha]
        simp at h1 h2
        exact ⟨h1, h2⟩
      · simp [List.count_cons_of_ne ha, ha, hb]
        simp at h1 h2
        rw [h1, h2]
        exact ⟨by ring, by omega⟩

theorem drop_lo {lo hi : K} (hne : lo ≠ hi) (l : List K) :
    (l.filter (fun y => y ≠ lo)).sum = (l.filter (fun y => y ≠ lo ∧ y ≠ hi)).sum + l.count hi * hi ∧
      (l.filter (fun y => y ≠ lo)).length = (l.filter (fun y => y ≠ lo ∧ y ≠ hi)).length + l.count hi := by
  have h := drop_hi (lo := hi) (hi := lo) hne.symm l
  have e : l.filter (fun y => decide (y ≠ hi ∧ y ≠ lo)) = l.filter (fun y => decide (y ≠ lo ∧ y ≠ hi)) := by
    apply List.filter_congr
    intro x _
    simp [and_comm]
  rw [e] at h
  exact h

theorem sum_ge {l : List K} {lo : K} (h : ∀ y ∈ l, lo ≤ y) : l.length * lo ≤ l.sum := by
  have := List.card_nsmul_le_sum l lo h
  rwa [nsmul_eq_mul] at this

theorem sum_le {l : List K} {hi : K} (h : ∀ y ∈ l, y ≤ hi) : l.sum ≤ l.length * hi := by
  have := List.sum_le_card_nsmul l hi h
  rwa [nsmul_eq_mul] at this

/-- Replacing the copies of the lowest value by one higher value. -/
theorem swap_lo {S lo x : K} {m p : ℕ} (hS : m * lo ≤ S) (hx : lo ≤ x) (hp : 1 ≤ p) :
    (S + p * lo) / ((m + p : ℕ) : K) ≤ (S + x) / ((m + 1 : ℕ) : K) := by
  have hp' : (1 : K) ≤ p := by exact_mod_cast hp
  have hm : (0 : K) ≤ m := Nat.cast_nonneg m
  rw [div_le_div_iff₀ (by exact_mod_cast (by omega)) (by exact_mod_cast (by omega))]
  push_cast
  nlinarith [mul_le_mul_of_nonneg_left hS (sub_nonneg.2 hp'),
    mul_le_mul_of_nonneg_left hx (add_nonneg hm (zero_le_one.trans hp'))]

/-- Replacing one value by the copies of the highest value. -/
theorem swap_hi {S hi x : K} {m q : ℕ} (hS : S ≤ m * hi) (hx : x ≤ hi) (hq : 1 ≤ q) :
    (S + x) / ((m + 1 : ℕ) : K) ≤ (S + q * hi) / ((m + q : ℕ) : K) := by
  have hq' : (1 : K) ≤ q := by exact_mod_cast hq
  have hm : (0 : K) ≤ m := Nat.cast_nonneg m
  rw [div_le_div_iff₀ (by exact_mod_cast (by omega)) (by exact_mod_cast (by omega))]
  push_cast
  nlinarith [mul_le_mul_of_nonneg_left hS (sub_nonneg.2 hq'),
    mul_le_mul_of_nonneg_left hx (add_nonneg hm (zero_le_one.trans hq'))]

/-- The medial average when the last ratio ties neither with the smallest nor with the largest of the others. -/
def medialOf (o : List K) (lo hi x : K) : K :=
  if x < lo then Spec.mean (o.filter (fun y => y ≠ hi))
  else if x < hi then ((o.filter (fun y => y ≠ lo ∧ y ≠ hi)).sum + x) /
    (((o.filter (fun y => y ≠ lo ∧ y ≠ hi)).length + 1 : ℕ) : K)
  else Spec.mean (o.filter (fun y => y ≠ lo))

variable {o : List K} {lo hi : K}

theorem medial_noTie (hlo : lo ∈ o) (hhi : hi ∈ o) (hlt : lo < hi) (hb : ∀ y ∈ o, lo ≤ y ∧ y ≤ hi) {x : K}
    (h1 : x ≠ lo) (h2 : x ≠ hi) : medialAvg ((o ++ [x]).map Num.fin) = .ok (.fin (medialOf o lo hi x)) := by
  have hlen : ¬ (o ++ [x]).length ≤ 2 := by
    intro hc
    rw [List.length_append, List.length_singleton] at hc
    match o, hlo, hhi, hc with
    | [a], hlo, hhi, _ =>
      simp at hlo hhi
      exact absurd (hlo.trans hhi.symm) hlt.ne
    | a :: b :: r, _, _, hc => simp at hc
  unfold medialOf
  by_cases ha : x < lo
  · have hx : ∀ y ∈ o, y ≠ x := fun y hy e => absurd (hb y hy).1 (by rw [e]; exact not_le.2 ha)
    have hf : (o ++ [x]).filter (fun y => decide (y ≠ x ∧ y ≠ hi)) = o.filter (fun y => decide (y ≠ hi)) := by
      rw [List.filter_append]
      have : [x].filter (fun y => decide (y ≠ x ∧ y ≠ hi)) = [] := by simp
      rw [this, List.append_nil]
      apply List.filter_congr
      intro y hy
      simp [hx y hy]
    rw [medialAvg_spec (lo := x) (hi := hi) (by simp)
      (by
        intro y hy
        rcases List.mem_append.1 hy with hy | hy
        · exact ha.le.trans (hb y hy).1
        · simp at hy; rw [hy])
      (by simp [hhi])
      (by
        intro y hy
        rcases List.mem_append.1 hy with hy | hy
        · exact (hb y hy).2
        · simp at hy; rw [hy]; exact (ha.trans hlt).le),
      if_neg h2, if_neg hlen, hf, if_neg, if_pos ha]
    intro e
    have : lo ∈ o.filter (fun y => decide (y ≠ hi)) := by simp [hlo, hlt.ne]
    rw [e] at this
    simp at this
  · rw [if_neg ha]
    have ha' : lo < x := lt_of_le_of_ne (not_lt.1 ha) h1.symm
    by_cases hb' : x < hi
    · rw [if_pos hb', medialAvg_spec (lo := lo) (hi := hi) (by simp [hlo])
        (by
          intro y hy
          rcases List.mem_append.1 hy with hy | hy
          · exact (hb y hy).1
          · simp at hy; rw [hy]; exact ha'.le)
        (by simp [hhi])
        (by
          intro y hy
          rcases List.mem_append.1 hy with hy | hy
          · exact (hb y hy).2
          · simp at hy; rw [hy]; exact hb'.le),
        if_neg hlt.ne, if_neg hlen, List.filter_append]
      have : [x].filter (fun y => decide (y ≠ lo ∧ y ≠ hi)) = [x] := by simp [h1, h2]
      rw [this, if_neg (by simp)]
      unfold Spec.mean
      rw [List.sum_append, List.length_append, List.sum_singleton, List.length_singleton]
    · rw [if_neg hb']
      have hgt : hi < x := lt_of_le_of_ne (not_lt.1 hb') h2.symm
      have hx : ∀ y ∈ o, y ≠ x := fun y hy e => absurd (hb y hy).2 (by rw [e]; exact not_le.2 hgt)
      have hf : (o ++ [x]).filter (fun y => decide (y ≠ lo ∧ y ≠ x)) = o.filter (fun y => decide (y ≠ lo)) := by
        rw [List.filter_append]
        have : [x].filter (fun y => decide (y ≠ lo ∧ y ≠ x)) = [] := by simp
        rw [this, List.append_nil]
        apply List.filter_congr
        intro y hy
        simp [hx y hy]
      rw [medialAvg_spec (lo := lo) (hi := x) (by simp [hlo])
        (by
          intro y hy
          rcases List.mem_append.1 hy with hy | hy
          · exact (hb y hy).1
          · simp at hy; rw [hy]; exact ha'.le)
        (by simp)
        (by
          intro y hy
          rcases List.mem_append.1 hy with hy | hy
          · exact (hb y hy).2.trans hgt.le
          · simp at hy; rw [hy]),
        if_neg h1.symm, if_neg hlen, hf, if_neg]
      intro e
      have : hi ∈ o.filter (fun y => decide (y ≠ lo)) := by simp [hhi, hlt.ne']
      rw [e] at this
      simp at this

theorem medialOf_mono (hlo : lo ∈ o) (hhi : hi ∈ o) (hlt : lo < hi) (hb : ∀ y ∈ o, lo ≤ y ∧ y ≤ hi) {x x' : K}
    (hle : x ≤ x') : medialOf o lo hi x ≤ medialOf o lo hi x' := by
  obtain ⟨a1, a2⟩ := drop_hi hlt.ne o
  obtain ⟨b1, b2⟩ := drop_lo hlt.ne o
  have hp : 1 ≤ o.count lo := List.one_le_count_iff.2 hlo
  have hq : 1 ≤ o.count hi := List.one_le_count_iff.2 hhi
  have hS1 : ((o.filter (fun y => y ≠ lo ∧ y ≠ hi)).length : K) * lo ≤
      (o.filter (fun y => y ≠ lo ∧ y ≠ hi)).sum := sum_ge fun y hy => (hb y (List.mem_of_mem_filter hy)).1
  have hS2 : (o.filter (fun y => y ≠ lo ∧ y ≠ hi)).sum ≤
      ((o.filter (fun y => y ≠ lo ∧ y ≠ hi)).length : K) * hi :=
    sum_le fun y hy => (hb y (List.mem_of_mem_filter hy)).2
  unfold medialOf Spec.mean
  rw [a1, a2, b1, b2]
  by_cases h1 : x < lo
  · rw [if_pos h1]
    by_cases h1' : x' < lo
    · rw [if_pos h1']
    · rw [if_neg h1']
      by_cases h2' : x' < hi
      · rw [if_pos h2']
        exact swap_lo hS1 (not_lt.1 h1') hp
      · rw [if_neg h2']
        exact (swap_lo hS1 le_rfl hp).trans (swap_hi hS2 hlt.le hq)
  · rw [if_neg h1, if_neg (not_lt.2 ((not_lt.1 h1).trans hle))]
    by_cases h2 : x < hi
    · rw [if_pos h2]
      by_cases h2' : x' < hi
      · rw [if_pos h2']
        exact div_le_div_of_nonneg_right (add_le_add le_rfl hle) (Nat.cast_nonneg _)
      · rw [if_neg h2']
        exact swap_hi hS2 h2.le hq
    · rw [if_neg h2, if_neg (not_lt.2 ((not_lt.1 h2).trans hle))]

theorem medial_finite {l : List K} (hp : ∀ y ∈ l, 0 < y) {a : K} (h : medialAvg (l.map Num.fin) = .ok (.fin a)) :
    0 < a := by
  have hne : l ≠ [] := by
    rintro rfl
    rw [List.map_nil, medialAvg_nil] at h
    cases h
  obtain ⟨lo, hi, h1, h2, h3, h4⟩ := exists_min_max hne
  have hmean : ∀ m : List K, m ≠ [] → (∀ y ∈ m, 0 < y) → 0 < Spec.mean m := fun m hm hy =>
    div_pos (List.sum_pos m hy hm) (by exact_mod_cast List.length_pos_iff.2 hm)
  rw [medialAvg_spec h1 h2 h3 h4] at h
  split_ifs at h with e1 e2 e3
  · cases h; exact hp _ h1
  · cases h; exact hmean l hne hp
  · cases h
  · cases h; exact hmean _ e3 fun y hy => hp y (List.mem_of_mem_filter hy)

theorem medial_two (y x : K) : medialAvg (([y] ++ [x]).map Num.fin) = .ok (.fin ((y + x) / 2)) := by
  have hm : Spec.mean [y, x] = (y + x) / 2 := by simp [Spec.mean]
  rcases lt_trichotomy y x with h | h | h
  · rw [medialAvg_spec (lo := y) (hi := x) (by simp) (by simpa using h.le) (by simp) (by simpa using h.le),
      if_neg h.ne, if_pos (by simp)]
    simp [hm]
  · subst h
    rw [medialAvg_spec (lo := y) (hi := y) (by simp) (by simp) (by simp) (by simp), if_pos rfl]
    simp
  · rw [medialAvg_spec (lo := x) (hi := y) (by simp) (by simpa using h.le) (by simp) (by simpa using h.le),
      if_neg h.ne, if_pos (by simp)]
    simp [hm]

theorem medial_one (x : K) : medialAvg (([] ++ [x]).map Num.fin) = .ok (.fin x) := by
  rw [medialAvg_spec (lo := x) (hi := x) (by simp) (by simp) (by simp) (by simp), if_pos rfl]

/-- One window before and after its last ratio is raised. -/
theorem medial_raise {x x' : K} (hle : x ≤ x') (ht : Spec.NoTie o x x') :
    ∃ a a', medialAvg ((o ++ [x]).map Num.fin) = .ok (.fin a) ∧
      medialAvg ((o ++ [x']).map Num.fin) = .ok (.fin a') ∧ a ≤ a' := by
  rcases ht with h1 | ⟨rfl, h2⟩ | ⟨lo, hlo, hi, hhi, hlt, hb, e1, e2, e3, e4⟩
  · match o, h1 with
    | [], _ => exact ⟨x, x', medial_one x, medial_one x', hle⟩
    | [y], _ => exact ⟨_, _, medial_two y x, medial_two y x', by linarith⟩
    | _ :: _ :: _, h1 => simp at h1
  · suffices h : ∃ a, medialAvg ((o ++ [x]).map Num.fin) = .ok (.fin a) by
      obtain ⟨a, ha⟩ := h
      exact ⟨a, a, ha, ha, le_rfl⟩
    obtain ⟨lo, hi, g1, g2, g3, g4⟩ := exists_min_max (l := o ++ [x]) (by simp)
    rw [medialAvg_spec g1 g2 g3 g4]
    rcases h2 with h2 | ⟨a, ha, m, hm, b, hb, hab, hmb⟩
    · have hall : ∀ y ∈ o ++ [x], y = x := by
        intro y hy
        rcases List.mem_append.1 hy with hy | hy
        · exact h2 y hy
        · simpa using hy
      exact ⟨lo, by rw [if_pos ((hall lo g1).trans (hall hi g3).symm)]⟩
    · have hne : (o ++ [x]).filter (fun y => decide (y ≠ lo ∧ y ≠ hi)) ≠ [] := by
        intro e
        have : m ∈ (o ++ [x]).filter (fun y => decide (y ≠ lo ∧ y ≠ hi)) := by
          rw [List.mem_filter]
          exact ⟨hm, by simpa using ⟨((g2 a ha).trans_lt hab).ne', (hmb.trans_le (g4 b hb)).ne⟩⟩
        rw [e] at this
        simp at this
      split_ifs
      · exact ⟨_, rfl⟩
      · exact ⟨_, rfl⟩
      · exact ⟨_, rfl⟩
  · exact ⟨_, _, medial_noTie hlo hhi hlt hb e1 e2, medial_noTie hlo hhi hlt hb e3 e4, medialOf_mono hlo hhi hlt hb hle⟩

variable {t t' : Tri K} {n : ℕ} {c c' : ℕ → ℕ → K}

/-- The link ratios of period `j` over the last `k` years, without the one of the youngest origin. -/
def Spec.olderRatios (n k : ℕ) (c : ℕ → ℕ → K) (j : ℕ) : List K := (Spec.lastN k (Spec.ratios n c j)).dropLast

theorem ratios_succ {j : ℕ} (hj : j < n - 1) :
    Spec.ratios n c j = (List.range (n - 2 - j)).map (fun i => c i (j + 1) / c i j) ++
      [c (n - 2 - j) (j + 1) / c (n - 2 - j) j] := by
  unfold Spec.ratios
  rw [show n - 1 - j = n - 2 - j + 1 by omega, List.range_succ, List.map_append, List.map_singleton]

theorem lastN_concat {α : Type} (k : ℕ) (l : List α) (x : α) :
    Spec.lastN k (l ++ [x]) = (Spec.lastN k (l ++ [x])).dropLast ++ [x] := by
  have hne : Spec.lastN k (l ++ [x]) ≠ [] := lastN_ne_nil k (by simp)
  have hl : (Spec.lastN k (l ++ [x])).getLast hne = x := by
    unfold Spec.lastN at hne ⊢
    split_ifs at hne ⊢ <;> simp
  conv_lhs => rw [← List.dropLast_append_getLast hne, hl]

theorem lastN_dropLast_congr {α : Type} (k : ℕ) (l : List α) (x y : α) :
    (Spec.lastN k (l ++ [x])).dropLast = (Spec.lastN k (l ++ [y])).dropLast := by
  unfold Spec.lastN
  split_ifs
  · simp
  · rw [List.length_append, List.length_append, List.length_singleton, List.length_singleton,
      List.drop_append_of_le_length (by omega), List.drop_append_of_le_length (by omega)]
    simp

/-- **C139, part that holds (3)**: medial averages over all or over the last `k` years, every positive tail factor.
When in every development period the link ratio of the youngest origin ties neither before nor after with the
smallest or the largest of the other ratios of the window (or there is at most one other ratio, or the ratio is not
changed and the window has a medial average), raising latest values never lowers an ultimate or the total, and raises
the ultimate of every origin whose own latest value is raised.  Missing: ratios that tie, see `C139_medial_fails`. -/
theorem C139_medial_partial (gm : List (Num K) → Num K) (h : Spec.Stair t n c) (h' : Spec.Stair t' n c')
    (hp : Spec.Positive n c) (hr : Spec.Raised n c c') (hn : 3 ≤ n) {k : ℕ} (hk : k < n - 1) {tail : K}
    (htail : 0 < tail)
    (htie : ∀ j < n - 1, Spec.NoTie (Spec.olderRatios n k c j) (c (n - 2 - j) (j + 1) / c (n - 2 - j) j)
      (c' (n - 2 - j) (j + 1) / c' (n - 2 - j) j)) :
    Spec.NotLower gm t t' n c c' (Spec.avgName "medial" k) tail := by
  have hent : ∀ {s : Tri K} {x : ℕ → ℕ → K}, Spec.Stair s n x → Spec.Positive n x → ∀ j < n - 1,
      avgEntry gm s s.a2aind0 .medial k j = medialAvg ((Spec.lastN k (Spec.ratios n x j)).map Num.fin) := by
    intro s x hs hx j hj
    rw [entry_medial hs hx.ne_zero (hs.indOn0 hx.ne_zero) hj, window_noexcl hx]
  have hex : ∀ j, ∃ a a', j < n - 1 → avgEntry gm t t.a2aind0 .medial k j = .ok (.fin a) ∧
      avgEntry gm t' t'.a2aind0 .medial k j = .ok (.fin a') ∧ 0 < a ∧ a ≤ a' := by
    intro j
    by_cases hj : j < n - 1
    swap
    · exact ⟨0, 0, fun h => absurd h hj⟩
    obtain ⟨a, a', h1, h2, h3⟩ := medial_raise (ratio_mono hp hr (show n - 2 - j + j + 1 < n by omega)) (htie j hj)
    have e : Spec.lastN k (Spec.ratios n c j) =
        Spec.olderRatios n k c j ++ [c (n - 2 - j) (j + 1) / c (n - 2 - j) j] := by
      unfold Spec.olderRatios
      rw [ratios_succ hj]
      exact lastN_concat k _ _
    have e' : Spec.lastN k (Spec.ratios n c' j) =
        Spec.olderRatios n k c j ++ [c' (n - 2 - j) (j + 1) / c' (n - 2 - j) j] := by
      unfold Spec.olderRatios
      have hsame : (List.range (n - 2 - j)).map (fun i => c' i (j + 1) / c' i j) =
          (List.range (n - 2 - j)).map (fun i => c i (j + 1) / c i j) := by
        apply List.map_congr_left
        intro i hi
        rw [List.mem_range] at hi
        rw [hr.same i j (by omega), hr.same i (j + 1) (by omega)]
      rw [ratios_succ hj, ratios_succ hj, hsame, lastN_concat k]
      rw [lastN_dropLast_congr]
    refine ⟨a, a', fun _ => ⟨?_, ?_, ?_, h3⟩⟩
    · rw [hent h hp j hj, e, h1]
    · rw [hent h' (hr.pos hp) j hj, e', h2]
    · rw [← e] at h1
      exact medial_finite (fun y hy => ratios_pos hp j y (lastN_subset _ _ y hy)) h1
  choose f f' hff using hex
  exact notLower_of gm h h' hp hr hn .medial hk (fun j hj => (hff j hj).1) (fun j hj => (hff j hj).2.1)
    (fun j hj => (hff j hj).2.2.1) (fun j hj => (hff j hj).2.2.2) htail

end

/-- A concrete case: the link ratios of the first period are 1, 2, 3 and 5/2, raised to 4: the medial average rises from
9/4 to 5/2. -/
example : youngestUlt (baseCL (fun _ => .nan) (stairTri 5 (exMed 250)) (stairTri 5 (exMed 250)).a2aind0 "all-medial" 1) =
      .ok (some (.fin 225)) ∧
    youngestUlt (baseCL (fun _ => .nan) (stairTri 5 (exMed 400)) (stairTri 5 (exMed 400)).a2aind0 "all-medial" 1) =
      .ok (some (.fin 250)) := by
  constructor <;> decide +kernel

/-- The hypothesis of `C139_medial_partial` for the first period of this case. -/
example : Spec.NoTie (Spec.olderRatios 5 0 (exMed 250) 0) (5/2) 4 := by
  have e : Spec.olderRatios 5 0 (exMed 250) 0 = [1, 2, 3] := by decide +kernel
  rw [e]
  right; right
  exact ⟨1, by simp, 3, by simp, by norm_num, by simp; norm_num, by norm_num⟩

end Trikit
