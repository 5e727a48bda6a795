import Verif.Props.MedialWindow
import Verif.Props.AllUpdate

/-!
# C238: how a medial factor moves with any new diagonal

`base_cl` (base.py:25-170) with a medial average (`a2a_avgs`, `_medial`, triangle.py:523-574 and 777-856) at two evaluations, the second one
period later.
-/

set_option linter.unusedSectionVars false

namespace Trikit

section
variable {K : Type} [Field K] [LinearOrder K] [IsStrictOrderedRing K]

/-- The medial average of at least three different numbers and one more: the new one counts like the nearest number between the
smallest and the largest of the others. -/
theorem medial_add {L L' : List K} (hd : L.Nodup) (h3 : 3 ≤ L.length) {x lo hi : K} (hx : x ∉ L) (g : Ends L lo hi)
    (hL : L'.Perm (x :: L)) :
    Spec.medialOf L' = (((L.length : K) - 2) * Spec.medialOf L + max lo (min hi x)) / ((L.length : K) - 1) := by
  have hd' : L'.Nodup := hL.nodup_iff.2 (List.nodup_cons.2 ⟨hx, hd⟩)
  have hlen : L'.length = L.length + 1 := by rw [hL.length_eq, List.length_cons]
  have hsum : L'.sum = x + L.sum := by rw [hL.sum_eq, List.sum_cons]
  have h3K : (3 : K) ≤ L.length := by exact_mod_cast h3
  have hlt := g.ne hd (by omega)
  have g' : Ends L' (min lo x) (max hi x) := by
    refine ⟨?_, fun y hy => ?_, ?_, fun y hy => ?_⟩
    · rw [hL.mem_iff]
      rcases min_choice lo x with e | e <;> rw [e]
      · exact List.mem_cons_of_mem _ g.lo_mem
      · simp
    · rcases List.mem_cons.1 (hL.mem_iff.1 hy) with rfl | hy
      · exact min_le_right _ _
      · exact (min_le_left _ _).trans (g.lo_le y hy)
    · rw [hL.mem_iff]
      rcases max_choice hi x with e | e <;> rw [e]
      · exact List.mem_cons_of_mem _ g.hi_mem
      · simp
    · rcases List.mem_cons.1 (hL.mem_iff.1 hy) with rfl | hy
      · exact le_max_right _ _
      · exact (g.le_hi y hy).trans (le_max_left _ _)
  have key : max lo (min hi x) = x + lo + hi - min lo x - max hi x := by
    rcases le_total x lo with h1 | h1
    · rw [min_eq_right h1, max_eq_left (h1.trans hlt.le), min_eq_right (h1.trans hlt.le), max_eq_left h1]; ring
    · rcases le_total x hi with h2 | h2
      · rw [min_eq_left h1, max_eq_left h2, min_eq_right h2, max_eq_right h1]; ring
      · rw [min_eq_left h1, max_eq_right h2, min_eq_left h2, max_eq_right hlt.le]; ring
  rw [g'.value hd' (by omega), g.value hd h3, mul_div_cancel₀ _ (by linarith : (L.length : K) - 2 ≠ 0), key, hsum, hlen]
  push_cast
  congr 1 <;> ring

/-- Strictly between the ends, the nearest number between them is on the same side. -/
theorem clamp_side {lo hi f x : K} (h1 : lo < f) (h2 : f < hi) :
    (f < max lo (min hi x) ↔ f < x) ∧ (max lo (min hi x) < f ↔ x < f) := by
  constructor
  · rw [lt_max_iff, lt_min_iff]
    exact ⟨fun h => h.elim (fun h => absurd h h1.not_gt) (fun h => h.2), fun h => Or.inr ⟨h2, h⟩⟩
  · rw [max_lt_iff, min_lt_iff]
    exact ⟨fun h => h.2.elim (fun h => absurd h h2.not_gt) id, fun h => ⟨h1, Or.inr h⟩⟩

theorem clamp_eq {lo hi x a : K} (hlt : lo < hi) (x1 : x ≠ lo) (x2 : x ≠ hi) (a1 : a ≠ lo) (a2 : a ≠ hi) :
    max lo (min hi x) = max lo (min hi a) ↔ x = a ∨ (x < lo ∧ a < lo) ∨ (hi < x ∧ hi < a) := by
  have cl : ∀ y : K, y ≠ lo → y ≠ hi → (y < lo ∧ max lo (min hi y) = lo) ∨ (lo < y ∧ y < hi ∧ max lo (min hi y) = y) ∨
      (hi < y ∧ max lo (min hi y) = hi) := fun y y1 y2 => by
    rcases lt_or_gt_of_ne y1 with h | h
    · exact Or.inl ⟨h, by rw [min_eq_right (h.trans hlt).le, max_eq_left h.le]⟩
    · rcases lt_or_gt_of_ne y2 with h2 | h2
      · exact Or.inr (Or.inl ⟨h, h2, by rw [min_eq_right h2.le, max_eq_right h.le]⟩)
      · exact Or.inr (Or.inr ⟨h2, by rw [min_eq_left h2.le, max_eq_right hlt.le]⟩)
  constructor
  · intro e
    rcases cl x x1 x2 with ⟨p, q⟩ | ⟨p, p', q⟩ | ⟨p, q⟩ <;> rcases cl a a1 a2 with ⟨u, v⟩ | ⟨u, u', v⟩ | ⟨u, v⟩ <;> rw [q, v] at e
    · exact Or.inr (Or.inl ⟨p, u⟩)
    · exact absurd e u.ne
    · exact absurd e hlt.ne
    · exact absurd e p.ne'
    · exact Or.inl e
    · exact absurd e p'.ne
    · exact absurd e hlt.ne'
    · exact absurd e u'.ne'
    · exact Or.inr (Or.inr ⟨p, u⟩)
  · rintro (rfl | ⟨p, u⟩ | ⟨p, u⟩)
    · rfl
    · rw [min_eq_right (p.trans hlt).le, min_eq_right (u.trans hlt).le, max_eq_left p.le, max_eq_left u.le]
    · rw [min_eq_left p.le, min_eq_left u.le]

end

section
variable {t t' : Tri ℝ} {n : ℕ} {c c' : ℕ → ℕ → ℝ}

/-- **C238, none leaves.** `base_cl` with the medial average of all years, or of the last `k` years in a period with fewer than `k`
link ratios, on any two positive staircases one period apart, in a period whose link ratios are at least three and differ, also
from the joining one `x`: the factor moves towards `x`, cut off at the smallest and the largest of the old ratios, by one over the
number of ratios that count.  So it rises exactly when `x` exceeds it, falls exactly when `x` is below, and no `x` moves it further
than the ends of the old ratios do. -/
theorem C238_all (h : Spec.Stair t n c) (hp : Spec.Positive n c) (h' : Spec.Stair t' (n + 1) c')
    (hy : Spec.NextYear n c c') {k : ℕ} (hkn : k < n - 1)
    {tail tail' : Num ℝ} {r r' : BaseResult ℝ} (hr : baseCL gmean t t.a2aind0 (Spec.avgName "medial" k) tail = .ok r)
    (hr' : baseCL gmean t' t'.a2aind0 (Spec.avgName "medial" k) tail' = .ok r') {j : ℕ} (hj : j + 4 ≤ n)
    (hfull : k = 0 ∨ n ≤ j + k) (hdiff : (Spec.ratios n c j).Nodup) (hnew : Spec.joining n c' j ∉ Spec.ratios n c j) :
    ∃ f f' lo hi : ℝ, r.ldfs.iloc j = .fin f ∧ r'.ldfs.iloc j = .fin f' ∧ Ends (Spec.ratios n c j) lo hi ∧
      f' = f + (max lo (min hi (Spec.joining n c' j)) - f) / ((n - j - 2 : ℕ) : ℝ) ∧
      (f < f' ↔ f < Spec.joining n c' j) ∧ (f' < f ↔ Spec.joining n c' j < f) := by
  have hp' := hy.positive hp
  have hj1 : j < n - 1 := by omega
  have e := baseCL_iloc h hp (by omega) .medial hkn hr hj1
  have e' := baseCL_iloc h' hp' (by omega) .medial (by omega) hr' (show j < n + 1 - 1 by omega)
  have hlen : (Spec.ratios n c j).length = n - 1 - j := by simp [Spec.ratios]
  have hyr := ratios_year hy (show j < n by omega)
  have hjo : c' (n - 1 - j) (j + 1) / c (n - 1 - j) j = Spec.joining n c' j := by
    unfold Spec.joining; rw [hy.same (n - 1 - j) j (by omega)]
  rw [hjo] at hyr
  have hne := ratios_ne_nil (c := c) hj1
  set x := Spec.joining n c' j with hx
  set L := Spec.ratios n c j with hL
  have w1 : Spec.lastN k L = L := lastN_whole (by omega)
  have w2 : Spec.lastN k (L ++ [x]) = L ++ [x] := lastN_whole (by rw [List.length_append, List.length_singleton]; omega)
  have hperm : (L ++ [x]).Perm (x :: L) := List.perm_append_singleton x L
  have hd' : (L ++ [x]).Nodup := hperm.nodup_iff.2 (List.nodup_cons.2 ⟨hnew, hdiff⟩)
  rw [entry_medial h hp.ne_zero (h.indOn0 hp.ne_zero) hj1, window_noexcl hp, ← hL, w1, medialAvg_nodup hdiff hne] at e
  rw [entry_medial h' hp'.ne_zero (h'.indOn0 hp'.ne_zero) (by omega), window_noexcl hp', hyr, w2,
    medialAvg_nodup hd' (by simp)] at e'
  obtain ⟨lo, hi, g⟩ := exists_ends hne
  have h3 : 3 ≤ L.length := by omega
  have hb := g.med_between hdiff h3
  have hm := medial_add hdiff h3 hnew g hperm
  have k2 : ((L.length : ℝ) - 1) = ((n - j - 2 : ℕ) : ℝ) := by
    rw [hlen, show n - 1 - j = (n - j - 2) + 1 by omega]; push_cast; ring
  have kp : (0 : ℝ) < ((n - j - 2 : ℕ) : ℝ) := by exact_mod_cast (show 0 < n - j - 2 by omega)
  have step : Spec.medialOf (L ++ [x]) = Spec.medialOf L + (max lo (min hi x) - Spec.medialOf L) / ((n - j - 2 : ℕ) : ℝ) := by
    rw [hm, k2, show (L.length : ℝ) - 2 = ((n - j - 2 : ℕ) : ℝ) - 1 by rw [← k2]; ring]
    field_simp
    ring
  refine ⟨_, _, lo, hi, (Except.ok.inj e).symm, (Except.ok.inj e').symm, g, step, ?_, ?_⟩
  · rw [step, lt_add_iff_pos_right, div_pos_iff_of_pos_right kp, sub_pos]
    exact (clamp_side hb.1 hb.2).1
  · rw [step, add_lt_iff_neg_left, ← neg_pos, ← neg_div, div_pos_iff_of_pos_right kp, neg_sub, sub_pos]
    exact (clamp_side hb.1 hb.2).2

/-- **C238, full window.** The medial average of the last `k ≥ 4` years in a period with at least `k` link ratios: one leaves and
one joins, each cut off at the smallest and the largest of those that stay, and the factor moves by their difference over `k - 2`.
It stays where it is exactly when the two are equal, or both below or both above all that stay. -/
theorem C238_window (h : Spec.Stair t n c) (hp : Spec.Positive n c) (h' : Spec.Stair t' (n + 1) c')
    (hy : Spec.NextYear n c c') {k : ℕ} (hk : 4 ≤ k) (hkn : k < n - 1)
    {tail tail' : Num ℝ} {r r' : BaseResult ℝ} (hr : baseCL gmean t t.a2aind0 (Spec.avgName "medial" k) tail = .ok r)
    (hr' : baseCL gmean t' t'.a2aind0 (Spec.avgName "medial" k) tail' = .ok r') {j : ℕ} (hj : j + k < n)
    (hdiff : (Spec.lastN k (Spec.ratios n c j)).Nodup)
    (hnew : Spec.joining n c' j ∉ Spec.lastN (k - 1) (Spec.ratios n c j)) :
    ∃ f f' lo hi : ℝ, r.ldfs.iloc j = .fin f ∧ r'.ldfs.iloc j = .fin f' ∧ Ends (Spec.lastN (k - 1) (Spec.ratios n c j)) lo hi ∧
      f' = f + (max lo (min hi (Spec.joining n c' j)) - max lo (min hi (Spec.leaving n k c j))) / ((k - 2 : ℕ) : ℝ) ∧
      (f' = f ↔ Spec.joining n c' j = Spec.leaving n k c j ∨ (Spec.joining n c' j < lo ∧ Spec.leaving n k c j < lo) ∨
        (hi < Spec.joining n c' j ∧ hi < Spec.leaving n k c j)) := by
  have hp' := hy.positive hp
  have hj1 : j < n - 1 := by omega
  have e := baseCL_iloc h hp (by omega) .medial hkn hr hj1
  have e' := baseCL_iloc h' hp' (by omega) .medial (by omega) hr' (show j < n + 1 - 1 by omega)
  have hlen : (Spec.ratios n c j).length = n - 1 - j := by simp [Spec.ratios]
  have hyr := ratios_year hy (show j < n by omega)
  have hjo : c' (n - 1 - j) (j + 1) / c (n - 1 - j) j = Spec.joining n c' j := by
    unfold Spec.joining; rw [hy.same (n - 1 - j) j (by omega)]
  rw [hjo] at hyr
  obtain ⟨m, w1, w2⟩ := lastN_shift (l := Spec.ratios n c j) (x := Spec.joining n c' j) (k := k) (by omega) (by omega)
  have hfirst : (Spec.ratios n c j)[(Spec.ratios n c j).length - k]'(by omega) = Spec.leaving n k c j := by
    simp only [Spec.leaving, Spec.ratios, List.getElem_map, List.getElem_range, List.length_map, List.length_range]
  rw [hfirst] at w1
  have hmk : m.length + 1 = k := by
    have := lastN_length (show k ≠ 0 by omega) (Spec.ratios n c j)
    rw [w1, hlen, min_eq_left (by omega), List.length_cons] at this
    exact this
  have hst : Spec.lastN (k - 1) (Spec.ratios n c j) = m := by
    have : Spec.lastN (k - 1) (Spec.ratios n c j) = (Spec.lastN k (Spec.ratios n c j)).drop 1 := by
      unfold Spec.lastN
      rw [if_neg (by omega), if_neg (by omega), List.drop_drop]
      congr 1
      omega
    rw [this, w1]; rfl
  rw [hst] at hnew ⊢
  set x := Spec.joining n c' j with hx
  set a := Spec.leaving n k c j with ha
  rw [w1] at hdiff
  have hmd : m.Nodup := (List.nodup_cons.1 hdiff).2
  have ham : a ∉ m := (List.nodup_cons.1 hdiff).1
  have hperm : (m ++ [x]).Perm (x :: m) := List.perm_append_singleton x m
  have hd' : (m ++ [x]).Nodup := hperm.nodup_iff.2 (List.nodup_cons.2 ⟨hnew, hmd⟩)
  rw [entry_medial h hp.ne_zero (h.indOn0 hp.ne_zero) hj1, window_noexcl hp, w1,
    medialAvg_nodup hdiff (List.cons_ne_nil _ _)] at e
  rw [entry_medial h' hp'.ne_zero (h'.indOn0 hp'.ne_zero) (by omega), window_noexcl hp', hyr, w2,
    medialAvg_nodup hd' (by simp)] at e'
  obtain ⟨lo, hi, g⟩ := exists_ends (L := m) (fun e => by rw [e] at hmk; simp at hmk; omega)
  have h3 : 3 ≤ m.length := by omega
  have k2 : ((m.length : ℝ) - 1) = ((k - 2 : ℕ) : ℝ) := by
    rw [show m.length = (k - 2) + 1 by omega]; push_cast; ring
  have kp : (0 : ℝ) < ((k - 2 : ℕ) : ℝ) := by exact_mod_cast (show 0 < k - 2 by omega)
  have step : Spec.medialOf (m ++ [x]) =
      Spec.medialOf (a :: m) + (max lo (min hi x) - max lo (min hi a)) / ((k - 2 : ℕ) : ℝ) := by
    rw [medial_add hmd h3 hnew g hperm, medial_add hmd h3 ham g (List.Perm.refl _), k2]
    ring
  refine ⟨_, _, lo, hi, (Except.ok.inj e).symm, (Except.ok.inj e').symm, g, step, ?_⟩
  rw [step, add_eq_left, div_eq_zero_iff, or_iff_left kp.ne', sub_eq_zero]
  exact clamp_eq (g.ne hmd (by omega)) (fun e => hnew (e ▸ g.lo_mem)) (fun e => hnew (e ▸ g.hi_mem))
    (fun e => ham (e ▸ g.lo_mem)) (fun e => ham (e ▸ g.hi_mem))

end

/-- Six origins; the ratios of the first period are 7, 4, 1, 2, 3, and 100 joins. -/
def exMedialJump (i j : ℕ) : ℚ := if j = 0 then 2 else 2 * [7, 4, 1, 2, 3, 100].getD i 1

/-- A concrete case: of all years the factor goes from 3 towards 7, not towards 100, by a quarter of the way; of the last four, where
4 leaves, it stays, as both count like the 3. -/
example : ["all-medial", "medial-4"].map (fun sel => [stairTri 6 exMedialJump, stairTri 7 exMedialJump].map (fun t =>
    ((baseCL (fun _ => .nan) t t.a2aind0 sel 1).toOption.map (fun r => r.ldfs.iloc 0)))) =
    [[some (.fin 3), some (.fin (3 + (7 - 3) / 4))], [some (.fin (5 / 2)), some (.fin (5 / 2))]] := by decide +kernel

end Trikit
