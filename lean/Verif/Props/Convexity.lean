import Verif.Props.Swap
import Verif.DevConvex

/-!
# Estimates with one uncertain amount

Ultimates and reserves of `base_cl` are convex functions of every single amount (C200).
-/

set_option linter.unusedSectionVars false

namespace Trikit

open Finset

section
variable {n : ℕ} {D : ℕ → ℕ → ℝ} {r k : ℕ}

/-- The ultimate before the tail factor from amounts. -/
theorem clSq_dev (D : ℕ → ℕ → ℝ) {i : ℕ} (hi : i < n) :
    Spec.clSq n (Spec.devCum D) (Spec.wFactor n (Spec.devCum D)) i (n - 1) =
      Spec.clReserve n i D + Spec.devCum D i (n - 1 - i) := by
  have e : Spec.clReserve n i D + Spec.devCum D i (n - 1 - i) = Spec.devCum D i (n - 1 - i) *
      ∏ j ∈ Ico (n - 1 - i) (n - 1), Spec.wFactor n (Spec.devCum D) j := by
    unfold Spec.clReserve
    have : ∀ j, Spec.devFactor n D j = Spec.wFactor n (Spec.devCum D) j := fun j => rfl
    simp only [this]
    ring
  rw [e]
  unfold Spec.clSq
  split
  · obtain rfl : i = 0 := by omega
    simp
  · rfl

theorem devCum_mix (a b x y : ℝ) (hab : a + b = 1) (i j : ℕ) :
    Spec.devCum (repl D r k (a * x + b * y)) i j =
      a * Spec.devCum (repl D r k x) i j + b * Spec.devCum (repl D r k y) i j := by
  obtain ⟨c, hc⟩ := devCum_repl D r k i j
  rw [hc, hc, hc]
  linear_combination (-c) * hab

theorem clReserve_zero (D : ℕ → ℕ → ℝ) : Spec.clReserve n 0 D = 0 := by
  unfold Spec.clReserve
  simp

/-- **C200** `base_cl` with volume weighted averages of all years on positive amounts: two triangles that differ in a
single amount, and one with an average of the two amounts.  Ultimates and reserves of all origins and the total reserve
of the latter are at most the same averages of those of the former.  For the first amount of the oldest origin they are
less, for every other origin. -/
theorem C200_convex (gm : List (Num ℝ) → Num ℝ) (hn : 3 ≤ n) (hD : Spec.PosIncr n D) (hrk : r + k < n) {a b x y : ℝ}
    (ha : 0 ≤ a) (hb : 0 ≤ b) (hab : a + b = 1) (hx : 0 < x) (hy : 0 < y) {t tx ty : Tri ℝ}
    (h : Spec.Stair t n (Spec.devCum (repl D r k (a * x + b * y)))) (hX : Spec.Stair tx n (Spec.devCum (repl D r k x)))
    (hY : Spec.Stair ty n (Spec.devCum (repl D r k y))) {tail : ℝ} (htail : 0 < tail) :
    ∃ q qx qy T Tx Ty, baseCL gm t t.a2aind0 "all-weighted" (.fin tail) = .ok q ∧
      baseCL gm tx tx.a2aind0 "all-weighted" (.fin tail) = .ok qx ∧
      baseCL gm ty ty.a2aind0 "all-weighted" (.fin tail) = .ok qy ∧
      (∀ i < n, ∃ row rx ry l lx ly u ux uy, q.rows[i]? = some row ∧ qx.rows[i]? = some rx ∧ qy.rows[i]? = some ry ∧
        row.latest = .fin l ∧ rx.latest = .fin lx ∧ ry.latest = .fin ly ∧ l = a * lx + b * ly ∧
        row.ultimate = .fin u ∧ rx.ultimate = .fin ux ∧ ry.ultimate = .fin uy ∧ u ≤ a * ux + b * uy ∧
        (r = 0 → k = 0 → 0 < i → x ≠ y → 0 < a → 0 < b → u < a * ux + b * uy)) ∧
      q.totReserve = .fin T ∧ qx.totReserve = .fin Tx ∧ qy.totReserve = .fin Ty ∧ T ≤ a * Tx + b * Ty := by
  have hz : 0 < a * x + b * y := by
    rcases ha.eq_or_lt with rfl | ha
    · have : b = 1 := by linarith
      rw [this]; linarith
    · have := mul_pos ha hx
      have := mul_nonneg hb hy.le
      linarith
  have hpos : ∀ z, 0 < z → Spec.Positive n (Spec.devCum (repl D r k z)) := fun z hz i j hij =>
    devCum_pos (repl_pos hD hz) hij
  obtain ⟨q, a1, -, a3, -, -, a6⟩ := base_square gm h (hpos _ hz) hn tail
  obtain ⟨qx, b1, -, b3, -, -, b6⟩ := base_square gm hX (hpos _ hx) hn tail
  obtain ⟨qy, c1, -, c3, -, -, c6⟩ := base_square gm hY (hpos _ hy) hn tail
  have key : ∀ i < n, Spec.clReserve n i (repl D r k (a * x + b * y)) ≤
      a * Spec.clReserve n i (repl D r k x) + b * Spec.clReserve n i (repl D r k y) := by
    intro i hi
    exact (clReserve_convex hD hi hrk).2 hx hy ha hb hab
  have hult : ∀ i < n, Spec.clSq n (Spec.devCum (repl D r k (a * x + b * y)))
        (Spec.wFactor n (Spec.devCum (repl D r k (a * x + b * y)))) i (n - 1) * tail ≤
      a * (Spec.clSq n (Spec.devCum (repl D r k x)) (Spec.wFactor n (Spec.devCum (repl D r k x))) i (n - 1) * tail) +
      b * (Spec.clSq n (Spec.devCum (repl D r k y)) (Spec.wFactor n (Spec.devCum (repl D r k y))) i (n - 1) * tail) := by
    intro i hi
    rw [clSq_dev _ hi, clSq_dev _ hi, clSq_dev _ hi, devCum_mix a b x y hab]
    have := mul_le_mul_of_nonneg_right (key i hi) htail.le
    linarith
  refine ⟨q, qx, qy, _, _, _, a1, b1, c1, ?_, a6, b6, c6, ?_⟩
  · intro i hi
    obtain ⟨row, d1, -, d3, d4⟩ := a3 i hi
    obtain ⟨rx, e1, -, e3, e4⟩ := b3 i hi
    obtain ⟨ry, f1, -, f3, f4⟩ := c3 i hi
    refine ⟨row, rx, ry, _, _, _, _, _, _, d1, e1, f1, d3, e3, f3, devCum_mix a b x y hab _ _, d4, e4, f4, hult i hi, ?_⟩
    rintro rfl rfl hi0 hxy ha' hb'
    rw [clSq_dev _ hi, clSq_dev _ hi, clSq_dev _ hi, devCum_mix a b x y hab]
    have hs := (clReserve_strict hD hi hi0).2 hx hy hxy ha' hb' hab
    simp only [smul_eq_mul] at hs
    have := mul_lt_mul_of_pos_right hs htail
    linarith
  · rw [Finset.mul_sum, Finset.mul_sum, ← Finset.sum_add_distrib]
    refine Finset.sum_le_sum (fun i hi => ?_)
    rw [Finset.mem_range] at hi
    have := hult i hi
    have e := devCum_mix (D := D) (r := r) (k := k) a b x y hab i (n - 1 - i)
    rw [e]
    linarith

/-- **C200** the same of Mack chain ladder with `alpha=1`. -/
theorem C200_mack (hn : 4 ≤ n) (hD : Spec.PosIncr n D) (hrk : r + k < n) {a b x y : ℝ}
    (ha : 0 ≤ a) (hb : 0 ≤ b) (hab : a + b = 1) (hx : 0 < x) (hy : 0 < y) {t tx ty : Tri ℝ}
    (h : Spec.Stair t n (Spec.devCum (repl D r k (a * x + b * y)))) (hX : Spec.Stair tx n (Spec.devCum (repl D r k x)))
    (hY : Spec.Stair ty n (Spec.devCum (repl D r k y))) :
    ∃ q qx qy T Tx Ty, mackCore 1 t t.a2aind0 = .ok q ∧ mackCore 1 tx tx.a2aind0 = .ok qx ∧
      mackCore 1 ty ty.a2aind0 = .ok qy ∧
      (∀ i < n, ∃ row rx ry l lx ly u ux uy, q.rows[i]? = some row ∧ qx.rows[i]? = some rx ∧ qy.rows[i]? = some ry ∧
        row.latest = .fin l ∧ rx.latest = .fin lx ∧ ry.latest = .fin ly ∧ l = a * lx + b * ly ∧
        row.ultimate = .fin u ∧ rx.ultimate = .fin ux ∧ ry.ultimate = .fin uy ∧ u ≤ a * ux + b * uy ∧
        (r = 0 → k = 0 → 0 < i → x ≠ y → 0 < a → 0 < b → u < a * ux + b * uy)) ∧
      q.totReserve = .fin T ∧ qx.totReserve = .fin Tx ∧ qy.totReserve = .fin Ty ∧ T ≤ a * Tx + b * Ty := by
  have hz : 0 < a * x + b * y := by
    rcases ha.eq_or_lt with rfl | ha
    · have : b = 1 := by linarith
      rw [this]; linarith
    · have := mul_pos ha hx
      have := mul_nonneg hb hy.le
      linarith
  have hpos : ∀ z, 0 < z → Spec.Positive n (Spec.devCum (repl D r k z)) := fun z hz i j hij =>
    devCum_pos (repl_pos hD hz) hij
  obtain ⟨q, qx, qy, T, Tx, Ty, a1, a2, a3, a4, a5, a6, a7, a8⟩ := C200_convex (fun _ => .nan) (by omega) hD hrk ha hb
    hab hx hy h hX hY one_pos
  obtain ⟨m, p, e1, e2, -, -, e3, -, -, e4, -⟩ := C50_point_estimates (fun _ => .nan) h (hpos _ hz) hn
  obtain ⟨mx, px, f1, f2, -, -, f3, -, -, f4, -⟩ := C50_point_estimates (fun _ => .nan) hX (hpos _ hx) hn
  obtain ⟨my, py, g1, g2, -, -, g3, -, -, g4, -⟩ := C50_point_estimates (fun _ => .nan) hY (hpos _ hy) hn
  rw [show (1 : Num ℝ) = .fin 1 from rfl, a1] at e2
  rw [show (1 : Num ℝ) = .fin 1 from rfl, a2] at f2
  rw [show (1 : Num ℝ) = .fin 1 from rfl, a3] at g2
  cases e2
  cases f2
  cases g2
  refine ⟨m, mx, my, T, Tx, Ty, e1, f1, g1, ?_, by rw [e4, a5], by rw [f4, a6], by rw [g4, a7], a8⟩
  rw [e3, f3, g3]
  exact a4

end

/-! ## Examples -/

/-- Claims where the first amount of the oldest origin is `z`. -/
def exMix (z : ℚ) : ℕ → ℕ → ℚ := fun i j =>
  ((([[z, z + 60, z + 80], [100, 160], [130]] : List (List ℚ)).getD i []).getD j 0)

/-- Ultimates and total reserve. -/
def exMixRun (c : ℕ → ℕ → ℚ) : Option (List (Num ℚ) × Num ℚ) :=
  (baseCL (fun _ => .nan) (stairTri 3 c) (stairTri 3 c).a2aind0 "all-weighted" 1).toOption.map
    (fun r => (r.rows.map SummRow.ultimate, r.totReserve))

/-- C200 on the example: with 100 instead of either 60 or 140 all but the oldest origin have lower ultimates than on
average. -/
example : exMixRun (exMix 60) = some ([.fin 140, .fin (560 / 3), .fin (3185 / 12)], .fin (1945 / 12)) ∧
    exMixRun (exMix 140) = some ([.fin 220, .fin 176, .fin (429 / 2)], .fin (201 / 2)) ∧
    exMixRun (exMix 100) = some ([.fin 180, .fin 180, .fin 234], .fin 124) ∧
    (180 : ℚ) < (560 / 3 + 176) / 2 ∧ (234 : ℚ) < (3185 / 12 + 429 / 2) / 2 ∧
    (124 : ℚ) < (1945 / 12 + 201 / 2) / 2 := by decide +kernel

/-- Claims of the oldest origin at the end `z`, and of the second origin `y` and `2y`. -/
def exMix2 (z y : ℚ) : ℕ → ℕ → ℚ := fun i j =>
  ((([[1, 2, z], [y, 2 * y], [1]] : List (List ℚ)).getD i []).getD j 0)

/-- C200 is about a single amount: the total reserve of the average of two triangles can exceed the average of their
total reserves. -/
example : exMixRun (exMix2 6 1) = some ([.fin 6, .fin 6, .fin 6], .fin 9) ∧
    exMixRun (exMix2 3 4) = some ([.fin 3, .fin 12, .fin 3], .fin 6) ∧
    exMixRun (exMix2 (9 / 2) (5 / 2)) = some ([.fin (9 / 2), .fin (45 / 4), .fin (9 / 2)], .fin (39 / 4)) ∧
    ((9 + 6) / 2 : ℚ) < 39 / 4 := by decide +kernel

end Trikit
