import Verif.DiagLemmas
import Verif.Examples
import Verif.Props.Mack

/-! # C78: standardized residuals -/

set_option linter.unusedSectionVars false

namespace Trikit

/-- Mean square of the residuals of a group. -/
noncomputable def msq (l : List (Int × Int × ℝ)) : ℝ := (l.map (fun p => p.2.2 ^ 2)).sum / (l.length : ℝ)

/-- A group with finite residuals. -/
def finGroup (l : List (Int × Int × ℝ)) : List (Int × Int × Num ℝ) := l.map (fun p => (p.1, p.2.1, .fin p.2.2))

theorem stdGroup_sum (l : List (Int × Int × ℝ)) :
    Num.sumSkip ((finGroup l).map (fun p => p.2.2.pow 2)) = .fin (l.map (fun p => p.2.2 ^ 2)).sum := by
  unfold finGroup
  rw [List.map_map]
  exact Num.sumSkip_map_fin' _ _ _ (fun p _ => by simp)

/-- Residuals with mean square above 1 in a group of at least two. -/
theorem stdGroup_big {l : List (Int × Int × ℝ)} (h2 : 2 ≤ l.length) (hm : 1 < msq l) :
    stdGroup (finGroup l) = l.map (fun p => ⟨p.1, p.2.1, .fin p.2.2, .fin (Real.sqrt (msq l - 1)),
      .fin (p.2.2 / (Real.sqrt (msq l - 1) * Real.sqrt (((l.length : ℝ) - 1) / l.length)))⟩) := by
  have hl : (finGroup l).length = l.length := by simp [finGroup]
  have h0 : (2 : ℝ) ≤ (l.length : ℝ) := by exact_mod_cast h2
  have hl0 : (l.length : ℝ) ≠ 0 := by linarith
  have hq : 0 < ((l.length : ℝ) - 1) / l.length := div_pos (by linarith) (by linarith)
  have hs1 : 0 < Real.sqrt (msq l - 1) := Real.sqrt_pos.2 (by linarith)
  have hs2 : 0 < Real.sqrt (((l.length : ℝ) - 1) / l.length) := Real.sqrt_pos.2 hq
  unfold stdGroup
  simp only
  rw [stdGroup_sum, hl, Num.fin_div _ _ hl0, Num.fin_sub, Num.fin_div _ _ hl0]
  have e : (l.map (fun p => p.2.2 ^ 2)).sum / (l.length : ℝ) = msq l := rfl
  rw [e, Num.sqrt_fin (by linarith), Num.sqrt_fin hq.le, Num.fin_mul]
  conv_lhs => rw [finGroup]
  rw [List.map_map]
  refine List.map_congr_left (fun p _ => ?_)
  simp only [Function.comp]
  rw [Num.fin_div _ _ (mul_pos hs1 hs2).ne']

/-- Residuals with mean square below 1: the standard deviation is the root of a negative number. -/
theorem stdGroup_small {l : List (Int × Int × ℝ)} (h1 : 1 ≤ l.length) (hm : msq l < 1) :
    stdGroup (finGroup l) = l.map (fun p => ⟨p.1, p.2.1, .fin p.2.2, .nan, .nan⟩) := by
  have hl : (finGroup l).length = l.length := by simp [finGroup]
  have h0 : (1 : ℝ) ≤ (l.length : ℝ) := by exact_mod_cast h1
  have hl0 : (l.length : ℝ) ≠ 0 := by linarith
  unfold stdGroup
  simp only
  rw [stdGroup_sum, hl, Num.fin_div _ _ hl0, Num.fin_sub, Num.fin_div _ _ hl0]
  have e : (l.map (fun p => p.2.2 ^ 2)).sum / (l.length : ℝ) = msq l := rfl
  have e2 : Num.sqrt (.fin (msq l - 1)) = .nan := by
    simp only [Num.sqrt]; rw [if_pos (by linarith)]
  rw [e, e2]
  conv_lhs => rw [finGroup]
  rw [List.map_map]
  refine List.map_congr_left (fun p _ => ?_)
  simp [Function.comp]

/-- The residuals of period `j`: predicted minus actual, one for each origin observed at period `j + 1`. -/
def residGroup (t : Tri ℝ) (n : ℕ) (c : ℕ → ℕ → ℝ) (f : ℕ → ℝ) (j : ℕ) : List (Int × Int × ℝ) :=
  (List.range (n - 1 - j)).map (fun i => (t.oAt i, t.dAt j, c i j * f j - c i (j + 1)))

theorem residualsByDevp_stair {t : Tri ℝ} {n : ℕ} {c : ℕ → ℕ → ℝ} (h : Spec.Stair t n c) {ldfs : Ser ℝ}
    {f : ℕ → ℝ} (hf : ∀ j < n - 1, Ser.get ldfs (t.dAt j) = .fin (f j)) :
    residualsByDevp t ldfs =
      (List.range (n - 2)).flatMap (fun j => stdGroup (finGroup (residGroup t n c f j))) := by
  unfold residualsByDevp
  rw [h.nc, h.nr]
  refine List.flatMap_congr (fun j hj => ?_)
  rw [List.mem_range] at hj
  congr 1
  have e : (List.range n).filter (fun i => !(t.cell i (j + 1)).isNaN) = List.range (n - 1 - j) := by
    have : n = (n - 1 - j) + (j + 1) := by omega
    have e1 : List.range n = List.range (n - 1 - j) ++ (List.range (j + 1)).map (fun x => (n - 1 - j) + x) := by
      conv_lhs => rw [this, List.range_add]
    rw [e1, List.filter_append, List.filter_eq_self.2, List.filter_eq_nil_iff.2, List.append_nil]
    · intro a ha
      rw [List.mem_map] at ha
      obtain ⟨b, hb, rfl⟩ := ha
      rw [List.mem_range] at hb
      rw [h.miss _ _ (by omega) (by omega) (by omega)]; simp
    · intro i hi
      rw [List.mem_range] at hi
      rw [h.obs i (j + 1) (by omega)]; rfl
  rw [e, finGroup, residGroup, List.map_map]
  refine List.map_congr_left (fun i hi => ?_)
  rw [List.mem_range] at hi
  simp only [Function.comp]
  rw [h.obs i j (by omega), h.obs i (j + 1) (by omega), hf j (by omega), Num.fin_mul, Num.fin_sub]

/-- **C78 (partial)**: with given factors, the rows of the residual table are predicted minus actual
amounts, in the order of period and origin; a group of `m ≥ 2` residuals with mean square above 1 is
divided by one positive number (so that signs and proportions within a period are right).  Missing from
the full statement: that number is `sqrt(mean square - 1)` times `sqrt((m-1)/m)`, hence depends on the
unit; with a mean square below 1 everything is NaN. -/
theorem C78_partial {t : Tri ℝ} {n : ℕ} {c : ℕ → ℕ → ℝ} (h : Spec.Stair t n c) {ldfs : Ser ℝ}
    {f : ℕ → ℝ} (hf : ∀ j < n - 1, Ser.get ldfs (t.dAt j) = .fin (f j)) :
    ∃ g : ℕ → List ResidRow, residualsByDevp t ldfs = (List.range (n - 2)).flatMap g ∧
      ∀ j < n - 2,
        (g j).map (fun r => (r.origin, r.dev, r.resid)) =
          (List.range (n - 1 - j)).map (fun i =>
            (t.oAt i, t.dAt j, Num.fin (c i j * f j - c i (j + 1)))) ∧
        (1 < msq (residGroup t n c f j) → ∃ s : ℝ, 0 < s ∧ (g j).map ResidRow.std =
          (List.range (n - 1 - j)).map (fun i => Num.fin ((c i j * f j - c i (j + 1)) / s))) ∧
        (msq (residGroup t n c f j) < 1 → ∀ r ∈ g j, r.std = .nan) := by
  refine ⟨_, residualsByDevp_stair h hf, fun j hj => ⟨?_, ?_, ?_⟩⟩
  · unfold stdGroup
    simp only [List.map_map]
    rw [finGroup, residGroup, List.map_map, List.map_map]
    rfl
  · intro hm
    have h2 : 2 ≤ (residGroup t n c f j).length := by simp [residGroup]; omega
    have h0 : (2 : ℝ) ≤ ((residGroup t n c f j).length : ℝ) := by exact_mod_cast h2
    refine ⟨Real.sqrt (msq (residGroup t n c f j) - 1) *
      Real.sqrt ((((residGroup t n c f j).length : ℝ) - 1) / (residGroup t n c f j).length),
      mul_pos (Real.sqrt_pos.2 (by linarith)) (Real.sqrt_pos.2 (div_pos (by linarith) (by linarith))), ?_⟩
    rw [stdGroup_big h2 hm, List.map_map]
    conv_lhs => rw [residGroup]
    rw [List.map_map]
    rfl
  · intro hm r hr
    rw [stdGroup_small (by simp [residGroup]; omega) hm, List.mem_map] at hr
    obtain ⟨p, _, rfl⟩ := hr
    rfl

/-- Values of a 4 x 4 triangle, in units of `1 / u`. -/
noncomputable def unitVals (u : ℝ) : ℕ → ℕ → ℝ := fun i j => u *
  ((([[10, 20, 25, 30], [10, 40, 50], [10, 30], [10]] : List (List ℝ)).getD i []).getD j 0)

/-- Volume weighted factors of that triangle (for every unit). -/
noncomputable def unitLdfs : Ser ℝ := [(1, .fin 3), (2, .fin (5 / 4)), (3, .fin (6 / 5)), (4, .fin 1)]

theorem unit_residuals (u : ℝ) : residualsByDevp (stairTri 4 (unitVals u)) unitLdfs =
    stdGroup (finGroup [(2001, 1, 10 * u), (2002, 1, -(10 * u)), (2003, 1, 0)]) ++
    stdGroup (finGroup [(2001, 2, 0), (2002, 2, 0)]) := by
  have hs := stairTri_stair 4 (unitVals u)
  rw [residualsByDevp_stair hs (f := fun j => ([3, 5 / 4, 6 / 5, 1] : List ℝ).getD j 0)]
  · simp only [List.range_succ, List.range_zero, List.nil_append, List.flatMap_append, residGroup, List.flatMap_cons,
      List.flatMap_nil, List.append_nil, Nat.reduceSub, List.map_append, List.map_cons, List.map_nil,
      List.cons_append]
    have e : ∀ i j, unitVals u i j = u *
      ((([[10, 20, 25, 30], [10, 40, 50], [10, 30], [10]] : List (List ℝ)).getD i []).getD j 0) := fun _ _ => rfl
    simp only [e]
    congr 3
    · congr 1
      · simp [stairTri, Tri.oAt, Tri.dAt, List.range_succ]; ring
      · congr 1
        · simp [stairTri, Tri.oAt, Tri.dAt, List.range_succ]; ring
        · simp [stairTri, Tri.oAt, Tri.dAt, List.range_succ]; ring
    · congr 1
      · simp [stairTri, Tri.oAt, Tri.dAt, List.range_succ]; ring
      · simp [stairTri, Tri.oAt, Tri.dAt, List.range_succ]; ring
  · intro j hj
    have : j = 0 ∨ j = 1 ∨ j = 2 := by omega
    rcases this with rfl | rfl | rfl <;>
      simp [stairTri, Tri.dAt, List.range_succ, unitLdfs, Ser.get]

/-- **C78 fails**: the same triangle in units a hundred times larger has no standardized residuals at
all, although its factors are the same. -/
theorem C78_fails : ∃ x : ℝ, x ≠ 0 ∧
    ((residualsByDevp (stairTri 4 (unitVals 1)) unitLdfs).map ResidRow.std).head? = some (.fin x) ∧
    ∀ r ∈ residualsByDevp (stairTri 4 (unitVals (1 / 100))) unitLdfs, r.std = .nan := by
  have m1 : msq [(2001, 1, 10 * 1), (2002, 1, -(10 * 1)), (2003, 1, 0)] = 200 / 3 := by
    unfold msq; norm_num
  have m2 : msq [(2001, 1, 10 * (1 / 100)), (2002, 1, -(10 * (1 / 100))), (2003, 1, 0)] = 1 / 150 := by
    unfold msq; norm_num
  have m3 : msq [(2001, 2, 0), (2002, 2, 0)] = 0 := by unfold msq; norm_num
  have hne : Real.sqrt (200 / 3 - 1) * Real.sqrt (((3 : ℕ) - 1 : ℝ) / (3 : ℕ)) ≠ 0 :=
    (mul_pos (Real.sqrt_pos.2 (by norm_num)) (Real.sqrt_pos.2 (by norm_num))).ne'
  refine ⟨10 * 1 / (Real.sqrt (200 / 3 - 1) * Real.sqrt (((3 : ℕ) - 1 : ℝ) / (3 : ℕ))), ?_, ?_, ?_⟩
  · exact div_ne_zero (by norm_num) hne
  · rw [unit_residuals, stdGroup_big (by simp) (by rw [m1]; norm_num), m1]
    rfl
  · rw [unit_residuals, stdGroup_small (by simp) (by rw [m2]; norm_num),
      stdGroup_small (by simp) (by rw [m3]; norm_num)]
    simp

end Trikit
