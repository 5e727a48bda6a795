import Verif.AvgTable
import Mathlib.Data.Rat.Defs

/-! # Concrete triangles used beside the theorems -/

set_option linter.unusedSectionVars false

namespace Trikit

/-- The `n x n` staircase with values `c`, origins 2001, 2002, ... and development periods 1, 2, ... -/
def stairTri {K : Type} (n : ℕ) (c : ℕ → ℕ → K) : Tri K :=
  { origins := (List.range n).map (fun i : ℕ => 2001 + (i : Int))
    devs := (List.range n).map (fun j : ℕ => 1 + (j : Int))
    cell := fun i j => if i + j < n then .fin (c i j) else .nan }

theorem range_map_increasing (n : ℕ) (a : Int) :
    Spec.Increasing ((List.range n).map (fun i : ℕ => a + (i : Int))) := by
  unfold Spec.Increasing
  rw [List.pairwise_map]
  refine List.pairwise_lt_range.imp ?_
  intro i j h; omega

theorem stairTri_stair {K : Type} (n : ℕ) (c : ℕ → ℕ → K) : Spec.Stair (stairTri n c) n c := by
  refine ⟨by simp [Tri.nr, stairTri], by simp [Tri.nc, stairTri], range_map_increasing _ _,
    range_map_increasing _ _, ?_, ?_⟩
  · intro i j h; simp [stairTri, h]
  · intro i j _ _ h; simp [stairTri, h]

/-- Values of the 4 x 4 example (increasing rows). -/
def exVals : ℕ → ℕ → ℚ := fun i j =>
  ((([[100, 150, 180, 198], [110, 176, 220], [120, 168], [130]] : List (List ℚ)).getD i []).getD j 0)

/-- The 4 x 4 example. -/
def exTri : Tri ℚ := stairTri 4 exVals

theorem exTri_stair : Spec.Stair exTri 4 exVals := stairTri_stair 4 exVals

theorem exVals_pos : Spec.Positive 4 exVals := by
  intro i j h
  have hi : i < 4 := by omega
  have hj : j < 4 := by omega
  have : ∀ i < 4, ∀ j < 4, i + j < 4 → 0 < exVals i j := by decide +kernel
  exact this i hi j hj h

end Trikit
