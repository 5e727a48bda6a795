import Verif.Props.AboveExpected

/-!
# C232: what one more diagonal does to factors and variances of `mack_cl`

`MackChainLadder` (mack.py) at two evaluations, the second one period later, with any new diagonal.
-/

set_option linter.unusedSectionVars false

namespace Trikit

section
variable {K : Type} [Field K] [LinearOrder K] [IsStrictOrderedRing K]
variable {t t' ind ind' : Tri K} {n : ℕ} {c c' w w' : ℕ → ℕ → K}

theorem colSum_year (hy : Spec.NextYear n c c') (hww : ∀ i j, i + j + 1 < n → w' i j = w i j) {j : ℕ} (hj : j < n - 1)
    (φ : K → K → K → K) :
    Spec.colSum (n + 1) j (fun i => φ (w' i j) (c' i j) (c' i (j + 1))) =
      Spec.colSum n j (fun i => φ (w i j) (c i j) (c i (j + 1))) +
        φ (w' (n - 1 - j) j) (c (n - 1 - j) j) (c' (n - 1 - j) (j + 1)) := by
  unfold Spec.colSum
  rw [show n + 1 - 1 - j = n - 1 - j + 1 by omega, Finset.sum_range_succ, hy.same _ _ (by omega)]
  congr 1
  refine Finset.sum_congr rfl fun i hi => ?_
  rw [Finset.mem_range] at hi
  rw [hy.same _ _ (by omega), hy.same _ _ (by omega), hww _ _ (by omega)]

theorem sqDev_shift (alpha : ℕ) {j : ℕ} (hW : 0 < Spec.mackW alpha n c w j) (g : K) :
    Spec.sqDev alpha n c w g j = Spec.sqDev alpha n c w (Spec.mackF alpha n c w j) j +
      Spec.mackW alpha n c w j * (g - Spec.mackF alpha n c w j) ^ 2 := by
  set F := Spec.mackF alpha n c w j with hF
  have h0 : Spec.colSum n j (fun i => w i j * c i j ^ alpha * (c i (j + 1) / c i j)) = Spec.mackW alpha n c w j * F := by
    rw [hF, Spec.mackF, mul_div_cancel₀ _ hW.ne']
  have h1 : Spec.sqDev alpha n c w g j = Spec.sqDev alpha n c w F j +
      (2 * F - 2 * g) * Spec.colSum n j (fun i => w i j * c i j ^ alpha * (c i (j + 1) / c i j)) +
      (g ^ 2 - F ^ 2) * Spec.mackW alpha n c w j := by
    unfold Spec.sqDev Spec.mackW Spec.colSum
    rw [Finset.mul_sum, Finset.mul_sum, ← Finset.sum_add_distrib, ← Finset.sum_add_distrib]
    exact Finset.sum_congr rfl fun i _ => by ring
  rw [h1, h0]
  ring

/-- Weight of the newest link ratio of period `j` among all of them, at the second evaluation. -/
def Spec.newShare (alpha n : ℕ) (c' w' : ℕ → ℕ → K) (j : ℕ) : K :=
  w' (n - 1 - j) j * c' (n - 1 - j) j ^ alpha / ∑ i ∈ Finset.range (n - j), w' i j * c' i j ^ alpha

/-- **C232.** `mack_cl` with any `alpha` and exclusion weights on any two positive staircases one period apart, whatever the
new diagonal: every factor moves by the share `z` of the newest link ratio times its distance from the factor; and `n - j - 1`
times the new variance parameter is `n - j - 2` times the old one and `1 - z` times the weighted square of that distance.  So
the parameter rises exactly when this square exceeds it. -/
theorem C232_update (h : Spec.Stair t n c) (hp : Spec.Positive n c) (hi : IndW t ind n w) (hw : Spec.Weights n w)
    (h' : Spec.Stair t' (n + 1) c') (hi' : IndW t' ind' (n + 1) w') (hw' : Spec.Weights (n + 1) w')
    (hww : ∀ i j, i + j + 1 < n → w' i j = w i j) (hn : 4 ≤ n) (hy : Spec.NextYear n c c') (alpha : ℕ) :
    ∃ r r' : MackCore K, mackCore alpha t ind = .ok r ∧ mackCore alpha t' ind' = .ok r' ∧
      ∀ j < n - 1, ∃ f f' z d q : K, r.ldfs.iloc j = .fin f ∧ r'.ldfs.iloc j = .fin f' ∧
        z = Spec.newShare alpha n c' w' j ∧ 0 ≤ z ∧ z < 1 ∧ d = c' (n - 1 - j) (j + 1) / c' (n - 1 - j) j - f ∧
        f' = f + z * d ∧ q = (1 - z) * (w' (n - 1 - j) j * c' (n - 1 - j) j ^ alpha * d ^ 2) ∧
        (j < n - 2 → ∃ v v' : K, r.devpvar.iloc j = .fin v ∧ r'.devpvar.iloc j = .fin v' ∧
          ((n - j - 1 : ℕ) : K) * v' = ((n - j - 2 : ℕ) : K) * v + q ∧ (v < v' ↔ v < q) ∧ (v' < v ↔ q < v)) := by
  have hp' := hy.positive hp
  obtain ⟨r, b, lab, g1, p⟩ := mack_parts h hp hi hw hn alpha
  obtain ⟨r', b', lab', g1', p'⟩ := mack_parts h' hp' hi' hw' (by omega) alpha
  refine ⟨r, r', g1, g1', fun j hj => ?_⟩
  have hW := mackW_pos hp hw alpha hj
  have hW' := mackW_pos hp' hw' alpha (j := j) (by omega)
  have hsame : c' (n - 1 - j) j = c (n - 1 - j) j := hy.same _ _ (by omega)
  set o := n - 1 - j with ho
  set ω := w' o j * c' o j ^ alpha with hω
  have hω0 : 0 ≤ ω := mul_nonneg (hw'.nonneg _ _ (by omega)) (pow_pos (hp' _ _ (by omega)) _).le
  have sW : Spec.mackW alpha (n + 1) c' w' j = Spec.mackW alpha n c w j + ω := by
    have := colSum_year hy hww hj (fun a x _ => a * x ^ alpha)
    rw [hω, hsame]; exact this
  have hz : Spec.newShare alpha n c' w' j = ω / Spec.mackW alpha (n + 1) c' w' j := by
    unfold Spec.newShare Spec.mackW Spec.colSum
    rw [show n + 1 - 1 - j = n - j by omega]
  set F := Spec.mackF alpha n c w j with hF
  set W := Spec.mackW alpha n c w j with hWd
  have hden : W + ω ≠ 0 := by rw [← sW]; exact hW'.ne'
  have sF : Spec.mackF alpha (n + 1) c' w' j = F + ω / (W + ω) * (c' o (j + 1) / c' o j - F) := by
    have h1 := colSum_year hy hww hj (fun a x y => a * x ^ alpha * (y / x))
    have h0 : Spec.colSum n j (fun i => w i j * c i j ^ alpha * (c i (j + 1) / c i j)) = W * F := by
      rw [hF, Spec.mackF, mul_div_cancel₀ _ hW.ne']
    rw [Spec.mackF, sW]
    beta_reduce at h1
    rw [h1, h0, ← ho, ← hsame, ← hω]
    field_simp
    ring
  refine ⟨F, _, Spec.newShare alpha n c' w' j, c' o (j + 1) / c' o j - F, _, p.ldf h j hj, p'.ldf h' j (by omega), rfl, ?_, ?_,
    rfl, ?_, rfl, fun hj2 => ?_⟩
  · rw [hz]; exact div_nonneg hω0 hW'.le
  · rw [hz, div_lt_one hW', sW]; linarith
  · rw [hz, sW]; exact sF
  · have hv : r.devpvar.iloc j = .fin (Spec.sig0 alpha n c w j) := by
      rw [p.dv j hj]; unfold storedVar; rw [if_pos (by omega)]
    have hv' : r'.devpvar.iloc j = .fin (Spec.sig0 alpha (n + 1) c' w' j) := by
      rw [p'.dv j (by omega)]; unfold storedVar; rw [if_pos (by omega)]
    have hk : ((n - j - 2 : ℕ) : K) ≠ 0 := by
      have : n - j - 2 ≠ 0 := by omega
      exact_mod_cast this
    have hk' : ((n - j - 1 : ℕ) : K) = ((n - j - 2 : ℕ) : K) + 1 := by
      rw [show n - j - 1 = n - j - 2 + 1 by omega]; push_cast; ring
    have hk0 : (0 : K) ≤ ((n - j - 2 : ℕ) : K) := Nat.cast_nonneg _
    have sS : Spec.sqDev alpha (n + 1) c' w' (Spec.mackF alpha (n + 1) c' w' j) j =
        Spec.sqDev alpha n c w F j + (1 - ω / (W + ω)) * (ω * (c' o (j + 1) / c' o j - F) ^ 2) := by
      set G := Spec.mackF alpha (n + 1) c' w' j with hG
      have h1 := colSum_year hy hww hj (fun a x y => a * x ^ alpha * (y / x - G) ^ 2)
      have h2 := sqDev_shift alpha hW G
      rw [← hF, ← hWd] at h2
      have h3 : Spec.sqDev alpha (n + 1) c' w' G j = Spec.sqDev alpha n c w G j + ω * (c' o (j + 1) / c' o j - G) ^ 2 := by
        rw [hω, hsame]; exact h1
      rw [h3, h2, sF]
      field_simp
      ring
    have key : ((n - j - 1 : ℕ) : K) * Spec.sig0 alpha (n + 1) c' w' j = ((n - j - 2 : ℕ) : K) * Spec.sig0 alpha n c w j +
        (1 - Spec.newShare alpha n c' w' j) * (ω * (c' o (j + 1) / c' o j - F) ^ 2) := by
      unfold Spec.sig0
      rw [show n + 1 - j - 2 = n - j - 1 by omega, mul_div_cancel₀ _ (by rw [hk']; positivity), mul_div_cancel₀ _ hk, sS, hz, sW]
    refine ⟨_, _, hv, hv', key, ?_, ?_⟩
    · rw [hk'] at key
      constructor
      · intro hlt; nlinarith
      · intro hlt; by_contra hc; nlinarith [not_lt.1 hc]
    · rw [hk'] at key
      constructor
      · intro hlt; nlinarith
      · intro hlt; by_contra hc; nlinarith [not_lt.1 hc]

end

/-- A concrete case: three origins of 100 each have passed the second period or are about to; the third develops by a fifth.  Its
share is a third, the factor moves by 1/15, twice the new variance parameter is `2/3 * 100 / 25`. -/
example : [stairTri 4 (exAbove 120), stairTri 5 (exAbove 120)].map (fun t =>
      (mackCore 1 t t.a2aind0).toOption.map (fun r => (r.ldfs.iloc 1, r.devpvar.iloc 1))) =
    [some (.fin 1, .fin 0), some (.fin (16/15), .fin (4/3))] := by decide +kernel

end Trikit
