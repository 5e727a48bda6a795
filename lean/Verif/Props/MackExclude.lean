import Verif.Props.FactorError
import Verif.Props.ExcludeHigh

/-!
# C237: what one more exclusion does to factor, variance and error of `mack_cl`

`MackChainLadder._ldfs`, `_devp_variance`, `_ldf_variance` (mack.py:250-334) with two indicators that differ in one link ratio.
-/

set_option linter.unusedSectionVars false

namespace Trikit

section
variable {K : Type} [Field K] [LinearOrder K] [IsStrictOrderedRing K]
variable {t ind ind' : Tri K} {n : ℕ} {c w w' : ℕ → ℕ → K}

/-- Share of the link ratio of origin `i` in the weights of period `j`. -/
def Spec.shareOf (alpha n : ℕ) (c w : ℕ → ℕ → K) (i j : ℕ) : K :=
  w i j * c i j ^ alpha / ∑ q ∈ Finset.range (n - 1 - j), w q j * c q j ^ alpha

/-- **C237.** `mack_cl` with any `alpha` on a positive staircase, with any exclusion weights and with one more link ratio `x` excluded,
`z` its share in the weights of the period and `d` its distance from the factor.  The factor moves by `z / (1 - z) * d` away from
`x`.  `n - j - 2` times the variance parameter falls by the weighted square of `d` over `1 - z`: the divisor still counts the excluded
ratio, so that no exclusion ever raises the parameter, and every one with `d ≠ 0` lowers it.  The squared error of the factor is
divided by `1 - z` besides. -/
theorem C237_exclude (h : Spec.Stair t n c) (hp : Spec.Positive n c) (hn : 4 ≤ n) (hi : IndW t ind n w) (hi' : IndW t ind' n w')
    (hw : Spec.Weights n w) (hw' : Spec.Weights n w') {i j : ℕ} (hij : i + j + 1 < n) (hj : j < n - 2) (hpos : 0 < w i j)
    (h0 : w' i j = 0) (hoff : ∀ p q, p + q + 1 < n → ¬ (p = i ∧ q = j) → w' p q = w p q) (alpha : ℕ) :
    ∃ (r r' : MackCore K) (f f' z d v v' s s' m : K), mackCore alpha t ind = .ok r ∧ mackCore alpha t ind' = .ok r' ∧
      r.ldfs.iloc j = .fin f ∧ r'.ldfs.iloc j = .fin f' ∧ r.devpvar.iloc j = .fin v ∧ r'.devpvar.iloc j = .fin v' ∧
      r.ldfvar.iloc j = .fin s ∧ r'.ldfvar.iloc j = .fin s' ∧ z = Spec.shareOf alpha n c w i j ∧ 0 < z ∧ z < 1 ∧
      d = c i (j + 1) / c i j - f ∧ m = ((n - j - 2 : ℕ) : K) ∧ f' = f - z / (1 - z) * d ∧
      m * v' = m * v - w i j * c i j ^ alpha * d ^ 2 / (1 - z) ∧ v' ≤ v ∧ (v' < v ↔ d ≠ 0) ∧
      m * ((1 - z) * s') = m * s - z / (1 - z) * d ^ 2 := by
  obtain ⟨r, b, lab, g1, p⟩ := mack_parts h hp hi hw hn alpha
  obtain ⟨r', b', lab', g1', p'⟩ := mack_parts h hp hi' hw' hn alpha
  have hj1 : j < n - 1 := by omega
  have hW := mackW_pos hp hw alpha hj1
  have hW' := mackW_pos hp hw' alpha hj1
  have hoffj : ∀ q < n - 1 - j, q ≠ i → w' q j = w q j := fun q hq hqi => hoff q j (by omega) (fun hh => hqi hh.1)
  set ω := w i j * c i j ^ alpha with hω
  have hω0 : 0 < ω := mul_pos hpos (pow_pos (hp _ _ (by omega)) _)
  set W := Spec.mackW alpha n c w j with hWd
  set W' := Spec.mackW alpha n c w' j with hWd'
  set F := Spec.mackF alpha n c w j with hF
  set G := Spec.mackF alpha n c w' j with hG
  set x := c i (j + 1) / c i j with hx
  have sW : W' = W - ω := colSum_exclude hij h0 hoffj (fun q => c q j ^ alpha)
  have sN : Spec.colSum n j (fun q => w' q j * c q j ^ alpha * (c q (j + 1) / c q j)) =
      Spec.colSum n j (fun q => w q j * c q j ^ alpha * (c q (j + 1) / c q j)) - ω * x := by
    have := colSum_exclude hij h0 hoffj (fun q => c q j ^ alpha * (c q (j + 1) / c q j))
    simp only [← mul_assoc] at this
    rw [this, hω, hx]
  have nF : Spec.colSum n j (fun q => w q j * c q j ^ alpha * (c q (j + 1) / c q j)) = W * F := by
    rw [hF, Spec.mackF, mul_div_cancel₀ _ hW.ne']
  have nG : Spec.colSum n j (fun q => w' q j * c q j ^ alpha * (c q (j + 1) / c q j)) = W' * G := by
    rw [hG, Spec.mackF, mul_div_cancel₀ _ hW'.ne']
  have hWG : W' * G = W * F - ω * x := by rw [← nG, sN, nF]
  have hWω : W - ω ≠ 0 := by rw [← sW]; exact hW'.ne'
  have hWω0 : 0 < W - ω := by rw [← sW]; exact hW'
  have hz : Spec.shareOf alpha n c w i j = ω / W := rfl
  have hz1 : 1 - ω / W = (W - ω) / W := by rw [sub_div, div_self hW.ne']
  have sG : G = F - ω / W / (1 - ω / W) * (x - F) := by
    have : G = (W * F - ω * x) / (W - ω) := by rw [eq_div_iff hWω, mul_comm, ← hWG, sW]
    rw [this, hz1]
    field_simp
    ring
  have sS : Spec.sqDev alpha n c w' G j = Spec.sqDev alpha n c w F j - ω * (x - F) ^ 2 / (1 - ω / W) := by
    have e1 := sqDev_shift alpha hW G
    have e2 : Spec.sqDev alpha n c w' G j = Spec.sqDev alpha n c w G j - ω * (x - G) ^ 2 := by
      have := colSum_exclude hij h0 hoffj (fun q => c q j ^ alpha * (c q (j + 1) / c q j - G) ^ 2)
      simp only [← mul_assoc] at this
      exact this
    rw [← hF, ← hWd] at e1
    rw [e2, e1, sG, hz1]
    field_simp
    ring
  have hk : (0 : K) < ((n - j - 2 : ℕ) : K) := by exact_mod_cast (show 0 < n - j - 2 by omega)
  have hv : r.devpvar.iloc j = .fin (Spec.sig0 alpha n c w j) := by
    rw [p.dv j hj1]; unfold storedVar; rw [if_pos (by omega)]
  have hv' : r'.devpvar.iloc j = .fin (Spec.sig0 alpha n c w' j) := by
    rw [p'.dv j hj1]; unfold storedVar; rw [if_pos (by omega)]
  have hs : r.ldfvar.iloc j = .fin (Spec.sig0 alpha n c w j / W) := by
    rw [p.lv j hj1, ← p.dv j hj1, hv, Num.fin_div _ _ hW.ne']
  have hs' : r'.ldfvar.iloc j = .fin (Spec.sig0 alpha n c w' j / W') := by
    rw [p'.lv j hj1, ← p'.dv j hj1, hv', Num.fin_div _ _ hW'.ne']
  have m1 : ((n - j - 2 : ℕ) : K) * Spec.sig0 alpha n c w j = Spec.sqDev alpha n c w F j := by
    unfold Spec.sig0; rw [mul_div_cancel₀ _ hk.ne']
  have m2 : ((n - j - 2 : ℕ) : K) * Spec.sig0 alpha n c w' j = Spec.sqDev alpha n c w' G j := by
    unfold Spec.sig0; rw [mul_div_cancel₀ _ hk.ne']
  have hzp : 0 < ω / W := div_pos hω0 hW
  have hzl : 0 < 1 - ω / W := by rw [hz1]; exact div_pos hWω0 hW
  have main : ((n - j - 2 : ℕ) : K) * Spec.sig0 alpha n c w' j = ((n - j - 2 : ℕ) : K) * Spec.sig0 alpha n c w j -
      ω * (x - F) ^ 2 / (1 - ω / W) := by rw [m1, m2, sS]
  have q0 : 0 ≤ ω * (x - F) ^ 2 / (1 - ω / W) := div_nonneg (mul_nonneg hω0.le (sq_nonneg _)) hzl.le
  have hle : Spec.sig0 alpha n c w' j ≤ Spec.sig0 alpha n c w j := by
    refine le_of_mul_le_mul_left ?_ hk
    rw [main]; linarith
  refine ⟨r, r', F, G, _, x - F, _, _, _, _, _, g1, g1', p.ldf h j hj1, p'.ldf h j hj1, hv, hv', hs, hs', rfl, hzp, by
    rw [hz]; linarith, rfl, rfl, sG, main, hle, ?_, ?_⟩
  · rw [← mul_lt_mul_iff_right₀ hk, main]
    constructor
    · intro hlt e; rw [e] at hlt; simp at hlt
    · intro hne
      have : 0 < ω * (x - F) ^ 2 / (1 - ω / W) := div_pos (mul_pos hω0 (by positivity)) hzl
      linarith
  · rw [hz, ← mul_div_assoc ((n - j - 2 : ℕ) : K) (Spec.sig0 alpha n c w j) W]
    have e1 : ((n - j - 2 : ℕ) : K) * ((1 - ω / W) * (Spec.sig0 alpha n c w' j / W')) =
        ((n - j - 2 : ℕ) : K) * Spec.sig0 alpha n c w' j / W := by
      rw [hz1, sW]; field_simp
    rw [e1, main, sub_div, hz1]
    congr 1
    field_simp

end

/-- A concrete case: link ratios 9, 5, 5, 1 of equal amounts 100 have variance `100 * 32 / 3`; without the 9, which is a quarter and lies
4 above the factor, three times the variance falls by `100 * 16 / (3/4)`, and the factor falls by `1/3 * 4`. -/
example : [(stairTri 5 exExcl).a2aind0, (stairTri 5 exExcl).a2aind0.setAt 2001 1 0].map (fun ind =>
    ((mackCore 1 (stairTri 5 exExcl) ind).toOption.map (fun r => (r.ldfs.iloc 0, r.devpvar.iloc 0)))) =
    [some (.fin 5, .fin (3200 / 3)), some (.fin (5 - 4 / 3), .fin ((3200 - 1600 / (3 / 4)) / 3))] := by decide +kernel

end Trikit
