import Verif.Props.MackUpdate

/-!
# C234: what one more diagonal does to the standard errors of the factors of `mack_cl`

`MackChainLadder._ldf_variance` (mack.py:275-298) at two evaluations, the second one period later, with any new diagonal.
-/

set_option linter.unusedSectionVars false

namespace Trikit

section
variable {K : Type} [Field K] [LinearOrder K] [IsStrictOrderedRing K]
variable {t t' ind ind' : Tri K} {n : ℕ} {c c' w w' : ℕ → ℕ → K}

/-- **C234.** `mack_cl` with any `alpha` and exclusion weights on any two positive staircases one period apart, whatever the
new diagonal.  With `z` the share of the newest link ratio and `d` its distance from the factor, `n - j - 1` times the new squared
standard error of the factor is `1 - z` times the sum of `n - j - 2` times the old one and `z * d ^ 2`.  So the error falls exactly
when `z * (1 - z) * d ^ 2` is below `1 + (n - j - 2) * z` times its square; it always falls when the newest ratio confirms the factor. -/
theorem C234_error (h : Spec.Stair t n c) (hp : Spec.Positive n c) (hi : IndW t ind n w) (hw : Spec.Weights n w)
    (h' : Spec.Stair t' (n + 1) c') (hi' : IndW t' ind' (n + 1) w') (hw' : Spec.Weights (n + 1) w')
    (hww : ∀ i j, i + j + 1 < n → w' i j = w i j) (hn : 4 ≤ n) (hy : Spec.NextYear n c c') (alpha : ℕ) :
    ∃ r r' : MackCore K, mackCore alpha t ind = .ok r ∧ mackCore alpha t' ind' = .ok r' ∧
      ∀ j < n - 2, ∃ f z d s s' m : K, r.ldfs.iloc j = .fin f ∧ r.ldfvar.iloc j = .fin s ∧ r'.ldfvar.iloc j = .fin s' ∧
        z = Spec.newShare alpha n c' w' j ∧ d = c' (n - 1 - j) (j + 1) / c' (n - 1 - j) j - f ∧ m = ((n - j - 2 : ℕ) : K) ∧
        (m + 1) * s' = (1 - z) * (m * s + z * d ^ 2) ∧ (s' < s ↔ z * (1 - z) * d ^ 2 < (1 + m * z) * s) ∧
        (s < s' ↔ (1 + m * z) * s < z * (1 - z) * d ^ 2) ∧ (d = 0 → 0 < s → s' < s) := by
  have hp' := hy.positive hp
  obtain ⟨r, b, lab, g1, p⟩ := mack_parts h hp hi hw hn alpha
  obtain ⟨r', b', lab', g1', p'⟩ := mack_parts h' hp' hi' hw' (by omega) alpha
  refine ⟨r, r', g1, g1', fun j hj => ?_⟩
  obtain ⟨q, q', e1, e1', hall⟩ := C232_update h hp hi hw h' hi' hw' hww hn hy alpha
  obtain rfl : r = q := Except.ok.inj (g1.symm.trans e1)
  obtain rfl : r' = q' := Except.ok.inj (g1'.symm.trans e1')
  obtain ⟨f, f', z, d, x, hf, -, hz, hz0, hz1, hd, -, hx, hv⟩ := hall j (by omega)
  obtain ⟨v, v', hv1, hv1', key, -, -⟩ := hv hj
  have hW := mackW_pos hp hw alpha (j := j) (by omega)
  have hW' := mackW_pos hp' hw' alpha (j := j) (by omega)
  have hsame : c' (n - 1 - j) j = c (n - 1 - j) j := hy.same _ _ (by omega)
  set W := Spec.mackW alpha n c w j with hWd
  set W' := Spec.mackW alpha (n + 1) c' w' j with hWd'
  set ω := w' (n - 1 - j) j * c' (n - 1 - j) j ^ alpha with hω
  have sW : W' = W + ω := by
    have := colSum_year hy hww (j := j) (by omega) (fun a x _ => a * x ^ alpha)
    rw [hω, hsame]; exact this
  have hz' : z = ω / W' := by
    rw [hz, hWd']
    unfold Spec.newShare Spec.mackW Spec.colSum
    rw [show n + 1 - 1 - j = n - j by omega]
  have hzW : z * W' = ω := by rw [hz', div_mul_cancel₀ _ hW'.ne']
  have hs : r.ldfvar.iloc j = .fin (v / W) := by
    rw [p.lv j (by omega), ← p.dv j (by omega), hv1, Num.fin_div _ _ hW.ne']
  have hs' : r'.ldfvar.iloc j = .fin (v' / W') := by
    rw [p'.lv j (by omega), ← p'.dv j (by omega), hv1', Num.fin_div _ _ hW'.ne']
  have hk' : ((n - j - 1 : ℕ) : K) = ((n - j - 2 : ℕ) : K) + 1 := by
    rw [show n - j - 1 = n - j - 2 + 1 by omega]; push_cast; ring
  rw [hk', hx] at key
  have hm0 : (0 : K) ≤ ((n - j - 2 : ℕ) : K) := Nat.cast_nonneg _
  set m : K := ((n - j - 2 : ℕ) : K) with hm
  have hWz : W = (1 - z) * W' := by linarith
  have main : (m + 1) * (v' / W') = (1 - z) * (m * (v / W) + z * d ^ 2) := by
    have h1 : v / W * W = v := div_mul_cancel₀ _ hW.ne'
    rw [← mul_div_assoc, key, div_eq_iff hW'.ne', ← hzW]
    have : (1 - z) * (m * (v / W) + z * d ^ 2) * W' = m * (v / W * ((1 - z) * W')) + (1 - z) * (z * W' * d ^ 2) := by ring
    rw [this, ← hWz, h1]
  have iff1 : v' / W' < v / W ↔ z * (1 - z) * d ^ 2 < (1 + m * z) * (v / W) := by
    rw [← mul_lt_mul_iff_right₀ (show 0 < m + 1 by linarith), main]
    constructor <;> intro hlt <;> linarith
  have iff2 : v / W < v' / W' ↔ (1 + m * z) * (v / W) < z * (1 - z) * d ^ 2 := by
    rw [← mul_lt_mul_iff_right₀ (show 0 < m + 1 by linarith), main]
    constructor <;> intro hlt <;> linarith
  refine ⟨f, z, d, v / W, v' / W', m, hf, hs, hs', hz, hd, rfl, main, iff1, iff2, fun h0 hpos => iff1.2 ?_⟩
  rw [h0]
  have : 0 ≤ m * z := mul_nonneg hm0 hz0
  nlinarith

end

/-- A concrete case: in the triangle of the case of `C232_update` the newest ratio of the second period lies 1/5 above the factor and
has the share 1/3, so that twice the new squared error is `2/3 * (1/3 * 1/25)`. -/
example : [stairTri 4 (exAbove 120), stairTri 5 (exAbove 120)].map (fun t =>
      (mackCore 1 t t.a2aind0).toOption.map (fun r => r.ldfvar.iloc 1)) =
    [some (.fin 0), some (.fin (2/3 * (1/3 * (1/25)) / 2))] := by decide +kernel

end Trikit
