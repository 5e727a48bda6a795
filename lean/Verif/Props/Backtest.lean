import Verif.Props.MackErrors

/-!
# Excluding the newest calendar year (C213)

With all link ratios of the newest calendar year excluded, the development factors should be those selected one
year earlier, when the triangle was one period smaller.  `base_cl` raises for every triangle (medial averages
exist in no column without its most recent link ratio, C27).  `mack_cl` has no factor for the last period then.
With the link ratio of the last period kept, its factors are those of the year before; the variance parameters
are not, since their divisors count the excluded link ratios.
-/

set_option linter.unusedSectionVars false

namespace Trikit

section
variable {K : Type} [Field K] [LinearOrder K] [IsStrictOrderedRing K]
variable {t t' ind ind' : Tri K} {m : ℕ} {c w w' : ℕ → ℕ → K}

/-- The weights `w` of a triangle with `m + 1` periods are the weights `w'` of the year before (`m` periods) with the
newest link ratios excluded, except the only one of the last period. -/
structure Spec.NewestExcluded (m : ℕ) (w w' : ℕ → ℕ → K) : Prop where
  older : ∀ i j, i + j + 1 < m → w i j = w' i j
  newest : ∀ i j, i + j + 1 = m → j + 1 < m → w i j = 0
  last : 0 < w 0 (m - 1)

theorem colSum_newest {g : ℕ → K} {j : ℕ} (hj : j + 1 < m) (h0 : g (m - 1 - j) = 0) :
    Spec.colSum (m + 1) j g = Spec.colSum m j g := by
  unfold Spec.colSum
  rw [show m + 1 - 1 - j = m - 1 - j + 1 by omega, Finset.sum_range_succ, h0, add_zero]

theorem colSum_backtest (he : Spec.NewestExcluded m w w') {j : ℕ} (hj : j + 1 < m) (g : ℕ → K) :
    Spec.colSum (m + 1) j (fun i => w i j * g i) = Spec.colSum m j (fun i => w' i j * g i) := by
  rw [colSum_newest hj (by rw [he.newest _ j (by omega) hj, zero_mul])]
  unfold Spec.colSum
  apply Finset.sum_congr rfl
  intro i hi
  beta_reduce
  rw [he.older i j (by have := Finset.mem_range.1 hi; omega)]

theorem mackF_backtest (he : Spec.NewestExcluded m w w') (alpha : ℕ) {j : ℕ} (hj : j + 1 < m) :
    Spec.mackF alpha (m + 1) c w j = Spec.mackF alpha m c w' j := by
  unfold Spec.mackF Spec.mackW
  have h1 := colSum_backtest he hj (fun i => c i j ^ alpha * (c i (j + 1) / c i j))
  have h2 := colSum_backtest he hj (fun i => c i j ^ alpha)
  simp only [← mul_assoc] at h1
  rw [h1, h2]

theorem NewestExcluded.weights (he : Spec.NewestExcluded m w w') (hw : Spec.Weights m w') (hm : 1 ≤ m) :
    Spec.Weights (m + 1) w := by
  constructor
  · intro i j hij
    by_cases h : i + j + 1 < m
    · rw [he.older i j h]; exact hw.nonneg i j h
    · by_cases h2 : j + 1 < m
      · rw [he.newest i j (by omega) h2]
      · obtain ⟨rfl, rfl⟩ : i = 0 ∧ j = m - 1 := by omega
        exact he.last.le
  · intro j hj
    by_cases h2 : j + 1 < m
    · obtain ⟨i, hi, hp⟩ := hw.kept j (by omega)
      exact ⟨i, by omega, by rw [he.older i j hi]; exact hp⟩
    · obtain rfl : j = m - 1 := by omega
      exact ⟨0, by omega, he.last⟩

/-- **C213, the code violates it**: `base_cl` raises `IndexError` for every positive staircase, average and tail as soon
as the newest link ratio of any period is excluded, so in particular when the newest calendar year is. -/
theorem C213_base_fails (gm : List (Num K) → Num K) {n : ℕ} (h : Spec.Stair t n c) (hp : Spec.Positive n c)
    (hi : IndOn t ind n w) (hw : ∀ i j, i + j + 1 < n → w i j = 0 ∨ w i j = 1) (hn : 2 ≤ n)
    (hnew : ∀ i j, i + j + 2 = n → w i j = 0) (sel : String) (tail : Num K) :
    baseCL gm t ind sel tail = .error .indexError :=
  C27_base_cl ((C27_exclusion_partial gm h hp hi hw).2 ⟨0, by omega, hnew _ _ (by omega)⟩) sel tail

/-- **C213, what holds of `mack_cl`**: with the newest calendar year excluded except for the last period, the factors of
all other periods are those of the year before, and so every ultimate is the latest amount times the cumulative factor
of the year before times the factor of the last period.  For each `alpha`.  The full statement would exclude the last
link ratio too, see `C213_last_fails`. -/
theorem C213_mack_partial (h : Spec.Stair t (m + 1) c) (h' : Spec.Stair t' m c) (hp : Spec.Positive (m + 1) c)
    (hm : 4 ≤ m) (hi : IndW t ind (m + 1) w) (hi' : IndW t' ind' m w') (hw : Spec.Weights m w')
    (he : Spec.NewestExcluded m w w') (alpha : ℕ) :
    ∃ r r', mackCore alpha t ind = .ok r ∧ mackCore alpha t' ind' = .ok r' ∧
      (∀ j < m - 1, ∃ f, (r.ldfs.map Prod.snd)[j]? = some (.fin f) ∧ (r'.ldfs.map Prod.snd)[j]? = some (.fin f)) ∧
      ∀ i, 1 ≤ i → i ≤ m → ∃ row u, r.rows[i]? = some row ∧ (r'.cldfs.map Prod.snd)[m - i]? = some (.fin u) ∧
        (r.ldfs.map Prod.snd)[m - 1]? = some (.fin (c 0 m / c 0 (m - 1))) ∧ row.latest = .fin (c i (m - i)) ∧
        row.ultimate = .fin (c i (m - i) * (u * (c 0 m / c 0 (m - 1)))) := by
  have hp' : Spec.Positive m c := fun i j hij => hp i j (by omega)
  have hw1 := NewestExcluded.weights he hw (by omega)
  obtain ⟨r, b, lab, a1, a2⟩ := mack_parts h hp hi hw1 (by omega) alpha
  obtain ⟨r', b', lab', b1, b2⟩ := mack_parts h' hp' hi' hw hm alpha
  have hl : r.ldfs.map Prod.snd = (List.range (m + 1)).map (fun j => Num.fin (Spec.mackAll alpha (m + 1) c w j)) := by
    rw [a2.factors]; exact mackSer_snd h (by omega) lab _
  have hl' : r'.ldfs.map Prod.snd = (List.range m).map (fun j => Num.fin (Spec.mackAll alpha m c w' j)) := by
    rw [b2.factors]; exact mackSer_snd h' (by omega) lab' _
  have hlast : Spec.mackAll alpha (m + 1) c w (m - 1) = c 0 m / c 0 (m - 1) := by
    rw [Spec.mackAll_lt (by omega)]
    unfold Spec.mackF Spec.mackW Spec.colSum
    rw [show m + 1 - 1 - (m - 1) = 1 by omega, Finset.sum_range_one, Finset.sum_range_one,
      show m - 1 + 1 = m by omega, mul_comm, mul_div_assoc, div_self, mul_one]
    exact mul_ne_zero he.last.ne' (pow_ne_zero _ (hp 0 (m - 1) (by omega)).ne')
  have hsame : ∀ j < m - 1, Spec.mackAll alpha (m + 1) c w j = Spec.mackAll alpha m c w' j := fun j hj => by
    rw [Spec.mackAll_lt (by omega), Spec.mackAll_lt hj, mackF_backtest he alpha (by omega)]
  refine ⟨r, r', a1, b1, ?_, ?_⟩
  · intro j hj
    refine ⟨Spec.mackAll alpha m c w' j, ?_, ?_⟩
    · rw [hl, List.getElem?_map, List.getElem?_range (by omega), ← hsame j hj]; rfl
    · rw [hl', List.getElem?_map, List.getElem?_range (by omega)]; rfl
  · intro i hi1 hi2
    obtain ⟨row, hrow, -, -, -, -, hlat, hult, -⟩ := a2.spec.rows i (by omega)
    refine ⟨row, Spec.tailProd (Spec.mackAll alpha m c w') m (m - i), by rw [a2.rows]; exact hrow, ?_, ?_, ?_, ?_⟩
    · rw [b2.cldfs, b2.spec.cldfs_values, List.getElem?_map, List.getElem?_range (by omega)]; rfl
    · rw [hl, List.getElem?_map, List.getElem?_range (by omega)]
      show some (Num.fin _) = _
      rw [hlast]
    · rw [hlat]; congr 2
    · rw [hult, show m + 1 - 1 - i = m - i by omega]
      congr 2
      unfold Spec.tailProd
      have e1 : Spec.mackAll alpha (m + 1) c w m = 1 := by
        unfold Spec.mackAll Spec.withTail; rw [if_neg (by omega)]
      have e2 : Spec.mackAll alpha m c w' (m - 1) = 1 := by
        unfold Spec.mackAll Spec.withTail; rw [if_neg (by omega)]
      rw [Finset.prod_Ico_succ_top (by omega), e1, mul_one]
      obtain ⟨k, rfl⟩ : ∃ k, m = k + 1 := ⟨m - 1, by omega⟩
      rw [Nat.add_sub_cancel] at hlast e2 hsame
      rw [Finset.prod_Ico_succ_top (by omega), Finset.prod_Ico_succ_top (by omega), hlast, e2, mul_one]
      congr 1
      apply Finset.prod_congr rfl
      intro q hq
      exact hsame q (Finset.mem_Ico.1 hq).2

/-- **C213** does not extend to the variance parameters: their sums of squares are those of the year before, but the
divisor counts the excluded link ratio, so that each is smaller by the factor `(m - j - 2) / (m - j - 1)`. -/
theorem C213_variance_fails (h : Spec.Stair t (m + 1) c) (h' : Spec.Stair t' m c) (hp : Spec.Positive (m + 1) c)
    (hm : 4 ≤ m) (hi : IndW t ind (m + 1) w) (hi' : IndW t' ind' m w') (hw : Spec.Weights m w')
    (he : Spec.NewestExcluded m w w') (alpha : ℕ) :
    ∃ r r', mackCore alpha t ind = .ok r ∧ mackCore alpha t' ind' = .ok r' ∧
      ∀ j < m - 2, ∃ v v', (r.devpvar.map Prod.snd)[j]? = some (.fin v) ∧
        (r'.devpvar.map Prod.snd)[j]? = some (.fin v') ∧ v * ((m - j - 1 : ℕ) : K) = v' * ((m - j - 2 : ℕ) : K) ∧
        (v' ≠ 0 → v < v') := by
  have hp' : Spec.Positive m c := fun i j hij => hp i j (by omega)
  have hw1 := NewestExcluded.weights he hw (by omega)
  obtain ⟨r, b, lab, a1, a2⟩ := mack_parts h hp hi hw1 (by omega) alpha
  obtain ⟨r', b', lab', b1, b2⟩ := mack_parts h' hp' hi' hw hm alpha
  refine ⟨r, r', a1, b1, ?_⟩
  intro j hj
  refine ⟨Spec.sig0 alpha (m + 1) c w j, Spec.sig0 alpha m c w' j, ?_, ?_, ?_⟩
  · rw [a2.devpvar, List.map_map, List.getElem?_map, List.getElem?_range (by omega)]
    show some (storedVar alpha (m + 1) c w j) = _
    unfold storedVar; rw [if_pos (by omega)]
  · rw [b2.devpvar, List.map_map, List.getElem?_map, List.getElem?_range (by omega)]
    show some (storedVar alpha m c w' j) = _
    unfold storedVar; rw [if_pos (by omega)]
  · have hs : Spec.sqDev alpha (m + 1) c w (Spec.mackF alpha (m + 1) c w j) j =
        Spec.sqDev alpha m c w' (Spec.mackF alpha m c w' j) j := by
      rw [mackF_backtest he alpha (by omega)]
      unfold Spec.sqDev
      have := colSum_backtest he (by omega : j + 1 < m)
        (fun i => c i j ^ alpha * (c i (j + 1) / c i j - Spec.mackF alpha m c w' j) ^ 2)
      simpa only [← mul_assoc] using this
    have hnn : 0 ≤ Spec.sqDev alpha m c w' (Spec.mackF alpha m c w' j) j := by
      unfold Spec.sqDev Spec.colSum
      apply Finset.sum_nonneg
      intro i hi
      have hlt := Finset.mem_range.1 hi
      exact mul_nonneg (mul_nonneg (hw.nonneg i j (by omega)) (pow_nonneg (hp i j (by omega)).le _)) (sq_nonneg _)
    unfold Spec.sig0
    rw [hs]
    generalize Spec.sqDev alpha m c w' (Spec.mackF alpha m c w' j) j = S at *
    obtain ⟨d, hd⟩ : ∃ d, m - j - 2 = d + 1 := ⟨m - j - 3, by omega⟩
    rw [show m + 1 - j - 2 = d + 2 by omega, show m - j - 1 = d + 2 by omega, hd]
    have h1 : (0 : K) < ((d + 1 : ℕ) : K) := by positivity
    have h2 : (0 : K) < ((d + 2 : ℕ) : K) := by positivity
    refine ⟨by rw [div_mul_cancel₀ _ h2.ne', div_mul_cancel₀ _ h1.ne'], ?_⟩
    intro hne
    have hS : 0 < S := lt_of_le_of_ne hnn (fun e => hne (by rw [← e, zero_div]))
    apply div_lt_div_of_pos_left hS h1
    push_cast; linarith

end

/-! ### concrete cases -/

/-- Five origins and periods. -/
def exBack : ℕ → ℕ → ℚ := fun i j => (100 + 7 * i) * (1 + j) + i * j * j

/-- The newest calendar year excluded except for the last period. -/
def exBackInd : Tri ℚ :=
  (((stairTri 5 exBack).a2aind0.setAt 2002 3 0).setAt 2003 2 0).setAt 2004 1 0

/-- Factors and variances with the newest year excluded, and one year earlier. -/
example : (mackCore 1 (stairTri 5 exBack) exBackInd).toOption.map
      (fun r => (r.ldfs.map Prod.snd, r.rows.map SummRow.ultimate, (r.devpvar.map Prod.snd).take 2)) =
    some ([.fin (215 / 107), .fin (125 / 83), .fin (4 / 3), .fin (5 / 4), 1],
      [.fin 500, .fin (2185 / 4), .fin (1750 / 3), .fin (153125 / 249), .fin (17200000 / 26643)],
      [.fin (100 / 18297), .fin (25 / 3569)]) ∧
    (mackCore 1 (stairTri 4 exBack) (stairTri 4 exBack).a2aind0).toOption.map
      (fun r => (r.ldfs.map Prod.snd, r.cldfs.map Prod.snd, (r.devpvar.map Prod.snd).take 2)) =
    some ([.fin (215 / 107), .fin (125 / 83), .fin (4 / 3), 1],
      [.fin (107500 / 26643), .fin (500 / 249), .fin (4 / 3), 1],
      [.fin (50 / 6099), .fin (50 / 3569)]) := by
  constructor <;> decide +kernel

/-- **C213, the code violates it** in `mack_cl`: with the last link ratio excluded too there is no factor for the last
period, no ultimate for any origin but the oldest, and yet all mean squared errors are 0. -/
theorem C213_last_fails : (mackCore 1 (stairTri 5 exBack) (exBackInd.setAt 2001 4 0)).toOption.map
      (fun r => (r.ldfs.map Prod.snd, r.rows.map SummRow.ultimate, r.mse)) =
    some ([.fin (215 / 107), .fin (125 / 83), .fin (4 / 3), .nan, 1], [.fin 500, .nan, .nan, .nan, .nan],
      [0, 0, 0, 0, 0]) := by
  decide +kernel

/-- `base_cl` on the same triangle. -/
example : (baseCL (fun _ => .nan) (stairTri 5 exBack) exBackInd "all-simple" 1).toOption.isNone = true := by
  decide +kernel

end Trikit
