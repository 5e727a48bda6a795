import Verif.RoundedMackSumm
import Verif.Props.RoundedMackError
import Verif.Props.RoundedLevels
import Verif.Props.RoundedGeo

/-!
# C178, C179: standard errors and quantiles of Mack chain ladder in rounded arithmetic
-/

set_option linter.unusedSectionVars false

namespace Trikit

/-! ### without rounding -/

/-- The exact distribution behind the parameters. -/
def RVR.toRV : RVR ℝ → RV
  | .norm l s => .norm l s
  | .lognorm l s => .lognorm l s

theorem rounded_id {K : Type} [Field K] [LinearOrder K] (x : Num K) : x.rounded id = x := by cases x <;> rfl

theorem mackRVR_id (dist : String) (se r : Num ℝ) :
    (mackRVR id Num.sqrt Num.log Num.exp dist se r).map RVR.toRV = mackRV dist se r := by
  have h1 : logSigmaR id Num.sqrt Num.log se r = logSigma se r := by
    simp only [logSigmaR, logSigma, Num.addR, Num.powR, Num.divR, rounded_id]
  have h2 : logMuR id Num.sqrt Num.log se r = logMu se r := by
    simp only [logMuR, logMu, Num.subR, Num.mulR, Num.powR, rounded_id, h1, clip0R, clip0]
  unfold mackRVR mackRV
  rw [h1, h2]
  split
  · rfl
  · split <;> rfl

theorem mapM_map_toRV {α : Type} (f : α → Except PyErr (RVR ℝ)) (g : α → Except PyErr RV)
    (h : ∀ a, (f a).map RVR.toRV = g a) (l : List α) : (l.mapM f).map (List.map RVR.toRV) = l.mapM g := by
  induction l with
  | nil => rfl
  | cons a l ih =>
    rw [List.mapM_cons, List.mapM_cons, ← ih, ← h a]
    simp only [bind, Except.bind, pure, Except.pure, Except.map]
    cases f a with
    | error e => rfl
    | ok v =>
      cases l.mapM f <;> rfl

/-- **C178, without rounding** the rounded functions are those of `Mack.lean`. -/
theorem C178_exact {br : ℕ → SumTree} (hb : Spec.Bracketing br) (alpha : ℕ) (t ind : Tri ℝ) (dist : String) :
    (mackCallR br id Num.sqrt Num.log Num.exp alpha t ind dist).map
      (fun r => (r.stdErr, r.cv, r.rvs.map RVR.toRV)) =
    (mackCall alpha t ind dist).map (fun r => (r.stdErr, r.cv, r.rvs)) := by
  unfold mackCallR mackCall
  rw [C151_exact hb]
  simp only [bind, Except.bind]
  cases mackCore alpha t ind with
  | error e => rfl
  | ok core =>
    simp only
    rw [← mapM_map_toRV _ _ (fun p : Num ℝ × Num ℝ => mackRVR_id dist p.1 p.2)]
    have hd : (Num.divR id : Num ℝ → Num ℝ → Num ℝ) = (· / ·) := by
      funext a b; simp only [Num.divR, rounded_id]
    rw [hd]
    generalize List.mapM (fun p : Num ℝ × Num ℝ => mackRVR id Num.sqrt Num.log Num.exp dist p.1 p.2) _ = v
    cases v <;> rfl

section
variable {K : Type} [Field K] [LinearOrder K] [IsStrictOrderedRing K] [FloorRing K]

/-! ### roundings next to one -/

theorem log_one_to_two {x : K} (h1 : 1 ≤ x) (h2 : x < 2) : Int.log 2 |x| = 0 := by
  have h0 : 0 < x := by linarith
  rw [abs_of_pos h0]
  apply le_antisymm
  · have : x < ((2 : ℕ) : K) ^ (1 : ℤ) := by simpa using h2
    have := (Int.lt_zpow_iff_log_lt (b := 2) (by norm_num) h0).1 this
    omega
  · have : ((2 : ℕ) : K) ^ (0 : ℤ) ≤ x := by simpa using h1
    exact (Int.zpow_le_iff_le_log (b := 2) (by norm_num) h0).1 this

/-- One plus a number that is not negative is rounded to one exactly if the number is at most half a unit. -/
theorem rd_one_add {p : ℕ} (hp : 2 ≤ p) {x : K} (hx : 0 ≤ x) :
    floatRd p (1 + x) = 1 ↔ x ≤ (2 : K) ^ (-(p : ℤ)) := by
  have hu : ∀ y : K, 1 ≤ y → y < 2 → floatUlp p y = 2 * (2 : K) ^ (-(p : ℤ)) := by
    intro y h1 h2
    unfold floatUlp
    rw [log_one_to_two h1 h2, show (0 + 1 - (p : ℤ)) = 1 + -(p : ℤ) by ring, two_zpow_add, zpow_one]
  have hu0 : (0 : K) < 2 ^ (-(p : ℤ)) := zpow_pos (by norm_num) _
  have hu1 : (2 : K) ^ (-(p : ℤ)) ≤ 1 / 2 := two_neg_p (by omega)
  constructor
  · intro h
    by_cases hx2 : 1 + x < 2
    · have := floatRd_dist p (1 + x)
      rw [h, hu _ (by linarith) hx2, show 1 + x - 1 = x by ring, abs_of_nonneg hx] at this
      linarith
    · exfalso
      have h2 : floatRd p (2 : K) = 2 := by
        have := floatRd_fix (p := p) (K := K) (by omega) (isFloat_nat (m := 2) (by
          calc 2 = 2 ^ 1 := rfl
            _ ≤ 2 ^ p := Nat.pow_le_pow_right (by norm_num) (by omega)))
        simpa using this
      have := floatRd_mono (K := K) (p := p) (by omega) (not_lt.1 hx2)
      rw [h, h2] at this
      norm_num at this
  · intro h
    have h1 : floatRd p (1 : K) = 1 := by
      have := floatRd_fix (p := p) (K := K) (by omega) (isFloat_nat (m := 1) Nat.one_le_two_pow)
      simpa using this
    apply le_antisymm
    · have hm := floatRd_mono (K := K) (p := p) (by omega) (show 1 + x ≤ 1 + (2 : K) ^ (-(p : ℤ)) by linarith)
      refine hm.trans (le_of_eq ?_)
      have hlt : 1 + (2 : K) ^ (-(p : ℤ)) < 2 := by linarith
      unfold floatRd
      rw [hu _ (by linarith) hlt]
      obtain ⟨k, rfl⟩ : ∃ k, p = k + 2 := ⟨p - 2, by omega⟩
      have e1 : (2 : K) ^ (-((k + 2 : ℕ) : ℤ)) = ((2 : K) ^ k)⁻¹ / 4 := by
        rw [zpow_neg, zpow_natCast, pow_add, mul_inv]
        norm_num
        ring
      have hk : (2 : K) ^ k ≠ 0 := by positivity
      have e2 : (1 + (2 : K) ^ (-((k + 2 : ℕ) : ℤ))) / (2 * (2 : K) ^ (-((k + 2 : ℕ) : ℤ))) =
          ((2 * 2 ^ k : ℤ) : K) + 1 / 2 := by
        rw [e1]
        push_cast
        field_simp
        ring
      have e3 : ⌊((2 * 2 ^ k : ℤ) : K) + 1 / 2⌋ = 2 * 2 ^ k := by
        rw [Int.floor_eq_iff]
        constructor <;> linarith
      have e4 : roundHalfEven (((2 * 2 ^ k : ℤ) : K) + 1 / 2) = 2 * 2 ^ k := by
        unfold roundHalfEven
        rw [e3]
        simp
      rw [e2, e4, e1]
      push_cast
      field_simp
      norm_num
    · conv_lhs => rw [← h1]
      exact floatRd_mono (by omega) (by linarith)
theorem rd_two_zpow {p : ℕ} (hp : 1 ≤ p) (k : ℤ) : floatRd p ((2 : K) ^ k) = 2 ^ k :=
  floatRd_fix hp ⟨1, k, by rw [abs_one]; exact one_le_pow₀ (by norm_num), by simp⟩

end

section
variable {K : Type} [Field K] [LinearOrder K] [IsStrictOrderedRing K]
variable {rd : K → K} {N n : ℕ} {br : ℕ → SumTree} {t ind : Tri K} {c w : ℕ → ℕ → K} {sq lg ex : Num K → Num K}
  {g l e : K → K}

/-! ### requirements on roots, logarithms and exponentials -/

/-- A computed square root that is `g` on numbers that are not negative and keeps their order. -/
structure Spec.SqrtLike (sq : Num K → Num K) (g : K → K) : Prop where
  fin : ∀ x, 0 ≤ x → sq (.fin x) = .fin (g x)
  zero : g 0 = 0
  mono : ∀ x y, 0 ≤ x → x ≤ y → g x ≤ g y

/-- A computed logarithm that is `l` on positive numbers, keeps their order and is 0 at 1. -/
structure Spec.LogLike (lg : Num K → Num K) (l : K → K) : Prop where
  fin : ∀ x, 0 < x → lg (.fin x) = .fin (l x)
  one : l 1 = 0
  mono : ∀ x y, 0 < x → x ≤ y → l x ≤ l y

/-- A computed exponential that is `e` on numbers, positive, and keeps their order. -/
structure Spec.ExpLike (ex : Num K → Num K) (e : K → K) : Prop where
  fin : ∀ x, ex (.fin x) = .fin (e x)
  pos : ∀ x, 0 < e x
  mono : ∀ x y, x ≤ y → e x ≤ e y

theorem Spec.SqrtLike.nonneg (h : Spec.SqrtLike sq g) {x : K} (hx : 0 ≤ x) : 0 ≤ g x := by
  have := h.mono 0 x le_rfl hx
  rwa [h.zero] at this

/-! ### the rows of the summary -/

/-- What the summary holds: standard errors `S` and reserves `R` per origin and, at position `n`, for the total. -/
structure Spec.MackSumm (n : ℕ) (rd : K → K) (S R : ℕ → K) (r : MackResultR K) : Prop where
  stdErr : r.stdErr = (List.range (n + 1)).map (fun i => .fin (S i))
  reserve : r.core.rows.map SummRow.reserve ++ [r.core.totReserve] = (List.range (n + 1)).map (fun i => .fin (R i))
  oldest : S 0 = 0
  nonneg : ∀ i ≤ n, 0 ≤ S i
  total : ∀ i ≤ n, S i ≤ S n
  fixed : ∀ i ≤ n, rd (R i) = R i

theorem tree_fix (hid : ∀ x, rd (rd x) = rd x) {a : ℕ → K} (s : SumTree) (ha : ∀ i ∈ s.leaves, rd (a i) = a i) :
    rd (s.eval rd a) = s.eval rd a := by
  cases s with
  | leaf k => exact ha k (by simp [SumTree.leaves])
  | node l r => exact hid _

theorem roundedSum_fix (hid : ∀ x, rd (rd x) = rd x) (h0 : rd 0 = 0) (hb : Spec.Bracketing br) {l : List K}
    (hl : ∀ x ∈ l, rd x = x) : rd (roundedSum br rd l) = roundedSum br rd l := by
  unfold roundedSum
  split
  · exact h0
  · rename_i hne
    refine tree_fix hid _ fun i hi => ?_
    have hk := sum_leaf hb hne hi
    simp [List.getD_eq_getElem?_getD, hk, hl]

/-- The distribution of a row. -/
def Spec.rvOf (rd : K → K) (sq lg ex : Num K → Num K) (dist : String) (se r : Num K) : RVR K :=
  if dist = "norm" then .norm r se else .lognorm (ex (logMuR rd sq lg se r)) (logSigmaR rd sq lg se r)

variable (hm : Spec.MonoRd rd N) (hb : Spec.Bracketing br) (hp : Spec.Positive n c) (hw : Spec.Weights n w)
include hm hb hp hw

/-- The call returns; standard errors, reserves, coefficients of variation and distributions by row. -/
theorem mackCallR_stair (hq : Spec.SqrtLike sq g) (h : Spec.Stair t n c) (hi : IndW t ind n w) (hn : 4 ≤ n) (alpha : ℕ)
    {dist : String} (hd : dist = "norm" ∨ dist = "lognorm") :
    ∃ r S R, mackCallR br rd sq lg ex alpha t ind dist = .ok r ∧ mackCoreR br rd alpha t ind = .ok r.core ∧
      Spec.MackSumm n rd S R r ∧ (∀ T, 0 ≤ T → r.core.totMse = .fin T → S n = g T) ∧
      r.cv = ((List.range (n + 1)).map (fun i => Num.divR rd (.fin (S i)) (.fin (R i)))).set 0 .nan ∧
      r.rvs = (List.range (n + 1)).map (fun i => Spec.rvOf rd sq lg ex dist (.fin (S i)) (.fin (R i))) := by
  obtain ⟨core, b, lab, hcore, p⟩ := mackCoreR_stair br rd h hp.ne_zero hi hn alpha
    (fun j hj => (mackWR_pos hm hb hp hw alpha hj).ne')
  obtain ⟨core', hcore', o⟩ := C151_order hm hb hp hw h hi hn alpha
  obtain rfl : core' = core := by rw [hcore] at hcore'; injection hcore' with e; exact e.symm
  obtain ⟨P, Q, M, T, hM, hM0, hT⟩ := o.errors
  set R0 : ℕ → K := fun i => rd (rd (c i (n - 1 - i) * Spec.tailProdR rd (Spec.mackAllR br rd alpha n c w) n (n - 1 - i)) -
    c i (n - 1 - i)) with hR0
  have hmse : core'.mse = (List.range n).map (fun i => Num.fin (M i)) := by
    apply List.ext_getElem?
    intro i
    by_cases hi : i < n
    · rw [(hM i hi).2.2.1]; simp [hi]
    · rw [List.getElem?_eq_none (by rw [o.lengths.2.2]; omega), List.getElem?_eq_none (by simp; omega)]
  have hres : core'.rows.map SummRow.reserve = (List.range n).map (fun i => Num.fin (R0 i)) := by
    apply List.ext_getElem?
    intro i
    rw [List.getElem?_map, p.rows]
    by_cases hi : i < n
    · obtain ⟨row, h1, _, _, _, _, _, _, h2⟩ := p.spec.rows i hi
      rw [h1]
      simp [hi, h2, hR0]
    · rw [List.getElem?_eq_none (by rw [p.spec.rows_length]; omega), List.getElem?_eq_none (by simp; omega)]
      rfl
  have htot : core'.totReserve = .fin (roundedSum br rd ((List.range n).map R0)) := by
    rw [p.totReserve, p.spec.totReserve]
  have hTM : ∀ i < n, 0 ≤ M i ∧ M i ≤ T := fun i hi => by
    have := hM i hi
    exact ⟨this.2.2.2.1.trans this.2.2.2.2.2.1, this.2.2.2.2.2.2.2⟩
  have hT0 : 0 ≤ T := (hTM 0 (by omega)).1.trans (hTM 0 (by omega)).2
  set S : ℕ → K := fun i => if i < n then g (M i) else g T with hS
  set R : ℕ → K := fun i => if i < n then R0 i else roundedSum br rd ((List.range n).map R0) with hR
  have hse : core'.mse.map sq ++ [sq core'.totMse] = (List.range (n + 1)).map (fun i => Num.fin (S i)) := by
    rw [hmse, hT, List.range_succ, List.map_append, List.map_map, hq.fin _ hT0]
    congr 1
    · refine List.map_congr_left fun i hi => ?_
      rw [List.mem_range] at hi
      show sq (.fin (M i)) = _
      rw [hq.fin _ (hTM i hi).1]
      simp [hS, hi]
    · simp [hS]
  have hre : core'.rows.map SummRow.reserve ++ [core'.totReserve] =
      (List.range (n + 1)).map (fun i => Num.fin (R i)) := by
    rw [hres, htot, List.range_succ, List.map_append]
    congr 1
    · refine List.map_congr_left fun i hi => ?_
      rw [List.mem_range] at hi
      simp [hR, hi]
    · simp [hR]
  have hrv : ∀ x : Num K × Num K, mackRVR rd sq lg ex dist x.1 x.2 = .ok (Spec.rvOf rd sq lg ex dist x.1 x.2) := by
    intro x
    unfold mackRVR Spec.rvOf
    rcases hd with rfl | rfl <;> simp
  have hcall : mackCallR br rd sq lg ex alpha t ind dist = .ok
      { core := core', stdErr := (List.range (n + 1)).map (fun i => Num.fin (S i))
        cv := ((List.range (n + 1)).map (fun i => Num.divR rd (.fin (S i)) (.fin (R i)))).set 0 .nan
        rvs := (List.range (n + 1)).map (fun i => Spec.rvOf rd sq lg ex dist (.fin (S i)) (.fin (R i))) } := by
    unfold mackCallR
    rw [hcore]
    simp only [bind, Except.bind]
    rw [hse, hre, mapM_ok fun x _ => hrv x]
    simp only [List.zipWith_map, List.zip_map', List.map_map, List.zipWith_self]
    rfl
  refine ⟨_, S, R, hcall, hcore, ⟨rfl, hre, ?_, ?_, ?_, ?_⟩, ?_, rfl, rfl⟩
  · simp [hS, show 0 < n by omega, hM0, hq.zero]
  · intro i hi
    simp only [hS]
    split
    · exact hq.nonneg (hTM i (by assumption)).1
    · exact hq.nonneg hT0
  · intro i hi
    simp only [hS, lt_irrefl, if_false]
    split
    · exact hq.mono _ _ (hTM i (by assumption)).1 (hTM i (by assumption)).2
    · exact le_rfl
  · intro i hi
    simp only [hR]
    split
    · exact hm.idem _
    · refine roundedSum_fix hm.idem hm.zero hb fun x hx => ?_
      obtain ⟨k, -, rfl⟩ := List.mem_map.1 hx
      exact hm.idem _
  · intro T' _ e
    have : Num.fin T = Num.fin T' := hT.symm.trans e
    injection this with e'
    simp [hS, e']

/-- **C178, standard errors.** For every positive staircase with at least four periods, every choice of excluded link
ratios that leaves one per period, every alpha, every order of additions and every square root that keeps the order of
numbers: the call returns, standard errors are not negative, that of the oldest origin is 0, that of the total is at
least that of every origin, the coefficient of variation is missing for the oldest origin and not negative where the
reserve is positive. -/
theorem C178_errors (hq : Spec.SqrtLike sq g) (h : Spec.Stair t n c) (hi : IndW t ind n w) (hn : 4 ≤ n) (alpha : ℕ)
    {dist : String} (hd : dist = "norm" ∨ dist = "lognorm") :
    ∃ r S R, mackCallR br rd sq lg ex alpha t ind dist = .ok r ∧ Spec.MackSumm n rd S R r ∧ r.cv[0]? = some .nan ∧
      ∀ i ≤ n, 1 ≤ i → 0 < R i → ∃ v, r.cv[i]? = some (.fin v) ∧ 0 ≤ v ∧ (v = 0 ↔ S i = 0) := by
  obtain ⟨r, S, R, h1, -, h2, -, h3, -⟩ := mackCallR_stair (lg := lg) (ex := ex) hm hb hp hw hq h hi hn alpha hd
  refine ⟨r, S, R, h1, h2, by rw [h3]; simp, fun i hin h1i hR => ⟨rd (S i / R i), ?_, ?_, ?_⟩⟩
  · rw [h3, List.getElem?_set_ne (by omega)]
    simp only [List.getElem?_map, List.getElem?_range (show i < n + 1 by omega), Option.map_some]
    unfold Num.divR
    rw [Num.fin_div _ _ hR.ne']
    rfl
  · exact MonoRd.nonneg hm (div_nonneg (h2.nonneg i hin) hR.le)
  · constructor
    · intro e
      by_contra hne
      have := hm.pos _ (div_pos (lt_of_le_of_ne (h2.nonneg i hin) (Ne.symm hne)) hR)
      exact this.ne' e
    · intro e; rw [e, zero_div, hm.zero]

/-! ### quantiles of the normal distribution -/

omit hm hb hp hw in
theorem ppf_norm (ex : Num K → Num K) (z : K → Num K) {q a : K} (hz : z q = .fin a) (s r : K) :
    RVR.ppf rd ex z q (.norm (.fin r) (.fin s)) = if 0 < s then .fin (rd (rd (a * s) + r)) else .nan := by
  unfold RVR.ppf
  rw [hz]
  dsimp only
  by_cases hs : 0 < s
  · have : Num.lt (0 : Num K) (.fin s) = true := by show decide _ = true; simpa using hs
    rw [if_pos this, if_pos hs]; rfl
  · have : ¬ Num.lt (0 : Num K) (.fin s) = true := by show ¬ decide _ = true; simpa using hs
    rw [if_neg this, if_neg hs]

/-- **C178, normal quantiles.** The quantile of the oldest origin is missing.  In every other row and in the total it is
missing exactly if the standard error is 0; otherwise quantiles do not decrease from one level to a level with a larger
normal quantile, quantiles at levels up to one half do not exceed the reserve, those from one half on are not below
it. -/
theorem C178_norm (hq : Spec.SqrtLike sq g) (h : Spec.Stair t n c) (hi : IndW t ind n w) (hn : 4 ≤ n) (alpha : ℕ) :
    ∃ r S R, mackCallR br rd sq lg ex alpha t ind "norm" = .ok r ∧ Spec.MackSumm n rd S R r ∧
      ∀ (z : K → Num K) (q q' a b : K), z q = .fin a → z q' = .fin b → a ≤ b →
        (r.qtlColumn rd ex z q).length = n + 1 ∧ (r.qtlColumn rd ex z q)[0]? = some .nan ∧
        ∀ i ≤ n, 1 ≤ i →
          (S i = 0 → (r.qtlColumn rd ex z q)[i]? = some .nan ∧ (r.qtlColumn rd ex z q')[i]? = some .nan) ∧
          (0 < S i → ∃ x y, (r.qtlColumn rd ex z q)[i]? = some (.fin x) ∧ (r.qtlColumn rd ex z q')[i]? = some (.fin y) ∧
            x ≤ y ∧ (a ≤ 0 → x ≤ R i) ∧ (0 ≤ b → R i ≤ y) ∧ (a = 0 → x = R i)) := by
  obtain ⟨r, S, R, h1, -, h2, -, -, h4⟩ := mackCallR_stair (lg := lg) (ex := ex) hm hb hp hw hq h hi hn alpha (.inl rfl)
  have hcol : ∀ (z : K → Num K) (q a : K), z q = .fin a → ∀ i ≤ n, 1 ≤ i → (r.qtlColumn rd ex z q)[i]? =
      some (if 0 < S i then .fin (rd (rd (a * S i) + R i)) else .nan) := by
    intro z q a hz i hin h1i
    unfold MackResultR.qtlColumn
    rw [List.getElem?_set_ne (by omega), h4]
    simp only [List.getElem?_map, List.getElem?_range (show i < n + 1 by omega), Option.map_some]
    rw [← ppf_norm ex z hz]
    simp [Spec.rvOf]
  refine ⟨r, S, R, h1, h2, fun z q q' a b hz hz' hab => ⟨?_, ?_, fun i hin h1i => ⟨fun hS => ?_, fun hS => ?_⟩⟩⟩
  · unfold MackResultR.qtlColumn; rw [h4]; simp
  · unfold MackResultR.qtlColumn; rw [h4]; simp
  · rw [hcol z q a hz i hin h1i, hcol z q' b hz' i hin h1i, hS]; simp
  · refine ⟨rd (rd (a * S i) + R i), rd (rd (b * S i) + R i), ?_, ?_, ?_, ?_, ?_, ?_⟩
    · rw [hcol z q a hz i hin h1i, if_pos hS]
    · rw [hcol z q' b hz' i hin h1i, if_pos hS]
    · refine hm.mono (add_le_add_left (hm.mono (mul_le_mul_of_nonneg_right hab hS.le)) _)
    · intro ha
      conv_rhs => rw [← h2.fixed i hin]
      apply hm.mono
      have : rd (a * S i) ≤ rd 0 := hm.mono (mul_nonpos_of_nonpos_of_nonneg ha hS.le)
      rw [hm.zero] at this
      linarith
    · intro hb'
      conv_lhs => rw [← h2.fixed i hin]
      apply hm.mono
      have := MonoRd.nonneg hm (mul_nonneg hb' hS.le)
      linarith
    · intro ha
      rw [ha, zero_mul, hm.zero, zero_add, h2.fixed i hin]

/-- **C178, error of the normal quantiles** with respect to the formula reserve plus normal quantile times standard
error, at the rounded values of both. -/
theorem C178_norm_error {u : K} (hr : Spec.RelErr rd u) (hq : Spec.SqrtLike sq g) (h : Spec.Stair t n c)
    (hi : IndW t ind n w) (hn : 4 ≤ n) (alpha : ℕ) :
    ∃ r S R, mackCallR br rd sq lg ex alpha t ind "norm" = .ok r ∧ Spec.MackSumm n rd S R r ∧
      ∀ (z : K → Num K) (q a : K), z q = .fin a → ∀ i ≤ n, 1 ≤ i → 0 < S i →
        ∃ x, (r.qtlColumn rd ex z q)[i]? = some (.fin x) ∧
          |x - (R i + a * S i)| ≤ u * |R i| + (2 * u + u ^ 2) * (|a| * S i) := by
  obtain ⟨r, S, R, h1, -, h2, -, -, h4⟩ := mackCallR_stair (lg := lg) (ex := ex) hm hb hp hw hq h hi hn alpha (.inl rfl)
  refine ⟨r, S, R, h1, h2, fun z q a hz i hin h1i hS => ⟨rd (rd (a * S i) + R i), ?_, ?_⟩⟩
  · unfold MackResultR.qtlColumn
    rw [List.getElem?_set_ne (by omega), h4]
    simp only [List.getElem?_map, List.getElem?_range (show i < n + 1 by omega), Option.map_some]
    have := ppf_norm (rd := rd) ex z hz (S i) (R i)
    rw [if_pos hS] at this
    rw [← this]
    simp [Spec.rvOf]
  · have e1 := hr.err (a * S i)
    have e2 := hr.err (rd (a * S i) + R i)
    have hu := hr.nonneg
    rw [abs_mul, abs_of_pos hS] at e1
    have e3 : |rd (a * S i) + R i| ≤ |R i| + (1 + u) * (|a| * S i) := by
      have := abs_add_le (rd (a * S i) - a * S i) (a * S i + R i)
      have h5 := abs_add_le (a * S i) (R i)
      rw [abs_mul, abs_of_pos hS] at h5
      rw [show rd (a * S i) - a * S i + (a * S i + R i) = rd (a * S i) + R i by ring] at this
      linarith
    have e4 := abs_add_le (rd (rd (a * S i) + R i) - (rd (a * S i) + R i)) (rd (a * S i) - a * S i)
    rw [show rd (rd (a * S i) + R i) - (rd (a * S i) + R i) + (rd (a * S i) - a * S i) =
      rd (rd (a * S i) + R i) - (R i + a * S i) by ring] at e4
    have e5 := mul_le_mul_of_nonneg_left e3 hu
    nlinarith

/-! ### quantiles of the lognormal distribution -/

/-- The shape parameter. -/
def Spec.sigmaR (rd : K → K) (g l : K → K) (s r : K) : K := g (l (rd (1 + rd (rd (s / r) ^ 2))))

omit hb hp hw in
theorem sigma_arg (s r : K) (h1 : rd 1 = 1) : 1 ≤ rd (1 + rd (rd (s / r) ^ 2)) := by
  conv_lhs => rw [← h1]
  apply hm.mono
  have := MonoRd.nonneg hm (sq_nonneg (rd (s / r)))
  linarith

omit hb hp hw in
theorem logSigmaR_fin (hq : Spec.SqrtLike sq g) (hl : Spec.LogLike lg l) (h1 : rd 1 = 1) {s r : K} (hr : 0 < r) :
    logSigmaR rd sq lg (.fin s) (.fin r) = .fin (Spec.sigmaR rd g l s r) ∧ 0 ≤ Spec.sigmaR rd g l s r := by
  have ha := sigma_arg hm s r h1
  have hl0 : 0 ≤ l (rd (1 + rd (rd (s / r) ^ 2))) := by
    have := hl.mono 1 _ one_pos ha
    rwa [hl.one] at this
  refine ⟨?_, hq.nonneg hl0⟩
  unfold logSigmaR Num.divR
  rw [Num.fin_div _ _ hr.ne']
  show nanTo0 (sq (lg (.fin (rd (1 + rd (rd (s / r) ^ 2)))))) = _
  rw [hl.fin _ (lt_of_lt_of_le one_pos ha), hq.fin _ hl0]
  rfl

omit hb hp hw in
theorem logMuR_fin (hq : Spec.SqrtLike sq g) (hl : Spec.LogLike lg l) (h1 : rd 1 = 1) {s r : K} (hr : 0 < r) :
    ∃ m, logMuR rd sq lg (.fin s) (.fin r) = .fin m := by
  unfold logMuR
  rw [(logSigmaR_fin hm hq hl h1 hr).1, hl.fin _ hr]
  have : ∃ y, clip0R (Num.fin (l r)) = .fin y := by
    unfold clip0R
    split
    · rename_i hh; simp [Num.isNaN] at hh
    · split
      · exact ⟨0, rfl⟩
      · exact ⟨_, rfl⟩
  obtain ⟨y, hy⟩ := this
  rw [hy]
  exact ⟨_, rfl⟩

omit hb hp hw in
theorem ppf_lognorm (he : Spec.ExpLike ex e) (z : K → Num K) {q a : K} (hz : z q = .fin a) (m s : K) :
    RVR.ppf rd ex z q (.lognorm (ex (.fin m)) (.fin s)) =
      if 0 < s then .fin (rd (e (rd (s * a)) * e m)) else .nan := by
  unfold RVR.ppf
  rw [hz, he.fin]
  dsimp only
  have hem : Num.lt (0 : Num K) (.fin (e m)) = true := by show decide _ = true; simpa using he.pos m
  by_cases hs : 0 < s
  · have : Num.lt (0 : Num K) (.fin s) = true := by show decide _ = true; simpa using hs
    rw [if_pos ⟨this, hem⟩, if_pos hs]
    have e1 : Num.mulR rd (.fin s) (.fin a) = .fin (rd (s * a)) := rfl
    rw [e1, he.fin]
    show Num.fin (rd (rd (e (rd (s * a)) * e m) + 0)) = _
    rw [add_zero, hm.idem]
  · have : ¬ Num.lt (0 : Num K) (.fin s) = true := by show ¬ decide _ = true; simpa using hs
    rw [if_neg (fun hh => this hh.1), if_neg hs]

/-- **C178, lognormal quantiles.** In every row with a positive reserve the quantiles are either missing at every level
or positive at every level, and do not decrease from one level to a level with a larger normal quantile. -/
theorem C178_lognorm (hq : Spec.SqrtLike sq g) (hl : Spec.LogLike lg l) (he : Spec.ExpLike ex e) (hN : 1 ≤ N)
    (h : Spec.Stair t n c) (hi : IndW t ind n w) (hn : 4 ≤ n) (alpha : ℕ) :
    ∃ r S R, mackCallR br rd sq lg ex alpha t ind "lognorm" = .ok r ∧ Spec.MackSumm n rd S R r ∧
      ∀ (z : K → Num K) (q q' a b : K), z q = .fin a → z q' = .fin b → a ≤ b →
        (r.qtlColumn rd ex z q).length = n + 1 ∧ (r.qtlColumn rd ex z q)[0]? = some .nan ∧
        ∀ i ≤ n, 1 ≤ i → 0 < R i →
          (Spec.sigmaR rd g l (S i) (R i) = 0 ∧
            (r.qtlColumn rd ex z q)[i]? = some .nan ∧ (r.qtlColumn rd ex z q')[i]? = some .nan) ∨
          (0 < Spec.sigmaR rd g l (S i) (R i) ∧ ∃ x y, (r.qtlColumn rd ex z q)[i]? = some (.fin x) ∧
            (r.qtlColumn rd ex z q')[i]? = some (.fin y) ∧ 0 < x ∧ x ≤ y) := by
  obtain ⟨r, S, R, h1, -, h2, -, -, h4⟩ := mackCallR_stair (lg := lg) (ex := ex) hm hb hp hw hq h hi hn alpha (.inr rfl)
  have hone : rd 1 = 1 := by have := hm.nat 1 hN; simpa using this
  have hcol : ∀ i ≤ n, 1 ≤ i → 0 < R i → ∃ m, ∀ (z : K → Num K) (q a : K), z q = .fin a →
      (r.qtlColumn rd ex z q)[i]? = some (if 0 < Spec.sigmaR rd g l (S i) (R i) then
        .fin (rd (e (rd (Spec.sigmaR rd g l (S i) (R i) * a)) * e m)) else .nan) := by
    intro i hin h1i hR
    obtain ⟨m, hmu⟩ := logMuR_fin hm hq hl hone (s := S i) hR
    refine ⟨m, fun z q a hz => ?_⟩
    unfold MackResultR.qtlColumn
    rw [List.getElem?_set_ne (by omega), h4]
    simp only [List.getElem?_map, List.getElem?_range (show i < n + 1 by omega), Option.map_some]
    rw [← ppf_lognorm hm he z hz m, ← (logSigmaR_fin hm hq hl hone hR).1, ← hmu]
    simp [Spec.rvOf]
  refine ⟨r, S, R, h1, h2, fun z q q' a b hz hz' hab => ⟨?_, ?_, fun i hin h1i hR => ?_⟩⟩
  · unfold MackResultR.qtlColumn; rw [h4]; simp
  · unfold MackResultR.qtlColumn; rw [h4]; simp
  · obtain ⟨m, hc⟩ := hcol i hin h1i hR
    rw [hc z q a hz, hc z q' b hz']
    rcases (logSigmaR_fin hm hq hl hone (s := S i) hR).2.eq_or_lt with h0 | h0
    · left; rw [← h0]; simp
    · right
      rw [if_pos h0, if_pos h0]
      refine ⟨h0, _, _, rfl, rfl, hm.pos _ (mul_pos (he.pos _) (he.pos _)), hm.mono ?_⟩
      exact mul_le_mul_of_nonneg_right (he.mono _ _ (hm.mono (mul_le_mul_of_nonneg_left hab h0.le))) (he.pos _).le

omit hm in
/-- **C179, exact condition.** In arithmetic with `p` binary digits the lognormal quantiles of a row with positive
reserve are missing exactly if the square of the coefficient of variation, as computed, is at most `2⁻ᵖ`; in particular
they are numbers if the standard error is at least `2^-((p - 1) / 2)` times the reserve.  Missing: rows where the
standard error is positive but smaller than that. -/
theorem C179_partial [FloorRing K] {p : ℕ} (h2 : 2 ≤ p) (hrd : rd = floatRd p) (hq : Spec.SqrtLike sq g)
    (hl : Spec.LogLike lg l) (he : Spec.ExpLike ex e) (hg0 : ∀ x, 0 < x → 0 < g x) (hl0 : ∀ x, 1 < x → 0 < l x)
    (h : Spec.Stair t n c) (hi : IndW t ind n w) (hn : 4 ≤ n) (alpha : ℕ) :
    ∃ r S R, mackCallR br rd sq lg ex alpha t ind "lognorm" = .ok r ∧ Spec.MackSumm n rd S R r ∧
      ∀ (z : K → Num K) (q a : K), z q = .fin a → ∀ i ≤ n, 1 ≤ i → 0 < R i →
        ((r.qtlColumn rd ex z q)[i]? = some .nan ↔ rd (rd (S i / R i) ^ 2) ≤ (2 : K) ^ (-(p : ℤ))) ∧
        ((∃ x, (r.qtlColumn rd ex z q)[i]? = some (.fin x) ∧ 0 < x) ↔ (2 : K) ^ (-(p : ℤ)) < rd (rd (S i / R i) ^ 2)) ∧
        ((2 : K) ^ (-(((p - 1) / 2 : ℕ) : ℤ)) * R i ≤ S i → ∃ x, (r.qtlColumn rd ex z q)[i]? = some (.fin x) ∧ 0 < x) ∧
        (S i ≤ (2 : K) ^ (-(((p + 1) / 2 : ℕ) : ℤ)) * R i → (r.qtlColumn rd ex z q)[i]? = some .nan) := by
  have hm' : Spec.MonoRd rd (2 ^ p) := by rw [hrd]; exact floatRd_monoRd (by omega)
  obtain ⟨r, S, R, h3, h4, h5⟩ := C178_lognorm hm' hb hp hw hq hl he Nat.one_le_two_pow h hi hn alpha
  refine ⟨r, S, R, h3, h4, fun z q a hz i hin h1i hR => ?_⟩
  have hx : 0 ≤ rd (rd (S i / R i) ^ 2) := MonoRd.nonneg hm' (sq_nonneg _)
  have hone := rd_one_add (K := K) h2 hx
  have harg := sigma_arg hm' (S i) (R i) (by have := hm'.nat 1 Nat.one_le_two_pow; simpa using this)
  have hs0 : Spec.sigmaR rd g l (S i) (R i) = 0 ↔ rd (rd (S i / R i) ^ 2) ≤ (2 : K) ^ (-(p : ℤ)) := by
    rw [← hone, ← hrd]
    unfold Spec.sigmaR
    constructor
    · intro h0
      by_contra hne
      have := hg0 _ (hl0 _ (lt_of_le_of_ne harg (Ne.symm hne)))
      exact this.ne' h0
    · intro h1
      rw [h1, hl.one, hq.zero]
  have key : ((r.qtlColumn rd ex z q)[i]? = some .nan ↔ rd (rd (S i / R i) ^ 2) ≤ (2 : K) ^ (-(p : ℤ))) ∧
        ((∃ x, (r.qtlColumn rd ex z q)[i]? = some (.fin x) ∧ 0 < x) ↔
          (2 : K) ^ (-(p : ℤ)) < rd (rd (S i / R i) ^ 2)) := by
    rcases (h5 z q q a a hz hz le_rfl).2.2 i hin h1i hR with ⟨h0, h6, -⟩ | ⟨h0, x, y, h6, -, h7, -⟩
    · have := hs0.1 h0
      refine ⟨⟨fun _ => this, fun _ => h6⟩, ⟨fun ⟨x, hx, _⟩ => ?_, fun hh => absurd this (not_le.2 hh)⟩⟩
      rw [h6] at hx
      simp at hx
    · have : ¬ rd (rd (S i / R i) ^ 2) ≤ (2 : K) ^ (-(p : ℤ)) := fun hh => h0.ne' (hs0.2 hh)
      refine ⟨⟨fun hh => ?_, fun hh => absurd hh this⟩, ⟨fun _ => not_le.1 this, fun _ => ⟨x, h6, h7⟩⟩⟩
      rw [h6] at hh
      simp at hh
  have hz2 : ∀ k : ℤ, rd ((2 : K) ^ k) = 2 ^ k := fun k => by rw [hrd]; exact rd_two_zpow (by omega) k
  refine ⟨key.1, key.2, fun hS => key.2.2 ?_, fun hS => key.1.2 ?_⟩
  · have e1 : (2 : K) ^ (-(((p - 1) / 2 : ℕ) : ℤ)) ≤ rd (S i / R i) := by
      rw [← hz2]
      exact hm'.mono ((le_div_iff₀ hR).2 hS)
    have e0 : (0 : K) < 2 ^ (-(((p - 1) / 2 : ℕ) : ℤ)) := zpow_pos (by norm_num) _
    have e2 : (2 : K) ^ (-(((p - 1) / 2 : ℕ) : ℤ) + -(((p - 1) / 2 : ℕ) : ℤ)) ≤ rd (rd (S i / R i) ^ 2) := by
      rw [← hz2]
      apply hm'.mono
      rw [two_zpow_add, pow_two]
      exact mul_le_mul e1 e1 e0.le (e0.le.trans e1)
    refine lt_of_lt_of_le ?_ e2
    exact zpow_lt_zpow_right₀ (by norm_num) (by omega)
  · have e1 : rd (S i / R i) ≤ (2 : K) ^ (-(((p + 1) / 2 : ℕ) : ℤ)) := by
      rw [← hz2]
      exact hm'.mono ((div_le_iff₀ hR).2 hS)
    have e0 : 0 ≤ rd (S i / R i) := MonoRd.nonneg hm' (div_nonneg (h4.nonneg i hin) hR.le)
    have e2 : rd (rd (S i / R i) ^ 2) ≤ (2 : K) ^ (-(((p + 1) / 2 : ℕ) : ℤ) + -(((p + 1) / 2 : ℕ) : ℤ)) := by
      rw [← hz2 (_ + _)]
      apply hm'.mono
      rw [two_zpow_add, pow_two]
      exact mul_le_mul e1 e1 e0 (e0.trans e1)
    exact e2.trans (zpow_le_zpow_right₀ (by norm_num) (by omega))

end

section
variable {K : Type} [Field K] [LinearOrder K] [IsStrictOrderedRing K] [FloorRing K] {p : ℕ}

/-! ### the columns -/

/-- **C178, columns.** The quantile columns for two-sided intervals with probabilities given in units of 2e-7, in
arithmetic with at least 26 digits: one column per level, with the header of the exact level, in increasing order of
rounded levels that increase strictly and lie within `2·2⁻ᵖ` of the exact ones. -/
theorem C178_two_sided (hp : 26 ≤ p) (ex : Num K → Num K) (r : MackResultR K) (z : K → Num K) (ks : List ℕ)
    (hk : ∀ k ∈ ks, k ≤ 5 * 10 ^ 6) :
    ∃ (js : List ℕ) (L : ℕ → K), js.Pairwise (fun j j' => j < j' ∧ L j < L j') ∧
      (∀ j, j ∈ js ↔ ∃ k ∈ ks, j = 5 * 10 ^ 6 - k ∨ j = 5 * 10 ^ 6 + k) ∧
      (∀ j ∈ js, 0 ≤ L j ∧ L j ≤ 1 ∧ |L j - (j : K) / 10 ^ 7| ≤ 2 * (2 : K) ^ (-(p : ℤ))) ∧
      mackQuantColsR (floatRd p) ex r z (ks.map (fun k : ℕ => Num.fin (floatRd p ((k : K) / (5 * 10 ^ 6))))) true =
        .ok (js.map (fun j => (hdrPct j, r.qtlColumn (floatRd p) ex z (L j)))) := by
  obtain ⟨js, hs, hmem, hle, -, e2⟩ := formatter_two (K := K) hp ks hk
  have hn := fun j (hj : j ∈ js) => twoLevel_near (K := K) hp (hle j hj)
  refine ⟨js, Spec.twoLevel p, ?_, hmem, fun j hj => ⟨(hn j hj).1, (hn j hj).2.1, (hn j hj).2.2.2⟩, ?_⟩
  · exact hs.imp_of_mem fun {j j'} h1 h2 h => ⟨h, near_lt hp h (hn j h1).2.2.2 (hn j' h2).2.2.2⟩
  · unfold mackQuantColsR
    rw [e2]
    simp only [bind, Except.bind]
    congr 1
    exact cols_fold hs (fun j hj => by
      obtain ⟨a, b, -, c⟩ := hn j hj
      exact hdrNumR_near hp a b c) _

/-- **C178, columns** for single levels given in units of 1e-7. -/
theorem C178_one_sided (hp : 26 ≤ p) (ex : Num K → Num K) (r : MackResultR K) (z : K → Num K) (ks : List ℕ)
    (hk : ∀ k ∈ ks, k ≤ 10 ^ 7) :
    ∃ (js : List ℕ), js.Pairwise (· < ·) ∧ (∀ j, j ∈ js ↔ j ∈ ks) ∧
      mackQuantColsR (floatRd p) ex r z (ks.map (fun k : ℕ => Num.fin (floatRd p ((k : K) / 10 ^ 7)))) false =
        .ok (js.map (fun j : ℕ => (hdrPct j, r.qtlColumn (floatRd p) ex z (floatRd p ((j : K) / 10 ^ 7))))) := by
  obtain ⟨js, hs, hmem, -, e2⟩ := formatter_one (K := K) hp ks hk
  refine ⟨js, hs, hmem, ?_⟩
  unfold mackQuantColsR
  rw [e2]
  simp only [bind, Except.bind]
  congr 1
  exact cols_fold hs (L := fun j : ℕ => floatRd p ((j : K) / 10 ^ 7))
    (fun j hj => hdrNumR_level hp (hk j ((hmem j).1 hj))) _

end

/-! ### correctly rounded functions over the real numbers -/

theorem sqrtLike_real {p : ℕ} (hp : 1 ≤ p) :
    Spec.SqrtLike (fun x => (Num.sqrt x).rounded (floatRd p)) (fun x => floatRd p (Real.sqrt x)) := by
  refine ⟨fun x hx => ?_, by simp [floatRd_zero], fun x y _ h => floatRd_mono hp (Real.sqrt_le_sqrt h)⟩
  show (if x < 0 then Num.nan else Num.fin (Real.sqrt x)).rounded _ = _
  rw [if_neg (not_lt.2 hx)]; rfl

theorem logLike_real {p : ℕ} (hp : 1 ≤ p) :
    Spec.LogLike (fun x => (Num.log x).rounded (floatRd p)) (fun x => floatRd p (Real.log x)) := by
  refine ⟨fun x hx => ?_, by simp [floatRd_zero], fun x y hx h => floatRd_mono hp (Real.log_le_log hx h)⟩
  simp only [Num.log_fin hx]; rfl

theorem expLike_real {p : ℕ} (hp : 1 ≤ p) :
    Spec.ExpLike (fun x => (Num.exp x).rounded (floatRd p)) (fun x => floatRd p (Real.exp x)) := by
  refine ⟨fun x => rfl, fun x => ?_, fun x y h => floatRd_mono hp (Real.exp_le_exp.2 h)⟩
  exact (floatRd_monoRd hp).pos _ (Real.exp_pos x)

/-- **C178, double precision with correctly rounded functions**: standard errors and lognormal quantiles. -/
theorem C178_float64 {br : ℕ → SumTree} {n : ℕ} {t ind : Tri ℝ} {c w : ℕ → ℕ → ℝ} (hb : Spec.Bracketing br)
    (hp : Spec.Positive n c) (hw : Spec.Weights n w) (h : Spec.Stair t n c) (hi : IndW t ind n w) (hn : 4 ≤ n)
    (alpha : ℕ) :
    ∃ r S R, mackCallR br (floatRd 53) (fun x => (Num.sqrt x).rounded (floatRd 53))
        (fun x => (Num.log x).rounded (floatRd 53)) (fun x => (Num.exp x).rounded (floatRd 53)) alpha t ind "lognorm" = .ok r ∧
      Spec.MackSumm n (floatRd 53) S R r ∧ ∀ (z : ℝ → Num ℝ) (q a : ℝ), z q = .fin a → ∀ i ≤ n, 1 ≤ i → 0 < R i →
        (R i ≤ 2 ^ 26 * S i → ∃ x, (r.qtlColumn (floatRd 53) (fun x => (Num.exp x).rounded (floatRd 53)) z q)[i]? =
          some (.fin x) ∧ 0 < x) ∧
        (2 ^ 27 * S i ≤ R i →
          (r.qtlColumn (floatRd 53) (fun x => (Num.exp x).rounded (floatRd 53)) z q)[i]? = some .nan) := by
  have hrd := floatRd_monoRd (K := ℝ) (p := 53) (by norm_num)
  obtain ⟨r, S, R, h1, h2, h3⟩ := C179_partial hb hp hw (p := 53) (by norm_num) rfl (sqrtLike_real (p := 53) (by norm_num))
    (logLike_real (p := 53) (by norm_num)) (expLike_real (p := 53) (by norm_num)) (fun x hx => hrd.pos _ (Real.sqrt_pos.2 hx))
    (fun x hx => hrd.pos _ (Real.log_pos hx)) h hi hn alpha
  refine ⟨r, S, R, h1, h2, fun z q a hz i hin h1i hR => ?_⟩
  obtain ⟨-, -, h4, h5⟩ := h3 z q a hz i hin h1i hR
  refine ⟨fun hh => h4 ?_, fun hh => h5 ?_⟩
  · norm_num at hh ⊢; linarith
  · norm_num at hh ⊢; linarith

/-! ### cases -/

/-- Rows proportional to 1, 2, 4, 8 except for one unit in two cells. -/
def exTiny : Tri ℚ := stairTri 4 (fun i j => ((i + 1) * 2 ^ (30 + j) : ℚ) + (if i = 1 ∧ j = 1 then 1 else 0) +
  (if i = 0 ∧ j = 2 then 1 else 0))

theorem exTiny_core : (mackCoreR (fun n => seqTree (n - 1)) (floatRd 53) 1 exTiny exTiny.a2aind0).toOption.map
    (fun r => (r.mse.length, r.totMse, r.rows.length, r.totReserve)) =
    some (4, .fin (718347596524751 / 2199023255552), 4, .fin 57982058476) := by
  decide +kernel

/-- **C179 fails.** On this triangle the mean squared error of the total is about 327 in exact arithmetic as well as in
double precision, the reserve about 5.8e10, and in double precision every lognormal quantile of the total is missing,
whatever the square root as long as its square exceeds the number by no more than a factor of two. -/
theorem C179_fails (sq lg ex : Num ℚ → Num ℚ) {s : ℚ} (hs : sq (.fin (718347596524751 / 2199023255552)) = .fin s)
    (hs0 : 0 ≤ s) (hs2 : s ^ 2 ≤ 2 * (718347596524751 / 2199023255552)) (hlg : lg (.fin 1) = .fin 0)
    (hsq : sq (.fin 0) = .fin 0) :
    (mackCore 1 exTiny exTiny.a2aind0).toOption.map (fun r => Num.lt (.fin 326) r.totMse) = some true ∧
    ∃ r, mackCallR (fun n => seqTree (n - 1)) (floatRd 53) sq lg ex 1 exTiny exTiny.a2aind0 "lognorm" = .ok r ∧
      r.core.totMse = .fin (718347596524751 / 2199023255552) ∧ r.core.totReserve = .fin 57982058476 ∧
      r.stdErr[4]? = some (.fin s) ∧ ∀ z q, (r.qtlColumn (floatRd 53) ex z q)[4]? = some .nan := by
  refine ⟨by decide +kernel, ?_⟩
  have hc := exTiny_core
  cases hcore : mackCoreR (fun n => seqTree (n - 1)) (floatRd 53) 1 exTiny exTiny.a2aind0 with
  | error e => rw [hcore] at hc; simp [Except.toOption] at hc
  | ok core =>
    rw [hcore] at hc
    simp only [Except.toOption, Option.map_some, Option.some.injEq, Prod.mk.injEq] at hc
    obtain ⟨h1, h2, h3, h4⟩ := hc
    have hrv : ∀ x : Num ℚ × Num ℚ, mackRVR (floatRd 53) sq lg ex "lognorm" x.1 x.2 =
        .ok (Spec.rvOf (floatRd 53) sq lg ex "lognorm" x.1 x.2) := fun x => by simp [mackRVR, Spec.rvOf]
    unfold mackCallR
    rw [hcore]
    simp only [bind, Except.bind]
    rw [mapM_ok fun x _ => hrv x]
    refine ⟨_, rfl, h2, h4, ?_, fun z q => ?_⟩
    · simp [h1, h2, hs]
    · unfold MackResultR.qtlColumn
      rw [List.getElem?_set_ne (by norm_num)]
      have e1 : ((core.mse.map sq ++ [sq core.totMse]).zip (core.rows.map SummRow.reserve ++ [core.totReserve]))[4]? =
          some (.fin s, .fin 57982058476) := by
        rw [List.getElem?_zip_eq_some]
        simp [h1, h2, h3, h4, hs]
      simp only [List.getElem?_map, e1, Option.map_some]
      have hR : (0 : ℚ) < 57982058476 := by norm_num
      have hle : s ≤ (2 : ℚ) ^ (-27 : ℤ) * 57982058476 := by
        norm_num
        nlinarith
      have hmr := floatRd_monoRd (K := ℚ) (p := 53) (by norm_num)
      have e2 : floatRd 53 (s / 57982058476) ≤ (2 : ℚ) ^ (-27 : ℤ) := by
        rw [← rd_two_zpow (p := 53) (by norm_num)]
        exact hmr.mono ((div_le_iff₀ hR).2 hle)
      have e0 : 0 ≤ floatRd 53 (s / 57982058476) := MonoRd.nonneg hmr (div_nonneg hs0 hR.le)
      have e3 : floatRd 53 (floatRd 53 (s / 57982058476) ^ 2) ≤ (2 : ℚ) ^ (-(53 : ℕ) : ℤ) := by
        refine (hmr.mono (show _ ≤ (2 : ℚ) ^ (-54 : ℤ) from ?_)).trans ?_
        · rw [show (-54 : ℤ) = -27 + -27 by norm_num, two_zpow_add, pow_two]
          exact mul_le_mul e2 e2 e0 (e0.trans e2)
        · rw [rd_two_zpow (by norm_num)]
          exact zpow_le_zpow_right₀ (by norm_num) (by norm_num)
      have e4 := (rd_one_add (K := ℚ) (p := 53) (by norm_num) (MonoRd.nonneg hmr (sq_nonneg _))).2 e3
      have e5 : logSigmaR (floatRd 53) sq lg (.fin s) (.fin 57982058476) = .fin 0 := by
        unfold logSigmaR Num.divR
        rw [Num.fin_div _ _ hR.ne']
        show nanTo0 (sq (lg (.fin (floatRd 53 (1 + floatRd 53 (floatRd 53 (s / 57982058476) ^ 2)))))) = _
        rw [e4, hlg, hsq]
        rfl
      simp only [Spec.rvOf]
      rw [if_neg (by decide), e5]
      unfold RVR.ppf
      dsimp only
      rw [if_neg]
      rintro ⟨hh, -⟩
      revert hh
      decide

/-- A square root for the case below. -/
def exRoot (x : Num ℚ) : Num ℚ := match x with
  | .fin y => .fin (floatRd 8 ((Nat.sqrt (y * 2 ^ 20).floor.toNat : ℚ) / 2 ^ 10))
  | v => v

/-- A case with eight digits: standard errors, coefficients of variation, and quantiles where the normal quantile is -2,
0 and 2. -/
example : (mackCallR (fun n => seqTree (n - 1)) (floatRd 8) exRoot id id 1 exTri exTri.a2aind0 "norm").toOption.map
    (fun r => (r.stdErr, r.cv, ([-2, 0, 2] : List ℚ).map (fun q => r.qtlColumn (floatRd 8) id (fun q => .fin q) q))) =
    some ([.fin 0, .fin (233 / 64), .fin (131 / 16), .fin (175 / 8), .fin (203 / 8)],
      [.nan, .fin (169 / 1024), .fin (71 / 512), .fin (167 / 1024), .fin (121 / 1024)],
      [[.nan, .fin (59 / 4), .fin (85 / 2), .fin 90, .fin 164], [.nan, .fin 22, .fin 59, .fin 134, .fin 215],
        [.nan, .fin (117 / 4), .fin (151 / 2), .fin 178, .fin 266]]) := by
  decide +kernel

end Trikit
