import Verif.NearNonneg

/-! # C158: rounding errors of Mack's mean squared errors -/

set_option linter.unusedSectionVars false

namespace Trikit

variable {K : Type} [Field K] [LinearOrder K] [IsStrictOrderedRing K]
variable {t ind : Tri K} {n : ℕ} {c w : ℕ → ℕ → K} {rd : K → K} {br : ℕ → SumTree} {u : K}

/-- Mean squared error of origin `i` from factors `f`, volumes `W` and variances `s`. -/
def Spec.mseAt (n : ℕ) (c : ℕ → ℕ → K) (f W s : ℕ → K) (i : ℕ) : K :=
  Spec.procVar n c f s i + Spec.paramVar n c f (fun j => s j / W j) i

/-- Mean squared error of the total. -/
def Spec.totAt (n : ℕ) (c : ℕ → ℕ → K) (f W s : ℕ → K) : K :=
  ∑ k ∈ Finset.range (n - 1), (Spec.mseAt n c f W s (k + 1) + Spec.crossTerm n c f s (k + 1))

/-! ### errors made after the variances -/

theorem sig0R_nonneg' (hr : Spec.RelErr rd u) (hb : Spec.Bracketing br) (hp : Spec.Positive n c) (hw : Spec.Kept n w)
    (alpha : ℕ) {j : ℕ} : 0 ≤ Spec.sig0R br rd alpha n c w j := by
  unfold Spec.sig0R Spec.sqDevR
  refine rd_nonneg hr (div_nonneg ?_ (Nat.cast_nonneg _))
  refine (Near0.sum hr hb (k := 0) fun i hi => Near0.refl hr 0 ?_).right
  have hlt := (mem_incl.1 hi).1
  refine rd_nonneg hr (mul_nonneg (rd_nonneg hr (mul_nonneg ?_ (rd_nonneg hr (pow_nonneg (hp _ _ (by omega)).le _))))
    (rd_nonneg hr (sq_nonneg _)))
  rw [hw.w_one hi]; exact zero_le_one

theorem lastVarR_cases' (hr : Spec.RelErr rd u) {a b : K} (ha : 0 ≤ a) (hb : 0 ≤ b) :
    (a = 0 ∧ b = 0 ∧ lastVarR rd a b = .nan) ∨ ∃ s, lastVarR rd a b = .fin s ∧ 0 ≤ s := by
  unfold lastVarR Num.powR Num.divR
  rw [npMin2_fin, Num.pow_fin]
  simp only [Num.rounded]
  rcases eq_or_lt_of_le hb with e | e
  · subst e
    rcases eq_or_lt_of_le ha with e' | e'
    · subst e'
      left
      refine ⟨rfl, rfl, ?_⟩
      rw [zero_pow (by norm_num), rd_zero hr, Num.fin_div_zero]
      simp [Num.infTimes, npMin2]
    · right
      refine ⟨0, ?_, le_rfl⟩
      have : 0 < rd (a ^ 2) := rd_pos hr (pow_pos e' 2)
      rw [Num.fin_div_zero, min_eq_right ha]
      simp [Num.infTimes, this, this.ne', npMin2, Num.isNaN, Num.lt]
  · right
    rw [Num.fin_div _ _ e.ne']
    simp only [Num.rounded]
    rw [npMin2_fin]
    exact ⟨_, rfl, le_min (rd_nonneg hr (div_nonneg (rd_nonneg hr (sq_nonneg _)) hb)) (le_min ha hb)⟩

theorem mackWR_near (hr : Spec.RelErr rd u) (hb : Spec.Bracketing br) (hp : Spec.Positive n c)
    (hfix : ∀ i j, i + j < n → rd (c i j) = c i j) (hw : Spec.Kept n w) {j : ℕ} (hj : j < n - 1) :
    0 < Spec.mackW 1 n c w j ∧ 0 < Spec.mackWR br rd 1 n c w j ∧
      Spec.Near u (n - 1) (Spec.mackW 1 n c w j) (Spec.mackWR br rd 1 n c w j) := by
  have hne := hw.ne_nil hj
  have hlen := incl_length n w j
  have hc : ∀ i ∈ Spec.incl n w j, 0 < c i j := fun i hi => hp _ _ (by have := (mem_incl.1 hi).1; omega)
  have eW : Spec.mackWR br rd 1 n c w j = roundedSum br rd ((Spec.incl n w j).map (fun i => c i j)) := by
    unfold Spec.mackWR
    congr 1
    apply List.map_congr_left
    intro i hi
    have := hfix i j (by have := (mem_incl.1 hi).1; omega)
    unfold Spec.wR
    rw [hw.w_one hi, pow_one, this, one_mul, this]
  have eW' : Spec.mackW 1 n c w j = ((Spec.incl n w j).map (fun i => c i j)).sum := by
    unfold Spec.mackW
    rw [colSum_incl n j w (fun i => c i j ^ 1)]
    congr 1
    apply List.map_congr_left
    intro i hi
    rw [hw.w_one hi, pow_one, one_mul]
  obtain ⟨h1, h2, h3⟩ := sum_near hr hb hne (k := 0) hc hc (fun i hi => near_refl hr.nonneg hr.lt_one (hc i hi))
  rw [eW, eW']
  exact ⟨h1, h2, near_mono hr.nonneg hr.lt_one (by omega) h1 h2 h3⟩

theorem mackAllR_nearFactors (hr : Spec.RelErr rd u) (hid : ∀ x, rd (rd x) = rd x) (hb : Spec.Bracketing br)
    (hp : Spec.Positive n c) (hn : 4 ≤ n) (hfix : ∀ i j, i + j < n → rd (c i j) = c i j) (hw : Spec.Kept n w) :
    Spec.NearFactors u n (Spec.mackAll 1 n c w) (Spec.mackAllR br rd 1 n c w) := by
  have hfac := fun j (hj : j < n - 1) => mackFR_near hr hid hb hp hfix hw hj
  have ht : Spec.mackAll 1 n c w (n - 1) = 1 := by unfold Spec.mackAll Spec.withTail; rw [if_neg (by omega)]
  have ht' : Spec.mackAllR br rd 1 n c w (n - 1) = 1 := by
    unfold Spec.mackAllR Spec.withTail; rw [if_neg (by omega)]
  refine ⟨?_, ?_, ?_, by rw [ht, ht']⟩
  · intro j hj
    by_cases e : j < n - 1
    · rw [Spec.mackAll_lt e]; exact (hfac j e).1
    · rw [show j = n - 1 by omega, ht]; exact one_pos
  · intro j hj
    by_cases e : j < n - 1
    · rw [Spec.mackAllR_lt e]; exact (hfac j e).2.1
    · rw [show j = n - 1 by omega, ht']; exact one_pos
  · intro j hj
    rw [Spec.mackAll_lt (by omega), Spec.mackAllR_lt (by omega)]
    exact (hfac j (by omega)).2.2

/-- What the numbers after the variances are, `s` the variances stored. -/
def Spec.ErrorsFrom (u : K) (n : ℕ) (c w : ℕ → ℕ → K) (s : ℕ → K) (r : MackCore K) : Prop :=
  (∀ i < n, ∃ x, r.mse[i]? = some (.fin x) ∧ 0 ≤ x ∧
      Spec.Near u (8 * n ^ 2) (Spec.mseAt n c (Spec.mackF 1 n c w) (Spec.mackW 1 n c w) s i) x) ∧
    ∃ T, r.totMse = .fin T ∧ 0 ≤ T ∧
      Spec.Near u (8 * n ^ 2) (Spec.totAt n c (Spec.mackF 1 n c w) (Spec.mackW 1 n c w) s) T

theorem errorsFrom_core (h : Spec.Stair t n c) (hp : Spec.Positive n c) (hn : 4 ≤ n)
    (hw : Spec.Kept n w) (hr : Spec.RelErr rd u) (hid : ∀ x, rd (rd x) = rd x) (hb : Spec.Bracketing br)
    (hfix : ∀ i j, i + j < n → rd (c i j) = c i j) {r : MackCore K} {b : BaseResult K} {lab : Int}
    (p : MackPartsR br rd 1 t n c w r b lab) {s : ℕ → K}
    (hs : ∀ j < n - 1, r.devpvar.iloc j = .fin (s j) ∧ 0 ≤ s j) : Spec.ErrorsFrom u n c w s r := by
  have hF := mackAllR_nearFactors hr hid hb hp hn hfix hw
  have hFn : ∀ j < n - 1, ∃ x, r.ldfs.iloc j = .fin x ∧ 0 < x ∧ 0 < Spec.mackF 1 n c w j ∧
      Spec.Near u (2 * n) (Spec.mackF 1 n c w j) x := by
    intro j hj
    obtain ⟨h1, h2, h3⟩ := mackFR_near hr hid hb hp hfix hw hj
    exact ⟨_, by rw [p.ldf h j (by omega), Spec.mackAllR_lt hj], h2, h1,
      near_mono hr.nonneg hr.lt_one (by omega) h1 h2 h3⟩
  have hF0 : ∀ j < n - 1, ∃ x, r.ldfs.iloc j = .fin x ∧ Near0 u (2 * n) (Spec.mackF 1 n c w j) x := by
    intro j hj
    obtain ⟨x, h1, h2, h3, h4⟩ := hFn j hj
    exact ⟨x, h1, Near0.of h3 h2 h4⟩
  have hprod : ∀ i < n, ∀ q, q ≤ i → ∏ m ∈ Finset.range q, Spec.mackAll 1 n c w (n - 1 - i + m) =
      ∏ m ∈ Finset.Ico (n - 1 - i) (n - 1 - i + q), Spec.mackF 1 n c w m := by
    intro i hi q hq
    rw [Finset.prod_Ico_eq_prod_range, Nat.add_sub_cancel_left]
    apply Finset.prod_congr rfl
    intro m hm
    rw [Finset.mem_range] at hm
    exact Spec.mackAll_lt (by omega)
  have hcell : ∀ i < n, ∀ j < n, n ≤ i + j + 1 → ∃ x, r.sqr.tri.cell i j = .fin x ∧
      Near0 u (n ^ 2 + n) (Spec.proj n c (Spec.mackF 1 n c w) i j) x := by
    intro i hi j hj hij
    obtain ⟨h1, h2, h3⟩ := proj_near hr hF hi (hp i (n - 1 - i) (by omega)) (j - (n - 1 - i)) (by omega)
    rw [hprod i hi _ (by omega), show n - 1 - i + (j - (n - 1 - i)) = j by omega] at h1 h3
    refine ⟨_, ?_, Near0.mono hr (Near0.of h1 h2 h3) ?_⟩
    · rw [p.sqr, p.spec.sqr_cells i hi j hj]
      by_cases e : i + j < n
      · rw [if_pos e, show j = n - 1 - i by omega, Nat.sub_self]; rfl
      · rw [if_neg e]
    · obtain ⟨q, hq⟩ : ∃ q, q = j - (n - 1 - i) := ⟨_, rfl⟩
      rw [← hq]
      obtain ⟨d, hd⟩ : ∃ d, n = i + 1 + d := ⟨n - (i + 1), by omega⟩
      have hqi : q ≤ i := by omega
      obtain ⟨e, he⟩ : ∃ e, i = q + e := ⟨i - q, by omega⟩
      rw [show 2 * i + 3 - q = q + 2 * e + 3 by omega, hd, he]
      nlinarith
  have hV : ∀ j < n - 1, ∃ x, r.ldfvar.iloc j = .fin x ∧ Near0 u n (s j / Spec.mackW 1 n c w j) x := by
    intro j hj
    obtain ⟨h1, h2, h3⟩ := mackWR_near hr hb hp hfix hw hj
    obtain ⟨e, e0⟩ := hs j hj
    rw [p.lv j hj, ← p.dv j hj, e]
    unfold Num.divR
    rw [Num.fin_div _ _ h2.ne']
    exact ⟨_, rfl, (((Near0.refl hr 0 e0).div hr h1 h2 h3).round hr).mono hr (by omega)⟩
  have hP : ∀ i < n, ∃ x, r.procErr[i]? = some (.fin x) ∧
      Near0 u (7 * n ^ 2) (Spec.procVar n c (Spec.mackF 1 n c w) s i) x := by
    intro i hi
    rw [p.procErr]; unfold processErrorR
    rw [List.getElem?_map, List.getElem?_range hi, Option.map_some]
    by_cases e : i = 0
    · rw [if_pos e]
      refine ⟨0, rfl, ?_⟩
      have : Spec.procVar n c (Spec.mackF 1 n c w) s i = 0 := by rw [e]; unfold Spec.procVar; simp
      rw [this]; exact Near0.refl hr _ le_rfl
    · rw [if_neg e]
      obtain ⟨X, x, h1, h2, h3⟩ := peRowR_near hr hcell hF0 hs hi (by omega) (i - 1) (by omega)
      rw [peRow_closed (fun _ _ _ _ _ => rfl) (fun _ _ => rfl) (fun _ _ => rfl) hi (by omega) _ (by omega)] at h1
      injection h1 with h1
      rw [h2]
      refine ⟨x, rfl, ?_⟩
      have e1 : n - i + (i - 1) = n - 1 := by omega
      rw [e1] at h1
      unfold Spec.procVar
      rw [h1]
      refine h3.mono hr ?_
      obtain ⟨d, hd⟩ : ∃ d, n = i - 1 + 2 + d := ⟨n - (i + 1), by omega⟩
      generalize i - 1 = m at *
      subst hd
      nlinarith
  have hQ : ∀ i < n, ∃ x, r.paramErr[i]? = some (.fin x) ∧
      Near0 u (7 * n ^ 2) (Spec.paramVar n c (Spec.mackF 1 n c w) (fun j => s j / Spec.mackW 1 n c w j) i) x := by
    intro i hi
    rw [p.paramErr]; unfold parameterErrorR
    rw [List.getElem?_map, List.getElem?_range hi, Option.map_some]
    by_cases e : i = 0
    · rw [if_pos e]
      refine ⟨0, rfl, ?_⟩
      have : Spec.paramVar n c (Spec.mackF 1 n c w) (fun j => s j / Spec.mackW 1 n c w j) i = 0 := by
        rw [e]; unfold Spec.paramVar; simp
      rw [this]; exact Near0.refl hr _ le_rfl
    · rw [if_neg e]
      obtain ⟨X, x, h1, h2, h3⟩ := paRowR_near hr hcell hF0 hV hi (by omega) (i - 1) (by omega)
      rw [paRow_closed (fun _ _ _ _ _ => rfl) (fun _ _ => rfl) (fun _ _ => rfl) hi (by omega) _ (by omega)] at h1
      injection h1 with h1
      rw [h2]
      refine ⟨x, rfl, ?_⟩
      have e1 : n - i + (i - 1) = n - 1 := by omega
      rw [e1] at h1
      unfold Spec.paramVar
      rw [h1]
      refine h3.mono hr ?_
      obtain ⟨d, hd⟩ : ∃ d, n = i - 1 + 2 + d := ⟨n - (i + 1), by omega⟩
      generalize i - 1 = m at *
      subst hd
      nlinarith
  choose! P hP hPn using hP
  choose! Q hQ hQn using hQ
  have hM : r.mse = (List.range n).map (fun i => .fin (rd (P i + Q i))) := by
    rw [p.mse]
    apply List.ext_getElem?
    intro i
    rw [List.getElem?_zipWith, List.getElem?_map]
    by_cases hi : i < n
    · rw [hP i hi, hQ i hi, List.getElem?_range hi]; rfl
    · have hl : r.procErr.length = n := by rw [p.procErr]; unfold processErrorR; simp
      have hl' : r.paramErr.length = n := by rw [p.paramErr]; unfold parameterErrorR; simp
      rw [List.getElem?_eq_none (l := r.procErr) (by omega), List.getElem?_eq_none (l := r.paramErr) (by omega),
        List.getElem?_eq_none (l := List.range n) (by simpa using hi)]; rfl
  have hMn : ∀ i < n, Near0 u (7 * n ^ 2 + 1)
      (Spec.mseAt n c (Spec.mackF 1 n c w) (Spec.mackW 1 n c w) s i) (rd (P i + Q i)) := fun i hi =>
    ((hPn i hi).add (hQn i hi)).round hr
  have hU : ∀ i < n, Near0 u (n ^ 2 + n) (Spec.ult n c (Spec.mackF 1 n c w) i) (rd (c i (n - 1 - i) *
      Spec.tailProdR rd (Spec.mackAllR br rd 1 n c w) n (n - 1 - i))) := by
    intro i hi
    obtain ⟨h1, h2, h3⟩ := tailProd_near hr hF i hi
    have hc := hp i (n - 1 - i) (by omega)
    have h4 := ((Near0.refl hr 0 hc.le).mul hr (Near0.of h1 h2 h3)).round hr
    have e : Spec.ult n c (Spec.mackF 1 n c w) i = c i (n - 1 - i) *
        Spec.tailProd (Spec.mackAll 1 n c w) n (n - 1 - i) := by
      unfold Spec.ult Spec.proj Spec.tailProd
      congr 1
      obtain ⟨m, rfl⟩ : ∃ m, n = m + 1 := ⟨n - 1, by omega⟩
      rw [Finset.prod_Ico_succ_top (by omega), Nat.add_sub_cancel]
      have : Spec.mackAll 1 (m + 1) c w m = 1 := by
        unfold Spec.mackAll Spec.withTail; rw [if_neg (by omega)]
      rw [this, mul_one]
      apply Finset.prod_congr rfl
      intro k hk
      rw [Finset.mem_Ico] at hk
      exact (Spec.mackAll_lt (by omega)).symm
    rw [e]
    refine h4.mono hr ?_
    obtain ⟨d, hd⟩ : ∃ d, n = i + 1 + d := ⟨n - (i + 1), by omega⟩
    rw [hd]
    nlinarith
  have hobs : ∀ i j, i + j < n → r.sqr.tri.cell i j = .fin (c i j) := by
    intro i j hij
    rw [p.sqr, p.spec.sqr_cells i (by omega) j (by omega), if_pos hij]
  constructor
  · intro i hi
    refine ⟨_, by rw [hM, List.getElem?_map, List.getElem?_range hi]; rfl, (hMn i hi).right, ?_⟩
    exact ((hMn i hi).mono hr (by nlinarith)).near
  · have hrow : ∀ k < n - 1, ∃ x, mseTotalRowR br rd r.sqr.tri.cell r.ldfs.iloc r.devpvar.iloc n t.origins
        r.mse (r.rows.map SummRow.ultimate) (k + 1) = .fin x ∧ Near0 u (7 * n ^ 2 + 2)
          (Spec.mseAt n c (Spec.mackF 1 n c w) (Spec.mackW 1 n c w) s (k + 1) +
            Spec.crossTerm n c (Spec.mackF 1 n c w) s (k + 1)) x := by
      intro k hk
      obtain ⟨x, h1, h2⟩ := mseTotalRowR_near hr hb h hp hobs hFn hs hM hMn hU (show k + 1 < n by omega)
      rw [p.ults, h1]
      refine ⟨x, rfl, h2.mono hr ?_⟩
      have : max (7 * n ^ 2 + 1) (2 * (n ^ 2 + n) + 2 * (2 * n) + 3 * n + 6) = 7 * n ^ 2 + 1 :=
        max_eq_left (by nlinarith)
      rw [this]
    choose! X hX hXn using hrow
    have htot : r.totMse = .fin (roundedSum br rd ((List.range (n - 1)).map X)) := by
      rw [p.total, ← sumSkipR_fin, List.map_map]
      congr 1
      apply List.map_congr_left
      intro k hk
      rw [List.mem_range] at hk
      exact hX k hk
    have hT := Near0.sum hr hb (l := List.range (n - 1)) (b := X) (k := 7 * n ^ 2 + 2)
      (fun k hk => hXn k (List.mem_range.1 hk))
    refine ⟨_, htot, hT.right, ?_⟩
    unfold Spec.totAt
    rw [← list_range_sum]
    refine (hT.mono hr ?_).near
    rw [List.length_range]
    have : n ≤ n ^ 2 := by nlinarith
    omega

/-! ### errors of the variances -/

/-- Size of the terms of the variance of period `j`: every deviation `F - f` replaced by `F + f`. -/
def Spec.devSize (n : ℕ) (c w : ℕ → ℕ → K) (j : ℕ) : K :=
  Spec.colSum n j (fun i => w i j * c i j * (c i (j + 1) / c i j + Spec.mackF 1 n c w j) ^ 2) / ((n - j - 2 : ℕ) : K)

/-- Bound on the error of the variance of period `j`. -/
def Spec.varTol (u : K) (n : ℕ) (c w : ℕ → ℕ → K) (j : ℕ) : K :=
  if j + 2 < n then 14 * n * u * Spec.devSize n c w j
  else 30 * n * u * Spec.devSize n c w (n - 3) + 14 * n * u * Spec.devSize n c w (n - 4)

/-- One squared deviation. -/
theorem dev_err (hr : Spec.RelErr rd u) {N F f F' f' : K} (hN : 4 ≤ N) (hu : 50 * N * u ≤ 1) (hF : 0 < F) (hf : 0 < f)
    (hF' : |F' - F| ≤ u * F) (hf' : |f' - f| ≤ (4 * N - 2) * u * f) :
    |rd (rd (F' - f') ^ 2) - (F - f) ^ 2| ≤ 9 * N * u * (F + f) ^ 2 := by
  have h0 := hr.nonneg
  set x := N * u with hx
  have hx0 : 0 ≤ x := mul_nonneg (by linarith) h0
  have hx1 : 50 * x ≤ 1 := by rw [hx]; linarith
  have hux : 4 * u ≤ x := mul_le_mul_of_nonneg_right hN h0
  set M := F + f with hM
  have hM0 : 0 < M := add_pos hF hf
  have hd : |F - f| ≤ M := by rw [abs_le]; constructor <;> linarith
  have h1 : |(F' - f') - (F - f)| ≤ (4 * x - 2 * u) * M := by
    have e : (F' - f') - (F - f) = (F' - F) - (f' - f) := by ring
    rw [e]
    refine (abs_sub _ _).trans ?_
    have e1 : u * F ≤ (4 * x - 2 * u) * F := mul_le_mul_of_nonneg_right (by linarith) hF.le
    have e2 : (4 * N - 2) * u * f = (4 * x - 2 * u) * f := by rw [hx]; ring
    rw [hM]; rw [e2] at hf'
    linarith
  have h2 : |(F' - f')| ≤ (1 + (4 * x - 2 * u)) * M := by
    have := abs_sub_abs_le_abs_sub (F' - f') (F - f)
    linarith
  have h3 : |rd (F' - f') - (F - f)| ≤ 4 * x * M := by
    have e : rd (F' - f') - (F - f) = (rd (F' - f') - (F' - f')) + ((F' - f') - (F - f)) := by ring
    rw [e]
    refine (abs_add_le _ _).trans ?_
    have e1 := (hr.err (F' - f')).trans (mul_le_mul_of_nonneg_left h2 h0)
    have e2 : u * (4 * x - 2 * u) ≤ u * 1 := mul_le_mul_of_nonneg_left (by linarith) h0
    have e3 := mul_le_mul_of_nonneg_right e2 hM0.le
    nlinarith
  set e := rd (F' - f') with he
  set d := F - f with hdd
  have h4 : |e ^ 2 - d ^ 2| ≤ 84 / 10 * x * M ^ 2 := by
    have e1 : e ^ 2 - d ^ 2 = (e - d) * ((e - d) + 2 * d) := by ring
    rw [e1, abs_mul]
    have e2 : |(e - d) + 2 * d| ≤ 4 * x * M + 2 * M := by
      refine (abs_add_le _ _).trans ?_
      rw [abs_mul, abs_two]
      linarith
    have e3 := mul_le_mul h3 e2 (abs_nonneg _) (by positivity)
    refine e3.trans ?_
    have e4 : 0 ≤ x * (1 - 50 * x) := mul_nonneg hx0 (by linarith)
    have e5 := mul_nonneg e4 (sq_nonneg M)
    nlinarith
  have hd2 : d ^ 2 ≤ M ^ 2 := by
    rw [← sq_abs d]; exact pow_le_pow_left₀ (abs_nonneg _) hd 2
  have h5 : e ^ 2 ≤ (1 + 84 / 10 * x) * M ^ 2 := by
    have := (abs_le.1 h4).2
    linarith
  have h6 := hr.err (e ^ 2)
  rw [abs_of_nonneg (sq_nonneg e)] at h6
  have h7 := mul_le_mul_of_nonneg_left h5 h0
  have e1 : rd (e ^ 2) - d ^ 2 = (rd (e ^ 2) - e ^ 2) + (e ^ 2 - d ^ 2) := by ring
  rw [e1]
  refine (abs_add_le _ _).trans ?_
  have e2 : u * x ≤ u * (1 / 50) := mul_le_mul_of_nonneg_left (by linarith) h0
  have e3 : u * (1 + 84 / 10 * x) ≤ 6 / 10 * x := by nlinarith
  have e4 := mul_le_mul_of_nonneg_right e3 (sq_nonneg M)
  have e5 : 9 * N * u * M ^ 2 = 9 * x * M ^ 2 := by rw [hx]; ring
  rw [e5]
  nlinarith

/-- Sum and division. -/
theorem mean_err (hr : Spec.RelErr rd u) {x SD SG SZ m P : K} (hx1 : 50 * x ≤ 1) (hux : 4 * u ≤ x) (hm0 : 0 < m)
    (hD0 : 0 ≤ SD) (hDG : SD ≤ SG) (hpow : P ≤ 1 + 2 * x) (key : |SZ - SD| ≤ P * (SD + 10 * x * SG) - SD) :
    |rd (SZ / m) - SD / m| ≤ 14 * x * (SG / m) := by
  have h0 := hr.nonneg
  have hx0 : 0 ≤ x := by linarith
  have hSG0 : 0 ≤ SG := hD0.trans hDG
  have hs : |SZ - SD| ≤ 13 * x * SG := by
    have e1 := mul_le_mul_of_nonneg_right hpow (add_nonneg hD0 (mul_nonneg (mul_nonneg (by norm_num : (0 : K) ≤ 10) hx0) hSG0))
    have e2 : 2 * x * SD ≤ 2 * x * SG := mul_le_mul_of_nonneg_left hDG (by linarith)
    have e3 := mul_nonneg (mul_nonneg hx0 (by linarith : 0 ≤ 1 - 50 * x)) hSG0
    nlinarith
  have hs2 : |SZ / m - SD / m| ≤ 13 * x * (SG / m) := by
    rw [← sub_div, abs_div, abs_of_pos hm0, ← mul_div_assoc]
    exact div_le_div_of_nonneg_right hs hm0.le
  have hg0 : 0 ≤ SG / m := div_nonneg hSG0 hm0.le
  have hs3 : |SZ / m| ≤ (1 + 13 * x) * (SG / m) := by
    have h2 := abs_sub_abs_le_abs_sub (SZ / m) (SD / m)
    rw [abs_of_nonneg (div_nonneg hD0 hm0.le) (a := SD / m)] at h2
    have := div_le_div_of_nonneg_right hDG hm0.le
    linarith
  have e3 := (hr.err (SZ / m)).trans (mul_le_mul_of_nonneg_left hs3 h0)
  have e4 : rd (SZ / m) - SD / m = (rd (SZ / m) - SZ / m) + (SZ / m - SD / m) := by ring
  rw [e4]
  refine (abs_add_le _ _).trans ?_
  have e5 : u * (1 + 13 * x) ≤ x := by nlinarith [mul_nonneg h0 (by linarith : 0 ≤ 1 - 50 * x)]
  have e6 := mul_le_mul_of_nonneg_right e5 hg0
  nlinarith

/-- The variances but the last. -/
theorem sig0R_err (hr : Spec.RelErr rd u) (hid : ∀ x, rd (rd x) = rd x) (hb : Spec.Bracketing br)
    (hp : Spec.Positive n c) (hn : 4 ≤ n) (hfix : ∀ i j, i + j < n → rd (c i j) = c i j) (hw : Spec.Kept n w)
    (hu : 50 * (n : K) * u ≤ 1) {j : ℕ} (hj : j + 2 < n) :
    |Spec.sig0R br rd 1 n c w j - Spec.sig0 1 n c w j| ≤ 14 * n * u * Spec.devSize n c w j ∧
      Spec.sig0 1 n c w j ≤ Spec.devSize n c w j := by
  have h0 := hr.nonneg
  have h1 := hr.lt_one
  have hN : (4 : K) ≤ n := by exact_mod_cast hn
  obtain ⟨f0, f0', fn⟩ := mackFR_near hr hid hb hp hfix hw (show j < n - 1 by omega)
  set f := Spec.mackF 1 n c w j with hf
  set f' := Spec.mackFR br rd 1 n c w j with hf'
  have hu1 : u ≤ 1 / 200 := by nlinarith
  have hff : |f' - f| ≤ (4 * (n : K) - 2) * u * f := by
    have hn1 : Spec.Near u (2 * n - 1) f f' := near_mono h0 h1 (by omega) f0 f0' fn
    have hc : ((2 * n - 1 : ℕ) : K) = 2 * n - 1 := by rw [Nat.cast_sub (by omega)]; push_cast; ring
    have := near_err h0 h1 (by rw [hc]; nlinarith) f0 hn1
    rw [hc] at this
    linarith
  have hlt : ∀ i ∈ Spec.incl n w j, i + j + 1 < n := fun i hi => (mem_incl.1 hi).1
  set D := fun i => c i j * (c i (j + 1) / c i j - f) ^ 2 with hD
  set G := fun i => c i j * (c i (j + 1) / c i j + f) ^ 2 with hG
  set Z := fun i => rd (c i j * rd (rd (rd (c i (j + 1) / c i j) - f') ^ 2)) with hZ
  set x := (n : K) * u with hx
  have hx0 : 0 ≤ x := mul_nonneg (by linarith) h0
  have hx1 : 50 * x ≤ 1 := by rw [hx]; linarith
  have hux : 4 * u ≤ x := mul_le_mul_of_nonneg_right hN h0
  have hq : ∀ i ∈ Spec.incl n w j, 0 ≤ G i ∧ 0 ≤ D i ∧ D i ≤ G i ∧ |Z i - D i| ≤ 10 * x * G i := by
    intro i hi
    have hi' := hlt i hi
    have hc := hp i j (by omega)
    have hF : 0 < c i (j + 1) / c i j := div_pos (hp _ _ (by omega)) hc
    have key := dev_err hr hN hu hF f0 (F' := rd (c i (j + 1) / c i j))
      (by have := hr.err (c i (j + 1) / c i j); rwa [abs_of_pos hF] at this) hff
    set F := c i (j + 1) / c i j
    set q := rd (rd (rd F - f') ^ 2) with hqd
    have hd : (F - f) ^ 2 ≤ (F + f) ^ 2 := by nlinarith [mul_pos hF f0]
    have hDi : D i = c i j * (F - f) ^ 2 := rfl
    have hGi : G i = c i j * (F + f) ^ 2 := rfl
    have hZi : Z i = rd (c i j * q) := rfl
    have hG0 : 0 ≤ G i := mul_nonneg hc.le (sq_nonneg _)
    refine ⟨hG0, mul_nonneg hc.le (sq_nonneg _), mul_le_mul_of_nonneg_left hd hc.le, ?_⟩
    have e1 : |c i j * q - D i| ≤ 9 * x * G i := by
      rw [hDi, ← mul_sub, abs_mul, abs_of_pos hc, hGi]
      have := mul_le_mul_of_nonneg_left key hc.le
      rw [hx]
      linarith
    have e2 : |c i j * q| ≤ (1 + 9 * x) * G i := by
      have h2 := abs_sub_abs_le_abs_sub (c i j * q) (D i)
      rw [abs_of_nonneg (mul_nonneg hc.le (sq_nonneg (F - f))) (a := D i)] at h2
      have : D i ≤ G i := mul_le_mul_of_nonneg_left hd hc.le
      linarith
    have e3 := (hr.err (c i j * q)).trans (mul_le_mul_of_nonneg_left e2 h0)
    have e4 : Z i - D i = (rd (c i j * q) - c i j * q) + (c i j * q - D i) := by rw [hZi]; ring
    rw [e4]
    refine (abs_add_le _ _).trans ?_
    have e5 : u * (1 + 9 * x) ≤ x := by nlinarith [mul_nonneg h0 (by linarith : 0 ≤ 1 - 50 * x)]
    have e6 := mul_le_mul_of_nonneg_right e5 hG0
    nlinarith
  have hne := hw.ne_nil (show j < n - 1 by omega)
  have hlen := incl_length n w j
  have eD : Spec.sig0 1 n c w j = ((Spec.incl n w j).map D).sum / ((n - j - 2 : ℕ) : K) := by
    unfold Spec.sig0 Spec.sqDev
    simp only [mul_assoc]
    rw [colSum_incl n j w (fun i => c i j ^ 1 * (c i (j + 1) / c i j - Spec.mackF 1 n c w j) ^ 2)]
    congr 2
    apply List.map_congr_left
    intro i hi
    rw [hw.w_one hi, pow_one, one_mul]
  have eG : Spec.devSize n c w j = ((Spec.incl n w j).map G).sum / ((n - j - 2 : ℕ) : K) := by
    unfold Spec.devSize
    simp only [mul_assoc]
    rw [colSum_incl n j w (fun i => c i j * (c i (j + 1) / c i j + Spec.mackF 1 n c w j) ^ 2)]
    congr 2
    apply List.map_congr_left
    intro i hi
    rw [hw.w_one hi, one_mul]
  have eZ : Spec.sig0R br rd 1 n c w j = rd (roundedSum br rd ((Spec.incl n w j).map Z) / ((n - j - 2 : ℕ) : K)) := by
    unfold Spec.sig0R Spec.sqDevR
    congr 3
    apply List.map_congr_left
    intro i hi
    have := hfix i j (by have := hlt i hi; omega)
    unfold Spec.wR
    rw [hw.w_one hi, pow_one, this, one_mul, this]
  have hm0 : (0 : K) < ((n - j - 2 : ℕ) : K) := by exact_mod_cast (by omega : 0 < n - j - 2)
  have key := sum_err hr hb hne (a := D) (b := Z) (e := fun i => 10 * x * G i) (fun i hi => (hq i hi).2.2.2)
  have eabs : (Spec.incl n w j).map (fun i => |D i|) = (Spec.incl n w j).map D :=
    List.map_congr_left fun i hi => abs_of_nonneg (hq i hi).2.1
  have eadd : ((Spec.incl n w j).map (fun i => |D i| + 10 * x * G i)).sum =
      ((Spec.incl n w j).map D).sum + 10 * x * ((Spec.incl n w j).map G).sum := by
    rw [List.sum_map_add, eabs, List.sum_map_mul_left]
  rw [eadd, eabs] at key
  have hDG : ((Spec.incl n w j).map D).sum ≤ ((Spec.incl n w j).map G).sum :=
    List.sum_le_sum fun i hi => (hq i hi).2.2.1
  have hD0 : 0 ≤ ((Spec.incl n w j).map D).sum :=
    List.sum_nonneg (by intro y hy; obtain ⟨i, hi, rfl⟩ := List.mem_map.1 hy; exact (hq i hi).2.1)
  rw [eZ, eD, eG]
  refine ⟨?_, div_le_div_of_nonneg_right hDG hm0.le⟩
  have e7 : 14 * (n : K) * u * (((Spec.incl n w j).map G).sum / ((n - j - 2 : ℕ) : K)) =
      14 * x * (((Spec.incl n w j).map G).sum / ((n - j - 2 : ℕ) : K)) := by rw [hx]; ring
  rw [e7]
  refine mean_err hr hx1 hux hm0 hD0 hDG ?_ key
  refine (pow_le_pow_right₀ (by linarith) (show (Spec.incl n w j).length - 1 ≤ n by omega)).trans ?_
  have := onePlus_pow h0 h1 (m := n) (by linarith)
  rw [hx]; linarith

/-! ### the last variance -/

theorem sigLast_lip {a b a' b' : K} (ha : 0 ≤ a) (hb : 0 < b) (ha' : 0 ≤ a') (hb' : 0 < b') :
    Spec.sigLast a' b' ≤ Spec.sigLast a b + 2 * |a' - a| + |b' - b| := by
  have n1 := abs_nonneg (a' - a)
  have n2 := abs_nonneg (b' - b)
  have l1 := le_abs_self (a' - a)
  have l2 := le_abs_self (b' - b)
  have l3 := neg_abs_le (b' - b)
  unfold Spec.sigLast
  have key : ∀ q : K, 0 ≤ q → q ≤ 1 → min (a' ^ 2 / b') (min a' b') ≤ 2 * a' * q - q ^ 2 * b' →
      min (a' ^ 2 / b') (min a' b') ≤ a ^ 2 / b + 2 * |a' - a| + |b' - b| := by
    intro q q0 q1 hle
    have e1 : 2 * a * q - q ^ 2 * b ≤ a ^ 2 / b := by
      rw [le_div_iff₀ hb]; nlinarith [sq_nonneg (a - q * b)]
    have e2 : 2 * q * (a' - a) ≤ 2 * |a' - a| := by nlinarith [mul_le_mul_of_nonneg_left l1 q0]
    have e3 : -(q ^ 2 * (b' - b)) ≤ |b' - b| := by
      have : q ^ 2 ≤ 1 := by nlinarith
      nlinarith [mul_le_mul_of_nonneg_left l3 (sq_nonneg q)]
    nlinarith
  rcases le_total b a with e | e
  · have : min (a ^ 2 / b) (min a b) = b := by
      rw [min_eq_right e, min_eq_right]
      rw [le_div_iff₀ hb]; nlinarith
    rw [this]
    have := (min_le_right (a' ^ 2 / b') (min a' b')).trans (min_le_right a' b')
    linarith
  · have : min (a ^ 2 / b) (min a b) = a ^ 2 / b := by
      rw [min_eq_left e, min_eq_left]
      rw [div_le_iff₀ hb]; nlinarith
    rw [this]
    rcases le_total a' b' with e' | e'
    · refine key (a' / b') (div_nonneg ha' hb'.le) ((div_le_one hb').2 e') ((min_le_left _ _).trans (le_of_eq ?_))
      field_simp; ring
    · refine key 1 zero_le_one le_rfl (((min_le_right _ _).trans (min_le_right _ _)).trans ?_)
      linarith

theorem lastVarR_err (hr : Spec.RelErr rd u) {a b a' b' : K} (hu : u ≤ 1 / 4) (ha : 0 ≤ a) (hb : 0 < b) (ha' : 0 ≤ a')
    (hb' : 0 < b') : ∃ x, lastVarR rd a' b' = .fin x ∧ 0 ≤ x ∧
      |x - Spec.sigLast a b| ≤ 2 * |a' - a| + |b' - b| + 4 * u * a' := by
  have h0 := hr.nonneg
  refine ⟨min (rd (rd (a' ^ 2) / b')) (min a' b'), ?_, le_min (rd_nonneg hr (div_nonneg (rd_nonneg hr (sq_nonneg _))
    hb'.le)) (le_min ha' hb'.le), ?_⟩
  · unfold lastVarR Num.powR Num.divR
    rw [npMin2_fin, Num.pow_fin]
    simp only [Num.rounded]
    rw [Num.fin_div _ _ hb'.ne']
    simp only
    rw [npMin2_fin]
  · have hq0 : 0 ≤ a' ^ 2 / b' := div_nonneg (sq_nonneg _) hb'.le
    have hq : |rd (rd (a' ^ 2) / b') - a' ^ 2 / b'| ≤ 4 * u * (a' ^ 2 / b') := by
      have hn := ((((Near0.refl hr 0 (sq_nonneg a')).round hr).div hr hb' hb'
        (near_refl hr.nonneg hr.lt_one (k := 0) hb')).round hr)
      rcases eq_or_lt_of_le hq0 with e | e
      · have ez : a' = 0 := by
          rcases div_eq_zero_iff.1 e.symm with h | h
          · exact pow_eq_zero_iff two_ne_zero |>.1 h
          · exact absurd h hb'.ne'
        rw [ez]; simp [rd_zero hr]
      · have := near_err h0 hr.lt_one (k := 2) (by push_cast; linarith) e hn.near
        push_cast at this
        linarith
    have hs := abs_le.1 hq
    have hx : |min (rd (rd (a' ^ 2) / b')) (min a' b') - Spec.sigLast a' b'| ≤ 4 * u * a' := by
      unfold Spec.sigLast
      set q := a' ^ 2 / b'
      set q' := rd (rd (a' ^ 2) / b')
      set m := min a' b' with hm
      have hm0 : 0 ≤ m := le_min ha' hb'.le
      have hma : m ≤ a' := min_le_left _ _
      have hua : 4 * u * m ≤ 4 * u * a' := mul_le_mul_of_nonneg_left hma (by linarith)
      have hum : 0 ≤ 4 * u * m := mul_nonneg (by linarith) hm0
      rw [abs_le]
      rcases le_total q m with e | e
      · rw [min_eq_left e]
        have hqm : 4 * u * q ≤ 4 * u * m := mul_le_mul_of_nonneg_left e (by linarith)
        constructor
        · have : q - 4 * u * a' ≤ min q' m := le_min (by linarith) (by linarith)
          linarith
        · have := min_le_left q' m
          linarith
      · rw [min_eq_right e]
        constructor
        · have : m - 4 * u * a' ≤ min q' m := by
            refine le_min ?_ (by linarith)
            have : 0 ≤ (1 - 4 * u) * (q - m) := mul_nonneg (by linarith) (by linarith)
            nlinarith
          linarith
        · have := min_le_right q' m
          linarith
    have hl1 := sigLast_lip ha hb ha' hb'
    have hl2 := sigLast_lip ha' hb' ha hb
    rw [abs_sub_comm a a', abs_sub_comm b b'] at hl2
    rw [abs_le] at hx ⊢
    constructor <;> linarith

/-! ### larger variances give larger errors -/

section mono
variable {f W s s' : ℕ → K}

theorem procVar_mono (hp : Spec.Positive n c) (hf : ∀ j < n - 1, 0 < f j) (hs : ∀ j < n - 1, s j ≤ s' j) {i : ℕ}
    (hi : i < n) : Spec.procVar n c f s i ≤ Spec.procVar n c f s' i := by
  unfold Spec.procVar
  apply Finset.sum_le_sum
  intro k hk
  rw [Finset.mem_Ico] at hk
  apply mul_le_mul_of_nonneg_right
  · exact mul_le_mul_of_nonneg_left (hs k hk.2) (proj_pos hp hf hi (by omega)).le
  · exact Finset.prod_nonneg fun _ _ => sq_nonneg _

theorem paramVar_mono {v v' : ℕ → K} (hv0 : ∀ j < n - 1, 0 ≤ v j) (hv : ∀ j < n - 1, v j ≤ v' j) (i : ℕ) :
    Spec.paramVar n c f v i ≤ Spec.paramVar n c f v' i := by
  unfold Spec.paramVar
  apply mul_le_mul_of_nonneg_left _ (sq_nonneg _)
  apply sub_le_sub_right
  apply Finset.prod_le_prod
  · intro k hk
    rw [Finset.mem_Ico] at hk
    exact add_nonneg (sq_nonneg _) (hv0 k hk.2)
  · intro k hk
    rw [Finset.mem_Ico] at hk
    exact add_le_add_right (hv k hk.2) _

theorem crossTerm_mono (hp : Spec.Positive n c) (hf : ∀ j < n - 1, 0 < f j) (hs : ∀ j < n - 1, s j ≤ s' j) {i : ℕ}
    (hi : i < n) : Spec.crossTerm n c f s i ≤ Spec.crossTerm n c f s' i := by
  unfold Spec.crossTerm
  apply mul_le_mul_of_nonneg_left
  · apply Finset.sum_le_sum
    intro q hq
    rw [Finset.mem_Ico] at hq
    apply div_le_div_of_nonneg_right (div_le_div_of_nonneg_right (hs q hq.2) (sq_nonneg _))
    apply Finset.sum_nonneg
    intro r hr
    rw [Finset.mem_range] at hr
    exact (hp r q (by omega)).le
  · apply mul_nonneg
    · exact mul_nonneg (by norm_num) (proj_pos hp hf hi (le_refl _)).le
    · apply Finset.sum_nonneg
      intro k hk
      rw [Finset.mem_Ico] at hk
      exact (proj_pos hp hf hk.2 (le_refl _)).le

theorem mseAt_mono (hp : Spec.Positive n c) (hf : ∀ j < n - 1, 0 < f j) (hW : ∀ j < n - 1, 0 < W j)
    (hs0 : ∀ j < n - 1, 0 ≤ s j) (hs : ∀ j < n - 1, s j ≤ s' j) {i : ℕ} (hi : i < n) :
    Spec.mseAt n c f W s i ≤ Spec.mseAt n c f W s' i :=
  add_le_add (procVar_mono hp hf hs hi) (paramVar_mono (fun j hj => div_nonneg (hs0 j hj) (hW j hj).le)
    (fun j hj => div_le_div_of_nonneg_right (hs j hj) (hW j hj).le) i)

theorem totAt_mono (hp : Spec.Positive n c) (hf : ∀ j < n - 1, 0 < f j) (hW : ∀ j < n - 1, 0 < W j)
    (hs0 : ∀ j < n - 1, 0 ≤ s j) (hs : ∀ j < n - 1, s j ≤ s' j) :
    Spec.totAt n c f W s ≤ Spec.totAt n c f W s' := by
  unfold Spec.totAt
  apply Finset.sum_le_sum
  intro k hk
  rw [Finset.mem_range] at hk
  exact add_le_add (mseAt_mono hp hf hW hs0 hs (by omega)) (crossTerm_mono hp hf hs (by omega))

end mono

/-! ### the result -/

theorem mackWR_ne_zero (hr : Spec.RelErr rd u) (hb : Spec.Bracketing br) (hp : Spec.Positive n c)
    (hfix : ∀ i j, i + j < n → rd (c i j) = c i j) (hw : Spec.Kept n w) :
    ∀ j < n - 1, Spec.mackWR br rd 1 n c w j ≠ 0 := fun _ hj => (mackWR_near hr hb hp hfix hw hj).2.1.ne'

/-- **C158, after the variances.** Mack chain ladder with `alpha = 1` in rounded arithmetic on a positive staircase whose
amounts are numbers of the format: the variances stored are not negative, and the mean squared errors of the origins
and of the total are those of Mack's formulas with the exact factors and volumes and the variances stored, up to
`8n²` relative errors of size `u`; or the variance of the last period is missing, and every error is zero. -/
theorem C158_errors (h : Spec.Stair t n c) (hp : Spec.Positive n c) (hn : 4 ≤ n) (hi : IndW t ind n w)
    (hw : Spec.Kept n w) (hr : Spec.RelErr rd u) (hid : ∀ x, rd (rd x) = rd x) (hb : Spec.Bracketing br)
    (hfix : ∀ i j, i + j < n → rd (c i j) = c i j) :
    ∃ r, mackCoreR br rd 1 t ind = .ok r ∧
      ((∃ s : ℕ → K, (∀ j < n - 1, r.devpvar.iloc j = .fin (s j) ∧ 0 ≤ s j) ∧ Spec.ErrorsFrom u n c w s r) ∨
        r.devpvar.iloc (n - 2) = .nan ∧ r.mse = List.replicate n (.fin 0) ∧ r.totMse = .fin 0) := by
  obtain ⟨r, b, lab, hr1, p⟩ := mackCoreR_stair br rd h hp.ne_zero hi hn 1 (mackWR_ne_zero hr hb hp hfix hw)
  refine ⟨r, hr1, ?_⟩
  have hs0 := fun j => sig0R_nonneg' hr hb hp hw 1 (j := j)
  rcases lastVarR_cases' hr (hs0 (n - 3)) (hs0 (n - 4)) with ⟨_, _, e⟩ | ⟨x, e, hx⟩
  · right
    have hl : r.devpvar.iloc (n - 2) = .nan := by
      rw [p.dv _ (by omega)]; unfold storedVarR; rw [if_neg (by omega), e]
    obtain ⟨_, _, h3, h4⟩ := p.no_errors (rd_zero hr) hn hl
    exact ⟨hl, h3, h4⟩
  · left
    have hs : ∀ j < n - 1, r.devpvar.iloc j = .fin (if j + 2 < n then Spec.sig0R br rd 1 n c w j else x) ∧
        0 ≤ (if j + 2 < n then Spec.sig0R br rd 1 n c w j else x) := by
      intro j hj
      rw [p.dv j hj]; unfold storedVarR
      split
      · exact ⟨rfl, hs0 j⟩
      · exact ⟨e, hx⟩
    exact ⟨_, hs, errorsFrom_core h hp hn hw hr hid hb hfix p hs⟩

/-- **C158, the variances.** Every variance but the last is off by at most `14nu` times the size of its terms.  When the
last but two is larger than its own tolerance, the last is off by at most `Spec.varTol`. -/
theorem C158_variances (h : Spec.Stair t n c) (hp : Spec.Positive n c) (hn : 4 ≤ n) (hi : IndW t ind n w)
    (hw : Spec.Kept n w) (hr : Spec.RelErr rd u) (hid : ∀ x, rd (rd x) = rd x) (hb : Spec.Bracketing br)
    (hfix : ∀ i j, i + j < n → rd (c i j) = c i j) (hu : 50 * (n : K) * u ≤ 1) :
    ∃ r, mackCoreR br rd 1 t ind = .ok r ∧
      (∀ j < n - 2, ∃ x, r.devpvar.iloc j = .fin x ∧ 0 ≤ x ∧
        |x - Spec.sigma2 1 n c w j| ≤ Spec.varTol u n c w j) ∧
      (Spec.varTol u n c w (n - 4) < Spec.sigma2 1 n c w (n - 4) → ∃ x, r.devpvar.iloc (n - 2) = .fin x ∧ 0 ≤ x ∧
        |x - Spec.sigma2 1 n c w (n - 2)| ≤ Spec.varTol u n c w (n - 2)) := by
  obtain ⟨r, b, lab, hr1, p⟩ := mackCoreR_stair br rd h hp.ne_zero hi hn 1 (mackWR_ne_zero hr hb hp hfix hw)
  have hs0 := fun j => sig0R_nonneg' hr hb hp hw 1 (j := j)
  have hN : (4 : K) ≤ n := by exact_mod_cast hn
  have h0 := hr.nonneg
  refine ⟨r, hr1, ?_, ?_⟩
  · intro j hj
    refine ⟨_, by rw [p.dv j (by omega)]; unfold storedVarR; rw [if_pos (by omega)], hs0 j, ?_⟩
    unfold Spec.sigma2 Spec.varTol
    rw [if_pos (by omega), if_pos (by omega)]
    exact (sig0R_err hr hid hb hp hn hfix hw hu (by omega)).1
  · unfold Spec.sigma2 Spec.varTol
    rw [if_pos (by omega), if_pos (by omega), if_neg (by omega), if_neg (by omega)]
    intro hlt
    obtain ⟨ea, la⟩ := sig0R_err (br := br) hr hid hb hp hn hfix hw hu (show n - 3 + 2 < n by omega)
    obtain ⟨eb, lb⟩ := sig0R_err (br := br) hr hid hb hp hn hfix hw hu (show n - 4 + 2 < n by omega)
    have ha0 : 0 ≤ Spec.sig0 1 n c w (n - 3) := sig0_nonneg hp hw.weights 1 (n - 3)
    have hb0 : 0 < Spec.sig0 1 n c w (n - 4) := lt_of_le_of_lt ((abs_nonneg _).trans eb) hlt
    have hb0' : 0 < Spec.sig0R br rd 1 n c w (n - 4) := by
      have := (abs_le.1 eb).1
      linarith
    have hx0 : 0 ≤ (n : K) * u := mul_nonneg (by linarith) h0
    have hux : 4 * u ≤ (n : K) * u := mul_le_mul_of_nonneg_right hN h0
    obtain ⟨x, e1, e2, e3⟩ := lastVarR_err hr (by linarith) ha0 hb0 (hs0 (n - 3)) hb0'
    refine ⟨x, ?_, e2, e3.trans ?_⟩
    · rw [p.dv _ (by omega)]; unfold storedVarR; rw [if_neg (by omega), e1]
    · have e4 := (abs_le.1 ea).2
      set A := Spec.devSize n c w (n - 3)
      set a' := Spec.sig0R br rd 1 n c w (n - 3)
      have hA : 0 ≤ A := ha0.trans la
      have e5 : a' ≤ 2 * A := by
        have := mul_le_mul_of_nonneg_right hu hA
        nlinarith
      have e6 : 4 * u * a' ≤ 4 * u * (2 * A) := mul_le_mul_of_nonneg_left e5 (by linarith)
      have e7 := mul_le_mul_of_nonneg_right hux hA
      nlinarith

/-- **C158.** When the last variance but two exceeds its tolerance, the mean squared errors of Mack chain ladder in
rounded arithmetic, of every origin and of the total, lie up to `8n²` relative errors of size `u` between the exact
formula at the variances lowered and at the variances raised by their tolerances; the exact estimator is the formula at
the variances. -/
theorem C158_between (h : Spec.Stair t n c) (hp : Spec.Positive n c) (hn : 4 ≤ n) (hi : IndW t ind n w)
    (hw : Spec.Kept n w) (hr : Spec.RelErr rd u) (hid : ∀ x, rd (rd x) = rd x) (hb : Spec.Bracketing br)
    (hfix : ∀ i j, i + j < n → rd (c i j) = c i j) (hu : 50 * (n : K) * u ≤ 1)
    (hlast : Spec.varTol u n c w (n - 4) < Spec.sigma2 1 n c w (n - 4)) :
    let E := Spec.mseAt n c (Spec.mackF 1 n c w) (Spec.mackW 1 n c w)
    let T := Spec.totAt n c (Spec.mackF 1 n c w) (Spec.mackW 1 n c w)
    let lo := fun j => max 0 (Spec.sigma2 1 n c w j - Spec.varTol u n c w j)
    let hi := fun j => Spec.sigma2 1 n c w j + Spec.varTol u n c w j
    ∃ r r', mackCore 1 t ind = .ok r ∧ mackCoreR br rd 1 t ind = .ok r' ∧
      r.mse = (List.range n).map (fun i => .fin (E (Spec.sigma2 1 n c w) i)) ∧
      r.totMse = .fin (T (Spec.sigma2 1 n c w)) ∧
      (∀ i < n, ∃ x, r'.mse[i]? = some (.fin x) ∧ (1 - u) ^ (8 * n ^ 2) * E lo i ≤ x ∧
        (1 - u) ^ (8 * n ^ 2) * x ≤ E hi i) ∧
      ∃ x, r'.totMse = .fin x ∧ (1 - u) ^ (8 * n ^ 2) * T lo ≤ x ∧ (1 - u) ^ (8 * n ^ 2) * x ≤ T hi := by
  intro E T lo hi'
  obtain ⟨r, b, lab, hr1, p⟩ := mack_parts h hp hi hw.weights hn 1
  obtain ⟨r', hr2, hE⟩ := C158_errors (br := br) h hp hn hi hw hr hid hb hfix
  obtain ⟨r2, hr3, hv, hl⟩ := C158_variances (br := br) h hp hn hi hw hr hid hb hfix hu
  obtain rfl : r2 = r' := by rw [hr2] at hr3; injection hr3 with e; exact e.symm
  have h0 := hr.nonneg
  have htol : 0 ≤ Spec.varTol u n c w (n - 4) := by
    obtain ⟨x, _, _, hx⟩ := hv (n - 4) (by omega)
    exact (abs_nonneg _).trans hx
  have hd : ¬ Spec.Degenerate 1 n c w := by
    intro hdeg
    have e : Spec.sigma2 1 n c w (n - 4) = 0 := by
      unfold Spec.sigma2; rw [if_pos (by omega)]; exact hdeg.2
    rw [e] at hlast
    exact absurd hlast (not_lt.2 htol)
  obtain ⟨x, hx, _, hxe⟩ := hl hlast
  rcases hE with ⟨s, hs, hE1, hE2⟩ | ⟨hnan, _⟩
  swap
  · rw [hx] at hnan; exact absurd hnan (by simp)
  have hse : ∀ j < n - 1, |s j - Spec.sigma2 1 n c w j| ≤ Spec.varTol u n c w j := by
    intro j hj
    by_cases e : j < n - 2
    · obtain ⟨y, h1, _, h2⟩ := hv j e
      rw [(hs j hj).1] at h1
      injection h1 with h1
      rw [h1]; exact h2
    · have ej : j = n - 2 := by omega
      subst ej
      rw [(hs _ hj).1] at hx
      injection hx with hx
      rw [hx]; exact hxe
  have hlo0 : ∀ j < n - 1, 0 ≤ lo j := fun j _ => le_max_left _ _
  have hlo : ∀ j < n - 1, lo j ≤ s j := fun j hj =>
    max_le (hs j hj).2 (by have := (abs_le.1 (hse j hj)).1; linarith)
  have hhi : ∀ j < n - 1, s j ≤ hi' j := fun j hj => by
    have := (abs_le.1 (hse j hj)).2
    show s j ≤ Spec.sigma2 1 n c w j + Spec.varTol u n c w j
    linarith
  have hf : ∀ j < n - 1, 0 < Spec.mackF 1 n c w j := fun j hj => (mackFR_near hr hid hb hp hfix hw hj).1
  have hW : ∀ j < n - 1, 0 < Spec.mackW 1 n c w j := fun j hj => (mackWR_near hr hb hp hfix hw hj).1
  have hpow : 0 ≤ (1 - u) ^ (8 * n ^ 2) := pow_nonneg (by linarith [hr.lt_one]) _
  refine ⟨r, r2, hr1, hr2, p.mse_eq h hp hw.weights hd, p.total_eq (by omega) h hp hw.weights hd, ?_, ?_⟩
  · intro i hin
    obtain ⟨y, h1, _, h2, h3⟩ := hE1 i hin
    exact ⟨y, h1, (mul_le_mul_of_nonneg_left (mseAt_mono hp hf hW hlo0 hlo hin) hpow).trans h2,
      h3.trans (mseAt_mono hp hf hW (fun j hj => (hs j hj).2) hhi hin)⟩
  · obtain ⟨y, h1, _, h2, h3⟩ := hE2
    exact ⟨y, h1, (mul_le_mul_of_nonneg_left (totAt_mono hp hf hW hlo0 hlo) hpow).trans h2,
      h3.trans (totAt_mono hp hf hW (fun j hj => (hs j hj).2) hhi)⟩

/-- **C158** in double precision, for whole amounts up to 2⁵³ and triangles with up to 10¹² periods. -/
theorem C158_float64 [FloorRing K] {k : ℕ → ℕ → ℕ} (h : Spec.Stair t n c) (hn : 4 ≤ n) (hn' : n ≤ 10 ^ 12)
    (hi : IndW t ind n w) (hw : Spec.Kept n w) (hb : Spec.Bracketing br)
    (hk : ∀ i j, i + j < n → c i j = k i j ∧ 0 < k i j ∧ k i j ≤ 2 ^ 53) :
    ∃ r, mackCoreR br (floatRd 53) 1 t ind = .ok r ∧
      (∀ j < n - 2, ∃ x, r.devpvar.iloc j = .fin x ∧ 0 ≤ x ∧
        |x - Spec.sigma2 1 n c w j| ≤ Spec.varTol (2 ^ (-53 : ℤ)) n c w j) ∧
      ((∃ s : ℕ → K, (∀ j < n - 1, r.devpvar.iloc j = .fin (s j) ∧ 0 ≤ s j) ∧
          Spec.ErrorsFrom (2 ^ (-53 : ℤ)) n c w s r) ∨
        r.devpvar.iloc (n - 2) = .nan ∧ r.mse = List.replicate n (.fin 0) ∧ r.totMse = .fin 0) := by
  have hp : Spec.Positive n c := by
    intro i j hij
    rw [(hk i j hij).1]
    exact_mod_cast (hk i j hij).2.1
  have hfix : ∀ i j, i + j < n → floatRd 53 (c i j) = c i j := by
    intro i j hij
    rw [(hk i j hij).1]
    exact (floatRd_exactInt (K := K) (p := 53) (by norm_num)).nat (hk i j hij).2.2
  have hr : Spec.RelErr (floatRd 53 : K → K) (2 ^ (-53 : ℤ)) := floatRd_relErr (p := 53) (by norm_num)
  have hid := (floatRd_monoRd (K := K) (p := 53) (by norm_num)).idem
  have hu : 50 * (n : K) * 2 ^ (-53 : ℤ) ≤ 1 := by
    have e : (n : K) ≤ 10 ^ 12 := by exact_mod_cast hn'
    rw [zpow_neg, ← div_eq_mul_inv, div_le_one (by positivity)]
    calc 50 * (n : K) ≤ 50 * 10 ^ 12 := by linarith
      _ ≤ (2 : K) ^ (53 : ℤ) := by norm_num
  obtain ⟨r, h1, h2⟩ := C158_errors (br := br) h hp hn hi hw hr hid hb hfix
  obtain ⟨r', h3, h4, _⟩ := C158_variances (br := br) h hp hn hi hw hr hid hb hfix hu
  obtain rfl : r' = r := by rw [h1] at h3; injection h3 with e; exact e.symm
  exact ⟨r', h1, h4, h2⟩

/-- Beside `C158`: exact and rounded (24 binary digits) total and mean squared errors of the example triangle. -/
example : (mackCore 1 exTri exTri.a2aind0).map MackCore.errors = .ok [.fin (65321634604604611 / 96314600670840), .fin 0,
      .fin (175692000 / 10069651), .fin (3206726383014 / 41033827825), .fin (1403795757769301 / 2954435603400)] ∧
    (mackCoreR (fun n => seqTree (n - 1)) (floatRd 24) 1 exTri exTri.a2aind0).map MackCore.errors = .ok [
      .fin (5555901 / 8192), .fin 0, .fin (571723 / 32768), .fin (10243039 / 131072), .fin (3892417 / 8192)] := by
  decide +kernel

/-- The condition of `C158_between` holds for the example triangle in double precision. -/
example : Spec.varTol (1 / 2 ^ 53) 4 exVals (fun _ _ => 1) 0 < Spec.sigma2 1 4 exVals (fun _ _ => 1) 0 := by
  decide +kernel

end Trikit
