import Verif.BootCore
import Verif.Props.Mack
import Mathlib.Tactic.FieldSimp

/-! # Closed form of the bootstrap fit on positive staircases -/

set_option linter.unusedSectionVars false

namespace Trikit

section
variable {K : Type} [Field K] [LinearOrder K] [IsStrictOrderedRing K]
variable {t : Tri K} {n : ℕ} {c : ℕ → ℕ → K}

/-- Volume weighted average factor: total of period `j + 1` over total of period `j`, over the origins
observed in both. -/
def Spec.wFactor (n : ℕ) (c : ℕ → ℕ → K) (j : ℕ) : K :=
  (∑ i ∈ Finset.range (n - 1 - j), c i (j + 1)) / ∑ i ∈ Finset.range (n - 1 - j), c i j

/-- Fitted cumulative value: the latest value of the row divided by the factors back to period `j`. -/
def Spec.fitCum (n : ℕ) (c : ℕ → ℕ → K) (i j : ℕ) : K :=
  c i (n - 1 - i) / ∏ m ∈ Finset.Ico j (n - 1 - i), Spec.wFactor n c m

/-- Increments of cumulative values. -/
def Spec.incr (c : ℕ → ℕ → K) (i j : ℕ) : K := if j = 0 then c i 0 else c i j - c i (j - 1)

theorem wSum_pos (hp : Spec.Positive n c) {j k : ℕ} (hj : j < n - 1) (hk : k ≤ 1) :
    0 < ∑ i ∈ Finset.range (n - 1 - j), c i (j + k) := by
  apply Finset.sum_pos
  · intro i hi
    rw [Finset.mem_range] at hi
    exact hp i (j + k) (by omega)
  · exact ⟨0, Finset.mem_range.2 (by omega)⟩

theorem wFactor_pos (hp : Spec.Positive n c) {j : ℕ} (hj : j < n - 1) : 0 < Spec.wFactor n c j :=
  div_pos (wSum_pos hp hj (le_refl 1)) (wSum_pos hp hj (Nat.zero_le 1))

theorem wFactor_eq_mackF (hp : Spec.Positive n c) {j : ℕ} (hj : j < n - 1) :
    Spec.mackF 1 n c (fun _ _ => 1) j = Spec.wFactor n c j := by
  unfold Spec.mackF Spec.mackW Spec.wFactor Spec.colSum
  congr 1
  · apply Finset.sum_congr rfl
    intro i hi
    rw [Finset.mem_range] at hi
    have := (hp i j (by omega)).ne'
    field_simp
  · apply Finset.sum_congr rfl
    intro i _
    ring

theorem fitCum_latest (i : ℕ) : Spec.fitCum n c i (n - 1 - i) = c i (n - 1 - i) := by
  unfold Spec.fitCum
  simp

theorem fitCum_succ (hp : Spec.Positive n c) {i j : ℕ} (h : i + j + 1 < n) :
    Spec.fitCum n c i (j + 1) = Spec.fitCum n c i j * Spec.wFactor n c j := by
  unfold Spec.fitCum
  rw [Finset.prod_eq_prod_Ico_succ_bot (show j < n - 1 - i by omega)]
  have h1 := (wFactor_pos hp (show j < n - 1 by omega)).ne'
  have h2 : (∏ m ∈ Finset.Ico (j + 1) (n - 1 - i), Spec.wFactor n c m) ≠ 0 := by
    apply (Finset.prod_pos _).ne'
    intro m hm
    rw [Finset.mem_Ico] at hm
    exact wFactor_pos hp (by omega)
  field_simp

theorem fitCum_pos (hp : Spec.Positive n c) {i j : ℕ} (h : i + j < n) : 0 < Spec.fitCum n c i j := by
  unfold Spec.fitCum
  apply div_pos (hp i _ (by omega))
  apply Finset.prod_pos
  intro m hm
  rw [Finset.mem_Ico] at hm
  exact wFactor_pos hp (by omega)

/-- Fitted and observed cumulative column totals agree, with and without the latest value. -/
theorem fitCum_cols (hp : Spec.Positive n c) : ∀ k j, j + k + 1 = n →
    ∑ i ∈ Finset.range (n - j), Spec.fitCum n c i j = ∑ i ∈ Finset.range (n - j), c i j ∧
    ∑ i ∈ Finset.range (n - 1 - j), Spec.fitCum n c i j = ∑ i ∈ Finset.range (n - 1 - j), c i j := by
  intro k
  induction k with
  | zero =>
    intro j hj
    have hj' : j = n - 1 := by omega
    subst hj'
    rw [show n - (n - 1) = 1 by omega, show n - 1 - (n - 1) = 0 by omega]
    have := fitCum_latest (n := n) (c := c) 0
    simp only [Nat.sub_zero] at this
    simp [this]
  | succ k ih =>
    intro j hj
    obtain ⟨h1, -⟩ := ih (j + 1) (by omega)
    have hf := wFactor_pos hp (show j < n - 1 by omega)
    have hB : ∑ i ∈ Finset.range (n - 1 - j), Spec.fitCum n c i j =
        ∑ i ∈ Finset.range (n - 1 - j), c i j := by
      have e : ∑ i ∈ Finset.range (n - 1 - j), Spec.fitCum n c i (j + 1) =
          (∑ i ∈ Finset.range (n - 1 - j), Spec.fitCum n c i j) * Spec.wFactor n c j := by
        rw [Finset.sum_mul]
        apply Finset.sum_congr rfl
        intro i hi
        rw [Finset.mem_range] at hi
        exact fitCum_succ hp (by omega)
      rw [show n - (j + 1) = n - 1 - j by omega, e] at h1
      have hs := (wSum_pos hp (show j < n - 1 by omega) (Nat.zero_le 1)).ne'
      simp only [Nat.add_zero] at hs
      have : (∑ i ∈ Finset.range (n - 1 - j), c i (j + 1)) =
          (∑ i ∈ Finset.range (n - 1 - j), c i j) * Spec.wFactor n c j := by
        unfold Spec.wFactor
        field_simp
      rw [this] at h1
      exact mul_right_cancel₀ hf.ne' h1
    refine ⟨?_, hB⟩
    rw [show n - j = (n - 1 - j) + 1 by omega, Finset.sum_range_succ, Finset.sum_range_succ, hB]
    congr 1
    have := fitCum_latest (n := n) (c := c) (n - 1 - j)
    rw [show n - 1 - (n - 1 - j) = j by omega] at this
    exact this

theorem incr_sum (c : ℕ → ℕ → K) (i j : ℕ) : ∑ k ∈ Finset.range (j + 1), Spec.incr c i k = c i j := by
  induction j with
  | zero => simp [Spec.incr]
  | succ j ih =>
    rw [Finset.sum_range_succ, ih]
    simp [Spec.incr]

/-! ### the model's fit -/

theorem firstNaN_stair (h : Spec.Stair t n c) {i : ℕ} (hi : i < n) :
    fitInit t i = n - 1 - i := by
  unfold fitInit firstNaN
  rw [h.nc]
  by_cases h0 : i = 0
  · have : (List.range n).find? (fun j => (t.cell i j).isNaN) = none := by
      rw [List.find?_eq_none]
      intro j hj
      rw [List.mem_range] at hj
      rw [h.obs i j (by omega)]
      simp
    rw [this]
    simp [h0]
  · have : (List.range n).find? (fun j => (t.cell i j).isNaN) = some (n - i) := by
      rw [List.find?_range_eq_some]
      refine ⟨by rw [h.miss i _ hi (by omega) (by omega)]; rfl, List.mem_range.2 (by omega), ?_⟩
      intro j hj
      rw [h.obs i j (by omega)]
      simp
    rw [this]
    obtain ⟨m, hm⟩ : ∃ m, n - i = m + 1 := ⟨n - i - 1, by omega⟩
    simp only [hm]
    omega

theorem fitBack_stair (h : Spec.Stair t n c) (hp : Spec.Positive n c) {ldf : ℕ → Num K}
    (hl : ∀ j < n - 1, ldf j = .fin (Spec.wFactor n c j)) {i : ℕ} (hi : i < n) :
    ∀ m ≤ n - 1 - i, fitBack (t.cell i) ldf (n - 1 - i) m = .fin (Spec.fitCum n c i (n - 1 - i - m)) := by
  intro m
  induction m with
  | zero =>
    intro _
    unfold fitBack
    rw [h.obs i _ (by omega), Nat.sub_zero, fitCum_latest]
  | succ m ih =>
    intro hm
    unfold fitBack
    have hf := (wFactor_pos hp (show n - 1 - i - m - 1 < n - 1 by omega)).ne'
    rw [ih (by omega), hl _ (by omega), Num.fin_div _ _ hf]
    congr 1
    rw [show n - 1 - i - m = n - 1 - i - (m + 1) + 1 by omega, fitCum_succ hp (by omega)]
    rw [show n - 1 - i - (m + 1) + 1 - 1 = n - 1 - i - (m + 1) by omega]
    rw [show n - 1 - i - m - 1 = n - 1 - i - (m + 1) by omega] at hf
    field_simp

theorem triFitCum_stair (h : Spec.Stair t n c) (hp : Spec.Positive n c) {ldf : ℕ → Num K}
    (hl : ∀ j < n - 1, ldf j = .fin (Spec.wFactor n c j)) :
    Spec.Stair (triFitCum t ldf) n (Spec.fitCum n c) := by
  refine ⟨h.nr, h.nc, h.origins, h.devs, ?_, ?_⟩
  · intro i j hij
    unfold triFitCum
    simp only
    rw [firstNaN_stair h (by omega), if_pos (by omega), fitBack_stair h hp hl (by omega) _ (by omega)]
    congr 2
    omega
  · intro i j hi hj hij
    unfold triFitCum
    simp only
    rw [firstNaN_stair h hi, if_neg (by omega)]
    exact h.miss i j hi hj hij

theorem Spec.Stair.diffTri (h : Spec.Stair t n c) : Spec.Stair t.diffTri n (Spec.incr c) := by
  refine ⟨h.nr, h.nc, h.origins, h.devs, ?_, ?_⟩
  · intro i j hij
    show Tri.diffCell (t.cell i) j = _
    cases j with
    | zero => simp [Tri.diffCell, Spec.incr, h.obs i 0 hij]
    | succ j =>
      simp [Tri.diffCell, Spec.incr, h.obs i (j + 1) hij, h.obs i j (by omega)]
  · intro i j hi hj hij
    exact diffCell_nan (h.miss i j hi hj hij)

theorem Spec.Stair.gapFree (h : Spec.Stair t n c) : Spec.GapFree t (fun i => n - i) := by
  intro i hi
  rw [h.nr] at hi
  rw [h.nc]
  simp only
  refine ⟨by omega, by omega, fun j hj => ⟨fun hl => ⟨_, h.obs i j (by omega)⟩, fun hl => ?_⟩⟩
  exact h.miss i j hi hj (by omega)

/-- The incremental triangle of a positive staircase. -/
theorem Spec.Stair.toIncr (h : Spec.Stair t n c) (hp : Spec.Positive n c) (hn : 0 < n) :
    ∃ u, t.toIncr = .ok u ∧ u.origins = t.origins ∧ u.devs = t.devs ∧ Spec.Stair u n (Spec.incr c) := by
  have hg := h.gapFree
  have hcols : Spec.ColsObserved t := h.staircase.colsObserved
  obtain ⟨u, hu, ⟨e1, e2, e3⟩⟩ := Tri.incrTri_toTbl (t := t.diffTri) h.origins h.devs hg.diffTri.rowsObserved
    (Tri.diffTri_colsObserved hg hcols) (show 0 < t.nr by rw [h.nr]; exact hn) (by
      intro i hi
      have hi' : i < n := by rw [← h.nr]; exact hi
      rw [h.diffTri.obs i 0 (by omega)]
      have := hp i 0 (by omega)
      simp only [Num.zero_def, Num.le_fin, Spec.incr, if_true, decide_eq_false_iff_not]
      exact not_le.2 this)
  have hnr : u.nr = n := by unfold Tri.nr; rw [e1]; exact h.nr
  have hnc : u.nc = n := by unfold Tri.nc; rw [e2]; exact h.nc
  refine ⟨u, hu, e1, e2, hnr, hnc, by rw [e1]; exact h.origins, by rw [e2]; exact h.devs, ?_, ?_⟩
  · intro i j hij
    rw [e3 i (by omega) j (by omega)]
    exact h.diffTri.obs i j hij
  · intro i j hi hj hij
    rw [e3 i (by omega) j (by omega)]
    exact h.diffTri.miss i j hi hj hij

/-- The factors of `boot_cl`. -/
theorem bootLdfs_stair (gm : List (Num K) → Num K) (h : Spec.Stair t n c) (hp : Spec.Positive n c)
    (hn : 3 ≤ n) : ∃ lab, ldfsByName gm t t.a2aind0 "all-weighted" 1 =
      .ok ((t.devs.take (n - 1) ++ [lab]).zip
        ((List.range n).map (fun j => .fin (if j + 1 < n then Spec.wFactor n c j else 1)))) := by
  have hind := h.indOn0 hp.ne_zero
  obtain ⟨_, lab, h1, _, h3⟩ := ldfsByName_spec h.devs hind.origins hind.devs
    (by rw [h.a2a_nc hp.ne_zero]; omega) (rowIs_weighted gm h hp (by omega)) 1
  have hdev : t.a2a.devs = t.devs.take (n - 1) := (C22_a2a h hp.ne_zero).2.1
  rw [hdev] at h3
  refine ⟨lab, ?_⟩
  rw [h3]
  congr 2
  obtain ⟨m, rfl⟩ : ∃ m, n = m + 1 := ⟨n - 1, by omega⟩
  rw [List.range_succ, List.map_append, Nat.add_sub_cancel]
  congr 1
  · apply List.map_congr_left
    intro j hj
    rw [List.mem_range] at hj
    rw [if_pos (by omega), wFactor_eq_mackF hp (by omega)]
  · simp [Num.one_def]

/-- What the fit of `boot_cl` must contain on a positive staircase. -/
structure Spec.FitSpec (sq : Num K → Num K) (t : Tri K) (n : ℕ) (c : ℕ → ℕ → K) (fit : BootFit K) : Prop where
  ldfs : fit.ldfs.map Prod.snd = (List.range n).map
    (fun j => .fin (if j + 1 < n then Spec.wFactor n c j else 1))
  cum_origins : fit.fitCum.origins = t.origins
  cum_devs : fit.fitCum.devs = t.devs
  cum : Spec.Stair fit.fitCum n (Spec.fitCum n c)
  incr_origins : fit.fitIncr.origins = t.origins
  incr_devs : fit.fitIncr.devs = t.devs
  incr : Spec.Stair fit.fitIncr n (Spec.incr (Spec.fitCum n c))
  us_origins : fit.residUs.origins = t.origins
  us_devs : fit.residUs.devs = t.devs
  us : ∀ i j, i + j < n → fit.residUs.cell i j =
    .fin (Spec.incr c i j - Spec.incr (Spec.fitCum n c) i j) / sq (.fin |Spec.incr (Spec.fitCum n c) i j|)
  us_miss : ∀ i j, i < n → j < n → n ≤ i + j → fit.residUs.cell i j = .nan
  adj : fit.residAdj = residAdj sq t fit.residUs
  scale : fit.scale = scaleParam t fit.residUs
  sampling : fit.sampling = samplingDist fit.residAdj
  sqr : trisqrdOf t fit.ldfs = .ok fit.sqr

theorem bootFit_stair (sq : Num K → Num K) (gm : List (Num K) → Num K) (h : Spec.Stair t n c)
    (hp : Spec.Positive n c) (hn : 3 ≤ n) :
    ∃ fit, bootFit sq gm t t.a2aind0 = .ok fit ∧ Spec.FitSpec sq t n c fit := by
  obtain ⟨lab, hl⟩ := bootLdfs_stair gm h hp hn
  set ldfs := (t.devs.take (n - 1) ++ [lab]).zip
        ((List.range n).map (fun j => (Num.fin (if j + 1 < n then Spec.wFactor n c j else 1) : Num K))) with hdef
  have hsnd : ldfs.map Prod.snd = (List.range n).map
      (fun j => (Num.fin (if j + 1 < n then Spec.wFactor n c j else 1) : Num K)) := by
    rw [hdef, List.map_snd_zip]
    have : t.devs.length = n := h.nc
    simp [this]; omega
  have hlen : ldfs.length = n := by simpa using congrArg List.length hsnd
  have hsq : ∃ sqr, trisqrdOf t ldfs = .ok sqr := by
    unfold trisqrdOf
    rw [Tri.triind_ok h.staircase.colsObserved]
    simp only [bind, Except.bind]
    rw [if_neg]
    · exact ⟨_, rfl⟩
    · rw [h.nc, hlen]
      rintro (h1 | h1)
      · omega
      · rw [h1] at hlen; simp at hlen; omega
  obtain ⟨sqr, hsqr⟩ := hsq
  obtain ⟨u, hu, hu1, hu2, hus⟩ := h.toIncr hp (by omega)
  have hf : ∀ j < n - 1, (ldfs.map Prod.snd).getD j .nan = .fin (Spec.wFactor n c j) := by
    intro j hj
    rw [hsnd, List.getD_eq_getElem?_getD]
    simp [show j < n by omega, show j + 1 < n by omega]
  have hcum := triFitCum_stair h hp hf
  have hinc := hcum.diffTri
  refine ⟨_, by
    unfold bootFit
    rw [hl]
    simp only [bind, Except.bind]
    rw [h.maturity]
    simp only
    rw [hsqr]
    simp only
    rw [hu], ?_⟩
  have hru : residUs sq u (triFitIncr (triFitCum t (fun j => (ldfs.map Prod.snd).getD j .nan))) =
      { u with cell := fun i j => (u.cell i j - (triFitIncr (triFitCum t
          (fun j => (ldfs.map Prod.snd).getD j .nan))).cell i j) / sq ((triFitIncr (triFitCum t
          (fun j => (ldfs.map Prod.snd).getD j .nan))).cell i j).abs' } := by
    unfold residUs
    exact alignOp_same _ hu1 hu2
  refine ⟨hsnd, rfl, rfl, hcum, rfl, rfl, hinc, ?_, ?_, ?_, ?_, rfl, rfl, rfl, hsqr⟩
  · rw [hru]; exact hu1
  · rw [hru]; exact hu2
  · intro i j hij
    rw [hru]
    show (u.cell i j - (triFitIncr _).cell i j) / sq ((triFitIncr _).cell i j).abs' = _
    unfold triFitIncr
    rw [hus.obs i j hij, hinc.obs i j hij, Num.fin_sub]
    congr 2
    simp only [Num.abs']
    congr 1
    split
    · rw [abs_of_neg (by assumption)]
    · rw [abs_of_nonneg (by rename_i h; exact not_lt.1 h)]
  · intro i j hi hj hij
    rw [hru]
    show (u.cell i j - _) / _ = _
    rw [hus.miss i j hi hj hij]
    simp

end

end Trikit
