import Verif.RoundedBoot
import Verif.Props.Boot
import Verif.Props.BootScale
import Verif.Props.RoundedSums
import Verif.NearNonneg
import Verif.Props.RoundedMackScale
import Verif.Props.RoundedMackError

/-!
# C159, C160, C161: the fit of the bootstrap chain ladder in double precision
-/

set_option linter.unusedSectionVars false

namespace Trikit

/-! ## exact arithmetic -/

theorem fitBackR_id {K : Type} [Field K] [LinearOrder K] (f ldf : ℕ → Num K) (k m : ℕ) :
    fitBackR id f ldf k m = fitBack f ldf k m := by
  induction m with
  | zero => rfl
  | succ m ih =>
    unfold fitBackR fitBack
    rw [ih]
    exact Num.rounded_id _

theorem diffTriR_id {K : Type} [Field K] [LinearOrder K] (t : Tri K) : t.diffTriR id = t.diffTri := by
  have : ∀ f : ℕ → Num K, diffCellR id f = Tri.diffCell f := by
    intro f
    funext j
    cases j with
    | zero => rfl
    | succ j => exact Num.rounded_id _
  unfold Tri.diffTriR Tri.diffTri
  simp only [this]

variable {K : Type} [Field K] [LinearOrder K] [IsStrictOrderedRing K]
variable {t : Tri K} {n : ℕ} {c : ℕ → ℕ → K} {u : K} {rd : K → K} {br : ℕ → SumTree}

/-- **C159, rounding left out**: with exact arithmetic the rounded fit is the exact one, for every order of the
additions and every triangle with increasing labels and without infinite cells. -/
theorem C159_exact (hb : Spec.Bracketing br) (sq : Num K → Num K) (gm : List (Num K) → Num K) {t ind : Tri K}
    (ho : Spec.Increasing t.origins) (hd : Spec.Increasing t.devs)
    (hx : ∀ i < t.nr, ∀ j < t.nc, t.cell i j = .nan ∨ ∃ x, t.cell i j = .fin x) :
    bootFitR br id sq gm t ind = bootFit sq gm t ind := by
  have h1 : ∀ l, trisqrdOfR id t l = trisqrdOf t l := by
    intro l
    unfold trisqrdOfR trisqrdOf
    simp only [sqrCellR_id, Num.rounded_id]
  have h2 : t.toIncrR id = t.toIncr := by
    unfold Tri.toIncrR Tri.toIncr
    rw [diffTriR_id]
    refine baseInit_format (u := 0) ⟨⟨le_rfl, one_pos, by simp⟩, fun _ => rfl, rfl⟩
      (cellValues_single (Tri.toTbl_onePerCell (t := t.diffTri) ho hd)) ?_
    intro r hr
    obtain ⟨i, hi, j, hj, hn, rfl⟩ := Tri.mem_toTbl.1 hr
    right
    have : ∃ x, t.diffTri.cell i j = .fin x := by
      cases j with
      | zero =>
        rcases hx i hi 0 hj with e | ⟨x, e⟩
        · exact absurd e hn
        · exact ⟨x, e⟩
      | succ j =>
        have e : t.diffTri.cell i (j + 1) = t.cell i (j + 1) - t.cell i j := rfl
        rw [e] at hn ⊢
        rcases hx i hi (j + 1) hj with e1 | ⟨x, e1⟩
        · rw [e1] at hn; simp at hn
        · rcases hx i hi j (Nat.lt_of_succ_lt hj) with e2 | ⟨y, e2⟩
          · rw [e2] at hn; simp at hn
          · rw [e1, e2]; exact ⟨_, Num.fin_sub _ _⟩
    obtain ⟨x, hx⟩ := this
    exact ⟨x, hx, rfl⟩
  unfold bootFitR bootFit ldfsByNameR ldfsByName
  simp only [a2aAvgsR_id hb, h1, h2]
  have h3 : ∀ l, triFitCumR id t l = triFitCum t l := by
    intro l; unfold triFitCumR triFitCum; simp only [fitBackR_id]
  have h4 : ∀ m : Tri K, triFitIncrR id m = triFitIncr m := fun m => diffTriR_id m
  have h5 : ∀ a b : Tri K, residUsR id sq a b = residUs sq a b := by
    intro a b; unfold residUsR residUs; simp only [Num.divR_id, Num.subR_id]
  have h6 : ∀ a : Tri K, residAdjR id sq t a = residAdj sq t a := by
    intro a; unfold residAdjR residAdj; simp only [Num.mulR_id, id]
  have h7 : ∀ a : Tri K, scaleParamR br id t a = scaleParam t a := by
    intro a; unfold scaleParamR scaleParam; simp only [Num.divR_id, Num.powR_id, sumSkipR_id hb]
  simp only [h3, h4, h5, h6, h7]
  rfl

/-! ## the fit in closed form -/

/-- Weighted factor of period `j` as computed. -/
def Spec.wFactorR (br : ℕ → SumTree) (rd : K → K) (n : ℕ) (c : ℕ → ℕ → K) (j : ℕ) : K :=
  rd (roundedSum br rd ((List.range (n - 1 - j)).map (fun i => c i (j + 1))) /
    roundedSum br rd ((List.range (n - 1 - j)).map (fun i => c i j)))

/-- `m` periods before a latest value `a` in period `k`, dividing by the factors one by one. -/
def Spec.backR (rd : K → K) (f : ℕ → K) (a : K) (k : ℕ) : ℕ → K
  | 0 => a
  | m + 1 => rd (Spec.backR rd f a k m / f (k - m - 1))

/-- Fitted cumulative values as computed: from the latest value of the origin backwards. -/
def Spec.fitCumR (br : ℕ → SumTree) (rd : K → K) (n : ℕ) (c : ℕ → ℕ → K) (i j : ℕ) : K :=
  Spec.backR rd (Spec.wFactorR br rd n c) (c i (n - 1 - i)) (n - 1 - i) (n - 1 - i - j)

/-- Fitted increments as computed. -/
def Spec.fitIncrR (br : ℕ → SumTree) (rd : K → K) (n : ℕ) (c : ℕ → ℕ → K) (i j : ℕ) : K :=
  Spec.incrR rd (Spec.fitCumR br rd n c i) j

theorem wFactorR_eq (n : ℕ) (c : ℕ → ℕ → K) (j : ℕ) :
    Spec.wFactorR br rd n c j = Spec.avgOfR br rd .weighted n 0 c j := by
  unfold Spec.wFactorR Spec.avgOfR wOrigins Spec.lastN
  simp

theorem wFactorR_near (hr : Spec.RelErr rd u) (hb : Spec.Bracketing br) (hp : Spec.Positive n c) {j : ℕ}
    (hj : j < n - 1) : 0 < Spec.wFactorR br rd n c j ∧
      Spec.Near u (2 * (n - 1 - j) + 1) (Spec.wFactor n c j) (Spec.wFactorR br rd n c j) := by
  obtain ⟨-, h2, h3⟩ := avgOfR_near hr hb hp (Or.inr rfl) 0 hj (kind := .weighted)
  rw [wFactorR_eq]
  refine ⟨h2, ?_⟩
  have : Spec.wFactor n c j = Spec.avgOf .weighted n 0 c j := by
    unfold Spec.wFactor Spec.avgOf Spec.wavg Spec.lastN
    simp [list_sum_map_range]
  rw [this]
  exact h3

theorem backR_pos (hr : Spec.RelErr rd u) {f : ℕ → K} {a : K} (ha : 0 < a) {k : ℕ} (hf : ∀ j < k, 0 < f j) :
    ∀ m ≤ k, 0 < Spec.backR rd f a k m := by
  intro m
  induction m with
  | zero => intro _; exact ha
  | succ m ih => intro hm; exact rd_pos hr (div_pos (ih (by omega)) (hf _ (by omega)))

theorem fitCumR_pos (hr : Spec.RelErr rd u) (hb : Spec.Bracketing br) (hp : Spec.Positive n c) {i j : ℕ}
    (hij : i + j < n) : 0 < Spec.fitCumR br rd n c i j :=
  backR_pos hr (hp _ _ (by omega)) (fun _ hj => (wFactorR_near hr hb hp (by omega)).1) _ (by omega)

theorem fitBackR_stair (h : Spec.Stair t n c) {f : ℕ → K} (hf : ∀ j < n - 1, 0 < f j) {ldf : ℕ → Num K}
    (hl : ∀ j < n - 1, ldf j = .fin (f j)) {i : ℕ} (hi : i < n) :
    ∀ m ≤ n - 1 - i, fitBackR rd (t.cell i) ldf (n - 1 - i) m =
      .fin (Spec.backR rd f (c i (n - 1 - i)) (n - 1 - i) m) := by
  intro m
  induction m with
  | zero =>
    intro _
    unfold fitBackR
    rw [h.obs i _ (by omega)]
    rfl
  | succ m ih =>
    intro hm
    unfold fitBackR Num.divR
    rw [ih (by omega), hl _ (by omega), Num.fin_div _ _ (hf _ (by omega)).ne']
    rfl

theorem triFitCumR_stair (hr : Spec.RelErr rd u) (hb : Spec.Bracketing br) (h : Spec.Stair t n c)
    (hp : Spec.Positive n c) {ldf : ℕ → Num K} (hl : ∀ j < n - 1, ldf j = .fin (Spec.wFactorR br rd n c j)) :
    Spec.Stair (triFitCumR rd t ldf) n (Spec.fitCumR br rd n c) := by
  refine ⟨h.nr, h.nc, h.origins, h.devs, ?_, ?_⟩
  · intro i j hij
    unfold triFitCumR
    simp only
    rw [firstNaN_stair h (by omega), if_pos (by omega),
      fitBackR_stair h (fun _ hj => (wFactorR_near hr hb hp hj).1) hl (by omega) _ (by omega)]
    rfl
  · intro i j hi hj hij
    unfold triFitCumR
    simp only
    rw [firstNaN_stair h hi, if_neg (by omega)]
    exact h.miss i j hi hj hij

theorem Spec.Stair.diffTriR (h : Spec.Stair t n c) (rd : K → K) :
    Spec.Stair (t.diffTriR rd) n (fun i => Spec.incrR rd (c i)) := by
  refine ⟨h.nr, h.nc, h.origins, h.devs, ?_, ?_⟩
  · intro i j hij
    show diffCellR rd (t.cell i) j = _
    cases j with
    | zero => exact h.obs i 0 hij
    | succ j =>
      simp only [diffCellR]
      rw [h.obs i (j + 1) hij, h.obs i j (by omega), Num.fin_sub]
      rfl
  · intro i j hi hj hij
    obtain ⟨k, rfl⟩ : ∃ k, j = k + 1 := ⟨j - 1, by omega⟩
    show (t.cell i (k + 1) - t.cell i k).rounded rd = _
    rw [h.miss i _ hi hj hij]
    simp [Num.rounded]

/-- The incremental triangle of a positive staircase of float64 amounts. -/
theorem Spec.Stair.toIncrR (hF : Spec.FormatRd rd u) (h : Spec.Stair t n c) (hp : Spec.Positive n c) (hn : 0 < n)
    (hc : ∀ i < n, rd (c i 0) = c i 0) :
    ∃ v, t.toIncrR rd = .ok v ∧ v.origins = t.origins ∧ v.devs = t.devs ∧
      Spec.Stair v n (fun i => Spec.incrR rd (c i)) := by
  have hD := h.diffTriR rd
  obtain ⟨v, hv, ⟨e1, e2, e3⟩⟩ := Tri.incrTri_toTbl (t := t.diffTriR rd) h.origins h.devs hD.gapFree.rowsObserved
    hD.staircase.colsObserved (show 0 < t.nr by rw [h.nr]; exact hn) (by
      intro i hi
      have hi' : i < n := by rw [← h.nr]; exact hi
      rw [hD.obs i 0 (by omega)]
      have := hp i 0 (by omega)
      simp only [Num.zero_def, Num.le_fin, Spec.incrR, decide_eq_false_iff_not]
      exact not_le.2 this)
  have hnr : v.nr = n := by unfold Tri.nr; rw [e1]; exact h.nr
  have hnc : v.nc = n := by unfold Tri.nc; rw [e2]; exact h.nc
  refine ⟨v, ?_, e1, e2, hnr, hnc, by rw [e1]; exact h.origins, by rw [e2]; exact h.devs, ?_, ?_⟩
  · unfold Tri.toIncrR
    rw [baseInit_format hF (cellValues_single (Tri.toTbl_onePerCell (t := t.diffTriR rd) h.origins h.devs))]
    · exact hv
    · intro s hs
      obtain ⟨i, hi, j, hj, hnn, rfl⟩ := Tri.mem_toTbl.1 hs
      have hi' : i < n := by rw [← h.nr]; exact hi
      have hj' : j < n := by rw [← h.nc]; exact hj
      have hij : i + j < n := by
        by_contra hcon
        exact hnn (hD.miss i j hi' hj' (by omega))
      refine Or.inr ⟨_, hD.obs i j hij, ?_⟩
      cases j with
      | zero => exact hc i hi'
      | succ j => exact hF.idem _
  · intro i j hij
    rw [e3 i (by omega) j (by omega)]
    exact hD.obs i j hij
  · intro i j hi hj hij
    rw [e3 i (by omega) j (by omega)]
    exact hD.miss i j hi hj hij

/-- What the computed fit contains on a positive staircase of float64 amounts. -/
structure Spec.FitSpecR (br : ℕ → SumTree) (rd : K → K) (sq : Num K → Num K) (t : Tri K) (n : ℕ) (c : ℕ → ℕ → K)
    (fit : BootFit K) : Prop where
  ldfs : fit.ldfs.map Prod.snd = (List.range n).map
    (fun j => .fin (if j + 1 < n then Spec.wFactorR br rd n c j else 1))
  labels : ∃ lab, tailLabel (t.devs.take (n - 1)) = .ok lab ∧ fit.ldfs.map Prod.fst = t.devs.take (n - 1) ++ [lab]
  cum_origins : fit.fitCum.origins = t.origins
  cum_devs : fit.fitCum.devs = t.devs
  cum : Spec.Stair fit.fitCum n (Spec.fitCumR br rd n c)
  incr_origins : fit.fitIncr.origins = t.origins
  incr_devs : fit.fitIncr.devs = t.devs
  incr : Spec.Stair fit.fitIncr n (Spec.fitIncrR br rd n c)
  us_origins : fit.residUs.origins = t.origins
  us_devs : fit.residUs.devs = t.devs
  us : ∀ i j, i + j < n → fit.residUs.cell i j = Num.divR rd
    (.fin (rd (Spec.incrR rd (c i) j - Spec.fitIncrR br rd n c i j))) (sq (.fin |Spec.fitIncrR br rd n c i j|))
  us_miss : ∀ i j, i < n → j < n → n ≤ i + j → fit.residUs.cell i j = .nan
  adj : fit.residAdj = residAdjR rd sq t fit.residUs
  scale : fit.scale = scaleParamR br rd t fit.residUs
  sampling : fit.sampling = samplingDist fit.residAdj
  sqr : trisqrdOfR rd t fit.ldfs = .ok fit.sqr

theorem bootFitR_stair (hF : Spec.FormatRd rd u) (hb : Spec.Bracketing br) (sq : Num K → Num K)
    (gm : List (Num K) → Num K) (h : Spec.Stair t n c) (hp : Spec.Positive n c) (hn : 3 ≤ n)
    (hc : ∀ i < n, rd (c i 0) = c i 0) :
    ∃ fit, bootFitR br rd sq gm t t.a2aind0 = .ok fit ∧ Spec.FitSpecR br rd sq t n c fit := by
  obtain ⟨tab, h1, h2, h3⟩ := a2aAvgsR_row br rd gm h hp.ne_zero (ratio_posR hF.rel hp) (show 0 < n - 1 by omega)
    .weighted (fun j hj => avgCellR_avgOfR gm h hp (ratio_posR hF.rel hp) (sum_posR hF.rel hb hp) (Or.inr rfl) 0 hj)
  obtain ⟨ldfs, l1, l2, lab, l3, l4⟩ := ldfsByNameR_spec br rd gm h hp.ne_zero hn h1 h2 h3 1
  have hsnd : ldfs.map Prod.snd = (List.range n).map
      (fun j => (Num.fin (if j + 1 < n then Spec.wFactorR br rd n c j else 1) : Num K)) := by
    rw [l2]
    refine List.map_congr_left fun j _ => ?_
    simp only [Spec.withTail, wFactorR_eq]
  have hlen : ldfs.length = n := l2.length
  have hsq : ∃ sqr, trisqrdOfR rd t ldfs = .ok sqr := by
    unfold trisqrdOfR
    rw [Tri.triind_ok h.staircase.colsObserved]
    simp only [bind, Except.bind]
    rw [if_neg]
    · exact ⟨_, rfl⟩
    · rw [h.nc, hlen]
      rintro (h1 | h1)
      · omega
      · rw [h1] at hlen; simp at hlen; omega
  obtain ⟨sqr, hsqr⟩ := hsq
  obtain ⟨v, hv, hv1, hv2, hvs⟩ := h.toIncrR hF hp (by omega) hc
  have hf : ∀ j < n - 1, (ldfs.map Prod.snd).getD j .nan = .fin (Spec.wFactorR br rd n c j) := by
    intro j hj
    rw [hsnd, List.getD_eq_getElem?_getD]
    simp [show j < n by omega, show j + 1 < n by omega]
  have hcum := triFitCumR_stair hF.rel hb h hp hf
  have hinc := hcum.diffTriR rd
  refine ⟨_, by
    unfold bootFitR
    rw [show (1 : Num K) = .fin 1 from rfl, show "all-weighted" = Spec.avgName AvgKind.weighted.name 0 from rfl, l1]
    simp only [bind, Except.bind]
    rw [h.maturity]
    simp only
    rw [hsqr]
    simp only
    rw [hv], ?_⟩
  set fc := triFitCumR rd t (fun j => (ldfs.map Prod.snd).getD j .nan) with hfc
  have hru : residUsR rd sq v (triFitIncrR rd fc) = { v with cell := (fun i j => Num.divR rd
      (Num.subR rd (v.cell i j) ((triFitIncrR rd fc).cell i j)) (sq ((triFitIncrR rd fc).cell i j).abs')) } := by
    unfold residUsR
    exact alignOp_same _ hv1 hv2
  refine ⟨hsnd, ⟨lab, l4, l3⟩, rfl, rfl, hcum, rfl, rfl, hinc, ?_, ?_, ?_, ?_, rfl, rfl, rfl, hsqr⟩
  · rw [hru]; exact hv1
  · rw [hru]; exact hv2
  · intro i j hij
    rw [hru]
    show Num.divR rd (Num.subR rd (v.cell i j) ((fc.diffTriR rd).cell i j)) (sq ((fc.diffTriR rd).cell i j).abs') = _
    rw [hvs.obs i j hij, hinc.obs i j hij]
    unfold Num.subR
    rw [Num.fin_sub]
    have e : (Num.fin (Spec.incrR rd (Spec.fitCumR br rd n c i) j)).abs' = .fin |Spec.fitIncrR br rd n c i j| := by
      simp only [Num.abs', Spec.fitIncrR]
      congr 1
      split
      · rw [abs_of_neg (by assumption)]
      · rw [abs_of_nonneg (by rename_i h; exact not_lt.1 h)]
    rw [e]
    rfl
  · intro i j hi hj hij
    rw [hru]
    show Num.divR rd (Num.subR rd (v.cell i j) _) _ = _
    rw [hvs.miss i j hi hj hij]
    simp [Num.divR, Num.subR, Num.rounded]

/-! ## C159 -/

/-- Number of roundings behind the fitted value of origin `i` in period `j`. -/
def Spec.fitSteps (n i j : ℕ) : ℕ := (n - j) * (n - j + 1) - (i + 1) * (i + 2)

theorem fitCumR_near (hr : Spec.RelErr rd u) (hb : Spec.Bracketing br) (hp : Spec.Positive n c) {i : ℕ} (hi : i < n) :
    ∀ m ≤ n - 1 - i, Spec.Near u (Spec.fitSteps n i (n - 1 - i - m)) (Spec.fitCum n c i (n - 1 - i - m))
      (Spec.backR rd (Spec.wFactorR br rd n c) (c i (n - 1 - i)) (n - 1 - i) m) := by
  intro m
  induction m with
  | zero =>
    intro _
    rw [Nat.sub_zero, fitCum_latest]
    exact near_refl hr.nonneg hr.lt_one (hp _ _ (by omega))
  | succ m ih =>
    intro hm
    have h1 := ih (by omega)
    obtain ⟨d, hd⟩ : ∃ d, n - 1 - i = m + 1 + d := ⟨n - 1 - i - (m + 1), by omega⟩
    have e1 : n - 1 - i - m = d + 1 := by omega
    have e2 : n - 1 - i - (m + 1) = d := by omega
    have hd' : d < n - 1 := by omega
    obtain ⟨p1, p2⟩ := wFactorR_near hr hb hp hd'
    have q1 := fitCum_pos hp (show i + (d + 1) < n by omega)
    have q2 := backR_pos hr (hp i (n - 1 - i) (by omega)) (k := n - 1 - i)
      (fun j hj => (wFactorR_near hr hb hp (show j < n - 1 by omega)).1) m (by omega)
    have q3 := wFactor_pos hp hd'
    rw [e1] at h1
    rw [e2]
    unfold Spec.backR
    rw [show n - 1 - i - m - 1 = d by omega]
    have e3 : Spec.fitCum n c i d = Spec.fitCum n c i (d + 1) / Spec.wFactor n c d := by
      rw [fitCum_succ hp (by omega)]
      field_simp
    rw [e3]
    have h2 := near_rd' hr (div_pos q2 p1) (near_div hr.lt_one q1 q2 q3 p1 h1 p2)
    have e4 : Spec.fitSteps n i d = Spec.fitSteps n i (d + 1) + (2 * (n - 1 - d) + 1) + 1 := by
      unfold Spec.fitSteps
      obtain ⟨a, rfl⟩ : ∃ a, n = d + 1 + i + 1 + a := ⟨n - (d + 1 + i + 1), by omega⟩
      rw [show d + 1 + i + 1 + a - d = i + 2 + a by omega, show d + 1 + i + 1 + a - (d + 1) = i + 1 + a by omega,
        show d + 1 + i + 1 + a - 1 - d = i + 1 + a by omega]
      have : (i + 1) * (i + 2) ≤ (i + 1 + a) * (i + 1 + a + 1) :=
        Nat.mul_le_mul (by omega) (by omega)
      have : (i + 2 + a) * (i + 2 + a + 1) = (i + 1 + a) * (i + 1 + a + 1) + (2 * (i + 1 + a) + 1) + 1 := by ring
      omega
    rw [e4]
    exact h2

theorem fitSteps_le (n i j : ℕ) : Spec.fitSteps n i j ≤ n * (n + 1) := by
  unfold Spec.fitSteps
  exact (Nat.sub_le _ _).trans (Nat.mul_le_mul (by omega) (by omega))

theorem fitSteps_anti {n i j : ℕ} : Spec.fitSteps n i (j + 1) ≤ Spec.fitSteps n i j := by
  unfold Spec.fitSteps
  exact Nat.sub_le_sub_right (Nat.mul_le_mul (by omega) (by omega)) _

theorem fitCumR_err (hr : Spec.RelErr rd u) (hb : Spec.Bracketing br) (hp : Spec.Positive n c)
    (hu : 2 * ((n : K) * (n + 1)) * u ≤ 1) {i j : ℕ} (hij : i + j < n) :
    |Spec.fitCumR br rd n c i j - Spec.fitCum n c i j| ≤ 2 * (Spec.fitSteps n i j : K) * u * Spec.fitCum n c i j := by
  have h1 := fitCumR_near hr hb hp (show i < n by omega) (n - 1 - i - j) (by omega)
  rw [show n - 1 - i - (n - 1 - i - j) = j by omega] at h1
  refine near_err hr.nonneg hr.lt_one ?_ (fitCum_pos hp hij) h1
  have : (Spec.fitSteps n i j : K) ≤ (n : K) * (n + 1) := by exact_mod_cast fitSteps_le n i j
  have h0 := hr.nonneg
  nlinarith

/-- A rounded difference of two values with small relative errors. -/
theorem rd_sub_err (hr : Spec.RelErr rd u) {x y x' y' e : K} (hx : |x' - x| ≤ e * x)
    (hy : |y' - y| ≤ e * y) : |rd (x' - y') - (x - y)| ≤ u * |x - y| + 2 * e * (x + y) := by
  have h0 := hr.nonneg
  have h1 := hr.lt_one
  have hd : |x' - y' - (x - y)| ≤ e * (x + y) := by
    have : x' - y' - (x - y) = (x' - x) - (y' - y) := by ring
    rw [this]
    calc |(x' - x) - (y' - y)| ≤ |x' - x| + |y' - y| := abs_sub _ _
      _ ≤ e * (x + y) := by linarith
  have h2 := hr.err (x' - y')
  have h3 : |x' - y'| ≤ |x - y| + e * (x + y) := by
    have := abs_add_le (x' - y' - (x - y)) (x - y)
    rw [sub_add_cancel] at this
    linarith
  have h4 : |rd (x' - y') - (x - y)| ≤ |rd (x' - y') - (x' - y')| + |x' - y' - (x - y)| := by
    have := abs_add_le (rd (x' - y') - (x' - y')) (x' - y' - (x - y))
    rwa [sub_add_sub_cancel] at this
  have h5 : 0 ≤ e * (x + y) := (abs_nonneg _).trans hd
  nlinarith

/-- **C159**: bootstrap fit of a positive staircase of float64 amounts with at least three periods, any order of the
additions.  The latest diagonal is reproduced exactly, missing cells stay missing, fitted cumulative values are
positive and off by at most `2 E(i,j) u` relatively, where `E(i,j) = (n-j)(n-j+1) - (i+1)(i+2)`; fitted increments are
off by at most `u` times the increment and `4 E u` times the two fitted values they are the difference of. -/
theorem C159_fit (hF : Spec.FormatRd rd u) (hb : Spec.Bracketing br) (sq : Num K → Num K)
    (gm : List (Num K) → Num K) (h : Spec.Stair t n c) (hp : Spec.Positive n c) (hn : 3 ≤ n)
    (hc : ∀ i < n, rd (c i 0) = c i 0) (hu : 2 * ((n : K) * (n + 1)) * u ≤ 1) :
    ∃ fit fit', bootFit sq gm t t.a2aind0 = .ok fit ∧ bootFitR br rd sq gm t t.a2aind0 = .ok fit' ∧
      fit'.fitCum.origins = t.origins ∧ fit'.fitCum.devs = t.devs ∧ fit'.fitIncr.origins = t.origins ∧
      fit'.fitIncr.devs = t.devs ∧
      (∀ i < n, fit'.fitCum.cell i (n - 1 - i) = t.cell i (n - 1 - i)) ∧
      (∀ i < n, ∀ j < n, n ≤ i + j → fit'.fitCum.cell i j = .nan ∧ fit'.fitIncr.cell i j = .nan) ∧
      ∀ i j, i + j < n → ∃ x y : K, fit.fitCum.cell i j = .fin x ∧ fit'.fitCum.cell i j = .fin y ∧ 0 < x ∧ 0 < y ∧
        |y - x| ≤ 2 * (Spec.fitSteps n i j : K) * u * x ∧
        (j = 0 → fit.fitIncr.cell i j = .fin x ∧ fit'.fitIncr.cell i j = .fin y) ∧
        (0 < j → ∃ x₀ m m' : K, fit.fitCum.cell i (j - 1) = .fin x₀ ∧ fit.fitIncr.cell i j = .fin m ∧
          fit'.fitIncr.cell i j = .fin m' ∧
          |m' - m| ≤ u * |m| + 4 * (Spec.fitSteps n i (j - 1) : K) * u * (x + x₀)) := by
  obtain ⟨fit, f1, f2⟩ := bootFit_stair sq gm h hp hn
  obtain ⟨fit', g1, g2⟩ := bootFitR_stair hF hb sq gm h hp hn hc
  have hr := hF.rel
  have h0 := hr.nonneg
  refine ⟨fit, fit', f1, g1, g2.cum_origins, g2.cum_devs, g2.incr_origins, g2.incr_devs, ?_, ?_, ?_⟩
  · intro i hi
    rw [g2.cum.obs i _ (by omega), h.obs i _ (by omega)]
    unfold Spec.fitCumR
    rw [Nat.sub_self]
    rfl
  · exact fun i hi j hj hij => ⟨g2.cum.miss i j hi hj hij, g2.incr.miss i j hi hj hij⟩
  · intro i j hij
    refine ⟨_, _, f2.cum.obs i j hij, g2.cum.obs i j hij, fitCum_pos hp hij, fitCumR_pos hr hb hp hij,
      fitCumR_err hr hb hp hu hij, ?_, ?_⟩
    · rintro rfl
      exact ⟨f2.incr.obs i 0 hij, g2.incr.obs i 0 hij⟩
    · intro hj
      obtain ⟨k, rfl⟩ : ∃ k, j = k + 1 := ⟨j - 1, by omega⟩
      rw [Nat.add_sub_cancel]
      refine ⟨_, _, _, f2.cum.obs i k (by omega), f2.incr.obs i _ hij, g2.incr.obs i _ hij, ?_⟩
      have e1 := fitCumR_err hr hb hp hu hij
      have e2 := fitCumR_err hr hb hp hu (show i + k < n by omega)
      have hle : (Spec.fitSteps n i (k + 1) : K) ≤ Spec.fitSteps n i k := by exact_mod_cast fitSteps_anti
      have e3 : |Spec.fitCumR br rd n c i (k + 1) - Spec.fitCum n c i (k + 1)| ≤
          2 * (Spec.fitSteps n i k : K) * u * Spec.fitCum n c i (k + 1) := by
        refine e1.trans (mul_le_mul_of_nonneg_right ?_ (fitCum_pos hp hij).le)
        nlinarith
      have := rd_sub_err hr e3 e2
      have e4 : Spec.incr (Spec.fitCum n c) i (k + 1) = Spec.fitCum n c i (k + 1) - Spec.fitCum n c i k := by
        simp [Spec.incr]
      rw [e4]
      refine this.trans (le_of_eq ?_)
      ring

/-- **C159** in double precision, up to 60 million periods. -/
theorem C159_float64 [FloorRing K] (hb : Spec.Bracketing br) (sq : Num K → Num K) (gm : List (Num K) → Num K)
    (h : Spec.Stair t n c) (hp : Spec.Positive n c) (hn : 3 ≤ n) (hn' : n ≤ 60000000)
    (hc : ∀ i < n, floatRd 53 (c i 0) = c i 0) :
    ∃ fit fit', bootFit sq gm t t.a2aind0 = .ok fit ∧ bootFitR br (floatRd 53) sq gm t t.a2aind0 = .ok fit' ∧
      (∀ i < n, fit'.fitCum.cell i (n - 1 - i) = t.cell i (n - 1 - i)) ∧
      ∀ i j, i + j < n → ∃ x y : K, fit.fitCum.cell i j = .fin x ∧ fit'.fitCum.cell i j = .fin y ∧ 0 < y ∧
        |y - x| ≤ 2 * (Spec.fitSteps n i j : K) * (1 / 2 ^ 53) * x := by
  have e : ((2 : K) ^ (-((53 : ℕ) : ℤ))) = 1 / 2 ^ 53 := by
    rw [zpow_neg, zpow_natCast, one_div]
  have hF := floatRd_formatRd (K := K) (p := 53) (by norm_num)
  rw [e] at hF
  have hu : 2 * ((n : K) * (n + 1)) * (1 / 2 ^ 53) ≤ 1 := by
    rw [mul_one_div, div_le_one (by positivity)]
    have : 2 * (n * (n + 1)) ≤ 2 ^ 53 := by nlinarith
    exact_mod_cast this
  obtain ⟨fit, fit', h1, h2, -, -, -, -, h3, -, h4⟩ := C159_fit hF hb sq gm h hp hn hc hu
  refine ⟨fit, fit', h1, h2, h3, fun i j hij => ?_⟩
  obtain ⟨x, y, a1, a2, -, a3, a4, -⟩ := h4 i j hij
  exact ⟨x, y, a1, a2, a3, a4⟩

/-- The triangle 10 13 15 / 12 17 / 11. -/
def exFit : Tri ℚ := stairTri 3 (fun i j => (([[10, 13, 15], [12, 17], [11]] : List (List ℚ)).getD i []).getD j 0)

/-- Beside `C159_float64`: the second fitted value of the middle row of 10 13 15 / 12 17 / 11 is the observed 17, the
first is not the exact one in double precision. -/
example :
    (bootFitR (fun k => seqTree (k - 1)) (floatRd 53) id (fun _ => .nan) exFit exFit.a2aind0).map
      (fun f => f.fitCum.cell 1 1) = .ok (.fin 17) ∧
    (bootFitR (fun k => seqTree (k - 1)) (floatRd 53) id (fun _ => .nan) exFit exFit.a2aind0).map
      (fun f => f.fitCum.cell 1 0) ≠ (bootFit id (fun _ => .nan) exFit exFit.a2aind0).map (fun f => f.fitCum.cell 1 0) := by
  decide +kernel

/-! ## C160 -/

/-- A square root as far as needed: positive for positive numbers, 0 for 0. -/
structure Spec.Root (sq : Num K → Num K) : Prop where
  pos : ∀ y : K, 0 < y → ∃ r : K, 0 < r ∧ sq (.fin y) = .fin r
  zero : sq (.fin 0) = .fin 0

theorem rd_ne_zero (hr : Spec.RelErr rd u) {x : K} (hx : x ≠ 0) : rd x ≠ 0 := by
  intro e
  have h1 := hr.err x
  rw [e, zero_sub, abs_neg] at h1
  have h2 := hr.lt_one
  have h3 := abs_pos.2 hx
  nlinarith

theorem stair_dof_pos (h : Spec.Stair t n c) : 0 < bootDof t := by
  have h2 := C54_stair_partial h
  nlinarith [Int.natCast_nonneg n]

theorem nbrCells_pos (h : Spec.Stair t n c) (hn : 0 < n) : 0 < t.nbrCells := by
  rw [nbrCells_stair h]
  apply Finset.sum_pos
  · intro j hj; rw [Finset.mem_range] at hj; omega
  · exact ⟨0, Finset.mem_range.2 hn⟩

/-- A residual is left out of the sampling distribution exactly if the two increments agree. -/
theorem resid_kept (hr : Spec.RelErr rd u) {sq : Num K → Num K} (hs : Spec.Root sq) {a d m : K} (ha : 0 < a) :
    ((!(Num.mulR rd (sq (.fin a)) (Num.divR rd (.fin (rd d)) (sq (.fin |m|)))).isNaN &&
      !Num.eqF (Num.mulR rd (sq (.fin a)) (Num.divR rd (.fin (rd d)) (sq (.fin |m|)))) 0) = true) ↔ d ≠ 0 := by
  obtain ⟨r, hr0, hra⟩ := hs.pos a ha
  rw [hra]
  by_cases hm : m = 0
  · rw [hm, abs_zero, hs.zero]
    by_cases hd : d = 0
    · rw [hd, rd_zero hr]
      have : Num.divR rd (.fin 0) (.fin 0) = (.nan : Num K) := by
        simp [Num.divR, HDiv.hDiv, Div.div, Num.div, Num.infTimes, Num.rounded]
      rw [this]
      simp [Num.mulR, Num.rounded]
    · have h1 := rd_ne_zero hr hd
      rcases lt_or_gt_of_ne h1 with h2 | h2
      · have : Num.divR rd (.fin (rd d)) (.fin 0) = (.ninf : Num K) := by
          simp [Num.divR, HDiv.hDiv, Div.div, Num.div, Num.infTimes, Num.rounded, h1, not_lt.2 h2.le]
        rw [this]
        have : Num.mulR rd (.fin r) .ninf = (.ninf : Num K) := by
          simp [Num.mulR, HMul.hMul, Mul.mul, Num.mul, Num.infTimes, Num.rounded, hr0.ne', not_lt.2 hr0.le]
        rw [this]
        simp [Num.eqF, Num.isNaN, Num.zero_def, hd]
      · have : Num.divR rd (.fin (rd d)) (.fin 0) = (.pinf : Num K) := by
          simp [Num.divR, HDiv.hDiv, Div.div, Num.div, Num.infTimes, Num.rounded, h2, h1]
        rw [this]
        have : Num.mulR rd (.fin r) .pinf = (.pinf : Num K) := by
          simp [Num.mulR, HMul.hMul, Mul.mul, Num.mul, Num.infTimes, Num.rounded, hr0.ne', hr0]
        rw [this]
        simp [Num.eqF, Num.isNaN, Num.zero_def, hd]
  · obtain ⟨q, hq0, hq⟩ := hs.pos |m| (abs_pos.2 hm)
    rw [hq]
    have : Num.divR rd (.fin (rd d)) (.fin q) = .fin (rd (rd d / q)) := by
      unfold Num.divR
      rw [Num.fin_div _ _ hq0.ne']
      rfl
    rw [this]
    have : Num.mulR rd (.fin r) (.fin (rd (rd d / q))) = .fin (rd (r * rd (rd d / q))) := rfl
    rw [this, Num.zero_def, Num.eqF_fin]
    by_cases hd : d = 0
    · simp [hd, rd_zero hr]
    · have : rd (r * rd (rd d / q)) ≠ 0 :=
        rd_ne_zero hr (mul_ne_zero hr0.ne' (rd_ne_zero hr (div_ne_zero (rd_ne_zero hr hd) hq0.ne')))
      simp [this, hd]

theorem sampling_nil (hF : Spec.FormatRd rd u) {sq : Num K → Num K} (hs : Spec.Root sq) (h : Spec.Stair t n c)
    (hn : 0 < n) {fit : BootFit K} (q : Spec.FitSpecR br rd sq t n c fit) :
    fit.sampling = [] ↔ ∀ i < n - 1, ∀ j < n - 1, i + j < n →
      Spec.incrR rd (c i) j = Spec.fitIncrR br rd n c i j := by
  have hnr : fit.residUs.nr = n := by unfold Tri.nr; rw [q.us_origins]; exact h.nr
  have hnc : fit.residUs.nc = n := by unfold Tri.nc; rw [q.us_devs]; exact h.nc
  have hq : 0 < rd ((t.nbrCells : K) / ((bootDof t : Int) : K)) := by
    have h1 := stair_dof_pos h
    have h2 := nbrCells_pos h hn
    exact rd_pos hF.rel (div_pos (by exact_mod_cast h2) (by exact_mod_cast h1))
  have e1 : fit.residAdj.nr = n := by rw [q.adj]; exact hnr
  have e2 : fit.residAdj.nc = n := by rw [q.adj]; exact hnc
  have hcell : ∀ i j, fit.residAdj.cell i j = Num.mulR rd (sq (.fin (rd ((t.nbrCells : K) / ((bootDof t : Int) : K)))))
      (fit.residUs.cell i j) := by
    intro i j; rw [q.adj]; rfl
  rw [q.sampling]
  unfold samplingDist
  rw [e1, e2, List.filter_eq_nil_iff]
  simp only [List.mem_flatMap, List.mem_map, List.mem_range]
  constructor
  · intro hall i hi j hj hij
    by_contra hne
    refine hall _ ⟨i, hi, j, hj, rfl⟩ ?_
    rw [hcell, q.us i j hij]
    exact (resid_kept hF.rel hs hq).2 (sub_ne_zero.2 hne)
  · rintro hall v ⟨i, hi, j, hj, rfl⟩
    by_cases hij : i + j < n
    · rw [hcell, q.us i j hij]
      intro hcon
      exact (resid_kept hF.rel hs hq).1 hcon (sub_eq_zero.2 (hall i hi j hj hij))
    · rw [hcell, q.us_miss i j (by omega) (by omega) (by omega)]
      simp [Num.mulR, Num.rounded]

/-- **C160, what is sampled**: on a positive staircase of float64 amounts `boot_cl` has nothing to sample exactly if the
fitted increments and those of `to_incr` agree in all rows and columns but the last. -/
theorem C160_iff (hF : Spec.FormatRd rd u) (hb : Spec.Bracketing br) {sq : Num K → Num K} (hs : Spec.Root sq)
    (gm : List (Num K) → Num K) (h : Spec.Stair t n c) (hp : Spec.Positive n c) (hn : 3 ≤ n)
    (hc : ∀ i < n, rd (c i 0) = c i 0) :
    ∃ fit v, bootFitR br rd sq gm t t.a2aind0 = .ok fit ∧ t.toIncrR rd = .ok v ∧
      (fit.sampling = [] ↔ ∀ i < n - 1, ∀ j < n - 1, v.cell i j = fit.fitIncr.cell i j) := by
  obtain ⟨fit, g1, q⟩ := bootFitR_stair hF hb sq gm h hp hn hc
  obtain ⟨v, hv, -, -, hvs⟩ := h.toIncrR hF hp (by omega) hc
  refine ⟨fit, v, g1, hv, (sampling_nil hF hs h (by omega) q).trans ?_⟩
  constructor
  · intro hall i hi j hj
    by_cases hij : i + j < n
    · rw [hvs.obs i j hij, q.incr.obs i j hij, hall i hi j hj hij]
    · rw [hvs.miss i j (by omega) (by omega) (by omega), q.incr.miss i j (by omega) (by omega) (by omega)]
  · intro hall i hi j hj hij
    have := hall i hi j hj
    rw [hvs.obs i j hij, q.incr.obs i j hij] at this
    exact Num.fin.inj this

theorem backR_exact {f : ℕ → K} {a : ℕ → K} {k : ℕ} (hf : ∀ j < k, rd (a (j + 1) / f j) = a j) :
    ∀ m ≤ k, Spec.backR rd f (a k) k m = a (k - m) := by
  intro m
  induction m with
  | zero => intro _; rfl
  | succ m ih =>
    intro hm
    unfold Spec.backR
    rw [ih (by omega)]
    have := hf (k - m - 1) (by omega)
    rw [show k - m - 1 + 1 = k - m by omega] at this
    rw [this, show k - m - 1 = k - (m + 1) by omega]

/-- **C160 in exact arithmetic**: when all origins develop by the same ratios there is nothing to sample. -/
theorem C160_exact {sq : Num K → Num K} (hs : Spec.Root sq) (gm : List (Num K) → Num K) (h : Spec.Stair t n c)
    (hp : Spec.Positive n c) (hn : 3 ≤ n) {q : ℕ → K} (hq : ∀ i j, i + j + 1 < n → c i (j + 1) = q j * c i j) :
    ∃ fit, bootFit sq gm t t.a2aind0 = .ok fit ∧ fit.sampling = [] := by
  have hF : Spec.FormatRd (id : K → K) 0 := ⟨⟨le_rfl, one_pos, by simp⟩, fun _ => rfl, rfl⟩
  obtain ⟨fit, g1, g2⟩ := bootFitR_stair hF seqTree_bracketing sq gm h hp hn (fun _ _ => rfl)
  rw [C159_exact seqTree_bracketing sq gm h.origins h.devs (fun i hi j hj => by
    rw [h.nr] at hi
    rw [h.nc] at hj
    by_cases hij : i + j < n
    · exact Or.inr ⟨_, h.obs i j hij⟩
    · exact Or.inl (h.miss i j hi hj (by omega)))] at g1
  refine ⟨fit, g1, (sampling_nil hF hs h (by omega) g2).2 fun i hi j hj hij => ?_⟩
  have hw : ∀ j < n - 1, Spec.wFactorR (fun k => seqTree (k - 1)) id n c j = q j := by
    intro j hj
    unfold Spec.wFactorR
    rw [roundedSum_id seqTree_bracketing, roundedSum_id seqTree_bracketing]
    have hpos : 0 < ((List.range (n - 1 - j)).map (fun i => c i j)).sum :=
      map_sum_pos (by simp; omega) (fun i hi => hp _ _ (by have := List.mem_range.1 hi; omega))
    have : ((List.range (n - 1 - j)).map (fun i => c i (j + 1))).sum =
        q j * ((List.range (n - 1 - j)).map (fun i => c i j)).sum := by
      rw [← List.sum_map_mul_left]
      congr 1
      exact List.map_congr_left fun i hi => hq i j (by have := List.mem_range.1 hi; omega)
    rw [this, id, mul_div_assoc, div_self hpos.ne', mul_one]
  have hq0 : ∀ j < n - 1, q j ≠ 0 := by
    intro j hj e
    have := hq 0 j (by omega)
    rw [e, zero_mul] at this
    exact (hp 0 (j + 1) (by omega)).ne' this
  have hfc : ∀ j, i + j < n → Spec.fitCumR (fun k => seqTree (k - 1)) id n c i j = c i j := by
    intro j hij
    unfold Spec.fitCumR
    rw [backR_exact (a := c i) _ _ (by omega)]
    · congr 1; omega
    · intro j hj
      rw [hw j (by omega), hq i j (by omega), id]
      have := hq0 j (by omega)
      field_simp
  unfold Spec.fitIncrR
  cases j with
  | zero => exact (hfc 0 (by omega)).symm
  | succ j => simp only [Spec.incrR]; rw [hfc _ hij, hfc _ (by omega)]

/-- **C160**, whole amounts and ratios up to `N`: when every origin develops by the same whole ratios and the numerators
of the averages are at most `N`, the fitted values are the observed ones and there is nothing to sample.
Missing: other ratios, see `C160_fails`. -/
theorem C160_partial {N : ℕ} {k : ℕ → ℕ → ℕ} {q : ℕ → ℕ} (hF : Spec.FormatRd rd u) (hN : Spec.ExactInt rd N)
    (hb : Spec.Bracketing br) {sq : Num K → Num K} (hs : Spec.Root sq) (gm : List (Num K) → Num K)
    (h : Spec.Stair t n c) (hn : 3 ≤ n) (hk : Spec.WholeRatios N n 1 c k q) (hlast : k (n - 1) 0 ≤ N) :
    ∃ fit, bootFitR br rd sq gm t t.a2aind0 = .ok fit ∧ (∀ i < n, ∀ j < n, fit.fitCum.cell i j = t.cell i j) ∧
      fit.sampling = [] := by
  have hp := hk.pos
  have hq0 : ∀ j < n - 1, 0 < q j := by
    intro j hj
    have h1 := hk.ratio 0 j (by omega)
    have h2 := (hk.amount 0 (j + 1) (by omega)).2
    rcases Nat.eq_zero_or_pos (q j) with e | e
    · rw [e, zero_mul] at h1; omega
    · exact e
  have hsum : ∀ j < n - 1, ∀ i, i + j + 1 < n → k i j ≤ ((List.range (n - 1 - j)).map (fun i => k i j)).sum := by
    intro j hj i hij
    exact List.le_sum_of_mem (List.mem_map.2 ⟨i, List.mem_range.2 (by omega), rfl⟩)
  have hbd : ∀ j < n - 1, q j * ((List.range (n - 1 - j)).map (fun i => k i j)).sum ≤ N := by
    intro j hj
    have := hk.bound j hj
    simpa using this
  have hkN : ∀ i j, i + j + 1 < n → k i j ≤ N := by
    intro i j hij
    exact (hsum j (by omega) i hij).trans ((Nat.le_mul_of_pos_left _ (hq0 j (by omega))).trans (hbd j (by omega)))
  have hc : ∀ i < n, rd (c i 0) = c i 0 := by
    intro i hi
    rw [(hk.amount i 0 (by omega)).1]
    apply hN.nat
    by_cases hi' : i = n - 1
    · rw [hi']; exact hlast
    · exact hkN i 0 (by omega)
  obtain ⟨fit, g1, g2⟩ := bootFitR_stair hF hb sq gm h hp hn hc
  have hw : ∀ j < n - 1, Spec.wFactorR br rd n c j = q j := by
    intro j hj
    unfold Spec.wFactorR
    have e1 : (List.range (n - 1 - j)).map (fun i => c i (j + 1)) =
        (List.range (n - 1 - j)).map (fun i => ((q j * k i j : ℕ) : K)) := by
      refine List.map_congr_left fun i hi => ?_
      have := List.mem_range.1 hi
      rw [(hk.amount i (j + 1) (by omega)).1, hk.ratio i j (by omega)]
    have e2 : (List.range (n - 1 - j)).map (fun i => c i j) = (List.range (n - 1 - j)).map (fun i => ((k i j : ℕ) : K)) := by
      refine List.map_congr_left fun i hi => ?_
      have := List.mem_range.1 hi
      exact (hk.amount i j (by omega)).1
    have e3 : ((List.range (n - 1 - j)).map (fun i => q j * k i j)).sum =
        q j * ((List.range (n - 1 - j)).map (fun i => k i j)).sum := List.sum_map_mul_left ..
    have hb1 := hbd j hj
    have hle : ((List.range (n - 1 - j)).map (fun i => k i j)).sum ≤ N :=
      (Nat.le_mul_of_pos_left _ (hq0 j hj)).trans hb1
    have hpos : 0 < ((List.range (n - 1 - j)).map (fun i => k i j)).sum :=
      lt_of_lt_of_le (hk.amount 0 j (by omega)).2 (hsum j hj 0 (by omega))
    rw [e1, e2, roundedSum_exact hN hb _ (fun i => q j * k i j) (by rw [e3]; exact hb1),
      roundedSum_exact hN hb _ (fun i => k i j) hle, e3, Nat.cast_mul, mul_div_assoc,
      div_self (by exact_mod_cast hpos.ne'), mul_one]
    exact hN.nat ((Nat.le_mul_of_pos_right _ hpos).trans hb1)
  have hfc : ∀ i j, i + j < n → Spec.fitCumR br rd n c i j = c i j := by
    intro i j hij
    unfold Spec.fitCumR
    rw [backR_exact (a := c i) _ _ (by omega)]
    · congr 1; omega
    · intro j hj
      have hq := hq0 j (by omega)
      have : (q j : K) ≠ 0 := by exact_mod_cast hq.ne'
      rw [hw j (by omega), (hk.amount i (j + 1) (by omega)).1, hk.ratio i j (by omega), Nat.cast_mul,
        mul_div_assoc, mul_comm, div_mul_cancel₀ _ this, (hk.amount i j (by omega)).1]
      exact hN.nat (hkN i j (by omega))
  refine ⟨fit, g1, ?_, (sampling_nil hF hs h (by omega) g2).2 fun i hi j hj hij => ?_⟩
  · intro i hi j hj
    by_cases hij : i + j < n
    · rw [g2.cum.obs i j hij, h.obs i j hij, hfc i j hij]
    · rw [g2.cum.miss i j hi hj (by omega), h.miss i j hi hj (by omega)]
  · unfold Spec.fitIncrR
    cases j with
    | zero => exact (hfc i 0 (by omega)).symm
    | succ j => simp only [Spec.incrR]; rw [hfc _ _ hij, hfc _ _ (by omega)]

/-- **C160** in double precision: whole numbers up to 2⁵³. -/
theorem C160_float64_partial [FloorRing K] {k : ℕ → ℕ → ℕ} {q : ℕ → ℕ} (hb : Spec.Bracketing br) {sq : Num K → Num K}
    (hs : Spec.Root sq) (gm : List (Num K) → Num K) (h : Spec.Stair t n c) (hn : 3 ≤ n)
    (hk : Spec.WholeRatios (2 ^ 53) n 1 c k q) (hlast : k (n - 1) 0 ≤ 2 ^ 53) :
    ∃ fit, bootFitR br (floatRd 53) sq gm t t.a2aind0 = .ok fit ∧
      (∀ i < n, ∀ j < n, fit.fitCum.cell i j = t.cell i j) ∧ fit.sampling = [] :=
  C160_partial (floatRd_formatRd (K := K) (p := 53) (by norm_num)) (floatRd_exactInt (by norm_num)) hb hs gm h hn hk hlast

/-- Three origins with the same amounts `a`, `b`, `d`. -/
def exRows (a b d : ℚ) : Tri ℚ := stairTri 3 (fun _ j => ([a, b, d] : List ℚ).getD j 0)

theorem exRows_stair {a b d : ℚ} : Spec.Stair (exRows a b d) 3 (fun _ j => ([a, b, d] : List ℚ).getD j 0) :=
  stairTri_stair _ _

/-- **C160 fails**: three identical origins 30, 33, 36.  In double precision there are residuals to sample, whatever the
square root; in exact arithmetic there are none. -/
theorem C160_fails {sq : Num ℚ → Num ℚ} (hs : Spec.Root sq) (gm : List (Num ℚ) → Num ℚ) :
    (∃ fit, bootFitR (fun k => seqTree (k - 1)) (floatRd 53) sq gm (exRows 30 33 36) (exRows 30 33 36).a2aind0 = .ok fit ∧
      fit.sampling ≠ []) ∧
    ∃ fit, bootFit sq gm (exRows 30 33 36) (exRows 30 33 36).a2aind0 = .ok fit ∧ fit.sampling = [] := by
  have hp : Spec.Positive 3 (fun _ j => ([30, 33, 36] : List ℚ).getD j 0) := by
    intro i j hij
    have : j < 3 := by omega
    interval_cases j <;> simp
  have hF := floatRd_formatRd (K := ℚ) (p := 53) (by norm_num)
  constructor
  · obtain ⟨fit, g1, g2⟩ := bootFitR_stair hF seqTree_bracketing sq gm exRows_stair hp le_rfl
      (by intro i _; decide +kernel)
    refine ⟨fit, g1, fun e => ?_⟩
    have := (sampling_nil hF hs exRows_stair (by norm_num) g2).1 e 0 (by norm_num) 0 (by norm_num) (by norm_num)
    revert this
    decide +kernel
  · refine C160_exact hs gm exRows_stair hp le_rfl (q := fun j => ([33 / 30, 36 / 33] : List ℚ).getD j 0) ?_
    intro i j hij
    have : j < 2 := by omega
    interval_cases j <;> simp

/-- The root of real numbers, rounded, is a root in this sense. -/
theorem root_real {rd : ℝ → ℝ} {u : ℝ} (hr : Spec.RelErr rd u) : Spec.Root (fun v => (Num.sqrt v).rounded rd) where
  pos y hy := ⟨rd (Real.sqrt y), rd_pos hr (Real.sqrt_pos.2 hy), by rw [Num.sqrt_fin hy.le]; rfl⟩
  zero := by rw [Num.sqrt_fin le_rfl, Real.sqrt_zero]; simp [Num.rounded, rd_zero hr]

/-! ## C161 -/

variable {s : K}

theorem wFactorR_scale (hh : Spec.Homog rd s) (hs : s ≠ 0) (j : ℕ) :
    Spec.wFactorR br rd n (fun i j => s * c i j) j = Spec.wFactorR br rd n c j := by
  unfold Spec.wFactorR
  have : ∀ m, (List.range (n - 1 - j)).map (fun i => s * c i m) =
      ((List.range (n - 1 - j)).map (fun i => c i m)).map (fun x => s * x) := fun m => by
    rw [List.map_map]; rfl
  rw [this, this, roundedSum_scale hh, roundedSum_scale hh, mul_div_mul_left _ _ hs]

theorem backR_scale (hh : Spec.Homog rd s) (f : ℕ → K) (a : K) (k m : ℕ) :
    Spec.backR rd f (s * a) k m = s * Spec.backR rd f a k m := by
  induction m with
  | zero => rfl
  | succ m ih => unfold Spec.backR; rw [ih, mul_div_assoc, hh]

theorem fitCumR_scale (hh : Spec.Homog rd s) (hs : s ≠ 0) (i j : ℕ) :
    Spec.fitCumR br rd n (fun i j => s * c i j) i j = s * Spec.fitCumR br rd n c i j := by
  unfold Spec.fitCumR
  rw [show Spec.wFactorR br rd n (fun i j => s * c i j) = Spec.wFactorR br rd n c from
    funext fun j => wFactorR_scale hh hs j]
  exact backR_scale hh _ _ _ _

theorem incrR_scale (hh : Spec.Homog rd s) (f : ℕ → K) (j : ℕ) :
    Spec.incrR rd (fun j => s * f j) j = s * Spec.incrR rd f j := by
  cases j with
  | zero => rfl
  | succ j => simp only [Spec.incrR]; rw [← mul_sub, hh]

/-- **C161** for scales the arithmetic respects: if multiplication by `s` commutes with rounding and the square root of
`s * s * x` is `s` times that of `x`, then amounts `s * s` times as large give the same factors, squared triangle, fitted
values and scale parameter `s * s` times as large, and residuals and sampled values `s` times as large, bit by bit.
Missing: other scales, see `C161_fails`. -/
theorem C161_partial (hF : Spec.FormatRd rd u) (hb : Spec.Bracketing br) {sq : Num K → Num K}
    (gm : List (Num K) → Num K) (hs : 0 < s) (hh : Spec.Homog rd s)
    (hsq : ∀ v, sq (.fin (s * s) * v) = .fin s * sq v) (h : Spec.Stair t n c) (hp : Spec.Positive n c) (hn : 3 ≤ n)
    (hc : ∀ i < n, rd (c i 0) = c i 0) :
    ∃ fit fit', bootFitR br rd sq gm t t.a2aind0 = .ok fit ∧
      bootFitR br rd sq gm (t.scale (s * s)) (t.scale (s * s)).a2aind0 = .ok fit' ∧
      fit'.ldfs = fit.ldfs ∧ fit'.sqr.tri = fit.sqr.tri.scale (s * s) ∧
      fit'.sqr.ultimate = fit.sqr.ultimate.map (fun x => .fin (s * s) * x) ∧
      (∀ i < n, ∀ j < n, fit'.fitCum.cell i j = .fin (s * s) * fit.fitCum.cell i j ∧
        fit'.fitIncr.cell i j = .fin (s * s) * fit.fitIncr.cell i j ∧
        fit'.residUs.cell i j = .fin s * fit.residUs.cell i j ∧
        fit'.residAdj.cell i j = .fin s * fit.residAdj.cell i j) ∧
      fit'.scale = .fin (s * s) * fit.scale ∧ fit'.sampling = fit.sampling.map (fun v => .fin s * v) := by
  have hss : 0 < s * s := mul_pos hs hs
  have hh2 : Spec.Homog rd (s * s) := hh.sq
  have h' := h.scale (s * s)
  have hp' := hp.scale hss
  obtain ⟨fit, hf, q⟩ := bootFitR_stair hF hb sq gm h hp hn hc
  obtain ⟨fit', hf', q'⟩ := bootFitR_stair hF hb sq gm h' hp' hn (fun i hi => by rw [hh2, hc i hi])
  have hcells : (t.scale (s * s)).nbrCells = t.nbrCells := by rw [nbrCells_stair h, nbrCells_stair h']
  have hdof : bootDof (t.scale (s * s)) = bootDof t := by
    unfold bootDof; rw [hcells]; rfl
  have hnr : fit.residUs.nr = n := by unfold Tri.nr; rw [q.us_origins]; exact h.nr
  have hnc : fit.residUs.nc = n := by unfold Tri.nc; rw [q.us_devs]; exact h.nc
  have hnr' : fit'.residUs.nr = n := by unfold Tri.nr; rw [q'.us_origins]; exact h'.nr
  have hnc' : fit'.residUs.nc = n := by unfold Tri.nc; rw [q'.us_devs]; exact h'.nc
  have hldf : fit'.ldfs = fit.ldfs := by
    obtain ⟨l1, a1, a2⟩ := q.labels
    obtain ⟨l2, b1, b2⟩ := q'.labels
    have e1 : fit'.ldfs.map Prod.fst = fit.ldfs.map Prod.fst := by
      have : (t.scale (s * s)).devs = t.devs := rfl
      rw [this] at b1 b2
      rw [a1] at b1
      rw [a2, b2, Except.ok.inj b1]
    have e2 : fit'.ldfs.map Prod.snd = fit.ldfs.map Prod.snd := by
      rw [q.ldfs, q'.ldfs]
      simp only [wFactorR_scale hh2 hss.ne']
    exact (List.zip_of_prod e1 e2).trans (List.zip_of_prod rfl rfl).symm
  have hsqr := q'.sqr
  rw [hldf, trisqrdOfR_scale hh2 hss, q.sqr] at hsqr
  have hsqr' := Except.ok.inj hsqr
  have hfi : ∀ i j, Spec.fitIncrR br rd n (fun i j => s * s * c i j) i j = s * s * Spec.fitIncrR br rd n c i j := by
    intro i j
    unfold Spec.fitIncrR
    rw [← incrR_scale hh2]
    congr 1
    funext j
    exact fitCumR_scale hh2 hss.ne' i j
  have hcum : ∀ i < n, ∀ j < n, fit'.fitCum.cell i j = .fin (s * s) * fit.fitCum.cell i j := by
    intro i hi j hj
    by_cases hij : i + j < n
    · rw [q.cum.obs i j hij, q'.cum.obs i j hij, fitCumR_scale hh2 hss.ne', Num.fin_mul]
    · rw [q.cum.miss i j hi hj (by omega), q'.cum.miss i j hi hj (by omega), Num.mul_nan]
  have hincr : ∀ i < n, ∀ j < n, fit'.fitIncr.cell i j = .fin (s * s) * fit.fitIncr.cell i j := by
    intro i hi j hj
    by_cases hij : i + j < n
    · rw [q.incr.obs i j hij, q'.incr.obs i j hij, hfi, Num.fin_mul]
    · rw [q.incr.miss i j hi hj (by omega), q'.incr.miss i j hi hj (by omega), Num.mul_nan]
  have hus : ∀ i < n, ∀ j < n, fit'.residUs.cell i j = .fin s * fit.residUs.cell i j := by
    intro i hi j hj
    by_cases hij : i + j < n
    · rw [q.us i j hij, q'.us i j hij, hfi, show Spec.incrR rd (fun j => s * s * c i j) j = _ from
        incrR_scale hh2 (c i) j, ← mul_sub, hh2, abs_mul, abs_of_pos hss,
        ← Num.fin_mul (s * s) |Spec.fitIncrR br rd n c i j|, hsq, ← Num.fin_mul (s * s), ← Num.fin_mul s s,
        Num.pos_mul_assoc hs, Num.divR_both hs, Num.divR_left hh hs]
    · rw [q.us_miss i j hi hj (by omega), q'.us_miss i j hi hj (by omega), Num.mul_nan]
  have hadj : ∀ i < n, ∀ j < n, fit'.residAdj.cell i j = .fin s * fit.residAdj.cell i j := by
    intro i hi j hj
    rw [q.adj, q'.adj]
    show Num.mulR rd (sq _) (fit'.residUs.cell i j) = .fin s * Num.mulR rd (sq _) (fit.residUs.cell i j)
    rw [hcells, hdof, hus i hi j hj, Num.mulR_right hh hs]
  refine ⟨fit, fit', hf, hf', hldf, by rw [← hsqr'], by rw [← hsqr'],
    fun i hi j hj => ⟨hcum i hi j hj, hincr i hi j hj, hus i hi j hj, hadj i hi j hj⟩, ?_, ?_⟩
  · rw [q.scale, q'.scale]
    unfold scaleParamR
    rw [hdof, ← Num.divR_left hh2 hss, ← sumSkipR_scale hh2 hss, List.map_map, hnc, hnc']
    congr 2
    refine List.map_congr_left fun j hj => ?_
    rw [List.mem_range] at hj
    show _ = Num.fin (s * s) * sumSkipR br rd _
    rw [← sumSkipR_scale hh2 hss, List.map_map]
    unfold Tri.col
    rw [hnr, hnr', List.map_map, List.map_map]
    congr 1
    refine List.map_congr_left fun i hi => ?_
    rw [List.mem_range] at hi
    show (fit'.residUs.cell i j).powR rd 2 = Num.fin (s * s) * (fit.residUs.cell i j).powR rd 2
    rw [hus i hi j hj, Num.powR_two hh hs]
  · have hnr2 : fit.residAdj.nr = n := by rw [q.adj]; exact hnr
    have hnc2 : fit.residAdj.nc = n := by rw [q.adj]; exact hnc
    have hnr2' : fit'.residAdj.nr = n := by rw [q'.adj]; exact hnr'
    have hnc2' : fit'.residAdj.nc = n := by rw [q'.adj]; exact hnc'
    rw [q.sampling, q'.sampling]
    unfold samplingDist
    rw [hnr2, hnc2, hnr2', hnc2']
    have e : (List.range (n - 1)).flatMap (fun i => (List.range (n - 1)).map (fun j => fit'.residAdj.cell i j)) =
        ((List.range (n - 1)).flatMap (fun i => (List.range (n - 1)).map (fun j => fit.residAdj.cell i j))).map
          (fun v => Num.fin s * v) := by
      rw [List.map_flatMap]
      apply flatMap_congr_mem
      intro i hi
      rw [List.mem_range] at hi
      rw [List.map_map]
      refine List.map_congr_left fun j hj => ?_
      rw [List.mem_range] at hj
      exact hadj i (by omega) j (by omega)
    rw [e, List.filter_map]
    congr 1
    apply List.filter_congr
    intro v _
    simp only [Function.comp, Num.pos_mul_isNaN hs, Num.pos_mul_eqF_zero hs]

/-- **C161** in double precision with the rounded root of real numbers: amounts four to any power times as large. -/
theorem C161_float64_partial {t : Tri ℝ} {n : ℕ} {c : ℕ → ℕ → ℝ} (hb : Spec.Bracketing br) (gm : List (Num ℝ) → Num ℝ)
    (e : ℤ) (h : Spec.Stair t n c) (hp : Spec.Positive n c) (hn : 3 ≤ n)
    (hc : ∀ i < n, floatRd 53 (c i 0) = c i 0) :
    ∃ fit fit', bootFitR br (floatRd 53) (fun v => (Num.sqrt v).rounded (floatRd 53)) gm t t.a2aind0 = .ok fit ∧
      bootFitR br (floatRd 53) (fun v => (Num.sqrt v).rounded (floatRd 53)) gm (t.scale (4 ^ e)) (t.scale (4 ^ e)).a2aind0 =
        .ok fit' ∧ fit'.ldfs = fit.ldfs ∧
      (∀ i < n, ∀ j < n, fit'.fitIncr.cell i j = .fin (4 ^ e) * fit.fitIncr.cell i j ∧
        fit'.residAdj.cell i j = .fin (2 ^ e) * fit.residAdj.cell i j) ∧
      fit'.scale = .fin (4 ^ e) * fit.scale ∧ fit'.sampling = fit.sampling.map (fun v => .fin (2 ^ e) * v) := by
  have h2 : (0 : ℝ) < 2 ^ e := zpow_pos (by norm_num) _
  have e4 : (4 : ℝ) ^ e = 2 ^ e * 2 ^ e := by rw [← mul_zpow]; norm_num
  obtain ⟨fit, fit', a1, a2, a3, -, -, a4, a5, a6⟩ := C161_partial (s := (2 : ℝ) ^ e)
    (sq := fun v => (Num.sqrt v).rounded (floatRd 53)) (floatRd_formatRd (K := ℝ) (p := 53) (by norm_num)) hb gm h2
    (floatRd_homog 53 e) (fun v => by
      rw [Num.sqrt_mul_self h2, Num.rounded_scale (floatRd_homog 53 e) h2]) h hp hn hc
  rw [e4]
  exact ⟨fit, fit', a1, a2, a3, fun i hi j hj => ⟨(a4 i hi j hj).2.1, (a4 i hi j hj).2.2.2⟩, a5, a6⟩

/-- **C161 fails** for the scale 3 in double precision: three identical origins 10, 11, 12 leave nothing to sample, the same
amounts times 3 do, whatever the square root. -/
theorem C161_fails {sq : Num ℚ → Num ℚ} (hs : Spec.Root sq) (gm : List (Num ℚ) → Num ℚ) :
    (∃ fit, bootFitR (fun k => seqTree (k - 1)) (floatRd 53) sq gm (exRows 10 11 12) (exRows 10 11 12).a2aind0 = .ok fit ∧
      fit.sampling = []) ∧
    ∃ fit, bootFitR (fun k => seqTree (k - 1)) (floatRd 53) sq gm ((exRows 10 11 12).scale 3)
      ((exRows 10 11 12).scale 3).a2aind0 = .ok fit ∧ fit.sampling ≠ [] := by
  have hp : Spec.Positive 3 (fun _ j => ([10, 11, 12] : List ℚ).getD j 0) := by
    intro i j hij
    have : j < 3 := by omega
    interval_cases j <;> simp
  have hF := floatRd_formatRd (K := ℚ) (p := 53) (by norm_num)
  constructor
  · obtain ⟨fit, g1, g2⟩ := bootFitR_stair hF seqTree_bracketing sq gm exRows_stair hp le_rfl
      (by intro i _; decide +kernel)
    refine ⟨fit, g1, (sampling_nil hF hs exRows_stair (by norm_num) g2).2 ?_⟩
    decide +kernel
  · obtain ⟨fit, g1, g2⟩ := bootFitR_stair hF seqTree_bracketing sq gm (exRows_stair.scale 3) (hp.scale (by norm_num))
      le_rfl (by intro i _; decide +kernel)
    refine ⟨fit, g1, fun e => ?_⟩
    have := (sampling_nil hF hs (exRows_stair.scale 3) (by norm_num) g2).1 e 0 (by norm_num) 0 (by norm_num) (by norm_num)
    revert this
    decide +kernel

end Trikit
