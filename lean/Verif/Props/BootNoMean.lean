import Verif.Pole
import Verif.Props.BootDiverge

/-!
# Simulated reserves of the parametric bootstrap (C203)

No simulated reserve of a parametric bootstrap has a mean, neither of an origin nor in total.
-/

set_option linter.unusedSectionVars false

namespace Trikit

open MeasureTheory ProbabilityTheory Filter

section
variable {Ω E : Type} [MeasurableSpace Ω] [MeasurableSpace E] {μ : Measure Ω} [IsProbabilityMeasure μ]
variable {t m : Tri ℝ} {n S s : ℕ} {c v : ℕ → ℕ → ℝ} {Z : E → ℝ} {G : E → ℝ → ℝ → ℝ} {b : ℝ} {seed : ℕ → Ω → E}

/-- Without process error a sum of amounts has a mean if it has one with process error. -/
theorem process_sum (h : Spec.Seeds μ seed) (hb : 0 < b) (hG : Spec.MeanDraws μ seed G b) {T : Finset ℕ} {ι : Type}
    [Fintype ι] {F : ι → (ℕ → E) → ℝ} (hF : ∀ a, Measurable (F a)) (lF : ∀ a, Spec.Local T (F a)) {pos : ι → ℕ}
    (hp : ∀ a, pos a ∉ T)
    (hi : Integrable (fun ω => ∑ a, G (seed (pos a) ω) (|F a (fun q => seed q ω)| / b) b *
      (if 0 < F a (fun q => seed q ω) then 1 else -1)) μ) :
    Integrable (fun ω => ∑ a, F a (fun q => seed q ω)) μ := by
  classical
  let X : Ω → ι → ℝ := fun ω a => F a (fun q => seed q ω)
  let Y : Ω → ι → E := fun ω a => seed (pos a) ω
  have hX : Measurable X := measurable_pi_lambda _ (fun a => (hF a).comp (measurable_pi_lambda _ h.meas))
  have hY : Measurable Y := measurable_pi_lambda _ (fun a => h.meas _)
  have hind : IndepFun X Y μ := by
    have := indep_local h (T := T) (U := Finset.univ.image pos) (by
      rw [Finset.disjoint_right]
      intro q hq
      rw [Finset.mem_image] at hq
      obtain ⟨a, -, rfl⟩ := hq
      exact hp a) (F := fun e a => F a e) (H := fun e a => e (pos a)) (measurable_pi_lambda _ hF)
      (measurable_pi_lambda _ (fun a => measurable_pi_apply _)) (fun e e' he => by
        funext a
        exact lF a e e' he) (fun e e' he => by
        funext a
        exact he _ (Finset.mem_image_of_mem _ (Finset.mem_univ a)))
    exact this
  let H : (ι → ℝ) × (ι → E) → ℝ := fun q => ∑ a, G (q.2 a) (|q.1 a| / b) b * (if 0 < q.1 a then 1 else -1)
  have hH : Measurable H := by
    refine Finset.measurable_fun_sum _ (fun a _ => ?_)
    have m1 : Measurable (fun q : (ι → ℝ) × (ι → E) => q.1 a) := (measurable_pi_apply a).comp measurable_fst
    have m2 : Measurable (fun q : (ι → ℝ) × (ι → E) => q.2 a) := (measurable_pi_apply a).comp measurable_snd
    refine Measurable.mul ?_ (Measurable.ite (measurableSet_lt measurable_const m1) measurable_const measurable_const)
    exact hG.meas.comp (m2.prodMk (m1.abs.div_const b))
  have hPX : IsProbabilityMeasure (μ.map X) := Measure.isProbabilityMeasure_map hX.aemeasurable
  have hPY : IsProbabilityMeasure (μ.map Y) := Measure.isProbabilityMeasure_map hY.aemeasurable
  have hmap : μ.map (fun ω => (X ω, Y ω)) = (μ.map X).prod (μ.map Y) :=
    (indepFun_iff_map_prod_eq_prod_map_map hX.aemeasurable hY.aemeasurable).1 hind
  have hint : Integrable H ((μ.map X).prod (μ.map Y)) := by
    rw [← hmap, integrable_map_measure hH.aestronglyMeasurable (hX.prodMk hY).aemeasurable]
    exact hi
  have ha : ∀ r : ℝ, 0 ≤ |r| / b := fun r => by positivity
  have hGr : ∀ r : ℝ, Measurable (fun e => G e (|r| / b) b) := fun r =>
    hG.meas.comp (measurable_id.prodMk measurable_const)
  have hYa : ∀ a, (μ.map Y).map (fun y : ι → E => y a) = μ.map (seed 0) := by
    intro a
    rw [Measure.map_map (measurable_pi_apply a) hY, ← h.law (pos a)]
    rfl
  have hG0 : ∀ r : ℝ, Integrable (fun e => G e (|r| / b) b) (μ.map (seed 0)) := fun r =>
    (integrable_map_measure (hGr r).aestronglyMeasurable (h.meas 0).aemeasurable).2 (hG.integrable _ (ha r))
  have hGa : ∀ a (r : ℝ), Integrable (fun y : ι → E => G (y a) (|r| / b) b) (μ.map Y) ∧
      ∫ y : ι → E, G (y a) (|r| / b) b ∂(μ.map Y) = |r| := by
    intro a r
    have h1 := hG0 r
    rw [← hYa a] at h1
    refine ⟨(integrable_map_measure h1.aestronglyMeasurable (measurable_pi_apply a).aemeasurable).1 h1, ?_⟩
    have h2 : ∫ y : ι → E, G (y a) (|r| / b) b ∂(μ.map Y) = ∫ e, G e (|r| / b) b ∂(μ.map (seed 0)) := by
      rw [← hYa a, integral_map (measurable_pi_apply a).aemeasurable (hGr r).aestronglyMeasurable]
    rw [h2, integral_map (h.meas 0).aemeasurable (hGr r).aestronglyMeasurable, hG.mean _ (ha r)]
    field_simp
  have hin : ∀ x : ι → ℝ, ∫ y, H (x, y) ∂(μ.map Y) = ∑ a, x a := by
    intro x
    simp only [H]
    rw [integral_finsetSum (f := fun a (y : ι → E) => G (y a) (|x a| / b) b * (if 0 < x a then 1 else -1)) _
      (fun a _ => (hGa a (x a)).1.mul_const _)]
    refine Finset.sum_congr rfl (fun a _ => ?_)
    rw [integral_mul_const, (hGa a (x a)).2]
    split
    · rw [abs_of_pos ‹_›, mul_one]
    · rw [abs_of_nonpos (not_lt.1 ‹_›)]; ring
  have h1 := hint.integral_prod_left
  simp only [hin] at h1
  exact (integrable_map_measure h1.aestronglyMeasurable hX.aemeasurable).1 h1

/-- A function of normal residuals that has a mean has one as a function of one residual, for some of the values of the
others that have positive probability. -/
theorem slice_integrable {xs : List ℝ} (hs : Spec.Seeds μ seed) (hZ : Spec.Resid μ true xs Z seed) {T : Finset ℕ}
    {H : (ℕ → ℝ) → ℝ} (hm : Measurable H) (lH : Spec.Local T H) (p : ℕ) {B : ℕ → Set ℝ} (hB : ∀ q, MeasurableSet (B q))
    (hpos : ∀ q ∈ T.erase p, Spec.residLaw true xs (B q) ≠ 0) (hi : Integrable (fun ω => H (fun q => Z (seed q ω))) μ) :
    ∃ u : ℕ → ℝ, (∀ q ∈ T.erase p, u q ∈ B q) ∧
      Integrable (fun z => H (Function.update u p z)) (Spec.residLaw true xs) := by
  let w : (ℕ → E) → ℕ → ℝ := fun e q => if q ∈ T.erase p then Z (e q) else 0
  have hw : Measurable w := by
    refine measurable_pi_lambda _ (fun q => ?_)
    simp only [w]
    by_cases hq : q ∈ T.erase p
    · simp only [hq, if_true]; exact hZ.meas.comp (measurable_pi_apply q)
    · simp only [hq, if_false]; exact measurable_const
  have hind := indep_local hs (T := T.erase p) (U := {p})
    (Finset.disjoint_singleton_right.2 (Finset.notMem_erase p T)) (F := w) (H := fun e => Z (e p)) hw
    (hZ.meas.comp (measurable_pi_apply p)) (by
      intro e e' he
      funext q
      simp only [w]
      by_cases hq : q ∈ T.erase p
      · rw [if_pos hq, if_pos hq, he q hq]
      · rw [if_neg hq, if_neg hq]) (by
      intro e e' he
      simp only [he p (Finset.mem_singleton_self p)])
  let W : Ω → ℕ → ℝ := fun ω => w (fun q => seed q ω)
  have hW : Measurable W := hw.comp (measurable_pi_lambda _ hs.meas)
  have hζ : Measurable (fun ω => Z (seed p ω)) := hZ.meas.comp (hs.meas p)
  have hlaw : μ.map (fun ω => Z (seed p ω)) = Spec.residLaw true xs := (hZ.all hs p).map_eq
  have hPc : IsProbabilityMeasure (Spec.residLaw true xs) := by
    rw [← hlaw]; exact Measure.isProbabilityMeasure_map hζ.aemeasurable
  have hPW : IsProbabilityMeasure (μ.map W) := Measure.isProbabilityMeasure_map hW.aemeasurable
  have hmap : μ.map (fun ω => (W ω, Z (seed p ω))) = (μ.map W).prod (Spec.residLaw true xs) := by
    rw [(indepFun_iff_map_prod_eq_prod_map_map hW.aemeasurable hζ.aemeasurable).1 hind, hlaw]
  have hK : Measurable (fun q : (ℕ → ℝ) × ℝ => H (Function.update q.1 p q.2)) := hm.comp measurable_update'
  have hself : ∀ ω, H (Function.update (W ω) p (Z (seed p ω))) = H (fun q => Z (seed q ω)) := by
    intro ω
    refine lH _ _ (fun q hq => ?_)
    by_cases hqp : q = p
    · subst hqp; simp
    · rw [Function.update_of_ne hqp]
      simp only [W, w]
      rw [if_pos (Finset.mem_erase.2 ⟨hqp, hq⟩)]
  have hint : Integrable (fun q : (ℕ → ℝ) × ℝ => H (Function.update q.1 p q.2))
      ((μ.map W).prod (Spec.residLaw true xs)) := by
    rw [← hmap, integrable_map_measure hK.aestronglyMeasurable (hW.prodMk hζ).aemeasurable]
    exact hi.congr (ae_of_all _ (fun ω => (hself ω).symm))
  have hae : ∀ᵐ ω ∂μ, Integrable (fun z => H (Function.update (W ω) p z)) (Spec.residLaw true xs) :=
    ae_of_ae_map hW.aemeasurable hint.prod_right_ae
  have hev : μ (⋂ q ∈ T.erase p, (fun ω => Z (seed q ω)) ⁻¹' B q) ≠ 0 := by
    have hI : iIndepFun (fun q ω => Z (seed q ω)) μ := hs.indep.comp (fun _ => Z) (fun _ => hZ.meas)
    rw [hI.measure_inter_preimage_eq_mul _ (fun q _ => hB q), Finset.prod_ne_zero_iff]
    intro q hq
    show μ ((Z ∘ seed q) ⁻¹' B q) ≠ 0
    rw [← Measure.map_apply (hZ.meas.comp (hs.meas q)) (hB q)]
    have : μ.map (Z ∘ seed q) = Spec.residLaw true xs := (hZ.all hs q).map_eq
    rw [this]
    exact hpos q hq
  obtain ⟨ω, hω1, hω2⟩ : ∃ ω ∈ (⋂ q ∈ T.erase p, (fun ω => Z (seed q ω)) ⁻¹' B q),
      Integrable (fun z => H (Function.update (W ω) p z)) (Spec.residLaw true xs) := by
    by_contra hno
    push Not at hno
    refine hev (measure_mono_null (fun ω hω => hno ω hω) hae)
  refine ⟨W ω, fun q hq => ?_, hω2⟩
  simp only [W, w]
  rw [if_pos hq]
  simp only [Set.mem_iInter, Set.mem_preimage] at hω1
  exact hω1 q hq

/-! ## Residuals that lead to the pole -/

/-- Residuals of a cell: small increments of the oldest origin after the first period and before the last, increments
above 1 elsewhere. -/
noncomputable def poleSet (v : ℕ → ℕ → ℝ) (n r k : ℕ) : Set ℝ :=
  if Spec.startIncr v r k = 0 then Set.univ
  else if r = 0 ∧ 0 < k ∧ k < n - 1 then
    Set.Ioo (-√(Spec.startIncr v r k)) (-√(Spec.startIncr v r k) + 1 / (n * √(Spec.startIncr v r k)))
  else Set.Ioi (1 / √(Spec.startIncr v r k) - √(Spec.startIncr v r k))

theorem poleSet_meas (r k : ℕ) : MeasurableSet (poleSet v n r k) := by
  unfold poleSet
  split
  · exact MeasurableSet.univ
  · split
    · exact measurableSet_Ioo
    · exact measurableSet_Ioi

theorem poleSet_pos {V : NNReal} (hV : V ≠ 0) (hn : 0 < n) {r k : ℕ} (h : 0 ≤ Spec.startIncr v r k) :
    gaussianReal 0 V (poleSet v n r k) ≠ 0 := by
  intro e
  have := gaussianReal_absolutelyContinuous' 0 hV e
  unfold poleSet at this
  split at this
  · simp at this
  · next h0 =>
    have hs : 0 < √(Spec.startIncr v r k) := Real.sqrt_pos.2 (h.lt_of_ne (Ne.symm h0))
    have hn' : (0 : ℝ) < n := by exact_mod_cast hn
    split at this
    · have hp : 0 < 1 / (n * √(Spec.startIncr v r k)) := by positivity
      rw [Real.volume_Ioo, ENNReal.ofReal_eq_zero] at this
      linarith
    · simp at this

theorem poleSet_incr (h : 0 ≤ Spec.startIncr v 0 0) {r k : ℕ} (hw : 0 ≤ Spec.startIncr v r k) (hn : 0 < n) {x : ℝ}
    (hx : x ∈ poleSet v n r k) :
    0 ≤ Spec.startIncr v r k + x * √(Spec.startIncr v r k) ∧
    (r = 0 ∧ 0 < k ∧ k < n - 1 → Spec.startIncr v r k + x * √(Spec.startIncr v r k) ≤ 1 / n) ∧
    (¬ (r = 0 ∧ 0 < k ∧ k < n - 1) → 0 < Spec.startIncr v r k →
      1 < Spec.startIncr v r k + x * √(Spec.startIncr v r k)) := by
  have hn' : (0 : ℝ) < n := by exact_mod_cast hn
  unfold poleSet at hx
  split at hx
  · next h0 =>
    rw [h0]
    simp
  · next h0 =>
    have hs : 0 < √(Spec.startIncr v r k) := Real.sqrt_pos.2 (hw.lt_of_ne (Ne.symm h0))
    have hsq : √(Spec.startIncr v r k) * √(Spec.startIncr v r k) = Spec.startIncr v r k := Real.mul_self_sqrt hw
    generalize √(Spec.startIncr v r k) = q at *
    rw [← hsq]
    split at hx
    · next hc =>
      have h1 : 0 < q + x := by linarith [hx.1]
      have h2 : (q + x) * q < 1 / n := by
        have := mul_lt_mul_of_pos_right (show q + x < 1 / (n * q) by linarith [hx.2]) hs
        have e : 1 / (n * q) * q = 1 / n := by field_simp
        rwa [e] at this
      have h3 := mul_pos h1 hs
      exact ⟨by nlinarith, fun _ => by nlinarith, fun hc' => absurd hc hc'⟩
    · next hc =>
      have h1 : 1 / q < q + x := by
        have : 1 / q - q < x := hx
        linarith
      have h2 := mul_lt_mul_of_pos_right h1 hs
      rw [one_div_mul_cancel hs.ne'] at h2
      exact ⟨by nlinarith, fun hc' => absurd hc' hc, fun _ _ => by nlinarith⟩

theorem pole_incr (hn : 2 ≤ n) (hw : ∀ r k, r + k < n → 0 ≤ Spec.startIncr v r k)
    (hf : ∀ r, r < n → 0 < Spec.startIncr v r 0) (hl : 0 < Spec.startIncr v 0 (n - 1)) {u : ℕ → ℝ}
    (hu : ∀ r k, r + k < n → 0 < r ∨ 0 < k → u (cellPos n s r k) ∈ poleSet v n r k) :
    PoleIncr n (residIncr v n s u) := by
  have key := fun r k (hrk : r + k < n) (h : 0 < r ∨ 0 < k) =>
    poleSet_incr (hf 0 (by omega)).le (hw r k hrk) (by omega) (hu r k hrk h)
  have e : ∀ r k, r + k < n → residIncr v n s u r k =
      Spec.startIncr v r k + u (cellPos n s r k) * √(Spec.startIncr v r k) := fun r k hrk => by
    unfold residIncr; rw [if_pos hrk]
  have hn' : (0 : ℝ) < n := by exact_mod_cast (show 0 < n by omega)
  have h10 : 1 < residIncr v n s u 1 0 := by
    rw [e 1 0 (by omega)]
    exact (key 1 0 (by omega) (.inl one_pos)).2.2 (by omega) (hf 1 (by omega))
  refine ⟨fun r k hrk h => ?_, fun r h0 hr => ?_, ?_, ?_⟩
  · rw [e r k hrk]; exact (key r k hrk h).1
  · rw [e r 0 (by omega)]
    exact lt_trans one_pos ((key r 0 (by omega) (.inl h0)).2.2 (by omega) (hf r hr))
  · refine lt_of_le_of_lt ?_ h10
    have : ∑ k ∈ Finset.Ico 1 (n - 1), residIncr v n s u 0 k ≤ ∑ k ∈ Finset.Ico 1 (n - 1), 1 / (n : ℝ) := by
      refine Finset.sum_le_sum (fun k hk => ?_)
      rw [Finset.mem_Ico] at hk
      rw [e 0 k (by omega)]
      exact (key 0 k (by omega) (.inr (by omega))).2.1 ⟨rfl, by omega, hk.2⟩
    refine this.trans ?_
    rw [Finset.sum_const, Nat.card_Ico, nsmul_eq_mul, mul_one_div, div_le_one hn']
    exact_mod_cast (show n - 1 - 1 ≤ n by omega)
  · rw [e 0 (n - 1) (by omega)]
    exact lt_trans one_pos ((key 0 (n - 1) (by omega) (.inr (by omega))).2.2 (by omega) hl)

/-! ## C203 -/

/-- Sums of forecast increments of resampled triangles have no mean. -/
theorem forecast_no_mean (ht : Spec.Stair t n c) (hn : 2 ≤ n) (h1 : t.dAt 0 = 1)
    (hw : ∀ r k, r + k < n → 0 ≤ Spec.startIncr v r k) (hf : ∀ r, r < n → 0 < Spec.startIncr v r 0)
    (hl : 0 < Spec.startIncr v 0 (n - 1)) {xs : List ℝ} (hx : 2 ≤ xs.length) (hne : ∃ z ∈ xs, z ≠ Spec.meanList xs)
    (hs : Spec.Seeds μ seed) (hZ : Spec.Resid μ true xs Z seed) {I : Finset ℕ} (hI : ∀ i ∈ I, 0 < i ∧ i < n)
    (h0 : I.Nonempty) :
    ¬ Integrable (fun ω => ∑ i ∈ I, ∑ j ∈ Finset.Ico (n - i) n, Spec.simIncr t n (Spec.simCum n (Spec.startIncr v)
      (fun i j => √(Spec.startIncr v i j)) (fun p => Z (seed p ω))) s i j) μ := by
  intro hi
  let H : (ℕ → ℝ) → ℝ := fun z => ∑ i ∈ I, ∑ j ∈ Finset.Ico (n - i) n, Spec.simIncr t n (Spec.simCum n
    (Spec.startIncr v) (fun i j => √(Spec.startIncr v i j)) z) s i j
  have hH : Measurable H := by
    refine Finset.measurable_fun_sum _ (fun i hi => Finset.measurable_fun_sum _ (fun j _ => ?_))
    obtain ⟨F, hF, -, hFs⟩ := incr_fun (t := t) (v := v) (s := s) (hI i hi).2
    simp only [← hFs]
    exact hF j
  have lH : Spec.Local (obsSet n s) H := by
    intro e e' he
    refine Finset.sum_congr rfl (fun i hi => Finset.sum_congr rfl (fun j _ => ?_))
    obtain ⟨F, -, lF, hFs⟩ := incr_fun (t := t) (v := v) (s := s) (hI i hi).2
    rw [← hFs, ← hFs]
    exact lF j e e' he
  have hV : Real.toNNReal (Spec.sqList xs / ((xs.length : ℝ) - 1)) ≠ 0 := by
    rw [Ne, Real.toNNReal_eq_zero, not_le]
    have h3 : 0 < Spec.sqList xs := by
      refine (sqList_nonneg xs).lt_of_ne (fun e => ?_)
      obtain ⟨z, hz, hz'⟩ := hne
      exact hz' (sqList_zero.1 e.symm z hz)
    have : (2 : ℝ) ≤ xs.length := by exact_mod_cast hx
    exact div_pos h3 (by linarith)
  have hlaw : Spec.residLaw true xs = gaussianReal 0 (Real.toNNReal (Spec.sqList xs / ((xs.length : ℝ) - 1))) := rfl
  have hdec : ∀ r k, r + k < n → (cellPos n s r k - s * (n * n)) / n = r ∧ (cellPos n s r k - s * (n * n)) % n = k := by
    intro r k hrk
    have : cellPos n s r k - s * (n * n) = k + r * n := by unfold cellPos; omega
    rw [this, Nat.add_mul_div_right _ _ (by omega), Nat.add_mul_mod_self_right, Nat.div_eq_of_lt (by omega),
      Nat.mod_eq_of_lt (by omega)]
    omega
  obtain ⟨u, hu, hint⟩ := slice_integrable hs hZ hH lH (cellPos n s 0 0)
    (B := fun q => poleSet v n ((q - s * (n * n)) / n) ((q - s * (n * n)) % n)) (fun q => poleSet_meas _ _) (by
      intro q hq
      rw [Finset.mem_erase, mem_obsSet] at hq
      obtain ⟨-, r, k, hrk, rfl⟩ := hq
      beta_reduce
      rw [(hdec r k hrk).1, (hdec r k hrk).2, hlaw]
      exact poleSet_pos hV (by omega) (hw r k hrk)) hi
  have hD : PoleIncr n (residIncr v n s u) := by
    refine pole_incr hn hw hf hl (fun r k hrk h => ?_)
    have := hu (cellPos n s r k) (by
      rw [Finset.mem_erase, mem_obsSet]
      refine ⟨fun e => ?_, r, k, hrk, rfl⟩
      obtain ⟨rfl, rfl⟩ := cellPos_inj (by omega) (by omega) e
      omega)
    rwa [(hdec r k hrk).1, (hdec r k hrk).2] at this
  have hq : 0 < √(Spec.startIncr v 0 0) := Real.sqrt_pos.2 (hf 0 (by omega))
  have hup := fun z => residIncr_update (v := v) (n := n) (s := s) (r := 0) (k := 0) u (by omega) z
  obtain ⟨q, hqe⟩ : ∃ q, q = √(Spec.startIncr v 0 0) := ⟨_, rfl⟩
  obtain ⟨w, hwe⟩ : ∃ w, w = Spec.startIncr v 0 0 := ⟨_, rfl⟩
  rw [← hqe] at hq hup
  rw [← hwe] at hup
  obtain ⟨D, hDe⟩ : ∃ D, D = residIncr v n s u := ⟨_, rfl⟩
  rw [← hDe] at hD hup
  obtain ⟨a, hae⟩ : ∃ a, a = ∑ k ∈ Finset.Ico 1 (n - 1), D 0 k := ⟨_, rfl⟩
  have hC := hD.coef hI h0
  have hx0 : ∀ z, (-D 1 0 - w) / q < z → -D 1 0 < w + z * q := by
    intro z hz
    rw [div_lt_iff₀ hq] at hz
    linarith
  refine gaussian_pole hV (m := 0) (f := fun z => H (Function.update u (cellPos n s 0 0) z))
    (g := fun z => poleCoef n I D (w + z * q)) (l := (-D 1 0 - w) / q) (a := (w + a) / q) (L := D 0 (n - 1) / q)
    (κ := ∑ i ∈ I, Spec.devCum D i (n - 1 - i)) ?_ ?_ ?_ ?_ ?_ hint
  · exact hC.2.comp (by fun_prop) (fun z hz => hx0 z hz)
  · exact fun z hz => (hC.1 _ (hx0 z hz)).ne'
  · rw [← neg_div]
    refine div_lt_div_of_pos_right ?_ hq
    have := hD.small
    rw [← hae] at this
    linarith
  · exact (div_pos hD.last hq).ne'
  · intro z hz hz0
    have hxa : w + z * q + a ≠ 0 := by
      intro e
      apply hz0
      field_simp
      linarith
    have hden : ∀ j, j + 1 < n → ∑ r ∈ Finset.range (n - 1 - j),
        Spec.devCum (residIncr v n s (Function.update u (cellPos n s 0 0) z)) r j ≠ 0 := by
      intro j hj
      rw [hup]
      by_cases hj2 : j + 2 < n
      · exact (hD.column_pos (by omega) (by omega) (hx0 z hz)).ne'
      · obtain rfl : j = n - 2 := by omega
        rw [show n - 1 - (n - 2) = 1 by omega, Finset.sum_range_one, devCum_first, show n - 2 + 1 = n - 1 by omega, ← hae]
        exact hxa
    have e1 : H (Function.update u (cellPos n s 0 0) z) = ∑ i ∈ I, Spec.clReserve n i (repl D 0 0 (w + z * q)) := by
      refine Finset.sum_congr rfl (fun i hi => ?_)
      rw [← hup]
      exact simIncr_reserve' ht h1 (hI i hi).2 (hI i hi).1 _ hden
    rw [e1, PoleIncr.reserve hn hI, ← hae]
    have e2 : (z + (w + a) / q + D 0 (n - 1) / q) / (z + (w + a) / q) =
        (w + z * q + a + D 0 (n - 1)) / (w + z * q + a) := by
      rw [div_eq_div_iff hz0 hxa]
      field_simp
      ring
    rw [e2]

/-- **C203** For all staircases of at least two origins whose first development label is 1, all fitted increments that
are not negative, positive in the first period and in the last period of the oldest origin, every positive scale and
process variates that are not negative and have mean shape times scale: with normal residuals of positive variance no
simulated reserve of an origin but the oldest has a mean, and neither has the sum of those of several origins. -/
theorem C203_no_mean (ht : Spec.Stair t n c) (hn : 2 ≤ n) (h1 : t.dAt 0 = 1) (hm : Spec.Stair m n v)
    (ho : m.origins = t.origins) (hd : m.devs = t.devs) (hv : ∀ i j, i + j < n → 0 < j → 0 ≤ v i j) (hb : 0 < b)
    {xs : List ℝ} (hx : 2 ≤ xs.length) (hne : ∃ z ∈ xs, z ≠ Spec.meanList xs)
    (hf : ∀ r, r < n → 0 < Spec.startIncr v r 0) (hl : 0 < Spec.startIncr v 0 (n - 1))
    (hs : Spec.Seeds μ seed) (hZ : Spec.Resid μ true xs Z seed) (hG : Spec.MeanDraws μ seed G b) (hsS : s < S) :
    ∃ R : ℕ → Ω → ℝ, (∀ i, 0 < i → i < n → ∀ ω, ∃ q ∈
        (bootSims Num.sqrt t m (.fin b) S (Spec.residOf Z seed ω) (Spec.gammaOf G seed ω)).reserves,
        q.sim = s ∧ q.origin = t.oAt i ∧ q.reserve = .fin (R i ω)) ∧
      ∀ I : Finset ℕ, (∀ i ∈ I, 0 < i ∧ i < n) → I.Nonempty → ¬ Integrable (fun ω => ∑ i ∈ I, R i ω) μ := by
  let rt : ℕ → ℕ → ℝ := fun i j => √(Spec.startIncr v i j)
  let F : ℕ → ℕ → (ℕ → ℝ) → ℝ := fun i j z => Spec.simIncr t n (Spec.simCum n (Spec.startIncr v) rt z) s i j
  have hF : ∀ i < n, ∀ j, Measurable (F i j) ∧ Spec.Local (obsSet n s) (F i j) := by
    intro i hi j
    obtain ⟨F', hF', lF', hFs⟩ := incr_fun (t := t) (v := v) (s := s) hi
    have : F i j = F' j := by
      funext z
      rw [hFs]
    rw [this]
    exact ⟨hF' j, lF' j⟩
  refine ⟨fun i ω => ∑ j ∈ Finset.Ico (n - i) n, G (seed (cellPos n s i j) ω)
    (|F i j (fun p => Z (seed p ω))| / b) b * (if 0 < F i j (fun p => Z (seed p ω)) then 1 else -1), ?_, ?_⟩
  · intro i h0 hi ω
    have hsim := bootSims_stair' (S := S) ht (by omega) (by omega) hm ho hd (sq := Num.sqrt)
      (rt := rt) (fun i j hij => Num.sqrt_fin (startIncr_nonneg' hv hij))
      (draw := Spec.residOf Z seed ω) (fun _ _ => rfl) (scale := .fin b) (gam := Spec.gammaOf G seed ω) (by
        intro p _ y
        rw [abs_div_fin hb]; rfl)
    have hfin : finD (Spec.residOf Z seed ω) = fun p => Z (seed p ω) := rfl
    rw [hfin] at hsim
    refine ⟨_, hsim.mem_reserves.2 ⟨s, i, hsS, hi, rfl⟩, rfl, rfl, ?_⟩
    rw [reserve_eq hi, if_neg h0.ne', label_one_sum ht h1 hi, sub_add_cancel]
    congr 1
    refine Finset.sum_congr rfl (fun j hj => ?_)
    rw [Finset.mem_Ico] at hj
    unfold Spec.finalIncr gamD
    rw [if_pos (by omega), abs_div_fin hb]
    rfl
  · intro I hI h0 hint
    refine forecast_no_mean (s := s) ht hn h1 (fun r k hrk => startIncr_nonneg' hv hrk) hf hl hx hne hs hZ hI h0 ?_
    let J := I.sigma (fun i => Finset.Ico (n - i) n)
    have hJ : ∀ q : J, q.1.1 < n ∧ n ≤ q.1.1 + q.1.2 ∧ q.1.2 < n := by
      intro q
      have := q.2
      rw [Finset.mem_sigma, Finset.mem_Ico] at this
      have := (hI _ this.1).2
      omega
    have P := process_sum hs hb hG (T := obsSet n s) (ι := J) (F := fun q e => F q.1.1 q.1.2 (fun p => Z (e p)))
      (fun q => (hF _ (hJ q).1 _).1.comp (measurable_pi_lambda _ (fun p => hZ.meas.comp (measurable_pi_apply p))))
      (fun q e e' he => (hF _ (hJ q).1 _).2 _ _ (fun p hp => by rw [he p hp]))
      (pos := fun q => cellPos n s q.1.1 q.1.2) (fun q => by
        rw [mem_obsSet]
        rintro ⟨r, k, hrk, e⟩
        have := hJ q
        obtain ⟨e1, e2⟩ := cellPos_inj this.2.2 (by omega) e
        omega) (by
        refine hint.congr (ae_of_all _ (fun ω => ?_))
        beta_reduce
        rw [Finset.sum_sigma', ← Finset.sum_coe_sort])
    refine P.congr (ae_of_all _ (fun ω => ?_))
    beta_reduce
    rw [Finset.sum_sigma']
    exact Finset.sum_coe_sort J (fun q => F q.1 q.2 (fun p => Z (seed p ω)))

/-- Standard error of the total of a run of `S` simulations. -/
theorem run_total (ht : Spec.Stair t n c) (hn : 0 < n) (hm : Spec.Stair m n v) (ho : m.origins = t.origins)
    (hd : m.devs = t.devs) (hv : ∀ i j, i + j < n → 0 < j → 0 ≤ v i j) (hb : 0 < b) (ω : Ω) {S : ℕ} (hS : 2 ≤ S) :
    (bootStdErr Num.sqrt t S (bootSims Num.sqrt t m (.fin b) S (Spec.residOf Z seed ω)
      (Spec.gammaOf G seed ω)).reserves)[n]? = some (.fin √(Spec.sampleVar S (fun s => ∑ i ∈ Finset.Ico 1 n,
        blockRes t n (Spec.startIncr v) (fun i j => √(Spec.startIncr v i j)) Z G b
          (fun p => seed (s * (n * n) + p) ω) i))) := by
  let rt : ℕ → ℕ → ℝ := fun i j => √(Spec.startIncr v i j)
  have hsim := bootSims_stair' (S := S) ht hn (by omega) hm ho hd (sq := Num.sqrt) (rt := rt)
    (fun i j hij => Num.sqrt_fin (startIncr_nonneg' hv hij))
    (draw := Spec.residOf Z seed ω) (fun _ _ => rfl) (scale := .fin b) (gam := Spec.gammaOf G seed ω) (by
      intro p _ y
      rw [abs_div_fin hb]; rfl)
  have htot : bootTotals S (bootSims Num.sqrt t m (.fin b) S (Spec.residOf Z seed ω) (Spec.gammaOf G seed ω)).reserves =
      (List.range S).map (fun s => .fin (∑ i ∈ Finset.Ico 1 n, blockRes t n (Spec.startIncr v) rt Z G b
        (fun p => seed (s * (n * n) + p) ω) i)) := by
    unfold bootTotals
    refine List.map_congr_left fun s hs => ?_
    rw [List.mem_range] at hs
    rw [hsim.reserves_sim hs, List.map_map]
    have : (List.range n).map (ResRow.reserve ∘ fun i => resRowAt t n (Spec.simCum n (Spec.startIncr v) rt
        (finD (Spec.residOf Z seed ω))) (gamD t n (Spec.simCum n (Spec.startIncr v) rt (finD (Spec.residOf Z seed ω)))
          (.fin b) (Spec.gammaOf G seed ω)) s i) = (List.range n).map
        (fun i => .fin (blockRes t n (Spec.startIncr v) rt Z G b (fun p => seed (s * (n * n) + p) ω) i)) :=
      List.map_congr_left fun i hi => by rw [Function.comp_apply, (block_row hb.ne' s ω i).2]
    rw [this, sumSkip_fin_range, Finset.range_eq_Ico, Finset.sum_eq_sum_Ico_succ_bot hn]
    congr 1
    have : blockRes t n (Spec.startIncr v) rt Z G b (fun p => seed (s * (n * n) + p) ω) 0 = 0 := by
      unfold blockRes; rw [if_pos rfl]
    rw [this, zero_add]
  have hlen : (t.origins.map (fun o => stdL Num.sqrt (((bootSims Num.sqrt t m (.fin b) S (Spec.residOf Z seed ω)
      (Spec.gammaOf G seed ω)).reserves.filter (fun r => decide (r.origin = o))).map ResRow.reserve))).length = n := by
    rw [List.length_map]; exact ht.nr
  unfold bootStdErr
  rw [List.getElem?_append_right (by rw [hlen]), hlen, Nat.sub_self, htot, stdL_range _ hS,
    Num.sqrt_fin (sampleVar_nonneg hS _)]
  rfl

/-- **C203**, the whole method: the parametric bootstrap of a positive triangle of at least three origins whose columns
do not shrink in total, whose last factor is not 1 and whose residuals are not all equal.  Almost surely, for every
bound and every number of simulations, there is a larger number of simulations with which the summary reports a reserve
beyond the bound, and one with which it reports a standard error beyond the bound: in every row but that of the oldest
origin, and in the row of the totals. -/
theorem C203_unbounded (gm : List (Num ℝ) → Num ℝ) (ht : Spec.Stair t n c) (hp : Spec.Positive n c) (hn : 3 ≤ n)
    (h1 : t.dAt 0 = 1) {fit : BootFit ℝ} (hf : bootFit Num.sqrt gm t t.a2aind0 = .ok fit)
    (hg : ∀ j, j + 1 < n → ∑ i ∈ Finset.range (n - 1 - j), c i j ≤ ∑ i ∈ Finset.range (n - 1 - j), c i (j + 1))
    (hlast : c 0 (n - 2) ≠ c 0 (n - 1)) {xs : List ℝ} (hxs : fit.sampling = xs.map Num.fin) {z z' : ℝ} (hz : z ∈ xs)
    (hz' : z' ∈ xs) (hzz : z ≠ z') (hb : 0 < b) (hsc : fit.scale = .fin b)
    (hs : Spec.Seeds μ seed) (hZ : Spec.Resid μ true xs Z seed) (hG : Spec.MeanDraws μ seed G b) :
    let run := fun S ω => (bootSims Num.sqrt t fit.fitIncr fit.scale S (Spec.residOf Z seed ω)
      (Spec.gammaOf G seed ω)).reserves
    let table := fun S ω => bootSummary t fit.ldfs (bootUltimates t (run S ω)) (bootReserves t (run S ω))
      (bootStdErr Num.sqrt t S (run S ω))
    ∀ᵐ ω ∂μ, ∀ k, 0 < k → k ≤ n → ∀ (B : ℝ) (S0 : ℕ),
      (∃ S ≥ S0, ∃ rows row x, table S ω = .ok rows ∧ rows[k]? = some row ∧ row.reserve = .fin x ∧ B < |x|) ∧
      (∃ S ≥ S0, ∃ rows row x, table S ω = .ok rows ∧ rows[k]? = some row ∧ row.stdErr = .fin x ∧ B < x) := by
  intro run table
  obtain ⟨fit', hf', hfs⟩ := bootFit_stair Num.sqrt gm ht hp hn
  obtain rfl : fit' = fit := by
    rw [hf] at hf'
    exact (Except.ok.inj hf').symm
  obtain ⟨f1, f2, -, -, -, f6⟩ := fit_incr hp (by omega) hg
  have hx2 : 2 ≤ xs.length := by
    match xs, hz, hz' with
    | [a], hz, hz' =>
      rw [List.mem_singleton] at hz hz'
      exact absurd (hz.trans hz'.symm) hzz
    | _ :: _ :: _, _, _ => simp
  have hx : xs ≠ [] := by rintro rfl; simp at hx2
  have hne : ∃ y ∈ xs, y ≠ Spec.meanList xs := by
    by_contra hall
    push Not at hall
    exact hzz ((hall z hz).trans (hall z' hz').symm)
  have hnn : 0 < n * n := Nat.mul_pos (by omega) (by omega)
  have hfirst : ∀ r, r < n → 0 < Spec.startIncr (Spec.incr (Spec.fitCum n c)) r 0 := by
    intro r hr
    rw [f2 r 0 (by omega)]
    unfold Spec.incr
    rw [if_pos rfl]
    exact fitCum_pos hp (by omega)
  have hlast' : 0 < Spec.startIncr (Spec.incr (Spec.fitCum n c)) 0 (n - 1) := by
    rw [f6]
    have := hg (n - 2) (by omega)
    rw [show n - 1 - (n - 2) = 1 by omega, Finset.sum_range_one, Finset.sum_range_one,
      show n - 2 + 1 = n - 1 by omega] at this
    have := this.lt_of_ne hlast
    linarith
  obtain ⟨R', q1, q2⟩ := C203_no_mean (s := 0) (S := 1) ht (by omega) h1 hfs.incr hfs.incr_origins hfs.incr_devs f1 hb
    hx2 hne hfirst hlast' hs hZ hG one_pos
  obtain ⟨w, hw⟩ : ∃ w, w = Spec.startIncr (Spec.incr (Spec.fitCum n c)) := ⟨_, rfl⟩
  obtain ⟨rt, hrt⟩ : ∃ rt : ℕ → ℕ → ℝ, rt = fun i j => √(Spec.startIncr (Spec.incr (Spec.fitCum n c)) i j) := ⟨_, rfl⟩
  have hRe : ∀ i, 0 < i → i < n → ∀ ω, R' i ω = blockRes t n w rt Z G b (fun p => seed p ω) i := by
    intro i h0 hi ω
    obtain ⟨q, hq, hq1, hq2, hq3⟩ := q1 i h0 hi ω
    have hsim := bootSims_stair' (S := 1) ht (by omega) (by omega) hfs.incr hfs.incr_origins hfs.incr_devs
      (sq := Num.sqrt) (rt := rt) (fun i j hij => by rw [hrt]; exact Num.sqrt_fin (startIncr_nonneg' f1 hij))
      (draw := Spec.residOf Z seed ω) (fun _ _ => rfl) (scale := .fin b) (gam := Spec.gammaOf G seed ω) (by
        intro p _ y
        rw [abs_div_fin hb]; rfl)
    obtain ⟨s', i', hs', hi', rfl⟩ := hsim.mem_reserves.1 hq
    obtain rfl : i' = i := ht.oAt_inj hi' (by omega) hq2
    obtain rfl : s' = 0 := by omega
    have hbr := (block_row (t := t) (n := n) (w := w) (rt := rt) (Z := Z) (G := G) (seed := seed) hb.ne' 0 ω i').2
    rw [← hw, hbr] at hq3
    have := Num.fin.inj hq3
    rw [← this]
    simp
  have hI : ∀ k, 0 < k → k ≤ n → ∃ I : Finset ℕ, (∀ i ∈ I, 0 < i ∧ i < n) ∧ I.Nonempty ∧
      (k < n → I = {k}) ∧ (k = n → I = Finset.Ico 1 n) := by
    intro k h0 hk
    rcases hk.lt_or_eq with h | rfl
    · exact ⟨{k}, by simp [h0, h], by simp, fun _ => rfl, by omega⟩
    · refine ⟨Finset.Ico 1 k, fun i hi => ?_, ⟨1, ?_⟩, by omega, fun _ => rfl⟩
      · rw [Finset.mem_Ico] at hi; omega
      · rw [Finset.mem_Ico]; omega
  -- neither reserves nor ultimates have a mean
  have lR : ∀ I : Finset ℕ, (∀ i ∈ I, 0 < i ∧ i < n) → I.Nonempty →
      (∀ᵐ ω ∂μ, ∀ κ : ℝ, ∀ s0 : ℕ, ∃ s ≥ s0, κ * s < |∑ i ∈ I, blockRes t n w rt Z G b
        (fun p => seed (s * (n * n) + p) ω) i|) ∧
      (∀ᵐ ω ∂μ, ∀ κ : ℝ, ∀ s0 : ℕ, ∃ s ≥ s0, κ * s < |∑ i ∈ I, blockUlt t n w rt Z G b
        (fun p => seed (s * (n * n) + p) ω) i|) := by
    intro I hI h0
    have hR : ¬ Integrable (fun ω => ∑ i ∈ I, blockRes t n w rt Z G b (fun p => seed p ω) i) μ := by
      intro hR
      refine q2 I hI h0 (hR.congr (ae_of_all _ (fun ω => ?_)))
      exact Finset.sum_congr rfl (fun i hi => (hRe i (hI i hi).1 (hI i hi).2 ω).symm)
    have hU : ¬ Integrable (fun ω => ∑ i ∈ I, blockUlt t n w rt Z G b (fun p => seed p ω) i) μ := by
      intro hU
      have hC : Integrable (fun ω => ∑ i ∈ I, Spec.resampled (Spec.incr (Spec.fitCum n c)) Z n 0 i (n - i)
          (fun p => seed p ω)) μ := by
        refine integrable_finsetSum _ (fun i hi => ?_)
        have hin := (hI i hi).2
        obtain ⟨m1, -, -⟩ := resampled_moments (n := n) (s := 0) (v := Spec.incr (Spec.fitCum n c)) hZ hs hx
          (fun _ => hx2) i (n - i) (fun k hk => startIncr_nonneg' f1 (by omega))
        exact m1.integrable (by norm_num)
      refine hR ((hU.sub hC).congr (ae_of_all _ (fun ω => ?_)))
      show _ - _ = ∑ i ∈ I, blockRes t n w rt Z G b (fun p => seed p ω) i
      rw [← Finset.sum_sub_distrib]
      refine Finset.sum_congr rfl (fun i hi => ?_)
      obtain ⟨i0, i1⟩ := hI i hi
      unfold blockRes
      rw [if_neg i0.ne']
      congr 1
      unfold Spec.resampled blockCum Spec.simCum
      rw [show n - 1 - i + 1 = n - i by omega, hw, hrt]
    exact ⟨block_large hs (F := fun e => ∑ i ∈ I, blockRes t n w rt Z G b e i)
      (Finset.measurable_fun_sum _ (fun i _ => blockRes_meas hZ.meas hG.meas i)) hnn
      (fun e e' h => Finset.sum_congr rfl (fun i hi => (block_congr h (hI i hi).2).2)) hR,
      block_large hs (F := fun e => ∑ i ∈ I, blockUlt t n w rt Z G b e i)
      (Finset.measurable_fun_sum _ (fun i _ => blockUlt_meas hZ.meas hG.meas i)) hnn
      (fun e e' h => Finset.sum_congr rfl (fun i hi => (block_congr h (hI i hi).2).1)) hU⟩
  have hall : ∀ᵐ ω ∂μ, ∀ k, 0 < k → k ≤ n → ∃ I : Finset ℕ, (∀ i ∈ I, 0 < i ∧ i < n) ∧
      (k < n → I = {k}) ∧ (k = n → I = Finset.Ico 1 n) ∧
      (∀ κ : ℝ, ∀ s0 : ℕ, ∃ s ≥ s0, κ * s < |∑ i ∈ I, blockRes t n w rt Z G b
        (fun p => seed (s * (n * n) + p) ω) i|) ∧
      (∀ κ : ℝ, ∀ s0 : ℕ, ∃ s ≥ s0, κ * s < |∑ i ∈ I, blockUlt t n w rt Z G b
        (fun p => seed (s * (n * n) + p) ω) i|) := by
    rw [ae_all_iff]
    intro k
    by_cases hk : 0 < k ∧ k ≤ n
    · obtain ⟨I, i1, i2, i3, i4⟩ := hI k hk.1 hk.2
      obtain ⟨a1, a2⟩ := lR I i1 i2
      filter_upwards [a1, a2] with ω h1 h2 _ _
      exact ⟨I, i1, i3, i4, h1, h2⟩
    · exact ae_of_all _ (fun ω h0 hkn => absurd ⟨h0, hkn⟩ hk)
  filter_upwards [hall] with ω hω k h0 hk B S0
  obtain ⟨I, hIn, hIk, hIt, hωR, hωU⟩ := hω k h0 hk
  have hcol := fun S (hS : 2 ≤ S) i (hi : i < n) (h0 : 0 < i) => run_columns (Z := Z) (G := G) (seed := seed) ht
    (by omega) hfs.incr hfs.incr_origins hfs.incr_devs f1 hb ω hS hi h0
  have htot := fun S (hS : 2 ≤ S) => run_total (Z := Z) (G := G) (seed := seed) ht (by omega) hfs.incr
    hfs.incr_origins hfs.incr_devs f1 hb ω hS
  rw [← hsc, ← hrt, ← hw] at hcol htot
  constructor
  · obtain ⟨S, hS, hlt⟩ := averages_large hωU (B + |∑ i ∈ I, c i (n - 1 - i)|) (max S0 2)
    have hS2 : 2 ≤ S := le_trans (le_max_right _ _) hS
    obtain ⟨rows, r', g1, g2, g3, g4, -⟩ := summary_reserves gm ht hp hn hf f1 hb hsc hS2 ω
      (Z := Z) (G := G) (seed := seed)
    have hr' : ∀ i ∈ I, r' i = (∑ s ∈ Finset.range S, blockUlt t n w rt Z G b
        (fun p => seed (s * (n * n) + p) ω) i) / S - c i (n - 1 - i) := by
      intro i hi
      obtain ⟨i0, i1⟩ := hIn i hi
      have := (hcol S hS2 i i1 i0).1
      rw [g2, List.getElem?_map, List.getElem?_range i1] at this
      exact Num.fin.inj (Option.some.inj this)
    have hrow : ∃ row, rows[k]? = some row ∧ row.reserve = .fin (∑ i ∈ I, r' i) := by
      rcases hk.lt_or_eq with h | h
      · obtain ⟨row, k1, k2⟩ := g4.1 k h
        exact ⟨row, k1, by rw [hIk h, Finset.sum_singleton]; exact k2⟩
      · obtain ⟨tot, k1, -, k2⟩ := g4.2
        refine ⟨tot, by rw [h]; exact k1, ?_⟩
        rw [hIt h, k2, Finset.range_eq_Ico, Finset.sum_eq_sum_Ico_succ_bot (by omega), g3, zero_add]
    obtain ⟨row, k1, k2⟩ := hrow
    refine ⟨S, le_trans (le_max_left _ _) hS, rows, row, _, g1, k1, k2, ?_⟩
    rw [Finset.sum_congr rfl hr', Finset.sum_sub_distrib, ← Finset.sum_div, Finset.sum_comm]
    have := abs_sub_abs_le_abs_sub ((∑ s ∈ Finset.range S, ∑ i ∈ I, blockUlt t n w rt Z G b
      (fun p => seed (s * (n * n) + p) ω) i) / (S : ℝ)) (∑ i ∈ I, c i (n - 1 - i))
    linarith
  · obtain ⟨S, hS, hlt⟩ := deviations_large hωR B (max S0 2)
    have hS2 : 2 ≤ S := le_trans (le_max_right _ _) hS
    obtain ⟨rows, r', g1, -, -, -, g5⟩ := summary_reserves gm ht hp hn hf f1 hb hsc hS2 ω
      (Z := Z) (G := G) (seed := seed)
    obtain ⟨row, k1, k2⟩ := g5 k hk
    refine ⟨S, le_trans (le_max_left _ _) hS, rows, row, _, g1, k1, ?_, hlt⟩
    rcases hk.lt_or_eq with h | h
    · have := (hcol S hS2 k h h0).2
      rw [k2] at this
      rw [hIk h]
      simp only [Finset.sum_singleton]
      exact Option.some.inj this
    · have := htot S hS2
      rw [← h, k2] at this
      rw [hIt h, ← h]
      exact Option.some.inj this

end

/-- Runs of the parametric bootstrap of the example report total reserves beyond a million, while `base_cl` reports
30000. -/
example : ∃ (Ω : Type) (_ : MeasurableSpace Ω) (P : Measure Ω) (fit : BootFit ℝ) (draw : Ω → ℕ → Num ℝ)
    (gam : Ω → ℕ → Num ℝ → Num ℝ → Num ℝ), IsProbabilityMeasure P ∧
    bootFit Num.sqrt (fun _ => .nan) (stairTri 3 biasVals) (stairTri 3 biasVals).a2aind0 = .ok fit ∧
    ∀ᵐ ω ∂P, ∃ S ≥ 1000, ∃ rows row x,
      bootSummary (stairTri 3 biasVals) fit.ldfs
        (bootUltimates (stairTri 3 biasVals) (bootSims Num.sqrt (stairTri 3 biasVals) fit.fitIncr fit.scale S (draw ω)
          (gam ω)).reserves)
        (bootReserves (stairTri 3 biasVals) (bootSims Num.sqrt (stairTri 3 biasVals) fit.fitIncr fit.scale S (draw ω)
          (gam ω)).reserves)
        (bootStdErr Num.sqrt (stairTri 3 biasVals) S (bootSims Num.sqrt (stairTri 3 biasVals) fit.fitIncr fit.scale S
          (draw ω) (gam ω)).reserves) = .ok rows ∧ rows[3]? = some row ∧ row.reserve = .fin x ∧ 1000000 < |x| := by
  obtain ⟨fit, q, b, hf, hq, hq1, hxs, hb, hsc, hcell⟩ := biasVals_fit (fun _ => .nan)
  obtain ⟨Ω, E, _, _, μ, _, seed, Z, G, hs, hZ, hG⟩ := exists_bootDraws true (xs := [-q, q, q, -q]) (by simp) (by simp)
  have h := C203_unbounded (fun _ => .nan) (stairTri_stair 3 biasVals) biasVals_pos (by norm_num)
    rfl hf biasVals_grow (by norm_num [biasVals]) hxs (z := -q) (z' := q) (by simp) (by simp) (by linarith) hb hsc hs hZ
    (hG b hb)
  refine ⟨Ω, _, μ, fit, fun ω => Spec.residOf Z seed ω, fun ω => Spec.gammaOf G seed ω, inferInstance, hf, ?_⟩
  filter_upwards [h] with ω hω
  exact (hω 3 (by norm_num) (by norm_num) 1000000 1000).1

end Trikit
