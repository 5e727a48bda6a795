import Verif.Props.BootBias
import Verif.DevConvex

/-!
# The mean of the simulated reserves of all origins

Reserves are convex functions of every resampled increment, so their mean is not less than the reserve of the mean
increments (C198, all origins).
-/

set_option linter.unusedSectionVars false

namespace Trikit

open MeasureTheory ProbabilityTheory Filter Topology

/-! ## Means of convex functions -/

theorem list_jensen {A : Set ℝ} {f g : ℝ → ℝ} (hf : ConvexOn ℝ A f) {xs : List ℝ} (hx : xs ≠ [])
    (hg : ∀ z ∈ xs, g z ∈ A) : f ((xs.map g).sum / xs.length) ≤ (xs.map (fun z => f (g z))).sum / xs.length := by
  have hl : (0 : ℝ) < xs.length := by
    have := List.length_pos_of_ne_nil hx
    exact_mod_cast this
  have h := hf.map_sum_le (t := Finset.univ) (w := fun _ : Fin xs.length => (xs.length : ℝ)⁻¹)
    (p := fun i => g (xs[i.1])) (fun _ _ => by positivity) (by simp [hl.ne']) (fun i _ => hg _ (List.getElem_mem _))
  simp only [smul_eq_mul, ← Finset.mul_sum] at h
  rw [Fin.sum_univ_fun_getElem xs g, Fin.sum_univ_fun_getElem xs (fun z => f (g z))] at h
  rwa [div_eq_inv_mul, div_eq_inv_mul]

theorem list_jensen_lt {A : Set ℝ} {f g : ℝ → ℝ} (hf : StrictConvexOn ℝ A f) {xs : List ℝ}
    (hg : ∀ z ∈ xs, g z ∈ A) {a b : ℝ} (ha : a ∈ xs) (hb : b ∈ xs) (hab : g a ≠ g b) :
    f ((xs.map g).sum / xs.length) < (xs.map (fun z => f (g z))).sum / xs.length := by
  have hl : (0 : ℝ) < xs.length := by
    have := List.length_pos_of_mem ha
    exact_mod_cast this
  obtain ⟨i, hi, rfl⟩ := List.getElem_of_mem ha
  obtain ⟨j, hj, rfl⟩ := List.getElem_of_mem hb
  have h := hf.map_sum_lt (t := Finset.univ) (w := fun _ : Fin xs.length => (xs.length : ℝ)⁻¹)
    (p := fun i => g (xs[i.1])) (fun _ _ => by positivity) (by simp [hl.ne']) (fun i _ => hg _ (List.getElem_mem _))
    (show ∃ j ∈ Finset.univ, ∃ k ∈ Finset.univ, _ from ⟨⟨i, hi⟩, Finset.mem_univ _, ⟨j, hj⟩, Finset.mem_univ _, hab⟩)
  simp only [smul_eq_mul, ← Finset.mul_sum] at h
  rw [Fin.sum_univ_fun_getElem xs g, Fin.sum_univ_fun_getElem xs (fun z => f (g z))] at h
  rwa [div_eq_inv_mul, div_eq_inv_mul]

section
variable {Ω E : Type} [MeasurableSpace Ω] [MeasurableSpace E] {μ : Measure Ω} [IsProbabilityMeasure μ]
variable {Z : E → ℝ} {seed : ℕ → Ω → E} {xs : List ℝ} {T : Finset ℕ} {H : (ℕ → ℝ) → ℝ}

theorem resid_mem (hs : Spec.Seeds μ seed) (hZ : Spec.Resid μ false xs Z seed) : ∀ᵐ ω ∂μ, ∀ p : ℕ, Z (seed p ω) ∈ xs := by
  rw [ae_all_iff]
  intro p
  have hl := hZ.all hs p
  have : ∀ᵐ x ∂(μ.map (fun ω => Z (seed p ω))), x ∈ xs := by
    rw [hl.map_eq]
    exact choiceLaw_mem
  exact ae_of_ae_map hl.aemeasurable this

theorem resid_meas (hs : Spec.Seeds μ seed) (hZ : Spec.Resid μ false xs Z seed) :
    Measurable (fun ω (p : ℕ) => Z (seed p ω)) := measurable_pi_lambda _ (fun p => hZ.meas.comp (hs.meas p))

theorem local_bound (lH : Spec.Local T H) (l : List ℝ) : ∃ C, ∀ e, (∀ q ∈ T, e q ∈ l) → ‖H e‖ ≤ C := by
  have h1 : {f : T → ℝ | ∀ p, f p ∈ (↑l.toFinset : Set ℝ)}.Finite := Set.Finite.pi' (fun _ => l.toFinset.finite_toSet)
  obtain ⟨C, hC⟩ := (h1.image (fun f => ‖H (fun p => if hp : p ∈ T then f ⟨p, hp⟩ else 0)‖)).bddAbove
  refine ⟨C, fun e he => ?_⟩
  have := hC ⟨fun p => e p, fun p => by simpa using he p p.2, rfl⟩
  rwa [lH e (fun p => if hp : p ∈ T then e p else 0) (fun p hp => by simp [hp])]

theorem local_integrable (hs : Spec.Seeds μ seed) (hZ : Spec.Resid μ false xs Z seed) (hm : Measurable H)
    (lH : Spec.Local T H) : Integrable (fun ω => H (fun p => Z (seed p ω))) μ := by
  obtain ⟨C, hC⟩ := local_bound lH xs
  refine Integrable.of_bound (hm.comp (resid_meas hs hZ)).aestronglyMeasurable C ?_
  filter_upwards [resid_mem hs hZ] with ω hω
  exact hC _ (fun q _ => hω q)

/-- Replacing one residual by a point where the function is not above its mean over the residuals does not raise the
mean. -/
theorem jensen_step (hs : Spec.Seeds μ seed) (hZ : Spec.Resid μ false xs Z seed) (hx : xs ≠ []) (hm : Measurable H)
    (lH : Spec.Local T H) {p : ℕ} {ρ : ℝ}
    (hc : ∀ e : ℕ → ℝ, (∀ q ∈ T, e q ∈ xs) →
      H (Function.update e p ρ) ≤ (xs.map (fun z => H (Function.update e p z))).sum / xs.length) :
    ∫ ω, H (Function.update (fun q => Z (seed q ω)) p ρ) ∂μ ≤ ∫ ω, H (fun q => Z (seed q ω)) ∂μ := by
  let w : (ℕ → E) → ℕ → ℝ := fun e q => if q ∈ T.erase p then Z (e q) else 0
  have hw : Measurable w := by
    refine measurable_pi_lambda _ (fun q => ?_)
    simp only [w]
    by_cases hq : q ∈ T.erase p
    · simp only [hq, if_true]; exact hZ.meas.comp (measurable_pi_apply q)
    · simp only [hq, if_false]; exact measurable_const
  have hind := indep_local hs (T := T.erase p) (U := {p})
    (Finset.disjoint_singleton_right.2 (Finset.notMem_erase p T)) (F := w) (H := fun e => Z (e p)) hw
    (hZ.meas.comp (measurable_pi_apply p)) (by
      intro e e' he
      funext q
      simp only [w]
      by_cases hq : q ∈ T.erase p
      · rw [if_pos hq, if_pos hq, he q hq]
      · rw [if_neg hq, if_neg hq]) (by
      intro e e' he
      simp only [he p (Finset.mem_singleton_self p)])
  let W : Ω → ℕ → ℝ := fun ω => w (fun q => seed q ω)
  have hW : Measurable W := hw.comp (measurable_pi_lambda _ hs.meas)
  have hζ : Measurable (fun ω => Z (seed p ω)) := hZ.meas.comp (hs.meas p)
  have hlaw : μ.map (fun ω => Z (seed p ω)) = Spec.choiceLaw xs := (hZ.all hs p).map_eq
  have hPc := choiceLaw_probability hx
  have hPW : IsProbabilityMeasure (μ.map W) := Measure.isProbabilityMeasure_map hW.aemeasurable
  have hmap : μ.map (fun ω => (W ω, Z (seed p ω))) = (μ.map W).prod (Spec.choiceLaw xs) := by
    rw [(indepFun_iff_map_prod_eq_prod_map_map hW.aemeasurable hζ.aemeasurable).1 hind, hlaw]
  have hK : Measurable (fun q : (ℕ → ℝ) × ℝ => H (Function.update q.1 p q.2)) := hm.comp measurable_update'
  have hloc : ∀ ω z, H (Function.update (W ω) p z) = H (Function.update (fun q => Z (seed q ω)) p z) := by
    intro ω z
    refine lH _ _ (fun q hq => ?_)
    by_cases hqp : q = p
    · subst hqp; simp
    · rw [Function.update_of_ne hqp, Function.update_of_ne hqp]
      simp only [W, w]
      rw [if_pos (Finset.mem_erase.2 ⟨hqp, hq⟩)]
  have hself : ∀ ω, H (Function.update (W ω) p (Z (seed p ω))) = H (fun q => Z (seed q ω)) := by
    intro ω
    rw [hloc, Function.update_eq_self]
  have hint : Integrable (fun q : (ℕ → ℝ) × ℝ => H (Function.update q.1 p q.2)) ((μ.map W).prod (Spec.choiceLaw xs)) := by
    rw [← hmap, integrable_map_measure hK.aestronglyMeasurable (hW.prodMk hζ).aemeasurable]
    exact (local_integrable hs hZ hm lH).congr (ae_of_all _ (fun ω => (hself ω).symm))
  have hin : ∀ u : ℕ → ℝ, ∫ z, H (Function.update u p z) ∂(Spec.choiceLaw xs) =
      (xs.map (fun z => H (Function.update u p z))).sum / xs.length :=
    fun u => (choiceLaw_integral xs hx (hm.comp (measurable_update u))).2
  have e1 : ∫ ω, H (fun q => Z (seed q ω)) ∂μ =
      ∫ ω, (xs.map (fun z => H (Function.update (W ω) p z))).sum / xs.length ∂μ := by
    have h1 : ∫ ω, H (fun q => Z (seed q ω)) ∂μ =
        ∫ q, H (Function.update q.1 p q.2) ∂((μ.map W).prod (Spec.choiceLaw xs)) := by
      rw [← hmap, integral_map (hW.prodMk hζ).aemeasurable hK.aestronglyMeasurable]
      simp only [hself]
    rw [h1, integral_prod _ hint, integral_map hW.aemeasurable hint.integral_prod_left.aestronglyMeasurable]
    simp only [hin]
  have i1 : Integrable (fun ω => (xs.map (fun z => H (Function.update (W ω) p z))).sum / xs.length) μ := by
    have := (integrable_map_measure hint.integral_prod_left.aestronglyMeasurable hW.aemeasurable).1 hint.integral_prod_left
    simpa only [Function.comp_def, hin] using this
  have i2 : Integrable (fun ω => H (Function.update (fun q => Z (seed q ω)) p ρ)) μ := by
    refine local_integrable (H := fun e => H (Function.update e p ρ)) (T := T) hs hZ
      (hm.comp (measurable_update'.comp (measurable_id.prodMk measurable_const))) ?_
    intro e e' he
    refine lH _ _ (fun q hq => ?_)
    by_cases hqp : q = p
    · subst hqp; simp
    · rw [Function.update_of_ne hqp, Function.update_of_ne hqp, he q hq]
  rw [e1]
  refine integral_mono_ae i2 i1 ?_
  filter_upwards [resid_mem hs hZ] with ω hω
  have := hc (fun q => Z (seed q ω)) (fun q _ => hω q)
  simp only [hloc]
  exact this

/-- Jensen's inequality one residual at a time. -/
theorem jensen_local (hs : Spec.Seeds μ seed) (hZ : Spec.Resid μ false xs Z seed) (hx : xs ≠ []) (hm : Measurable H)
    (lH : Spec.Local T H) {ρ : ℝ}
    (hc : ∀ p ∈ T, ∀ e : ℕ → ℝ, (∀ q ∈ T, e q ∈ ρ :: xs) →
      H (Function.update e p ρ) ≤ (xs.map (fun z => H (Function.update e p z))).sum / xs.length)
    {p0 : ℕ} (hp0 : p0 ∈ T) :
    (xs.map (fun z => H (Function.update (fun _ => ρ) p0 z))).sum / xs.length ≤ ∫ ω, H (fun q => Z (seed q ω)) ∂μ := by
  let rep : Finset ℕ → (ℕ → ℝ) → ℕ → ℝ := fun U e q => if q ∈ U then ρ else e q
  have hrep : ∀ U, Measurable (rep U) := by
    intro U
    refine measurable_pi_lambda _ (fun q => ?_)
    simp only [rep]
    by_cases hq : q ∈ U
    · simp only [hq, if_true]; exact measurable_const
    · simp only [hq, if_false]; exact measurable_pi_apply q
  have hlr : ∀ U, Spec.Local T (fun e => H (rep U e)) := by
    intro U e e' he
    refine lH _ _ (fun q hq => ?_)
    simp only [rep, he q hq]
  have main : ∀ U, U ⊆ T → ∫ ω, H (rep U (fun q => Z (seed q ω))) ∂μ ≤ ∫ ω, H (fun q => Z (seed q ω)) ∂μ := by
    intro U
    induction U using Finset.induction_on with
    | empty => intro _; simp [rep]
    | insert p U hp ih =>
      intro hU
      refine le_trans ?_ (ih (fun q hq => hU (Finset.mem_insert_of_mem hq)))
      have hcomm : ∀ (e : ℕ → ℝ) (z : ℝ), rep U (Function.update e p z) = Function.update (rep U e) p z := by
        intro e z
        funext q
        simp only [rep]
        by_cases hq : q = p
        · subst hq; simp [hp]
        · rw [Function.update_of_ne hq, Function.update_of_ne hq]
      have := jensen_step (ρ := ρ) (p := p) (H := fun e => H (rep U e)) hs hZ hx (hm.comp (hrep U)) (hlr U) (by
        intro e he
        simp only [hcomm]
        refine hc p (hU (Finset.mem_insert_self _ _)) (rep U e) (fun q hq => ?_)
        simp only [rep]
        split
        · exact List.mem_cons_self
        · exact List.mem_cons_of_mem _ (he q hq))
      refine le_trans (le_of_eq ?_) this
      congr 1
      funext ω
      congr 1
      funext q
      simp only [rep]
      by_cases hq : q = p
      · subst hq; simp [hp]
      · rw [Function.update_of_ne hq]
        simp only [Finset.mem_insert, hq, false_or]
  refine le_trans (le_of_eq ?_) (main (T.erase p0) (Finset.erase_subset _ _))
  have hg : Measurable (fun z => H (Function.update (fun _ => ρ) p0 z)) := hm.comp (measurable_update _)
  have hlaw : μ.map (fun ω => Z (seed p0 ω)) = Spec.choiceLaw xs := (hZ.all hs p0).map_eq
  rw [← (choiceLaw_integral xs hx hg).2, ← hlaw,
    integral_map (hZ.all hs p0).aemeasurable hg.aestronglyMeasurable]
  congr 1
  funext ω
  refine lH _ _ (fun q hq => ?_)
  simp only [rep]
  by_cases h : q = p0
  · subst h; simp
  · rw [Function.update_of_ne h, if_pos (Finset.mem_erase.2 ⟨h, hq⟩)]

end

/-! ## Reserves as functions of the residuals -/

section
variable {n s i r k : ℕ} {v : ℕ → ℕ → ℝ} {D D' : ℕ → ℕ → ℝ}

/-- Position of the draw of a cell. -/
def cellPos (n s r k : ℕ) : ℕ := s * (n * n) + (r * n + k)

theorem cellPos_inj {r k r' k' : ℕ} (hk : k < n) (hk' : k' < n) (h : cellPos n s r k = cellPos n s r' k') :
    r = r' ∧ k = k' := by
  have h1 : k + r * n = k' + r' * n := by unfold cellPos at h; omega
  have h2 : k = k' := by
    have := congrArg (· % n) h1
    simpa [Nat.add_mul_mod_self_right, Nat.mod_eq_of_lt hk, Nat.mod_eq_of_lt hk'] using this
  subst h2
  have h3 : r * n = r' * n := by omega
  exact ⟨Nat.eq_of_mul_eq_mul_right (by omega) h3, rfl⟩

/-- Positions of the draws of the observed cells. -/
def obsSet (n s : ℕ) : Finset ℕ :=
  (((Finset.range n) ×ˢ (Finset.range n)).filter (fun q => q.1 + q.2 < n)).image (fun q => cellPos n s q.1 q.2)

theorem mem_obsSet {p : ℕ} : p ∈ obsSet n s ↔ ∃ r k, r + k < n ∧ p = cellPos n s r k := by
  unfold obsSet
  simp only [Finset.mem_image, Finset.mem_filter, Finset.mem_product, Finset.mem_range, Prod.exists]
  constructor
  · rintro ⟨r, k, ⟨-, h⟩, rfl⟩; exact ⟨r, k, h, rfl⟩
  · rintro ⟨r, k, h, rfl⟩; exact ⟨r, k, ⟨⟨by omega, by omega⟩, h⟩, rfl⟩

/-- Resampled increments of the observed cells as a function of the residuals. -/
noncomputable def residIncr (v : ℕ → ℕ → ℝ) (n s : ℕ) (e : ℕ → ℝ) (r k : ℕ) : ℝ :=
  if r + k < n then Spec.startIncr v r k + e (cellPos n s r k) * √(Spec.startIncr v r k) else 0

theorem residIncr_update (e : ℕ → ℝ) (hrk : r + k < n) (z : ℝ) :
    residIncr v n s (Function.update e (cellPos n s r k) z) =
      repl (residIncr v n s e) r k (Spec.startIncr v r k + z * √(Spec.startIncr v r k)) := by
  funext a b
  unfold residIncr repl
  beta_reduce
  by_cases h : a = r ∧ b = k
  · obtain ⟨rfl, rfl⟩ := h
    rw [if_pos hrk, if_pos ⟨rfl, rfl⟩, Function.update_self]
  · rw [if_neg h]
    by_cases hab : a + b < n
    · rw [if_pos hab, if_pos hab, Function.update_of_ne]
      intro e
      exact h (cellPos_inj (by omega) (by omega) e)
    · rw [if_neg hab, if_neg hab]

theorem residIncr_local : Spec.Local (obsSet n s) (residIncr v n s) := by
  intro e e' he
  funext a b
  unfold residIncr
  split
  · rw [he _ (mem_obsSet.2 ⟨a, b, ‹_›, rfl⟩)]
  · rfl

theorem devCum_congr (h : ∀ a b, a + b < n → D a b = D' a b) {a b : ℕ} (hab : a + b < n) :
    Spec.devCum D a b = Spec.devCum D' a b :=
  Finset.sum_congr rfl (fun k hk => h a k (by rw [Finset.mem_range] at hk; omega))

theorem clReserve_congr (h : ∀ a b, a + b < n → D a b = D' a b) (hi : i < n) :
    Spec.clReserve n i D = Spec.clReserve n i D' := by
  unfold Spec.clReserve Spec.devFactor
  rw [devCum_congr h (by omega)]
  congr 2
  refine Finset.prod_congr rfl (fun j hj => ?_)
  rw [Finset.mem_Ico] at hj
  congr 1
  · exact Finset.sum_congr rfl (fun a ha => devCum_congr h (by rw [Finset.mem_range] at ha; omega))
  · exact Finset.sum_congr rfl (fun a ha => devCum_congr h (by rw [Finset.mem_range] at ha; omega))

theorem residReserve_meas : Measurable (fun e : ℕ → ℝ => Spec.clReserve n i (residIncr v n s e)) := by
  have h1 : ∀ a b, Measurable (fun e : ℕ → ℝ => residIncr v n s e a b) := by
    intro a b
    unfold residIncr
    by_cases h : a + b < n
    · simp only [h, if_true]
      exact ((measurable_pi_apply _).mul_const _).const_add _
    · simp only [h, if_false]
      exact measurable_const
  have h2 : ∀ a b, Measurable (fun e : ℕ → ℝ => Spec.devCum (residIncr v n s e) a b) := fun a b =>
    Finset.measurable_fun_sum _ (fun k _ => h1 a k)
  unfold Spec.clReserve Spec.devFactor
  refine (h2 _ _).mul (Measurable.sub_const ?_ _)
  refine Finset.measurable_fun_prod _ (fun j _ => Measurable.div ?_ ?_)
  · exact Finset.measurable_fun_sum _ (fun a _ => h2 a _)
  · exact Finset.measurable_fun_sum _ (fun a _ => h2 a _)

variable {t : Tri ℝ} {c : ℕ → ℕ → ℝ}

/-- Forecast increments of an origin add up to its chain ladder reserve. -/
theorem simIncr_reserve' (ht : Spec.Stair t n c) (h1 : t.dAt 0 = 1) (hi : i < n) (h0 : 0 < i) (z : ℕ → ℝ)
    (hne : ∀ j, j + 1 < n → ∑ r ∈ Finset.range (n - 1 - j), Spec.devCum (residIncr v n s z) r j ≠ 0) :
    ∑ j ∈ Finset.Ico (n - i) n, Spec.simIncr t n (Spec.simCum n (Spec.startIncr v)
      (fun i j => √(Spec.startIncr v i j)) z) s i j = Spec.clReserve n i (residIncr v n s z) := by
  set x := Spec.simCum n (Spec.startIncr v) (fun i j => √(Spec.startIncr v i j)) z with hx
  set D := residIncr v n s z with hD
  have hxD : ∀ a b, a + b < n → x s a b = Spec.devCum D a b := by
    intro a b hab
    rw [hx, hD]
    unfold Spec.simCum Spec.devCum residIncr cellPos
    refine Finset.sum_congr rfl (fun k hk => ?_)
    rw [if_pos (by rw [Finset.mem_range] at hk; omega)]
  have hd : ∀ j, 0 < j → j < n → t.dAt j ≠ 1 := by
    intro j hj hjn e
    have := ht.dAt_inj hjn (show 0 < n by omega) (by rw [e, h1])
    omega
  have e1 : ∀ j ∈ Finset.Ico (n - i) n, Spec.simIncr t n x s i j =
      Spec.simFull n x s i j - Spec.simFull n x s i (j - 1) := by
    intro j hj
    rw [Finset.mem_Ico] at hj
    unfold Spec.simIncr
    rw [if_neg (hd j (by omega) hj.2), if_neg (by omega), zero_add]
  rw [Finset.sum_congr rfl e1, Finset.sum_Ico_eq_sum_range, show n - (n - i) = i by omega]
  have e2 : ∀ m, Spec.simFull n x s i (n - i + m) - Spec.simFull n x s i (n - i + m - 1) =
      (fun m => Spec.simFull n x s i (n - 1 - i + m)) (m + 1) - (fun m => Spec.simFull n x s i (n - 1 - i + m)) m := by
    intro m
    simp only
    rw [show n - i + m - 1 = n - 1 - i + m by omega, show n - i + m = n - 1 - i + (m + 1) by omega]
  rw [Finset.sum_congr rfl (fun m _ => e2 m), Finset.sum_range_sub (fun m => Spec.simFull n x s i (n - 1 - i + m))]
  simp only [Nat.add_zero]
  rw [show n - 1 - i + i = n - 1 by omega]
  have hf : ∀ j, j + 1 < n → Spec.simLdf n x s j = some (Spec.devFactor n D j) := by
    intro j hj
    have hA : Spec.simA2 n x s j = ∑ r ∈ Finset.range (n - 1 - j), Spec.devCum D r j :=
      Finset.sum_congr rfl (fun r hr => hxD r j (by rw [Finset.mem_range] at hr; omega))
    have hB : Spec.simA1 n x s (j + 1) = ∑ r ∈ Finset.range (n - 1 - j), Spec.devCum D r (j + 1) := by
      unfold Spec.simA1
      rw [show n - (j + 1) = n - 1 - j by omega]
      exact Finset.sum_congr rfl (fun r hr => hxD r _ (by rw [Finset.mem_range] at hr; omega))
    unfold Spec.simLdf
    rw [hA, hB, if_neg (hne j hj)]
    rfl
  have f1 : Spec.simFull n x s i (n - 1 - i) = Spec.devCum D i (n - 1 - i) := by
    unfold Spec.simFull
    rw [if_pos (by omega), hxD i _ (by omega)]
  have f2 : Spec.simFull n x s i (n - 1) = Spec.devCum D i (n - 1 - i) *
      ∏ j ∈ Finset.Ico (n - 1 - i) (n - 1), Spec.devFactor n D j := by
    unfold Spec.simFull Spec.simProj
    rw [if_neg (by omega), hf (n - 1 - 1) (by omega), Option.isNone_some, if_neg (by simp), hxD i _ (by omega),
      show i + (n - 1) + 1 - n = i by omega, Finset.prod_Ico_eq_prod_range, show n - 1 - (n - 1 - i) = i by omega]
    congr 1
    refine Finset.prod_congr rfl (fun k hk => ?_)
    rw [Finset.mem_range] at hk
    rw [hf _ (by omega)]
    rfl
  rw [f1, f2]
  unfold Spec.clReserve
  ring

theorem simIncr_reserve (ht : Spec.Stair t n c) (h1 : t.dAt 0 = 1) (hi : i < n) (h0 : 0 < i) (z : ℕ → ℝ)
    (hpos : Spec.PosIncr n (residIncr v n s z)) :
    ∑ j ∈ Finset.Ico (n - i) n, Spec.simIncr t n (Spec.simCum n (Spec.startIncr v)
      (fun i j => √(Spec.startIncr v i j)) z) s i j = Spec.clReserve n i (residIncr v n s z) :=
  simIncr_reserve' ht h1 hi h0 z (fun j hj => (devSum_pos hpos (N := n - 1 - j) (j := j) (by omega) (by omega)).ne')

end

/-! ## C198 for all origins -/

section
variable {Ω E : Type} [MeasurableSpace Ω] [MeasurableSpace E] {μ : Measure Ω} [IsProbabilityMeasure μ]
variable {t m : Tri ℝ} {n S s : ℕ} {c v : ℕ → ℕ → ℝ} {Z : E → ℝ} {G : E → ℝ → ℝ → ℝ} {b : ℝ} {seed : ℕ → Ω → E}

theorem mean_affine {xs : List ℝ} (hx : xs ≠ []) (a d : ℝ) :
    (xs.map (fun z => a + z * d)).sum / xs.length = a + Spec.meanList xs * d := by
  have hl : (xs.length : ℝ) ≠ 0 := by
    have := List.length_pos_of_ne_nil hx
    exact_mod_cast this.ne'
  have : ∀ ys : List ℝ, (ys.map (fun z => a + z * d)).sum = ys.length * a + ys.sum * d := by
    intro ys
    induction ys with
    | nil => simp
    | cons y ys ih => simp only [List.map_cons, List.sum_cons, ih, List.length_cons]; push_cast; ring
  rw [this]
  unfold Spec.meanList
  field_simp

/-- Mean reserve of an origin before process error. -/
theorem reserve_jensen (hv : ∀ i j, i + j < n → 0 < j → 0 ≤ v i j) {xs : List ℝ} (hx : xs ≠ [])
    (hpos : ∀ r k, r + k < n → ∀ z ∈ xs, 0 < Spec.startIncr v r k + z * √(Spec.startIncr v r k))
    (hs : Spec.Seeds μ seed) (hZ : Spec.Resid μ false xs Z seed) {i : ℕ} (hi : i < n) (h0 : 0 < i) :
    Spec.clReserve n i (Spec.meanIncr v (Spec.meanList xs)) ≤
      ∫ ω, Spec.clReserve n i (residIncr v n s (fun p => Z (seed p ω))) ∂μ ∧
    (Spec.clReserve n i (Spec.meanIncr v (Spec.meanList xs)) =
      ∫ ω, Spec.clReserve n i (residIncr v n s (fun p => Z (seed p ω))) ∂μ ↔ ∀ z ∈ xs, z = Spec.meanList xs) := by
  set ρ := Spec.meanList xs with hρ
  have hl : (0 : ℝ) < xs.length := by
    have := List.length_pos_of_ne_nil hx
    exact_mod_cast this
  have hmean : ∀ r k, r + k < n → 0 < Spec.startIncr v r k + ρ * √(Spec.startIncr v r k) := by
    intro r k hrk
    rw [hρ, ← mean_affine hx]
    refine div_pos (List.sum_pos _ ?_ (by simpa using hx)) hl
    intro y hy
    rw [List.mem_map] at hy
    obtain ⟨z, hz, rfl⟩ := hy
    exact hpos r k hrk z hz
  have hall : ∀ r k, r + k < n → ∀ z ∈ ρ :: xs, 0 < Spec.startIncr v r k + z * √(Spec.startIncr v r k) := by
    intro r k hrk z hz
    rcases List.mem_cons.1 hz with rfl | hz
    · exact hmean r k hrk
    · exact hpos r k hrk z hz
  have hD : ∀ e : ℕ → ℝ, (∀ q ∈ obsSet n s, e q ∈ ρ :: xs) → Spec.PosIncr n (residIncr v n s e) := by
    intro e he r k hrk
    unfold residIncr
    rw [if_pos hrk]
    exact hall r k hrk _ (he _ (mem_obsSet.2 ⟨r, k, hrk, rfl⟩))
  have hconst : Spec.clReserve n i (Spec.meanIncr v ρ) = Spec.clReserve n i (residIncr v n s (fun _ => ρ)) := by
    refine clReserve_congr (fun a b hab => ?_) hi
    unfold Spec.meanIncr residIncr
    rw [if_pos hab]
  have hlow := jensen_local (H := fun e => Spec.clReserve n i (residIncr v n s e)) (T := obsSet n s) (ρ := ρ) hs hZ hx
    residReserve_meas (fun e e' he => by simp only [residIncr_local e e' he]) (by
      intro p hp e he
      obtain ⟨r, k, hrk, rfl⟩ := mem_obsSet.1 hp
      simp only [residIncr_update _ hrk]
      have := list_jensen (clReserve_convex (hD e he) hi hrk) hx
        (g := fun z => Spec.startIncr v r k + z * √(Spec.startIncr v r k)) (fun z hz => hpos r k hrk z hz)
      rwa [mean_affine hx] at this) (p0 := cellPos n s 0 0) (mem_obsSet.2 ⟨0, 0, by omega, rfl⟩)
  have h00 : (0 : ℕ) + 0 < n := by omega
  simp only [residIncr_update _ h00] at hlow
  have hself : repl (residIncr v n s (fun _ => ρ)) 0 0 (Spec.startIncr v 0 0 + ρ * √(Spec.startIncr v 0 0)) =
      residIncr v n s (fun _ => ρ) := by
    rw [← residIncr_update _ h00, Function.update_eq_self]
  have hDρ := hD (fun _ => ρ) (fun _ _ => List.mem_cons_self)
  have hle := list_jensen (clReserve_convex (r := 0) (k := 0) hDρ hi h00) hx
    (g := fun z => Spec.startIncr v 0 0 + z * √(Spec.startIncr v 0 0)) (fun z hz => hpos 0 0 h00 z hz)
  rw [mean_affine hx, ← hρ, hself] at hle
  rw [hconst]
  refine ⟨hle.trans hlow, ?_, ?_⟩
  · intro e
    by_contra hne
    push Not at hne
    obtain ⟨z, hz, hzρ⟩ := hne
    obtain ⟨y, hy, hyz⟩ : ∃ y ∈ xs, y ≠ z := by
      by_contra hall'
      push Not at hall'
      apply hzρ
      have hrep : xs = List.replicate xs.length z := List.eq_replicate_of_mem hall'
      rw [hρ]
      unfold Spec.meanList
      rw [eq_div_iff hl.ne']
      conv_rhs => rw [hrep, List.sum_replicate, nsmul_eq_mul]
      ring
    have ha : 0 < Spec.startIncr v 0 0 := by
      refine (startIncr_nonneg' hv h00).lt_of_ne (fun e0 => ?_)
      have := hpos 0 0 h00 z hz
      rw [← e0] at this
      simp at this
    have hlt := list_jensen_lt (clReserve_strict hDρ hi h0)
      (g := fun z => Spec.startIncr v 0 0 + z * √(Spec.startIncr v 0 0)) (fun z hz => hpos 0 0 h00 z hz) hy hz (by
        intro e1
        have h3 : y * √(Spec.startIncr v 0 0) = z * √(Spec.startIncr v 0 0) := add_left_cancel e1
        exact hyz (mul_right_cancel₀ (Real.sqrt_pos.2 ha).ne' h3))
    rw [mean_affine hx, ← hρ, hself] at hlt
    linarith
  · intro heq
    have : (fun ω => Spec.clReserve n i (residIncr v n s (fun p => Z (seed p ω)))) =ᵐ[μ]
        fun _ => Spec.clReserve n i (residIncr v n s (fun _ => ρ)) := by
      filter_upwards [resid_mem hs hZ] with ω hω
      congr 2
      funext p
      exact heq _ (hω p)
    rw [integral_congr_ae this, integral_const, probReal_univ, one_smul]

/-- Forecast increments as functions of the residuals of the observed cells. -/
theorem incr_fun {i : ℕ} (hi : i < n) : ∃ F : ℕ → (ℕ → ℝ) → ℝ, (∀ j, Measurable (F j)) ∧
    (∀ j, Spec.Local (obsSet n s) (F j)) ∧ ∀ j (z : ℕ → ℝ), F j z = Spec.simIncr t n
      (Spec.simCum n (Spec.startIncr v) (fun i j => √(Spec.startIncr v i j)) z) s i j := by
  let rt : ℕ → ℕ → ℝ := fun i j => √(Spec.startIncr v i j)
  refine ⟨fun j e => blockIncr t n (Spec.startIncr v) rt id (fun p => e (s * (n * n) + p)) i j, fun j => ?_,
    fun j e e' he => ?_, fun j z => ?_⟩
  · exact (blockIncr_meas (t := t) (n := n) (w := Spec.startIncr v) (rt := rt) measurable_id i j).comp
      (measurable_pi_lambda _ (fun p => measurable_pi_apply _))
  · refine simIncr_congr t (fun a b hab => ?_) hi j
    unfold blockCum Spec.simCum
    refine Finset.sum_congr rfl (fun k hk => ?_)
    rw [Finset.mem_range] at hk
    have := he _ (mem_obsSet.2 ⟨a, k, by omega, rfl⟩)
    unfold cellPos at this
    simp only [id, Nat.zero_mul, Nat.zero_add, this]
  · have hc : blockCum n (Spec.startIncr v) rt id (fun p => z (s * (n * n) + p)) =
        Spec.simCum n (Spec.startIncr v) rt z s := by
      funext a b
      unfold blockCum Spec.simCum
      refine Finset.sum_congr rfl (fun k _ => ?_)
      rw [Nat.zero_mul, Nat.zero_add]
      rfl
    beta_reduce
    unfold blockIncr
    rw [hc]
    rfl

/-- **C198**, all origins: for all staircases of at least two origins whose first development label is 1, all fitted
increments that are not negative after the first period, every positive scale, process variates that are not negative
and have mean shape times scale, and residuals drawn from a list with which all resampled increments are positive: the
simulated reserve of every origin but the oldest has a mean.  It is at least the chain ladder reserve of the mean
increments, and they agree exactly if all residuals of the list are equal. -/
theorem C198_all (ht : Spec.Stair t n c) (h1 : t.dAt 0 = 1) (hm : Spec.Stair m n v)
    (ho : m.origins = t.origins) (hd : m.devs = t.devs) (hv : ∀ i j, i + j < n → 0 < j → 0 ≤ v i j) (hb : 0 < b)
    {xs : List ℝ} (hx : xs ≠ [])
    (hpos : ∀ r k, r + k < n → ∀ z ∈ xs, 0 < Spec.startIncr v r k + z * √(Spec.startIncr v r k))
    (hs : Spec.Seeds μ seed) (hZ : Spec.Resid μ false xs Z seed) (hG : Spec.MeanDraws μ seed G b) (hsS : s < S)
    {i : ℕ} (hi : i < n) (h0 : 0 < i) :
    ∃ R : Ω → ℝ, (∀ ω, ∃ q ∈
        (bootSims Num.sqrt t m (.fin b) S (Spec.residOf Z seed ω) (Spec.gammaOf G seed ω)).reserves,
        q.sim = s ∧ q.origin = t.oAt i ∧ q.reserve = .fin (R ω)) ∧ Integrable R μ ∧
      Spec.clReserve n i (Spec.meanIncr v (Spec.meanList xs)) ≤ ∫ ω, R ω ∂μ ∧
      (Spec.clReserve n i (Spec.meanIncr v (Spec.meanList xs)) = ∫ ω, R ω ∂μ ↔ ∀ z ∈ xs, z = Spec.meanList xs) := by
  let rt : ℕ → ℕ → ℝ := fun i j => √(Spec.startIncr v i j)
  obtain ⟨F, hF, lF, hFs⟩ := incr_fun (t := t) (v := v) (s := s) hi
  let R : Ω → ℝ := fun ω => ∑ j ∈ Finset.Ico (n - i) n, G (seed (cellPos n s i j) ω)
    (|F j (fun p => Z (seed p ω))| / b) b * (if 0 < F j (fun p => Z (seed p ω)) then 1 else -1)
  have hproc : ∀ j ∈ Finset.Ico (n - i) n, Integrable (fun ω => G (seed (cellPos n s i j) ω)
      (|F j (fun p => Z (seed p ω))| / b) b * (if 0 < F j (fun p => Z (seed p ω)) then 1 else -1)) μ ∧
      ∫ ω, G (seed (cellPos n s i j) ω) (|F j (fun p => Z (seed p ω))| / b) b *
        (if 0 < F j (fun p => Z (seed p ω)) then 1 else -1) ∂μ = ∫ ω, F j (fun p => Z (seed p ω)) ∂μ := by
    intro j hj
    rw [Finset.mem_Ico] at hj
    have P := process_mean hs hb hG (F := fun e => F j (fun p => Z (e p))) (T := obsSet n s)
      ((hF j).comp (measurable_pi_lambda _ (fun p => hZ.meas.comp (measurable_pi_apply p))))
      (fun e e' he => lF j _ _ (fun p hp => by rw [he p hp])) (p := cellPos n s i j) (by
        rw [mem_obsSet]
        rintro ⟨r, k, hrk, e⟩
        obtain ⟨rfl, rfl⟩ := cellPos_inj (by omega) (by omega) e
        omega)
    exact ⟨P.1.2 (local_integrable hs hZ (hF j) (lF j)), P.2⟩
  have hRi : Integrable R μ := integrable_finsetSum _ (fun j hj => (hproc j hj).1)
  have hRm : ∫ ω, R ω ∂μ = ∫ ω, Spec.clReserve n i (residIncr v n s (fun p => Z (seed p ω))) ∂μ := by
    simp only [R]
    rw [integral_finsetSum _ (fun j hj => (hproc j hj).1), Finset.sum_congr rfl (fun j hj => (hproc j hj).2),
      ← integral_finsetSum _ (fun j _ => local_integrable hs hZ (hF j) (lF j))]
    refine integral_congr_ae ?_
    filter_upwards [resid_mem hs hZ] with ω hω
    simp only [hFs]
    refine simIncr_reserve ht h1 hi h0 _ (fun a b hab => ?_)
    unfold residIncr
    rw [if_pos hab]
    exact hpos a b hab _ (hω _)
  obtain ⟨j1, j2⟩ := reserve_jensen (s := s) hv hx hpos hs hZ hi h0
  refine ⟨R, fun ω => ?_, hRi, by rw [hRm]; exact j1, by rw [hRm]; exact j2⟩
  have hsim := bootSims_stair' (S := S) ht (by omega) (by omega) hm ho hd (sq := Num.sqrt)
    (rt := rt) (fun i j hij => Num.sqrt_fin (startIncr_nonneg' hv hij))
    (draw := Spec.residOf Z seed ω) (fun _ _ => rfl) (scale := .fin b) (gam := Spec.gammaOf G seed ω) (by
      intro p _ y
      rw [abs_div_fin hb]; rfl)
  have hfin : finD (Spec.residOf Z seed ω) = fun p => Z (seed p ω) := rfl
  rw [hfin] at hsim
  refine ⟨_, hsim.mem_reserves.2 ⟨s, i, hsS, hi, rfl⟩, rfl, rfl, ?_⟩
  rw [reserve_eq hi, if_neg h0.ne', label_one_sum ht h1 hi, sub_add_cancel]
  congr 1
  refine Finset.sum_congr rfl (fun j hj => ?_)
  rw [Finset.mem_Ico] at hj
  unfold Spec.finalIncr gamD
  rw [if_pos (by omega), abs_div_fin hb, hFs]
  rfl

/-- Chain ladder reserve of the fitted increments. -/
theorem clReserve_fit (hp : Spec.Positive n c) {i : ℕ} (hi : i < n) :
    Spec.clReserve n i (Spec.incr (Spec.fitCum n c)) =
      c i (n - 1 - i) * ∏ j ∈ Finset.Ico (n - 1 - i) (n - 1), Spec.wFactor n c j - c i (n - 1 - i) := by
  have hcum : ∀ a j, Spec.devCum (Spec.incr (Spec.fitCum n c)) a j = Spec.fitCum n c a j := fun a j => incr_sum _ _ _
  have hf : ∀ j, j + 1 < n → Spec.devFactor n (Spec.incr (Spec.fitCum n c)) j = Spec.wFactor n c j := by
    intro j hj
    unfold Spec.devFactor
    simp only [hcum]
    have hs : 0 < ∑ r ∈ Finset.range (n - 1 - j), Spec.fitCum n c r j :=
      Finset.sum_pos (fun r hr => fitCum_pos hp (by rw [Finset.mem_range] at hr; omega))
        ⟨0, by rw [Finset.mem_range]; omega⟩
    rw [div_eq_iff hs.ne', mul_comm, Finset.sum_mul]
    exact Finset.sum_congr rfl (fun r hr => fitCum_succ hp (by rw [Finset.mem_range] at hr; omega))
  unfold Spec.clReserve
  rw [hcum, fitCum_latest, Finset.prod_congr rfl (fun j hj => hf j (by rw [Finset.mem_Ico] at hj; omega))]
  ring

/-- **C198**, all origins of the whole method: the fit of a positive triangle of at least three origins whose columns do
not shrink in total.  When its residuals have mean 0 and all resampled increments are positive, the mean of the
simulated reserve of every origin but the oldest is larger than its chain ladder reserve. -/
theorem C198_all_bias (gm : List (Num ℝ) → Num ℝ) (ht : Spec.Stair t n c) (hp : Spec.Positive n c) (hn : 3 ≤ n)
    (h1 : t.dAt 0 = 1) {fit : BootFit ℝ} (hf : bootFit Num.sqrt gm t t.a2aind0 = .ok fit)
    (hg : ∀ j, j + 1 < n → ∑ i ∈ Finset.range (n - 1 - j), c i j ≤ ∑ i ∈ Finset.range (n - 1 - j), c i (j + 1))
    {xs : List ℝ} (hxs : fit.sampling = xs.map Num.fin) (hx : xs ≠ []) (hx0 : xs.sum = 0)
    (hpos : ∀ r k, r + k < n → ∀ x, fit.fitIncr.cell r k = .fin x → ∀ z ∈ xs, 0 < x + z * √x)
    (hb : 0 < b) (hsc : fit.scale = .fin b)
    (hs : Spec.Seeds μ seed) (hZ : Spec.Resid μ false xs Z seed) (hG : Spec.MeanDraws μ seed G b) (hsS : s < S)
    {i : ℕ} (hi : i < n) (h0 : 0 < i) :
    ∃ R : Ω → ℝ, (∀ ω, ∃ q ∈
        (bootSims Num.sqrt t fit.fitIncr fit.scale S (Spec.residOf Z seed ω) (Spec.gammaOf G seed ω)).reserves,
        q.sim = s ∧ q.origin = t.oAt i ∧ q.reserve = .fin (R ω)) ∧ Integrable R μ ∧
      c i (n - 1 - i) * ∏ j ∈ Finset.Ico (n - 1 - i) (n - 1), Spec.wFactor n c j - c i (n - 1 - i) < ∫ ω, R ω ∂μ := by
  obtain ⟨fit', hf', hfs⟩ := bootFit_stair Num.sqrt gm ht hp hn
  obtain rfl : fit' = fit := by
    rw [hf] at hf'
    exact (Except.ok.inj hf').symm
  obtain ⟨f1, f2, -, -, -, -⟩ := fit_incr hp (by omega) hg
  have hmean : Spec.meanList xs = 0 := by unfold Spec.meanList; rw [hx0, zero_div]
  obtain ⟨R, r1, r2, r3, r4⟩ := C198_all (s := s) (S := S) ht h1 hfs.incr hfs.incr_origins
    hfs.incr_devs f1 hb hx (by
      intro r k hrk z hz
      rw [f2 r k hrk]
      exact hpos r k hrk _ (hfs.incr.obs r k hrk) z hz) hs hZ hG hsS hi h0
  have hcl : Spec.clReserve n i (Spec.meanIncr (Spec.incr (Spec.fitCum n c)) (Spec.meanList xs)) =
      c i (n - 1 - i) * ∏ j ∈ Finset.Ico (n - 1 - i) (n - 1), Spec.wFactor n c j - c i (n - 1 - i) := by
    rw [← clReserve_fit hp hi]
    refine clReserve_congr (fun a b hab => ?_) hi
    unfold Spec.meanIncr
    rw [hmean, zero_mul, add_zero, f2 a b hab]
  rw [hcl] at r3 r4
  refine ⟨R, by rw [hsc]; exact r1, r2, r3.lt_of_ne (fun e => ?_)⟩
  obtain ⟨z, hz⟩ := List.exists_mem_of_ne_nil xs hx
  have hz0 := r4.1 e z hz
  rw [hmean] at hz0
  subst hz0
  have hmem : (Num.fin 0 : Num ℝ) ∈ fit'.sampling := by rw [hxs]; exact List.mem_map_of_mem hz
  rw [hfs.sampling] at hmem
  unfold samplingDist at hmem
  rw [List.mem_filter] at hmem
  have := hmem.2
  simp [Num.zero_def] at this

end

/-- The bootstrap of the example overstates the reserve of 20000 of the latest origin. -/
example : ∃ (Ω : Type) (_ : MeasurableSpace Ω) (P : Measure Ω) (fit : BootFit ℝ) (draw : Ω → ℕ → Num ℝ)
    (gam : Ω → ℕ → Num ℝ → Num ℝ → Num ℝ) (R : Ω → ℝ),
    bootFit Num.sqrt (fun _ => .nan) (stairTri 3 biasVals) (stairTri 3 biasVals).a2aind0 = .ok fit ∧
    (∀ ω, ∃ q ∈ (bootSims Num.sqrt (stairTri 3 biasVals) fit.fitIncr fit.scale 10 (draw ω) (gam ω)).reserves,
      q.sim = 7 ∧ q.origin = 2003 ∧ q.reserve = .fin (R ω)) ∧ Integrable R P ∧ 20000 < ∫ ω, R ω ∂P := by
  obtain ⟨fit, q, b, hf, hq, hq1, hxs, hb, hsc, hcell⟩ := biasVals_fit (fun _ => .nan)
  obtain ⟨Ω, E, _, _, μ, _, seed, Z, G, hs, hZ, hG⟩ := exists_bootDraws false (xs := [-q, q, q, -q]) (by simp) (by simp)
  obtain ⟨R, h1, h2, h3⟩ := C198_all_bias (s := 7) (S := 10) (i := 2) _ (stairTri_stair 3 biasVals) biasVals_pos
    (by norm_num) rfl hf biasVals_grow hxs (by simp) (by simp) (by
      intro r k hrk x hx z hz
      rw [hcell r k hrk] at hx
      obtain rfl := Num.fin.inj hx
      have h100 : √(10000 : ℝ) = 100 := by
        rw [show (10000 : ℝ) = 100 ^ 2 by norm_num]; exact Real.sqrt_sq (by norm_num)
      rw [h100]
      simp only [List.mem_cons, List.not_mem_nil, or_false] at hz
      rcases hz with rfl | rfl | rfl | rfl <;> linarith) hb hsc hs hZ (hG b hb) (by norm_num) (by norm_num) (by norm_num)
  refine ⟨Ω, _, μ, fit, _, _, R, hf, h1, h2, ?_⟩
  obtain ⟨w0, w1⟩ := biasVals_factors
  have : biasVals 2 (3 - 1 - 2) * ∏ j ∈ Finset.Ico (3 - 1 - 2) (3 - 1), Spec.wFactor 3 biasVals j -
      biasVals 2 (3 - 1 - 2) = 20000 := by
    norm_num [biasVals, Finset.prod_Ico_eq_prod_range, Finset.prod_range_succ, w0, w1]
  rw [this] at h3
  exact h3

end Trikit
