import Verif.Converge
import Verif.Props.BootSumm
import Verif.Props.BootKeys
import Verif.Props.Process
import Mathlib.Probability.Distributions.Uniform

/-!
# Long runs of the bootstrap (C126)

With growing numbers of simulations the reported ultimates, standard errors and quantiles settle at the mean, standard
deviation and quantile of the law of a single simulation.
-/

set_option linter.unusedSectionVars false

namespace Trikit

open MeasureTheory ProbabilityTheory Filter Topology

theorem Num.abs'_fin (x : ℝ) : (Num.fin x).abs' = .fin |x| := by
  show Num.fin (if x < 0 then -x else x) = _
  split
  · rename_i h
    rw [abs_of_neg h]
  · rename_i h
    rw [abs_of_nonneg (not_lt.1 h)]

section
variable {Ω E : Type}

/-! ## Specification -/

/-- Residual of position `p`: a function of the draw of that position. -/
def Spec.residOf (Z : E → ℝ) (seed : ℕ → Ω → E) (ω : Ω) (p : ℕ) : Num ℝ := .fin (Z (seed p ω))

/-- Gamma variate of position `p` with shape `a` and scale `b`: a function of the draw of that position and of the
parameters. -/
def Spec.gammaOf (G : E → ℝ → ℝ → ℝ) (seed : ℕ → Ω → E) (ω : Ω) (p : ℕ) : Num ℝ → Num ℝ → Num ℝ
  | .fin a, .fin b => .fin (G (seed p ω) a b)
  | _, _ => .nan

/-! ## One simulation as a function of its draws -/

/-- Simulated cumulative values. -/
noncomputable def blockCum (n : ℕ) (w rt : ℕ → ℕ → ℝ) (Z : E → ℝ) (e : ℕ → E) (i j : ℕ) : ℝ :=
  Spec.simCum n w rt (fun p => Z (e p)) 0 i j

/-- Simulated increments of the completed triangle. -/
noncomputable def blockIncr (t : Tri ℝ) (n : ℕ) (w rt : ℕ → ℕ → ℝ) (Z : E → ℝ) (e : ℕ → E) (i j : ℕ) : ℝ :=
  Spec.simIncr t n (fun _ => blockCum n w rt Z e) 0 i j

/-- Gamma variates of the forecast cells. -/
noncomputable def blockGam (t : Tri ℝ) (n : ℕ) (w rt : ℕ → ℕ → ℝ) (Z : E → ℝ) (G : E → ℝ → ℝ → ℝ) (b : ℝ) (e : ℕ → E)
    (i j : ℕ) : ℝ := G (e (i * n + j)) |blockIncr t n w rt Z e i j / b| b

noncomputable def blockFinal (t : Tri ℝ) (n : ℕ) (w rt : ℕ → ℕ → ℝ) (Z : E → ℝ) (G : E → ℝ → ℝ → ℝ) (b : ℝ) (e : ℕ → E)
    (i j : ℕ) : ℝ :=
  Spec.finalIncr t n (fun _ => blockCum n w rt Z e) (fun _ => blockGam t n w rt Z G b e) 0 i j

noncomputable def blockUlt (t : Tri ℝ) (n : ℕ) (w rt : ℕ → ℕ → ℝ) (Z : E → ℝ) (G : E → ℝ → ℝ → ℝ) (b : ℝ) (e : ℕ → E)
    (i : ℕ) : ℝ := ∑ k ∈ Finset.range n, blockFinal t n w rt Z G b e i k

noncomputable def blockRes (t : Tri ℝ) (n : ℕ) (w rt : ℕ → ℕ → ℝ) (Z : E → ℝ) (G : E → ℝ → ℝ → ℝ) (b : ℝ) (e : ℕ → E)
    (i : ℕ) : ℝ := if i = 0 then 0 else blockUlt t n w rt Z G b e i - blockCum n w rt Z e i (n - 1 - i)

variable {t : Tri ℝ} {n : ℕ} {w rt : ℕ → ℕ → ℝ} {Z : E → ℝ} {G : E → ℝ → ℝ → ℝ} {b : ℝ} {seed : ℕ → Ω → E}

theorem block_cum (s : ℕ) (ω : Ω) : Spec.simCum n w rt (finD (Spec.residOf Z seed ω)) s =
    blockCum n w rt Z (fun p => seed (s * (n * n) + p) ω) := by
  funext i j
  unfold blockCum Spec.simCum
  refine Finset.sum_congr rfl (fun k _ => ?_)
  rw [Nat.zero_mul, Nat.zero_add]
  rfl

theorem block_gam (hb : b ≠ 0) (s : ℕ) (ω : Ω) :
    gamD t n (Spec.simCum n w rt (finD (Spec.residOf Z seed ω))) (.fin b) (Spec.gammaOf G seed ω) s =
      blockGam t n w rt Z G b (fun p => seed (s * (n * n) + p) ω) := by
  funext i j
  unfold gamD blockGam blockIncr
  have hd : ∀ x : ℝ, Num.fin x / Num.fin b = Num.fin (x / b) := fun x => Num.fin_div _ _ hb
  rw [← block_cum, hd, Num.abs'_fin]
  rfl

theorem block_row (hb : b ≠ 0) (s : ℕ) (ω : Ω) (i : ℕ) :
    let r := resRowAt t n (Spec.simCum n w rt (finD (Spec.residOf Z seed ω)))
      (gamD t n (Spec.simCum n w rt (finD (Spec.residOf Z seed ω))) (.fin b) (Spec.gammaOf G seed ω)) s i
    r.ultimate = .fin (blockUlt t n w rt Z G b (fun p => seed (s * (n * n) + p) ω) i) ∧
    r.reserve = .fin (blockRes t n w rt Z G b (fun p => seed (s * (n * n) + p) ω) i) := by
  have h : ∀ k, Spec.finalIncr t n (Spec.simCum n w rt (finD (Spec.residOf Z seed ω)))
      (gamD t n (Spec.simCum n w rt (finD (Spec.residOf Z seed ω))) (.fin b) (Spec.gammaOf G seed ω)) s i k =
      blockFinal t n w rt Z G b (fun p => seed (s * (n * n) + p) ω) i k := by
    intro k
    unfold blockFinal
    rw [← block_gam hb, ← block_cum]
    rfl
  constructor
  · show Num.fin _ = _
    unfold blockUlt
    rw [Finset.sum_congr rfl (fun k _ => h k)]
  · show (if i = 0 then Num.fin (0 : ℝ) else .fin (_ - _)) = _
    unfold blockRes blockUlt
    rw [Finset.sum_congr rfl (fun k _ => h k), block_cum]
    split <;> rfl

/-! ### It depends on its own draws only -/

theorem blockCum_congr {e e' : ℕ → E} (h : ∀ p < n * n, e p = e' p) {i j : ℕ} (hij : i + j < n) :
    blockCum n w rt Z e i j = blockCum n w rt Z e' i j := by
  unfold blockCum Spec.simCum
  refine Finset.sum_congr rfl (fun k hk => ?_)
  rw [Finset.mem_range] at hk
  have := posLt (n := n) (S := 1) (s := 0) (i := i) (j := k) (by omega) (by omega) (by omega)
  dsimp only
  rw [h _ (by omega)]

theorem blockIncr_congr {e e' : ℕ → E} (h : ∀ p < n * n, e p = e' p) {i j : ℕ} (hi : i < n) :
    blockIncr t n w rt Z e i j = blockIncr t n w rt Z e' i j :=
  simIncr_congr t (x := fun _ => blockCum n w rt Z e) (y := fun _ => blockCum n w rt Z e') (s := 0)
    (fun _ _ hij => blockCum_congr h hij) hi j

theorem block_congr {e e' : ℕ → E} (h : ∀ p < n * n, e p = e' p) {i : ℕ} (hi : i < n) :
    blockUlt t n w rt Z G b e i = blockUlt t n w rt Z G b e' i ∧
    blockRes t n w rt Z G b e i = blockRes t n w rt Z G b e' i := by
  have h1 : blockUlt t n w rt Z G b e i = blockUlt t n w rt Z G b e' i := by
    unfold blockUlt
    refine Finset.sum_congr rfl (fun k hk => ?_)
    rw [Finset.mem_range] at hk
    have e1 := blockIncr_congr (t := t) (w := w) (rt := rt) (Z := Z) h (j := k) hi
    have := posLt (n := n) (S := 1) (s := 0) (i := i) (j := k) (by omega) (by omega) (by omega)
    have e2 : blockGam t n w rt Z G b e i k = blockGam t n w rt Z G b e' i k := by
      unfold blockGam
      rw [e1, h _ (by omega)]
    unfold blockFinal Spec.finalIncr
    dsimp only
    rw [e2]
    unfold blockIncr at e1
    rw [e1]
  refine ⟨h1, ?_⟩
  unfold blockRes
  rw [h1, blockCum_congr h (by omega : i + (n - 1 - i) < n)]

/-! ### It is measurable -/

variable [MeasurableSpace Ω] [MeasurableSpace E]

theorem blockCum_meas (hZ : Measurable Z) (i j : ℕ) : Measurable (fun e : ℕ → E => blockCum n w rt Z e i j) := by
  unfold blockCum Spec.simCum
  refine Finset.measurable_sum _ (fun k _ => ?_)
  exact ((hZ.comp (measurable_pi_apply _)).mul_const _).const_add _

theorem blockProj_meas (hZ : Measurable Z) (i j : ℕ) :
    Measurable (fun e : ℕ → E => Spec.simProj n (fun _ => blockCum n w rt Z e) 0 i j) := by
  have h2 : ∀ j, Measurable (fun e : ℕ → E => Spec.simA2 n (fun _ => blockCum n w rt Z e) 0 j) := by
    intro j
    exact Finset.measurable_sum _ (fun i _ => blockCum_meas hZ i j)
  have h1 : ∀ j, Measurable (fun e : ℕ → E => Spec.simA1 n (fun _ => blockCum n w rt Z e) 0 j) := by
    intro j
    exact Finset.measurable_sum _ (fun i _ => blockCum_meas hZ i j)
  have hs : ∀ j, MeasurableSet {e : ℕ → E | Spec.simA2 n (fun _ => blockCum n w rt Z e) 0 j = 0} :=
    fun j => measurableSet_eq_fun (h2 j) measurable_const
  have hget : ∀ j, Measurable (fun e : ℕ → E => (Spec.simLdf n (fun _ => blockCum n w rt Z e) 0 j).getD 1) := by
    intro j
    have : (fun e : ℕ → E => (Spec.simLdf n (fun _ => blockCum n w rt Z e) 0 j).getD 1) =
        fun e => if Spec.simA2 n (fun _ => blockCum n w rt Z e) 0 j = 0 then 1 else
          Spec.simA1 n (fun _ => blockCum n w rt Z e) 0 (j + 1) / Spec.simA2 n (fun _ => blockCum n w rt Z e) 0 j := by
      funext e
      unfold Spec.simLdf
      split <;> rfl
    rw [this]
    exact Measurable.ite (hs j) measurable_const ((h1 _).div (h2 _))
  have hnone : ∀ e : ℕ → E, ((Spec.simLdf n (fun _ => blockCum n w rt Z e) 0 (j - 1)).isNone = true) =
      (Spec.simA2 n (fun _ => blockCum n w rt Z e) 0 (j - 1) = 0) := by
    intro e
    unfold Spec.simLdf
    split <;> simp_all
  unfold Spec.simProj
  simp only [hnone]
  exact Measurable.ite (hs _) measurable_const
    ((blockCum_meas hZ _ _).mul (Finset.measurable_prod _ (fun k _ => hget _)))

theorem blockIncr_meas (hZ : Measurable Z) (i j : ℕ) : Measurable (fun e : ℕ → E => blockIncr t n w rt Z e i j) := by
  have hfull : ∀ j, Measurable (fun e : ℕ → E => Spec.simFull n (fun _ => blockCum n w rt Z e) 0 i j) := by
    intro j
    unfold Spec.simFull
    split
    · exact blockCum_meas hZ i j
    · exact blockProj_meas hZ i j
  unfold blockIncr Spec.simIncr
  apply Measurable.add
  · split
    · exact hfull j
    · exact measurable_const
  · split
    · exact measurable_const
    · exact (hfull _).sub (hfull _)

theorem blockGam_meas (hZ : Measurable Z) (hG : Measurable (fun q : E × ℝ => G q.1 q.2 b)) (i j : ℕ) :
    Measurable (fun e : ℕ → E => blockGam t n w rt Z G b e i j) := by
  unfold blockGam
  exact hG.comp ((measurable_pi_apply _).prodMk (continuous_abs.measurable.comp ((blockIncr_meas hZ i j).div_const b)))

theorem blockUlt_meas (hZ : Measurable Z) (hG : Measurable (fun q : E × ℝ => G q.1 q.2 b)) (i : ℕ) :
    Measurable (fun e : ℕ → E => blockUlt t n w rt Z G b e i) := by
  unfold blockUlt
  refine Finset.measurable_sum _ (fun k _ => ?_)
  unfold blockFinal Spec.finalIncr
  split
  · refine (blockGam_meas hZ hG i k).mul ?_
    exact Measurable.ite (measurableSet_lt measurable_const (blockIncr_meas hZ i k)) measurable_const measurable_const
  · exact blockIncr_meas hZ i k

theorem blockRes_meas (hZ : Measurable Z) (hG : Measurable (fun q : E × ℝ => G q.1 q.2 b)) (i : ℕ) :
    Measurable (fun e : ℕ → E => blockRes t n w rt Z G b e i) := by
  unfold blockRes
  split
  · exact measurable_const
  · exact (blockUlt_meas hZ hG i).sub (blockCum_meas hZ _ _)

/-! ### It has moments when the residuals are taken from a finite set -/

theorem block_finite (hf : (Set.range Z).Finite) (h : (ℕ → ℝ) → ℝ)
    (hc : ∀ e e' : ℕ → ℝ, (∀ p < n * n, e p = e' p) → h e = h e') :
    (Set.range (fun e : ℕ → E => h (fun p => Z (e p)))).Finite := by
  have h1 : {f : Fin (n * n) → ℝ | ∀ p, f p ∈ Set.range Z}.Finite := Set.Finite.pi' (fun _ => hf)
  refine (h1.image (fun f => h (fun p => if hp : p < n * n then f ⟨p, hp⟩ else 0))).subset ?_
  rintro _ ⟨e, rfl⟩
  refine ⟨fun p => Z (e p), fun p => ⟨_, rfl⟩, hc _ _ (fun p hp => ?_)⟩
  rw [dif_pos hp]

theorem finite_bound {α : Type} {f : α → ℝ} (h : (Set.range f).Finite) : ∃ C, ∀ x, ‖f x‖ ≤ C := by
  obtain ⟨C, hC⟩ := (h.image (fun y => ‖y‖)).bddAbove
  exact ⟨C, fun x => hC ⟨_, ⟨x, rfl⟩, rfl⟩⟩

theorem block_memLp {μ : Measure Ω} [IsProbabilityMeasure μ] (hs : Spec.Seeds μ seed) (hZ : Measurable Z)
    (hG : Measurable (fun q : E × ℝ => G q.1 q.2 b)) (hf : (Set.range Z).Finite)
    (h2 : ∀ a, 0 ≤ a → MemLp (fun ω => G (seed 0 ω) a b) 2 μ) {i : ℕ} (hi : i < n) :
    MemLp (fun ω => blockUlt t n w rt Z G b (fun p => seed p ω) i) 2 μ ∧
    MemLp (fun ω => blockRes t n w rt Z G b (fun p => seed p ω) i) 2 μ := by
  have hseq : Measurable (fun ω (p : ℕ) => seed p ω) := measurable_pi_lambda _ hs.meas
  have hsign : ∀ (f : (ℕ → E) → ℝ), Measurable f → (Set.range f).Finite →
      MemLp (fun ω => f (fun p => seed p ω)) 2 μ := by
    intro f hm hr
    obtain ⟨C, hC⟩ := finite_bound hr
    exact MemLp.of_bound (hm.comp hseq).aestronglyMeasurable C (ae_of_all _ (fun ω => hC _))
  have hincr : ∀ j, (Set.range (fun e : ℕ → E => blockIncr t n w rt Z e i j)).Finite := fun j =>
    block_finite hf (fun e => blockIncr t n w rt id e i j) (fun e e' h => blockIncr_congr h hi)
  have hG' : ∀ p a, 0 ≤ a → MemLp (fun ω => G (seed p ω) a b) 2 μ := by
    intro p a ha
    have hm : Measurable (fun x : E => G x a b) := hG.comp (measurable_id.prodMk measurable_const)
    have hid : IdentDistrib (seed p) (seed 0) μ μ := ⟨(hs.meas p).aemeasurable, (hs.meas 0).aemeasurable, hs.law p⟩
    exact (hid.comp hm).memLp_iff.2 (h2 a ha)
  have hgam : ∀ j, MemLp (fun ω => blockGam t n w rt Z G b (fun p => seed p ω) i j) 2 μ := by
    intro j
    have hfin := ((hincr j).image (fun x => |x / b|))
    refine MemLp.mono (memLp_finset_sum hfin.toFinset
      (f := fun a ω => ‖G (seed (i * n + j) ω) a b‖) (fun a ha => ?_))
      ((blockGam_meas hZ hG i j).comp hseq).aestronglyMeasurable (ae_of_all _ (fun ω => ?_))
    · obtain ⟨x, -, rfl⟩ := hfin.mem_toFinset.1 ha
      exact (hG' _ _ (abs_nonneg _)).norm
    · rw [Real.norm_of_nonneg (r := ∑ _ ∈ _, _) (Finset.sum_nonneg (fun _ _ => norm_nonneg _))]
      exact Finset.single_le_sum (f := fun a => ‖G (seed (i * n + j) ω) a b‖) (fun _ _ => norm_nonneg _)
        (hfin.mem_toFinset.2 ⟨_, ⟨_, rfl⟩, rfl⟩)
  have hult : MemLp (fun ω => blockUlt t n w rt Z G b (fun p => seed p ω) i) 2 μ := by
    unfold blockUlt
    refine memLp_finset_sum _ (fun k _ => ?_)
    unfold blockFinal Spec.finalIncr
    split
    · have hm : Measurable (fun e : ℕ → E => if 0 < blockIncr t n w rt Z e i k then (1 : ℝ) else -1) :=
        Measurable.ite (measurableSet_lt measurable_const (blockIncr_meas hZ i k)) measurable_const measurable_const
      refine MemLp.mono (hgam k) (((blockGam_meas hZ hG i k).comp hseq).mul (hm.comp hseq)).aestronglyMeasurable
        (ae_of_all _ (fun ω => ?_))
      rw [norm_mul]
      split <;> simp
    · exact hsign _ (blockIncr_meas hZ i k) (hincr k)
  refine ⟨hult, ?_⟩
  unfold blockRes
  split
  · exact memLp_const 0
  · exact hult.sub (hsign _ (blockCum_meas hZ _ _) (block_finite hf (fun e => blockCum n w rt id e i (n - 1 - i))
      (fun e e' h => blockCum_congr h (by omega))))

end

/-! ## The property -/

section
variable {Ω E : Type} [MeasurableSpace Ω] [MeasurableSpace E] {μ : Measure Ω} [IsProbabilityMeasure μ]
variable {t m : Tri ℝ} {n : ℕ} {c v : ℕ → ℕ → ℝ} {Z : E → ℝ} {G : E → ℝ → ℝ → ℝ} {b : ℝ} {seed : ℕ → Ω → E}

/-- Simulated reserves of an origin, or for index `n` of all origins together. -/
noncomputable def Spec.simulatedReserves (t : Tri ℝ) (n S : ℕ) (res : List (ResRow ℝ)) (k : ℕ) : List (Num ℝ) :=
  if k < n then (res.filter (fun r => decide (r.origin = t.oAt k))).map ResRow.reserve
  else (List.range S).map (fun s => ((res.filter (fun r => decide (r.sim = s))).map ResRow.reserve).sum)

/-- There are draws of any law for the positions of any number of simulations. -/
theorem exists_seeds (ν : Measure E) [IsProbabilityMeasure ν] :
    Spec.Seeds (Measure.infinitePi (fun _ : ℕ => ν)) (fun p (ω : ℕ → E) => ω p) ∧
    (Measure.infinitePi (fun _ : ℕ => ν)).map (fun ω : ℕ → E => ω 0) = ν := by
  have h : ∀ p, (Measure.infinitePi (fun _ : ℕ => ν)).map (fun ω : ℕ → E => ω p) = ν := fun p =>
    (measurePreserving_eval_infinitePi (fun _ : ℕ => ν) p).map_eq
  exact ⟨⟨fun p => measurable_pi_apply p, iIndepFun_infinitePi (X := fun _ => id) (fun _ => measurable_id),
    fun p => (h p).trans (h 0).symm⟩, h 0⟩

/-- **C126** (long runs of the bootstrap).  Fitted increments `v`, not negative after the first period, scale `b`, and
draws that are independent and of one law between the positions of the simulations; a residual and a gamma variate may
depend on the same draw.  There are numbers `R s k` and `U s i`, the same for every length of the run, such that a run of
`S` simulations has the reserves `R s k` (of the origins, and for `k = n` of all origins together) and the ultimates
`U s i`; every simulation has the law of the first one.  With `S` growing, almost surely
* the reported ultimate of an origin tends to the mean of its simulated ultimate, and the reported reserve to that mean
  less the latest value;
* the reported standard errors, the one of the total included, tend to the standard deviation of the simulated reserve;
* the reported quantiles, for every interpolation, tend to the quantile of the simulated reserve, where there is only one.
The moments that are asked for exist if residuals are taken from a finite set and the gamma variates have them. -/
theorem C126_runs {sq : Num ℝ → Num ℝ} (hsq : ∀ y : ℝ, 0 ≤ y → ∃ r, sq (.fin y) = .fin r)
    (ht : Spec.Stair t n c) (hn : 0 < n) (hm : Spec.Stair m n v) (ho : m.origins = t.origins) (hd : m.devs = t.devs)
    (hv : ∀ i j, i + j < n → 0 < j → 0 ≤ v i j) (hb0 : b ≠ 0)
    (hs : Spec.Seeds μ seed) (hZ : Measurable Z) (hG : Measurable (fun q : E × ℝ => G q.1 q.2 b)) :
    let run := fun S ω => (bootSims sq t m (.fin b) S (Spec.residOf Z seed ω) (Spec.gammaOf G seed ω)).reserves
    ∃ R U : ℕ → ℕ → Ω → ℝ,
      (∀ S, 0 < S → ∀ ω, ∀ k ≤ n, Spec.simulatedReserves t n S (run S ω) k =
        (List.range S).map (fun s => .fin (R s k ω))) ∧
      (∀ S, 0 < S → ∀ ω, ∀ i < n, ((run S ω).filter (fun r => decide (r.origin = t.oAt i))).map ResRow.ultimate =
        (List.range S).map (fun s => .fin (U s i ω))) ∧
      (∀ s, ∀ k ≤ n, IdentDistrib (R s k) (R 0 k) μ μ) ∧ (∀ s, ∀ i < n, IdentDistrib (U s i) (U 0 i) μ μ) ∧
      (∀ i < n, 0 < i → Integrable (U 0 i) μ → ∀ᵐ ω ∂μ, ∃ u : ℕ → ℝ,
        (∀ S, 0 < S → (bootUltimates t (run S ω))[i]? = some (.fin (u S)) ∧
          (bootReserves t (run S ω))[i]? = some (.fin (u S - c i (n - 1 - i)))) ∧
        Tendsto u atTop (𝓝 (∫ ω, U 0 i ω ∂μ))) ∧
      (∀ k ≤ n, MemLp (R 0 k) 2 μ → ∀ᵐ ω ∂μ, ∃ e : ℕ → ℝ,
        (∀ S, 2 ≤ S → (bootStdErr Num.sqrt t S (run S ω))[k]? = some (.fin (e S))) ∧
        Tendsto e atTop (𝓝 (Real.sqrt (variance (R 0 k) μ)))) ∧
      (∀ k ≤ n, ∀ (m : Interp) (q x : ℝ), 0 ≤ q → q ≤ 1 → Spec.IsQuantile μ (R 0 k) q x → ∀ᵐ ω ∂μ, ∃ y : ℕ → ℝ,
        (∀ S, 0 < S → percentile m (Spec.simulatedReserves t n S (run S ω) k) q = .fin (y S)) ∧
        Tendsto y atTop (𝓝 x)) ∧
      ((Set.range Z).Finite → (∀ a, 0 ≤ a → MemLp (fun ω => G (seed 0 ω) a b) 2 μ) →
        (∀ k ≤ n, MemLp (R 0 k) 2 μ) ∧ ∀ i < n, MemLp (U 0 i) 2 μ) := by
  intro run
  obtain ⟨rt, hrt⟩ := exists_roots (sq := sq) hsq hv
  set w := Spec.startIncr v with hw
  have hsim : ∀ S, 0 < S → ∀ ω, SimSpec t n S (Spec.simCum n w rt (finD (Spec.residOf Z seed ω)))
      (gamD t n (Spec.simCum n w rt (finD (Spec.residOf Z seed ω))) (.fin b) (Spec.gammaOf G seed ω))
      (bootSims sq t m (.fin b) S (Spec.residOf Z seed ω) (Spec.gammaOf G seed ω)) := by
    intro S hS ω
    refine bootSims_stair' ht hn hS hm ho hd hrt (fun p _ => rfl) (fun p _ y => ?_)
    rw [Num.fin_div _ _ hb0, Num.abs'_fin]
    rfl
  let blk : ℕ → Ω → ℕ → E := fun s ω p => seed (s * (n * n) + p) ω
  let R : ℕ → ℕ → Ω → ℝ := fun s k ω => if k < n then blockRes t n w rt Z G b (blk s ω) k else
    ∑ i ∈ Finset.range n, blockRes t n w rt Z G b (blk s ω) i
  let U : ℕ → ℕ → Ω → ℝ := fun s i ω => blockUlt t n w rt Z G b (blk s ω) i
  have hNN : 0 < n * n := Nat.mul_pos hn hn
  -- independence and laws
  have hRi : ∀ k ≤ n, Pairwise (Function.onFun (fun f g => IndepFun f g μ) (fun s => R s k)) ∧
      ∀ s, IdentDistrib (R s k) (R 0 k) μ μ := by
    intro k _
    have hF : Measurable (fun e : ℕ → E => if k < n then blockRes t n w rt Z G b e k else
        ∑ i ∈ Finset.range n, blockRes t n w rt Z G b e i) := by
      split
      · exact blockRes_meas hZ hG k
      · exact Finset.measurable_sum _ (fun i _ => blockRes_meas hZ hG i)
    refine ⟨hs.blockIndep hF hNN ?_, fun s => hs.blockLaw hF (n * n) s⟩
    intro e e' h
    split
    · rename_i hk
      exact (block_congr h hk).2
    · exact Finset.sum_congr rfl (fun i hi => (block_congr h (Finset.mem_range.1 hi)).2)
  have hUi : ∀ i < n, Pairwise (Function.onFun (fun f g => IndepFun f g μ) (fun s => U s i)) ∧
      ∀ s, IdentDistrib (U s i) (U 0 i) μ μ := by
    intro i hi
    have hF : Measurable (fun e : ℕ → E => blockUlt t n w rt Z G b e i) := blockUlt_meas hZ hG i
    exact ⟨hs.blockIndep hF hNN (fun e e' h => (block_congr h hi).1), fun s => hs.blockLaw hF (n * n) s⟩
  -- rows of the run
  have hres : ∀ S, 0 < S → ∀ ω, ∀ i < n, ((run S ω).filter (fun r => decide (r.origin = t.oAt i))).map ResRow.reserve =
      (List.range S).map (fun s => .fin (R s i ω)) := by
    intro S hS ω i hi
    rw [(hsim S hS ω).reserves_origin ht hi, List.map_map]
    refine List.map_congr_left (fun s _ => ?_)
    rw [Function.comp_apply, (block_row hb0 s ω i).2]
    simp only [R, if_pos hi, blk]
  have hult : ∀ S, 0 < S → ∀ ω, ∀ i < n, ((run S ω).filter (fun r => decide (r.origin = t.oAt i))).map ResRow.ultimate =
      (List.range S).map (fun s => .fin (U s i ω)) := by
    intro S hS ω i hi
    rw [(hsim S hS ω).reserves_origin ht hi, List.map_map]
    refine List.map_congr_left (fun s _ => ?_)
    rw [Function.comp_apply, (block_row hb0 s ω i).1]
  have hsimrow : ∀ S, 0 < S → ∀ ω, ∀ s < S, ((run S ω).filter (fun r => decide (r.sim = s))).map ResRow.reserve =
      (List.range n).map (fun i => .fin (R s i ω)) := by
    intro S hS ω s hs'
    rw [(hsim S hS ω).reserves_sim hs', List.map_map]
    refine List.map_congr_left (fun i hi => ?_)
    rw [Function.comp_apply, (block_row hb0 s ω i).2]
    simp only [R, if_pos (List.mem_range.1 hi), blk]
  have hRn : ∀ s ω, R s n ω = ∑ i ∈ Finset.range n, R s i ω := by
    intro s ω
    simp only [R, lt_irrefl, if_false]
    refine Finset.sum_congr rfl (fun i hi => ?_)
    rw [if_pos (Finset.mem_range.1 hi)]
  have htot : ∀ S, 0 < S → ∀ ω, bootTotals S (run S ω) = (List.range S).map (fun s => .fin (R s n ω)) := by
    intro S hS ω
    unfold bootTotals
    refine List.map_congr_left (fun s hs' => ?_)
    rw [hsimrow S hS ω s (List.mem_range.1 hs'), sumSkip_fin_range, hRn]
  have hrow : ∀ S, 0 < S → ∀ ω, ∀ k ≤ n, Spec.simulatedReserves t n S (run S ω) k =
      (List.range S).map (fun s => .fin (R s k ω)) := by
    intro S hS ω k hk
    unfold Spec.simulatedReserves
    split
    · rename_i hk'
      exact hres S hS ω k hk'
    · obtain rfl : k = n := by omega
      refine List.map_congr_left (fun s hs' => ?_)
      rw [hsimrow S hS ω s (List.mem_range.1 hs'), sum_fin_range, hRn]
  refine ⟨R, U, hrow, hult, fun s k hk => (hRi k hk).2 s, fun s i hi => (hUi i hi).2 s, ?_, ?_, ?_, ?_⟩
  · intro i hi hi0 hint
    filter_upwards [lim_mean (hUi i hi).1 (hUi i hi).2 hint] with ω hω
    refine ⟨fun S => (∑ s ∈ Finset.range S, U s i ω) / S, fun S hS => ?_, hω⟩
    have e1 : (bootUltimates t (run S ω))[i]? = some (.fin ((∑ s ∈ Finset.range S, U s i ω) / S)) := by
      unfold bootUltimates
      rw [List.getElem?_map, List.getElem?_range (by rw [ht.nr]; exact hi), Option.map_some, if_neg (by omega), hult S hS ω i hi,
        meanSkip_range _ hS]
    refine ⟨e1, ?_⟩
    unfold bootReserves
    rw [List.getElem?_zipWith, e1, List.getElem?_range (by rw [ht.nr]; exact hi)]
    show some (Num.fin _ - Ser.get t.latestByOrigin (t.oAt i)) = _
    rw [ht.latest_get hi]
    rfl
  · intro k hk hL
    filter_upwards [lim_sd (hRi k hk).1 (hRi k hk).2 hL] with ω hω
    refine ⟨fun S => Real.sqrt (Spec.sampleVar S (fun s => R s k ω)), fun S hS => ?_, hω⟩
    have e : ∀ k, stdL Num.sqrt ((List.range S).map (fun s => Num.fin (R s k ω))) =
        .fin (Real.sqrt (Spec.sampleVar S (fun s => R s k ω))) := by
      intro k
      rw [stdL_range _ hS, Num.sqrt_fin (sampleVar_nonneg hS _)]
    have hlen : (t.origins.map (fun o => stdL Num.sqrt (((run S ω).filter (fun r => decide (r.origin = o))).map
        ResRow.reserve))).length = n := by
      rw [List.length_map]; exact ht.nr
    unfold bootStdErr
    by_cases hk' : k < n
    · rw [List.getElem?_append_left (by rw [hlen]; exact hk'), ← origins_map t, List.map_map, List.getElem?_map,
        List.getElem?_range (by rw [ht.nr]; exact hk'), Option.map_some, Function.comp_apply,
        hres S (by omega) ω k hk', e]
    · obtain rfl : k = n := by omega
      rw [List.getElem?_append_right (by rw [hlen]), hlen, Nat.sub_self, htot S (by omega), e]
      rfl
  · intro k hk m q x h0 h1 hq
    filter_upwards [lim_quantile (hRi k hk).1 (hRi k hk).2 h0 h1 hq m] with ω hω
    exact ⟨_, fun S hS => by rw [hrow S hS ω k hk, percentile_range m _ h0 h1 hS], hω⟩
  · intro hZf h2
    have hu : ∀ i < n, MemLp (U 0 i) 2 μ ∧ MemLp (R 0 i) 2 μ := by
      intro i hi
      have h := block_memLp (t := t) (w := w) (rt := rt) hs hZ hG hZf h2 hi
      simp only [U, R, blk, if_pos hi, Nat.zero_mul, Nat.zero_add]
      exact h
    refine ⟨fun k hk => ?_, fun i hi => (hu i hi).1⟩
    by_cases hk' : k < n
    · exact (hu k hk').2
    · obtain rfl : k = n := by omega
      have e : R 0 k = fun ω => ∑ i ∈ Finset.range k, R 0 i ω := funext (hRn 0)
      rw [e]
      exact memLp_finset_sum _ (fun i hi => (hu i (Finset.mem_range.1 hi)).2)

end

/-- The statement applies: a 3 x 3 triangle, residuals 1/2 and -1/2, variates half above or below their mean, every
position decided by a fair coin.  The reported standard error of the total and the reported reserves settle at numbers
that are the same for almost every stream of draws. -/
example : ∃ (Ω : Type) (_ : MeasurableSpace Ω) (P : Measure Ω) (_ : IsProbabilityMeasure P)
    (draw : Ω → ℕ → Num ℝ) (gam : Ω → ℕ → Num ℝ → Num ℝ → Num ℝ) (σ r : ℝ), ∀ᵐ ω ∂P, ∃ e q : ℕ → ℝ,
    (∀ S, 2 ≤ S → (bootStdErr Num.sqrt (stairTri 3 procVals) S (bootSims Num.sqrt (stairTri 3 procVals)
      (stairTri 3 procVals) (.fin 4) S (draw ω) (gam ω)).reserves)[3]? = some (.fin (e S)) ∧
      (bootReserves (stairTri 3 procVals) (bootSims Num.sqrt (stairTri 3 procVals)
      (stairTri 3 procVals) (.fin 4) S (draw ω) (gam ω)).reserves)[2]? = some (.fin (q S))) ∧
    Tendsto e atTop (𝓝 σ) ∧ Tendsto q atTop (𝓝 r) := by
  let Z : Bool → ℝ := fun x => if x then 1 / 2 else -(1 / 2)
  let G : Bool → ℝ → ℝ → ℝ := fun x a b => (a * b) * (if x then 3 / 2 else 1 / 2)
  have hG : Measurable (fun q : Bool × ℝ => G q.1 q.2 4) :=
    (measurable_snd.mul_const _).mul ((measurable_of_finite (fun x : Bool => if x then (3 / 2 : ℝ) else 1 / 2)).comp
      measurable_fst)
  let ν := (PMF.uniformOfFintype Bool).toMeasure
  obtain ⟨hs, -⟩ := exists_seeds ν
  obtain ⟨R, U, -, -, -, -, h1, h2, -, h3⟩ := C126_runs (sq := Num.sqrt) (Z := Z) (G := G) (b := 4)
    (fun y hy => ⟨_, Num.sqrt_fin hy⟩) (stairTri_stair 3 procVals) (by norm_num) (stairTri_stair 3 procVals) rfl rfl
    (fun i j _ _ => by unfold procVals; positivity) (by norm_num) hs (measurable_of_finite Z) hG
  obtain ⟨m1, m2⟩ := h3 (Set.finite_range Z) (fun a _ => by
    refine MemLp.of_bound (Measurable.aestronglyMeasurable ?_) (|a * 4| * 2) (ae_of_all _ (fun ω => ?_))
    · exact (measurable_of_finite (fun x : Bool => G x a 4)).comp (measurable_pi_apply 0)
    · simp only [G]
      rw [norm_mul, Real.norm_eq_abs]
      refine mul_le_mul_of_nonneg_left ?_ (abs_nonneg _)
      split <;> norm_num)
  refine ⟨ℕ → Bool, inferInstance, Measure.infinitePi (fun _ => ν), inferInstance,
    fun ω => Spec.residOf Z (fun p ω => ω p) ω, fun ω => Spec.gammaOf G (fun p ω => ω p) ω,
    Real.sqrt (variance (R 0 3) (Measure.infinitePi (fun _ => ν))),
    (∫ ω, U 0 2 ω ∂(Measure.infinitePi (fun _ => ν))) - procVals 2 (3 - 1 - 2), ?_⟩
  filter_upwards [h1 2 (by norm_num) (by norm_num) ((m2 2 (by norm_num)).integrable (by norm_num)),
    h2 3 le_rfl (m1 3 le_rfl)] with ω a b
  obtain ⟨u, u1, u2⟩ := a
  obtain ⟨e, e1, e2⟩ := b
  exact ⟨e, fun S => u S - procVals 2 (3 - 1 - 2), fun S hS => ⟨e1 S hS, (u1 S (by omega)).2⟩, e2, u2.sub_const _⟩

end Trikit
