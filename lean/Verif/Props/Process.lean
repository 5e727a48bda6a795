import Verif.GammaLaw
import Verif.Props.BootSim
import Verif.Props.Access
import Mathlib.Probability.HasLaw
import Mathlib.Probability.Independence.InfinitePi

/-! # Process error: parameters, mean and variance of the draws -/

set_option linter.unusedSectionVars false

open MeasureTheory ProbabilityTheory

namespace Trikit

section params
variable {K : Type} [Field K] [LinearOrder K] [IsStrictOrderedRing K]

/-- A value that `RandomState.gamma` accepts as shape or scale: a finite number that is not negative, or
infinity. -/
inductive Spec.Admissible : Num K → Prop
  | fin {x : K} : 0 ≤ x → Spec.Admissible (.fin x)
  | inf : Spec.Admissible .pinf

/-- The same, and not zero. -/
inductive Spec.PosNum : Num K → Prop
  | fin {x : K} : 0 < x → Spec.PosNum (.fin x)
  | inf : Spec.PosNum .pinf

theorem Spec.PosNum.admissible {a : Num K} (h : Spec.PosNum a) : Spec.Admissible a := by
  cases h with
  | fin h => exact .fin h.le
  | inf => exact .inf

theorem Spec.Admissible.add {a b : Num K} (ha : Spec.Admissible a) (hb : Spec.Admissible b) :
    Spec.Admissible (a + b) := by
  cases ha with
  | fin ha => cases hb with
    | fin hb => exact .fin (add_nonneg ha hb)
    | inf => exact .inf
  | inf => cases hb with
    | fin hb => exact .inf
    | inf => exact .inf

theorem Spec.PosNum.add_left {a b : Num K} (ha : Spec.PosNum a) (hb : Spec.Admissible b) :
    Spec.PosNum (a + b) := by
  cases ha with
  | fin ha => cases hb with
    | fin hb => exact .fin (add_pos_of_pos_of_nonneg ha hb)
    | inf => exact .inf
  | inf => cases hb with
    | fin hb => exact .inf
    | inf => exact .inf

theorem Spec.PosNum.add_right {a b : Num K} (ha : Spec.Admissible a) (hb : Spec.PosNum b) :
    Spec.PosNum (a + b) := by
  rw [add_comm]; exact hb.add_left ha

/-- Sums of admissible values, missing ones skipped. -/
theorem sumSkip_admissible {l : List (Num K)} (h : ∀ v ∈ l, v.isNaN = false → Spec.Admissible v) :
    Spec.Admissible (Num.sumSkip l) := by
  induction l with
  | nil => exact .fin le_rfl
  | cons a l ih =>
    rw [Num.sumSkip_cons]
    have h' := ih (fun v hv => h v (List.mem_cons_of_mem _ hv))
    split
    · exact h'
    · rename_i hn
      exact (h a (List.mem_cons_self) (by simpa using hn)).add h'

theorem sumSkip_pos {l : List (Num K)} (h : ∀ v ∈ l, v.isNaN = false → Spec.Admissible v)
    (hp : ∃ v ∈ l, Spec.PosNum v) : Spec.PosNum (Num.sumSkip l) := by
  induction l with
  | nil => obtain ⟨v, hv, -⟩ := hp; simp at hv
  | cons a l ih =>
    rw [Num.sumSkip_cons]
    have h' : ∀ v ∈ l, v.isNaN = false → Spec.Admissible v := fun v hv => h v (List.mem_cons_of_mem _ hv)
    obtain ⟨v, hv, hpv⟩ := hp
    rcases List.mem_cons.1 hv with rfl | hv
    · have hn : v.isNaN = false := by cases hpv <;> rfl
      rw [if_neg (by simp [hn])]
      exact hpv.add_left (sumSkip_admissible h')
    · have := ih h' ⟨v, hv, hpv⟩
      split
      · exact this
      · rename_i hn
        exact Spec.PosNum.add_right (h a (List.mem_cons_self) (by simpa using hn)) this

theorem pow_two_admissible {v : Num K} (h : v.isNaN = false) : Spec.Admissible (v.pow 2) := by
  cases v with
  | fin x => rw [Num.pow_fin]; exact .fin (sq_nonneg x)
  | nan => simp at h
  | pinf => exact .inf
  | ninf => exact .inf

theorem pow_two_pos {v : Num K} (h : v.isNaN = false) (h0 : Num.eqF v 0 = false) : Spec.PosNum (v.pow 2) := by
  cases v with
  | fin x =>
    rw [Num.pow_fin]
    rw [Num.zero_def, Num.eqF_fin, decide_eq_false_iff_not] at h0
    exact .fin (by positivity)
  | nan => simp at h
  | pinf => exact .inf
  | ninf => exact .inf

theorem pow_two_isNaN (v : Num K) : (v.pow 2).isNaN = v.isNaN := by
  cases v with
  | fin x => rw [Num.pow_fin]; rfl
  | nan => rfl
  | pinf => rfl
  | ninf => rfl

/-- Every column with an observed cell counts at least one. -/
theorem nc_le_nbrCells {t : Tri K} (hc : Spec.ColsObserved t) : t.nc ≤ t.nbrCells := by
  have h : ∀ x ∈ (List.range t.nc).map (fun j => ((t.col j).filter (fun v => !v.isNaN)).length), 1 ≤ x := by
    intro x hx
    rw [List.mem_map] at hx
    obtain ⟨j, hj, rfl⟩ := hx
    obtain ⟨i, hi, hij⟩ := hc j (List.mem_range.1 hj)
    apply List.length_pos_of_mem (a := t.cell i j)
    rw [List.mem_filter]
    refine ⟨?_, by simpa [Num.isNaN_false_iff] using hij⟩
    unfold Tri.col
    exact List.mem_map.2 ⟨i, List.mem_range.2 hi, rfl⟩
  have := List.card_nsmul_le_sum _ 1 h
  rw [List.length_map, List.length_range, smul_eq_mul, mul_one] at this
  exact this

/-- The degrees of freedom used by the bootstrap are positive. -/
theorem bootDof_pos {t : Tri K} (hc : Spec.ColsObserved t) : 0 < bootDof t := by
  have := nc_le_nbrCells hc
  unfold bootDof
  omega

theorem Spec.Admissible.div {a : Num K} {d : K} (ha : Spec.Admissible a) (hd : 0 < d) :
    Spec.Admissible (a / .fin d) := by
  cases ha with
  | fin ha => rw [Num.fin_div _ _ hd.ne']; exact .fin (div_nonneg ha hd.le)
  | inf =>
    show Spec.Admissible (if d < 0 then Num.ninf else Num.pinf)
    rw [if_neg (not_lt.2 hd.le)]; exact .inf

theorem Spec.PosNum.div {a : Num K} {d : K} (ha : Spec.PosNum a) (hd : 0 < d) :
    Spec.PosNum (a / .fin d) := by
  cases ha with
  | fin ha => rw [Num.fin_div _ _ hd.ne']; exact .fin (div_pos ha hd)
  | inf =>
    show Spec.PosNum (if d < 0 then Num.ninf else Num.pinf)
    rw [if_neg (not_lt.2 hd.le)]; exact .inf

theorem col_sq_admissible (r : Tri K) (j : ℕ) :
    Spec.Admissible (Num.sumSkip ((r.col j).map (fun v => v.pow 2))) := by
  apply sumSkip_admissible
  intro v hv hn
  rw [List.mem_map] at hv
  obtain ⟨w, -, rfl⟩ := hv
  rw [pow_two_isNaN] at hn
  exact pow_two_admissible hn

theorem mul_regular {a b : Num K} (h : (a * b).isNaN = false) (h0 : Num.eqF (a * b) 0 = false) :
    b.isNaN = false ∧ Num.eqF b 0 = false := by
  have hb : b.isNaN = false := by
    cases b with
    | nan => rw [Num.mul_nan] at h; exact h
    | _ => rfl
  refine ⟨hb, ?_⟩
  by_contra hz
  have hb0 : b = .fin 0 := by
    cases b with
    | fin x =>
      rw [Num.zero_def, Num.eqF_fin] at hz
      simp only [decide_eq_false_iff_not, not_not] at hz
      rw [hz]
    | nan => simp at hb
    | pinf => exact absurd rfl hz
    | ninf => exact absurd rfl hz
  subst hb0
  cases a with
  | fin x => rw [Num.fin_mul, mul_zero, Num.zero_def, Num.eqF_fin] at h0; simp at h0
  | nan => simp at h
  | pinf =>
    have : (Num.pinf * Num.fin 0 : Num K) = .nan := by
      show Num.infTimes 0 = _
      unfold Num.infTimes; rw [if_pos rfl]
    rw [this] at h; simp at h
  | ninf =>
    have : (Num.ninf * Num.fin 0 : Num K) = .nan := by
      show Num.infTimes (-0) = _
      unfold Num.infTimes; rw [neg_zero, if_pos rfl]
    rw [this] at h; simp at h

/-- **C112**, parameters, for every triangle without empty columns, all residuals and all increments:
the degrees of freedom are positive, the scale is never negative or missing, the shape never negative, so the
gamma generator accepts them.  Whenever there is a residual to sample from the scale is positive. -/
theorem C112_params {t r : Tri K} (hc : Spec.ColsObserved t) (sq : Num K → Num K) :
    0 < bootDof t ∧ Spec.Admissible (scaleParam t r) ∧
    (∀ x : Num K, (x / scaleParam t r).abs'.isNaN = false → Spec.Admissible (x / scaleParam t r).abs') ∧
    (samplingDist (residAdj sq t r) ≠ [] → Spec.PosNum (scaleParam t r)) := by
  have hd := bootDof_pos hc
  have hdK : (0 : K) < ((bootDof t : Int) : K) := Int.cast_pos.2 hd
  have hcols : ∀ v ∈ (List.range r.nc).map (fun j => Num.sumSkip ((r.col j).map (fun v => v.pow 2))),
      v.isNaN = false → Spec.Admissible v := by
    intro v hv _
    rw [List.mem_map] at hv
    obtain ⟨j, -, rfl⟩ := hv
    exact col_sq_admissible r j
  refine ⟨hd, (sumSkip_admissible hcols).div hdK, ?_, ?_⟩
  · intro x hx
    generalize x / scaleParam t r = y at hx
    cases y with
    | fin y =>
      show Spec.Admissible (.fin (if y < 0 then -y else y))
      refine .fin ?_
      split <;> linarith
    | nan => simp [Num.abs'] at hx
    | pinf => exact .inf
    | ninf => exact .inf
  · intro hne
    obtain ⟨v, hv⟩ := List.exists_mem_of_ne_nil _ hne
    unfold samplingDist at hv
    rw [List.mem_filter] at hv
    obtain ⟨hv, hreg⟩ := hv
    simp only [List.mem_flatMap, List.mem_map, List.mem_range] at hv
    obtain ⟨i, hi, j, hj, rfl⟩ := hv
    change i < r.nr - 1 at hi
    change j < r.nc - 1 at hj
    rw [Bool.and_eq_true, Bool.not_eq_true', Bool.not_eq_true'] at hreg
    obtain ⟨hr1, hr2⟩ := mul_regular hreg.1 hreg.2
    refine (sumSkip_pos hcols ⟨_, List.mem_map.2 ⟨j, List.mem_range.2 (by omega), rfl⟩, ?_⟩).div hdK
    refine sumSkip_pos ?_ ⟨_, List.mem_map.2 ⟨r.cell i j, ?_, rfl⟩, pow_two_pos hr1 hr2⟩
    · intro v hv hn
      rw [List.mem_map] at hv
      obtain ⟨w, -, rfl⟩ := hv
      rw [pow_two_isNaN] at hn
      exact pow_two_admissible hn
    · unfold Tri.col
      exact List.mem_map.2 ⟨i, List.mem_range.2 (by omega), rfl⟩

/-- **C112**, parameters of a run on any triangle that `totri` builds from a table without infinite values. -/
theorem C112_run {recs : List (Rec K)} {t ind : Tri K} (h : totriCum recs = .ok t) (ht : TameRecs recs)
    {sq : Num K → Num K} {gm : List (Num K) → Num K} {fit : BootFit K} (hf : bootFit sq gm t ind = .ok fit) :
    Spec.Admissible fit.scale ∧ (fit.sampling ≠ [] → Spec.PosNum fit.scale) := by
  have hw := (totriCum_wellBuilt h ht).cols
  unfold bootFit at hf
  simp only [bind, Except.bind] at hf
  split at hf
  · cases hf
  split at hf
  · cases hf
  split at hf
  · cases hf
  split at hf
  · cases hf
  injection hf with hf
  subst hf
  exact ⟨(C112_params hw sq).2.1, (C112_params hw sq).2.2.2⟩

end params

/-! ### mean and variance -/

section law
variable {Ω : Type} [MeasurableSpace Ω] {P : Measure Ω} [IsProbabilityMeasure P]

/-- Moments of plus or minus a gamma draw whose shape is `|x| / b`. -/
theorem signed_draw {x b : ℝ} (hb : 0 < b) {Y : Ω → ℝ} (hY : HasLaw Y (Spec.gammaLaw (|x| / b) b) P) :
    MemLp (fun ω => Y ω * (if 0 < x then 1 else -1)) 2 P ∧
    ∫ ω, Y ω * (if 0 < x then 1 else -1) ∂P = x ∧
    variance (fun ω => Y ω * (if 0 < x then 1 else -1)) P = |x| * b := by
  have ha : 0 ≤ |x| / b := by positivity
  have hi : ∀ k : ℕ, Integrable (fun ω => Y ω ^ k) P := by
    intro k
    have := gammaLaw_integrable ha hb k
    rw [← hY.map_eq] at this
    exact (integrable_map_measure (f := Y) (g := fun x : ℝ => x ^ k) (continuous_pow k).aestronglyMeasurable
      hY.aemeasurable).1 this
  have hm : ∫ ω, Y ω ∂P = |x| := by
    have := gammaLaw_mean ha hb
    rw [← hY.map_eq, integral_map hY.aemeasurable (by fun_prop)] at this
    rw [this]; field_simp
  have hm2 : ∫ ω, Y ω ^ 2 ∂P = |x| * (|x| + b) := by
    have := gammaLaw_sq ha hb
    rw [← hY.map_eq, integral_map hY.aemeasurable (by fun_prop)] at this
    rw [this]; field_simp
  have hL : MemLp Y 2 P := (memLp_two_iff_integrable_sq hY.aemeasurable.aestronglyMeasurable).2 (hi 2)
  have hsx : |x| * (if 0 < x then 1 else -1) = x := by
    split
    · rw [abs_of_pos ‹_›, mul_one]
    · rw [abs_of_nonpos (not_lt.1 ‹_›)]; ring
  have hs2 : ((if 0 < x then (1 : ℝ) else -1)) ^ 2 = 1 := by split <;> norm_num
  refine ⟨hL.mul_const _, ?_, ?_⟩
  · rw [integral_mul_const, hm, hsx]
  · rw [variance_mul_const, hs2, mul_one, variance_eq_sub hL]
    show ∫ ω, Y ω ^ 2 ∂P - (∫ ω, Y ω ∂P) ^ 2 = _
    rw [hm, hm2]
    ring

/-- Random gamma draws: row `p` with shape `a` and scale `b` gives `Y p a` with the gamma law. -/
structure Spec.GammaDraws (P : Measure Ω) (b : ℝ) (Y : ℕ → ℝ → Ω → ℝ)
    (gam : Ω → ℕ → Num ℝ → Num ℝ → Num ℝ) : Prop where
  law : ∀ p a, 0 ≤ a → HasLaw (Y p a) (Spec.gammaLaw a b) P
  draw : ∀ ω p a, 0 ≤ a → gam ω p (.fin a) (.fin b) = .fin (Y p a ω)

theorem abs_div_fin {x b : ℝ} (hb : 0 < b) : ((Num.fin x / Num.fin b).abs' : Num ℝ) = .fin (|x| / b) := by
  rw [Num.fin_div _ _ hb.ne']
  show Num.fin (if x / b < 0 then -(x / b) else x / b) = _
  congr 1
  rw [← abs_of_pos hb, ← abs_div]
  rw [abs_of_pos hb]
  split
  · rw [abs_of_neg ‹_›]
  · rw [abs_of_nonneg (not_lt.1 ‹_›)]

/-- **C112** For every triangle, all samples and factors and a positive scale: the process error of a
forecast increment `x` has mean `x` and variance `|x|` times the scale. -/
theorem C112_row (t : Tri ℝ) (samples : List (SampRow ℝ)) (ldfs : List (LdfRow ℝ)) {b : ℝ} (hb : 0 < b)
    {Y : ℕ → ℝ → Ω → ℝ} {gam : Ω → ℕ → Num ℝ → Num ℝ → Num ℝ} (hg : Spec.GammaDraws P b Y gam) {p : ℕ}
    {q : SqrdRow ℝ} (hq : (bsForecasts t samples ldfs)[p]? = some q) (hf : q.fcst = true) {x : ℝ}
    (hx : q.sampIncr = .fin x) :
    ∃ F : Ω → ℝ, (∀ ω, (bsProcess (.fin b) (gam ω) (bsForecasts t samples ldfs))[p]?.map
        (fun r => (r.base, r.finalIncr)) = some (q, .fin (F ω))) ∧
      MemLp F 2 P ∧ ∫ ω, F ω ∂P = x ∧ variance F P = |x| * b := by
  have hsign : ∀ r ∈ bsForecasts t samples ldfs,
      r.sign = if Num.lt 0 r.sampIncr then 1 else .fin (-1) := by
    intro r hr
    unfold bsForecasts at hr
    obtain ⟨a, -, b, -, rfl⟩ := mem_zipWith hr
    rfl
  have hs := hsign q (List.mem_of_getElem? hq)
  generalize bsForecasts t samples ldfs = rows at hq
  have ha : 0 ≤ |x| / b := by positivity
  refine ⟨fun ω => Y p (|x| / b) ω * (if 0 < x then 1 else -1), ?_, signed_draw hb (hg.law p _ ha)⟩
  intro ω
  unfold bsProcess
  simp only
  have hlen : p < rows.length := (List.getElem?_eq_some_iff.1 hq).1
  generalize hfin : rows.zipIdx.map (fun p : SqrdRow ℝ × ℕ =>
    (p.1, if p.1.fcst then gam ω p.2 (p.1.sampIncr / .fin b).abs' (.fin b) * p.1.sign else p.1.sampIncr)) = fin
  have hfp : fin[p]? = some (q, .fin (Y p (|x| / b) ω * (if 0 < x then 1 else -1))) := by
    rw [← hfin, List.getElem?_map, List.getElem?_zipIdx, hq]
    simp only [Option.map_some, zero_add, hf, if_true, hx, hs]
    rw [abs_div_fin hb, hg.draw ω p _ ha, Num.zero_def, Num.lt_fin]
    by_cases h0 : 0 < x
    · simp [h0, Num.one_def]
    · simp [h0]
  have hcl : (groupTransform (fun p : SqrdRow ℝ × Num ℝ => (p.1.sim, p.1.origin))
    (fun l => cumsumL (l.map Prod.snd)) fin).length = fin.length := groupTransform_length ..
  generalize groupTransform (fun p : SqrdRow ℝ × Num ℝ => (p.1.sim, p.1.origin))
    (fun l => cumsumL (l.map Prod.snd)) fin = cum at hcl
  have hpc : p < cum.length := by rw [hcl]; exact (List.getElem?_eq_some_iff.1 hfp).1
  rw [List.getElem?_zipWith, hfp, List.getElem?_eq_getElem hpc]
  rfl

/-- Draws of different rows are independent. -/
def Spec.IndepDraws (P : Measure Ω) (Y : ℕ → ℝ → Ω → ℝ) : Prop :=
  ∀ p q, p ≠ q → ∀ a a', IndepFun (Y p a) (Y q a') P

/-- The run in which every gamma draw is replaced by its mean, shape times scale. -/
noncomputable def Spec.meanGam : ℕ → Num ℝ → Num ℝ → Num ℝ := fun _ a b => a * b

variable {t m : Tri ℝ} {n S : ℕ} {c v : ℕ → ℕ → ℝ}

/-- **C113** For staircases without negative fitted increments after the first period, any labels, finite
residuals and a positive scale: the mean of a simulated reserve over the process error is the reserve of the
run without process error, and its variance is the scale times the sum of the absolute forecast increments
of that origin and simulation. -/
theorem C113_reserve {sq : Num ℝ → Num ℝ} (hsq : ∀ y : ℝ, 0 ≤ y → ∃ r, sq (.fin y) = .fin r)
    (ht : Spec.Stair t n c) (hn : 0 < n) (hS : 0 < S) (hm : Spec.Stair m n v)
    (ho : m.origins = t.origins) (hd : m.devs = t.devs) (hv : ∀ i j, i + j < n → 0 < j → 0 ≤ v i j)
    {draw : ℕ → Num ℝ} (hz : ∀ p < S * (n * n), (draw p).isFin = true) {b : ℝ} (hb : 0 < b)
    {Y : ℕ → ℝ → Ω → ℝ} {gam : Ω → ℕ → Num ℝ → Num ℝ → Num ℝ} (hg : Spec.GammaDraws P b Y gam)
    (hi : Spec.IndepDraws P Y) {s i : ℕ} (hs : s < S) (hi' : i < n) :
    ∃ (R : Ω → ℝ) (M V : ℝ),
      (∀ ω, ∃ q ∈ (bootSims sq t m (.fin b) S draw (gam ω)).reserves,
        q.sim = s ∧ q.origin = t.oAt i ∧ q.reserve = .fin (R ω)) ∧
      (∃ q ∈ (bootSims sq t m (.fin b) S draw Spec.meanGam).reserves,
        q.sim = s ∧ q.origin = t.oAt i ∧ q.reserve = .fin M) ∧
      Num.sumSkip (((bootSims sq t m (.fin b) S draw Spec.meanGam).forecasts.filter (fun q =>
        decide (q.sim = s) && decide (q.origin = t.oAt i) && q.fcst)).map (fun q => q.sampIncr.abs')) = .fin V ∧
      ∫ ω, R ω ∂P = M ∧ variance R P = V * b := by
  obtain ⟨rt, hrt⟩ := exists_roots (sq := sq) hsq hv
  have hpos : ∀ y : ℝ, 0 ≤ |y| / b := fun y => by positivity
  have h1 := fun ω => bootSims_stair' ht hn hS hm ho hd hrt hz (scale := .fin b) (gam := gam ω) (by
    intro p _ y
    rw [abs_div_fin hb, hg.draw ω p _ (hpos y)]; rfl)
  have h2 := bootSims_stair' ht hn hS hm ho hd hrt hz (scale := .fin b) (gam := Spec.meanGam) (by
    intro p _ y
    rw [abs_div_fin hb]; rfl)
  generalize Spec.simCum n (Spec.startIncr v) rt (finD draw) = x at h1 h2
  have hg1 : ∀ ω s i j, gamD t n x (.fin b) (gam ω) s i j =
      Y (s * (n * n) + (i * n + j)) (|Spec.simIncr t n x s i j| / b) ω := by
    intro ω s i j
    unfold gamD
    rw [abs_div_fin hb, hg.draw _ _ _ (hpos _)]; rfl
  have hg2 : ∀ s i j, gamD t n x (.fin b) Spec.meanGam s i j = |Spec.simIncr t n x s i j| := by
    intro s i j
    unfold gamD
    rw [abs_div_fin hb]
    show |Spec.simIncr t n x s i j| / b * b = _
    field_simp
  generalize bootSims sq t m (.fin b) S draw Spec.meanGam = B2 at h2
  -- one forecast cell
  have hcell : ∀ k ∈ Finset.Ico (n - i) n,
      MemLp (fun ω => Spec.finalIncr t n x (gamD t n x (.fin b) (gam ω)) s i k) 2 P ∧
      ∫ ω, Spec.finalIncr t n x (gamD t n x (.fin b) (gam ω)) s i k ∂P =
        Spec.finalIncr t n x (gamD t n x (.fin b) Spec.meanGam) s i k ∧
      variance (fun ω => Spec.finalIncr t n x (gamD t n x (.fin b) (gam ω)) s i k) P =
        |Spec.simIncr t n x s i k| * b := by
    intro k hk
    rw [Finset.mem_Ico] at hk
    unfold Spec.finalIncr
    simp only [if_pos (show n ≤ i + k by omega), hg1, hg2]
    obtain ⟨e1, e2, e3⟩ := signed_draw hb (hg.law (s * (n * n) + (i * n + k)) _ (hpos (Spec.simIncr t n x s i k)))
    refine ⟨e1, ?_, e3⟩
    rw [e2]
    split
    · rw [abs_of_pos ‹_›, mul_one]
    · rw [abs_of_nonpos (not_lt.1 ‹_›)]; ring
  have hind : Set.Pairwise (↑(Finset.Ico (n - i) n) : Set ℕ) fun k l =>
      IndepFun (fun ω => Spec.finalIncr t n x (gamD t n x (.fin b) (gam ω)) s i k)
        (fun ω => Spec.finalIncr t n x (gamD t n x (.fin b) (gam ω)) s i l) P := by
    intro k hk l hl hkl
    rw [Finset.mem_coe, Finset.mem_Ico] at hk hl
    unfold Spec.finalIncr
    simp only [if_pos (show n ≤ i + k by omega), if_pos (show n ≤ i + l by omega), hg1]
    exact (hi _ _ (by omega) _ _).comp (φ := fun y => y * (if 0 < Spec.simIncr t n x s i k then 1 else -1))
      (ψ := fun y => y * (if 0 < Spec.simIncr t n x s i l then 1 else -1)) (by fun_prop) (by fun_prop)
  -- the constant part
  generalize hC : (if i = 0 then (0 : ℝ) else - x s i 0 +
        ∑ k ∈ Finset.range (n - i), if t.dAt k = 1 then x s i k else 0) = C
  have hres : ∀ g : ℕ → ℕ → ℕ → ℝ, (resRowAt t n x g s i).reserve =
      .fin (C + ∑ k ∈ Finset.Ico (n - i) n, Spec.finalIncr t n x g s i k) := by
    intro g
    rw [reserve_eq hi', ← hC]
    congr 1
    split
    · next h0 =>
      subst h0
      simp
    · ring
  refine ⟨fun ω => C + ∑ k ∈ Finset.Ico (n - i) n, Spec.finalIncr t n x (gamD t n x (.fin b) (gam ω)) s i k,
    C + ∑ k ∈ Finset.Ico (n - i) n, Spec.finalIncr t n x (gamD t n x (.fin b) Spec.meanGam) s i k,
    ∑ k ∈ Finset.Ico (n - i) n, |Spec.simIncr t n x s i k|, ?_, ?_, ?_, ?_, ?_⟩
  · exact fun ω => ⟨_, (h1 ω).mem_reserves.2 ⟨s, i, hs, hi', rfl⟩, rfl, rfl, hres _⟩
  · exact ⟨_, h2.mem_reserves.2 ⟨s, i, hs, hi', rfl⟩, rfl, rfl, hres _⟩
  · have e : B2.forecasts.filter (fun q => decide (q.sim = s) && decide (q.origin = t.oAt i) && q.fcst) =
        (List.range (n - (n - i))).map (fun j => sqrdRowAt t n x s i (n - i + j)) := by
      rw [h2.forecasts, filter_flatMap_single hs, filter_flatMap_single' hi', filter_range_ge (k := n - i) (by omega)]
      · intro j hj
        simp only [sqrdRowAt, decide_true, Bool.true_and]
        congr 1
        apply propext
        omega
      · intro i' hlt hne q hq
        rw [List.mem_map] at hq
        obtain ⟨j, -, rfl⟩ := hq
        have : t.oAt i' ≠ t.oAt i := fun e => hne (ht.oAt_inj hlt hi' e)
        simp [sqrdRowAt, this]
      · intro s' hs' q hq
        simp only [List.mem_flatMap, List.mem_map] at hq
        obtain ⟨i, -, j, -, rfl⟩ := hq
        simp [sqrdRowAt, hs']
    rw [e, List.map_map]
    have e' : ∀ j, ((fun q : SqrdRow ℝ => q.sampIncr.abs') ∘ fun j => sqrdRowAt t n x s i (n - i + j)) j =
        Num.fin |Spec.simIncr t n x s i (n - i + j)| := by
      intro j
      show Num.fin (if Spec.simIncr t n x s i (n - i + j) < 0 then _ else _) = _
      congr 1
      split
      · rw [abs_of_neg ‹_›]
      · rw [abs_of_nonneg (not_lt.1 ‹_›)]
    rw [List.map_congr_left (fun j _ => e' j), sumSkip_fin_range, Finset.sum_Ico_eq_sum_range]
  · rw [integral_add (integrable_const C)
      (integrable_finsetSum _ (fun k hk => (hcell k hk).1.integrable (by norm_num))), integral_finsetSum _
      (fun k hk => (hcell k hk).1.integrable (by norm_num)), integral_const, probReal_univ, one_smul]
    congr 1
    exact Finset.sum_congr rfl (fun k hk => (hcell k hk).2.1)
  · rw [variance_const_add]
    · have := IndepFun.variance_sum (fun k hk => (hcell k hk).1) hind
      rw [Finset.sum_fn] at this
      rw [this, Finset.sum_mul]
      exact Finset.sum_congr rfl (fun k hk => (hcell k hk).2.2)
    · exact (memLp_finsetSum _ (fun k hk => (hcell k hk).1)).aestronglyMeasurable

end law

/-- Such draws exist: independent coordinates of a product of gamma laws. -/
theorem exists_gammaDraws {b : ℝ} (hb : 0 < b) :
    ∃ (Ω : Type) (_ : MeasurableSpace Ω) (P : Measure Ω) (_ : IsProbabilityMeasure P) (Y : ℕ → ℝ → Ω → ℝ)
      (gam : Ω → ℕ → Num ℝ → Num ℝ → Num ℝ), Spec.GammaDraws P b Y gam ∧ Spec.IndepDraws P Y := by
  let μ : ℕ × ℝ → Measure ℝ := fun q => Spec.gammaLaw (max q.2 0) b
  have hp : ∀ q, IsProbabilityMeasure (μ q) := fun q => gammaLaw_probability (le_max_right _ _) hb
  refine ⟨ℕ × ℝ → ℝ, inferInstance, Measure.infinitePi μ, inferInstance, fun p a ω => ω (p, a),
    fun ω p a _ => match a with | .fin a => .fin (ω (p, a)) | _ => .nan, ⟨?_, ?_⟩, ?_⟩
  · intro p a ha
    have := (measurePreserving_eval_infinitePi μ (p, a)).hasLaw
    simp only [μ, max_eq_left ha] at this
    exact this
  · intro ω p a _
    rfl
  · intro p q hpq a a'
    have : iIndepFun (fun (q : ℕ × ℝ) (ω : ℕ × ℝ → ℝ) => ω q) (Measure.infinitePi μ) :=
      iIndepFun_infinitePi (X := fun _ => id) (fun _ => measurable_id)
    exact this.indepFun (fun e => hpq (congrArg Prod.fst e))

/-- Values of the example: claims that develop by a factor of about two and a half. -/
def procVals : ℕ → ℕ → ℝ := fun i j => 100 + 10 * i + 150 * j

/-- The statements of this file apply: a 3 x 3 triangle, its own increments as fitted ones, residuals 1/2, ten
simulations, scale 4. -/
example : ∃ (Ω : Type) (_ : MeasurableSpace Ω) (P : Measure Ω) (R : Ω → ℝ) (M V : ℝ),
    IsProbabilityMeasure P ∧ ∫ ω, R ω ∂P = M ∧ variance R P = V * 4 ∧
    ∃ gam : Ω → ℕ → Num ℝ → Num ℝ → Num ℝ, ∀ ω, ∃ q ∈ (bootSims Num.sqrt (stairTri 3 procVals)
      (stairTri 3 procVals) (.fin 4) 10 (fun _ => .fin (1 / 2)) (gam ω)).reserves,
      q.sim = 7 ∧ q.origin = 2003 ∧ q.reserve = .fin (R ω) := by
  obtain ⟨Ω, _, P, hP, Y, gam, hg, hi⟩ := exists_gammaDraws (b := 4) (by norm_num)
  obtain ⟨R, M, V, h1, -, -, h4, h5⟩ := C113_reserve (P := P) (sq := Num.sqrt) (S := 10) (s := 7) (i := 2)
    (fun y hy => ⟨_, Num.sqrt_fin hy⟩) (stairTri_stair 3 procVals)
    (by norm_num) (by norm_num) (stairTri_stair 3 procVals) rfl rfl
    (fun i j _ _ => by unfold procVals; positivity) (draw := fun _ => .fin (1 / 2)) (fun _ _ => rfl)
    (b := 4) (by norm_num) hg hi (by norm_num) (by norm_num)
  exact ⟨Ω, _, P, R, M, V, hP, h4, h5, gam, h1⟩

end Trikit
