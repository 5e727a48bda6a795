import Mathlib.Probability.Distributions.Gaussian.Real
import Verif.Density
import Verif.Props.BootSim
import Verif.Props.QuantTables

/-! # Points of the reserve distributions (C107) -/

set_option linter.unusedSectionVars false

namespace Trikit

open ProbabilityTheory

namespace Spec

/-- A curve of 100 points: from `a` to `b` in equal steps, with positive heights given by `f`. -/
def Curve (a b : ℝ) (f : ℝ → ℝ) (l : List (Num ℝ × Num ℝ)) : Prop :=
  l = (List.range 100).map (fun k : ℕ => (Num.fin (a + k * ((b - a) / 99)), Num.fin (f (a + k * ((b - a) / 99))))) ∧
    a < b ∧ ∀ k : ℕ, k < 100 → 0 < f (a + k * ((b - a) / 99))

end Spec

theorem linspace100_fin (a b : ℝ) :
    linspace100 (.fin a) (.fin b) = (List.range 100).map (fun k : ℕ => Num.fin (a + k * ((b - a) / 99))) := by
  unfold linspace100
  refine List.map_congr_left fun k _ => ?_
  rw [Num.fin_sub, Num.fin_div _ _ (by norm_num), Num.fin_mul, Num.fin_add]
  by_cases h : k = 99
  · subst h
    rw [if_pos rfl]
    congr 1
    push_cast
    ring
  · rw [if_neg h]
    congr 1
    ring

theorem densityRows_curve {z : ℝ → Num ℝ} {v : RV} {a b : ℝ} {f : ℝ → ℝ} (ha : v.ppf z (1 / 1000) = .fin a)
    (hb : v.ppf z (999 / 1000) = .fin b) (hab : a < b) (hf : ∀ x, a ≤ x → v.pdf (.fin x) = .fin (f x) ∧ 0 < f x) :
    Spec.Curve a b f (densityRows z v) := by
  have hx : ∀ k : ℕ, a ≤ a + k * ((b - a) / 99) := by
    intro k
    have : 0 ≤ (b - a) / 99 := by linarith
    have : 0 ≤ (k : ℝ) * ((b - a) / 99) := by positivity
    linarith
  refine ⟨?_, hab, fun k _ => (hf _ (hx k)).2⟩
  unfold densityRows
  rw [ha, hb, linspace100_fin, List.map_map, List.filter_eq_self.2]
  · refine List.map_congr_left fun k _ => ?_
    simp only [Function.comp_apply]
    rw [(hf _ (hx k)).1]
  · intro p hp
    obtain ⟨k, -, rfl⟩ := List.mem_map.1 hp
    rfl

theorem densityRows_nan {z : ℝ → Num ℝ} {v : RV} (h : ∀ q, v.ppf z q = .nan) : densityRows z v = [] := by
  have hp : v.pdf .nan = .nan := by
    cases v with
    | norm m s => cases m <;> cases s <;> rfl
    | lognorm m s => cases m <;> cases s <;> rfl
  unfold densityRows
  rw [h, h, List.filter_eq_nil_iff]
  intro p hp'
  obtain ⟨x, hx, rfl⟩ := List.mem_map.1 hp'
  have : x = .nan := by
    unfold linspace100 at hx
    obtain ⟨k, -, rfl⟩ := List.mem_map.1 hx
    split <;> rfl
  rw [this, hp]
  simp [Num.isNaN]

/-- Without a positive reserve there is no lognormal distribution. -/
theorem lognorm_none {s R : ℝ} (hs : 0 ≤ s) (hR : R ≤ 0) {v : RV} (hv : mackRV "lognorm" (.fin s) (.fin R) = .ok v)
    (z : ℝ → Num ℝ) (q : ℝ) : v.ppf z q = .nan := by
  unfold mackRV at hv
  rw [if_neg (by decide), if_pos rfl] at hv
  obtain rfl := Except.ok.inj hv
  rcases hR.lt_or_eq with hR | rfl
  · have hm : logMu (.fin s) (.fin R) = .nan := by
      have : Num.log (.fin R) = .nan := by simp only [Num.log]; rw [if_pos hR]
      unfold logMu
      rw [this]; rfl
    rw [hm]
    simp [RV.ppf, Num.exp, Num.zero_def, Num.lt]
  · rcases hs.eq_or_lt with rfl | hs
    · have : logSigma (.fin 0) (.fin 0) = .fin 0 := by
        unfold logSigma
        rw [Num.fin_div_zero]
        simp only [Num.infTimes, if_pos]
        rfl
      rw [this]
      simp [RV.ppf, Num.zero_def, Num.lt]
    · have hsig : logSigma (.fin s) (.fin 0) = .pinf := by
        unfold logSigma
        rw [Num.fin_div_zero]
        simp only [Num.infTimes, if_neg hs.ne', if_pos hs]
        rfl
      have hlog : clip0 (Num.log (.fin 0)) = .fin 0 := by
        have : Num.log (.fin 0) = .ninf := by simp [Num.log]
        rw [this]
        simp [clip0, Num.isNaN, Num.zero_def, Num.lt]
      have hmu : logMu (.fin s) (.fin 0) = .ninf := by
        unfold logMu
        rw [hlog, hsig]
        show Num.fin 0 - Num.infTimes (1 / 2) = _
        unfold Num.infTimes
        norm_num
        rfl
      rw [hmu]
      simp [RV.ppf, Num.exp, Num.zero_def, Num.lt]

/-- Density of the normal law with mean `R` and standard deviation `s`. -/
noncomputable def Spec.normDensity (R s : ℝ) : ℝ → ℝ := gaussianPDFReal R (Real.toNNReal (s ^ 2))

/-- Density of `a * exp (σ * Z)` for a standard normal `Z`: the standard normal density at `log (x / a) / σ` times the
derivative `1 / (σ * x)`. -/
noncomputable def Spec.lognormDensity (a σ x : ℝ) : ℝ := gaussianPDFReal 0 1 (Real.log (x / a) / σ) * (1 / (σ * x))

theorem norm_pdf {R s : ℝ} (hs : 0 < s) (x : ℝ) :
    (RV.norm (.fin R) (.fin s)).pdf (.fin x) = .fin (Spec.normDensity R s x) ∧ 0 < Spec.normDensity R s x := by
  constructor
  · simp only [RV.pdf, if_pos hs]
    congr 1
    unfold Spec.normDensity gaussianPDFReal
    rw [Real.coe_toNNReal _ (by positivity), Real.sqrt_mul (x := 2 * Real.pi) (by positivity), Real.sqrt_sq hs.le]
    have e : -(x - R) ^ 2 / (2 * s ^ 2) = -((x - R) / s) ^ 2 / 2 := by
      field_simp
    rw [e]
    field_simp
  · apply gaussianPDFReal_pos
    rw [ne_eq, Real.toNNReal_eq_zero, not_le]
    positivity

theorem lognorm_pdf {a σ x : ℝ} (ha : 0 < a) (hσ : 0 < σ) (hx : 0 < x) :
    (RV.lognorm (.fin a) (.fin σ)).pdf (.fin x) = .fin (Spec.lognormDensity a σ x) ∧
      0 < Spec.lognormDensity a σ x := by
  constructor
  · simp only [RV.pdf, if_pos (And.intro hσ ha), if_neg (not_le.2 hx)]
    congr 1
    unfold Spec.lognormDensity gaussianPDFReal
    simp only [NNReal.coe_one, mul_one, sub_zero]
    field_simp
  · unfold Spec.lognormDensity
    have := gaussianPDFReal_pos 0 1 (Real.log (x / a) / σ) (by simp)
    positivity

/-- The points of one distribution. -/
theorem mackDensity_block {r : MackResult} {z : ℝ → Num ℝ} {i : ℕ} {v : RV} (h : r.rvs[i]? = some v) :
    ((mackDensity r z).filter (fun p => decide (p.1 = i))).map Prod.snd = densityRows z v := by
  have hi : i < r.rvs.length := (List.getElem?_eq_some_iff.1 h).1
  unfold mackDensity
  rw [filter_flatMap_single' hi, List.filter_eq_self.2, h, List.map_map]
  · exact List.map_id _
  · intro q hq
    obtain ⟨p, -, rfl⟩ := List.mem_map.1 hq
    simp
  · intro k hk hne q hq
    obtain ⟨p, -, rfl⟩ := List.mem_map.1 hq
    simpa using hne

/-- **C107.** On every positive staircase with at least four origins, with `z` strictly increasing between the two
levels: for every origin and the total (position `n`), the points are 100 equally spaced ones from the .1 %
to the 99.9 % quantile with the density of the normal (lognormal) law with the reported parameters, if
the standard error is positive (and so is the reserve); otherwise, as for the oldest origin, there are none. -/
theorem C107_points {t ind : Tri ℝ} {n : ℕ} {c w : ℕ → ℕ → ℝ} (h : Spec.Stair t n c) (hp : Spec.Positive n c)
    (hi : IndW t ind n w) (hw : Spec.Weights n w) (hn : 4 ≤ n) (alpha : ℕ) {dist : String} {r : MackResult}
    (hr : mackCall alpha t ind dist = .ok r) {z : ℝ → Num ℝ} {z1 z2 : ℝ} (hz1 : z (1 / 1000) = .fin z1)
    (hz2 : z (999 / 1000) = .fin z2) (hz : z1 < z2) :
    ∃ s R : ℕ → ℝ, s 0 = 0 ∧ ∀ i ≤ n, 0 ≤ s i ∧ r.stdErr[i]? = some (.fin (s i)) ∧
      (r.core.rows.map SummRow.reserve ++ [r.core.totReserve])[i]? = some (.fin (R i)) ∧
      let pts := ((mackDensity r z).filter (fun p => decide (p.1 = i))).map Prod.snd
      (s i = 0 → pts = []) ∧
      (dist = "norm" → 0 < s i →
        Spec.Curve (R i + s i * z1) (R i + s i * z2) (Spec.normDensity (R i) (s i)) pts) ∧
      (dist = "lognorm" → 0 < s i → 0 < R i → ∃ a σ, r.rvs[i]? = some (.lognorm (.fin a) (.fin σ)) ∧
        0 < a ∧ 0 < σ ∧
        Spec.Curve (a * Real.exp (σ * z1)) (a * Real.exp (σ * z2)) (Spec.lognormDensity a σ) pts) ∧
      (dist = "lognorm" → R i ≤ 0 → pts = []) := by
  have hd : dist = "norm" ∨ dist = "lognorm" := by
    by_contra hd
    rw [not_or] at hd
    rw [(C49_quantiles h hp hi hw hn alpha dist).1 hd.1 hd.2] at hr
    cases hr
  obtain ⟨core, b, lab, hr0, p⟩ := mack_parts h hp hi hw hn alpha
  obtain ⟨r', s, T, hr1, hlen, hse, hs0, hT, hT0, -⟩ := C46_std_errors h hp hi hw hn alpha hd
  obtain rfl := Except.ok.inj (hr.symm.trans hr1)
  obtain ⟨r', hr2, hcore, hstd, hrl, hv⟩ := mackCall_ok hr0 hd
  obtain rfl := Except.ok.inj (hr.symm.trans hr2)
  have hrows : core.rows.length = n := by rw [p.rows, p.spec.rows_length]
  have hall : ∀ i, ∃ R : ℝ, (i ≤ n → (core.rows.map SummRow.reserve ++ [core.totReserve])[i]? = some (.fin R)) := by
    intro i
    by_cases hlt : i < n
    · obtain ⟨row, hrow, -, -, -, -, -, -, hres⟩ := p.spec.rows i hlt
      refine ⟨c i (n - 1 - i) * Spec.tailProd (Spec.mackAll alpha n c w) n (n - 1 - i) - c i (n - 1 - i),
        fun _ => ?_⟩
      rw [List.getElem?_append_left (by simpa [hrows] using hlt), List.getElem?_map, p.rows, hrow]
      show some row.reserve = _
      rw [hres]
    by_cases he : i = n
    · subst he
      have htot : ∃ x, core.totReserve = Num.fin x := ⟨_, by rw [p.totReserve, p.spec.totReserve]⟩
      obtain ⟨x, hx⟩ := htot
      refine ⟨x, fun _ => ?_⟩
      rw [List.getElem?_append_right (by simp [hrows])]
      simp only [List.length_map, hrows, Nat.sub_self, List.getElem?_cons_zero]
      rw [hx]
    · exact ⟨0, fun h => by omega⟩
  choose R hR using hall
  have hs : ∀ i ≤ n, 0 ≤ (if i < n then s i else T) ∧ r.stdErr[i]? = some (.fin (if i < n then s i else T)) := by
    intro i hi'
    by_cases hlt : i < n
    · rw [if_pos hlt]
      exact ⟨(hse i hlt).2.1, (hse i hlt).1⟩
    · obtain rfl : i = n := by omega
      rw [if_neg hlt]
      exact ⟨hT0, hT⟩
  refine ⟨fun i => if i < n then s i else T, R, by beta_reduce; rw [if_pos (by omega)]; exact hs0, ?_⟩
  intro i hi'
  beta_reduce
  obtain ⟨h1, h2⟩ := hs i hi'
  generalize hsi : (if i < n then s i else T) = si at h1 h2 ⊢
  obtain ⟨v, hv1, hv2⟩ := hv i _ _ h2 (hR i hi')
  rw [hcore]
  refine ⟨h1, h2, hR i hi', ?_⟩
  dsimp only
  rw [mackDensity_block hv2]
  have hpos : ∀ {x : ℝ}, 0 < x → Num.lt 0 (.fin x) = true := fun {x} hx => by
    simpa [Num.zero_def, Num.lt_fin] using hx
  refine ⟨?_, ?_, ?_, ?_⟩
  · rintro rfl
    apply densityRows_nan
    intro q
    rcases hd with rfl | rfl
    · unfold mackRV at hv1
      rw [if_pos rfl] at hv1
      obtain rfl := Except.ok.inj hv1
      simp [RV.ppf, Num.zero_def, Num.lt]
    · rcases le_or_gt (R i) 0 with hR0 | hR0
      · exact lognorm_none le_rfl hR0 hv1 z q
      · rw [lognorm_params hR0] at hv1
        obtain rfl := Except.ok.inj hv1
        simp [RV.ppf, Num.zero_def, Num.lt]
  · rintro rfl hsp
    unfold mackRV at hv1
    rw [if_pos rfl] at hv1
    obtain rfl := Except.ok.inj hv1
    refine densityRows_curve ?_ ?_ ?_ (fun x _ => norm_pdf hsp x)
    · simp only [RV.ppf, if_pos (hpos hsp), hz1, Num.fin_mul, Num.fin_add]
    · simp only [RV.ppf, if_pos (hpos hsp), hz2, Num.fin_mul, Num.fin_add]
    · have := mul_lt_mul_of_pos_left hz hsp
      linarith
  · rintro rfl hsp hRp
    obtain ⟨a, σ, e, ha, -, hσ, -⟩ := lognorm_moments (s := si) hRp
    obtain rfl := Except.ok.inj (hv1.symm.trans e)
    have hσ := hσ.2 hsp.ne'
    refine ⟨a, σ, hv2, ha, hσ, ?_⟩
    refine densityRows_curve ?_ ?_ ?_ (fun x hx => lognorm_pdf ha hσ (lt_of_lt_of_le ?_ hx))
    · simp only [RV.ppf, if_pos (And.intro (hpos hσ) (hpos ha)), hz1, Num.fin_mul, Num.exp_fin]
    · simp only [RV.ppf, if_pos (And.intro (hpos hσ) (hpos ha)), hz2, Num.fin_mul, Num.exp_fin]
    · exact mul_lt_mul_of_pos_left (Real.exp_lt_exp.2 (mul_lt_mul_of_pos_left hz hσ)) ha
    · positivity
  · rintro rfl hRn
    exact densityRows_nan (fun q => lognorm_none h1 hRn hv1 z q)

/-- A reserve of 10 with standard error 3, with levels standing for themselves: points from 10.003 to 12.997. -/
example : ∃ l, Spec.Curve (10 + 3 * (1 / 1000)) (10 + 3 * (999 / 1000)) (Spec.normDensity 10 3) l ∧
    densityRows (fun q => .fin q) (.norm (.fin 10) (.fin 3)) = l ∧ l.length = 100 := by
  have h3 : Num.lt 0 (.fin (3 : ℝ)) = true := by simp [Num.zero_def, Num.lt_fin]
  have := densityRows_curve (z := fun q => .fin q) (v := .norm (.fin 10) (.fin 3)) (a := 10 + 3 * (1 / 1000))
    (b := 10 + 3 * (999 / 1000)) (by simp only [RV.ppf, if_pos h3, Num.fin_mul, Num.fin_add])
    (by simp only [RV.ppf, if_pos h3, Num.fin_mul, Num.fin_add]) (by norm_num)
    (fun x _ => norm_pdf (R := 10) (s := 3) (by norm_num) x)
  refine ⟨_, this, rfl, ?_⟩
  rw [this.1]
  simp

end Trikit
