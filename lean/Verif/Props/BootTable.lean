import Verif.BootTable
import Verif.Props.BootScale
import Verif.Props.Dist
import Verif.Props.Influence
import Mathlib.Analysis.InnerProductSpace.PiL2

/-! # Summary table of the bootstrap (C108, C110) -/

set_option linter.unusedSectionVars false

namespace Trikit

section
variable {K : Type} [Field K] [LinearOrder K] [IsStrictOrderedRing K]
variable {t m : Tri K} {n S : ℕ} {c v : ℕ → ℕ → K}

namespace Spec

/-- Mean of `S` values. -/
def meanOf (S : ℕ) (y : ℕ → K) : K := (∑ s ∈ Finset.range S, y s) / S

/-- Sample variance of `S` values. -/
def sampleVar (S : ℕ) (y : ℕ → K) : K := (∑ s ∈ Finset.range S, (y s - meanOf S y) ^ 2) / ((S : K) - 1)

/-- Reported ultimate: the mean of the simulated ones, for the oldest origin the latest value. -/
def bootUlt (n S : ℕ) (c : ℕ → ℕ → K) (U : ℕ → ℕ → K) (i : ℕ) : K :=
  if i = 0 then c 0 (n - 1) else meanOf S (fun s => U s i)

end Spec

theorem stdL_range {sq : Num K → Num K} (y : ℕ → K) (hS : 2 ≤ S) :
    stdL sq ((List.range S).map (fun s => Num.fin (y s))) = sq (.fin (Spec.sampleVar S y)) := by
  have h1 : (((S - 1 : ℕ) : K)) = (S : K) - 1 := by rw [Nat.cast_sub (by omega)]; simp
  have h2 : ((S - 1 : ℕ) : K) ≠ 0 := by
    have : S - 1 ≠ 0 := by omega
    exact_mod_cast this
  unfold stdL Spec.sampleVar Spec.meanOf
  rw [meanL_range y (by omega), List.map_map, List.length_map, List.length_range]
  have : (List.range S).map ((fun x => (x - Num.fin ((∑ s ∈ Finset.range S, y s) / S)).pow 2) ∘
      fun s => Num.fin (y s)) = (List.range S).map (fun s => Num.fin ((y s - (∑ s ∈ Finset.range S, y s) / S) ^ 2)) := by
    refine List.map_congr_left fun s _ => ?_
    simp only [Function.comp_apply, Num.fin_sub, Num.pow_fin]
  rw [this, sum_fin_range, Num.fin_div _ _ h2, h1]

section
variable {L U R : ℕ → ℕ → K} {res : List (ResRow K)}

/-- A column of the rows of one origin. -/
theorem grid_col_origin (ht : Spec.Stair t n c)
    (h : res.map ResRow.toDist = (List.range n).flatMap (fun i => (List.range S).map (fun s =>
      Spec.distRow t.oAt L U R s i))) {i : ℕ} (hi : i < n) :
    (res.filter (fun r => decide (r.origin = t.oAt i))).map ResRow.toDist =
      (List.range S).map (fun s => Spec.distRow t.oAt L U R s i) := by
  rw [← grid_origin (L := L) (U := U) (R := R) (S := S)
    (fun i hi j hj h => (ht.oAt_lt hi hj).2 h) hi, ← h, List.filter_map]
  congr 1
  refine List.filter_congr fun r _ => ?_
  simp [ResRow.toDist]

theorem grid_col_sim
    (h : res.map ResRow.toDist = (List.range n).flatMap (fun i => (List.range S).map (fun s =>
      Spec.distRow t.oAt L U R s i))) {s : ℕ} (hs : s < S) :
    (res.filter (fun r => decide (r.sim = s))).map ResRow.toDist =
      (List.range n).map (fun i => Spec.distRow t.oAt L U R s i) := by
  rw [← grid_sim (L := L) (U := U) (R := R) (o := t.oAt) hs, ← h, List.filter_map]
  congr 1
  refine List.filter_congr fun r _ => ?_
  refine decide_eq_decide.2 ?_
  simp [ResRow.toDist]

theorem map_reserve (l : List (ResRow K)) :
    l.map ResRow.reserve = (l.map ResRow.toDist).map DistRow.reserve := by rw [List.map_map]; rfl

theorem map_ultimate (l : List (ResRow K)) :
    l.map ResRow.ultimate = (l.map ResRow.toDist).map DistRow.ultimate := by rw [List.map_map]; rfl

/-- Columns of the summary computed from the table of simulated reserves. -/
theorem boot_columns {sq : Num K → Num K} (ht : Spec.Stair t n c) (hn : 0 < n) (hS : 2 ≤ S)
    (h : res.map ResRow.toDist = (List.range n).flatMap (fun i => (List.range S).map (fun s =>
      Spec.distRow t.oAt L U R s i))) :
    bootUltimates t res = (List.range n).map (fun i => .fin (Spec.bootUlt n S c U i)) ∧
    bootReserves t res = (List.range n).map (fun i => .fin (Spec.bootUlt n S c U i - c i (n - 1 - i))) ∧
    bootStdErr sq t S res = (List.range n).map (fun i => sq (.fin (Spec.sampleVar S (fun s => R s i)))) ++
      [sq (.fin (Spec.sampleVar S (fun s => ∑ i ∈ Finset.range n, R s i)))] := by
  have e1 : bootUltimates t res = (List.range n).map (fun i => .fin (Spec.bootUlt n S c U i)) := by
    unfold bootUltimates
    rw [ht.nr]
    refine List.map_congr_left fun i hi => ?_
    rw [List.mem_range] at hi
    unfold Spec.bootUlt
    by_cases h0 : i = 0
    · rw [if_pos h0, if_pos h0, ht.latest_get hn]
      simp
    · rw [if_neg h0, if_neg h0, map_ultimate, grid_col_origin ht h hi, List.map_map]
      exact meanSkip_range (fun s => U s i) (by omega)
  refine ⟨e1, ?_, ?_⟩
  · unfold bootReserves
    rw [e1, ht.nr, List.zipWith_map_right, List.zipWith_self]
    refine List.map_congr_left fun i hi => ?_
    rw [List.mem_range] at hi
    rw [ht.latest_get hi, Num.fin_sub]
  · unfold bootStdErr bootTotals
    conv_lhs => rw [ht.origins_eq, List.map_map]
    congr 1
    · refine List.map_congr_left fun i hi => ?_
      rw [List.mem_range] at hi
      simp only [Function.comp_apply]
      rw [map_reserve, grid_col_origin ht h hi, List.map_map]
      exact stdL_range (fun s => R s i) hS
    · congr 1
      rw [← stdL_range (sq := sq) (fun s => ∑ i ∈ Finset.range n, R s i) hS]
      congr 1
      refine List.map_congr_left fun s hs => ?_
      rw [List.mem_range] at hs
      rw [map_reserve, grid_col_sim h hs, List.map_map]
      exact sumSkip_fin_range (fun i => R s i) n

end

/-- Rows of the summary for columns given by functions. -/
theorem bootSummaryRows_get {cl : Ser K} {mat : List Int} {ults res se : List (Num K)} {i : ℕ} (hi : i < t.nr) :
    (bootSummaryRows t cl mat ults res se)[i]? = some (bootRowAt t cl mat ults res se i) := by
  unfold bootSummaryRows
  rw [List.getElem?_append_left (by simpa using hi), List.getElem?_map, List.getElem?_range hi]; rfl

theorem bootSummaryRows_total {cl : Ser K} {mat : List Int} {ults res se : List (Num K)} :
    (bootSummaryRows t cl mat ults res se)[t.nr]? = some (bootTotalRow (se.getD t.nr .nan)
      ((List.range t.nr).map (bootRowAt t cl mat ults res se))) := by
  unfold bootSummaryRows
  rw [List.getElem?_append_right (by simp)]; simp

/-- What the summary shows for simulated ultimates `U` and reserves `R` (simulation, origin): maturity and factors are
those of the rows `base` of `base_cl`; the ultimate is the mean of the simulated ones, for the oldest origin the latest
value; the reserve is the ultimate less the latest value; the standard error comes from the sample variance of the
simulated reserves; `cv` is their quotient; the total adds latest values, ultimates and reserves and takes its
standard error from the totals of the simulations. -/
structure Spec.BootTable (n S : ℕ) (c : ℕ → ℕ → K) (sq : Num K → Num K) (base : List (SummRow K)) (U R : ℕ → ℕ → K)
    (rows : List (BootRow K)) : Prop where
  length : rows.length = n + 1
  row : ∀ i < n, ∃ row b, rows[i]? = some row ∧ base[i]? = some b ∧
    row.origin = some b.origin ∧ row.maturity = some b.maturity ∧ row.cldf = b.cldf ∧
    row.emergence = b.emergence ∧ row.latest = b.latest ∧ row.latest = .fin (c i (n - 1 - i)) ∧
    row.ultimate = .fin (Spec.bootUlt n S c U i) ∧
    row.reserve = .fin (Spec.bootUlt n S c U i - c i (n - 1 - i)) ∧
    row.stdErr = sq (.fin (Spec.sampleVar S (fun s => R s i))) ∧ row.cv = row.stdErr / row.reserve
  total : ∃ tot, rows[n]? = some tot ∧ tot.origin = none ∧ tot.maturity = none ∧ tot.cldf = .nan ∧
    tot.emergence = .nan ∧ tot.latest = .fin (∑ i ∈ Finset.range n, c i (n - 1 - i)) ∧
    tot.ultimate = .fin (∑ i ∈ Finset.range n, Spec.bootUlt n S c U i) ∧
    tot.reserve = .fin (∑ i ∈ Finset.range n, (Spec.bootUlt n S c U i - c i (n - 1 - i))) ∧
    tot.stdErr = sq (.fin (Spec.sampleVar S (fun s => ∑ i ∈ Finset.range n, R s i))) ∧
    tot.cv = tot.stdErr / tot.reserve

/-- Summary of the bootstrap, for finite residuals and gamma variates that are finite with the parameters of the fit. -/
theorem boot_table {sq : Num K → Num K} (hsq : ∀ y : K, 0 ≤ y → ∃ r, sq (.fin y) = .fin r)
    (gm : List (Num K) → Num K) (ht : Spec.Stair t n c) (hp : Spec.Positive n c) (hn : 3 ≤ n) (hS : 2 ≤ S)
    (hv : ∀ i j, i + j < n → 0 < j → 0 ≤ Spec.incr (Spec.fitCum n c) i j)
    {draw : ℕ → Num K} {gam : ℕ → Num K → Num K → Num K}
    (hz : ∀ p < S * (n * n), (draw p).isFin = true)
    (hg : ∀ fit, bootFit sq gm t t.a2aind0 = .ok fit →
      ∀ p < S * (n * n), ∀ y : K, (gam p (Num.fin y / fit.scale).abs' fit.scale).isFin = true) :
    ∃ fit b rows, ∃ L U R : ℕ → ℕ → K, bootFit sq gm t t.a2aind0 = .ok fit ∧
      baseCL gm t t.a2aind0 "all-weighted" 1 = .ok b ∧
      let res := (bootSims sq t fit.fitIncr fit.scale S draw gam).reserves
      res.map ResRow.toDist =
        (List.range n).flatMap (fun i => (List.range S).map (fun s => Spec.distRow t.oAt L U R s i)) ∧
      bootSummary t fit.ldfs (bootUltimates t res) (bootReserves t res) (bootStdErr sq t S res) = .ok rows ∧
      Spec.BootTable n S c sq b.rows U R rows := by
  obtain ⟨fit, hfit, hs⟩ := bootFit_stair sq gm ht hp hn
  obtain ⟨rt, hrt⟩ := exists_roots (sq := sq) hsq hv
  obtain ⟨L, U, R, -, hres⟩ := (bootSims_stair' ht (by omega) (by omega) hs.incr hs.incr_origins hs.incr_devs hrt hz
    (scale := fit.scale) (hg fit hfit)).toDist
  obtain ⟨b, lab, hb, -, -, hldf, hbs⟩ := baseCL_stair ht hp.ne_zero (ht.indOn0 hp.ne_zero) hn
    (rowIs_all gm ht hp (by omega) (le_refl 1)) (1 : K)
  have hb' : baseCL gm t t.a2aind0 "all-weighted" 1 = .ok b := hb
  have hl : fit.ldfs = b.ldfs ∧ b.cldfs = cldfsOf b.ldfs := by
    unfold baseCL at hb'
    unfold bootFit at hfit
    cases hx : ldfsByName gm t t.a2aind0 "all-weighted" 1 with
    | error e => rw [hx] at hb'; cases hb'
    | ok l =>
      rw [hx] at hb' hfit
      simp only [bind, Except.bind] at hb' hfit
      obtain ⟨f1, f2⟩ := baseFromLdfs_fields hb'
      refine ⟨?_, by rw [f1]; exact f2⟩
      rw [ht.maturity] at hfit
      simp only at hfit
      cases h3 : trisqrdOf t l with
      | error e => rw [h3] at hfit; cases hfit
      | ok q =>
        rw [h3] at hfit
        simp only at hfit
        cases h4 : t.toIncr with
        | error e => rw [h4] at hfit; cases hfit
        | ok o =>
          rw [h4] at hfit
          simp only [Except.ok.injEq] at hfit
          rw [← hfit, f1]
  generalize hrr : (bootSims sq t fit.fitIncr fit.scale S draw gam).reserves = res at hres
  obtain ⟨e1, e2, e3⟩ := boot_columns (sq := sq) ht (by omega) hS hres
  have gD : ∀ {α : Type} (g : ℕ → α) (d : α) (i : ℕ), i < n → ((List.range n).map g).getD i d = g i := by
    intro α g d i hi
    rw [List.getD_eq_getElem?_getD, List.getElem?_map, List.getElem?_range hi]; rfl
  have hmat := ht.maturity
  have gm' := gD (fun k => t.dAt (n - 1 - k)) 0
  generalize (List.range n).map (fun k => t.dAt (n - 1 - k)) = mat at hmat gm'
  have g1 := gD (fun i => Num.fin (Spec.bootUlt n S c U i)) .nan
  rw [← e1] at g1
  have g2 := gD (fun i => Num.fin (Spec.bootUlt n S c U i - c i (n - 1 - i))) .nan
  rw [← e2] at g2
  have g3 : ∀ i < n, (bootStdErr sq t S res).getD i .nan = sq (.fin (Spec.sampleVar S (fun s => R s i))) := by
    intro i hi
    rw [e3, List.getD_eq_getElem?_getD, List.getElem?_append_left (by simpa using hi), ← List.getD_eq_getElem?_getD,
      gD _ _ i hi]
  have g4 : (bootStdErr sq t S res).getD n .nan =
      sq (.fin (Spec.sampleVar S (fun s => ∑ i ∈ Finset.range n, R s i))) := by
    rw [e3, List.getD_eq_getElem?_getD, List.getElem?_append_right (by simp)]
    simp
  refine ⟨fit, b, bootSummaryRows t b.cldfs mat (bootUltimates t res) (bootReserves t res)
    (bootStdErr sq t S res), L, U, R, hfit, hb', ?_⟩
  rw [hrr]
  dsimp only
  generalize bootUltimates t res = ults at g1 ⊢
  generalize bootReserves t res = rsv at g2 ⊢
  generalize bootStdErr sq t S res = se at g3 g4 ⊢
  refine ⟨hres, ?_, by simp [bootSummaryRows, ht.nr], ?_, ?_⟩
  · unfold bootSummary
    rw [hmat, hl.1, ← hl.2]
    rfl
  · intro i hi
    obtain ⟨row, h1, h2, h3, h4, h5, h6, -, -⟩ := hbs.rows i hi
    refine ⟨bootRowAt t b.cldfs mat ults rsv se i, row, bootSummaryRows_get (by rw [ht.nr]; exact hi), h1,
      by rw [h2]; rfl, ?_, ?_, ?_, ?_, ht.latest_get hi, g1 i hi, g2 i hi, g3 i hi, rfl⟩
    · rw [h3]; exact congrArg some (gm' i hi)
    · rw [h4]; exact congrArg (fun d => Ser.get b.cldfs d) (gm' i hi)
    · rw [h5, h4]; exact congrArg (fun d => 1 / Ser.get b.cldfs d) (gm' i hi)
    · rw [h6]; exact ht.latest_get hi
  · have hsum : ∀ g : ℕ → Num K, ∀ f : ℕ → K, (∀ i < n, g i = .fin (f i)) →
        Num.sumSkip ((List.range n).map g) = .fin (∑ i ∈ Finset.range n, f i) := by
      intro g f hgf
      rw [← sumSkip_fin_range]
      congr 1
      exact List.map_congr_left fun i hi => hgf i (List.mem_range.1 hi)
    have htot := bootSummaryRows_total (t := t) (cl := b.cldfs) (mat := mat) (ults := ults) (res := rsv) (se := se)
    rw [ht.nr] at htot
    refine ⟨_, htot, rfl, rfl, rfl, rfl, ?_, ?_, ?_, g4, rfl⟩
    · show Num.sumSkip (List.map BootRow.latest _) = _
      rw [List.map_map]
      exact hsum _ _ fun i hi => ht.latest_get hi
    · show Num.sumSkip (List.map BootRow.ultimate _) = _
      rw [List.map_map]
      exact hsum _ _ fun i hi => g1 i hi
    · show Num.sumSkip (List.map BootRow.reserve _) = _
      rw [List.map_map]
      exact hsum _ _ fun i hi => g2 i hi

/-- **C108** for given draws: summary of the bootstrap on positive staircases without negative fitted increments
after the first period, for finite draws and at least two simulations. -/
theorem C108_summary {sq : Num K → Num K} (hsq : ∀ y : K, 0 ≤ y → ∃ r, sq (.fin y) = .fin r)
    (gm : List (Num K) → Num K) (ht : Spec.Stair t n c) (hp : Spec.Positive n c) (hn : 3 ≤ n) (hS : 2 ≤ S)
    (hv : ∀ i j, i + j < n → 0 < j → 0 ≤ Spec.incr (Spec.fitCum n c) i j)
    {draw : ℕ → Num K} {gam : ℕ → Num K → Num K → Num K}
    (hz : ∀ p < S * (n * n), (draw p).isFin = true)
    (hg : ∀ p < S * (n * n), ∀ a b, (gam p a b).isFin = true) :
    ∃ fit b rows, ∃ L U R : ℕ → ℕ → K, bootFit sq gm t t.a2aind0 = .ok fit ∧
      baseCL gm t t.a2aind0 "all-weighted" 1 = .ok b ∧
      let res := (bootSims sq t fit.fitIncr fit.scale S draw gam).reserves
      res.map ResRow.toDist =
        (List.range n).flatMap (fun i => (List.range S).map (fun s => Spec.distRow t.oAt L U R s i)) ∧
      bootSummary t fit.ldfs (bootUltimates t res) (bootReserves t res) (bootStdErr sq t S res) = .ok rows ∧
      Spec.BootTable n S c sq b.rows U R rows :=
  boot_table hsq gm ht hp hn hS hv hz (fun _ _ p hp _ => hg p hp _ _)

/-- A generator that returns as many draws as asked for, finite ones for finite parameters. -/
structure Spec.FinitePrng {G : Type} (P : Prng G K) : Prop where
  choice_fin : ∀ l m st, l ≠ [] → (∀ v ∈ l, v.isFin = true) →
    (P.choice l m st).1.length = m ∧ ∀ v ∈ (P.choice l m st).1, v.isFin = true
  normal_fin : ∀ b m st, b.isFin = true →
    (P.normal b m st).1.length = m ∧ ∀ v ∈ (P.normal b m st).1, v.isFin = true
  gamma_fin : ∀ l b st, (∀ v ∈ l, v.isFin = true) → b.isFin = true →
    (P.gamma l b st).1.length = l.length ∧ ∀ v ∈ (P.gamma l b st).1, v.isFin = true

/-- A run that ends is a simulation with finite draws. -/
theorem bootCall_run {G : Type} {P : Prng G K} {sq : Num K → Num K} (gm : List (Num K) → Num K)
    (hsq : ∀ y : K, 0 ≤ y → ∃ r, sq (.fin y) = .fin r) (hP : Spec.FinitePrng P) (h : Spec.Stair t n c)
    (hp : Spec.Positive n c) (hn : 3 ≤ n) (hS : 0 < S)
    (hv : ∀ i j, i + j < n → 0 < j → 0 ≤ Spec.incr (Spec.fitCum n c) i j) {parametric : Bool}
    (hpool : ∀ fit, bootFit sq gm t t.a2aind0 = .ok fit → (∃ b, b ≠ 0 ∧ fit.scale = .fin b) ∧
      if parametric then (stdL sq fit.sampling).isFin = true else ∀ v ∈ fit.sampling, v.isFin = true)
    {isGamma : Bool} {arg : RandArg} {w w' : World G} {r : BootResult K}
    (hr : bootCall P sq gm t t.a2aind0 S isGamma parametric arg w = .ok (r, w')) :
    ∃ draw gam, (∀ p < S * (n * n), (draw p).isFin = true) ∧
      (∀ p < S * (n * n), ∀ a b, (gam p a b).isFin = true) ∧ bootFit sq gm t t.a2aind0 = .ok r.fit ∧
      r.sim = bootSims sq t r.fit.fitIncr r.fit.scale S draw gam ∧
      r.ultimates = bootUltimates t r.sim.reserves ∧ r.reserves = bootReserves t r.sim.reserves ∧
      r.stdErr = bootStdErr sq t S r.sim.reserves := by
  obtain ⟨fit, g1, q⟩ := bootFit_stair sq gm h hp hn
  obtain ⟨⟨b, hb0, hb⟩, hpl⟩ := hpool _ g1
  obtain ⟨rt, hrt⟩ := exists_roots (sq := sq) hsq hv
  have hnn : t.nr * t.nc = n * n := by rw [h.nr, h.nc]
  have last : ∀ X : List (Num K) × G, ∀ put1, (X.1.length = S * (t.nr * t.nc) ∧ ∀ v ∈ X.1, v.isFin = true) →
      bootTail P sq t S isGamma arg fit put1 X = .ok (r, w') →
      ∃ draw gam, (∀ p < S * (n * n), (draw p).isFin = true) ∧
        (∀ p < S * (n * n), ∀ a b, (gam p a b).isFin = true) ∧ bootFit sq gm t t.a2aind0 = .ok r.fit ∧
        r.sim = bootSims sq t r.fit.fitIncr r.fit.scale S draw gam ∧
        r.ultimates = bootUltimates t r.sim.reserves ∧ r.reserves = bootReserves t r.sim.reserves ∧
        r.stdErr = bootStdErr sq t S r.sim.reserves := by
    intro X put1 hX hok
    rw [hnn] at hX
    have hz := getElem_lt_of_finite hX
    unfold bootTail at hok
    cases hgen : getGen P (put1 X.2) arg with
    | error e => rw [hgen] at hok; cases hok
    | ok v =>
      rw [hgen] at hok
      dsimp only at hok
      cases isGamma with
      | false => cases hok
      | true =>
        rw [if_neg Bool.true_eq_false.mp] at hok
        have hok := Except.ok.inj hok
        have hfc := bootSims_stair h (by omega) hS q.incr q.incr_origins q.incr_devs hrt hz (scale := fit.scale)
          (gam := fun _ _ _ => .fin 0) (fun _ _ _ _ => rfl)
        have hgf := hP.gamma_fin ((bsForecasts t (bsSamples sq fit.fitIncr S (fun p => X.1.getD p .nan))
          (bsLdfs t S (bsSamples sq fit.fitIncr S (fun p => X.1.getD p .nan)))).map
            (fun r => (r.sampIncr / fit.scale).abs')) fit.scale v.1 (by
          intro y hy
          obtain ⟨f, hf, rfl⟩ := List.mem_map.1 hy
          have hf' : f ∈ (bootSims sq t fit.fitIncr fit.scale S (fun p => X.1.getD p .nan)
            fun _ _ _ => .fin 0).forecasts := hf
          rw [hfc.forecasts] at hf'
          obtain ⟨x, hx⟩ : ∃ x, f.sampIncr = .fin x := by
            simp only [List.mem_flatMap, List.mem_map, List.mem_range] at hf'
            obtain ⟨s, -, i, -, j, -, rfl⟩ := hf'
            exact ⟨_, rfl⟩
          rw [hx, hb, Num.fin_div _ _ hb0]; rfl) (by rw [hb]; rfl)
        have hlen : (bsForecasts t (bsSamples sq fit.fitIncr S (fun p => X.1.getD p .nan))
          (bsLdfs t S (bsSamples sq fit.fitIncr S (fun p => X.1.getD p .nan)))).length = S * (n * n) := by
          have := congrArg List.length hfc.forecasts
          rw [show (bootSims sq t fit.fitIncr fit.scale S (fun p => X.1.getD p .nan) fun _ _ _ => .fin 0).forecasts =
            bsForecasts t (bsSamples sq fit.fitIncr S (fun p => X.1.getD p .nan))
              (bsLdfs t S (bsSamples sq fit.fitIncr S (fun p => X.1.getD p .nan))) from rfl] at this
          rw [this]
          simp
        rw [List.length_map, hlen] at hgf
        refine ⟨fun p => X.1.getD p .nan, fun p _ _ => (P.gamma _ fit.scale v.1).1.getD p .nan, hz,
          fun p hp _ _ => getElem_lt_of_finite hgf p hp, ?_⟩
        rw [← (Prod.mk.inj hok).1]
        exact ⟨g1, rfl, rfl, rfl, rfl⟩
  rw [bootCall_eq, g1] at hr
  dsimp only at hr
  cases hgen : getGen P w arg with
  | error e => rw [hgen] at hr; cases hr
  | ok z =>
    rw [hgen] at hr
    dsimp only at hr
    unfold bootRest at hr
    cases parametric with
    | true =>
      rw [if_pos rfl] at hr
      exact last _ _ (hP.normal_fin _ _ _ (by simpa using hpl)) hr
    | false =>
      rw [if_neg Bool.false_ne_true] at hr
      by_cases he : fit.sampling = []
      · have h0 : S * (t.nr * t.nc) ≠ 0 := by
          rw [hnn]; exact (Nat.mul_pos hS (Nat.mul_pos (by omega) (by omega))).ne'
        rw [if_pos ⟨he, h0⟩] at hr
        cases hr
      · rw [if_neg (fun h => he h.1)] at hr
        exact last _ _ (hP.choice_fin _ _ _ he (by simpa using hpl)) hr

/-- **C108.** Every run of `boot_cl` that ends, with at least two simulations, on a positive staircase without negative
fitted increments after the first period and with finite residuals and a scale other than 0, reports a summary that
follows from the simulated ultimates and reserves of `reserve_dist` and from the factors of `base_cl`. -/
theorem C108_call {G : Type} {P : Prng G K} {sq : Num K → Num K} (gm : List (Num K) → Num K)
    (hsq : ∀ y : K, 0 ≤ y → ∃ r, sq (.fin y) = .fin r) (hP : Spec.FinitePrng P) (h : Spec.Stair t n c)
    (hp : Spec.Positive n c) (hn : 3 ≤ n) (hS : 2 ≤ S)
    (hv : ∀ i j, i + j < n → 0 < j → 0 ≤ Spec.incr (Spec.fitCum n c) i j) {parametric : Bool}
    (hpool : ∀ fit, bootFit sq gm t t.a2aind0 = .ok fit → (∃ b, b ≠ 0 ∧ fit.scale = .fin b) ∧
      if parametric then (stdL sq fit.sampling).isFin = true else ∀ v ∈ fit.sampling, v.isFin = true)
    {isGamma : Bool} {arg : RandArg} {w w' : World G} {r : BootResult K}
    (hr : bootCall P sq gm t t.a2aind0 S isGamma parametric arg w = .ok (r, w')) :
    ∃ b rows, ∃ L U R : ℕ → ℕ → K, baseCL gm t t.a2aind0 "all-weighted" 1 = .ok b ∧
      r.sim.reserves.map ResRow.toDist =
        (List.range n).flatMap (fun i => (List.range S).map (fun s => Spec.distRow t.oAt L U R s i)) ∧
      r.summary t = .ok rows ∧ Spec.BootTable n S c sq b.rows U R rows := by
  obtain ⟨draw, gam, hz, hg, hf, h1, h2, h3, h4⟩ := bootCall_run gm hsq hP h hp hn (by omega) hv hpool hr
  obtain ⟨fit, b, rows, L, U, R, e1, e2, e3, e4, e5⟩ := C108_summary hsq gm h hp hn hS hv hz hg
  obtain rfl := Except.ok.inj (hf.symm.trans e1)
  refine ⟨b, rows, L, U, R, e2, by rw [h1]; exact e3, ?_, e5⟩
  unfold BootResult.summary
  rw [h2, h3, h4, h1]
  exact e4

end

/-- Deviations from the mean as a vector. -/
noncomputable def devVec (S : ℕ) (y : ℕ → ℝ) : EuclideanSpace ℝ (Fin S) :=
  WithLp.toLp 2 (fun s : Fin S => y s - Spec.meanOf S y)

theorem sqrt_sampleVar (S : ℕ) (y : ℕ → ℝ) :
    Real.sqrt (Spec.sampleVar S y) = ‖devVec S y‖ / Real.sqrt ((S : ℝ) - 1) := by
  unfold Spec.sampleVar
  rw [EuclideanSpace.norm_eq, Real.sqrt_div (Finset.sum_nonneg fun s _ => sq_nonneg _)]
  congr 2
  rw [Finset.sum_range]
  refine Finset.sum_congr rfl fun s _ => ?_
  simp [devVec]

theorem devVec_sum (S n : ℕ) (R : ℕ → ℕ → ℝ) :
    devVec S (fun s => ∑ i ∈ Finset.range n, R s i) = ∑ i ∈ Finset.range n, devVec S (fun s => R s i) := by
  ext s
  simp only [devVec, Spec.meanOf, WithLp.ofLp_sum, Finset.sum_apply]
  rw [Finset.sum_sub_distrib, Finset.sum_comm]
  simp only [div_eq_mul_inv, Finset.sum_mul]

theorem sqrt_var_sum_le (S n : ℕ) (R : ℕ → ℕ → ℝ) :
    Real.sqrt (Spec.sampleVar S (fun s => ∑ i ∈ Finset.range n, R s i)) ≤
      ∑ i ∈ Finset.range n, Real.sqrt (Spec.sampleVar S (fun s => R s i)) := by
  simp only [sqrt_sampleVar, devVec_sum]
  rw [← Finset.sum_div]
  exact div_le_div_of_nonneg_right (norm_sum_le _ _) (Real.sqrt_nonneg _)

theorem sampleVar_nonneg {S : ℕ} (hS : 2 ≤ S) (y : ℕ → ℝ) : 0 ≤ Spec.sampleVar S y := by
  have : (2 : ℝ) ≤ S := by exact_mod_cast hS
  exact div_nonneg (Finset.sum_nonneg fun s _ => sq_nonneg _) (by linarith)

theorem stepPrng_finite {K : Type} [Field K] [LinearOrder K] [IsStrictOrderedRing K] :
    Spec.FinitePrng (stepPrng K) :=
  ⟨(stepPrng_scales one_pos).choice_fin, (stepPrng_scales one_pos).normal_fin, (stepPrng_scales one_pos).gamma_fin⟩

/-- **C110.** In a run of `boot_cl` (domain of C108, real numbers) the standard error of the total is at most the sum
of the standard errors of the origins, and none of them is negative or missing. -/
theorem C110_total {G : Type} {P : Prng G ℝ} {t : Tri ℝ} {n S : ℕ} {c : ℕ → ℕ → ℝ} (gm : List (Num ℝ) → Num ℝ)
    (hP : Spec.FinitePrng P) (h : Spec.Stair t n c) (hp : Spec.Positive n c) (hn : 3 ≤ n) (hS : 2 ≤ S)
    (hv : ∀ i j, i + j < n → 0 < j → 0 ≤ Spec.incr (Spec.fitCum n c) i j) {parametric : Bool}
    (hpool : ∀ fit, bootFit Num.sqrt gm t t.a2aind0 = .ok fit → (∃ b, b ≠ 0 ∧ fit.scale = .fin b) ∧
      if parametric then (stdL Num.sqrt fit.sampling).isFin = true else ∀ v ∈ fit.sampling, v.isFin = true)
    {isGamma : Bool} {arg : RandArg} {w w' : World G} {r : BootResult ℝ}
    (hr : bootCall P Num.sqrt gm t t.a2aind0 S isGamma parametric arg w = .ok (r, w')) :
    ∃ rows tot, ∃ e : ℕ → ℝ, ∃ T : ℝ, r.summary t = .ok rows ∧
      (∀ i < n, ∃ row, rows[i]? = some row ∧ row.origin = some (t.oAt i) ∧ row.stdErr = .fin (e i) ∧ 0 ≤ e i) ∧
      rows[n]? = some tot ∧ tot.origin = none ∧ tot.stdErr = .fin T ∧ 0 ≤ T ∧ T ≤ ∑ i ∈ Finset.range n, e i := by
  obtain ⟨b, rows, L, U, R, hb, -, hs, hT⟩ := C108_call gm (fun y hy => ⟨_, Num.sqrt_fin hy⟩) hP h hp hn hS hv hpool hr
  obtain ⟨b', lab, hb', -, -, -, hbs⟩ := baseCL_stair h hp.ne_zero (h.indOn0 hp.ne_zero) hn
    (rowIs_all gm h hp (by omega) (le_refl 1)) (1 : ℝ)
  have hbb : b' = b := Except.ok.inj (hb'.symm.trans hb)
  subst hbb
  obtain ⟨tot, t1, t2, -, -, -, -, -, -, t9, -⟩ := hT.total
  refine ⟨rows, tot, fun i => Real.sqrt (Spec.sampleVar S (fun s => R s i)),
    Real.sqrt (Spec.sampleVar S (fun s => ∑ i ∈ Finset.range n, R s i)), hs, ?_, t1, t2, ?_, Real.sqrt_nonneg _,
    sqrt_var_sum_le S n R⟩
  · intro i hi
    obtain ⟨row, q, r1, r2, r3, -, -, -, -, -, -, -, r11, -⟩ := hT.row i hi
    obtain ⟨row', h1, h2, -⟩ := hbs.rows i hi
    obtain rfl : row' = q := Option.some.inj (h1.symm.trans r2)
    exact ⟨row, r1, by rw [r3, h2], by rw [r11, Num.sqrt_fin (sampleVar_nonneg hS _)], Real.sqrt_nonneg _⟩
  · rw [t9, Num.sqrt_fin (sampleVar_nonneg hS _)]

/-- A run on the example with two simulations: maturities, ultimates, reserves and standard errors. -/
example :
    ((bootCall (stepPrng ℚ) exSqrt (fun _ => .nan) exBoot exBoot.a2aind0 2 true false (.int 0)
        ⟨fun _ => 0, fun _ => 0, 0⟩).bind (fun p => (p.1.summary exBoot).map (fun rows =>
          rows.map (fun r => (r.maturity, r.latest, r.ultimate, r.reserve))))) = .ok
      [(some 3, .fin 300, .fin 300, .fin 0),
       (some 2, .fin 200, .fin (5771 / 18), .fin (2171 / 18)),
       (some 1, .fin 100, .fin (29000 / 99), .fin (19100 / 99)),
       (none, .fin 600, .fin (180881 / 198), .fin (62081 / 198))] ∧
    ((bootCall (stepPrng ℚ) exSqrt (fun _ => .nan) exBoot exBoot.a2aind0 2 true false (.int 0)
        ⟨fun _ => 0, fun _ => 0, 0⟩).bind (fun p => (p.1.summary exBoot).map (fun rows =>
          rows.map (fun r => r.stdErr)))) = .ok [.fin 0, .fin (209 / 12), .fin (6691 / 140), .fin (6356 / 99)] := by
  decide +kernel

end Trikit
