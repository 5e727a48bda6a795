import Verif.BootPlot
import Verif.Props.Transform
import Verif.Props.Quantile
import Verif.Props.BootSim
import Verif.Props.Mack

/-! # Bands of the bootstrap plot (C123) -/

set_option linter.unusedSectionVars false

namespace Trikit

section
variable {K : Type} [Field K] [LinearOrder K] [IsStrictOrderedRing K] [FloorRing K]
variable {t m : Tri K} {n S : ℕ} {c v : ℕ → ℕ → K}

/-! ## Specification -/

/-- Quantile of a sample with linear interpolation. -/
def Spec.quantile (l : List K) (q : K) : K :=
  Spec.interp (fun i => (l.insertionSort (· ≤ ·)).getD i 0) l.length (((l.length : K) - 1) * q)

/-- The simulated cumulative amounts of an origin at a period. -/
def Spec.simulated (proc : List (ProcRow K)) (o d : Int) : List K :=
  (proc.filter (fun r => decide (r.base.origin = o) && decide (r.base.dev = d))).filterMap (fun r => r.ultimate.toFin)

/-- The points of one line of the plot of an origin. -/
def Spec.line (out : List (BandRow K)) (o : Int) (k : BandKind) : List (Int × Num K) :=
  (out.filter (fun r => decide (r.origin = o) && decide (r.kind = k))).map (fun r => (r.dev, r.loss))

/-- The band of origin `i` at level `q`: the latest amount, then the quantiles of the simulated amounts of each later
period, those of the last period again at the label `lab` of the ultimates. -/
def Spec.band (t : Tri K) (n : ℕ) (c : ℕ → ℕ → K) (proc : List (ProcRow K)) (lab : Int) (i : ℕ) (q : K) :
    List (Int × Num K) :=
  (t.dAt (n - 1 - i), .fin (c i (n - 1 - i))) ::
    (((List.range n).filter (fun j => decide (n ≤ i + j))).map (fun j =>
      (t.dAt j, .fin (Spec.quantile (Spec.simulated proc (t.oAt i) (t.dAt j)) q))) ++
    [(lab, .fin (Spec.quantile (Spec.simulated proc (t.oAt i) (t.dAt (n - 1))) q))])

/-! ## Quantiles of groups -/

theorem groupQtl_fin {fs : List K} (hne : fs ≠ []) {q : K} (h0 : 0 ≤ q) (h1 : q ≤ 1) :
    groupQtl q (fs.map Num.fin) = .fin (Spec.quantile fs q) := by
  unfold groupQtl
  rw [List.filter_eq_self.2 (by simp), percentile_eq .linear hne h0 h1]
  rfl

/-- The quantile at the lower level is at most the one at the upper level. -/
theorem quantile_mono (l : List K) {q q' : K} (h0 : 0 ≤ q) (h : q ≤ q') (h1 : q' ≤ 1) :
    Spec.quantile l q ≤ Spec.quantile l q' := by
  rcases l with _ | ⟨a, l⟩
  · unfold Spec.quantile Spec.interp
    simp
  · have hne : (a :: l).map Num.fin ≠ ([] : List (Num K)) := by simp
    obtain ⟨P, lo, hi, -, -, -, hP, -, -, hm⟩ := C63_percentile .linear hne (by simp)
    have e : ∀ q, 0 ≤ q → q ≤ 1 → Spec.quantile (a :: l) q = P q := by
      intro q h0 h1
      have h2 := (hP q h0 h1).1
      rw [percentile_eq .linear (by simp) h0 h1] at h2
      exact Num.fin.inj h2
    rw [e q h0 (h.trans h1), e q' (h0.trans h) h1]
    exact hm q q' h0 h h1

theorem mem_dropDups_iff {α : Type} [DecidableEq α] {a : α} : ∀ {l : List α}, a ∈ dropDups l ↔ a ∈ l := by
  intro l
  induction l with
  | nil => exact Iff.rfl
  | cons b l ih =>
    unfold dropDups
    rw [List.mem_cons, List.mem_cons, List.mem_filter, ih]
    by_cases e : a = b <;> simp [e]

theorem find_key {l : List (Int × Int)} {o d : Int} (h : (o, d) ∈ l) :
    l.find? (fun k => decide (k.1 = o) && decide (k.2 = d)) = some (o, d) := by
  induction l with
  | nil => cases h
  | cons k l ih =>
    by_cases e : k = (o, d)
    · rw [e]; simp
    · rw [List.find?_cons_of_neg (by simpa [Prod.ext_iff] using e)]
      exact ih ((List.mem_cons.1 h).resolve_left (fun h => e h.symm))

/-- The merged quantile of a row whose origin and period are simulated. -/
theorem qtlAt_found {acc : Bool} {ds : List Int} {proc : List (ProcRow K)} {qs : List K} {qt : List (QtlRow K)}
    {lab : Int} (hl : tailLabel ds = .ok lab) (h : quantilesByDevp acc ds proc qs = .ok qt) {r : PlotRow K} {o : Int}
    (ho : r.origin = some o) {fs : List K} (hne : fs ≠ [])
    (hv : ((simVals lab proc).filter (fun v => decide (v.origin = o) && decide (v.dev = r.dev))).map SimVal.value =
      fs.map Num.fin) {k : ℕ} {q : K} (hk : qs[k]? = some q) (h0 : 0 ≤ q) (h1 : q ≤ 1) :
    qtlAt qt k r = .fin (Spec.quantile fs q) := by
  unfold quantilesByDevp at h
  rw [hl] at h
  dsimp only [bind, Except.bind] at h
  split at h
  · cases h
  injection h with h
  have hmem : (o, r.dev) ∈ dropDups ((simVals lab proc).map (fun v => (v.origin, v.dev))) := by
    rw [mem_dropDups_iff, List.mem_map]
    have : (simVals lab proc).filter (fun v => decide (v.origin = o) && decide (v.dev = r.dev)) ≠ [] := by
      intro e
      rw [e] at hv
      exact hne (List.map_eq_nil_iff.1 hv.symm)
    obtain ⟨v, hv⟩ := List.exists_mem_of_ne_nil _ this
    rw [List.mem_filter] at hv
    refine ⟨v, hv.1, ?_⟩
    have := hv.2
    simp only [Bool.and_eq_true, decide_eq_true_eq] at this
    rw [this.1, this.2]
  unfold qtlAt
  rw [← h, List.find?_append, List.find?_map, ho]
  have e : ((fun x : QtlRow K => decide (x.origin = some o) && decide (x.dev = r.dev)) ∘
      (fun k : Int × Int => ({ origin := some k.1, dev := k.2, qtls := qs.map (fun q => groupQtl q
          (((simVals lab proc).filter (fun v => decide (v.origin = k.1) && decide (v.dev = k.2))).map SimVal.value)) } :
        QtlRow K))) = fun k => decide (k.1 = o) && decide (k.2 = r.dev) := by
    funext k
    simp [Function.comp]
  rw [e, find_key hmem]
  show (List.map _ qs).getD k Num.nan = _
  rw [List.getD_eq_getElem?_getD, List.getElem?_map, hk]
  show groupQtl q _ = _
  rw [hv, groupQtl_fin hne h0 h1]

/-! ## Simulated values of a run on a staircase -/

theorem SimSpec.cellRows {x g : ℕ → ℕ → ℕ → K} {r : SimResult K} (ht : Spec.Stair t n c)
    (h : SimSpec t n S x g r) {i j : ℕ} (hi : i < n) (hj : j < n) :
    r.proc.filter (fun p => decide (p.base.origin = t.oAt i) && decide (p.base.dev = t.dAt j)) =
      (List.range S).map (fun s => procRowAt t n x g s i j) := by
  rw [h.proc, List.filter_flatMap]
  refine Eq.trans (flatMap_congr_mem (g := fun s => [procRowAt t n x g s i j]) ?_) (List.flatMap_pure_eq_map _ _)
  intro s _
  rw [filter_flatMap_single' hi, filter_map_range_single hj]
  · intro k hk
    have e : t.dAt k = t.dAt j ↔ k = j := ht.dAt_eq_iff hk hj
    show (decide (t.oAt i = t.oAt i) && decide (t.dAt k = t.dAt j)) = _
    simp [e]
  · intro i' hi' hne p hp
    obtain ⟨k, -, rfl⟩ := List.mem_map.1 hp
    show (decide (t.oAt i' = t.oAt i) && _) = false
    rw [decide_eq_false (fun e => hne (ht.oAt_inj hi' hi e)), Bool.false_and]

/-- Amounts of a cell after process error. -/
def Spec.finalCum (t : Tri K) (n : ℕ) (x g : ℕ → ℕ → ℕ → K) (i j s : ℕ) : K :=
  ∑ k ∈ Finset.range (j + 1), Spec.finalIncr t n x g s i k

theorem SimSpec.simulated {x g : ℕ → ℕ → ℕ → K} {r : SimResult K} (ht : Spec.Stair t n c)
    (h : SimSpec t n S x g r) {i j : ℕ} (hi : i < n) (hj : j < n) :
    Spec.simulated r.proc (t.oAt i) (t.dAt j) = (List.range S).map (Spec.finalCum t n x g i j) := by
  unfold Spec.simulated
  rw [h.cellRows ht hi hj, List.filterMap_map, ← List.filterMap_eq_map]
  rfl

theorem SimSpec.maxDev {x g : ℕ → ℕ → ℕ → K} {r : SimResult K} (ht : Spec.Stair t n c) (hn : 0 < n) (hS : 0 < S)
    (h : SimSpec t n S x g r) : (r.proc.map (fun p => p.base.dev)).max? = some (t.dAt (n - 1)) := by
  rw [List.max?_eq_some_iff, h.proc]
  constructor
  · rw [List.mem_map]
    refine ⟨procRowAt t n x g 0 0 (n - 1), ?_, rfl⟩
    simp only [List.mem_flatMap, List.mem_map, List.mem_range]
    exact ⟨0, hS, 0, hn, n - 1, by omega, rfl⟩
  · intro b hb
    rw [List.mem_map] at hb
    obtain ⟨r, hr, rfl⟩ := hb
    simp only [List.mem_flatMap, List.mem_map, List.mem_range] at hr
    obtain ⟨s, -, i, -, j, hj, rfl⟩ := hr
    show t.dAt j ≤ t.dAt (n - 1)
    exact (ht.dAt_le hj (by omega)).2 (by omega)

/-- The group of a cell. -/
theorem SimSpec.groupCell {x g : ℕ → ℕ → ℕ → K} {r : SimResult K} (ht : Spec.Stair t n c)
    (h : SimSpec t n S x g r) {lab : Int} (hlab : ∀ j < n, t.dAt j < lab) {i j : ℕ} (hi : i < n) (hj : j < n) :
    ((simVals lab r.proc).filter (fun v => decide (v.origin = t.oAt i) && decide (v.dev = t.dAt j))).map SimVal.value =
      (Spec.simulated r.proc (t.oAt i) (t.dAt j)).map Num.fin := by
  unfold simVals
  dsimp only
  rw [List.filter_append, List.filter_map, List.map_append, List.map_map, h.simulated ht hi hj]
  have e : (fun v : SimVal K => decide (v.origin = t.oAt i) && decide (v.dev = t.dAt j)) ∘
      (fun p : ProcRow K => (⟨p.base.origin, p.base.dev, p.ultimate⟩ : SimVal K)) =
      fun p => decide (p.base.origin = t.oAt i) && decide (p.base.dev = t.dAt j) := rfl
  rw [e, h.cellRows ht hi hj, List.filter_eq_nil_iff.2, List.map_nil, List.append_nil, List.map_map, List.map_map]
  · rfl
  · intro v hv
    obtain ⟨w, -, rfl⟩ := List.mem_map.1 hv
    simp [(hlab j hj).ne']

/-- The group of an ultimate. -/
theorem SimSpec.groupUlt {x g : ℕ → ℕ → ℕ → K} {r : SimResult K} (ht : Spec.Stair t n c) (hn : 0 < n) (hS : 0 < S)
    (h : SimSpec t n S x g r) {lab : Int} (hlab : ∀ j < n, t.dAt j < lab) {i : ℕ} (hi : i < n) :
    ((simVals lab r.proc).filter (fun v => decide (v.origin = t.oAt i) && decide (v.dev = lab))).map SimVal.value =
      (Spec.simulated r.proc (t.oAt i) (t.dAt (n - 1))).map Num.fin := by
  have hj : n - 1 < n := by omega
  unfold simVals
  dsimp only
  have hmax : ((r.proc.map (fun p => (⟨p.base.origin, p.base.dev, p.ultimate⟩ : SimVal K))).map SimVal.dev).max? =
      some (t.dAt (n - 1)) := by
    rw [List.map_map]; exact h.maxDev ht hn hS
  have hnone : (r.proc.map (fun p => (⟨p.base.origin, p.base.dev, p.ultimate⟩ : SimVal K))).filter
      (fun v => decide (v.origin = t.oAt i) && decide (v.dev = lab)) = [] := by
    rw [List.filter_eq_nil_iff]
    intro v hv
    obtain ⟨p, hp, rfl⟩ := List.mem_map.1 hv
    rw [h.proc] at hp
    simp only [List.mem_flatMap, List.mem_map, List.mem_range] at hp
    obtain ⟨s, -, i, -, j, hj, rfl⟩ := hp
    show ¬ ((_ && decide (t.dAt j = lab)) = true)
    simp [(hlab j hj).ne]
  rw [List.filter_append, hnone, List.nil_append, hmax, List.filter_map, List.filter_filter, List.map_map,
    List.filter_map, List.map_map, h.simulated ht hi hj]
  have e : (fun p : ProcRow K => (((fun v : SimVal K => decide (v.origin = t.oAt i) && decide (v.dev = lab)) ∘
      fun v => { v with dev := lab }) (⟨p.base.origin, p.base.dev, p.ultimate⟩ : SimVal K) &&
        decide (some p.base.dev = some (t.dAt (n - 1))))) =
      fun p => decide (p.base.origin = t.oAt i) && decide (p.base.dev = t.dAt (n - 1)) := by
    funext p
    simp [Function.comp]
  refine Eq.trans (congrArg _ (congrFun (congrArg List.filter e) r.proc)) ?_
  rw [h.cellRows ht hi hj, List.map_map, List.map_map]
  rfl

/-! ## Lines of the plot -/

/-- Lines made from the three rows of each entry. -/
theorem line_band {rows : List (PlotRow K)} (hs : ∀ r ∈ rows, r.origin.isSome = true) {f g : PlotRow K → Num K}
    {o : Int} (hf0 : ∀ r ∈ rows, r.fcst = false → (f r).isNaN = true)
    (hf1 : ∀ r ∈ rows, r.fcst = true → r.origin = some o → (f r).isNaN = false)
    (hg0 : ∀ r ∈ rows, r.fcst = false → (g r).isNaN = true)
    (hg1 : ∀ r ∈ rows, r.fcst = true → r.origin = some o → (g r).isNaN = false)
    (hl : ∀ r ∈ rows, r.origin = some o → r.loss.isNaN = false) :
    let out := (rows.flatMap (fun r =>
      [(⟨r.origin.getD 0, r.dev, if r.fcst then .forecast else .actual, r.loss⟩ : BandRow K),
       ⟨r.origin.getD 0, r.dev, .lower, f r⟩, ⟨r.origin.getD 0, r.dev, .upper, g r⟩])).filter
        (fun r => !r.loss.isNaN)
    Spec.line out o .lower =
      (rows.filter (fun r => r.fcst && decide (r.origin = some o))).map (fun r => (r.dev, f r)) ∧
    Spec.line out o .upper =
      (rows.filter (fun r => r.fcst && decide (r.origin = some o))).map (fun r => (r.dev, g r)) ∧
    Spec.line out o .actual =
      ((rows.filter (fun r => !r.fcst)).filter (fun r => decide (r.origin = some o))).map (fun r => (r.dev, r.loss)) ∧
    Spec.line out o .forecast =
      (rows.filter (fun r => r.fcst && decide (r.origin = some o))).map (fun r => (r.dev, r.loss)) := by
  induction rows with
  | nil => exact ⟨rfl, rfl, rfl, rfl⟩
  | cons r rows ih =>
    obtain ⟨i1, i2, i3, i4⟩ := ih (fun x hx => hs x (by simp [hx])) (fun x hx => hf0 x (by simp [hx]))
      (fun x hx => hf1 x (by simp [hx])) (fun x hx => hg0 x (by simp [hx])) (fun x hx => hg1 x (by simp [hx]))
      (fun x hx => hl x (by simp [hx]))
    have s := hs r (by simp)
    obtain ⟨o', ho'⟩ := Option.isSome_iff_exists.1 s
    have f0 := hf0 r (by simp)
    have f1 := hf1 r (by simp)
    have g0 := hg0 r (by simp)
    have g1 := hg1 r (by simp)
    have l1 := hl r (by simp)
    unfold Spec.line at i1 i2 i3 i4 ⊢
    rw [ho'] at f1 g1 l1
    simp only [List.flatMap_cons, List.filter_append, List.map_append, i1, i2, i3, i4, ho', Option.getD_some,
      List.filter_cons, Option.some_inj]
    by_cases e : o' = o
    · subst e
      cases hc : r.fcst
      · simp [f0 hc, g0 hc, l1 rfl, List.filter_cons, ho']
      · simp [f1 hc rfl, g1 hc rfl, l1 rfl, List.filter_cons, ho']
    · cases hc : r.fcst <;> cases hfn : (f r).isNaN <;> cases hgn : (g r).isNaN <;> cases hln : r.loss.isNaN <;>
        simp [e, hfn, hgn, hln, List.filter_cons, ho']

/-- The first forecast period of an origin. -/
theorem firstForecast_eq {rows : List (PlotRow K)} {inc : Int} (hinc : 0 < inc) {o : Int} {d : Int}
    (hm : ∃ r ∈ rows, r.origin = some o ∧ r.fcst = true ∧ r.dev = d)
    (hle : ∀ r ∈ rows, r.origin = some o → r.fcst = true → d ≤ r.dev) :
    firstForecast rows inc (some o) = some d := by
  obtain ⟨r₀, hr₀, ho₀, hf₀, hd₀⟩ := hm
  unfold firstForecast
  rw [List.min?_eq_some_iff]
  constructor
  · rw [List.mem_map]
    exact ⟨r₀, List.mem_filter.2 ⟨hr₀, by simp [ho₀]⟩, by rw [if_pos hf₀, hd₀]⟩
  · intro b hb
    rw [List.mem_map] at hb
    obtain ⟨r, hr, rfl⟩ := hb
    rw [List.mem_filter] at hr
    have ho : r.origin = some o := by simpa using hr.2
    split
    · next hf => exact hle r hr.1 ho hf
    · cases hmax : (rows.map PlotRow.dev).max? with
      | none =>
        rw [List.max?_eq_none_iff, List.map_eq_nil_iff] at hmax
        rw [hmax] at hr₀
        cases hr₀
      | some M =>
        have := (List.max?_eq_some_iff.1 hmax).2 d (List.mem_map.2 ⟨r₀, hr₀, hd₀⟩)
        show d ≤ M + inc
        omega

/-! ## C123 -/

/-- Levels of a two-sided interval: the first is the lower one, the last the upper one. -/
theorem levels_two_sided {q : K} (h0 : 0 ≤ q) (h1 : q ≤ 1) :
    ∃ qs, qtlsFormatter [.fin q] true = .ok qs ∧ qs ≠ [] ∧ qs[0]? = some ((1 - q) / 2) ∧
      qs[qs.length - 1]? = some ((1 + q) / 2) := by
  have hr : qtlsInRange [Num.fin q] = true := by
    rw [qtlsInRange_iff]
    intro v hv
    rw [List.mem_singleton] at hv
    exact ⟨q, hv, h0, h1⟩
  unfold qtlsFormatter
  rw [if_pos hr]
  refine ⟨_, rfl, ?_⟩
  rw [if_pos rfl]
  show sortUnique [(1 - q) / 2, (1 + q) / 2] ≠ [] ∧ _
  rcases h0.eq_or_lt with e | hlt
  · subst e
    have : sortUnique [(1 - (0 : K)) / 2, (1 + 0) / 2] = [1 / 2] := by
      unfold sortUnique
      simp
    show _ ∧ (sortUnique [(1 - (0 : K)) / 2, (1 + 0) / 2])[0]? = _ ∧
      (sortUnique [(1 - (0 : K)) / 2, (1 + 0) / 2])[(sortUnique [(1 - (0 : K)) / 2, (1 + 0) / 2]).length - 1]? = _
    rw [this]
    simp
  · have hl : (1 - q) / 2 < (1 + q) / 2 := by linarith
    have : sortUnique [(1 - q) / 2, (1 + q) / 2] = [(1 - q) / 2, (1 + q) / 2] := by
      unfold sortUnique
      rw [List.dedup_eq_self.2 (by simp [hl.ne])]
      simp [List.insertionSort, List.orderedInsert, hl.le]
    show _ ∧ (sortUnique [(1 - q) / 2, (1 + q) / 2])[0]? = _ ∧
      (sortUnique [(1 - q) / 2, (1 + q) / 2])[(sortUnique [(1 - q) / 2, (1 + q) / 2]).length - 1]? = _
    rw [this]
    simp

/-- **C123 fails**: as the code stands, no plot is drawn.  The levels cannot be formatted, and if they could, the
quantiles could not be computed with the pinned pandas. -/
theorem C123_fails (t : Tri K) (b : BaseResult K) (proc : List (ProcRow K)) (q : List (Num K)) (acc : Bool) :
    bandPlot false acc t b proc q = .error .typeError ∧
    ∀ qs : List K, qs ≠ [] → ∀ ds, ∀ qt, quantilesByDevp false ds proc qs ≠ .ok qt := by
  refine ⟨rfl, ?_⟩
  intro qs hqs ds qt
  unfold quantilesByDevp
  cases tailLabel ds with
  | error e => intro h; cases h
  | ok lab =>
    dsimp only [bind, Except.bind]
    rw [if_pos ⟨rfl, hqs⟩]
    intro h; cases h

theorem filter_ge_cons {n i : ℕ} (hi : i < n) :
    (List.range n).filter (fun j => decide (n ≤ i + j + 1)) =
      (n - 1 - i) :: (List.range n).filter (fun j => decide (n ≤ i + j)) := by
  have h : ∀ m k, k < m → (List.range m).filter (fun j => decide (k ≤ j)) =
      k :: (List.range m).filter (fun j => decide (k + 1 ≤ j)) := by
    intro m
    induction m with
    | zero => intro k hk; omega
    | succ m ih =>
      intro k hk
      rw [List.range_succ, List.filter_append, List.filter_append]
      rcases Nat.lt_succ_iff_lt_or_eq.1 hk with hk | rfl
      · rw [ih k hk]
        simp [hk.le, hk]
      · have e1 : (List.range k).filter (fun j => decide (k ≤ j)) = [] := by
          rw [List.filter_eq_nil_iff]
          intro j hj
          rw [List.mem_range] at hj
          simp; omega
        have e2 : (List.range k).filter (fun j => decide (k + 1 ≤ j)) = [] := by
          rw [List.filter_eq_nil_iff]
          intro j hj
          rw [List.mem_range] at hj
          simp; omega
        rw [e1, e2]
        simp
  have e1 : (fun j => decide (n ≤ i + j + 1)) = fun j => decide (n - 1 - i ≤ j) := by
    funext j; exact decide_eq_decide.2 (by omega)
  have e2 : (fun j => decide (n ≤ i + j)) = fun j => decide (n - 1 - i + 1 ≤ j) := by
    funext j; exact decide_eq_decide.2 (by omega)
  rw [e1, e2, h n _ (by omega)]

/-- Bands for given tables. -/
theorem bandPlot_stair (ht : Spec.Stair t n c) (hp : Spec.Positive n c) (hn : 3 ≤ n) (hS : 0 < S)
    (he : Spec.EvenlySpaced t.devs) {gm : List (Num K) → Num K} {x g : ℕ → ℕ → ℕ → K} {r : SimResult K}
    (h : SimSpec t n S x g r) {q : K} (h0 : 0 ≤ q) (h1 : q ≤ 1) :
    ∃ b out lab, baseCL gm t t.a2aind0 "all-weighted" 1 = .ok b ∧
      bandPlot true true t b r.proc [.fin q] = .ok out ∧ (∀ j < n, t.dAt j < lab) ∧ ∀ i < n,
        (∀ j < n, (Spec.simulated r.proc (t.oAt i) (t.dAt j)).length = S) ∧
        Spec.line out (t.oAt i) .actual =
          ((List.range n).filter (fun j => decide (i + j < n))).map (fun j => (t.dAt j, .fin (c i j))) ∧
        Spec.line out (t.oAt i) .forecast =
          ((List.range n).filter (fun j => decide (n ≤ i + j + 1))).map (fun j =>
            (t.dAt j, .fin (c i (n - 1 - i) * ∏ m ∈ Finset.Ico (n - 1 - i) j, Spec.mackF 1 n c (fun _ _ => 1) m))) ++
          [(lab, .fin (c i (n - 1 - i) * ∏ m ∈ Finset.Ico (n - 1 - i) (n - 1), Spec.mackF 1 n c (fun _ _ => 1) m))] ∧
        Spec.line out (t.oAt i) .lower = Spec.band t n c r.proc lab i ((1 - q) / 2) ∧
        Spec.line out (t.oAt i) .upper = Spec.band t n c r.proc lab i ((1 + q) / 2) := by
  obtain ⟨b, all, lab, hb, hall, hdv, htl, hlab, hact, hfc⟩ := plotData_even ht hp.ne_zero (ht.indOn0 hp.ne_zero) hn he
    (rowIs_weighted gm ht hp (by omega)) 1
  obtain ⟨qs, hqs, hne, hq0, hq1⟩ := levels_two_sided h0 h1
  have hlow : (0 : K) ≤ (1 - q) / 2 ∧ (1 - q) / 2 ≤ 1 := ⟨by linarith, by linarith⟩
  have hupp : (0 : K) ≤ (1 + q) / 2 ∧ (1 + q) / 2 ≤ 1 := ⟨by linarith, by linarith⟩
  have hnc : t.devs.length = n := ht.nc
  obtain ⟨inc, hinc, hpos⟩ := minIncrement_pos ht.devs (by omega)
  obtain ⟨qt, hqt⟩ : ∃ qt, quantilesByDevp true t.devs r.proc qs = .ok qt := by
    unfold quantilesByDevp
    rw [htl]
    exact ⟨_, rfl⟩
  obtain ⟨rows, hrows⟩ : ∃ rows, rows = all.filter (fun r => r.origin.isSome) := ⟨_, rfl⟩
  have hsome : ∀ x ∈ rows, x.origin.isSome = true := by
    intro x hx
    rw [hrows] at hx
    exact (List.mem_filter.1 hx).2
  have hact' : rows.filter (fun x => !x.fcst) = all.filter (fun x => !x.fcst) := by
    rw [hrows, List.filter_filter]
    refine List.filter_congr (fun x hx => ?_)
    cases hc : x.fcst with
    | true => simp
    | false =>
      have : x ∈ all.filter (fun x => !x.fcst) := List.mem_filter.2 ⟨hx, by simp [hc]⟩
      rw [hact] at this
      simp only [List.mem_flatMap, List.mem_map] at this
      obtain ⟨j, -, k, -, rfl⟩ := this
      rfl
  have hfc' : ∀ i < n, rows.filter (fun x => x.fcst && decide (x.origin = some (t.oAt i))) =
      all.filter (fun x => x.fcst && decide (x.origin = some (t.oAt i))) := by
    intro i _
    rw [hrows, List.filter_filter]
    refine List.filter_congr (fun x _ => ?_)
    cases ho : x.origin <;> simp
  have hout : bandPlot true true t b r.proc [.fin q] = .ok ((rows.flatMap (fun x =>
      [(⟨x.origin.getD 0, x.dev, if x.fcst then .forecast else .actual, x.loss⟩ : BandRow K),
       ⟨x.origin.getD 0, x.dev, .lower, bandAt rows inc qt 0 x⟩,
       ⟨x.origin.getD 0, x.dev, .upper, bandAt rows inc qt (qs.length - 1) x⟩])).filter
        (fun x => !x.loss.isNaN)) := by
    unfold bandPlot
    rw [if_neg (by simp), hqs]
    dsimp only [bind, Except.bind]
    unfold bandData
    rw [hall]
    dsimp only [bind, Except.bind]
    rw [hdv, hqt, hinc]
    dsimp only
    rw [if_neg hne, ← hrows]
  refine ⟨b, _, lab, hb, hout, hlab, ?_⟩
  intro i hi
  have hF := hfc i hi
  rw [← hfc' i hi] at hF
  have hmem : ∀ x ∈ rows, x.fcst = true → x.origin = some (t.oAt i) →
      x ∈ rows.filter (fun x => x.fcst && decide (x.origin = some (t.oAt i))) := by
    intro x hx h1 h2
    exact List.mem_filter.2 ⟨hx, by simp [h1, h2]⟩
  have hff : firstForecast rows inc (some (t.oAt i)) = some (t.dAt (n - 1 - i)) := by
    apply firstForecast_eq hpos
    · have hx : ∃ y : PlotRow K, y ∈ rows.filter (fun z : PlotRow K => z.fcst && decide (z.origin = some (t.oAt i))) ∧
          y.origin = some (t.oAt i) ∧ y.fcst = true ∧ y.dev = t.dAt (n - 1 - i) := by
        rw [hF]
        exact ⟨_, List.mem_append_left _ (List.mem_map.2 ⟨n - 1 - i, List.mem_filter.2
          ⟨List.mem_range.2 (by omega), by simp; omega⟩, rfl⟩), rfl, rfl, rfl⟩
      obtain ⟨y, hy, e1, e2, e3⟩ := hx
      exact ⟨y, (List.mem_filter.1 hy).1, e1, e2, e3⟩
    · intro x hx h1 h2
      have := hmem x hx h2 h1
      rw [hF, List.mem_append, List.mem_map, List.mem_singleton] at this
      rcases this with ⟨j, hj, rfl⟩ | rfl
      · rw [List.mem_filter, List.mem_range] at hj
        have h2 : n ≤ i + j + 1 := by simpa using hj.2
        exact (ht.dAt_le (by omega) hj.1).2 (by omega)
      · exact (hlab _ (by omega)).le
  have hband : ∀ (k : ℕ) (q' : K), qs[k]? = some q' → 0 ≤ q' → q' ≤ 1 →
      (rows.filter (fun x => x.fcst && decide (x.origin = some (t.oAt i)))).map
        (fun x => (x.dev, bandAt rows inc qt k x)) = Spec.band t n c r.proc lab i q' := by
    intro k q' hk hq0 hq1
    rw [hF, filter_ge_cons hi, List.map_cons, List.cons_append, List.map_cons, List.map_append, List.map_map]
    unfold Spec.band
    have hsim : ∀ j < n, Spec.simulated r.proc (t.oAt i) (t.dAt j) ≠ [] := by
      intro j hj e
      rw [h.simulated ht hi hj, List.map_eq_nil_iff, List.range_eq_nil] at e
      omega
    congr 1
    · unfold bandAt
      rw [if_neg (by simp), if_pos hff]
      simp
    congr 1
    · apply List.map_congr_left
      intro j hj
      rw [List.mem_filter, List.mem_range] at hj
      have hij : n ≤ i + j := by simpa using hj.2
      show (t.dAt j, _) = _
      congr 1
      unfold bandAt
      rw [if_neg (by simp), if_neg]
      · exact qtlAt_found htl hqt rfl (hsim j hj.1) (h.groupCell ht hlab hi hj.1) hk hq0 hq1
      · show firstForecast rows inc (some (t.oAt i)) ≠ some (t.dAt j)
        rw [hff]
        intro e
        have := ht.dAt_inj (by omega) hj.1 (Option.some.inj e)
        omega
    · rw [List.map_singleton]
      congr 2
      unfold bandAt
      rw [if_neg (by simp), if_neg]
      · exact qtlAt_found htl hqt rfl (hsim (n - 1) (by omega)) (h.groupUlt ht (by omega) hS hlab hi) hk hq0 hq1
      · show firstForecast rows inc (some (t.oAt i)) ≠ some lab
        rw [hff]
        intro e
        have := hlab (n - 1 - i) (by omega)
        rw [Option.some.inj e] at this
        exact lt_irrefl _ this
  have hnan : ∀ (k : ℕ) (q' : K), qs[k]? = some q' → 0 ≤ q' → q' ≤ 1 → ∀ x ∈ rows, x.fcst = true →
      x.origin = some (t.oAt i) → (bandAt rows inc qt k x).isNaN = false := by
    intro k q' hk hq0 hq1 x hx h1 h2
    have : (x.dev, bandAt rows inc qt k x) ∈ Spec.band t n c r.proc lab i q' := by
      rw [← hband k q' hk hq0 hq1]
      exact List.mem_map.2 ⟨x, hmem x hx h1 h2, rfl⟩
    unfold Spec.band at this
    simp only [List.mem_cons, List.mem_append, List.mem_map, Prod.mk.injEq, List.not_mem_nil, or_false] at this
    rcases this with ⟨-, e⟩ | ⟨j, -, -, e⟩ | ⟨-, e⟩
    · rw [e]; rfl
    · rw [← e]; rfl
    · rw [e]; rfl
  have hnan0 : ∀ k, ∀ x ∈ rows, x.fcst = false → (bandAt rows inc qt k x).isNaN = true := by
    intro k x _ hx
    unfold bandAt
    rw [if_pos hx]; rfl
  have hloss : ∀ x ∈ rows, x.origin = some (t.oAt i) → x.loss.isNaN = false := by
    intro x hx h1
    cases hc : x.fcst with
    | true =>
      have := hmem x hx hc h1
      rw [hF, List.mem_append, List.mem_map, List.mem_singleton] at this
      rcases this with ⟨j, -, rfl⟩ | rfl <;> rfl
    | false =>
      have : x ∈ rows.filter (fun x => !x.fcst) := List.mem_filter.2 ⟨hx, by simp [hc]⟩
      rw [hact', hact] at this
      simp only [List.mem_flatMap, List.mem_map] at this
      obtain ⟨j, -, k, -, rfl⟩ := this
      rfl
  obtain ⟨l1, l2, l3, l4⟩ := line_band hsome (o := t.oAt i) (hnan0 0) (hnan 0 _ hq0 hlow.1 hlow.2)
    (hnan0 (qs.length - 1)) (hnan (qs.length - 1) _ hq1 hupp.1 hupp.2) hloss
  refine ⟨fun j hj => by rw [h.simulated ht hi hj]; simp, ?_, ?_, ?_, ?_⟩
  · rw [l3, hact', hact, List.filter_flatMap, ← flatMap_if_single, List.map_flatMap]
    refine List.flatMap_congr (fun j hj => ?_)
    rw [filter_pick hi _ _ _ (fun k hk => by simp [ht.oAt_eq_iff hk hi])]
    by_cases e : i + j < n <;> simp [e]
  · rw [l4, hF, List.map_append, List.map_map]
    simp [Function.comp_def]
  · rw [l1, hband 0 _ hq0 hlow.1 hlow.2]
  · rw [l2, hband _ _ hq1 hupp.1 hupp.2]

/-- **C123, partial** (with a `_qtls_formatter` that takes `two_sided` and a pandas that takes `method`; staircases with
positive amounts, evenly spaced labels, fitted increments that are not negative after the first period, finite draws,
a level in [0, 1]): the plot of an origin has the observed amounts, the chain ladder forecasts from the latest amount
on, and two bands which start at the latest amount and then are the quantiles (1 - q)/2 and (1 + q)/2 of the simulated
cumulative amounts of each later period, repeated for the ultimate.  Missing: the code as it stands (`C123_fails`). -/
theorem C123_partial {sq : Num K → Num K} (hsq : ∀ y : K, 0 ≤ y → ∃ r, sq (.fin y) = .fin r)
    {gm : List (Num K) → Num K} (ht : Spec.Stair t n c) (hp : Spec.Positive n c) (hn : 3 ≤ n)
    (he : Spec.EvenlySpaced t.devs) (hv : ∀ i j, i + j < n → 0 < j → 0 ≤ Spec.incr (Spec.fitCum n c) i j)
    {f : BootFit K} (hf : bootFit sq gm t t.a2aind0 = .ok f) (hS : 0 < S)
    {draw : ℕ → Num K} {gam : ℕ → Num K → Num K → Num K} (hz : ∀ p < S * (n * n), (draw p).isFin = true)
    (hg : ∀ p < S * (n * n), ∀ a b, (gam p a b).isFin = true) {q : K} (h0 : 0 ≤ q) (h1 : q ≤ 1) :
    let proc := (bootSims sq t f.fitIncr f.scale S draw gam).proc
    ∃ b out lab, baseFromLdfs t f.ldfs = .ok b ∧
      bandPlot true true t b proc [.fin q] = .ok out ∧ (∀ j < n, t.dAt j < lab) ∧ ∀ i < n,
        (∀ j < n, (Spec.simulated proc (t.oAt i) (t.dAt j)).length = S ∧
          Spec.quantile (Spec.simulated proc (t.oAt i) (t.dAt j)) ((1 - q) / 2) ≤
            Spec.quantile (Spec.simulated proc (t.oAt i) (t.dAt j)) ((1 + q) / 2)) ∧
        Spec.line out (t.oAt i) .actual =
          ((List.range n).filter (fun j => decide (i + j < n))).map (fun j => (t.dAt j, .fin (c i j))) ∧
        Spec.line out (t.oAt i) .forecast =
          ((List.range n).filter (fun j => decide (n ≤ i + j + 1))).map (fun j =>
            (t.dAt j, .fin (c i (n - 1 - i) * ∏ m ∈ Finset.Ico (n - 1 - i) j, Spec.mackF 1 n c (fun _ _ => 1) m))) ++
          [(lab, .fin (c i (n - 1 - i) * ∏ m ∈ Finset.Ico (n - 1 - i) (n - 1), Spec.mackF 1 n c (fun _ _ => 1) m))] ∧
        Spec.line out (t.oAt i) .lower = Spec.band t n c proc lab i ((1 - q) / 2) ∧
        Spec.line out (t.oAt i) .upper = Spec.band t n c proc lab i ((1 + q) / 2) := by
  obtain ⟨f', hf', fs⟩ := bootFit_stair sq gm ht hp hn
  rw [hf] at hf'
  injection hf' with e
  subst e
  obtain ⟨rt, hrt⟩ := exists_roots (sq := sq) hsq hv
  have hs := bootSims_stair ht (by omega) hS fs.incr fs.incr_origins fs.incr_devs hrt hz (scale := f.scale) hg
  obtain ⟨b, out, lab, hb, hout, hlab, hi⟩ := bandPlot_stair (gm := gm) ht hp hn hS he hs h0 h1
  have hl : ldfsByName gm t t.a2aind0 "all-weighted" 1 = .ok f.ldfs := by
    unfold bootFit at hf
    dsimp only [bind, Except.bind] at hf
    split at hf
    · cases hf
    · next l hl =>
      rw [hl]
      split at hf
      · cases hf
      split at hf
      · cases hf
      split at hf
      · cases hf
      cases hf
      rfl
  refine ⟨b, out, lab, ?_, hout, hlab, ?_⟩
  · unfold baseCL at hb
    rw [hl] at hb
    exact hb
  · intro i hi'
    obtain ⟨l0, l1⟩ := hi i hi'
    exact ⟨fun j hj => ⟨l0 j hj, quantile_mono _ (by linarith) (by linarith) (by linarith)⟩, l1⟩

/-! ## C124: totals -/

/-- All simulated amounts of a period, whatever the origin. -/
def Spec.pooled (proc : List (ProcRow K)) (d : Int) : List K :=
  (proc.filter (fun r => decide (r.base.dev = d))).filterMap (fun r => r.ultimate.toFin)

theorem filterMap_toFin {l : List (Num K)} (h : ∀ v ∈ l, v.isFin = true) :
    (l.filterMap Num.toFin).map Num.fin = l := by
  induction l with
  | nil => rfl
  | cons a l ih =>
    obtain ⟨y, rfl⟩ := (Num.isFin_iff a).1 (h a (by simp))
    rw [List.filterMap_cons_some (f := Num.toFin) (a := Num.fin y) (b := y) rfl, List.map_cons,
      ih (fun v hv => h v (by simp [hv]))]

/-- **C124, partial**: for every table of finite simulated amounts, the rows "total" of the periods before the ultimate
have the quantiles of the amounts of all origins pooled, so they lie between the smallest and the largest amount of a
single origin.  Missing: quantiles of the sums over the origins (`C124_fails`). -/
theorem C124_partial {ds : List Int} {proc : List (ProcRow K)} {qs : List K} {qt : List (QtlRow K)} {lab : Int}
    (hl : tailLabel ds = .ok lab) (h : quantilesByDevp true ds proc qs = .ok qt)
    (hfin : ∀ r ∈ proc, r.ultimate.isFin = true) (hq : ∀ q ∈ qs, 0 ≤ q ∧ q ≤ 1) :
    ∀ x ∈ qt, x.origin = none → x.dev ≠ lab →
      x.qtls = qs.map (fun q => .fin (Spec.quantile (Spec.pooled proc x.dev) q)) ∧
      ∃ lo ∈ Spec.pooled proc x.dev, ∃ hi ∈ Spec.pooled proc x.dev, ∀ q ∈ qs,
        lo ≤ Spec.quantile (Spec.pooled proc x.dev) q ∧ Spec.quantile (Spec.pooled proc x.dev) q ≤ hi := by
  intro x hx ho hd
  unfold quantilesByDevp at h
  rw [hl] at h
  dsimp only [bind, Except.bind] at h
  rw [if_neg (by simp)] at h
  injection h with h
  rw [← h, List.mem_append, List.mem_map, List.mem_map] at hx
  rcases hx with ⟨k, -, rfl⟩ | ⟨d, hmem, rfl⟩
  · cases ho
  replace hd : d ≠ lab := hd
  have hv : ((simVals lab proc).filter (fun v => decide (v.dev = d))).map SimVal.value =
      (Spec.pooled proc d).map Num.fin := by
    unfold simVals Spec.pooled
    dsimp only
    rw [List.filter_append, List.filter_map (l := proc), List.map_append, List.map_map]
    rw [show ∀ a b c : List (Num K), a = c → b = [] → a ++ b = c from fun a b c h1 h2 => by rw [h1, h2, List.append_nil]]
    · have e := filterMap_toFin (l := (proc.filter (fun r => decide (r.base.dev = d))).map ProcRow.ultimate) (by
        intro v hv
        obtain ⟨r, hr, rfl⟩ := List.mem_map.1 hv
        exact hfin r (List.mem_filter.1 hr).1)
      rw [List.filterMap_map] at e
      exact e.symm
    · rw [List.map_eq_nil_iff, List.filter_eq_nil_iff]
      intro v hv
      obtain ⟨w, -, rfl⟩ := List.mem_map.1 hv
      simpa using fun e : lab = d => hd e.symm
  have hne : Spec.pooled proc d ≠ [] := by
    intro e
    rw [e, List.map_nil, List.map_eq_nil_iff] at hv
    rw [mem_dropDups_iff, List.mem_map] at hmem
    obtain ⟨v, hv', rfl⟩ := hmem
    exact List.filter_eq_nil_iff.1 hv v (List.mem_filter.1 hv').1 (by simp)
  refine ⟨?_, ?_⟩
  · show qs.map _ = qs.map _
    refine List.map_congr_left (fun q hq' => ?_)
    rw [hv, groupQtl_fin hne (hq q hq').1 (hq q hq').2]
  · obtain ⟨P, lo, hi, hlo, hhi, -, hP, -⟩ := C63_percentile (K := K) .linear
      (l := (Spec.pooled proc d).map Num.fin) (by simpa using hne) (by simp)
    refine ⟨lo, by simpa using hlo, hi, by simpa using hhi, fun q hq' => ?_⟩
    obtain ⟨e, h1, h2⟩ := hP q (hq q hq').1 (hq q hq').2
    rw [percentile_eq .linear hne (hq q hq').1 (hq q hq').2] at e
    have e' : Spec.quantile (Spec.pooled proc d) q = P q := Num.fin.inj e
    rw [e']
    exact ⟨h1, h2⟩

end

/-- A run with two simulations on the 3 x 3 example: the residual of one cell is 1, all others are 0; gamma draws are
their means. -/
def bandRun : Except PyErr (List (BandRow ℚ)) := do
  let f ← bootFit exSqrt (fun _ => .nan) exBoot exBoot.a2aind0
  let r := bootSims exSqrt exBoot f.fitIncr f.scale 2 (fun p => if p = 3 then .fin 1 else 0) (fun _ a b => a * b)
  let b ← baseFromLdfs exBoot f.ldfs
  bandPlot true true exBoot b r.proc [.fin (1 / 2)]

/-- C123 on the example: the bands at level 1/2 of the second origin start at its latest amount 200. -/
example : bandRun.map (fun o => (Spec.line o 2002 .lower, Spec.line o 2002 .upper)) =
    .ok ([(2, .fin 200), (3, .fin (1215 / 4)), (4, .fin (1215 / 4))],
      [(2, .fin 200), (3, .fin (1245 / 4)), (4, .fin (1245 / 4))]) ∧
    bandRun.map (fun o => (Spec.line o 2002 .actual, Spec.line o 2002 .forecast)) =
    .ok ([(1, .fin 90), (2, .fin 200)], [(2, .fin 200), (3, .fin 300), (4, .fin 300)]) := by
  decide +kernel

/-- The quantile rows "total" of the same run, with the sums of its simulated ultimates. -/
def totalRun : Except PyErr (List (Int × List (Num ℚ)) × List (Num ℚ)) := do
  let f ← bootFit exSqrt (fun _ => .nan) exBoot exBoot.a2aind0
  let r := bootSims exSqrt exBoot f.fitIncr f.scale 2 (fun p => if p = 3 then .fin 1 else 0) (fun _ a b => a * b)
  let qt ← quantilesByDevp true (f.ldfs.map Prod.fst) r.proc [1 / 2, 1]
  .ok ((qt.filter (fun x => x.origin.isNone)).map (fun x => (x.dev, x.qtls)),
    (List.range 2).map (fun s => ((r.reserves.filter (fun q => decide (q.sim = s))).map ResRow.ultimate).sum))

/-- **C124 fails**: the totals of the two runs are 6355/7 and 900, the "total" quantiles at ultimate are 300 and 315. -/
theorem C124_fails : totalRun = .ok ([(1, [.fin 100, .fin 110]), (2, [.fin 200, .fin 210]),
    (3, [.fin 300, .fin 315]), (4, [.fin 300, .fin 315])], [.fin (6355 / 7), .fin 900]) := by
  decide +kernel

end Trikit
