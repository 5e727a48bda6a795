import Verif.BootPanels
import Verif.Props.BootPlot
import Verif.Props.Exhibits
import Verif.Props.Print

/-!
# C141: the panels of the bootstrap plot
-/

set_option linter.unusedSectionVars false

namespace Trikit

section
variable {K : Type} [Field K] [LinearOrder K] [IsStrictOrderedRing K] [FloorRing K]
variable {t : Tri K} {n S : ℕ} {c : ℕ → ℕ → K}

/-! ## Specification -/

/-- The region between the bands of origin `i` at level `q`, as period, lower and upper edge: closed at the latest
amount, then the quantiles of the simulated amounts of each later period, those of the last period again at `lab`. -/
def Spec.region (t : Tri K) (n : ℕ) (c : ℕ → ℕ → K) (proc : List (ProcRow K)) (lab : Int) (i : ℕ) (q : K) :
    List (Int × Num K × Num K) :=
  let edge := fun j => (Num.fin (Spec.quantile (Spec.simulated proc (t.oAt i) (t.dAt j)) ((1 - q) / 2)),
    Num.fin (Spec.quantile (Spec.simulated proc (t.oAt i) (t.dAt j)) ((1 + q) / 2)))
  (t.dAt (n - 1 - i), .fin (c i (n - 1 - i)), .fin (c i (n - 1 - i))) ::
    (((List.range n).filter (fun j => decide (n ≤ i + j))).map (fun j => (t.dAt j, edge j)) ++ [(lab, edge (n - 1))])

/-! ## Ticks -/

theorem tickable_ticks {M : K} (h : Spec.Tickable M) : ∃ top : K, M < top ∧ top < 2 * M ∧
    getYticks M = .ok [0, top / 4, 2 * (top / 4), 3 * (top / 4), top] := by
  obtain ⟨h1, h2, h3⟩ := h
  obtain ⟨e, he, he1, he2⟩ : ∃ e : ℕ, e < 10 ∧ (10 : K) ^ e < M ∧ M < 10 ^ (e + 1) := by
    rcases xDiv_spec M with ⟨e, he, -, h4, h5⟩ | ⟨-, h⟩
    · refine ⟨e, he, h4, ?_⟩
      by_cases h9 : e < 9
      · exact lt_of_le_of_ne (h5 h9) (h3 _)
      · obtain rfl : e = 9 := by omega
        exact h2
    · exact absurd h (not_le.2 h1)
  obtain ⟨m, -, -, hm1, hm2, hm3⟩ := C69_ticks M e he he1 he2
  refine ⟨10 ^ e * m, hm1, ?_, hm3⟩
  have : (10 : K) ^ e * ((m : K) - 1) = 10 ^ e * m - 10 ^ e := by ring
  rw [this] at hm2
  linarith

theorem not_tickable {M : K} (h : ¬ Spec.Tickable M) : getYticks M = .error .valueError := by
  refine C69_raises _ ?_
  by_contra hc
  rw [not_or, not_or] at hc
  exact h ⟨not_le.1 hc.1, not_le.1 hc.2.2, fun j hj => hc.2.1 ⟨j, hj⟩⟩

/-! ## Headers -/

/-- Levels further apart than 1/10^7 have different headers. -/
theorem hdrPct_apart {x y : K} (hx : 0 ≤ x) (h : x + 1 / 10 ^ 7 < y) : hdrPct (hdrNum x) ≠ hdrPct (hdrNum y) := by
  intro e
  unfold hdrPct at e
  have e' := hdrCore_inj (List.append_inj_left' e rfl)
  unfold hdrNum at e'
  have hy : 0 ≤ y := by
    have : (0 : K) < 1 / 10 ^ 7 := by positivity
    linarith
  have h1 := roundHalfEven_near (100000 * (100 * x))
  have h2 := roundHalfEven_near (100000 * (100 * y))
  have p1 : 0 ≤ roundHalfEven (100000 * (100 * x)) := roundHalfEven_nonneg (by positivity)
  have p2 : 0 ≤ roundHalfEven (100000 * (100 * y)) := roundHalfEven_nonneg (by positivity)
  have e2 : roundHalfEven (100000 * (100 * x)) = roundHalfEven (100000 * (100 * y)) := by omega
  rw [e2] at h1
  rw [abs_le] at h1 h2
  have : (10 : K) ^ 7 * (x + 1 / 10 ^ 7) < 10 ^ 7 * y := mul_lt_mul_of_pos_left h (by positivity)
  rw [mul_add, mul_one_div_cancel (by positivity)] at this
  norm_num at this
  linarith [h1.1, h2.2]

/-! ## Lines -/

theorem bandLine_distinct (rows : List (BandRow K)) (o : Int) (k : BandKind) :
    bandLine false rows o k = Spec.line rows o k := by
  unfold bandLine Spec.line drawnBy
  simp

/-- With the same header, the line of either band has the points of both. -/
theorem bandLine_same_length (rows : List (BandRow K)) (o : Int) {k : BandKind} (hk : k = .lower ∨ k = .upper) :
    (bandLine true rows o k).length = (Spec.line rows o .lower).length + (Spec.line rows o .upper).length := by
  unfold bandLine Spec.line
  simp only [List.length_map]
  induction rows with
  | nil => rfl
  | cons r rows ih =>
    have e : ∀ p : BandRow K → Bool, ((r :: rows).filter p).length = (if p r then 1 else 0) + (rows.filter p).length := by
      intro p
      rw [List.filter_cons]
      split <;> simp <;> omega
    rw [e, e, e, ih]
    have : ∀ a b c x y z : ℕ, x = y + z → x + (a + b) = y + a + (z + b) := by intros; omega
    refine this _ _ 0 _ _ _ ?_
    by_cases ho : r.origin = o
    · rcases hk with rfl | rfl <;> cases hr : r.kind <;> simp [ho, hr, drawnBy]
    · simp [ho]

/-- Every row of the table of an origin belongs to one of its lines. -/
theorem mem_line {rows : List (BandRow K)} {r : BandRow K} (h : r ∈ rows) :
    (r.dev, r.loss) ∈ Spec.line rows r.origin r.kind :=
  List.mem_map.2 ⟨r, List.mem_filter.2 ⟨h, by simp⟩, rfl⟩

theorem line_mem {rows : List (BandRow K)} {o : Int} {k : BandKind} {p : Int × Num K} (h : p ∈ Spec.line rows o k) :
    ∃ r ∈ rows, r.origin = o ∧ r.kind = k ∧ r.dev = p.1 ∧ r.loss = p.2 := by
  obtain ⟨r, hr, rfl⟩ := List.mem_map.1 h
  obtain ⟨hr, e⟩ := List.mem_filter.1 hr
  simp only [Bool.and_eq_true, decide_eq_true_eq] at e
  exact ⟨r, hr, e.1, e.2, rfl, rfl⟩

theorem plotData_origins {b : BaseResult K} {rows : List (PlotRow K)} (h : plotData t b = .ok rows) :
    ∀ r ∈ rows, ∀ o, r.origin = some o → ∃ i < t.nr, o = t.oAt i := by
  unfold plotData at h
  dsimp only [bind, Except.bind] at h
  split at h
  · cases h
  injection h with h
  intro r hr o ho
  have hc : ∀ x ∈ plotCells t b, ∃ i < t.nr, x.origin = t.oAt i := by
    intro x hx
    unfold plotCells at hx
    simp only [List.mem_flatMap, List.mem_map, List.mem_range] at hx
    obtain ⟨j, -, i, hi, rfl⟩ := hx
    exact ⟨i, hi, rfl⟩
  rw [← h] at hr
  simp only [List.mem_append, List.mem_map, List.mem_filter, List.mem_range, List.mem_singleton] at hr
  rcases hr with ((⟨x, ⟨hx, -⟩, rfl⟩ | ⟨x, ⟨hx, -⟩, rfl⟩) | ⟨x, ⟨i, hi, rfl⟩, rfl⟩) | (⟨d, -, rfl⟩ | rfl)
  · obtain ⟨i, hi, e⟩ := hc x hx
    exact ⟨i, hi, by rw [← e]; exact (Option.some.inj ho).symm⟩
  · obtain ⟨i, hi, e⟩ := hc x hx
    exact ⟨i, hi, by rw [← e]; exact (Option.some.inj ho).symm⟩
  · exact ⟨i, hi, (Option.some.inj ho).symm⟩
  · cases ho
  · cases ho

theorem bandPlot_origins {two acc : Bool} {b : BaseResult K} {proc : List (ProcRow K)} {q : List (Num K)}
    {out : List (BandRow K)} (h : bandPlot two acc t b proc q = .ok out) :
    ∀ r ∈ out, ∃ i < t.nr, r.origin = t.oAt i := by
  unfold bandPlot at h
  split at h
  · cases h
  dsimp only [bind, Except.bind] at h
  split at h
  · cases h
  split at h
  · cases h
  rename_i qs _ d hd
  injection h with h
  intro r hr
  rw [← h] at hr
  replace hr := (List.mem_filter.1 hr).1
  unfold bandData at hd
  dsimp only [bind, Except.bind] at hd
  split at hd
  · cases hd
  rename_i all hall
  split at hd
  · cases hd
  split at hd
  · cases hd
  split at hd
  · cases hd
  injection hd with hd
  rw [← hd, List.mem_flatMap] at hr
  obtain ⟨x, hx, hr⟩ := hr
  obtain ⟨hx, hs⟩ := List.mem_filter.1 hx
  obtain ⟨o, ho⟩ := Option.isSome_iff_exists.1 hs
  obtain ⟨i, hi, e⟩ := plotData_origins hall x hx o ho
  refine ⟨i, hi, ?_⟩
  simp only [List.mem_cons, List.not_mem_nil, or_false] at hr
  rcases hr with rfl | rfl | rfl <;> simp [ho, e]

/-! ## Panels -/

/-- The table of C123 in terms of its lines. -/
structure Spec.Lines (t : Tri K) (n : ℕ) (out : List (BandRow K)) (F A L U : ℕ → List (Int × Num K)) : Prop where
  origins : ∀ r ∈ out, ∃ i < n, r.origin = t.oAt i
  forecast : ∀ i < n, Spec.line out (t.oAt i) .forecast = F i
  actual : ∀ i < n, Spec.line out (t.oAt i) .actual = A i
  lower : ∀ i < n, Spec.line out (t.oAt i) .lower = L i
  upper : ∀ i < n, Spec.line out (t.oAt i) .upper = U i
  devsL : ∀ i < n, (L i).map Prod.fst = (F i).map Prod.fst
  devsU : ∀ i < n, (U i).map Prod.fst = (F i).map Prod.fst
  neF : ∀ i < n, F i ≠ []
  neA : ∀ i < n, A i ≠ []
  fin : ∀ i < n, ∀ p, p ∈ F i ∨ p ∈ A i ∨ p ∈ L i ∨ p ∈ U i → ∃ x : K, p.2 = .fin x

variable {out : List (BandRow K)} {F A L U : ℕ → List (Int × Num K)}

theorem Spec.Lines.mem (h : Spec.Lines t n out F A L U) {r : BandRow K} (hr : r ∈ out) :
    ∃ i < n, r.origin = t.oAt i ∧
      ((r.dev, r.loss) ∈ F i ∨ (r.dev, r.loss) ∈ A i ∨ (r.dev, r.loss) ∈ L i ∨ (r.dev, r.loss) ∈ U i) := by
  obtain ⟨i, hi, e⟩ := h.origins r hr
  refine ⟨i, hi, e, ?_⟩
  have := mem_line hr
  rw [e] at this
  cases hk : r.kind <;> rw [hk] at this
  · rw [h.actual i hi] at this; exact Or.inr (Or.inl this)
  · rw [h.forecast i hi] at this; exact Or.inl this
  · rw [h.lower i hi] at this; exact Or.inr (Or.inr (Or.inl this))
  · rw [h.upper i hi] at this; exact Or.inr (Or.inr (Or.inr this))

theorem Spec.Lines.labels (h : Spec.Lines t n out F A L U) (ht : Spec.Stair t n c) :
    labels (out.map BandRow.origin) = (List.range n).map t.oAt := by
  rw [← ht.origins_eq]
  refine labels_eq_of_mem ht.origins (fun x => ?_)
  rw [ht.origins_eq]
  simp only [List.mem_map, List.mem_range]
  constructor
  · rintro ⟨i, hi, rfl⟩
    obtain ⟨p, hp⟩ := List.exists_mem_of_ne_nil _ (h.neF i hi)
    rw [← h.forecast i hi] at hp
    obtain ⟨r, hr, e, -⟩ := line_mem hp
    exact ⟨r, hr, e⟩
  · rintro ⟨r, hr, rfl⟩
    obtain ⟨i, hi, e⟩ := h.origins r hr
    exact ⟨i, hi, e.symm⟩

theorem Spec.Lines.max (h : Spec.Lines t n out F A L U) {i : ℕ} (hi : i < n) :
    ∃ M : K, IsGreatest {x | ∃ r ∈ out, r.origin = t.oAt i ∧ r.loss = .fin x} M ∧
      numMax ((out.filter (fun r => decide (r.origin = t.oAt i))).map BandRow.loss) = .fin M := by
  have hx : ∀ r : BandRow K, ∃ x : K, r ∈ out → r.loss = .fin x := by
    intro r
    by_cases hr : r ∈ out
    · obtain ⟨i, hi, -, hm⟩ := h.mem hr
      obtain ⟨x, hx⟩ := h.fin i hi _ hm
      exact ⟨x, fun _ => hx⟩
    · exact ⟨0, fun h => absurd h hr⟩
  choose x hx using hx
  have hne : ∃ r ∈ out, r.origin = t.oAt i := by
    obtain ⟨p, hp⟩ := List.exists_mem_of_ne_nil _ (h.neF i hi)
    rw [← h.forecast i hi] at hp
    obtain ⟨r, hr, e, -⟩ := line_mem hp
    exact ⟨r, hr, e⟩
  have e : (out.filter (fun r => decide (r.origin = t.oAt i))).map BandRow.loss =
      ((out.filter (fun r => decide (r.origin = t.oAt i))).map x).map Num.fin := by
    rw [List.map_map]
    exact List.map_congr_left fun r hr => hx r (List.mem_filter.1 hr).1
  obtain ⟨M, hM, hM1, hM2⟩ := numMax_fin (l := (out.filter (fun r : BandRow K => decide (r.origin = t.oAt i))).map x)
    (by
      obtain ⟨r, hr, he⟩ := hne
      exact List.ne_nil_of_mem (List.mem_map_of_mem (List.mem_filter.2 ⟨hr, by simpa using he⟩)))
  refine ⟨M, ⟨?_, ?_⟩, by rw [e, hM1]⟩
  · obtain ⟨r, hr, rfl⟩ := List.mem_map.1 hM
    obtain ⟨hr, he⟩ := List.mem_filter.1 hr
    exact ⟨r, hr, by simpa using he, hx r hr⟩
  · rintro y ⟨r, hr, he, hy⟩
    have : y = x r := by rw [hx r hr] at hy; exact (Num.fin.inj hy).symm
    rw [this]
    exact hM2 _ (List.mem_map_of_mem (List.mem_filter.2 ⟨hr, by simpa using he⟩))

theorem Spec.Lines.neL (h : Spec.Lines t n out F A L U) {i : ℕ} (hi : i < n) : L i ≠ [] := by
  intro e
  have := h.devsL i hi
  rw [e, List.map_nil, eq_comm, List.map_eq_nil_iff] at this
  exact h.neF i hi this

theorem Spec.Lines.neU (h : Spec.Lines t n out F A L U) {i : ℕ} (hi : i < n) : U i ≠ [] := by
  intro e
  have := h.devsU i hi
  rw [e, List.map_nil, eq_comm, List.map_eq_nil_iff] at this
  exact h.neF i hi this

/-- The four lines and the filled region when the headers differ. -/
theorem Spec.Lines.drawn (h : Spec.Lines t n out F A L U) {i : ℕ} (hi : i < n) :
    bandLines false out (t.oAt i) =
      [(.forecast, F i), (.actual, A i), (.lower, L i), (.upper, U i)] ∧
    fillBetween (bandLines false out (t.oAt i)) =
      .ok (((F i).map Prod.fst).zip (((L i).map Prod.snd).zip ((U i).map Prod.snd))) := by
  have e : bandLines false out (t.oAt i) =
      [(.forecast, F i), (.actual, A i), (.lower, L i), (.upper, U i)] := by
    unfold bandLines
    simp only [bandLine_distinct, List.map_cons, List.map_nil, h.forecast i hi, h.actual i hi, h.lower i hi,
      h.upper i hi]
    refine List.filter_eq_self.2 ?_
    intro p hp
    simp only [List.mem_cons, List.not_mem_nil, or_false] at hp
    rcases hp with rfl | rfl | rfl | rfl
    · simpa using h.neF i hi
    · simpa using h.neA i hi
    · simpa using h.neL hi
    · simpa using h.neU hi
  refine ⟨e, ?_⟩
  rw [e]
  have l1 : (L i).length = (F i).length := by simpa using congrArg List.length (h.devsL i hi)
  have l2 : (U i).length = (F i).length := by simpa using congrArg List.length (h.devsU i hi)
  show (if (F i).length = (L i).length ∧ (L i).length = (U i).length then _ else _) = _
  rw [if_pos ⟨l1.symm, by rw [l1, l2]⟩]

/-- With the same header the filled region cannot be drawn. -/
theorem Spec.Lines.same (h : Spec.Lines t n out F A L U) {i : ℕ} (hi : i < n) :
    fillBetween (bandLines true out (t.oAt i)) = .error .valueError := by
  have l1 : (L i).length = (F i).length := by simpa using congrArg List.length (h.devsL i hi)
  have l2 : (U i).length = (F i).length := by simpa using congrArg List.length (h.devsU i hi)
  have hF : bandLine true out (t.oAt i) .forecast = F i := by
    rw [← h.forecast i hi]
    unfold bandLine Spec.line drawnBy
    simp
  have hA : bandLine true out (t.oAt i) .actual = A i := by
    rw [← h.actual i hi]
    unfold bandLine Spec.line drawnBy
    simp
  have hL := bandLine_same_length out (t.oAt i) (Or.inl rfl : BandKind.lower = .lower ∨ BandKind.lower = .upper)
  have hU := bandLine_same_length out (t.oAt i) (Or.inr rfl : BandKind.upper = .lower ∨ BandKind.upper = .upper)
  rw [h.lower i hi, h.upper i hi, l1, l2] at hL hU
  have hpos : 0 < (F i).length := List.length_pos_iff.2 (h.neF i hi)
  have e : bandLines true out (t.oAt i) = [(.forecast, F i), (.actual, A i),
      (.lower, bandLine true out (t.oAt i) .lower), (.upper, bandLine true out (t.oAt i) .upper)] := by
    unfold bandLines
    simp only [List.map_cons, List.map_nil, hF, hA]
    refine List.filter_eq_self.2 ?_
    intro p hp
    simp only [List.mem_cons, List.not_mem_nil, or_false] at hp
    rcases hp with rfl | rfl | rfl | rfl
    · simpa using h.neF i hi
    · simpa using h.neA i hi
    · simpa using List.length_pos_iff.1 (by rw [hL]; omega)
    · simpa using List.length_pos_iff.1 (by rw [hU]; omega)
  rw [e]
  show (if (F i).length = (bandLine true out (t.oAt i) .lower).length ∧ _ then _ else _) = _
  rw [if_neg]
  rintro ⟨h1, -⟩
  rw [hL] at h1
  omega

/-- The panels and the ticks of the x axis, from the lines. -/
theorem bandPanels_lines (h : Spec.Lines t n out F A L U) (ht : Spec.Stair t n c) :
    ∃ M : ℕ → K, (∀ i < n, IsGreatest {x | ∃ r ∈ out, r.origin = t.oAt i ∧ r.loss = .fin x} (M i)) ∧
      ((∀ i < n, Spec.Tickable (M i)) → ∃ ps, bandPanels false out = .ok ps ∧ ps.length = n ∧
        ∀ i < n, ∃ p, ps[i]? = some p ∧ p.label = t.oAt i ∧
          p.lines = [(.forecast, F i), (.actual, A i), (.lower, L i), (.upper, U i)] ∧
          p.fill = ((F i).map Prod.fst).zip (((L i).map Prod.snd).zip ((U i).map Prod.snd)) ∧
          ∃ top, M i < top ∧ top < 2 * M i ∧ p.yticks = [0, top / 4, 2 * (top / 4), 3 * (top / 4), top]) ∧
      ((∃ i < n, ¬ Spec.Tickable (M i)) → bandPanels false out = .error .valueError) ∧
      (0 < n → bandPanels true out = .error .valueError) := by
  have hmax : ∀ i, ∃ M : K, i < n →
      IsGreatest {x | ∃ r ∈ out, r.origin = t.oAt i ∧ r.loss = .fin x} M ∧
      numMax ((out.filter (fun r => decide (r.origin = t.oAt i))).map BandRow.loss) = .fin M := by
    intro i
    by_cases hi : i < n
    · obtain ⟨M, hM⟩ := h.max hi
      exact ⟨M, fun _ => hM⟩
    · exact ⟨0, fun h => absurd h hi⟩
  choose M hM using hmax
  have htick : ∀ i < n, lossTicks (numMax ((out.filter (fun r => decide (r.origin = t.oAt i))).map
      BandRow.loss)) = getYticks (M i) := fun i hi => by rw [(hM i hi).2]; rfl
  have hcase : ∀ i < n, (∃ l, getYticks (M i) = .ok l) ∨ getYticks (M i) = .error .valueError := by
    intro i _
    by_cases hT : Spec.Tickable (M i)
    · obtain ⟨top, -, -, e⟩ := tickable_ticks hT
      exact Or.inl ⟨_, e⟩
    · exact Or.inr (not_tickable hT)
  refine ⟨M, fun i hi => (hM i hi).1, ?_, ?_, ?_⟩
  · intro hall
    have : ∀ i, ∃ top : K, i < n → M i < top ∧ top < 2 * M i ∧
        getYticks (M i) = .ok [0, top / 4, 2 * (top / 4), 3 * (top / 4), top] := by
      intro i
      by_cases hi : i < n
      · obtain ⟨top, e⟩ := tickable_ticks (hall i hi)
        exact ⟨top, fun _ => e⟩
      · exact ⟨0, fun h => absurd h hi⟩
    choose top htop using this
    refine ⟨(List.range n).map (fun i => ⟨t.oAt i, [(.forecast, F i), (.actual, A i), (.lower, L i), (.upper, U i)],
      [0, top i / 4, 2 * (top i / 4), 3 * (top i / 4), top i],
      ((F i).map Prod.fst).zip (((L i).map Prod.snd).zip ((U i).map Prod.snd))⟩), ?_, by simp, ?_⟩
    · unfold bandPanels
      rw [h.labels ht, List.mapM_map]
      refine mapM_ok_map _ (fun i hi => ?_)
      rw [List.mem_range] at hi
      show (lossTicks _ >>= _) = _
      rw [htick i hi, (htop i hi).2.2]
      show (fillBetween (bandLines false out (t.oAt i)) >>= _) = _
      rw [(h.drawn hi).2, (h.drawn hi).1]
      rfl
    · intro i hi
      exact ⟨_, by rw [List.getElem?_map, List.getElem?_range hi]; rfl, rfl, rfl, rfl, top i, (htop i hi).1,
        (htop i hi).2.1, rfl⟩
  · rintro ⟨i, hi, hbad⟩
    unfold bandPanels
    rw [h.labels ht, List.mapM_map]
    refine mapM_some_error ?_ ⟨i, List.mem_range.2 hi, ?_⟩
    · intro i hi
      rw [List.mem_range] at hi
      rcases hcase i hi with ⟨l, hl⟩ | hl
      · left
        refine ⟨⟨t.oAt i, bandLines false out (t.oAt i), l,
          ((F i).map Prod.fst).zip (((L i).map Prod.snd).zip ((U i).map Prod.snd))⟩, ?_⟩
        show (lossTicks _ >>= _) = _
        rw [htick i hi, hl]
        show (fillBetween (bandLines false out (t.oAt i)) >>= _) = _
        rw [(h.drawn hi).2]
        rfl
      · right
        show (lossTicks _ >>= _) = _
        rw [htick i hi, hl]
        rfl
    · show (lossTicks _ >>= _) = _
      rw [htick i hi, not_tickable hbad]
      rfl
  · intro hn
    have herr : ∀ i < n, (lossTicks (numMax ((out.filter (fun r => decide (r.origin = t.oAt i))).map BandRow.loss)) >>=
        fun y => fillBetween (bandLines true out (t.oAt i)) >>= fun f =>
          (Except.ok ⟨t.oAt i, bandLines true out (t.oAt i), y, f⟩ : Except PyErr (BandPanel K))) =
        .error .valueError := by
      intro i hi
      rw [htick i hi, h.same hi]
      rcases hcase i hi with ⟨l, hl⟩ | hl <;> rw [hl] <;> rfl
    unfold bandPanels
    rw [h.labels ht, List.mapM_map]
    exact mapM_some_error (fun i hi => Or.inr (herr i (List.mem_range.1 hi)))
      ⟨0, List.mem_range.2 hn, herr 0 hn⟩

/-- The lines of C123. -/
theorem lines_of_stair {proc : List (ProcRow K)} {lab : Int} {q : K} {G : ℕ → ℕ → K} (ht : Spec.Stair t n c)
    (ho : ∀ r ∈ out, ∃ i < n, r.origin = t.oAt i)
    (hi : ∀ i < n,
      Spec.line out (t.oAt i) .actual =
        ((List.range n).filter (fun j => decide (i + j < n))).map (fun j => (t.dAt j, .fin (c i j))) ∧
      Spec.line out (t.oAt i) .forecast =
        ((List.range n).filter (fun j => decide (n ≤ i + j + 1))).map (fun j => (t.dAt j, .fin (G i j))) ++
        [(lab, .fin (G i (n - 1)))] ∧
      Spec.line out (t.oAt i) .lower = Spec.band t n c proc lab i ((1 - q) / 2) ∧
      Spec.line out (t.oAt i) .upper = Spec.band t n c proc lab i ((1 + q) / 2)) :
    Spec.Lines t n out
      (fun i => ((List.range n).filter (fun j => decide (n ≤ i + j + 1))).map (fun j => (t.dAt j, .fin (G i j))) ++
        [(lab, .fin (G i (n - 1)))])
      (fun i => ((List.range n).filter (fun j => decide (i + j < n))).map (fun j => (t.dAt j, .fin (c i j))))
      (fun i => Spec.band t n c proc lab i ((1 - q) / 2)) (fun i => Spec.band t n c proc lab i ((1 + q) / 2)) := by
  have hdev : ∀ i < n, ∀ q' : K, (Spec.band t n c proc lab i q').map Prod.fst =
      (((List.range n).filter (fun j => decide (n ≤ i + j + 1))).map (fun j => (t.dAt j, Num.fin (G i j))) ++
        [(lab, Num.fin (G i (n - 1)))]).map Prod.fst := by
    intro i hi q'
    unfold Spec.band
    rw [filter_ge_cons hi]
    simp [Function.comp_def]
  refine ⟨ho, fun i h => (hi i h).2.1, fun i h => (hi i h).1, fun i h => (hi i h).2.2.1, fun i h => (hi i h).2.2.2,
    fun i h => hdev i h _, fun i h => hdev i h _, by simp, ?_, ?_⟩
  · intro i h
    exact List.ne_nil_of_mem (List.mem_map_of_mem (List.mem_filter.2 ⟨List.mem_range.2 (show 0 < n by omega),
      by simpa using h⟩))
  · intro i _ p hp
    have hb : ∀ q' : K, p ∈ Spec.band t n c proc lab i q' → ∃ x : K, p.2 = .fin x := by
      intro q' hp
      unfold Spec.band at hp
      simp only [List.mem_cons, List.mem_append, List.mem_map, List.not_mem_nil, or_false] at hp
      rcases hp with rfl | ⟨j, -, rfl⟩ | rfl <;> exact ⟨_, rfl⟩
    rcases hp with hp | hp | hp | hp
    · simp only [List.mem_append, List.mem_map, List.mem_singleton] at hp
      rcases hp with ⟨j, -, rfl⟩ | rfl <;> exact ⟨_, rfl⟩
    · obtain ⟨j, -, rfl⟩ := List.mem_map.1 hp
      exact ⟨_, rfl⟩
    · exact hb _ hp
    · exact hb _ hp

theorem region_eq {proc : List (ProcRow K)} {lab : Int} {q : K} {i : ℕ} {G : ℕ → K} (hi : i < n) :
    ((((List.range n).filter (fun j => decide (n ≤ i + j + 1))).map (fun j => (t.dAt j, Num.fin (G j))) ++
        [(lab, Num.fin (G (n - 1)))]).map Prod.fst).zip
      (((Spec.band t n c proc lab i ((1 - q) / 2)).map Prod.snd).zip
        ((Spec.band t n c proc lab i ((1 + q) / 2)).map Prod.snd)) = Spec.region t n c proc lab i q := by
  unfold Spec.band Spec.region
  rw [filter_ge_cons hi]
  simp only [List.map_cons, List.map_append, List.map_map, List.map_nil, List.cons_append, List.zip_cons_cons]
  congr 1
  rw [List.zip_append (by simp), List.zip_append (by simp)]
  rw [List.zip_map', List.zip_map']
  rfl

/-- The ticks of the x axis from the lines. -/
theorem bandTicks_stair {proc : List (ProcRow K)} {lab : Int} {q : K} {G : ℕ → ℕ → K} (ht : Spec.Stair t n c)
    (hn : 0 < n) (hlab : ∀ j < n, t.dAt j < lab)
    (h : Spec.Lines t n out
      (fun i => ((List.range n).filter (fun j => decide (n ≤ i + j + 1))).map (fun j => (t.dAt j, .fin (G i j))) ++
        [(lab, .fin (G i (n - 1)))])
      (fun i => ((List.range n).filter (fun j => decide (i + j < n))).map (fun j => (t.dAt j, .fin (c i j))))
      (fun i => Spec.band t n c proc lab i ((1 - q) / 2)) (fun i => Spec.band t n c proc lab i ((1 + q) / 2))) :
    bandTicks out = (List.range n).map (fun j => (t.dAt j, some (t.dAt j))) ++ [(lab, none)] := by
  have hd : labels (out.map BandRow.dev) = (List.range n).map t.dAt ++ [lab] := by
    refine labels_eq_of_mem ?_ (fun x => ?_)
    · rw [List.pairwise_append]
      refine ⟨by rw [← ht.devs_eq]; exact ht.devs, by simp, ?_⟩
      intro a ha y hy
      obtain ⟨j, hj, rfl⟩ := List.mem_map.1 ha
      rw [List.mem_singleton] at hy
      rw [hy]
      exact hlab j (List.mem_range.1 hj)
    · simp only [List.mem_append, List.mem_map (f := t.dAt), List.mem_range, List.mem_singleton]
      constructor
      · rintro (⟨j, hj, rfl⟩ | rfl)
        · have : (t.dAt j, Num.fin (c 0 j)) ∈ Spec.line out (t.oAt 0) .actual := by
            rw [h.actual 0 hn]
            exact List.mem_map.2 ⟨j, List.mem_filter.2 ⟨List.mem_range.2 hj, by simpa using hj⟩, rfl⟩
          obtain ⟨r, hr, -, -, e, -⟩ := line_mem this
          exact List.mem_map.2 ⟨r, hr, e⟩
        · have : (x, Num.fin (G 0 (n - 1))) ∈ Spec.line out (t.oAt 0) .forecast := by
            rw [h.forecast 0 hn]
            simp
          obtain ⟨r, hr, -, -, e, -⟩ := line_mem this
          exact List.mem_map.2 ⟨r, hr, e⟩
      · intro hx
        obtain ⟨r, hr, rfl⟩ := List.mem_map.1 hx
        obtain ⟨i, hi, -, hm⟩ := h.mem hr
        have hb : ∀ q' : K, (r.dev, r.loss) ∈ Spec.band t n c proc lab i q' →
            (∃ a < n, t.dAt a = r.dev) ∨ r.dev = lab := by
          intro q' hm
          unfold Spec.band at hm
          simp only [List.mem_cons, List.mem_append, List.mem_map, List.mem_filter, List.mem_range,
            List.not_mem_nil, or_false, Prod.mk.injEq] at hm
          rcases hm with ⟨e, -⟩ | ⟨j, ⟨hj, -⟩, e, -⟩ | ⟨e, -⟩
          · exact Or.inl ⟨_, by omega, e.symm⟩
          · exact Or.inl ⟨j, hj, e⟩
          · exact Or.inr e
        rcases hm with hm | hm | hm | hm
        · simp only [List.mem_append, List.mem_map, List.mem_filter, List.mem_range, List.mem_singleton,
            Prod.mk.injEq] at hm
          rcases hm with ⟨j, ⟨hj, -⟩, e, -⟩ | ⟨e, -⟩
          · exact Or.inl ⟨j, hj, e⟩
          · exact Or.inr e
        · simp only [List.mem_map, List.mem_filter, List.mem_range, Prod.mk.injEq] at hm
          obtain ⟨j, ⟨hj, -⟩, e, -⟩ := hm
          exact Or.inl ⟨j, hj, e⟩
        · exact hb _ hm
        · exact hb _ hm
  have hmx : ((List.range n).map t.dAt ++ [lab]).max? = some lab := by
    rw [List.max?_eq_some_iff]
    refine ⟨by simp, fun y hy => ?_⟩
    simp only [List.mem_append, List.mem_map, List.mem_range, List.mem_singleton] at hy
    rcases hy with ⟨j, hj, rfl⟩ | rfl
    · exact (hlab j hj).le
    · exact le_rfl
  unfold bandTicks
  rw [hd]
  dsimp only
  rw [hmx, List.map_append, List.map_map]
  congr 1
  · refine List.map_congr_left fun j hj => ?_
    have := hlab j (List.mem_range.1 hj)
    simp [this.ne]
  · simp

/-- **C141, partial** (with a `_qtls_formatter` that takes `two_sided` and a pandas that takes `method`; staircases with
positive amounts, evenly spaced labels, fitted increments that are not negative after the first period, finite draws,
a level above 1/10^7): if the largest amount of every panel is between 1 and 10^10 and no power of ten, there is one
panel per origin, in order.  It shows the forecasts, the observed amounts and the two bands of that origin, the filled
region lies exactly between the bands, from the latest amount to the ultimate, and its lower edge is nowhere above its
upper edge.  The five ticks start at 0 and end above all amounts and below twice the largest.  The x axis has the
development periods and "ult".  Otherwise there is no plot.  Missing: the code as it stands (`C141_fails`), level 0
(`C141_zero_fails`), and other amounts. -/
theorem C141_partial {sq : Num K → Num K} (hsq : ∀ y : K, 0 ≤ y → ∃ r, sq (.fin y) = .fin r)
    {gm : List (Num K) → Num K} (ht : Spec.Stair t n c) (hp : Spec.Positive n c) (hn : 3 ≤ n)
    (he : Spec.EvenlySpaced t.devs) (hv : ∀ i j, i + j < n → 0 < j → 0 ≤ Spec.incr (Spec.fitCum n c) i j)
    {f : BootFit K} (hf : bootFit sq gm t t.a2aind0 = .ok f) (hS : 0 < S)
    {draw : ℕ → Num K} {gam : ℕ → Num K → Num K → Num K} (hz : ∀ p < S * (n * n), (draw p).isFin = true)
    (hg : ∀ p < S * (n * n), ∀ a b, (gam p a b).isFin = true) {q : K} (h0 : 1 / 10 ^ 7 < q) (h1 : q ≤ 1) :
    let proc := (bootSims sq t f.fitIncr f.scale S draw gam).proc
    let G := fun i j => c i (n - 1 - i) * ∏ m ∈ Finset.Ico (n - 1 - i) j, Spec.mackF 1 n c (fun _ _ => 1) m
    ∃ (b : BaseResult K) (out : List (BandRow K)) (lab : Int) (M : ℕ → K), baseFromLdfs t f.ldfs = .ok b ∧ bandPlot true true t b proc [.fin q] = .ok out ∧
      (∀ j < n, t.dAt j < lab) ∧
      (∀ i < n, IsGreatest {x | ∃ r ∈ out, r.origin = t.oAt i ∧ r.loss = .fin x} (M i)) ∧
      ((∀ i < n, Spec.Tickable (M i)) → ∃ ps,
        bootPlot true true t b proc [.fin q] =
          .ok (ps, (List.range n).map (fun j => (t.dAt j, some (t.dAt j))) ++ [(lab, none)]) ∧
        ps.length = n ∧ ∀ i < n, ∃ p, ps[i]? = some p ∧ p.label = t.oAt i ∧
          p.lines = [
            (.forecast, ((List.range n).filter (fun j => decide (n ≤ i + j + 1))).map (fun j =>
              (t.dAt j, .fin (G i j))) ++ [(lab, .fin (G i (n - 1)))]),
            (.actual, ((List.range n).filter (fun j => decide (i + j < n))).map (fun j => (t.dAt j, .fin (c i j)))),
            (.lower, Spec.band t n c proc lab i ((1 - q) / 2)), (.upper, Spec.band t n c proc lab i ((1 + q) / 2))] ∧
          p.fill = Spec.region t n c proc lab i q ∧ (∀ e ∈ p.fill, Num.le e.2.1 e.2.2 = true) ∧
          ∃ top, M i < top ∧ top < 2 * M i ∧ p.yticks = [0, top / 4, 2 * (top / 4), 3 * (top / 4), top]) ∧
      ((∃ i < n, ¬ Spec.Tickable (M i)) → bootPlot true true t b proc [.fin q] = .error .valueError) := by
  intro proc G
  have hq0 : 0 ≤ q := le_trans (by positivity) h0.le
  obtain ⟨b, out, lab, hb, hout, hlab, hi⟩ := C123_partial hsq ht hp hn he hv hf hS hz hg hq0 h1
  have ho := bandPlot_origins hout
  rw [ht.nr] at ho
  have hL := lines_of_stair (proc := proc) (q := q) (G := G) ht ho (fun i h => (hi i h).2)
  obtain ⟨M, hM, hok, hbad, -⟩ := bandPanels_lines hL ht
  obtain ⟨qs, hqs, -, hx, hy⟩ := levels_two_sided hq0 h1
  have hsame : sameHdr qs = false := by
    unfold sameHdr
    rw [List.getD_eq_getElem?_getD, List.getD_eq_getElem?_getD, hx, hy]
    simp only [Option.getD_some, decide_eq_false_iff_not]
    exact hdrPct_apart (by linarith) (by linarith)
  refine ⟨b, out, lab, M, hb, hout, hlab, hM, ?_, ?_⟩
  · intro hall
    obtain ⟨ps, hps, hlen, hpi⟩ := hok hall
    refine ⟨ps, ?_, hlen, ?_⟩
    · unfold bootPlot
      rw [hout, hqs]
      dsimp only [bind, Except.bind]
      rw [hsame, hps, bandTicks_stair ht (by omega) hlab hL]
    · intro i hi'
      obtain ⟨p, h1', h2, h3, h4, h5⟩ := hpi i hi'
      rw [region_eq hi'] at h4
      refine ⟨p, h1', h2, h3, h4, ?_, h5⟩
      rw [h4]
      intro e he'
      have hle : ∀ j, Spec.quantile (Spec.simulated proc (t.oAt i) (t.dAt j)) ((1 - q) / 2) ≤
          Spec.quantile (Spec.simulated proc (t.oAt i) (t.dAt j)) ((1 + q) / 2) :=
        fun j => quantile_mono _ (by linarith) (by linarith) (by linarith)
      unfold Spec.region at he'
      simp only [List.mem_cons, List.mem_append, List.mem_map, List.not_mem_nil, or_false] at he'
      rcases he' with rfl | ⟨j, -, rfl⟩ | rfl
      · show decide (_ ≤ _) = true
        simp
      · show decide (_ ≤ _) = true
        simpa using hle j
      · show decide (_ ≤ _) = true
        simpa using hle (n - 1)
  · intro h
    unfold bootPlot
    rw [hout, hqs]
    dsimp only [bind, Except.bind]
    rw [hsame, hbad h]

/-- **C141 fails** for the code as it stands: the levels cannot be formatted. -/
theorem C141_fails (b : BaseResult K) (proc : List (ProcRow K)) (q : List (Num K)) (acc : Bool) :
    bootPlot false acc t b proc q = .error .typeError := rfl

/-- **C141 fails** at level 0 even with both calls repaired: the two bands have the same header, each of their lines takes
the points of both, and the filled region cannot be drawn. -/
theorem C141_zero_fails {sq : Num K → Num K} (hsq : ∀ y : K, 0 ≤ y → ∃ r, sq (.fin y) = .fin r)
    {gm : List (Num K) → Num K} (ht : Spec.Stair t n c) (hp : Spec.Positive n c) (hn : 3 ≤ n)
    (he : Spec.EvenlySpaced t.devs) (hv : ∀ i j, i + j < n → 0 < j → 0 ≤ Spec.incr (Spec.fitCum n c) i j)
    {f : BootFit K} (hf : bootFit sq gm t t.a2aind0 = .ok f) (hS : 0 < S)
    {draw : ℕ → Num K} {gam : ℕ → Num K → Num K → Num K} (hz : ∀ p < S * (n * n), (draw p).isFin = true)
    (hg : ∀ p < S * (n * n), ∀ a b, (gam p a b).isFin = true) :
    ∃ b, baseFromLdfs t f.ldfs = .ok b ∧
      bootPlot true true t b (bootSims sq t f.fitIncr f.scale S draw gam).proc [.fin 0] = .error .valueError := by
  obtain ⟨b, out, lab, hb, hout, hlab, hi⟩ := C123_partial hsq ht hp hn he hv hf hS hz hg le_rfl zero_le_one
  have ho := bandPlot_origins hout
  rw [ht.nr] at ho
  have hL := lines_of_stair (proc := (bootSims sq t f.fitIncr f.scale S draw gam).proc) (q := 0)
    (G := fun i j => c i (n - 1 - i) * ∏ m ∈ Finset.Ico (n - 1 - i) j, Spec.mackF 1 n c (fun _ _ => 1) m) ht ho
    (fun i h => (hi i h).2)
  obtain ⟨M, -, -, -, hbad⟩ := bandPanels_lines hL ht
  obtain ⟨qs, hqs, -, hx, hy⟩ := levels_two_sided (K := K) le_rfl zero_le_one
  refine ⟨b, hb, ?_⟩
  unfold bootPlot
  rw [hout, hqs]
  dsimp only [bind, Except.bind]
  have hsame : sameHdr qs = true := by
    unfold sameHdr
    rw [List.getD_eq_getElem?_getD, List.getD_eq_getElem?_getD, hx, hy]
    simp
  rw [hsame, hbad (by omega)]

end

/-- The plot of the run of `bandRun`. -/
def panelRun (q : ℚ) : Except PyErr (List (BandPanel ℚ) × List (Int × Option Int)) := do
  let f ← bootFit exSqrt (fun _ => .nan) exBoot exBoot.a2aind0
  let r := bootSims exSqrt exBoot f.fitIncr f.scale 2 (fun p => if p = 3 then .fin 1 else 0) (fun _ a b => a * b)
  let b ← baseFromLdfs exBoot f.ldfs
  bootPlot true true exBoot b r.proc [.fin q]

/-- C141 on the example: the filled region of the second origin, the ticks of the panels and of the x axis. -/
example : (panelRun (1 / 2)).map (fun o => o.1.map BandPanel.label) = .ok [2001, 2002, 2003] := by
  decide +kernel

example : (panelRun (1 / 2)).map (fun o => (o.1.map BandPanel.fill).getD 1 []) =
    .ok [(2, .fin 200, .fin 200), (3, .fin (1215 / 4), .fin (1245 / 4)), (4, .fin (1215 / 4), .fin (1245 / 4))] := by
  decide +kernel

example : (panelRun (1 / 2)).map (fun o => (o.1.map BandPanel.yticks, o.2)) =
    .ok ([[0, 100, 200, 300, 400], [0, 100, 200, 300, 400], [0, 100, 200, 300, 400]],
      [(1, some 1), (2, some 2), (3, some 3), (4, none)]) := by
  decide +kernel

example : (panelRun 0).map (fun o => o.2) = .error .valueError := by
  decide +kernel

end Trikit
