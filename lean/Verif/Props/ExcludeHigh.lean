import Verif.Props.Exclusions
import Verif.Props.GeoMean
import Verif.Props.MackErrors

/-!
# C206: excluding one more link ratio

The factor of the period moves away from the excluded link ratio, and so do the ultimates that use the factor:
`a2aind` (triangle.py:592-697), `a2a_avgs` (triangle.py:777-856), `base_cl` (base.py:25-170), `mack_cl` (mack.py:59-330).
-/

set_option linter.unusedSectionVars false

namespace Trikit

section
variable {K : Type} [Field K] [LinearOrder K] [IsStrictOrderedRing K]
variable {t : Tri K} {n : ℕ} {c : ℕ → ℕ → K}

/-! ## specification -/

/-- The value goes from `v` to `v'` when `x` is taken out of a mean `f`: down if `x` was above the mean, up if `x` was below,
and it stays if `x` was the mean. -/
def Spec.MovesAway (f x v v' : K) : Prop := (v' < v ↔ f < x) ∧ (v < v' ↔ x < f)

/-- A history of assignments of 0 and 1 to existing labels that keeps the most recent link ratio of every period. -/
structure Spec.ZeroOneHistory (t : Tri K) (n : ℕ) (l : List (Assign K)) : Prop where
  labels : ∀ a ∈ l, a.origin ∈ t.a2a.origins ∧ a.dev ∈ t.a2a.devs
  binary : ∀ a ∈ l, a.value = .fin 0 ∨ a.value = .fin 1
  recent : ∀ j < n - 1, Spec.lastAssigned l (t.oAt (n - 2 - j)) (t.dAt j) ≠ some (.fin 0)

/-- Origin `i` is one of the last `k` (all for 0) that have a link ratio of period `j`. -/
def Spec.InWindow (n k i j : ℕ) : Prop := k = 0 ∨ n - 1 - j ≤ i + k

/-- Estimates before (`r`) and after (`r'`) the link ratio `x` of period `j` is taken out: no other factor changes, the
factor of period `j`, the ultimates of all origins that have not reached period `j + 1` and their total move away from
`x`; the ultimates of the other origins do not change.  Nothing changes at all unless `used`. -/
def Spec.ExclusionMoves (n j : ℕ) (x : K) (used : Prop) (ldfs ldfs' : Ser K) (rows rows' : List (SummRow K))
    (tot tot' : Num K) : Prop :=
  ∃ f f' u u' : ℕ → K, ∃ T T', ldfs.map Prod.snd = (List.range n).map (fun q => .fin (f q)) ∧
    ldfs'.map Prod.snd = (List.range n).map (fun q => .fin (f' q)) ∧
    rows.map SummRow.ultimate = (List.range n).map (fun q => .fin (u q)) ∧
    rows'.map SummRow.ultimate = (List.range n).map (fun q => .fin (u' q)) ∧ tot = .fin T ∧ tot' = .fin T' ∧
    (∀ q < n, q ≠ j → f' q = f q) ∧ (∀ q < n, q + j + 1 < n → u' q = u q) ∧
    (used → Spec.MovesAway (f j) x (f j) (f' j) ∧
      (∀ q < n, n ≤ q + j + 1 → Spec.MovesAway (f j) x (u q) (u' q)) ∧ Spec.MovesAway (f j) x T T') ∧
    (¬ used → f' j = f j ∧ (∀ q < n, u' q = u q) ∧ T' = T)

/-! ## means -/

theorem movesAway_of {f x v v' : K} (h1 : f < x → v' < v) (h2 : x < f → v < v') (h3 : x = f → v' = v) :
    Spec.MovesAway f x v v' := by
  refine ⟨⟨fun h => ?_, h1⟩, ⟨fun h => ?_, h2⟩⟩
  · rcases lt_trichotomy f x with e | e | e
    · exact e
    · exact absurd h (by rw [h3 e.symm]; exact lt_irrefl _)
    · exact absurd h (h2 e).asymm
  · rcases lt_trichotomy f x with e | e | e
    · exact absurd h (h1 e).asymm
    · exact absurd h (by rw [h3 e.symm]; exact lt_irrefl _)
    · exact e

theorem Spec.MovesAway.eq {f x v v' : K} (h : Spec.MovesAway f x v v') (e : x = f) : v' = v := by
  rcases lt_trichotomy v' v with a | a | a
  · exact absurd (h.1.1 a) (by rw [e]; exact lt_irrefl _)
  · exact a
  · exact absurd (h.2.1 a) (by rw [e]; exact lt_irrefl _)

/-- Taking the term `x` of weight `a` out of a weighted mean. -/
theorem remove_moves {N D a x : K} (ha : 0 < a) (hD : 0 < D - a) :
    Spec.MovesAway (N / D) x (N / D) ((N - a * x) / (D - a)) := by
  have hD0 : 0 < D := by linarith
  constructor
  · rw [div_lt_div_iff₀ hD hD0, div_lt_iff₀ hD0]
    constructor
    · intro h
      have : a * N < a * (x * D) := by nlinarith
      exact lt_of_mul_lt_mul_left this ha.le
    · intro h
      have := mul_lt_mul_of_pos_left h ha
      nlinarith
  · rw [div_lt_div_iff₀ hD0 hD, lt_div_iff₀ hD0]
    constructor
    · intro h
      have : a * (x * D) < a * N := by nlinarith
      exact lt_of_mul_lt_mul_left this ha.le
    · intro h
      have := mul_lt_mul_of_pos_left h ha
      nlinarith

theorem sum_filter_ne {g : ℕ → K} {i : ℕ} : ∀ {L : List ℕ}, L.Nodup → i ∈ L →
    ((L.filter (fun q => decide (q ≠ i))).map g).sum = (L.map g).sum - g i ∧
      (L.filter (fun q => decide (q ≠ i))).length + 1 = L.length
  | [], _, h => by cases h
  | a :: L, hd, h => by
    rw [List.nodup_cons] at hd
    by_cases e : a = i
    · subst e
      have : L.filter (fun q => decide (q ≠ a)) = L := by
        rw [List.filter_eq_self]
        intro q hq
        simp only [decide_eq_true_eq]
        rintro rfl
        exact hd.1 hq
      rw [List.filter_cons_of_neg (by simp), this]
      simp
    · have hi : i ∈ L := by
        rcases List.mem_cons.1 h with h | h
        · exact absurd h.symm e
        · exact h
      obtain ⟨h1, h2⟩ := sum_filter_ne (g := g) hd.2 hi
      rw [List.filter_cons_of_pos (by simpa using e)]
      simp only [List.map_cons, List.sum_cons, List.length_cons]
      exact ⟨by rw [h1]; ring, by omega⟩

theorem mean_remove {g : ℕ → K} {i : ℕ} {L : List ℕ} (hd : L.Nodup) (hi : i ∈ L)
    (hne : L.filter (fun q => decide (q ≠ i)) ≠ []) :
    Spec.MovesAway (Spec.mean (L.map g)) (g i) (Spec.mean (L.map g))
      (Spec.mean ((L.filter (fun q => decide (q ≠ i))).map g)) := by
  obtain ⟨h1, h2⟩ := sum_filter_ne (g := g) hd hi
  have hl : 0 < (L.filter (fun q => decide (q ≠ i))).length := List.length_pos_iff.2 hne
  unfold Spec.mean
  rw [List.length_map, List.length_map, h1]
  have e : (((L.filter (fun q => decide (q ≠ i))).length : ℕ) : K) = (L.length : K) - 1 := by
    rw [← h2]; push_cast; ring
  have hD : (0 : K) < (L.length : K) - 1 := by rw [← e]; exact_mod_cast hl
  have := remove_moves (N := (L.map g).sum) (x := g i) zero_lt_one hD
  rw [one_mul] at this
  rw [e]
  exact this

/-! ## from factors to ultimates -/

theorem tailProd_moves {F F' : ℕ → K} (hF : ∀ q < n, 0 < F q) {j : ℕ} (hj : j < n)
    (hoff : ∀ q < n, q ≠ j → F' q = F q) {x : K} (hm : Spec.MovesAway (F j) x (F j) (F' j)) {k : ℕ} (hk : k ≤ j) {a : K}
    (ha : 0 < a) : Spec.MovesAway (F j) x (a * Spec.tailProd F n k) (a * Spec.tailProd F' n k) := by
  unfold Spec.tailProd
  have hmem : j ∈ Finset.Ico k n := Finset.mem_Ico.2 ⟨hk, hj⟩
  rw [← Finset.mul_prod_erase _ F hmem, ← Finset.mul_prod_erase _ F' hmem]
  have e : ∏ q ∈ (Finset.Ico k n).erase j, F' q = ∏ q ∈ (Finset.Ico k n).erase j, F q :=
    Finset.prod_congr rfl fun q hq => by
      rw [Finset.mem_erase, Finset.mem_Ico] at hq
      exact hoff q hq.2.2 hq.1
  rw [e]
  have hP : 0 < ∏ q ∈ (Finset.Ico k n).erase j, F q := Finset.prod_pos fun q hq => by
    rw [Finset.mem_erase, Finset.mem_Ico] at hq
    exact hF q hq.2.2
  constructor
  · rw [← hm.1]
    constructor
    · intro h
      exact lt_of_mul_lt_mul_right (lt_of_mul_lt_mul_left h ha.le) hP.le
    · intro h
      exact mul_lt_mul_of_pos_left (mul_lt_mul_of_pos_right h hP) ha
  · rw [← hm.2]
    constructor
    · intro h
      exact lt_of_mul_lt_mul_right (lt_of_mul_lt_mul_left h ha.le) hP.le
    · intro h
      exact mul_lt_mul_of_pos_left (mul_lt_mul_of_pos_right h hP) ha

theorem baseSpec_ultimates {F : ℕ → K} {ldfs : Ser K} {r : BaseResult K} (hs : Spec.BaseSpec t n c F ldfs r) :
    r.rows.map SummRow.ultimate = (List.range n).map (fun q => .fin (c q (n - 1 - q) * Spec.tailProd F n (n - 1 - q))) := by
  apply List.ext_getElem?
  intro q
  by_cases hq : q < n
  · obtain ⟨row, h1, _, _, _, _, _, h2, _⟩ := hs.rows q hq
    rw [List.getElem?_map, h1, List.getElem?_map, List.getElem?_range hq]
    simp [h2]
  · rw [List.getElem?_eq_none (by rw [List.length_map, hs.rows_length]; omega),
      List.getElem?_eq_none (by simp; omega)]

/-- Factors that differ in one period. -/
theorem exclusion_of_factors (hp : Spec.Positive n c) {F F' : ℕ → K} (hF : ∀ q < n, 0 < F q) {j : ℕ}
    (hj : j + 1 < n) (hoff : ∀ q < n, q ≠ j → F' q = F q) {x : K} {used : Prop}
    (hm : used → Spec.MovesAway (F j) x (F j) (F' j)) (hm' : ¬ used → F' j = F j)
    {ldfs ldfs' : Ser K} {r r' : BaseResult K} (hs : Spec.BaseSpec t n c F ldfs r)
    (hs' : Spec.BaseSpec t n c F' ldfs' r') (hl : LdfVals ldfs n F) (hl' : LdfVals ldfs' n F') :
    Spec.ExclusionMoves n j x used ldfs ldfs' r.rows r'.rows r.totUltimate r'.totUltimate := by
  have hsame : ∀ q < n, q + j + 1 < n → c q (n - 1 - q) * Spec.tailProd F' n (n - 1 - q) =
      c q (n - 1 - q) * Spec.tailProd F n (n - 1 - q) := by
    intro q hq hqj
    congr 1
    apply Finset.prod_congr rfl
    intro p hp
    rw [Finset.mem_Ico] at hp
    exact hoff p hp.2 (by omega)
  refine ⟨F, F', _, _, _, _, hl, hl', baseSpec_ultimates hs, baseSpec_ultimates hs', hs.totUltimate, hs'.totUltimate,
    hoff, hsame, ?_, ?_⟩
  · intro hu
    have hm := hm hu
    have hult : ∀ q < n, n ≤ q + j + 1 → Spec.MovesAway (F j) x (c q (n - 1 - q) * Spec.tailProd F n (n - 1 - q))
        (c q (n - 1 - q) * Spec.tailProd F' n (n - 1 - q)) := fun q hq hqj =>
      tailProd_moves hF (by omega) hoff hm (by omega) (hp q (n - 1 - q) (by omega))
    refine ⟨hm, hult, ?_⟩
    have hlast := hult (n - 1) (by omega) (by omega)
    apply movesAway_of
    · intro e
      apply Finset.sum_lt_sum
      · intro q hq
        rw [Finset.mem_range] at hq
        by_cases hqj : n ≤ q + j + 1
        · exact ((hult q hq hqj).1.2 e).le
        · exact (hsame q hq (by omega)).le
      · exact ⟨n - 1, Finset.mem_range.2 (by omega), hlast.1.2 e⟩
    · intro e
      apply Finset.sum_lt_sum
      · intro q hq
        rw [Finset.mem_range] at hq
        by_cases hqj : n ≤ q + j + 1
        · exact ((hult q hq hqj).2.2 e).le
        · exact (hsame q hq (by omega)).ge
      · exact ⟨n - 1, Finset.mem_range.2 (by omega), hlast.2.2 e⟩
    · intro e
      apply Finset.sum_congr rfl
      intro q hq
      rw [Finset.mem_range] at hq
      by_cases hqj : n ≤ q + j + 1
      · exact (hult q hq hqj).eq e
      · exact hsame q hq (by omega)
  · intro hu
    have hall : ∀ q < n, F' q = F q := fun q hq => by
      by_cases e : q = j
      · rw [e]; exact hm' hu
      · exact hoff q hq e
    have hT : ∀ q < n, c q (n - 1 - q) * Spec.tailProd F' n (n - 1 - q) =
        c q (n - 1 - q) * Spec.tailProd F n (n - 1 - q) := fun q hq => by
      congr 1
      apply Finset.prod_congr rfl
      intro p hp
      rw [Finset.mem_Ico] at hp
      exact hall p hp.2
    exact ⟨hm' hu, hT, Finset.sum_congr rfl fun q hq => hT q (Finset.mem_range.1 hq)⟩

/-! ## the kept link ratios -/

/-- Positions of the kept link ratios. -/
def keptIdx (t : Tri K) (n : ℕ) (l : List (Assign K)) (k j : ℕ) : List ℕ :=
  (Spec.lastN k (List.range (n - 1 - j))).filter
    (fun i => decide (Spec.lastAssigned l (t.oAt i) (t.dAt j) ≠ some (.fin 0)))

theorem keptRatios_eq (l : List (Assign K)) (k j : ℕ) :
    Spec.keptRatios t n c l k j = (keptIdx t n l k j).map (fun i => c i (j + 1) / c i j) := rfl

theorem lastAssigned_append (l : List (Assign K)) (a : Assign K) (o d : Int) :
    Spec.lastAssigned (l ++ [a]) o d = if a.origin = o ∧ a.dev = d then some a.value else Spec.lastAssigned l o d := by
  unfold Spec.lastAssigned
  rw [List.reverse_append, List.reverse_singleton, List.singleton_append, List.find?_cons]
  by_cases e : a.origin = o ∧ a.dev = d
  · rw [if_pos e]; simp [e.1, e.2]
  · rw [if_neg e]
    have : (a.origin == o && a.dev == d) = false := by
      rw [Bool.and_eq_false_iff]
      by_cases e1 : a.origin = o
      · right; simpa using fun h => e ⟨e1, h⟩
      · left; simpa using e1
    rw [this]

theorem keptIdx_append (h : Spec.Stair t n c) (l : List (Assign K)) {i j : ℕ} (hij : i + j + 1 < n) (k : ℕ) {q : ℕ}
    (hq : q < n - 1) : keptIdx t n (l ++ [⟨t.oAt i, t.dAt j, .fin 0⟩]) k q =
      if q = j then (keptIdx t n l k q).filter (fun p => decide (p ≠ i)) else keptIdx t n l k q := by
  unfold keptIdx
  split_ifs with e
  · subst e
    rw [List.filter_filter]
    apply List.filter_congr
    intro p hp
    have hp' := List.mem_range.1 (lastN_subset _ _ p hp)
    rw [lastAssigned_append]
    by_cases e : p = i
    · subst e; simp
    · have : ¬ (t.oAt i = t.oAt p ∧ t.dAt q = t.dAt q) := fun hh =>
        e (h.oAt_inj (by omega) (by omega) hh.1).symm
      rw [if_neg this]
      simp [e]
  · apply List.filter_congr
    intro p _
    rw [lastAssigned_append, if_neg]
    rintro ⟨_, h2⟩
    exact e (h.dAt_inj (by omega) (by omega) h2).symm

theorem keptIdx_nodup (l : List (Assign K)) (k j : ℕ) : (keptIdx t n l k j).Nodup := by
  apply List.Nodup.filter
  unfold Spec.lastN
  split
  · exact List.nodup_range
  · exact List.nodup_range.sublist (List.drop_sublist _ _)

theorem mem_keptIdx {l : List (Assign K)} {k i j : ℕ} (hij : i + j + 1 < n)
    (hkept : Spec.lastAssigned l (t.oAt i) (t.dAt j) ≠ some (.fin 0)) :
    i ∈ keptIdx t n l k j ↔ Spec.InWindow n k i j := by
  unfold keptIdx
  rw [List.mem_filter]
  have : (decide (Spec.lastAssigned l (t.oAt i) (t.dAt j) ≠ some (.fin 0))) = true := by simpa using hkept
  rw [this]
  simp only [and_true]
  unfold Spec.lastN Spec.InWindow
  split_ifs with hk
  · simp [hk, List.mem_range]; omega
  · rw [List.mem_iff_getElem?]
    constructor
    · rintro ⟨m, hm⟩
      rw [List.getElem?_drop, List.length_range, List.getElem?_eq_some_iff] at hm
      obtain ⟨_, hm⟩ := hm
      rw [List.getElem_range] at hm
      right; omega
    · rintro (e | e)
      · exact absurd e hk
      · refine ⟨i - (n - 1 - j - k), ?_⟩
        rw [List.getElem?_drop, List.length_range, List.getElem?_eq_some_iff]
        refine ⟨by rw [List.length_range]; omega, ?_⟩
        rw [List.getElem_range]; omega

/-! ## averages and `base_cl` -/

theorem rowIs_of_entries {gm : List (Num K) → Num K} {ind : Tri K} {w : ℕ → ℕ → K} (h : Spec.Stair t n c)
    (hc : ∀ i j, i + j < n → c i j ≠ 0) (hi : IndOn t ind n w) {tab : AvgTable K} (htab : a2aAvgs gm t ind = .ok tab)
    (kind : AvgKind) {k : ℕ} (hk : k < n - 1) {f : ℕ → K}
    (hf : ∀ j < n - 1, Spec.entry tab (Spec.avgName kind.name k) j = some (.fin (f j))) :
    Spec.RowIs gm t ind (Spec.avgName kind.name k) ((List.range (n - 1)).map (fun j => .fin (f j))) := by
  refine ⟨tab, htab, ?_⟩
  obtain ⟨_, vals, h1, h2⟩ := a2aAvgs_lookup htab (k := kind) (d := k) (Or.inr (by rw [h.a2a_nr hc]; exact hk))
  rw [avgName_eq] at h1
  rw [h1]
  rw [adj_nc h hc hi] at h2
  rw [mapM_ok_iff] at h2
  have hlen := h2.length_eq
  rw [List.length_range] at hlen
  congr 1
  apply List.ext_getElem?
  intro j
  by_cases hj : j < n - 1
  · have := hf j hj
    unfold Spec.entry at this
    rw [h1, Option.bind_some] at this
    rw [this, List.getElem?_map, List.getElem?_range hj]
    rfl
  · rw [List.getElem?_eq_none (by omega), List.getElem?_eq_none (by simp; omega)]

/-- Two histories whose factors differ in one period. -/
theorem exclusion_base (gm : List (Num K) → Num K) (h : Spec.Stair t n c) (hp : Spec.Positive n c) (hn : 3 ≤ n)
    {l l' : List (Assign K)} (hl : Spec.ZeroOneHistory t n l) (hl' : Spec.ZeroOneHistory t n l') (kind : AvgKind) {k : ℕ}
    (hk : k < n - 1) {f f' : ℕ → K} {s s' : IndState K} {tab tab' : AvgTable K}
    (hs : IndState.assignAll (IndState.read { tri := t }).1 l = .ok s) (ha : s.avgs gm = (s, .ok tab))
    (hs' : IndState.assignAll (IndState.read { tri := t }).1 l' = .ok s') (ha' : s'.avgs gm = (s', .ok tab'))
    (hf : ∀ j < n - 1, Spec.entry tab (Spec.avgName kind.name k) j = some (.fin (f j)))
    (hf' : ∀ j < n - 1, Spec.entry tab' (Spec.avgName kind.name k) j = some (.fin (f' j)))
    (hpos : ∀ j < n - 1, 0 < f j) {j : ℕ} (hj : j < n - 1) (hoff : ∀ q < n - 1, q ≠ j → f' q = f q) {x : K} {used : Prop}
    (hm : used → Spec.MovesAway (f j) x (f j) (f' j)) (hm' : ¬ used → f' j = f j) {tail : K} (ht : 0 < tail) :
    ∃ r r', baseCL gm s.tri s.read.2 (Spec.avgName kind.name k) (.fin tail) = .ok r ∧
      baseCL gm s'.tri s'.read.2 (Spec.avgName kind.name k) (.fin tail) = .ok r' ∧
      Spec.ExclusionMoves n j x used r.ldfs r'.ldfs r.rows r'.rows r.totUltimate r'.totUltimate := by
  have hc := hp.ne_zero
  have aux : ∀ {l : List (Assign K)} {s : IndState K} {tab : AvgTable K} {f : ℕ → K}, Spec.ZeroOneHistory t n l →
      IndState.assignAll (IndState.read { tri := t }).1 l = .ok s → s.avgs gm = (s, .ok tab) →
      (∀ j < n - 1, Spec.entry tab (Spec.avgName kind.name k) j = some (.fin (f j))) →
      ∃ r, baseCL gm s.tri s.read.2 (Spec.avgName kind.name k) (.fin tail) = .ok r ∧
        Spec.BaseSpec t n c (Spec.withTail f n tail) r.ldfs r ∧ LdfVals r.ldfs n (Spec.withTail f n tail) := by
    intro l s tab f hl hs ha hf
    obtain ⟨s₀, w, h1, h2, h3, _⟩ := indOn_of_history h hc l hl.labels
      (fun a ha => by rcases hl.binary a ha with e | e <;> exact ⟨_, e⟩)
    rw [hs] at h1
    have e := Except.ok.inj h1
    subst e
    have htab : a2aAvgs gm t s.read.2 = .ok tab := by
      have := congrArg Prod.snd ha
      unfold IndState.avgs at this
      rw [h2] at this
      exact this
    obtain ⟨r, lab, b1, _, _, b4, b5⟩ := baseCL_stair h hc h3 hn (rowIs_of_entries h hc h3 htab kind hk hf) tail
    refine ⟨r, by rw [h2]; exact b1, b5, ?_⟩
    have := mackSer_snd h (by omega) lab (Spec.withTail f n tail)
    unfold mackSer at this
    rw [b4]; exact this
  obtain ⟨r, a1, a2, a3⟩ := aux hl hs ha hf
  obtain ⟨r', b1, b2, b3⟩ := aux hl' hs' ha' hf'
  have hat : ∀ {g : ℕ → K} {q : ℕ}, q < n - 1 → Spec.withTail g n tail q = g q := fun hq => by
    unfold Spec.withTail; rw [if_pos (by omega)]
  refine ⟨r, r', a1, b1, exclusion_of_factors hp ?_ (by omega) ?_ ?_ ?_ a2 b2 a3 b3⟩
  · intro q hq
    unfold Spec.withTail
    split_ifs with e
    · exact hpos q (by omega)
    · exact ht
  · intro q hq hqj
    unfold Spec.withTail
    split_ifs with e
    · exact hoff q (by omega) hqj
    · rfl
  · rw [hat hj, hat hj]; exact hm
  · rw [hat hj, hat hj]; exact hm'

theorem ZeroOneHistory.append (h : Spec.Stair t n c) (hp : Spec.Positive n c) {l : List (Assign K)}
    (hl : Spec.ZeroOneHistory t n l) {i j : ℕ} (hij : i + j + 2 < n) :
    Spec.ZeroOneHistory t n (l ++ [⟨t.oAt i, t.dAt j, .fin 0⟩]) := by
  obtain ⟨ha, hb, _⟩ := C22_a2a h hp.ne_zero
  refine ⟨?_, ?_, ?_⟩
  · intro a ha'
    rw [List.mem_append, List.mem_singleton] at ha'
    rcases ha' with ha' | rfl
    · exact hl.labels a ha'
    · refine ⟨?_, ?_⟩
      · rw [ha, List.mem_iff_getElem?]
        exact ⟨i, by rw [List.getElem?_take, if_pos (by omega)]; exact h.oAt_get (by omega)⟩
      · rw [hb, List.mem_iff_getElem?]
        exact ⟨j, by rw [List.getElem?_take, if_pos (by omega)]; exact h.dAt_get (by omega)⟩
  · intro a ha'
    rw [List.mem_append, List.mem_singleton] at ha'
    rcases ha' with ha' | rfl
    · exact hl.binary a ha'
    · left; rfl
  · intro q hq
    rw [lastAssigned_append, if_neg]
    · exact hl.recent q hq
    · rintro ⟨h1, h2⟩
      have e1 := h.oAt_inj (by omega) (by omega) h1
      have e2 := h.dAt_inj (by omega) (by omega) h2
      omega

/-- **C206, simple averages.** On a positive staircase with at least three periods, after any history of exclusions that keeps
the most recent link ratios, exclude one more link ratio that is not a most recent one: with any window and any positive
tail, `base_cl` returns before and after, and factor, ultimates and total move away from the excluded link ratio if it is
in the window; nothing else changes.  Missing: weighted and medial averages (`C206_weighted_fails`, `C206_medial_fails`)
and most recent link ratios (`C27_exclusion_fails`). -/
theorem C206_partial (gm : List (Num K) → Num K) (h : Spec.Stair t n c) (hp : Spec.Positive n c) {l : List (Assign K)}
    (hl : Spec.ZeroOneHistory t n l) {i j : ℕ} (hij : i + j + 2 < n)
    (hkept : Spec.lastAssigned l (t.oAt i) (t.dAt j) ≠ some (.fin 0)) {k : ℕ} (hk : k < n - 1) {tail : K} (ht : 0 < tail) :
    ∃ s s' r r', IndState.assignAll (IndState.read { tri := t }).1 l = .ok s ∧
      IndState.assignAll (IndState.read { tri := t }).1 (l ++ [⟨t.oAt i, t.dAt j, .fin 0⟩]) = .ok s' ∧
      baseCL gm s.tri s.read.2 (Spec.avgName "simple" k) (.fin tail) = .ok r ∧
      baseCL gm s'.tri s'.read.2 (Spec.avgName "simple" k) (.fin tail) = .ok r' ∧
      Spec.ExclusionMoves n j (c i (j + 1) / c i j) (Spec.InWindow n k i j) r.ldfs r'.ldfs r.rows r'.rows r.totUltimate
        r'.totUltimate := by
  have hl' := ZeroOneHistory.append h hp hl hij
  obtain ⟨s, tab, a1, a2, a3⟩ := C26_history_partial gm h hp l hl.labels hl.binary hl.recent
  obtain ⟨s', tab', b1, b2, b3⟩ := C26_history_partial gm h hp _ hl'.labels hl'.binary hl'.recent
  have hmem := mem_keptIdx (t := t) (n := n) (l := l) (k := k) (i := i) (j := j) (by omega) hkept
  have hex : ∀ q < n - 1, Spec.keptRatios t n c (l ++ [(⟨t.oAt i, t.dAt j, .fin 0⟩ : Assign K)]) k q =
      if q = j then ((keptIdx t n l k q).filter (fun p => decide (p ≠ i))).map (fun i => c i (q + 1) / c i q)
      else Spec.keptRatios t n c l k q := fun q hq => by
    rw [keptRatios_eq, keptIdx_append h l (by omega) k hq]
    split_ifs <;> rfl
  obtain ⟨r, r', c1, c2, c3⟩ := exclusion_base gm h hp (by omega) hl hl' .simple hk a1 a2 b1 b2
    (f := fun q => Spec.mean (Spec.keptRatios t n c l k q))
    (f' := fun q => Spec.mean (Spec.keptRatios t n c (l ++ [(⟨t.oAt i, t.dAt j, .fin 0⟩ : Assign K)]) k q))
    (fun q hq => (a3 k hk q hq).2.1) (fun q hq => (b3 k hk q hq).2.1)
    (fun q hq => by
      have hne := (a3 k hk q hq).1
      unfold Spec.mean
      apply div_pos
      · apply List.sum_pos _ _ hne
        intro x hx
        rw [keptRatios_eq, List.mem_map] at hx
        obtain ⟨p, hp1, rfl⟩ := hx
        have := List.mem_range.1 (lastN_subset _ _ p (List.mem_filter.1 hp1).1)
        exact div_pos (hp _ _ (by omega)) (hp _ _ (by omega))
      · exact_mod_cast List.length_pos_iff.2 hne)
    (j := j) (by omega) (fun q hq e => by rw [hex q hq, if_neg e]) (x := c i (j + 1) / c i j)
    (used := Spec.InWindow n k i j)
    (fun hu => by
      have hne := (b3 k hk j (by omega)).1
      beta_reduce
      rw [hex j (by omega), if_pos rfl] at hne ⊢
      rw [keptRatios_eq]
      exact mean_remove (g := fun i => c i (j + 1) / c i j) (keptIdx_nodup l k j) (hmem.2 hu)
        (fun e => hne (by rw [e]; rfl)))
    (fun hu => by
      beta_reduce
      rw [hex j (by omega), if_pos rfl, keptRatios_eq]
      congr 2
      rw [List.filter_eq_self]
      intro p hp1
      simp only [decide_eq_true_eq]
      rintro rfl
      exact hu (hmem.1 hp1))
    ht
  exact ⟨s, s', r, r', a1, b1, c1, c2, c3⟩

/-! ## Mack's factors -/

theorem colSum_exclude {w w' : ℕ → ℕ → K} {i j : ℕ} (hij : i + j + 1 < n) (h0 : w' i j = 0)
    (hoff : ∀ q < n - 1 - j, q ≠ i → w' q j = w q j) (g : ℕ → K) :
    Spec.colSum n j (fun q => w' q j * g q) = Spec.colSum n j (fun q => w q j * g q) - w i j * g i := by
  unfold Spec.colSum
  have hmem : i ∈ Finset.range (n - 1 - j) := Finset.mem_range.2 (by omega)
  rw [← Finset.add_sum_erase _ (fun q => w' q j * g q) hmem, ← Finset.add_sum_erase _ (fun q => w q j * g q) hmem]
  have : ∑ q ∈ (Finset.range (n - 1 - j)).erase i, w' q j * g q = ∑ q ∈ (Finset.range (n - 1 - j)).erase i, w q j * g q :=
    Finset.sum_congr rfl fun q hq => by
      rw [Finset.mem_erase, Finset.mem_range] at hq
      rw [hoff q hq.2 hq.1]
  rw [this, h0]
  ring

theorem mackF_exclude (hp : Spec.Positive n c) {w w' : ℕ → ℕ → K} (hw' : Spec.Weights n w') {i j : ℕ}
    (hij : i + j + 1 < n) (hpos : 0 < w i j) (h0 : w' i j = 0)
    (hoff : ∀ q < n - 1 - j, q ≠ i → w' q j = w q j) (alpha : ℕ) :
    Spec.MovesAway (Spec.mackF alpha n c w j) (c i (j + 1) / c i j) (Spec.mackF alpha n c w j)
      (Spec.mackF alpha n c w' j) := by
  have hW' := mackW_pos hp hw' alpha (j := j) (by omega)
  have e1 := colSum_exclude hij h0 hoff (fun q => c q j ^ alpha)
  have e2 := colSum_exclude hij h0 hoff (fun q => c q j ^ alpha * (c q (j + 1) / c q j))
  simp only [← mul_assoc] at e2
  unfold Spec.mackF
  unfold Spec.mackW at hW' ⊢
  rw [e1] at hW' ⊢
  rw [e2]
  exact remove_moves (mul_pos hpos (pow_pos (hp _ _ (by omega)) _)) hW'

/-- **C206, Mack.** On a positive staircase with at least four periods and any exclusion weights, with one more link ratio
excluded (also a most recent one), another one of the period being kept: for every `alpha`, factor, ultimates and total
of `mack_cl` move away from the excluded link ratio; nothing else changes. -/
theorem C206_mack (h : Spec.Stair t n c) (hp : Spec.Positive n c) (hn : 4 ≤ n) {ind ind' : Tri K} {w w' : ℕ → ℕ → K}
    (hi : IndW t ind n w) (hi' : IndW t ind' n w') (hw : Spec.Weights n w) (hw' : Spec.Weights n w') {i j : ℕ}
    (hij : i + j + 1 < n) (hpos : 0 < w i j) (h0 : w' i j = 0)
    (hoff : ∀ p q, p + q + 1 < n → ¬ (p = i ∧ q = j) → w' p q = w p q) (alpha : ℕ) :
    ∃ r r', mackCore alpha t ind = .ok r ∧ mackCore alpha t ind' = .ok r' ∧
      Spec.ExclusionMoves n j (c i (j + 1) / c i j) True r.ldfs r'.ldfs r.rows r'.rows r.totUltimate r'.totUltimate := by
  obtain ⟨r, b, lab, a1, a2⟩ := mack_parts h hp hi hw hn alpha
  obtain ⟨r', b', lab', b1, b2⟩ := mack_parts h hp hi' hw' hn alpha
  refine ⟨r, r', a1, b1, ?_⟩
  rw [a2.rows, a2.totUltimate, b2.rows, b2.totUltimate]
  refine exclusion_of_factors hp ?_ (by omega) ?_ ?_ (fun hu => absurd trivial hu) a2.spec b2.spec
    (by rw [a2.factors]; exact mackSer_snd h (by omega) lab _)
    (by rw [b2.factors]; exact mackSer_snd h (by omega) lab' _)
  · intro q hq
    unfold Spec.mackAll Spec.withTail
    split_ifs with e
    · exact mackF_pos hp hw alpha (by omega)
    · exact zero_lt_one
  · intro q hq hqj
    unfold Spec.mackAll Spec.withTail
    split_ifs with e
    · unfold Spec.mackF Spec.mackW Spec.colSum
      have : ∀ p ∈ Finset.range (n - 1 - q), w' p q = w p q := fun p hp => by
        rw [Finset.mem_range] at hp
        exact hoff p q (by omega) (fun hh => hqj hh.2)
      congr 1
      · exact Finset.sum_congr rfl fun p hp => by beta_reduce; rw [this p hp]
      · exact Finset.sum_congr rfl fun p hp => by beta_reduce; rw [this p hp]
    · rfl
  · intro _
    rw [Spec.mackAll_lt (by omega), Spec.mackAll_lt (by omega)]
    exact mackF_exclude hp hw' hij hpos h0 (fun q hq hqi => hoff q j (by omega) (fun hh => hqi hh.1)) alpha

end

/-! ## geometric averages -/

theorem geo_moves {x m m' : ℝ} (hx : 0 < x) (h : Spec.MovesAway m (Real.log x) m m') :
    Spec.MovesAway (Real.exp m) x (Real.exp m) (Real.exp m') := by
  constructor
  · rw [Real.exp_lt_exp, h.1, Real.lt_log_iff_exp_lt hx]
  · rw [Real.exp_lt_exp, h.2, Real.log_lt_iff_lt_exp hx]

/-- **C206, geometric averages**, under the assumptions of `C206_partial`. -/
theorem C206_geometric_partial {t : Tri ℝ} {n : ℕ} {c : ℕ → ℕ → ℝ} (h : Spec.Stair t n c) (hp : Spec.Positive n c)
    {l : List (Assign ℝ)} (hl : Spec.ZeroOneHistory t n l) {i j : ℕ} (hij : i + j + 2 < n)
    (hkept : Spec.lastAssigned l (t.oAt i) (t.dAt j) ≠ some (.fin 0)) {k : ℕ} (hk : k < n - 1) {tail : ℝ} (ht : 0 < tail) :
    ∃ s s' r r', IndState.assignAll (IndState.read { tri := t }).1 l = .ok s ∧
      IndState.assignAll (IndState.read { tri := t }).1 (l ++ [⟨t.oAt i, t.dAt j, .fin 0⟩]) = .ok s' ∧
      baseCL gmean s.tri s.read.2 (Spec.avgName "geometric" k) (.fin tail) = .ok r ∧
      baseCL gmean s'.tri s'.read.2 (Spec.avgName "geometric" k) (.fin tail) = .ok r' ∧
      Spec.ExclusionMoves n j (c i (j + 1) / c i j) (Spec.InWindow n k i j) r.ldfs r'.ldfs r.rows r'.rows r.totUltimate
        r'.totUltimate := by
  have hl' := ZeroOneHistory.append h hp hl hij
  obtain ⟨s, tab, a1, a2, a3⟩ := C26_history_partial gmean h hp l hl.labels hl.binary hl.recent
  obtain ⟨s', tab', b1, b2, b3⟩ := C26_history_partial gmean h hp _ hl'.labels hl'.binary hl'.recent
  have hmem := mem_keptIdx (t := t) (n := n) (l := l) (k := k) (i := i) (j := j) (by omega) hkept
  have hex : ∀ q < n - 1, Spec.keptRatios t n c (l ++ [(⟨t.oAt i, t.dAt j, .fin 0⟩ : Assign ℝ)]) k q =
      if q = j then ((keptIdx t n l k q).filter (fun p => decide (p ≠ i))).map (fun i => c i (q + 1) / c i q)
      else Spec.keptRatios t n c l k q := fun q hq => by
    rw [keptRatios_eq, keptIdx_append h l (by omega) k hq]
    split_ifs <;> rfl
  have hposr : ∀ (l : List (Assign ℝ)), ∀ q, ∀ x ∈ Spec.keptRatios t n c l k q, 0 < x := by
    intro l q x hx
    rw [keptRatios_eq, List.mem_map] at hx
    obtain ⟨p, hp1, rfl⟩ := hx
    have := List.mem_range.1 (lastN_subset _ _ p (List.mem_filter.1 hp1).1)
    exact div_pos (hp _ _ (by omega)) (hp _ _ (by omega))
  obtain ⟨r, r', c1, c2, c3⟩ := exclusion_base gmean h hp (by omega) hl hl' .geometric hk a1 a2 b1 b2
    (f := fun q => Real.exp (Spec.mean ((Spec.keptRatios t n c l k q).map Real.log)))
    (f' := fun q => Real.exp (Spec.mean
      ((Spec.keptRatios t n c (l ++ [(⟨t.oAt i, t.dAt j, .fin 0⟩ : Assign ℝ)]) k q).map Real.log)))
    (fun q hq => by
      obtain ⟨x1, _, x3, _⟩ := a3 k hk q hq
      rw [gmean_fin (hposr l q) x1] at x3; exact x3)
    (fun q hq => by
      obtain ⟨x1, _, x3, _⟩ := b3 k hk q hq
      rw [gmean_fin (hposr _ q) x1] at x3; exact x3)
    (fun q _ => Real.exp_pos _)
    (j := j) (by omega) (fun q hq e => by rw [hex q hq, if_neg e]) (x := c i (j + 1) / c i j)
    (used := Spec.InWindow n k i j)
    (fun hu => by
      have hne := (b3 k hk j (by omega)).1
      beta_reduce
      rw [hex j (by omega), if_pos rfl] at hne ⊢
      rw [keptRatios_eq, List.map_map, List.map_map]
      exact geo_moves (div_pos (hp _ _ (by omega)) (hp _ _ (by omega)))
        (mean_remove (g := Real.log ∘ fun i => c i (j + 1) / c i j) (keptIdx_nodup l k j) (hmem.2 hu)
          (fun e => hne (by rw [e]; rfl))))
    (fun hu => by
      beta_reduce
      rw [hex j (by omega), if_pos rfl, keptRatios_eq]
      congr 4
      rw [List.filter_eq_self]
      intro p hp1
      simp only [decide_eq_true_eq]
      rintro rfl
      exact hu (hmem.1 hp1))
    ht
  exact ⟨s, s', r, r', a1, b1, c1, c2, c3⟩

/-! ## what fails, and examples -/

/-- Link ratios 9, 5, 5, 1 of the first period, then 1. -/
def exExcl : ℕ → ℕ → ℚ := fun i j => if j = 0 then 100 else if i = 0 then 900 else if i = 3 then 100 else 500

/-- **C206 is false of the code** for weighted averages: the factor does not move at all, whatever is excluded. -/
theorem C206_weighted_fails (gm : List (Num ℚ) → Num ℚ) {t : Tri ℚ} {n : ℕ} {c : ℕ → ℕ → ℚ} (h : Spec.Stair t n c)
    (hp : Spec.Positive n c) {l : List (Assign ℚ)} (hl : Spec.ZeroOneHistory t n l) {k : ℕ} (hk : k < n - 1) :
    ∃ s tab tab₀, IndState.assignAll (IndState.read { tri := t }).1 l = .ok s ∧ s.avgs gm = (s, .ok tab) ∧
      a2aAvgs gm t t.a2aind0 = .ok tab₀ ∧ ∀ j < n - 1, Spec.entry tab (Spec.avgName "weighted" k) j =
        Spec.entry tab₀ (Spec.avgName "weighted" k) j ∧
        Spec.entry tab (Spec.avgName "weighted" k) j = some (.fin (Spec.wavg n k c j)) := by
  obtain ⟨s, tab, a1, a2, a3⟩ := C26_history_partial gm h hp l hl.labels hl.binary hl.recent
  obtain ⟨s₀, tab₀, b1, b2, b3⟩ := C26_history_partial gm h hp [] (by simp) (by simp) (by simp [Spec.lastAssigned])
  have e : s₀ = (IndState.read { tri := t }).1 := by
    unfold IndState.assignAll at b1
    exact (Except.ok.inj b1).symm
  refine ⟨s, tab, tab₀, a1, a2, ?_, fun j hj => ⟨?_, (a3 k hk j hj).2.2.2⟩⟩
  · rw [e] at b2
    exact congrArg Prod.snd b2
  · rw [(a3 k hk j hj).2.2.2, (b3 k hk j hj).2.2.2]

/-- **C206 is false of the code** for medial averages: the first factor is 5; with the link ratio 9 of 2001 excluded it is
missing (and so are the ultimates that use it). -/
theorem C206_medial_fails :
    ((baseCL (fun _ => .nan) (stairTri 5 exExcl) (stairTri 5 exExcl).a2aind0 "all-medial" 1).map
        (fun r => (r.ldfs.map Prod.snd, r.totUltimate))).toOption =
      some ([.fin 5, .fin 1, .fin 1, .fin 1, .fin 1], .fin 2500) ∧
    ((baseCL (fun _ => .nan) (stairTri 5 exExcl) ((stairTri 5 exExcl).a2aind0.setAt 2001 1 0) "all-medial" 1).map
        (fun r => (r.ldfs.map Prod.snd, r.rows.map SummRow.ultimate))).toOption =
      some ([.nan, .fin 1, .fin 1, .fin 1, .fin 1], [.fin 900, .fin 500, .fin 500, .fin 100, .nan]) := by
  constructor <;> decide +kernel

/-- The weighted average stays 5 when the link ratio 9 above it is excluded. -/
example :
    ((baseCL (fun _ => .nan) (stairTri 5 exExcl) (stairTri 5 exExcl).a2aind0 "all-weighted" 1).map
        (fun r => r.ldfs.map Prod.snd)).toOption = some [.fin 5, .fin 1, .fin 1, .fin 1, .fin 1] ∧
    ((baseCL (fun _ => .nan) (stairTri 5 exExcl) ((stairTri 5 exExcl).a2aind0.setAt 2001 1 0) "all-weighted" 1).map
        (fun r => r.ldfs.map Prod.snd)).toOption = some [.fin 5, .fin 1, .fin 1, .fin 1, .fin 1] := by
  constructor <;> decide +kernel

/-- Excluding the link ratio 9 above the simple average 5 lowers it to 11/3. -/
example :
    ((baseCL (fun _ => .nan) (stairTri 5 exExcl) (stairTri 5 exExcl).a2aind0 "all-simple" 1).map
        (fun r => (r.ldfs.map Prod.snd, r.totUltimate))).toOption =
      some ([.fin 5, .fin 1, .fin 1, .fin 1, .fin 1], .fin 2500) ∧
    ((baseCL (fun _ => .nan) (stairTri 5 exExcl) ((stairTri 5 exExcl).a2aind0.setAt 2001 1 0) "all-simple" 1).map
        (fun r => (r.ldfs.map Prod.snd, r.totUltimate))).toOption =
      some ([.fin (11 / 3), .fin 1, .fin 1, .fin 1, .fin 1], .fin (2000 + 1100 / 3)) := by
  constructor <;> decide +kernel

/-- The same for Mack's factors with `alpha = 1`. -/
example :
    ((mackCore 1 (stairTri 5 exExcl) (stairTri 5 exExcl).a2aind0).map (fun r => r.ldfs.map Prod.snd)).toOption =
      some [.fin 5, .fin 1, .fin 1, .fin 1, .fin 1] ∧
    ((mackCore 1 (stairTri 5 exExcl) ((stairTri 5 exExcl).a2aind0.setAt 2001 1 0)).map
        (fun r => r.ldfs.map Prod.snd)).toOption = some [.fin (11 / 3), .fin 1, .fin 1, .fin 1, .fin 1] := by
  constructor <;> decide +kernel

end Trikit
