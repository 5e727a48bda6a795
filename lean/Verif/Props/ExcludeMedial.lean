import Verif.Props.ExcludeHigh

/-!
# C206 for medial averages

Excluding one more link ratio when the link ratios differ: `a2a_avgs` and `_medial` (triangle.py:523-574 and 777-856).
-/

set_option linter.unusedSectionVars false

namespace Trikit

section
variable {K : Type} [Field K] [LinearOrder K] [IsStrictOrderedRing K]
variable {t : Tri K} {n : ℕ} {c : ℕ → ℕ → K}

/-- The mean of the numbers that are neither smallest nor largest, and of all of them if there are at most two. -/
def Spec.medialOf (L : List K) : K :=
  if L.length ≤ 2 then Spec.mean L
  else Spec.mean (L.filter (fun x => decide ((∃ y ∈ L, y < x) ∧ ∃ y ∈ L, x < y)))

theorem list_sum_lt {b : K} : ∀ {l : List K}, l ≠ [] → (∀ y ∈ l, y < b) → l.sum < l.length * b
  | [], h, _ => absurd rfl h
  | [a], _, h => by simpa using h a (by simp)
  | a :: a' :: l, _, h => by
    have h1 := list_sum_lt (l := a' :: l) (by simp) (fun y hy => h y (List.mem_cons_of_mem _ hy))
    have h2 := h a (by simp)
    rw [List.sum_cons, List.length_cons]
    push_cast at h1 ⊢
    linarith

theorem list_lt_sum {b : K} : ∀ {l : List K}, l ≠ [] → (∀ y ∈ l, b < y) → l.length * b < l.sum
  | [], h, _ => absurd rfl h
  | [a], _, h => by simpa using h a (by simp)
  | a :: a' :: l, _, h => by
    have h1 := list_lt_sum (l := a' :: l) (by simp) (fun y hy => h y (List.mem_cons_of_mem _ hy))
    have h2 := h a (by simp)
    rw [List.sum_cons (a := a), List.length_cons]
    push_cast at h1 ⊢
    linarith

theorem erase_sum {L : List K} {x : K} (hx : x ∈ L) : (L.erase x).sum = L.sum - x := by
  rw [← List.sum_erase hx]; ring

theorem erase_len {L : List K} {x : K} (hx : x ∈ L) : (L.erase x).length + 1 = L.length := by
  rw [List.length_erase_of_mem hx]
  have := List.length_pos_of_mem hx
  omega

/-- Smallest and largest of different numbers. -/
structure Ends (L : List K) (lo hi : K) : Prop where
  lo_mem : lo ∈ L
  lo_le : ∀ x ∈ L, lo ≤ x
  hi_mem : hi ∈ L
  le_hi : ∀ x ∈ L, x ≤ hi

theorem Ends.ne {L : List K} {lo hi : K} (h : Ends L lo hi) (hd : L.Nodup) (h2 : 2 ≤ L.length) : lo < hi := by
  refine lt_of_le_of_ne (h.lo_le _ h.hi_mem) fun e => ?_
  have hall : ∀ x ∈ L, x = lo := fun x hx => le_antisymm (by rw [e]; exact h.le_hi x hx) (h.lo_le x hx)
  have h0 : L[0] = lo := hall _ (List.getElem_mem _)
  have h1 : L[1] = lo := hall _ (List.getElem_mem _)
  have := (hd.getElem_inj_iff (i := 0) (j := 1) (hi := by omega) (hj := by omega)).1 (h0.trans h1.symm)
  omega

theorem Ends.between {L : List K} {lo hi : K} (h : Ends L lo hi) (hd : L.Nodup) (hlt : lo < hi) :
    L.filter (fun x => decide ((∃ y ∈ L, y < x) ∧ ∃ y ∈ L, x < y)) = (L.erase lo).erase hi := by
  rw [(hd.erase lo).erase_eq_filter, hd.erase_eq_filter, List.filter_filter]
  refine List.filter_congr fun x hx => ?_
  have e1 : (∃ y ∈ L, y < x) ↔ x ≠ lo :=
    ⟨fun ⟨y, hy, hyx⟩ e => absurd (h.lo_le y hy) (not_le.2 (e ▸ hyx)),
      fun e => ⟨lo, h.lo_mem, lt_of_le_of_ne (h.lo_le x hx) (Ne.symm e)⟩⟩
  have e2 : (∃ y ∈ L, x < y) ↔ x ≠ hi :=
    ⟨fun ⟨y, hy, hyx⟩ e => absurd (h.le_hi y hy) (not_le.2 (e ▸ hyx)),
      fun e => ⟨hi, h.hi_mem, lt_of_le_of_ne (h.le_hi x hx) e⟩⟩
  rw [Bool.eq_iff_iff]
  simp only [decide_eq_true_eq, Bool.and_eq_true, bne_iff_ne]
  rw [e1, e2, and_comm]

theorem Ends.mid {L : List K} {lo hi : K} (h : Ends L lo hi) (hlt : lo < hi) :
    ((L.erase lo).erase hi).sum = L.sum - lo - hi ∧ ((L.erase lo).erase hi).length + 2 = L.length := by
  have hm : hi ∈ L.erase lo := (List.mem_erase_of_ne hlt.ne').2 h.hi_mem
  have a := erase_len h.lo_mem
  have b := erase_len hm
  exact ⟨by rw [erase_sum hm, erase_sum h.lo_mem], by omega⟩

theorem Ends.value {L : List K} {lo hi : K} (h : Ends L lo hi) (hd : L.Nodup) (h3 : 3 ≤ L.length) :
    Spec.medialOf L = (L.sum - lo - hi) / ((L.length : K) - 2) := by
  have hlt := h.ne hd (by omega)
  obtain ⟨h1, h2⟩ := h.mid hlt
  unfold Spec.medialOf Spec.mean
  rw [if_neg (by omega), h.between hd hlt, h1, ← h2]
  push_cast
  ring_nf

theorem exists_ends {L : List K} (h : L ≠ []) : ∃ lo hi, Ends L lo hi := by
  obtain ⟨lo, hi, a, b, d, e⟩ := exists_min_max h
  exact ⟨lo, hi, a, b, d, e⟩

/-- The medial average the code computes of different numbers. -/
theorem medialAvg_nodup {L : List K} (hd : L.Nodup) (hne : L ≠ []) :
    medialAvg (L.map Num.fin) = .ok (.fin (Spec.medialOf L)) := by
  obtain ⟨lo, hi, h⟩ := exists_ends hne
  rw [medialAvg_spec h.lo_mem h.lo_le h.hi_mem h.le_hi]
  by_cases h2 : 2 ≤ L.length
  · have hlt := h.ne hd h2
    rw [if_neg hlt.ne]
    by_cases h3 : L.length ≤ 2
    · rw [if_pos h3]; unfold Spec.medialOf; rw [if_pos h3]
    · have hf : L.filter (fun x => decide (x ≠ lo ∧ x ≠ hi)) = (L.erase lo).erase hi := by
        rw [(hd.erase lo).erase_eq_filter, hd.erase_eq_filter, List.filter_filter]
        refine List.filter_congr fun x _ => ?_
        rw [Bool.eq_iff_iff]
        simp only [decide_eq_true_eq, Bool.and_eq_true, bne_iff_ne]
        rw [and_comm]
      have hl := (h.mid hlt).2
      rw [if_neg h3, hf, if_neg (fun e => by rw [e] at hl; simp at hl; omega)]
      unfold Spec.medialOf
      rw [if_neg h3, h.between hd hlt]
  · obtain ⟨a, rfl⟩ : ∃ a, L = [a] := List.length_eq_one_iff.1 (by
      have := List.length_pos_of_ne_nil hne; omega)
    have e1 : lo = a := by simpa using h.lo_mem
    have e2 : hi = a := by simpa using h.hi_mem
    rw [e1, e2, if_pos rfl]
    simp [Spec.medialOf, Spec.mean]

theorem medialOf_pos {L : List K} (hd : L.Nodup) (hne : L ≠ []) (hp : ∀ x ∈ L, 0 < x) : 0 < Spec.medialOf L := by
  have hmean : ∀ l : List K, l ≠ [] → (∀ x ∈ l, 0 < x) → 0 < Spec.mean l := fun l h1 h2 => by
    unfold Spec.mean
    exact div_pos (List.sum_pos _ h2 h1) (by exact_mod_cast List.length_pos_of_ne_nil h1)
  obtain ⟨lo, hi, h⟩ := exists_ends hne
  unfold Spec.medialOf
  split
  · exact hmean _ hne hp
  · rename_i h3
    have hlt := h.ne hd (by omega)
    rw [h.between hd hlt]
    refine hmean _ (fun e => ?_) fun x hx => hp x (List.mem_of_mem_erase (List.mem_of_mem_erase hx))
    have := (h.mid hlt).2
    rw [e] at this; simp at this; omega

/-- Taking one of different numbers out of their medial average; it must not be the middle one of three. -/
theorem medialOf_erase {L : List K} (hd : L.Nodup) {x : K} (hx : x ∈ L) (h2 : 2 ≤ L.length)
    (h3 : L.length = 3 → ¬ ((∃ y ∈ L, y < x) ∧ ∃ y ∈ L, x < y)) :
    Spec.MovesAway (Spec.medialOf L) x (Spec.medialOf L) (Spec.medialOf (L.erase x)) := by
  have hd' := hd.erase x
  have hs' := erase_sum hx
  have hl' := erase_len hx
  have hl'K : ((L.erase x).length : K) = (L.length : K) - 1 := by rw [← hl']; push_cast; ring
  by_cases hm2 : L.length = 2
  · have e1 : Spec.medialOf L = L.sum / 2 := by
      unfold Spec.medialOf Spec.mean; rw [if_pos (by omega), hm2]; norm_num
    have e2 : Spec.medialOf (L.erase x) = (L.sum - 1 * x) / (2 - 1) := by
      unfold Spec.medialOf Spec.mean; rw [if_pos (by omega), hs', hl'K, hm2, one_mul]; norm_num
    rw [e1, e2]
    exact remove_moves one_pos (by norm_num)
  have hm3 : 3 ≤ L.length := by omega
  have hm3K : (3 : K) ≤ L.length := by exact_mod_cast hm3
  obtain ⟨lo, hi, h⟩ := exists_ends (List.ne_nil_of_mem hx)
  have hlt := h.ne hd h2
  obtain ⟨hms, hml⟩ := h.mid hlt
  have hmlK : (((L.erase lo).erase hi).length : K) = (L.length : K) - 2 := by rw [← hml]; push_cast; ring
  have hmne : (L.erase lo).erase hi ≠ [] := fun e => by rw [e] at hml; simp at hml; omega
  have hmem : ∀ y ∈ (L.erase lo).erase hi, lo < y ∧ y < hi := fun y hy => by
    have a := (hd.erase lo).mem_erase_iff.1 hy
    have b := hd.mem_erase_iff.1 a.2
    exact ⟨lt_of_le_of_ne (h.lo_le y b.2) (Ne.symm b.1), lt_of_le_of_ne (h.le_hi y b.2) a.1⟩
  have hv := h.value hd hm3
  have hD : (0 : K) < (L.length : K) - 2 := by linarith
  have hup := list_sum_lt hmne fun y hy => (hmem y hy).2
  have hdn := list_lt_sum hmne fun y hy => (hmem y hy).1
  rw [hms, hmlK] at hup hdn
  have medhi : Spec.medialOf L < hi := by rw [hv, div_lt_iff₀ hD]; linarith
  have medlo : lo < Spec.medialOf L := by rw [hv, lt_div_iff₀ hD]; linarith
  by_cases hxh : x = hi
  · subst hxh
    have key : Spec.medialOf (L.erase x) < Spec.medialOf L := by
      obtain ⟨lo', hi', g⟩ := exists_ends (L := L.erase x) (fun e => by rw [e] at hl'; simp at hl'; omega)
      have hlo : lo' = lo := le_antisymm (g.lo_le _ ((List.mem_erase_of_ne hlt.ne).2 h.lo_mem))
        (h.lo_le _ (List.mem_of_mem_erase g.lo_mem))
      rw [hlo] at g
      by_cases hm : L.length = 3
      · have e2 : Spec.medialOf (L.erase x) = (L.sum - x) / 2 := by
          unfold Spec.medialOf Spec.mean; rw [if_pos (by omega), hs', hl'K, hm]; norm_num
        rw [e2, hv, hm]
        rw [hm] at hdn
        norm_num at hdn ⊢
        linarith
      · have hm4 : (4 : K) ≤ L.length := by exact_mod_cast (show 4 ≤ L.length by omega)
        have glt := g.ne hd' (by omega)
        obtain ⟨q1, q2⟩ := g.mid glt
        have q2K : ((((L.erase x).erase lo).erase hi').length : K) = (L.length : K) - 3 := by
          have : (((L.erase x).erase lo).erase hi').length + 3 = L.length := by omega
          rw [← this]; push_cast; ring
        have r1 := list_sum_lt (b := hi') (l := ((L.erase x).erase lo).erase hi')
          (fun e => by rw [e] at q2; simp at q2; omega) fun y hy => by
            have a := (hd'.erase lo).mem_erase_iff.1 hy
            exact lt_of_le_of_ne (g.le_hi y (List.mem_of_mem_erase a.2)) a.1
        rw [q1, q2K, hs'] at r1
        have hlow : Spec.medialOf L < hi' := by rw [hv, div_lt_iff₀ hD]; linarith
        have := (remove_moves (N := L.sum - lo - x) (D := (L.length : K) - 2) (a := 1) (x := hi') one_pos (by linarith)).1.2
          (by rw [← hv]; exact hlow)
        rw [g.value hd' (by omega), hv, hs', hl'K]
        convert this using 2 <;> ring
    exact movesAway_of (fun _ => key) (fun e => absurd e medhi.asymm) (fun e => absurd e medhi.ne')
  by_cases hxl : x = lo
  · subst hxl
    have key : Spec.medialOf L < Spec.medialOf (L.erase x) := by
      obtain ⟨lo', hi', g⟩ := exists_ends (L := L.erase x) (fun e => by rw [e] at hl'; simp at hl'; omega)
      have hhi : hi' = hi := le_antisymm (h.le_hi _ (List.mem_of_mem_erase g.hi_mem))
        (g.le_hi _ ((List.mem_erase_of_ne hlt.ne').2 h.hi_mem))
      rw [hhi] at g
      by_cases hm : L.length = 3
      · have e2 : Spec.medialOf (L.erase x) = (L.sum - x) / 2 := by
          unfold Spec.medialOf Spec.mean; rw [if_pos (by omega), hs', hl'K, hm]; norm_num
        rw [e2, hv, hm]
        rw [hm] at hup
        norm_num at hup ⊢
        linarith
      · have hm4 : (4 : K) ≤ L.length := by exact_mod_cast (show 4 ≤ L.length by omega)
        have glt := g.ne hd' (by omega)
        obtain ⟨q1, q2⟩ := g.mid glt
        have q2K : ((((L.erase x).erase lo').erase hi).length : K) = (L.length : K) - 3 := by
          have : (((L.erase x).erase lo').erase hi).length + 3 = L.length := by omega
          rw [← this]; push_cast; ring
        have r1 := list_lt_sum (b := lo') (l := ((L.erase x).erase lo').erase hi)
          (fun e => by rw [e] at q2; simp at q2; omega) fun y hy => by
            have a := (hd'.erase lo').mem_erase_iff.1 hy
            have b := hd'.mem_erase_iff.1 a.2
            exact lt_of_le_of_ne (g.lo_le y b.2) (Ne.symm b.1)
        rw [q1, q2K, hs'] at r1
        have hhigh : lo' < Spec.medialOf L := by rw [hv, lt_div_iff₀ hD]; linarith
        have := (remove_moves (N := L.sum - x - hi) (D := (L.length : K) - 2) (a := 1) (x := lo') one_pos (by linarith)).2.2
          (by rw [← hv]; exact hhigh)
        rw [g.value hd' (by omega), hv, hs', hl'K]
        convert this using 2 <;> ring
    exact movesAway_of (fun e => absurd e medlo.asymm) (fun _ => key) (fun e => absurd e medlo.ne)
  have hm : L.length ≠ 3 := fun e => h3 e
    ⟨⟨lo, h.lo_mem, lt_of_le_of_ne (h.lo_le x hx) (Ne.symm hxl)⟩, ⟨hi, h.hi_mem, lt_of_le_of_ne (h.le_hi x hx) hxh⟩⟩
  have hm4 : (4 : K) ≤ L.length := by exact_mod_cast (show 4 ≤ L.length by omega)
  have g : Ends (L.erase x) lo hi := ⟨(List.mem_erase_of_ne (Ne.symm hxl)).2 h.lo_mem,
    fun y hy => h.lo_le y (List.mem_of_mem_erase hy), (List.mem_erase_of_ne (Ne.symm hxh)).2 h.hi_mem,
    fun y hy => h.le_hi y (List.mem_of_mem_erase hy)⟩
  have := remove_moves (N := L.sum - lo - hi) (D := (L.length : K) - 2) (a := 1) (x := x) one_pos (by linarith)
  rw [g.value hd' (by omega), hv, hs', hl'K]
  convert this using 2 <;> ring

/-- Medial averages after a history of exclusions, when the kept link ratios of the window differ. -/
theorem medial_history (gm : List (Num K) → Num K) (h : Spec.Stair t n c) (hp : Spec.Positive n c) {l : List (Assign K)}
    (hl : Spec.ZeroOneHistory t n l) {k : ℕ} (hk : k < n - 1) {s : IndState K} {tab : AvgTable K}
    (hs : IndState.assignAll (IndState.read { tri := t }).1 l = .ok s) (ha : s.avgs gm = (s, .ok tab)) {j : ℕ} (hj : j < n - 1)
    (hne : Spec.keptRatios t n c l k j ≠ []) (hd : (Spec.keptRatios t n c l k j).Nodup) :
    Spec.entry tab (Spec.avgName "medial" k) j = some (.fin (Spec.medialOf (Spec.keptRatios t n c l k j))) := by
  have hc := hp.ne_zero
  obtain ⟨s₀, w, h1, h2, h3, h4⟩ := indOn_of_history h hc l hl.labels
    (fun a ha => by rcases hl.binary a ha with e | e <;> exact ⟨_, e⟩)
  rw [hs] at h1
  have e := Except.ok.inj h1
  subst e
  have htab : a2aAvgs gm t s.read.2 = .ok tab := by
    have := congrArg Prod.snd ha
    unfold IndState.avgs at this
    rw [h2] at this
    exact this
  have hj' : j < (Tri.alignOp (· * ·) t.a2a s.read.2).nc := by rw [adj_nc h hc h3]; exact hj
  apply entry_of_ok htab .medial (Or.inr (by rw [h.a2a_nr hc]; exact hk)) hj'
  rw [entry_medial h hc h3 hj, kept_window (t := t) hp l hl.binary h4 k hj]
  exact medialAvg_nodup hd hne

/-- **C206, medial averages**, under the assumptions of `C206_partial` and two more: the kept link ratios of the window differ in
every period, and the excluded one is not the middle one of three.  Missing: ties (`C206_medial_fails`) and the middle one of three
(`C206_medial_three_fails`). -/
theorem C206_medial_partial (gm : List (Num K) → Num K) (h : Spec.Stair t n c) (hp : Spec.Positive n c) {l : List (Assign K)}
    (hl : Spec.ZeroOneHistory t n l) {i j : ℕ} (hij : i + j + 2 < n)
    (hkept : Spec.lastAssigned l (t.oAt i) (t.dAt j) ≠ some (.fin 0)) {k : ℕ} (hk : k < n - 1) {tail : K} (ht : 0 < tail)
    (hdiff : ∀ q < n - 1, (Spec.keptRatios t n c l k q).Nodup)
    (hmid : (Spec.keptRatios t n c l k j).length = 3 → ¬ ((∃ y ∈ Spec.keptRatios t n c l k j, y < c i (j + 1) / c i j) ∧
      ∃ y ∈ Spec.keptRatios t n c l k j, c i (j + 1) / c i j < y)) :
    ∃ s s' r r', IndState.assignAll (IndState.read { tri := t }).1 l = .ok s ∧
      IndState.assignAll (IndState.read { tri := t }).1 (l ++ [⟨t.oAt i, t.dAt j, .fin 0⟩]) = .ok s' ∧
      baseCL gm s.tri s.read.2 (Spec.avgName "medial" k) (.fin tail) = .ok r ∧
      baseCL gm s'.tri s'.read.2 (Spec.avgName "medial" k) (.fin tail) = .ok r' ∧
      Spec.ExclusionMoves n j (c i (j + 1) / c i j) (Spec.InWindow n k i j) r.ldfs r'.ldfs r.rows r'.rows r.totUltimate
        r'.totUltimate := by
  have hl' := ZeroOneHistory.append h hp hl hij
  obtain ⟨s, tab, a1, a2, a3⟩ := C26_history_partial gm h hp l hl.labels hl.binary hl.recent
  obtain ⟨s', tab', b1, b2, b3⟩ := C26_history_partial gm h hp _ hl'.labels hl'.binary hl'.recent
  have hmem := mem_keptIdx (t := t) (n := n) (l := l) (k := k) (i := i) (j := j) (by omega) hkept
  set l' := l ++ [(⟨t.oAt i, t.dAt j, .fin 0⟩ : Assign K)] with hl'def
  have hoff : ∀ q < n - 1, q ≠ j → Spec.keptRatios t n c l' k q = Spec.keptRatios t n c l k q := fun q hq e => by
    rw [keptRatios_eq, hl'def, keptIdx_append h l (by omega) k hq, if_neg e]; rfl
  have hon : Spec.keptRatios t n c l' k j =
      ((keptIdx t n l k j).filter (fun p => decide (p ≠ i))).map (fun i => c i (j + 1) / c i j) := by
    rw [keptRatios_eq, hl'def, keptIdx_append h l (by omega) k (by omega), if_pos rfl]
  have hout : ¬ Spec.InWindow n k i j → Spec.keptRatios t n c l' k j = Spec.keptRatios t n c l k j := fun hu => by
    rw [hon, keptRatios_eq]
    congr 1
    rw [List.filter_eq_self]
    intro p hp1
    simp only [decide_eq_true_eq]
    rintro rfl
    exact hu (hmem.1 hp1)
  have hin : Spec.InWindow n k i j → Spec.keptRatios t n c l' k j =
      (Spec.keptRatios t n c l k j).erase (c i (j + 1) / c i j) := fun hu => by
    have hdj := hdiff j (by omega)
    rw [hdj.erase_eq_filter, hon, keptRatios_eq, List.filter_map]
    congr 1
    refine List.filter_congr fun p hp1 => ?_
    rw [keptRatios_eq] at hdj
    rw [Bool.eq_iff_iff]
    simp only [decide_eq_true_eq, Function.comp, bne_iff_ne]
    exact not_congr ⟨fun e => by rw [e], fun e => List.inj_on_of_nodup_map hdj hp1 (hmem.2 hu) e⟩
  have hdiff' : ∀ q < n - 1, (Spec.keptRatios t n c l' k q).Nodup := fun q hq => by
    by_cases e : q = j
    · subst e
      by_cases hu : Spec.InWindow n k i q
      · rw [hin hu]; exact (hdiff q hq).erase _
      · rw [hout hu]; exact hdiff q hq
    · rw [hoff q hq e]; exact hdiff q hq
  have hposr : ∀ q, ∀ x ∈ Spec.keptRatios t n c l k q, 0 < x := by
    intro q x hx
    rw [keptRatios_eq, List.mem_map] at hx
    obtain ⟨p, hp1, rfl⟩ := hx
    have := List.mem_range.1 (lastN_subset _ _ p (List.mem_filter.1 hp1).1)
    exact div_pos (hp _ _ (by omega)) (hp _ _ (by omega))
  obtain ⟨r, r', c1, c2, c3⟩ := exclusion_base gm h hp (by omega) hl hl' .medial hk a1 a2 b1 b2
    (f := fun q => Spec.medialOf (Spec.keptRatios t n c l k q))
    (f' := fun q => Spec.medialOf (Spec.keptRatios t n c l' k q))
    (fun q hq => medial_history gm h hp hl hk a1 a2 hq (a3 k hk q hq).1 (hdiff q hq))
    (fun q hq => medial_history gm h hp hl' hk b1 b2 hq (b3 k hk q hq).1 (hdiff' q hq))
    (fun q hq => medialOf_pos (hdiff q hq) (a3 k hk q hq).1 (hposr q))
    (j := j) (by omega) (fun q hq e => by beta_reduce; rw [hoff q hq e]) (x := c i (j + 1) / c i j)
    (used := Spec.InWindow n k i j)
    (fun hu => by
      have hne := (b3 k hk j (by omega)).1
      beta_reduce
      rw [hin hu] at hne ⊢
      have hx : c i (j + 1) / c i j ∈ Spec.keptRatios t n c l k j := by
        rw [keptRatios_eq]; exact List.mem_map.2 ⟨i, hmem.2 hu, rfl⟩
      have := erase_len hx
      have := List.length_pos_of_ne_nil hne
      exact medialOf_erase (hdiff j (by omega)) hx (by omega) hmid)
    (fun hu => by beta_reduce; rw [hout hu])
    ht
  exact ⟨s, s', r, r', a1, b1, c1, c2, c3⟩

end

/-- Link ratios 9, 2, 1 of the first period, 1, 2 of the second and 1 of the last. -/
def exExclThree : ℕ → ℕ → ℚ := fun i j =>
  if j = 0 then 100 else if i = 0 then 900 else if i = 1 then (if j = 1 then 200 else 400) else 100

/-- **C206 is false of the code** for medial averages of three different link ratios: the middle one, 2, is the factor; without it
the factor is the mean 5 of the other two. -/
theorem C206_medial_three_fails :
    ((baseCL (fun _ => .nan) (stairTri 4 exExclThree) (stairTri 4 exExclThree).a2aind0 "all-medial" 1).map
        (fun r => r.ldfs.iloc 0)).toOption = some (.fin 2) ∧
    ((baseCL (fun _ => .nan) (stairTri 4 exExclThree) ((stairTri 4 exExclThree).a2aind0.setAt 2002 1 0) "all-medial" 1).map
        (fun r => r.ldfs.iloc 0)).toOption = some (.fin 5) := by
  constructor <;> decide +kernel

/-- A concrete case of `C206_medial_partial`: without the largest link ratio 9 the factor falls from 2 to the mean of 2 and 1. -/
example :
    ((baseCL (fun _ => .nan) (stairTri 4 exExclThree) ((stairTri 4 exExclThree).a2aind0.setAt 2001 1 0) "all-medial" 1).map
        (fun r => r.ldfs.iloc 0)).toOption = some (.fin (3 / 2)) := by decide +kernel

end Trikit
