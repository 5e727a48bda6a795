import Verif.RoundedTri
import Verif.FloatRd
import Verif.Props.RoundTrip
import Verif.Props.Construct
import Verif.FrameLemmas
import Mathlib.Data.Rat.Floor

/-! # C146 - C148: construction of triangles in rounded arithmetic -/

set_option linter.unusedSectionVars false

namespace Trikit

variable {K : Type} [Field K] [LinearOrder K] [IsStrictOrderedRing K] {rd : K → K} {N : ℕ}

/-- Whole numbers up to `N` in absolute value are not rounded. -/
def Spec.ExactInt (rd : K → K) (N : ℕ) : Prop := ∀ m : ℤ, m.natAbs ≤ N → rd (m : K) = m

/-- Rounding to `p` binary digits does not change whole numbers up to 2ᵖ. -/
theorem floatRd_exactInt [FloorRing K] {p : ℕ} (hp : 1 ≤ p) : Spec.ExactInt (floatRd p : K → K) (2 ^ p) := by
  intro m hm
  refine floatRd_fix hp ⟨m, 0, ?_, by simp⟩
  have : ((m.natAbs : ℕ) : ℤ) ≤ ((2 ^ p : ℕ) : ℤ) := by exact_mod_cast hm
  rw [Int.abs_eq_natAbs]; push_cast at this ⊢; exact this

/-- Absolute value of a whole amount as a number of units, at least 1; missing amounts count 0. -/
def Spec.units (v : Num K) (m : ℕ) : Prop := v = .nan ∧ m = 0 ∨ ∃ z : ℤ, v = .fin (z : K) ∧ max 1 z.natAbs = m

/-- Amounts that are missing or whole numbers, with absolute values of at most `N` altogether (each counted at least
once). -/
def Spec.Whole (N : ℕ) (l : List (Num K)) : Prop := ∃ w : List ℕ, List.Forall₂ Spec.units l w ∧ w.sum ≤ N

theorem kahanStep_whole (hx : Spec.ExactInt rd N) {a z : ℤ} (hz : z.natAbs ≤ N) (haz : (a + z).natAbs ≤ N) :
    kahanStep rd (.fin (a : K), .fin 0) (.fin (z : K)) = (.fin ((a + z : ℤ) : K), .fin 0) := by
  unfold kahanStep
  have h0 : rd 0 = 0 := by have := hx 0 (by simp); simpa using this
  have e1 : ((.fin (z : K) : Num K) - .fin 0).rounded rd = .fin (z : K) := by
    rw [Num.fin_sub, sub_zero]; show Num.fin (rd _) = _; rw [hx z hz]
  have e2 : ((.fin (a : K) : Num K) + .fin (z : K)).rounded rd = .fin ((a + z : ℤ) : K) := by
    rw [Num.fin_add]; show Num.fin (rd _) = _; rw [← Int.cast_add, hx _ haz]
  have e3 : ((.fin ((a + z : ℤ) : K) : Num K) - .fin (a : K)).rounded rd = .fin (z : K) := by
    rw [Num.fin_sub]; show Num.fin (rd _) = _
    rw [Int.cast_add, add_sub_cancel_left, hx z hz]
  have e4 : ((.fin (z : K) : Num K) - .fin (z : K)).rounded rd = .fin 0 := by
    rw [Num.fin_sub, sub_self]; show Num.fin (rd _) = _; rw [h0]
  simp only [e1, e2, e3, e4]
  rfl

theorem kahan_fold (hx : Spec.ExactInt rd N) (zs : List ℤ) : ∀ a : ℤ, a.natAbs + (zs.map Int.natAbs).sum ≤ N →
    (zs.map (fun z : ℤ => (Num.fin (z : K)))).foldl (kahanStep rd) (.fin (a : K), .fin 0) =
      (.fin ((a + zs.sum : ℤ) : K), .fin 0) := by
  induction zs with
  | nil => intro a _; simp
  | cons z zs ih =>
    intro a h
    simp only [List.map_cons, List.sum_cons] at h
    rw [List.map_cons, List.foldl_cons, kahanStep_whole hx (by omega) (by omega), ih (a + z) (by omega), List.sum_cons,
      add_assoc]

/-- Compensated sums of whole amounts are exact. -/
theorem kahanSum_whole (hx : Spec.ExactInt rd N) {l : List (Num K)} (h : Spec.Whole N l) :
    kahanSum rd l = Num.sumSkip l := by
  obtain ⟨w, h1, h2⟩ := h
  have key : ∃ zs : List ℤ, l.filter (fun v => !v.isNaN) = zs.map (fun z : ℤ => (Num.fin (z : K))) ∧
      (zs.map Int.natAbs).sum ≤ w.sum := by
    clear h2
    induction h1 with
    | nil => exact ⟨[], rfl, le_refl _⟩
    | cons hu _ ih =>
      obtain ⟨zs, e1, e2⟩ := ih
      rcases hu with ⟨rfl, rfl⟩ | ⟨z, rfl, rfl⟩
      · exact ⟨zs, by simpa [Num.isNaN] using e1, by simpa using e2⟩
      · refine ⟨z :: zs, by simpa [Num.isNaN] using e1, ?_⟩
        simp only [List.map_cons, List.sum_cons]
        omega
  obtain ⟨zs, e1, e2⟩ := key
  unfold kahanSum Num.sumSkip
  rw [e1]
  have := kahan_fold hx zs 0 (by simpa using e2.trans h2)
  rw [show ((0, 0) : Num K × Num K) = (.fin ((0 : ℤ) : K), .fin 0) by simp; rfl, this]
  rw [show zs.map (fun z : ℤ => (Num.fin (z : K))) = (zs.map (fun z : ℤ => (z : K))).map Num.fin by
    rw [List.map_map]; rfl, Num.sum_map_fin]
  rw [zero_add]
  show Num.fin _ = _
  congr 1
  exact map_list_sum (Int.castRingHom K) zs

theorem Spec.Whole.sublist {l l' : List (Num K)} (h : Spec.Whole N l) (hs : l'.Sublist l) : Spec.Whole N l' := by
  obtain ⟨w, h1, h2⟩ := h
  suffices ∃ w', List.Forall₂ Spec.units l' w' ∧ w'.sum ≤ w.sum by
    obtain ⟨w', a, b⟩ := this; exact ⟨w', a, b.trans h2⟩
  clear h2
  induction hs generalizing w with
  | slnil => exact ⟨w, h1, le_refl _⟩
  | cons a _ ih =>
    cases h1 with
    | cons hu ht =>
      obtain ⟨w', a, b⟩ := ih _ ht
      exact ⟨w', a, b.trans (by simp)⟩
  | cons_cons a _ ih =>
    cases h1 with
    | cons hu ht =>
      obtain ⟨w', a, b⟩ := ih _ ht
      exact ⟨_ :: w', .cons hu a, by simpa using b⟩

theorem Spec.Whole.cell {recs : List (Rec K)} (h : Spec.Whole N (recs.map Rec.value)) (o d : Int) :
    Spec.Whole N (cellValues recs o d) :=
  h.sublist (List.filter_sublist.map _)

/-- Pivoting is exact if the amounts of every cell are whole. -/
theorem pivotR_whole (hx : Spec.ExactInt rd N) {recs : List (Rec K)} (h : ∀ o d, Spec.Whole N (cellValues recs o d)) :
    pivotR rd recs = pivot recs := by
  have e : groupCellR rd recs = groupCell recs := by
    funext o d
    unfold groupCellR groupCell
    rw [kahanSum_whole hx (h _ _)]
  unfold pivotR pivot
  rw [e]
  rfl

theorem negHandler_whole {recs : List (Rec K)} (h : Spec.Whole N (recs.map Rec.value)) :
    Spec.Whole N ((negHandler recs).map Rec.value) := by
  unfold negHandler
  split
  · exact h
  · rename_i m hm
    clear hm
    obtain ⟨w, h1, h2⟩ := h
    suffices ∃ w', List.Forall₂ Spec.units ((recs.map (fun r =>
        if r.dev = m ∧ Num.le r.value 0 = true then { r with value := 1 } else r)).map Rec.value) w' ∧
        w'.sum ≤ w.sum by
      obtain ⟨w', a, b⟩ := this; exact ⟨w', a, b.trans h2⟩
    clear h2
    induction recs generalizing w with
    | nil => exact ⟨[], .nil, by simp⟩
    | cons r recs ih =>
      cases h1 with
      | cons hu ht =>
        obtain ⟨w', a, b⟩ := ih _ ht
        rw [List.map_cons, List.map_cons]
        by_cases e : r.dev = m ∧ Num.le r.value 0 = true
        · refine ⟨1 :: w', .cons (Or.inr ⟨1, by rw [if_pos e]; simp; rfl, rfl⟩) a, ?_⟩
          rcases hu with ⟨hv, rfl⟩ | ⟨z, hv, rfl⟩
          · rw [hv] at e; simp [Num.le] at e
          · simp only [List.sum_cons]; omega
        · exact ⟨_ :: w', .cons (by rw [if_neg e]; exact hu) a, by simpa using b⟩

/-- **C146, incremental triangles**. -/
theorem C146_incr (hx : Spec.ExactInt rd N) {recs : List (Rec K)} (h : Spec.Whole N (recs.map Rec.value)) :
    totriIncrR rd recs = totriIncr recs := by
  unfold totriIncrR baseInitR totriIncr incrTri baseInit
  rw [pivotR_whole hx fun o d => (negHandler_whole h).cell o d]

/-! ### cumulative triangles -/

theorem cumGo_whole (hx : Spec.ExactInt rd N) {recs : List (Rec K)} {w : List ℕ}
    (hw : List.Forall₂ Spec.units (recs.map Rec.value) w) :
    ∀ (a : Int → ℤ), (∀ o, (a o).natAbs + w.sum ≤ N) →
      cumGoR rd (fun o => (.fin ((a o : ℤ) : K), .fin 0)) recs = cumGo (fun o => .fin ((a o : ℤ) : K)) recs ∧
      ∀ r ∈ cumGo (fun o => .fin ((a o : ℤ) : K)) recs, r.value = .nan ∨
        ∃ z : ℤ, r.value = .fin (z : K) ∧ max 1 z.natAbs ≤ N := by
  induction recs generalizing w with
  | nil => intro a _; exact ⟨rfl, by simp [cumGo]⟩
  | cons r recs ih =>
    intro a ha
    rw [List.map_cons] at hw
    cases hw with
    | @cons _ u _ w' hu ht =>
      simp only [List.sum_cons] at ha
      rcases hu with ⟨hv, rfl⟩ | ⟨z, hv, rfl⟩
      · obtain ⟨h1, h2⟩ := ih ht a (by intro o; have := ha o; omega)
        have hn : r.value.isNaN = true := by rw [hv]; rfl
        rw [cumGoR, cumGo, if_pos hn, if_pos hn, h1]
        refine ⟨rfl, fun s hs => ?_⟩
        rcases List.mem_cons.1 hs with rfl | hs
        · exact Or.inl hv
        · exact h2 s hs
      · have hn : ¬ r.value.isNaN = true := by rw [hv]; simp [Num.isNaN]
        have h0 := ha r.origin
        have hs1 := kahanStep_whole (N := N) hx (a := a r.origin) (z := z) (by omega) (by omega)
        obtain ⟨h1, h2⟩ := ih ht (fun o => if o = r.origin then a r.origin + z else a o) (by
          intro o
          split
          · omega
          · have := ha o; omega)
        rw [cumGoR, cumGo, if_neg hn, if_neg hn]
        simp only
        rw [hv, hs1, Num.fin_add, ← Int.cast_add]
        have e1 : (fun o => if o = r.origin then ((Num.fin ((a r.origin + z : ℤ) : K)), (Num.fin 0 : Num K))
            else (Num.fin ((a o : ℤ) : K), Num.fin 0)) =
            fun o => (Num.fin (((if o = r.origin then a r.origin + z else a o : ℤ)) : K), Num.fin 0) := by
          funext o; split <;> rfl
        have e2 : (fun o => if o = r.origin then (Num.fin ((a r.origin + z : ℤ) : K)) else Num.fin ((a o : ℤ) : K)) =
            fun o => Num.fin (((if o = r.origin then a r.origin + z else a o : ℤ)) : K) := by
          funext o; split <;> rfl
        rw [e1, e2, h1]
        refine ⟨rfl, fun s hs => ?_⟩
        rcases List.mem_cons.1 hs with rfl | hs
        · exact Or.inr ⟨_, rfl, by omega⟩
        · exact h2 s hs

theorem cumRecs_whole (hx : Spec.ExactInt rd N) {recs : List (Rec K)} (h : Spec.Whole N (recs.map Rec.value)) :
    cumRecsR rd recs = cumRecs recs ∧ ∀ r ∈ cumRecs recs, r.value = .nan ∨
        ∃ z : ℤ, r.value = .fin (z : K) ∧ max 1 z.natAbs ≤ N := by
  obtain ⟨w, h1, h2⟩ := h
  have := cumGo_whole hx h1 (fun _ => 0) (by intro o; simpa using h2)
  have e : ((0 : Num K)) = .fin ((0 : ℤ) : K) := by simp; rfl
  have e' : ((0 : Num K), (0 : Num K)) = (.fin ((0 : ℤ) : K), .fin 0) := by simp; rfl
  unfold cumRecsR cumRecs
  rw [e', e]
  exact this

/-- At most one record per cell. -/
theorem cellValues_single {recs : List (Rec K)} (h : OnePerCell recs) (o d : Int) :
    (cellValues recs o d).length ≤ 1 := by
  by_cases e : ∃ r ∈ recs, r.origin = o ∧ r.dev = d
  · obtain ⟨r, hr, rfl, rfl⟩ := e
    rw [cellValues_of_onePerCell h hr]; simp
  · rw [cellValues_eq_nil.2 fun r hr h1 => e ⟨r, hr, h1⟩]; simp

theorem negHandler_values {recs : List (Rec K)}
    (h : ∀ r ∈ recs, r.value = .nan ∨ ∃ z : ℤ, r.value = .fin (z : K) ∧ max 1 z.natAbs ≤ N) :
    ∀ r ∈ negHandler recs, r.value = .nan ∨ ∃ z : ℤ, r.value = .fin (z : K) ∧ max 1 z.natAbs ≤ N := by
  unfold negHandler
  split
  · exact h
  · rename_i m hm
    intro r hr
    obtain ⟨s, hs, rfl⟩ := List.mem_map.1 hr
    by_cases e : s.dev = m ∧ Num.le s.value 0 = true
    · rw [if_pos e]
      rcases h s hs with hv | ⟨z, _, hz⟩
      · rw [hv] at e; simp [Num.le] at e
      · exact Or.inr ⟨1, by simp; rfl, by simp; omega⟩
    · rw [if_neg e]; exact h s hs

theorem baseInit_single (hx : Spec.ExactInt rd N) {recs : List (Rec K)}
    (hone : ∀ o d, (cellValues recs o d).length ≤ 1)
    (h : ∀ r ∈ recs, r.value = .nan ∨ ∃ z : ℤ, r.value = .fin (z : K) ∧ max 1 z.natAbs ≤ N) :
    baseInitR rd recs = baseInit recs := by
  unfold baseInitR baseInit
  rw [pivotR_whole hx]
  intro o d
  have hl : (cellValues (negHandler recs) o d).length ≤ 1 := by
    rw [cellValues_length_of_sameKeys (negHandler_sameKeys recs)]; exact hone o d
  have hv : ∀ v ∈ cellValues (negHandler recs) o d,
      v = .nan ∨ ∃ z : ℤ, v = .fin (z : K) ∧ max 1 z.natAbs ≤ N := by
    intro v hv
    obtain ⟨r, hr, rfl⟩ := List.mem_map.1 hv
    exact negHandler_values h r (List.mem_of_mem_filter hr)
  generalize cellValues (negHandler recs) o d = l at hl hv
  match l, hl, hv with
  | [], _, _ => exact ⟨[], .nil, by simp⟩
  | [v], _, hv =>
    rcases hv v (by simp) with e | ⟨z, e, hz⟩
    · exact ⟨[0], .cons (Or.inl ⟨e, rfl⟩) .nil, by simp⟩
    · exact ⟨[_], .cons (Or.inr ⟨z, e, rfl⟩) .nil, by simpa using hz⟩

theorem Spec.Whole.each {recs : List (Rec K)} (h : Spec.Whole N (recs.map Rec.value)) :
    ∀ r ∈ recs, r.value = .nan ∨ ∃ z : ℤ, r.value = .fin (z : K) ∧ max 1 z.natAbs ≤ N := by
  obtain ⟨w, h1, h2⟩ := h
  intro r hr
  induction recs generalizing w with
  | nil => simp at hr
  | cons s recs ih =>
    cases h1 with
    | cons hu ht =>
      simp only [List.sum_cons] at h2
      rcases List.mem_cons.1 hr with rfl | hr
      · rcases hu with ⟨e, _⟩ | ⟨z, e, rfl⟩
        · exact Or.inl e
        · exact Or.inr ⟨z, e, by omega⟩
      · exact ih _ ht (by omega) hr

/-- **C146, cumulative triangles**: with one record per cell. -/
theorem cumTriR_whole (hx : Spec.ExactInt rd N) {recs : List (Rec K)} (hone : OnePerCell recs)
    (h : Spec.Whole N (recs.map Rec.value)) : cumTriR rd recs = cumTri recs := by
  obtain ⟨h1, h2⟩ := cumRecs_whole hx h
  unfold cumTriR cumTri
  rw [h1]
  refine baseInit_single hx (fun o d => ?_) h2
  rw [cellValues_length_of_sameKeys (cumRecs_sameKeys recs)]
  exact cellValues_single hone o d

theorem C146_cum (hx : Spec.ExactInt rd N) {recs : List (Rec K)} (hone : OnePerCell recs)
    (h : Spec.Whole N (recs.map Rec.value)) : totriCumR rd recs = totriCum recs := by
  unfold totriCumR totriCum
  rw [cumTriR_whole hx hone h]

/-- **C146, `to_incr`**: with whole increments. -/
theorem C146_toIncr (hx : Spec.ExactInt rd N) {t : Tri K} (ho : Spec.Increasing t.origins)
    (hd : Spec.Increasing t.devs)
    (h : ∀ i < t.nr, ∀ j < t.nc, t.diffTri.cell i j = .nan ∨
      ∃ z : ℤ, t.diffTri.cell i j = .fin (z : K) ∧ max 1 z.natAbs ≤ N) :
    t.toIncrR rd = t.toIncr := by
  have e : Tri.Same (t.diffTriR rd) t.diffTri := by
    refine ⟨rfl, rfl, fun i hi j hj => ?_⟩
    cases j with
    | zero => rfl
    | succ j =>
      show ((t.cell i (j + 1) - t.cell i j).rounded rd) = t.cell i (j + 1) - t.cell i j
      rcases h i hi (j + 1) hj with e | ⟨z, e, hz⟩
      · have e' : t.cell i (j + 1) - t.cell i j = .nan := e
        rw [e']; rfl
      · have e' : t.cell i (j + 1) - t.cell i j = .fin (z : K) := e
        rw [e']
        show Num.fin (rd (z : K)) = _
        rw [hx z (by omega)]
  unfold Tri.toIncrR Tri.toIncr incrTri
  rw [e.toTbl]
  refine baseInit_single hx (fun o d => cellValues_single (Tri.toTbl_onePerCell (t := t.diffTri) ho hd) o d) ?_
  intro r hr
  obtain ⟨i, hi, j, hj, _, rfl⟩ := Tri.mem_toTbl.1 hr
  exact h i hi j hj

/-- **C146, `to_cum`**. -/
theorem C146_toCum (hx : Spec.ExactInt rd N) {t : Tri K} (ho : Spec.Increasing t.origins)
    (hd : Spec.Increasing t.devs) (h : Spec.Whole N (t.toTbl.map Rec.value)) :
    t.toCumR rd = t.toCum :=
  cumTriR_whole hx (Tri.toTbl_onePerCell ho hd) h

theorem decumGoR_whole (hx : Spec.ExactInt rd N) : ∀ (recs : List (Rec K)) (prev : Int → Option (Num K)),
    Spec.Whole N ((decumGo prev recs).map Rec.value) → decumGoR rd prev recs = decumGo prev recs := by
  intro recs
  induction recs with
  | nil => intro _ _; rfl
  | cons r recs ih =>
    intro prev h
    rw [decumGoR, decumGo, ih _ (h.sublist (by rw [decumGo, List.map_cons]; exact List.sublist_cons_self _ _))]
    have h0 := h.each ({ r with value := decumValue (prev r.origin) r.value }) (by rw [decumGo]; simp)
    have e : decumValueR rd (prev r.origin) r.value = decumValue (prev r.origin) r.value := by
      unfold decumValueR decumValue
      unfold decumValue at h0
      cases hp : prev r.origin with
      | none => rfl
      | some p =>
        simp only [hp] at h0 ⊢
        by_cases hn : (r.value - p).isNaN = true
        · have : r.value - p = .nan := by
            by_contra hc
            rw [(Num.isNaN_false_iff _).2 hc] at hn
            exact absurd hn (by simp)
          rw [this]
          rfl
        · rw [if_neg hn] at h0 ⊢
          rcases h0 with h0 | ⟨z, h0, hz⟩
          · rw [h0] at hn; exact absurd rfl hn
          · rw [h0]
            show (if (Num.fin (rd (z : K))).isNaN = true then _ else Num.fin (rd (z : K))) = _
            rw [hx z (by omega)]
            rfl
    rw [e]

/-- **C146, cumulative amounts**: with whole increments, of at most `N` units altogether. -/
theorem C146_cum_format (hx : Spec.ExactInt rd N) {recs : List (Rec K)} (hone : OnePerCell recs)
    (h : Spec.Whole N ((decumRecs recs).map Rec.value)) :
    totriCumR rd (decumRecsR rd recs) = totriCum (decumRecs recs) := by
  have e : decumRecsR rd recs = decumRecs recs := decumGoR_whole hx recs _ h
  rw [e]
  obtain ⟨h1, h2⟩ := cumRecs_whole hx h
  unfold totriCumR totriCum cumTriR cumTri
  rw [h1]
  rw [baseInit_single hx (fun o d => ?_) h2]
  rw [cellValues_length_of_sameKeys (cumRecs_sameKeys _), show (cellValues (decumRecs recs) o d).length = (cellValues recs o d).length from
    cellValues_length_of_sameKeys (decumGo_keys _ _) o d]
  exact cellValues_single hone o d

/-! ### C147 -/

theorem Spec.Whole.cells {t : Tri K} (h : Spec.Whole N (t.toTbl.map Rec.value)) :
    ∀ i < t.nr, ∀ j < t.nc, t.cell i j = .nan ∨ ∃ z : ℤ, t.cell i j = .fin (z : K) ∧ max 1 z.natAbs ≤ N := by
  intro i hi j hj
  by_cases e : t.cell i j = .nan
  · exact Or.inl e
  · exact h.each ⟨t.oAt i, t.dAt j, t.cell i j⟩ (Tri.mem_toTbl.2 ⟨i, hi, j, hj, e, rfl⟩)

/-- **C147, partial.** In rounded arithmetic a cumulative triangle as in C07 whose increments are whole numbers, of at most
`N` units altogether, survives `to_incr().to_cum()`.  Missing: amounts that are not whole, see `C147_fails`. -/
theorem C147_partial (hx : Spec.ExactInt rd N) {t : Tri K} {len : ℕ → ℕ} (hne : 0 < t.nr)
    (ho : Spec.Increasing t.origins) (hd : Spec.Increasing t.devs) (hg : Spec.GapFree t len)
    (hc : Spec.ColsObserved t) (hp : ∀ i < t.nr, Num.lt 0 (t.cell i 0) = true)
    (hw : Spec.Whole N (t.diffTri.toTbl.map Rec.value)) :
    ∃ u v, t.toIncrR rd = .ok u ∧ u.toCumR rd = .ok v ∧ Tri.Same v t := by
  have hcd := Tri.diffTri_colsObserved hg hc
  obtain ⟨u, hu, hus⟩ := Tri.incrTri_toTbl (t := t.diffTri) ho hd hg.diffTri.rowsObserved hcd hne
    (fun i hi => le_of_lt_pos (hp i hi))
  obtain ⟨u', v, h1, h2, h3⟩ := C07_cum_incr_cum hne ho hd hg hc hp
  have : u' = u := by
    have : t.toIncr = .ok u := hu
    rw [this] at h1; exact (Except.ok.inj h1).symm
  subst this
  refine ⟨u', v, ?_, ?_, h3⟩
  · rw [C146_toIncr hx ho hd hw.cells, h1]
  · rw [C146_toCum hx (by rw [hus.1]; exact ho) (by rw [hus.2.1]; exact hd) (by rw [hus.toTbl]; exact hw), h2]

/-- One origin with the float64 amounts 0.2 and 0.9. -/
def exDec : Tri ℚ :=
  { origins := [2001], devs := [1, 2],
    cell := fun i j => match i, j with
      | 0, 0 => .fin (floatRd 53 (2 / 10)) | 0, 1 => .fin (floatRd 53 (9 / 10))
      | _, _ => .nan }

/-- **C147 fails** in double precision: 0.2, 0.9 comes back with a smaller second amount. -/
theorem C147_fails : ((exDec.toIncrR (floatRd 53)).bind (Tri.toCumR (floatRd 53))).map
    (fun v => (v.cell 0 0 == exDec.cell 0 0, Num.lt (v.cell 0 1) (exDec.cell 0 1))) = .ok (true, true) := by
  decide +kernel

/-! ### C148 -/

theorem Spec.Whole.perm {l l' : List (Num K)} (h : Spec.Whole N l) (hp : l.Perm l') : Spec.Whole N l' := by
  obtain ⟨w, h1, h2⟩ := h
  suffices ∃ w', List.Forall₂ Spec.units l' w' ∧ w'.sum = w.sum by
    obtain ⟨w', a, b⟩ := this; exact ⟨w', a, b.le.trans h2⟩
  clear h2
  induction hp generalizing w with
  | nil => exact ⟨w, h1, rfl⟩
  | cons x _ ih =>
    cases h1 with
    | cons hu ht =>
      obtain ⟨w', a, b⟩ := ih _ ht
      exact ⟨_ :: w', .cons hu a, by simp [b]⟩
  | swap x y l =>
    cases h1 with
    | cons hu ht =>
      cases ht with
      | cons hu' ht' => exact ⟨_ :: _ :: _, .cons hu' (.cons hu ht'), by simp only [List.sum_cons]; omega⟩
  | trans _ _ ih1 ih2 =>
    obtain ⟨w', a, b⟩ := ih1 _ h1
    obtain ⟨w'', a', b'⟩ := ih2 _ a
    exact ⟨w'', a', b'.trans b⟩

/-- **C148, partial.** In rounded arithmetic the order of whole amounts, of at most `N` units altogether, does not change the
incremental triangle.  Missing: amounts that are not whole, see `C148_fails`. -/
theorem C148_partial (hx : Spec.ExactInt rd N) {recs recs' : List (Rec K)} (h : recs.Perm recs')
    (hw : Spec.Whole N (recs.map Rec.value)) : totriIncrR rd recs = totriIncrR rd recs' := by
  rw [C146_incr hx hw, C146_incr hx (hw.perm (h.map _)), C02_incr_order h]

/-- Three float64 amounts of one cell. -/
def exThree : List (Rec ℚ) :=
  [⟨2001, 1, .fin (floatRd 53 (18 / 10))⟩, ⟨2001, 1, .fin (floatRd 53 (73 / 10))⟩, ⟨2001, 1, .fin (floatRd 53 (98 / 10))⟩]

/-- **C148 fails** in double precision: reversing three records of one cell changes their sum. -/
theorem C148_fails : ∃ u v, totriIncrR (floatRd 53) exThree = .ok u ∧
    totriIncrR (floatRd 53) exThree.reverse = .ok v ∧ Num.lt (u.cell 0 0) (v.cell 0 0) = true :=
  ⟨_, _, rfl, rfl, by decide +kernel⟩

/-! ### concrete cases -/

/-- The records of C01, with a duplicate, a gap, a negative and a missing amount: whole, at most 22 units. -/
theorem exRecs1_whole : Spec.Whole 22 (exRecs1.map Rec.value) :=
  ⟨[7, 5, 3, 4, 2, 0], .cons (Or.inr ⟨7, by decide +kernel, by decide⟩) (.cons (Or.inr ⟨5, by decide +kernel, by decide⟩)
    (.cons (Or.inr ⟨-3, by decide +kernel, by decide⟩) (.cons (Or.inr ⟨4, by decide +kernel, by decide⟩)
    (.cons (Or.inr ⟨2, by decide +kernel, by decide⟩) (.cons (Or.inl ⟨rfl, rfl⟩) .nil))))), by decide⟩

/-- Five binary digits suffice for them in any order. -/
example : totriIncrR (floatRd 5) exRecs1.reverse = totriIncr exRecs1 := by
  have hx : Spec.ExactInt (floatRd 5 : ℚ → ℚ) 22 := fun m hm => floatRd_exactInt (by decide) m (by omega)
  rw [← C148_partial hx (List.reverse_perm _).symm exRecs1_whole, C146_incr hx exRecs1_whole]

/-- The increments of `exCum` (C07), 430 units altogether. -/
theorem exCum_whole : Spec.Whole 430 (exCum.diffTri.toTbl.map Rec.value) := by
  have e : exCum.diffTri.toTbl.map Rec.value = [.fin ((100 : ℤ) : ℚ), .fin ((50 : ℤ) : ℚ), .fin ((-10 : ℤ) : ℚ),
      .fin ((90 : ℤ) : ℚ), .fin ((70 : ℤ) : ℚ), .fin ((110 : ℤ) : ℚ)] := by decide +kernel
  rw [e]
  exact ⟨[100, 50, 10, 90, 70, 110], .cons (Or.inr ⟨_, rfl, by decide⟩) (.cons (Or.inr ⟨_, rfl, by decide⟩)
    (.cons (Or.inr ⟨_, rfl, by decide⟩) (.cons (Or.inr ⟨_, rfl, by decide⟩) (.cons (Or.inr ⟨_, rfl, by decide⟩)
    (.cons (Or.inr ⟨_, rfl, by decide⟩) .nil))))), by decide⟩

/-- With nine binary digits `exCum` survives the round trip. -/
example : ∃ u v, exCum.toIncrR (floatRd 9) = .ok u ∧ u.toCumR (floatRd 9) = .ok v ∧ Tri.Same v exCum := by
  have hx : Spec.ExactInt (floatRd 9 : ℚ → ℚ) 430 := fun m hm => floatRd_exactInt (by decide) m (by omega)
  refine C147_partial hx (by decide) (by unfold Spec.Increasing; decide) (by unfold Spec.Increasing; decide) exCum_gapFree ?_ (by decide +kernel) exCum_whole
  intro j hj
  have hj' : j < 3 := hj
  refine ⟨0, by decide, ?_⟩
  interval_cases j <;> simp [exCum]

end Trikit
