import Verif.LabelLemmas

/-! # Lemmas on record lists, pivots and running totals -/

set_option linter.unusedSectionVars false

namespace Trikit

variable {K : Type}

/-- A value that is not infinite. -/
def Num.Tame (v : Num K) : Prop := v = .nan ∨ ∃ x, v = .fin x

/-- Same labels, possibly different values. -/
def SameKeys (a b : List (Rec K)) : Prop :=
  a.map (fun r => (r.origin, r.dev)) = b.map (fun r => (r.origin, r.dev))

theorem SameKeys.origins {a b : List (Rec K)} (h : SameKeys a b) :
    a.map Rec.origin = b.map Rec.origin := by
  have := congrArg (List.map Prod.fst) h
  simpa [List.map_map, Function.comp_def] using this

theorem SameKeys.devs {a b : List (Rec K)} (h : SameKeys a b) :
    a.map Rec.dev = b.map Rec.dev := by
  have := congrArg (List.map Prod.snd) h
  simpa [List.map_map, Function.comp_def] using this

theorem SameKeys.length {a b : List (Rec K)} (h : SameKeys a b) : a.length = b.length := by
  have := congrArg List.length h
  simpa using this

theorem Tri.origins_get {t : Tri K} {i : ℕ} (h : i < t.nr) : t.origins[i]? = some (t.oAt i) := by
  unfold Tri.oAt
  rw [List.getD_eq_getElem?_getD, List.getElem?_eq_getElem h]; rfl

theorem Tri.devs_get {t : Tri K} {j : ℕ} (h : j < t.nc) : t.devs[j]? = some (t.dAt j) := by
  unfold Tri.dAt
  rw [List.getD_eq_getElem?_getD, List.getElem?_eq_getElem h]; rfl

theorem Tri.oAt_mem {t : Tri K} {i : ℕ} (h : i < t.nr) : t.oAt i ∈ t.origins :=
  List.mem_of_getElem? (t.origins_get h)

theorem Tri.dAt_mem {t : Tri K} {j : ℕ} (h : j < t.nc) : t.dAt j ∈ t.devs :=
  List.mem_of_getElem? (t.devs_get h)

section
variable [Field K] [LinearOrder K]

/-- Effect of the negative handler on one record when the smallest dev is `m`. -/
def floorRec (m : Int) (r : Rec K) : Rec K :=
  if r.dev = m ∧ Num.le r.value 0 = true then { r with value := 1 } else r

@[simp] theorem floorRec_origin (m : Int) (r : Rec K) : (floorRec m r).origin = r.origin := by
  unfold floorRec; split <;> rfl
@[simp] theorem floorRec_dev (m : Int) (r : Rec K) : (floorRec m r).dev = r.dev := by
  unfold floorRec; split <;> rfl

theorem negHandler_eq {recs : List (Rec K)} {m : Int} (h : (recs.map Rec.dev).min? = some m) :
    negHandler recs = recs.map (floorRec m) := by
  unfold negHandler; rw [h]; rfl

theorem exists_min {recs : List (Rec K)} (h : recs ≠ []) :
    ∃ m, (recs.map Rec.dev).min? = some m := by
  cases hm : (recs.map Rec.dev).min? with
  | none => simp at hm; exact absurd hm h
  | some m => exact ⟨m, rfl⟩

theorem min_spec {recs : List (Rec K)} {m : Int} (h : (recs.map Rec.dev).min? = some m) :
    (∃ r ∈ recs, r.dev = m) ∧ ∀ r ∈ recs, m ≤ r.dev := by
  rw [List.min?_eq_some_iff] at h
  refine ⟨by simpa using h.1, fun r hr => h.2 _ (List.mem_map_of_mem hr)⟩

theorem sameKeys_map (recs : List (Rec K)) (f : Rec K → Rec K)
    (ho : ∀ r, (f r).origin = r.origin) (hd : ∀ r, (f r).dev = r.dev) :
    SameKeys (recs.map f) recs := by
  unfold SameKeys; rw [List.map_map]; congr 1; funext r; simp [ho, hd]

theorem negHandler_sameKeys (recs : List (Rec K)) : SameKeys (negHandler recs) recs := by
  unfold negHandler
  split
  · rfl
  · exact sameKeys_map _ _ (fun r => by split <;> rfl) (fun r => by split <;> rfl)

theorem cellValues_append (a b : List (Rec K)) (o d : Int) :
    cellValues (a ++ b) o d = cellValues a o d ++ cellValues b o d := by
  simp [cellValues]

theorem cellValues_cons (r : Rec K) (l : List (Rec K)) (o d : Int) :
    cellValues (r :: l) o d =
      if r.origin = o ∧ r.dev = d then r.value :: cellValues l o d else cellValues l o d := by
  unfold cellValues
  rw [List.filter_cons]
  by_cases h : r.origin = o ∧ r.dev = d <;> simp [h]

theorem cellValues_eq_nil {l : List (Rec K)} {o d : Int} :
    cellValues l o d = [] ↔ ∀ r ∈ l, ¬ (r.origin = o ∧ r.dev = d) := by
  simp [cellValues]

theorem cellValues_ne_nil {l : List (Rec K)} {o d : Int} :
    cellValues l o d ≠ [] ↔ ∃ r ∈ l, r.origin = o ∧ r.dev = d := by
  rw [Ne, cellValues_eq_nil]; push Not; rfl

theorem cellValues_length_of_sameKeys {a b : List (Rec K)} (h : SameKeys a b) (o d : Int) :
    (cellValues a o d).length = (cellValues b o d).length := by
  induction a generalizing b with
  | nil => have := h.length; cases b with
    | nil => rfl
    | cons => simp at this
  | cons r a ih =>
    cases b with
    | nil => have := h.length; simp at this
    | cons s b =>
      simp only [SameKeys, List.map_cons, List.cons.injEq, Prod.mk.injEq] at h
      rw [cellValues_cons, cellValues_cons, h.1.1, h.1.2]
      split
      · simp [ih h.2]
      · exact ih h.2

theorem cellValues_perm {a b : List (Rec K)} (h : a.Perm b) (o d : Int) :
    (cellValues a o d).Perm (cellValues b o d) := (h.filter _).map _

theorem groupCell_perm {a b : List (Rec K)} (h : a.Perm b) (o d : Int) :
    groupCell a o d = groupCell b o d := by
  have hp := cellValues_perm h o d
  unfold groupCell
  by_cases hn : cellValues a o d = []
  · rw [hn] at hp ⊢; rw [List.nil_perm.1 hp]
  · have hn' : cellValues b o d ≠ [] := fun h' => hn (List.perm_nil.1 (h' ▸ hp))
    rw [if_neg hn, if_neg hn', Num.sumSkip_perm hp]

/-! ### pivot -/

theorem pivot_cell {recs : List (Rec K)} {i j : ℕ} {o d : Int}
    (ho : (pivot recs).origins[i]? = some o) (hd : (pivot recs).devs[j]? = some d) :
    (pivot recs).cell i j = groupCell recs o d := by
  have ho' : (labels (recs.map Rec.origin))[i]? = some o := ho
  have hd' : (labels (recs.map Rec.dev))[j]? = some d := hd
  simp only [pivot, ho', hd']

theorem pivot_cell_out {recs : List (Rec K)} {i j : ℕ}
    (h : (pivot recs).nr ≤ i ∨ (pivot recs).nc ≤ j) : (pivot recs).cell i j = .nan := by
  rcases h with h | h
  · have : (labels (recs.map Rec.origin))[i]? = none := List.getElem?_eq_none h
    simp only [pivot, this]
  · have : (labels (recs.map Rec.dev))[j]? = none := List.getElem?_eq_none h
    simp only [pivot, this]
    split <;> simp_all

theorem pivot_cell' {recs : List (Rec K)} {i j : ℕ}
    (hi : i < (pivot recs).nr) (hj : j < (pivot recs).nc) :
    (pivot recs).cell i j = groupCell recs ((pivot recs).oAt i) ((pivot recs).dAt j) :=
  pivot_cell ((pivot recs).origins_get hi) ((pivot recs).devs_get hj)

theorem pivot_origins (recs : List (Rec K)) :
    (pivot recs).origins = labels (recs.map Rec.origin) := rfl
theorem pivot_devs (recs : List (Rec K)) :
    (pivot recs).devs = labels (recs.map Rec.dev) := rfl

theorem mem_pivot_origins (recs : List (Rec K)) (o : Int) :
    o ∈ (pivot recs).origins ↔ ∃ r ∈ recs, r.origin = o := by
  rw [pivot_origins, mem_labels]; simp

theorem mem_pivot_devs (recs : List (Rec K)) (d : Int) :
    d ∈ (pivot recs).devs ↔ ∃ r ∈ recs, r.dev = d := by
  rw [pivot_devs, mem_labels]; simp

/-! ### sums of tame values -/

theorem Num.sumSkip_tame (l : List (Num K)) (h : ∀ v ∈ l, v.Tame) :
    ∃ x, Num.sumSkip l = .fin x := by
  induction l with
  | nil => exact ⟨0, rfl⟩
  | cons a l ih =>
    obtain ⟨x, hx⟩ := ih (fun v hv => h v (by simp [hv]))
    rcases h a (by simp) with ha | ⟨y, ha⟩
    · exact ⟨x, by rw [ha, Num.sumSkip_cons_nan, hx]⟩
    · exact ⟨y + x, by rw [ha, Num.sumSkip_cons_fin, hx, Num.fin_add]⟩

theorem Num.Tame.add {a b : Num K} (ha : a.Tame) (hb : b.Tame) : (a + b).Tame := by
  rcases ha with rfl | ⟨x, rfl⟩ <;> rcases hb with rfl | ⟨y, rfl⟩
  · left; simp
  · left; simp
  · left; simp
  · right; exact ⟨_, Num.fin_add x y⟩

theorem Num.Tame.sub {a b : Num K} (ha : a.Tame) (hb : b.Tame) : (a - b).Tame := by
  rcases ha with rfl | ⟨x, rfl⟩ <;> rcases hb with rfl | ⟨y, rfl⟩
  · left; simp
  · left; simp
  · left; simp
  · right; exact ⟨_, Num.fin_sub x y⟩

/-- Records without infinite values. -/
def TameRecs (recs : List (Rec K)) : Prop := ∀ r ∈ recs, r.value.Tame

theorem floorRec_tame {m : Int} {r : Rec K} (h : r.value.Tame) : (floorRec m r).value.Tame := by
  unfold floorRec; split
  · exact Or.inr ⟨1, rfl⟩
  · exact h

theorem TameRecs.negHandler {recs : List (Rec K)} (h : TameRecs recs) :
    TameRecs (negHandler recs) := by
  by_cases hn : recs = []
  · subst hn; exact h
  · obtain ⟨m, hm⟩ := exists_min hn
    rw [negHandler_eq hm]
    intro r hr
    obtain ⟨s, hs, rfl⟩ := List.mem_map.1 hr
    exact floorRec_tame (h s hs)

theorem groupCell_fin {recs : List (Rec K)} (h : TameRecs recs) {o d : Int}
    (he : ∃ r ∈ recs, r.origin = o ∧ r.dev = d) : ∃ x, groupCell recs o d = .fin x := by
  unfold groupCell
  rw [if_neg (cellValues_ne_nil.2 he)]
  apply Num.sumSkip_tame
  intro v hv
  obtain ⟨r, hr, rfl⟩ := List.mem_map.1 hv
  exact h r (List.mem_filter.1 hr).1

theorem groupCell_nan {recs : List (Rec K)} {o d : Int}
    (he : ¬ ∃ r ∈ recs, r.origin = o ∧ r.dev = d) : groupCell recs o d = .nan := by
  unfold groupCell
  rw [if_pos]
  rw [cellValues_eq_nil]
  intro r hr hh
  exact he ⟨r, hr, hh⟩

/-! ### running totals -/

/-- Values of one origin in row order. -/
def originValues (recs : List (Rec K)) (o : Int) : List (Num K) :=
  (recs.filter (fun r => decide (r.origin = o))).map Rec.value

theorem originValues_cons (r : Rec K) (l : List (Rec K)) (o : Int) :
    originValues (r :: l) o =
      if r.origin = o then r.value :: originValues l o else originValues l o := by
  unfold originValues
  rw [List.filter_cons]
  by_cases h : r.origin = o <;> simp [h]

theorem originValues_append (a b : List (Rec K)) (o : Int) :
    originValues (a ++ b) o = originValues a o ++ originValues b o := by
  simp [originValues]

/-- Accumulator after processing a list. -/
def accAfter (acc : Int → Num K) (l : List (Rec K)) : Int → Num K :=
  fun o => acc o + Num.sumSkip (originValues l o)

theorem accAfter_nil (acc : Int → Num K) : accAfter acc [] = acc := by
  funext o; simp [accAfter, originValues]

theorem accAfter_cons (acc : Int → Num K) (r : Rec K) (l : List (Rec K)) :
    accAfter acc (r :: l) =
      accAfter (if r.value.isNaN then acc
        else fun o => if o = r.origin then acc r.origin + r.value else acc o) l := by
  funext o
  unfold accAfter
  rw [originValues_cons]
  by_cases hn : r.value.isNaN = true
  · by_cases ho : r.origin = o
    · simp [ho, hn, Num.sumSkip_cons]
    · simp [ho, hn]
  · by_cases ho : r.origin = o
    · subst ho; simp [hn, Num.sumSkip_cons, add_assoc]
    · simp [ho, hn, Ne.symm ho]

theorem cumGo_cons (acc : Int → Num K) (r : Rec K) (rs : List (Rec K)) :
    cumGo acc (r :: rs) = if r.value.isNaN then r :: cumGo acc rs
      else { r with value := acc r.origin + r.value } ::
        cumGo (fun o => if o = r.origin then acc r.origin + r.value else acc o) rs := rfl

theorem cumGo_append (acc : Int → Num K) (a b : List (Rec K)) :
    cumGo acc (a ++ b) = cumGo acc a ++ cumGo (accAfter acc a) b := by
  induction a generalizing acc with
  | nil => simp [cumGo, accAfter_nil]
  | cons r a ih =>
    rw [List.cons_append]
    rw [accAfter_cons, cumGo_cons, cumGo_cons]
    by_cases hn : r.value.isNaN = true
    · simp [hn, ih]
    · simp [hn, ih]

theorem cumGo_sameKeys (acc : Int → Num K) (l : List (Rec K)) : SameKeys (cumGo acc l) l := by
  induction l generalizing acc with
  | nil => rfl
  | cons r l ih =>
    unfold cumGo
    split
    · have := ih acc; simp only [SameKeys, List.map_cons] at this ⊢; rw [this]
    · have := ih (fun o => if o = r.origin then acc r.origin + r.value else acc o)
      simp only [SameKeys, List.map_cons] at this ⊢; rw [this]

theorem cumRecs_sameKeys (l : List (Rec K)) : SameKeys (cumRecs l) l := cumGo_sameKeys _ l

/-- The accumulated value of the record following `pre`. -/
def cumValue (pre : List (Rec K)) (r : Rec K) : Num K :=
  if r.value.isNaN then .nan else Num.sumSkip (originValues pre r.origin) + r.value

theorem cumRecs_split (pre post : List (Rec K)) (r : Rec K) :
    cumRecs (pre ++ r :: post) =
      cumRecs pre ++ { r with value := cumValue pre r } ::
        cumGo (accAfter (fun _ => 0) (pre ++ [r])) post := by
  unfold cumRecs
  rw [cumGo_append]
  congr 1
  conv_lhs => unfold cumGo
  have hacc : accAfter (fun _ => (0 : Num K)) (pre ++ [r]) =
      (if r.value.isNaN then accAfter (fun _ => 0) pre
        else fun o => if o = r.origin then accAfter (fun _ => 0) pre r.origin + r.value
          else accAfter (fun _ => 0) pre o) := by
    have h1 : accAfter (fun _ => (0 : Num K)) (pre ++ [r])
        = accAfter (accAfter (fun _ => (0 : Num K)) pre) [r] := by
      funext o
      simp [accAfter, originValues_append, Num.sumSkip_append]
    rw [h1, accAfter_cons, accAfter_nil]
  rw [hacc]
  unfold cumValue
  by_cases hn : r.value.isNaN = true
  · have : r.value = .nan := (Num.isNaN_iff _).1 hn
    simp [hn, ← this]
  · simp [hn, accAfter]

theorem cumGo_tame {acc : Int → Num K} (ha : ∀ o, ∃ x, acc o = .fin x) {l : List (Rec K)}
    (h : TameRecs l) : TameRecs (cumGo acc l) := by
  induction l generalizing acc with
  | nil => intro r hr; simp [cumGo] at hr
  | cons r l ih =>
    have hr := h r (by simp)
    have hl : TameRecs l := fun s hs => h s (by simp [hs])
    unfold cumGo
    split
    · intro s hs
      rcases List.mem_cons.1 hs with rfl | hs
      · exact hr
      · exact ih ha hl s hs
    · rename_i hn
      obtain ⟨x, hx⟩ := ha r.origin
      have hv : ∃ y, r.value = .fin y := by
        rcases hr with hr | hr
        · simp [hr] at hn
        · exact hr
      obtain ⟨y, hy⟩ := hv
      intro s hs
      rcases List.mem_cons.1 hs with rfl | hs
      · right; exact ⟨x + y, by simp [hx, hy]⟩
      · refine ih ?_ hl s hs
        intro o
        by_cases ho : o = r.origin
        · subst ho; exact ⟨x + y, by simp [hx, hy]⟩
        · simpa [ho] using ha o

theorem cumRecs_tame {l : List (Rec K)} (h : TameRecs l) : TameRecs (cumRecs l) :=
  cumGo_tame (fun _ => ⟨0, rfl⟩) h

end

end Trikit
