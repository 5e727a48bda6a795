import Verif.Props.RoundTrip
import Verif.Props.SharpCum

/-! # Exactly when: sharp version of C13 (tabular cumulative input with missing values) -/

set_option linter.unusedSectionVars false

namespace Trikit

variable {K : Type} [Field K] [LinearOrder K] [IsStrictOrderedRing K]

/-- Sum of the values of a sequence that are directly followed by a missing value. -/
def Spec.gapLoss : List (Num K) → K
  | x :: y :: l => (match x, y with
      | .fin a, .nan => a
      | _, _ => 0) + Spec.gapLoss (y :: l)
  | _ => 0

/-- The amount of an optional value, 0 when missing. -/
def optAmt : Option (Num K) → K
  | some (.fin p) => p
  | _ => 0

theorem gapLoss_snoc (l : List (Num K)) (y : Num K) :
    Spec.gapLoss (l ++ [y]) = Spec.gapLoss l + if y = .nan then optAmt l.getLast? else 0 := by
  induction l with
  | nil => simp [Spec.gapLoss, optAmt]
  | cons x l ih =>
    cases l with
    | nil =>
      cases x <;> cases y <;> simp [Spec.gapLoss, optAmt]
    | cons z l =>
      rw [List.cons_append, List.cons_append]
      unfold Spec.gapLoss
      rw [List.cons_append] at ih
      rw [ih, List.getLast?_cons_cons]
      ring

/-- Differences of a sequence as `totri` forms them. -/
def diffs (prev : Option (Num K)) : List (Num K) → List (Num K)
  | [] => []
  | v :: l => decumValue prev v :: diffs (some v) l

theorem diffs_snoc (prev : Option (Num K)) (l : List (Num K)) (v : Num K) :
    diffs prev (l ++ [v]) = diffs prev l ++ [decumValue (l.getLast?.or prev) v] := by
  induction l generalizing prev with
  | nil => simp [diffs]
  | cons x l ih =>
    rw [List.cons_append]
    unfold diffs
    rw [ih, List.cons_append]
    cases l with
    | nil => simp
    | cons z l => simp [List.getLast?_cons_cons, List.getLast?_cons]

theorem decumGo_origin (prev : Int → Option (Num K)) (l : List (Rec K)) (o : Int) :
    originValues (decumGo prev l) o = diffs (prev o) (originValues l o) := by
  induction l generalizing prev with
  | nil => rfl
  | cons r l ih =>
    unfold decumGo
    rw [originValues_cons, originValues_cons, ih]
    by_cases e : r.origin = o
    · subst e; simp [diffs]
    · rw [if_neg (by simpa using e), if_neg e, if_neg (fun h => e h.symm)]

/-- Accumulated differences: the last value, if present, plus what the gaps add. -/
theorem sumSkip_diffs {l : List (Num K)} (h : ∀ v ∈ l, v.Tame) :
    Num.sumSkip (diffs none l) = .fin (Spec.gapLoss l + optAmt l.getLast?) := by
  induction l using List.reverseRecOn with
  | nil => simp [diffs, Spec.gapLoss, optAmt, Num.zero_def]
  | append_singleton l v ih =>
    have ih := ih (fun u hu => h u (by simp [hu]))
    have happ : ∀ a b : List (Num K), (∃ x, Num.sumSkip a = .fin x) → Num.sumSkip (a ++ b) = Num.sumSkip a + Num.sumSkip b := by
      intro a b _
      unfold Num.sumSkip
      rw [List.filter_append, List.sum_append]
    rw [diffs_snoc, happ _ _ ⟨_, ih⟩, ih, gapLoss_snoc, List.getLast?_concat]
    simp only [Option.or_none]
    rcases h v (by simp) with rfl | ⟨x, rfl⟩
    · have : decumValue l.getLast? (.nan : Num K) = .nan := by
        unfold decumValue
        cases l.getLast? <;> simp
      rw [this]
      simp [optAmt, Num.zero_def]
    · rw [if_neg (by simp)]
      cases hl : l.getLast? with
      | none => simp [decumValue, optAmt, Num.zero_def, Num.sumSkip_cons]
      | some p =>
        rcases h p (by simp [List.mem_of_getLast? hl]) with rfl | ⟨y, rfl⟩
        · simp [decumValue, optAmt, Num.zero_def, Num.sumSkip_cons]
        · simp [decumValue, optAmt, Num.zero_def, Num.sumSkip_cons]

theorem decumGo_append (prev : Int → Option (Num K)) (a : List (Rec K)) : ∀ b : List (Rec K), ∃ prev',
    decumGo prev (a ++ b) = decumGo prev a ++ decumGo prev' b := by
  induction a generalizing prev with
  | nil => intro b; exact ⟨prev, rfl⟩
  | cons r a ih =>
    intro b
    obtain ⟨p, hp⟩ := ih (fun o => if o = r.origin then some r.value else prev o) b
    exact ⟨p, by rw [List.cons_append]; show _ :: decumGo _ (a ++ b) = _; rw [hp]; rfl⟩

/-- What a row of cumulative input becomes: its value plus the values at which gaps of its origin began before it. -/
def gapValue (pre : List (Rec K)) (r : Rec K) : Num K :=
  match r.value with
  | .fin v => .fin (v + Spec.gapLoss (originValues (pre ++ [r]) r.origin))
  | _ => .nan

theorem cumRecs_decum_snoc {l : List (Rec K)} {r : Rec K} (ht : TameRecs (l ++ [r])) :
    cumRecs (decumRecs (l ++ [r])) = cumRecs (decumRecs l) ++ [{ r with value := gapValue l r }] := by
  obtain ⟨p, hp⟩ := decumGo_append (fun _ => (none : Option (Num K))) l [r]
  have hov : ∀ v ∈ originValues (l ++ [r]) r.origin, v.Tame := by
    intro v hv
    obtain ⟨s, hs, rfl⟩ := List.mem_map.1 hv
    exact ht s (List.mem_filter.1 hs).1
  have hsum := sumSkip_diffs hov
  rw [← decumGo_origin (fun _ => none), hp] at hsum
  have hr : decumGo p [r] = [{ r with value := decumValue (p r.origin) r.value }] := rfl
  rw [hr] at hsum hp
  have hlast : (originValues (l ++ [r]) r.origin).getLast? = some r.value := by
    unfold originValues; simp [List.filter_append]
  rw [hlast] at hsum
  unfold decumRecs
  rw [hp]
  have hsplit := cumRecs_split (decumGo (fun _ => none) l) [] { r with value := decumValue (p r.origin) r.value }
  rw [hsplit]
  congr 1
  show [({ r with value := _ } : Rec K)] = _
  congr 2
  unfold cumValue gapValue
  have hov2 : originValues (decumGo (fun _ => none) l ++ [{ r with value := decumValue (p r.origin) r.value }]) r.origin =
      originValues (decumGo (fun _ => none) l) r.origin ++ [decumValue (p r.origin) r.value] := by
    unfold originValues; simp [List.filter_append]
  rw [hov2] at hsum
  have hdiff : originValues (decumGo (fun _ => none) l) r.origin ++ [decumValue (p r.origin) r.value] =
      diffs none (originValues l r.origin ++ [r.value]) := by
    rw [← hov2, ← hp, decumGo_origin]
    congr 1
    unfold originValues; simp [List.filter_append]
  rcases ht r (by simp) with hn | ⟨v, hv⟩
  · have : decumValue (p r.origin) r.value = .nan := by
      rw [hn]; unfold decumValue; cases p r.origin <;> simp
    rw [this, hn]; simp
  · have hd : ∃ y, decumValue (p r.origin) r.value = .fin y := by
      rw [diffs_snoc] at hdiff
      have := List.append_inj_right' hdiff rfl
      simp only [List.cons.injEq, and_true, Option.or_none] at this
      rw [this, hv]
      cases hl : (originValues l r.origin).getLast? with
      | none => exact ⟨v, rfl⟩
      | some q =>
        rcases hov q (by
          have hq := List.mem_of_getLast? hl
          unfold originValues at hq ⊢
          rw [List.filter_append, List.map_append]
          exact List.mem_append_left _ hq) with rfl | ⟨y, rfl⟩
        · exact ⟨v, by simp [decumValue]⟩
        · exact ⟨v - y, by simp [decumValue]⟩
    obtain ⟨y, hy⟩ := hd
    rw [hy] at hsum ⊢
    have happ : Num.sumSkip (originValues (decumGo (fun _ => none) l) r.origin ++ [.fin y]) =
        Num.sumSkip (originValues (decumGo (fun _ => none) l) r.origin) + .fin y := by
      unfold Num.sumSkip
      rw [List.filter_append, List.sum_append]
      simp [Num.zero_def]
    rw [happ, hv] at hsum
    simp only [Num.isNaN_fin, Bool.false_eq_true, if_false, hv]
    rw [hsum]
    simp [optAmt, add_comm]

/-- Values are missing or positive. -/
def PosOrMissing (l : List (Rec K)) : Prop := ∀ r ∈ l, r.value = .nan ∨ ∃ x, r.value = .fin x ∧ 0 < x

theorem PosOrMissing.tame {l : List (Rec K)} (h : PosOrMissing l) : TameRecs l :=
  fun r hr => (h r hr).imp id (fun ⟨x, hx, _⟩ => ⟨x, hx⟩)

/-- No gap: a present value, then a missing one, gives a loss; otherwise none. -/
theorem gapLoss_zero_iff {l : List (Num K)} (h : ∀ v ∈ l, v = .nan ∨ ∃ x, v = .fin x ∧ 0 < x) :
    0 ≤ Spec.gapLoss l ∧ (Spec.gapLoss l = 0 ↔ l.Pairwise (fun x y => x ≠ .nan → y ≠ .nan)) := by
  induction l using List.reverseRecOn with
  | nil => simp [Spec.gapLoss]
  | append_singleton l y ih =>
    have hl : ∀ v ∈ l, v = .nan ∨ ∃ x, v = .fin x ∧ 0 < x := fun v hv => h v (by simp [hv])
    obtain ⟨i1, i2⟩ := ih hl
    rw [gapLoss_snoc, List.pairwise_append]
    have hnonneg : 0 ≤ optAmt l.getLast? ∧ (optAmt l.getLast? = 0 ↔ ∀ v, l.getLast? = some v → v = .nan) := by
      cases e : l.getLast? with
      | none => simp [optAmt]
      | some v =>
        rcases hl v (List.mem_of_getLast? e) with rfl | ⟨x, rfl, hx⟩
        · simp [optAmt]
        · simp [optAmt, hx.le, hx.ne']
    by_cases hy : y = .nan
    · rw [if_pos hy]
      refine ⟨by linarith [hnonneg.1], ?_⟩
      have hz : Spec.gapLoss l + optAmt l.getLast? = 0 ↔ Spec.gapLoss l = 0 ∧ optAmt l.getLast? = 0 :=
        ⟨fun h0 => ⟨by linarith [hnonneg.1], by linarith [hnonneg.1]⟩, fun h0 => by rw [h0.1, h0.2, add_zero]⟩
      rw [hz, i2, hnonneg.2]
      constructor
      · rintro ⟨h1, h2⟩
        refine ⟨h1, by simp, ?_⟩
        intro a ha b hb hna
        exfalso
        -- the last value is present
        rcases List.eq_nil_or_concat l with e | ⟨l', z, e⟩
        · rw [e] at ha; simp at ha
        · rw [List.concat_eq_append] at e
          have hz' := h2 z (by rw [e]; simp)
          rw [e] at h1 ha
          rcases List.mem_append.1 ha with h3 | h3
          · exact (List.pairwise_append.1 h1).2.2 a h3 z (by simp) hna hz'
          · rw [List.mem_singleton.1 h3] at hna; exact hna hz'
      · rintro ⟨h1, _, h3⟩
        refine ⟨h1, fun v hv => ?_⟩
        by_contra hn
        exact h3 v (List.mem_of_getLast? hv) y (by simp) hn hy
    · rw [if_neg hy, add_zero, i2]
      refine ⟨i1, fun h1 => ⟨h1, by simp, fun a _ b hb _ => by rw [List.mem_singleton.1 hb]; exact hy⟩, fun h1 => h1.1⟩

/-- All rows of the accumulated table: keys of the input, values `gapValue`. -/
theorem cumRecs_decum_split {pre post : List (Rec K)} {r : Rec K} (ht : TameRecs (pre ++ r :: post)) :
    { r with value := gapValue pre r } ∈ cumRecs (decumRecs (pre ++ r :: post)) := by
  induction post using List.reverseRecOn with
  | nil => rw [cumRecs_decum_snoc ht]; simp
  | append_singleton l s ih =>
    have e : pre ++ r :: (l ++ [s]) = (pre ++ r :: l) ++ [s] := by simp
    rw [e] at ht ⊢
    rw [cumRecs_decum_snoc ht]
    exact List.mem_append_left _ (ih (fun q hq => ht q (List.mem_append_left _ hq)))

theorem gapValue_pos {l : List (Rec K)} (h : PosOrMissing l) :
    ∀ r ∈ cumRecs (decumRecs l), r.value = .nan ∨ ∃ x, r.value = .fin x ∧ 0 < x := by
  induction l using List.reverseRecOn with
  | nil => intro r hr; simp [decumRecs, decumGo, cumRecs, cumGo] at hr
  | append_singleton l s ih =>
    intro r hr
    rw [cumRecs_decum_snoc h.tame] at hr
    rcases List.mem_append.1 hr with h1 | h1
    · exact ih (fun q hq => h q (by simp [hq])) r h1
    · rw [List.mem_singleton.1 h1]
      unfold gapValue
      rcases h s (by simp) with hn | ⟨x, hx, hx0⟩
      · left; simp [hn]
      · right
        rw [hx]
        refine ⟨_, rfl, ?_⟩
        have := (gapLoss_zero_iff (l := originValues (l ++ [s]) s.origin) (by
          intro v hv
          obtain ⟨q, hq, rfl⟩ := List.mem_map.1 hv
          exact h q (List.mem_filter.1 hq).1)).1
        linarith

theorem decum_sameKeys (l : List (Rec K)) : SameKeys (cumRecs (decumRecs l)) l := by
  have : ∀ (prev : Int → Option (Num K)) (l : List (Rec K)), SameKeys (decumGo prev l) l := by
    intro prev l
    unfold SameKeys
    induction l generalizing prev with
    | nil => rfl
    | cons r l ih => unfold decumGo; rw [List.map_cons, List.map_cons, ih]
  exact (cumRecs_sameKeys _).trans (this _ l)

/-- **C13, what the code computes** (tabular).  Positive cumulative values, some missing, one row per cell, in any order:
the cell of a present value `v` becomes `v` plus every earlier value of its origin (in row order) that is directly followed
by a missing one. -/
theorem C13_value {l : List (Rec K)} (hne : l ≠ []) (h : PosOrMissing l) (hone : OnePerCell l) :
    ∃ t, totriCum (decumRecs l) = .ok t ∧ Spec.HasLabelsOf t l ∧ ∀ pre post r v, l = pre ++ r :: post → r.value = .fin v →
      ∀ i j, t.origins[i]? = some r.origin → t.devs[j]? = some r.dev →
        t.cell i j = .fin (v + Spec.gapLoss (originValues (pre ++ [r]) r.origin)) := by
  have hk := decum_sameKeys l
  have hone' : OnePerCell (cumRecs (decumRecs l)) := by
    unfold OnePerCell at hone ⊢
    have e1 : ∀ m : List (Rec K), m.Pairwise (fun r s => ¬ (r.origin = s.origin ∧ r.dev = s.dev)) ↔
        (m.map (fun r => (r.origin, r.dev))).Pairwise (fun a b => a ≠ b) := by
      intro m; rw [List.pairwise_map]; simp [Prod.ext_iff]
    rw [e1, hk, ← e1]; exact hone
  obtain ⟨t, t1, t2, t3⟩ := totriCum_of_cumRecs (m := decumRecs l) (decumGo_ne_nil hne) (decumGo_tame (by simp) h.tame)
    rfl hone' (by
      intro r hr _
      rcases gapValue_pos h r hr with hn | ⟨x, hx, hx0⟩
      · rw [hn]; rfl
      · rw [hx, Num.zero_def, Num.le_fin]; simpa using hx0)
  refine ⟨t, t1, ?_, ?_⟩
  · obtain ⟨a1, a2, a3, a4⟩ := t2
    refine ⟨a1, a2, fun o => ?_, fun d => ?_⟩
    · rw [a3]
      have := congrArg (fun m => o ∈ m.map Prod.fst) hk
      simpa [List.map_map, Function.comp_def] using this
    · rw [a4]
      have := congrArg (fun m => d ∈ m.map Prod.snd) hk
      simpa [List.map_map, Function.comp_def] using this
  · intro pre post r v hl hv i j hi hj
    subst hl
    have := t3 _ (cumRecs_decum_split h.tame) (by simp [gapValue, hv]) i j hi hj
    rw [this]
    simp [gapValue, hv]

/-- Beside it: the gap after 10 adds 10, the gap after 30 adds 30 more. -/
example : Spec.gapLoss ([.fin 10, .nan, .fin 30, .nan, .nan, .fin 40] : List (Num ℚ)) = 40 ∧
    dumpE (totriCum (decumRecs ([⟨1, 1, .fin 10⟩, ⟨1, 2, .nan⟩, ⟨1, 3, .fin 30⟩, ⟨1, 4, .nan⟩, ⟨1, 5, .nan⟩,
      ⟨1, 6, .fin 40⟩] : List (Rec ℚ)))) =
      .ok ([1], [1, 2, 3, 4, 5, 6], [[.fin 10, .fin 0, .fin 40, .fin 0, .fin 0, .fin 80]]) := by
  constructor <;> decide +kernel

/-- Rows of an origin never run: present, later missing, later present again. -/
def Spec.NoGap (l : List (Rec K)) : Prop := ∀ r s q, [r, s, q].Sublist l → r.origin = s.origin → s.origin = q.origin →
  r.value ≠ .nan → s.value = .nan → q.value = .nan

/-- **C13, exactly when** (tabular).  Positive cumulative values, some missing, one row per cell: every present value is
kept if and only if no origin has, in row order, a present value, a missing one and again a present one. -/
theorem C13_exactly_partial {l : List (Rec K)} (hne : l ≠ []) (h : PosOrMissing l) (hone : OnePerCell l) :
    ∃ t, totriCum (decumRecs l) = .ok t ∧ Spec.HasLabelsOf t l ∧
      ((∀ r ∈ l, r.value ≠ .nan → ∀ i j, t.origins[i]? = some r.origin → t.devs[j]? = some r.dev → t.cell i j = r.value) ↔
        Spec.NoGap l) := by
  obtain ⟨t, t1, t2, t3⟩ := C13_value hne h hone
  have hgl : ∀ (m : List (Rec K)) (o : Int), (∀ r ∈ m, r ∈ l) →
      (Spec.gapLoss (originValues m o) = 0 ↔ (originValues m o).Pairwise (fun x y => x ≠ .nan → y ≠ .nan)) := by
    intro m o hm
    apply (gapLoss_zero_iff _).2
    intro v hv
    obtain ⟨q, hq, rfl⟩ := List.mem_map.1 hv
    exact h q (hm q (List.mem_filter.1 hq).1)
  refine ⟨t, t1, t2, ?_, ?_⟩
  · intro hkeep r s q hsub hrs hsq hr hs
    by_contra hq
    obtain ⟨l1, l2, hl, hm, hq2⟩ : ∃ l1 l2, l = l1 ++ l2 ∧ [r, s].Sublist l1 ∧ q ∈ l2 := by
      have e : [r, s, q] = [r, s] ++ [q] := rfl
      rw [e, List.append_sublist_iff] at hsub
      obtain ⟨l1, l2, e, h1, h2⟩ := hsub
      exact ⟨l1, l2, e, h1, List.singleton_sublist.1 h2⟩
    obtain ⟨c, d, rfl⟩ := List.append_of_mem hq2
    have e2 : l = (l1 ++ c) ++ q :: d := by rw [hl]; simp
    have hqm : q ∈ l := by rw [e2]; simp
    rcases h q hqm with hn | ⟨v, hv, _⟩
    · exact hq hn
    obtain ⟨i, hi⟩ := List.getElem?_of_mem ((t2.2.2.1 q.origin).2 ⟨q, hqm, rfl⟩)
    obtain ⟨j, hj⟩ := List.getElem?_of_mem ((t2.2.2.2 q.dev).2 ⟨q, hqm, rfl⟩)
    have c1 := t3 _ _ q v e2 hv i j hi hj
    rw [hkeep q hqm hq i j hi hj, hv] at c1
    injection c1 with c1
    have c2 : Spec.gapLoss (originValues ((l1 ++ c) ++ [q]) q.origin) = 0 := by linarith
    rw [hgl _ _ (by intro x hx; rw [e2]; simp at hx ⊢; tauto)] at c2
    have hsubv : [r.value, s.value].Sublist (originValues ((l1 ++ c) ++ [q]) q.origin) := by
      unfold originValues
      have : [r, s].Sublist (((l1 ++ c) ++ [q]).filter (fun x => decide (x.origin = q.origin))) := by
        have h1 : [r, s].Sublist ((l1 ++ c) ++ [q]) :=
          hm.trans ((List.sublist_append_left l1 c).trans (List.sublist_append_left _ _))
        have h2 := h1.filter (fun x => decide (x.origin = q.origin))
        simpa [hsq, hrs.trans hsq] using h2
      exact this.map Rec.value
    have := List.pairwise_iff_forall_sublist.1 c2 hsubv hr
    exact this hs
  · intro hng r hr hrn i j hi hj
    obtain ⟨pre, post, hl⟩ := List.append_of_mem hr
    rcases h r hr with hn | ⟨v, hv, _⟩
    · exact absurd hn hrn
    rw [t3 pre post r v hl hv i j hi hj, hv]
    have hz : Spec.gapLoss (originValues (pre ++ [r]) r.origin) = 0 := by
      rw [hgl _ _ (by intro x hx; rw [hl]; simp at hx ⊢; tauto)]
      unfold originValues
      rw [List.filter_append, List.map_append, List.pairwise_append]
      have hpre : ∀ a b, [a, b].Sublist (pre.filter (fun s => decide (s.origin = r.origin))) → a.value ≠ .nan → b.value ≠ .nan := by
        intro a b hab ha hb
        have hm := hab.subset
        have ho : ∀ x ∈ [a, b], x.origin = r.origin := fun x hx => by simpa using (List.mem_filter.1 (hm hx)).2
        apply hrn
        refine hng a b r ?_ ((ho a (by simp)).trans (ho b (by simp)).symm) (ho b (by simp)) ha hb
        rw [hl]
        have : [a, b, r] = [a, b] ++ [r] := rfl
        rw [this]
        exact (hab.trans List.filter_sublist).append (List.singleton_sublist.2 (by simp))
      refine ⟨?_, ?_, ?_⟩
      · rw [List.pairwise_map, List.pairwise_iff_forall_sublist]
        intro a b hab
        exact hpre a b hab
      · simp
      · intro a _ b hb _
        simp at hb
        rw [hb]; exact hrn
    rw [hz, add_zero]

/-- Beside it: leading and trailing missing values do no harm. -/
example : PosOrMissing ([⟨1, 1, .nan⟩, ⟨2, 1, .fin 4⟩, ⟨1, 2, .fin 8⟩, ⟨2, 2, .nan⟩] : List (Rec ℚ)) ∧
    dumpE (totriCum (decumRecs ([⟨1, 1, .nan⟩, ⟨2, 1, .fin 4⟩, ⟨1, 2, .fin 8⟩, ⟨2, 2, .nan⟩] : List (Rec ℚ)))) =
      .ok ([1, 2], [1, 2], [[.fin 0, .fin 8], [.fin 4, .fin 0]]) := by
  constructor
  · intro r hr; simp at hr; rcases hr with rfl | rfl | rfl | rfl <;> simp
  · decide +kernel

end Trikit
