import Verif.Props.Cumulative
import Verif.Props.RoundTrip
import Mathlib.Algebra.BigOperators.Group.Finset.Basic
import Mathlib.Algebra.Order.BigOperators.Group.List

/-! # Exactly when: sharp versions of C03 and C05 -/

set_option linter.unusedSectionVars false

namespace Trikit

variable {K : Type} [Field K] [LinearOrder K] [IsStrictOrderedRing K]

/-- All amounts are finite and positive. -/
def PosRecs (recs : List (Rec K)) : Prop := ∀ r ∈ recs, ∃ x, r.value = .fin x ∧ 0 < x

theorem PosRecs.finite {recs : List (Rec K)} (h : PosRecs recs) : FiniteRecs recs :=
  fun r hr => (h r hr).imp fun _ hx => hx.1

/-- The amount of a record. -/
def amt (r : Rec K) : K :=
  match r.value with
  | .fin x => x
  | _ => 0

theorem amt_eq {r : Rec K} (h : ∃ x, r.value = .fin x) : r.value = .fin (amt r) := by
  obtain ⟨x, hx⟩ := h
  simp [amt, hx]

theorem PosRecs.amt_pos {recs : List (Rec K)} (h : PosRecs recs) {r : Rec K} (hr : r ∈ recs) : 0 < amt r := by
  obtain ⟨x, hx, h0⟩ := h r hr
  simpa [amt, hx] using h0

/-- Total recorded for origin `o`. -/
def Spec.originTotal (recs : List (Rec K)) (o : Int) : K := ((recs.filter (fun r => r.origin = o)).map amt).sum

/-- For each row of the table recorded for the cell, the total of the origin over the table down to and including that
row; summed over these rows. -/
def Spec.cellSum (recs : List (Rec K)) (o d : Int) : K :=
  ∑ k ∈ Finset.range recs.length,
    if (recs[k]?).any (fun r => decide (r.origin = o ∧ r.dev = d)) then Spec.originTotal (recs.take (k + 1)) o else 0

theorem sum_values_fin {l : List (Rec K)} (h : FiniteRecs l) : (l.map Rec.value).sum = .fin ((l.map amt).sum) := by
  induction l with
  | nil => rfl
  | cons r l ih =>
    rw [List.map_cons, List.sum_cons, List.map_cons, List.sum_cons, ih (fun s hs => h s (by simp [hs])),
      amt_eq (h r (by simp))]
    rfl

theorem originTotal_append (a b : List (Rec K)) (o : Int) :
    Spec.originTotal (a ++ b) o = Spec.originTotal a o + Spec.originTotal b o := by
  unfold Spec.originTotal; rw [List.filter_append, List.map_append, List.sum_append]

theorem originTotal_single (r : Rec K) : Spec.originTotal [r] r.origin = amt r := by
  simp [Spec.originTotal]

theorem sum_map_amt_nonneg {l : List (Rec K)} (h : PosRecs l) : 0 ≤ (l.map amt).sum :=
  List.sum_nonneg (by
    intro x hx
    obtain ⟨r, hr, rfl⟩ := List.mem_map.1 hx
    exact (h.amt_pos hr).le)

theorem originTotal_nonneg {l : List (Rec K)} (h : PosRecs l) (o : Int) : 0 ≤ Spec.originTotal l o :=
  sum_map_amt_nonneg (fun r hr => h r (List.mem_filter.1 hr).1)

theorem originTotal_pos {l : List (Rec K)} (h : PosRecs l) {r : Rec K} (hr : r ∈ l) : 0 < Spec.originTotal l r.origin := by
  obtain ⟨a, b, rfl⟩ := List.append_of_mem hr
  have e : a ++ r :: b = a ++ ([r] ++ b) := by simp
  rw [e, originTotal_append, originTotal_append, originTotal_single]
  have h1 := originTotal_nonneg (l := a) (fun s hs => h s (by simp [hs])) r.origin
  have h2 := originTotal_nonneg (l := b) (fun s hs => h s (by simp [hs])) r.origin
  have h3 := h.amt_pos hr
  linarith

theorem cumValue_fin {pre : List (Rec K)} {r : Rec K} (h : FiniteRecs (pre ++ [r])) :
    cumValue pre r = .fin (Spec.originTotal (pre ++ [r]) r.origin) := by
  have hr := amt_eq (h r (by simp))
  unfold cumValue
  rw [if_neg (by rw [hr]; simp), originTotal_append, originTotal_single]
  unfold originValues
  rw [sumSkip_eq_sum, sum_values_fin, hr]
  · rfl
  · intro s hs; exact h s (by simp [(List.mem_filter.1 hs).1])
  · intro v hv
    obtain ⟨s, hs, rfl⟩ := List.mem_map.1 hv
    exact h s (by simp [(List.mem_filter.1 hs).1])

theorem cellSum_snoc (l : List (Rec K)) (r : Rec K) (o d : Int) :
    Spec.cellSum (l ++ [r]) o d =
      Spec.cellSum l o d + if r.origin = o ∧ r.dev = d then Spec.originTotal (l ++ [r]) o else 0 := by
  unfold Spec.cellSum
  rw [List.length_append, List.length_singleton, Finset.sum_range_succ]
  congr 1
  · apply Finset.sum_congr rfl
    intro k hk
    rw [Finset.mem_range] at hk
    rw [List.getElem?_append_left hk, List.take_append_of_le_length (by omega)]
  · have e : (l ++ [r]).take (l.length + 1) = l ++ [r] := List.take_of_length_le (by simp)
    rw [List.getElem?_append_right (le_refl _), e]
    simp

theorem recordsAt_cum_sum {recs : List (Rec K)} (h : FiniteRecs recs) (o d : Int) :
    ((Spec.recordsAt (cumRecs recs) o d).map Rec.value).sum = .fin (Spec.cellSum recs o d) := by
  induction recs using List.reverseRecOn with
  | nil => rfl
  | append_singleton l r ih =>
    have hl : FiniteRecs l := fun s hs => h s (by simp [hs])
    have hs := cumRecs_split l [] r
    rw [cumValue_fin h] at hs
    rw [hs, recordsAt_eq, List.filter_append, List.map_append, List.sum_append, ← recordsAt_eq, ih hl, cellSum_snoc,
      List.filter_cons]
    by_cases e : r.origin = o ∧ r.dev = d
    · rw [if_pos e, if_pos (by simpa using e), ← e.1]
      simp [cumGo, Num.zero_def]
    · rw [if_neg e, if_neg (by simpa using e)]
      simp [cumGo, Num.zero_def]

theorem cum_posRecs {recs : List (Rec K)} (h : PosRecs recs) : PosRecs (cumRecs recs) := by
  induction recs using List.reverseRecOn with
  | nil => intro r hr; simp [cumRecs, cumGo] at hr
  | append_singleton l r ih =>
    have hs := cumRecs_split l [] r
    rw [cumValue_fin h.finite] at hs
    rw [hs]
    intro s hs'
    rcases List.mem_append.1 hs' with h1 | h1
    · exact ih (fun q hq => h q (by simp [hq])) s h1
    · simp only [cumGo, List.mem_singleton] at h1
      subst h1
      exact ⟨_, rfl, originTotal_pos h (by simp)⟩

/-- **C05, what the code computes.** For a table of positive amounts in any order and with any duplicates, every recorded
cell of the cumulative triangle is the sum, over the rows recorded for it, of the origin's total down to that row. -/
theorem C05_value {recs : List (Rec K)} (hne : recs ≠ []) (h : PosRecs recs) :
    ∃ t, totriCum recs = .ok t ∧ Spec.HasLabelsOf t recs ∧ ∀ r ∈ recs, ∀ i j, t.origins[i]? = some r.origin →
      t.devs[j]? = some r.dev → t.cell i j = .fin (Spec.cellSum recs r.origin r.dev) := by
  obtain ⟨t, h1, h2, h3, h4⟩ := totriCum_ok hne h.finite.tame
  refine ⟨t, h1, ?_, ?_⟩
  · have := pivot_hasLabels recs (negHandler (cumRecs recs))
      ((negHandler_sameKeys _).trans (cumRecs_sameKeys recs))
    unfold Spec.HasLabelsOf
    rw [h2, h3]; exact this
  · intro r hr i j hi hj
    have hj' := (List.getElem?_eq_some_iff.1 hj).1
    rw [h2] at hi
    rw [h3] at hj
    have hp := cum_posRecs h
    have hcell : (preFill recs).cell i j = .fin (Spec.cellSum recs r.origin r.dev) := by
      unfold preFill at hi hj ⊢
      rw [pivot_cell hi hj, groupCell_negHandler]
      unfold Spec.incrCell
      have hex : Spec.recordsAt (cumRecs recs) r.origin r.dev ≠ [] := by
        have : (r.origin, r.dev) ∈ (cumRecs recs).map (fun r => (r.origin, r.dev)) := by
          rw [cumRecs_sameKeys recs]; exact List.mem_map_of_mem (f := fun r : Rec K => (r.origin, r.dev)) hr
        obtain ⟨s, hs, he⟩ := List.mem_map.1 this
        simp only [Prod.mk.injEq] at he
        rw [recordsAt_eq]
        exact List.ne_nil_of_mem (List.mem_filter.2 ⟨hs, by simpa using he⟩)
      rw [if_neg hex]
      have hv : ∀ s ∈ Spec.recordsAt (cumRecs recs) r.origin r.dev, s ∈ cumRecs recs := by
        intro s hs; rw [recordsAt_eq] at hs; exact (List.mem_filter.1 hs).1
      have hmap : (Spec.recordsAt (cumRecs recs) r.origin r.dev).map (Spec.contribution (cumRecs recs)) =
          (Spec.recordsAt (cumRecs recs) r.origin r.dev).map Rec.value := by
        apply List.map_congr_left
        intro s hs
        apply contribution_eq
        intro _
        obtain ⟨x, hx, hx0⟩ := hp s (hv s hs)
        simp [hx, Num.zero_def, hx0]
      rw [hmap, List.filter_eq_self.2, recordsAt_cum_sum h.finite]
      intro v hv'
      obtain ⟨s, hs, rfl⟩ := List.mem_map.1 hv'
      obtain ⟨x, hx, _⟩ := hp s (hv s hs)
      rw [hx]; simp
    rw [h4 i j hj', fillRow_observed (by rw [hcell]; simp), hcell]

/-- Beside it: rows out of order and a duplicate, `10`, then `10 + 5` and `10 + 5 + 7`. -/
example : Spec.cellSum ([⟨1, 1, .fin 10⟩, ⟨1, 2, .fin 5⟩, ⟨2, 1, .fin 4⟩, ⟨1, 2, .fin 7⟩] : List (Rec ℚ)) 1 2 = 37 := by
  decide +kernel

theorem cellSum_append_none {pre post : List (Rec K)} {o d : Int}
    (h : ∀ s ∈ post, ¬ (s.origin = o ∧ s.dev = d)) : Spec.cellSum (pre ++ post) o d = Spec.cellSum pre o d := by
  induction post using List.reverseRecOn with
  | nil => simp
  | append_singleton l r ih =>
    rw [← List.append_assoc, cellSum_snoc, ih (fun s hs => h s (by simp [hs])), if_neg (h r (by simp)), add_zero]

theorem cellSum_pos_iff {recs : List (Rec K)} (h : PosRecs recs) (o d : Int) :
    0 ≤ Spec.cellSum recs o d ∧ (Spec.cellSum recs o d = 0 ↔ ∀ s ∈ recs, ¬ (s.origin = o ∧ s.dev = d)) := by
  induction recs using List.reverseRecOn with
  | nil => simp [Spec.cellSum]
  | append_singleton l r ih =>
    obtain ⟨i1, i2⟩ := ih (fun s hs => h s (by simp [hs]))
    rw [cellSum_snoc]
    by_cases e : r.origin = o ∧ r.dev = d
    · rw [if_pos e]
      have hp : 0 < Spec.originTotal (l ++ [r]) o := e.1 ▸ originTotal_pos h (by simp)
      refine ⟨by linarith, fun h0 => by linarith, fun h0 => absurd e (h0 r (by simp))⟩
    · rw [if_neg e, add_zero, i2]
      refine ⟨i1, fun h0 s hs => ?_, fun h0 s hs => h0 s (by simp [hs])⟩
      rcases List.mem_append.1 hs with h1 | h1
      · exact h0 s h1
      · rw [List.mem_singleton.1 h1]; exact e

theorem runningTotal_amt {recs : List (Rec K)} (h : FiniteRecs recs) (o d : Int) :
    Spec.runningTotal recs o d = .fin (((recs.filter (fun r => decide (r.origin = o ∧ r.dev ≤ d))).map amt).sum) := by
  unfold Spec.runningTotal
  exact sum_values_fin (fun r hr => h r (List.mem_filter.1 hr).1)

/-- The last record satisfying `p`. -/
theorem exists_last_split {α : Type} {p : α → Prop} {l : List α} (h : ∃ a ∈ l, p a) :
    ∃ pre a post, l = pre ++ a :: post ∧ p a ∧ ∀ b ∈ post, ¬ p b := by
  induction l with
  | nil => simp at h
  | cons x l ih =>
    by_cases hl : ∃ a ∈ l, p a
    · obtain ⟨pre, a, post, rfl, h1, h2⟩ := ih hl
      exact ⟨x :: pre, a, post, rfl, h1, h2⟩
    · obtain ⟨a, ha, hp⟩ := h
      rcases List.mem_cons.1 ha with rfl | ha
      · exact ⟨[], a, l, rfl, hp, fun b hb hpb => hl ⟨b, hb, hpb⟩⟩
      · exact absurd ⟨a, ha, hp⟩ hl

/-- With rows in development order, the origin's total down to the last row of a cell is the running total. -/
theorem originTotal_running {pre post : List (Rec K)} {a : Rec K} (hord : DevOrdered (pre ++ a :: post))
    (hfin : FiniteRecs (pre ++ a :: post)) (hlast : ∀ b ∈ post, ¬ (b.origin = a.origin ∧ b.dev = a.dev)) :
    Spec.runningTotal (pre ++ a :: post) a.origin a.dev = .fin (Spec.originTotal (pre ++ [a]) a.origin) := by
  rw [runningTotal_amt hfin]
  unfold DevOrdered at hord
  rw [List.pairwise_append, List.pairwise_cons] at hord
  obtain ⟨_, ⟨hrp, _⟩, hcross⟩ := hord
  congr 1
  rw [originTotal_append, originTotal_single, List.filter_append, List.filter_cons]
  have h1 : pre.filter (fun s => decide (s.origin = a.origin ∧ s.dev ≤ a.dev)) =
      pre.filter (fun s => decide (s.origin = a.origin)) := by
    apply List.filter_congr
    intro s hs
    have := hcross s hs a (by simp)
    by_cases ho : s.origin = a.origin
    · simp [ho, this ho]
    · simp [ho]
  have h2 : post.filter (fun s => decide (s.origin = a.origin ∧ s.dev ≤ a.dev)) = [] := by
    rw [List.filter_eq_nil_iff]
    intro s hs
    simp only [decide_eq_true_eq, not_and]
    intro ho hle
    exact hlast s hs ⟨ho, le_antisymm hle (hrp s hs ho.symm)⟩
  rw [h1, h2]
  simp [Spec.originTotal]

/-- **C05, exactly when.** For a table of positive amounts with the rows of each origin in development order, a recorded
cell of the cumulative triangle is the origin's running total if and only if the cell has a single record. -/
theorem C05_exactly_partial {recs : List (Rec K)} (hne : recs ≠ []) (h : PosRecs recs) (hord : DevOrdered recs) :
    ∃ t, totriCum recs = .ok t ∧ Spec.HasLabelsOf t recs ∧ ∀ r ∈ recs, ∀ i j, t.origins[i]? = some r.origin →
      t.devs[j]? = some r.dev → (t.cell i j = Spec.runningTotal recs r.origin r.dev ↔
        (Spec.recordsAt recs r.origin r.dev).length = 1) := by
  obtain ⟨t, h1, h2, h3⟩ := C05_value hne h
  refine ⟨t, h1, h2, fun r hr i j hi hj => ?_⟩
  rw [h3 r hr i j hi hj]
  obtain ⟨pre, a, post, hsplit, ⟨ha1, ha2⟩, hlast⟩ := exists_last_split (p := fun s : Rec K => s.origin = r.origin ∧ s.dev = r.dev)
    ⟨r, hr, rfl, rfl⟩
  have hpre : PosRecs pre := fun s hs => h s (by rw [hsplit]; simp [hs])
  have hrun := originTotal_running (hsplit ▸ hord) (hsplit ▸ h.finite) (by rw [ha1, ha2]; exact hlast)
  rw [← hsplit, ha1, ha2] at hrun
  have hcs : Spec.cellSum recs r.origin r.dev = Spec.cellSum pre r.origin r.dev + Spec.originTotal (pre ++ [a]) r.origin := by
    have e : recs = (pre ++ [a]) ++ post := by rw [hsplit]; simp
    rw [e, cellSum_append_none hlast, cellSum_snoc, if_pos ⟨ha1, ha2⟩]
  have hlen : (Spec.recordsAt recs r.origin r.dev).length = (Spec.recordsAt pre r.origin r.dev).length + 1 := by
    rw [recordsAt_eq, recordsAt_eq, hsplit, List.filter_append, List.filter_cons, if_pos (by simp [ha1, ha2]),
      show post.filter (fun s => decide (s.origin = r.origin ∧ s.dev = r.dev)) = [] from
        List.filter_eq_nil_iff.2 (by intro b hb; simpa using hlast b hb)]
    simp
  have hnone : (Spec.recordsAt pre r.origin r.dev).length = 0 ↔ ∀ s ∈ pre, ¬ (s.origin = r.origin ∧ s.dev = r.dev) := by
    rw [recordsAt_eq, List.length_eq_zero_iff, List.filter_eq_nil_iff]; simp
  rw [hrun, hcs, hlen]
  have hiff := (cellSum_pos_iff hpre r.origin r.dev).2
  constructor
  · intro e
    injection e with e
    have : Spec.cellSum pre r.origin r.dev = 0 := by linarith
    have := hnone.2 (hiff.1 this)
    omega
  · intro e
    rw [hiff.2 (hnone.1 (by omega)), zero_add]

/-- Beside it: the hypotheses hold for a table with a duplicate. -/
example : PosRecs ([⟨1, 1, .fin 10⟩, ⟨1, 2, .fin 5⟩, ⟨1, 2, .fin 7⟩] : List (Rec ℚ)) ∧
    DevOrdered ([⟨1, 1, .fin 10⟩, ⟨1, 2, .fin 5⟩, ⟨1, 2, .fin 7⟩] : List (Rec ℚ)) := by
  constructor
  · intro r hr; simp at hr; rcases hr with rfl | rfl | rfl <;> exact ⟨_, rfl, by norm_num⟩
  · unfold DevOrdered; decide +kernel

/-! ## C03 -/

theorem runningTotal_perm {a b : List (Rec K)} (hp : a.Perm b) (h : FiniteRecs a) (o d : Int) :
    Spec.runningTotal a o d = Spec.runningTotal b o d := by
  rw [runningTotal_amt h, runningTotal_amt (fun r hr => h r (hp.mem_iff.2 hr))]
  congr 1
  exact ((hp.filter _).map _).sum_eq

theorem cellSum_single {pre post : List (Rec K)} {r : Rec K} (h : OnePerCell (pre ++ r :: post)) :
    Spec.cellSum (pre ++ r :: post) r.origin r.dev = Spec.originTotal (pre ++ [r]) r.origin := by
  have hs := h.split
  have e : pre ++ r :: post = (pre ++ [r]) ++ post := by simp
  have h0 : Spec.cellSum pre r.origin r.dev = Spec.cellSum ([] : List (Rec K)) r.origin r.dev := by
    have := cellSum_append_none (pre := ([] : List (Rec K))) (post := pre) (o := r.origin) (d := r.dev)
      (fun s hs' => hs s (by simp [hs']))
    simpa using this
  rw [e, cellSum_append_none (fun s hs' => hs s (by simp [hs'])), cellSum_snoc, if_pos ⟨rfl, rfl⟩, h0]
  simp [Spec.cellSum]

/-- If every recorded cell is the running total, the rows are in development order. -/
theorem devOrdered_of_running {recs : List (Rec K)} (h : PosRecs recs) (hone : OnePerCell recs)
    (hrun : ∀ r ∈ recs, Num.fin (Spec.cellSum recs r.origin r.dev) = Spec.runningTotal recs r.origin r.dev) :
    DevOrdered recs := by
  unfold DevOrdered
  rw [List.pairwise_iff_forall_sublist]
  intro s r hsub ho
  by_contra hc
  push Not at hc
  obtain ⟨l1, l2, hl, hs1, hr1⟩ : ∃ l1 l2, recs = l1 ++ l2 ∧ s ∈ l1 ∧ r ∈ l2 := by
    obtain ⟨l1, l2, e, h1, h2⟩ := List.cons_sublist_iff.1 hsub
    exact ⟨l1, l2, e, h1, List.singleton_sublist.1 h2⟩
  obtain ⟨a, b, rfl⟩ := List.append_of_mem hs1
  obtain ⟨c, d, rfl⟩ := List.append_of_mem hr1
  have e1 : recs = a ++ s :: (b ++ c ++ r :: d) := by rw [hl]; simp
  have e2 : recs = (a ++ s :: b ++ c) ++ r :: d := by rw [hl]; simp
  have hs' := hrun s (by rw [e1]; simp)
  have hr' := hrun r (by rw [e2]; simp)
  have c1 : Spec.cellSum recs s.origin s.dev = Spec.originTotal (a ++ [s]) s.origin := by
    rw [e1]; exact cellSum_single (e1 ▸ hone)
  have c2 : Spec.cellSum recs r.origin r.dev = Spec.originTotal ((a ++ s :: b ++ c) ++ [r]) r.origin := by
    rw [e2]; exact cellSum_single (e2 ▸ hone)
  rw [c1, runningTotal_amt h.finite] at hs'
  rw [c2, runningTotal_amt h.finite] at hr'
  injection hs' with hs'
  injection hr' with hr'
  -- running totals grow with the period
  have hmono : ((recs.filter (fun q => decide (q.origin = r.origin ∧ q.dev ≤ r.dev))).map amt).sum ≤
      ((recs.filter (fun q => decide (q.origin = s.origin ∧ q.dev ≤ s.dev))).map amt).sum := by
    have hsl : ((recs.filter (fun q => decide (q.origin = r.origin ∧ q.dev ≤ r.dev))).map amt).Sublist
        ((recs.filter (fun q => decide (q.origin = s.origin ∧ q.dev ≤ s.dev))).map amt) := by
      apply List.Sublist.map
      apply List.monotone_filter_right
      intro q hq
      simp only [decide_eq_true_eq] at hq ⊢
      exact ⟨hq.1.trans ho.symm, by omega⟩
    apply hsl.sum_le_sum
    intro x hx
    obtain ⟨q, hq, rfl⟩ := List.mem_map.1 hx
    exact (h.amt_pos (List.mem_filter.1 hq).1).le
  -- totals down the table grow strictly
  have hgrow : Spec.originTotal (a ++ [s]) s.origin < Spec.originTotal ((a ++ s :: b ++ c) ++ [r]) r.origin := by
    have e3 : (a ++ s :: b ++ c) ++ [r] = (a ++ [s]) ++ (b ++ c) ++ [r] := by simp
    rw [e3, originTotal_append (a ++ [s] ++ (b ++ c)), originTotal_append (a ++ [s]) (b ++ c), originTotal_single, ho]
    have p1 := originTotal_nonneg (l := b ++ c) (fun q hq => h q (by rw [e1]; simp at hq ⊢; tauto)) r.origin
    have p2 := h.amt_pos (r := r) (by rw [e2]; simp)
    linarith
  linarith

theorem filter_origin_eq {a b : List (Rec K)} (hp : a.Perm b) (hone : OnePerCell a) (ha : DevOrdered a) (hb : DevOrdered b)
    (o : Int) : a.filter (fun r => r.origin = o) = b.filter (fun r => r.origin = o) := by
  have honeb : OnePerCell b := hp.pairwise hone (fun {x y} h e => h ⟨e.1.symm, e.2.symm⟩)
  have key : ∀ l : List (Rec K), OnePerCell l → DevOrdered l →
      (l.filter (fun r => r.origin = o)).Pairwise (fun r s => r.dev < s.dev) := by
    intro l h1 h2
    rw [List.pairwise_filter]
    refine (h1.and h2).imp ?_
    rintro r s ⟨h3, h4⟩ hr hs
    simp only [decide_eq_true_eq] at hr hs
    have ho : r.origin = s.origin := hr.trans hs.symm
    have := h4 ho
    exact lt_of_le_of_ne this (fun e => h3 ⟨ho, e⟩)
  apply List.Perm.eq_of_pairwise (le := fun r s : Rec K => r.dev < s.dev) _ (key a hone ha) (key b honeb hb) (hp.filter _)
  intro x y _ _ h1 h2
  omega

/-- **C03, exactly when.** Let `recs'` list positive amounts, one per cell, with the rows of each origin in development
order.  A reordering `recs` of that table produces the same cumulative triangle if and only if it, too, keeps the rows of
each origin in development order. -/
theorem C03_exactly_partial {recs recs' : List (Rec K)} (hp : recs.Perm recs') (hne : recs ≠ []) (h : PosRecs recs)
    (hone : OnePerCell recs) (hord : DevOrdered recs') :
    ∃ t u, totriCum recs = .ok t ∧ totriCum recs' = .ok u ∧ (Tri.Same t u ↔ DevOrdered recs) := by
  have h' : PosRecs recs' := fun r hr => h r (hp.mem_iff.2 hr)
  have hone' : OnePerCell recs' := hp.pairwise hone (fun {x y} h e => h ⟨e.1.symm, e.2.symm⟩)
  have hne' : recs' ≠ [] := fun e => hne (by rw [e] at hp; exact hp.eq_nil)
  obtain ⟨t, t1, t2, t3⟩ := C05_value hne h
  obtain ⟨u, u1, u2, u3⟩ := C04_cum_cells hne' h'.finite hone' hord (fun r hr _ => by
    obtain ⟨x, hx, h0⟩ := h' r hr
    simp [hx, Num.zero_def, h0])
  refine ⟨t, u, t1, u1, ?_, ?_⟩
  · rintro ⟨e1, e2, e3⟩
    apply devOrdered_of_running h hone
    intro r hr
    have ho : r.origin ∈ t.origins := (t2.2.2.1 _).2 ⟨r, hr, rfl⟩
    have hd : r.dev ∈ t.devs := (t2.2.2.2 _).2 ⟨r, hr, rfl⟩
    obtain ⟨i, hi⟩ := List.getElem?_of_mem ho
    obtain ⟨j, hj⟩ := List.getElem?_of_mem hd
    have c1 := t3 r hr i j hi hj
    have c2 := u3 r (hp.mem_iff.1 hr) i j (e1 ▸ hi) (e2 ▸ hj)
    rw [← c1, e3 i (List.getElem?_eq_some_iff.1 hi).1 j (List.getElem?_eq_some_iff.1 hj).1, c2,
      runningTotal_perm hp h.finite]
  · intro ho
    have := C03_cum_order_partial (filter_origin_eq hp hone ho hord)
    rw [t1, u1] at this
    injection this with this
    subst this
    exact ⟨rfl, rfl, fun _ _ _ _ => rfl⟩

/-- Beside it: a reordering that interleaves the origins but keeps each in order. -/
example : DevOrdered ([⟨2, 1, .fin 3⟩, ⟨1, 1, .fin 10⟩, ⟨2, 2, .fin 1⟩, ⟨1, 2, .fin 5⟩] : List (Rec ℚ)) ∧
    ¬ DevOrdered ([⟨2, 1, .fin 3⟩, ⟨1, 2, .fin 5⟩, ⟨2, 2, .fin 1⟩, ⟨1, 1, .fin 10⟩] : List (Rec ℚ)) := by
  unfold DevOrdered; decide +kernel

end Trikit
