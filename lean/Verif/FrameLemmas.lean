import Verif.Frame
import Verif.FillLemmas

/-! Helper lemmas on the heap model: which references a call can change, and what it computes. -/

set_option linter.unusedSectionVars false

namespace Trikit

variable {K : Type}

/-- Every object of `h` is still there, unchanged, in `h'`. -/
def Keeps (h h' : Heap K) : Prop := ∀ k < h.length, h'[k]? = h[k]?

theorem Keeps.refl (h : Heap K) : Keeps h h := fun _ _ => rfl

theorem Keeps.length {h h' : Heap K} (a : Keeps h h') : h.length ≤ h'.length := by
  by_contra hc
  have h1 := a h'.length (by omega)
  rw [List.getElem?_eq_none (le_refl _), List.getElem?_eq_getElem (by omega)] at h1
  exact absurd h1 (by simp)

theorem Keeps.trans {a b c : Heap K} (h1 : Keeps a b) (h2 : Keeps b c) : Keeps a c := by
  intro k hk
  rw [h2 k (lt_of_lt_of_le hk h1.length), h1 k hk]

theorem keeps_alloc (h : Heap K) (f : Frame K) : Keeps h (alloc h f).1 := by
  intro k hk
  exact List.getElem?_append_left hk

theorem keeps_setAt {h h' : Heap K} {r : ℕ} (f : Frame K) (a : Keeps h h') (hr : h.length ≤ r) :
    Keeps h (setAt h' r f) := by
  intro k hk
  unfold setAt
  rw [List.getElem?_set_ne (by omega), a k hk]

@[simp] theorem frameAt_alloc (h : Heap K) (f : Frame K) : frameAt (alloc h f).1 (alloc h f).2 = f := by
  simp [frameAt, alloc]

theorem frameAt_setAt {h : Heap K} {r : ℕ} (hr : r < h.length) (f : Frame K) :
    frameAt (setAt h r f) r = f := by
  simp [frameAt, setAt, hr]

theorem alloc_lt (h : Heap K) (f : Frame K) : (alloc h f).2 < (alloc h f).1.length := by
  simp [alloc]

section
variable [Field K] [LinearOrder K]

theorem baseInitH_keeps {h h' : Heap K} {r : ℕ} (o d v : String) (a : Keeps h h')
    (hr : h.length ≤ r) : Keeps h (baseInitH h' r o d v).1 := by
  unfold baseInitH
  dsimp only
  split
  · exact a
  · split
    · exact a
    · exact keeps_setAt _ a hr

theorem cumInitH_keeps {h h' : Heap K} {r : ℕ} (o d v : String) (a : Keeps h h')
    (hr : h.length ≤ r) : Keeps h (cumInitH h' r o d v).1 := by
  unfold cumInitH
  dsimp only
  split
  · exact a
  · have h1 := keeps_setAt
      ((frameAt h' r).setNum "cumval" ((cumRecs ((frameAt h' r).recs o d v)).map Rec.value)) a hr
    exact baseInitH_keeps o d v (h1.trans (keeps_alloc _ _)) h1.length

theorem decumH_keeps (h : Heap K) (r : ℕ) (o v : String) : Keeps h (decumH h r o v).1 := by
  have h1 := keeps_alloc h ((frameAt h r).rename v "cum")
  unfold decumH
  dsimp only
  split
  · exact h1
  · split
    · exact h1
    · exact (keeps_setAt _ h1 (le_refl _)).trans (keeps_alloc _ _)

theorem prepH_keeps (odd : Frame K → Bool → Except PyErr (Frame K)) (h : Heap K) (r : ℕ)
    (fmt shape o v : String) : Keeps h (prepH odd h r fmt shape o v).1 := by
  unfold prepH
  dsimp only
  split
  · split
    · split
      · exact keeps_alloc _ _
      · split
        · exact Keeps.refl h
        · exact keeps_alloc _ _
    · split
      · split
        · exact keeps_alloc _ _
        · split
          · exact Keeps.refl h
          · exact keeps_alloc _ _
      · exact Keeps.refl h
  · split
    · split
      · exact decumH_keeps h r o v
      · exact Keeps.refl h
    · exact Keeps.refl h

theorem totri_keeps (odd : Frame K → Bool → Except PyErr (Frame K)) (h : Heap K) (r : ℕ)
    (triType fmt shape o d v : String) :
    Keeps h (totri odd h r triType fmt shape o d v).1 := by
  have hp := prepH_keeps odd h r fmt shape o v
  unfold totri
  split
  · rename_i h1 e he; rw [he] at hp; exact hp
  · rename_i h1 r1 he
    rw [he] at hp
    have h2 := hp.trans (keeps_alloc h1 (frameAt h1 r1))
    dsimp only
    split
    · exact baseInitH_keeps o d v h2 hp.length
    · split
      · exact cumInitH_keeps o d v h2 hp.length
      · exact h2

/-! ### what the constructors compute -/

theorem baseInitH_eval {h : Heap K} {r : ℕ} {o d v : String} (ho : o ∈ (frameAt h r).cols)
    (hd : d ∈ (frameAt h r).cols) (hv : v ∈ (frameAt h r).cols) :
    (baseInitH h r o d v).2 = baseInit ((frameAt h r).recs o d v) := by
  unfold baseInitH baseInit
  dsimp only
  rw [if_neg (by simp [ho, hd, hv])]
  split <;> rfl

/-- Writing back the values of records with the same keys gives those records. -/
theorem recs_zip {o d : String} {rows : List (String → Cell K)} {L : List (Rec K)}
    (hk : L.map (fun r => (r.origin, r.dev)) = rows.map (fun r => ((r o).asInt, (r d).asInt))) :
    List.zipWith (fun (r : String → Cell K) x => (⟨(r o).asInt, (r d).asInt, x⟩ : Rec K)) rows
      (L.map Rec.value) = L := by
  induction rows generalizing L with
  | nil => cases L with
    | nil => rfl
    | cons a L => simp at hk
  | cons r rows ih => cases L with
    | nil => simp at hk
    | cons a L =>
      simp only [List.map_cons, List.cons.injEq, Prod.mk.injEq] at hk
      obtain ⟨⟨h1, h2⟩, h3⟩ := hk
      simp only [List.map_cons, List.zipWith_cons_cons, ih h3]
      rw [← h1, ← h2]

theorem recs_keys (f : Frame K) (o d v : String) :
    (f.recs o d v).map (fun r => (r.origin, r.dev)) =
      f.rows.map (fun r => ((r o).asInt, (r d).asInt)) := by
  simp [Frame.recs, List.map_map, Function.comp_def]

/-- Columns of a table in which column `v` is replaced by a computed column `tmp` renamed to `v`. -/
theorem mem_cols_swap {f : Frame K} {tmp old v c : String} (vals : List (Num K))
    (hc : c ∈ f.cols) (hct : c ≠ tmp) (hco : c ≠ old) (hto : tmp ≠ old) :
    c ∈ (((f.setNum tmp vals).drop old).rename tmp v).cols := by
  have h1 : tmp ∈ ((f.setNum tmp vals).drop old).cols := by
    simp only [Frame.drop, Frame.setNum, List.mem_filter, decide_eq_true_eq]
    refine ⟨?_, hto⟩
    split <;> simp_all
  have h2 : c ∈ ((f.setNum tmp vals).drop old).cols := by
    simp only [Frame.drop, Frame.setNum, List.mem_filter, decide_eq_true_eq]
    refine ⟨?_, hco⟩
    split <;> simp_all
  unfold Frame.rename
  rw [if_pos h1]
  exact List.mem_map.2 ⟨c, h2, by rw [if_neg hct]⟩

theorem mem_cols_swap_new {f : Frame K} {tmp old v : String} (vals : List (Num K))
    (hto : tmp ≠ old) : v ∈ (((f.setNum tmp vals).drop old).rename tmp v).cols := by
  have h1 : tmp ∈ ((f.setNum tmp vals).drop old).cols := by
    simp only [Frame.drop, Frame.setNum, List.mem_filter, decide_eq_true_eq]
    refine ⟨?_, hto⟩
    split <;> simp_all
  unfold Frame.rename
  rw [if_pos h1]
  exact List.mem_map.2 ⟨tmp, h1, by rw [if_pos rfl]⟩

theorem recs_swap {f : Frame K} {tmp old o d v : String} {L : List (Rec K)}
    (hk : L.map (fun r => (r.origin, r.dev)) = f.rows.map (fun r => ((r o).asInt, (r d).asInt)))
    (hto : tmp ≠ old) (hov : o ≠ v) (hdv : d ≠ v) (hot : o ≠ tmp) (hdt : d ≠ tmp) :
    (((f.setNum tmp (L.map Rec.value)).drop old).rename tmp v).recs o d v = L := by
  have h1 : tmp ∈ ((f.setNum tmp (L.map Rec.value)).drop old).cols := by
    simp only [Frame.drop, Frame.setNum, List.mem_filter, decide_eq_true_eq]
    refine ⟨?_, hto⟩
    split <;> simp_all
  unfold Frame.rename
  rw [if_pos h1]
  refine Eq.trans ?_ (recs_zip (o := o) (d := d) hk)
  simp only [Frame.recs, Frame.drop, Frame.setNum, List.map_map, List.map_zipWith, Function.comp_def,
    if_neg hov, if_neg hdv, if_neg hot, if_neg hdt, if_true, Cell.asNum]

theorem cumInitH_eval {h : Heap K} {r : ℕ} {o d v : String} (hr : r < h.length)
    (ho : o ∈ (frameAt h r).cols) (hd : d ∈ (frameAt h r).cols) (hv : v ∈ (frameAt h r).cols)
    (hov : o ≠ v) (hdv : d ≠ v) (hoc : o ≠ "cumval") (hdc : d ≠ "cumval") (hvc : v ≠ "cumval") :
    (cumInitH h r o d v).2 = cumTri ((frameAt h r).recs o d v) := by
  unfold cumInitH
  dsimp only
  rw [if_neg (by simp [ho, hv]), frameAt_setAt hr]
  generalize hf : frameAt h r = f at *
  rw [baseInitH_eval, frameAt_alloc, recs_swap ?_ hvc.symm hov hdv hoc hdc]
  · rfl
  · rw [← recs_keys f o d v]; exact cumRecs_sameKeys _
  · rw [frameAt_alloc]; exact mem_cols_swap _ ho hoc hov hvc.symm
  · rw [frameAt_alloc]; exact mem_cols_swap _ hd hdc hdv hvc.symm
  · rw [frameAt_alloc]; exact mem_cols_swap_new _ hvc.symm

/-! ### tabular cumulative input -/

theorem decumGo_keys (prev : Int → Option (Num K)) (l : List (Rec K)) : SameKeys (decumGo prev l) l := by
  induction l generalizing prev with
  | nil => rfl
  | cons r l ih =>
    have := ih (fun o => if o = r.origin then some r.value else prev o)
    unfold SameKeys at this ⊢
    simp only [decumGo, List.map_cons, this]

/-- The differences depend on origins and values only. -/
theorem decumGo_values (prev : Int → Option (Num K)) {a b : List (Rec K)}
    (h : a.map (fun r => (r.origin, r.value)) = b.map (fun r => (r.origin, r.value))) :
    (decumGo prev a).map Rec.value = (decumGo prev b).map Rec.value := by
  induction a generalizing b prev with
  | nil => cases b with
    | nil => rfl
    | cons y b => simp at h
  | cons x a ih => cases b with
    | nil => simp at h
    | cons y b =>
      simp only [List.map_cons, List.cons.injEq, Prod.mk.injEq] at h
      obtain ⟨⟨h1, h2⟩, h3⟩ := h
      simp only [decumGo, List.map_cons, h1, h2]
      rw [ih _ h3]

/-- What tabular cumulative input needs of the column names: the value column exists and renaming it to
`cum` causes no clash, and the label columns are not one of the two working names. -/
structure DecumNames (cols : List String) (o d v : String) : Prop where
  ho : o ∈ cols
  hd : d ∈ cols
  hv : v ∈ cols
  nodup : cols.Nodup
  hov : o ≠ v
  hdv : d ≠ v
  clash : "cum" ∈ cols → v = "cum"
  hoi : o ≠ "incr"
  hdi : d ≠ "incr"

theorem decumH_eval {h : Heap K} {r : ℕ} {o d v : String}
    (hn : DecumNames (frameAt h r).cols o d v) :
    ∃ h' r', decumH h r o v = (h', .ok r') ∧ r' < h'.length ∧
      o ∈ (frameAt h' r').cols ∧ d ∈ (frameAt h' r').cols ∧ v ∈ (frameAt h' r').cols ∧
      (frameAt h' r').recs o d v = decumRecs ((frameAt h r).recs o d v) := by
  generalize hf : frameAt h r = f at *
  obtain ⟨ho, hd, hv, hnd, hov, hdv, hcl, hoi, hdi⟩ := hn
  have hoc : o ≠ "cum" := fun e => hov ((hcl (e ▸ ho)).symm ▸ e)
  have hdc : d ≠ "cum" := fun e => hdv ((hcl (e ▸ hd)).symm ▸ e)
  set g := f.rename v "cum" with hg
  have hg' : g = ⟨f.cols.map (fun c => if c = v then "cum" else c),
      f.rows.map (fun r c => if c = "cum" then r v else r c)⟩ := by
    rw [hg]; unfold Frame.rename; rw [if_pos hv]
  have hgo : o ∈ g.cols := by
    rw [hg']; exact List.mem_map.2 ⟨o, ho, by rw [if_neg hov]⟩
  have hgd : d ∈ g.cols := by
    rw [hg']; exact List.mem_map.2 ⟨d, hd, by rw [if_neg hdv]⟩
  have hgc : "cum" ∈ g.cols := by
    rw [hg']; exact List.mem_map.2 ⟨v, hv, by rw [if_pos rfl]⟩
  have hcount : g.cols.count "cum" = 1 := by
    refine List.count_eq_one_of_mem ?_ hgc
    rw [hg']
    refine List.Nodup.map_on ?_ hnd
    intro x hx y hy hxy
    by_cases h1 : x = v <;> by_cases h2 : y = v
    · rw [h1, h2]
    · rw [if_pos h1, if_neg h2] at hxy
      exact absurd (hxy.symm.trans (hcl (hxy ▸ hy)).symm) h2
    · rw [if_neg h1, if_pos h2] at hxy
      exact absurd (hxy.trans (hcl (hxy ▸ hx)).symm) h1
    · rwa [if_neg h1, if_neg h2] at hxy
  have hrec : g.recs o d "cum" = f.recs o d v := by
    rw [hg']
    simp only [Frame.recs, List.map_map, Function.comp_def, if_neg hoc, if_neg hdc, if_true]
  have hvals : (decumRecs (g.recs o o "cum")).map Rec.value =
      (decumRecs (f.recs o d v)).map Rec.value := by
    rw [← hrec]
    refine decumGo_values _ ?_
    simp [Frame.recs, List.map_map, Function.comp_def]
  have hkeys : (decumRecs (f.recs o d v)).map (fun r => (r.origin, r.dev)) =
      g.rows.map (fun r => ((r o).asInt, (r d).asInt)) := by
    rw [← recs_keys g o d "cum", hrec]; exact decumGo_keys _ _
  have hne : ("incr" : String) ≠ "cum" := by decide
  set w := g.setNum "incr" ((decumRecs (f.recs o d v)).map Rec.value) with hw
  refine ⟨(alloc (setAt (alloc h g).1 (alloc h g).2 w) ((w.drop "cum").rename "incr" v)).1,
    (alloc (setAt (alloc h g).1 (alloc h g).2 w) ((w.drop "cum").rename "incr" v)).2,
    ?_, ?_, ?_, ?_, ?_, ?_⟩
  · unfold decumH
    dsimp only
    rw [hf, ← hg, frameAt_alloc, if_neg (by simp [hgo, hgc]), if_neg (by simp [hcount]),
      hvals, frameAt_setAt (alloc_lt _ _)]
  · exact alloc_lt _ _
  · rw [frameAt_alloc]; exact mem_cols_swap _ hgo hoi hoc hne
  · rw [frameAt_alloc]; exact mem_cols_swap _ hgd hdi hdc hne
  · rw [frameAt_alloc]; exact mem_cols_swap_new _ hne
  · rw [frameAt_alloc]; exact recs_swap hkeys hne hov hdv hoi hdi

/-! ### totri -/

/-- `totri` once the intermediate table is known. -/
theorem totri_incr_eval {odd : Frame K → Bool → Except PyErr (Frame K)} {h h1 : Heap K} {r r1 : ℕ}
    {ty fmt shape o d v : String} (hp : prepH odd h r fmt shape o v = (h1, .ok r1))
    (hi : startsI ty.toList = true) (ho : o ∈ (frameAt h1 r1).cols)
    (hd : d ∈ (frameAt h1 r1).cols) (hv : v ∈ (frameAt h1 r1).cols) :
    (totri odd h r ty fmt shape o d v).2 =
      (totriIncr ((frameAt h1 r1).recs o d v)).map (fun t => ⟨false, t, o, d, v⟩) := by
  unfold totri
  rw [hp]
  dsimp only
  rw [if_pos hi]
  rw [baseInitH_eval] <;> rw [frameAt_alloc]
  · rfl
  all_goals assumption

theorem totri_cum_eval {odd : Frame K → Bool → Except PyErr (Frame K)} {h h1 : Heap K} {r r1 : ℕ}
    {ty fmt shape o d v : String} (hp : prepH odd h r fmt shape o v = (h1, .ok r1))
    (hi : startsI ty.toList = false) (hc : startsC ty.toList = true)
    (ho : o ∈ (frameAt h1 r1).cols) (hd : d ∈ (frameAt h1 r1).cols) (hv : v ∈ (frameAt h1 r1).cols)
    (hov : o ≠ v) (hdv : d ≠ v) (hoc : o ≠ "cumval") (hdc : d ≠ "cumval") (hvc : v ≠ "cumval") :
    (totri odd h r ty fmt shape o d v).2 =
      (totriCum ((frameAt h1 r1).recs o d v)).map (fun t => ⟨true, t, o, d, v⟩) := by
  unfold totri
  rw [hp]
  dsimp only
  rw [if_neg (by simp [hi]), if_pos hc]
  rw [cumInitH_eval (alloc_lt _ _) _ _ _ hov hdv hoc hdc hvc] <;> rw [frameAt_alloc]
  · rfl
  all_goals assumption

end

end Trikit
