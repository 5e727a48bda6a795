import Verif.FrameLemmas
import Verif.Props.RoundTrip

/-!
# `totri` as a function of arbitrary arguments: aliasing, argument strings, column names

C14 (the caller's data is untouched), C15 (which arguments are accepted), C16 (column names), C79 (the
constructors do touch it), C80 (names with triangle-shaped input), C81 (other columns of the table).
-/

set_option linter.unusedSectionVars false

namespace Trikit

variable {K : Type}

namespace Spec

/-- The first character of `s` is one of `a`. -/
def Begins (a : List Char) (s : String) : Prop := ∃ c ∈ a, ∃ rest, s.toList = c :: rest

/-- The first character of `s` after white space is one of `a`. -/
def BeginsTrimmed (a : List Char) (s : String) : Prop :=
  ∃ ws, (∀ w ∈ ws, pySpace w = true) ∧ ∃ c ∈ a, ∃ rest, s.toList = ws ++ c :: rest

/-- Asks for incremental. -/
abbrev iChars : List Char := ['i', 'I', 'İ']

/-- Asks for cumulative. -/
abbrev cChars : List Char := ['c', 'C']

/-- The three columns of one table hold the same cells as the three columns of another one. -/
def SameColumns (f g : Frame K) (o d v o' d' v' : String) : Prop :=
  List.Forall₂ (fun a b => a o = b o' ∧ a d = b d' ∧ a v = b v') f.rows g.rows

/-- A table whose three named columns exist and whose names do not collide with the working columns
`cumval` (`CumTriangle`) and `cum`, `incr` (cumulative input). -/
structure GoodTable (f : Frame K) (ty fmt o d v : String) : Prop where
  nodup : f.cols.Nodup
  ho : o ∈ f.cols
  hd : d ∈ f.cols
  hv : v ∈ f.cols
  hod : o ≠ d
  hov : o ≠ v
  hdv : d ≠ v
  cumval : ¬ Begins iChars ty → o ≠ "cumval" ∧ d ≠ "cumval" ∧ v ≠ "cumval"
  cum : BeginsTrimmed cChars fmt → ("cum" ∈ f.cols → v = "cum") ∧ o ≠ "incr" ∧ d ≠ "incr"

end Spec

theorem startsI_iff (s : String) : startsI s.toList = true ↔ Spec.Begins Spec.iChars s := by
  unfold Spec.Begins
  cases h : s.toList with
  | nil => simp [startsI]
  | cons c l => simp [startsI, or_assoc]

theorem startsC_iff (s : String) : startsC s.toList = true ↔ Spec.Begins Spec.cChars s := by
  unfold Spec.Begins
  cases h : s.toList with
  | nil => simp [startsC]
  | cons c l => simp [startsC]

theorem mem_takeWhile_imp' {p : Char → Bool} {l : List Char} {w : Char} (h : w ∈ l.takeWhile p) :
    p w = true := by
  induction l with
  | nil => simp at h
  | cons a l ih =>
    rw [List.takeWhile_cons] at h
    split at h
    · rcases List.mem_cons.1 h with rfl | h
      · assumption
      · exact ih h
    · simp at h

theorem dropWhile_head {a : List Char} (ha : ∀ c ∈ a, pySpace c = false) (l : List Char) :
    (∃ c ∈ a, ∃ rest, l.dropWhile pySpace = c :: rest) ↔
      ∃ ws, (∀ w ∈ ws, pySpace w = true) ∧ ∃ c ∈ a, ∃ rest, l = ws ++ c :: rest := by
  constructor
  · rintro ⟨c, hc, rest, h⟩
    refine ⟨l.takeWhile pySpace, fun w hw => ?_, c, hc, rest, ?_⟩
    · exact mem_takeWhile_imp' hw
    · rw [← h]; exact (List.takeWhile_append_dropWhile).symm
  · rintro ⟨ws, hws, c, hc, rest, rfl⟩
    refine ⟨c, hc, rest, ?_⟩
    rw [List.dropWhile_append_of_pos hws, List.dropWhile_cons_of_neg (by simp [ha c hc])]

theorem stripI_iff (s : String) : startsI (pyStripL s) = true ↔ Spec.BeginsTrimmed Spec.iChars s := by
  unfold Spec.BeginsTrimmed
  rw [← dropWhile_head (by decide)]
  unfold pyStripL
  cases s.toList.dropWhile pySpace with
  | nil => simp [startsI]
  | cons c l => simp [startsI, or_assoc]

theorem stripC_iff (s : String) : startsC (pyStripL s) = true ↔ Spec.BeginsTrimmed Spec.cChars s := by
  unfold Spec.BeginsTrimmed
  rw [← dropWhile_head (by decide)]
  unfold pyStripL
  cases s.toList.dropWhile pySpace with
  | nil => simp [startsC]
  | cons c l => simp [startsC]

theorem begins_disjoint {s : String} (hi : Spec.Begins Spec.iChars s) : ¬ Spec.Begins Spec.cChars s := by
  rintro ⟨c, hc, r, h⟩
  obtain ⟨b, hb, r', h'⟩ := hi
  rw [h] at h'
  simp only [List.cons.injEq] at h'
  rw [h'.1] at hc
  revert hb hc
  simp only [List.mem_cons, List.not_mem_nil, or_false]
  rintro (rfl | rfl | rfl) (h | h) <;> exact absurd h (by decide)

section
variable [Field K] [LinearOrder K]

theorem sameColumns_recs {f g : Frame K} {o d v o' d' v' : String}
    (h : Spec.SameColumns f g o d v o' d' v') : f.recs o d v = g.recs o' d' v' := by
  unfold Frame.recs Spec.SameColumns at *
  generalize f.rows = a at h ⊢
  generalize g.rows = b at h ⊢
  induction h with
  | nil => rfl
  | cons hab _ ih => simp only [List.map_cons, ih, hab.1, hab.2.1, hab.2.2]

theorem except_map_ok {α β : Type} {f : α → β} {z : Except PyErr α} {x : β} (h : z.map f = .ok x) :
    ∃ t, z = .ok t ∧ f t = x := by
  cases z with
  | error e => exact absurd h (by simp [Except.map])
  | ok t => exact ⟨t, rfl, by simpa [Except.map] using h⟩

/-- The records that `totri` turns into a triangle for tabular input. -/
noncomputable def Spec.input (fmt : String) (l : List (Rec K)) : List (Rec K) :=
  open Classical in if Spec.BeginsTrimmed Spec.cChars fmt then decumRecs l else l

theorem prepH_table {odd : Frame K → Bool → Except PyErr (Frame K)} {h : Heap K} {r : ℕ}
    {ty fmt o d v : String} (hg : Spec.GoodTable (frameAt h r) ty fmt o d v) :
    ∃ h1 r1, prepH odd h r fmt "tabular" o v = (h1, .ok r1) ∧
      o ∈ (frameAt h1 r1).cols ∧ d ∈ (frameAt h1 r1).cols ∧ v ∈ (frameAt h1 r1).cols ∧
      (frameAt h1 r1).recs o d v = Spec.input fmt ((frameAt h r).recs o d v) := by
  classical
  unfold prepH Spec.input
  rw [if_neg (by decide), if_pos rfl]
  by_cases hc : Spec.BeginsTrimmed Spec.cChars fmt
  · rw [if_pos ((stripC_iff fmt).2 hc), if_pos hc]
    obtain ⟨hcl, hoi, hdi⟩ := hg.cum hc
    obtain ⟨h', r', e, _, a, b, c, e2⟩ := decumH_eval (h := h) (r := r) (o := o) (d := d) (v := v)
      ⟨hg.ho, hg.hd, hg.hv, hg.nodup, hg.hov, hg.hdv, hcl, hoi, hdi⟩
    exact ⟨h', r', e, a, b, c, e2⟩
  · rw [if_neg (fun e => hc ((stripC_iff fmt).1 e)), if_neg hc]
    exact ⟨h, r, rfl, hg.ho, hg.hd, hg.hv, rfl⟩

/-- `totri` on a table, in terms of its records. -/
theorem totri_table {odd : Frame K → Bool → Except PyErr (Frame K)} {h : Heap K} {r : ℕ}
    {ty fmt o d v : String} (hg : Spec.GoodTable (frameAt h r) ty fmt o d v) :
    (Spec.Begins Spec.iChars ty → (totri odd h r ty fmt "tabular" o d v).2 =
      (totriIncr (Spec.input fmt ((frameAt h r).recs o d v))).map (fun t => ⟨false, t, o, d, v⟩)) ∧
    (Spec.Begins Spec.cChars ty → (totri odd h r ty fmt "tabular" o d v).2 =
      (totriCum (Spec.input fmt ((frameAt h r).recs o d v))).map (fun t => ⟨true, t, o, d, v⟩)) ∧
    (¬ Spec.Begins Spec.iChars ty → ¬ Spec.Begins Spec.cChars ty →
      (totri odd h r ty fmt "tabular" o d v).2 = .error .unboundLocalError) := by
  obtain ⟨h1, r1, hp, ho, hd, hv, hrec⟩ := prepH_table (odd := odd) hg
  refine ⟨fun hi => ?_, fun hc => ?_, fun hi hc => ?_⟩
  · rw [totri_incr_eval hp ((startsI_iff ty).2 hi) ho hd hv, hrec]
  · have hi : ¬ Spec.Begins Spec.iChars ty := fun hi => begins_disjoint hi hc
    obtain ⟨a, b, c⟩ := hg.cumval hi
    rw [totri_cum_eval hp (by simpa using fun e => hi ((startsI_iff ty).1 e)) ((startsC_iff ty).2 hc)
      ho hd hv hg.hov hg.hdv a b c, hrec]
  · unfold totri
    rw [hp]
    dsimp only
    rw [if_neg (fun e => hi ((startsI_iff ty).1 e)), if_neg (fun e => hc ((startsC_iff ty).1 e))]

theorem input_ne_nil {fmt : String} {l : List (Rec K)} (h : l ≠ []) : Spec.input fmt l ≠ [] := by
  unfold Spec.input
  split
  · exact decumGo_ne_nil h
  · exact h

theorem input_tame {fmt : String} {l : List (Rec K)} (h : TameRecs l) :
    TameRecs (Spec.input fmt l) := by
  unfold Spec.input
  split
  · exact decumGo_tame (by simp) h
  · exact h

/-! ### C14 -/

/-- **C14** `totri` leaves every object that existed before the call unchanged: the table (or triangle)
that was passed and everything else, for all arguments and whether or not the call raises. -/
theorem C14 (odd : Frame K → Bool → Except PyErr (Frame K)) (h : Heap K) (r : ℕ)
    (triType fmt shape o d v : String) (k : ℕ) (x : Obj K) (hx : h[k]? = some x) :
    (totri odd h r triType fmt shape o d v).1[k]? = some x := by
  rw [totri_keeps odd h r triType fmt shape o d v k (List.getElem?_eq_some_iff.1 hx).1, hx]

/-! ### C15 -/

/-- **C15** A returned triangle means that all arguments were admissible, and the kind of the triangle is
the one asked for. -/
theorem C15_sound (odd : Frame K → Bool → Except PyErr (Frame K)) (h : Heap K) (r : ℕ)
    (ty fmt shape o d v : String) (x : TriObj K)
    (hx : (totri odd h r ty fmt shape o d v).2 = .ok x) :
    (shape = "tabular" ∨ shape = "triangle" ∧
      (Spec.BeginsTrimmed Spec.iChars fmt ∨ Spec.BeginsTrimmed Spec.cChars fmt)) ∧
    (Spec.Begins Spec.iChars ty ∧ x.cum = false ∨ Spec.Begins Spec.cChars ty ∧ x.cum = true) ∧
    x.o = o ∧ x.d = d ∧ x.v = v := by
  have hprep : ∀ h1 e, prepH odd h r fmt shape o v = (h1, .error e) → False := by
    intro h1 e he
    unfold totri at hx
    rw [he] at hx
    exact absurd hx (by simp)
  refine ⟨?_, ?_⟩
  · by_cases h1 : shape = "triangle"
    · refine Or.inr ⟨h1, ?_⟩
      by_contra hn
      rw [not_or, ← stripI_iff, ← stripC_iff] at hn
      refine hprep h .nameError ?_
      unfold prepH
      rw [if_pos h1, if_neg hn.1, if_neg hn.2]
    · by_cases h2 : shape = "tabular"
      · exact Or.inl h2
      · refine (hprep h .nameError ?_).elim
        unfold prepH
        rw [if_neg h1, if_neg h2]
  · unfold totri at hx
    split at hx
    · exact absurd hx (by simp)
    · rename_i h1 r1 _
      dsimp only at hx
      split at hx
      · rename_i hi
        obtain ⟨t, _, rfl⟩ := except_map_ok hx
        exact ⟨Or.inl ⟨(startsI_iff ty).1 hi, rfl⟩, rfl, rfl, rfl⟩
      · split at hx
        · rename_i hc
          obtain ⟨t, _, rfl⟩ := except_map_ok hx
          exact ⟨Or.inr ⟨(startsC_iff ty).1 hc, rfl⟩, rfl, rfl, rfl⟩
        · exact absurd hx (by simp)

/-- **C15** Any other `data_shape` raises `NameError`, whatever the rest. -/
theorem C15_shape (odd : Frame K → Bool → Except PyErr (Frame K)) (h : Heap K) (r : ℕ)
    (ty fmt shape o d v : String) (h1 : shape ≠ "tabular") (h2 : shape ≠ "triangle") :
    (totri odd h r ty fmt shape o d v).2 = .error .nameError := by
  unfold totri prepH
  rw [if_neg h2, if_neg h1]

/-- **C15** Any other `data_format` raises `NameError` for triangle-shaped input. -/
theorem C15_format (odd : Frame K → Bool → Except PyErr (Frame K)) (h : Heap K) (r : ℕ)
    (ty fmt o d v : String) (h1 : ¬ Spec.BeginsTrimmed Spec.iChars fmt)
    (h2 : ¬ Spec.BeginsTrimmed Spec.cChars fmt) :
    (totri odd h r ty fmt "triangle" o d v).2 = .error .nameError := by
  rw [← stripI_iff] at h1
  rw [← stripC_iff] at h2
  unfold totri prepH
  rw [if_pos rfl, if_neg h1, if_neg h2]

/-- **C15** Any other `tri_type` raises `UnboundLocalError` (the local `tri` is never assigned): for
tables and for triangle-shaped input. -/
theorem C15_type (odd : Frame K → Bool → Except PyErr (Frame K)) (h : Heap K) (r : ℕ)
    (ty fmt o d v : String) (h1 : ¬ Spec.Begins Spec.iChars ty) (h2 : ¬ Spec.Begins Spec.cChars ty) :
    (Spec.GoodTable (frameAt h r) ty fmt o d v →
      (totri odd h r ty fmt "tabular" o d v).2 = .error .unboundLocalError) ∧
    (∀ t, h[r]? = some (.grid t) →
      (Spec.BeginsTrimmed Spec.iChars fmt ∨ Spec.BeginsTrimmed Spec.cChars fmt) →
      (totri odd h r ty fmt "triangle" o d v).2 = .error .unboundLocalError) := by
  refine ⟨fun hg => (totri_table hg).2.2 h1 h2, fun t ht hf => ?_⟩
  rw [← startsI_iff] at h1
  rw [← startsC_iff] at h2
  rw [← stripI_iff, ← stripC_iff] at hf
  unfold totri prepH
  rw [if_pos rfl, ht]
  by_cases hi : startsI (pyStripL fmt) = true
  · rw [if_pos hi]
    dsimp only
    rw [if_neg h1, if_neg h2]
  · rw [if_neg hi, if_pos (hf.resolve_left hi)]
    dsimp only
    rw [if_neg h1, if_neg h2]

/-- **C15** Admissible arguments are accepted: a non-empty table with the named columns always gives a
triangle of the kind asked for. -/
theorem C15_table (odd : Frame K → Bool → Except PyErr (Frame K)) (h : Heap K) (r : ℕ)
    (ty fmt o d v : String) (hg : Spec.GoodTable (frameAt h r) ty fmt o d v)
    (hne : (frameAt h r).rows ≠ []) (ht : ∀ row ∈ (frameAt h r).rows, (row v).asNum.Tame) :
    (Spec.Begins Spec.iChars ty →
      ∃ t, (totri odd h r ty fmt "tabular" o d v).2 = .ok ⟨false, t, o, d, v⟩) ∧
    (Spec.Begins Spec.cChars ty →
      ∃ t, (totri odd h r ty fmt "tabular" o d v).2 = .ok ⟨true, t, o, d, v⟩) := by
  have hne' : (frameAt h r).recs o d v ≠ [] := by simpa [Frame.recs] using hne
  have ht' : TameRecs ((frameAt h r).recs o d v) := by
    intro x hx
    obtain ⟨row, hrow, rfl⟩ := List.mem_map.1 hx
    exact ht row hrow
  refine ⟨fun hi => ?_, fun hc => ?_⟩
  · rw [(totri_table hg).1 hi]
    unfold totriIncr incrTri baseInit
    rw [if_neg (input_ne_nil hne')]
    exact ⟨_, rfl⟩
  · rw [(totri_table hg).2.1 hc]
    obtain ⟨t, e, _⟩ := totriCum_ok (input_ne_nil (fmt := fmt) hne') (input_tame ht')
    rw [e]
    exact ⟨t, rfl⟩

theorem recs_ofRecs {o d v : String} (hod : o ≠ d) (hov : o ≠ v) (hdv : d ≠ v) (l : List (Rec K)) :
    (Frame.ofRecs o d v l).recs o d v = l := by
  simp [Frame.recs, Frame.ofRecs, Function.comp_def, hod.symm, hov.symm, hdv.symm, Cell.asInt,
    Cell.asNum]

/-- The records of triangle-shaped input. -/
noncomputable def Spec.gridInput (fmt : String) (t : Tri K) : List (Rec K) :=
  open Classical in if Spec.BeginsTrimmed Spec.iChars fmt then meltIncr t else meltCum t

theorem prepH_grid {odd : Frame K → Bool → Except PyErr (Frame K)} {h : Heap K} {r : ℕ} {t : Tri K}
    {fmt : String} (o v : String) (ht : h[r]? = some (.grid t))
    (hf : Spec.BeginsTrimmed Spec.iChars fmt ∨ Spec.BeginsTrimmed Spec.cChars fmt) :
    prepH odd h r fmt "triangle" o v =
      ((alloc h (Frame.ofRecs "origin" "dev" "value" (Spec.gridInput fmt t))).1,
        .ok (alloc h (Frame.ofRecs "origin" "dev" "value" (Spec.gridInput fmt t))).2) := by
  unfold prepH Spec.gridInput
  rw [if_pos rfl, ht]
  by_cases hi : Spec.BeginsTrimmed Spec.iChars fmt
  · rw [if_pos ((stripI_iff fmt).2 hi), if_pos hi]
  · rw [if_neg (fun e => hi ((stripI_iff fmt).1 e)), if_pos ((stripC_iff fmt).2 (hf.resolve_left hi)),
      if_neg hi]

theorem mem_meltCol {x : Tri K} {s : Rec K} :
    s ∈ meltCol x ↔ ∃ i < x.nr, ∃ j < x.nc, s = ⟨x.oAt i, x.dAt j, x.cell i j⟩ := by
  simp only [meltCol, List.mem_flatMap, List.mem_map, List.mem_range]
  constructor
  · rintro ⟨j, hj, i, hi, rfl⟩; exact ⟨i, hi, j, hj, rfl⟩
  · rintro ⟨i, hi, j, hj, rfl⟩; exact ⟨j, hj, i, hi, rfl⟩

theorem mem_melt {x : Tri K} {s : Rec K} :
    s ∈ sortRecs (dropMissing (meltCol x)) ↔ s ∈ meltCol x ∧ s.value ≠ .nan := by
  rw [(sortRecs_perm _).mem_iff, dropMissing, List.mem_filter]
  refine and_congr_right fun _ => ?_
  cases s.value <;> simp [Num.isNaN]

theorem gridInput_ne_nil {fmt : String} {t : Tri K} {i : ℕ} (hi : i < t.nr) (hc : 0 < t.nc)
    (hn : t.cell i 0 ≠ .nan) : Spec.gridInput fmt t ≠ [] := by
  unfold Spec.gridInput
  split
  · exact List.ne_nil_of_mem (mem_melt.2 ⟨mem_meltCol.2 ⟨i, hi, 0, hc, rfl⟩, hn⟩)
  · exact List.ne_nil_of_mem (mem_melt.2 ⟨mem_meltCol.2 ⟨i, hi, 0, hc, rfl⟩, hn⟩)

theorem gridInput_tame {fmt : String} {t : Tri K} (h : ∀ i j, (t.cell i j).Tame) :
    TameRecs (Spec.gridInput fmt t) := by
  unfold Spec.gridInput
  split
  · intro s hs
    obtain ⟨i, _, j, _, rfl⟩ := mem_meltCol.1 (mem_melt.1 hs).1
    exact h i j
  · intro s hs
    obtain ⟨i, _, j, _, rfl⟩ := mem_meltCol.1 (mem_melt.1 hs).1
    cases j with
    | zero => exact h i 0
    | succ j => exact (h i (j + 1)).sub (h i j)

/-- `totri` on triangle-shaped input with the default names, in terms of its records. -/
theorem totri_grid {odd : Frame K → Bool → Except PyErr (Frame K)} {h : Heap K} {r : ℕ} {t : Tri K}
    {ty fmt : String} (ht : h[r]? = some (.grid t))
    (hf : Spec.BeginsTrimmed Spec.iChars fmt ∨ Spec.BeginsTrimmed Spec.cChars fmt) :
    (Spec.Begins Spec.iChars ty → (totri odd h r ty fmt "triangle" "origin" "dev" "value").2 =
      (totriIncr (Spec.gridInput fmt t)).map (fun t => ⟨false, t, "origin", "dev", "value"⟩)) ∧
    (Spec.Begins Spec.cChars ty → (totri odd h r ty fmt "triangle" "origin" "dev" "value").2 =
      (totriCum (Spec.gridInput fmt t)).map (fun t => ⟨true, t, "origin", "dev", "value"⟩)) := by
  have hp := prepH_grid (odd := odd) "origin" "value" ht hf
  have hr : (frameAt (alloc h (Frame.ofRecs "origin" "dev" "value" (Spec.gridInput fmt t))).1
      (alloc h (Frame.ofRecs "origin" "dev" "value" (Spec.gridInput fmt t))).2).recs
        "origin" "dev" "value" = Spec.gridInput fmt t := by
    rw [frameAt_alloc, recs_ofRecs (by decide) (by decide) (by decide)]
  refine ⟨fun hi => ?_, fun hc => ?_⟩
  · rw [totri_incr_eval hp ((startsI_iff ty).2 hi), hr] <;> rw [frameAt_alloc] <;>
      simp [Frame.ofRecs]
  · have hi : ¬ Spec.Begins Spec.iChars ty := fun hi => begins_disjoint hi hc
    rw [totri_cum_eval hp (by simpa using fun e => hi ((startsI_iff ty).1 e)) ((startsC_iff ty).2 hc)
      _ _ _ (by decide) (by decide) (by decide) (by decide) (by decide), hr] <;> rw [frameAt_alloc] <;>
      simp [Frame.ofRecs]

/-- **C15** Admissible arguments are accepted: triangle-shaped input with an observed first cell always
gives a triangle of the kind asked for (default column names). -/
theorem C15_grid (odd : Frame K → Bool → Except PyErr (Frame K)) (h : Heap K) (r : ℕ)
    (ty fmt : String) (t : Tri K) (ht : h[r]? = some (.grid t))
    (hf : Spec.BeginsTrimmed Spec.iChars fmt ∨ Spec.BeginsTrimmed Spec.cChars fmt)
    (hc : 0 < t.nc) (hn : ∃ i < t.nr, t.cell i 0 ≠ .nan) (htame : ∀ i j, (t.cell i j).Tame) :
    (Spec.Begins Spec.iChars ty → ∃ u, (totri odd h r ty fmt "triangle" "origin" "dev" "value").2 =
      .ok ⟨false, u, "origin", "dev", "value"⟩) ∧
    (Spec.Begins Spec.cChars ty → ∃ u, (totri odd h r ty fmt "triangle" "origin" "dev" "value").2 =
      .ok ⟨true, u, "origin", "dev", "value"⟩) := by
  obtain ⟨i, hi, hn⟩ := hn
  refine ⟨fun hty => ?_, fun hty => ?_⟩
  · rw [(totri_grid ht hf).1 hty]
    unfold totriIncr incrTri baseInit
    rw [if_neg (gridInput_ne_nil hi hc hn)]
    exact ⟨_, rfl⟩
  · rw [(totri_grid ht hf).2 hty]
    obtain ⟨u, e, _⟩ := totriCum_ok (gridInput_ne_nil (fmt := fmt) hi hc hn) (gridInput_tame htame)
    rw [e]
    exact ⟨u, rfl⟩

/-! ### C16 and C81 -/

/-- **C16** (partial) Renaming the three columns does not change the outcome of `totri`: the same cells,
or the same exception.  Missing: names that collide with the working columns `cumval`, `cum`, `incr`, and
the methods of the result, see `C16_fails`. -/
theorem C16_partial (odd odd' : Frame K → Bool → Except PyErr (Frame K)) (h h' : Heap K) (r r' : ℕ)
    (ty fmt o d v o' d' v' : String) (hg : Spec.GoodTable (frameAt h r) ty fmt o d v)
    (hg' : Spec.GoodTable (frameAt h' r') ty fmt o' d' v')
    (hs : Spec.SameColumns (frameAt h r) (frameAt h' r') o d v o' d' v') :
    (totri odd h r ty fmt "tabular" o d v).2.map TriObj.tri =
      (totri odd' h' r' ty fmt "tabular" o' d' v').2.map TriObj.tri := by
  have hrec := sameColumns_recs hs
  by_cases hi : Spec.Begins Spec.iChars ty
  · rw [(totri_table hg).1 hi, (totri_table hg').1 hi, hrec]
    cases totriIncr (Spec.input fmt ((frameAt h' r').recs o' d' v')) <;> rfl
  · by_cases hc : Spec.Begins Spec.cChars ty
    · rw [(totri_table hg).2.1 hc, (totri_table hg').2.1 hc, hrec]
      cases totriCum (Spec.input fmt ((frameAt h' r').recs o' d' v')) <;> rfl
    · rw [(totri_table hg).2.2 hi hc, (totri_table hg').2.2 hi hc]

/-- **C16** (partial) The name of the value column matters to neither `to_tbl` nor `latest`; with the
default origin name the name of the development column does not matter to `to_tbl`. -/
theorem C16_methods_partial (x y : TriObj K) (ht : x.tri = y.tri) (ho : x.o = y.o) :
    x.toTbl = y.toTbl ∧ (x.d = y.d → x.latest = y.latest) := by
  refine ⟨by unfold TriObj.toTbl; rw [ht, ho], fun hd => ?_⟩
  unfold TriObj.latest TriObj.toTbl
  rw [ht, ho, hd]

/-- With the default names `to_cum` is the accumulation of the triangle's own records. -/
theorem C16_toCum_default (x : TriObj K) (ho : x.o = "origin") (hd : x.d = "dev") (hv : x.v = "value") :
    x.toCum = x.tri.toCum := by
  unfold TriObj.toCum TriObj.toTbl Tri.toCum
  rw [if_pos ho, ho, hd, hv]
  show (cumInitH _ 0 _ _ _).2 = _
  have hf : frameAt [Obj.table (Frame.ofRecs "origin" "dev" "value" x.tri.toTbl)] 0 =
      Frame.ofRecs "origin" "dev" "value" x.tri.toTbl := rfl
  rw [cumInitH_eval (by simp) _ _ _ (by decide) (by decide) (by decide) (by decide) (by decide), hf,
    recs_ofRecs (by decide) (by decide) (by decide)] <;> rw [hf] <;> simp [Frame.ofRecs]

/-- **C81** (partial) Further columns of the table do not matter.  Missing: a further column named `cum`
when the input is cumulative, see `C81_fails`. -/
theorem C81_partial (odd odd' : Frame K → Bool → Except PyErr (Frame K)) (h h' : Heap K) (r r' : ℕ)
    (ty fmt o d v : String) (hg : Spec.GoodTable (frameAt h r) ty fmt o d v)
    (hg' : Spec.GoodTable (frameAt h' r') ty fmt o d v)
    (hs : Spec.SameColumns (frameAt h r) (frameAt h' r') o d v o d v) :
    (totri odd h r ty fmt "tabular" o d v).2 = (totri odd' h' r' ty fmt "tabular" o d v).2 := by
  have hrec := sameColumns_recs hs
  by_cases hi : Spec.Begins Spec.iChars ty
  · rw [(totri_table hg).1 hi, (totri_table hg').1 hi, hrec]
  · by_cases hc : Spec.Begins Spec.cChars ty
    · rw [(totri_table hg).2.1 hc, (totri_table hg').2.1 hc, hrec]
    · rw [(totri_table hg).2.2 hi hc, (totri_table hg').2.2 hi hc]

/-! ### C79 -/

theorem frameAt_congr {G H : Heap K} {r : ℕ} (h : H[r]? = G[r]?) : frameAt H r = frameAt G r := by
  unfold frameAt; rw [h]

theorem forall2_zip {α β γ : Type} {P : α → γ → Prop} {g : α → β → γ} {f : α → β} (l : List α)
    (h : ∀ a ∈ l, P a (g a (f a))) : List.Forall₂ P l (List.zipWith g l (l.map f)) := by
  induction l with
  | nil => exact .nil
  | cons a l ih => exact .cons (h a (by simp)) (ih fun b hb => h b (by simp [hb]))

/-- **C79** (partial) What building an incremental triangle does to the caller's table: columns and row
count stay, and so do all cells except values at or below zero in the first development period, which
are overwritten by 1. -/
theorem C79_incr_partial (h : Heap K) (r : ℕ) (o d v : String) (t : Tri K) (hr : r < h.length)
    (hok : (baseInitH h r o d v).2 = .ok t) :
    (frameAt (baseInitH h r o d v).1 r).cols = (frameAt h r).cols ∧
    List.Forall₂ (fun a b => (∀ c, c ≠ v → b c = a c) ∧
        ((b v).asNum = (a v).asNum ∨ (b v).asNum = 1 ∧ Num.le (a v).asNum 0 = true ∧
          ∀ row ∈ (frameAt h r).rows, (a d).asInt ≤ (row d).asInt))
      (frameAt h r).rows (frameAt (baseInitH h r o d v).1 r).rows := by
  unfold baseInitH at hok ⊢
  dsimp only at hok ⊢
  generalize hf : frameAt h r = f at *
  split at hok
  · exact absurd hok (by simp)
  · rename_i hcols
    rw [if_neg hcols]
    split at hok
    · exact absurd hok (by simp)
    · rename_i hne
      rw [if_neg hne, frameAt_setAt hr]
      have hv : v ∈ f.cols := by
        by_contra hn; exact hcols (Or.inr (Or.inr hn))
      refine ⟨by simp [Frame.setNum, hv], ?_⟩
      obtain ⟨m, hm⟩ := exists_min hne
      have hvals : (negHandler (f.recs o d v)).map Rec.value = f.rows.map (fun a =>
          (floorRec m (⟨(a o).asInt, (a d).asInt, (a v).asNum⟩ : Rec K)).value) := by
        rw [negHandler_eq hm]
        simp [Frame.recs, List.map_map, Function.comp_def]
      rw [hvals]
      refine forall2_zip _ fun a ha => ⟨fun c hc => by simp [hc], ?_⟩
      by_cases hcond : (a d).asInt = m ∧ Num.le (a v).asNum 0 = true
      · refine Or.inr ⟨?_, hcond.2, fun row hrow => ?_⟩
        · beta_reduce
          rw [if_pos rfl]
          show (floorRec m _).value = 1
          unfold floorRec
          rw [if_pos hcond]
        rw [hcond.1]
        exact (min_spec hm).2 ⟨(row o).asInt, (row d).asInt, (row v).asNum⟩
          (List.mem_map.2 ⟨row, hrow, rfl⟩)
      · refine Or.inl ?_
        beta_reduce
        rw [if_pos rfl]
        show (floorRec m _).value = _
        unfold floorRec
        rw [if_neg hcond]

/-- **C79** (partial) What building a cumulative triangle does to the caller's table: every column other
than `cumval` is left alone. -/
theorem C79_cum_partial (h : Heap K) (r : ℕ) (o d v : String) (hr : r < h.length) :
    (∀ c, c ≠ "cumval" → (c ∈ (frameAt (cumInitH h r o d v).1 r).cols ↔ c ∈ (frameAt h r).cols)) ∧
    List.Forall₂ (fun a b => ∀ c, c ≠ "cumval" → b c = a c)
      (frameAt h r).rows (frameAt (cumInitH h r o d v).1 r).rows := by
  by_cases hcols : o ∉ (frameAt h r).cols ∨ v ∉ (frameAt h r).cols
  · have : (cumInitH h r o d v).1 = h := by
      unfold cumInitH; dsimp only; rw [if_pos hcols]
    rw [this]
    exact ⟨fun c _ => Iff.rfl, List.forall₂_same.2 fun a _ c _ => rfl⟩
  · have key : frameAt (cumInitH h r o d v).1 r =
        (frameAt h r).setNum "cumval" ((cumRecs ((frameAt h r).recs o d v)).map Rec.value) := by
      unfold cumInitH
      dsimp only
      rw [if_neg hcols]
      set w := (frameAt h r).setNum "cumval" ((cumRecs ((frameAt h r).recs o d v)).map Rec.value)
      have hl : (setAt h r w).length = h.length := by simp [setAt]
      have h1 : Keeps (setAt h r w) (baseInitH (alloc (setAt h r w)
          (((frameAt (setAt h r w) r).drop v).rename "cumval" v)).1
          (alloc (setAt h r w) (((frameAt (setAt h r w) r).drop v).rename "cumval" v)).2 o d v).1 :=
        baseInitH_keeps o d v (keeps_alloc _ _) (le_refl _)
      have h2 := h1 r (by omega)
      exact (frameAt_congr h2).trans (frameAt_setAt hr w)
    rw [key]
    generalize hf : frameAt h r = f at *
    refine ⟨fun c hc => ?_, ?_⟩
    · simp only [Frame.setNum]
      split <;> simp [hc]
    · have hlen : ((cumRecs (f.recs o d v)).map Rec.value).length = f.rows.length := by
        rw [List.length_map, (cumRecs_sameKeys _).length]; simp [Frame.recs]
      simp only [Frame.setNum]
      generalize (cumRecs (f.recs o d v)).map Rec.value = vals at hlen
      generalize f.rows = rows at hlen
      induction rows generalizing vals with
      | nil => exact .nil
      | cons a rows ih => cases vals with
        | nil => simp at hlen
        | cons x vals =>
          exact .cons (fun c hc => by simp [hc]) (ih vals (by simpa using hlen))

/-! ### C80 -/

/-- **C80** (partial) With triangle-shaped input, a name that is not one of the three default names makes
every call raise.  (The documentation says the names are ignored, see `C80_fails`; with the default names
the call succeeds, `C15_grid`.) -/
theorem C80_partial (odd : Frame K → Bool → Except PyErr (Frame K)) (h : Heap K) (r : ℕ)
    (ty fmt o d v : String) (t : Tri K) (ht : h[r]? = some (.grid t))
    (hn : o ∉ ["origin", "dev", "value"] ∨ d ∉ ["origin", "dev", "value"] ∨
      v ∉ ["origin", "dev", "value"]) :
    ∃ e, (totri odd h r ty fmt "triangle" o d v).2 = .error e := by
  by_cases hf : Spec.BeginsTrimmed Spec.iChars fmt ∨ Spec.BeginsTrimmed Spec.cChars fmt
  · unfold totri
    rw [prepH_grid o v ht hf]
    dsimp only
    rw [frameAt_alloc]
    set f := Frame.ofRecs "origin" "dev" "value" (Spec.gridInput fmt t)
    have hcols : f.cols = ["origin", "dev", "value"] := rfl
    split
    · refine ⟨.attributeError, ?_⟩
      unfold baseInitH
      dsimp only
      rw [frameAt_alloc, hcols, if_pos hn]
      rfl
    · split
      · by_cases hov : o ∉ f.cols ∨ v ∉ f.cols
        · refine ⟨.keyError, ?_⟩
          unfold cumInitH
          dsimp only
          rw [frameAt_alloc, if_pos hov]
          rfl
        · refine ⟨.attributeError, ?_⟩
          have hd : d ∉ f.cols := by
            rw [hcols] at hov ⊢
            rcases hn with hn | hn | hn
            · exact absurd (Or.inl hn) hov
            · exact hn
            · exact absurd (Or.inr hn) hov
          unfold cumInitH
          dsimp only
          rw [frameAt_alloc, if_neg hov, frameAt_setAt (alloc_lt _ _)]
          unfold baseInitH
          dsimp only
          rw [frameAt_alloc, if_pos]
          · rfl
          · refine Or.inr (Or.inl ?_)
            have hdv : d ≠ v := by
              rintro rfl; exact hov (Or.inr hd)
            unfold Frame.rename
            split
            · simp only [Frame.drop, Frame.setNum, List.mem_map, not_exists, not_and]
              intro c hc e
              split at e
              · exact hdv e.symm
              · rename_i hcv
                subst e
                rw [List.mem_filter] at hc
                have h1 := hc.1
                split at h1
                · exact hd h1
                · rcases List.mem_append.1 h1 with h1 | h1
                  · exact hd h1
                  · exact hcv (List.mem_singleton.1 h1)
            · rename_i hno
              intro hd'
              simp only [Frame.drop, Frame.setNum, List.mem_filter] at hd'
              have h1 := hd'.1
              split at h1
              · exact hd h1
              · rcases List.mem_append.1 h1 with h1 | h1
                · exact hd h1
                · rw [List.mem_singleton.1 h1] at hd'
                  exact hno (List.mem_filter.2 hd')
      · exact ⟨_, rfl⟩
  · rw [not_or] at hf
    exact ⟨_, C15_format odd h r ty fmt o d v hf.1 hf.2⟩

end

/-! ### Witnesses and concrete cases -/

/-- A table over ℚ. -/
def exFrame (o d v : String) : Frame ℚ :=
  Frame.ofRecs o d v [⟨2001, 1, .fin (-5)⟩, ⟨2001, 2, .fin 7⟩, ⟨2002, 1, .fin 4⟩]

/-- Placeholder for tables passed as triangles. -/
def exOdd : Frame ℚ → Bool → Except PyErr (Frame ℚ) := fun _ _ => .error .keyError

/-- The exception of a call. -/
def errOf {α : Type} : Except PyErr α → Option PyErr
  | .error e => some e
  | .ok _ => none

/-- A triangle-shaped frame over ℚ. -/
def exGrid : Tri ℚ :=
  ⟨[2001, 2002], [1, 2], fun i j => if i = 0 then (if j = 0 then .fin 3 else .fin 7) else
    (if j = 0 then .fin 4 else .nan)⟩

/-- **C16** fails: with the origin column called `yr` the triangle is built but neither `latest` nor
`to_tbl` works; with a value column called `loss` they work but `to_cum` raises; with the default names
everything works. -/
theorem C16_fails :
    ((totri exOdd [.table (exFrame "yr" "dev" "value")] 0 "incr" "incr" "tabular" "yr" "dev" "value").2.bind
        TriObj.latest = .error .keyError ∧
      errOf (totri exOdd [.table (exFrame "yr" "dev" "value")] 0 "incr" "incr" "tabular"
        "yr" "dev" "value").2 = none) ∧
    ((totri exOdd [.table (exFrame "origin" "dev" "loss")] 0 "incr" "incr" "tabular"
        "origin" "dev" "loss").2.bind TriObj.latest =
          .ok [⟨2001, 2, .fin 7⟩, ⟨2002, 1, .fin 4⟩] ∧
      errOf ((totri exOdd [.table (exFrame "origin" "dev" "loss")] 0 "incr" "incr" "tabular"
        "origin" "dev" "loss").2.bind TriObj.toCum) = some .keyError) ∧
    ((totri exOdd [.table (exFrame "origin" "dev" "value")] 0 "incr" "incr" "tabular"
        "origin" "dev" "value").2.bind TriObj.latest =
          .ok [⟨2001, 2, .fin 7⟩, ⟨2002, 1, .fin 4⟩] ∧
      errOf ((totri exOdd [.table (exFrame "origin" "dev" "value")] 0 "incr" "incr" "tabular"
        "origin" "dev" "value").2.bind TriObj.toCum) = none) := by
  decide +kernel

/-- **C16** fails for cells too: a value column called `cumval` cannot be used for a cumulative
triangle. -/
theorem C16_cumval_fails :
    errOf (totri exOdd [.table (exFrame "origin" "dev" "cumval")] 0 "cum" "incr" "tabular"
      "origin" "dev" "cumval").2 = some .attributeError := by
  decide +kernel

/-- **C79** fails: both constructors change the caller's table. -/
theorem C79_fails :
    (∃ (h : Heap ℚ) (t : Tri ℚ), (baseInitH h 0 "origin" "dev" "value").2 = .ok t ∧
      (frameAt (baseInitH h 0 "origin" "dev" "value").1 0).recs "origin" "dev" "value" ≠
        (frameAt h 0).recs "origin" "dev" "value") ∧
    (∃ (h : Heap ℚ) (t : Tri ℚ), (cumInitH h 0 "origin" "dev" "value").2 = .ok t ∧
      (frameAt (cumInitH h 0 "origin" "dev" "value").1 0).cols ≠ (frameAt h 0).cols) := by
  refine ⟨⟨[.table (exFrame "origin" "dev" "value")], _, rfl, ?_⟩,
    ⟨[.table (exFrame "origin" "dev" "value")], _, rfl, ?_⟩⟩ <;> decide +kernel

/-- **C80** fails: names documented as ignored make `totri` raise, and swapping two default names
transposes the triangle. -/
theorem C80_fails :
    errOf (totri exOdd [.grid exGrid] 0 "cum" "incr" "triangle" "year" "dev" "value").2 =
      some .keyError ∧
    errOf (totri exOdd [.grid exGrid] 0 "incr" "incr" "triangle" "year" "dev" "value").2 =
      some .attributeError ∧
    (totri exOdd [.grid exGrid] 0 "incr" "incr" "triangle" "dev" "origin" "value").2.map
      (fun x => x.tri.toTbl) = .ok [⟨1, 2001, .fin 3⟩, ⟨1, 2002, .fin 4⟩, ⟨2, 2001, .fin 7⟩] ∧
    (totri exOdd [.grid exGrid] 0 "incr" "incr" "triangle" "origin" "dev" "value").2.map
      (fun x => x.tri.toTbl) = .ok [⟨2001, 1, .fin 3⟩, ⟨2001, 2, .fin 7⟩, ⟨2002, 1, .fin 4⟩] := by
  decide +kernel

/-- **C81** fails: a further column `cum` next to a cumulative value column makes `totri` raise. -/
theorem C81_fails :
    errOf (totri exOdd [.table ((exFrame "origin" "dev" "value").setNum "cum" [.fin 1, .fin 2, .fin 3])] 0
      "incr" "cum" "tabular" "origin" "dev" "value").2 = some .valueError ∧
    errOf (totri exOdd [.table (exFrame "origin" "dev" "value")] 0
      "incr" "cum" "tabular" "origin" "dev" "value").2 = none := by
  decide +kernel

/-- C14 on a table whose first value is negative: the copy is floored, the original is not. -/
example :
    let z := totri exOdd [.table (exFrame "origin" "dev" "value")] 0 "incr" "incr" "tabular"
      "origin" "dev" "value"
    (frameAt z.1 0).recs "origin" "dev" "value" =
      [⟨2001, 1, .fin (-5)⟩, ⟨2001, 2, .fin 7⟩, ⟨2002, 1, .fin 4⟩] ∧
    (frameAt z.1 1).recs "origin" "dev" "value" =
      [⟨2001, 1, .fin 1⟩, ⟨2001, 2, .fin 7⟩, ⟨2002, 1, .fin 4⟩] := by
  decide +kernel

/-- C15: blanks and case in `data_format`, no blanks in `tri_type`. -/
example :
    errOf (totri exOdd [.grid exGrid] 0 "Cumulative" "  INCR" "triangle" "origin" "dev" "value").2 = none ∧
    errOf (totri exOdd [.grid exGrid] 0 " cum" "incr" "triangle" "origin" "dev" "value").2 =
      some .unboundLocalError ∧
    errOf (totri exOdd [.grid exGrid] 0 "cum" "paid" "triangle" "origin" "dev" "value").2 =
      some .nameError ∧
    errOf (totri exOdd [.table (exFrame "a" "b" "c")] 0 "cum" "paid" "tabular" "a" "b" "c").2 = none ∧
    errOf (totri exOdd [.table (exFrame "a" "b" "c")] 0 "cum" "incr" "Tabular" "a" "b" "c").2 =
      some .nameError := by
  decide +kernel

/-- The hypotheses of C15, C16, C81 hold for a table with unusual names. -/
example : Spec.GoodTable (exFrame "yr" "age" "loss") "cum" " Cum" "yr" "age" "loss" :=
  ⟨by decide, by decide, by decide, by decide, by decide, by decide, by decide,
    fun _ => by decide, fun _ => by decide⟩

/-- C16 on two namings of a cumulative table. -/
example :
    (totri exOdd [.table (exFrame "yr" "age" "loss")] 0 "cum" "cum" "tabular" "yr" "age" "loss").2.map
      (fun x => x.tri.toTbl) =
    (totri exOdd [.table (exFrame "origin" "dev" "value")] 0 "cum" "cum" "tabular"
      "origin" "dev" "value").2.map (fun x => x.tri.toTbl) := by
  decide +kernel

end Trikit
