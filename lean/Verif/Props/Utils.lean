import Verif.Utils
import Verif.Props.Frame

/-!
# Sample data and axis ticks

C67 (`load_lrdb`), C68 (`get_datasets`, `load`), C69 (axis ticks), C82 (`get_lrdb_lobs`,
`get_lrdb_specs`).
-/

set_option linter.unusedSectionVars false

namespace Trikit

variable {K : Type}

namespace Spec

/-- The row agrees with every filter that is given. -/
def fits (lob : Option String) (grcode : Option Int) (grname : Option String) (r : LrdbRow K) : Bool :=
  lob.all (fun a => decide (r.lossKey = a)) && grcode.all (fun a => decide (r.grcode = a)) &&
    grname.all (fun a => decide (r.grname = a))

/-- The amount asked for. -/
def amount (incurred : Bool) (r : LrdbRow K) : Rec K :=
  ⟨r.origin, r.dev, if incurred then r.incrd else r.paid⟩

/-- The rows asked for. -/
def wanted (incurred : Bool) (lob : Option String) (grcode : Option Int) (grname : Option String)
    (trainOnly : Bool) (rows : List (LrdbRow K)) : List (Rec K) :=
  (rows.filter (fun r => fits lob grcode grname r && (!trainOnly || decide (r.train = 1)))).map
    (amount incurred)

end Spec

theorem beginsWith_iff (c : Char) (s : String) : beginsWith c s = true ↔ Spec.Begins [c] s := by
  unfold beginsWith Spec.Begins
  cases s.toList with
  | nil => simp
  | cons a l => simp

section
variable [Field K] [LinearOrder K]

theorem lrdbFilter_eq {α : Type} [DecidableEq α] (key : LrdbRow K → α) (x : Option α)
    (rows : List (LrdbRow K)) :
    lrdbFilter key x rows = if x = none ∨ ∃ r ∈ rows, x.all (fun a => decide (key r = a)) = true
      then .ok (rows.filter (fun r => x.all (fun a => decide (key r = a)))) else .error .valueError := by
  cases x with
  | none => simp [lrdbFilter]
  | some a =>
    unfold lrdbFilter
    simp only [Option.all_some, reduceCtorEq, false_or, decide_eq_true_eq, List.mem_map]

/-- The default table is good. -/
theorem goodTable_default (l : List (Rec K)) (ty : String) :
    Spec.GoodTable (Frame.ofRecs "origin" "dev" "value" l) ty "incr" "origin" "dev" "value" :=
  ⟨by simp [Frame.ofRecs], by simp [Frame.ofRecs], by simp [Frame.ofRecs], by simp [Frame.ofRecs], by decide, by decide,
    by decide, fun _ => by decide, fun _ => ⟨by simp [Frame.ofRecs], by decide, by decide⟩⟩

theorem not_cum_incr : ¬ Spec.BeginsTrimmed Spec.cChars "incr" := by
  rw [← stripC_iff]; decide

theorem asLoaded_some (l : List (Rec K)) (ty : String) :
    (Spec.Begins ['i'] ty → asLoaded l (some ty) =
      (totriIncr l).map (fun t => .tri ⟨false, t, "origin", "dev", "value"⟩)) ∧
    (Spec.Begins ['c'] ty → asLoaded l (some ty) =
      (totriCum l).map (fun t => .tri ⟨true, t, "origin", "dev", "value"⟩)) ∧
    (¬ Spec.Begins ['i'] ty → ¬ Spec.Begins ['c'] ty → asLoaded l (some ty) = .error .valueError) := by
  have hin : Spec.input "incr" ((Frame.ofRecs "origin" "dev" "value" l).recs "origin" "dev" "value") =
      l := by
    unfold Spec.input
    rw [if_neg not_cum_incr, recs_ofRecs (by decide) (by decide) (by decide)]
  have ht := totri_table (odd := fun _ _ => .error .keyError)
    (h := [.table (Frame.ofRecs "origin" "dev" "value" l)]) (r := 0) (goodTable_default l ty)
  have hf : frameAt [Obj.table (Frame.ofRecs "origin" "dev" "value" l)] 0 =
    Frame.ofRecs "origin" "dev" "value" l := rfl
  rw [hf, hin] at ht
  refine ⟨fun hi => ?_, fun hc => ?_, fun hi hc => ?_⟩
  · unfold asLoaded
    dsimp only
    rw [if_pos (by simp [(beginsWith_iff 'i' ty).2 hi]), ht.1]
    · cases totriIncr l <;> rfl
    · obtain ⟨c, hc, rest, e⟩ := hi
      exact ⟨c, by simp_all, rest, e⟩
  · unfold asLoaded
    dsimp only
    rw [if_pos (by simp [(beginsWith_iff 'c' ty).2 hc]), ht.2.1]
    · cases totriCum l <;> rfl
    · obtain ⟨c, hc, rest, e⟩ := hc
      exact ⟨c, by simp_all, rest, e⟩
  · unfold asLoaded
    dsimp only
    rw [← beginsWith_iff] at hi hc
    rw [if_neg (by simp [hi, hc])]

/-- `load_lrdb` in one formula. -/
theorem loadLrdb_eq (rows : List (LrdbRow K)) (ty : Option String) (lt : String) (lob : Option String)
    (gc : Option Int) (gn : Option String) (tr : Bool) :
    loadLrdb rows ty lt lob gc gn tr =
      if (beginsWith 'p' lt || beginsWith 'i' lt) = true ∧
          ((lob = none ∧ gc = none ∧ gn = none) ∨ ∃ r ∈ rows, Spec.fits lob gc gn r = true) then
        asLoaded (Spec.wanted (beginsWith 'i' lt) lob gc gn tr rows) ty
      else .error .valueError := by
  unfold loadLrdb
  by_cases hv : (beginsWith 'p' lt || beginsWith 'i' lt) = true
  · rw [if_neg (by simp only [hv]; decide)]
    simp only [hv, true_and]
    rw [lrdbFilter_eq]
    by_cases h1 : lob = none ∨ ∃ r ∈ rows, lob.all (fun a => decide (r.lossKey = a)) = true
    · rw [if_pos h1]
      simp only [bind, Except.bind]
      rw [lrdbFilter_eq]
      by_cases h2 : gc = none ∨ ∃ r ∈ rows.filter (fun r => lob.all (fun a => decide (r.lossKey = a))),
          gc.all (fun a => decide (r.grcode = a)) = true
      · rw [if_pos h2]
        simp only
        rw [lrdbFilter_eq]
        by_cases h3 : gn = none ∨ ∃ r ∈ (rows.filter (fun r => lob.all (fun a => decide (r.lossKey = a)))).filter
            (fun r => gc.all (fun a => decide (r.grcode = a))), gn.all (fun a => decide (r.grname = a)) = true
        · rw [if_pos h3, if_pos]
          · simp only [Spec.wanted]
            congr 1
            cases tr with
            | true =>
              simp only [if_true, List.filter_filter, Bool.not_true, Bool.false_or]
              congr 1
              refine List.filter_congr fun r _ => ?_
              unfold Spec.fits
              cases lob.all (fun a => decide (r.lossKey = a)) <;>
                cases gc.all (fun a => decide (r.grcode = a)) <;>
                cases gn.all (fun a => decide (r.grname = a)) <;> cases decide (r.train = 1) <;> rfl
            | false =>
              simp only [Bool.false_eq_true, if_false, List.filter_filter, Bool.not_false, Bool.true_or,
                Bool.and_true]
              congr 1
              refine List.filter_congr fun r _ => ?_
              unfold Spec.fits
              cases lob.all (fun a => decide (r.lossKey = a)) <;>
                cases gc.all (fun a => decide (r.grcode = a)) <;>
                cases gn.all (fun a => decide (r.grname = a)) <;> rfl
          · by_cases hn : gn = none
            · by_cases hg : gc = none
              · by_cases hl : lob = none
                · exact Or.inl ⟨hl, hg, hn⟩
                · obtain ⟨r, hr, e⟩ := h1.resolve_left hl
                  exact Or.inr ⟨r, hr, by simp [Spec.fits, e, hg, hn]⟩
              · obtain ⟨r, hr, e⟩ := h2.resolve_left hg
                rw [List.mem_filter] at hr
                exact Or.inr ⟨r, hr.1, by simp [Spec.fits, hr.2, e, hn]⟩
            · obtain ⟨r, hr, e⟩ := h3.resolve_left hn
              rw [List.mem_filter, List.mem_filter] at hr
              exact Or.inr ⟨r, hr.1.1, by simp [Spec.fits, hr.1.2, hr.2, e]⟩
        · rw [if_neg h3, if_neg]
          rintro (⟨_, _, h⟩ | ⟨r, hr, e⟩)
          · exact h3 (Or.inl h)
          · simp only [Spec.fits, Bool.and_eq_true] at e
            exact h3 (Or.inr ⟨r, List.mem_filter.2 ⟨List.mem_filter.2 ⟨hr, e.1.1⟩, e.1.2⟩, e.2⟩)
      · rw [if_neg h2, if_neg]
        rintro (⟨_, h, _⟩ | ⟨r, hr, e⟩)
        · exact h2 (Or.inl h)
        · simp only [Spec.fits, Bool.and_eq_true] at e
          exact h2 (Or.inr ⟨r, List.mem_filter.2 ⟨hr, e.1.1⟩, e.1.2⟩)
    · rw [if_neg h1, if_neg]
      · rfl
      rintro (⟨h, _, _⟩ | ⟨r, hr, e⟩)
      · exact h1 (Or.inl h)
      · simp only [Spec.fits, Bool.and_eq_true] at e
        exact h1 (Or.inr ⟨r, hr, e.1.1⟩)
  · rw [if_pos (by simpa using hv), if_neg (fun h => hv h.1)]

/-- **C67** Without `tri_type`: the rows agreeing with all given filters, in file order, with the column
chosen by `loss_type`; `ValueError` exactly when `loss_type` starts with neither `p` nor `i` or some filter
is given and no row agrees with all given ones. -/
theorem C67_table (rows : List (LrdbRow K)) (lt : String) (lob : Option String)
    (gc : Option Int) (gn : Option String) (tr : Bool) :
    ((Spec.Begins ['p', 'i'] lt ∧
        ((lob = none ∧ gc = none ∧ gn = none) ∨ ∃ r ∈ rows, Spec.fits lob gc gn r = true)) →
      ∃ inc : Bool, (inc = true ↔ Spec.Begins ['i'] lt) ∧
        loadLrdb rows none lt lob gc gn tr = .ok (.table (Spec.wanted inc lob gc gn tr rows))) ∧
    (¬ (Spec.Begins ['p', 'i'] lt ∧
        ((lob = none ∧ gc = none ∧ gn = none) ∨ ∃ r ∈ rows, Spec.fits lob gc gn r = true)) →
      ∀ ty, loadLrdb rows ty lt lob gc gn tr = .error .valueError) := by
  have hlt : (beginsWith 'p' lt || beginsWith 'i' lt) = true ↔ Spec.Begins ['p', 'i'] lt := by
    rw [Bool.or_eq_true, beginsWith_iff, beginsWith_iff]
    unfold Spec.Begins
    simp
  refine ⟨fun h => ⟨beginsWith 'i' lt, beginsWith_iff 'i' lt, ?_⟩, fun h ty => ?_⟩
  · rw [loadLrdb_eq, if_pos ⟨hlt.2 h.1, h.2⟩]
    rfl
  · rw [loadLrdb_eq, if_neg (fun e => h ⟨hlt.1 e.1, e.2⟩)]

/-- **C67** With `tri_type`: the triangle of the requested kind built from those rows, `ValueError` for a
`tri_type` starting with neither `c` nor `i`. -/
theorem C67_triangle (rows : List (LrdbRow K)) (ty lt : String) (lob : Option String)
    (gc : Option Int) (gn : Option String) (tr : Bool) (l : List (Rec K))
    (h : loadLrdb rows none lt lob gc gn tr = .ok (.table l)) :
    (Spec.Begins ['i'] ty → loadLrdb rows (some ty) lt lob gc gn tr =
      (totriIncr l).map (fun t => .tri ⟨false, t, "origin", "dev", "value"⟩)) ∧
    (Spec.Begins ['c'] ty → loadLrdb rows (some ty) lt lob gc gn tr =
      (totriCum l).map (fun t => .tri ⟨true, t, "origin", "dev", "value"⟩)) ∧
    (¬ Spec.Begins ['i'] ty → ¬ Spec.Begins ['c'] ty →
      loadLrdb rows (some ty) lt lob gc gn tr = .error .valueError) := by
  rw [loadLrdb_eq] at h ⊢
  split at h
  · rename_i hc
    simp only [asLoaded, Except.ok.injEq, Loaded.table.injEq] at h
    rw [if_pos hc, h]
    exact asLoaded_some l ty
  · exact absurd h (by simp)

/-! ### C68 -/

theorem lookup_isSome {ρ : Type} (reg : List (String × ρ)) (k : String) :
    (∃ f, reg.lookup k = some f ∧ (k, f) ∈ reg) ∨ (reg.lookup k = none ∧ k ∉ reg.map Prod.fst) := by
  induction reg with
  | nil => exact Or.inr ⟨rfl, by simp⟩
  | cons p reg ih =>
    obtain ⟨a, f⟩ := p
    by_cases hk : k = a
    · exact Or.inl ⟨f, by simp [List.lookup, hk], by simp [hk]⟩
    · have hb : (k == a) = false := by simpa using hk
      rcases ih with ⟨g, h1, h2⟩ | ⟨h1, h2⟩
      · exact Or.inl ⟨g, by simp [List.lookup, hb, h1], by simp [h2]⟩
      · exact Or.inr ⟨by simp [List.lookup, hb, h1], by simp [hk, h2]⟩

/-- **C68** `get_datasets` lists every name but the loss reserving database once, in alphabetical order. -/
theorem C68_list {ρ : Type} (reg : List (String × ρ)) (hk : (reg.map Prod.fst).Nodup) :
    (getDatasets reg).Pairwise (· < ·) ∧
      ∀ k, k ∈ getDatasets reg ↔ k ≠ "lrdb" ∧ ∃ f, (k, f) ∈ reg := by
  constructor
  · have h1 : (getDatasets reg).Pairwise (· ≤ ·) := List.pairwise_insertionSort (· ≤ ·) _
    have h2 : (getDatasets reg).Nodup :=
      (List.perm_insertionSort (· ≤ ·) _).nodup_iff.2 (hk.filter _)
    exact (h1.and h2).imp fun h => lt_of_le_of_ne h.1 h.2
  · intro k
    unfold getDatasets
    rw [List.mem_insertionSort, List.mem_filter, decide_eq_true_eq, and_comm]
    simp

/-- **C68** `load` accepts exactly the names listed by `get_datasets` and raises `KeyError` for all
others, the loss reserving database included (its file has no column `value`). -/
theorem C68_load (reg : List (String × Frame K))
    (hcols : ∀ k f, (k, f) ∈ reg → k ≠ "lrdb" → "origin" ∈ f.cols ∧ "dev" ∈ f.cols ∧ "value" ∈ f.cols)
    (hlrdb : ∀ f, ("lrdb", f) ∈ reg → "value" ∉ f.cols) (k : String) :
    (k ∈ getDatasets reg → ∃ f, (k, f) ∈ reg ∧
      load reg k none = .ok (.table (f.recs "origin" "dev" "value"))) ∧
    (k ∉ getDatasets reg → ∀ ty, load reg k ty = .error .keyError) := by
  have hmem : k ∈ getDatasets reg ↔ k ≠ "lrdb" ∧ k ∈ reg.map Prod.fst := by
    unfold getDatasets
    rw [List.mem_insertionSort, List.mem_filter, decide_eq_true_eq, and_comm]
  constructor
  · intro h
    obtain ⟨h1, h2⟩ := hmem.1 h
    rcases lookup_isSome reg k with ⟨f, e, hf⟩ | ⟨_, hn⟩
    · refine ⟨f, hf, ?_⟩
      unfold load
      rw [e]
      dsimp only
      rw [if_pos (hcols k f hf h1)]
      rfl
    · exact absurd h2 hn
  · intro h ty
    unfold load
    rcases lookup_isSome reg k with ⟨f, e, hf⟩ | ⟨e, _⟩
    · rw [e]
      have hk : k = "lrdb" := by
        by_contra hne
        exact h (hmem.2 ⟨hne, List.mem_map.2 ⟨(k, f), hf, rfl⟩⟩)
      subst hk
      dsimp only
      rw [if_neg (fun hc => hlrdb f hf hc.2.2)]
    · rw [e]

/-! ### C82 -/

theorem mem_firsts {α : Type} [DecidableEq α] {l : List α} {a : α} : a ∈ firsts l ↔ a ∈ l := by
  induction l with
  | nil => simp [firsts]
  | cons b l ih =>
    by_cases h : a = b
    · simp [firsts, h]
    · simp [firsts, h, ih]

theorem nodup_firsts {α : Type} [DecidableEq α] (l : List α) : (firsts l).Nodup := by
  induction l with
  | nil => simp [firsts]
  | cons b l ih =>
    simp only [firsts, List.nodup_cons, List.mem_filter, decide_eq_true_eq]
    exact ⟨fun h => h.2 rfl, ih.filter _⟩

instance : IsTrans (String × Int × String) specLe where
  trans a b c := by
    rintro (h1 | ⟨h1, h1'⟩) (h2 | ⟨h2, h2'⟩)
    · exact Or.inl (lt_trans h1 h2)
    · exact Or.inl (h2 ▸ h1)
    · exact Or.inl (h1 ▸ h2)
    · exact Or.inr ⟨h1.trans h2, le_trans h1' h2'⟩

instance : Std.Total (specLe) where
  total a b := by
    rcases lt_trichotomy a.1 b.1 with h | h | h
    · exact Or.inl (Or.inl h)
    · rcases le_total a.2.1 b.2.1 with h' | h'
      · exact Or.inl (Or.inr ⟨h, h'⟩)
      · exact Or.inr (Or.inr ⟨h.symm, h'⟩)
    · exact Or.inr (Or.inl h)

/-- **C82** `get_lrdb_lobs` lists exactly the lines of business that `load_lrdb` accepts (all companies),
once each, in alphabetical order. -/
theorem C82_lobs (rows : List (LrdbRow K)) (tr : Bool) :
    (lrdbLobs rows).Pairwise (· < ·) ∧
      ∀ a, a ∈ lrdbLobs rows ↔
        ∃ l, loadLrdb rows none "incurred" (some a) none none tr = .ok (.table l) := by
  constructor
  · have h1 : (lrdbLobs rows).Pairwise (· ≤ ·) := List.pairwise_insertionSort (· ≤ ·) _
    have h2 : (lrdbLobs rows).Nodup :=
      (List.perm_insertionSort (· ≤ ·) _).nodup_iff.2 (nodup_firsts _)
    exact (h1.and h2).imp fun h => lt_of_le_of_ne h.1 h.2
  · intro a
    unfold lrdbLobs
    rw [List.mem_insertionSort, mem_firsts, loadLrdb_eq]
    have hb : (beginsWith 'p' "incurred" || beginsWith 'i' "incurred") = true := by decide
    simp only [hb, true_and, reduceCtorEq, false_and, false_or, Spec.fits, Option.all_some,
      Option.all_none, Bool.and_true, decide_eq_true_eq, List.mem_map]
    constructor
    · intro h; rw [if_pos h]; exact ⟨_, rfl⟩
    · rintro ⟨l, h⟩
      by_contra hn
      rw [if_neg hn] at h
      exact absurd h (by simp)

/-- **C82** `get_lrdb_specs` lists exactly the combinations that `load_lrdb` accepts, once each, ordered
by line of business and company code. -/
theorem C82_specs (rows : List (LrdbRow K)) (tr : Bool) :
    (lrdbSpecs rows).Pairwise (fun a b => a.1 < b.1 ∨ a.1 = b.1 ∧ a.2.1 ≤ b.2.1) ∧
      (lrdbSpecs rows).Nodup ∧
      ∀ k c n, (k, c, n) ∈ lrdbSpecs rows ↔
        ∃ l, loadLrdb rows none "incurred" (some k) (some c) (some n) tr = .ok (.table l) := by
  refine ⟨List.pairwise_insertionSort specLe _,
    (List.perm_insertionSort specLe _).nodup_iff.2 (nodup_firsts _), fun k c n => ?_⟩
  unfold lrdbSpecs
  rw [List.mem_insertionSort, mem_firsts, loadLrdb_eq]
  have hb : (beginsWith 'p' "incurred" || beginsWith 'i' "incurred") = true := by decide
  simp only [hb, true_and, reduceCtorEq, false_and, false_or, Spec.fits, Option.all_some,
    Bool.and_eq_true, decide_eq_true_eq, List.mem_map, Prod.mk.injEq, and_assoc]
  constructor
  · intro h; rw [if_pos h]; exact ⟨_, rfl⟩
  · rintro ⟨l, h⟩
    by_contra hn
    rw [if_neg hn] at h
    exact absurd h (by simp)

end

/-! ### concrete cases -/

/-- A small database. -/
def exLrdb : List (LrdbRow ℚ) :=
  [⟨"wkcomp", 7, "B", 1, 1, .fin 5, .fin 3, 1⟩, ⟨"comauto", 9, "A", 1, 1, .fin 6, .fin 2, 1⟩,
   ⟨"comauto", 9, "A", 1, 2, .fin 1, .fin 1, 0⟩, ⟨"comauto", 4, "C", 1, 1, .fin 8, .fin 7, 1⟩]

/-- The table of a loaded result. -/
def loadedRecs : Except PyErr (Loaded ℚ) → Option (List (Rec ℚ))
  | .ok (.table l) => some l
  | .ok (.tri x) => some x.tri.toTbl
  | .error _ => none

example : loadedRecs (loadLrdb exLrdb none "paid" (some "comauto") (some 9) none true) =
    some [⟨1, 1, .fin 2⟩] ∧
  loadedRecs (loadLrdb exLrdb (some "cum") "incurred" (some "comauto") (some 9) none false) =
    some [⟨1, 1, .fin 6⟩, ⟨1, 2, .fin 7⟩] ∧
  errOf (loadLrdb exLrdb none "paid" (some "wkcomp") (some 9) none true) = some .valueError ∧
  errOf (loadLrdb exLrdb none "Paid" none none none true) = some .valueError ∧
  errOf (loadLrdb exLrdb (some "Cum") "paid" none none none true) = some .valueError := by
  decide +kernel

example : lrdbLobs exLrdb = ["comauto", "wkcomp"] ∧
    lrdbSpecs exLrdb = [("comauto", 4, "C"), ("comauto", 9, "A"), ("wkcomp", 7, "B")] := by
  decide +kernel

example : getDatasets [("raa", 1), ("lrdb", 2), ("amw09", 3)] = ["amw09", "raa"] := by
  decide +kernel

end Trikit
