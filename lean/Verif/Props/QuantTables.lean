import Verif.QuantTables
import Verif.Props.Quantile
import Verif.Props.MackReal

/-! # Quantile columns of a summary and `get_quantiles` (C102) -/

set_option linter.unusedSectionVars false

namespace Trikit

/-- Levels behind the quantile columns of a summary. -/
def Spec.levels {K : Type} [Field K] [LinearOrder K] (twoSided : Bool) (q : List K) : List K :=
  if twoSided then q.map (fun x => (1 - x) / 2) ++ q.map (fun x => (1 + x) / 2) else q

/-- Headers such as `97.5%` and `97.5th`: a common number followed by `%`, or by two letters. -/
def Spec.sameHdr (a b : List Char) : Prop := ∃ h s, a = h ++ ['%'] ∧ b = h ++ s ∧ s.length = 2

theorem dictSet_map {α : Type} {f : List Char → List Char} (hf : Function.Injective f) (k : List Char) (v : α) :
    ∀ d : List (List Char × α), dictSet (f k) v (d.map (fun p => (f p.1, p.2))) =
      (dictSet k v d).map (fun p => (f p.1, p.2))
  | [] => rfl
  | (k', v') :: d => by
    simp only [List.map_cons, dictSet, hf.eq_iff]
    split
    · rfl
    · rw [List.map_cons, dictSet_map hf k v d]

theorem foldl_dictSet_map {α β : Type} {f : List Char → List Char} (hf : Function.Injective f) (g : β → α) :
    ∀ (l : List (List Char × β)) (d : List (List Char × α)),
      (l.map (fun p => (f p.1, p.2))).foldl (fun d p => dictSet p.1 (g p.2) d) (d.map (fun p => (f p.1, p.2))) =
        (l.foldl (fun d p => dictSet p.1 (g p.2) d) d).map (fun p => (f p.1, p.2))
  | [], _ => rfl
  | p :: l, d => by
    simp only [List.map_cons, List.foldl_cons]
    rw [dictSet_map hf, foldl_dictSet_map hf g l]

/-- The two letters after a number. -/
def ordSuf (h : List Char) : List Char :=
  if '.' ∈ h then ['t', 'h']
  else match h.getLast? with
    | none => ['t', 'h']
    | some c => match dsuffix c with
      | .ok s => s
      | .error _ => ['t', 'h']

theorem ordSuf_length (h : List Char) : (ordSuf h).length = 2 := by
  unfold ordSuf
  split
  · rfl
  · split
    · rfl
    · split
      · rename_i s hs
        unfold dsuffix at hs
        split at hs
        · obtain rfl := Except.ok.inj hs; rfl
        split at hs
        · obtain rfl := Except.ok.inj hs; rfl
        split at hs
        · obtain rfl := Except.ok.inj hs; rfl
        split at hs
        · obtain rfl := Except.ok.inj hs; rfl
        · cases hs
      · rfl

theorem hdrOrd_eq (n : ℕ) : hdrOrd n = .ok (hdrCore n ++ ordSuf (hdrCore n)) := by
  obtain ⟨s, hs, -⟩ := hdrOrd_ok n
  rw [hs]
  congr 2
  unfold hdrOrd at hs
  unfold ordSuf
  dsimp only at hs
  split
  · rename_i h
    rw [if_pos h] at hs
    exact (List.append_cancel_left (Except.ok.inj hs)).symm
  · rename_i h
    rw [if_neg h] at hs
    split
    · rename_i h2
      rw [h2] at hs
      cases hs
    · rename_i c h2
      rw [h2] at hs
      dsimp only at hs
      cases hd : dsuffix c with
      | error e => rw [hd] at hs; cases hs
      | ok s' =>
        rw [hd] at hs
        exact (List.append_cancel_left (Except.ok.inj hs)).symm

theorem ordHdr_inj : Function.Injective (fun h : List Char => h ++ ordSuf h) := by
  intro a b h
  exact (List.append_inj' h (by rw [ordSuf_length, ordSuf_length])).1

theorem pctHdr_inj : Function.Injective (fun h : List Char => h ++ ['%']) :=
  fun _ _ h => List.append_cancel_right h

section
variable {K : Type} [Field K] [LinearOrder K] [FloorRing K]

/-- Both tables from one table whose keys are the numbers. -/
theorem tables_same {α : Type} (qs : List K) (g : K → α) :
    ∃ D : List (List Char × α),
      (qs.map (fun x => (hdrPct (hdrNum x), x))).foldl (fun d p => dictSet p.1 (g p.2) d) [] =
        D.map (fun p => (p.1 ++ ['%'], p.2)) ∧
      ∃ hs, qs.mapM (fun x => hdrOrd (hdrNum x)) = .ok hs ∧
        (hs.zip qs).foldl (fun d p => dictSet p.1 (g p.2) d) [] = D.map (fun p => (p.1 ++ ordSuf p.1, p.2)) := by
  refine ⟨(qs.map (fun x => (hdrCore (hdrNum x), x))).foldl (fun d p => dictSet p.1 (g p.2) d) [], ?_,
    qs.map (fun x => hdrCore (hdrNum x) ++ ordSuf (hdrCore (hdrNum x))), ?_, ?_⟩
  · have := foldl_dictSet_map pctHdr_inj g (qs.map (fun x => (hdrCore (hdrNum x), x))) []
    rw [← this, List.map_map]
    rfl
  · apply mapM_ok
    intro x _
    exact hdrOrd_eq _
  · have := foldl_dictSet_map ordHdr_inj g (qs.map (fun x => (hdrCore (hdrNum x), x))) []
    rw [← this, List.map_map]
    congr 1
    clear this
    induction qs with
    | nil => rfl
    | cons a l ih => rw [List.map_cons, List.zip_cons_cons, ih]; rfl

theorem sameHdr_tables {α : Type} (D : List (List Char × α)) :
    List.Forall₂ (fun a b : List Char × α => Spec.sameHdr a.1 b.1 ∧ a.2 = b.2)
      (D.map (fun p => (p.1 ++ ['%'], p.2))) (D.map (fun p => (p.1 ++ ordSuf p.1, p.2))) := by
  induction D with
  | nil => exact .nil
  | cons p D ih => exact .cons ⟨⟨p.1, _, rfl, rfl, ordSuf_length _⟩, rfl⟩ ih

end

section
variable {K : Type} [Field K] [LinearOrder K] [IsStrictOrderedRing K]

theorem qtlsFormatter_levels {q : List (Num K)} {two : Bool} {qs : List K} (h : qtlsFormatter q two = .ok qs) :
    ∃ v : List K, q = v.map .fin ∧ (∀ x ∈ v, 0 ≤ x ∧ x ≤ 1) ∧
      qtlsFormatterRes ((Spec.levels two v).map .fin) = .ok qs ∧ (q ≠ [] → qs.isEmpty = false) := by
  unfold qtlsFormatter at h
  split at h
  swap
  · cases h
  rename_i hr
  have hr' := (qtlsInRange_iff q).1 hr
  have hq : ∀ l : List (Num K), (∀ v ∈ l, ∃ x, v = .fin x ∧ 0 ≤ x ∧ x ≤ 1) → l = (finVals l).map .fin := by
    intro l hl
    induction l with
    | nil => rfl
    | cons a l ih =>
      obtain ⟨x, rfl, -, -⟩ := hl a (List.mem_cons_self ..)
      have := ih (fun v hv => hl v (List.mem_cons_of_mem _ hv))
      show _ = (x :: finVals l).map Num.fin
      rw [List.map_cons, ← this]
  have hfv : ∀ l : List K, finVals (l.map Num.fin) = l := by
    intro l
    induction l with
    | nil => rfl
    | cons a l ih => show a :: finVals _ = _; rw [ih]
  have hin : ∀ x ∈ finVals q, 0 ≤ x ∧ x ≤ 1 := by
    intro x hx
    obtain ⟨y, hy, h0, h1⟩ := hr' _ (mem_finVals.1 hx)
    obtain rfl := Num.fin.inj hy
    exact ⟨h0, h1⟩
  have hqs : qs = sortUnique (Spec.levels two (finVals q)) := by
    rw [← Except.ok.inj h]
    unfold Spec.levels
    cases two <;> rfl
  refine ⟨finVals q, hq q hr', hin, ?_, ?_⟩
  swap
  · intro hne
    obtain ⟨v, hv⟩ := List.exists_mem_of_ne_nil _ hne
    obtain ⟨x, rfl, -, -⟩ := hr' v hv
    have hx := mem_finVals.2 hv
    have : ∃ y, y ∈ qs := by
      rw [hqs]
      unfold Spec.levels
      cases two
      · exact ⟨x, sortUnique_mem.2 hx⟩
      · exact ⟨(1 - x) / 2, sortUnique_mem.2 (List.mem_append_left _ (List.mem_map.2 ⟨x, hx, rfl⟩))⟩
    obtain ⟨y, hy⟩ := this
    cases qs with
    | nil => cases hy
    | cons a l => rfl
  have hlev : ∀ x ∈ Spec.levels two (finVals q), 0 ≤ x ∧ x ≤ 1 := by
    unfold Spec.levels
    split
    · intro x hx
      rw [List.mem_append, List.mem_map, List.mem_map] at hx
      rcases hx with ⟨y, hy, rfl⟩ | ⟨y, hy, rfl⟩
      · obtain ⟨h0, h1⟩ := hin y hy
        constructor <;> [skip; rw [div_le_one (by norm_num)]] <;> [apply div_nonneg; skip] <;> linarith
      · obtain ⟨h0, h1⟩ := hin y hy
        constructor <;> [skip; rw [div_le_one (by norm_num)]] <;> [apply div_nonneg; skip] <;> linarith
    · exact hin
  unfold qtlsFormatterRes qtlsFormatter
  rw [if_pos ((qtlsInRange_iff _).2 (by
    intro v hv
    obtain ⟨x, hx, rfl⟩ := List.mem_map.1 hv
    exact ⟨x, rfl, hlev x hx⟩)), hfv, ← h]
  unfold Spec.levels
  cases two <;> rfl

variable [FloorRing K]

/-- **C102** for the bootstrap: when the call returns quantile columns for one or more levels, `get_quantiles` at the
levels behind those columns and with the same interpolation returns the same values in the same order, under
headers with the same numbers. -/
theorem C102_bootstrap (m : Interp) (rows : List (List (Num K))) {q : List (Num K)} {two : Bool}
    {cols : List (List Char × List (Num K))} (h : bootQuantCols m rows q two = .ok cols) (hne : q ≠ []) :
    ∃ (v : List K) (tbl : List (List Char × List (Num K))), q = v.map .fin ∧
      getQuantiles m none rows ((Spec.levels two v).map .fin) = .ok tbl ∧
      List.Forall₂ (fun a b => Spec.sameHdr a.1 b.1 ∧ a.2 = b.2) cols tbl := by
  unfold bootQuantCols at h
  cases hqs : qtlsFormatter q two with
  | error e => rw [hqs] at h; cases h
  | ok qs =>
    rw [hqs] at h
    obtain ⟨D, hD, hs, hm, hT⟩ := tables_same qs (quantileColumn m none rows)
    have h := Except.ok.inj h
    obtain ⟨v, hv, hin, hl, he⟩ := qtlsFormatter_levels hqs
    refine ⟨v, D.map (fun p => (p.1 ++ ordSuf p.1, p.2)), hv, ?_, ?_⟩
    · have he := he hne
      unfold getQuantiles
      simp only [hl, bind, Except.bind, hm, he, Bool.false_and, Bool.false_eq_true, if_false]
      rw [hT]
    · rw [← h, hD]
      exact sameHdr_tables D

/-- **C102**, errors: levels refused by the call without `two_sided` are refused by `get_quantiles` with the same
exception. -/
theorem C102_errors (m : Interp) (rows : List (List (Num K))) (lb : Option K) {q : List (Num K)} {e : PyErr}
    (h : bootQuantCols m rows q false = .error e) : getQuantiles m lb rows q = .error e := by
  unfold bootQuantCols at h
  unfold getQuantiles qtlsFormatterRes
  cases hq : qtlsFormatter q false with
  | error e' => rw [hq] at h; exact h
  | ok qs => rw [hq] at h; cases h

/-- Without levels the call adds no column, whereas `get_quantiles` raises. -/
theorem C102_empty (m : Interp) (rows : List (List (Num K))) (hr : rows ≠ []) (two : Bool) :
    bootQuantCols m rows [] two = .ok [] ∧ getQuantiles m none rows [] = .error .valueError := by
  cases rows with
  | nil => exact absurd rfl hr
  | cons r rows => cases two <;> exact ⟨rfl, rfl⟩

end

theorem tailProd_last {f : ℕ → ℝ} {n : ℕ} (hn : 0 < n) (hf : f (n - 1) = 1) : Spec.tailProd f n (n - 1 - 0) = 1 := by
  obtain ⟨n, rfl⟩ : ∃ k, n = k + 1 := ⟨n - 1, by omega⟩
  simpa [Spec.tailProd] using hf

/-- The quantile of the oldest origin is NaN without being overwritten. -/
theorem oldest_nan {dist : String} {v : RV} (hv : mackRV dist (.fin 0) (.fin 0) = .ok v) (z : ℝ → Num ℝ) (q : ℝ) :
    v.ppf z q = .nan := by
  unfold mackRV at hv
  split at hv
  · obtain rfl := Except.ok.inj hv
    simp [RV.ppf, Num.zero_def, Num.lt]
  split at hv
  · obtain rfl := Except.ok.inj hv
    have : logSigma (.fin 0) (.fin 0) = .fin 0 := by
      unfold logSigma
      rw [Num.fin_div_zero]
      simp only [Num.infTimes, if_pos]
      rfl
    rw [this]
    simp [RV.ppf, Num.zero_def, Num.lt]
  · cases hv

/-- **C102** for Mack: on every positive staircase with at least four origins, when the call returns
quantile columns for one or more levels, `get_quantiles` at the levels behind those columns returns the same
values (NaN for the oldest origin) in the same order, under headers with the same numbers. -/
theorem C102_mack {t ind : Tri ℝ} {n : ℕ} {c w : ℕ → ℕ → ℝ} (h : Spec.Stair t n c) (hp : Spec.Positive n c)
    (hi : IndW t ind n w) (hw : Spec.Weights n w) (hn : 4 ≤ n) (alpha : ℕ) {dist : String} {r : MackResult}
    (hr : mackCall alpha t ind dist = .ok r) (z : ℝ → Num ℝ) {q : List (Num ℝ)} {two : Bool}
    {cols : List (List Char × List (Num ℝ))} (hc : mackQuantCols r z q two = .ok cols) (hne : q ≠ []) :
    ∃ (v : List ℝ) (tbl : List (List Char × List (Num ℝ))), q = v.map .fin ∧
      mackGetQuantiles r z ((Spec.levels two v).map .fin) = .ok tbl ∧
      List.Forall₂ (fun a b => Spec.sameHdr a.1 b.1 ∧ a.2 = b.2) cols tbl := by
  have hd : dist = "norm" ∨ dist = "lognorm" := by
    by_contra hd
    rw [not_or] at hd
    rw [(C49_quantiles h hp hi hw hn alpha dist).1 hd.1 hd.2] at hr
    cases hr
  obtain ⟨core, b, lab, hr0, p⟩ := mack_parts h hp hi hw hn alpha
  obtain ⟨r', s, T, hr1, hlen, hse, hs0, hT, hT0, -⟩ := C46_std_errors h hp hi hw hn alpha hd
  obtain rfl := Except.ok.inj (hr.symm.trans hr1)
  obtain ⟨r', hr2, hcore, hstd, hrl, hv⟩ := mackCall_ok hr0 hd
  obtain rfl := Except.ok.inj (hr.symm.trans hr2)
  have hsame : ∀ q, r.qtlColumn z q = r.getQuantile z q := by
    intro q
    obtain ⟨row, hrow, -, -, -, -, -, -, hres⟩ := p.spec.rows 0 (by omega)
    obtain ⟨h1, -, -⟩ := hse 0 (by omega)
    have hrows : core.rows.length = n := by rw [p.rows, p.spec.rows_length]
    obtain ⟨v, hv1, hv2⟩ := hv 0 _ (.fin 0) h1 (by
      rw [List.getElem?_append_left (by simp only [List.length_map, hrows]; omega), List.getElem?_map, p.rows, hrow]
      show some row.reserve = _
      rw [hres, tailProd_last (by omega) (by simp only [Spec.mackAll, Spec.withTail]; rw [if_neg (by omega)]), Nat.sub_zero, mul_one, sub_self])
    rw [hs0] at hv1
    have hnan := oldest_nan hv1 z q
    unfold MackResult.qtlColumn MackResult.getQuantile
    cases hl : r.rvs with
    | nil => rfl
    | cons a l =>
      rw [hl] at hv2
      obtain rfl := Option.some.inj hv2
      rw [List.map_cons, List.set_cons_zero, hnan]
  unfold mackQuantCols at hc
  simp only [hsame] at hc
  cases hqs : qtlsFormatter q two with
  | error e => rw [hqs] at hc; cases hc
  | ok qs =>
    rw [hqs] at hc
    obtain ⟨D, hD, hs, hm, hT⟩ := tables_same qs (r.getQuantile z)
    have hc := Except.ok.inj hc
    obtain ⟨v, hv, hin, hl, he⟩ := qtlsFormatter_levels hqs
    refine ⟨v, D.map (fun p => (p.1 ++ ordSuf p.1, p.2)), hv, ?_, ?_⟩
    · have he := he hne
      unfold mackGetQuantiles
      simp only [hl, bind, Except.bind, hm, he, Bool.false_and, Bool.false_eq_true, if_false]
      rw [hT]
    · rw [← hc, hD]
      exact sameHdr_tables D

/-- A two-sided interval of the sample and the same quantiles asked for directly. -/
example : bootQuantCols .linear [exSample] [.fin (1 / 2)] true =
      .ok [("25%".toList, [.fin (5 / 4)]), ("75%".toList, [.fin (19 / 4)])] ∧
    getQuantiles .linear none [exSample] [.fin (1 / 4), .fin (3 / 4)] =
      .ok [("25th".toList, [.fin (5 / 4)]), ("75th".toList, [.fin (19 / 4)])] := by decide +kernel

end Trikit
