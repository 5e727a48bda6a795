import Verif.Print
import Verif.Props.Quantile
import Verif.Props.Base

/-!
# C140: printed amounts
-/

set_option linter.unusedSectionVars false

namespace Trikit

/-! ### reading a printed number -/

/-- Value of a decimal digit. -/
def Spec.digitVal (c : Char) : ℕ := c.toNat - 48

/-- Value of a row of digits. -/
def Spec.readNat (l : List Char) : ℕ := l.foldl (fun a c => 10 * a + Spec.digitVal c) 0

/-- Value of a printed whole number: the commas are passed over, a leading minus sign changes the sign. -/
def Spec.readAmount (l : List Char) : ℤ :=
  if l.head? = some '-' then -(Spec.readNat (l.tail.filter (fun c => c ≠ ',')) : ℤ)
  else (Spec.readNat (l.filter (fun c => c ≠ ',')) : ℤ)

/-- Digits in groups of three: counted from the right, exactly every fourth character is a comma, the first character is
none, and all others are digits. -/
def Spec.Grouped (l : List Char) : Prop :=
  l.head? ≠ some ',' ∧ ∀ i c, l.reverse[i]? = some c → (c = ',' ↔ i % 4 = 3) ∧ (c ≠ ',' → c ∈ "0123456789".toList)

theorem dchar_val {d : ℕ} (hd : d < 10) : Spec.digitVal (dchar d) = d := by
  rcases (show d = 0 ∨ d = 1 ∨ d = 2 ∨ d = 3 ∨ d = 4 ∨ d = 5 ∨ d = 6 ∨ d = 7 ∨ d = 8 ∨ d = 9 by omega) with
    rfl | rfl | rfl | rfl | rfl | rfl | rfl | rfl | rfl | rfl <;> decide

theorem dchar_mem {d : ℕ} (hd : d < 10) : dchar d ∈ "0123456789".toList := by
  rcases (show d = 0 ∨ d = 1 ∨ d = 2 ∨ d = 3 ∨ d = 4 ∨ d = 5 ∨ d = 6 ∨ d = 7 ∨ d = 8 ∨ d = 9 by omega) with
    rfl | rfl | rfl | rfl | rfl | rfl | rfl | rfl | rfl | rfl <;> decide

theorem natStr_digits (n : ℕ) : ∀ c ∈ natStr n, c ∈ "0123456789".toList := by
  intro c hc
  unfold natStr at hc
  split at hc
  · rw [List.mem_singleton] at hc
    subst hc
    decide
  · obtain ⟨d, hd, rfl⟩ := List.mem_map.1 hc
    rw [List.mem_reverse] at hd
    exact dchar_mem (Nat.digits_lt_base (by norm_num) hd)

theorem readNat_natStr (n : ℕ) : Spec.readNat (natStr n) = n := by
  unfold natStr
  split
  · next h => subst h; rfl
  · unfold Spec.readNat
    rw [List.foldl_map, List.foldl_reverse]
    have h : ∀ l : List ℕ, (∀ d ∈ l, d < 10) →
        l.foldr (fun d a => 10 * a + Spec.digitVal (dchar d)) 0 = Nat.ofDigits 10 l := by
      intro l
      induction l with
      | nil => intro _; rfl
      | cons d l ih =>
        intro hl
        rw [List.foldr_cons, ih (fun x hx => hl x (by simp [hx])), dchar_val (hl d (by simp)), Nat.ofDigits_cons]
        ring
    rw [h _ (fun d hd => Nat.digits_lt_base (by norm_num) hd), Nat.ofDigits_digits]

theorem commas_filter (k : ℕ) {l : List Char} (hl : ',' ∉ l) : (commas k l).filter (fun c => c ≠ ',') = l := by
  induction l generalizing k with
  | nil => rfl
  | cons c l ih =>
    have hc : c ≠ ',' := fun h => hl (by simp [h])
    have h' : ',' ∉ l := fun h => hl (by simp [h])
    unfold commas
    split
    · rw [List.filter_cons_of_neg (by simp), List.filter_cons_of_pos (by simpa using hc), ih _ h']
    · rw [List.filter_cons_of_pos (by simpa using hc), ih _ h']

/-- Where the commas are: `k` digits have been written, `p` characters so far. -/
theorem commas_pos {l : List Char} (hl : ',' ∉ l) : ∀ {k p : ℕ}, k % 3 = (p % 4) % 3 → (k = 0 ↔ p = 0) →
    (k ≠ 0 → k % 3 = 0 → p % 4 = 3) → (p % 4 = 3 → k ≠ 0 ∧ k % 3 = 0) →
    ∀ i c, (commas k l)[i]? = some c → (c = ',' ↔ (p + i) % 4 = 3) := by
  induction l with
  | nil => intro k p _ _ _ _ i c h; simp [commas] at h
  | cons d l ih =>
    intro k p h1 h2 h3 h4 i c h
    have hd : d ≠ ',' := fun e => hl (by simp [e])
    have h' : ',' ∉ l := fun e => hl (by simp [e])
    unfold commas at h
    split at h
    · rename_i hk
      have hp := h3 hk.1 hk.2
      rcases i with _ | _ | i
      · simp at h; subst h; simp [hp]
      · simp at h; subst h; simp only [hd, false_iff]; omega
      · simp only [List.getElem?_cons_succ] at h
        have := ih h' (k := k + 1) (p := p + 2) (by omega) (by omega) (by omega) (by omega) i c h
        rw [this]
        have : p + 2 + i = p + (i + 1 + 1) := by omega
        rw [this]
    · rename_i hk
      rcases i with _ | i
      · simp at h; subst h
        simp only [hd, false_iff]
        intro e
        exact hk (h4 (by omega))
      · simp only [List.getElem?_cons_succ] at h
        have hp : p % 4 ≠ 3 := fun e => hk (h4 e)
        have := ih h' (k := k + 1) (p := p + 1) (by omega) (by omega) (by omega) (by omega) i c h
        rw [this]
        have : p + 1 + i = p + (i + 1) := by omega
        rw [this]

theorem commas_last {l : List Char} (hl : ',' ∉ l) (k : ℕ) : (commas k l).getLast? ≠ some ',' := by
  induction l generalizing k with
  | nil => simp [commas]
  | cons d l ih =>
    have hd : d ≠ ',' := fun e => hl (by simp [e])
    have h' : ',' ∉ l := fun e => hl (by simp [e])
    have hrec := ih h' (k + 1)
    have key : (d :: commas (k + 1) l).getLast? ≠ some ',' := by
      rw [List.getLast?_cons]
      cases hc : (commas (k + 1) l).getLast? with
      | none => simpa using hd
      | some x => rw [hc] at hrec; simpa using hrec
    unfold commas
    split
    · rw [List.getLast?_cons]
      cases hc : (d :: commas (k + 1) l).getLast? with
      | none => simp at hc
      | some x => rw [hc] at key; simpa using key
    · exact key

theorem commas_mem {l : List Char} {k : ℕ} {c : Char} (h : c ∈ commas k l) : c = ',' ∨ c ∈ l := by
  induction l generalizing k with
  | nil => simp [commas] at h
  | cons d l ih =>
    unfold commas at h
    split at h
    · rcases List.mem_cons.1 h with rfl | h
      · exact Or.inl rfl
      · rcases List.mem_cons.1 h with rfl | h
        · exact Or.inr (by simp)
        · exact (ih h).imp id (fun h => by simp [h])
    · rcases List.mem_cons.1 h with rfl | h
      · exact Or.inr (by simp)
      · exact (ih h).imp id (fun h => by simp [h])

theorem natStr_comma (n : ℕ) : ',' ∉ (natStr n).reverse := by
  intro h
  have := natStr_digits n ',' (List.mem_reverse.1 h)
  revert this
  decide

theorem commaStr_grouped (n : ℕ) : Spec.Grouped (commaStr n) := by
  have hc := natStr_comma n
  unfold commaStr Spec.Grouped
  rw [List.head?_reverse, List.reverse_reverse]
  refine ⟨commas_last hc 0, ?_⟩
  intro i c h
  have h1 := commas_pos hc (k := 0) (p := 0) rfl (by simp) (by simp) (by simp) i c h
  rw [Nat.zero_add] at h1
  refine ⟨h1, fun hne => ?_⟩
  rcases commas_mem (List.mem_of_getElem? h) with rfl | hm
  · exact absurd rfl hne
  · exact natStr_digits n c (List.mem_reverse.1 hm)

theorem commaStr_read (n : ℕ) : Spec.readNat ((commaStr n).filter (fun c => c ≠ ',')) = n := by
  unfold commaStr
  rw [List.filter_reverse, commas_filter 0 (natStr_comma n), List.reverse_reverse, readNat_natStr]

theorem commaStr_head (n : ℕ) : (commaStr n).head? ≠ some '-' := by
  intro h
  have hm := List.mem_of_mem_head? h
  unfold commaStr at hm
  rcases commas_mem (List.mem_reverse.1 hm) with h | h
  · revert h; decide
  · have := natStr_digits n '-' (List.mem_reverse.1 h)
    revert this
    decide

section
variable {K : Type} [Field K] [LinearOrder K] [IsStrictOrderedRing K] [FloorRing K]

theorem roundHalfEven_near (x : K) : |x - (roundHalfEven x : K)| ≤ 1 / 2 := by
  have h1 := Int.floor_le x
  have h2 := Int.lt_floor_add_one x
  unfold roundHalfEven
  split
  · rename_i h
    rw [abs_le]; constructor <;> linarith
  · rename_i h
    have hg : 1 / 2 ≤ x - (⌊x⌋ : K) := not_lt.1 h
    split
    · push_cast; rw [abs_le]; constructor <;> linarith
    · rename_i h'
      have hle : x - (⌊x⌋ : K) ≤ 1 / 2 := not_lt.1 h'
      split
      · rw [abs_le]; constructor <;> linarith
      · push_cast; rw [abs_le]; constructor <;> linarith

/-- In the middle between two whole numbers the even one is taken. -/
theorem roundHalfEven_tie (x : K) (h : |x - (roundHalfEven x : K)| = 1 / 2) : roundHalfEven x % 2 = 0 := by
  have h1 := Int.floor_le x
  have h2 := Int.lt_floor_add_one x
  unfold roundHalfEven at h ⊢
  split at h
  · rename_i e
    rw [abs_of_nonneg (by linarith)] at h
    exact absurd h (by linarith)
  · rename_i e
    have hg : 1 / 2 ≤ x - (⌊x⌋ : K) := not_lt.1 e
    rw [if_neg e]
    split at h
    · rename_i e'
      push_cast at h
      rw [abs_of_nonpos (by linarith)] at h
      exact absurd h (by linarith)
    · rename_i e'
      rw [if_neg e']
      split
      · assumption
      · omega

theorem roundHalfEven_nonneg {x : K} (h : 0 ≤ x) : 0 ≤ roundHalfEven x := by
  have := Int.floor_nonneg.2 h
  unfold roundHalfEven
  split_ifs <;> omega

/-- **C140** for a number: the text is a whole number in groups of three digits, behind a minus sign exactly for negative
amounts; read back it is within 1/2 of the amount, the even number in the middle between two. -/
theorem C140_amount (x : K) :
    ∃ s, Spec.Grouped s ∧ fmtAmount (.fin x) = (if x < 0 then ['-'] else []) ++ s ∧
      |x - (Spec.readAmount (fmtAmount (.fin x)) : K)| ≤ 1 / 2 ∧
      (|x - (Spec.readAmount (fmtAmount (.fin x)) : K)| = 1 / 2 → Spec.readAmount (fmtAmount (.fin x)) % 2 = 0) := by
  have hn := roundHalfEven_nonneg (abs_nonneg x)
  have hcast : (((roundHalfEven |x|).toNat : ℤ)) = roundHalfEven |x| := Int.toNat_of_nonneg hn
  refine ⟨commaStr (roundHalfEven |x|).toNat, commaStr_grouped _, rfl, ?_⟩
  by_cases hx : x < 0
  · have hr : Spec.readAmount (fmtAmount (.fin x)) = -roundHalfEven |x| := by
      rw [show fmtAmount (.fin x) = (if x < 0 then ['-'] else []) ++ commaStr (roundHalfEven |x|).toNat from rfl,
        if_pos hx]
      unfold Spec.readAmount
      simp only [List.cons_append, List.nil_append, List.head?_cons, List.tail_cons, if_true]
      rw [commaStr_read, hcast]
    have habs : |x - ((-roundHalfEven |x| : ℤ) : K)| = |(|x|) - (roundHalfEven |x| : K)| := by
      rw [← abs_neg (|x| - _), abs_of_neg hx]
      push_cast
      congr 1
      ring
    rw [hr, habs]
    exact ⟨roundHalfEven_near _, fun h => by have := roundHalfEven_tie _ h; omega⟩
  · have hr : Spec.readAmount (fmtAmount (.fin x)) = roundHalfEven |x| := by
      rw [show fmtAmount (.fin x) = (if x < 0 then ['-'] else []) ++ commaStr (roundHalfEven |x|).toNat from rfl,
        if_neg hx, List.nil_append]
      unfold Spec.readAmount
      rw [if_neg (commaStr_head _), commaStr_read, hcast]
    rw [hr]
    have hx' : |x| = x := abs_of_nonneg (not_lt.1 hx)
    rw [hx']
    exact ⟨roundHalfEven_near _, roundHalfEven_tie _⟩

/-- **C140** for a printed triangle: one text per cell, in place; a missing cell is `NaN`. -/
theorem C140_triangle (t : Tri K) {i j : ℕ} (hi : i < t.nr) (hj : j < t.nc) :
    t.printed.length = t.nr ∧ ∃ row s, t.printed[i]? = some row ∧ row.length = t.nc ∧ row[j]? = some s ∧
      (t.cell i j = .nan → s = "NaN".toList) ∧
      ∀ x, t.cell i j = .fin x → |x - (Spec.readAmount s : K)| ≤ 1 / 2 := by
  unfold Tri.printed
  refine ⟨by simp, (List.range t.nc).map (fun j => fmtAmount (t.cell i j)), fmtAmount (t.cell i j), ?_, by simp, ?_,
    ?_, ?_⟩
  · simp [hi]
  · simp [hj]
  · intro h; rw [h]; rfl
  · intro x h
    rw [h]
    exact (C140_amount x).choose_spec.2.2.1

theorem near_sum (l : List K) :
    |l.sum - ((l.map (fun x => Spec.readAmount (fmtAmount (.fin x)))).sum : ℤ)| ≤ (l.length : K) / 2 := by
  induction l with
  | nil => simp
  | cons x l ih =>
    have hx := (C140_amount x).choose_spec.2.2.1
    rw [List.map_cons, List.sum_cons, List.sum_cons, List.length_cons]
    push_cast
    calc _ = |(x - (Spec.readAmount (fmtAmount (.fin x)) : K)) + (l.sum - ((l.map (fun x =>
          Spec.readAmount (fmtAmount (.fin x)))).sum : ℤ))| := by congr 1; ring
      _ ≤ _ := abs_add_le _ _
      _ ≤ 1 / 2 + (l.length : K) / 2 := add_le_add hx ih
      _ = _ := by ring

/-- The printed entries of a column add up to the printed total, up to half a unit for each of them and for the total. -/
def Spec.AddsUp (n : ℕ) (col : List (List Char)) : Prop :=
  ∃ rows tot, col = rows ++ [tot] ∧ rows.length = n ∧
    2 * |Spec.readAmount tot - (rows.map Spec.readAmount).sum| ≤ (n : ℤ) + 1

theorem addsUp_of {vs : List K} {tot : K} (h : tot = vs.sum) :
    Spec.AddsUp vs.length (vs.map (fun x => fmtAmount (.fin x)) ++ [fmtAmount (.fin tot)]) := by
  refine ⟨_, _, rfl, by simp, ?_⟩
  have h1 := near_sum vs
  have h2 := (C140_amount tot).choose_spec.2.2.1
  rw [List.map_map]
  have e : (Spec.readAmount ∘ fun x : K => fmtAmount (.fin x)) = fun x => Spec.readAmount (fmtAmount (.fin x)) := rfl
  rw [e]
  have h3 : |((Spec.readAmount (fmtAmount (.fin tot)) -
      (vs.map (fun x => Spec.readAmount (fmtAmount (.fin x)))).sum : ℤ) : K)| ≤ (vs.length : K) / 2 + 1 / 2 := by
    push_cast
    calc _ = |-(tot - (Spec.readAmount (fmtAmount (.fin tot)) : K)) + (vs.sum - ((vs.map (fun x =>
          Spec.readAmount (fmtAmount (.fin x)))).sum : ℤ))| := by congr 1; rw [← h]; ring
      _ ≤ _ := abs_add_le _ _
      _ ≤ 1 / 2 + (vs.length : K) / 2 := by rw [abs_neg]; exact add_le_add h2 h1
      _ = _ := by ring
  have h4 : ((2 * |Spec.readAmount (fmtAmount (.fin tot)) -
      (vs.map (fun x => Spec.readAmount (fmtAmount (.fin x)))).sum| : ℤ) : K) ≤ ((vs.length : ℤ) + 1 : ℤ) := by
    push_cast at h3 ⊢
    linarith
  exact_mod_cast h4

/-- **C140** for a printed summary of `base_cl` on a staircase: latest amounts, ultimates and reserves of `n` origins add
up to the printed totals up to `(n + 1) / 2`. -/
theorem C140_summary {t : Tri K} {n : ℕ} {c : ℕ → ℕ → K} (h : Spec.Stair t n c) (hn : 1 ≤ n) {ldfs : Ser K} {f : ℕ → K}
    (hf : LdfVals ldfs n f) :
    ∃ r, baseFromLdfs t ldfs = .ok r ∧ Spec.AddsUp n r.printed.latest ∧ Spec.AddsUp n r.printed.ultimate ∧
      Spec.AddsUp n r.printed.reserve := by
  obtain ⟨r, h1, h2⟩ := base_core h hn hf
  have col : ∀ (g : SummRow K → Num K) (v : ℕ → K), (∀ i < n, ∃ row, r.rows[i]? = some row ∧ g row = .fin (v i)) →
      r.rows.map (fun row => fmtAmount (g row)) = ((List.range n).map v).map (fun x => fmtAmount (.fin x)) := by
    intro g v hg
    apply List.ext_getElem?
    intro i
    by_cases hi : i < n
    · obtain ⟨row, e1, e2⟩ := hg i hi
      simp [e1, e2, hi]
    · have hi' : r.rows.length ≤ i := by rw [h2.rows_length]; omega
      simp [hi, hi']
  have add : ∀ (g : SummRow K → Num K) (v : ℕ → K) (tot : Num K),
      (∀ i < n, ∃ row, r.rows[i]? = some row ∧ g row = .fin (v i)) →
      tot = .fin (∑ i ∈ Finset.range n, v i) →
      Spec.AddsUp n (r.rows.map (fun row => fmtAmount (g row)) ++ [fmtAmount tot]) := by
    intro g v tot hg ht
    rw [col g v hg, ht]
    have := addsUp_of (vs := (List.range n).map v) (tot := ∑ i ∈ Finset.range n, v i) (list_range_sum v n).symm
    simpa using this
  refine ⟨r, h1, ?_, ?_, ?_⟩
  · exact add SummRow.latest _ _ (fun i hi => by
      obtain ⟨row, e, _, _, _, _, e1, _, _⟩ := h2.rows i hi; exact ⟨row, e, e1⟩) h2.totLatest
  · exact add SummRow.ultimate _ _ (fun i hi => by
      obtain ⟨row, e, _, _, _, _, _, e1, _⟩ := h2.rows i hi; exact ⟨row, e, e1⟩) h2.totUltimate
  · exact add SummRow.reserve _ _ (fun i hi => by
      obtain ⟨row, e, _, _, _, _, _, _, e1⟩ := h2.rows i hi; exact ⟨row, e, e1⟩) h2.totReserve

end

example : fmtAmount (.fin (2469135/2 : ℚ)) = "1,234,568".toList ∧ fmtAmount (.fin (-3/10 : ℚ)) = "-0".toList ∧
    fmtAmount (.fin (5/2 : ℚ)) = "2".toList ∧ Spec.readAmount "-1,234".toList = -1234 := by decide +kernel

end Trikit
