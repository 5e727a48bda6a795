import Verif.Quantile
import Verif.AccessLemmas
import Mathlib.Data.Rat.Floor
import Mathlib.Data.List.TakeWhile
import Mathlib.Tactic.Linarith
import Mathlib.Tactic.Ring
import Mathlib.Tactic.Positivity
import Mathlib.Tactic.IntervalCases

/-! # Quantile arguments, headers and percentiles (C61 - C63) -/

set_option linter.unusedSectionVars false

namespace Trikit

section
variable {K : Type} [Field K] [LinearOrder K] [IsStrictOrderedRing K]

/-! ## C61 -/

theorem sortUnique_mem {l : List K} {x : K} : x ∈ sortUnique l ↔ x ∈ l := by
  unfold sortUnique
  rw [List.mem_insertionSort, List.mem_dedup]

theorem sortUnique_sorted (l : List K) : (sortUnique l).Pairwise (· < ·) := by
  have h1 : (sortUnique l).Pairwise (· ≤ ·) := List.pairwise_insertionSort (· ≤ ·) l.dedup
  have h2 : (sortUnique l).Nodup := (List.perm_insertionSort (· ≤ ·) l.dedup).nodup_iff.2 l.nodup_dedup
  have h2' : (sortUnique l).Pairwise (· ≠ ·) := h2
  exact (h1.and h2').imp (fun h => lt_of_le_of_ne h.1 h.2)

theorem qtlsInRange_iff (q : List (Num K)) :
    qtlsInRange q = true ↔ ∀ v ∈ q, ∃ x : K, v = .fin x ∧ 0 ≤ x ∧ x ≤ 1 := by
  unfold qtlsInRange
  rw [List.all_eq_true]
  constructor
  · intro h v hv
    have := h v hv
    rw [Bool.and_eq_true] at this
    cases v with
    | nan => simp at this
    | pinf => exact absurd this.1 (by simp [Num.one_def, Num.le])
    | ninf => exact absurd this.2 (by simp [Num.zero_def, Num.le])
    | fin x =>
      rw [Num.one_def, Num.zero_def, Num.le_fin, Num.le_fin, decide_eq_true_eq, decide_eq_true_eq] at this
      exact ⟨x, rfl, this.2, this.1⟩
  · intro h v hv
    obtain ⟨x, rfl, h0, h1⟩ := h v hv
    rw [Bool.and_eq_true, Num.one_def, Num.zero_def, Num.le_fin, Num.le_fin, decide_eq_true_eq, decide_eq_true_eq]
    exact ⟨h1, h0⟩

theorem mem_finVals {q : List (Num K)} {x : K} : x ∈ finVals q ↔ Num.fin x ∈ q := by
  unfold finVals
  rw [List.mem_filterMap]
  constructor
  · rintro ⟨v, hv, h⟩
    cases v <;> simp [Num.toFin] at h
    rw [← h]; exact hv
  · intro h; exact ⟨_, h, rfl⟩

/-- **C61** the call raises `ValueError` exactly when some requested value is not a number in [0, 1];
otherwise the quantiles are strictly increasing, lie in [0, 1], and are the requested ones. -/
theorem C61_plain (q : List (Num K)) :
    ((∃ v ∈ q, ¬ ∃ x : K, v = .fin x ∧ 0 ≤ x ∧ x ≤ 1) → qtlsFormatter q false = .error .valueError) ∧
    ((∀ v ∈ q, ∃ x : K, v = .fin x ∧ 0 ≤ x ∧ x ≤ 1) → ∃ l, qtlsFormatter q false = .ok l ∧
      l.Pairwise (· < ·) ∧ (∀ x, x ∈ l ↔ Num.fin x ∈ q) ∧ ∀ x ∈ l, 0 ≤ x ∧ x ≤ 1) := by
  constructor
  · rintro ⟨v, hv, h⟩
    unfold qtlsFormatter
    rw [if_neg]
    rw [qtlsInRange_iff]
    exact fun hh => h (hh v hv)
  · intro h
    unfold qtlsFormatter
    rw [if_pos ((qtlsInRange_iff q).2 h)]
    refine ⟨_, rfl, sortUnique_sorted _, ?_, ?_⟩
    · intro x
      rw [if_neg (by simp), sortUnique_mem, mem_finVals]
    · intro x hx
      rw [if_neg (by simp), sortUnique_mem, mem_finVals] at hx
      obtain ⟨y, hy, h0⟩ := h _ hx
      cases hy
      exact h0

/-- **C61** for `two_sided`: each requested `q` contributes the pair `(1-q)/2`, `(1+q)/2`; with `p` also
`1 - p` is in the list. -/
theorem C61_two_sided (q : List (Num K)) :
    ((∃ v ∈ q, ¬ ∃ x : K, v = .fin x ∧ 0 ≤ x ∧ x ≤ 1) → qtlsFormatter q true = .error .valueError) ∧
    ((∀ v ∈ q, ∃ x : K, v = .fin x ∧ 0 ≤ x ∧ x ≤ 1) → ∃ l, qtlsFormatter q true = .ok l ∧
      l.Pairwise (· < ·) ∧
      (∀ y, y ∈ l ↔ ∃ x, Num.fin x ∈ q ∧ (y = (1 - x) / 2 ∨ y = (1 + x) / 2)) ∧
      (∀ y ∈ l, 0 ≤ y ∧ y ≤ 1) ∧ ∀ y ∈ l, 1 - y ∈ l) := by
  constructor
  · rintro ⟨v, hv, h⟩
    unfold qtlsFormatter
    rw [if_neg]
    rw [qtlsInRange_iff]
    exact fun hh => h (hh v hv)
  · intro h
    unfold qtlsFormatter
    rw [if_pos ((qtlsInRange_iff q).2 h)]
    have hm : ∀ y, y ∈ sortUnique ((finVals q).map (fun x => (1 - x) / 2) ++
        (finVals q).map (fun x => (1 + x) / 2)) ↔
        ∃ x, Num.fin x ∈ q ∧ (y = (1 - x) / 2 ∨ y = (1 + x) / 2) := by
      intro y
      rw [sortUnique_mem, List.mem_append, List.mem_map, List.mem_map]
      constructor
      · rintro (⟨x, hx, rfl⟩ | ⟨x, hx, rfl⟩)
        · exact ⟨x, mem_finVals.1 hx, Or.inl rfl⟩
        · exact ⟨x, mem_finVals.1 hx, Or.inr rfl⟩
      · rintro ⟨x, hx, rfl | rfl⟩
        · exact Or.inl ⟨x, mem_finVals.2 hx, rfl⟩
        · exact Or.inr ⟨x, mem_finVals.2 hx, rfl⟩
    refine ⟨_, rfl, sortUnique_sorted _, ?_, ?_, ?_⟩
    · rw [if_pos rfl]; exact hm
    · intro y hy
      rw [if_pos rfl, hm] at hy
      obtain ⟨x, hx, hxy⟩ := hy
      obtain ⟨z, hz, h0, h1⟩ := h _ hx
      cases hz
      rcases hxy with rfl | rfl
      · constructor <;> linarith
      · constructor <;> linarith
    · intro y hy
      rw [if_pos rfl, hm] at hy ⊢
      obtain ⟨x, hx, hxy⟩ := hy
      refine ⟨x, hx, ?_⟩
      rcases hxy with rfl | rfl
      · right; ring
      · left; ring

example : qtlsFormatter ([.fin (19 / 20), .fin (3 / 4), .fin (19 / 20)] : List (Num ℚ)) false =
      .ok [3 / 4, 19 / 20] ∧
    qtlsFormatter ([.fin (19 / 20), .fin (3 / 4)] : List (Num ℚ)) true =
      .ok [1 / 40, 1 / 8, 7 / 8, 39 / 40] ∧
    qtlsFormatter ([.fin (1 / 2), .fin (3 / 2)] : List (Num ℚ)) false = .error .valueError ∧
    qtlsFormatter ([.fin (1 / 2), .nan] : List (Num ℚ)) true = .error .valueError := by
  decide +kernel

end

/-! ## C62 -/

/-- English ordinal suffix of a number. -/
def Spec.ordSuffix (p : ℕ) : String :=
  if p % 100 = 11 ∨ p % 100 = 12 ∨ p % 100 = 13 then "th"
  else if p % 10 = 1 then "st" else if p % 10 = 2 then "nd" else if p % 10 = 3 then "rd" else "th"

theorem dchar_inj {a b : ℕ} (ha : a < 10) (hb : b < 10) (h : dchar a = dchar b) : a = b := by
  interval_cases a <;> interval_cases b <;> first | rfl | (exact absurd h (by decide))

theorem dchar_ne_dot {a : ℕ} (ha : a < 10) : dchar a ≠ '.' := by
  interval_cases a <;> decide

theorem natStr_ne_nil (n : ℕ) : natStr n ≠ [] := by
  unfold natStr
  split
  · simp
  · next h =>
    simp only [ne_eq, List.map_eq_nil_iff, List.reverse_eq_nil_iff]
    exact Nat.digits_ne_nil_iff_ne_zero.2 h

theorem natStr_dot (n : ℕ) : '.' ∉ natStr n := by
  unfold natStr
  split
  · decide
  · intro h
    rw [List.mem_map] at h
    obtain ⟨d, hd, h⟩ := h
    rw [List.mem_reverse] at hd
    exact dchar_ne_dot (Nat.digits_lt_base (by norm_num) hd) h

theorem natStr_inj {n m : ℕ} (h : natStr n = natStr m) : n = m := by
  have map_inj : ∀ {l l' : List ℕ}, (∀ d ∈ l, d < 10) → (∀ d ∈ l', d < 10) → l.map dchar = l'.map dchar → l = l' := by
    intro l
    induction l with
    | nil => intro l' _ _ h; cases l' with
      | nil => rfl
      | cons a l' => simp at h
    | cons a l ih =>
      intro l' h1 h2 h
      cases l' with
      | nil => simp at h
      | cons b l' =>
        simp only [List.map_cons, List.cons.injEq] at h
        rw [dchar_inj (h1 a (by simp)) (h2 b (by simp)) h.1,
          ih (fun d hd => h1 d (by simp [hd])) (fun d hd => h2 d (by simp [hd])) h.2]
  have lt : ∀ k, ∀ d ∈ (Nat.digits 10 k).reverse, d < 10 := by
    intro k d hd
    rw [List.mem_reverse] at hd
    exact Nat.digits_lt_base (by norm_num) hd
  have zero : ∀ k, k ≠ 0 → ['0'] = (Nat.digits 10 k).reverse.map dchar → False := by
    intro k hk e
    have e' : [0].map dchar = (Nat.digits 10 k).reverse.map dchar := e
    have := map_inj (by decide) (lt k) e'
    have h2 : Nat.digits 10 k = [0] := by
      have := congrArg List.reverse this
      simpa using this.symm
    have := Nat.ofDigits_digits 10 k
    rw [h2] at this
    simp [Nat.ofDigits] at this
    exact hk this.symm
  unfold natStr at h
  by_cases hn : n = 0 <;> by_cases hm : m = 0
  · rw [hn, hm]
  · rw [if_pos hn, if_neg hm] at h; exact (zero m hm h).elim
  · rw [if_neg hn, if_pos hm] at h; exact (zero n hn h.symm).elim
  · rw [if_neg hn, if_neg hm] at h
    have := map_inj (lt n) (lt m) h
    have := List.reverse_injective this
    exact Nat.digits_inj_iff.1 this

theorem pad5_inj {a b : ℕ} (ha : a < 100000) (hb : b < 100000) (h : pad5 a = pad5 b) : a = b := by
  unfold pad5 at h
  simp only [List.cons.injEq, and_true] at h
  obtain ⟨h1, h2, h3, h4, h5⟩ := h
  have := dchar_inj (by omega) (by omega) h1
  have := dchar_inj (by omega) (by omega) h2
  have := dchar_inj (by omega) (by omega) h3
  have := dchar_inj (by omega) (by omega) h4
  have := dchar_inj (by omega) (by omega) h5
  omega

/-- Stripping removes a run of the character at the end. -/
theorem rstrip_split (c : Char) (l : List Char) : ∃ k, l = rstrip c l ++ List.replicate k c := by
  refine ⟨(l.reverse.takeWhile (· = c)).length, ?_⟩
  unfold rstrip
  have h := List.takeWhile_append_dropWhile (p := fun x => decide (x = c)) (l := l.reverse)
  have h2 : l.reverse.takeWhile (fun x => decide (x = c)) =
      List.replicate (l.reverse.takeWhile (fun x => decide (x = c))).length c := by
    rw [List.eq_replicate_iff]
    refine ⟨rfl, ?_⟩
    intro b hb
    have := List.mem_takeWhile_imp hb
    simpa using this
  have h3 := congrArg List.reverse h
  rw [List.reverse_append, List.reverse_reverse] at h3
  conv_lhs => rw [← h3]
  congr 1
  conv_lhs => rw [h2]
  rw [List.reverse_replicate]

theorem rstrip_append {c : Char} (a : List Char) {b : Char} (hb : b ≠ c) (l : List Char) :
    rstrip c (a ++ b :: l) = a ++ b :: rstrip c l := by
  unfold rstrip
  rw [List.reverse_append, List.reverse_cons, List.append_assoc, List.dropWhile_append]
  by_cases h : (l.reverse.dropWhile (fun x => decide (x = c))).isEmpty
  · rw [if_pos h]
    rw [List.isEmpty_iff] at h
    rw [h]
    simp [hb]
  · rw [if_neg h]
    simp

theorem rstrip_self {c : Char} {l : List Char} (h : ∀ x, l.getLast? = some x → x ≠ c) : rstrip c l = l := by
  unfold rstrip
  rcases List.eq_nil_or_concat l with rfl | ⟨l', b, rfl⟩
  · rfl
  · have := h b (by simp)
    simp [this]

theorem rstrip_concat (c : Char) (l : List Char) : rstrip c (l ++ [c]) = rstrip c l := by
  unfold rstrip
  simp

theorem rstrip_last {c : Char} {l : List Char} {x : Char} (h : (rstrip c l).getLast? = some x) : x ≠ c := by
  unfold rstrip at h
  rw [List.getLast?_reverse] at h
  intro e
  have := List.head?_dropWhile_not (fun x => decide (x = c)) l.reverse
  rw [h] at this
  simp [e] at this

/-- The text behind a header: the digits before the point, then, if anything but zeros follows, the point
and the digits after it without trailing zeros. -/
theorem hdrCore_eq (n : ℕ) : hdrCore n =
    if rstrip '0' (pad5 (n % 100000)) = [] then natStr (n / 100000)
    else natStr (n / 100000) ++ '.' :: rstrip '0' (pad5 (n % 100000)) := by
  unfold hdrCore fmt5
  rw [rstrip_append _ (by decide)]
  split
  · next h =>
    rw [h, rstrip_concat, rstrip_self]
    intro x hx e
    exact natStr_dot _ (e ▸ List.mem_of_getLast? hx)
  · next h =>
    apply rstrip_self
    intro x hx e
    have hmem : x ∈ rstrip '0' (pad5 (n % 100000)) := by
      rw [List.getLast?_append, List.getLast?_cons] at hx
      rcases List.eq_nil_or_concat (rstrip '0' (pad5 (n % 100000))) with h0 | ⟨l', b, h0⟩
      · exact absurd h0 h
      · rw [h0] at hx ⊢
        simp at hx
        simp [hx]
    obtain ⟨k, hk⟩ := rstrip_split '0' (pad5 (n % 100000))
    have : x ∈ pad5 (n % 100000) := by
      rw [hk]; exact List.mem_append_left _ hmem
    rw [e] at this
    unfold pad5 at this
    simp only [List.mem_cons, List.not_mem_nil, or_false] at this
    rcases this with h | h | h | h | h <;> exact dchar_ne_dot (by omega) h.symm

/-- **C62** headers of different numbers of hundred-thousandths of a percent are different. -/
theorem hdrCore_inj {n m : ℕ} (h : hdrCore n = hdrCore m) : n = m := by
  rw [hdrCore_eq, hdrCore_eq] at h
  have hpad : ∀ a b, rstrip '0' (pad5 a) = rstrip '0' (pad5 b) → pad5 a = pad5 b := by
    intro a b e
    obtain ⟨k, hk⟩ := rstrip_split '0' (pad5 a)
    obtain ⟨l, hl⟩ := rstrip_split '0' (pad5 b)
    have h1 := congrArg List.length hk
    have h2 := congrArg List.length hl
    rw [List.length_append, List.length_replicate] at h1 h2
    rw [e] at h1
    have : (pad5 a).length = 5 := rfl
    have : (pad5 b).length = 5 := rfl
    have : k = l := by omega
    rw [hk, hl, e, this]
  have hsplit : ∀ {a b : List Char} {l l' : List Char}, '.' ∉ a → '.' ∉ b → a ++ '.' :: l = b ++ '.' :: l' →
      a = b ∧ l = l' := by
    intro a
    induction a with
    | nil =>
      intro b l l' _ hb e
      cases b with
      | nil => simp at e; exact ⟨rfl, e⟩
      | cons x b =>
        simp only [List.nil_append, List.cons_append, List.cons.injEq] at e
        exact absurd (by rw [← e.1]; simp) hb
    | cons y a ih =>
      intro b l l' ha hb e
      cases b with
      | nil =>
        simp only [List.nil_append, List.cons_append, List.cons.injEq] at e
        exact absurd (by rw [e.1]; simp) ha
      | cons x b =>
        simp only [List.cons_append, List.cons.injEq] at e
        obtain ⟨h1, h2⟩ := ih (fun h => ha (by simp [h])) (fun h => hb (by simp [h])) e.2
        exact ⟨by rw [e.1, h1], h2⟩
  have key : natStr (n / 100000) = natStr (m / 100000) ∧
      rstrip '0' (pad5 (n % 100000)) = rstrip '0' (pad5 (m % 100000)) := by
    by_cases h1 : rstrip '0' (pad5 (n % 100000)) = [] <;> by_cases h2 : rstrip '0' (pad5 (m % 100000)) = []
    · rw [if_pos h1, if_pos h2] at h; exact ⟨h, by rw [h1, h2]⟩
    · rw [if_pos h1, if_neg h2] at h
      exact absurd (by rw [h]; simp) (natStr_dot (n / 100000))
    · rw [if_neg h1, if_pos h2] at h
      exact absurd (by rw [← h]; simp) (natStr_dot (m / 100000))
    · rw [if_neg h1, if_neg h2] at h
      exact hsplit (natStr_dot _) (natStr_dot _) h
  have e1 := natStr_inj key.1
  have e2 := pad5_inj (by omega) (by omega) (hpad _ _ key.2)
  omega

theorem natStr_last (p : ℕ) : (natStr p).getLast? = some (dchar (p % 10)) := by
  unfold natStr
  split
  · next h => subst h; rfl
  · next h =>
    rw [Nat.digits_def' (by norm_num) (by omega)]
    simp

theorem dsuffix_digit {d : ℕ} (hd : d < 10) : ∃ s, dsuffix (dchar d) = .ok s ∧ s.length = 2 := by
  interval_cases d <;> exact ⟨_, rfl, rfl⟩

/-- The header of the result classes never raises and is the number followed by two letters. -/
theorem hdrOrd_ok (n : ℕ) : ∃ s, hdrOrd n = .ok (hdrCore n ++ s) ∧ s.length = 2 := by
  unfold hdrOrd
  simp only
  by_cases h : '.' ∈ hdrCore n
  · rw [if_pos h]; exact ⟨_, rfl, rfl⟩
  · rw [if_neg h]
    have e : hdrCore n = natStr (n / 100000) := by
      rw [hdrCore_eq] at h ⊢
      split
      · rfl
      · next h0 => rw [if_neg h0] at h; simp at h
    obtain ⟨s, hs, hl⟩ := dsuffix_digit (show n / 100000 % 10 < 10 by omega)
    refine ⟨s, ?_, hl⟩
    rw [e, natStr_last]
    simp only [hs]
    rfl

theorem hdrOrd_inj {n m : ℕ} (h : hdrOrd n = hdrOrd m) : n = m := by
  obtain ⟨s, hs, h1⟩ := hdrOrd_ok n
  obtain ⟨s', hs', h1'⟩ := hdrOrd_ok m
  rw [hs, hs', Except.ok.injEq] at h
  exact hdrCore_inj (List.append_inj_left' h (by rw [h1, h1']))

section
variable {K : Type} [Field K] [LinearOrder K] [IsStrictOrderedRing K] [FloorRing K]

theorem roundHalfEven_int (k : ℤ) : roundHalfEven (k : K) = k := by
  unfold roundHalfEven
  rw [Int.floor_intCast, if_pos]
  simp

/-- **C62** quantiles with at most seven decimals (`q = k / 10^7`) that differ have different headers, in
the summary as well as in `get_quantiles`. -/
theorem C62_distinct {k k' : ℕ} (h : ((k : K) / 10 ^ 7 : K) ≠ (k' : K) / 10 ^ 7) :
    hdrPct (hdrNum ((k : K) / 10 ^ 7)) ≠ hdrPct (hdrNum ((k' : K) / 10 ^ 7)) ∧
    hdrOrd (hdrNum ((k : K) / 10 ^ 7)) ≠ hdrOrd (hdrNum ((k' : K) / 10 ^ 7)) := by
  have e : ∀ k : ℕ, hdrNum ((k : K) / 10 ^ 7) = k := by
    intro k
    unfold hdrNum
    have : (100000 * (100 * ((k : K) / 10 ^ 7))) = ((k : ℤ) : K) := by
      rw [Int.cast_natCast]
      field_simp
      ring
    rw [this, roundHalfEven_int, Int.toNat_natCast]
  rw [e, e]
  have hk : k ≠ k' := fun hk => h (by rw [hk])
  refine ⟨?_, fun h2 => hk (hdrOrd_inj h2)⟩
  intro h2
  unfold hdrPct at h2
  exact hk (hdrCore_inj (List.append_inj_left' h2 rfl))

end

/-- **C62 fails**: eleven percent is written "11st". -/
theorem C62_fails : hdrOrd 1100000 = .ok "11st".toList ∧ Spec.ordSuffix 11 = "th" := by
  decide +kernel

/-- **C62 (partial)** the header of a whole percentage is the number with its ordinal suffix except exactly
for numbers ending in 11, 12 or 13.  Missing: those numbers, where it is wrong. -/
theorem C62_ordinal_partial (p : ℕ) :
    hdrOrd (100000 * p) = .ok (natStr p ++ (Spec.ordSuffix p).toList) ↔
      ¬ (p % 100 = 11 ∨ p % 100 = 12 ∨ p % 100 = 13) := by
  have hc : hdrCore (100000 * p) = natStr p := by
    rw [hdrCore_eq, Nat.mul_mod_right, if_pos (by decide), Nat.mul_div_cancel_left _ (by norm_num)]
  have ho : hdrOrd (100000 * p) = (dsuffix (dchar (p % 10))).map (fun s => natStr p ++ s) := by
    unfold hdrOrd
    simp only [hc]
    rw [if_neg (natStr_dot p), natStr_last]
  rw [ho]
  have hd : p % 10 < 10 := Nat.mod_lt _ (by norm_num)
  have hmod : p % 100 % 10 = p % 10 := by omega
  unfold Spec.ordSuffix
  by_cases h : p % 100 = 11 ∨ p % 100 = 12 ∨ p % 100 = 13
  · rw [if_pos h]
    simp only [h, not_true_eq_false, iff_false]
    intro e
    rcases h with h | h | h
    · have : p % 10 = 1 := by omega
      rw [this] at e
      simp [dsuffix, dchar, Except.map] at e
    · have : p % 10 = 2 := by omega
      rw [this] at e
      simp [dsuffix, dchar, Except.map] at e
    · have : p % 10 = 3 := by omega
      rw [this] at e
      simp [dsuffix, dchar, Except.map] at e
  · rw [if_neg h]
    simp only [h, not_false_eq_true, iff_true]
    generalize p % 10 = d at hd
    interval_cases d <;> rfl

example : hdrOrd 100000 = .ok "1st".toList ∧ hdrOrd 2200000 = .ok "22nd".toList ∧
    hdrOrd 250000 = .ok "2.5th".toList ∧ hdrPct 9750000 = "97.5%".toList ∧ hdrPct 10000000 = "100%".toList ∧
    hdrPct 0 = "0%".toList := by decide +kernel

/-! ## C63 -/

section
variable {K : Type} [Field K] [LinearOrder K] [IsStrictOrderedRing K] [FloorRing K]

/-- Linear interpolation of `f 0 ≤ ... ≤ f (n-1)`. -/
def Spec.interp (f : ℕ → K) (n : ℕ) (v : K) : K :=
  if (n : K) - 1 ≤ v then f (n - 1)
  else f ⌊v⌋.toNat + (f (⌊v⌋ + 1).toNat - f ⌊v⌋.toNat) * (v - (⌊v⌋ : K))

theorem interp_between {f : ℕ → K} {n : ℕ} (hf : ∀ i j, i ≤ j → j < n → f i ≤ f j) {v : K} (h0 : 0 ≤ v)
    (h1 : v < (n : K) - 1) :
    ⌊v⌋.toNat + 1 < n ∧ f ⌊v⌋.toNat ≤ Spec.interp f n v ∧ Spec.interp f n v ≤ f (⌊v⌋.toNat + 1) := by
  have hfl : 0 ≤ ⌊v⌋ := Int.floor_nonneg.2 h0
  have e : (⌊v⌋ + 1).toNat = ⌊v⌋.toNat + 1 := by omega
  have hlt : ⌊v⌋.toNat + 1 < n := by
    have h2 : ((⌊v⌋ : ℤ) : K) < ((n : ℤ) - 1 : ℤ) := by
      push_cast
      exact lt_of_le_of_lt (Int.floor_le v) h1
    have := Int.cast_lt.1 h2
    omega
  refine ⟨hlt, ?_⟩
  have hd := hf ⌊v⌋.toNat (⌊v⌋.toNat + 1) (by omega) hlt
  have g0 : 0 ≤ v - (⌊v⌋ : K) := sub_nonneg.2 (Int.floor_le v)
  have g1 : v - (⌊v⌋ : K) ≤ 1 := by
    have := (Int.lt_floor_add_one v).le
    linarith
  unfold Spec.interp
  rw [if_neg (not_le.2 h1), e]
  constructor
  · have := mul_nonneg (sub_nonneg.2 hd) g0
    linarith
  · have := mul_le_mul_of_nonneg_left g1 (sub_nonneg.2 hd)
    linarith

theorem interp_mono {f : ℕ → K} {n : ℕ} (hf : ∀ i j, i ≤ j → j < n → f i ≤ f j) {v w : K} (h0 : 0 ≤ v)
    (hvw : v ≤ w) : Spec.interp f n v ≤ Spec.interp f n w := by
  by_cases hv : (n : K) - 1 ≤ v
  · unfold Spec.interp
    rw [if_pos hv, if_pos (le_trans hv hvw)]
  · have hv' := not_le.1 hv
    obtain ⟨a1, a2, a3⟩ := interp_between hf h0 hv'
    by_cases hw : (n : K) - 1 ≤ w
    · refine le_trans a3 ?_
      unfold Spec.interp
      rw [if_pos hw]
      exact hf _ _ (by omega) (by omega)
    · have hw' := not_le.1 hw
      obtain ⟨b1, b2, b3⟩ := interp_between hf (le_trans h0 hvw) hw'
      by_cases hfl : ⌊v⌋ = ⌊w⌋
      · unfold Spec.interp
        rw [if_neg hv, if_neg hw, hfl]
        have hd := hf ⌊w⌋.toNat (⌊w⌋ + 1).toNat (by omega) (by
          have : 0 ≤ ⌊w⌋ := Int.floor_nonneg.2 (le_trans h0 hvw)
          omega)
        have := mul_le_mul_of_nonneg_left (sub_le_sub_right hvw (⌊w⌋ : K)) (sub_nonneg.2 hd)
        linarith
      · have h1 : ⌊v⌋ ≤ ⌊w⌋ := Int.floor_le_floor hvw
        have h2 : 0 ≤ ⌊v⌋ := Int.floor_nonneg.2 h0
        exact le_trans a3 (le_trans (hf _ _ (by omega) (by omega)) b2)

theorem interp_int {f : ℕ → K} {n : ℕ} {k : ℤ} (h0 : 0 ≤ k) (h1 : k ≤ (n : ℤ) - 1) :
    Spec.interp f n (k : K) = f k.toNat := by
  unfold Spec.interp
  by_cases h : (n : K) - 1 ≤ (k : K)
  · rw [if_pos h]
    have h2 : (((n : ℤ) - 1 : ℤ) : K) ≤ (k : K) := by push_cast; exact h
    have := Int.cast_le.1 h2
    congr 1
    omega
  · rw [if_neg h, Int.floor_intCast]
    ring

theorem roundHalfEven_mono {x y : K} (h : x ≤ y) : roundHalfEven x ≤ roundHalfEven y := by
  have bnd : ∀ z : K, ⌊z⌋ ≤ roundHalfEven z ∧ roundHalfEven z ≤ ⌊z⌋ + 1 := by
    intro z
    unfold roundHalfEven
    split_ifs <;> omega
  by_cases hf : ⌊x⌋ = ⌊y⌋
  · unfold roundHalfEven
    rw [hf]
    have : x - (⌊y⌋ : K) ≤ y - (⌊y⌋ : K) := sub_le_sub_right h _
    split_ifs <;> first | omega | (exfalso; linarith)
  · have h1 : ⌊x⌋ ≤ ⌊y⌋ := Int.floor_le_floor h
    have := (bnd x).2
    have := (bnd y).1
    omega

/-- Position in the sorted sample at which the quantile is read, per method. -/
def Spec.pos (m : Interp) (n : ℕ) (q : K) : K :=
  let h : K := ((n : K) - 1) * q
  match m with
  | .linear => h
  | .lower => (⌊h⌋ : K)
  | .higher => (⌈h⌉ : K)
  | .nearest => (roundHalfEven h : K)
  | .midpoint => 1 / 2 * ((⌊h⌋ : K) + (⌈h⌉ : K))

theorem pos_mono (m : Interp) {n : ℕ} (hn : 0 < n) {q q' : K} (h : q ≤ q') : Spec.pos m n q ≤ Spec.pos m n q' := by
  have hn' : (0 : K) ≤ (n : K) - 1 := by
    have : (1 : K) ≤ (n : K) := by exact_mod_cast hn
    linarith
  have hh := mul_le_mul_of_nonneg_left h hn'
  cases m
  · exact hh
  · exact Int.cast_le.2 (Int.floor_le_floor hh)
  · exact Int.cast_le.2 (Int.ceil_le_ceil hh)
  · have h1 : ((⌊((n : K) - 1) * q⌋ : ℤ) : K) ≤ (⌊((n : K) - 1) * q'⌋ : ℤ) := Int.cast_le.2 (Int.floor_le_floor hh)
    have h2 : ((⌈((n : K) - 1) * q⌉ : ℤ) : K) ≤ (⌈((n : K) - 1) * q'⌉ : ℤ) := Int.cast_le.2 (Int.ceil_le_ceil hh)
    show 1 / 2 * _ ≤ 1 / 2 * _
    linarith
  · exact Int.cast_le.2 (roundHalfEven_mono hh)

theorem pos_zero (m : Interp) (n : ℕ) : Spec.pos m n (0 : K) = 0 := by
  have := roundHalfEven_int (K := K) 0
  cases m <;> simp [Spec.pos]
  simpa using this

theorem pos_one (m : Interp) (n : ℕ) : Spec.pos m n (1 : K) = (n : K) - 1 := by
  have e : (n : K) - 1 = (((n : ℤ) - 1 : ℤ) : K) := by push_cast; ring
  cases m <;> simp only [Spec.pos, mul_one] <;> rw [e]
  · rw [Int.floor_intCast]
  · rw [Int.ceil_intCast]
  · rw [Int.floor_intCast, Int.ceil_intCast]; ring
  · rw [roundHalfEven_int]

theorem takeAt_fin (a : List K) {k : ℤ} (h0 : 0 ≤ k) (h1 : k ≤ (a.length : ℤ) - 1) :
    takeAt (a.map Num.fin) k = .fin (a.getD k.toNat 0) := by
  unfold takeAt
  have h : k.toNat < a.length := by omega
  rw [List.getD_eq_getElem?_getD, List.getD_eq_getElem?_getD, List.getElem?_map, List.getElem?_eq_getElem h]
  rfl

theorem lerpAt_fin (a : List K) (ha : a ≠ []) {v : K} (h0 : 0 ≤ v) :
    lerpAt (a.map Num.fin) v (v - (⌊v⌋ : K)) = .fin (Spec.interp (fun i => a.getD i 0) a.length v) := by
  have hl : 0 < a.length := List.length_pos_iff.2 ha
  unfold lerpAt Spec.interp
  rw [List.length_map]
  by_cases h : (a.length : K) - 1 ≤ v
  · rw [if_pos h, if_pos h, takeAt_fin a (by omega) (by omega)]
    congr 2
    omega
  · rw [if_neg h, if_neg h]
    have hfl : 0 ≤ ⌊v⌋ := Int.floor_nonneg.2 h0
    have h2 : ((⌊v⌋ : ℤ) : K) < ((a.length : ℤ) - 1 : ℤ) := by
      push_cast
      exact lt_of_le_of_lt (Int.floor_le v) (not_le.1 h)
    have h3 := Int.cast_lt.1 h2
    rw [takeAt_fin a hfl (by omega), takeAt_fin a (by omega) (by omega), Num.fin_sub, Num.fin_mul, Num.fin_add]

/-- The percentile of a finite sample is read off its sorted values. -/
theorem percentile_eq (m : Interp) {fs : List K} (hne : fs ≠ []) {q : K} (h0 : 0 ≤ q) (h1 : q ≤ 1) :
    percentile m (fs.map Num.fin) q =
      .fin (Spec.interp (fun i => (fs.insertionSort (· ≤ ·)).getD i 0) fs.length (Spec.pos m fs.length q)) := by
  have hsort : (fs.map Num.fin).insertionSort (fun x y => Num.le x y = true) =
      (fs.insertionSort (· ≤ ·)).map Num.fin := by
    rw [List.map_insertionSort (r := fun x y : K => x ≤ y) (s := fun x y => Num.le x y = true)]
    intro a _ b _
    simp
  have hnan : (fs.map Num.fin).any Num.isNaN = false := by
    simp [List.any_eq_false]
  have hl : 0 < fs.length := List.length_pos_iff.2 hne
  unfold percentile
  rw [if_neg (by rw [hnan]; simp), hsort]
  have hlen : (fs.insertionSort (· ≤ ·)).length = fs.length := List.length_insertionSort _ _
  have hane : fs.insertionSort (· ≤ ·) ≠ [] := by
    intro e; rw [e] at hlen; simp at hlen; omega
  generalize fs.insertionSort (· ≤ ·) = a at hlen hane
  simp only [List.length_map, hlen]
  rw [← hlen]
  rw [← hlen] at hl
  have hn : (0 : K) ≤ (a.length : K) - 1 := by
    have : (1 : K) ≤ (a.length : K) := by exact_mod_cast hl
    linarith
  have hp0 : ∀ m, (0 : K) ≤ Spec.pos m a.length q := fun m => by
    rw [← pos_zero m a.length]; exact pos_mono m hl h0
  have hp1 : ∀ m, Spec.pos m a.length q ≤ (a.length : K) - 1 := fun m => by
    rw [← pos_one m a.length]; exact pos_mono m hl h1
  have hint : ∀ {k : ℤ}, (0 : K) ≤ (k : K) → (k : K) ≤ (a.length : K) - 1 →
      takeAt (a.map Num.fin) k = .fin (Spec.interp (fun i => a.getD i 0) a.length (k : K)) := by
    intro k hk0 hk1
    have e0 : 0 ≤ k := by exact_mod_cast hk0
    have e1 : k ≤ (a.length : ℤ) - 1 := by
      have : (k : K) ≤ (((a.length : ℤ) - 1 : ℤ) : K) := by push_cast; exact hk1
      exact Int.cast_le.1 this
    rw [takeAt_fin a e0 e1, interp_int e0 e1]
  cases m with
  | linear => exact lerpAt_fin a hane (hp0 .linear)
  | lower => exact hint (hp0 .lower) (hp1 .lower)
  | higher => exact hint (hp0 .higher) (hp1 .higher)
  | nearest => exact hint (hp0 .nearest) (hp1 .nearest)
  | midpoint =>
    simp only
    have hp := hp0 .midpoint
    have e : ∀ v : K, v = 1 / 2 * ((⌊((a.length : K) - 1) * q⌋ : K) + (⌈((a.length : K) - 1) * q⌉ : K)) →
        (if v = (⌊v⌋ : K) then (0 : K) else 1 / 2) = v - (⌊v⌋ : K) := by
      intro v hv
      split
      · next h => rw [← h]; ring
      · next h =>
        have hc : ⌈((a.length : K) - 1) * q⌉ = ⌊((a.length : K) - 1) * q⌋ ∨
            ⌈((a.length : K) - 1) * q⌉ = ⌊((a.length : K) - 1) * q⌋ + 1 := by
          have h1 := Int.floor_le_ceil (((a.length : K) - 1) * q)
          have h2 := Int.ceil_le_floor_add_one (((a.length : K) - 1) * q)
          omega
        generalize ⌊((a.length : K) - 1) * q⌋ = z at hv hc
        rcases hc with hc | hc
        · exfalso
          rw [hc] at hv
          have : v = (z : K) := by rw [hv]; ring
          apply h
          rw [this, Int.floor_intCast]
        · rw [hc] at hv
          have hv' : v = (z : K) + 1 / 2 := by rw [hv]; push_cast; ring
          have hfl : ⌊v⌋ = z := by
            rw [Int.floor_eq_iff, hv']
            constructor
            · linarith [show (0 : K) < 1 / 2 by norm_num]
            · linarith [show (1 / 2 : K) < 1 by norm_num]
          rw [hfl, hv']; ring
    rw [e _ rfl]
    exact lerpAt_fin a hane hp

/-- **C63** for every non-empty finite sample and every interpolation method: the percentiles for `q` in
[0, 1] lie between the smallest and the largest value, are these for `q = 0` and `q = 1`, and do not
decrease in `q`. -/
theorem C63_percentile (m : Interp) {l : List (Num K)} (hne : l ≠ []) (hfin : ∀ v ∈ l, v.isFin = true) :
    ∃ (P : K → K) (lo hi : K), Num.fin lo ∈ l ∧ Num.fin hi ∈ l ∧
      (∀ x, Num.fin x ∈ l → lo ≤ x ∧ x ≤ hi) ∧
      (∀ q, 0 ≤ q → q ≤ 1 → percentile m l q = .fin (P q) ∧ lo ≤ P q ∧ P q ≤ hi) ∧
      P 0 = lo ∧ P 1 = hi ∧ ∀ q q', 0 ≤ q → q ≤ q' → q' ≤ 1 → P q ≤ P q' := by
  obtain ⟨fs, rfl⟩ : ∃ fs : List K, l = fs.map Num.fin := by
    refine ⟨finVals l, ?_⟩
    unfold finVals
    clear hne
    induction l with
    | nil => rfl
    | cons v l ih =>
      obtain ⟨x, rfl⟩ := (Num.isFin_iff v).1 (hfin v (by simp))
      rw [List.filterMap_cons_some (f := Num.toFin) (a := Num.fin x) (b := x) rfl, List.map_cons, ← ih (fun v hv => hfin v (by simp [hv]))]
  have hne' : fs ≠ [] := by rintro rfl; exact hne rfl
  have hl : 0 < fs.length := List.length_pos_iff.2 hne'
  have hlen : (fs.insertionSort (· ≤ ·)).length = fs.length := List.length_insertionSort _ _
  have hmem : ∀ x, x ∈ fs.insertionSort (· ≤ ·) ↔ x ∈ fs := fun x => List.mem_insertionSort _
  have hsorted := List.pairwise_insertionSort (· ≤ ·) fs
  have hpe := fun q h0 h1 => percentile_eq m (fs := fs) hne' (q := q) h0 h1
  generalize fs.insertionSort (· ≤ ·) = a at hlen hmem hsorted hpe
  have hget : ∀ i (hi : i < a.length), a.getD i 0 = a[i] := by
    intro i hi
    rw [List.getD_eq_getElem?_getD, List.getElem?_eq_getElem hi]; rfl
  have hf : ∀ i j, i ≤ j → j < fs.length → a.getD i 0 ≤ a.getD j 0 := by
    intro i j hij hj
    rw [← hlen] at hj
    rw [hget i (by omega), hget j hj]
    rcases Nat.lt_or_eq_of_le hij with h | rfl
    · exact List.pairwise_iff_getElem.1 hsorted i j (by omega) hj h
    · exact le_refl _
  have hmem' : ∀ i < fs.length, Num.fin (a.getD i 0) ∈ fs.map Num.fin := by
    intro i hi
    rw [hget i (by omega)]
    exact List.mem_map.2 ⟨_, (hmem _).1 (List.getElem_mem _), rfl⟩
  set P : K → K := fun q => Spec.interp (fun i => a.getD i 0) fs.length (Spec.pos m fs.length q) with hP
  have hP0 : P 0 = a.getD 0 0 := by
    rw [hP]
    simp only [pos_zero]
    have := interp_int (K := K) (f := fun i => a.getD i 0) (n := fs.length) (k := 0) (le_refl _) (by omega)
    simpa using this
  have hP1 : P 1 = a.getD (fs.length - 1) 0 := by
    rw [hP]
    simp only [pos_one]
    unfold Spec.interp
    rw [if_pos (le_refl _)]
  have hmono : ∀ q q', 0 ≤ q → q ≤ q' → q' ≤ 1 → P q ≤ P q' := by
    intro q q' h0 h _
    apply interp_mono hf
    · rw [← pos_zero m fs.length]; exact pos_mono m hl h0
    · exact pos_mono m hl h
  refine ⟨P, a.getD 0 0, a.getD (fs.length - 1) 0, hmem' 0 hl, hmem' _ (by omega), ?_, ?_, hP0, hP1, hmono⟩
  · intro x hx
    rw [List.mem_map] at hx
    obtain ⟨y, hy, e⟩ := hx
    have e' : y = x := by simpa using e
    rw [e'] at hy
    obtain ⟨i, hi, rfl⟩ := List.mem_iff_getElem.1 ((hmem x).2 hy)
    rw [← hget i hi]
    exact ⟨hf 0 i (by omega) (by omega), hf i _ (by omega) (by omega)⟩
  · intro q h0 h1
    refine ⟨hpe q h0 h1, ?_, ?_⟩
    · rw [← hP0]; exact hmono 0 q (le_refl _) h0 h1
    · rw [← hP1]; exact hmono q 1 h0 h1 (le_refl _)

/-- **C63** a lower bound replaces smaller values by the bound and keeps the others. -/
theorem C63_lower_bound (m : Interp) (b : K) (rows : List (List (Num K))) (q : K) (h0 : 0 ≤ q) (h1 : q ≤ 1)
    (hrows : ∀ l ∈ rows, l ≠ [] ∧ ∀ v ∈ l, v.isFin = true) :
    ∃ xs : List K, quantileColumn m none rows q = xs.map Num.fin ∧
      quantileColumn m (some b) rows q = xs.map (fun x => Num.fin (max b x)) := by
  induction rows with
  | nil => exact ⟨[], rfl, rfl⟩
  | cons l rows ih =>
    obtain ⟨xs, e1, e2⟩ := ih (fun l hl => hrows l (by simp [hl]))
    obtain ⟨P, lo, hi, -, -, -, hP, -, -, -⟩ := C63_percentile m (hrows l (by simp)).1 (hrows l (by simp)).2
    refine ⟨P q :: xs, ?_, ?_⟩
    · unfold quantileColumn at e1 ⊢
      rw [List.map_cons, List.map_cons, e1, (hP q h0 h1).1]
      rfl
    · unfold quantileColumn at e2 ⊢
      rw [List.map_cons, List.map_cons, e2, (hP q h0 h1).1]
      congr 1
      unfold applyLb
      simp only [Num.lt_fin, decide_eq_true_eq]
      split
      · next h => rw [max_eq_left h.le]
      · next h => rw [max_eq_right (not_lt.1 h)]

end

/-! ### the table of `get_quantiles` -/

theorem dictSet_new {α : Type} {k : List Char} (v : α) : ∀ {d : List (List Char × α)}, k ∉ d.map Prod.fst →
    dictSet k v d = d ++ [(k, v)] := by
  intro d
  induction d with
  | nil => intro _; rfl
  | cons a d ih =>
    intro h
    rw [List.map_cons, List.mem_cons, not_or] at h
    obtain ⟨k', v'⟩ := a
    rw [dictSet, if_neg (fun e => h.1 e.symm), ih h.2]
    rfl

theorem foldl_dictSet {α β : Type} (f : β → α) : ∀ (l : List (List Char × β)) (d : List (List Char × α)),
    (l.map Prod.fst).Nodup → (∀ k ∈ l.map Prod.fst, k ∉ d.map Prod.fst) →
    l.foldl (fun d p => dictSet p.1 (f p.2) d) d = d ++ l.map (fun p => (p.1, f p.2)) := by
  intro l
  induction l with
  | nil => intro d _ _; simp
  | cons a l ih =>
    intro d h1 h2
    rw [List.map_cons, List.nodup_cons] at h1
    rw [List.foldl_cons, dictSet_new _ (h2 a.1 (by simp)), ih _ h1.2]
    · simp
    · intro k hk
      rw [List.map_append, List.mem_append, not_or]
      refine ⟨h2 k (by simp only [List.map_cons, List.mem_cons]; exact Or.inr hk), ?_⟩
      simp only [List.map_cons, List.map_nil, List.mem_singleton]
      rintro rfl
      exact h1.1 hk

section
variable {K : Type} [Field K] [LinearOrder K] [IsStrictOrderedRing K] [FloorRing K]

/-- **C63**/**C62** for one or more quantiles with at most seven decimals `get_quantiles` returns exactly one column per
distinct requested quantile, in increasing order, with pairwise different headers. -/
theorem C63_table (m : Interp) (lb : Option K) (rows : List (List (Num K))) (ks : List ℕ)
    (hne : ks ≠ []) (hk : ∀ k ∈ ks, k ≤ 10 ^ 7) :
    ∃ (qs : List K) (tbl : List (List Char × List (Num K))),
      getQuantiles m lb rows (ks.map (fun k : ℕ => Num.fin ((k : K) / 10 ^ 7))) = .ok tbl ∧
      qs.Pairwise (· < ·) ∧ (∀ x, x ∈ qs ↔ ∃ k ∈ ks, x = (k : K) / 10 ^ 7) ∧
      tbl.map Prod.snd = qs.map (fun x => rows.map (fun l => applyLb lb (percentile m l x))) ∧
      (tbl.map Prod.fst).Nodup := by
  obtain ⟨qs, hq, hs, hmem, -⟩ := (C61_plain (ks.map (fun k : ℕ => Num.fin ((k : K) / 10 ^ 7)))).2 (by
    intro v hv
    rw [List.mem_map] at hv
    obtain ⟨k, hk', rfl⟩ := hv
    refine ⟨_, rfl, by positivity, ?_⟩
    rw [div_le_one (by positivity)]
    exact_mod_cast hk k hk')
  have hmem' : ∀ x, x ∈ qs ↔ ∃ k ∈ ks, x = (k : K) / 10 ^ 7 := by
    intro x
    rw [hmem, List.mem_map]
    constructor
    · rintro ⟨k, h1, h2⟩
      exact ⟨k, h1, (by simpa using h2.symm)⟩
    · rintro ⟨k, h1, rfl⟩
      exact ⟨k, h1, rfl⟩
  choose H hH using fun n : ℕ => (show ∃ s, hdrOrd n = .ok s from ⟨_, (hdrOrd_ok n).choose_spec.1⟩)
  have hmap : qs.mapM (fun x => hdrOrd (hdrNum x)) = .ok (qs.map (fun x => H (hdrNum x))) := by
    apply mapM_ok
    intro x _
    exact hH _
  have hnd : (qs.map (fun x => H (hdrNum x))).Nodup := by
    rw [List.nodup_map_iff_inj_on (hs.imp (fun h => ne_of_lt h))]
    intro x hx y hy e
    obtain ⟨k, -, rfl⟩ := (hmem' x).1 hx
    obtain ⟨k', -, rfl⟩ := (hmem' y).1 hy
    by_contra hne
    exact (C62_distinct hne).2 (by rw [hH, hH, e])
  have hz : ((qs.map (fun x => H (hdrNum x))).zip qs).map Prod.fst = qs.map (fun x => H (hdrNum x)) :=
    List.map_fst_zip (by simp)
  have hz2 : ((qs.map (fun x => H (hdrNum x))).zip qs).map Prod.snd = qs := List.map_snd_zip (by simp)
  refine ⟨qs, ((qs.map (fun x => H (hdrNum x))).zip qs).map (fun p => (p.1, quantileColumn m lb rows p.2)),
    ?_, hs, hmem', ?_, ?_⟩
  · unfold getQuantiles qtlsFormatterRes
    have he : qs.isEmpty = false := by
      obtain ⟨k, hk'⟩ := List.exists_mem_of_ne_nil _ hne
      have := (hmem' _).2 ⟨k, hk', rfl⟩
      cases qs with
      | nil => cases this
      | cons a l => rfl
    simp only [hq, bind, Except.bind, hmap, he, Bool.false_and, Bool.false_eq_true, if_false]
    rw [foldl_dictSet (quantileColumn m lb rows), List.nil_append]
    · rw [hz]; exact hnd
    · intro k _; simp
  · rw [List.map_map]
    conv_rhs => rw [← hz2]
    rw [List.map_map]
    rfl
  · rw [List.map_map]
    show (((qs.map (fun x => H (hdrNum x))).zip qs).map Prod.fst).Nodup
    rw [hz]; exact hnd

end

/-- The sample used in the examples. -/
def exSample : List (Num ℚ) := [.fin 3, .fin (-1), .fin 2, .fin 10]

example : percentile .linear exSample (9 / 10) = .fin (79 / 10) ∧ percentile .lower exSample (9 / 10) = .fin 3 ∧
    percentile .higher exSample (9 / 10) = .fin 10 ∧ percentile .nearest exSample (9 / 10) = .fin 10 ∧
    percentile .midpoint exSample (9 / 10) = .fin (13 / 2) ∧ percentile .linear exSample 0 = .fin (-1) ∧
    percentile .nearest exSample (1 / 2) = .fin 3 := by decide +kernel

/-- `get_quantiles` on the sample; the negative value is bounded below. -/
example : getQuantiles .linear (some 0) [exSample] [.fin (3 / 4), .fin 0, .fin (3 / 4)] =
    .ok [("0th".toList, [.fin 0]), ("75th".toList, [.fin (19 / 4)])] := by decide +kernel

end Trikit
