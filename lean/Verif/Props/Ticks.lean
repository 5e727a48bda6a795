import Verif.Utils
import Mathlib.Algebra.Order.Field.Basic
import Mathlib.Tactic.Linarith
import Mathlib.Tactic.FieldSimp
import Mathlib.Tactic.Ring
import Mathlib.Tactic.NormNum

/-! # Axis ticks: C69 -/

set_option linter.unusedSectionVars false

namespace Trikit

variable {K : Type} [Field K] [LinearOrder K] [IsStrictOrderedRing K]

theorem getLast_filter_range {p : ℕ → Bool} {n : ℕ} :
    (∃ k < n, ((List.range n).filter p).getLast? = some k ∧ p k = true ∧
        ∀ j, k < j → j < n → p j = false) ∨
    (((List.range n).filter p).getLast? = none ∧ ∀ j < n, p j = false) := by
  induction n with
  | zero => exact Or.inr ⟨rfl, by simp⟩
  | succ n ih =>
    rw [List.range_succ, List.filter_append]
    by_cases hp : p n = true
    · exact Or.inl ⟨n, by omega, by simp [hp], hp, fun j h1 h2 => by omega⟩
    · have hp' : p n = false := by simpa using hp
      have he : [n].filter p = [] := by simp [hp']
      rw [he, List.append_nil]
      rcases ih with ⟨k, hk, e, h1, h2⟩ | ⟨e, h⟩
      · refine Or.inl ⟨k, by omega, e, h1, fun j hj hj' => ?_⟩
        by_cases hjn : j = n
        · rw [hjn]; exact hp'
        · exact h2 j hj (by omega)
      · refine Or.inr ⟨e, fun j hj => ?_⟩
        by_cases hjn : j = n
        · rw [hjn]; exact hp'
        · exact h j (by omega)

theorem xDiv_spec (x : K) :
    (∃ k < 10, xDiv x = .ok ((10 : K) ^ k) ∧ (10 : K) ^ k < x ∧ (k < 9 → x ≤ (10 : K) ^ (k + 1))) ∨
    (xDiv x = .error .valueError ∧ x ≤ 1) := by
  have key : ∀ j : ℕ, (decide (1 < x / (10 : K) ^ j) = true ↔ (10 : K) ^ j < x) := by
    intro j
    rw [decide_eq_true_eq, lt_div_iff₀ (by positivity), one_mul]
  have hx : xDiv x = match ((List.range 10).filter (fun j => decide (1 < x / (10 : K) ^ j))).getLast? with
      | none => .error .valueError
      | some k => .ok ((10 : K) ^ k) := by
    unfold xDiv
    rw [List.filter_map, List.getLast?_map]
    simp only [Function.comp_def]
    cases ((List.range 10).filter (fun j => decide (1 < x / (10 : K) ^ j))).getLast? <;> rfl
  rw [hx]
  rcases getLast_filter_range (p := fun j => decide (1 < x / (10 : K) ^ j)) (n := 10) with
    ⟨k, hk, e, h1, h2⟩ | ⟨e, h⟩
  · refine Or.inl ⟨k, hk, by rw [e], (key k).1 h1, fun h9 => ?_⟩
    have := h2 (k + 1) (by omega) (by omega)
    rw [← not_lt, ← key (k + 1), this]
    decide
  · refine Or.inr ⟨by rw [e], ?_⟩
    have := h 0 (by omega)
    by_contra hc
    rw [not_le] at hc
    have h0 := (key 0).2 (by simpa using hc)
    rw [this] at h0
    exact absurd h0 (by decide)

/-- What the search for the upper limit finds. -/
theorem find_mult (p x : K) (hp : 0 < p) (hx : p < x) :
    (x < p * 10 → ∃ m : ℕ, 1 ≤ m ∧ m ≤ 10 ∧
      ((List.range 10).map (fun k : ℕ => p * ((k : K) + 1))).find? (fun y => decide (0 < y - x)) =
        some (p * m) ∧ x < p * m ∧ p * ((m : K) - 1) ≤ x) ∧
    (p * 10 ≤ x →
      ((List.range 10).map (fun k : ℕ => p * ((k : K) + 1))).find? (fun y => decide (0 < y - x)) =
        none) := by
  constructor
  · intro h
    rw [List.find?_map]
    cases hf : (List.range 10).find?
        ((fun y => decide (0 < y - x)) ∘ fun k : ℕ => p * ((k : K) + 1)) with
    | none =>
      rw [List.find?_eq_none] at hf
      have := hf 9 (by simp)
      simp only [Function.comp_apply, decide_eq_true_eq, sub_pos, not_lt] at this
      norm_num at this
      linarith
    | some m =>
      rw [List.find?_range_eq_some] at hf
      obtain ⟨h1, h2, h3⟩ := hf
      simp only [Function.comp_apply, decide_eq_true_eq, sub_pos, List.mem_range] at h1 h2
      refine ⟨m + 1, by omega, by omega, by simp, by push_cast; exact h1, ?_⟩
      push_cast
      cases m with
      | zero => simpa using (le_of_lt (lt_trans hp hx))
      | succ m =>
        have := h3 m (by omega)
        simp only [Function.comp_apply, Bool.not_eq_true', decide_eq_false_iff_not, sub_pos,
          not_lt] at this
        push_cast
        have e : p * ((m : K) + 1 + 1 - 1) = p * ((m : K) + 1) := by ring
        rw [e]
        exact this
  · intro h
    rw [List.find?_eq_none]
    intro y hy
    obtain ⟨k, hk, rfl⟩ := List.mem_map.1 hy
    rw [List.mem_range] at hk
    rw [decide_eq_true_eq, sub_pos, not_lt]
    refine le_trans (mul_le_mul_of_nonneg_left ?_ hp.le) h
    have : ((k + 1 : ℕ) : K) ≤ ((10 : ℕ) : K) := Nat.cast_le.2 (by omega)
    push_cast at this
    exact this

/-- **C69** Strictly between two consecutive powers of ten `10^k < x < 10^(k+1)`, `k < 10`, there are five
equally spaced ticks starting at 0; the last one is the smallest multiple of `10^k` above `x`, at most
`10^(k+1)`. -/
theorem C69_ticks (x : K) (k : ℕ) (hk : k < 10) (h1 : (10 : K) ^ k < x) (h2 : x < (10 : K) ^ (k + 1)) :
    ∃ m : ℕ, 1 ≤ m ∧ m ≤ 10 ∧ x < 10 ^ k * m ∧ 10 ^ k * ((m : K) - 1) ≤ x ∧
      getYticks x = .ok [0, 10 ^ k * m / 4, 2 * (10 ^ k * m / 4), 3 * (10 ^ k * m / 4), 10 ^ k * m] := by
  have hten : (1 : K) < 10 := by norm_num
  rcases xDiv_spec x with ⟨k', hk', e, h3, h4⟩ | ⟨_, h⟩
  · have hkk : k' = k := by
      have a : k' < k + 1 := (pow_lt_pow_iff_right₀ hten).1 (lt_trans h3 h2)
      by_contra hne
      have b : x ≤ (10 : K) ^ (k' + 1) := h4 (by omega)
      have c : (10 : K) ^ (k' + 1) ≤ 10 ^ k := pow_le_pow_right₀ hten.le (by omega)
      exact absurd (lt_of_le_of_lt (le_trans b c) h1) (lt_irrefl _)
    subst hkk
    obtain ⟨m, ha, hb, hc, hd, he⟩ := (find_mult ((10 : K) ^ k') x (by positivity) h3).1
      (by rw [← pow_succ]; exact h2)
    refine ⟨m, ha, hb, hd, he, ?_⟩
    unfold getYticks
    rw [e]
    simp only [bind, Except.bind]
    rw [hc]
    simp only [List.range_succ_eq_map, List.range_zero, List.map_cons, List.map_nil, Except.ok.injEq,
      List.cons.injEq, and_true]
    push_cast
    refine ⟨by ring, by ring, by ring, by ring, by ring⟩
  · exact absurd (lt_of_lt_of_le h1 h) (not_lt.2 (one_le_pow₀ hten.le))

/-- **C69** In all other cases the computation raises `ValueError`: at most 1, a power of ten, or at
least `10^10`. -/
theorem C69_raises (x : K) (h : x ≤ 1 ∨ (∃ k : ℕ, x = 10 ^ k) ∨ 10 ^ 10 ≤ x) :
    getYticks x = .error .valueError := by
  have hten : (1 : K) < 10 := by norm_num
  rcases xDiv_spec x with ⟨k, hk, e, h3, h4⟩ | ⟨e, _⟩
  · have hbig : (10 : K) ^ k * 10 ≤ x := by
      rw [← pow_succ]
      rcases h with h | ⟨j, h⟩ | h
      · exact absurd (lt_of_lt_of_le h3 h) (not_lt.2 (one_le_pow₀ hten.le))
      · rw [h] at h3 ⊢
        exact pow_le_pow_right₀ hten.le ((pow_lt_pow_iff_right₀ hten).1 h3)
      · exact le_trans (pow_le_pow_right₀ hten.le (by omega)) h
    unfold getYticks
    rw [e]
    simp only [bind, Except.bind]
    rw [(find_mult _ x (by positivity) h3).2 hbig]
  · unfold getYticks
    rw [e]
    rfl

/-- **C69** The two cases cover everything: the computation succeeds exactly for `1 < x < 10^10` not a power
of ten. -/
theorem C69_iff (x : K) :
    (∃ l, getYticks x = .ok l) ↔ 1 < x ∧ x < 10 ^ 10 ∧ ∀ k : ℕ, x ≠ 10 ^ k := by
  constructor
  · rintro ⟨l, hl⟩
    refine ⟨?_, ?_, fun k hk => ?_⟩
    · by_contra h
      rw [C69_raises x (Or.inl (not_lt.1 h))] at hl
      exact absurd hl (by simp)
    · by_contra h
      rw [C69_raises x (Or.inr (Or.inr (not_lt.1 h)))] at hl
      exact absurd hl (by simp)
    · rw [C69_raises x (Or.inr (Or.inl ⟨k, hk⟩))] at hl
      exact absurd hl (by simp)
  · rintro ⟨h1, h2, h3⟩
    rcases xDiv_spec x with ⟨k, hk, _, h4, h5⟩ | ⟨_, h⟩
    · have h6 : x < (10 : K) ^ (k + 1) := by
        by_cases h9 : k = 9
        · rw [h9]; exact h2
        · exact lt_of_le_of_ne (h5 (by omega)) (h3 (k + 1))
      obtain ⟨m, _, _, _, _, e⟩ := C69_ticks x k hk h4 h6
      exact ⟨_, e⟩
    · exact absurd h1 (not_lt.2 h)

example : getYticks (18834 : ℚ) = .ok [0, 5000, 10000, 15000, 20000] ∧
    getYticks (1000 : ℚ) = .error .valueError ∧ getYticks (1/2 : ℚ) = .error .valueError := by
  decide +kernel

end Trikit
