import Verif.RoundedTri
import Verif.RoundedError
import Mathlib.Tactic.LinearCombination

/-! # Error of a compensated sum -/

set_option linter.unusedSectionVars false

namespace Trikit

variable {K : Type} [Field K] [LinearOrder K] [IsStrictOrderedRing K] {rd : K → K} {u : K}

/-- One step of the compensated sum on numbers: total and compensation. -/
def Spec.kstep (rd : K → K) (s : K × K) (v : K) : K × K :=
  (rd (s.1 + rd (v - s.2)), rd (rd (rd (s.1 + rd (v - s.2)) - s.1) - rd (v - s.2)))

theorem kahanStep_fin (s c v : K) :
    kahanStep rd (.fin s, .fin c) (.fin v) = (.fin (Spec.kstep rd (s, c) v).1, .fin (Spec.kstep rd (s, c) v).2) := by
  simp only [kahanStep, Num.fin_sub, Num.fin_add, Num.rounded, Num.isNaN, Spec.kstep]
  rfl

theorem kahan_foldl (l : List K) : ∀ s c : K, (l.map Num.fin).foldl (kahanStep rd) (.fin s, .fin c) =
    (.fin (l.foldl (Spec.kstep rd) (s, c)).1, .fin (l.foldl (Spec.kstep rd) (s, c)).2) := by
  induction l with
  | nil => intro s c; rfl
  | cons v l ih => intro s c; rw [List.map_cons, List.foldl_cons, kahanStep_fin, ih]; rfl

/-- The state after summands of absolute values `P` in `k` steps, `X` bounding all absolute values together. -/
structure KInv (u X S P : K) (k : ℕ) (s : K × K) : Prop where
  comp : |s.2| ≤ 5 * (u * X)
  drift : |s.1 - s.2 - S| ≤ 2 * (u * P) + 20 * (k * (u * (u * X)))

theorem kstep_inv (hr : Spec.RelErr rd u) {X S P v : K} {k : ℕ} {s : K × K} (hu : 20 * ((k : K) + 1) * u ≤ 1)
    (h : KInv u X S P k s) (hS : |S| ≤ P) (hP : P + |v| ≤ X) :
    KInv u X (S + v) (P + |v|) (k + 1) (Spec.kstep rd s v) := by
  obtain ⟨s, c⟩ := s
  obtain ⟨hc, hd⟩ := h
  simp only at hc hd
  have h0 := hr.nonneg
  have hk : (0 : K) ≤ k := Nat.cast_nonneg k
  have hku0 : 0 ≤ (k : K) * u := mul_nonneg hk h0
  have hu0 : 20 * ((k : K) * u) + 20 * u ≤ 1 := by linarith
  have hv := abs_nonneg v
  have hP0 : 0 ≤ P := (abs_nonneg S).trans hS
  have hX : 0 ≤ X := by linarith
  have small : ∀ {z : K}, 0 ≤ z → 20 * (u * z) ≤ z := fun {z} hz => by
    have := mul_le_mul_of_nonneg_right (show 20 * u ≤ 1 by linarith) hz
    linarith
  obtain ⟨A, hA⟩ : ∃ A, A = u * X := ⟨_, rfl⟩
  obtain ⟨B, hB⟩ : ∃ B, B = u * A := ⟨_, rfl⟩
  obtain ⟨W, hW⟩ : ∃ W, W = u * |v| := ⟨_, rfl⟩
  have hA0 : 0 ≤ A := hA ▸ mul_nonneg h0 hX
  have hB0 : 0 ≤ B := hB ▸ mul_nonneg h0 hA0
  have hAX : 20 * A ≤ X := hA ▸ small hX
  have hBA : 20 * B ≤ A := hB ▸ small hA0
  have hCB : 20 * (u * B) ≤ B := small hB0
  have hWA : W ≤ A := by rw [hW, hA]; exact mul_le_mul_of_nonneg_left (by linarith) h0
  have huW : u * W ≤ B := by rw [hB]; exact mul_le_mul_of_nonneg_left hWA h0
  have hkB : 20 * (k * B) ≤ A := by
    have := mul_le_mul_of_nonneg_right (show 20 * ((k : K) * u) ≤ 1 by linarith) hA0
    rw [hB]; linarith
  have huP : u * P ≤ A := by rw [hA]; exact mul_le_mul_of_nonneg_left (by linarith) h0
  rw [← hA] at hc hd
  rw [← hB] at hd
  -- the four errors
  have e1 := hr.err (v - c)
  have e2 := hr.err (s + rd (v - c))
  have e3 := hr.err (rd (s + rd (v - c)) - s)
  have e4 := hr.err (rd (rd (s + rd (v - c)) - s) - rd (v - c))
  have hgoal : ∀ y t w c' : K, |y - (v - c)| ≤ u * |v - c| → |t - (s + y)| ≤ u * |s + y| →
      |w - (t - s)| ≤ u * |t - s| → |c' - (w - y)| ≤ u * |w - y| →
      |c'| ≤ 5 * A ∧ |t - c' - (S + v)| ≤ 2 * (u * P) + 20 * (k * B) + 2 * W + 20 * B := by
    clear e1 e2 e3 e4
    intro y t w c' e1 e2 e3 e4
    have b1 : |v - c| ≤ |v| + 5 * A := (abs_sub v c).trans (by linarith)
    have g1 : |y - (v - c)| ≤ W + 5 * B := by
      have := e1.trans (mul_le_mul_of_nonneg_left b1 h0)
      rw [hW, hB]; linarith
    have hD : |s - c - S| ≤ 3 * A := by linarith
    have hy2 : |y| ≤ |v| + 5 * A + (W + 5 * B) := by
      have : |y| ≤ |y - (v - c)| + |v - c| := by
        have := abs_add_le (y - (v - c)) (v - c); simpa using this
      linarith
    have hSv : |S + v| ≤ X := (abs_add_le S v).trans (by linarith)
    have b2 : |s + y| ≤ 2 * X := by
      have e : s + y = (S + v) + (s - c - S) + (y - (v - c)) := by ring
      have := abs_add_three (S + v) (s - c - S) (y - (v - c))
      rw [← e] at this
      linarith
    have g2 : |t - (s + y)| ≤ 2 * A := by
      have := e2.trans (mul_le_mul_of_nonneg_left b2 h0)
      rw [hA]; linarith
    have b3 : |t - s| ≤ |v| + 5 * A + (W + 5 * B) + 2 * A := by
      have e : t - s = y + (t - (s + y)) := by ring
      have := abs_add_le y (t - (s + y))
      rw [← e] at this
      linarith
    have g3 : |w - (t - s)| ≤ W + 9 * B := by
      have h1 := e3.trans (mul_le_mul_of_nonneg_left b3 h0)
      have h2 : u * (|v| + 5 * A + (W + 5 * B) + 2 * A) = W + 7 * B + u * W + 5 * (u * B) := by
        rw [hW, hB]; ring
      rw [h2] at h1
      linarith
    have b4 : |w - y| ≤ 2 * A + (W + 9 * B) := by
      have e : w - y = (t - (s + y)) + (w - (t - s)) := by ring
      have := abs_add_le (t - (s + y)) (w - (t - s))
      rw [← e] at this
      linarith
    have g4 : |c' - (w - y)| ≤ 4 * B := by
      have h1 := e4.trans (mul_le_mul_of_nonneg_left b4 h0)
      have h2 : u * (2 * A + (W + 9 * B)) = 2 * B + u * W + 9 * (u * B) := by rw [hB]; ring
      rw [h2] at h1
      linarith
    constructor
    · have : |c'| ≤ |c' - (w - y)| + |w - y| := by
        have := abs_add_le (c' - (w - y)) (w - y); simpa using this
      linarith
    · have e : t - c' - (S + v) = (s - c - S) + (y - (v - c)) + (-(w - (t - s))) + (-(c' - (w - y))) := by ring
      have h1 := abs_add_le ((s - c - S) + (y - (v - c)) + (-(w - (t - s)))) (-(c' - (w - y)))
      have h2 := abs_add_three (s - c - S) (y - (v - c)) (-(w - (t - s)))
      rw [abs_neg] at h1 h2
      rw [← e] at h1
      linarith
  obtain ⟨k1, k2⟩ := hgoal _ _ _ _ e1 e2 e3 e4
  constructor
  · rw [← hA]; exact k1
  · rw [← hA, ← hB]
    refine k2.trans_eq ?_
    rw [hW]
    push_cast
    ring

theorem kfold_inv (hr : Spec.RelErr rd u) {X : K} (l : List K) : ∀ {S P : K} {k : ℕ} {s : K × K},
    20 * ((k + l.length : ℕ) : K) * u ≤ 1 → KInv u X S P k s → |S| ≤ P → P + (l.map (fun x => |x|)).sum ≤ X →
    KInv u X (S + l.sum) (P + (l.map (fun x => |x|)).sum) (k + l.length) (l.foldl (Spec.kstep rd) s) := by
  induction l with
  | nil => intro S P k s _ h _ _; simpa using h
  | cons v l ih =>
    intro S P k s hu h hS hX
    simp only [List.map_cons, List.sum_cons, List.length_cons] at hu hX ⊢
    have hl : 0 ≤ (l.map (fun x => |x|)).sum := List.sum_nonneg (by
      intro x hx; obtain ⟨y, _, rfl⟩ := List.mem_map.1 hx; exact abs_nonneg y)
    have h0 := hr.nonneg
    have hu' : 20 * ((k : K) + 1) * u ≤ 1 := by
      push_cast at hu
      have : (0 : K) ≤ (l.length : K) := Nat.cast_nonneg _
      nlinarith
    have := ih (S := S + v) (P := P + |v|) (k := k + 1) (by rw [show k + 1 + l.length = k + (l.length + 1) by omega]; exact hu)
      (kstep_inv hr hu' h hS (by linarith)) ((abs_add_le S v).trans (by linarith)) (by linarith)
    rw [List.foldl_cons, show k + (l.length + 1) = k + 1 + l.length by omega, ← add_assoc, ← add_assoc]
    exact this

/-- A compensated sum of at most `1/(20u)` terms is off by at most `8u` times the sum of the absolute values. -/
theorem kfold_error (hr : Spec.RelErr rd u) (l : List K) (hu : 20 * (l.length : K) * u ≤ 1) :
    |(l.foldl (Spec.kstep rd) (0, 0)).1 - l.sum| ≤ 8 * u * (l.map (fun x => |x|)).sum := by
  have h := kfold_inv hr l (X := (l.map (fun x => |x|)).sum) (S := 0) (P := 0) (k := 0) (s := (0, 0))
    (by simpa using hu) ⟨by
      have : 0 ≤ (l.map (fun x => |x|)).sum := List.sum_nonneg (by
        intro x hx; obtain ⟨y, _, rfl⟩ := List.mem_map.1 hx; exact abs_nonneg y)
      have := mul_nonneg hr.nonneg this
      simp only [abs_zero]; linarith, by simp⟩ (by simp) (by simp)
  have hX : 0 ≤ (l.map (fun x => |x|)).sum := List.sum_nonneg (by
    intro x hx; obtain ⟨y, _, rfl⟩ := List.mem_map.1 hx; exact abs_nonneg y)
  obtain ⟨h1, h2⟩ := h
  simp only [zero_add] at h1 h2
  set X := (l.map (fun x => |x|)).sum
  set s := l.foldl (Spec.kstep rd) (0, 0)
  have e : s.1 - l.sum = (s.1 - s.2 - l.sum) + s.2 := by ring
  have h3 := abs_add_le (s.1 - s.2 - l.sum) s.2
  rw [← e] at h3
  have h4 : 20 * ((l.length : K) * (u * (u * X))) ≤ u * X := by
    have := mul_le_mul_of_nonneg_right hu (mul_nonneg hr.nonneg hX)
    linarith
  linarith

end Trikit
