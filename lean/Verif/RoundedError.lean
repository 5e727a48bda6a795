import Verif.RoundedLemmas
import Mathlib.Algebra.Order.Ring.Pow
import Mathlib.Tactic.Positivity
import Mathlib.Tactic.GCongr

/-!
# Relative errors

`Spec.Near u k x y`: `y` differs from `x` by at most `k` relative errors of size `u`.
-/

set_option linter.unusedSectionVars false

namespace Trikit

variable {K : Type} [Field K] [LinearOrder K] [IsStrictOrderedRing K]

/-- `rd` changes every number by at most the fraction `u` of its size (float64, round to nearest, no underflow:
`u = 2⁻⁵³`). -/
structure Spec.RelErr (rd : K → K) (u : K) : Prop where
  nonneg : 0 ≤ u
  lt_one : u < 1
  err : ∀ x, |rd x - x| ≤ u * |x|

def Spec.Near (u : K) (k : ℕ) (x y : K) : Prop := (1 - u) ^ k * x ≤ y ∧ (1 - u) ^ k * y ≤ x

section near
variable {u : K}

theorem near_refl (h0 : 0 ≤ u) (h1 : u < 1) {k : ℕ} {x : K} (hx : 0 < x) : Spec.Near u k x x := by
  have : (1 - u) ^ k ≤ 1 := pow_le_one₀ (by linarith) (by linarith)
  exact ⟨by nlinarith, by nlinarith⟩

theorem near_mono (h0 : 0 ≤ u) (h1 : u < 1) {k k' : ℕ} (hk : k ≤ k') {x y : K} (hx : 0 < x) (hy : 0 < y)
    (h : Spec.Near u k x y) : Spec.Near u k' x y := by
  have : (1 - u) ^ k' ≤ (1 - u) ^ k := pow_le_pow_of_le_one (by linarith) (by linarith) hk
  exact ⟨(mul_le_mul_of_nonneg_right this hx.le).trans h.1, (mul_le_mul_of_nonneg_right this hy.le).trans h.2⟩

theorem near_trans (h1 : u < 1) {k k' : ℕ} {x y z : K} (h : Spec.Near u k x y) (h' : Spec.Near u k' y z) :
    Spec.Near u (k + k') x z := by
  have p : ∀ m : ℕ, 0 ≤ (1 - u) ^ m := fun m => pow_nonneg (by linarith) m
  constructor
  · rw [pow_add, mul_comm ((1 - u) ^ k), mul_assoc]
    exact (mul_le_mul_of_nonneg_left h.1 (p k')).trans h'.1
  · rw [pow_add, mul_assoc]
    exact (mul_le_mul_of_nonneg_left h'.2 (p k)).trans h.2

theorem near_mul (h1 : u < 1) {k k' : ℕ} {x y x' y' : K} (hx : 0 < x) (hy : 0 < y) (hx' : 0 < x') (hy' : 0 < y')
    (h : Spec.Near u k x y) (h' : Spec.Near u k' x' y') : Spec.Near u (k + k') (x * x') (y * y') := by
  have p : ∀ m : ℕ, 0 ≤ (1 - u) ^ m := fun m => pow_nonneg (by linarith) m
  constructor
  · calc (1 - u) ^ (k + k') * (x * x') = ((1 - u) ^ k * x) * ((1 - u) ^ k' * x') := by rw [pow_add]; ring
      _ ≤ y * y' := mul_le_mul h.1 h'.1 (mul_nonneg (p _) hx'.le) hy.le
  · calc (1 - u) ^ (k + k') * (y * y') = ((1 - u) ^ k * y) * ((1 - u) ^ k' * y') := by rw [pow_add]; ring
      _ ≤ x * x' := mul_le_mul h.2 h'.2 (mul_nonneg (p _) hy'.le) hx.le

theorem near_inv {k : ℕ} {x y : K} (hx : 0 < x) (hy : 0 < y) (h : Spec.Near u k x y) :
    Spec.Near u k x⁻¹ y⁻¹ := by
  constructor
  · rw [← div_eq_mul_inv, div_le_iff₀ hx, inv_mul_eq_div, le_div_iff₀ hy]; exact h.2
  · rw [← div_eq_mul_inv, div_le_iff₀ hy, inv_mul_eq_div, le_div_iff₀ hx]; exact h.1

theorem near_div (h1 : u < 1) {k k' : ℕ} {x y x' y' : K} (hx : 0 < x) (hy : 0 < y) (hx' : 0 < x') (hy' : 0 < y')
    (h : Spec.Near u k x y) (h' : Spec.Near u k' x' y') : Spec.Near u (k + k') (x / x') (y / y') := by
  rw [div_eq_mul_inv, div_eq_mul_inv]
  exact near_mul h1 hx hy (inv_pos.2 hx') (inv_pos.2 hy') h (near_inv hx' hy' h')

theorem near_add {k : ℕ} {x y x' y' : K} (h : Spec.Near u k x y) (h' : Spec.Near u k x' y') :
    Spec.Near u k (x + x') (y + y') := by
  constructor
  · rw [mul_add]; exact add_le_add h.1 h'.1
  · rw [mul_add]; exact add_le_add h.2 h'.2

theorem rd_pos {rd : K → K} (h : Spec.RelErr rd u) {x : K} (hx : 0 < x) : 0 < rd x := by
  have := h.err x
  rw [abs_of_pos hx, abs_le] at this
  have := h.lt_one
  nlinarith

theorem near_rd {rd : K → K} (h : Spec.RelErr rd u) {x : K} (hx : 0 < x) : Spec.Near u 1 x (rd x) := by
  have := h.err x
  rw [abs_of_pos hx, abs_le] at this
  have h1 := h.lt_one
  have h0 := h.nonneg
  unfold Spec.Near
  rw [pow_one]
  constructor
  · nlinarith
  · have : (1 - u) * rd x ≤ (1 - u) * ((1 + u) * x) := mul_le_mul_of_nonneg_left (by linarith) (by linarith)
    nlinarith [mul_nonneg (mul_nonneg h0 h0) hx.le]

theorem near_rd' {rd : K → K} (h : Spec.RelErr rd u) {k : ℕ} {x y : K} (hy : 0 < y) (hn : Spec.Near u k x y) :
    Spec.Near u (k + 1) x (rd y) := near_trans h.lt_one hn (near_rd h hy)

/-- Near numbers differ by little. -/
theorem near_err (h0 : 0 ≤ u) (h1 : u < 1) {k : ℕ} (hk : 2 * (k : K) * u ≤ 1) {x y : K} (hx : 0 < x)
    (h : Spec.Near u k x y) : |y - x| ≤ 2 * (k : K) * u * x := by
  have hb : 1 - (k : K) * u ≤ (1 - u) ^ k := by
    have := one_add_mul_le_pow (a := -u) (by linarith) k
    have e : (1 + -u) = 1 - u := by ring
    rw [e] at this
    linarith
  have hku : 0 ≤ (k : K) * u := mul_nonneg (Nat.cast_nonneg k) h0
  have hy : 0 ≤ y := le_trans (mul_nonneg (pow_nonneg (by linarith) k) hx.le) h.1
  rw [abs_le]
  constructor
  · have := (mul_le_mul_of_nonneg_right hb hx.le).trans h.1
    nlinarith [mul_nonneg hku hx.le]
  · have h3 := (mul_le_mul_of_nonneg_right hb hy).trans h.2
    -- (1 - ku) y ≤ x and (1 - ku)(1 + 2ku) ≥ 1
    have h4 : x ≤ (1 - (k : K) * u) * ((1 + 2 * (k : K) * u) * x) := by
      have : 0 ≤ (k : K) * u * (1 - 2 * ((k : K) * u)) := mul_nonneg hku (by linarith)
      nlinarith [mul_nonneg this hx.le]
    have h5 : 0 < 1 - (k : K) * u := by linarith
    have := le_of_mul_le_mul_left (h3.trans h4) h5
    linarith

/-! ### sums -/

theorem tree_near {rd : K → K} (h : Spec.RelErr rd u) {a b : ℕ → K} {k : ℕ} (s : SumTree)
    (ha : ∀ i ∈ s.leaves, 0 < a i) (hb : ∀ i ∈ s.leaves, 0 < b i) (hn : ∀ i ∈ s.leaves, Spec.Near u k (a i) (b i)) :
    0 < (s.leaves.map a).sum ∧ 0 < s.eval rd b ∧
      Spec.Near u (k + (s.leaves.length - 1)) (s.leaves.map a).sum (s.eval rd b) := by
  induction s with
  | leaf i =>
    simp only [SumTree.leaves, SumTree.eval, List.mem_singleton, forall_eq] at *
    simpa using ⟨ha, hb, hn⟩
  | node l r ihl ihr =>
    simp only [SumTree.leaves, SumTree.eval, List.mem_append] at *
    obtain ⟨l1, l2, l3⟩ := ihl (fun i hi => ha i (Or.inl hi)) (fun i hi => hb i (Or.inl hi)) (fun i hi => hn i (Or.inl hi))
    obtain ⟨r1, r2, r3⟩ := ihr (fun i hi => ha i (Or.inr hi)) (fun i hi => hb i (Or.inr hi)) (fun i hi => hn i (Or.inr hi))
    rw [List.map_append, List.sum_append]
    have hl := l.leaves_pos
    have hr := r.leaves_pos
    refine ⟨add_pos l1 r1, rd_pos h (add_pos l2 r2), ?_⟩
    have e : k + ((l.leaves ++ r.leaves).length - 1) = k + (l.leaves.length + r.leaves.length - 2) + 1 := by
      rw [List.length_append]; omega
    rw [e]
    apply near_rd' h (add_pos l2 r2)
    exact near_add (near_mono h.nonneg h.lt_one (by omega) l1 l2 l3)
      (near_mono h.nonneg h.lt_one (by omega) r1 r2 r3)

/-- Rounded sum of positive numbers. -/
theorem sum_near {rd : K → K} (h : Spec.RelErr rd u) {br : ℕ → SumTree} (hbr : Spec.Bracketing br) {ι : Type}
    {l : List ι} (hl : l ≠ []) {a b : ι → K} {k : ℕ} (ha : ∀ i ∈ l, 0 < a i) (hb : ∀ i ∈ l, 0 < b i)
    (hn : ∀ i ∈ l, Spec.Near u k (a i) (b i)) :
    0 < (l.map a).sum ∧ 0 < roundedSum br rd (l.map b) ∧
      Spec.Near u (k + (l.length - 1)) (l.map a).sum (roundedSum br rd (l.map b)) := by
  have hpos := List.length_pos_of_ne_nil hl
  have hp := hbr l.length hpos
  have hlt : ∀ i ∈ (br l.length).leaves, i < l.length := fun i hi => List.mem_range.1 (hp.subset hi)
  have key := tree_near h (a := fun i => (l.map a).getD i 0) (b := fun i => (l.map b).getD i 0) (k := k) (br l.length)
    (by intro i hi; have := hlt i hi; simp [List.getD_eq_getElem?_getD, this, ha])
    (by intro i hi; have := hlt i hi; simp [List.getD_eq_getElem?_getD, this, hb])
    (by intro i hi; have := hlt i hi; simp [List.getD_eq_getElem?_getD, this, hn])
  have hs : ((br l.length).leaves.map (fun i => (l.map a).getD i 0)).sum = (l.map a).sum := by
    rw [(hp.map _).sum_eq]
    have := map_getD_range (l.map a) 0
    rw [List.length_map] at this
    rw [this]
  rw [hs, hp.length_eq, List.length_range] at key
  unfold roundedSum
  rw [if_neg (by simpa using hl), List.length_map]
  exact key

/-- Rounded sum of numbers of any sign. -/
theorem tree_err {rd : K → K} (h : Spec.RelErr rd u) {a b e : ℕ → K} (s : SumTree)
    (hn : ∀ i ∈ s.leaves, |b i - a i| ≤ e i) :
    |s.eval rd b - (s.leaves.map a).sum| ≤ (1 + u) ^ (s.leaves.length - 1) * (s.leaves.map (fun i => |a i| + e i)).sum
      - (s.leaves.map (fun i => |a i|)).sum ∧
    |(s.leaves.map a).sum| ≤ (s.leaves.map (fun i => |a i|)).sum ∧
    0 ≤ (s.leaves.map (fun i => |a i| + e i)).sum := by
  induction s with
  | leaf i =>
    simp only [SumTree.leaves, SumTree.eval, List.mem_singleton, forall_eq, List.map_cons, List.map_nil,
      List.sum_cons, List.sum_nil, List.length_singleton, add_zero, Nat.sub_self, pow_zero, one_mul] at *
    have := abs_nonneg (b i - a i)
    exact ⟨by linarith, le_refl _, by have := abs_nonneg (a i); linarith⟩
  | node l r ihl ihr =>
    simp only [SumTree.leaves, SumTree.eval, List.mem_append, List.map_append, List.sum_append] at *
    obtain ⟨l1, l2, l3⟩ := ihl (fun i hi => hn i (Or.inl hi))
    obtain ⟨r1, r2, r3⟩ := ihr (fun i hi => hn i (Or.inr hi))
    have hl := l.leaves_pos
    have hr := r.leaves_pos
    refine ⟨?_, (abs_add_le _ _).trans (add_le_add l2 r2), add_nonneg l3 r3⟩
    have h0 := h.nonneg
    set sl := l.eval rd b
    set sr := r.eval rd b
    set al := (l.leaves.map a).sum
    set ar := (r.leaves.map a).sum
    set Al := (l.leaves.map (fun i => |a i|)).sum
    set Ar := (r.leaves.map (fun i => |a i|)).sum
    set Bl := (l.leaves.map (fun i => |a i| + e i)).sum
    set Br := (r.leaves.map (fun i => |a i| + e i)).sum
    have hlen : (l.leaves ++ r.leaves).length - 1 = (l.leaves.length + r.leaves.length - 2) + 1 := by
      rw [List.length_append]; omega
    rw [hlen, pow_succ]
    set P := (1 + u) ^ (l.leaves.length + r.leaves.length - 2)
    have pl : (1 + u) ^ (l.leaves.length - 1) * Bl ≤ P * Bl :=
      mul_le_mul_of_nonneg_right (pow_le_pow_right₀ (by linarith) (by omega)) l3
    have pr : (1 + u) ^ (r.leaves.length - 1) * Br ≤ P * Br :=
      mul_le_mul_of_nonneg_right (pow_le_pow_right₀ (by linarith) (by omega)) r3
    have e1 : |rd (sl + sr) - (al + ar)| ≤ u * |sl + sr| + (|sl - al| + |sr - ar|) := by
      have : rd (sl + sr) - (al + ar) = (rd (sl + sr) - (sl + sr)) + ((sl - al) + (sr - ar)) := by ring
      rw [this]
      exact (abs_add_le _ _).trans (add_le_add (h.err _) (abs_add_le _ _))
    have e2 : |sl + sr| ≤ (|sl - al| + Al) + (|sr - ar| + Ar) := by
      have : sl + sr = ((sl - al) + al) + ((sr - ar) + ar) := by ring
      rw [this]
      refine (abs_add_le _ _).trans (add_le_add ?_ ?_)
      · exact (abs_add_le _ _).trans (add_le_add_right l2 _)
      · exact (abs_add_le _ _).trans (add_le_add_right r2 _)
    have e3 := mul_le_mul_of_nonneg_left e2 h0
    have e4 : (1 + u) * (|sl - al| + |sr - ar|) ≤ (1 + u) * ((P * Bl - Al) + (P * Br - Ar)) :=
      mul_le_mul_of_nonneg_left (by linarith) (by linarith)
    nlinarith

theorem sum_err {rd : K → K} (h : Spec.RelErr rd u) {br : ℕ → SumTree} (hbr : Spec.Bracketing br) {ι : Type}
    {l : List ι} (hl : l ≠ []) {a b e : ι → K} (hn : ∀ i ∈ l, |b i - a i| ≤ e i) :
    |roundedSum br rd (l.map b) - (l.map a).sum| ≤
      (1 + u) ^ (l.length - 1) * (l.map (fun i => |a i| + e i)).sum - (l.map (fun i => |a i|)).sum := by
  have hpos := List.length_pos_of_ne_nil hl
  have hp := hbr l.length hpos
  have hlt : ∀ i ∈ (br l.length).leaves, i < l.length := fun i hi => List.mem_range.1 (hp.subset hi)
  have key := (tree_err h (a := fun i => (l.map a).getD i 0) (b := fun i => (l.map b).getD i 0)
    (e := fun i => (l.map e).getD i 0) (br l.length)
    (by intro i hi; have := hlt i hi; simp [List.getD_eq_getElem?_getD, this, hn])).1
  have hs : ∀ f : ι → K, ((br l.length).leaves.map (fun i => (l.map f).getD i 0)).sum = (l.map f).sum := by
    intro f
    rw [(hp.map _).sum_eq]
    have := map_getD_range (l.map f) 0
    rw [List.length_map] at this
    rw [this]
  have e1 : (br l.length).leaves.map (fun i => |(l.map a).getD i 0| + (l.map e).getD i 0) =
      (br l.length).leaves.map (fun i => (l.map (fun x => |a x| + e x)).getD i 0) := by
    apply List.map_congr_left
    intro i hi
    have := hlt i hi
    simp [List.getD_eq_getElem?_getD, this]
  have e2 : (br l.length).leaves.map (fun i => |(l.map a).getD i 0|) =
      (br l.length).leaves.map (fun i => (l.map (fun x => |a x|)).getD i 0) := by
    apply List.map_congr_left
    intro i hi
    have := hlt i hi
    simp [List.getD_eq_getElem?_getD, this]
  rw [e1, e2, hs, hs, hs, hp.length_eq, List.length_range] at key
  unfold roundedSum
  rw [if_neg (by simpa using hl), List.length_map]
  exact key

end near

end Trikit
