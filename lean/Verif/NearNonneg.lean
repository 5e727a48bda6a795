import Verif.RoundedMackLemmas
import Verif.Props.RoundedMack
import Verif.Props.RoundedMackError

/-!
# Relative errors of numbers that may be zero

The recursions of Mack's errors (mack.py:375-383, 427-436, 165-176) in rounded arithmetic against the closed formulas.
-/

set_option linter.unusedSectionVars false

namespace Trikit

variable {K : Type} [Field K] [LinearOrder K] [IsStrictOrderedRing K]

/-- `Spec.Near` for numbers that are not negative. -/
structure Near0 (u : K) (k : ℕ) (x y : K) : Prop where
  left : 0 ≤ x
  right : 0 ≤ y
  near : Spec.Near u k x y

section
variable {u : K} {rd : K → K}

theorem rd_zero (h : Spec.RelErr rd u) : rd 0 = 0 := by
  have h0 := h.err 0
  rw [abs_zero, mul_zero, sub_zero] at h0
  exact abs_eq_zero.1 (le_antisymm h0 (abs_nonneg _))

theorem rd_nonneg (h : Spec.RelErr rd u) {x : K} (hx : 0 ≤ x) : 0 ≤ rd x := by
  rcases eq_or_lt_of_le hx with e | e
  · rw [← e, rd_zero h]
  · exact (rd_pos h e).le

theorem Near0.refl (h : Spec.RelErr rd u) (k : ℕ) {x : K} (hx : 0 ≤ x) : Near0 u k x x := by
  refine ⟨hx, hx, ?_⟩
  rcases eq_or_lt_of_le hx with e | e
  · rw [← e]; constructor <;> simp
  · exact near_refl h.nonneg h.lt_one e

theorem Near0.of {k : ℕ} {x y : K} (hx : 0 < x) (hy : 0 < y) (h : Spec.Near u k x y) : Near0 u k x y :=
  ⟨hx.le, hy.le, h⟩

theorem Near0.mono (h : Spec.RelErr rd u) {k k' : ℕ} {x y : K} (a : Near0 u k x y) (hk : k ≤ k') :
    Near0 u k' x y := by
  refine ⟨a.left, a.right, ?_⟩
  have : (1 - u) ^ k' ≤ (1 - u) ^ k :=
    pow_le_pow_of_le_one (by linarith [h.lt_one]) (by linarith [h.nonneg]) hk
  exact ⟨(mul_le_mul_of_nonneg_right this a.left).trans a.near.1,
    (mul_le_mul_of_nonneg_right this a.right).trans a.near.2⟩

theorem Near0.mul (h : Spec.RelErr rd u) {k k' : ℕ} {x y x' y' : K} (a : Near0 u k x y) (b : Near0 u k' x' y') :
    Near0 u (k + k') (x * x') (y * y') := by
  have p : ∀ m : ℕ, 0 ≤ (1 - u) ^ m := fun m => pow_nonneg (by linarith [h.lt_one]) m
  refine ⟨mul_nonneg a.left b.left, mul_nonneg a.right b.right, ?_, ?_⟩
  · calc (1 - u) ^ (k + k') * (x * x') = ((1 - u) ^ k * x) * ((1 - u) ^ k' * x') := by rw [pow_add]; ring
      _ ≤ y * y' := mul_le_mul a.near.1 b.near.1 (mul_nonneg (p _) b.left) a.right
  · calc (1 - u) ^ (k + k') * (y * y') = ((1 - u) ^ k * y) * ((1 - u) ^ k' * y') := by rw [pow_add]; ring
      _ ≤ x * x' := mul_le_mul a.near.2 b.near.2 (mul_nonneg (p _) b.right) a.left

theorem Near0.sq (h : Spec.RelErr rd u) {k : ℕ} {x y : K} (a : Near0 u k x y) : Near0 u (2 * k) (x ^ 2) (y ^ 2) := by
  rw [_root_.sq, _root_.sq, two_mul]; exact a.mul h a

theorem Near0.div (h : Spec.RelErr rd u) {k k' : ℕ} {x y x' y' : K} (a : Near0 u k x y) (hx' : 0 < x') (hy' : 0 < y')
    (b : Spec.Near u k' x' y') : Near0 u (k + k') (x / x') (y / y') := by
  rw [div_eq_mul_inv, div_eq_mul_inv]
  exact a.mul h (Near0.of (inv_pos.2 hx') (inv_pos.2 hy') (near_inv hx' hy' b))

theorem Near0.add {k : ℕ} {x y x' y' : K} (a : Near0 u k x y) (b : Near0 u k x' y') :
    Near0 u k (x + x') (y + y') :=
  ⟨add_nonneg a.left b.left, add_nonneg a.right b.right, near_add a.near b.near⟩

theorem Near0.round (h : Spec.RelErr rd u) {k : ℕ} {x y : K} (a : Near0 u k x y) : Near0 u (k + 1) x (rd y) := by
  rcases eq_or_lt_of_le a.right with e | e
  · rw [← e, rd_zero h, e]; exact a.mono h (by omega)
  · exact ⟨a.left, (rd_pos h e).le, near_rd' h e a.near⟩

theorem Near0.tree (h : Spec.RelErr rd u) {a b : ℕ → K} {k : ℕ} (s : SumTree)
    (hn : ∀ i ∈ s.leaves, Near0 u k (a i) (b i)) :
    Near0 u (k + (s.leaves.length - 1)) (s.leaves.map a).sum (s.eval rd b) := by
  induction s with
  | leaf i =>
    simp only [SumTree.leaves, SumTree.eval, List.mem_singleton, forall_eq] at *
    simpa using hn
  | node l r ihl ihr =>
    simp only [SumTree.leaves, SumTree.eval, List.mem_append] at *
    have hl3 := ihl (fun i hi => hn i (Or.inl hi))
    have hr3 := ihr (fun i hi => hn i (Or.inr hi))
    rw [List.map_append, List.sum_append]
    have hl := l.leaves_pos
    have hr := r.leaves_pos
    have e : k + ((l.leaves ++ r.leaves).length - 1) = k + (l.leaves.length + r.leaves.length - 2) + 1 := by
      rw [List.length_append]; omega
    rw [e]
    exact ((hl3.mono h (k' := k + (l.leaves.length + r.leaves.length - 2)) (by omega)).add (hr3.mono h (by omega))).round h

/-- Rounded sum of numbers that are not negative. -/
theorem Near0.sum (h : Spec.RelErr rd u) {br : ℕ → SumTree} (hbr : Spec.Bracketing br) {ι : Type} {l : List ι}
    {a b : ι → K} {k : ℕ} (hn : ∀ i ∈ l, Near0 u k (a i) (b i)) :
    Near0 u (k + (l.length - 1)) (l.map a).sum (roundedSum br rd (l.map b)) := by
  by_cases hl : l = []
  · rw [hl]; exact Near0.refl h _ le_rfl
  have hpos := List.length_pos_of_ne_nil hl
  have hp := hbr l.length hpos
  have hlt : ∀ i ∈ (br l.length).leaves, i < l.length := fun i hi => List.mem_range.1 (hp.subset hi)
  have key := Near0.tree h (a := fun i => (l.map a).getD i 0) (b := fun i => (l.map b).getD i 0) (k := k) (br l.length)
    (by intro i hi; have := hlt i hi; simp [List.getD_eq_getElem?_getD, this, hn])
  have hs : ((br l.length).leaves.map (fun i => (l.map a).getD i 0)).sum = (l.map a).sum := by
    rw [(hp.map _).sum_eq]
    have := map_getD_range (l.map a) 0
    rw [List.length_map] at this
    rw [this]
  rw [hs, hp.length_eq, List.length_range] at key
  unfold roundedSum
  rw [if_neg (by simpa using hl), List.length_map]
  exact key

/-! ### one origin -/

variable {n : ℕ} {c : ℕ → ℕ → K} {f s v : ℕ → K} {A B C : ℕ} {cell : ℕ → ℕ → Num K} {F S V : ℕ → Num K}

theorem peRowR_near (hr : Spec.RelErr rd u)
    (hcell : ∀ i < n, ∀ j < n, n ≤ i + j + 1 → ∃ x, cell i j = .fin x ∧ Near0 u B (Spec.proj n c f i j) x)
    (hF : ∀ j < n - 1, ∃ x, F j = .fin x ∧ Near0 u A (f j) x) (hS : ∀ j < n - 1, S j = .fin (s j) ∧ 0 ≤ s j)
    {i : ℕ} (hi : i < n) (hi1 : 1 ≤ i) : ∀ m, m < i → ∃ X x,
      peRow (fun i j => .fin (Spec.proj n c f i j)) (fun j => .fin (f j)) (fun j => .fin (s j)) n i m = .fin X ∧
      peRowR rd cell F S n i m = .fin x ∧ Near0 u (B + 1 + m * (2 * A + 3)) X x := by
  intro m
  induction m with
  | zero =>
    intro _
    obtain ⟨x, hx, hx0⟩ := hcell i hi (n - 1 - i) (by omega) (by omega)
    obtain ⟨hs, hs0⟩ := hS (n - 1 - i) (by omega)
    refine ⟨_, rd (x * s (n - 1 - i)), by rw [peRow, Num.fin_mul],
      by simp [peRowR, hx, hs, Num.mulR, Num.rounded], ?_⟩
    exact ((hx0.mul hr (Near0.refl hr 0 hs0)).round hr).mono hr (by omega)
  | succ m ih =>
    intro hmi
    obtain ⟨Y, y, hY, hy, hy0⟩ := ih (by omega)
    obtain ⟨x, hx, hx0⟩ := hcell i hi (n - i + m) (by omega) (by omega)
    obtain ⟨hs, hs0⟩ := hS (n - i + m) (by omega)
    obtain ⟨g, hg, hg0⟩ := hF (n - i + m) (by omega)
    refine ⟨_, rd (rd (rd (g ^ 2) * y) + rd (x * s (n - i + m))),
      by rw [peRow, hY, Num.pow_fin, Num.fin_mul, Num.fin_mul, Num.fin_add], by
      simp [peRowR, hx, hs, hg, hy, Num.mulR, Num.addR, Num.powR, Num.rounded], ?_⟩
    have h1 := (((hg0.sq hr).round hr).mul hr hy0).round hr
    have h2 := (hx0.mul hr (Near0.refl hr 0 hs0)).round hr
    have e : B + 1 + (m + 1) * (2 * A + 3) = (2 * A + 1 + (B + 1 + m * (2 * A + 3)) + 1) + 1 := by ring
    rw [e]
    exact (h1.add (h2.mono hr (by omega))).round hr

theorem paRowR_near (hr : Spec.RelErr rd u)
    (hcell : ∀ i < n, ∀ j < n, n ≤ i + j + 1 → ∃ x, cell i j = .fin x ∧ Near0 u B (Spec.proj n c f i j) x)
    (hF : ∀ j < n - 1, ∃ x, F j = .fin x ∧ Near0 u A (f j) x)
    (hV : ∀ j < n - 1, ∃ x, V j = .fin x ∧ Near0 u C (v j) x)
    {i : ℕ} (hi : i < n) (hi1 : 1 ≤ i) : ∀ m, m < i → ∃ X x,
      paRow (fun i j => .fin (Spec.proj n c f i j)) (fun j => .fin (f j)) (fun j => .fin (v j)) n i m = .fin X ∧
      paRowR rd cell F V n i m = .fin x ∧ Near0 u (2 * B + 2 + C + m * (2 * A + C + 4)) X x := by
  intro m
  induction m with
  | zero =>
    intro _
    obtain ⟨x, hx, hx0⟩ := hcell i hi (n - 1 - i) (by omega) (by omega)
    obtain ⟨z, hz, hz0⟩ := hV (n - 1 - i) (by omega)
    refine ⟨_, rd (rd (x ^ 2) * z), by rw [paRow, Num.pow_fin, Num.fin_mul],
      by simp [paRowR, hx, hz, Num.mulR, Num.powR, Num.rounded], ?_⟩
    exact ((((hx0.sq hr).round hr).mul hr hz0).round hr).mono hr (by omega)
  | succ m ih =>
    intro hmi
    obtain ⟨Y, y, hY, hy, hy0⟩ := ih (by omega)
    obtain ⟨x, hx, hx0⟩ := hcell i hi (n - i + m) (by omega) (by omega)
    obtain ⟨z, hz, hz0⟩ := hV (n - i + m) (by omega)
    obtain ⟨g, hg, hg0⟩ := hF (n - i + m) (by omega)
    refine ⟨_, rd (rd (rd (rd (g ^ 2) * y) + rd (rd (x ^ 2) * z)) + rd (z * y)),
      by rw [paRow, hY, Num.pow_fin, Num.pow_fin, Num.fin_mul, Num.fin_mul, Num.fin_mul, Num.fin_add, Num.fin_add], by
      simp [paRowR, hx, hz, hg, hy, Num.mulR, Num.addR, Num.powR, Num.rounded], ?_⟩
    set P := 2 * B + 2 + C + m * (2 * A + C + 4) with hP
    have h1 := (((hg0.sq hr).round hr).mul hr hy0).round hr
    have h2 := (((hx0.sq hr).round hr).mul hr hz0).round hr
    have h3 := (hz0.mul hr hy0).round hr
    have h4 := (h1.add (h2.mono hr (k' := 2 * A + 1 + P + 1) (by omega))).round hr
    have e : 2 * B + 2 + C + (m + 1) * (2 * A + C + 4) = (2 * A + C + P + 3) + 1 := by rw [hP]; ring
    rw [e]
    exact ((h4.mono hr (by omega)).add (h3.mono hr (by omega))).round hr

/-! ### the total -/

variable {br : ℕ → SumTree} {t : Tri K}

theorem mseTotalRowR_near (hr : Spec.RelErr rd u) (hb : Spec.Bracketing br) (h : Spec.Stair t n c)
    (hp : Spec.Positive n c) (hobs : ∀ i j, i + j < n → cell i j = .fin (c i j))
    (hF : ∀ j < n - 1, ∃ x, F j = .fin x ∧ 0 < x ∧ 0 < f j ∧ Spec.Near u A (f j) x)
    (hS : ∀ j < n - 1, S j = .fin (s j) ∧ 0 ≤ s j)
    {mse : List (Num K)} {M M' U' : ℕ → K} {D E : ℕ} (hmse : mse = (List.range n).map (fun i => .fin (M' i)))
    (hM : ∀ i < n, Near0 u D (M i) (M' i)) (hU : ∀ i < n, Near0 u E (Spec.ult n c f i) (U' i)) {i : ℕ} (hi : i < n) :
    ∃ x, mseTotalRowR br rd cell F S n t.origins mse ((List.range n).map (fun i => .fin (U' i))) i = .fin x ∧
      Near0 u (max D (2 * E + 2 * A + 3 * n + 6) + 1) (M i + Spec.crossTerm n c f s i) x := by
  have hg : ∀ g : ℕ → K, ((List.range n).map (fun i => (Num.fin (g i) : Num K))).getD i .nan =
      .fin (g i) := by
    intro g
    rw [List.getD_eq_getElem?_getD]; simp [hi]
  have hlater : sumSkipR br rd (((t.origins.zip ((List.range n).map
      (fun i => (Num.fin (U' i) : Num K)))).filter
        (fun p => decide (t.origins.getD i 0 < p.1))).map Prod.snd) =
      .fin (roundedSum br rd ((List.range (n - (i + 1))).map (fun k => U' (i + 1 + k)))) := by
    conv_lhs => rw [show t.origins.getD i 0 = t.oAt i from rfl, h.origins_eq]
    rw [List.zip_map', List.filter_map, List.map_map,
      filter_range_gt hi (by
        intro k hk
        simp only [Function.comp_apply, decide_eq_true_eq]
        exact h.oAt_lt hi hk), List.map_map, ← sumSkipR_fin, List.map_map]
    rfl
  have hlat : Near0 u (E + n) (∑ k ∈ Finset.Ico (i + 1) n, Spec.ult n c f k)
      (roundedSum br rd ((List.range (n - (i + 1))).map (fun k => U' (i + 1 + k)))) := by
    have := Near0.sum hr hb (l := List.range (n - (i + 1))) (a := fun k => Spec.ult n c f (i + 1 + k))
      (b := fun k => U' (i + 1 + k)) (k := E) (fun k hk => hU _ (by have := List.mem_range.1 hk; omega))
    rw [Finset.sum_Ico_eq_sum_range, ← list_range_sum]
    exact this.mono hr (by simp; omega)
  have hcol : ∀ p < n - 1, 0 < ∑ r ∈ Finset.range (n - 1 - p), c r p ∧
      0 < roundedSum (fun k => seqTree (k - 1)) rd ((List.range (n - 1 - p)).map (fun r => c r p)) ∧
      Spec.Near u n (∑ r ∈ Finset.range (n - 1 - p), c r p)
        (roundedSum (fun k => seqTree (k - 1)) rd ((List.range (n - 1 - p)).map (fun r => c r p))) := by
    intro p hpn
    have hc : ∀ r ∈ List.range (n - 1 - p), 0 < c r p := fun r hr => hp _ _ (by have := List.mem_range.1 hr; omega)
    obtain ⟨h1, h2, h3⟩ := sum_near hr seqTree_bracketing (l := List.range (n - 1 - p)) (by simp; omega) (k := 0) hc hc
      (fun r hr' => near_refl hr.nonneg hr.lt_one (hc r hr'))
    rw [← list_range_sum]
    exact ⟨h1, h2, near_mono hr.nonneg hr.lt_one (by simp; omega) h1 h2 h3⟩
  have hterm : ∀ p < n - 1, ∃ y, Num.divR rd (Num.divR rd (S p) ((F p).powR rd 2))
      (pySumR rd ((List.range (n - 1 - p)).map (fun r => cell r p))) = .fin y ∧
      Near0 u (2 * A + n + 3) (s p / f p ^ 2 / ∑ r ∈ Finset.range (n - 1 - p), c r p) y := by
    intro p hpn
    obtain ⟨x, hx, hx0, hf0, hxn⟩ := hF p hpn
    obtain ⟨hs, hs0⟩ := hS p hpn
    obtain ⟨h1, h2, h3⟩ := hcol p hpn
    have e : (List.range (n - 1 - p)).map (fun r => cell r p) =
        ((List.range (n - 1 - p)).map (fun r => c r p)).map Num.fin := by
      rw [List.map_map]
      apply List.map_congr_left
      intro r hr'
      rw [List.mem_range] at hr'
      exact hobs _ _ (by omega)
    have hsq : 0 < rd (x ^ 2) := rd_pos hr (pow_pos hx0 2)
    have hn1 := ((Near0.of hf0 hx0 hxn).sq hr).round hr
    have hd1 := ((Near0.refl hr 0 hs0).div hr (pow_pos hf0 2) hsq hn1.near).round hr
    have hd2 := (hd1.div hr h1 h2 h3).round hr
    refine ⟨_, ?_, hd2.mono hr (by omega)⟩
    rw [hs, hx, e]
    unfold pySumR Num.divR Num.powR
    rw [sumR_fin, Num.pow_fin]
    simp only [Num.rounded]
    rw [Num.fin_div _ _ hsq.ne']
    simp only [Num.rounded]
    rw [Num.fin_div _ _ h2.ne']
  choose! Y hY hYn using hterm
  have hrh : pySumR rd ((List.range i).map (fun k =>
      Num.divR rd (Num.divR rd (S (n - 1 - i + k)) ((F (n - 1 - i + k)).powR rd 2))
        (pySumR rd ((List.range (n - 1 - (n - 1 - i + k))).map (fun r => cell r (n - 1 - i + k)))))) =
      .fin (roundedSum (fun k => seqTree (k - 1)) rd ((List.range i).map (fun k => Y (n - 1 - i + k)))) := by
    unfold pySumR at hY ⊢
    rw [← sumR_fin, List.map_map]
    congr 1
    apply List.map_congr_left
    intro k hk
    rw [List.mem_range] at hk
    exact hY _ (by omega)
  have hrn : Near0 u (2 * A + 2 * n + 3) (∑ p ∈ Finset.Ico (n - 1 - i) (n - 1),
        s p / f p ^ 2 / ∑ r ∈ Finset.range (n - 1 - p), c r p)
      (roundedSum (fun k => seqTree (k - 1)) rd ((List.range i).map (fun k => Y (n - 1 - i + k)))) := by
    have := Near0.sum hr seqTree_bracketing (l := List.range i)
      (a := fun k => s (n - 1 - i + k) / f (n - 1 - i + k) ^ 2 /
        ∑ r ∈ Finset.range (n - 1 - (n - 1 - i + k)), c r (n - 1 - i + k))
      (b := fun k => Y (n - 1 - i + k)) (k := 2 * A + n + 3)
      (fun k hk => hYn _ (by have := List.mem_range.1 hk; omega))
    rw [Finset.sum_Ico_eq_sum_range, show n - 1 - (n - 1 - i) = i by omega, ← list_range_sum]
    exact this.mono hr (by simp; omega)
  unfold mseTotalRowR
  simp only
  rw [hlater, hrh, hmse, hg M', hg U']
  refine ⟨_, rfl, ?_⟩
  have h1 := ((Near0.refl hr 0 (zero_le_two : (0 : K) ≤ 2)).mul hr (hU i hi)).round hr
  have h2 := (h1.mul hr hlat).round hr
  have h3 := (h2.mul hr hrn).round hr
  exact (((hM i hi).mono hr (le_max_left _ _)).add (h3.mono hr (by
    refine le_trans ?_ (le_max_right _ _); omega))).round hr

end

end Trikit
