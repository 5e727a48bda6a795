import Verif.Props.AvgOrder

/-!
# C221: one uncertain cumulative amount

C200 changes the amount of one period and with it all later cumulative amounts of the origin.  Here one cumulative amount of
the triangle is uncertain, and the others are known.  `base_cl` (base.py:25-170) with simple averages of any window, or volume
weighted averages of all years, gives estimates that are convex in the amount; with weighted averages of a window and medial
averages it does not.
-/

set_option linter.unusedSectionVars false

namespace Trikit

section
variable {K : Type} [Field K] [LinearOrder K] [IsStrictOrderedRing K]
variable {n : ℕ} {c : ℕ → ℕ → K}

/-! ## specification -/

/-- The amounts with `z` for origin `r` in period `k`. -/
def Spec.withAmount (c : ℕ → ℕ → K) (r k : ℕ) (z : K) : ℕ → ℕ → K := fun i j => if i = r ∧ j = k then z else c i j

/-- Ultimates, reserves and their totals in `q` are at most the averages of those in `qx` and `qy`, with weights `a`, `b`. -/
structure Spec.AtMostMix (n : ℕ) (a b : K) (q qx qy : BaseResult K) : Prop where
  rows : ∀ i < n, ∃ row rx ry u ux uy v vx vy, q.rows[i]? = some row ∧ qx.rows[i]? = some rx ∧ qy.rows[i]? = some ry ∧
    row.ultimate = .fin u ∧ rx.ultimate = .fin ux ∧ ry.ultimate = .fin uy ∧
    row.reserve = .fin v ∧ rx.reserve = .fin vx ∧ ry.reserve = .fin vy ∧
    u ≤ a * ux + b * uy ∧ v ≤ a * vx + b * vy
  total : ∃ u ux uy v vx vy, q.totUltimate = .fin u ∧ qx.totUltimate = .fin ux ∧ qy.totUltimate = .fin uy ∧
    q.totReserve = .fin v ∧ qx.totReserve = .fin vx ∧ qy.totReserve = .fin vy ∧
    u ≤ a * ux + b * uy ∧ v ≤ a * vx + b * vy

/-! ## functions of one amount -/

/-- `u0 + u1 z + u2 / (s + z)` with coefficients that are not negative. -/
def AmountForm (s : K) (g : K → K) : Prop :=
  ∃ u0 u1 u2, 0 ≤ u0 ∧ 0 ≤ u1 ∧ 0 ≤ u2 ∧ ∀ z, 0 < z → g z = u0 + u1 * z + u2 / (s + z)

theorem inv_mix {a b x y : K} (ha : 0 ≤ a) (hb : 0 ≤ b) (hab : a + b = 1) (hx : 0 < x) (hy : 0 < y) :
    0 < a * x + b * y ∧ 1 / (a * x + b * y) ≤ a * (1 / x) + b * (1 / y) := by
  have hz : 0 < a * x + b * y := by
    rcases ha.eq_or_lt with rfl | ha
    · have : b = 1 := by linarith
      rw [this]; linarith
    · have := mul_pos ha hx
      have := mul_nonneg hb hy.le
      linarith
  refine ⟨hz, ?_⟩
  have e : a * (1 / x) + b * (1 / y) = (a * y + b * x) / (x * y) := by field_simp
  rw [e, div_le_div_iff₀ hz (mul_pos hx hy)]
  obtain rfl : b = 1 - a := by linarith
  nlinarith [mul_nonneg (mul_nonneg ha hb) (sq_nonneg (x - y))]

theorem AmountForm.mix {s : K} (hs : 0 ≤ s) {g : K → K} (h : AmountForm s g) {a b x y : K} (ha : 0 ≤ a) (hb : 0 ≤ b)
    (hab : a + b = 1) (hx : 0 < x) (hy : 0 < y) : g (a * x + b * y) ≤ a * g x + b * g y := by
  obtain ⟨u0, u1, u2, -, -, h2, hg⟩ := h
  obtain ⟨hz, -⟩ := inv_mix ha hb hab hx hy
  obtain ⟨-, h3⟩ := inv_mix ha hb hab (add_pos_of_nonneg_of_pos hs hx) (add_pos_of_nonneg_of_pos hs hy)
  rw [hg _ hz, hg _ hx, hg _ hy]
  have e : s + (a * x + b * y) = a * (s + x) + b * (s + y) := by linear_combination (-s) * hab
  rw [e]
  have h4 := mul_le_mul_of_nonneg_left h3 h2
  have e1 : u2 / (a * (s + x) + b * (s + y)) = u2 * (1 / (a * (s + x) + b * (s + y))) := by ring
  have e2 : a * (u0 + u1 * x + u2 / (s + x)) + b * (u0 + u1 * y + u2 / (s + y)) =
      (a + b) * u0 + u1 * (a * x + b * y) + u2 * (a * (1 / (s + x)) + b * (1 / (s + y))) := by ring
  rw [e1, e2, hab]
  linarith

theorem AmountForm.const (s : K) {u : K} (hu : 0 ≤ u) : AmountForm s (fun _ => u) :=
  ⟨u, 0, 0, hu, le_rfl, le_rfl, fun z _ => by simp⟩

theorem AmountForm.scale {s : K} {g : K → K} (h : AmountForm s g) {m : K} (hm : 0 ≤ m) : AmountForm s (fun z => m * g z) := by
  obtain ⟨u0, u1, u2, h0, h1, h2, hg⟩ := h
  exact ⟨m * u0, m * u1, m * u2, mul_nonneg hm h0, mul_nonneg hm h1, mul_nonneg hm h2, fun z hz => by
    beta_reduce; rw [hg z hz]; ring⟩

theorem AmountForm.congr {s : K} {g g' : K → K} (h : AmountForm s g) (e : ∀ z, 0 < z → g' z = g z) : AmountForm s g' := by
  obtain ⟨u0, u1, u2, h0, h1, h2, hg⟩ := h
  exact ⟨u0, u1, u2, h0, h1, h2, fun z hz => by rw [e z hz, hg z hz]⟩

/-! ## factors -/

/-- How factors depend on the amount `z` of period `k`: the one before rises with it, the one of the period falls, the others
do not change. -/
structure FactorForm (n k : ℕ) (f : K → ℕ → K) (g : ℕ → K) (A B C E s : K) : Prop where
  hA : 0 ≤ A
  hB : 0 ≤ B
  hC : 0 ≤ C
  hE : 0 ≤ E
  hs : 0 ≤ s
  le : B * s ≤ A
  before : ∀ z, 0 < z → ∀ j, j + 1 = k → f z j = A + B * z
  at' : ∀ z, 0 < z → k < n - 1 → f z k = C + E / (s + z)
  last : k = n - 1 → C = 1 ∧ E = 0
  others : ∀ z, 0 < z → ∀ j < n - 1, j ≠ k → j + 1 ≠ k → f z j = g j
  pos : ∀ j < n - 1, 0 ≤ g j

theorem FactorForm.prod {k : ℕ} {f : K → ℕ → K} {g : ℕ → K} {A B C E s : K} (h : FactorForm n k f g A B C E s) (hk : k < n)
    (a : ℕ) : AmountForm s (fun z => ∏ j ∈ Finset.Ico a (n - 1), f z j) := by
  have hg : ∀ a b, b ≤ n - 1 → 0 ≤ ∏ j ∈ Finset.Ico a b, g j := fun a b hb =>
    Finset.prod_nonneg fun j hj => h.pos j (by have := (Finset.mem_Ico.1 hj).2; omega)
  have htop : ∀ z, 0 < z → ∀ a, k < a → ∏ j ∈ Finset.Ico a (n - 1), f z j = ∏ j ∈ Finset.Ico a (n - 1), g j := by
    intro z hz a ha
    refine Finset.prod_congr rfl fun j hj => h.others z hz j (Finset.mem_Ico.1 hj).2 ?_ ?_
    · have := (Finset.mem_Ico.1 hj).1; omega
    · have := (Finset.mem_Ico.1 hj).1; omega
  have hmid : ∀ z, 0 < z → ∏ j ∈ Finset.Ico k (n - 1), f z j = (C + E / (s + z)) * ∏ j ∈ Finset.Ico (k + 1) (n - 1), g j := by
    intro z hz
    rcases Nat.lt_or_ge k (n - 1) with hlt | hge
    · rw [Finset.prod_eq_prod_Ico_succ_bot hlt, h.at' z hz hlt, htop z hz _ (by omega)]
    · obtain ⟨e1, e2⟩ := h.last (by omega)
      rw [Finset.Ico_eq_empty (by omega), Finset.Ico_eq_empty (by omega), e1, e2]
      simp
  rcases Nat.lt_trichotomy a k with hlt | rfl | hgt
  · obtain ⟨p, rfl⟩ : ∃ p, k = p + 1 := ⟨k - 1, by omega⟩
    have hlow : ∀ z, 0 < z → ∏ j ∈ Finset.Ico a p, f z j = ∏ j ∈ Finset.Ico a p, g j := by
      intro z hz
      refine Finset.prod_congr rfl fun j hj => h.others z hz j ?_ ?_ ?_ <;>
      · have := Finset.mem_Ico.1 hj; omega
    have hall : ∀ z, 0 < z → ∏ j ∈ Finset.Ico a (n - 1), f z j =
        ((∏ j ∈ Finset.Ico a p, g j) * ∏ j ∈ Finset.Ico (p + 1 + 1) (n - 1), g j) * ((A + B * z) * (C + E / (s + z))) := by
      intro z hz
      rw [← Finset.prod_Ico_consecutive _ (show a ≤ p + 1 by omega) (show p + 1 ≤ n - 1 by omega), hmid z hz,
        Finset.prod_Ico_succ_top (by omega), hlow z hz, h.before z hz p rfl]
      ring
    refine (AmountForm.scale (g := fun z => (A + B * z) * (C + E / (s + z))) ?_
      (mul_nonneg (hg a p (by omega)) (hg _ _ le_rfl))).congr hall
    refine ⟨A * C + B * E, B * C, (A - B * s) * E, add_nonneg (mul_nonneg h.hA h.hC) (mul_nonneg h.hB h.hE),
      mul_nonneg h.hB h.hC, mul_nonneg (sub_nonneg.2 h.le) h.hE, fun z hz => ?_⟩
    have : s + z ≠ 0 := (add_pos_of_nonneg_of_pos h.hs hz).ne'
    field_simp
    ring
  · refine (AmountForm.scale (g := fun z => C + E / (s + z)) ⟨C, 0, E, h.hC, le_rfl, h.hE, fun z _ => by ring⟩
      (hg (a + 1) (n - 1) le_rfl)).congr fun z hz => ?_
    rw [hmid z hz, mul_comm]
  · exact (AmountForm.const s (hg a (n - 1) le_rfl)).congr fun z hz => htop z hz a hgt

/-- Results from factors of this kind. -/
theorem mix_of_factors {r k : ℕ} (hrk : r + k < n) (hp : Spec.Positive n c) {f : K → ℕ → K} {g : ℕ → K} {A B C E s : K}
    (h : FactorForm n k f g A B C E s) (hE : r + k + 1 = n → E = 0) {tail : K} (ht : 0 < tail)
    {a b x y : K} (ha : 0 ≤ a) (hb : 0 ≤ b) (hab : a + b = 1) (hx : 0 < x) (hy : 0 < y) {t tx ty : Tri K}
    {q qx qy : BaseResult K}
    (hq : Spec.BaseSpec t n (Spec.withAmount c r k (a * x + b * y)) (Spec.withTail (f (a * x + b * y)) n tail) q.ldfs q)
    (hqx : Spec.BaseSpec tx n (Spec.withAmount c r k x) (Spec.withTail (f x) n tail) qx.ldfs qx)
    (hqy : Spec.BaseSpec ty n (Spec.withAmount c r k y) (Spec.withTail (f y) n tail) qy.ldfs qy) :
    Spec.AtMostMix n a b q qx qy := by
  have hlat : ∀ i < n, Spec.withAmount c r k (a * x + b * y) i (n - 1 - i) =
      a * Spec.withAmount c r k x i (n - 1 - i) + b * Spec.withAmount c r k y i (n - 1 - i) := by
    intro i _
    unfold Spec.withAmount
    split_ifs
    · rfl
    · linear_combination (-(c i (n - 1 - i))) * hab
  have hform : ∀ i < n, AmountForm s (fun z => Spec.withAmount c r k z i (n - 1 - i) *
      Spec.tailProd (Spec.withTail (f z) n tail) n (n - 1 - i)) := by
    intro i hi
    by_cases hr : i = r ∧ n - 1 - i = k
    · have hE0 := hE (by omega)
      have hprod : ∃ u, 0 ≤ u ∧ ∀ z, 0 < z → ∏ j ∈ Finset.Ico (n - 1 - i) (n - 1), f z j = u := by
        refine ⟨C * ∏ j ∈ Finset.Ico (k + 1) (n - 1), g j, mul_nonneg h.hC (Finset.prod_nonneg fun j hj =>
          h.pos j (Finset.mem_Ico.1 hj).2), fun z hz => ?_⟩
        rw [hr.2]
        have htop : ∏ j ∈ Finset.Ico (k + 1) (n - 1), f z j = ∏ j ∈ Finset.Ico (k + 1) (n - 1), g j :=
          Finset.prod_congr rfl fun j hj => h.others z hz j (Finset.mem_Ico.1 hj).2
            (by have := (Finset.mem_Ico.1 hj).1; omega) (by have := (Finset.mem_Ico.1 hj).1; omega)
        rcases Nat.lt_or_ge k (n - 1) with hlt | hge
        · rw [Finset.prod_eq_prod_Ico_succ_bot hlt, h.at' z hz hlt, htop, hE0]; simp
        · obtain ⟨e1, -⟩ := h.last (by omega)
          rw [Finset.Ico_eq_empty (by omega), Finset.Ico_eq_empty (by omega), e1]; simp
      obtain ⟨u, hu, hprod⟩ := hprod
      refine ⟨0, u * tail, 0, le_rfl, mul_nonneg hu ht.le, le_rfl, fun z hz => ?_⟩
      beta_reduce
      rw [tailProd_withTail _ _ (by omega), hprod z hz]
      unfold Spec.withAmount
      rw [if_pos hr]
      ring
    · refine ((h.prod (by omega) (n - 1 - i)).scale (m := c i (n - 1 - i) * tail)
        (mul_nonneg (hp _ _ (by omega)).le ht.le)).congr fun z hz => ?_
      rw [tailProd_withTail _ _ (by omega)]
      unfold Spec.withAmount
      rw [if_neg hr]
      ring
  have hult := fun i hi => (hform i hi).mix h.hs ha hb hab hx hy
  refine ⟨fun i hi => ?_, ?_⟩
  · obtain ⟨row, d1, -, -, -, -, -, d2, d3⟩ := hq.rows i hi
    obtain ⟨rx, e1, -, -, -, -, -, e2, e3⟩ := hqx.rows i hi
    obtain ⟨ry, f1, -, -, -, -, -, f2, f3⟩ := hqy.rows i hi
    refine ⟨row, rx, ry, _, _, _, _, _, _, d1, e1, f1, d2, e2, f2, d3, e3, f3, hult i hi, ?_⟩
    have := hult i hi
    have e := hlat i hi
    rw [e] at this ⊢
    linarith
  · refine ⟨_, _, _, _, _, _, hq.totUltimate, hqx.totUltimate, hqy.totUltimate, hq.totReserve, hqx.totReserve, hqy.totReserve,
      ?_, ?_⟩
    · rw [Finset.mul_sum, Finset.mul_sum, ← Finset.sum_add_distrib]
      exact Finset.sum_le_sum fun i hi => hult i (Finset.mem_range.1 hi)
    · rw [Finset.mul_sum, Finset.mul_sum, ← Finset.sum_add_distrib]
      refine Finset.sum_le_sum fun i hi => ?_
      have hi' := Finset.mem_range.1 hi
      have := hult i hi'
      have e := hlat i hi'
      rw [e] at this ⊢
      linarith

theorem withAmount_pos (hp : Spec.Positive n c) {z : K} (hz : 0 < z) (r k : ℕ) :
    Spec.Positive n (Spec.withAmount c r k z) := by
  intro i j hij
  unfold Spec.withAmount
  split_ifs
  · exact hz
  · exact hp i j hij

/-! ## simple averages -/

/-- Simple average of the last `w` link ratios. -/
def Spec.savg (n w : ℕ) (c : ℕ → ℕ → K) (j : ℕ) : K := Spec.mean ((wOrigins n w j).map (fun i => c i (j + 1) / c i j))

theorem sum_affine (L : List ℕ) (r : ℕ) {g : ℕ → K} {d : K} (hg : ∀ i ∈ L, 0 ≤ g i) (hd : r ∈ L → 0 ≤ d) :
    ∃ A B, 0 ≤ A ∧ 0 ≤ B ∧ (r ∉ L → B = 0) ∧ ∀ z, (L.map (fun i => if i = r then d * z else g i)).sum = A + B * z := by
  induction L with
  | nil => exact ⟨0, 0, le_rfl, le_rfl, fun _ => rfl, fun z => by simp⟩
  | cons i L ih =>
    obtain ⟨A, B, hA, hB, hr, h⟩ := ih (fun i hi => hg i (List.mem_cons_of_mem _ hi)) (fun hi => hd (List.mem_cons_of_mem _ hi))
    by_cases e : i = r
    · refine ⟨A, B + d, hA, add_nonneg hB (hd (by simp [e])), fun hn => absurd (by simp [e]) hn, fun z => ?_⟩
      rw [List.map_cons, List.sum_cons, h z, if_pos e]; ring
    · refine ⟨g i + A, B, add_nonneg (hg i (by simp)) hA, hB, fun hn => hr (fun hm => hn (List.mem_cons_of_mem _ hm)), fun z => ?_⟩
      rw [List.map_cons, List.sum_cons, h z, if_neg e]; ring

theorem savg_form (hp : Spec.Positive n c) (w : ℕ) {r k : ℕ} (hrk : r + k < n) :
    ∃ A B C E, FactorForm n k (fun z => Spec.savg n w (Spec.withAmount c r k z)) (Spec.savg n w c) A B C E 0 ∧
      (r + k + 1 = n → E = 0) := by
  have hmem : ∀ {i j}, i ∈ wOrigins n w j → i + j + 1 < n := fun hi => (inWindow_of_mem hi).1
  have hlen : ∀ j, (0 : K) ≤ ((wOrigins n w j).length : K) := fun j => Nat.cast_nonneg _
  obtain ⟨A, B, hA, hB, -, h1⟩ := sum_affine (wOrigins n w (k - 1)) r (g := fun i => c i (k - 1 + 1) / c i (k - 1))
    (d := 1 / c r (k - 1)) (fun i hi => by
      have := hmem hi
      exact div_nonneg (hp _ _ (by omega)).le (hp _ _ (by omega)).le) (fun hi => by
      have := hmem hi
      exact div_nonneg zero_le_one (hp _ _ (by omega)).le)
  obtain ⟨C, E, hC, hE, hE0, h2⟩ := sum_affine (wOrigins n w k) r (g := fun i => c i (k + 1) / c i k)
    (d := c r (k + 1)) (fun i hi => by
      have := hmem hi
      exact div_nonneg (hp _ _ (by omega)).le (hp _ _ (by omega)).le) (fun hi => by
      have := hmem hi
      exact (hp _ _ (by omega)).le)
  have hbefore : ∀ z, 0 < z → ∀ j, j + 1 = k → Spec.savg n w (Spec.withAmount c r k z) j =
      A / ((wOrigins n w (k - 1)).length : K) + B / ((wOrigins n w (k - 1)).length : K) * z := by
    rintro z - j rfl
    rw [Nat.add_sub_cancel] at h1 ⊢
    unfold Spec.savg Spec.mean
    rw [List.length_map]
    have e : (wOrigins n w j).map (fun i => Spec.withAmount c r (j + 1) z i (j + 1) / Spec.withAmount c r (j + 1) z i j) =
        (wOrigins n w j).map (fun i => if i = r then 1 / c r j * z else c i (j + 1) / c i j) := by
      refine List.map_congr_left fun i _ => ?_
      unfold Spec.withAmount
      rw [if_neg (show ¬ (i = r ∧ j = j + 1) by omega)]
      by_cases hi : i = r
      · rw [if_pos ⟨hi, rfl⟩, if_pos hi, hi]; ring
      · rw [if_neg (fun hh => hi hh.1), if_neg hi]
    rw [e, h1 z]
    ring
  have hat : ∀ z, 0 < z → Spec.savg n w (Spec.withAmount c r k z) k =
      C / ((wOrigins n w k).length : K) + E / ((wOrigins n w k).length : K) / (0 + z) := by
    intro z hz
    unfold Spec.savg Spec.mean
    rw [List.length_map]
    have e : (wOrigins n w k).map (fun i => Spec.withAmount c r k z i (k + 1) / Spec.withAmount c r k z i k) =
        (wOrigins n w k).map (fun i => if i = r then c r (k + 1) * z⁻¹ else c i (k + 1) / c i k) := by
      refine List.map_congr_left fun i _ => ?_
      unfold Spec.withAmount
      rw [if_neg (show ¬ (i = r ∧ k + 1 = k) by omega)]
      by_cases hi : i = r
      · rw [if_pos ⟨hi, rfl⟩, if_pos hi, hi, div_eq_mul_inv]
      · rw [if_neg (fun hh => hi hh.1), if_neg hi]
    rw [e, h2 z⁻¹, zero_add]
    ring
  have hothers : ∀ z, 0 < z → ∀ j < n - 1, j ≠ k → j + 1 ≠ k → Spec.savg n w (Spec.withAmount c r k z) j = Spec.savg n w c j := by
    intro z _ j _ hj1 hj2
    unfold Spec.savg
    congr 1
    refine List.map_congr_left fun i _ => ?_
    unfold Spec.withAmount
    rw [if_neg (fun hh => hj2 hh.2), if_neg (fun hh => hj1 hh.2)]
  have hpos : ∀ j < n - 1, 0 ≤ Spec.savg n w c j := by
    intro j hj
    refine div_nonneg (List.sum_nonneg fun x hx => ?_) (Nat.cast_nonneg _)
    obtain ⟨i, hi, rfl⟩ := List.mem_map.1 hx
    have := hmem hi
    exact div_nonneg (hp _ _ (by omega)).le (hp _ _ (by omega)).le
  by_cases hk : k < n - 1
  · refine ⟨_, _, _, _, ⟨div_nonneg hA (hlen _), div_nonneg hB (hlen _), div_nonneg hC (hlen _), div_nonneg hE (hlen _), le_rfl,
      by rw [mul_zero]; exact div_nonneg hA (hlen _), hbefore, fun z hz _ => hat z hz, fun e => by omega, hothers, hpos⟩, fun e => ?_⟩
    rw [hE0 (fun hm => by have := hmem hm; omega), zero_div]
  · exact ⟨_, _, 1, 0, ⟨div_nonneg hA (hlen _), div_nonneg hB (hlen _), zero_le_one, le_rfl, le_rfl,
      by rw [mul_zero]; exact div_nonneg hA (hlen _), hbefore, fun z hz e => absurd e hk, fun _ => ⟨rfl, rfl⟩, hothers, hpos⟩,
      fun _ => rfl⟩

theorem base_simple (gm : List (Num K) → Num K) {t : Tri K} (h : Spec.Stair t n c) (hp : Spec.Positive n c) (hn : 3 ≤ n) {w : ℕ}
    (hw : w < n - 1) (tail : K) : ∃ q, baseCL gm t t.a2aind0 (Spec.avgName "simple" w) (.fin tail) = .ok q ∧
      Spec.BaseSpec t n c (Spec.withTail (Spec.savg n w c) n tail) q.ldfs q := by
  have hi := h.indOn0 hp.ne_zero
  have hrow1 := rowIs_window gm h hp .simple hw
    (g := fun j => Spec.mean ((wOrigins n w j).map (fun i => c i (j + 1) / c i j))) (fun j hj => by
      rw [entry_simple h hp.ne_zero hi hj, adj_lastN]
      simp only [mul_one]
      rw [filter_pos_eq _ ?_, simpleAvg_fin ?_]
      · rw [Ne, List.map_eq_nil_iff]
        unfold wOrigins
        apply lastN_ne_nil
        rw [Ne, List.range_eq_nil]; omega
      · intro x hx
        obtain ⟨i, hi, rfl⟩ := List.mem_map.1 hx
        have := inWindow_of_mem hi
        exact div_pos (hp _ _ (by omega)) (hp _ _ (by omega)))
  obtain ⟨r, lab, a1, -, -, a4, a5⟩ := baseCL_stair h hp.ne_zero hi hn hrow1 tail
  exact ⟨r, a1, a5⟩

theorem base_weighted (gm : List (Num K) → Num K) {t : Tri K} (h : Spec.Stair t n c) (hp : Spec.Positive n c) (hn : 3 ≤ n) {w : ℕ}
    (hw : w < n - 1) (tail : K) : ∃ q, baseCL gm t t.a2aind0 (Spec.avgName "weighted" w) (.fin tail) = .ok q ∧
      Spec.BaseSpec t n c (Spec.withTail (Spec.wavg n w c) n tail) q.ldfs q := by
  have hi := h.indOn0 hp.ne_zero
  have hrow2 := rowIs_window gm h hp .weighted hw (g := fun j => Spec.wavg n w c j) (fun j hj => by
      rw [entry_weighted h hj, Num.fin_div _ _ (weighted_sub_simple hp w hj).1.ne']
      rfl)
  obtain ⟨r, lab, a1, -, -, a4, a5⟩ := baseCL_stair h hp.ne_zero hi hn hrow2 tail
  exact ⟨r, a1, a5⟩

/-! ## weighted averages of all years -/

/-- A sum with `z` for one term. -/
theorem sum_one_amount {N r : ℕ} (g : ℕ → K) (z : K) :
    ∑ i ∈ Finset.range N, (if i = r then z else g i) =
      (∑ i ∈ Finset.range N with i ≠ r, g i) + (if r < N then z else 0) := by
  rw [← Finset.sum_filter_add_sum_filter_not (Finset.range N) (fun i => i ≠ r)]
  congr 1
  · exact Finset.sum_congr rfl fun i hi => if_neg (Finset.mem_filter.1 hi).2
  · by_cases h : r < N
    · have e : (Finset.range N).filter (fun i => ¬ i ≠ r) = {r} := by
        ext i
        simp only [Finset.mem_filter, Finset.mem_range, not_not, Finset.mem_singleton]
        exact ⟨fun hh => hh.2, fun hh => ⟨by omega, hh⟩⟩
      rw [e, Finset.sum_singleton, if_pos rfl, if_pos h]
    · have e : (Finset.range N).filter (fun i => ¬ i ≠ r) = ∅ := by
        ext i
        simp only [Finset.mem_filter, Finset.mem_range, not_not, Finset.notMem_empty, iff_false]
        omega
      rw [e, Finset.sum_empty, if_neg h]

theorem wavg_all (n : ℕ) (c : ℕ → ℕ → K) (j : ℕ) : Spec.wavg n 0 c j =
    (∑ i ∈ Finset.range (n - 1 - j), c i (j + 1)) / ∑ i ∈ Finset.range (n - 1 - j), c i j := by
  unfold Spec.wavg Spec.lastN
  rw [if_pos rfl, list_range_sum, list_range_sum]

theorem wavg_form (hp : Spec.Positive n c) {r k : ℕ} (hrk : r + k < n) :
    ∃ A B C E s, FactorForm n k (fun z => Spec.wavg n 0 (Spec.withAmount c r k z)) (Spec.wavg n 0 c) A B C E s ∧
      (r + k + 1 = n → E = 0) := by
  have hsum : ∀ N j, N + j ≤ n → 0 ≤ ∑ i ∈ Finset.range N, c i j := fun N j h =>
    Finset.sum_nonneg fun i hi => (hp _ _ (by have := Finset.mem_range.1 hi; omega)).le
  have hsumr : ∀ N j, N + j ≤ n → 0 ≤ ∑ i ∈ Finset.range N with i ≠ r, c i j := fun N j h =>
    Finset.sum_nonneg fun i hi => (hp _ _ (by have := Finset.mem_range.1 (Finset.mem_filter.1 hi).1; omega)).le
  have hcol : ∀ z N, ∑ i ∈ Finset.range N, Spec.withAmount c r k z i k =
      (∑ i ∈ Finset.range N with i ≠ r, c i k) + (if r < N then z else 0) := by
    intro z N
    rw [← sum_one_amount]
    refine Finset.sum_congr rfl fun i _ => ?_
    unfold Spec.withAmount
    by_cases hi : i = r
    · rw [if_pos ⟨hi, rfl⟩, if_pos hi]
    · rw [if_neg (fun hh => hi hh.1), if_neg hi]
  have hoth : ∀ z N j, j ≠ k → ∑ i ∈ Finset.range N, Spec.withAmount c r k z i j = ∑ i ∈ Finset.range N, c i j := by
    intro z N j hj
    refine Finset.sum_congr rfl fun i _ => ?_
    unfold Spec.withAmount
    rw [if_neg (fun hh => hj hh.2)]
  have hothers : ∀ z, 0 < z → ∀ j < n - 1, j ≠ k → j + 1 ≠ k → Spec.wavg n 0 (Spec.withAmount c r k z) j = Spec.wavg n 0 c j := by
    intro z _ j _ hj1 hj2
    rw [wavg_all, wavg_all, hoth z _ _ hj1, hoth z _ _ hj2]
  have hpos : ∀ j < n - 1, 0 ≤ Spec.wavg n 0 c j := fun j hj => by
    rw [wavg_all]; exact div_nonneg (hsum _ _ (by omega)) (hsum _ _ (by omega))
  have hbefore : ∀ z, 0 < z → ∀ j, j + 1 = k → Spec.wavg n 0 (Spec.withAmount c r k z) j =
      (∑ i ∈ Finset.range (n - k) with i ≠ r, c i k) / (∑ i ∈ Finset.range (n - k), c i (k - 1)) +
        1 / (∑ i ∈ Finset.range (n - k), c i (k - 1)) * z := by
    rintro z - j rfl
    rw [wavg_all, hoth z _ j (by omega), show n - 1 - j = n - (j + 1) by omega, hcol, if_pos (by omega), Nat.add_sub_cancel]
    ring
  have hden : 0 ≤ ∑ i ∈ Finset.range (n - k), c i (k - 1) := hsum _ _ (by omega)
  have hA : 0 ≤ (∑ i ∈ Finset.range (n - k) with i ≠ r, c i k) / (∑ i ∈ Finset.range (n - k), c i (k - 1)) :=
    div_nonneg (hsumr _ _ (by omega)) hden
  have hB : 0 ≤ 1 / (∑ i ∈ Finset.range (n - k), c i (k - 1)) := div_nonneg zero_le_one hden
  by_cases hl : r + k + 1 = n
  · by_cases hk : k < n - 1
    · refine ⟨_, _, (∑ i ∈ Finset.range (n - 1 - k), c i (k + 1)) / (∑ i ∈ Finset.range (n - 1 - k) with i ≠ r, c i k), 0, 0,
        ⟨hA, hB, div_nonneg (hsum _ _ (by omega)) (hsumr _ _ (by omega)), le_rfl, le_rfl, by rw [mul_zero]; exact hA, hbefore,
          fun z hz _ => ?_, fun e => by omega, hothers, hpos⟩, fun _ => rfl⟩
      rw [wavg_all, hoth z _ (k + 1) (by omega), hcol, if_neg (by omega)]
      simp
    · exact ⟨_, _, 1, 0, 0, ⟨hA, hB, zero_le_one, le_rfl, le_rfl, by rw [mul_zero]; exact hA, hbefore,
        fun z hz e => absurd e hk, fun _ => ⟨rfl, rfl⟩, hothers, hpos⟩, fun _ => rfl⟩
  · have hk : k < n - 1 := by omega
    refine ⟨_, _, 0, ∑ i ∈ Finset.range (n - 1 - k), c i (k + 1), ∑ i ∈ Finset.range (n - 1 - k) with i ≠ r, c i k,
      ⟨hA, hB, le_rfl, hsum _ _ (by omega), hsumr _ _ (by omega), ?_, hbefore, fun z hz _ => ?_, fun e => by omega, hothers, hpos⟩,
      fun e => absurd e hl⟩
    · rw [div_mul_eq_mul_div, one_mul]
      refine div_le_div_of_nonneg_right ?_ hden
      refine Finset.sum_le_sum_of_subset_of_nonneg (Finset.filter_subset_filter _ (Finset.range_subset_range.2 (by omega)))
        fun i hi _ => (hp _ _ (by have := Finset.mem_range.1 (Finset.mem_filter.1 hi).1; omega)).le
    · rw [wavg_all, hoth z _ (k + 1) (by omega), hcol, if_pos (by omega), zero_add]

/-! ## C221 -/

/-- **C221, partial (simple averages).** Take two positive staircases that differ in one cumulative amount, wherever it is, and one
with a weighted average of the two amounts in its place.  `base_cl` with the simple average of any window and any positive tail
gives for the latter ultimates and reserves of every origin, and totals, that are at most the same averages of those of the
former.  Missing of the full claim: weighted averages of a window and medial averages, of which it is false. -/
theorem C221_simple_partial (gm : List (Num K) → Num K) (hn : 3 ≤ n) (hp : Spec.Positive n c) {r k : ℕ} (hrk : r + k < n)
    {a b x y : K} (ha : 0 ≤ a) (hb : 0 ≤ b) (hab : a + b = 1) (hx : 0 < x) (hy : 0 < y) {t tx ty : Tri K}
    (h : Spec.Stair t n (Spec.withAmount c r k (a * x + b * y))) (hX : Spec.Stair tx n (Spec.withAmount c r k x))
    (hY : Spec.Stair ty n (Spec.withAmount c r k y)) {w : ℕ} (hw : w < n - 1) {tail : K} (ht : 0 < tail) :
    ∃ q qx qy, baseCL gm t t.a2aind0 (Spec.avgName "simple" w) (.fin tail) = .ok q ∧
      baseCL gm tx tx.a2aind0 (Spec.avgName "simple" w) (.fin tail) = .ok qx ∧
      baseCL gm ty ty.a2aind0 (Spec.avgName "simple" w) (.fin tail) = .ok qy ∧ Spec.AtMostMix n a b q qx qy := by
  obtain ⟨hz, -⟩ := inv_mix ha hb hab hx hy
  obtain ⟨q, a1, a2⟩ := base_simple gm h (withAmount_pos hp hz r k) hn hw tail
  obtain ⟨qx, b1, b2⟩ := base_simple gm hX (withAmount_pos hp hx r k) hn hw tail
  obtain ⟨qy, c1, c2⟩ := base_simple gm hY (withAmount_pos hp hy r k) hn hw tail
  obtain ⟨A, B, C, E, hf, hE⟩ := savg_form hp w hrk
  exact ⟨q, qx, qy, a1, b1, c1, mix_of_factors hrk hp hf hE ht ha hb hab hx hy a2 b2 c2⟩

/-- **C221, partial (weighted averages of all years).** The same with the volume weighted average of all years. -/
theorem C221_weighted_partial (gm : List (Num K) → Num K) (hn : 3 ≤ n) (hp : Spec.Positive n c) {r k : ℕ} (hrk : r + k < n)
    {a b x y : K} (ha : 0 ≤ a) (hb : 0 ≤ b) (hab : a + b = 1) (hx : 0 < x) (hy : 0 < y) {t tx ty : Tri K}
    (h : Spec.Stair t n (Spec.withAmount c r k (a * x + b * y))) (hX : Spec.Stair tx n (Spec.withAmount c r k x))
    (hY : Spec.Stair ty n (Spec.withAmount c r k y)) {tail : K} (ht : 0 < tail) :
    ∃ q qx qy, baseCL gm t t.a2aind0 "all-weighted" (.fin tail) = .ok q ∧
      baseCL gm tx tx.a2aind0 "all-weighted" (.fin tail) = .ok qx ∧
      baseCL gm ty ty.a2aind0 "all-weighted" (.fin tail) = .ok qy ∧ Spec.AtMostMix n a b q qx qy := by
  obtain ⟨hz, -⟩ := inv_mix ha hb hab hx hy
  obtain ⟨q, a1, a2⟩ := base_weighted gm h (withAmount_pos hp hz r k) hn (w := 0) (by omega) tail
  obtain ⟨qx, b1, b2⟩ := base_weighted gm hX (withAmount_pos hp hx r k) hn (w := 0) (by omega) tail
  obtain ⟨qy, c1, c2⟩ := base_weighted gm hY (withAmount_pos hp hy r k) hn (w := 0) (by omega) tail
  obtain ⟨A, B, C, E, s, hf, hE⟩ := wavg_form hp hrk
  exact ⟨q, qx, qy, a1, b1, c1, mix_of_factors hrk hp hf hE ht ha hb hab hx hy a2 b2 c2⟩

end

/-- Amounts of four origins. -/
def exOne : ℕ → ℕ → ℚ := fun i j =>
  match i, j with
  | 0, 0 => 5 | 0, 1 => 10 | 0, 2 => 12 | 0, 3 => 12
  | 1, 0 => 4 | 1, 1 => 1 | 1, 2 => 6
  | 2, 0 => 1 | 2, 1 => 1
  | _, _ => 2

/-- The example with `z` for origin `r` after period `k`. -/
def exOneTri (r k : ℕ) (z : ℚ) : Tri ℚ := stairTri 4 (Spec.withAmount exOne r k z)

/-- The ultimate of the youngest of four origins and the total ultimate. -/
def youngAndTotal (r : Except PyErr (BaseResult ℚ)) : Option (Option (Num ℚ) × Num ℚ) :=
  r.toOption.map (fun r => ((r.rows[3]?).map (fun row => row.ultimate), r.totUltimate))

/-- **C221, the code violates it** for weighted averages of a window: the window of the period before the amount has not the
origins of the one after it.  With the amounts 1, 2 and 3 the estimates at 2 lie above the means of those at 1 and 3. -/
theorem C221_weighted_window_fails :
    youngAndTotal (baseCL (fun _ => .nan) (exOneTri 1 1 1) (exOneTri 1 1 1).a2aind0 "weighted-2" 1) =
      some (some (.fin (72/55)), .fin (1152/55)) ∧
    youngAndTotal (baseCL (fun _ => .nan) (exOneTri 1 1 2) (exOneTri 1 1 2).a2aind0 "weighted-2" 1) =
      some (some (.fin (9/5)), .fin (213/10)) ∧
    youngAndTotal (baseCL (fun _ => .nan) (exOneTri 1 1 3) (exOneTri 1 1 3).a2aind0 "weighted-2" 1) =
      some (some (.fin (144/65)), .fin (108/5)) ∧
    (1/2 * (72/55) + 1/2 * (144/65) : ℚ) < 9/5 ∧ (1/2 * (1152/55) + 1/2 * (108/5) : ℚ) < 213/10 := by
  decide +kernel

/-- **C221, the code violates it** for medial averages: once the ratio of the uncertain amount is the largest it no longer
counts.  The estimates at 3 lie above the means of those at 3/2 and 9/2. -/
theorem C221_medial_fails :
    youngAndTotal (baseCL (fun _ => .nan) (exOneTri 2 1 (3/2)) (exOneTri 2 1 (3/2)).a2aind0 "all-medial" 1) =
      some (some (.fin (54/5)), .fin (171/5)) ∧
    youngAndTotal (baseCL (fun _ => .nan) (exOneTri 2 1 3) (exOneTri 2 1 3).a2aind0 "all-medial" 1) =
      some (some (.fin (72/5)), .fin (216/5)) ∧
    youngAndTotal (baseCL (fun _ => .nan) (exOneTri 2 1 (9/2)) (exOneTri 2 1 (9/2)).a2aind0 "all-medial" 1) =
      some (some (.fin (72/5)), .fin (243/5)) ∧
    (1/2 * (54/5) + 1/2 * (72/5) : ℚ) < 72/5 ∧ (1/2 * (171/5) + 1/2 * (243/5) : ℚ) < 216/5 := by
  decide +kernel

/-- Example for the simple averages of two years: at 2 the estimates are below the means of those at 1 and 3. -/
example : youngAndTotal (baseCL (fun _ => .nan) (exOneTri 1 1 1) (exOneTri 1 1 1).a2aind0 "simple-2" 1) =
      some (some (.fin (9/2)), .fin (261/10)) ∧
    youngAndTotal (baseCL (fun _ => .nan) (exOneTri 1 1 2) (exOneTri 1 1 2).a2aind0 "simple-2" 1) =
      some (some (.fin (63/20)), .fin (93/4)) ∧
    youngAndTotal (baseCL (fun _ => .nan) (exOneTri 1 1 3) (exOneTri 1 1 3).a2aind0 "simple-2" 1) =
      some (some (.fin (14/5)), .fin (112/5)) ∧
    (63/20 : ℚ) < 1/2 * (9/2) + 1/2 * (14/5) := by
  decide +kernel

/-- Example for the weighted averages of all years. -/
example : youngAndTotal (baseCL (fun _ => .nan) (exOneTri 1 1 1) (exOneTri 1 1 1).a2aind0 "all-weighted" 1) =
      some (some (.fin (216/55)), .fin (1296/55)) ∧
    youngAndTotal (baseCL (fun _ => .nan) (exOneTri 1 1 2) (exOneTri 1 1 2).a2aind0 "all-weighted" 1) =
      some (some (.fin (39/10)), .fin (117/5)) ∧
    youngAndTotal (baseCL (fun _ => .nan) (exOneTri 1 1 3) (exOneTri 1 1 3).a2aind0 "all-weighted" 1) =
      some (some (.fin (252/65)), .fin (1512/65)) ∧
    (39/10 : ℚ) < 1/2 * (216/55) + 1/2 * (252/65) := by
  decide +kernel

end Trikit
