import Verif.RoundedQuant
import Verif.Props.QuantStable

/-!
# C172, C173, C174: quantiles in double precision

`floatRd p` rounds to `p` binary digits; double precision is `p = 53`.
-/

set_option linter.unusedSectionVars false

namespace Trikit

section
variable {K : Type} [Field K] [LinearOrder K] [IsStrictOrderedRing K] [FloorRing K]

/-! ### positions -/

/-- Position read by a method at the index `h`. -/
def Spec.posAt (m : Interp) (h : K) : K :=
  match m with
  | .linear => h
  | .lower => (⌊h⌋ : K)
  | .higher => (⌈h⌉ : K)
  | .nearest => (roundHalfEven h : K)
  | .midpoint => 1 / 2 * ((⌊h⌋ : K) + (⌈h⌉ : K))

theorem posAt_pos (m : Interp) (n : ℕ) (q : K) : Spec.posAt m (((n : K) - 1) * q) = Spec.pos m n q := by
  cases m <;> rfl

theorem posAt_mono (m : Interp) {h h' : K} (hh : h ≤ h') : Spec.posAt m h ≤ Spec.posAt m h' := by
  have := pos_mono m (n := 2) (by norm_num) hh
  rw [← posAt_pos, ← posAt_pos] at this
  have e : ((2 : ℕ) : K) - 1 = 1 := by norm_num
  rwa [e, one_mul, one_mul] at this

theorem posAt_int (m : Interp) (k : ℤ) : Spec.posAt m (k : K) = k := by
  cases m
  · rfl
  · show ((⌊(k : K)⌋ : ℤ) : K) = _; rw [Int.floor_intCast]
  · show ((⌈(k : K)⌉ : ℤ) : K) = _; rw [Int.ceil_intCast]
  · show 1 / 2 * (((⌊(k : K)⌋ : ℤ) : K) + ((⌈(k : K)⌉ : ℤ) : K)) = _
    rw [Int.floor_intCast, Int.ceil_intCast]; ring
  · show ((roundHalfEven (k : K) : ℤ) : K) = _; rw [roundHalfEven_int]

variable {p : ℕ}

theorem rd_hundred (hp : 7 ≤ p) : floatRd p (100 : K) = 100 := by
  have := floatRd_fix (K := K) (p := p) (by omega) (isFloat_nat (p := p) (m := 100) (by
    calc 100 ≤ 2 ^ 7 := by norm_num
      _ ≤ 2 ^ p := Nat.pow_le_pow_right (by norm_num) hp))
  exact_mod_cast this

theorem rd_pred {n : ℕ} (hp : 1 ≤ p) (hn : 0 < n) (hnp : n ≤ 2 ^ p) : floatRd p ((n : K) - 1) = (n : K) - 1 := by
  have := floatRd_fix (K := K) (p := p) hp (isFloat_nat (p := p) (m := n - 1) (by omega))
  rwa [Nat.cast_sub hn, Nat.cast_one] at this

theorem virtualR_mono (hp : 1 ≤ p) {n : ℕ} (hn : 0 < n) {q q' : K} (h : q ≤ q') :
    virtualR (floatRd p) n q ≤ virtualR (floatRd p) n q' := by
  have hn' : (0 : K) ≤ (n : K) - 1 := by
    have : (1 : K) ≤ (n : K) := by exact_mod_cast hn
    linarith
  refine floatRd_mono hp (mul_le_mul_of_nonneg_left (floatRd_mono hp ?_) hn')
  exact div_le_div_of_nonneg_right (floatRd_mono hp (by linarith)) (by norm_num)

theorem virtualR_zero (n : ℕ) : virtualR (floatRd p) n (0 : K) = 0 := by
  unfold virtualR
  rw [mul_zero, floatRd_zero, zero_div, floatRd_zero, mul_zero, floatRd_zero]

theorem virtualR_one (hp : 7 ≤ p) {n : ℕ} (hn : 0 < n) (hnp : n ≤ 2 ^ p) :
    virtualR (floatRd p) n (1 : K) = (n : K) - 1 := by
  unfold virtualR
  rw [mul_one, rd_hundred hp, div_self (by norm_num), rd_one (by omega), mul_one, rd_pred (by omega) hn hnp]

/-! ### interpolation -/

/-- Value read at a position. -/
def Spec.interpR (p : ℕ) (f : ℕ → K) (n : ℕ) (v : K) : K :=
  if (n : K) - 1 ≤ v then f (n - 1)
  else Spec.lerp (floatRd p) (f ⌊v⌋.toNat) (f (⌊v⌋ + 1).toNat) (floatRd p (v - (⌊v⌋ : K)))

theorem fract_rd (hp : 1 ≤ p) (v : K) : 0 ≤ floatRd p (v - (⌊v⌋ : K)) ∧ floatRd p (v - (⌊v⌋ : K)) ≤ 1 := by
  refine ⟨floatRd_nn hp (sub_nonneg.2 (Int.floor_le v)), ?_⟩
  conv_rhs => rw [← rd_one (K := K) hp]
  exact floatRd_mono hp (by linarith [(Int.lt_floor_add_one v).le])

theorem floor_lt_pred {n : ℕ} {v : K} (h1 : v < (n : K) - 1) : ⌊v⌋ < (n : ℤ) - 1 := by
  have h2 : ((⌊v⌋ : ℤ) : K) < ((n : ℤ) - 1 : ℤ) := by
    push_cast
    exact lt_of_le_of_lt (Int.floor_le v) h1
  exact Int.cast_lt.1 h2

theorem interpR_between (hp : 1 ≤ p) {f : ℕ → K} {n : ℕ} (hF : ∀ i < n, Spec.IsFloat p (f i))
    (hf : ∀ i j, i ≤ j → j < n → f i ≤ f j) {v : K} (h0 : 0 ≤ v) (h1 : v < (n : K) - 1) :
    ⌊v⌋.toNat + 1 < n ∧ f ⌊v⌋.toNat ≤ Spec.interpR p f n v ∧ Spec.interpR p f n v ≤ f (⌊v⌋.toNat + 1) := by
  have hfl : 0 ≤ ⌊v⌋ := Int.floor_nonneg.2 h0
  have e : (⌊v⌋ + 1).toNat = ⌊v⌋.toNat + 1 := by omega
  have := floor_lt_pred h1
  have hlt : ⌊v⌋.toNat + 1 < n := by omega
  obtain ⟨g0, g1⟩ := fract_rd hp v
  unfold Spec.interpR
  rw [if_neg (not_le.2 h1), e]
  exact ⟨hlt, lerp_mem hp (hF _ (by omega)) (hF _ hlt) (hf _ _ (by omega) hlt) g0 g1⟩

theorem interpR_mono (hp : 1 ≤ p) {f : ℕ → K} {n : ℕ} (hF : ∀ i < n, Spec.IsFloat p (f i))
    (hf : ∀ i j, i ≤ j → j < n → f i ≤ f j) {v w : K} (h0 : 0 ≤ v) (hvw : v ≤ w) :
    Spec.interpR p f n v ≤ Spec.interpR p f n w := by
  by_cases hv : (n : K) - 1 ≤ v
  · unfold Spec.interpR
    rw [if_pos hv, if_pos (le_trans hv hvw)]
  · have hv' := not_le.1 hv
    obtain ⟨a1, a2, a3⟩ := interpR_between hp hF hf h0 hv'
    by_cases hw : (n : K) - 1 ≤ w
    · refine le_trans a3 ?_
      unfold Spec.interpR
      rw [if_pos hw]
      exact hf _ _ (by omega) (by omega)
    · have hw' := not_le.1 hw
      obtain ⟨b1, b2, b3⟩ := interpR_between hp hF hf (le_trans h0 hvw) hw'
      have h2 : 0 ≤ ⌊v⌋ := Int.floor_nonneg.2 h0
      by_cases hfl : ⌊v⌋ = ⌊w⌋
      · unfold Spec.interpR
        rw [if_neg hv, if_neg hw, hfl]
        refine lerp_mono hp (hf _ _ (by omega) (by omega)) (floatRd_isFloat p _) (floatRd_mono hp ?_)
        linarith
      · have h1 : ⌊v⌋ ≤ ⌊w⌋ := Int.floor_le_floor hvw
        exact le_trans a3 (le_trans (hf _ _ (by omega) (by omega)) b2)

theorem lerp_zero (hp : 1 ≤ p) {a : K} (ha : Spec.IsFloat p a) (b : K) : Spec.lerp (floatRd p) a b 0 = a := by
  unfold Spec.lerp
  rw [if_neg (by norm_num), mul_zero, floatRd_zero, add_zero, floatRd_fix hp ha]

theorem lerp_self (hp : 1 ≤ p) {a : K} (ha : Spec.IsFloat p a) (t : K) : Spec.lerp (floatRd p) a a t = a := by
  unfold Spec.lerp
  rw [sub_self, floatRd_zero, zero_mul, zero_mul, floatRd_zero, sub_zero, add_zero, floatRd_fix hp ha]
  split <;> rfl

theorem interpR_int (hp : 1 ≤ p) {f : ℕ → K} {n : ℕ} (hF : ∀ i < n, Spec.IsFloat p (f i)) {k : ℤ} (h0 : 0 ≤ k)
    (h1 : k ≤ (n : ℤ) - 1) : Spec.interpR p f n (k : K) = f k.toNat := by
  unfold Spec.interpR
  by_cases h : (n : K) - 1 ≤ (k : K)
  · rw [if_pos h]
    have h2 : (((n : ℤ) - 1 : ℤ) : K) ≤ (k : K) := by push_cast; exact h
    have := Int.cast_le.1 h2
    congr 1
    omega
  · rw [if_neg h, Int.floor_intCast, sub_self, floatRd_zero, lerp_zero hp (hF _ (by omega))]

theorem lerpAtR_fin (hp : 1 ≤ p) {a : List K} (ha : a ≠ []) (hF : ∀ i < a.length, Spec.IsFloat p (a.getD i 0)) {v : K}
    (h0 : 0 ≤ v) {g : K} (hg : v < (a.length : K) - 1 → g = floatRd p (v - (⌊v⌋ : K))) :
    lerpAtR (floatRd p) (a.map Num.fin) v g = .fin (Spec.interpR p (fun i => a.getD i 0) a.length v) := by
  have hl : 0 < a.length := List.length_pos_iff.2 ha
  unfold lerpAtR Spec.interpR
  rw [List.length_map]
  by_cases h : (a.length : K) - 1 ≤ v
  · rw [if_pos h, if_pos h, takeAt_fin a (by omega) (by omega), lerpR_fin, lerp_self hp (hF _ (by omega))]
    congr 2
    omega
  · rw [if_neg h, if_neg h, hg (not_le.1 h)]
    have hfl : 0 ≤ ⌊v⌋ := Int.floor_nonneg.2 h0
    have h3 := floor_lt_pred (not_le.1 h)
    rw [takeAt_fin a hfl (by omega), takeAt_fin a (by omega) (by omega), lerpR_fin]

theorem mid_exact (hp : 1 ≤ p) {n : ℕ} (hnp : 2 * n ≤ 2 ^ p) {h : K} (h0 : 0 ≤ h) (h1 : h ≤ (n : K) - 1) :
    floatRd p (1 / 2 * floatRd p ((⌊h⌋ : K) + (⌈h⌉ : K))) = Spec.posAt .midpoint h := by
  have f0 : 0 ≤ ⌊h⌋ := Int.floor_nonneg.2 h0
  have c0 : 0 ≤ ⌈h⌉ := Int.ceil_nonneg h0
  have f1 : ⌊h⌋ ≤ (n : ℤ) - 1 := Int.floor_le_iff.2 (by push_cast; linarith)
  have c1 : ⌈h⌉ ≤ (n : ℤ) - 1 := Int.ceil_le.2 (by push_cast; exact h1)
  have hs : Spec.IsFloat p ((⌊h⌋ : K) + (⌈h⌉ : K)) := by
    have := isFloat_nat (K := K) (p := p) (m := (⌊h⌋ + ⌈h⌉).toNat) (by omega)
    have e : (((⌊h⌋ + ⌈h⌉).toNat : ℕ) : K) = (⌊h⌋ : K) + (⌈h⌉ : K) := by
      have : (((⌊h⌋ + ⌈h⌉).toNat : ℤ) : K) = ((⌊h⌋ + ⌈h⌉ : ℤ) : K) := by
        rw [Int.toNat_of_nonneg (by omega)]
      push_cast at this
      exact_mod_cast this
    rwa [e] at this
  rw [floatRd_fix hp hs, show (1 / 2 : K) * ((⌊h⌋ : K) + (⌈h⌉ : K)) = ((⌊h⌋ : K) + (⌈h⌉ : K)) / 2 by ring,
    floatRd_fix hp (isFloat_half hs)]
  show _ = 1 / 2 * _
  ring

theorem mid_gamma (hp : 1 ≤ p) (h : K) :
    (if Spec.posAt .midpoint h = ((⌊Spec.posAt .midpoint h⌋ : ℤ) : K) then (0 : K) else 1 / 2) =
      floatRd p (Spec.posAt .midpoint h - ((⌊Spec.posAt .midpoint h⌋ : ℤ) : K)) := by
  set v := Spec.posAt .midpoint h with hv
  split
  · next h => rw [← h, sub_self, floatRd_zero]
  · next hne =>
    have hc : ⌈h⌉ = ⌊h⌋ ∨ ⌈h⌉ = ⌊h⌋ + 1 := by
      have h1 := Int.floor_le_ceil h
      have h2 := Int.ceil_le_floor_add_one h
      omega
    have hv' : v = 1 / 2 * (((⌊h⌋ : ℤ) : K) + ((⌈h⌉ : ℤ) : K)) := rfl
    generalize ⌊h⌋ = z at hv' hc
    rcases hc with hc | hc
    · exfalso
      rw [hc] at hv'
      have : v = (z : K) := by rw [hv']; ring
      exact hne (by rw [this, Int.floor_intCast])
    · rw [hc] at hv'
      have hv2 : v = (z : K) + 1 / 2 := by rw [hv']; push_cast; ring
      have hfl : ⌊v⌋ = z := by
        rw [Int.floor_eq_iff, hv2]
        constructor
        · linarith [show (0 : K) < 1 / 2 by norm_num]
        · linarith [show (1 / 2 : K) < 1 by norm_num]
      rw [hfl, hv2, add_sub_cancel_left, rd_half_one hp]

/-- The percentile of a sample of numbers with `p` digits is read off its sorted values. -/
theorem percentileR_eq (hp : 7 ≤ p) (m : Interp) {fs : List K} (hne : fs ≠ []) (hF : ∀ x ∈ fs, Spec.IsFloat p x)
    (hnp : 2 * fs.length ≤ 2 ^ p) {q : K} (h0 : 0 ≤ q) (h1 : q ≤ 1) :
    percentileR (floatRd p) m (fs.map Num.fin) q =
      .fin (Spec.interpR p (fun i => (fs.insertionSort (· ≤ ·)).getD i 0) fs.length
        (Spec.posAt m (virtualR (floatRd p) fs.length q))) := by
  have hsort : (fs.map Num.fin).insertionSort (fun x y => Num.le x y = true) =
      (fs.insertionSort (· ≤ ·)).map Num.fin := by
    rw [List.map_insertionSort (r := fun x y : K => x ≤ y) (s := fun x y => Num.le x y = true)]
    intro a _ b _
    simp
  have hnan : (fs.map Num.fin).any Num.isNaN = false := by
    simp [List.any_eq_false]
  have hl : 0 < fs.length := List.length_pos_iff.2 hne
  have hF' : ∀ i < fs.length, Spec.IsFloat p ((fs.insertionSort (· ≤ ·)).getD i 0) := by
    intro i hi
    have hi' : i < (fs.insertionSort (· ≤ ·)).length := by rw [List.length_insertionSort]; exact hi
    rw [List.getD_eq_getElem?_getD, List.getElem?_eq_getElem hi', Option.getD_some]
    exact hF _ ((List.mem_insertionSort _).1 (List.getElem_mem _))
  unfold percentileR
  rw [if_neg (by rw [hnan]; simp), hsort]
  have hlen : (fs.insertionSort (· ≤ ·)).length = fs.length := List.length_insertionSort _ _
  have hane : fs.insertionSort (· ≤ ·) ≠ [] := by
    intro e; rw [e] at hlen; simp at hlen; omega
  generalize fs.insertionSort (· ≤ ·) = a at hlen hane hF'
  simp only [List.length_map, hlen]
  have v0 : 0 ≤ virtualR (floatRd p) fs.length q := by
    rw [← virtualR_zero (p := p) (K := K) fs.length]; exact virtualR_mono (by omega) hl h0
  have v1 : virtualR (floatRd p) fs.length q ≤ (fs.length : K) - 1 := by
    rw [← virtualR_one (K := K) hp hl (by omega)]; exact virtualR_mono (by omega) hl h1
  rw [← hlen] at v0 v1 hnp hl hF' ⊢
  generalize virtualR (floatRd p) a.length q = h at v0 v1
  have hq0 : ∀ m, (0 : K) ≤ Spec.posAt m h := fun m => by
    have := posAt_mono m v0
    have e := posAt_int (K := K) m 0
    rw [Int.cast_zero] at e
    rwa [e] at this
  have hq1 : ∀ m, Spec.posAt m h ≤ (a.length : K) - 1 := fun m => by
    have := posAt_mono m v1
    have e := posAt_int (K := K) m ((a.length : ℤ) - 1)
    push_cast at e
    rwa [e] at this
  have hint : ∀ {k : ℤ}, (0 : K) ≤ (k : K) → (k : K) ≤ (a.length : K) - 1 →
      takeAt (a.map Num.fin) k = .fin (Spec.interpR p (fun i => a.getD i 0) a.length (k : K)) := by
    intro k hk0 hk1
    have e0 : 0 ≤ k := by exact_mod_cast hk0
    have e1 : k ≤ (a.length : ℤ) - 1 := by
      have : (k : K) ≤ (((a.length : ℤ) - 1 : ℤ) : K) := by push_cast; exact hk1
      exact Int.cast_le.1 this
    rw [takeAt_fin a e0 e1, interpR_int (by omega) hF' e0 e1]
  cases m with
  | linear => exact lerpAtR_fin (by omega) hane hF' v0 (fun hlt => if_neg (not_le.2 hlt))
  | lower => exact hint (hq0 .lower) (hq1 .lower)
  | higher => exact hint (hq0 .higher) (hq1 .higher)
  | nearest => exact hint (hq0 .nearest) (hq1 .nearest)
  | midpoint =>
    simp only
    rw [mid_exact (by omega) hnp v0 v1, mid_gamma (p := p) (by omega)]
    exact lerpAtR_fin (by omega) hane hF' (hq0 .midpoint) (fun _ => rfl)

theorem sorted_getD {fs : List K} {i j : ℕ} (hij : i ≤ j) (hj : j < fs.length) :
    (fs.insertionSort (· ≤ ·)).getD i 0 ≤ (fs.insertionSort (· ≤ ·)).getD j 0 := by
  have hsorted := List.pairwise_insertionSort (· ≤ ·) fs
  have hlen : (fs.insertionSort (· ≤ ·)).length = fs.length := List.length_insertionSort _ _
  generalize fs.insertionSort (· ≤ ·) = a at hsorted hlen
  rw [List.getD_eq_getElem?_getD, List.getElem?_eq_getElem (show i < a.length by omega), List.getD_eq_getElem?_getD,
    List.getElem?_eq_getElem (show j < a.length by omega)]
  rcases Nat.lt_or_eq_of_le hij with h | rfl
  · exact List.pairwise_iff_getElem.1 hsorted i j (by omega) (by omega) h
  · exact le_refl _

theorem sorted_float {fs : List K} (hF : ∀ x ∈ fs, Spec.IsFloat p x) {i : ℕ} (hi : i < fs.length) :
    Spec.IsFloat p ((fs.insertionSort (· ≤ ·)).getD i 0) := by
  have hi' : i < (fs.insertionSort (· ≤ ·)).length := by rw [List.length_insertionSort]; exact hi
  rw [List.getD_eq_getElem?_getD, List.getElem?_eq_getElem hi', Option.getD_some]
  exact hF _ ((List.mem_insertionSort _).1 (List.getElem_mem _))

/-- **C172** in `p`-digit binary arithmetic, for every method and every sample of at most `2^(p-1)` numbers with `p`
digits: the percentiles lie between the smallest and the largest value, are these at the levels 0 and 1, and do not
decrease with the level. -/
theorem C172_percentile (hp : 7 ≤ p) (m : Interp) {fs : List K} (hne : fs ≠ []) (hF : ∀ x ∈ fs, Spec.IsFloat p x)
    (hnp : 2 * fs.length ≤ 2 ^ p) :
    ∃ (P : K → K) (lo hi : K), lo ∈ fs ∧ hi ∈ fs ∧ (∀ x ∈ fs, lo ≤ x ∧ x ≤ hi) ∧
      (∀ q, 0 ≤ q → q ≤ 1 → percentileR (floatRd p) m (fs.map Num.fin) q = .fin (P q) ∧ lo ≤ P q ∧ P q ≤ hi) ∧
      P 0 = lo ∧ P 1 = hi ∧ ∀ q q', 0 ≤ q → q ≤ q' → q' ≤ 1 → P q ≤ P q' := by
  have hl : 0 < fs.length := List.length_pos_iff.2 hne
  have hpe := fun q h0 h1 => percentileR_eq hp m hne hF hnp (q := q) h0 h1
  have hf : ∀ i j, i ≤ j → j < fs.length → (fs.insertionSort (· ≤ ·)).getD i 0 ≤ (fs.insertionSort (· ≤ ·)).getD j 0 :=
    fun i j hij hj => sorted_getD hij hj
  have hF' : ∀ i < fs.length, Spec.IsFloat p ((fs.insertionSort (· ≤ ·)).getD i 0) := fun i hi => sorted_float hF hi
  have hlen : (fs.insertionSort (· ≤ ·)).length = fs.length := List.length_insertionSort _ _
  have hmem : ∀ x, x ∈ fs.insertionSort (· ≤ ·) ↔ x ∈ fs := fun x => List.mem_insertionSort _
  generalize fs.insertionSort (· ≤ ·) = a at hpe hf hF' hlen hmem
  have hget : ∀ i (hi : i < a.length), a.getD i 0 = a[i] := by
    intro i hi
    rw [List.getD_eq_getElem?_getD, List.getElem?_eq_getElem hi]; rfl
  set P : K → K := fun q => Spec.interpR p (fun i => a.getD i 0) fs.length
    (Spec.posAt m (virtualR (floatRd p) fs.length q)) with hP
  have hmem' : ∀ i < fs.length, a.getD i 0 ∈ fs := by
    intro i hi
    rw [hget i (by omega)]
    exact (hmem _).1 (List.getElem_mem _)
  have e0 : Spec.posAt m (virtualR (floatRd p) fs.length (0 : K)) = ((0 : ℤ) : K) := by
    have := posAt_int (K := K) m 0
    rw [Int.cast_zero] at this
    rw [virtualR_zero, this, Int.cast_zero]
  have hP0 : P 0 = a.getD 0 0 := by
    rw [hP]
    simp only [e0]
    exact interpR_int (by omega) hF' (le_refl _) (by omega)
  have hP1 : P 1 = a.getD (fs.length - 1) 0 := by
    rw [hP]
    have := posAt_int (K := K) m ((fs.length : ℤ) - 1)
    push_cast at this
    simp only [virtualR_one (K := K) hp hl (by omega), this]
    unfold Spec.interpR
    rw [if_pos (le_refl _)]
  have hmono : ∀ q q', 0 ≤ q → q ≤ q' → q' ≤ 1 → P q ≤ P q' := by
    intro q q' h0 h _
    refine interpR_mono (by omega) hF' hf ?_ (posAt_mono m (virtualR_mono (by omega) hl h))
    have := posAt_mono m (virtualR_mono (p := p) (by omega) hl h0)
    rw [e0, Int.cast_zero] at this
    exact this
  refine ⟨P, a.getD 0 0, a.getD (fs.length - 1) 0, hmem' 0 hl, hmem' _ (by omega), ?_, ?_, hP0, hP1, hmono⟩
  · intro x hx
    obtain ⟨i, hi, rfl⟩ := List.mem_iff_getElem.1 ((hmem x).2 hx)
    rw [← hget i hi]
    exact ⟨hf 0 i (by omega) (by omega), hf i _ (by omega) (by omega)⟩
  · intro q h0 h1
    refine ⟨hpe q h0 h1, ?_, ?_⟩
    · rw [← hP0]; exact hmono 0 q (le_refl _) h0 h1
    · rw [← hP1]; exact hmono q 1 h0 h1 (le_refl _)

/-! ### errors -/

theorem interp_lip {f : ℕ → K} {n : ℕ} {G : K} (hG : ∀ i, i + 1 < n → f (i + 1) - f i ≤ G) {v w : K} (h0 : 0 ≤ v)
    (hvw : v ≤ w) (h1 : w ≤ (n : K) - 1) : Spec.interp f n w - Spec.interp f n v ≤ G * (w - v) := by
  have hm : ∀ i j, i ≤ j → j < n → G * (i : K) - f i ≤ G * (j : K) - f j := by
    intro i j hij
    induction j, hij using Nat.le_induction with
    | base => intro _; exact le_refl _
    | succ j hij ih =>
      intro hj
      have a1 := ih (by omega)
      have a2 := hG j hj
      push_cast
      linarith
  have e : ∀ x : K, 0 ≤ x → x ≤ (n : K) - 1 → Spec.interp (fun i => G * (i : K) - f i) n x = G * x - Spec.interp f n x := by
    intro x hx0 hx1
    unfold Spec.interp
    by_cases h : (n : K) - 1 ≤ x
    · rw [if_pos h, if_pos h]
      have hx : x = (n : K) - 1 := le_antisymm hx1 h
      have hn : 0 < n := by
        rcases Nat.eq_zero_or_pos n with rfl | hn
        · exfalso
          have : (0 : K) ≤ -1 := by
            have := hx0.trans hx1
            simpa using this
          linarith
        · exact hn
      beta_reduce
      rw [hx, Nat.cast_sub hn, Nat.cast_one]
    · rw [if_neg h, if_neg h]
      have hfl : 0 ≤ ⌊x⌋ := Int.floor_nonneg.2 hx0
      have e1 : ((⌊x⌋.toNat : ℕ) : K) = (⌊x⌋ : K) := by
        have : ((⌊x⌋.toNat : ℤ) : K) = ((⌊x⌋ : ℤ) : K) := by rw [Int.toNat_of_nonneg hfl]
        exact_mod_cast this
      have e2 : (((⌊x⌋ + 1).toNat : ℕ) : K) = (⌊x⌋ : K) + 1 := by
        rw [show (⌊x⌋ + 1).toNat = ⌊x⌋.toNat + 1 by omega]; push_cast; rw [e1]
      beta_reduce
      rw [e1, e2]
      ring
  have := interp_mono hm h0 hvw
  rw [e v h0 (hvw.trans h1), e w (h0.trans hvw) h1] at this
  linarith

theorem interp_lip_abs {f : ℕ → K} {n : ℕ} {G : K} (hf : ∀ i j, i ≤ j → j < n → f i ≤ f j)
    (hG : ∀ i, i + 1 < n → f (i + 1) - f i ≤ G) {v w : K} (hv0 : 0 ≤ v) (hv1 : v ≤ (n : K) - 1) (hw0 : 0 ≤ w)
    (hw1 : w ≤ (n : K) - 1) : |Spec.interp f n w - Spec.interp f n v| ≤ G * |w - v| := by
  rcases le_total v w with h | h
  · rw [abs_of_nonneg (sub_nonneg.2 (interp_mono hf hv0 h)), abs_of_nonneg (sub_nonneg.2 h)]
    exact interp_lip hG hv0 h hw1
  · rw [abs_sub_comm, abs_sub_comm w v, abs_of_nonneg (sub_nonneg.2 (interp_mono hf hw0 h)),
      abs_of_nonneg (sub_nonneg.2 h)]
    exact interp_lip hG hw0 h hv1

theorem lerp_err (hp : 1 ≤ p) {a b t M : K} (hab : a ≤ b) (h0 : 0 ≤ t) (h1 : t ≤ 1) (ha : |a| ≤ M) (hb : |b| ≤ M) :
    |Spec.lerp (floatRd p) a b (floatRd p t) - (a + (b - a) * t)| ≤ (2 : K) ^ (-(p : ℤ)) * (3 * (b - a) + M) := by
  have hu0 : (0 : K) < 2 ^ (-(p : ℤ)) := zpow_pos (by norm_num) _
  have hu1 := two_neg_p (K := K) hp
  have err : ∀ x : K, 0 ≤ x → |floatRd p x - x| ≤ 2 ^ (-(p : ℤ)) * x := fun x hx => by
    have := floatRd_err p x
    rwa [abs_of_nonneg hx] at this
  have errabs : ∀ x : K, |floatRd p x - x| ≤ 2 ^ (-(p : ℤ)) * |x| := fun x => floatRd_err p x
  generalize (2 : K) ^ (-(p : ℤ)) = u at *
  set w := b - a with hw
  have hw0 : 0 ≤ w := sub_nonneg.2 hab
  set d := floatRd p w with hd
  have hd0 : 0 ≤ d := floatRd_nn hp hw0
  have e1 := abs_le.1 (err w hw0)
  rw [← hd] at e1
  set t' := floatRd p t with ht'
  have ht0 : 0 ≤ t' := floatRd_nn hp h0
  have ht1 : t' ≤ 1 := by
    rw [← rd_one (K := K) hp]; exact floatRd_mono hp h1
  have e2 := abs_le.1 (err t h0)
  rw [← ht'] at e2
  have hut : u * t ≤ u := by nlinarith
  have huw : 0 ≤ u * w := mul_nonneg hu0.le hw0
  have fin : ∀ z x : K, a ≤ z → z ≤ b → |z - x| ≤ 3 * (u * w) → |floatRd p z - x| ≤ u * (3 * w + M) := by
    intro z x z0 z1 hz
    have g1 := errabs z
    have g2 : |z| ≤ M := abs_le.2 ⟨by linarith [(abs_le.1 ha).1], by linarith [(abs_le.1 hb).2]⟩
    have g3 := mul_le_mul_of_nonneg_left g2 hu0.le
    have g4 : |floatRd p z - x| ≤ |floatRd p z - z| + |z - x| := by
      have : floatRd p z - x = (floatRd p z - z) + (z - x) := by ring
      rw [this]; exact abs_add_le _ _
    linarith
  -- the product of `d` and a weight `s` of at most one half near `r`
  have part : ∀ s r : K, 0 ≤ s → s ≤ 1 / 2 → |s - r| ≤ 3 / 2 * u →
      0 ≤ floatRd p (d * s) ∧ floatRd p (d * s) ≤ d / 2 ∧ |floatRd p (d * s) - w * r| ≤ 3 * (u * w) := by
    intro s r s0 s1 hsr
    have hds : 0 ≤ d * s := mul_nonneg hd0 s0
    refine ⟨floatRd_nn hp hds, ?_, ?_⟩
    · rw [hd, ← rd_half hp w, ← hd]
      exact floatRd_mono hp (by nlinarith)
    · have g1 := abs_le.1 (err (d * s) hds)
      have g2 := abs_le.1 hsr
      have k1 : d * s ≤ d * (1 / 2) := mul_le_mul_of_nonneg_left s1 hd0
      have k2 : u * (d * s) ≤ u * (3 / 2 * w * (1 / 2)) := by
        refine mul_le_mul_of_nonneg_left (k1.trans ?_) hu0.le
        nlinarith
      have k3 : |(d - w) * s| ≤ u * w * (1 / 2) := by
        rw [abs_mul, abs_of_nonneg s0]
        exact mul_le_mul (abs_le.2 e1) s1 s0 huw
      have k4 : |w * (s - r)| ≤ w * (3 / 2 * u) := by
        rw [abs_mul, abs_of_nonneg hw0]
        exact mul_le_mul_of_nonneg_left hsr hw0
      have k5 := abs_le.1 k3
      have k6 := abs_le.1 k4
      rw [abs_le]
      constructor <;> nlinarith
  unfold Spec.lerp
  rw [← hw, ← hd]
  have hdw : d / 2 ≤ w := by nlinarith
  split
  · next h =>
    obtain ⟨g1, g2, g3⟩ := part (floatRd p (1 - t')) (1 - t) (floatRd_nn hp (by linarith)) (by
      rw [← rd_half_one hp]; exact floatRd_mono hp (by linarith)) (by
      have k := abs_le.1 (err (1 - t') (by linarith))
      have k2 : u * (1 - t') ≤ u * (1 / 2) := mul_le_mul_of_nonneg_left (by linarith) hu0.le
      rw [abs_le]; constructor <;> linarith)
    refine fin _ _ (by linarith) (by linarith) ?_
    rw [show b - floatRd p (d * floatRd p (1 - t')) - (a + w * t) = -(floatRd p (d * floatRd p (1 - t')) - w * (1 - t)) by
      rw [hw]; ring, abs_neg]
    exact g3
  · next h =>
    obtain ⟨g1, g2, g3⟩ := part t' t ht0 (by linarith [not_le.1 h]) (by
      rw [abs_le]; constructor <;> linarith)
    refine fin _ _ (by linarith) (by linarith) ?_
    rw [show a + floatRd p (d * t') - (a + w * t) = floatRd p (d * t') - w * t by ring]
    exact g3

theorem interpR_err (hp : 1 ≤ p) {f : ℕ → K} {n : ℕ} (hf : ∀ i j, i ≤ j → j < n → f i ≤ f j) {G M : K}
    (hG0 : 0 ≤ G) (hG : ∀ i, i + 1 < n → f (i + 1) - f i ≤ G) (hM : ∀ i < n, |f i| ≤ M) {v : K} (h0 : 0 ≤ v)
    (hn : 0 < n) : |Spec.interpR p f n v - Spec.interp f n v| ≤ (2 : K) ^ (-(p : ℤ)) * (3 * G + M) := by
  have hu0 : (0 : K) < 2 ^ (-(p : ℤ)) := zpow_pos (by norm_num) _
  have hM0 : 0 ≤ M := (abs_nonneg _).trans (hM 0 hn)
  unfold Spec.interpR Spec.interp
  by_cases h : (n : K) - 1 ≤ v
  · rw [if_pos h, if_pos h, sub_self, abs_zero]
    exact mul_nonneg hu0.le (by linarith)
  · rw [if_neg h, if_neg h]
    have hfl : 0 ≤ ⌊v⌋ := Int.floor_nonneg.2 h0
    have h3 := floor_lt_pred (not_le.1 h)
    have e : (⌊v⌋ + 1).toNat = ⌊v⌋.toNat + 1 := by omega
    rw [e]
    have g := hG ⌊v⌋.toNat (by omega)
    refine (lerp_err hp (hf _ _ (by omega) (by omega)) (sub_nonneg.2 (Int.floor_le v))
      (by linarith [(Int.lt_floor_add_one v).le]) (hM _ (by omega)) (hM _ (by omega))).trans ?_
    exact mul_le_mul_of_nonneg_left (by linarith) hu0.le

/-- The rounded index of the rounded level. -/
theorem virtualR_err (hp : 7 ≤ p) {n : ℕ} (hn : 0 < n) {q : K} (h0 : 0 ≤ q) :
    |virtualR (floatRd p) n (floatRd p q) - ((n : K) - 1) * q| ≤ 5 * (2 : K) ^ (-(p : ℤ)) * (((n : K) - 1) * q) := by
  have hn' : (0 : K) ≤ (n : K) - 1 := by
    have : (1 : K) ≤ (n : K) := by exact_mod_cast hn
    linarith
  have hu0 : (0 : K) < 2 ^ (-(p : ℤ)) := zpow_pos (by norm_num) _
  have hu1 : (2 : K) ^ (-(p : ℤ)) ≤ 1 / 128 := by
    have : (2 : K) ^ (-(p : ℤ)) ≤ 2 ^ (-7 : ℤ) := zpow_le_zpow_right₀ (by norm_num) (by omega)
    refine this.trans (by norm_num)
  have err : ∀ x : K, 0 ≤ x → (1 - 2 ^ (-(p : ℤ))) * x ≤ floatRd p x ∧ floatRd p x ≤ (1 + 2 ^ (-(p : ℤ))) * x :=
    fun x hx => by
      have := floatRd_err p x
      rw [abs_of_nonneg hx, abs_le] at this
      constructor <;> linarith
  generalize (2 : K) ^ (-(p : ℤ)) = u at *
  unfold virtualR
  have a1 := err q h0
  set q1 := floatRd p q
  have q10 : 0 ≤ q1 := floatRd_nn (by omega) h0
  have a2 := err (100 * q1) (by linarith)
  set q2 := floatRd p (100 * q1)
  have q20 : 0 ≤ q2 := floatRd_nn (by omega) (by linarith)
  have a3 := err (q2 / 100) (by linarith)
  set q3 := floatRd p (q2 / 100)
  have q30 : 0 ≤ q3 := floatRd_nn (by omega) (by linarith)
  have a4 := err (((n : K) - 1) * q3) (mul_nonneg hn' q30)
  have l3 : (1 - u) ^ 3 * q ≤ q3 ∧ q3 ≤ (1 + u) ^ 3 * q := by
    constructor
    · have b1 : (1 - u) * ((1 - u) * ((1 - u) * q)) ≤ (1 - u) * ((1 - u) * q1) := by
        refine mul_le_mul_of_nonneg_left (mul_le_mul_of_nonneg_left a1.1 (by linarith)) (by linarith)
      have b2 : (1 - u) * ((1 - u) * q1) ≤ (1 - u) * (q2 / 100) := by
        refine mul_le_mul_of_nonneg_left ?_ (by linarith)
        linarith [a2.1]
      calc (1 - u) ^ 3 * q = (1 - u) * ((1 - u) * ((1 - u) * q)) := by ring
        _ ≤ _ := b1.trans (b2.trans a3.1)
    · have b1 : (1 + u) * ((1 + u) * q1) ≤ (1 + u) * ((1 + u) * ((1 + u) * q)) := by
        refine mul_le_mul_of_nonneg_left (mul_le_mul_of_nonneg_left a1.2 (by linarith)) (by linarith)
      have b2 : (1 + u) * (q2 / 100) ≤ (1 + u) * ((1 + u) * q1) := by
        refine mul_le_mul_of_nonneg_left ?_ (by linarith)
        linarith [a2.2]
      calc q3 ≤ _ := a3.2.trans (b2.trans b1)
        _ = (1 + u) ^ 3 * q := by ring
  set N := (n : K) - 1
  have h5 : 0 ≤ N * q := mul_nonneg hn' h0
  have c1 : (1 - u) ^ 4 * (N * q) ≤ floatRd p (N * q3) := by
    refine le_trans ?_ a4.1
    calc (1 - u) ^ 4 * (N * q) = (1 - u) * (N * ((1 - u) ^ 3 * q)) := by ring
      _ ≤ _ := mul_le_mul_of_nonneg_left (mul_le_mul_of_nonneg_left l3.1 hn') (by linarith)
  have c2 : floatRd p (N * q3) ≤ (1 + u) ^ 4 * (N * q) := by
    refine le_trans a4.2 ?_
    calc _ ≤ (1 + u) * (N * ((1 + u) ^ 3 * q)) :=
          mul_le_mul_of_nonneg_left (mul_le_mul_of_nonneg_left l3.2 hn') (by linarith)
      _ = (1 + u) ^ 4 * (N * q) := by ring
  have d1 : 1 - 5 * u ≤ (1 - u) ^ 4 := by nlinarith [sq_nonneg u, mul_nonneg hu0.le (sq_nonneg (u - 1))]
  have d2 : (1 + u) ^ 4 ≤ 1 + 5 * u := by
    have : u ^ 2 ≤ u / 128 := by nlinarith
    have h3 : u ^ 3 ≤ u / 128 := by
      calc u ^ 3 = u ^ 2 * u := by ring
        _ ≤ u ^ 2 * 1 := mul_le_mul_of_nonneg_left (by linarith) (sq_nonneg u)
        _ ≤ u / 128 := by linarith
    have h4 : u ^ 4 ≤ u / 128 := by
      calc u ^ 4 = u ^ 2 * u ^ 2 := by ring
        _ ≤ u ^ 2 * 1 := mul_le_mul_of_nonneg_left (by nlinarith) (sq_nonneg u)
        _ ≤ u / 128 := by linarith
    nlinarith
  have f1 := mul_le_mul_of_nonneg_right d1 h5
  have f2 := mul_le_mul_of_nonneg_right d2 h5
  rw [abs_le]
  constructor <;> linarith

theorem virtualR_range (hp : 7 ≤ p) {n : ℕ} (hn : 0 < n) (hnp : n ≤ 2 ^ p) {q : K} (h0 : 0 ≤ q) (h1 : q ≤ 1) :
    0 ≤ virtualR (floatRd p) n q ∧ virtualR (floatRd p) n q ≤ (n : K) - 1 := by
  constructor
  · rw [← virtualR_zero (p := p) (K := K) n]; exact virtualR_mono (by omega) hn h0
  · rw [← virtualR_one (K := K) hp hn hnp]; exact virtualR_mono (by omega) hn h1

theorem rd_unit (hp : 1 ≤ p) {q : K} (h0 : 0 ≤ q) (h1 : q ≤ 1) : 0 ≤ floatRd p q ∧ floatRd p q ≤ 1 := by
  refine ⟨floatRd_nn hp h0, ?_⟩
  rw [← rd_one (K := K) hp]; exact floatRd_mono hp h1

/-- **C173** the default method `linear` at a level in [0, 1] that is rounded to `p` digits itself: the rounded
percentile differs from the exact one by at most `2⁻ᵖ((5(n-1)q + 3)G + M)`, where `G` bounds the gaps between consecutive
values of the sorted sample and `M` the values. -/
theorem C173_linear (hp : 7 ≤ p) {fs : List K} (hne : fs ≠ []) (hF : ∀ x ∈ fs, Spec.IsFloat p x)
    (hnp : 2 * fs.length ≤ 2 ^ p) {G M : K} (hG0 : 0 ≤ G)
    (hG : ∀ i, i + 1 < fs.length →
      (fs.insertionSort (· ≤ ·)).getD (i + 1) 0 - (fs.insertionSort (· ≤ ·)).getD i 0 ≤ G)
    (hM : ∀ x ∈ fs, |x| ≤ M) {q : K} (h0 : 0 ≤ q) (h1 : q ≤ 1) :
    ∃ y z, percentileR (floatRd p) .linear (fs.map Num.fin) (floatRd p q) = .fin y ∧
      percentile .linear (fs.map Num.fin) q = .fin z ∧
      |y - z| ≤ (2 : K) ^ (-(p : ℤ)) * ((5 * (((fs.length : K) - 1) * q) + 3) * G + M) := by
  have hl : 0 < fs.length := List.length_pos_iff.2 hne
  obtain ⟨r0, r1⟩ := rd_unit (p := p) (by omega) h0 h1
  refine ⟨_, _, percentileR_eq hp .linear hne hF hnp r0 r1, percentile_eq .linear hne h0 h1, ?_⟩
  have hf : ∀ i j, i ≤ j → j < fs.length → (fs.insertionSort (· ≤ ·)).getD i 0 ≤ (fs.insertionSort (· ≤ ·)).getD j 0 :=
    fun i j hij hj => sorted_getD hij hj
  have hM' : ∀ i < fs.length, |(fs.insertionSort (· ≤ ·)).getD i 0| ≤ M := by
    intro i hi
    have hi' : i < (fs.insertionSort (· ≤ ·)).length := by rw [List.length_insertionSort]; exact hi
    rw [List.getD_eq_getElem?_getD, List.getElem?_eq_getElem hi', Option.getD_some]
    exact hM _ ((List.mem_insertionSort _).1 (List.getElem_mem _))
  obtain ⟨v0, v1⟩ := virtualR_range (K := K) hp hl (by omega) r0 r1
  have he := virtualR_err (p := p) hp hl h0
  show |Spec.interpR p _ _ (virtualR (floatRd p) fs.length (floatRd p q)) - Spec.interp _ _ (((fs.length : K) - 1) * q)| ≤ _
  have hn' : (0 : K) ≤ (fs.length : K) - 1 := by
    have : (1 : K) ≤ (fs.length : K) := by exact_mod_cast hl
    linarith
  set h := virtualR (floatRd p) fs.length (floatRd p q)
  have e1 := interpR_err (p := p) (by omega) hf hG0 hG hM' v0 hl
  have e2 := interp_lip_abs hf hG (v := ((fs.length : K) - 1) * q) (w := h) (mul_nonneg hn' h0)
    (by nlinarith) v0 v1
  have e3 := mul_le_mul_of_nonneg_left he hG0
  refine (abs_sub_le _ (Spec.interp (fun i => (fs.insertionSort (· ≤ ·)).getD i 0) fs.length h) _).trans ?_
  nlinarith

/-! ### ranks -/

theorem floor_near {h h' e : K} (hm : ∀ k : ℤ, e < |h - k|) (hh : |h' - h| ≤ e) : ⌊h'⌋ = ⌊h⌋ ∧ ⌈h'⌉ = ⌈h⌉ := by
  have f1 := Int.floor_le h
  have f2 := Int.lt_floor_add_one h
  have m1 := hm ⌊h⌋
  rw [abs_of_nonneg (by linarith)] at m1
  have m2 := hm (⌊h⌋ + 1)
  push_cast at m2
  rw [abs_of_neg (by linarith)] at m2
  obtain ⟨a1, a2⟩ := abs_le.1 hh
  have he : 0 ≤ e := (abs_nonneg _).trans hh
  constructor
  · rw [Int.floor_eq_iff]; constructor <;> linarith
  · have c : ∀ x : K, (⌊h⌋ : K) < x → x < ⌊h⌋ + 1 → ⌈x⌉ = ⌊h⌋ + 1 := fun x x1 x2 => by
      rw [Int.ceil_eq_iff]; push_cast; constructor <;> linarith
    rw [c h' (by linarith) (by linarith), c h (by linarith) (by linarith)]

theorem rhe_eq {x : K} {k : ℤ} (h : |x - k| < 1 / 2) : roundHalfEven x = k := by
  have h1 := rhe_half x
  have h2 : |((roundHalfEven x - k : ℤ) : K)| < 1 := by
    push_cast
    have : (roundHalfEven x : K) - k = (x - k) - (x - roundHalfEven x) := by ring
    rw [this]
    refine (abs_sub _ _).trans_lt ?_
    linarith
  have h3 : |roundHalfEven x - k| < 1 := by
    rw [← Int.cast_abs] at h2
    exact_mod_cast h2
  have := Int.abs_lt_one_iff.1 h3
  omega

theorem rhe_near {h h' e : K} (hm : ∀ k : ℤ, e < |h - (k + 1 / 2)|) (hh : |h' - h| ≤ e) :
    roundHalfEven h' = roundHalfEven h := by
  apply rhe_eq
  obtain ⟨b1, b2⟩ := abs_le.1 (rhe_half h)
  have m1 := hm (roundHalfEven h)
  have m2 := hm (roundHalfEven h - 1)
  push_cast at m2
  obtain ⟨a1, a2⟩ := abs_le.1 hh
  rw [abs_of_nonpos (by linarith)] at m1
  rw [abs_of_nonneg (by linarith)] at m2
  rw [abs_lt]; constructor <;> linarith

/-- **C174 (partial)** a level is exactly the one asked for when its rank `(n-1)q` is away from whole numbers (for
`nearest`: from halves of odd numbers) by more than `5·2⁻ᵖ(n-1)q`: the methods `lower`, `higher` and `nearest` return the
same value of the sample as in exact arithmetic.  Missing: ranks closer to these numbers, see `C174_fails`. -/
theorem C174_partial (hp : 7 ≤ p) {fs : List K} (hne : fs ≠ []) (hF : ∀ x ∈ fs, Spec.IsFloat p x)
    (hnp : 2 * fs.length ≤ 2 ^ p) {q : K} (h0 : 0 ≤ q) (h1 : q ≤ 1) :
    ((∀ k : ℤ, 5 * (2 : K) ^ (-(p : ℤ)) * (((fs.length : K) - 1) * q) < |((fs.length : K) - 1) * q - k|) →
      percentileR (floatRd p) .lower (fs.map Num.fin) (floatRd p q) = percentile .lower (fs.map Num.fin) q ∧
      percentileR (floatRd p) .higher (fs.map Num.fin) (floatRd p q) = percentile .higher (fs.map Num.fin) q) ∧
    ((∀ k : ℤ, 5 * (2 : K) ^ (-(p : ℤ)) * (((fs.length : K) - 1) * q) < |((fs.length : K) - 1) * q - (k + 1 / 2)|) →
      percentileR (floatRd p) .nearest (fs.map Num.fin) (floatRd p q) = percentile .nearest (fs.map Num.fin) q) := by
  have hl : 0 < fs.length := List.length_pos_iff.2 hne
  obtain ⟨r0, r1⟩ := rd_unit (p := p) (by omega) h0 h1
  obtain ⟨v0, v1⟩ := virtualR_range (K := K) hp hl (by omega) r0 r1
  have he := virtualR_err (p := p) hp hl h0
  have hF' : ∀ i < fs.length, Spec.IsFloat p ((fs.insertionSort (· ≤ ·)).getD i 0) := fun i hi => sorted_float hF hi
  have hn' : (0 : K) ≤ (fs.length : K) - 1 := by
    have : (1 : K) ≤ (fs.length : K) := by exact_mod_cast hl
    linarith
  have key : ∀ (m : Interp) (k : ℤ), Spec.posAt m (virtualR (floatRd p) fs.length (floatRd p q)) = (k : K) →
      Spec.posAt m (((fs.length : K) - 1) * q) = (k : K) →
      percentileR (floatRd p) m (fs.map Num.fin) (floatRd p q) = percentile m (fs.map Num.fin) q := by
    intro m k e1 e2
    rw [percentileR_eq hp m hne hF hnp r0 r1, percentile_eq m hne h0 h1, ← posAt_pos, e1, e2]
    have k0 : 0 ≤ k := by
      have := posAt_mono m v0
      have e := posAt_int (K := K) m 0
      rw [Int.cast_zero] at e
      rw [e, e1] at this
      exact_mod_cast this
    have k1 : k ≤ (fs.length : ℤ) - 1 := by
      have := posAt_mono m v1
      have e := posAt_int (K := K) m ((fs.length : ℤ) - 1)
      have e' : (((fs.length : ℤ) - 1 : ℤ) : K) = (fs.length : K) - 1 := by push_cast; rfl
      rw [← e', e, e1] at this
      exact Int.cast_le.1 this
    rw [interpR_int (by omega) hF' k0 k1, interp_int k0 k1]
  refine ⟨fun hm => ?_, fun hm => ?_⟩
  · obtain ⟨e1, e2⟩ := floor_near hm he
    refine ⟨key .lower ⌊((fs.length : K) - 1) * q⌋ ?_ rfl, key .higher ⌈((fs.length : K) - 1) * q⌉ ?_ rfl⟩
    · show ((⌊_⌋ : ℤ) : K) = _
      rw [e1]
    · show ((⌈_⌉ : ℤ) : K) = _
      rw [e2]
  · refine key .nearest (roundHalfEven (((fs.length : K) - 1) * q)) ?_ rfl
    show ((roundHalfEven _ : ℤ) : K) = _
    rw [rhe_near hm he]

/-- **C173** for the method `midpoint`, whose rank must be away from whole numbers as in `C174_partial`. -/
theorem C173_midpoint (hp : 7 ≤ p) {fs : List K} (hne : fs ≠ []) (hF : ∀ x ∈ fs, Spec.IsFloat p x)
    (hnp : 2 * fs.length ≤ 2 ^ p) {G M : K} (hG0 : 0 ≤ G)
    (hG : ∀ i, i + 1 < fs.length →
      (fs.insertionSort (· ≤ ·)).getD (i + 1) 0 - (fs.insertionSort (· ≤ ·)).getD i 0 ≤ G)
    (hM : ∀ x ∈ fs, |x| ≤ M) {q : K} (h0 : 0 ≤ q) (h1 : q ≤ 1)
    (hm : ∀ k : ℤ, 5 * (2 : K) ^ (-(p : ℤ)) * (((fs.length : K) - 1) * q) < |((fs.length : K) - 1) * q - k|) :
    ∃ y z, percentileR (floatRd p) .midpoint (fs.map Num.fin) (floatRd p q) = .fin y ∧
      percentile .midpoint (fs.map Num.fin) q = .fin z ∧ |y - z| ≤ (2 : K) ^ (-(p : ℤ)) * (3 * G + M) := by
  have hl : 0 < fs.length := List.length_pos_iff.2 hne
  obtain ⟨r0, r1⟩ := rd_unit (p := p) (by omega) h0 h1
  refine ⟨_, _, percentileR_eq hp .midpoint hne hF hnp r0 r1, percentile_eq .midpoint hne h0 h1, ?_⟩
  have hf : ∀ i j, i ≤ j → j < fs.length → (fs.insertionSort (· ≤ ·)).getD i 0 ≤ (fs.insertionSort (· ≤ ·)).getD j 0 :=
    fun i j hij hj => sorted_getD hij hj
  have hM' : ∀ i < fs.length, |(fs.insertionSort (· ≤ ·)).getD i 0| ≤ M := by
    intro i hi
    have hi' : i < (fs.insertionSort (· ≤ ·)).length := by rw [List.length_insertionSort]; exact hi
    rw [List.getD_eq_getElem?_getD, List.getElem?_eq_getElem hi', Option.getD_some]
    exact hM _ ((List.mem_insertionSort _).1 (List.getElem_mem _))
  obtain ⟨e1, e2⟩ := floor_near hm (virtualR_err (p := p) hp hl h0)
  have e3 : Spec.posAt .midpoint (virtualR (floatRd p) fs.length (floatRd p q)) =
      Spec.pos .midpoint fs.length q := by
    show 1 / 2 * (((⌊_⌋ : ℤ) : K) + ((⌈_⌉ : ℤ) : K)) = 1 / 2 * _
    rw [e1, e2]
  rw [e3]
  exact interpR_err (by omega) hf hG0 hG hM' (pos_nonneg .midpoint hl h0) hl

/-! ### tables -/

/-- Levels given in units of 1e-7 have the headers of exact arithmetic. -/
theorem hdrNumR_level (hp : 26 ≤ p) {k : ℕ} (hk : k ≤ 10 ^ 7) :
    hdrNumR (floatRd p) (floatRd p ((k : K) / 10 ^ 7)) = k := by
  have hu0 : (0 : K) < 2 ^ (-(p : ℤ)) := zpow_pos (by norm_num) _
  have hu1 : (2 : K) ^ (-(p : ℤ)) ≤ 1 / 67108864 := by
    have : (2 : K) ^ (-(p : ℤ)) ≤ 2 ^ (-26 : ℤ) := zpow_le_zpow_right₀ (by norm_num) (by omega)
    refine this.trans (by norm_num)
  have err : ∀ x : K, 0 ≤ x → (1 - 2 ^ (-(p : ℤ))) * x ≤ floatRd p x ∧ floatRd p x ≤ (1 + 2 ^ (-(p : ℤ))) * x :=
    fun x hx => by
      have := floatRd_err p x
      rw [abs_of_nonneg hx, abs_le] at this
      constructor <;> linarith
  generalize (2 : K) ^ (-(p : ℤ)) = u at *
  have hkK : (k : K) ≤ 10 ^ 7 := by exact_mod_cast hk
  have hk0 : (0 : K) ≤ k := Nat.cast_nonneg k
  set q : K := (k : K) / 10 ^ 7 with hq
  have hq0 : 0 ≤ q := div_nonneg hk0 (by norm_num)
  have hkq : (k : K) = 10 ^ 7 * q := by rw [hq]; field_simp
  have hq1 : q ≤ 1 := by rw [hkq] at hkK; linarith
  have a1 := err q hq0
  set q1 := floatRd p q
  have q10 : 0 ≤ q1 := floatRd_nn (by omega) hq0
  have a2 := err (100 * q1) (by linarith)
  set q2 := floatRd p (100 * q1)
  have huq : u * q ≤ 1 / 67108864 := by nlinarith
  have huq0 : 0 ≤ u * q := mul_nonneg hu0.le hq0
  have huu : u * (u * q) ≤ 1 / 67108864 * (u * q) := mul_le_mul_of_nonneg_right hu1 huq0
  have b1 : u * q1 ≤ u * ((1 + u) * q) := mul_le_mul_of_nonneg_left a1.2 hu0.le
  have key : roundHalfEven (100000 * q2) = (k : ℤ) := by
    apply rhe_eq
    rw [Int.cast_natCast, hkq, abs_lt]
    constructor <;> nlinarith
  unfold hdrNumR
  rw [key, Int.toNat_natCast]

theorem level_mono (hp : 26 ≤ p) {k k' : ℕ} (hk : k ≤ 10 ^ 7) (hk' : k' ≤ 10 ^ 7) (h : k < k') :
    floatRd p ((k : K) / 10 ^ 7) < floatRd p ((k' : K) / 10 ^ 7) := by
  refine lt_of_le_of_ne (floatRd_mono (by omega) ?_) ?_
  · exact div_le_div_of_nonneg_right (by exact_mod_cast h.le) (by norm_num)
  · intro e
    have h1 := hdrNumR_level (K := K) hp hk
    rw [e, hdrNumR_level hp hk'] at h1
    omega

/-- Lists in increasing order with the same members are equal. -/
theorem sorted_ext {l l' : List K} (h : l.Pairwise (· < ·)) (h' : l'.Pairwise (· < ·)) (hm : ∀ x, x ∈ l ↔ x ∈ l') :
    l = l' :=
  ((List.perm_ext_iff_of_nodup (h.imp (fun h => ne_of_lt h)) (h'.imp (fun h => ne_of_lt h))).2 hm).eq_of_pairwise
    (fun a b _ _ h1 h2 => absurd h1 (not_lt.2 h2.le)) h h'

theorem hdrNum_level (k : ℕ) : hdrNum ((k : K) / 10 ^ 7) = k := by
  unfold hdrNum
  have : (100000 * (100 * ((k : K) / 10 ^ 7))) = ((k : ℤ) : K) := by
    rw [Int.cast_natCast]
    field_simp
    ring
  rw [this, roundHalfEven_int, Int.toNat_natCast]

/-- The common part of both tables. -/
theorem table_fold {ks : List ℕ} {L : ℕ → K} (hL : ∀ k ∈ ks, ∀ k' ∈ ks, k < k' → L k < L k') {N : K → ℕ}
    (hN : ∀ k ∈ ks, N (L k) = k) (hr : ∀ k ∈ ks, 0 ≤ L k ∧ L k ≤ 1) (hne : ks ≠ []) {H : ℕ → List Char}
    (hH : ∀ k, hdrOrd k = .ok (H k)) (f : K → List (Num K)) :
    ∀ js : List ℕ, js.Pairwise (· < ·) → (∀ k, k ∈ js ↔ k ∈ ks) →
      qtlsFormatter (ks.map (fun k => Num.fin (L k))) false = .ok (js.map L) ∧ (js.map L).isEmpty = false ∧
      (js.map L).mapM (fun x => hdrOrd (N x)) = .ok (js.map H) ∧
      (((js.map H).zip (js.map L)).foldl (fun d p => dictSet p.1 (f p.2) d) []) = js.map (fun k => (H k, f (L k))) := by
  intro js hjs hmem
  have hz : (js.map H).zip (js.map L) = js.map (fun k => (H k, L k)) := by
    rw [List.zip_map']
  refine ⟨?_, ?_, ?_, ?_⟩
  · obtain ⟨l, e1, e2, e3, -⟩ := (C61_plain (ks.map (fun k => Num.fin (L k)))).2 (by
      intro v hv
      obtain ⟨k, hk, rfl⟩ := List.mem_map.1 hv
      exact ⟨_, rfl, hr k hk⟩)
    rw [e1]
    congr 1
    refine sorted_ext e2 ?_ ?_
    · rw [List.pairwise_map]
      exact hjs.imp_of_mem (fun ha hb hab => hL _ ((hmem _).1 ha) _ ((hmem _).1 hb) hab)
    · intro x
      rw [e3, List.mem_map, List.mem_map]
      constructor
      · rintro ⟨k, hk, e⟩
        exact ⟨k, (hmem k).2 hk, by injection e⟩
      · rintro ⟨k, hk, e⟩
        exact ⟨k, (hmem k).1 hk, by rw [e]⟩
  · obtain ⟨k, hk⟩ := List.exists_mem_of_ne_nil _ hne
    have := (hmem k).2 hk
    cases js with
    | nil => cases this
    | cons a l => rfl
  · rw [mapM_ok (g := fun x => H (N x)) (fun x _ => hH _)]
    rw [List.map_map]
    congr 1
    refine List.map_congr_left fun k hk => ?_
    show H (N (L k)) = H k
    rw [hN k ((hmem k).1 hk)]
  · rw [hz, foldl_dictSet f, List.nil_append, List.map_map]
    · rfl
    · rw [List.map_map]
      show (js.map H).Nodup
      rw [List.nodup_map_iff_inj_on (hjs.imp (fun h => ne_of_lt h))]
      intro k _ k' _ e
      exact hdrOrd_inj (by rw [hH, hH, e])
    · intro k _; simp

/-- **C175** the table of `get_quantiles` for levels given in units of 1e-7, in arithmetic with at least 26 digits: the
columns are those of exact arithmetic, in the same order and with the same headers; each holds the percentiles computed
at the rounded level. -/
theorem C175_table (hp : 26 ≤ p) (m : Interp) (lb : Option K) (rows : List (List (Num K))) (ks : List ℕ)
    (hne : ks ≠ []) (hk : ∀ k ∈ ks, k ≤ 10 ^ 7) :
    ∃ (js : List ℕ) (H : ℕ → List Char), js.Pairwise (· < ·) ∧ (∀ k, k ∈ js ↔ k ∈ ks) ∧
      (∀ k, hdrOrd k = .ok (H k)) ∧
      getQuantiles m lb rows (ks.map (fun k : ℕ => Num.fin ((k : K) / 10 ^ 7))) =
        .ok (js.map (fun k => (H k, quantileColumn m lb rows ((k : K) / 10 ^ 7)))) ∧
      getQuantilesR (floatRd p) m lb rows (ks.map (fun k : ℕ => Num.fin (floatRd p ((k : K) / 10 ^ 7)))) =
        .ok (js.map (fun k => (H k, quantileColumnR (floatRd p) m lb rows (floatRd p ((k : K) / 10 ^ 7))))) := by
  choose H hH using fun n : ℕ => (show ∃ s, hdrOrd n = .ok s from ⟨_, (hdrOrd_ok n).choose_spec.1⟩)
  set js := ks.dedup.insertionSort (· ≤ ·) with hjs
  have hs : js.Pairwise (· < ·) := by
    have h1 : js.Pairwise (· ≤ ·) := List.pairwise_insertionSort (· ≤ ·) ks.dedup
    have h2 : js.Nodup := (List.perm_insertionSort (· ≤ ·) ks.dedup).nodup_iff.2 ks.nodup_dedup
    have h2' : js.Pairwise (· ≠ ·) := h2
    exact (h1.and h2').imp (fun h => lt_of_le_of_ne h.1 h.2)
  have hmem : ∀ k, k ∈ js ↔ k ∈ ks := fun k => by rw [hjs, List.mem_insertionSort, List.mem_dedup]
  have hr : ∀ k ∈ ks, 0 ≤ (k : K) / 10 ^ 7 ∧ (k : K) / 10 ^ 7 ≤ 1 := by
    intro k hk'
    refine ⟨by positivity, ?_⟩
    rw [div_le_one (by positivity)]
    exact_mod_cast hk k hk'
  refine ⟨js, H, hs, hmem, hH, ?_, ?_⟩
  · obtain ⟨e1, e2, e3, e4⟩ := table_fold (L := fun k : ℕ => (k : K) / 10 ^ 7) (N := hdrNum)
      (fun k _ k' _ h => div_lt_div_of_pos_right (by exact_mod_cast h) (by norm_num)) (fun k _ => hdrNum_level k) hr hne hH
      (quantileColumn m lb rows) js hs hmem
    unfold getQuantiles qtlsFormatterRes
    simp only [e1, bind, Except.bind, e3, e2, Bool.false_and, Bool.false_eq_true, if_false]
    rw [e4]
  · obtain ⟨e1, e2, e3, e4⟩ := table_fold (L := fun k : ℕ => floatRd p ((k : K) / 10 ^ 7)) (N := hdrNumR (floatRd p))
      (fun k hk1 k' hk2 h => level_mono hp (hk k hk1) (hk k' hk2) h) (fun k hk1 => hdrNumR_level hp (hk k hk1))
      (fun k hk1 => rd_unit (by omega) (hr k hk1).1 (hr k hk1).2) hne hH
      (quantileColumnR (floatRd p) m lb rows) js hs hmem
    unfold getQuantilesR
    have e1' : qtlsFormatterR (floatRd p) (ks.map (fun k : ℕ => Num.fin (floatRd p ((k : K) / 10 ^ 7)))) false =
        .ok (js.map (fun k : ℕ => floatRd p ((k : K) / 10 ^ 7))) := e1
    simp only [e1', bind, Except.bind, e3, e2, Bool.false_and, Bool.false_eq_true, if_false]
    rw [e4]

/-- A row of the table: the simulated reserves, numbers with `p` digits, at least one and at most `2^(p-1)`. -/
def Spec.FloatRow (p : ℕ) (l : List (Num K)) : Prop :=
  ∃ fs : List K, l = fs.map Num.fin ∧ fs ≠ [] ∧ (∀ x ∈ fs, Spec.IsFloat p x) ∧ 2 * fs.length ≤ 2 ^ p

theorem applyLb_fin (lb : Option K) {x y : K} (h : x ≤ y) :
    ∃ a b, applyLb lb (.fin x) = .fin a ∧ applyLb lb (.fin y) = .fin b ∧ a ≤ b := by
  cases lb with
  | none => exact ⟨x, y, rfl, rfl, h⟩
  | some c =>
    refine ⟨max c x, max c y, ?_, ?_, max_le_max_left c h⟩
    · unfold applyLb
      simp only [Num.lt_fin, decide_eq_true_eq]
      split
      · next h => rw [max_eq_left h.le]
      · next h => rw [max_eq_right (not_lt.1 h)]
    · unfold applyLb
      simp only [Num.lt_fin, decide_eq_true_eq]
      split
      · next h => rw [max_eq_left h.le]
      · next h => rw [max_eq_right (not_lt.1 h)]

/-- **C175** along each row of the table the entries do not decrease. -/
theorem C175_increasing (hp : 26 ≤ p) (m : Interp) (lb : Option K) {rows : List (List (Num K))}
    (hrows : ∀ l ∈ rows, Spec.FloatRow p l) (ks : List ℕ) (hne : ks ≠ []) (hk : ∀ k ∈ ks, k ≤ 10 ^ 7) :
    ∃ tbl, getQuantilesR (floatRd p) m lb rows (ks.map (fun k : ℕ => Num.fin (floatRd p ((k : K) / 10 ^ 7)))) = .ok tbl ∧
      tbl.Pairwise (fun c c' => List.Forall₂ (fun v w => ∃ a b : K, v = .fin a ∧ w = .fin b ∧ a ≤ b) c.2 c'.2) := by
  obtain ⟨js, H, h1, h2, -, -, h3⟩ := C175_table hp m lb rows ks hne hk
  refine ⟨_, h3, ?_⟩
  rw [List.pairwise_map]
  refine h1.imp_of_mem (fun {k k'} hk1 hk2 hlt => ?_)
  have hr : ∀ k ∈ js, 0 ≤ (k : K) / 10 ^ 7 ∧ (k : K) / 10 ^ 7 ≤ 1 := by
    intro k hk'
    refine ⟨by positivity, ?_⟩
    rw [div_le_one (by positivity)]
    exact_mod_cast hk k ((h2 k).1 hk')
  have a1 := rd_unit (p := p) (by omega) (hr k hk1).1 (hr k hk1).2
  have a2 := rd_unit (p := p) (by omega) (hr k' hk2).1 (hr k' hk2).2
  have a3 : floatRd p ((k : K) / 10 ^ 7) ≤ floatRd p ((k' : K) / 10 ^ 7) :=
    (level_mono hp (hk k ((h2 k).1 hk1)) (hk k' ((h2 k').1 hk2)) hlt).le
  show List.Forall₂ _ (rows.map _) (rows.map _)
  rw [List.forall₂_map_left_iff, List.forall₂_map_right_iff, List.forall₂_same]
  intro l hl
  obtain ⟨fs, rfl, b1, b2, b3⟩ := hrows l hl
  obtain ⟨P, lo, hi, -, -, -, c1, -, -, c2⟩ := C172_percentile (by omega) m b1 b2 b3
  rw [(c1 _ a1.1 a1.2).1, (c1 _ a2.1 a2.2).1]
  exact applyLb_fin lb (c2 _ _ a1.1 a3 a2.2)

/-- **C175** with the default method `linear`: the table of rounded arithmetic has the headers of the exact one, and its
entries differ from the exact ones by at most `e` when, for each row, `2⁻ᵖ((5n + 3)G + M) ≤ e` for the number `n` of
simulations less one, a bound `G` of the gaps in the sorted row and a bound `M` of its values. -/
theorem C175_error (hp : 26 ≤ p) (lb : Option K) {rows : List (List (Num K))} {e : K}
    (hrows : ∀ l ∈ rows, ∃ (fs : List K) (G M : K), l = fs.map Num.fin ∧ fs ≠ [] ∧ (∀ x ∈ fs, Spec.IsFloat p x) ∧
      2 * fs.length ≤ 2 ^ p ∧ 0 ≤ G ∧ (∀ i, i + 1 < fs.length →
        (fs.insertionSort (· ≤ ·)).getD (i + 1) 0 - (fs.insertionSort (· ≤ ·)).getD i 0 ≤ G) ∧ (∀ x ∈ fs, |x| ≤ M) ∧
      (2 : K) ^ (-(p : ℤ)) * ((5 * ((fs.length : K) - 1) + 3) * G + M) ≤ e)
    (ks : List ℕ) (hne : ks ≠ []) (hk : ∀ k ∈ ks, k ≤ 10 ^ 7) :
    ∃ tbl tbl', getQuantilesR (floatRd p) .linear lb rows
        (ks.map (fun k : ℕ => Num.fin (floatRd p ((k : K) / 10 ^ 7)))) = .ok tbl ∧
      getQuantiles .linear lb rows (ks.map (fun k : ℕ => Num.fin ((k : K) / 10 ^ 7))) = .ok tbl' ∧
      List.Forall₂ (fun c c' => c.1 = c'.1 ∧ List.Forall₂ (Spec.CloseTo e) c.2 c'.2) tbl tbl' := by
  obtain ⟨js, H, h1, h2, -, h3, h4⟩ := C175_table hp .linear lb rows ks hne hk
  refine ⟨_, _, h4, h3, ?_⟩
  rw [List.forall₂_map_left_iff, List.forall₂_map_right_iff, List.forall₂_same]
  intro k hk1
  refine ⟨rfl, ?_⟩
  have q0 : (0 : K) ≤ (k : K) / 10 ^ 7 := by positivity
  have q1 : (k : K) / 10 ^ 7 ≤ 1 := by
    rw [div_le_one (by positivity)]
    exact_mod_cast hk k ((h2 k).1 hk1)
  show List.Forall₂ _ (rows.map _) (rows.map _)
  rw [List.forall₂_map_left_iff, List.forall₂_map_right_iff, List.forall₂_same]
  intro l hl
  obtain ⟨fs, G, M, rfl, b1, b2, b3, b4, b5, b6, b7⟩ := hrows l hl
  obtain ⟨y, z, c1, c2, c3⟩ := C173_linear (p := p) (by omega) b1 b2 b3 b4 b5 b6 q0 q1
  refine applyLb_within lb ⟨y, z, c1, c2, c3.trans (le_trans ?_ b7)⟩
  have hu0 : (0 : K) < 2 ^ (-(p : ℤ)) := zpow_pos (by norm_num) _
  have hn' : (0 : K) ≤ (fs.length : K) - 1 := by
    have : (1 : K) ≤ (fs.length : K) := by exact_mod_cast List.length_pos_iff.2 b1
    linarith
  refine mul_le_mul_of_nonneg_left ?_ hu0.le
  have : ((fs.length : K) - 1) * ((k : K) / 10 ^ 7) ≤ (fs.length : K) - 1 := by nlinarith
  nlinarith
end

/-! ### double precision -/

/-- **C174 fails**: with 16 simulations 0, …, 15 and the double nearest to 7/15, method `lower` of `np.percentile` gives
the value of rank 6, although 15 times that double exceeds 7.  With 101 simulations and the level 0.57 it gives that of
rank 56, and `higher` at 0.07 that of rank 8. -/
theorem C174_fails :
    percentileR (floatRd 53) .lower ((List.range 16).map (fun i => Num.fin (i : ℚ))) (floatRd 53 (7 / 15)) = .fin 6 ∧
    percentile .lower ((List.range 16).map (fun i => Num.fin (i : ℚ))) (floatRd 53 (7 / 15)) = .fin 7 ∧
    percentile .lower ((List.range 16).map (fun i => Num.fin (i : ℚ))) (7 / 15) = .fin 7 ∧
    percentileR (floatRd 53) .lower ((List.range 101).map (fun i => Num.fin (i : ℚ))) (floatRd 53 (57 / 100)) = .fin 56 ∧
    percentile .lower ((List.range 101).map (fun i => Num.fin (i : ℚ))) (57 / 100) = .fin 57 ∧
    percentileR (floatRd 53) .higher ((List.range 101).map (fun i => Num.fin (i : ℚ))) (floatRd 53 (7 / 100)) = .fin 8 ∧
    percentile .higher ((List.range 101).map (fun i => Num.fin (i : ℚ))) (7 / 100) = .fin 7 := by
  decide +kernel

/-- Interpolation of the sample of C63 in double precision: at the double nearest to 1/3 the result is not 2 but three
units in the last place below it; at the levels 0 and 1 it is exact. -/
example : percentileR (floatRd 53) .linear exSample (floatRd 53 (1 / 3)) = .fin (2 - 3 / 2 ^ 52) ∧
    percentile .linear exSample (1 / 3) = .fin 2 ∧
    percentileR (floatRd 53) .linear exSample 0 = .fin (-1) ∧ percentileR (floatRd 53) .midpoint exSample 1 = .fin 10 := by
  decide +kernel

/-- `get_quantiles` in double precision: headers are those of the levels asked for. -/
example : (getQuantilesR (floatRd 53) .lower (some 0) [exSample]
      [.fin (floatRd 53 (29 / 100)), .fin 0, .fin (floatRd 53 (999 / 1000))]).toOption =
    some [("0th".toList, [.fin 0]), ("29th".toList, [.fin 0]), ("99.9th".toList, [.fin 3])] := by decide +kernel

end Trikit
