import Verif.Props.AvgOrder
import Verif.Props.MackErrors
import Verif.Props.Exhibits

/-!
# C219: how `alpha` moves the estimates of Mack chain ladder

`MackChainLadder._ldfs` (mack.py:250-272) weighs the link ratios of a period with the amounts to the power `alpha`.  Raising
`alpha` gives more weight to the large origins.
-/

set_option linter.unusedSectionVars false

namespace Trikit

variable {K : Type} [Field K] [LinearOrder K] [IsStrictOrderedRing K]
variable {t ind : Tri K} {n : ℕ} {c w : ℕ → ℕ → K}

/-! ## specification -/

/-- Link ratio of origin `i` in period `j`. -/
def Spec.linkRatio (c : ℕ → ℕ → K) (i j : ℕ) : K := c i (j + 1) / c i j

/-- The link ratio of origin `i` in period `j` is observed and not excluded. -/
def Spec.KeptRatio (n : ℕ) (w : ℕ → ℕ → K) (i j : ℕ) : Prop := i + j + 1 < n ∧ w i j ≠ 0

/-- In period `j` no larger origin has a smaller link ratio than a smaller origin. -/
def Spec.LargerMore (n : ℕ) (c w : ℕ → ℕ → K) (j : ℕ) : Prop :=
  ∀ i k, Spec.KeptRatio n w i j → Spec.KeptRatio n w k j → c i j < c k j → Spec.linkRatio c i j ≤ Spec.linkRatio c k j

/-- In period `j` no larger origin has a larger link ratio than a smaller origin. -/
def Spec.LargerLess (n : ℕ) (c w : ℕ → ℕ → K) (j : ℕ) : Prop :=
  ∀ i k, Spec.KeptRatio n w i j → Spec.KeptRatio n w k j → c i j < c k j → Spec.linkRatio c k j ≤ Spec.linkRatio c i j

/-- In period `j` origins of different size have the same link ratio. -/
def Spec.SizeFree (n : ℕ) (c w : ℕ → ℕ → K) (j : ℕ) : Prop :=
  ∀ i k, Spec.KeptRatio n w i j → Spec.KeptRatio n w k j → c i j < c k j → Spec.linkRatio c i j = Spec.linkRatio c k j

/-- Over all pairs of origins, the products of the differences of the amounts to the power `d` and of the link ratios, weighted
with the weights of both origins for the exponent `alpha`. -/
def Spec.alphaEffect (alpha d n : ℕ) (c w : ℕ → ℕ → K) (j : ℕ) : K :=
  ∑ i ∈ Finset.range (n - 1 - j), ∑ k ∈ Finset.range (n - 1 - j), (w i j * c i j ^ alpha) * (w k j * c k j ^ alpha) *
    ((c k j ^ d - c i j ^ d) * (Spec.linkRatio c k j - Spec.linkRatio c i j))

/-! ## weighted means with other weights -/

theorem pair_sum {ι : Type} (s : Finset ι) (v g F : ι → K) :
    ∑ i ∈ s, ∑ k ∈ s, v i * v k * ((g k - g i) * (F k - F i)) =
      2 * ((∑ i ∈ s, v i * g i * F i) * (∑ i ∈ s, v i) - (∑ i ∈ s, v i * g i) * (∑ i ∈ s, v i * F i)) := by
  have e : ∀ i ∈ s, ∑ k ∈ s, v i * v k * ((g k - g i) * (F k - F i)) =
      v i * (∑ k ∈ s, v k * g k * F k) - v i * F i * (∑ k ∈ s, v k * g k) - v i * g i * (∑ k ∈ s, v k * F k) +
        v i * g i * F i * (∑ k ∈ s, v k) := by
    intro i _
    rw [Finset.mul_sum, Finset.mul_sum, Finset.mul_sum, Finset.mul_sum, ← Finset.sum_sub_distrib, ← Finset.sum_sub_distrib,
      ← Finset.sum_add_distrib]
    exact Finset.sum_congr rfl fun k _ => by ring
  rw [Finset.sum_congr rfl e, Finset.sum_add_distrib, Finset.sum_sub_distrib, Finset.sum_sub_distrib, ← Finset.sum_mul,
    ← Finset.sum_mul, ← Finset.sum_mul, ← Finset.sum_mul]
  ring

/-- The change of the factor, times twice both sums of weights. -/
theorem mackF_alpha (hp : Spec.Positive n c) (hw : Spec.Weights n w) (alpha d : ℕ) {j : ℕ} (hj : j < n - 1) :
    (Spec.mackF (alpha + d) n c w j - Spec.mackF alpha n c w j) *
      (2 * (Spec.mackW (alpha + d) n c w j * Spec.mackW alpha n c w j)) = Spec.alphaEffect alpha d n c w j := by
  have h1 := (mackW_pos hp hw alpha hj).ne'
  have h2 := (mackW_pos hp hw (alpha + d) hj).ne'
  unfold Spec.alphaEffect
  rw [pair_sum]
  have e1 : ∑ i ∈ Finset.range (n - 1 - j), w i j * c i j ^ alpha * c i j ^ d * Spec.linkRatio c i j =
      Spec.mackF (alpha + d) n c w j * Spec.mackW (alpha + d) n c w j := by
    unfold Spec.mackF
    rw [div_mul_cancel₀ _ h2]
    unfold Spec.colSum Spec.linkRatio
    exact Finset.sum_congr rfl fun i _ => by beta_reduce; rw [pow_add]; ring
  have e2 : ∑ i ∈ Finset.range (n - 1 - j), w i j * c i j ^ alpha * c i j ^ d = Spec.mackW (alpha + d) n c w j := by
    unfold Spec.mackW Spec.colSum
    exact Finset.sum_congr rfl fun i _ => by beta_reduce; rw [pow_add]; ring
  have e3 : ∑ i ∈ Finset.range (n - 1 - j), w i j * c i j ^ alpha * Spec.linkRatio c i j =
      Spec.mackF alpha n c w j * Spec.mackW alpha n c w j := by
    unfold Spec.mackF
    rw [div_mul_cancel₀ _ h1]
    rfl
  have e4 : ∑ i ∈ Finset.range (n - 1 - j), w i j * c i j ^ alpha = Spec.mackW alpha n c w j := rfl
  rw [e1, e2, e3, e4]
  ring

/-- Signs of the single products. -/
theorem alphaEffect_signs (hp : Spec.Positive n c) (hw : Spec.Weights n w) (alpha : ℕ) {d : ℕ} (hd : 0 < d) (j : ℕ) :
    (Spec.LargerMore n c w j → 0 ≤ Spec.alphaEffect alpha d n c w j) ∧
    (Spec.LargerLess n c w j → Spec.alphaEffect alpha d n c w j ≤ 0) ∧
    (Spec.LargerMore n c w j ∨ Spec.LargerLess n c w j → (Spec.alphaEffect alpha d n c w j = 0 ↔ Spec.SizeFree n c w j)) := by
  have hd' : d ≠ 0 := hd.ne'
  have hpow : ∀ i k, i + j + 1 < n → k + j + 1 < n → c i j < c k j → c i j ^ d < c k j ^ d := fun i k hi hk h =>
    pow_lt_pow_left₀ h (hp i j (by omega)).le hd'
  have hcases : ∀ i ∈ Finset.range (n - 1 - j), ∀ k ∈ Finset.range (n - 1 - j),
      (w i j * c i j ^ alpha) * (w k j * c k j ^ alpha) = 0 ∨ c i j = c k j ∨
        (0 < (w i j * c i j ^ alpha) * (w k j * c k j ^ alpha) ∧ Spec.KeptRatio n w i j ∧ Spec.KeptRatio n w k j ∧
          (c i j < c k j ∧ c i j ^ d < c k j ^ d ∨ c k j < c i j ∧ c k j ^ d < c i j ^ d)) := by
    intro i hi k hk
    rw [Finset.mem_range] at hi hk
    have hci := hp i j (by omega)
    have hck := hp k j (by omega)
    have hwi := hw.nonneg i j (by omega)
    have hwk := hw.nonneg k j (by omega)
    rcases hwi.eq_or_lt with e | hwi
    · left; rw [← e]; ring
    rcases hwk.eq_or_lt with e | hwk
    · left; rw [← e]; ring
    right
    rcases lt_trichotomy (c i j) (c k j) with h | h | h
    · right
      exact ⟨by positivity, ⟨by omega, hwi.ne'⟩, ⟨by omega, hwk.ne'⟩, Or.inl ⟨h, hpow i k (by omega) (by omega) h⟩⟩
    · left; exact h
    · right
      exact ⟨by positivity, ⟨by omega, hwi.ne'⟩, ⟨by omega, hwk.ne'⟩, Or.inr ⟨h, hpow k i (by omega) (by omega) h⟩⟩
  have hmore : Spec.LargerMore n c w j → ∀ i ∈ Finset.range (n - 1 - j), ∀ k ∈ Finset.range (n - 1 - j),
      0 ≤ (w i j * c i j ^ alpha) * (w k j * c k j ^ alpha) *
        ((c k j ^ d - c i j ^ d) * (Spec.linkRatio c k j - Spec.linkRatio c i j)) := by
    intro hm i hi k hk
    rcases hcases i hi k hk with e | e | ⟨hv, h1, h2, ⟨h3, h4⟩ | ⟨h3, h4⟩⟩
    · rw [e, zero_mul]
    · rw [e]; simp
    · exact mul_nonneg hv.le (mul_nonneg (sub_pos.2 h4).le (sub_nonneg.2 (hm i k h1 h2 h3)))
    · exact mul_nonneg hv.le (mul_nonneg_of_nonpos_of_nonpos (sub_neg.2 h4).le (sub_nonpos.2 (hm k i h2 h1 h3)))
  have hless : Spec.LargerLess n c w j → ∀ i ∈ Finset.range (n - 1 - j), ∀ k ∈ Finset.range (n - 1 - j),
      (w i j * c i j ^ alpha) * (w k j * c k j ^ alpha) *
        ((c k j ^ d - c i j ^ d) * (Spec.linkRatio c k j - Spec.linkRatio c i j)) ≤ 0 := by
    intro hm i hi k hk
    rcases hcases i hi k hk with e | e | ⟨hv, h1, h2, ⟨h3, h4⟩ | ⟨h3, h4⟩⟩
    · rw [e, zero_mul]
    · rw [e]; simp
    · exact mul_nonpos_of_nonneg_of_nonpos hv.le
        (mul_nonpos_of_nonneg_of_nonpos (sub_pos.2 h4).le (sub_nonpos.2 (hm i k h1 h2 h3)))
    · exact mul_nonpos_of_nonneg_of_nonpos hv.le
        (mul_nonpos_of_nonpos_of_nonneg (sub_neg.2 h4).le (sub_nonneg.2 (hm k i h2 h1 h3)))
  have hfree : (∀ i ∈ Finset.range (n - 1 - j), ∀ k ∈ Finset.range (n - 1 - j),
      (w i j * c i j ^ alpha) * (w k j * c k j ^ alpha) *
        ((c k j ^ d - c i j ^ d) * (Spec.linkRatio c k j - Spec.linkRatio c i j)) = 0) ↔ Spec.SizeFree n c w j := by
    constructor
    · intro hz i k hi hk hlt
      have h1 := hz i (Finset.mem_range.2 (by have := hi.1; omega)) k (Finset.mem_range.2 (by have := hk.1; omega))
      have hci := (hp i j (by have := hi.1; omega)).ne'
      have hck := (hp k j (by have := hk.1; omega)).ne'
      have h4 := (sub_pos.2 (hpow i k hi.1 hk.1 hlt)).ne'
      have hv : (w i j * c i j ^ alpha) * (w k j * c k j ^ alpha) ≠ 0 :=
        mul_ne_zero (mul_ne_zero hi.2 (pow_ne_zero _ hci)) (mul_ne_zero hk.2 (pow_ne_zero _ hck))
      rcases mul_eq_zero.1 h1 with e | e
      · exact absurd e hv
      · rcases mul_eq_zero.1 e with e | e
        · exact absurd e h4
        · exact (sub_eq_zero.1 e).symm
    · intro hf i hi k hk
      rcases hcases i hi k hk with e | e | ⟨-, h1, h2, ⟨h3, -⟩ | ⟨h3, -⟩⟩
      · rw [e, zero_mul]
      · rw [e]; simp
      · rw [hf i k h1 h2 h3]; simp
      · rw [hf k i h2 h1 h3]; simp
  refine ⟨fun hm => Finset.sum_nonneg fun i hi => Finset.sum_nonneg fun k hk => hmore hm i hi k hk,
    fun hm => Finset.sum_nonpos fun i hi => Finset.sum_nonpos fun k hk => hless hm i hi k hk, ?_⟩
  rw [← hfree]
  unfold Spec.alphaEffect
  rintro (hm | hm)
  · rw [Finset.sum_eq_zero_iff_of_nonneg fun i hi => Finset.sum_nonneg fun k hk => hmore hm i hi k hk]
    exact forall₂_congr fun i hi => Finset.sum_eq_zero_iff_of_nonneg fun k hk => hmore hm i hi k hk
  · rw [Finset.sum_eq_zero_iff_of_nonpos fun i hi => Finset.sum_nonpos fun k hk => hless hm i hi k hk]
    exact forall₂_congr fun i hi => Finset.sum_eq_zero_iff_of_nonpos fun k hk => hless hm i hi k hk

theorem never_congr {same same' : ℕ → Prop} (hs : ∀ j < n - 1, (same j ↔ same' j)) {r r' : BaseResult K}
    (h : Spec.NeverAbove n same r r') : Spec.NeverAbove n same' r r' := by
  refine ⟨fun j hj => ?_, fun i hi => ?_, ?_⟩
  · obtain ⟨f, f', a, b, d, e⟩ := h.factors j hj
    exact ⟨f, f', a, b, d, e.trans (hs j hj)⟩
  · obtain ⟨row, row', u, u', v, v', a1, a2, a3, a4, a5, a6, a7, a8, a9⟩ := h.rows i hi
    exact ⟨row, row', u, u', v, v', a1, a2, a3, a4, a5, a6, a7, a8,
      a9.trans (forall₃_congr fun j _ hj => hs j hj)⟩
  · obtain ⟨u, u', v, v', a3, a4, a5, a6, a7, a8, a9⟩ := h.total
    exact ⟨u, u', v, v', a3, a4, a5, a6, a7, a8, a9.trans (forall₂_congr fun j hj => hs j hj)⟩

/-! ## C219 -/

theorem mack_toBase {alpha : ℕ} {r : MackCore K} {b : BaseResult K} {lab : Int} (h : MackParts alpha t ind n c w r b lab) :
    r.toBase = b := by
  unfold MackCore.toBase
  rw [h.cldfs, h.rows, h.totLatest, h.totUltimate, h.totReserve, h.sqr, ← h.spec.factors]

/-- **C219.** On every positive staircase with at least four periods, with all exclusion weights that keep a link ratio per
period and all exponents `alpha < alpha + d`: when the weighted sum of products over pairs of origins is not negative in any
period, no factor, ultimate, reserve or total of `mack_cl` is larger with the smaller exponent, and the differences of
reserves are those of ultimates; they are equal exactly where the sum vanishes in all periods that matter.  When the sum is
not positive in any period it is the other way round. -/
theorem C219_alpha (h : Spec.Stair t n c) (hp : Spec.Positive n c) (hi : IndW t ind n w) (hw : Spec.Weights n w) (hn : 4 ≤ n)
    (alpha d : ℕ) :
    ∃ r r', mackCore alpha t ind = .ok r ∧ mackCore (alpha + d) t ind = .ok r' ∧
      ((∀ j < n - 1, 0 ≤ Spec.alphaEffect alpha d n c w j) →
        Spec.NeverAbove n (fun j => Spec.alphaEffect alpha d n c w j = 0) r.toBase r'.toBase) ∧
      ((∀ j < n - 1, Spec.alphaEffect alpha d n c w j ≤ 0) →
        Spec.NeverAbove n (fun j => Spec.alphaEffect alpha d n c w j = 0) r'.toBase r.toBase) := by
  obtain ⟨r, b, lab, a1, a2⟩ := mack_parts h hp hi hw hn alpha
  obtain ⟨r', b', lab', b1, b2⟩ := mack_parts h hp hi hw hn (alpha + d)
  refine ⟨r, r', a1, b1, ?_⟩
  have ea := mack_toBase a2
  have eb := mack_toBase b2
  have la : r.toBase.ldfs.map Prod.snd = (List.range n).map (fun j => .fin (Spec.withTail (Spec.mackF alpha n c w) n 1 j)) := by
    show r.ldfs.map Prod.snd = _
    rw [a2.factors]; exact mackSer_snd h (by omega) lab _
  have lb : r'.toBase.ldfs.map Prod.snd =
      (List.range n).map (fun j => .fin (Spec.withTail (Spec.mackF (alpha + d) n c w) n 1 j)) := by
    show r'.ldfs.map Prod.snd = _
    rw [b2.factors]; exact mackSer_snd h (by omega) lab' _
  have sa : Spec.BaseSpec t n c (Spec.withTail (Spec.mackF alpha n c w) n 1) r.toBase.ldfs r.toBase := by
    have := a2.spec
    rw [← ea] at this
    exact this
  have sb : Spec.BaseSpec t n c (Spec.withTail (Spec.mackF (alpha + d) n c w) n 1) r'.toBase.ldfs r'.toBase := by
    have := b2.spec
    rw [← eb] at this
    exact this
  have hpos : ∀ j < n - 1, 0 < 2 * (Spec.mackW (alpha + d) n c w j * Spec.mackW alpha n c w j) := fun j hj =>
    mul_pos two_pos (mul_pos (mackW_pos hp hw _ hj) (mackW_pos hp hw _ hj))
  refine ⟨fun hs => ?_, fun hs => ?_⟩
  · refine neverAbove_of_factors hp (by omega) one_pos (fun j hj => mackF_pos hp hw _ hj) (fun j hj => ?_) sa sb la lb
    have h1 := mackF_alpha hp hw alpha d hj
    have h2 := hs j hj
    rw [← h1] at h2
    refine ⟨sub_nonneg.1 (nonneg_of_mul_nonneg_left h2 (hpos j hj)), ?_⟩
    rw [← h1, mul_eq_zero, or_iff_left (hpos j hj).ne', sub_eq_zero]
    exact eq_comm
  · refine neverAbove_of_factors hp (by omega) one_pos (fun j hj => mackF_pos hp hw _ hj) (fun j hj => ?_) sb sa lb la
    have h1 := mackF_alpha hp hw alpha d hj
    have h2 := hs j hj
    rw [← h1] at h2
    refine ⟨?_, ?_⟩
    · by_contra hc
      push Not at hc
      have := mul_pos (sub_pos.2 hc) (hpos j hj)
      linarith
    · rw [← h1, mul_eq_zero, or_iff_left (hpos j hj).ne', sub_eq_zero]

/-- **C219 (order).** When in no period a larger origin has a smaller link ratio, a larger exponent never gives a smaller
factor, ultimate, reserve or total, and the same exactly when origins of different size have the same link ratio in all
periods that matter; when no larger origin has a larger link ratio, the other way round. -/
theorem C219_order (h : Spec.Stair t n c) (hp : Spec.Positive n c) (hi : IndW t ind n w) (hw : Spec.Weights n w) (hn : 4 ≤ n)
    {alpha beta : ℕ} (hab : alpha < beta) :
    ∃ r r', mackCore alpha t ind = .ok r ∧ mackCore beta t ind = .ok r' ∧
      ((∀ j < n - 1, Spec.LargerMore n c w j) → Spec.NeverAbove n (Spec.SizeFree n c w) r.toBase r'.toBase) ∧
      ((∀ j < n - 1, Spec.LargerLess n c w j) → Spec.NeverAbove n (Spec.SizeFree n c w) r'.toBase r.toBase) := by
  obtain ⟨d, rfl⟩ := Nat.exists_eq_add_of_lt hab
  obtain ⟨r, r', h1, h2, h3, h4⟩ := C219_alpha h hp hi hw hn alpha (d + 1)
  have sg := fun j => alphaEffect_signs hp hw alpha (Nat.succ_pos d) j
  refine ⟨r, r', h1, h2, fun hm => ?_, fun hm => ?_⟩
  · have := h3 fun j hj => (sg j).1 (hm j hj)
    refine never_congr (fun j hj => (sg j).2.2 (Or.inl (hm j hj))) this
  · have := h4 fun j hj => (sg j).2.1 (hm j hj)
    refine never_congr (fun j hj => (sg j).2.2 (Or.inr (hm j hj))) this

/-! ## examples -/

/-- Larger origins have larger link ratios in the first period. -/
def exAlpha : ℕ → ℕ → ℚ := fun i j =>
  (![![1, 1, 2, 2], ![10, 20, 40, 0], ![100, 300, 0, 0], ![50, 0, 0, 0]] : Fin 4 → Fin 4 → ℚ) (Fin.ofNat 4 i) (Fin.ofNat 4 j)

/-- With larger `alpha` the first factor and the ultimates of the youngest origin rise; the second factor, with equal link
ratios, stays. -/
example :
    ((mackCore 0 (stairTri 4 exAlpha) (stairTri 4 exAlpha).a2aind0).map (fun r => (r.ldfs.map Prod.snd, r.totUltimate))).toOption =
      some ([.fin 2, .fin 2, .fin 1, .fin 1], .fin 842) ∧
    ((mackCore 1 (stairTri 4 exAlpha) (stairTri 4 exAlpha).a2aind0).map (fun r => (r.ldfs.map Prod.snd, r.totUltimate))).toOption =
      some ([.fin (107 / 37), .fin 2, .fin 1, .fin 1], .fin (34454 / 37)) ∧
    ((mackCore 2 (stairTri 4 exAlpha) (stairTri 4 exAlpha).a2aind0).map (fun r => (r.ldfs.map Prod.snd, r.totUltimate))).toOption =
      some ([.fin (30201 / 10101), .fin 2, .fin 1, .fin 1], .fin (9504942 / 10101)) := by
  refine ⟨?_, ?_, ?_⟩ <;> decide +kernel

/-- The largest origin has neither the largest nor the smallest link ratio. -/
def exAlphaMixed : ℕ → ℕ → ℚ := fun i j =>
  (![![1, 1, 2, 2], ![10, 30, 60, 0], ![100, 200, 0, 0], ![50, 0, 0, 0]] : Fin 4 → Fin 4 → ℚ) (Fin.ofNat 4 i) (Fin.ofNat 4 j)

/-- Then the factor need not move in one direction: with `alpha = 1` it is larger than with 0 and with 2, and the effect has
both signs. -/
example :
    ([0, 1, 2].map fun a => ((mackCore a (stairTri 4 exAlphaMixed) (stairTri 4 exAlphaMixed).a2aind0).map
      (fun r => r.ldfs.iloc 0)).toOption) = [some (.fin 2), some (.fin (77 / 37)), some (.fin (20301 / 10101))] ∧
    0 < Spec.alphaEffect 0 1 4 exAlphaMixed (fun _ _ => 1) 0 ∧ Spec.alphaEffect 1 1 4 exAlphaMixed (fun _ _ => 1) 0 < 0 := by
  refine ⟨?_, ?_, ?_⟩ <;> decide +kernel

end Trikit
