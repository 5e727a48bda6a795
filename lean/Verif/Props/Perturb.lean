import Verif.Props.RoundedMedial

/-!
# C204: relative errors of the amounts

`base_cl` (base.py:25-170) on two triangles whose amounts agree up to a factor `r`.
-/

set_option linter.unusedSectionVars false

namespace Trikit

section
variable {K : Type} [Field K] [LinearOrder K] [IsStrictOrderedRing K]
variable {t t' : Tri K} {n : ℕ} {c c' : ℕ → ℕ → K} {r : K}

/-! ## specification -/

/-- Two numbers that agree up to the factor `r`. -/
def Spec.UpTo (r x y : K) : Prop := x ≤ r * y ∧ y ≤ r * x

/-- Two triangles whose amounts agree up to the factor `r`. -/
def Spec.AmountsUpTo (r : K) (n : ℕ) (c c' : ℕ → ℕ → K) : Prop :=
  ∀ i j, i + j < n → Spec.UpTo r (c i j) (c' i j)

/-- Both estimates return; factors agree up to `r ^ 2`, the ultimate of the origin `i` places after the oldest up to
`r ^ (2 i + 1)`, the total up to `r ^ (2 n - 1)`; a reserve is off by no more than these relative errors of ultimate and
latest value. -/
def Spec.CloseResults (r : K) (gm : List (Num K) → Num K) (t t' : Tri K) (n : ℕ) (sel : String) (tail : K) : Prop :=
  ∃ s s' T T', baseCL gm t t.a2aind0 sel (.fin tail) = .ok s ∧ baseCL gm t' t'.a2aind0 sel (.fin tail) = .ok s' ∧
    (∀ j < n - 1, ∃ f f', (s.ldfs.map Prod.snd)[j]? = some (.fin f) ∧ (s'.ldfs.map Prod.snd)[j]? = some (.fin f') ∧
      Spec.UpTo (r ^ 2) f f') ∧
    (∀ i < n, ∃ row row' l u u' v v', s.rows[i]? = some row ∧ s'.rows[i]? = some row' ∧
      row.latest = .fin l ∧ row.ultimate = .fin u ∧ row'.ultimate = .fin u' ∧ row.reserve = .fin v ∧
      row'.reserve = .fin v' ∧ Spec.UpTo (r ^ (2 * i + 1)) u u' ∧
      |v' - v| ≤ (r ^ (2 * i + 1) - 1) * u + (r - 1) * l) ∧
    s.totUltimate = .fin T ∧ s'.totUltimate = .fin T' ∧ Spec.UpTo (r ^ (2 * n - 1)) T T'

/-! ## numbers up to a factor -/

theorem Spec.UpTo.symm {x y : K} (h : Spec.UpTo r x y) : Spec.UpTo r y x := ⟨h.2, h.1⟩

theorem Spec.UpTo.mul {s x y x' y' : K} (h : Spec.UpTo r x y) (h' : Spec.UpTo s x' y') (hr : 0 ≤ r)
    (hx : 0 ≤ x) (hy : 0 ≤ y) (hx' : 0 ≤ x') (hy' : 0 ≤ y') : Spec.UpTo (r * s) (x * x') (y * y') := by
  constructor
  · calc x * x' ≤ (r * y) * (s * y') := mul_le_mul h.1 h'.1 hx' (mul_nonneg hr hy)
      _ = r * s * (y * y') := by ring
  · calc y * y' ≤ (r * x) * (s * x') := mul_le_mul h.2 h'.2 hy' (mul_nonneg hr hx)
      _ = r * s * (x * x') := by ring

theorem Spec.UpTo.div {x y x' y' : K} (h : Spec.UpTo r x y) (h' : Spec.UpTo r x' y')
    (hr : 0 ≤ r) (hx : 0 ≤ x) (hy : 0 ≤ y) (hx' : 0 < x') (hy' : 0 < y') :
    Spec.UpTo (r ^ 2) (x / x') (y / y') := by
  constructor
  · rw [div_le_iff₀ hx']
    have e : r ^ 2 * (y / y') * x' = (r * y) * (r * x') / y' := by ring
    rw [e, le_div_iff₀ hy']
    exact mul_le_mul h.1 h'.2 hy'.le (mul_nonneg hr hy)
  · rw [div_le_iff₀ hy']
    have e : r ^ 2 * (x / x') * y' = (r * x) * (r * y') / x' := by ring
    rw [e, le_div_iff₀ hx']
    exact mul_le_mul h.2 h'.1 hx'.le (mul_nonneg hr hx)

theorem upTo_sum {ι : Type} (l : List ι) {f g : ι → K} (h : ∀ i ∈ l, Spec.UpTo r (f i) (g i)) :
    Spec.UpTo r (l.map f).sum (l.map g).sum := by
  constructor
  · rw [← List.sum_map_mul_left]
    exact List.sum_le_sum fun i hi => (h i hi).1
  · rw [← List.sum_map_mul_left]
    exact List.sum_le_sum fun i hi => (h i hi).2

theorem upTo_mean {ι : Type} (l : List ι) {f g : ι → K} (h : ∀ i ∈ l, Spec.UpTo r (f i) (g i)) :
    Spec.UpTo r (Spec.mean (l.map f)) (Spec.mean (l.map g)) := by
  obtain ⟨h1, h2⟩ := upTo_sum l h
  unfold Spec.mean
  rw [List.length_map, List.length_map]
  constructor
  · rw [← mul_div_assoc]
    exact div_le_div_of_nonneg_right h1 (Nat.cast_nonneg _)
  · rw [← mul_div_assoc]
    exact div_le_div_of_nonneg_right h2 (Nat.cast_nonneg _)

theorem Spec.UpTo.pow_mono {x y : K} {a b : ℕ} (h : Spec.UpTo (r ^ a) x y) (hr : 1 ≤ r) (hab : a ≤ b)
    (hx : 0 ≤ x) (hy : 0 ≤ y) : Spec.UpTo (r ^ b) x y :=
  ⟨h.1.trans (mul_le_mul_of_nonneg_right (pow_le_pow_right₀ hr hab) hy),
    h.2.trans (mul_le_mul_of_nonneg_right (pow_le_pow_right₀ hr hab) hx)⟩

theorem Spec.UpTo.abs_sub {x y : K} (h : Spec.UpTo r x y) (hr : 1 ≤ r) : |y - x| ≤ (r - 1) * x := by
  have h1 := h.1
  have h2 := h.2
  rw [abs_le]
  constructor
  · by_cases hxy : x ≤ y
    · nlinarith [sub_nonneg.2 hr]
    · nlinarith [sub_nonneg.2 hr, mul_nonneg (sub_nonneg.2 hr) (sub_nonneg.2 (not_le.1 hxy).le)]
  · linarith

/-- The ratios of amounts that agree up to `r` agree up to `r ^ 2`. -/
theorem ratioAt_upTo (hr : 1 ≤ r) (hp : Spec.Positive n c) (hp' : Spec.Positive n c') (ha : Spec.AmountsUpTo r n c c')
    {i j : ℕ} (hij : i + j + 1 < n) : Spec.UpTo (r ^ 2) (Spec.ratioAt c j i) (Spec.ratioAt c' j i) :=
  (ha i (j + 1) (by omega)).div (ha i j (by omega)) (zero_le_one.trans hr) (hp i _ (by omega)).le
    (hp' i _ (by omega)).le (hp i _ (by omega)) (hp' i _ (by omega))

/-- Close factors give close results. -/
theorem close_of (gm : List (Num K) → Num K) (h : Spec.Stair t n c) (h' : Spec.Stair t' n c') (hr : 1 ≤ r)
    (hp : Spec.Positive n c) (hp' : Spec.Positive n c') (ha : Spec.AmountsUpTo r n c c') (hn : 3 ≤ n) (kind : AvgKind)
    {k : ℕ} (hk : k < n - 1) {f f' : ℕ → K}
    (hf : ∀ j < n - 1, avgEntry gm t t.a2aind0 kind k j = .ok (.fin (f j)))
    (hf' : ∀ j < n - 1, avgEntry gm t' t'.a2aind0 kind k j = .ok (.fin (f' j)))
    (hpos : ∀ j < n - 1, 0 < f j) (hpos' : ∀ j < n - 1, 0 < f' j)
    (hclose : ∀ j < n - 1, Spec.UpTo (r ^ 2) (f j) (f' j)) {tail : K} (htail : 0 < tail) :
    Spec.CloseResults r gm t t' n (Spec.avgName kind.name k) tail := by
  have hr0 : 0 ≤ r := zero_le_one.trans hr
  obtain ⟨s, a1, a2, a3, _, a5, _⟩ := base_sel gm h hp hn (rowIs_window gm h hp kind hk hf) tail
  obtain ⟨s', b1, b2, b3, _, b5, _⟩ := base_sel gm h' hp' hn (rowIs_window gm h' hp' kind hk hf') tail
  have hprod : ∀ m ≤ n - 1, 0 < ∏ q ∈ Finset.Ico (n - 1 - m) (n - 1), f q ∧
      0 < ∏ q ∈ Finset.Ico (n - 1 - m) (n - 1), f' q ∧
      Spec.UpTo (r ^ (2 * m)) (∏ q ∈ Finset.Ico (n - 1 - m) (n - 1), f q)
        (∏ q ∈ Finset.Ico (n - 1 - m) (n - 1), f' q) := by
    intro m
    induction m with
    | zero => intro _; simp [Spec.UpTo]
    | succ m ih =>
      intro hm
      obtain ⟨i1, i2, i3⟩ := ih (by omega)
      have hq : n - 1 - (m + 1) < n - 1 := by omega
      have e : n - 1 - m = n - 1 - (m + 1) + 1 := by omega
      rw [Finset.prod_eq_prod_Ico_succ_bot hq, Finset.prod_eq_prod_Ico_succ_bot hq, ← e]
      refine ⟨mul_pos (hpos _ hq) i1, mul_pos (hpos' _ hq) i2, ?_⟩
      rw [show r ^ (2 * (m + 1)) = r ^ 2 * r ^ (2 * m) by ring]
      exact (hclose _ hq).mul i3 (pow_nonneg hr0 2) (hpos _ hq).le (hpos' _ hq).le i1.le i2.le
  have hult : ∀ i < n, 0 < Spec.ult n c f i * tail ∧ 0 < Spec.ult n c' f' i * tail ∧
      Spec.UpTo (r ^ (2 * i + 1)) (Spec.ult n c f i * tail) (Spec.ult n c' f' i * tail) := by
    intro i hi
    obtain ⟨i1, i2, i3⟩ := hprod i (by omega)
    have l1 := hp i (n - 1 - i) (by omega)
    have l2 := hp' i (n - 1 - i) (by omega)
    unfold Spec.ult Spec.proj
    refine ⟨by positivity, by positivity, ?_⟩
    have hm := (ha i (n - 1 - i) (by omega)).mul i3 hr0 l1.le l2.le i1.le i2.le
    have ht : Spec.UpTo (1 : K) tail tail := ⟨by rw [one_mul], by rw [one_mul]⟩
    have := hm.mul ht (mul_nonneg hr0 (pow_nonneg hr0 _)) (mul_pos l1 i1).le (mul_pos l2 i2).le htail.le htail.le
    rw [mul_one, show r * r ^ (2 * i) = r ^ (2 * i + 1) by ring] at this
    exact this
  refine ⟨s, s', _, _, a1, b1, ?_, ?_, a5, b5, ?_⟩
  · intro j hj
    refine ⟨f j, f' j, ?_, ?_, hclose j hj⟩
    · rw [a2, List.getElem?_append_left (by simp; omega), List.getElem?_map, List.getElem?_range hj]
      rfl
    · rw [b2, List.getElem?_append_left (by simp; omega), List.getElem?_map, List.getElem?_range hj]
      rfl
  · intro i hi
    obtain ⟨row, d1, d2, d3, d4⟩ := a3 i hi
    obtain ⟨row', e1, _, e3, e4⟩ := b3 i hi
    obtain ⟨u1, u2, u3⟩ := hult i hi
    refine ⟨row, row', _, _, _, _, _, d1, e1, d2, d3, e3, d4, e4, u3, ?_⟩
    have x1 := u3.abs_sub (one_le_pow₀ hr)
    have x2 := (ha i (n - 1 - i) (by omega)).abs_sub hr
    refine le_trans ?_ (add_le_add x1 x2)
    have : Spec.ult n c' f' i * tail - c' i (n - 1 - i) - (Spec.ult n c f i * tail - c i (n - 1 - i)) =
        (Spec.ult n c' f' i * tail - Spec.ult n c f i * tail) - (c' i (n - 1 - i) - c i (n - 1 - i)) := by ring
    rw [this]
    exact abs_sub _ _
  · have hall : ∀ i ∈ Finset.range n, Spec.UpTo (r ^ (2 * n - 1)) (Spec.ult n c f i * tail)
        (Spec.ult n c' f' i * tail) := by
      intro i hi
      rw [Finset.mem_range] at hi
      obtain ⟨u1, u2, u3⟩ := hult i hi
      exact u3.pow_mono hr (by omega) u1.le u2.le
    constructor
    · rw [Finset.mul_sum]
      exact Finset.sum_le_sum fun i hi => (hall i hi).1
    · rw [Finset.mul_sum]
      exact Finset.sum_le_sum fun i hi => (hall i hi).2

theorem avg_as_mean (k j : ℕ) (c : ℕ → ℕ → K) :
    Spec.lastN k (Spec.ratios n c j) = (wOrigins n k j).map (Spec.ratioAt c j) := by
  unfold Spec.ratios wOrigins
  rw [lastN_map]
  rfl

/-- **C204, part that holds (1)**: simple and weighted averages of all or of the last `k` years and any positive tail
factor: if the amounts of two triangles agree up to a factor `r`, so do factors, ultimates and the total up to the powers of
`r` in `Spec.CloseResults`.  Missing: medial averages, see `C204_medial_fails`. -/
theorem C204_partial (gm : List (Num K) → Num K) (h : Spec.Stair t n c) (h' : Spec.Stair t' n c') (hr : 1 ≤ r)
    (hp : Spec.Positive n c) (hp' : Spec.Positive n c') (ha : Spec.AmountsUpTo r n c c') (hn : 3 ≤ n) {kind : String}
    (hkind : kind = "simple" ∨ kind = "weighted") {k : ℕ} (hk : k < n - 1) {tail : K} (htail : 0 < tail) :
    Spec.CloseResults r gm t t' n (Spec.avgName kind k) tail := by
  rcases hkind with rfl | rfl
  · have hent : ∀ {s : Tri K} {x : ℕ → ℕ → K}, Spec.Stair s n x → Spec.Positive n x → ∀ j < n - 1,
        avgEntry gm s s.a2aind0 .simple k j = .ok (.fin (Spec.mean (Spec.lastN k (Spec.ratios n x j)))) := by
      intro s x hs hx j hj
      rw [entry_simple hs hx.ne_zero (hs.indOn0 hx.ne_zero) hj, window_noexcl hx,
        simpleAvg_fin (lastN_ne_nil k (ratios_ne_nil (c := x) hj))]
    refine close_of gm h h' hr hp hp' ha hn .simple hk (hent h hp) (hent h' hp') (fun j hj => savg_pos hp k hj)
      (fun j hj => savg_pos hp' k hj) (fun j hj => ?_) htail
    rw [avg_as_mean, avg_as_mean]
    exact upTo_mean _ fun i hi => ratioAt_upTo hr hp hp' ha (wOrigins_lt hi)
  · refine close_of gm h h' hr hp hp' ha hn .weighted hk (fun j hj => entry_wavg gm h hp k hj)
      (fun j hj => entry_wavg gm h' hp' k hj) (fun j hj => wavg_pos hp k hj) (fun j hj => wavg_pos hp' k hj)
      (fun j hj => ?_) htail
    exact (upTo_sum _ fun i hi => ha i (j + 1) (by have := window_mem hi; omega)).div
      (upTo_sum _ fun i hi => ha i j (by have := window_mem hi; omega)) (zero_le_one.trans hr)
      (wavg_num_pos hp k hj).le (wavg_num_pos hp' k hj).le (wavg_den_pos hp k hj) (wavg_den_pos hp' k hj)

/-- **C204, part that holds (3)**: medial averages, if the link ratios of each window are in the same order in both triangles
and the medial averages of one triangle are numbers. -/
theorem C204_medial_partial (gm : List (Num K) → Num K) (h : Spec.Stair t n c) (h' : Spec.Stair t' n c') (hr : 1 ≤ r)
    (hp : Spec.Positive n c) (hp' : Spec.Positive n c') (ha : Spec.AmountsUpTo r n c c') (hn : 3 ≤ n) {k : ℕ}
    (hk : k < n - 1)
    (hord : ∀ j < n - 1, ∀ i ∈ wOrigins n k j, ∀ i' ∈ wOrigins n k j,
      (c i (j + 1) / c i j < c i' (j + 1) / c i' j ↔ c' i (j + 1) / c' i j < c' i' (j + 1) / c' i' j))
    (hnum : ∀ j < n - 1, avgEntry gm t t.a2aind0 .medial k j ≠ .ok .nan) {tail : K} (htail : 0 < tail) :
    Spec.CloseResults r gm t t' n (Spec.avgName "medial" k) tail := by
  have hent : ∀ {s : Tri K} {x : ℕ → ℕ → K}, Spec.Stair s n x → Spec.Positive n x → ∀ j < n - 1,
      avgEntry gm s s.a2aind0 .medial k j = .ok (if Spec.medialIdx (wOrigins n k j) (Spec.ratioAt x j) = [] then .nan
        else .fin (Spec.mean ((Spec.medialIdx (wOrigins n k j) (Spec.ratioAt x j)).map (Spec.ratioAt x j)))) := by
    intro s x hs hx j hj
    rw [entry_medial hs hx.ne_zero (hs.indOn0 hx.ne_zero) hj, window_noexcl hx, avg_as_mean,
      medialAvg_idx (wOrigins_ne_nil hj)]
  have hidx : ∀ j < n - 1, Spec.medialIdx (wOrigins n k j) (Spec.ratioAt c j) =
      Spec.medialIdx (wOrigins n k j) (Spec.ratioAt c' j) := fun j hj => medialIdx_congr (hord j hj)
  have hne : ∀ j < n - 1, Spec.medialIdx (wOrigins n k j) (Spec.ratioAt c j) ≠ [] := by
    intro j hj e
    apply hnum j hj
    rw [hent h hp j hj, if_pos e]
  have hpos : ∀ {x : ℕ → ℕ → K}, Spec.Positive n x → ∀ j, ∀ l : List ℕ, l ≠ [] → (∀ i ∈ l, i + j + 1 < n) →
      0 < Spec.mean (l.map (Spec.ratioAt x j)) := by
    intro x hx j l hl hi
    unfold Spec.mean
    refine div_pos (map_sum_pos hl fun i hm => ?_) (by rw [List.length_map]; exact_mod_cast List.length_pos_iff.2 hl)
    have := hi i hm
    exact div_pos (hx i (j + 1) (by omega)) (hx i j (by omega))
  have hlt : ∀ j, ∀ i ∈ Spec.medialIdx (wOrigins n k j) (Spec.ratioAt c j), i + j + 1 < n :=
    fun j i hi => wOrigins_lt (medialIdx_sub i hi)
  refine close_of gm h h' hr hp hp' ha hn .medial hk
    (f := fun j => Spec.mean ((Spec.medialIdx (wOrigins n k j) (Spec.ratioAt c j)).map (Spec.ratioAt c j)))
    (f' := fun j => Spec.mean ((Spec.medialIdx (wOrigins n k j) (Spec.ratioAt c j)).map (Spec.ratioAt c' j)))
    (fun j hj => ?_) (fun j hj => ?_) (fun j hj => hpos hp j _ (hne j hj) (hlt j))
    (fun j hj => hpos hp' j _ (hne j hj) (hlt j)) (fun j hj => ?_) htail
  · rw [hent h hp j hj, if_neg (hne j hj)]
  · rw [hent h' hp' j hj, ← hidx j hj, if_neg (hne j hj)]
  · exact upTo_mean _ fun i hi => ratioAt_upTo hr hp hp' ha (hlt j i hi)

end

/-- **C204, part that holds (2)**: geometric averages over the real numbers. -/
theorem C204_geometric_partial {t t' : Tri ℝ} {n : ℕ} {c c' : ℕ → ℕ → ℝ} {r : ℝ} (h : Spec.Stair t n c)
    (h' : Spec.Stair t' n c') (hr : 1 ≤ r) (hp : Spec.Positive n c) (hp' : Spec.Positive n c')
    (ha : Spec.AmountsUpTo r n c c') (hn : 3 ≤ n) {k : ℕ} (hk : k < n - 1) {tail : ℝ} (htail : 0 < tail) :
    Spec.CloseResults r gmean t t' n (Spec.avgName "geometric" k) tail := by
  have hent : ∀ {s : Tri ℝ} {x : ℕ → ℕ → ℝ}, Spec.Stair s n x → Spec.Positive n x → ∀ j < n - 1,
      avgEntry gmean s s.a2aind0 .geometric k j =
        .ok (.fin (Real.exp (Spec.mean ((wOrigins n k j).map (fun i => Real.log (Spec.ratioAt x j i)))))) := by
    intro s x hs hx j hj
    have hne := lastN_ne_nil k (ratios_ne_nil (c := x) hj)
    rw [entry_geometric hs hx.ne_zero (hs.indOn0 hx.ne_zero) hj, window_noexcl hx]
    unfold geometricAvg
    rw [if_neg (by simpa using hne),
      gmean_fin (fun y hy => ratios_pos hx j y (lastN_subset _ _ y hy)) hne, avg_as_mean, List.map_map]
    rfl
  have hr2 : 0 < r ^ 2 := by positivity
  have hone : ∀ {x y : ℕ → ℕ → ℝ}, Spec.Positive n x → Spec.Positive n y → Spec.AmountsUpTo r n x y → ∀ j < n - 1,
      Real.exp (Spec.mean ((wOrigins n k j).map (fun i => Real.log (Spec.ratioAt x j i)))) ≤
        r ^ 2 * Real.exp (Spec.mean ((wOrigins n k j).map (fun i => Real.log (Spec.ratioAt y j i)))) := by
    intro x y hx hy hxy j hj
    have hlen : (0 : ℝ) < (wOrigins n k j).length := by
      exact_mod_cast List.length_pos_iff.2 (wOrigins_ne_nil (k := k) hj)
    rw [← Real.exp_log hr2, ← Real.exp_add, Real.exp_le_exp]
    unfold Spec.mean
    rw [List.length_map, List.length_map, div_le_iff₀ hlen, add_mul, div_mul_cancel₀ _ hlen.ne']
    have hs : ((wOrigins n k j).map (fun i => Real.log (Spec.ratioAt x j i))).sum ≤
        ((wOrigins n k j).map (fun i => Real.log (r ^ 2) + Real.log (Spec.ratioAt y j i))).sum := by
      refine List.sum_le_sum fun i hi => ?_
      have hi' := wOrigins_lt hi
      have hy0 : 0 < Spec.ratioAt y j i := div_pos (hy i (j + 1) (by omega)) (hy i j (by omega))
      have hx0 : 0 < Spec.ratioAt x j i := div_pos (hx i (j + 1) (by omega)) (hx i j (by omega))
      rw [← Real.log_mul hr2.ne' hy0.ne']
      exact Real.log_le_log hx0 (ratioAt_upTo hr hx hy hxy hi').1
    rw [map_sum_add] at hs
    rw [List.map_const', List.sum_replicate, nsmul_eq_mul] at hs
    linarith
  refine close_of gmean h h' hr hp hp' ha hn .geometric hk (hent h hp) (hent h' hp')
    (fun j _ => Real.exp_pos _) (fun j _ => Real.exp_pos _) (fun j hj => ⟨?_, ?_⟩) htail
  · exact hone hp hp' ha j hj
  · exact hone hp' hp (fun i j hij => (ha i j hij).symm) j hj

/-! ## medial averages jump -/

/-- Four origins, the link ratios of the first period are 1, `y` and 2, all others are 1. -/
def exTie (y : ℚ) : ℕ → ℕ → ℚ := fun i j => if j = 0 then 1 else if i = 0 then 1 else if i = 1 then y else 2

/-- **C204 is false of the code** for medial averages, however small the error: for every `r > 1` there are two triangles
whose amounts agree up to the factor `r`; with medial averages the first factor of one is a number below 2 and that of the
other is NaN, and so is the ultimate of the youngest origin. -/
theorem C204_medial_fails {r : ℚ} (hr : 1 < r) :
    ∃ y, 1 < y ∧ y < 2 ∧ Spec.Positive 4 (exTie y) ∧ Spec.Positive 4 (exTie 1) ∧
      Spec.AmountsUpTo r 4 (exTie y) (exTie 1) ∧
      (∃ s row, baseCL (fun _ => .nan) (stairTri 4 (exTie y)) (stairTri 4 (exTie y)).a2aind0 "all-medial" (.fin 1) = .ok s ∧
        (s.ldfs.map Prod.snd)[0]? = some (.fin y) ∧ s.rows[3]? = some row ∧ row.ultimate = .fin y) ∧
      (baseCL (fun _ => .nan) (stairTri 4 (exTie 1)) (stairTri 4 (exTie 1)).a2aind0 "all-medial" (.fin 1)).toOption.map
        (fun s => ((s.ldfs.map Prod.snd)[0]?, (s.rows[3]?).map SummRow.ultimate)) = some (some .nan, some .nan) := by
  obtain ⟨y, h1, h2, h3⟩ : ∃ y : ℚ, 1 < y ∧ y < 2 ∧ y ≤ r :=
    ⟨min r (3 / 2), lt_min hr (by norm_num), (min_le_right _ _).trans_lt (by norm_num), min_le_left _ _⟩
  have hpos : ∀ {z : ℚ}, 1 ≤ z → Spec.Positive 4 (exTie z) := by
    intro z hz i j _
    unfold exTie
    split_ifs <;> linarith
  refine ⟨y, h1, h2, hpos h1.le, hpos le_rfl, ?_, ?_, by decide +kernel⟩
  · intro i j _
    unfold exTie Spec.UpTo
    split_ifs <;> constructor <;> nlinarith
  · have hs := stairTri_stair 4 (exTie y)
    have hp := hpos h1.le
    have hent : ∀ j < 3, avgEntry (fun _ => .nan) (stairTri 4 (exTie y)) (stairTri 4 (exTie y)).a2aind0 .medial 0 j =
        .ok (.fin (if j = 0 then y else 1)) := by
      intro j hj
      rw [entry_medial hs hp.ne_zero (hs.indOn0 hp.ne_zero) hj, window_noexcl hp]
      have hy0 : y ≠ 0 := by linarith
      rcases (show j = 0 ∨ j = 1 ∨ j = 2 by omega) with rfl | rfl | rfl
      · have e : Spec.lastN 0 (Spec.ratios 4 (exTie y) 0) = [1, y, 2] := by
          simp [Spec.lastN, Spec.ratios, exTie, List.range_succ]
        rw [e, medialAvg_spec (lo := 1) (hi := 2) (by simp)
          (by intro x hx; simp at hx; rcases hx with rfl | rfl | rfl <;> linarith) (by simp)
          (by intro x hx; simp at hx; rcases hx with rfl | rfl | rfl <;> linarith)]
        simp [Spec.mean, h1.ne', h2.ne]
      · have e : Spec.lastN 0 (Spec.ratios 4 (exTie y) 1) = [1, 1] := by
          simp [Spec.lastN, Spec.ratios, exTie, List.range_succ, hy0]
        rw [e, if_neg (by norm_num)]
        have : medialAvg (List.map Num.fin [1, 1]) = .ok (.fin (1 : ℚ)) := by decide +kernel
        exact this
      · have e : Spec.lastN 0 (Spec.ratios 4 (exTie y) 2) = [1] := by
          simp [Spec.lastN, Spec.ratios, exTie, List.range_succ]
        rw [e, if_neg (by norm_num)]
        have : medialAvg (List.map Num.fin [1]) = .ok (.fin (1 : ℚ)) := by decide +kernel
        exact this
    obtain ⟨s, a1, a2, a3, _⟩ := base_sel (fun _ => .nan) hs hp (by norm_num)
      (rowIs_window (fun _ => .nan) hs hp .medial (k := 0) (by norm_num) hent) 1
    obtain ⟨row, d1, _, d2, _⟩ := a3 3 (by norm_num)
    refine ⟨s, row, a1, ?_, d1, ?_⟩
    · rw [a2]
      simp
    · rw [d2]
      simp [Spec.ult, Spec.proj, exTie, Finset.prod_Ico_succ_top]

/-- Three origins. -/
def exTen : ℕ → ℕ → ℚ := fun i j => if j = 0 then 100 else if i = 0 then 150 else 110

/-- The same with errors of at most ten per cent. -/
def exTen' : ℕ → ℕ → ℚ := fun i j => if j = 0 then (if i = 1 then 110 else 100) else if i = 0 then 165 else 100

/-- The factor of the first period falls from 260/200 to 265/210 and the ultimate of the youngest origin from 130 to about
126.2. -/
example : Spec.AmountsUpTo (11 / 10) 3 exTen exTen' ∧
    ((baseCL (fun _ => .nan) (stairTri 3 exTen) (stairTri 3 exTen).a2aind0 "all-weighted" 1).map
        (fun s => s.rows.map SummRow.ultimate),
    (baseCL (fun _ => .nan) (stairTri 3 exTen') (stairTri 3 exTen').a2aind0 "all-weighted" 1).map
        (fun s => s.rows.map SummRow.ultimate)) =
    (.ok [.fin 150, .fin 110, .fin 130], .ok [.fin 165, .fin 100, .fin (2650 / 21)]) := by
  refine ⟨?_, by decide +kernel⟩
  intro i j _
  unfold exTen exTen' Spec.UpTo
  split_ifs <;> norm_num

end Trikit
