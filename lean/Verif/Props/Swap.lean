import Verif.Props.EndToEnd
import Verif.Props.Windows
import Verif.Props.Boot

/-!
# C167-C169: exchanging the roles of origins and development periods; earlier reporting

C167: the volume weighted chain ladder completes the increments of a triangle and of the triangle with origins and
periods exchanged in the same way.  C168: the same of the fit of the bootstrap.  C169: amounts that were recorded earlier
never raise an ultimate.
-/

set_option linter.unusedSectionVars false

namespace Trikit

/-! ## Completed squares -/

section
variable {K : Type} [Field K]
variable {n : ℕ} {c : ℕ → ℕ → K} {x : ℕ → ℕ → K} {f : ℕ → K}

/-- The amounts of a triangle with origins and periods exchanged. -/
def Spec.swap (x : ℕ → ℕ → K) (i j : ℕ) : K := x j i

/-- Completed cumulative amounts. -/
def Spec.clSq (n : ℕ) (c : ℕ → ℕ → K) (f : ℕ → K) (i j : ℕ) : K :=
  if i + j < n then c i j else c i (n - 1 - i) * ∏ m ∈ Finset.Ico (n - 1 - i) j, f m

/-- Completed amounts of the first origins up to a period. -/
def Spec.block (n : ℕ) (c : ℕ → ℕ → K) (f : ℕ → K) (i j : ℕ) : K := ∑ k ∈ Finset.range (i + 1), Spec.clSq n c f k j

theorem clSq_step {i j : ℕ} (hi : i < n) (hij : n ≤ i + j + 1) : Spec.clSq n c f i (j + 1) = Spec.clSq n c f i j * f j := by
  unfold Spec.clSq
  rw [if_neg (by omega), Finset.prod_Ico_succ_top (by omega), ← mul_assoc]
  by_cases h : i + j < n
  · rw [if_pos h, show n - 1 - i = j by omega]
    simp
  · rw [if_neg h]

/-- In the completed square every block that contains the observed rows grows by the factor of the period. -/
theorem block_step (hf : ∀ j, j + 1 < n → ∑ k ∈ Finset.range (n - 1 - j), c k (j + 1) =
      (∑ k ∈ Finset.range (n - 1 - j), c k j) * f j) {i j : ℕ} (hi : i < n) (hj : j + 1 < n) (hij : n ≤ i + j + 2) :
    Spec.block n c f i (j + 1) = Spec.block n c f i j * f j := by
  unfold Spec.block
  rw [← Finset.sum_range_add_sum_Ico _ (show n - 1 - j ≤ i + 1 by omega),
    ← Finset.sum_range_add_sum_Ico (fun k => Spec.clSq n c f k j) (show n - 1 - j ≤ i + 1 by omega), add_mul]
  congr 1
  · have e : ∀ k ∈ Finset.range (n - 1 - j), Spec.clSq n c f k (j + 1) = c k (j + 1) := by
      intro k hk
      rw [Finset.mem_range] at hk
      unfold Spec.clSq
      rw [if_pos (by omega)]
    have e' : ∀ k ∈ Finset.range (n - 1 - j), Spec.clSq n c f k j = c k j := by
      intro k hk
      rw [Finset.mem_range] at hk
      unfold Spec.clSq
      rw [if_pos (by omega)]
    rw [Finset.sum_congr rfl e, Finset.sum_congr rfl e', hf j hj]
  · rw [Finset.sum_mul]
    refine Finset.sum_congr rfl fun k hk => ?_
    rw [Finset.mem_Ico] at hk
    exact clSq_step (by omega) (by omega)

theorem block_obs {i j : ℕ} (hij : i + j < n) :
    Spec.block n c f i j = ∑ k ∈ Finset.range (i + 1), c k j := by
  unfold Spec.block
  refine Finset.sum_congr rfl fun k hk => ?_
  rw [Finset.mem_range] at hk
  unfold Spec.clSq
  rw [if_pos (by omega)]

end

section
variable {K : Type} [Field K] [LinearOrder K] [IsStrictOrderedRing K]
variable {n : ℕ} {c : ℕ → ℕ → K} {x : ℕ → ℕ → K}

theorem wFactor_sum {j : ℕ} (h0 : ∑ k ∈ Finset.range (n - 1 - j), c k j ≠ 0) :
    ∑ k ∈ Finset.range (n - 1 - j), c k (j + 1) =
      (∑ k ∈ Finset.range (n - 1 - j), c k j) * Spec.wFactor n c j := by
  unfold Spec.wFactor
  rw [mul_div_cancel₀ _ h0]

/-- Sum of all amounts of a rectangle, by rows or by columns. -/
theorem rect_swap (x : ℕ → ℕ → K) (i j : ℕ) :
    ∑ k ∈ Finset.range (i + 1), Spec.cumOf x k j = ∑ k ∈ Finset.range (j + 1), Spec.cumOf (Spec.swap x) k i := by
  unfold Spec.cumOf Spec.swap
  exact Finset.sum_comm

/-- Blocks of the completed square and of the completed square of the exchanged triangle agree. -/
theorem block_swap (h0 : ∀ j, j + 1 < n → ∑ k ∈ Finset.range (n - 1 - j), Spec.cumOf x k j ≠ 0) :
    ∀ i < n, ∀ j < n, Spec.block n (Spec.cumOf x) (Spec.wFactor n (Spec.cumOf x)) i j =
      Spec.block n (Spec.cumOf (Spec.swap x)) (Spec.wFactor n (Spec.cumOf (Spec.swap x))) j i := by
  have h0' : ∀ j, j + 1 < n → ∑ k ∈ Finset.range (n - 1 - j), Spec.cumOf (Spec.swap x) k j ≠ 0 := by
    intro j hj
    have := h0 (n - 2 - j) (by omega)
    rw [show n - 1 - (n - 2 - j) = j + 1 by omega, rect_swap, show n - 2 - j + 1 = n - 1 - j by omega] at this
    exact this
  set f := Spec.wFactor n (Spec.cumOf x) with hf
  set g := Spec.wFactor n (Spec.cumOf (Spec.swap x)) with hg
  have hA := fun {i j : ℕ} => block_step (n := n) (c := Spec.cumOf x) (f := f) (fun j hj => wFactor_sum (h0 j hj)) (i := i) (j := j)
  have hA' := fun {i j : ℕ} => block_step (n := n) (c := Spec.cumOf (Spec.swap x)) (f := g)
    (fun j hj => wFactor_sum (h0' j hj)) (i := i) (j := j)
  have hobs : ∀ i j, i + j < n → Spec.block n (Spec.cumOf x) f i j = Spec.block n (Spec.cumOf (Spec.swap x)) g j i := by
    intro i j hij
    rw [block_obs hij, block_obs (by omega), rect_swap]
  -- rows of blocks are proportional from the latest diagonal on
  have hE : ∀ i, i + 1 < n → ∀ m, n - 2 - i + m < n →
      Spec.block n (Spec.cumOf x) f (i + 1) (n - 2 - i + m) = Spec.block n (Spec.cumOf x) f i (n - 2 - i + m) * g i := by
    intro i hi m
    induction m with
    | zero =>
      intro _
      rw [Nat.add_zero, hobs _ _ (by omega), hobs i _ (by omega)]
      exact hA' (by omega) (by omega) (by omega)
    | succ m ih =>
      intro hm
      rw [show n - 2 - i + (m + 1) = n - 2 - i + m + 1 by omega, hA (by omega) (by omega) (by omega),
        hA (by omega) (by omega) (by omega), ih (by omega)]
      ring
  intro i
  induction i with
  | zero => intro hi j hj; exact hobs 0 j (by omega)
  | succ i ih =>
    intro hi j hj
    by_cases hij : i + 1 + j < n
    · exact hobs _ _ hij
    · have e := hE i hi (j - (n - 2 - i)) (by omega)
      rw [show n - 2 - i + (j - (n - 2 - i)) = j by omega] at e
      rw [e, ih (by omega) j hj]
      exact (hA' (by omega) (by omega) (by omega)).symm

/-- Increments of the completed square as differences of blocks. -/
theorem incr_block (f : ℕ → K) (i j : ℕ) : Spec.incr (Spec.clSq n c f) i j =
    (Spec.block n c f i j - if i = 0 then 0 else Spec.block n c f (i - 1) j) -
      if j = 0 then 0 else (Spec.block n c f i (j - 1) - if i = 0 then 0 else Spec.block n c f (i - 1) (j - 1)) := by
  have e : ∀ j, (Spec.block n c f i j - if i = 0 then 0 else Spec.block n c f (i - 1) j) = Spec.clSq n c f i j := by
    intro j
    unfold Spec.block
    rcases i with _ | i
    · simp
    · rw [if_neg (by omega), Nat.add_sub_cancel, Finset.sum_range_succ _ (i + 1)]
      ring
  rw [e, e]
  unfold Spec.incr
  split
  · rename_i h; rw [h]; ring
  · rfl

theorem incr_swap (h0 : ∀ j, j + 1 < n → ∑ k ∈ Finset.range (n - 1 - j), Spec.cumOf x k j ≠ 0) {i j : ℕ} (hi : i < n)
    (hj : j < n) : Spec.incr (Spec.clSq n (Spec.cumOf x) (Spec.wFactor n (Spec.cumOf x))) i j =
      Spec.incr (Spec.clSq n (Spec.cumOf (Spec.swap x)) (Spec.wFactor n (Spec.cumOf (Spec.swap x)))) j i := by
  have hb := block_swap h0
  rw [incr_block, incr_block, hb i hi j hj, hb (i - 1) (by omega) j hj, hb i hi (j - 1) (by omega),
    hb (i - 1) (by omega) (j - 1) (by omega)]
  split <;> split <;> ring

end

/-! ## C167 -/

section
variable {K : Type} [Field K] [LinearOrder K] [IsStrictOrderedRing K]
variable {t t' : Tri K} {n : ℕ} {c : ℕ → ℕ → K} {x : ℕ → ℕ → K}

theorem sum_incr (q : ℕ → ℕ → K) (i m : ℕ) : ∑ j ∈ Finset.range (m + 1), Spec.incr q i j = q i m := by
  induction m with
  | zero => simp [Spec.incr]
  | succ m ih => rw [Finset.sum_range_succ, ih]; simp [Spec.incr]

/-- `base_cl` with volume weighted averages: the squared triangle, ultimates, totals. -/
theorem base_square (gm : List (Num K) → Num K) (h : Spec.Stair t n c) (hp : Spec.Positive n c) (hn : 3 ≤ n) (tail : K) :
    ∃ r, baseCL gm t t.a2aind0 "all-weighted" (.fin tail) = .ok r ∧
      (∀ i < n, ∀ j < n, r.sqr.tri.cell i j = .fin (Spec.clSq n c (Spec.wFactor n c) i j)) ∧
      (∀ i < n, ∃ row, r.rows[i]? = some row ∧ row.origin = t.oAt i ∧ row.latest = .fin (c i (n - 1 - i)) ∧
        row.ultimate = .fin (Spec.clSq n c (Spec.wFactor n c) i (n - 1) * tail)) ∧
      r.totLatest = .fin (∑ i ∈ Finset.range n, c i (n - 1 - i)) ∧
      r.totUltimate = .fin (∑ i ∈ Finset.range n, Spec.clSq n c (Spec.wFactor n c) i (n - 1) * tail) ∧
      r.totReserve = .fin (∑ i ∈ Finset.range n, (Spec.clSq n c (Spec.wFactor n c) i (n - 1) * tail - c i (n - 1 - i))) := by
  obtain ⟨r, lab, h1, _, _, _, h5⟩ := baseCL_stair h hp.ne_zero (h.indOn0 hp.ne_zero) hn
    (rowIs_weighted gm h hp (by omega)) tail
  have ef : ∀ i j, j < n → ∏ m ∈ Finset.Ico (n - 1 - i) j, Spec.mackF 1 n c (fun _ _ => 1) m =
      ∏ m ∈ Finset.Ico (n - 1 - i) j, Spec.wFactor n c m := by
    intro i j hj
    refine Finset.prod_congr rfl fun m hm => ?_
    rw [Finset.mem_Ico] at hm
    exact wFactor_eq_mackF hp (by omega)
  have e : ∀ i < n, c i (n - 1 - i) * Spec.tailProd (Spec.withTail (Spec.mackF 1 n c (fun _ _ => 1)) n tail) n
      (n - 1 - i) = Spec.clSq n c (Spec.wFactor n c) i (n - 1) * tail := by
    intro i hi
    rw [tailProd_withTail _ _ (by omega), ef i (n - 1) (by omega), ← mul_assoc]
    unfold Spec.clSq
    by_cases h0 : i + (n - 1) < n
    · rw [if_pos h0, show n - 1 - i = n - 1 by omega]
      simp
    · rw [if_neg h0]
  refine ⟨r, h1, ?_, ?_, h5.totLatest, ?_, ?_⟩
  · intro i hi j hj
    rw [h5.sqr_cells i hi j hj]
    unfold Spec.clSq
    by_cases hij : i + j < n
    · rw [if_pos hij, if_pos hij]
    · rw [if_neg hij, if_neg hij, ← ef i j hj]
      congr 2
      refine Finset.prod_congr rfl fun m hm => ?_
      rw [Finset.mem_Ico] at hm
      unfold Spec.withTail
      rw [if_pos (by omega)]
  · intro i hi
    obtain ⟨row, a1, a2, _, _, _, a6, a7, _⟩ := h5.rows i hi
    exact ⟨row, a1, a2, a6, by rw [a7, e i hi]⟩
  · rw [h5.totUltimate]
    exact congrArg Num.fin (Finset.sum_congr rfl fun i hi => e i (Finset.mem_range.1 hi))
  · rw [h5.totReserve]
    refine congrArg Num.fin (Finset.sum_congr rfl fun i hi => ?_)
    rw [e i (Finset.mem_range.1 hi)]

theorem wSum_ne (hp : Spec.Positive n c) : ∀ j, j + 1 < n → ∑ k ∈ Finset.range (n - 1 - j), c k j ≠ 0 :=
  fun j hj => (wSum_pos hp (show j < n - 1 by omega) (k := 0) (by omega)).ne'

/-- Total of the latest values: all recorded amounts. -/
theorem latest_total (x : ℕ → ℕ → K) (n : ℕ) : ∑ i ∈ Finset.range n, Spec.cumOf x i (n - 1 - i) =
    ∑ i ∈ Finset.range n, Spec.cumOf (Spec.swap x) i (n - 1 - i) := by
  unfold Spec.cumOf Spec.swap
  have e : ∀ (y : ℕ → ℕ → K), ∑ i ∈ Finset.range n, ∑ k ∈ Finset.range (n - 1 - i + 1), y i k =
      ∑ i ∈ Finset.range n, ∑ k ∈ Finset.range n, if i + k < n then y i k else 0 := by
    intro y
    refine Finset.sum_congr rfl fun i hi => ?_
    rw [Finset.mem_range] at hi
    rw [← Finset.sum_filter]
    refine Finset.sum_congr ?_ fun _ _ => rfl
    ext k
    simp only [Finset.mem_range, Finset.mem_filter]
    omega
  rw [e, e, Finset.sum_comm]
  refine Finset.sum_congr rfl fun i _ => Finset.sum_congr rfl fun k _ => ?_
  rw [add_comm]

/-- **C167** for the triangle of the amounts `x` and the one with origins and periods exchanged: the increments of one
squared triangle are those of the other, exchanged; so are ultimates and totals by period, and the totals are the same. -/
theorem C167_swap (gm : List (Num K) → Num K) (h : Spec.Stair t n (Spec.cumOf x)) (hp : Spec.Positive n (Spec.cumOf x))
    (h' : Spec.Stair t' n (Spec.cumOf (Spec.swap x))) (hp' : Spec.Positive n (Spec.cumOf (Spec.swap x))) (hn : 3 ≤ n)
    (tail : K) :
    ∃ r r' q q', baseCL gm t t.a2aind0 "all-weighted" (.fin tail) = .ok r ∧
      baseCL gm t' t'.a2aind0 "all-weighted" (.fin tail) = .ok r' ∧
      (∀ i < n, ∀ j < n, r.sqr.tri.cell i j = .fin (q i j)) ∧
      (∀ i < n, ∀ j < n, r'.sqr.tri.cell i j = .fin (q' i j)) ∧
      (∀ i < n, ∀ j < n, Spec.incr q' j i = Spec.incr q i j) ∧
      (∀ i < n, ∃ row, r.rows[i]? = some row ∧ row.origin = t.oAt i ∧
        row.ultimate = .fin ((∑ j ∈ Finset.range n, Spec.incr q' j i) * tail)) ∧
      r'.totLatest = r.totLatest ∧ r'.totUltimate = r.totUltimate ∧ r'.totReserve = r.totReserve := by
  obtain ⟨r, a1, a2, a3, a4, a5, a6⟩ := base_square gm h hp hn tail
  obtain ⟨r', b1, b2, b3, b4, b5, b6⟩ := base_square gm h' hp' hn tail
  have hT : ∑ i ∈ Finset.range n, Spec.clSq n (Spec.cumOf (Spec.swap x)) (Spec.wFactor n (Spec.cumOf (Spec.swap x))) i (n - 1) =
      ∑ i ∈ Finset.range n, Spec.clSq n (Spec.cumOf x) (Spec.wFactor n (Spec.cumOf x)) i (n - 1) := by
    have := block_swap (wSum_ne hp) (n - 1) (by omega) (n - 1) (by omega)
    unfold Spec.block at this
    rw [show n - 1 + 1 = n by omega] at this
    exact this.symm
  have hs := fun i (hi : i < n) j (hj : j < n) => (incr_swap (wSum_ne hp) hi hj).symm
  refine ⟨r, r', _, _, a1, b1, a2, b2, hs, ?_, ?_, ?_, ?_⟩
  · intro i hi
    obtain ⟨row, c1, c2, _, c4⟩ := a3 i hi
    refine ⟨row, c1, c2, ?_⟩
    rw [c4, Finset.sum_congr rfl fun j hj => hs i hi j (Finset.mem_range.1 hj)]
    have := sum_incr (Spec.clSq n (Spec.cumOf x) (Spec.wFactor n (Spec.cumOf x))) i (n - 1)
    rw [show n - 1 + 1 = n by omega] at this
    rw [this]
  · rw [a4, b4, latest_total x]
  · rw [a5, b5, ← Finset.sum_mul, ← Finset.sum_mul, hT]
  · rw [a6, b6, Finset.sum_sub_distrib, Finset.sum_sub_distrib, ← Finset.sum_mul, ← Finset.sum_mul, hT, latest_total x]

/-- A record with the labels of origin and period exchanged. -/
def Rec.swap (r : Rec K) : Rec K := { r with origin := r.dev, dev := r.origin }

theorem stairRecs_swap {recs : List (Rec K)} {o d : ℕ → Int} (h : Spec.StairRecs recs n o d x) :
    Spec.StairRecs (recs.map Rec.swap) n d o (Spec.swap x) where
  pos := h.pos
  o_lt := h.d_lt
  d_lt := h.o_lt
  mem := by
    intro r
    rw [List.mem_map]
    constructor
    · rintro ⟨s, hs, rfl⟩
      obtain ⟨i, j, hij, rfl⟩ := (h.mem s).1 hs
      exact ⟨j, i, by omega, rfl⟩
    · rintro ⟨i, j, hij, rfl⟩
      exact ⟨_, (h.mem _).2 ⟨j, i, by omega, rfl⟩, rfl⟩
  once := h.once.map fun a b e => by
    obtain ⟨o1, d1, v1⟩ := a
    obtain ⟨o2, d2, v2⟩ := b
    simp only [Rec.swap, Rec.mk.injEq] at e ⊢
    tauto

/-- **C167**, `totri(data).base_cl()` for a table and for the table with the two label columns exchanged. -/
theorem C167_records (gm : List (Num K) → Num K) {recs : List (Rec K)} {o d : ℕ → Int}
    (h : Spec.StairRecs recs n o d x) (hord : DevOrdered recs) (hord' : DevOrdered (recs.map Rec.swap))
    (hp : Spec.Positive n (Spec.cumOf x)) (hp' : Spec.Positive n (Spec.cumOf (Spec.swap x))) (hn : 3 ≤ n) (tail : K) :
    ∃ t t' r r', totriCum recs = .ok t ∧ totriCum (recs.map Rec.swap) = .ok t' ∧
      baseCL gm t t.a2aind0 "all-weighted" (.fin tail) = .ok r ∧
      baseCL gm t' t'.a2aind0 "all-weighted" (.fin tail) = .ok r' ∧
      (∀ i < n, ∃ row row' u u', r.rows[i]? = some row ∧ r'.rows[i]? = some row' ∧ row.origin = o i ∧
        row'.origin = d i ∧ row.ultimate = .fin u ∧ row'.ultimate = .fin u') ∧
      r'.totLatest = r.totLatest ∧ r'.totUltimate = r.totUltimate ∧ r'.totReserve = r.totReserve := by
  obtain ⟨t, h1, h2, h3, h4⟩ := C90_cum h (fun i hi => by simpa [Spec.cumOf] using hp i 0 (by omega)) hord
  obtain ⟨t', h1', h2', h3', h4'⟩ := C90_cum (stairRecs_swap h)
    (fun i hi => by simpa [Spec.cumOf] using hp' i 0 (by omega)) hord'
  obtain ⟨r, r', q, q', a1, a2, -, -, -, a6, a7, a8, a9⟩ := C167_swap gm h2 hp h2' hp' hn tail
  obtain ⟨r2, b1, -, b3, -⟩ := base_square gm h2' hp' hn tail
  rw [a2] at b1
  cases b1
  refine ⟨t, t', r, r', h1, h1', a1, a2, ?_, a7, a8, a9⟩
  intro i hi
  obtain ⟨row, c1, c2, c3⟩ := a6 i hi
  obtain ⟨row', e1, e2, _, e3⟩ := b3 i hi
  exact ⟨row, row', _, _, c1, e1, c2.trans (h3 i hi), e2.trans (h3' i hi), c3, e3⟩

end

/-! ## C168 -/

section
variable {K : Type} [Field K] [LinearOrder K] [IsStrictOrderedRing K]
variable {t t' : Tri K} {n : ℕ} {c : ℕ → ℕ → K} {x : ℕ → ℕ → K}

theorem incr_cumOf (x : ℕ → ℕ → K) (i j : ℕ) : Spec.incr (Spec.cumOf x) i j = x i j := by
  unfold Spec.incr Spec.cumOf
  rcases j with _ | j
  · simp
  · rw [if_neg (by omega), Nat.add_sub_cancel, Finset.sum_range_succ _ (j + 1)]
    ring

/-- Blocks of all origins, projected to the last period. -/
theorem block_last (hp : Spec.Positive n c) {m : ℕ} (hm : m < n) :
    Spec.block n c (Spec.wFactor n c) (n - 1) (n - 1) =
      Spec.block n c (Spec.wFactor n c) (n - 1) m * ∏ k ∈ Finset.Ico m (n - 1), Spec.wFactor n c k := by
  obtain ⟨d, hd⟩ : ∃ d, n - 1 = m + d := ⟨n - 1 - m, by omega⟩
  have : ∀ d, m + d < n → Spec.block n c (Spec.wFactor n c) (n - 1) (m + d) =
      Spec.block n c (Spec.wFactor n c) (n - 1) m * ∏ k ∈ Finset.Ico m (m + d), Spec.wFactor n c k := by
    intro d
    induction d with
    | zero => simp
    | succ d ih =>
      intro h
      rw [← add_assoc, block_step (fun j hj => wFactor_sum (wSum_ne hp j hj)) (by omega) (by omega) (by omega),
        ih (by omega), Finset.prod_Ico_succ_top (by omega), mul_assoc]
  have e := this d (by omega)
  rw [← hd] at e
  exact e

theorem block_pos (hp : Spec.Positive n c) (hn : 0 < n) : 0 < Spec.block n c (Spec.wFactor n c) (n - 1) (n - 1) := by
  rw [block_last hp hn]
  refine mul_pos ?_ (Finset.prod_pos fun k hk => wFactor_pos hp (Finset.mem_Ico.1 hk).2)
  unfold Spec.block
  refine Finset.sum_pos (fun k hk => ?_) ⟨0, by simp⟩
  rw [Finset.mem_range] at hk
  unfold Spec.clSq
  rw [if_pos (by omega)]
  exact hp k 0 (by omega)

/-- Fitted cumulative values: ultimate of the origin times the share of the period in all ultimates. -/
theorem fitCum_block (hp : Spec.Positive n c) {i j : ℕ} (hij : i + j < n) :
    Spec.fitCum n c i j = Spec.clSq n c (Spec.wFactor n c) i (n - 1) * Spec.block n c (Spec.wFactor n c) (n - 1) j /
      Spec.block n c (Spec.wFactor n c) (n - 1) (n - 1) := by
  have hT := block_pos hp (by omega)
  have hB := block_last hp (show j < n by omega)
  have hU : Spec.clSq n c (Spec.wFactor n c) i (n - 1) =
      c i (n - 1 - i) * ∏ m ∈ Finset.Ico (n - 1 - i) (n - 1), Spec.wFactor n c m := by
    unfold Spec.clSq
    by_cases h0 : i + (n - 1) < n
    · rw [if_pos h0, show n - 1 - i = n - 1 by omega]
      simp
    · rw [if_neg h0]
  have hP : (∏ m ∈ Finset.Ico j (n - 1 - i), Spec.wFactor n c m) ≠ 0 :=
    (Finset.prod_pos fun k hk => wFactor_pos hp (by have := (Finset.mem_Ico.1 hk).2; omega)).ne'
  rw [← Finset.prod_Ico_consecutive _ (show j ≤ n - 1 - i by omega) (show n - 1 - i ≤ n - 1 by omega)] at hB
  unfold Spec.fitCum
  rw [hU, div_eq_div_iff hP hT.ne', hB]
  ring

theorem fitIncr_block (hp : Spec.Positive n c) {i j : ℕ} (hij : i + j < n) :
    Spec.incr (Spec.fitCum n c) i j =
      (Spec.block n c (Spec.wFactor n c) i (n - 1) - if i = 0 then 0 else Spec.block n c (Spec.wFactor n c) (i - 1) (n - 1)) *
      (Spec.block n c (Spec.wFactor n c) (n - 1) j - if j = 0 then 0 else Spec.block n c (Spec.wFactor n c) (n - 1) (j - 1)) /
      Spec.block n c (Spec.wFactor n c) (n - 1) (n - 1) := by
  have e : (Spec.block n c (Spec.wFactor n c) i (n - 1) - if i = 0 then 0 else Spec.block n c (Spec.wFactor n c) (i - 1) (n - 1)) =
      Spec.clSq n c (Spec.wFactor n c) i (n - 1) := by
    unfold Spec.block
    rcases i with _ | i
    · simp
    · rw [if_neg (by omega), Nat.add_sub_cancel, Finset.sum_range_succ _ (i + 1)]
      ring
  rw [e]
  unfold Spec.incr
  rcases j with _ | j
  · rw [if_pos rfl, if_pos rfl, fitCum_block hp hij, sub_zero]
  · rw [if_neg (by omega), if_neg (by omega), fitCum_block hp hij, fitCum_block hp (by omega)]
    ring

theorem fitIncr_swap (hp : Spec.Positive n (Spec.cumOf x)) (hp' : Spec.Positive n (Spec.cumOf (Spec.swap x))) {i j : ℕ}
    (hij : i + j < n) : Spec.incr (Spec.fitCum n (Spec.cumOf (Spec.swap x))) j i =
      Spec.incr (Spec.fitCum n (Spec.cumOf x)) i j := by
  have hb := block_swap (wSum_ne hp)
  rw [fitIncr_block hp hij, fitIncr_block hp' (by omega), hb i (by omega) (n - 1) (by omega),
    hb (i - 1) (by omega) (n - 1) (by omega), hb (n - 1) (by omega) j (by omega), hb (n - 1) (by omega) (j - 1) (by omega),
    hb (n - 1) (by omega) (n - 1) (by omega)]
  ring

theorem flatMap_swap_perm {α β γ : Type} (l : List α) (m : List β) (g : α → β → γ) :
    (l.flatMap (fun a => m.map (fun b => g a b))).Perm (m.flatMap (fun b => l.map (fun a => g a b))) := by
  rw [← Multiset.coe_eq_coe, ← Multiset.coe_bind, ← Multiset.coe_bind]
  simp only [← Multiset.map_coe]
  exact Multiset.bind_map_comm _ _

/-- Sums of sums of squares: no missing value arises from infinite ones. -/
theorem sumSkip_flatten {L : List (List (Num K))} (h : ∀ l ∈ L, ∀ v ∈ l, v = .nan ∨ v = .pinf ∨ ∃ y, v = .fin y) :
    Num.sumSkip (L.map Num.sumSkip) = Num.sumSkip L.flatten := by
  have key : ∀ l : List (Num K), (∀ v ∈ l, v = .nan ∨ v = .pinf ∨ ∃ y, v = .fin y) → (Num.sumSkip l).isNaN = false ∧
      (Num.sumSkip l = .pinf ∨ ∃ y, Num.sumSkip l = .fin y) := by
    intro l
    induction l with
    | nil => intro _; exact ⟨rfl, Or.inr ⟨0, rfl⟩⟩
    | cons a l ih =>
      intro h
      obtain ⟨_, h2⟩ := ih fun v hv => h v (List.mem_cons_of_mem _ hv)
      rw [Num.sumSkip_cons]
      rcases h a (List.mem_cons_self ..) with rfl | rfl | ⟨y, rfl⟩ <;> rcases h2 with e | ⟨z, e⟩ <;> rw [e] <;>
        first | exact ⟨rfl, Or.inl rfl⟩ | exact ⟨rfl, Or.inr ⟨_, rfl⟩⟩
  induction L with
  | nil => rfl
  | cons l L ih =>
    rw [List.map_cons, List.flatten_cons, Num.sumSkip_append, Num.sumSkip_cons,
      (key l (h l (List.mem_cons_self ..))).1, ih fun l hl => h l (List.mem_cons_of_mem _ hl)]
    rfl

theorem Num.pow_two_cases (v : Num K) : v.pow 2 = .nan ∨ v.pow 2 = .pinf ∨ ∃ y, v.pow 2 = .fin y := by
  cases v
  · exact Or.inl rfl
  · exact Or.inr (Or.inl rfl)
  · exact Or.inr (Or.inl rfl)
  · exact Or.inr (Or.inr ⟨_, rfl⟩)

/-- **C168** the fit of the bootstrap and the fit of the exchanged triangle: fitted increments, residuals and adjusted
residuals are exchanged, scale and pool of residuals are the same. -/
theorem C168_fit (sq : Num K → Num K) (gm : List (Num K) → Num K) (h : Spec.Stair t n (Spec.cumOf x))
    (hp : Spec.Positive n (Spec.cumOf x)) (h' : Spec.Stair t' n (Spec.cumOf (Spec.swap x)))
    (hp' : Spec.Positive n (Spec.cumOf (Spec.swap x))) (hn : 3 ≤ n) :
    ∃ fit fit', bootFit sq gm t t.a2aind0 = .ok fit ∧ bootFit sq gm t' t'.a2aind0 = .ok fit' ∧
      (∀ i < n, ∀ j < n, fit'.fitIncr.cell j i = fit.fitIncr.cell i j ∧ fit'.residUs.cell j i = fit.residUs.cell i j ∧
        fit'.residAdj.cell j i = fit.residAdj.cell i j) ∧
      fit'.scale = fit.scale ∧ fit'.sampling.Perm fit.sampling := by
  obtain ⟨fit, a, q⟩ := bootFit_stair sq gm h hp hn
  obtain ⟨fit', a', q'⟩ := bootFit_stair sq gm h' hp' hn
  have hus : ∀ i < n, ∀ j < n, fit'.residUs.cell j i = fit.residUs.cell i j := by
    intro i hi j hj
    by_cases hij : i + j < n
    · rw [q.us i j hij, q'.us j i (by omega), fitIncr_swap hp hp' hij, incr_cumOf, incr_cumOf]
      rfl
    · rw [q.us_miss i j hi hj (by omega), q'.us_miss j i hj hi (by omega)]
  have hcells : t'.nbrCells = t.nbrCells := by rw [nbrCells_stair h, nbrCells_stair h']
  have hdof : bootDof t' = bootDof t := by
    have e1 := C54_stair_partial h
    have e2 := C54_stair_partial h'
    omega
  have hadj : ∀ i < n, ∀ j < n, fit'.residAdj.cell j i = fit.residAdj.cell i j := by
    intro i hi j hj
    rw [q.adj, q'.adj]
    simp only [residAdj]
    rw [hcells, hdof, hus i hi j hj]
  have hnr : fit.residUs.nr = n := by unfold Tri.nr; rw [q.us_origins]; exact h.nr
  have hnc : fit.residUs.nc = n := by unfold Tri.nc; rw [q.us_devs]; exact h.nc
  have hnr' : fit'.residUs.nr = n := by unfold Tri.nr; rw [q'.us_origins]; exact h'.nr
  have hnc' : fit'.residUs.nc = n := by unfold Tri.nc; rw [q'.us_devs]; exact h'.nc
  refine ⟨fit, fit', a, a', fun i hi j hj => ⟨?_, hus i hi j hj, hadj i hi j hj⟩, ?_, ?_⟩
  · by_cases hij : i + j < n
    · rw [q.incr.obs i j hij, q'.incr.obs j i (by omega), fitIncr_swap hp hp' hij]
    · rw [q.incr.miss i j hi hj (by omega), q'.incr.miss j i hj hi (by omega)]
  · rw [q.scale, q'.scale]
    unfold scaleParam
    rw [hdof, hnc, hnc']
    have e : ∀ (u : Tri K), u.nr = n →
        Num.sumSkip ((List.range n).map (fun j => Num.sumSkip ((u.col j).map (fun v => v.pow 2)))) =
          Num.sumSkip ((List.range n).flatMap (fun j => (List.range n).map (fun i => (u.cell i j).pow 2))) := by
      intro u hu
      have := sumSkip_flatten (L := (List.range n).map (fun j => (u.col j).map (fun v => v.pow 2))) (by
        intro l hl v hv
        obtain ⟨j, _, rfl⟩ := List.mem_map.1 hl
        obtain ⟨w, _, rfl⟩ := List.mem_map.1 hv
        exact Num.pow_two_cases w)
      rw [List.map_map] at this
      refine this.trans ?_
      rw [List.flatMap_def]
      congr 3
      funext j
      unfold Tri.col
      rw [hu, List.map_map]
      rfl
    rw [e _ hnr, e _ hnr', Num.sumSkip_perm (flatMap_swap_perm (List.range n) (List.range n)
      (fun j i => (fit'.residUs.cell i j).pow 2))]
    congr 2
    refine flatMap_congr_mem fun j hj => List.map_congr_left fun i hi => ?_
    rw [hus i (List.mem_range.1 hi) j (List.mem_range.1 hj)]
  · rw [q.sampling, q'.sampling]
    unfold samplingDist
    have hr : fit.residAdj.nr = n := by rw [q.adj]; exact hnr
    have hc : fit.residAdj.nc = n := by rw [q.adj]; exact hnc
    have hr' : fit'.residAdj.nr = n := by rw [q'.adj]; exact hnr'
    have hc' : fit'.residAdj.nc = n := by rw [q'.adj]; exact hnc'
    rw [hr, hc, hr', hc']
    refine List.Perm.filter _ (((flatMap_swap_perm (List.range (n - 1)) (List.range (n - 1)) _)).trans ?_)
    refine List.Perm.of_eq (flatMap_congr_mem fun j hj => List.map_congr_left fun i hi => ?_)
    rw [List.mem_range] at hi hj
    exact hadj _ (by omega) _ (by omega)

end

/-! ## C169 -/

section
variable {K : Type} [Field K] [LinearOrder K] [IsStrictOrderedRing K]
variable {t t' : Tri K} {n : ℕ} {c c' : ℕ → ℕ → K}

/-- The same latest amounts, but recorded earlier. -/
structure Spec.Earlier (n : ℕ) (c c' : ℕ → ℕ → K) : Prop where
  same : ∀ i j, i + j + 1 = n → c' i j = c i j
  up : ∀ i j, i + j + 1 < n → c i j ≤ c' i j

theorem Spec.Earlier.positive (he : Spec.Earlier n c c') (hp : Spec.Positive n c) : Spec.Positive n c' := by
  intro i j hij
  by_cases h : i + j + 1 = n
  · rw [he.same i j h]; exact hp i j hij
  · exact (hp i j hij).trans_le (he.up i j (by omega))

theorem Spec.Earlier.colSum (he : Spec.Earlier n c c') (j : ℕ) :
    ∑ k ∈ Finset.range (n - 1 - j), c k j ≤ ∑ k ∈ Finset.range (n - 1 - j), c' k j :=
  Finset.sum_le_sum fun k hk => he.up k j (by rw [Finset.mem_range] at hk; omega)

/-- Remaining development from period `m` on, times the column sum of the rows that have developed further. -/
theorem remaining_step (hp : Spec.Positive n c) {m : ℕ} (hm : m + 1 < n) :
    (∑ k ∈ Finset.range (n - 1 - m), c k m) * ∏ k ∈ Finset.Ico m (n - 1), Spec.wFactor n c k =
      (∑ k ∈ Finset.range (n - 1 - (m + 1)), c k (m + 1)) * (∏ k ∈ Finset.Ico (m + 1) (n - 1), Spec.wFactor n c k) +
      c (n - 2 - m) (m + 1) * ∏ k ∈ Finset.Ico (m + 1) (n - 1), Spec.wFactor n c k := by
  rw [Finset.prod_eq_prod_Ico_succ_bot (by omega), ← mul_assoc, ← wFactor_sum (wSum_ne hp m hm), ← add_mul]
  congr 1
  rw [show n - 1 - m = n - 1 - (m + 1) + 1 by omega, Finset.sum_range_succ, show n - 1 - (m + 1) = n - 2 - m by omega]

theorem remaining_pos (hp : Spec.Positive n c) (m : ℕ) : 0 < ∏ k ∈ Finset.Ico m (n - 1), Spec.wFactor n c k :=
  Finset.prod_pos fun k hk => wFactor_pos hp (Finset.mem_Ico.1 hk).2

theorem remaining_le (hp : Spec.Positive n c) (he : Spec.Earlier n c c') (d : ℕ) : ∀ m, m + d + 1 = n →
    (∏ k ∈ Finset.Ico m (n - 1), Spec.wFactor n c' k ≤ ∏ k ∈ Finset.Ico m (n - 1), Spec.wFactor n c k) ∧
    ((∑ k ∈ Finset.range (n - 1 - m), c' k m) * ∏ k ∈ Finset.Ico m (n - 1), Spec.wFactor n c' k ≤
      (∑ k ∈ Finset.range (n - 1 - m), c k m) * ∏ k ∈ Finset.Ico m (n - 1), Spec.wFactor n c k) ∧
    ((∃ i j, m ≤ j ∧ i + j + 1 < n ∧ c i j < c' i j) →
      ∏ k ∈ Finset.Ico m (n - 1), Spec.wFactor n c' k < ∏ k ∈ Finset.Ico m (n - 1), Spec.wFactor n c k) := by
  have hp' := he.positive hp
  induction d with
  | zero =>
    intro m hm
    have e : n - 1 - m = 0 := by omega
    rw [e, Finset.Ico_eq_empty (by omega)]
    simp only [Finset.prod_empty, Finset.range_zero, Finset.sum_empty, zero_mul, le_refl, true_and, lt_self_iff_false,
      imp_false]
    rintro ⟨i, j, h1, h2, _⟩
    omega
  | succ d ih =>
    intro m hm
    obtain ⟨i1, i2, i3⟩ := ih (m + 1) (by omega)
    have hB : 0 < ∑ k ∈ Finset.range (n - 1 - m), c k m := wSum_pos hp (show m < n - 1 by omega) (k := 0) (by omega)
    have hB' : 0 < ∑ k ∈ Finset.range (n - 1 - m), c' k m := wSum_pos hp' (show m < n - 1 by omega) (k := 0) (by omega)
    have hP := remaining_pos hp m
    have hP' := remaining_pos hp' m
    have hL : 0 < c (n - 2 - m) (m + 1) := hp _ _ (by omega)
    have hq : (∑ k ∈ Finset.range (n - 1 - m), c' k m) * ∏ k ∈ Finset.Ico m (n - 1), Spec.wFactor n c' k ≤
      (∑ k ∈ Finset.range (n - 1 - m), c k m) * ∏ k ∈ Finset.Ico m (n - 1), Spec.wFactor n c k := by
      rw [remaining_step hp (by omega), remaining_step hp' (by omega), he.same _ _ (by omega)]
      exact add_le_add i2 (mul_le_mul_of_nonneg_left i1 hL.le)
    refine ⟨?_, hq, ?_⟩
    · refine le_of_mul_le_mul_left ((mul_le_mul_of_nonneg_right (he.colSum m) hP'.le).trans hq) hB
    · rintro ⟨i, j, h1, h2, h3⟩
      rcases Nat.eq_or_lt_of_le h1 with rfl | h1
      · have hs : ∑ k ∈ Finset.range (n - 1 - m), c k m < ∑ k ∈ Finset.range (n - 1 - m), c' k m :=
          Finset.sum_lt_sum (fun k hk => he.up k m (by rw [Finset.mem_range] at hk; omega))
            ⟨i, by rw [Finset.mem_range]; omega, h3⟩
        exact lt_of_mul_lt_mul_left ((mul_lt_mul_of_pos_right hs hP').trans_le hq) hB.le
      · have hlt := i3 ⟨i, j, h1, h2, h3⟩
        have hq' : (∑ k ∈ Finset.range (n - 1 - m), c' k m) * ∏ k ∈ Finset.Ico m (n - 1), Spec.wFactor n c' k <
          (∑ k ∈ Finset.range (n - 1 - m), c k m) * ∏ k ∈ Finset.Ico m (n - 1), Spec.wFactor n c k := by
          rw [remaining_step hp (by omega), remaining_step hp' (by omega), he.same _ _ (by omega)]
          exact add_lt_add_of_le_of_lt i2 (mul_lt_mul_of_pos_left hlt hL)
        exact lt_of_mul_lt_mul_left ((mul_le_mul_of_nonneg_right (he.colSum m) hP'.le).trans_lt hq') hB.le

theorem clSq_last (c : ℕ → ℕ → K) (f : ℕ → K) {i : ℕ} (hi : i < n) : Spec.clSq n c f i (n - 1) =
    c i (n - 1 - i) * ∏ m ∈ Finset.Ico (n - 1 - i) (n - 1), f m := by
  unfold Spec.clSq
  by_cases h0 : i + (n - 1) < n
  · rw [if_pos h0, show n - 1 - i = n - 1 by omega]
    simp
  · rw [if_neg h0]

theorem earlier_ult (hp : Spec.Positive n c) (he : Spec.Earlier n c c') {i : ℕ} (hi : i < n) :
    Spec.clSq n c' (Spec.wFactor n c') i (n - 1) ≤ Spec.clSq n c (Spec.wFactor n c) i (n - 1) ∧
    ((∃ k j, n - 1 - i ≤ j ∧ k + j + 1 < n ∧ c k j < c' k j) →
      Spec.clSq n c' (Spec.wFactor n c') i (n - 1) < Spec.clSq n c (Spec.wFactor n c) i (n - 1)) := by
  obtain ⟨h1, -, h3⟩ := remaining_le hp he i (n - 1 - i) (by omega)
  have hL : 0 < c i (n - 1 - i) := hp _ _ (by omega)
  rw [clSq_last _ _ hi, clSq_last _ _ hi, he.same i _ (by omega)]
  exact ⟨mul_le_mul_of_nonneg_left h1 hL.le, fun h => mul_lt_mul_of_pos_left (h3 h) hL⟩

/-- **C169** `base_cl` with volume weighted averages of all years: when the same latest amounts were recorded earlier, no
ultimate, reserve or total is higher; an ultimate is lower as soon as an amount at or after the period of that origin was
recorded earlier. -/
theorem C169_earlier (gm : List (Num K) → Num K) (h : Spec.Stair t n c) (hp : Spec.Positive n c)
    (h' : Spec.Stair t' n c') (he : Spec.Earlier n c c') (hn : 3 ≤ n) {tail : K} (htail : 0 < tail) :
    ∃ r r' T T', baseCL gm t t.a2aind0 "all-weighted" (.fin tail) = .ok r ∧
      baseCL gm t' t'.a2aind0 "all-weighted" (.fin tail) = .ok r' ∧
      (∀ i < n, ∃ row row' u u', r.rows[i]? = some row ∧ r'.rows[i]? = some row' ∧ row'.latest = row.latest ∧
        row.ultimate = .fin u ∧ row'.ultimate = .fin u' ∧ u' ≤ u ∧
        ((∃ k j, n - 1 - i ≤ j ∧ k + j + 1 < n ∧ c k j < c' k j) → u' < u)) ∧
      r.totReserve = .fin T ∧ r'.totReserve = .fin T' ∧ T' ≤ T := by
  obtain ⟨r, a1, _, a3, _, _, a6⟩ := base_square gm h hp hn tail
  obtain ⟨r', b1, _, b3, _, _, b6⟩ := base_square gm h' (he.positive hp) hn tail
  refine ⟨r, r', _, _, a1, b1, ?_, a6, b6, ?_⟩
  · intro i hi
    obtain ⟨row, c1, _, c3, c4⟩ := a3 i hi
    obtain ⟨row', d1, _, d3, d4⟩ := b3 i hi
    obtain ⟨e1, e2⟩ := earlier_ult hp he hi
    refine ⟨row, row', _, _, c1, d1, ?_, c4, d4, mul_le_mul_of_nonneg_right e1 htail.le,
      fun hx => mul_lt_mul_of_pos_right (e2 hx) htail⟩
    rw [c3, d3, he.same i _ (by omega)]
  · refine Finset.sum_le_sum fun i hi => ?_
    rw [Finset.mem_range] at hi
    rw [he.same i _ (by omega)]
    exact sub_le_sub_right (mul_le_mul_of_nonneg_right (earlier_ult hp he hi).1 htail.le) _

/-- **C169** the same of Mack chain ladder with `alpha=1`. -/
theorem C169_mack (h : Spec.Stair t n c) (hp : Spec.Positive n c) (h' : Spec.Stair t' n c') (he : Spec.Earlier n c c')
    (hn : 4 ≤ n) :
    ∃ r r' T T', mackCore 1 t t.a2aind0 = .ok r ∧ mackCore 1 t' t'.a2aind0 = .ok r' ∧
      (∀ i < n, ∃ row row' u u', r.rows[i]? = some row ∧ r'.rows[i]? = some row' ∧ row'.latest = row.latest ∧
        row.ultimate = .fin u ∧ row'.ultimate = .fin u' ∧ u' ≤ u ∧
        ((∃ k j, n - 1 - i ≤ j ∧ k + j + 1 < n ∧ c k j < c' k j) → u' < u)) ∧
      r.totReserve = .fin T ∧ r'.totReserve = .fin T' ∧ T' ≤ T := by
  obtain ⟨r, r', T, T', a1, a2, a3, a4, a5, a6⟩ := C169_earlier (fun _ => .nan) h hp h' he (by omega) (tail := 1) one_pos
  obtain ⟨m, b, e1, e2, -, -, e3, -, -, e4, -⟩ := C50_point_estimates (fun _ => .nan) h hp hn
  obtain ⟨m', b', e1', e2', -, -, e3', -, -, e4', -⟩ := C50_point_estimates (fun _ => .nan) h' (he.positive hp) hn
  rw [show (1 : Num K) = .fin 1 from rfl, a1] at e2
  rw [show (1 : Num K) = .fin 1 from rfl, a2] at e2'
  cases e2
  cases e2'
  refine ⟨m, m', T, T', e1, e1', ?_, by rw [e4, a4], by rw [e4', a5], a6⟩
  rw [e3, e3']
  exact a3

end

/-! ## Examples -/

/-- Amounts of three origins. -/
def exSwapAmounts : ℕ → ℕ → ℚ := fun i j =>
  ((([[100, 50, 20], [110, 66], [130]] : List (List ℚ)).getD i []).getD j 0)

/-- The same amounts as a table. -/
def exSwapRecs : List (Rec ℚ) :=
  [⟨2001, 1, .fin 100⟩, ⟨2001, 2, .fin 50⟩, ⟨2001, 3, .fin 20⟩, ⟨2002, 1, .fin 110⟩, ⟨2002, 2, .fin 66⟩,
   ⟨2003, 1, .fin 130⟩]

/-- Ultimates and total reserve of `totri(data).base_cl(sel)`. -/
def exSwapRun (recs : List (Rec ℚ)) (sel : String) : Option (List (Num ℚ) × Num ℚ) :=
  ((totriCum recs).toOption.bind (fun t => (baseCL (fun _ => .nan) t t.a2aind0 sel 1).toOption)).map
    (fun r => (r.rows.map SummRow.ultimate, r.totReserve))

/-- C167 on the example: other ultimates, the same total reserve. -/
example : exSwapRun exSwapRecs "all-weighted" =
      some ([.fin 170, .fin (2992 / 15), .fin (72046 / 315)], .fin (38488 / 315)) ∧
    exSwapRun (exSwapRecs.map Rec.swap) "all-weighted" =
      some ([.fin 340, .fin (3944 / 21), .fin (22168 / 315)], .fin (38488 / 315)) := by decide +kernel

/-- With simple averages the totals differ. -/
example : exSwapRun exSwapRecs "all-simple" =
      some ([.fin 170, .fin (2992 / 15), .fin (6851 / 30)], .fin (731 / 6)) ∧
    exSwapRun (exSwapRecs.map Rec.swap) "all-simple" =
      some ([.fin 340, .fin (3944 / 21), .fin (7514 / 105)], .fin (4318 / 35)) := by decide +kernel

/-- The hypotheses of C167 and C168 hold of the example. -/
theorem exSwap_pos : Spec.Positive 3 (Spec.cumOf exSwapAmounts) ∧ Spec.Positive 3 (Spec.cumOf (Spec.swap exSwapAmounts)) := by
  have key : ∀ i < 3, ∀ j < 3, i + j < 3 → 0 < Spec.cumOf exSwapAmounts i j ∧ 0 < Spec.cumOf (Spec.swap exSwapAmounts) i j := by
    decide +kernel
  exact ⟨fun i j h => (key i (by omega) j (by omega) h).1, fun i j h => (key i (by omega) j (by omega) h).2⟩

/-- Triangles for C169: the first origin has 108 instead of 100 in the second period. -/
def exEarly (y : ℚ) : ℕ → ℕ → ℚ := fun i j =>
  ((([[10, y, 110, 120], [100, 110, 120], [100, 110], [100]] : List (List ℚ)).getD i []).getD j 0)

theorem exEarly_earlier : Spec.Earlier 4 (exEarly 100) (exEarly 108) := by
  have key : ∀ i < 4, ∀ j < 4, (i + j + 1 = 4 → exEarly 108 i j = exEarly 100 i j) ∧
      (i + j + 1 < 4 → exEarly 100 i j ≤ exEarly 108 i j) := by decide +kernel
  exact ⟨fun i j h => (key i (by omega) j (by omega)).1 h, fun i j h => (key i (by omega) j (by omega)).2 h⟩

/-- Ultimates for the triangles of C169. -/
def exEarlyRun (y : ℚ) (sel : String) : Option (List (Num ℚ)) :=
  (baseCL (fun _ => .nan) (stairTri 4 (exEarly y)) (stairTri 4 (exEarly y)).a2aind0 sel 1).toOption.map
    (fun r => r.rows.map SummRow.ultimate)

/-- C169 on the example: the ultimates of the two youngest origins fall. -/
example : exEarlyRun 100 "all-weighted" = some [.fin 120, .fin (1440 / 11), .fin (920 / 7), .fin (294400 / 1617)] ∧
    exEarlyRun 108 "all-weighted" = some [.fin 120, .fin (1440 / 11), .fin (13800 / 109), .fin (1508800 / 8393)] := by
  decide +kernel

/-- With simple averages the ultimate of the youngest origin rises: C169 is about volume weighted averages. -/
example : exEarlyRun 100 "all-simple" = some [.fin 120, .fin (1440 / 11), .fin (1446 / 11), .fin (58804 / 121)] ∧
    exEarlyRun 108 "all-simple" = some [.fin 120, .fin (1440 / 11), .fin (12530 / 99), .fin (1628900 / 3267)] ∧
    (58804 / 121 : ℚ) < 1628900 / 3267 := by
  decide +kernel

end Trikit
