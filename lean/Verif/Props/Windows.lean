import Verif.Props.Influence
import Verif.Props.GeoMean

/-!
# C138, C139: results of `base_cl` for every kind of average and every number of years

C138: pooling two books.  C139: higher latest values never lower an ultimate, whatever average is selected.
-/

set_option linter.unusedSectionVars false

namespace Trikit

section
variable {K : Type} [Field K] [LinearOrder K] [IsStrictOrderedRing K]
variable {t t' : Tri K} {n : ℕ} {c c' : ℕ → ℕ → K}

/-- A row of the table of averages over the last `k` years (all years when `k = 0`), no exclusions. -/
theorem rowIs_window (gm : List (Num K) → Num K) (h : Spec.Stair t n c) (hp : Spec.Positive n c)
    (kind : AvgKind) {g : ℕ → K} {k : ℕ} (hk : k < n - 1)
    (hg : ∀ j < n - 1, avgEntry gm t t.a2aind0 kind k j = .ok (.fin (g j))) :
    Spec.RowIs gm t t.a2aind0 (Spec.avgName kind.name k)
      ((List.range (n - 1)).map (fun j => .fin (g j))) := by
  obtain ⟨tab, htab⟩ := a2aAvgs_noexcl_ok gm h hp
  refine ⟨tab, htab, ?_⟩
  obtain ⟨_, vals, h1, h2⟩ := a2aAvgs_lookup htab (k := kind) (d := k)
    (Or.inr (by rw [h.a2a_nr hp.ne_zero]; exact hk))
  rw [avgName_eq] at h1
  rw [h1]
  rw [adj_nc h hp.ne_zero (h.indOn0 hp.ne_zero)] at h2
  have h3 : (List.range (n - 1)).mapM (avgEntry gm t t.a2aind0 kind k) =
      .ok ((List.range (n - 1)).map (fun j => .fin (g j))) := by
    apply mapM_ok
    intro j hj
    exact hg j (List.mem_range.1 hj)
  rw [h3] at h2
  injection h2 with h2
  rw [h2]

/-- Weighted factor of period `j` over the last `k` years. -/
def Spec.wavg (n k : ℕ) (c : ℕ → ℕ → K) (j : ℕ) : K :=
  ((Spec.lastN k (List.range (n - 1 - j))).map (fun i => c i (j + 1))).sum /
    ((Spec.lastN k (List.range (n - 1 - j))).map (fun i => c i j)).sum

theorem map_sum_pos {l : List ℕ} {f : ℕ → K} (hne : l ≠ []) (hf : ∀ i ∈ l, 0 < f i) : 0 < (l.map f).sum := by
  refine List.sum_pos _ ?_ (by simpa using hne)
  intro x hx
  obtain ⟨i, hi, rfl⟩ := List.mem_map.1 hx
  exact hf i hi

theorem window_mem {k j i : ℕ} (hi : i ∈ Spec.lastN k (List.range (n - 1 - j))) : i + j + 1 < n := by
  have := List.mem_range.1 (lastN_subset _ _ i hi)
  omega

theorem wavg_den_pos (hp : Spec.Positive n c) (k : ℕ) {j : ℕ} (hj : j < n - 1) :
    0 < ((Spec.lastN k (List.range (n - 1 - j))).map (fun i => c i j)).sum :=
  map_sum_pos (lastN_ne_nil k (by simp; omega)) fun i hi => hp i j (by have := window_mem hi; omega)

theorem wavg_num_pos (hp : Spec.Positive n c) (k : ℕ) {j : ℕ} (hj : j < n - 1) :
    0 < ((Spec.lastN k (List.range (n - 1 - j))).map (fun i => c i (j + 1))).sum :=
  map_sum_pos (lastN_ne_nil k (by simp; omega)) fun i hi => hp i (j + 1) (by have := window_mem hi; omega)

theorem wavg_pos (hp : Spec.Positive n c) (k : ℕ) {j : ℕ} (hj : j < n - 1) : 0 < Spec.wavg n k c j :=
  div_pos (wavg_num_pos hp k hj) (wavg_den_pos hp k hj)

theorem entry_wavg (gm : List (Num K) → Num K) (h : Spec.Stair t n c) (hp : Spec.Positive n c) (k : ℕ) {j : ℕ}
    (hj : j < n - 1) : avgEntry gm t t.a2aind0 .weighted k j = .ok (.fin (Spec.wavg n k c j)) := by
  rw [entry_weighted h hj]
  unfold wOrigins
  rw [Num.fin_div _ _ (wavg_den_pos hp k hj).ne']
  rfl

/-- The results of `base_cl` for a selected row of numbers, with a tail factor. -/
theorem base_sel (gm : List (Num K) → Num K) (h : Spec.Stair t n c) (hp : Spec.Positive n c) (hn : 3 ≤ n)
    {sel : String} {f : ℕ → K}
    (hsel : Spec.RowIs gm t t.a2aind0 sel ((List.range (n - 1)).map (fun j => .fin (f j)))) (tail : K) :
    ∃ r, baseCL gm t t.a2aind0 sel (.fin tail) = .ok r ∧
      r.ldfs.map Prod.snd = (List.range (n - 1)).map (fun j => .fin (f j)) ++ [.fin tail] ∧
      (∀ i < n, ∃ row, r.rows[i]? = some row ∧ row.latest = .fin (c i (n - 1 - i)) ∧
        row.ultimate = .fin (Spec.ult n c f i * tail) ∧
        row.reserve = .fin (Spec.ult n c f i * tail - c i (n - 1 - i))) ∧
      r.totLatest = .fin (∑ i ∈ Finset.range n, c i (n - 1 - i)) ∧
      r.totUltimate = .fin (∑ i ∈ Finset.range n, Spec.ult n c f i * tail) ∧
      r.totReserve = .fin (∑ i ∈ Finset.range n, (Spec.ult n c f i * tail - c i (n - 1 - i))) := by
  obtain ⟨r, lab, h1, _, _, h4, h5⟩ := baseCL_stair h hp.ne_zero (h.indOn0 hp.ne_zero) hn hsel tail
  have e : ∀ i < n, c i (n - 1 - i) * Spec.tailProd (Spec.withTail f n tail) n (n - 1 - i) =
      Spec.ult n c f i * tail := by
    intro i hi
    rw [tailProd_withTail _ _ (by omega)]
    unfold Spec.ult Spec.proj
    ring
  refine ⟨r, h1, ?_, ?_, h5.totLatest, ?_, ?_⟩
  · have hlen : t.devs.length = n := h.nc
    rw [h4, List.map_snd_zip (by simp [hlen]; omega)]
    obtain ⟨m, rfl⟩ : ∃ m, n = m + 1 := ⟨n - 1, by omega⟩
    rw [List.range_succ, List.map_append]
    congr 1
    · apply List.map_congr_left
      intro j hj
      rw [List.mem_range] at hj
      simp [Spec.withTail, hj]
    · simp [Spec.withTail]
  · intro i hi
    obtain ⟨row, hr, _, _, _, _, hl, hu, hv⟩ := h5.rows i hi
    exact ⟨row, hr, hl, by rw [hu, e i hi], by rw [hv, e i hi]⟩
  · rw [h5.totUltimate]
    congr 1
    exact Finset.sum_congr rfl fun i hi => e i (Finset.mem_range.1 hi)
  · rw [h5.totReserve]
    congr 1
    exact Finset.sum_congr rfl fun i hi => by rw [e i (Finset.mem_range.1 hi)]

/-! ## C138 -/

theorem mediant_between {p q r s : K} (hq : 0 < q) (hs : 0 < s) :
    min (p / q) (r / s) ≤ (p + r) / (q + s) ∧ (p + r) / (q + s) ≤ max (p / q) (r / s) := by
  have h1 : p = p / q * q := by field_simp
  have h2 : r = r / s * s := by field_simp
  have hqs : 0 < q + s := add_pos hq hs
  constructor
  · rw [le_div_iff₀ hqs]
    have a1 := mul_le_mul_of_nonneg_right (min_le_left (p / q) (r / s)) hq.le
    have a2 := mul_le_mul_of_nonneg_right (min_le_right (p / q) (r / s)) hs.le
    rw [← h1] at a1
    rw [← h2] at a2
    rw [mul_add]
    exact add_le_add a1 a2
  · rw [div_le_iff₀ hqs]
    have a1 := mul_le_mul_of_nonneg_right (le_max_left (p / q) (r / s)) hq.le
    have a2 := mul_le_mul_of_nonneg_right (le_max_right (p / q) (r / s)) hs.le
    rw [← h1] at a1
    rw [← h2] at a2
    rw [mul_add]
    exact add_le_add a1 a2

theorem map_sum_add (l : List ℕ) (f g : ℕ → K) :
    (l.map (fun i => f i + g i)).sum = (l.map f).sum + (l.map g).sum := by
  induction l with
  | nil => simp
  | cons a l ih => simp only [List.map_cons, List.sum_cons, ih]; ring

variable {ta tb : Tri K} {a b : ℕ → ℕ → K}

/-- The weighted factor of pooled amounts is the mediant of the factors. -/
theorem wavg_pool (hs : ∀ i j, i + j < n → c i j = a i j + b i j) (k : ℕ) {j : ℕ} :
    Spec.wavg n k c j =
      (((Spec.lastN k (List.range (n - 1 - j))).map (fun i => a i (j + 1))).sum +
        ((Spec.lastN k (List.range (n - 1 - j))).map (fun i => b i (j + 1))).sum) /
      (((Spec.lastN k (List.range (n - 1 - j))).map (fun i => a i j)).sum +
        ((Spec.lastN k (List.range (n - 1 - j))).map (fun i => b i j)).sum) := by
  unfold Spec.wavg
  rw [← map_sum_add, ← map_sum_add]
  congr 1
  · congr 1
    apply List.map_congr_left
    intro i hi
    exact hs i (j + 1) (by have := window_mem hi; omega)
  · congr 1
    apply List.map_congr_left
    intro i hi
    exact hs i j (by have := window_mem hi; omega)

/-- **C138.** Two books with the same origins and periods and their sum, weighted averages over all or over the last
`k` years, any tail factor.  Every factor of the pooled triangle lies between those of the two books; if the books
have the same factors, ultimates and reserves of the pooled triangle are the sums, by origin and in total. -/
theorem C138_pool (gm : List (Num K) → Num K) (ha : Spec.Stair ta n a) (hb : Spec.Stair tb n b)
    (hc : Spec.Stair t n c) (hpa : Spec.Positive n a) (hpb : Spec.Positive n b)
    (hs : ∀ i j, i + j < n → c i j = a i j + b i j) (hn : 3 ≤ n) {k : ℕ} (hk : k < n - 1) (tail : K) :
    ∃ (ra rb rc : BaseResult K) (fa fb fc : ℕ → K),
      baseCL gm ta ta.a2aind0 (Spec.avgName "weighted" k) (.fin tail) = .ok ra ∧
      baseCL gm tb tb.a2aind0 (Spec.avgName "weighted" k) (.fin tail) = .ok rb ∧
      baseCL gm t t.a2aind0 (Spec.avgName "weighted" k) (.fin tail) = .ok rc ∧
      ra.ldfs.map Prod.snd = (List.range (n - 1)).map (fun j => .fin (fa j)) ++ [.fin tail] ∧
      rb.ldfs.map Prod.snd = (List.range (n - 1)).map (fun j => .fin (fb j)) ++ [.fin tail] ∧
      rc.ldfs.map Prod.snd = (List.range (n - 1)).map (fun j => .fin (fc j)) ++ [.fin tail] ∧
      (∀ j < n - 1, min (fa j) (fb j) ≤ fc j ∧ fc j ≤ max (fa j) (fb j)) ∧
      ((∀ j < n - 1, fa j = fb j) →
        (∀ i < n, ∃ rowa rowb rowc ua ub va vb, ra.rows[i]? = some rowa ∧ rb.rows[i]? = some rowb ∧
          rc.rows[i]? = some rowc ∧ rowa.ultimate = .fin ua ∧ rowb.ultimate = .fin ub ∧
          rowa.reserve = .fin va ∧ rowb.reserve = .fin vb ∧
          rowc.ultimate = .fin (ua + ub) ∧ rowc.reserve = .fin (va + vb)) ∧
        ∃ ua ub va vb, ra.totUltimate = .fin ua ∧ rb.totUltimate = .fin ub ∧ ra.totReserve = .fin va ∧
          rb.totReserve = .fin vb ∧ rc.totUltimate = .fin (ua + ub) ∧ rc.totReserve = .fin (va + vb)) := by
  have hpc : Spec.Positive n c := fun i j hij => by
    rw [hs i j hij]; exact add_pos (hpa i j hij) (hpb i j hij)
  obtain ⟨ra, a1, a2, a3, _, a5, a6⟩ := base_sel gm ha hpa hn
    (rowIs_window gm ha hpa .weighted hk fun j hj => entry_wavg gm ha hpa k hj) tail
  obtain ⟨rb, b1, b2, b3, _, b5, b6⟩ := base_sel gm hb hpb hn
    (rowIs_window gm hb hpb .weighted hk fun j hj => entry_wavg gm hb hpb k hj) tail
  obtain ⟨rc, c1, c2, c3, _, c5, c6⟩ := base_sel gm hc hpc hn
    (rowIs_window gm hc hpc .weighted hk fun j hj => entry_wavg gm hc hpc k hj) tail
  have hmed : ∀ j < n - 1, min (Spec.wavg n k a j) (Spec.wavg n k b j) ≤ Spec.wavg n k c j ∧
      Spec.wavg n k c j ≤ max (Spec.wavg n k a j) (Spec.wavg n k b j) := by
    intro j hj
    rw [wavg_pool hs]
    exact mediant_between (wavg_den_pos hpa k hj) (wavg_den_pos hpb k hj)
  refine ⟨ra, rb, rc, _, _, _, a1, b1, c1, a2, b2, c2, hmed, ?_⟩
  intro heq
  have hfb : ∀ j < n - 1, Spec.wavg n k b j = Spec.wavg n k c j := by
    intro j hj
    have := hmed j hj
    rw [heq j hj, min_self, max_self] at this
    exact le_antisymm this.1 this.2
  have hfa : ∀ j < n - 1, Spec.wavg n k a j = Spec.wavg n k c j := fun j hj => (heq j hj).trans (hfb j hj)
  have hult : ∀ i < n, Spec.ult n c (Spec.wavg n k c) i * tail =
      Spec.ult n a (Spec.wavg n k a) i * tail + Spec.ult n b (Spec.wavg n k b) i * tail := by
    intro i hi
    unfold Spec.ult Spec.proj
    rw [Finset.prod_congr rfl fun m hm => hfa m (Finset.mem_Ico.1 hm).2,
      Finset.prod_congr rfl fun m hm => hfb m (Finset.mem_Ico.1 hm).2, hs i _ (by omega)]
    ring
  refine ⟨?_, ?_⟩
  · intro i hi
    obtain ⟨rowa, d1, _, d2, d3⟩ := a3 i hi
    obtain ⟨rowb, e1, _, e2, e3⟩ := b3 i hi
    obtain ⟨rowc, g1, _, g2, g3⟩ := c3 i hi
    refine ⟨rowa, rowb, rowc, _, _, _, _, d1, e1, g1, d2, e2, d3, e3, ?_, ?_⟩
    · rw [g2, hult i hi]
    · rw [g3, hult i hi, hs i _ (by omega)]
      congr 1
      ring
  · refine ⟨_, _, _, _, a5, b5, a6, b6, ?_, ?_⟩
    · rw [c5, ← Finset.sum_add_distrib]
      congr 1
      exact Finset.sum_congr rfl fun i hi => hult i (Finset.mem_range.1 hi)
    · rw [c6, ← Finset.sum_add_distrib]
      congr 1
      refine Finset.sum_congr rfl fun i hi => ?_
      rw [Finset.mem_range] at hi
      rw [hult i hi, hs i _ (by omega)]
      ring

/-! ## C139 -/

/-- Positive factors that are not lower and latest values that are not lower give ultimates that are not lower. -/
theorem ult_le_ult (hp : Spec.Positive n c) (hr : Spec.Raised n c c') {f f' : ℕ → K} (hf : ∀ j < n - 1, 0 < f j)
    (hle : ∀ j < n - 1, f j ≤ f' j) {i : ℕ} (hi : i < n) :
    Spec.ult n c f i ≤ Spec.ult n c' f' i ∧
      (c i (n - 1 - i) < c' i (n - 1 - i) → Spec.ult n c f i < Spec.ult n c' f' i) := by
  have h0 := hp i (n - 1 - i) (by omega)
  have hpos : 0 < ∏ m ∈ Finset.Ico (n - 1 - i) (n - 1), f m :=
    Finset.prod_pos fun m hm => hf m (Finset.mem_Ico.1 hm).2
  have hprod : ∏ m ∈ Finset.Ico (n - 1 - i) (n - 1), f m ≤ ∏ m ∈ Finset.Ico (n - 1 - i) (n - 1), f' m :=
    Finset.prod_le_prod (fun m hm => (hf m (Finset.mem_Ico.1 hm).2).le) (fun m hm => hle m (Finset.mem_Ico.1 hm).2)
  have hup := hr.up i hi
  unfold Spec.ult Spec.proj
  exact ⟨mul_le_mul hup hprod hpos.le (h0.le.trans hup),
    fun hlt => mul_lt_mul hlt hprod hpos (h0.trans hlt).le⟩

theorem Spec.Raised.pos (hp : Spec.Positive n c) (hr : Spec.Raised n c c') : Spec.Positive n c' := by
  intro i j hij
  by_cases hl : i + j + 1 < n
  · rw [hr.same i j hl]; exact hp i j hij
  · have e : j = n - 1 - i := by omega
    rw [e]
    exact (hp i _ (by omega)).trans_le (hr.up i (by omega))

theorem Spec.Raised.le (hr : Spec.Raised n c c') {i j : ℕ} (hij : i + j < n) : c i j ≤ c' i j := by
  by_cases hl : i + j + 1 < n
  · rw [hr.same i j hl]
  · have e : j = n - 1 - i := by omega
    rw [e]
    exact hr.up i (by omega)

theorem wavg_mono (hp : Spec.Positive n c) (hr : Spec.Raised n c c') (k : ℕ) {j : ℕ} (hj : j < n - 1) :
    Spec.wavg n k c j ≤ Spec.wavg n k c' j := by
  unfold Spec.wavg
  have hden : (Spec.lastN k (List.range (n - 1 - j))).map (fun i => c' i j) =
      (Spec.lastN k (List.range (n - 1 - j))).map (fun i => c i j) := by
    apply List.map_congr_left
    intro i hi
    exact hr.same i j (window_mem hi)
  rw [hden]
  refine div_le_div_of_nonneg_right ?_ (wavg_den_pos hp k hj).le
  refine List.sum_le_sum fun i hi => ?_
  exact hr.le (by have := window_mem hi; omega)

theorem ratio_mono (hp : Spec.Positive n c) (hr : Spec.Raised n c c') {i j : ℕ} (hij : i + j + 1 < n) :
    c i (j + 1) / c i j ≤ c' i (j + 1) / c' i j := by
  rw [hr.same i j hij]
  exact div_le_div_of_nonneg_right (hr.le (by omega)) (hp i j (by omega)).le

theorem savg_mono (hp : Spec.Positive n c) (hr : Spec.Raised n c c') (k j : ℕ) :
    Spec.mean (Spec.lastN k (Spec.ratios n c j)) ≤ Spec.mean (Spec.lastN k (Spec.ratios n c' j)) := by
  unfold Spec.mean Spec.ratios
  rw [lastN_map, lastN_map, List.length_map, List.length_map]
  refine div_le_div_of_nonneg_right ?_ (Nat.cast_nonneg _)
  exact List.sum_le_sum fun i hi => ratio_mono hp hr (window_mem hi)

theorem savg_pos (hp : Spec.Positive n c) (k : ℕ) {j : ℕ} (hj : j < n - 1) :
    0 < Spec.mean (Spec.lastN k (Spec.ratios n c j)) := by
  have hne := lastN_ne_nil k (ratios_ne_nil (c := c) hj)
  unfold Spec.mean
  refine div_pos (List.sum_pos _ (fun x hx => ratios_pos hp j x (lastN_subset _ _ x hx)) hne) ?_
  exact_mod_cast List.length_pos_iff.2 hne

/-- The conclusion of C139 for two triangles and a selection. -/
def Spec.NotLower (gm : List (Num K) → Num K) (t t' : Tri K) (n : ℕ) (c c' : ℕ → ℕ → K) (sel : String)
    (tail : K) : Prop :=
  ∃ r r' T T', baseCL gm t t.a2aind0 sel (.fin tail) = .ok r ∧
    baseCL gm t' t'.a2aind0 sel (.fin tail) = .ok r' ∧
    (∀ i < n, ∃ row row' u u', r.rows[i]? = some row ∧ r'.rows[i]? = some row' ∧
      row.ultimate = .fin u ∧ row'.ultimate = .fin u' ∧ u ≤ u' ∧
      (c i (n - 1 - i) < c' i (n - 1 - i) → u < u')) ∧
    r.totUltimate = .fin T ∧ r'.totUltimate = .fin T' ∧ T ≤ T'

theorem notLower_of (gm : List (Num K) → Num K) (h : Spec.Stair t n c) (h' : Spec.Stair t' n c')
    (hp : Spec.Positive n c) (hr : Spec.Raised n c c') (hn : 3 ≤ n) (kind : AvgKind) {k : ℕ} (hk : k < n - 1)
    {f f' : ℕ → K} (hf : ∀ j < n - 1, avgEntry gm t t.a2aind0 kind k j = .ok (.fin (f j)))
    (hf' : ∀ j < n - 1, avgEntry gm t' t'.a2aind0 kind k j = .ok (.fin (f' j)))
    (hpos : ∀ j < n - 1, 0 < f j) (hle : ∀ j < n - 1, f j ≤ f' j) {tail : K} (htail : 0 < tail) :
    Spec.NotLower gm t t' n c c' (Spec.avgName kind.name k) tail := by
  obtain ⟨r, a1, _, a3, _, a5, _⟩ := base_sel gm h hp hn (rowIs_window gm h hp kind hk hf) tail
  obtain ⟨r', b1, _, b3, _, b5, _⟩ := base_sel gm h' (hr.pos hp) hn
    (rowIs_window gm h' (hr.pos hp) kind hk hf') tail
  refine ⟨r, r', _, _, a1, b1, ?_, a5, b5, ?_⟩
  · intro i hi
    obtain ⟨row, d1, _, d2, _⟩ := a3 i hi
    obtain ⟨row', e1, _, e2, _⟩ := b3 i hi
    have hm := ult_le_ult hp hr hpos hle hi
    exact ⟨row, row', _, _, d1, e1, d2, e2, mul_le_mul_of_nonneg_right hm.1 htail.le,
      fun hlt => mul_lt_mul_of_pos_right (hm.2 hlt) htail⟩
  · exact Finset.sum_le_sum fun i hi =>
      mul_le_mul_of_nonneg_right (ult_le_ult hp hr hpos hle (Finset.mem_range.1 hi)).1 htail.le

/-- **C139, part that holds (1)**: simple and weighted averages over all or over the last `k` years, every positive tail
factor: raising latest values never lowers an ultimate or the total, and raises the ultimate of every origin whose own
latest value is raised.  Missing: medial averages, see `C139_medial_fails`. -/
theorem C139_partial (gm : List (Num K) → Num K) (h : Spec.Stair t n c) (h' : Spec.Stair t' n c')
    (hp : Spec.Positive n c) (hr : Spec.Raised n c c') (hn : 3 ≤ n) {kind : String}
    (hkind : kind = "simple" ∨ kind = "weighted") {k : ℕ} (hk : k < n - 1) {tail : K} (htail : 0 < tail) :
    Spec.NotLower gm t t' n c c' (Spec.avgName kind k) tail := by
  rcases hkind with rfl | rfl
  · have hent : ∀ {s : Tri K} {x : ℕ → ℕ → K}, Spec.Stair s n x → Spec.Positive n x → ∀ j < n - 1,
        avgEntry gm s s.a2aind0 .simple k j = .ok (.fin (Spec.mean (Spec.lastN k (Spec.ratios n x j)))) := by
      intro s x hs hx j hj
      rw [entry_simple hs hx.ne_zero (hs.indOn0 hx.ne_zero) hj, window_noexcl hx,
        simpleAvg_fin (lastN_ne_nil k (ratios_ne_nil (c := x) hj))]
    exact notLower_of gm h h' hp hr hn .simple hk (hent h hp) (hent h' (hr.pos hp))
      (fun j hj => savg_pos hp k hj) (fun j _ => savg_mono hp hr k j) htail
  · exact notLower_of gm h h' hp hr hn .weighted hk (fun j hj => entry_wavg gm h hp k hj)
      (fun j hj => entry_wavg gm h' (hr.pos hp) k hj) (fun j hj => wavg_pos hp k hj)
      (fun j hj => wavg_mono hp hr k hj) htail

end

/-- **C139, part that holds (2)**: the same for geometric averages over the real numbers. -/
theorem C139_geometric_partial {t t' : Tri ℝ} {n : ℕ} {c c' : ℕ → ℕ → ℝ} (h : Spec.Stair t n c)
    (h' : Spec.Stair t' n c') (hp : Spec.Positive n c) (hr : Spec.Raised n c c') (hn : 3 ≤ n) {k : ℕ}
    (hk : k < n - 1) {tail : ℝ} (htail : 0 < tail) :
    Spec.NotLower gmean t t' n c c' (Spec.avgName "geometric" k) tail := by
  have hent : ∀ {s : Tri ℝ} {x : ℕ → ℕ → ℝ}, Spec.Stair s n x → Spec.Positive n x → ∀ j < n - 1,
      avgEntry gmean s s.a2aind0 .geometric k j =
        .ok (.fin (Real.exp (Spec.mean ((Spec.lastN k (Spec.ratios n x j)).map Real.log)))) := by
    intro s x hs hx j hj
    have hne := lastN_ne_nil k (ratios_ne_nil (c := x) hj)
    rw [entry_geometric hs hx.ne_zero (hs.indOn0 hx.ne_zero) hj, window_noexcl hx]
    unfold geometricAvg
    rw [if_neg (by simpa using hne),
      gmean_fin (fun y hy => ratios_pos hx j y (lastN_subset _ _ y hy)) hne]
  refine notLower_of gmean h h' hp hr hn .geometric hk (hent h hp) (hent h' (hr.pos hp))
    (fun j _ => Real.exp_pos _) (fun j _ => ?_) htail
  apply Real.exp_le_exp.2
  unfold Spec.mean Spec.ratios
  rw [lastN_map, lastN_map, List.length_map, List.length_map, List.length_map, List.length_map, List.map_map,
    List.map_map]
  refine div_le_div_of_nonneg_right ?_ (Nat.cast_nonneg _)
  refine List.sum_le_sum fun i hi => ?_
  have hw := window_mem hi
  exact Real.log_le_log (div_pos (hp i (j + 1) (by omega)) (hp i j (by omega))) (ratio_mono hp hr hw)

/-- Five origins; the link ratios of the first period are 1, 2, 3 and 5/2. -/
def exMed (x : ℚ) : ℕ → ℕ → ℚ := fun i j =>
  if j = 0 then 100 else if i = 0 then 100 else if i = 1 then 200 else if i = 2 then 300 else x

theorem exMed_raised : Spec.Raised 5 (exMed 250) (exMed 300) := by
  constructor
  · intro i j hij
    unfold exMed
    by_cases h0 : j = 0
    · simp [h0]
    · rcases (show i = 0 ∨ i = 1 ∨ i = 2 by omega) with rfl | rfl | rfl <;> simp
  · intro i hi
    unfold exMed
    split_ifs <;> norm_num

/-- Ultimate of the youngest origin. -/
def youngestUlt (r : Except PyErr (BaseResult ℚ)) : Except PyErr (Option (Num ℚ)) :=
  r.map (fun r => (r.rows[4]?).map (fun row => row.ultimate))

/-- **C139 is false of the code** for medial averages: raising the latest value of the fourth origin from 250 to 300
makes its link ratio equal to the largest one; `_medial` then removes both, the average falls from 9/4 to 2 and with it
the ultimate of the youngest origin from 225 to 200. -/
theorem C139_medial_fails :
    Spec.Raised 5 (exMed 250) (exMed 300) ∧
    youngestUlt (baseCL (fun _ => .nan) (stairTri 5 (exMed 250)) (stairTri 5 (exMed 250)).a2aind0 "all-medial" 1) =
      .ok (some (.fin 225)) ∧
    youngestUlt (baseCL (fun _ => .nan) (stairTri 5 (exMed 300)) (stairTri 5 (exMed 300)).a2aind0 "all-medial" 1) =
      .ok (some (.fin 200)) := by
  refine ⟨exMed_raised, ?_, ?_⟩ <;> decide +kernel

/-- A concrete case of C138: pooled factor 350/200 between 150/100 and 200/100. -/
example : (baseCL (fun _ => .nan) (stairTri 3 (fun _ j => if j = 0 then (200 : ℚ) else 350))
    (stairTri 3 (fun _ j => if j = 0 then (200 : ℚ) else 350)).a2aind0 "weighted-1" 1).map
      (fun r => r.ldfs.map Prod.snd) = .ok [.fin (7/4), .fin 1, .fin 1] := by decide +kernel

end Trikit
