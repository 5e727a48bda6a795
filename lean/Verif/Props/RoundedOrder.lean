import Verif.Props.Rounded

/-!
# C143, C144, C145: what rounding keeps and what it does not keep
-/

set_option linter.unusedSectionVars false

namespace Trikit

variable {K : Type} [Field K] [LinearOrder K] [IsStrictOrderedRing K]
variable {t t' : Tri K} {n : ℕ} {c c' : ℕ → ℕ → K} {rd : K → K} {br : ℕ → SumTree}

/-- What is used of rounding: larger numbers never round to smaller ones, rounding twice is rounding once, whole numbers
up to `N` are not rounded and positive numbers stay positive. -/
structure Spec.MonoRd (rd : K → K) (N : ℕ) : Prop where
  mono : Monotone rd
  idem : ∀ x, rd (rd x) = rd x
  nat : ∀ m ≤ N, rd (m : K) = m
  pos : ∀ x, 0 < x → 0 < rd x

/-- Rounding to `p` binary digits is such a rounding for whole numbers up to 2ᵖ. -/
theorem floatRd_monoRd [FloorRing K] {p : ℕ} (hp : 1 ≤ p) : Spec.MonoRd (floatRd p : K → K) (2 ^ p) := by
  refine ⟨floatRd_mono hp, fun x => floatRd_fix hp (floatRd_isFloat p x), fun m hm => floatRd_fix hp (isFloat_nat hm), ?_⟩
  intro x hx
  exact rd_pos (floatRd_relErr hp) hx

theorem Spec.MonoRd.zero {N : ℕ} (h : Spec.MonoRd rd N) : rd 0 = 0 := by
  have := h.nat 0 (Nat.zero_le _)
  simpa using this

theorem Spec.MonoRd.one {N : ℕ} (h : Spec.MonoRd rd N) (hN : 1 ≤ N) : rd 1 = 1 := by
  have := h.nat 1 hN
  simpa using this

/-! ### sums -/

theorem tree_mono {N : ℕ} (h : Spec.MonoRd rd N) {a b : ℕ → K} (s : SumTree) (hab : ∀ i ∈ s.leaves, a i ≤ b i) :
    s.eval rd a ≤ s.eval rd b := by
  induction s with
  | leaf i => exact hab i (by simp [SumTree.leaves])
  | node l r ihl ihr =>
    simp only [SumTree.leaves, List.mem_append] at hab
    exact h.mono (add_le_add (ihl fun i hi => hab i (Or.inl hi)) (ihr fun i hi => hab i (Or.inr hi)))

theorem tree_pos {N : ℕ} (h : Spec.MonoRd rd N) {a : ℕ → K} (s : SumTree) (ha : ∀ i ∈ s.leaves, 0 < a i) :
    0 < s.eval rd a := by
  induction s with
  | leaf i => exact ha i (by simp [SumTree.leaves])
  | node l r ihl ihr =>
    simp only [SumTree.leaves, List.mem_append] at ha
    exact h.pos _ (add_pos (ihl fun i hi => ha i (Or.inl hi)) (ihr fun i hi => ha i (Or.inr hi)))

theorem tree_nonneg {N : ℕ} (h : Spec.MonoRd rd N) {a : ℕ → K} (s : SumTree) (ha : ∀ i ∈ s.leaves, 0 ≤ a i) :
    0 ≤ s.eval rd a := by
  induction s with
  | leaf i => exact ha i (by simp [SumTree.leaves])
  | node l r ihl ihr =>
    simp only [SumTree.leaves, List.mem_append] at ha
    rw [← h.zero]
    exact h.mono (add_nonneg (ihl fun i hi => ha i (Or.inl hi)) (ihr fun i hi => ha i (Or.inr hi)))

theorem tree_count {N : ℕ} (h : Spec.MonoRd rd N) {a : ℕ → K} (s : SumTree) (hs : s.leaves.length ≤ N)
    (ha : ∀ i ∈ s.leaves, 1 ≤ a i) : (s.leaves.length : K) ≤ s.eval rd a := by
  induction s with
  | leaf i => simpa [SumTree.leaves, SumTree.eval] using ha
  | node l r ihl ihr =>
    simp only [SumTree.leaves, List.mem_append, List.length_append, SumTree.eval] at *
    have h1 := ihl (by omega) fun i hi => ha i (Or.inl hi)
    have h2 := ihr (by omega) fun i hi => ha i (Or.inr hi)
    rw [← h.nat _ hs]
    apply h.mono
    push_cast
    exact add_le_add h1 h2

section sums
variable {ι : Type} {l : List ι}

theorem sum_leaf (hb : Spec.Bracketing br) (hl : l ≠ []) {i : ℕ} (hi : i ∈ (br l.length).leaves) : i < l.length :=
  List.mem_range.1 ((hb _ (List.length_pos_of_ne_nil hl)).subset hi)

theorem sumR_mono {N : ℕ} (h : Spec.MonoRd rd N) (hb : Spec.Bracketing br) {a b : ι → K} (hab : ∀ i ∈ l, a i ≤ b i) :
    roundedSum br rd (l.map a) ≤ roundedSum br rd (l.map b) := by
  unfold roundedSum
  by_cases e : l = []
  · rw [e]; simp
  · rw [if_neg (by simpa using e), if_neg (by simpa using e), List.length_map, List.length_map]
    apply tree_mono h
    intro i hi
    have := sum_leaf hb e hi
    simp [List.getD_eq_getElem?_getD, this, hab]

theorem sumR_pos {N : ℕ} (h : Spec.MonoRd rd N) (hb : Spec.Bracketing br) (hl : l ≠ []) {a : ι → K}
    (ha : ∀ i ∈ l, 0 < a i) : 0 < roundedSum br rd (l.map a) := by
  unfold roundedSum
  rw [if_neg (by simpa using hl), List.length_map]
  apply tree_pos h
  intro i hi
  have := sum_leaf hb hl hi
  simp [List.getD_eq_getElem?_getD, this, ha]

theorem sumR_nonneg {N : ℕ} (h : Spec.MonoRd rd N) (hb : Spec.Bracketing br) {a : ι → K} (ha : ∀ i ∈ l, 0 ≤ a i) :
    0 ≤ roundedSum br rd (l.map a) := by
  unfold roundedSum
  split
  · exact le_rfl
  · rename_i e
    have e' : l ≠ [] := by simpa using e
    rw [List.length_map]
    apply tree_nonneg h
    intro i hi
    have := sum_leaf hb e' hi
    simp [List.getD_eq_getElem?_getD, this, ha]

theorem sumR_count {N : ℕ} (h : Spec.MonoRd rd N) (hb : Spec.Bracketing br) (hl : l ≠ []) (hN : l.length ≤ N)
    {a : ι → K} (ha : ∀ i ∈ l, 1 ≤ a i) : (l.length : K) ≤ roundedSum br rd (l.map a) := by
  unfold roundedSum
  rw [if_neg (by simpa using hl), List.length_map]
  have hlen : (br l.length).leaves.length = l.length := by
    have := (hb _ (List.length_pos_of_ne_nil hl)).length_eq
    simpa using this
  have := tree_count h (a := fun i => (l.map a).getD i 0) (br l.length) (by omega) (by
    intro i hi
    have := sum_leaf hb hl hi
    simp [List.getD_eq_getElem?_getD, this, ha])
  rw [hlen] at this
  exact this

end sums

/-! ### factors -/

section factors
variable {N : ℕ}

theorem ratio_posM (h : Spec.MonoRd rd N) (hp : Spec.Positive n c) :
    ∀ i j, i + j + 1 < n → 0 < rd (rd (c i (j + 1) / c i j)) := fun i j hij =>
  h.pos _ (h.pos _ (div_pos (hp _ _ (by omega)) (hp _ _ (by omega))))

theorem sum_posM (h : Spec.MonoRd rd N) (hb : Spec.Bracketing br) (hp : Spec.Positive n c) (k j : ℕ) (hj : j < n - 1) :
    0 < roundedSum br rd ((wOrigins n k j).map (fun i => c i j)) :=
  sumR_pos h hb (wOrigins_ne_nil hj) fun i hi => hp _ _ (by have := wOrigins_lt hi; omega)

theorem avgOfR_pos (h : Spec.MonoRd rd N) (hb : Spec.Bracketing br) (hp : Spec.Positive n c) {kind : AvgKind}
    (hkind : kind = .simple ∨ kind = .weighted) (k : ℕ) {j : ℕ} (hj : j < n - 1) :
    0 < Spec.avgOfR br rd kind n k c j := by
  have hne := wOrigins_ne_nil (k := k) hj
  have hlen : (0 : K) < ((wOrigins n k j).length : K) := by exact_mod_cast List.length_pos_of_ne_nil hne
  rcases hkind with rfl | rfl
  · exact h.pos _ (div_pos (sumR_pos h hb hne fun i hi => ratio_posM h hp i j (wOrigins_lt hi)) hlen)
  · exact h.pos _ (div_pos (sumR_pos h hb hne fun i hi => hp _ _ (by have := wOrigins_lt hi; omega))
      (sum_posM h hb hp k j hj))

/-- Factors of triangles that do not decrease along the rows. -/
theorem avgOfR_one (h : Spec.MonoRd rd N) (hN : n ≤ N) (hb : Spec.Bracketing br) (hp : Spec.Positive n c)
    (hinc : ∀ i j, i + j + 1 < n → c i j ≤ c i (j + 1)) {kind : AvgKind}
    (hkind : kind = .simple ∨ kind = .weighted) (k : ℕ) {j : ℕ} (hj : j < n - 1) :
    1 ≤ Spec.avgOfR br rd kind n k c j := by
  have hne := wOrigins_ne_nil (k := k) hj
  have h1 := h.one (show 1 ≤ N by omega)
  have hm := wOrigins_length (n := n) k j
  have hlen : (0 : K) < ((wOrigins n k j).length : K) := by exact_mod_cast List.length_pos_of_ne_nil hne
  rcases hkind with rfl | rfl
  · show 1 ≤ rd _
    rw [← h1]
    apply h.mono
    rw [le_div_iff₀ hlen, one_mul]
    apply sumR_count h hb hne (by omega)
    intro i hi
    have hi := wOrigins_lt hi
    rw [← h1]
    apply h.mono
    rw [← h1]
    apply h.mono
    rw [le_div_iff₀ (hp _ _ (by omega)), one_mul]
    exact hinc i j hi
  · show 1 ≤ rd _
    rw [← h1]
    apply h.mono
    rw [le_div_iff₀ (sum_posM h hb hp k j hj), one_mul]
    apply sumR_mono h hb
    intro i hi
    exact hinc i j (wOrigins_lt hi)

theorem avgOfR_raised (h : Spec.MonoRd rd N) (hb : Spec.Bracketing br) (hp : Spec.Positive n c)
    (hr : Spec.Raised n c c') {kind : AvgKind} (hkind : kind = .simple ∨ kind = .weighted) (k : ℕ) {j : ℕ}
    (hj : j < n - 1) : Spec.avgOfR br rd kind n k c j ≤ Spec.avgOfR br rd kind n k c' j := by
  rcases hkind with rfl | rfl
  · apply h.mono
    refine div_le_div_of_nonneg_right ?_ (Nat.cast_nonneg _)
    apply sumR_mono h hb
    intro i hi
    exact h.mono (h.mono (ratio_mono hp hr (wOrigins_lt hi)))
  · apply h.mono
    have hden : (wOrigins n k j).map (fun i => c' i j) = (wOrigins n k j).map (fun i => c i j) :=
      List.map_congr_left fun i hi => hr.same i j (wOrigins_lt hi)
    rw [hden]
    refine div_le_div_of_nonneg_right ?_ (sum_posM h hb hp k j hj).le
    apply sumR_mono h hb
    intro i hi
    exact hr.le (by have := wOrigins_lt hi; omega)

/-- Cumulative factors. -/
theorem tailProdR_one (h : Spec.MonoRd rd N) (hN : 1 ≤ N) {f : ℕ → K} (hf : ∀ j < n, 1 ≤ f j) :
    ∀ d, d < n → 1 ≤ Spec.tailProdR rd f n (n - 1 - d) := by
  intro d
  induction d with
  | zero => intro hd; rw [Nat.sub_zero, tailProdR_last rd f hd]; exact hf _ (by omega)
  | succ d ih =>
    intro hd
    have h1 := ih (by omega)
    rw [tailProdR_succ rd f (by omega), show n - 1 - (d + 1) + 1 = n - 1 - d by omega, ← h.one hN]
    apply h.mono
    have h2 := hf (n - 1 - (d + 1)) (by omega)
    nlinarith

theorem tailProdR_mono (h : Spec.MonoRd rd N) {f f' : ℕ → K} (hf : ∀ j < n, 0 < f j) (hff : ∀ j < n, f j ≤ f' j) :
    ∀ d, d < n → 0 < Spec.tailProdR rd f n (n - 1 - d) ∧
      Spec.tailProdR rd f n (n - 1 - d) ≤ Spec.tailProdR rd f' n (n - 1 - d) := by
  intro d
  induction d with
  | zero =>
    intro hd
    rw [Nat.sub_zero, tailProdR_last rd f hd, tailProdR_last rd f' hd]
    exact ⟨hf _ (by omega), hff _ (by omega)⟩
  | succ d ih =>
    intro hd
    obtain ⟨h1, h2⟩ := ih (by omega)
    rw [tailProdR_succ rd f (by omega), tailProdR_succ rd f' (by omega),
      show n - 1 - (d + 1) + 1 = n - 1 - d by omega]
    have h3 := hf (n - 1 - (d + 1)) (by omega)
    exact ⟨h.pos _ (mul_pos h1 h3), h.mono (mul_le_mul h2 (hff _ (by omega)) h3.le (h1.le.trans h2))⟩

end factors

/-! ### cumulative factors and projections -/

section results
variable {N : ℕ}

theorem zip_fst_snd {α β : Type} (l : List (α × β)) : (l.map Prod.fst).zip (l.map Prod.snd) = l := by
  induction l with
  | nil => rfl
  | cons x l ih => simp [ih]

/-- All factors are numbers of the format. -/
theorem withTail_fix (h : Spec.MonoRd rd N) {kind : AvgKind} (hkind : kind = .simple ∨ kind = .weighted) (k : ℕ) {tail : K}
    (ht : rd tail = tail) (j : ℕ) :
    rd (Spec.withTail (Spec.avgOfR br rd kind n k c) n tail j) =
      Spec.withTail (Spec.avgOfR br rd kind n k c) n tail j := by
  unfold Spec.withTail
  split
  · rcases hkind with rfl | rfl <;> exact h.idem _
  · exact ht

theorem withTail_one (h : Spec.MonoRd rd N) (hN : n ≤ N) (hb : Spec.Bracketing br) (hp : Spec.Positive n c)
    (hinc : ∀ i j, i + j + 1 < n → c i j ≤ c i (j + 1)) {kind : AvgKind}
    (hkind : kind = .simple ∨ kind = .weighted) (k : ℕ) {tail : K} (ht : 1 ≤ tail) (j : ℕ) :
    1 ≤ Spec.withTail (Spec.avgOfR br rd kind n k c) n tail j := by
  unfold Spec.withTail
  split
  · exact avgOfR_one h hN hb hp hinc hkind k (by omega)
  · exact ht

theorem tailProdR_fix (h : Spec.MonoRd rd N) {f : ℕ → K} (hf : ∀ j, rd (f j) = f j) {j : ℕ} (hj : j < n) :
    rd (Spec.tailProdR rd f n j) = Spec.tailProdR rd f n j := by
  by_cases e : j + 1 < n
  · rw [tailProdR_succ rd f e]; exact h.idem _
  · rw [show j = n - 1 by omega, tailProdR_last rd f (by omega)]; exact hf _

/-- Cumulative factors do not increase from period to period. -/
theorem tailProdR_anti (h : Spec.MonoRd rd N) (hN : 1 ≤ N) {f : ℕ → K} (hf : ∀ j, rd (f j) = f j)
    (h1 : ∀ j < n, 1 ≤ f j) {j : ℕ} (hj : j + 1 < n) :
    Spec.tailProdR rd f n (j + 1) ≤ Spec.tailProdR rd f n j := by
  have h2 := tailProdR_one h hN h1 (n - 1 - (j + 1)) (by omega)
  rw [show n - 1 - (n - 1 - (j + 1)) = j + 1 by omega] at h2
  rw [tailProdR_succ rd f hj, ← tailProdR_fix h hf hj]
  apply h.mono
  rw [tailProdR_fix h hf hj]
  have := h1 j (by omega)
  nlinarith

theorem projR_fix (h : Spec.MonoRd rd N) {a : K} (ha : rd a = a) (f : ℕ → K) (j s : ℕ) :
    rd (Spec.projR rd a f j s) = Spec.projR rd a f j s := by
  cases s with
  | zero => exact ha
  | succ s => exact h.idem _

theorem projR_pos (h : Spec.MonoRd rd N) {a : K} (ha : 0 < a) {f : ℕ → K} (hf : ∀ j, 0 < f j) (j s : ℕ) :
    0 < Spec.projR rd a f j s := by
  induction s with
  | zero => exact ha
  | succ s ih => exact h.pos _ (mul_pos ih (hf _))

theorem projR_le (h : Spec.MonoRd rd N) {a : K} (ha : rd a = a) (ha' : 0 < a) {f : ℕ → K} (hf : ∀ j, 1 ≤ f j)
    (j s : ℕ) : Spec.projR rd a f j s ≤ Spec.projR rd a f j (s + 1) := by
  rw [← projR_fix h ha f j s, Spec.projR]
  apply h.mono
  exact le_mul_of_one_le_right (projR_pos h ha' (fun j => lt_of_lt_of_le one_pos (hf j)) j s).le (hf _)

/-- Results `r` of the rounded estimator that keep the order of the exact ones. -/
structure Spec.InOrder (n : ℕ) (c : ℕ → ℕ → K) (tail : K) (r : BaseResult K) : Prop where
  factors : ∀ j < n, ∃ f : K, (r.ldfs.map Prod.snd)[j]? = some (.fin f) ∧ 1 ≤ f
  cumulative : ∀ j < n, ∃ g : K, (r.cldfs.map Prod.snd)[j]? = some (.fin g) ∧ 1 ≤ g ∧
    (j + 1 < n → ∃ g' : K, (r.cldfs.map Prod.snd)[j + 1]? = some (.fin g') ∧ g' ≤ g)
  rows : ∀ i < n, ∃ (row : SummRow K) (L U R E : K), r.rows[i]? = some row ∧ row.latest = .fin L ∧
    row.ultimate = .fin U ∧ row.reserve = .fin R ∧ row.emergence = .fin E ∧ L = c i (n - 1 - i) ∧ L ≤ U ∧ 0 ≤ R ∧
    (R = 0 ↔ U = L) ∧ 0 < E ∧ E ≤ 1
  totals : ∃ L U R : K, r.totLatest = .fin L ∧ r.totUltimate = .fin U ∧ r.totReserve = .fin R ∧ 0 < L ∧ L ≤ U ∧ 0 ≤ R
  squared : ∀ i < n, ∃ (g : ℕ → K) (u : K), (∀ j < n, r.sqr.tri.cell i j = .fin (g j)) ∧
    (∀ j, i + j < n → g j = c i j) ∧ (∀ j, j + 1 < n → g j ≤ g (j + 1)) ∧
    r.sqr.ultimate[i]? = some (.fin u) ∧ g (n - 1) ≤ u
  oldest : tail = 1 → ∃ row : SummRow K, r.rows[0]? = some row ∧ row.ultimate = .fin (c 0 (n - 1)) ∧
    row.reserve = .fin 0 ∧ row.emergence = .fin 1

/-- Order facts from factors that are numbers of the format and at least one. -/
theorem inOrder_core (h : Spec.Stair t n c) (hp : Spec.Positive n c) (hn : 1 ≤ n) (hm : Spec.MonoRd rd N) (hN : n ≤ N)
    (hb : Spec.Bracketing br) (hfix : ∀ i j, i + j < n → rd (c i j) = c i j)
    (hinc : ∀ i j, i + j + 1 < n → c i j ≤ c i (j + 1)) {f : ℕ → K} {tail : K} {r : BaseResult K}
    (h1f : ∀ j, 1 ≤ f j) (hff : ∀ j, rd (f j) = f j) (hft : f (n - 1) = tail)
    (hlab : r.ldfs.map Prod.fst = t.devs) (hvals : LdfVals r.ldfs n f) (hs : Spec.BaseSpecR br rd t n c f r.ldfs r) :
    Spec.InOrder n c tail r := by
  have hone := hm.one (show 1 ≤ N by omega)
  have hg : ∀ j < n, 1 ≤ Spec.tailProdR rd f n j := by
    intro j hj
    have := tailProdR_one hm (show 1 ≤ N by omega) (n := n) (fun j _ => h1f j) (n - 1 - j) (by omega)
    rwa [show n - 1 - (n - 1 - j) = j by omega] at this
  have hU : ∀ i < n, c i (n - 1 - i) ≤ rd (c i (n - 1 - i) * Spec.tailProdR rd f n (n - 1 - i)) := by
    intro i hi
    rw [← hfix i (n - 1 - i) (by omega)]
    apply hm.mono
    rw [hfix i (n - 1 - i) (by omega)]
    exact le_mul_of_one_le_right (hp _ _ (by omega)).le (hg _ (by omega))
  have hR : ∀ i < n, 0 ≤ rd (rd (c i (n - 1 - i) * Spec.tailProdR rd f n (n - 1 - i)) - c i (n - 1 - i)) := by
    intro i hi
    rw [← hm.zero]
    exact hm.mono (sub_nonneg.2 (hU i hi))
  have hget : ∀ j < n, Ser.get r.cldfs (t.dAt j) = .fin (Spec.tailProdR rd f n j) := by
    intro j hj
    rw [← zip_fst_snd r.cldfs]
    apply Ser.get_zip (by rw [hs.cldfs_labels, hlab]; exact h.devs.nodup)
    · rw [hs.cldfs_labels, hlab]; exact h.dAt_get hj
    · rw [hs.cldfs_values]; simp [hj]
  have hE : ∀ i < n, (1 / Ser.get r.cldfs (t.dAt (n - 1 - i))).rounded rd =
      .fin (rd (1 / Spec.tailProdR rd f n (n - 1 - i))) := by
    intro i hi
    have hne : Spec.tailProdR rd f n (n - 1 - i) ≠ 0 := (lt_of_lt_of_le one_pos (hg _ (by omega))).ne'
    rw [hget _ (by omega)]
    show ((Num.fin 1 : Num K) / _).rounded rd = _
    rw [Num.fin_div _ _ hne]
    rfl
  refine ⟨?_, ?_, ?_, ?_, ?_, ?_⟩
  · intro j hj
    exact ⟨f j, by rw [hvals]; simp [hj], h1f j⟩
  · intro j hj
    refine ⟨_, by rw [hs.cldfs_values]; simp [hj], hg j hj, fun hj' => ?_⟩
    exact ⟨_, by rw [hs.cldfs_values]; simp [hj'],
      tailProdR_anti hm (by omega) hff (fun j _ => h1f j) hj'⟩
  · intro i hi
    obtain ⟨row, r1, r2, r3, r4, r5, r6, r7, r8⟩ := hs.rows i hi
    rw [r4, hE i hi] at r5
    refine ⟨row, _, _, _, _, r1, r6, r7, r8, r5, rfl, hU i hi, hR i hi, ⟨fun e => ?_, fun e => ?_⟩, ?_, ?_⟩
    · by_contra hne
      have := hm.pos _ (sub_pos.2 (lt_of_le_of_ne (hU i hi) (Ne.symm hne)))
      exact this.ne' e
    · rw [e, sub_self, hm.zero]
    · exact hm.pos _ (div_pos one_pos (lt_of_lt_of_le one_pos (hg _ (by omega))))
    · conv_rhs => rw [← hone]
      apply hm.mono
      rw [div_le_one (lt_of_lt_of_le one_pos (hg _ (by omega)))]
      exact hg _ (by omega)
  · refine ⟨_, _, _, hs.totLatest, hs.totUltimate, hs.totReserve, ?_, ?_, ?_⟩
    · apply sumR_pos hm hb (by simp; omega)
      intro i hi
      exact hp _ _ (by have := List.mem_range.1 hi; omega)
    · exact sumR_mono hm hb fun i hi => hU i (List.mem_range.1 hi)
    · exact sumR_nonneg hm hb fun i hi => hR i (List.mem_range.1 hi)
  · intro i hi
    refine ⟨_, _, hs.sqr_cells i hi, ?_, ?_, by rw [hs.sqr_ultimate]; simp [hi]; rfl, ?_⟩
    · intro j hj; rw [if_pos hj]
    · intro j hj
      have ha := hfix i (n - 1 - i) (by omega)
      have ha' := hp i (n - 1 - i) (by omega)
      by_cases e1 : i + (j + 1) < n
      · rw [if_pos e1, if_pos (by omega)]; exact hinc i j (by omega)
      · rw [if_neg e1]
        by_cases e2 : i + j < n
        · rw [if_pos e2, show j + 1 - (n - 1 - i) = 0 + 1 by omega, show j = n - 1 - i by omega]
          exact projR_le hm ha ha' h1f _ 0
        · rw [if_neg e2, show j + 1 - (n - 1 - i) = (j - (n - 1 - i)) + 1 by omega]
          exact projR_le hm ha ha' h1f _ _
    · have ha := hfix i (n - 1 - i) (by omega)
      have ha' := hp i (n - 1 - i) (by omega)
      by_cases e2 : i + (n - 1) < n
      · have : i = 0 := by omega
        subst this
        rw [if_pos e2]
        exact projR_le hm ha ha' h1f _ 0
      · rw [if_neg e2, show n - 1 - (n - 1 - i) = i by omega]
        exact projR_le hm ha ha' h1f _ _
  · intro e
    obtain ⟨row, r1, r2, r3, r4, r5, r6, r7, r8⟩ := hs.rows 0 (by omega)
    have hlast : Spec.tailProdR rd f n (n - 1 - 0) = 1 := by
      rw [Nat.sub_zero, tailProdR_last rd f (by omega), hft, e]
    rw [r4, hE 0 (by omega)] at r5
    rw [hlast, mul_one, hfix _ _ (by omega)] at r7 r8
    rw [hlast, div_one, hone] at r5
    rw [sub_self, hm.zero] at r8
    exact ⟨row, r1, r7, r8, r5⟩

/-- **C143.** Order facts that survive rounding.  Positive staircase of `3 ≤ n ≤ N` periods with evenly spaced labels
whose amounts are numbers of the format and do not decrease along the rows, tail factor at least one: in rounded
arithmetic, whatever the order of the additions, factors and cumulative factors are at least 1 and cumulative factors do not
increase, no ultimate is below its latest amount, no reserve is negative, a reserve is 0 exactly when ultimate and latest
amount agree, the emergence lies in (0, 1], totals are ordered in the same way, the squared triangle does not decrease
along its rows, and without tail the oldest origin is exactly at its ultimate. -/
theorem C143_order (gm : List (Num K) → Num K) (h : Spec.Stair t n c) (hp : Spec.Positive n c) (hn : 3 ≤ n)
    (he : Spec.EvenlySpaced t.devs) (hm : Spec.MonoRd rd N) (hN : n ≤ N) (hb : Spec.Bracketing br)
    (hfix : ∀ i j, i + j < n → rd (c i j) = c i j) (hinc : ∀ i j, i + j + 1 < n → c i j ≤ c i (j + 1))
    {kind : AvgKind} (hkind : kind = .simple ∨ kind = .weighted) {k : ℕ} (hk : k < n - 1) {tail : K}
    (htail : 1 ≤ tail) (htfix : rd tail = tail) :
    ∃ r, baseCLR br rd gm t t.a2aind0 (Spec.avgName kind.name k) (.fin tail) = .ok r ∧ Spec.InOrder n c tail r := by
  obtain ⟨r, lab, hr, hl, hlab, hvals, hs⟩ := baseCLR_stair gm h hp hn (ratio_posM hm hp)
    (sum_posM hm hb hp) hkind hk tail
  obtain ⟨_, hdevs⟩ := even_tailLabel h hn he hl
  rw [hdevs] at hlab
  have h1f := withTail_one hm hN hb hp hinc hkind k htail
  have hff := withTail_fix (n := n) (c := c) (br := br) hm hkind k htfix
  have hft : Spec.withTail (Spec.avgOfR br rd kind n k c) n tail (n - 1) = tail := by
    unfold Spec.withTail; rw [if_neg (by omega)]
  exact ⟨r, hr, inOrder_core h hp (by omega) hm hN hb hfix hinc h1f hff hft hlab hvals hs⟩

/-- **C143** in double precision. -/
theorem C143_float64 [FloorRing K] (gm : List (Num K) → Num K) (h : Spec.Stair t n c) (hp : Spec.Positive n c) (hn : 3 ≤ n)
    (he : Spec.EvenlySpaced t.devs) (hN : n ≤ 2 ^ 53) (hb : Spec.Bracketing br)
    (hfix : ∀ i j, i + j < n → Spec.IsFloat 53 (c i j)) (hinc : ∀ i j, i + j + 1 < n → c i j ≤ c i (j + 1))
    {kind : AvgKind} (hkind : kind = .simple ∨ kind = .weighted) {k : ℕ} (hk : k < n - 1) {tail : K}
    (htail : 1 ≤ tail) (htfix : Spec.IsFloat 53 tail) :
    ∃ r, baseCLR br (floatRd 53) gm t t.a2aind0 (Spec.avgName kind.name k) (.fin tail) = .ok r ∧
      Spec.InOrder n c tail r :=
  C143_order gm h hp hn he (floatRd_monoRd (by norm_num)) hN hb (fun i j hij => floatRd_fix (by norm_num) (hfix i j hij))
    hinc hkind hk htail (floatRd_fix (by norm_num) htfix)

/-- **C144.** Higher latest values never lower a factor, an ultimate or the total in rounded arithmetic either. -/
theorem C144_raised (gm gm' : List (Num K) → Num K) (h : Spec.Stair t n c) (h' : Spec.Stair t' n c')
    (hp : Spec.Positive n c) (hr : Spec.Raised n c c') (hn : 3 ≤ n) (hm : Spec.MonoRd rd N)
    (hb : Spec.Bracketing br) {kind : AvgKind} (hkind : kind = .simple ∨ kind = .weighted) {k : ℕ} (hk : k < n - 1)
    {tail : K} (htail : 0 < tail) :
    ∃ r r', baseCLR br rd gm t t.a2aind0 (Spec.avgName kind.name k) (.fin tail) = .ok r ∧
      baseCLR br rd gm' t' t'.a2aind0 (Spec.avgName kind.name k) (.fin tail) = .ok r' ∧
      (∀ j < n, ∃ f f' : K, (r.ldfs.map Prod.snd)[j]? = some (.fin f) ∧ (r'.ldfs.map Prod.snd)[j]? = some (.fin f') ∧
        0 < f ∧ f ≤ f') ∧
      (∀ i < n, ∃ (row row' : SummRow K) (U U' : K), r.rows[i]? = some row ∧ r'.rows[i]? = some row' ∧
        row.ultimate = .fin U ∧ row'.ultimate = .fin U' ∧ 0 < U ∧ U ≤ U') ∧
      ∃ L L' U U' : K, r.totLatest = .fin L ∧ r'.totLatest = .fin L' ∧ r.totUltimate = .fin U ∧
        r'.totUltimate = .fin U' ∧ L ≤ L' ∧ U ≤ U' := by
  have hp' := hr.pos hp
  obtain ⟨r, _, a1, _, _, a4, as⟩ := baseCLR_stair gm h hp hn (ratio_posM hm hp) (sum_posM hm hb hp) hkind hk tail
  obtain ⟨r', _, b1, _, _, b4, bs⟩ := baseCLR_stair gm' h' hp' hn (ratio_posM hm hp') (sum_posM hm hb hp') hkind hk tail
  have hf0 : ∀ j < n, 0 < Spec.withTail (Spec.avgOfR br rd kind n k c) n tail j := by
    intro j hj
    unfold Spec.withTail
    split
    · exact avgOfR_pos hm hb hp hkind k (by omega)
    · exact htail
  have hle : ∀ j < n, Spec.withTail (Spec.avgOfR br rd kind n k c) n tail j ≤
      Spec.withTail (Spec.avgOfR br rd kind n k c') n tail j := by
    intro j hj
    unfold Spec.withTail
    split
    · exact avgOfR_raised hm hb hp hr hkind k (by omega)
    · exact le_rfl
  generalize Spec.withTail (Spec.avgOfR br rd kind n k c) n tail = f at *
  generalize Spec.withTail (Spec.avgOfR br rd kind n k c') n tail = f' at *
  have hU : ∀ i < n, 0 < rd (c i (n - 1 - i) * Spec.tailProdR rd f n (n - 1 - i)) ∧
      rd (c i (n - 1 - i) * Spec.tailProdR rd f n (n - 1 - i)) ≤
        rd (c' i (n - 1 - i) * Spec.tailProdR rd f' n (n - 1 - i)) := by
    intro i hi
    obtain ⟨h1, h2⟩ := tailProdR_mono hm hf0 hle i hi
    have h3 := hp i (n - 1 - i) (by omega)
    have h4 := hr.up i hi
    exact ⟨hm.pos _ (mul_pos h3 h1), hm.mono (mul_le_mul h4 h2 h1.le (h3.le.trans h4))⟩
  refine ⟨r, r', a1, b1, ?_, ?_, _, _, _, _, as.totLatest, bs.totLatest, as.totUltimate, bs.totUltimate, ?_, ?_⟩
  · intro j hj
    exact ⟨f j, f' j, by rw [a4]; simp [hj], by rw [b4]; simp [hj], hf0 j hj, hle j hj⟩
  · intro i hi
    obtain ⟨row, d1, _, _, _, _, _, d7, _⟩ := as.rows i hi
    obtain ⟨row', e1, _, _, _, _, _, e7, _⟩ := bs.rows i hi
    exact ⟨row, row', _, _, d1, e1, d7, e7, (hU i hi).1, (hU i hi).2⟩
  · exact sumR_mono hm hb fun i hi => hr.up i (List.mem_range.1 hi)
  · exact sumR_mono hm hb fun i hi => (hU i (List.mem_range.1 hi)).2

/-- **C145, partial.** In double precision the last column of the squared triangle agrees with the ultimates of the summary
up to `4(i² + 3i + 1)·2⁻⁵³` of the exact ultimate; exactly for the oldest origin, and without tail for the second
oldest.  Missing: equality for all origins, which the code does not have, see `C145_fails`. -/
theorem C145_partial [FloorRing K] (gm : List (Num K) → Num K) (h : Spec.Stair t n c) (hp : Spec.Positive n c)
    (hn : 3 ≤ n) (hn' : n ≤ 2 ^ 25) (hb : Spec.Bracketing br) {kind : AvgKind}
    (hkind : kind = .simple ∨ kind = .weighted) {k : ℕ} (hk : k < n - 1) {tail : K} (htail : 0 < tail) :
    ∃ r r', baseCL gm t t.a2aind0 (Spec.avgName kind.name k) (.fin tail) = .ok r ∧
      baseCLR br (floatRd 53) gm t t.a2aind0 (Spec.avgName kind.name k) (.fin tail) = .ok r' ∧
      ∀ i < n, ∃ (row row' : SummRow K) (U U' S' : K), r.rows[i]? = some row ∧ r'.rows[i]? = some row' ∧
        row.ultimate = .fin U ∧ row'.ultimate = .fin U' ∧ r'.sqr.ultimate[i]? = some (.fin S') ∧
        |S' - U'| ≤ 4 * ((i : K) ^ 2 + 3 * i + 1) * 2 ^ (-53 : ℤ) * U ∧ (i = 0 → S' = U') ∧
        (i = 1 → tail = 1 → S' = U') := by
  obtain ⟨r, r', h1, h2, h3, h4, h5, _⟩ := C142_float64 gm gm h hp hn hn' hb hkind hk htail
  have hm : Spec.MonoRd (floatRd 53 : K → K) (2 ^ 53) := floatRd_monoRd (by norm_num)
  obtain ⟨s, _, a1, _, _, a4, as⟩ := baseCLR_stair gm h hp hn (ratio_posM hm hp) (sum_posM hm hb hp) hkind hk tail
  have hrs : s = r' := by rw [a1] at h2; exact Except.ok.inj h2
  subst hrs
  refine ⟨r, s, h1, h2, fun i hi => ?_⟩
  obtain ⟨row, row', L, U, U', R, R', S', b1, b2, _, _, _, _, b3, b4, _, _, b5, _, b6, b7, _⟩ := h5 i hi
  refine ⟨row, row', U, U', S', b1, b2, b3, b4, b5, ?_, ?_, ?_⟩
  · have : |S' - U'| ≤ |S' - U| + |U' - U| := by
      have := abs_sub (S' - U) (U' - U)
      simpa using this
    linarith
  all_goals
    obtain ⟨row2, d1, _, _, _, _, _, d7, _⟩ := as.rows i hi
    have e1 : row2 = row' := Option.some.inj (d1.symm.trans b2)
    rw [e1, b4] at d7
    have e2 := Num.fin.inj d7
    rw [as.sqr_ultimate] at b5
    simp only [List.getElem?_map, List.getElem?_range hi, Option.map_some, Option.some.injEq, Num.fin.injEq] at b5
    rw [e2, ← b5]
  · rintro rfl
    rw [Nat.sub_zero, tailProdR_last _ _ (by omega)]
    rfl
  · rintro rfl ht
    have hft : Spec.withTail (Spec.avgOfR br (floatRd 53) kind n k c) n tail (n - 1) = 1 := by
      unfold Spec.withTail; rw [if_neg (by omega), ht]
    have hff := withTail_fix (n := n) (c := c) (br := br) hm hkind k (tail := tail)
      (by rw [ht]; exact hm.one (by norm_num))
    generalize Spec.withTail (Spec.avgOfR br (floatRd 53) kind n k c) n tail = f at *
    rw [tailProdR_succ _ _ (by omega), show n - 1 - 1 + 1 = n - 1 by omega, tailProdR_last _ _ (by omega), hft, one_mul,
      hff]
    show floatRd 53 (floatRd 53 (c 1 (n - 1 - 1) * f (n - 1 - 1 + 0)) * f (n - 1 - 1 + 1)) = _
    rw [show n - 1 - 1 + 1 = n - 1 by omega, hft, mul_one, hm.idem]
    rfl

end results

/-- **C145 fails**: in double precision with sums from left to right the last column of the squared triangle is not the
list of ultimates of the summary. -/
theorem C145_fails :
    (baseCLR (fun n => seqTree (n - 1)) (floatRd 53) (fun _ => .nan) exTri exTri.a2aind0 "all-weighted"
      (.fin 1)).map (fun r => r.rows.map (fun x => x.ultimate)) ≠
    (baseCLR (fun n => seqTree (n - 1)) (floatRd 53) (fun _ => .nan) exTri exTri.a2aind0 "all-weighted"
      (.fin 1)).map (fun r => r.sqr.ultimate) := by
  decide +kernel

/-- The example triangle in double precision: reserves of the four origins, zero for the oldest. -/
example : (baseCLR (fun n => seqTree (n - 1)) (floatRd 53) (fun _ => .nan) exTri exTri.a2aind0 "all-weighted"
    (.fin 1)).map (fun r => r.rows.map (fun x => decide (x.reserve = .fin 0))) = .ok [true, false, false, false] := by
  decide +kernel

/-- With five binary digits a higher latest value of origin 1 (230 instead of 220) raises the ultimates of three
origins (248, 232 and 256 before). -/
example : (baseCLR (fun n => seqTree (n - 1)) (floatRd 5) (fun _ => .nan) (stairTri 4 exRaised)
    (stairTri 4 exRaised).a2aind0 "all-weighted" (.fin 1)).map (fun r => r.rows.map (fun x => x.ultimate)) =
    .ok [.fin 200, .fin 256, .fin 256, .fin 288] := by
  decide +kernel

end Trikit
