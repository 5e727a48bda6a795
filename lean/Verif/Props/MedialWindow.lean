import Verif.Props.ExcludeMedial
import Verif.Props.WindowUpdate

/-!
# C236: longer windows of medial averages after development as expected

`base_cl` (base.py:25-170) with the medial average of the last `k ≥ 4` years (`a2a_avgs`, `_medial`, triangle.py:523-574 and 777-856) at two
evaluations, the second one period later.
-/

set_option linter.unusedSectionVars false

namespace Trikit

section
variable {K : Type} [Field K] [LinearOrder K] [IsStrictOrderedRing K]

theorem Ends.med_between {L : List K} {lo hi : K} (h : Ends L lo hi) (hd : L.Nodup) (hm3 : 3 ≤ L.length) :
    lo < Spec.medialOf L ∧ Spec.medialOf L < hi := by
  have hm3K : (3 : K) ≤ L.length := by exact_mod_cast hm3
  have hlt := h.ne hd (by omega)
  obtain ⟨hms, hml⟩ := h.mid hlt
  have hmlK : (((L.erase lo).erase hi).length : K) = (L.length : K) - 2 := by rw [← hml]; push_cast; ring
  have hmne : (L.erase lo).erase hi ≠ [] := fun e => by rw [e] at hml; simp at hml; omega
  have hmem : ∀ y ∈ (L.erase lo).erase hi, lo < y ∧ y < hi := fun y hy => by
    have a := (hd.erase lo).mem_erase_iff.1 hy
    have b := hd.mem_erase_iff.1 a.2
    exact ⟨lt_of_le_of_ne (h.lo_le y b.2) (Ne.symm b.1), lt_of_le_of_ne (h.le_hi y b.2) a.1⟩
  have hv := h.value hd hm3
  have hD : (0 : K) < (L.length : K) - 2 := by linarith
  have hup := list_sum_lt hmne fun y hy => (hmem y hy).2
  have hdn := list_lt_sum hmne fun y hy => (hmem y hy).1
  rw [hms, hmlK] at hup hdn
  exact ⟨by rw [hv, lt_div_iff₀ hD]; linarith, by rw [hv, div_lt_iff₀ hD]; linarith⟩

/-- The medial average of four or more different numbers lies strictly between the others when one is taken out. -/
theorem medial_straddle {L : List K} (hd : L.Nodup) {x : K} (hx : x ∈ L) (h4 : 4 ≤ L.length) {lo' hi' : K}
    (g : Ends (L.erase x) lo' hi') : lo' < Spec.medialOf L ∧ Spec.medialOf L < hi' := by
  have hd' := hd.erase x
  have hs' := erase_sum hx
  have hl' := erase_len hx
  have h4K : (4 : K) ≤ L.length := by exact_mod_cast h4
  have hD : (0 : K) < (L.length : K) - 2 := by linarith
  obtain ⟨lo, hi, h⟩ := exists_ends (List.ne_nil_of_mem hx)
  have hlt := h.ne hd (by omega)
  have hv := h.value hd (by omega)
  obtain ⟨m1, m2⟩ := h.med_between hd (by omega)
  have glt := g.ne hd' (by omega)
  obtain ⟨q1, q2⟩ := g.mid glt
  have q2K : ((((L.erase x).erase lo').erase hi').length : K) = (L.length : K) - 3 := by
    have : (((L.erase x).erase lo').erase hi').length + 3 = L.length := by omega
    rw [← this]; push_cast; ring
  have qne : ((L.erase x).erase lo').erase hi' ≠ [] := fun e => by rw [e] at q2; simp at q2; omega
  constructor
  · by_cases e : x = lo
    · have hhi : hi' = hi := le_antisymm (h.le_hi _ (List.mem_of_mem_erase g.hi_mem))
        (g.le_hi _ ((List.mem_erase_of_ne (by rw [e]; exact hlt.ne')).2 h.hi_mem))
      have r1 := list_lt_sum (b := lo') qne fun y hy => by
        have a := (hd'.erase lo').mem_erase_iff.1 hy
        have b := hd'.mem_erase_iff.1 a.2
        exact lt_of_le_of_ne (g.lo_le y b.2) (Ne.symm b.1)
      rw [q1, q2K, hs', hhi, e] at r1
      rw [hv, lt_div_iff₀ hD]; linarith
    · exact (g.lo_le lo ((List.mem_erase_of_ne (Ne.symm e)).2 h.lo_mem)).trans_lt m1
  · by_cases e : x = hi
    · have hlo : lo' = lo := le_antisymm (g.lo_le _ ((List.mem_erase_of_ne (by rw [e]; exact hlt.ne)).2 h.lo_mem))
        (h.lo_le _ (List.mem_of_mem_erase g.lo_mem))
      have r1 := list_sum_lt (b := hi') qne fun y hy => by
        have a := (hd'.erase lo').mem_erase_iff.1 hy
        exact lt_of_le_of_ne (g.le_hi y (List.mem_of_mem_erase a.2)) a.1
      rw [q1, q2K, hs', hlo, e] at r1
      rw [hv, div_lt_iff₀ hD]; linarith
    · exact m2.trans_le (g.le_hi hi ((List.mem_erase_of_ne (Ne.symm e)).2 h.hi_mem))

/-- The medial average of at least three different numbers and one more that is strictly between them. -/
theorem medial_join {m : List K} (hd : m.Nodup) (h3 : 3 ≤ m.length) {lo hi f : K} (g : Ends m lo hi) (h1 : lo < f) (h2 : f < hi) :
    medialAvg ((m ++ [f]).map Num.fin) =
      .ok (.fin ((((m.length : K) - 2) * Spec.medialOf m + f) / ((m.length : K) - 1))) := by
  have hlt := g.ne hd (by omega)
  have h3K : (3 : K) ≤ m.length := by exact_mod_cast h3
  have hf : (m ++ [f]).filter (fun x => decide (x ≠ lo ∧ x ≠ hi)) = (m.erase lo).erase hi ++ [f] := by
    rw [List.filter_append, (hd.erase lo).erase_eq_filter, hd.erase_eq_filter, List.filter_filter]
    congr 1
    · refine List.filter_congr fun x _ => ?_
      rw [Bool.eq_iff_iff]
      simp only [decide_eq_true_eq, Bool.and_eq_true, bne_iff_ne]
      rw [and_comm]
    · simp [h1.ne', h2.ne]
  rw [medialAvg_spec (lo := lo) (hi := hi) (List.mem_append_left _ g.lo_mem)
    (fun x hx => by
      rcases List.mem_append.1 hx with hx | hx
      · exact g.lo_le x hx
      · rw [List.mem_singleton.1 hx]; exact h1.le)
    (List.mem_append_left _ g.hi_mem)
    (fun x hx => by
      rcases List.mem_append.1 hx with hx | hx
      · exact g.le_hi x hx
      · rw [List.mem_singleton.1 hx]; exact h2.le),
    if_neg hlt.ne, if_neg (by rw [List.length_append, List.length_singleton]; omega), hf, if_neg (by simp), g.value hd h3]
  obtain ⟨q1, q2⟩ := g.mid hlt
  have q2K : (((m.erase lo).erase hi).length : K) = (m.length : K) - 2 := by rw [← q2]; push_cast; ring
  congr 2
  unfold Spec.mean
  rw [List.sum_append, List.sum_singleton, List.length_append, List.length_singleton, q1]
  push_cast
  rw [q2K, mul_div_cancel₀ _ (by linarith : (m.length : K) - 2 ≠ 0)]
  congr 1
  ring

end

section
variable {t t' : Tri ℝ} {n : ℕ} {c c' : ℕ → ℕ → ℝ} {f : ℕ → ℝ} {tail : ℝ}

/-- **C236.** For every positive staircase, `base_cl` with the medial average of the last `k ≥ 4` years and every positive tail: let
every origin develop with the factors of the last estimate, and let the last `k` link ratios of period `j` differ.  Then its factor
at the next evaluation is the average of the old factor, with weight 1, and of the medial average of the ratios that stay, with weight
`k - 3`; it falls exactly when the leaving ratio was above the factor, and rises exactly when it was below. -/
theorem C236_medial (h : Spec.Stair t n c) (hp : Spec.Positive n c) (h' : Spec.Stair t' (n + 1) c') {k : ℕ} (hk : 4 ≤ k)
    (hkn : k < n - 1) (htail : 0 < tail) {r r' : BaseResult ℝ}
    (hr : baseCL gmean t t.a2aind0 (Spec.avgName "medial" k) (.fin tail) = .ok r)
    (hf : r.ldfs.map Prod.snd = (List.range n).map (fun j => .fin (f j))) (he : Spec.AsExpected n c c' f tail)
    (hr' : baseCL gmean t' t'.a2aind0 (Spec.avgName "medial" k) 1 = .ok r') {j : ℕ} (hj : j + k < n)
    (hdiff : (Spec.lastN k (Spec.ratios n c j)).Nodup) :
    ∃ g : ℝ, r'.ldfs.iloc j = .fin g ∧
      g = (f j + ((k - 3 : ℕ) : ℝ) * Spec.medialOf (Spec.lastN (k - 1) (Spec.ratios n c j))) / ((k - 2 : ℕ) : ℝ) ∧
      (g < f j ↔ f j < Spec.leaving n k c j) ∧ (f j < g ↔ Spec.leaving n k c j < f j) := by
  obtain ⟨e1, e2, _⟩ := baseCL_entries h hp (h.indOn0 hp.ne_zero) (by omega) .medial hkn hr hf
  have hp' := he.pos (by omega) hp (fun j hj => entry_pos h hp .medial hj (e2 j hj)) htail
  have hj1 : j < n - 1 := by omega
  have e := e2 j hj1
  have e' := baseCL_iloc h' hp' (by omega) .medial (by omega) hr' (show j < n + 1 - 1 by omega)
  rw [entry_medial h hp.ne_zero (h.indOn0 hp.ne_zero) hj1, window_noexcl hp] at e
  rw [entry_medial h' hp'.ne_zero (h'.indOn0 hp'.ne_zero) (by omega), window_noexcl hp', ratios_next hp he hj1] at e'
  have hlen : (Spec.ratios n c j).length = n - 1 - j := by simp [Spec.ratios]
  obtain ⟨m, w1, w2⟩ := lastN_shift (l := Spec.ratios n c j) (x := f j) (k := k) (by omega) (by omega)
  have hfirst : (Spec.ratios n c j)[(Spec.ratios n c j).length - k]'(by omega) = Spec.leaving n k c j := by
    simp only [Spec.leaving, Spec.ratios, List.getElem_map, List.getElem_range, List.length_map, List.length_range]
  rw [hfirst] at w1
  have hmk : m.length + 1 = k := by
    have := lastN_length (show k ≠ 0 by omega) (Spec.ratios n c j)
    rw [w1, hlen, min_eq_left (by omega), List.length_cons] at this
    exact this
  have hst : Spec.lastN (k - 1) (Spec.ratios n c j) = m := by
    have : Spec.lastN (k - 1) (Spec.ratios n c j) = (Spec.lastN k (Spec.ratios n c j)).drop 1 := by
      unfold Spec.lastN
      rw [if_neg (by omega), if_neg (by omega), List.drop_drop]
      congr 1
      omega
    rw [this, w1]; rfl
  set a := Spec.leaving n k c j with ha
  rw [w1] at e hdiff
  rw [w2] at e'
  rw [medialAvg_nodup hdiff (List.cons_ne_nil _ _)] at e
  have hfj : Spec.medialOf (a :: m) = f j := Num.fin.inj (Except.ok.inj e)
  have her : (a :: m).erase a = m := by simp
  obtain ⟨lo, hi, g⟩ := exists_ends (L := m) (fun e => by rw [e] at hmk; simp at hmk; omega)
  have hmd : m.Nodup := (List.nodup_cons.1 hdiff).2
  have hstr := medial_straddle hdiff (x := a) (by simp) (by rw [List.length_cons]; omega) (lo' := lo) (hi' := hi) (by rw [her]; exact g)
  rw [hfj] at hstr
  rw [medial_join hmd (by omega) g hstr.1 hstr.2] at e'
  have hmv := medialOf_erase hdiff (x := a) (by simp) (by rw [List.length_cons]; omega)
    (fun h3 => by rw [List.length_cons] at h3; omega)
  rw [her, hfj] at hmv
  have k2 : ((m.length : ℝ) - 1) = ((k - 2 : ℕ) : ℝ) := by
    have : m.length = (k - 2) + 1 := by omega
    rw [this]; push_cast; ring
  have k3 : ((m.length : ℝ) - 2) = ((k - 3 : ℕ) : ℝ) := by
    have : m.length = (k - 3) + 2 := by omega
    rw [this]; push_cast; ring
  have k23 : ((k - 2 : ℕ) : ℝ) = ((k - 3 : ℕ) : ℝ) + 1 := by
    have : k - 2 = (k - 3) + 1 := by omega
    rw [this]; push_cast; ring
  have hpos : (0 : ℝ) < ((k - 3 : ℕ) : ℝ) := by exact_mod_cast (show 0 < k - 3 by omega)
  rw [k2, k3] at e'
  refine ⟨_, (Except.ok.inj e').symm, by rw [hst, add_comm], ?_, ?_⟩
  · rw [← hmv.1, div_lt_iff₀ (by rw [k23]; linarith), k23]
    constructor
    · intro hh; by_contra hc; nlinarith [not_lt.1 hc]
    · intro hh; nlinarith
  · rw [← hmv.2, lt_div_iff₀ (by rw [k23]; linarith), k23]
    constructor
    · intro hh; by_contra hc; nlinarith [not_lt.1 hc]
    · intro hh; nlinarith

end

/-- Six origins; the ratios of the first period are 7, 4, 1, 2, 3, then 1.  The seventh diagonal is what `medial-4` expects. -/
def exMedialFour (i j : ℕ) : ℚ := if j = 0 then 2 else 2 * [7, 4, 1, 2, 3, 5 / 2].getD i 1

/-- A concrete case: the ratio 4 leaves, and the factor falls from 5/2 to the average of 5/2 and 2. -/
example : [stairTri 6 exMedialFour, stairTri 7 exMedialFour].map (fun t =>
    ((baseCL (fun _ => .nan) t t.a2aind0 "medial-4" 1).toOption.map (fun r => (r.ldfs.map Prod.snd).take 2))) =
    [some [.fin (5 / 2), .fin 1], some [.fin ((5 / 2 + 1 * 2) / 2), .fin 1]] := by decide +kernel

end Trikit
