import Verif.Props.RoundedQuant
import Verif.Props.QuantTables

/-!
# C176, C177: quantile columns of the summary in double precision

The levels of two-sided intervals are computed and rounded before they are used (base.py:621-631).
-/

set_option linter.unusedSectionVars false

namespace Trikit

section
variable {K : Type} [Field K] [LinearOrder K] [IsStrictOrderedRing K] [FloorRing K] {p : ℕ}

theorem two_pow_26 (hp : 26 ≤ p) : (2 : K) ^ (-(p : ℤ)) ≤ 1 / 67108864 := by
  have : (2 : K) ^ (-(p : ℤ)) ≤ 2 ^ (-26 : ℤ) := zpow_le_zpow_right₀ (by norm_num) (by omega)
  refine this.trans (by norm_num)

/-- A level near `k / 10^7` gets the header of `k`. -/
theorem hdrNumR_near (hp : 26 ≤ p) {k : ℕ} {q : K} (h0 : 0 ≤ q) (h1 : q ≤ 1)
    (hq : |q - (k : K) / 10 ^ 7| ≤ 2 * (2 : K) ^ (-(p : ℤ))) : hdrNumR (floatRd p) q = k := by
  have hu0 : (0 : K) < 2 ^ (-(p : ℤ)) := zpow_pos (by norm_num) _
  have hu1 := two_pow_26 (K := K) hp
  have e := floatRd_err p (100 * q)
  rw [abs_of_nonneg (show (0 : K) ≤ 100 * q by linarith), abs_le] at e
  rw [abs_le] at hq
  generalize (2 : K) ^ (-(p : ℤ)) = u at *
  have hkq : (k : K) = 10 ^ 7 * ((k : K) / 10 ^ 7) := by field_simp
  set x : K := (k : K) / 10 ^ 7
  have huq : u * q ≤ u := by nlinarith
  have key : roundHalfEven (100000 * floatRd p (100 * q)) = (k : ℤ) := by
    apply rhe_eq
    rw [Int.cast_natCast, hkq, abs_lt]
    constructor <;> nlinarith
  unfold hdrNumR
  rw [key, Int.toNat_natCast]

/-- The two rounded levels of a two-sided interval with probability `x`, in [0, 1] and near the exact ones. -/
theorem twoSided_near (hp : 26 ≤ p) {x : K} (h0 : 0 ≤ x) (h1 : x ≤ 1) :
    (0 ≤ floatRd p (floatRd p (1 - floatRd p x) / 2) ∧ floatRd p (floatRd p (1 - floatRd p x) / 2) ≤ 1 ∧
      |floatRd p (floatRd p (1 - floatRd p x) / 2) - (1 - x) / 2| ≤ 2 * (2 : K) ^ (-(p : ℤ))) ∧
    (0 ≤ floatRd p (floatRd p (1 + floatRd p x) / 2) ∧ floatRd p (floatRd p (1 + floatRd p x) / 2) ≤ 1 ∧
      |floatRd p (floatRd p (1 + floatRd p x) / 2) - (1 + x) / 2| ≤ 2 * (2 : K) ^ (-(p : ℤ))) := by
  have hp1 : 1 ≤ p := by omega
  obtain ⟨r0, r1⟩ := rd_unit hp1 h0 h1
  have e := floatRd_err p x
  rw [abs_of_nonneg h0, abs_le] at e
  rw [rd_half hp1, rd_half hp1]
  generalize floatRd p x = r at *
  have two : floatRd p (2 : K) = 2 := by
    have := floatRd_fix (K := K) hp1 (isFloat_nat (p := p) (m := 2) (by
      calc 2 = 2 ^ 1 := by norm_num
        _ ≤ 2 ^ p := Nat.pow_le_pow_right (by norm_num) hp1))
    exact_mod_cast this
  obtain ⟨a0, a1⟩ := rd_unit hp1 (q := 1 - r) (by linarith) (by linarith)
  have b0 : 0 ≤ floatRd p (1 + r) := floatRd_nn hp1 (by linarith)
  have b1 : floatRd p (1 + r) ≤ 2 := by
    have := floatRd_mono hp1 (show 1 + r ≤ 2 by linarith)
    rwa [two] at this
  have ea := floatRd_err p (1 - r)
  have eb := floatRd_err p (1 + r)
  rw [abs_of_nonneg (show (0 : K) ≤ 1 - r by linarith), abs_le] at ea
  rw [abs_of_nonneg (show (0 : K) ≤ 1 + r by linarith), abs_le] at eb
  have hu0 : (0 : K) < 2 ^ (-(p : ℤ)) := zpow_pos (by norm_num) _
  generalize (2 : K) ^ (-(p : ℤ)) = u at *
  have c1 : u * x ≤ u := by nlinarith
  have c2 : u * r ≤ u := by nlinarith
  have c3 : 0 ≤ u * r := mul_nonneg hu0.le r0
  refine ⟨⟨by linarith, by linarith, ?_⟩, by linarith, by linarith, ?_⟩
  · rw [abs_le]; constructor <;> nlinarith
  · rw [abs_le]; constructor <;> nlinarith

theorem near_lt (hp : 26 ≤ p) {j j' : ℕ} (h : j < j') {a b : K}
    (ha : |a - (j : K) / 10 ^ 7| ≤ 2 * (2 : K) ^ (-(p : ℤ))) (hb : |b - (j' : K) / 10 ^ 7| ≤ 2 * (2 : K) ^ (-(p : ℤ))) :
    a < b := by
  have hu1 := two_pow_26 (K := K) hp
  have : (j : K) / 10 ^ 7 + 1 / 10 ^ 7 ≤ (j' : K) / 10 ^ 7 := by
    rw [← add_div]
    exact div_le_div_of_nonneg_right (by exact_mod_cast h) (by norm_num)
  rw [abs_le] at ha hb
  have h7 : (2 / 67108864 : K) + 2 / 67108864 < 1 / 10 ^ 7 := by norm_num
  linarith [ha.2, hb.1]

theorem hdrPct_inj {k k' : ℕ} (h : hdrPct k = hdrPct k') : k = k' :=
  hdrCore_inj (List.append_inj_left' h rfl)

/-- Columns of the summary when the levels have distinct headers. -/
theorem cols_fold {js : List ℕ} (hjs : js.Pairwise (· < ·)) {L : ℕ → K} {N : K → ℕ} (hN : ∀ j ∈ js, N (L j) = j)
    (f : K → List (Num K)) :
    (((js.map L).map (fun x => (hdrPct (N x), x))).foldl (fun d p => dictSet p.1 (f p.2) d) []) =
      js.map (fun j => (hdrPct j, f (L j))) := by
  have e : (js.map L).map (fun x => (hdrPct (N x), x)) = js.map (fun j => (hdrPct j, L j)) := by
    rw [List.map_map]
    refine List.map_congr_left fun j hj => ?_
    show (hdrPct (N (L j)), L j) = _
    rw [hN j hj]
  rw [e, foldl_dictSet f, List.nil_append, List.map_map]
  · rfl
  · rw [List.map_map]
    show (js.map hdrPct).Nodup
    rw [List.nodup_map_iff_inj_on (hjs.imp (fun h => ne_of_lt h))]
    intro k _ k' _ e
    exact hdrPct_inj e
  · intro k _; simp

/-- Sorted distinct members of a list of numbers. -/
theorem nat_sorted (l : List ℕ) : ∃ js : List ℕ, js.Pairwise (· < ·) ∧ ∀ j, j ∈ js ↔ j ∈ l := by
  refine ⟨l.dedup.insertionSort (· ≤ ·), ?_, fun j => by rw [List.mem_insertionSort, List.mem_dedup]⟩
  have h1 : (l.dedup.insertionSort (· ≤ ·)).Pairwise (· ≤ ·) := List.pairwise_insertionSort (· ≤ ·) l.dedup
  have h2 : (l.dedup.insertionSort (· ≤ ·)).Nodup := (List.perm_insertionSort (· ≤ ·) l.dedup).nodup_iff.2 l.nodup_dedup
  have h2' : (l.dedup.insertionSort (· ≤ ·)).Pairwise (· ≠ ·) := h2
  exact (h1.and h2').imp (fun h => lt_of_le_of_ne h.1 h.2)

theorem finVals_map (l : List K) : finVals (l.map Num.fin) = l := by
  unfold finVals
  rw [List.filterMap_map]
  exact List.filterMap_some

theorem range_map {ks : List ℕ} {f : ℕ → K} (h : ∀ k ∈ ks, 0 ≤ f k ∧ f k ≤ 1) :
    qtlsInRange (ks.map (fun k => Num.fin (f k))) = true := by
  rw [qtlsInRange_iff]
  intro v hv
  obtain ⟨k, hk, rfl⟩ := List.mem_map.1 hv
  exact ⟨_, rfl, h k hk⟩

/-- The rounded level with header `j` of two-sided intervals. -/
def Spec.twoLevel (p : ℕ) (j : ℕ) : K :=
  if j ≤ 5 * 10 ^ 6 then floatRd p (floatRd p (1 - floatRd p (((5 * 10 ^ 6 - j : ℕ) : K) / (5 * 10 ^ 6))) / 2)
  else floatRd p (floatRd p (1 + floatRd p (((j - 5 * 10 ^ 6 : ℕ) : K) / (5 * 10 ^ 6))) / 2)

theorem twoLevel_sub {k : ℕ} (hk : k ≤ 5 * 10 ^ 6) : (Spec.twoLevel p (5 * 10 ^ 6 - k) : K) =
    floatRd p (floatRd p (1 - floatRd p ((k : K) / (5 * 10 ^ 6))) / 2) := by
  unfold Spec.twoLevel
  rw [if_pos (by omega), show 5 * 10 ^ 6 - (5 * 10 ^ 6 - k) = k by omega]

theorem twoLevel_add (k : ℕ) : (Spec.twoLevel p (5 * 10 ^ 6 + k) : K) =
    floatRd p (floatRd p (1 + floatRd p ((k : K) / (5 * 10 ^ 6))) / 2) := by
  unfold Spec.twoLevel
  rcases Nat.eq_zero_or_pos k with rfl | h
  · rw [if_pos (by omega)]
    simp [floatRd_zero]
  · rw [if_neg (by omega), show 5 * 10 ^ 6 + k - 5 * 10 ^ 6 = k by omega]

theorem twoLevel_near (hp : 26 ≤ p) {j : ℕ} (hj : j ≤ 10 ^ 7) :
    0 ≤ (Spec.twoLevel p j : K) ∧ (Spec.twoLevel p j : K) ≤ 1 ∧ Spec.IsFloat p (Spec.twoLevel p j : K) ∧
      |(Spec.twoLevel p j : K) - (j : K) / 10 ^ 7| ≤ 2 * (2 : K) ^ (-(p : ℤ)) := by
  have unit : ∀ k : ℕ, k ≤ 5 * 10 ^ 6 → 0 ≤ (k : K) / (5 * 10 ^ 6) ∧ (k : K) / (5 * 10 ^ 6) ≤ 1 := by
    intro k hk
    refine ⟨by positivity, ?_⟩
    rw [div_le_one (by positivity)]
    exact_mod_cast hk
  rcases Nat.le_total j (5 * 10 ^ 6) with h | h
  · obtain ⟨k, rfl⟩ : ∃ k, j = 5 * 10 ^ 6 - k := ⟨5 * 10 ^ 6 - j, by omega⟩
    rcases Nat.le_total k (5 * 10 ^ 6) with hk | hk
    · obtain ⟨⟨a, b, c⟩, -⟩ := twoSided_near (K := K) hp (unit k hk).1 (unit k hk).2
      rw [twoLevel_sub hk]
      refine ⟨a, b, floatRd_isFloat _ _, ?_⟩
      convert c using 3
      rw [Nat.cast_sub hk]
      push_cast
      field_simp
      ring
    · obtain ⟨⟨a, b, c⟩, -⟩ := twoSided_near (K := K) hp (unit (5 * 10 ^ 6) le_rfl).1 (unit (5 * 10 ^ 6) le_rfl).2
      rw [show 5 * 10 ^ 6 - k = 5 * 10 ^ 6 - 5 * 10 ^ 6 by omega, twoLevel_sub le_rfl]
      refine ⟨a, b, floatRd_isFloat _ _, ?_⟩
      convert c using 3
      push_cast
      norm_num
  · obtain ⟨k, rfl⟩ : ∃ k, j = 5 * 10 ^ 6 + k := ⟨j - 5 * 10 ^ 6, by omega⟩
    obtain ⟨-, a, b, c⟩ := twoSided_near (K := K) hp (unit k (by omega)).1 (unit k (by omega)).2
    rw [twoLevel_add k]
    refine ⟨a, b, floatRd_isFloat _ _, ?_⟩
    convert c using 3
    push_cast
    field_simp
    ring

/-- The levels of two-sided intervals with probabilities given in units of 2e-7, exact and rounded. -/
theorem formatter_two (hp : 26 ≤ p) (ks : List ℕ) (hk : ∀ k ∈ ks, k ≤ 5 * 10 ^ 6) :
    ∃ js : List ℕ, js.Pairwise (· < ·) ∧ (∀ j, j ∈ js ↔ ∃ k ∈ ks, j = 5 * 10 ^ 6 - k ∨ j = 5 * 10 ^ 6 + k) ∧
      (∀ j ∈ js, j ≤ 10 ^ 7) ∧
      qtlsFormatter (ks.map (fun k : ℕ => Num.fin ((k : K) / (5 * 10 ^ 6)))) true =
        .ok (js.map (fun j : ℕ => (j : K) / 10 ^ 7)) ∧
      qtlsFormatterR (floatRd p) (ks.map (fun k : ℕ => Num.fin (floatRd p ((k : K) / (5 * 10 ^ 6))))) true =
        .ok (js.map (Spec.twoLevel p)) := by
  obtain ⟨js, hs, hm⟩ := nat_sorted (ks.map (fun k => 5 * 10 ^ 6 - k) ++ ks.map (fun k => 5 * 10 ^ 6 + k))
  have hmem : ∀ j, j ∈ js ↔ ∃ k ∈ ks, j = 5 * 10 ^ 6 - k ∨ j = 5 * 10 ^ 6 + k := by
    intro j
    rw [hm, List.mem_append, List.mem_map, List.mem_map]
    constructor
    · rintro (⟨k, h1, h2⟩ | ⟨k, h1, h2⟩)
      · exact ⟨k, h1, .inl h2.symm⟩
      · exact ⟨k, h1, .inr h2.symm⟩
    · rintro ⟨k, h1, h2 | h2⟩
      · exact .inl ⟨k, h1, h2.symm⟩
      · exact .inr ⟨k, h1, h2.symm⟩
  have hle : ∀ j ∈ js, j ≤ 10 ^ 7 := by
    intro j hj
    obtain ⟨k, h1, h2⟩ := (hmem j).1 hj
    have := hk k h1
    omega
  have unit : ∀ k ∈ ks, 0 ≤ (k : K) / (5 * 10 ^ 6) ∧ (k : K) / (5 * 10 ^ 6) ≤ 1 := by
    intro k h
    refine ⟨by positivity, ?_⟩
    rw [div_le_one (by positivity)]
    exact_mod_cast hk k h
  refine ⟨js, hs, hmem, hle, ?_, ?_⟩
  · unfold qtlsFormatter
    rw [if_pos (range_map unit)]
    simp only [if_true]
    congr 1
    refine sorted_ext (sortUnique_sorted _) ?_ ?_
    · rw [List.pairwise_map]
      exact hs.imp (fun h => div_lt_div_of_pos_right (by exact_mod_cast h) (by norm_num))
    · intro x
      rw [sortUnique_mem, show (ks.map (fun k : ℕ => Num.fin ((k : K) / (5 * 10 ^ 6)))) =
        (ks.map (fun k : ℕ => (k : K) / (5 * 10 ^ 6))).map Num.fin by rw [List.map_map]; rfl, finVals_map,
        List.mem_append, List.map_map, List.map_map, List.mem_map, List.mem_map, List.mem_map]
      have l1 : ∀ k ∈ ks, (((5 * 10 ^ 6 - k : ℕ) : K)) / 10 ^ 7 = (1 - (k : K) / (5 * 10 ^ 6)) / 2 := by
        intro k h
        rw [Nat.cast_sub (hk k h)]
        push_cast
        field_simp
        ring
      have l2 : ∀ k ∈ ks, (((5 * 10 ^ 6 + k : ℕ) : K)) / 10 ^ 7 = (1 + (k : K) / (5 * 10 ^ 6)) / 2 := by
        intro k h
        push_cast
        field_simp
        ring
      constructor
      · rintro (⟨k, h1, rfl⟩ | ⟨k, h1, rfl⟩)
        · exact ⟨_, (hmem _).2 ⟨k, h1, .inl rfl⟩, l1 k h1⟩
        · exact ⟨_, (hmem _).2 ⟨k, h1, .inr rfl⟩, l2 k h1⟩
      · rintro ⟨j, h1, rfl⟩
        obtain ⟨k, h2, rfl | rfl⟩ := (hmem j).1 h1
        · exact .inl ⟨k, h2, (l1 k h2).symm⟩
        · exact .inr ⟨k, h2, (l2 k h2).symm⟩
  · unfold qtlsFormatterR
    rw [if_pos (range_map fun k h => rd_unit (by omega) (unit k h).1 (unit k h).2)]
    simp only [if_true]
    congr 1
    refine sorted_ext (sortUnique_sorted _) ?_ ?_
    · rw [List.pairwise_map]
      exact hs.imp_of_mem (fun h1 h2 h => near_lt hp h (twoLevel_near hp (hle _ h1)).2.2.2
        (twoLevel_near hp (hle _ h2)).2.2.2)
    · intro x
      rw [sortUnique_mem, show (ks.map (fun k : ℕ => Num.fin (floatRd p ((k : K) / (5 * 10 ^ 6))))) =
        (ks.map (fun k : ℕ => floatRd p ((k : K) / (5 * 10 ^ 6)))).map Num.fin by rw [List.map_map]; rfl, finVals_map,
        List.mem_append, List.map_map, List.map_map, List.mem_map, List.mem_map, List.mem_map]
      constructor
      · rintro (⟨k, h1, rfl⟩ | ⟨k, h1, rfl⟩)
        · exact ⟨_, (hmem _).2 ⟨k, h1, .inl rfl⟩, twoLevel_sub (hk k h1)⟩
        · exact ⟨_, (hmem _).2 ⟨k, h1, .inr rfl⟩, twoLevel_add k⟩
      · rintro ⟨j, h1, rfl⟩
        obtain ⟨k, h2, rfl | rfl⟩ := (hmem j).1 h1
        · exact .inl ⟨k, h2, (twoLevel_sub (hk k h2)).symm⟩
        · exact .inr ⟨k, h2, (twoLevel_add k).symm⟩

/-- **C176** the quantile columns of the summary for two-sided intervals with probabilities given in units of 2e-7, in
arithmetic with at least 26 digits: headers and order of the columns are those of exact arithmetic, the level of each
column is rounded to within `2·2⁻ᵖ`. -/
theorem C176_two_sided (hp : 26 ≤ p) (m : Interp) (rows : List (List (Num K))) (ks : List ℕ)
    (hk : ∀ k ∈ ks, k ≤ 5 * 10 ^ 6) :
    ∃ (js : List ℕ) (L : ℕ → K), js.Pairwise (· < ·) ∧
      (∀ j, j ∈ js ↔ ∃ k ∈ ks, j = 5 * 10 ^ 6 - k ∨ j = 5 * 10 ^ 6 + k) ∧
      (∀ j ∈ js, 0 ≤ L j ∧ L j ≤ 1 ∧ Spec.IsFloat p (L j) ∧ |L j - (j : K) / 10 ^ 7| ≤ 2 * (2 : K) ^ (-(p : ℤ))) ∧
      bootQuantCols m rows (ks.map (fun k : ℕ => Num.fin ((k : K) / (5 * 10 ^ 6)))) true =
        .ok (js.map (fun j => (hdrPct j, quantileColumn m none rows ((j : K) / 10 ^ 7)))) ∧
      bootQuantColsR (floatRd p) m rows (ks.map (fun k : ℕ => Num.fin (floatRd p ((k : K) / (5 * 10 ^ 6))))) true =
        .ok (js.map (fun j => (hdrPct j, quantileColumnR (floatRd p) m none rows (L j)))) := by
  obtain ⟨js, hs, hmem, hle, e1, e2⟩ := formatter_two (K := K) hp ks hk
  refine ⟨js, Spec.twoLevel p, hs, hmem, fun j hj => twoLevel_near hp (hle j hj), ?_, ?_⟩
  · unfold bootQuantCols
    rw [e1]
    simp only [bind, Except.bind]
    congr 1
    exact cols_fold hs (L := fun j : ℕ => (j : K) / 10 ^ 7) (fun j _ => hdrNum_level j) _
  · unfold bootQuantColsR
    rw [e2]
    simp only [bind, Except.bind]
    congr 1
    exact cols_fold hs (fun j hj => by
      obtain ⟨a, b, -, c⟩ := twoLevel_near (K := K) hp (hle j hj)
      exact hdrNumR_near hp a b c) _

/-- Single levels given in units of 1e-7, exact and rounded. -/
theorem formatter_one (hp : 26 ≤ p) (ks : List ℕ) (hk : ∀ k ∈ ks, k ≤ 10 ^ 7) :
    ∃ js : List ℕ, js.Pairwise (· < ·) ∧ (∀ j, j ∈ js ↔ j ∈ ks) ∧
      qtlsFormatter (ks.map (fun k : ℕ => Num.fin ((k : K) / 10 ^ 7))) false = .ok (js.map (fun j : ℕ => (j : K) / 10 ^ 7)) ∧
      qtlsFormatterR (floatRd p) (ks.map (fun k : ℕ => Num.fin (floatRd p ((k : K) / 10 ^ 7)))) false =
        .ok (js.map (fun j : ℕ => floatRd p ((j : K) / 10 ^ 7))) := by
  obtain ⟨js, hs, hmem⟩ := nat_sorted ks
  have unit : ∀ k ∈ ks, 0 ≤ (k : K) / 10 ^ 7 ∧ (k : K) / 10 ^ 7 ≤ 1 := by
    intro k h
    refine ⟨by positivity, ?_⟩
    rw [div_le_one (by positivity)]
    exact_mod_cast hk k h
  refine ⟨js, hs, hmem, ?_, ?_⟩
  · unfold qtlsFormatter
    rw [if_pos (range_map unit)]
    simp only [Bool.false_eq_true, if_false]
    congr 1
    refine sorted_ext (sortUnique_sorted _) ?_ ?_
    · rw [List.pairwise_map]
      exact hs.imp (fun h => div_lt_div_of_pos_right (by exact_mod_cast h) (by norm_num))
    · intro x
      rw [sortUnique_mem, show (ks.map (fun k : ℕ => Num.fin ((k : K) / 10 ^ 7))) =
        (ks.map (fun k : ℕ => (k : K) / 10 ^ 7)).map Num.fin by rw [List.map_map]; rfl, finVals_map,
        List.mem_map, List.mem_map]
      simp only [hmem]
  · unfold qtlsFormatterR
    rw [if_pos (range_map fun k h => rd_unit (by omega) (unit k h).1 (unit k h).2)]
    simp only [Bool.false_eq_true, if_false]
    congr 1
    refine sorted_ext (sortUnique_sorted _) ?_ ?_
    · rw [List.pairwise_map]
      exact hs.imp_of_mem (fun h1 h2 h => level_mono hp (hk _ ((hmem _).1 h1)) (hk _ ((hmem _).1 h2)) h)
    · intro x
      rw [sortUnique_mem, show (ks.map (fun k : ℕ => Num.fin (floatRd p ((k : K) / 10 ^ 7)))) =
        (ks.map (fun k : ℕ => floatRd p ((k : K) / 10 ^ 7))).map Num.fin by rw [List.map_map]; rfl, finVals_map,
        List.mem_map, List.mem_map]
      simp only [hmem]

theorem rd_level_near (hp : 26 ≤ p) {j : ℕ} (hj : j ≤ 10 ^ 7) : 0 ≤ floatRd p ((j : K) / 10 ^ 7) ∧
    floatRd p ((j : K) / 10 ^ 7) ≤ 1 ∧ Spec.IsFloat p (floatRd p ((j : K) / 10 ^ 7)) ∧
      |floatRd p ((j : K) / 10 ^ 7) - (j : K) / 10 ^ 7| ≤ 2 * (2 : K) ^ (-(p : ℤ)) := by
  have a : 0 ≤ (j : K) / 10 ^ 7 := by positivity
  have b : (j : K) / 10 ^ 7 ≤ 1 := by
    rw [div_le_one (by positivity)]
    exact_mod_cast hj
  obtain ⟨c, d⟩ := rd_unit (p := p) (by omega) a b
  refine ⟨c, d, floatRd_isFloat _ _, (floatRd_err p _).trans ?_⟩
  have hu0 : (0 : K) < 2 ^ (-(p : ℤ)) := zpow_pos (by norm_num) _
  rw [abs_of_nonneg a]
  nlinarith

/-- **C176** the same for single levels given in units of 1e-7. -/
theorem C176_one_sided (hp : 26 ≤ p) (m : Interp) (rows : List (List (Num K))) (ks : List ℕ) (hk : ∀ k ∈ ks, k ≤ 10 ^ 7) :
    ∃ (js : List ℕ) (L : ℕ → K), js.Pairwise (· < ·) ∧ (∀ j, j ∈ js ↔ j ∈ ks) ∧
      (∀ j ∈ js, 0 ≤ L j ∧ L j ≤ 1 ∧ Spec.IsFloat p (L j) ∧ |L j - (j : K) / 10 ^ 7| ≤ 2 * (2 : K) ^ (-(p : ℤ))) ∧
      bootQuantCols m rows (ks.map (fun k : ℕ => Num.fin ((k : K) / 10 ^ 7))) false =
        .ok (js.map (fun j => (hdrPct j, quantileColumn m none rows ((j : K) / 10 ^ 7)))) ∧
      bootQuantColsR (floatRd p) m rows (ks.map (fun k : ℕ => Num.fin (floatRd p ((k : K) / 10 ^ 7)))) false =
        .ok (js.map (fun j => (hdrPct j, quantileColumnR (floatRd p) m none rows (L j)))) := by
  obtain ⟨js, hs, hmem, e1, e2⟩ := formatter_one (K := K) hp ks hk
  refine ⟨js, fun j => floatRd p ((j : K) / 10 ^ 7), hs, hmem, fun j hj => rd_level_near hp (hk j ((hmem j).1 hj)), ?_, ?_⟩
  · unfold bootQuantCols
    rw [e1]
    simp only [bind, Except.bind]
    congr 1
    exact cols_fold hs (L := fun j : ℕ => (j : K) / 10 ^ 7) (fun j _ => hdrNum_level j) _
  · unfold bootQuantColsR
    rw [e2]
    simp only [bind, Except.bind]
    congr 1
    exact cols_fold hs (L := fun j : ℕ => floatRd p ((j : K) / 10 ^ 7))
      (fun j hj => hdrNumR_level hp (hk j ((hmem j).1 hj))) _

/-! ### entries -/

/-- The default method at a rounded level near `x`. -/
theorem linear_near (hp : 7 ≤ p) {fs : List K} (hne : fs ≠ []) (hF : ∀ x ∈ fs, Spec.IsFloat p x)
    (hnp : 2 * fs.length ≤ 2 ^ p) {G M : K} (hG0 : 0 ≤ G)
    (hG : ∀ i, i + 1 < fs.length →
      (fs.insertionSort (· ≤ ·)).getD (i + 1) 0 - (fs.insertionSort (· ≤ ·)).getD i 0 ≤ G)
    (hM : ∀ x ∈ fs, |x| ≤ M) {q x : K} (h0 : 0 ≤ q) (h1 : q ≤ 1) (hq : Spec.IsFloat p q) (x0 : 0 ≤ x) (x1 : x ≤ 1)
    (hx : |q - x| ≤ 2 * (2 : K) ^ (-(p : ℤ))) :
    Spec.CloseTo ((2 : K) ^ (-(p : ℤ)) * ((7 * ((fs.length : K) - 1) + 3) * G + M))
      (percentileR (floatRd p) .linear (fs.map Num.fin) q) (percentile .linear (fs.map Num.fin) x) := by
  obtain ⟨y, z, c1, c2, c3⟩ := C173_linear hp hne hF hnp hG0 hG hM h0 h1
  rw [floatRd_fix (by omega) hq] at c1
  rw [percentile_eq .linear hne h0 h1, Num.fin.injEq] at c2
  refine ⟨y, _, c1, percentile_eq .linear hne x0 x1, ?_⟩
  have hl : 0 < fs.length := List.length_pos_iff.2 hne
  have hn' : (0 : K) ≤ (fs.length : K) - 1 := by
    have : (1 : K) ≤ (fs.length : K) := by exact_mod_cast hl
    linarith
  have e2 := interp_lip_abs (f := fun i => (fs.insertionSort (· ≤ ·)).getD i 0) (n := fs.length)
    (fun i j hij hj => sorted_getD hij hj) hG (v := ((fs.length : K) - 1) * x) (w := ((fs.length : K) - 1) * q)
    (mul_nonneg hn' x0) (by nlinarith) (mul_nonneg hn' h0) (by nlinarith)
  refine (abs_sub_le _ z _).trans ?_
  have e3 : |z - Spec.interp (fun i => (fs.insertionSort (· ≤ ·)).getD i 0) fs.length (Spec.pos .linear fs.length x)| ≤
      G * (((fs.length : K) - 1) * (2 * (2 : K) ^ (-(p : ℤ)))) := by
    rw [← c2]
    refine e2.trans (mul_le_mul_of_nonneg_left ?_ hG0)
    rw [← mul_sub, abs_mul, abs_of_nonneg hn']
    exact mul_le_mul_of_nonneg_left hx hn'
  have hu0 : (0 : K) < 2 ^ (-(p : ℤ)) := zpow_pos (by norm_num) _
  have e4 : (2 : K) ^ (-(p : ℤ)) * ((5 * (((fs.length : K) - 1) * q) + 3) * G + M) ≤
      (2 : K) ^ (-(p : ℤ)) * ((5 * ((fs.length : K) - 1) + 3) * G + M) := by
    refine mul_le_mul_of_nonneg_left ?_ hu0.le
    have : ((fs.length : K) - 1) * q ≤ (fs.length : K) - 1 := by nlinarith
    nlinarith
  refine (add_le_add (c3.trans e4) e3).trans (le_of_eq ?_)
  ring

/-- A row whose entries are numbers with `p` digits, with a bound `e` for the error of its quantiles: `G` bounds the gaps
in the sorted row, `M` its values. -/
def Spec.RowBound (p : ℕ) (e : K) (l : List (Num K)) : Prop :=
  ∃ (fs : List K) (G M : K), l = fs.map Num.fin ∧ fs ≠ [] ∧ (∀ x ∈ fs, Spec.IsFloat p x) ∧ 2 * fs.length ≤ 2 ^ p ∧
    0 ≤ G ∧ (∀ i, i + 1 < fs.length →
      (fs.insertionSort (· ≤ ·)).getD (i + 1) 0 - (fs.insertionSort (· ≤ ·)).getD i 0 ≤ G) ∧ (∀ x ∈ fs, |x| ≤ M) ∧
    (2 : K) ^ (-(p : ℤ)) * ((7 * ((fs.length : K) - 1) + 3) * G + M) ≤ e

theorem closeTo_mono {e e' : K} (h : e ≤ e') {v w : Num K} (hv : Spec.CloseTo e v w) : Spec.CloseTo e' v w := by
  obtain ⟨a, b, h1, h2, h3⟩ := hv
  exact ⟨a, b, h1, h2, h3.trans h⟩

theorem cols_close (hp : 26 ≤ p) {rows : List (List (Num K))} {e : K} (hrows : ∀ l ∈ rows, Spec.RowBound p e l)
    {js : List ℕ} {L : ℕ → K} (hj : ∀ j ∈ js, j ≤ 10 ^ 7)
    (hL : ∀ j ∈ js, 0 ≤ L j ∧ L j ≤ 1 ∧ Spec.IsFloat p (L j) ∧ |L j - (j : K) / 10 ^ 7| ≤ 2 * (2 : K) ^ (-(p : ℤ))) :
    List.Forall₂ (fun c c' => c.1 = c'.1 ∧ List.Forall₂ (Spec.CloseTo e) c.2 c'.2)
      (js.map (fun j => (hdrPct j, quantileColumnR (floatRd p) .linear none rows (L j))))
      (js.map (fun j => (hdrPct j, quantileColumn .linear none rows ((j : K) / 10 ^ 7)))) := by
  rw [List.forall₂_map_left_iff, List.forall₂_map_right_iff, List.forall₂_same]
  intro j hj1
  refine ⟨rfl, ?_⟩
  show List.Forall₂ _ (rows.map _) (rows.map _)
  rw [List.forall₂_map_left_iff, List.forall₂_map_right_iff, List.forall₂_same]
  intro l hl
  obtain ⟨fs, G, M, rfl, b1, b2, b3, b4, b5, b6, b7⟩ := hrows l hl
  obtain ⟨a1, a2, a3, a4⟩ := hL j hj1
  refine closeTo_mono b7 (linear_near (by omega) b1 b2 b3 b4 b5 b6 a1 a2 a3 (by positivity) ?_ a4)
  rw [div_le_one (by positivity)]
  exact_mod_cast hj j hj1

theorem cols_increasing (hp : 26 ≤ p) (m : Interp) {rows : List (List (Num K))}
    (hrows : ∀ l ∈ rows, Spec.FloatRow p l) {js : List ℕ} (hs : js.Pairwise (· < ·)) {L : ℕ → K}
    (hL : ∀ j ∈ js, 0 ≤ L j ∧ L j ≤ 1 ∧ Spec.IsFloat p (L j) ∧ |L j - (j : K) / 10 ^ 7| ≤ 2 * (2 : K) ^ (-(p : ℤ))) :
    (js.map (fun j => (hdrPct j, quantileColumnR (floatRd p) m none rows (L j)))).Pairwise
      (fun c c' => List.Forall₂ (fun v w => ∃ a b : K, v = .fin a ∧ w = .fin b ∧ a ≤ b) c.2 c'.2) := by
  rw [List.pairwise_map]
  refine hs.imp_of_mem (fun {j j'} h1 h2 h => ?_)
  have hlt := near_lt hp h (hL j h1).2.2.2 (hL j' h2).2.2.2
  show List.Forall₂ _ (rows.map _) (rows.map _)
  rw [List.forall₂_map_left_iff, List.forall₂_map_right_iff, List.forall₂_same]
  intro l hl
  obtain ⟨fs, rfl, b1, b2, b3⟩ := hrows l hl
  obtain ⟨P, lo, hi, -, -, -, c1, -, -, c2⟩ := C172_percentile (by omega) m b1 b2 b3
  rw [(c1 _ (hL j h1).1 (hL j h1).2.1).1, (c1 _ (hL j' h2).1 (hL j' h2).2.1).1]
  exact applyLb_fin none (c2 _ _ (hL j h1).1 hlt.le (hL j' h2).2.1)

/-- **C176** along each row of the summary the quantiles do not decrease with the level, for every method. -/
theorem C176_increasing (hp : 26 ≤ p) (m : Interp) {rows : List (List (Num K))}
    (hrows : ∀ l ∈ rows, Spec.FloatRow p l) (ks : List ℕ) :
    ((∀ k ∈ ks, k ≤ 5 * 10 ^ 6) → ∃ tbl,
      bootQuantColsR (floatRd p) m rows (ks.map (fun k : ℕ => Num.fin (floatRd p ((k : K) / (5 * 10 ^ 6))))) true = .ok tbl ∧
      tbl.Pairwise (fun c c' => List.Forall₂ (fun v w => ∃ a b : K, v = .fin a ∧ w = .fin b ∧ a ≤ b) c.2 c'.2)) ∧
    ((∀ k ∈ ks, k ≤ 10 ^ 7) → ∃ tbl,
      bootQuantColsR (floatRd p) m rows (ks.map (fun k : ℕ => Num.fin (floatRd p ((k : K) / 10 ^ 7)))) false = .ok tbl ∧
      tbl.Pairwise (fun c c' => List.Forall₂ (fun v w => ∃ a b : K, v = .fin a ∧ w = .fin b ∧ a ≤ b) c.2 c'.2)) := by
  constructor
  · intro hk
    obtain ⟨js, L, h1, -, h3, -, h5⟩ := C176_two_sided hp m rows ks hk
    exact ⟨_, h5, cols_increasing hp m hrows h1 h3⟩
  · intro hk
    obtain ⟨js, L, h1, -, h3, -, h5⟩ := C176_one_sided hp m rows ks hk
    exact ⟨_, h5, cols_increasing hp m hrows h1 h3⟩

/-- **C176** with the default method the entries differ from those of exact arithmetic by at most `e`, as soon as
`2⁻ᵖ((7n + 3)G + M) ≤ e` for every row. -/
theorem C176_error (hp : 26 ≤ p) {rows : List (List (Num K))} {e : K} (hrows : ∀ l ∈ rows, Spec.RowBound p e l)
    (ks : List ℕ) :
    ((∀ k ∈ ks, k ≤ 5 * 10 ^ 6) → ∃ tbl tbl',
      bootQuantColsR (floatRd p) .linear rows (ks.map (fun k : ℕ => Num.fin (floatRd p ((k : K) / (5 * 10 ^ 6))))) true =
        .ok tbl ∧
      bootQuantCols .linear rows (ks.map (fun k : ℕ => Num.fin ((k : K) / (5 * 10 ^ 6)))) true = .ok tbl' ∧
      List.Forall₂ (fun c c' => c.1 = c'.1 ∧ List.Forall₂ (Spec.CloseTo e) c.2 c'.2) tbl tbl') ∧
    ((∀ k ∈ ks, k ≤ 10 ^ 7) → ∃ tbl tbl',
      bootQuantColsR (floatRd p) .linear rows (ks.map (fun k : ℕ => Num.fin (floatRd p ((k : K) / 10 ^ 7)))) false = .ok tbl ∧
      bootQuantCols .linear rows (ks.map (fun k : ℕ => Num.fin ((k : K) / 10 ^ 7))) false = .ok tbl' ∧
      List.Forall₂ (fun c c' => c.1 = c'.1 ∧ List.Forall₂ (Spec.CloseTo e) c.2 c'.2) tbl tbl') := by
  constructor
  · intro hk
    obtain ⟨js, L, h1, h2, h3, h4, h5⟩ := C176_two_sided hp .linear rows ks hk
    refine ⟨_, _, h5, h4, cols_close hp hrows (fun j hj => ?_) h3⟩
    obtain ⟨k, hk1, hk2⟩ := (h2 j).1 hj
    have := hk k hk1
    omega
  · intro hk
    obtain ⟨js, L, h1, h2, h3, h4, h5⟩ := C176_one_sided hp .linear rows ks hk
    exact ⟨_, _, h5, h4, cols_close hp hrows (fun j hj => hk j ((h2 j).1 hj)) h3⟩

theorem foldl_dictSet_all {α β : Type} {P : α → Prop} {f : β → α} (hf : ∀ b, P (f b)) :
    ∀ (l : List (List Char × β)) (d : List (List Char × α)), (∀ c ∈ d, P c.2) →
      ∀ c ∈ l.foldl (fun d p => dictSet p.1 (f p.2) d) d, P c.2 := by
  have step : ∀ (k : List Char) (v : α), P v → ∀ d : List (List Char × α), (∀ c ∈ d, P c.2) → ∀ c ∈ dictSet k v d, P c.2 := by
    intro k v hv d
    induction d with
    | nil => intro _ c hc; rw [dictSet, List.mem_singleton] at hc; rw [hc]; exact hv
    | cons a d ih =>
      intro hd c hc
      rw [dictSet] at hc
      split at hc
      · rcases List.mem_cons.1 hc with rfl | hc
        · exact hv
        · exact hd c (by simp [hc])
      · rcases List.mem_cons.1 hc with rfl | hc
        · exact hd _ (by simp)
        · exact ih (fun c hc => hd c (by simp [hc])) c hc
  intro l
  induction l with
  | nil => intro d hd; exact hd
  | cons a l ih => intro d hd; exact ih _ (step _ _ (hf _) d hd)

/-- **C176** a row with a missing reserve has missing quantiles in every column, for every method and every rounding,
whatever the lower bound. -/
theorem C176_missing (rd : K → K) (m : Interp) (lb : Option K) (rows : List (List (Num K))) (q : List (Num K)) (two : Bool)
    {i : ℕ} {l : List (Num K)} (hi : rows[i]? = some l) (hl : Num.nan ∈ l) :
    (∀ tbl, getQuantilesR rd m lb rows q = .ok tbl → ∀ c ∈ tbl, c.2[i]? = some .nan) ∧
    (∀ tbl, bootQuantColsR rd m rows q two = .ok tbl → ∀ c ∈ tbl, c.2[i]? = some .nan) := by
  have hcol : ∀ (lb : Option K) (x : K), (quantileColumnR rd m lb rows x)[i]? = some .nan := by
    intro lb x
    unfold quantileColumnR
    rw [List.getElem?_map, hi]
    show some (applyLb lb (percentileR rd m l x)) = _
    have : percentileR rd m l x = .nan := by
      unfold percentileR
      rw [if_pos (List.any_eq_true.2 ⟨_, hl, rfl⟩)]
    rw [this]
    cases lb <;> rfl
  constructor
  · intro tbl h
    unfold getQuantilesR at h
    cases hq : qtlsFormatterR rd q false with
    | error x => rw [hq] at h; cases h
    | ok qs =>
      rw [hq] at h
      simp only [bind, Except.bind] at h
      split at h
      · cases h
      · split at h
        · cases h
        · injection h with h
          rw [← h]
          exact foldl_dictSet_all (P := fun c => c[i]? = some .nan) (f := quantileColumnR rd m lb rows) (hcol lb) _ []
            (fun c hc => by cases hc)
  · intro tbl h
    unfold bootQuantColsR at h
    cases hq : qtlsFormatterR rd q two with
    | error x => rw [hq] at h; cases h
    | ok qs =>
      rw [hq] at h
      simp only [bind, Except.bind] at h
      injection h with h
      rw [← h]
      exact foldl_dictSet_all (P := fun c => c[i]? = some .nan) (f := quantileColumnR rd m none rows) (hcol none) _ []
        (fun c hc => by cases hc)

/-! ### rounded simulations -/

theorem closeTo_trans {e e' : K} {u v w : Num K} (h : Spec.CloseTo e u v) (h' : Spec.CloseTo e' v w) :
    Spec.CloseTo (e + e') u w := by
  obtain ⟨a, b, rfl, rfl, h1⟩ := h
  obtain ⟨c, d, h2, rfl, h3⟩ := h'
  injection h2 with h2
  subst h2
  exact ⟨a, d, rfl, rfl, (abs_sub_le a b d).trans (add_le_add h1 h3)⟩

theorem forall2_trans {α : Type} {R S T : α → α → Prop} (h : ∀ a b c, R a b → S b c → T a c) :
    ∀ {l l' l'' : List α}, List.Forall₂ R l l' → List.Forall₂ S l' l'' → List.Forall₂ T l l''
  | _, _, _, .nil, .nil => .nil
  | _, _, _, .cons h1 h2, .cons h3 h4 => .cons (h _ _ _ h1 h3) (forall2_trans h h2 h4)

/-- **C177** simulated reserves that are rounded as well: when the reserves computed in `p` digits differ from those of
exact arithmetic by at most `d` and the bound of C176 for them is `e`, the quantile columns of the summary and the table
of `get_quantiles` differ by at most `e + d`, with the same headers in the same order. -/
theorem C177_run (hp : 26 ≤ p) {rows rows' : List (List (Num K))} {d e : K}
    (hd : List.Forall₂ (List.Forall₂ (Spec.CloseTo d)) rows rows') (hrows : ∀ l ∈ rows, Spec.RowBound p e l)
    (ks : List ℕ) :
    ((∀ k ∈ ks, k ≤ 5 * 10 ^ 6) → ∃ tbl tbl',
      bootQuantColsR (floatRd p) .linear rows (ks.map (fun k : ℕ => Num.fin (floatRd p ((k : K) / (5 * 10 ^ 6))))) true =
        .ok tbl ∧
      bootQuantCols .linear rows' (ks.map (fun k : ℕ => Num.fin ((k : K) / (5 * 10 ^ 6)))) true = .ok tbl' ∧
      List.Forall₂ (fun c c' => c.1 = c'.1 ∧ List.Forall₂ (Spec.CloseTo (e + d)) c.2 c'.2) tbl tbl') ∧
    ((∀ k ∈ ks, k ≤ 10 ^ 7) → ∃ tbl tbl',
      bootQuantColsR (floatRd p) .linear rows (ks.map (fun k : ℕ => Num.fin (floatRd p ((k : K) / 10 ^ 7)))) false = .ok tbl ∧
      bootQuantCols .linear rows' (ks.map (fun k : ℕ => Num.fin ((k : K) / 10 ^ 7))) false = .ok tbl' ∧
      List.Forall₂ (fun c c' => c.1 = c'.1 ∧ List.Forall₂ (Spec.CloseTo (e + d)) c.2 c'.2) tbl tbl') ∧
    (∀ lb : Option K, ks ≠ [] → (∀ k ∈ ks, k ≤ 10 ^ 7) → ∃ tbl tbl',
      getQuantilesR (floatRd p) .linear lb rows (ks.map (fun k : ℕ => Num.fin (floatRd p ((k : K) / 10 ^ 7)))) = .ok tbl ∧
      getQuantiles .linear lb rows' (ks.map (fun k : ℕ => Num.fin ((k : K) / 10 ^ 7))) = .ok tbl' ∧
      List.Forall₂ (fun c c' => c.1 = c'.1 ∧ List.Forall₂ (Spec.CloseTo (e + d)) c.2 c'.2) tbl tbl') := by
  have hne : ∀ l ∈ rows, l ≠ [] := by
    intro l hl
    obtain ⟨fs, G, M, rfl, b1, -⟩ := hrows l hl
    intro h
    exact b1 (List.map_eq_nil_iff.1 h)
  have join : ∀ {t t' t'' : List (List Char × List (Num K))},
      List.Forall₂ (fun c c' => c.1 = c'.1 ∧ List.Forall₂ (Spec.CloseTo e) c.2 c'.2) t t' →
      List.Forall₂ (fun c c' => c.1 = c'.1 ∧ List.Forall₂ (Spec.CloseTo d) c.2 c'.2) t' t'' →
      List.Forall₂ (fun c c' => c.1 = c'.1 ∧ List.Forall₂ (Spec.CloseTo (e + d)) c.2 c'.2) t t'' :=
    fun h h' => forall2_trans (fun a b c h1 h2 => ⟨h1.1.trans h2.1,
      forall2_trans (R := Spec.CloseTo e) (S := Spec.CloseTo d)
        (T := Spec.CloseTo (e + d)) (fun x y z h3 h4 => closeTo_trans h3 h4) h1.2 h2.2⟩) h h'
  refine ⟨fun hk => ?_, fun hk => ?_, fun lb hks hk => ?_⟩
  · obtain ⟨t, t', a1, a2, a3⟩ := (C176_error hp hrows ks).1 hk
    rcases C171_summary .linear hd hne (ks.map (fun k : ℕ => Num.fin ((k : K) / (5 * 10 ^ 6)))) true with
      ⟨x, b1, -⟩ | ⟨s, s', b1, b2, b3⟩
    · rw [a2] at b1; cases b1
    · rw [a2] at b1
      injection b1 with b1
      subst b1
      exact ⟨t, s', a1, b2, join a3 b3⟩
  · obtain ⟨t, t', a1, a2, a3⟩ := (C176_error hp hrows ks).2 hk
    rcases C171_summary .linear hd hne (ks.map (fun k : ℕ => Num.fin ((k : K) / 10 ^ 7))) false with
      ⟨x, b1, -⟩ | ⟨s, s', b1, b2, b3⟩
    · rw [a2] at b1; cases b1
    · rw [a2] at b1
      injection b1 with b1
      subst b1
      exact ⟨t, s', a1, b2, join a3 b3⟩
  · obtain ⟨t, t', a1, a2, a3⟩ := C175_error hp lb (rows := rows) (e := e) (fun l hl => by
      obtain ⟨fs, G, M, h1, b1, b2, b3, b4, b5, b6, b7⟩ := hrows l hl
      refine ⟨fs, G, M, h1, b1, b2, b3, b4, b5, b6, le_trans ?_ b7⟩
      have hu0 : (0 : K) < 2 ^ (-(p : ℤ)) := zpow_pos (by norm_num) _
      have hn' : (0 : K) ≤ (fs.length : K) - 1 := by
        have : (1 : K) ≤ (fs.length : K) := by exact_mod_cast List.length_pos_iff.2 b1
        linarith
      exact mul_le_mul_of_nonneg_left (by nlinarith) hu0.le) ks hks hk
    rcases C171_table .linear lb hd hne (ks.map (fun k : ℕ => Num.fin ((k : K) / 10 ^ 7))) with
      ⟨x, b1, -⟩ | ⟨s, s', b1, b2, b3⟩
    · rw [a2] at b1; cases b1
    · rw [a2] at b1
      injection b1 with b1
      subst b1
      exact ⟨t, s', a1, b2, join a3 b3⟩
end

/-- The summary in double precision for the two-sided intervals 50% and 95% and a sample of 4 reserves. -/
example : (bootQuantColsR (floatRd 53) .lower [exSample] [.fin (floatRd 53 (95 / 100)), .fin (1 / 2)] true).toOption =
    some [("2.5%".toList, [.fin (-1)]), ("25%".toList, [.fin (-1)]), ("75%".toList, [.fin 3]), ("97.5%".toList, [.fin 3])] := by
  decide +kernel
/-- Units of 1e-7 would not do for two-sided intervals: the levels are half way between two headers. -/
example :
    (bootQuantColsR (floatRd 53) .lower [exSample] [.fin (floatRd 53 (9 / 10 ^ 7))] true).toOption.map
        (fun t => t.map Prod.fst) = some ["49.99995%".toList, "50.00005%".toList] ∧
    (bootQuantCols .lower [exSample] [.fin (9 / 10 ^ 7)] true).toOption.map (fun t => t.map Prod.fst) =
      some ["49.99996%".toList, "50.00004%".toList] := by decide +kernel

end Trikit
