import Verif.Shapes
import Verif.Bootstrap

/-!
# C127, C128: triangles that are not square staircases

C127: `_ultimates` (base.py:203-225) multiplies the latest amounts by the reversed cumulative factors
position by position.  That is the factor of the origin's own maturity only when origin `i` is
observed for exactly `n - i` periods; the columns `maturity` and `cldf` of the summary and the
`ultimate` column of the squared triangle always use the maturity.

C128: with a different number of origins and periods the product has no common length and `base_cl`
and `mack_cl` raise.
-/

set_option linter.unusedSectionVars false

namespace Trikit

variable {K : Type} [Field K] [LinearOrder K]

/-- `r` is returned by one of the three ways of calling `base_cl`. -/
def Spec.FromBase (gm : List (Num K) → Num K) (t ind : Tri K) (r : BaseResult K) : Prop :=
  (∃ sel tail, baseCL gm t ind sel tail = .ok r) ∨
  (∃ sel tail, baseCLArray t sel tail = .ok r) ∨
  (∃ sel tail, (baseCLSeries t sel tail).2 = .ok r)

theorem baseFromLdfs_of_array {t : Tri K} {sel : List (Num K)} {tail : Num K} {r : BaseResult K}
    (h : baseCLArray t sel tail = .ok r) : ∃ l, l.length = t.nc ∧ baseFromLdfs t l = .ok r := by
  unfold baseCLArray ldfsByArray at h
  by_cases e : (sel ++ [tail]).length = t.nc
  · rw [if_pos e] at h
    refine ⟨_, ?_, h⟩
    have e' : t.devs.length = t.nc := rfl
    rw [List.length_zip, e, e', min_self]
  · rw [if_neg e] at h; cases h

theorem baseFromLdfs_of_series {t : Tri K} {sel : Ser K} {tail : Num K} {r : BaseResult K}
    (h : (baseCLSeries t sel tail).2 = .ok r) : ∃ l, l.length = t.nc ∧ baseFromLdfs t l = .ok r := by
  unfold baseCLSeries at h
  simp only at h
  cases hl : (ldfsBySeries t sel tail).2 with
  | error e => rw [hl] at h; cases h
  | ok l =>
    rw [hl] at h
    refine ⟨l, ?_, h⟩
    unfold ldfsBySeries at hl
    by_cases e : sel.length ≠ t.nc - 1
    · rw [if_pos e] at hl; cases hl
    · rw [if_neg e] at hl
      cases ht : tailLabel (sel.map Prod.fst) with
      | error e => rw [ht] at hl; cases hl
      | ok lab =>
        rw [ht] at hl
        simp only at hl
        split at hl
        · simp only at hl
          have : t.devs.map (fun d => (d, Ser.get (Ser.locSet sel lab tail) d)) = l := by
            injection hl
          rw [← this, List.length_map]; rfl
        · cases hl

theorem baseFromLdfs_of_name {gm : List (Num K) → Num K} {t ind : Tri K} {sel : String}
    {tail : Num K} {r : BaseResult K} (h : baseCL gm t ind sel tail = .ok r) :
    ∃ l, ldfsByName gm t ind sel tail = .ok l ∧ baseFromLdfs t l = .ok r := by
  unfold baseCL at h
  cases hl : ldfsByName gm t ind sel tail with
  | error e => rw [hl] at h; cases h
  | ok l => rw [hl] at h; exact ⟨l, rfl, h⟩

variable {t ind : Tri K} {n m : ℕ} {len : ℕ → ℕ} {c : ℕ → ℕ → K}

/-- A result of `base_cl` on a triangle with at least two periods: the factors are as many as the
origins. -/
theorem Spec.Young.fromBase (h : Spec.Young t n m len c) (hc : ∀ i < n, ∀ j < len i, c i j ≠ 0)
    (ho : ind.origins = t.a2a.origins) (hi : ind.devs = t.a2a.devs) (hm : 2 ≤ m)
    {gm : List (Num K) → Num K} {r : BaseResult K} (hr : Spec.FromBase gm t ind r) :
    n = m ∧ ∃ l, baseFromLdfs t l = .ok r := by
  have key : ∀ l : Ser K, l.length = m → baseFromLdfs t l = .ok r →
      n = m ∧ ∃ l, baseFromLdfs t l = .ok r := by
    intro l hl hb
    refine ⟨?_, l, hb⟩
    by_contra hne
    rw [h.baseFromLdfs_raises (by rw [hl]; exact fun e => hne e.symm) (by omega)] at hb
    cases hb
  rcases hr with ⟨sel, tail, hr⟩ | ⟨sel, tail, hr⟩ | ⟨sel, tail, hr⟩
  · obtain ⟨l, hl, hb⟩ := baseFromLdfs_of_name hr
    exact key l (h.ldfsByName_length hc ho hi hl).2 hb
  · obtain ⟨l, hl, hb⟩ := baseFromLdfs_of_array hr
    exact key l (hl.trans h.nc) hb
  · obtain ⟨l, hl, hb⟩ := baseFromLdfs_of_series hr
    exact key l (hl.trans h.nc) hb

theorem Spec.tailProd_lt [IsStrictOrderedRing K] {f : ℕ → K} {n : ℕ}
    (hf : ∀ j, j + 1 < n → 1 < f j) (hl : 0 < f (n - 1)) {a b : ℕ} (hab : a < b) (hb : b < n) :
    Spec.tailProd f n b < Spec.tailProd f n a := by
  have hpos : ∀ j < n, 0 < f j := by
    intro j hj
    by_cases e : j + 1 < n
    · exact lt_trans one_pos (hf j e)
    · have : j = n - 1 := by omega
      rw [this]; exact hl
  have htp : ∀ j, 0 < Spec.tailProd f n j := by
    intro j
    unfold Spec.tailProd
    exact Finset.prod_pos (fun k hk => hpos k (Finset.mem_Ico.1 hk).2)
  induction b, hab using Nat.le_induction with
  | base =>
    rw [Spec.tailProd_succ f (show a < n by omega)]
    have h1 := hf a hb
    nlinarith [htp (a + 1)]
  | succ b hab ih =>
    refine lt_trans ?_ (ih (by omega))
    rw [Spec.tailProd_succ f (show b < n by omega)]
    have h1 := hf b hb
    nlinarith [htp (b + 1)]

theorem Spec.tailProd_inj [IsStrictOrderedRing K] {f : ℕ → K} {n : ℕ}
    (hf : ∀ j, j + 1 < n → 1 < f j) (hl : 0 < f (n - 1)) {a b : ℕ} (ha : a < n) (hb : b < n) :
    Spec.tailProd f n a = Spec.tailProd f n b ↔ a = b := by
  constructor
  · intro e
    rcases lt_trichotomy a b with h | h | h
    · exact absurd e (ne_of_gt (Spec.tailProd_lt hf hl h hb))
    · exact h
    · exact absurd e (ne_of_lt (Spec.tailProd_lt hf hl h ha))
  · rintro rfl; rfl

/-- **C127 (partial).**  Full claim: on every triangle on which `base_cl` returns, the ultimate of an
origin is its latest amount times the cumulative factor of its own maturity (the `cldf` shown in the
same row) and equals the `ultimate` of the squared triangle.  What holds: latest amount, maturity,
`cldf` and squared ultimate of every row belong to the origin's own maturity `len i`; the reported
`ultimate` uses the factor at position `n - 1 - i`.  So the claim holds for the origins observed for
exactly `n - i` periods, and, with factors above one, for no others.
Missing: origins whose latest amounts were not reported. -/
theorem C127_partial [IsStrictOrderedRing K] (h : Spec.Young t n m len c)
    (hc : ∀ i < n, ∀ j < len i, c i j ≠ 0) (ho : ind.origins = t.a2a.origins)
    (hi : ind.devs = t.a2a.devs) (hm : 2 ≤ m) {gm : List (Num K) → Num K} {r : BaseResult K}
    (hr : Spec.FromBase gm t ind r) {f : ℕ → K}
    (hf : r.ldfs.map Prod.snd = (List.range m).map (fun j => Num.fin (f j)))
    (hlab : r.ldfs.map Prod.fst = t.devs) :
    n = m ∧ ∀ i < n, ∃ row sq, r.rows[i]? = some row ∧ r.sqr.ultimate[i]? = some sq ∧
      row.origin = t.oAt i ∧ row.maturity = t.dAt (len i - 1) ∧
      row.latest = .fin (c i (len i - 1)) ∧
      row.cldf = .fin (∏ k ∈ Finset.Ico (len i - 1) n, f k) ∧
      sq = row.latest * row.cldf ∧
      row.ultimate = .fin (c i (len i - 1) * ∏ k ∈ Finset.Ico (n - 1 - i) n, f k) ∧
      (len i = n - i → row.ultimate = row.latest * row.cldf) ∧
      ((∀ j, j + 1 < n → 1 < f j) → 0 < f (n - 1) →
        (row.ultimate = row.latest * row.cldf ↔ len i = n - i)) := by
  obtain ⟨rfl, l, hb⟩ := h.fromBase hc ho hi hm hr
  have hl : r.ldfs = l := (baseFromLdfs_fields hb).1
  rw [hl] at hf hlab
  obtain ⟨r', e1, -, -, hrows, hsq⟩ := h.base_core (ldfs := l) (f := f) hf
  rw [hb] at e1
  have e1' : r = r' := by injection e1
  subst e1'
  refine ⟨rfl, fun i hi => ?_⟩
  obtain ⟨row, g1, g2, g3, g4, g5, g6, -⟩ := hrows i hi
  have h1 := h.one i hi
  have h2 := h.len_le hi
  have hcl : row.cldf = .fin (Spec.tailProd f n (len i - 1)) := by
    rw [g5]
    refine cldfs_get (ldfs := l) (f := f) hf ?_ (by omega) ?_
    · rw [hlab]; exact h.devs.nodup
    · rw [hlab]; exact h.dAt_get (by omega)
  have hu : ∀ _ : len i = n - i, row.ultimate = row.latest * row.cldf := by
    intro e
    rw [g4, hcl, g6, Num.fin_mul, e]
    congr 3; omega
  refine ⟨row, .fin (c i (len i - 1) * Spec.tailProd f n (len i - 1)), g1, ?_, g2, g3, g4, hcl, ?_,
    g6, hu, fun hf1 hfl => ⟨fun e => ?_, hu⟩⟩
  · rw [hsq, List.getElem?_map, List.getElem?_range hi]; rfl
  · rw [g4, hcl, Num.fin_mul]
  · rw [g4, hcl, g6, Num.fin_mul] at e
    injection e with e
    have e' := mul_left_cancel₀ (hc i hi (len i - 1) (by omega)) e
    rw [Spec.tailProd_inj hf1 hfl (by omega) (by omega)] at e'
    omega

/-- Records of origins 2001-2004; 2002 has not reported its third period. -/
def lateRecs : List (Rec ℚ) :=
  [⟨2001, 1, .fin 100⟩, ⟨2001, 2, .fin 50⟩, ⟨2001, 3, .fin 30⟩, ⟨2001, 4, .fin 18⟩,
   ⟨2002, 1, .fin 110⟩, ⟨2002, 2, .fin 55⟩, ⟨2003, 1, .fin 120⟩, ⟨2003, 2, .fin 60⟩,
   ⟨2004, 1, .fin 130⟩]

/-- C127 is violated: origin 2002, seen at 165 after two periods with a cumulative factor of 1.32, is
given the ultimate 181.5 instead of 217.8; the squared triangle has 217.8. -/
theorem C127_fails :
    ((totriCum lateRecs).bind (fun t => baseCL (fun _ => .nan) t t.a2aind0 "all-weighted" 1)).map
      (fun r => (r.rows.map (fun w => (w.maturity, w.latest, w.cldf)), r.rows.map SummRow.ultimate,
        r.sqr.ultimate)) =
    .ok ([(4, .fin 198, .fin 1), (2, .fin 165, .fin (33 / 25)), (2, .fin 180, .fin (33 / 25)),
        (1, .fin 130, .fin (99 / 50))],
      [.fin 198, .fin (363 / 2), .fin (1188 / 5), .fin (1287 / 5)],
      [.fin 198, .fin (1089 / 5), .fin (1188 / 5), .fin (1287 / 5)]) := by
  decide +kernel

/-- The triangle of these records, as a shape. -/
def lateLen : ℕ → ℕ := fun i => if i = 0 then 4 else if i = 3 then 1 else 2

example : Spec.Young (youngTri 4 4 lateLen exVals) 4 4 lateLen exVals :=
  youngTri_young exVals (by norm_num) rfl (by intro i _; unfold lateLen; split_ifs <;> omega)
    (by intro i k h1 h2; unfold lateLen; split_ifs <;> omega)

/-! ## C128 -/

/-- **C128, negative part.**  Full claim: `base_cl` and `mack_cl` work on triangles with more origins
than development periods (or fewer).  In the code they raise on every one of them that has at least
two periods, however the factors are chosen. -/
theorem C128_fails (h : Spec.Young t n m len c) (hc : ∀ i < n, ∀ j < len i, c i j ≠ 0)
    (ho : ind.origins = t.a2a.origins) (hi : ind.devs = t.a2a.devs) (hm : 2 ≤ m) (hne : n ≠ m)
    (gm : List (Num K) → Num K) (alpha : ℕ) :
    (¬ ∃ r, Spec.FromBase gm t ind r) ∧ ∃ e, mackCore alpha t ind = .error e := by
  refine ⟨fun ⟨r, hr⟩ => hne (h.fromBase hc ho hi hm hr).1, ?_⟩
  unfold mackCore
  cases hl : mackLdfs alpha t ind 1 with
  | error e => exact ⟨e, rfl⟩
  | ok l =>
    have hlen := h.mackLdfs_length hc hi hl
    exact ⟨.valueError, by
      simp only [bind, Except.bind]
      rw [h.baseFromLdfs_raises (by omega) (by omega)]⟩

/-- **C128, the array of factors has the right length**: still a `ValueError`. -/
theorem C128_array_fails (h : Spec.Young t n m len c) (hm : 2 ≤ m) (hne : n ≠ m)
    (sel : List (Num K)) (hs : sel.length = m - 1) (tail : Num K) :
    baseCLArray t sel tail = .error .valueError := by
  unfold baseCLArray ldfsByArray
  have e' : t.devs.length = m := h.nc
  rw [if_pos (by rw [h.nc]; simp; omega)]
  have hl : (t.devs.zip (sel ++ [tail])).length = m := by
    rw [List.length_zip, e']; simp; omega
  exact h.baseFromLdfs_raises (by rw [hl]; exact fun e => hne e.symm) (by omega)

/-- **C128, latest origin with two periods.**  As soon as the latest origin is observed for two or
more periods no average can be computed, so neither `base_cl` by name nor `boot_cl` returns, whatever
the number of origins. -/
theorem C128_avgs_fail (h : Spec.Young t n m len c) (hc : ∀ i < n, ∀ j < len i, c i j ≠ 0)
    (ho : ind.origins = t.a2a.origins) (hi : ind.devs = t.a2a.devs) (hlast : 2 ≤ len (n - 1))
    (gm : List (Num K) → Num K) :
    (∃ e, a2aAvgs gm t ind = .error e) ∧
    (∀ sel tail, ∃ e, baseCL gm t ind sel tail = .error e) ∧
    ∀ sq, ∃ e, bootFit sq gm t ind = .error e := by
  obtain ⟨e, he⟩ := h.a2aAvgs_raises hc ho hi hlast gm
  have hl : ∀ sel tail, ldfsByName gm t ind sel tail = .error e := by
    intro sel tail
    unfold ldfsByName
    rw [he]; rfl
  refine ⟨⟨e, he⟩, fun sel tail => ⟨e, ?_⟩, fun sq => ⟨e, ?_⟩⟩
  · unfold baseCL; rw [hl]; rfl
  · unfold bootFit; rw [hl]; rfl

/-- **C128 (partial)**: with as many origins as periods `base_cl` returns for every array of factors,
whatever the lengths of the origins.  Missing: all other triangles. -/
theorem C128_partial (h : Spec.Young t n m len c) (hnm : n = m) {sel : List K} {tail : K}
    (hs : sel.length = m - 1) :
    ∃ r, baseCLArray t (sel.map Num.fin) (.fin tail) = .ok r ∧ r.rows.length = n := by
  subst hnm
  have hn := h.ne
  have hv : sel.map Num.fin ++ [Num.fin tail] =
      (List.range n).map (fun j => Num.fin ((sel ++ [tail]).getD j 0)) := by
    have : sel.map Num.fin ++ [Num.fin tail] = (sel ++ [tail]).map Num.fin := by simp
    rw [this]
    apply List.ext_getElem
    · simp; omega
    · intro j h1 h2
      simp only [List.getElem_map, List.getElem_range]
      congr 1
      rw [List.getD_eq_getElem?_getD, List.getElem?_eq_getElem (by simpa using h1)]
      rfl
  have hlen : (sel.map Num.fin ++ [Num.fin tail]).length = t.nc := by rw [h.nc]; simp; omega
  have hf : LdfVals (t.devs.zip (sel.map Num.fin ++ [Num.fin tail])) n
      (fun j => (sel ++ [tail]).getD j 0) := by
    unfold LdfVals
    rw [List.map_snd_zip (by rw [hlen]; exact le_refl _), hv]
  obtain ⟨r, h1, -, h2, -⟩ := h.base_core hf
  refine ⟨r, ?_, h2⟩
  unfold baseCLArray ldfsByArray
  rw [if_pos hlen]
  exact h1

/-- Four origins, three periods. -/
def trapVals : ℕ → ℕ → ℚ := fun i j =>
  ((([[100, 150, 165], [110, 168, 180], [120, 176], [130]] : List (List ℚ)).getD i []).getD j 0)

/-- Its observed periods. -/
def trapLen : ℕ → ℕ := fun i => if i < 2 then 3 else if i = 2 then 2 else 1

/-- The four-by-three triangle. -/
def trapTri : Tri ℚ := youngTri 4 3 trapLen trapVals

theorem trapTri_young : Spec.Young trapTri 4 3 trapLen trapVals :=
  youngTri_young trapVals (by norm_num) rfl (by intro i _; unfold trapLen; split_ifs <;> omega)
    (by intro i k h1 h2; unfold trapLen; split_ifs <;> omega)

example : (baseCL (fun _ => .nan) trapTri trapTri.a2aind0 "all-weighted" 1).map (fun r => r.rows.length) =
    .error .valueError ∧
    (mackCore 1 trapTri trapTri.a2aind0).map (fun r => r.rows.length) = .error .valueError ∧
    (a2aAvgs (fun _ => .nan) trapTri trapTri.a2aind0).map (fun a => a.devs) = .ok [1, 2] := by
  decide +kernel

end Trikit
