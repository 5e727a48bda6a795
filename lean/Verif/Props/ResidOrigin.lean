import Verif.MackTests
import Verif.Props.Resid
import Verif.Props.Transform

/-!
# C86: residuals by origin against residuals by development period
-/

set_option linter.unusedSectionVars false

namespace Trikit

section
variable {K : Type} [Field K] [LinearOrder K] [IsStrictOrderedRing K]

/-- `shift(1)` along the labels `u`, read at a label. -/
theorem hat_at {u : List Int} (hu : u.Nodup) (g : Int → Num K) {k : ℕ} {d : Int} (hk : u[k]? = some d) :
    (originHat.shiftOne (u.map g)).getD (u.idxOf d) .nan =
      match k with
      | 0 => .nan
      | m + 1 => ((u[m]?).map g).getD .nan := by
  obtain ⟨hlt, rfl⟩ := List.getElem?_eq_some_iff.1 hk
  rw [hu.idxOf_getElem k hlt]
  unfold originHat.shiftOne
  rw [List.getD_eq_getElem?_getD, List.getElem?_dropLast]
  simp only [List.length_cons, List.length_map, Nat.add_sub_cancel, if_pos hlt]
  cases k with
  | zero => rfl
  | succ m => rw [List.getElem?_cons_succ, List.getElem?_map]

/-- The factors of the Mack estimator on a staircase: labels of all periods but the last, then a label
`lab` beyond them for the tail. -/
def MackLdfs (t : Tri K) (n : ℕ) (lab : Int) (f : ℕ → K) (ldfs : Ser K) : Prop :=
  ldfs = (t.devs.take (n - 1) ++ [lab]).zip ((List.range n).map (fun j => Num.fin (f j))) ∧
    ∀ j < n - 1, t.dAt j < lab

variable {t : Tri K} {n : ℕ} {c : ℕ → ℕ → K} {lab : Int} {f : ℕ → K} {ldfs : Ser K}

theorem MackLdfs.labels_eq (h : Spec.Stair t n c) (hn : 1 ≤ n) (hl : MackLdfs t n lab f ldfs) :
    ldfs.map Prod.fst = t.devs.take (n - 1) ++ [lab] := by
  have hlen : t.devs.length = n := h.nc
  rw [hl.1, List.map_fst_zip]
  simp [hlen]; omega

theorem MackLdfs.get (h : Spec.Stair t n c) (hl : MackLdfs t n lab f ldfs) {j : ℕ} (hj : j < n - 1) :
    Ser.get ldfs (t.dAt j) = .fin (f j) := by
  rw [hl.1]
  refine Ser.get_zip (k := j) ?_ ?_ ?_
  · rw [List.nodup_append]
    refine ⟨(h.devs.nodup.sublist (List.take_sublist _ _)), by simp, ?_⟩
    intro a ha b hb
    rw [List.mem_singleton] at hb
    subst hb
    obtain ⟨k, hk⟩ := List.mem_iff_getElem?.1 ha
    rw [List.getElem?_take] at hk
    split at hk
    · next hkn =>
      rw [h.dAt_get (by omega)] at hk
      have := hl.2 k hkn
      simp only [Option.some.injEq] at hk
      omega
    · cases hk
  · rw [List.getElem?_append_left (by rw [List.length_take, show t.devs.length = n from h.nc]; omega),
      List.getElem?_take, if_pos hj, h.dAt_get (by omega)]
  · rw [List.getElem?_map, List.getElem?_range (by omega)]; rfl

/-- Labels of the product: a list starting with all periods but the last. -/
theorem MackLdfs.union_eq (h : Spec.Stair t n c) (hn : 1 ≤ n) (hl : MackLdfs t n lab f ldfs) :
    originLabels t ldfs = t.devs.take (n - 1) ++
      (if lab < t.dAt (n - 1) then [lab, t.dAt (n - 1)]
        else if lab = t.dAt (n - 1) then [lab] else [t.dAt (n - 1), lab]) := by
  have hlen : t.devs.length = n := h.nc
  have hsplit : t.devs = t.devs.take (n - 1) ++ [t.dAt (n - 1)] := by
    obtain ⟨hlt, he⟩ := List.getElem?_eq_some_iff.1 (h.dAt_get (show n - 1 < n by omega))
    conv_lhs => rw [← List.take_append_drop (n - 1) t.devs]
    congr 1
    rw [List.drop_eq_getElem_cons hlt, he, List.drop_eq_nil_of_le (by omega)]
  have hlast : ∀ x ∈ t.devs.take (n - 1), x < t.dAt (n - 1) ∧ x < lab := by
    intro x hx
    obtain ⟨k, hk⟩ := List.mem_iff_getElem?.1 hx
    rw [List.getElem?_take] at hk
    split at hk
    · next hkn =>
      rw [h.dAt_get (by omega)] at hk
      simp only [Option.some.injEq] at hk
      subst hk
      exact ⟨incr_get_lt h.devs (h.dAt_get (show k < n by omega)) (h.dAt_get (show n - 1 < n by omega)) hkn,
        hl.2 k hkn⟩
    · cases hk
  unfold originLabels
  rw [hl.labels_eq h hn]
  apply labels_eq_of_mem
  · rw [List.pairwise_append]
    refine ⟨List.Pairwise.sublist (List.take_sublist _ _) h.devs, ?_, ?_⟩
    · split
      · next h1 => simpa using h1
      · split
        · simp
        · next h1 h2 => simp; omega
    · intro x hx y hy
      obtain ⟨h1, h2⟩ := hlast x hx
      split at hy
      · simp at hy; omega
      · split at hy
        · simp at hy; omega
        · simp at hy; omega
  · intro x
    have hx : x ∈ t.devs ↔ x ∈ t.devs.take (n - 1) ∨ x = t.dAt (n - 1) := by
      conv_lhs => rw [hsplit]
      rw [List.mem_append, List.mem_singleton]
    simp only [List.mem_append, hx, List.mem_singleton]
    split
    · simp only [List.mem_cons, List.not_mem_nil, or_false]; tauto
    · split
      · next h1 h2 => simp only [List.mem_cons, List.not_mem_nil, or_false, h2]; tauto
      · simp only [List.mem_cons, List.not_mem_nil, or_false]; tauto

/-- Prediction of the period after `j`. -/
theorem MackLdfs.hat (h : Spec.Stair t n c) (hn : 2 ≤ n) (hl : MackLdfs t n lab f ldfs) (i : ℕ) {j : ℕ}
    (hj : j + 1 < n) : originHat t ldfs i (t.dAt (j + 1)) =
      if j + 1 < n - 1 ∨ t.dAt (n - 1) ≤ lab then t.cell i j * .fin (f j) else .nan := by
  have hlen : t.devs.length = n := h.nc
  have hu : (originLabels t ldfs).Nodup := labels_nodup _
  have hol := hl.union_eq h (by omega)
  have htake : ∀ k < n - 1, (t.devs.take (n - 1))[k]? = some (t.dAt k) := by
    intro k hk
    rw [List.getElem?_take, if_pos hk, h.dAt_get (by omega)]
  have htl : (t.devs.take (n - 1)).length = n - 1 := by rw [List.length_take]; omega
  have hpre : ∀ k < n - 1, (originLabels t ldfs)[k]? = some (t.dAt k) := by
    intro k hk
    rw [hol, List.getElem?_append_left (by omega), htake k hk]
  have hprod : ∀ k < n - 1, originProd t ldfs i (t.dAt k) = t.cell i k * .fin (f k) := by
    intro k hk
    unfold originProd
    have hm : t.dAt k ∈ t.devs := List.mem_of_getElem? (h.dAt_get (show k < n by omega))
    obtain ⟨hlt, he⟩ := List.getElem?_eq_some_iff.1 (h.dAt_get (show k < n by omega))
    have hidx : t.devs.idxOf (t.dAt k) = k := by
      rw [← he]; exact h.devs.nodup.idxOf_getElem k hlt
    rw [if_pos hm, hidx, hl.get h hk]
  unfold originHat
  by_cases hj2 : j + 1 < n - 1
  · rw [hat_at hu _ (hpre (j + 1) hj2), if_pos (Or.inl hj2)]
    simp only [hpre j (by omega), Option.map_some, Option.getD_some]
    exact hprod j (by omega)
  · have hjn : j + 1 = n - 1 := by omega
    by_cases hlab : t.dAt (n - 1) ≤ lab
    · have hk : (originLabels t ldfs)[j + 1]? = some (t.dAt (j + 1)) := by
        rw [hol, List.getElem?_append_right (by omega), htl, hjn, Nat.sub_self, if_neg (by omega)]
        split
        · next e => simp [e]
        · rfl
      rw [hat_at hu _ hk, if_pos (Or.inr hlab)]
      simp only [hpre j (by omega), Option.map_some, Option.getD_some]
      exact hprod j (by omega)
    · have hk : (originLabels t ldfs)[j + 2]? = some (t.dAt (j + 1)) := by
        rw [hol, List.getElem?_append_right (by omega), htl, show j + 2 - (n - 1) = 1 by omega,
          if_pos (by omega), hjn]; rfl
      have hk' : (originLabels t ldfs)[j + 1]? = some lab := by
        rw [hol, List.getElem?_append_right (by omega), htl, show j + 1 - (n - 1) = 0 by omega,
          if_pos (by omega)]; rfl
      rw [hat_at hu _ hk, if_neg (by omega)]
      simp only [hk', Option.map_some, Option.getD_some]
      unfold originProd
      rw [if_neg]
      intro hm
      obtain ⟨k, hk2⟩ := List.mem_iff_getElem?.1 hm
      have hkn : k < n := by
        by_contra hc
        rw [List.getElem?_eq_none (by omega)] at hk2; cases hk2
      rw [h.dAt_get hkn] at hk2
      simp only [Option.some.injEq] at hk2
      by_cases e : k < n - 1
      · have := hl.2 k e; omega
      · have : k = n - 1 := by omega
        subst this; omega

theorem MackLdfs.hat_zero (h : Spec.Stair t n c) (hn : 2 ≤ n) (hl : MackLdfs t n lab f ldfs) (i : ℕ) :
    originHat t ldfs i (t.dAt 0) = .nan := by
  have hlen : t.devs.length = n := h.nc
  have hol := hl.union_eq h (by omega)
  have : (originLabels t ldfs)[0]? = some (t.dAt 0) := by
    rw [hol, List.getElem?_append_left (by rw [List.length_take]; omega), List.getElem?_take,
      if_pos (by omega), h.dAt_get (by omega)]
  have hu : (originLabels t ldfs).Nodup := labels_nodup _
  unfold originHat
  rw [hat_at hu _ this]

/-- Residuals of one origin. -/
theorem originResids_stair (h : Spec.Stair t n c) (hn : 2 ≤ n) (hl : MackLdfs t n lab f ldfs) {i : ℕ}
    (hi : i < n) : originResids t ldfs i =
      ((List.range (n - 1 - i)).filter (fun j => decide (j + 1 < n - 1 ∨ t.dAt (n - 1) ≤ lab))).map
        (fun j => (t.oAt i, t.dAt (j + 1), .fin (c i j * f j - c i (j + 1)))) := by
  unfold originResids
  rw [h.nc]
  obtain ⟨m, rfl⟩ : ∃ m, n = m + 1 := ⟨n - 1, by omega⟩
  rw [List.range_succ_eq_map, List.filter_cons, hl.hat_zero h hn]
  simp only [Num.isNaN_nan, Bool.not_true, Bool.and_false, Bool.false_eq_true, if_false]
  rw [List.filter_map, List.map_map]
  have e1 : (List.range m).filter ((fun j => !(t.cell i j).isNaN &&
      !(originHat t ldfs i (t.dAt j)).isNaN) ∘ Nat.succ) =
      (List.range (m + 1 - 1 - i)).filter (fun j => decide (j + 1 < m + 1 - 1 ∨ t.dAt (m + 1 - 1) ≤ lab)) := by
    have hm : m = (m + 1 - 1 - i) + i := by omega
    conv_lhs => rw [hm, List.range_add, List.filter_append]
    rw [(List.filter_eq_nil_iff (l := List.map _ (List.range i))).2, List.append_nil]
    · refine List.filter_congr (fun j hj => ?_)
      rw [List.mem_range] at hj
      simp only [Function.comp, Nat.succ_eq_add_one]
      rw [hl.hat h hn i (by omega), h.obs i (j + 1) (by omega), h.obs i j (by omega)]
      by_cases hc : j + 1 < m + 1 - 1 ∨ t.dAt (m + 1 - 1) ≤ lab
      · rw [if_pos hc, decide_eq_true hc]; rfl
      · rw [if_neg hc, decide_eq_false hc]; rfl
    · intro x hx
      obtain ⟨k, hk, rfl⟩ := List.mem_map.1 hx
      rw [List.mem_range] at hk
      simp only [Function.comp, Nat.succ_eq_add_one]
      rw [h.miss i _ hi (by omega) (by omega)]
      simp
  rw [e1]
  refine List.map_congr_left (fun j hj => ?_)
  rw [List.mem_filter, List.mem_range, decide_eq_true_eq] at hj
  simp only [Function.comp, Nat.succ_eq_add_one]
  rw [hl.hat h hn i (by omega), if_pos hj.2, h.obs i (j + 1) (by omega), h.obs i j (by omega), Num.fin_mul,
    Num.fin_sub]

end

/-- What a row of residuals is about: origin, period, residual. -/
def ResidRow.key (r : ResidRow) : Int × Int × Num ℝ := (r.origin, r.dev, r.resid)

theorem stdGroup_key (l : List (Int × Int × Num ℝ)) : (stdGroup l).map ResidRow.key = l := by
  unfold stdGroup
  simp only [List.map_map]
  conv_rhs => rw [← List.map_id l]
  rfl

/-- Pairs of consecutive observations listed by origin. -/
def pairsByOrigin (n : ℕ) (b : Bool) : List (ℕ × ℕ) :=
  (List.range (n - 1)).flatMap (fun i =>
    ((List.range (n - 1 - i)).filter (fun j => decide (j + 1 < n - 1) || b)).map (fun j => (i, j)))

/-- Pairs of consecutive observations listed by period, without the last period. -/
def pairsByDevp (n : ℕ) : List (ℕ × ℕ) :=
  (List.range (n - 2)).flatMap (fun j => (List.range (n - 1 - j)).map (fun i => (i, j)))

theorem pairs_perm {n : ℕ} (hn : 2 ≤ n) (b : Bool) :
    (pairsByOrigin n b).Perm (pairsByDevp n ++ if b then [(0, n - 2)] else []) := by
  refine (List.perm_ext_iff_of_nodup ?_ ?_).2 ?_
  · refine List.nodup_flatMap.2 ⟨fun i _ => ?_, ?_⟩
    · exact (List.nodup_range.filter _).map (fun a b h => (Prod.mk.inj h).2)
    · refine List.nodup_range.imp (fun {i i'} hne => ?_)
      intro x hx hx'
      simp only [List.mem_map] at hx hx'
      obtain ⟨_, _, rfl⟩ := hx
      obtain ⟨_, _, e⟩ := hx'
      exact hne (Prod.mk.inj e).1.symm
  · rw [List.nodup_append]
    refine ⟨List.nodup_flatMap.2 ⟨fun j _ => ?_, ?_⟩, by split <;> simp, ?_⟩
    · exact List.nodup_range.map (fun a b h => (Prod.mk.inj h).1)
    · refine List.nodup_range.imp (fun {i i'} hne => ?_)
      intro x hx hx'
      simp only [List.mem_map] at hx hx'
      obtain ⟨_, _, rfl⟩ := hx
      obtain ⟨_, _, e⟩ := hx'
      exact hne (Prod.mk.inj e).2.symm
    · rintro ⟨i, j⟩ hx y hy rfl
      simp only [pairsByDevp, List.mem_flatMap, List.mem_range, List.mem_map, Prod.mk.injEq] at hx
      obtain ⟨j', hj', i', hi', rfl, rfl⟩ := hx
      split at hy
      · simp only [List.mem_singleton, Prod.mk.injEq] at hy; omega
      · simp at hy
  · rintro ⟨i, j⟩
    simp only [pairsByOrigin, pairsByDevp, List.mem_append, List.mem_flatMap, List.mem_range, List.mem_map,
      List.mem_filter, Bool.or_eq_true, decide_eq_true_eq, Prod.mk.injEq]
    constructor
    · rintro ⟨i', hi', j', ⟨hj', hb⟩, rfl, rfl⟩
      by_cases e : j' + 1 < n - 1
      · exact Or.inl ⟨j', by omega, i', by omega, rfl, rfl⟩
      · right
        rw [if_pos (hb.resolve_left e), List.mem_singleton, Prod.mk.injEq]
        omega
    · rintro (⟨j', hj', i', hi', rfl, rfl⟩ | h)
      · exact ⟨i', by omega, j', ⟨by omega, Or.inl (by omega)⟩, rfl, rfl⟩
      · split at h
        · next hb =>
          rw [List.mem_singleton, Prod.mk.injEq] at h
          obtain ⟨rfl, rfl⟩ := h
          exact ⟨0, by omega, n - 2, ⟨by omega, Or.inr hb⟩, rfl, rfl⟩
        · simp at h

section
variable {t : Tri ℝ} {n : ℕ} {c : ℕ → ℕ → ℝ} {lab : Int} {f : ℕ → ℝ} {ldfs : Ser ℝ}

theorem byOrigin_keys (h : Spec.Stair t n c) (hn : 2 ≤ n) (hl : MackLdfs t n lab f ldfs) :
    (residualsByOrigin t ldfs).map ResidRow.key =
      (pairsByOrigin n (decide (t.dAt (n - 1) ≤ lab))).map (fun p =>
        (t.oAt p.1, t.dAt (p.2 + 1), .fin (c p.1 p.2 * f p.2 - c p.1 (p.2 + 1)))) := by
  unfold residualsByOrigin pairsByOrigin
  rw [h.nr, List.map_flatMap, List.map_flatMap]
  refine List.flatMap_congr (fun i hi => ?_)
  rw [List.mem_range] at hi
  rw [stdGroup_key, originResids_stair h hn hl (by omega), List.map_map]
  simp only [Bool.decide_or]
  rfl

theorem byDevp_keys (h : Spec.Stair t n c) (hl : MackLdfs t n lab f ldfs) :
    (residualsByDevp t ldfs).map ResidRow.key =
      (pairsByDevp n).map (fun p =>
        (t.oAt p.1, t.dAt p.2, .fin (c p.1 p.2 * f p.2 - c p.1 (p.2 + 1)))) := by
  rw [residualsByDevp_stair h (fun j hj => hl.get h hj)]
  unfold pairsByDevp
  rw [List.map_flatMap, List.map_flatMap]
  refine List.flatMap_congr (fun j _ => ?_)
  rw [stdGroup_key, finGroup, residGroup, List.map_map, List.map_map]
  rfl

/-- The factors the estimator really computes are of the assumed form. -/
theorem mackLdfs_form {ind : Tri ℝ} {w : ℕ → ℕ → ℝ} (h : Spec.Stair t n c)
    (hc : ∀ i j, i + j < n → c i j ≠ 0) (hi : IndW t ind n w) (hn : 3 ≤ n) (alpha : ℕ)
    (hw : ∀ j < n - 1, Spec.mackW alpha n c w j ≠ 0) (tail : ℝ) :
    ∃ lab ldfs, tailLabel (t.devs.take (n - 1)) = .ok lab ∧ mackLdfs alpha t ind (.fin tail) = .ok ldfs ∧
      MackLdfs t n lab (Spec.withTail (Spec.mackF alpha n c w) n tail) ldfs := by
  obtain ⟨lab, h1, h2, h3⟩ := mackLdfs_stair h hc hi hn alpha hw tail
  exact ⟨lab, _, h1, h3, rfl, h2⟩

/-- **C86, partial**: with the factors of the Mack estimator, every pair of consecutive observations in the
listing by period is in the listing by origin exactly once with the same residual (named there after the
later period), and the listing by origin has at most one more row: the oldest origin's last pair, present
exactly when the tail label is at or after the last period.  Missing from the full statement: this extra
row, and equality of the standardized values (each listing has its own `sigma`). -/
theorem C86_partial {ind : Tri ℝ} {w : ℕ → ℕ → ℝ} (h : Spec.Stair t n c)
    (hc : ∀ i j, i + j < n → c i j ≠ 0) (hi : IndW t ind n w) (hn : 3 ≤ n) (alpha : ℕ)
    (hw : ∀ j < n - 1, Spec.mackW alpha n c w j ≠ 0) (tail : ℝ) :
    ∃ (lab : Int) (ldfs : Ser ℝ) (l : List (ℕ × ℕ)) (x : ℕ → ℕ → ℝ),
      tailLabel (t.devs.take (n - 1)) = .ok lab ∧ mackLdfs alpha t ind (.fin tail) = .ok ldfs ∧
      (∀ i j, x i j = c i j * Spec.withTail (Spec.mackF alpha n c w) n tail j - c i (j + 1)) ∧
      l.Nodup ∧ (∀ i j, (i, j) ∈ l ↔ j < n - 2 ∧ i + j + 1 < n) ∧
      (residualsByDevp t ldfs).map ResidRow.key = l.map (fun p => (t.oAt p.1, t.dAt p.2, .fin (x p.1 p.2))) ∧
      ((residualsByOrigin t ldfs).map ResidRow.key).Perm
        (l.map (fun p => (t.oAt p.1, t.dAt (p.2 + 1), .fin (x p.1 p.2))) ++
          if t.dAt (n - 1) ≤ lab then [(t.oAt 0, t.dAt (n - 1), .fin (x 0 (n - 2)))] else []) := by
  obtain ⟨lab, ldfs, h1, h2, hl⟩ := mackLdfs_form h hc hi hn alpha hw tail
  have hp := pairs_perm (show 2 ≤ n by omega) (decide (t.dAt (n - 1) ≤ lab))
  refine ⟨lab, ldfs, pairsByDevp n, _, h1, h2, fun _ _ => rfl, ?_, ?_, byDevp_keys h hl, ?_⟩
  · refine List.nodup_flatMap.2 ⟨fun j _ => List.nodup_range.map (fun a b h => (Prod.mk.inj h).1), ?_⟩
    refine List.nodup_range.imp (fun {i i'} hne => ?_)
    intro x hx hx'
    simp only [List.mem_map] at hx hx'
    obtain ⟨_, _, rfl⟩ := hx
    obtain ⟨_, _, e⟩ := hx'
    exact hne (Prod.mk.inj e).2.symm
  · intro i j
    simp only [pairsByDevp, List.mem_flatMap, List.mem_range, List.mem_map, Prod.mk.injEq]
    constructor
    · rintro ⟨j', hj', i', hi', rfl, rfl⟩; omega
    · rintro ⟨h1, h2⟩; exact ⟨j, by omega, i, by omega, rfl, rfl⟩
  · rw [byOrigin_keys h (by omega) hl]
    refine (hp.map _).trans ?_
    rw [List.map_append]
    refine List.Perm.append_left _ ?_
    by_cases hb : t.dAt (n - 1) ≤ lab
    · rw [decide_eq_true hb, if_pos rfl, if_pos hb, List.map_singleton, show n - 2 + 1 = n - 1 by omega]
    · rw [decide_eq_false hb, if_neg (by simp), if_neg hb, List.map_nil]

end

theorem unit_form : MackLdfs (stairTri 4 (unitVals 1)) 4 4 (fun j => ([3, 5 / 4, 6 / 5, 1] : List ℝ).getD j 0)
    unitLdfs := by
  refine ⟨?_, ?_⟩
  · simp [unitLdfs, stairTri, List.range_succ]
  · intro j hj
    have : j = 0 ∨ j = 1 ∨ j = 2 := by omega
    rcases this with rfl | rfl | rfl <;> simp [stairTri, Tri.dAt, List.range_succ]

/-- **C86 fails**: a 4 x 4 triangle with periods 1 to 4 has five residuals by period and six by origin; the
sixth is the oldest origin's last pair. -/
theorem C86_fails : (residualsByDevp (stairTri 4 (unitVals 1)) unitLdfs).length = 5 ∧
    (residualsByOrigin (stairTri 4 (unitVals 1)) unitLdfs).length = 6 ∧
    ∃ r ∈ residualsByOrigin (stairTri 4 (unitVals 1)) unitLdfs, r.key = (2001, 4, .fin 0) := by
  have hs := stairTri_stair 4 (unitVals 1)
  have k1 := byDevp_keys hs unit_form
  have k2 := byOrigin_keys hs (by norm_num) unit_form
  have hd : decide ((stairTri 4 (unitVals 1)).dAt (4 - 1) ≤ 4) = true := by
    simp [stairTri, Tri.dAt, List.range_succ]
  rw [hd] at k2
  refine ⟨?_, ?_, ?_⟩
  · have := congrArg List.length k1
    rw [List.length_map, List.length_map] at this
    rw [this]; decide
  · have := congrArg List.length k2
    rw [List.length_map, List.length_map] at this
    rw [this]; decide
  · have : ((2001 : Int), (4 : Int), Num.fin (0 : ℝ)) ∈
        (residualsByOrigin (stairTri 4 (unitVals 1)) unitLdfs).map ResidRow.key := by
      rw [k2, List.mem_map]
      refine ⟨(0, 2), by decide, ?_⟩
      simp only [unitVals]
      norm_num [stairTri, Tri.dAt, Tri.oAt, List.range_succ]
    obtain ⟨r, hr, e⟩ := List.mem_map.1 this
    exact ⟨r, hr, e⟩

/-- Numbers of rows on a 5 x 5 triangle: nine by period; ten or nine by origin. -/
example : (pairsByDevp 5).length = 9 ∧ (pairsByOrigin 5 true).length = 10 ∧
    (pairsByOrigin 5 false).length = 9 := by decide

end Trikit
