import Verif.Props.MackReal

/-!
# C215: periods all of whose link ratios are excluded

`mack_cl` (mack.py:59-210, 250-334, 337-436, base.py:180-281) with indicators that leave a development period without any
link ratio.  Ultimates are then missing exactly for the origins that still have to pass such a period.  Their standard errors
should be missing too, and the total should be missing or say what it leaves out; the code reports standard errors of 0 and
totals over the other origins.
-/

set_option linter.unusedSectionVars false

namespace Trikit

variable {K : Type} [Field K] [LinearOrder K] [IsStrictOrderedRing K]
variable {t ind : Tri K} {n : ℕ} {c w : ℕ → ℕ → K}

/-! ## specification -/

/-- No link ratio of period `j` is left. -/
def Spec.Lost (n : ℕ) (w : ℕ → ℕ → K) (j : ℕ) : Prop := ∀ i, i + j + 1 < n → w i j = 0

/-- Origin `i` still has to pass a period without link ratios. -/
def Spec.Stuck (n : ℕ) (w : ℕ → ℕ → K) (i : ℕ) : Prop := ∃ j, n - 1 ≤ i + j ∧ j < n - 1 ∧ Spec.Lost n w j

/-! ## cumulative factors and squared triangle with missing factors -/

theorem cumprodRev_drop (l : List (Num K)) (j : ℕ) : (cumprodRev l).drop j = cumprodRev (l.drop j) := by
  induction l generalizing j with
  | nil => simp [cumprodRev]
  | cons a l ih =>
    cases j with
    | zero => rfl
    | succ j =>
      rw [List.drop_succ_cons, ← ih j, cumprodRev]
      cases h : cumprodRev l with
      | nil => simp
      | cons b bs => simp

theorem cumprodRev_nan (l : List (Num K)) (h : Num.nan ∈ l) : (cumprodRev l)[0]? = some .nan := by
  induction l with
  | nil => cases h
  | cons a l ih =>
    rw [cumprodRev]
    rcases List.mem_cons.1 h with rfl | h
    · cases cumprodRev l with
      | nil => rfl
      | cons b bs => simp [Num.mul_nan]
    · have := ih h
      cases e : cumprodRev l with
      | nil => rw [e] at this; simp at this
      | cons b bs =>
        rw [e] at this
        simp only [List.getElem?_cons_zero, Option.some.injEq] at this
        subst this
        simp [Num.nan_mul]

/-- Cumulative factors of a list of factors. -/
def cumAt (F : ℕ → Num K) (n j : ℕ) : Num K := (cumprodRev ((List.range n).map F)).getD j .nan

theorem cumAt_nan {F : ℕ → Num K} {j p : ℕ} (hj : j ≤ p) (hp : p < n) (hF : F p = .nan) : cumAt F n j = .nan := by
  unfold cumAt
  rw [List.getD_eq_getElem?_getD]
  have h1 := cumprodRev_nan (((List.range n).map F).drop j) (by
    rw [← hF]
    rw [List.mem_iff_getElem?]
    refine ⟨p - j, ?_⟩
    rw [List.getElem?_drop, List.getElem?_map, List.getElem?_range (by omega)]
    rw [show j + (p - j) = p by omega]; rfl)
  rw [← cumprodRev_drop, List.getElem?_drop] at h1
  simp only [add_zero] at h1
  rw [h1]; rfl

theorem cumAt_fin {F : ℕ → Num K} {f : ℕ → K} {j : ℕ} (hj : j < n) (hF : ∀ m, j ≤ m → m < n → F m = .fin (f m)) :
    cumAt F n j = .fin (Spec.tailProd f n j) := by
  unfold cumAt
  rw [List.getD_eq_getElem?_getD]
  have e : ((List.range n).map F).drop j = (((List.range n).map f).drop j).map Num.fin := by
    apply List.ext_getElem?
    intro m
    rw [List.getElem?_drop, List.getElem?_map, List.getElem?_map, List.getElem?_drop, List.getElem?_map]
    by_cases hm : j + m < n
    · rw [List.getElem?_range hm]
      simp only [Option.map_some]
      rw [hF _ (by omega) hm]
    · rw [List.getElem?_eq_none (by simpa using hm)]; rfl
  have h1 : (cumprodRev ((List.range n).map F))[j]? = (cumprodRev (((List.range n).map F).drop j))[0]? := by
    rw [← cumprodRev_drop, List.getElem?_drop]; simp
  rw [h1, e, cumprodRev_fin]
  have hl : 0 < (((List.range n).map f).drop j).length := by simp; omega
  rw [List.getElem?_map, List.getElem?_range hl]
  simp only [Option.map_some, Option.getD_some, List.drop_zero]
  rw [drop_range_prod]

/-- Results of `base_cl` with factors that may be missing. -/
theorem base_core_missing (h : Spec.Stair t n c) (hn : 1 ≤ n) {ldfs : Ser K} {F : ℕ → Num K}
    (hf : ldfs.map Prod.snd = (List.range n).map F) :
    ∃ r, baseFromLdfs t ldfs = .ok r ∧ r.rows.length = n ∧
      (∀ i < n, ∃ row, r.rows[i]? = some row ∧ row.latest = .fin (c i (n - 1 - i)) ∧
        row.ultimate = .fin (c i (n - 1 - i)) * cumAt F n (n - 1 - i) ∧
        row.reserve = .fin (c i (n - 1 - i)) * cumAt F n (n - 1 - i) - .fin (c i (n - 1 - i))) ∧
      r.totUltimate = Num.sumSkip ((List.range n).map (fun i => .fin (c i (n - 1 - i)) * cumAt F n (n - 1 - i))) ∧
      r.totReserve = Num.sumSkip ((List.range n).map
        (fun i => .fin (c i (n - 1 - i)) * cumAt F n (n - 1 - i) - .fin (c i (n - 1 - i)))) ∧
      r.totLatest = .fin (∑ i ∈ Finset.range n, c i (n - 1 - i)) ∧
      ∀ i j, r.sqr.tri.cell i j = Trikit.sqrCell t (fun j => (ldfs.map Prod.snd).getD j .nan) i j := by
  have hlen : ldfs.length = n := by rw [← List.length_map (f := Prod.snd), hf]; simp
  have hlat : t.latestByOrigin.map Prod.snd = (List.range n).map (fun i => Num.fin (c i (n - 1 - i))) := by
    rw [h.latestByOrigin, List.map_map]; rfl
  have hcl : (cldfsOf ldfs).map Prod.snd = cumprodRev ((List.range n).map F) := by
    unfold cldfsOf
    rw [List.map_snd_zip (by rw [cumprodRev_length]; simp), hf]
  have hcl2 : (cumprodRev ((List.range n).map F)).reverse = (List.range n).map (fun i => cumAt F n (n - 1 - i)) := by
    apply List.ext_getElem
    · simp [cumprodRev_length]
    · intro i h1 h2
      simp only [List.length_map, List.length_range] at h2
      rw [List.getElem_reverse, List.getElem_map, List.getElem_range]
      unfold cumAt
      rw [List.getD_eq_getElem?_getD, List.getElem?_eq_getElem (by rw [cumprodRev_length]; simp; omega)]
      simp only [Option.getD_some, cumprodRev_length, List.length_map, List.length_range]
  have hult : ultimatesOf t (cldfsOf ldfs) = .ok ((List.range n).map
      (fun i => .fin (c i (n - 1 - i)) * cumAt F n (n - 1 - i))) := by
    unfold ultimatesOf
    simp only
    rw [hlat, hcl, hcl2, h.nr, if_pos (by simp)]
    congr 1
    apply List.ext_getElem
    · simp
    · intro i h1 h2
      simp
  have hres : reservesOf t ((List.range n).map (fun i => .fin (c i (n - 1 - i)) * cumAt F n (n - 1 - i))) =
      (List.range n).map (fun i => .fin (c i (n - 1 - i)) * cumAt F n (n - 1 - i) - .fin (c i (n - 1 - i))) := by
    unfold reservesOf
    rw [h.origins_eq, List.zip_map', List.map_map]
    apply List.map_congr_left
    intro i hi
    rw [List.mem_range] at hi
    simp only [Function.comp_apply]
    rw [h.latest_get hi]
  have hsq : ∃ u, trisqrdOf t ldfs = .ok
      { tri := { t with cell := fun i j => Trikit.sqrCell t (fun j => (ldfs.map Prod.snd).getD j .nan) i j },
        ultimate := u } := by
    unfold trisqrdOf
    rw [Tri.triind_ok h.staircase.colsObserved]
    refine ⟨(List.range t.nr).map (fun i => Trikit.sqrCell t (fun j => (ldfs.map Prod.snd).getD j .nan) i (t.nc - 1) *
      (ldfs.map Prod.snd).getLastD .nan), ?_⟩
    show (if _ then _ else _) = _
    rw [if_neg]
    rw [h.nc, hlen]
    rintro (h1 | h1)
    · omega
    · rw [h1] at hlen; simp at hlen; omega
  obtain ⟨u, hu⟩ := hsq
  unfold baseFromLdfs
  simp only
  rw [hult, h.maturity, hu]
  refine ⟨_, rfl, by simp [h.nr], ?_, ?_, ?_, ?_, fun _ _ => rfl⟩
  · intro i hi
    refine ⟨_, by simp only [List.getElem?_map, h.nr, List.getElem?_range hi]; rfl, h.latest_get hi, ?_, ?_⟩
    · simp [List.getD_eq_getElem?_getD, hi]
    · simp only [hres]
      simp [List.getD_eq_getElem?_getD, hi]
  · simp only [List.map_map, h.nr]
    congr 1
    apply List.map_congr_left
    intro i hi
    rw [List.mem_range] at hi
    simp [List.getD_eq_getElem?_getD, hi]
  · simp only [List.map_map, h.nr, hres]
    congr 1
    apply List.map_congr_left
    intro i hi
    rw [List.mem_range] at hi
    simp [List.getD_eq_getElem?_getD, hi]
  · simp only [List.map_map]
    rw [h.nr, Num.sumSkip_map_fin' _ _ (fun i => c i (n - 1 - i)), list_range_sum]
    intro i hi
    exact h.latest_get (List.mem_range.1 hi)

/-- A missing factor makes all later projected cells missing. -/
theorem sqrCell_nan (h : Spec.Stair t n c) {g : ℕ → Num K} {i p : ℕ} (hi : i < n) (h1 : n - 1 ≤ i + p) (hg : g p = .nan) :
    ∀ j, p < j → j < n → Trikit.sqrCell t g i j = .nan := by
  intro j
  induction j with
  | zero => intro hj; omega
  | succ j ih =>
    intro hj hj'
    rw [Trikit.sqrCell, h.staircase.triindAt i hj', if_pos (by simp; omega)]
    rcases Nat.lt_or_eq_of_le (Nat.lt_succ_iff.1 hj) with hlt | rfl
    · rw [ih hlt (by omega), Num.nan_mul]
    · rw [hg, Num.mul_nan]

/-! ## factors and variances -/

/-- Factor of period `j` as `mack_cl` computes it. -/
def facN (alpha n : ℕ) (c w : ℕ → ℕ → K) (j : ℕ) : Num K :=
  if j + 1 < n then .fin (Spec.colSum n j (fun i => w i j * c i j ^ alpha * (c i (j + 1) / c i j))) /
    .fin (Spec.mackW alpha n c w j) else 1

theorem facN_lost {alpha j : ℕ} (hj : j + 1 < n) (hl : Spec.Lost n w j) : facN alpha n c w j = .nan := by
  have e1 : Spec.colSum n j (fun i => w i j * c i j ^ alpha * (c i (j + 1) / c i j)) = 0 :=
    Finset.sum_eq_zero fun i hi => by rw [hl i (by have := Finset.mem_range.1 hi; omega)]; ring
  have e2 : Spec.mackW alpha n c w j = 0 := by
    unfold Spec.mackW Spec.colSum
    exact Finset.sum_eq_zero fun i hi => by rw [hl i (by have := Finset.mem_range.1 hi; omega)]; ring
  unfold facN
  rw [if_pos hj, e1, e2]
  show Num.div _ _ = _
  simp [Num.div, Num.infTimes]

theorem mackW_ne_of_not_lost (hp : Spec.Positive n c) (hw : ∀ i j, i + j + 1 < n → 0 ≤ w i j) {alpha j : ℕ}
    (hl : ¬ Spec.Lost n w j) : Spec.mackW alpha n c w j ≠ 0 := by
  unfold Spec.Lost at hl
  push Not at hl
  obtain ⟨i, hi, hne⟩ := hl
  apply ne_of_gt
  unfold Spec.mackW Spec.colSum
  apply Finset.sum_pos'
  · intro k hk
    have := Finset.mem_range.1 hk
    exact mul_nonneg (hw _ _ (by omega)) (pow_pos (hp _ _ (by omega)) _).le
  · exact ⟨i, Finset.mem_range.2 (by omega), mul_pos (lt_of_le_of_ne (hw _ _ hi) (Ne.symm hne))
      (pow_pos (hp _ _ (by omega)) _)⟩

theorem facN_kept (hp : Spec.Positive n c) (hw : ∀ i j, i + j + 1 < n → 0 ≤ w i j) {alpha j : ℕ}
    (hl : j + 1 < n → ¬ Spec.Lost n w j) : facN alpha n c w j = .fin (Spec.mackAll alpha n c w j) := by
  unfold facN Spec.mackAll Spec.withTail
  by_cases hj : j + 1 < n
  · rw [if_pos hj, if_pos hj, Num.fin_div _ _ (mackW_ne_of_not_lost hp hw (hl hj))]; rfl
  · rw [if_neg hj, if_neg hj]; rfl

theorem mackLdfs_missing (h : Spec.Stair t n c) (hc : ∀ i j, i + j < n → c i j ≠ 0) (hi : IndW t ind n w) (hn : 3 ≤ n)
    (alpha : ℕ) : ∃ lab, (∀ j < n - 1, t.dAt j < lab) ∧
      mackLdfs alpha t ind 1 = .ok (((List.range (n - 1)).map t.dAt ++ [lab]).zip
        ((List.range n).map (facN alpha n c w))) := by
  have htake := h.take_devs
  have hdiv : Ser.divS
      ((List.range (n - 1)).map (fun j => (t.dAt j, (Num.fin (Spec.colSum n j
        (fun i => w i j * c i j ^ alpha * (c i (j + 1) / c i j))) : Num K))))
      ((List.range (n - 1)).map (fun j => (t.dAt j, .fin (Spec.mackW alpha n c w j)))) =
      (List.range (n - 1)).map (fun j => (t.dAt j, facN alpha n c w j)) := by
    unfold Ser.divS
    rw [if_pos (by rw [List.map_map, List.map_map]; rfl)]
    rw [List.zipWith_map, List.zipWith_self]
    apply List.map_congr_left
    intro j hj
    rw [List.mem_range] at hj
    simp only
    unfold facN
    rw [if_pos (by omega)]
  have hfst : ((List.range (n - 1)).map (fun j => (t.dAt j, facN alpha n c w j))).map Prod.fst =
      t.devs.take (n - 1) := by rw [htake, List.map_map]; rfl
  have hinc : Spec.Increasing (t.devs.take (n - 1)) := h.devs.sublist (List.take_sublist _ _)
  have hlen : (t.devs.take (n - 1)).length = n - 1 := by rw [htake]; simp
  obtain ⟨lab, h1, h2⟩ := tailLabel_spec hinc (by rw [hlen]; omega)
  refine ⟨lab, ?_, ?_⟩
  · intro j hj
    apply h2
    rw [htake]
    exact List.mem_map_of_mem (List.mem_range.2 hj)
  · unfold mackLdfs
    simp only
    rw [mackNum h hc hi alpha, mackDen h hc hi alpha, hdiv, hfst, h1]
    show Except.ok _ = Except.ok _
    congr 1
    unfold Ser.locSet
    rw [hfst, if_neg (fun hm => lt_irrefl _ (h2 _ hm))]
    obtain ⟨m, rfl⟩ : ∃ m, n = m + 1 := ⟨n - 1, by omega⟩
    rw [List.range_succ, List.map_append, List.zip_append (by simp)]
    congr 1
    · rw [Nat.add_sub_cancel, List.zip_map']
    · unfold facN
      simp

theorem devpVariance_missing (h : Spec.Stair t n c) (hc : ∀ i j, i + j < n → c i j ≠ 0) (hi : IndW t ind n w) (hn : 4 ≤ n)
    (alpha : ℕ) {lab : Int} {F : ℕ → Num K} :
    ∃ v : ℕ → Num K, devpVariance alpha t ind (((List.range (n - 1)).map t.dAt ++ [lab]).zip ((List.range n).map F)) =
      .ok ((List.range (n - 1)).map (fun j => (t.dAt j, v j))) := by
  obtain ⟨hao, had, hac⟩ := h.a2a_spec hc
  have hid : ind.devs = (List.range (n - 1)).map t.dAt := by rw [hi.devs, had]
  have hfst : (((List.range (n - 1)).map t.dAt ++ [lab]).zip ((List.range n).map F)).map Prod.fst =
      (List.range (n - 1)).map t.dAt ++ [lab] := List.map_fst_zip (by simp; omega)
  have hdev : t.devs.dropLast.dropLast = (List.range (n - 2)).map t.dAt := by
    rw [h.devs_eq, dropLast_range_map, dropLast_range_map]; rfl
  unfold devpVariance
  simp only
  rw [hfst, hdev, List.dropLast_concat, if_neg]
  · rw [if_neg (by simp; omega)]
    generalize hV : (((List.range (n - 1)).map t.dAt).map _).dropLast ++ [_] = V
    have hVl : V.length = n - 1 := by rw [← hV]; simp; omega
    refine ⟨fun j => V.getD j .nan, ?_⟩
    congr 1
    have : V = (List.range (n - 1)).map (fun j => V.getD j .nan) := by
      apply List.ext_getElem
      · simp [hVl]
      · intro j h1 h2
        rw [List.getElem_map, List.getElem_range, List.getD_eq_getElem?_getD, List.getElem?_eq_getElem h1]; rfl
    conv_lhs => rw [this]
    rw [List.zip_map']
  · rw [Bool.not_eq_false, List.all_eq_true]
    intro d hd
    rw [decide_eq_true_iff]
    obtain ⟨j, hj, rfl⟩ := List.mem_map.1 hd
    rw [List.mem_range] at hj
    have hm : t.dAt j ∈ (List.range (n - 1)).map t.dAt := List.mem_map_of_mem (List.mem_range.2 (by omega))
    rw [hid, h.modTri.2.1, had]
    exact ⟨hm, hm, hm, List.mem_append_left _ hm⟩

/-! ## errors -/

theorem peRow_stuck {cell : ℕ → ℕ → Num K} {F S : ℕ → Num K} {i p : ℕ} (h2 : 2 ≤ i) (hi : i < n) (hp : p < n - 1)
    (hF : F p = .nan) (hcell : ∀ j, p < j → j < n → cell i j = .nan) : peRow cell F S n i (i - 1) = .nan := by
  obtain ⟨k, rfl⟩ : ∃ k, i = k + 2 := ⟨i - 2, by omega⟩
  show (F _).pow 2 * _ + cell _ _ * S _ = _
  rw [show n - (k + 2) + k = n - 2 by omega]
  rcases Nat.lt_or_ge p (n - 2) with hlt | hge
  · rw [hcell _ hlt (by omega), Num.nan_mul, Num.add_nan]
  · obtain rfl : p = n - 2 := by omega
    rw [hF, show (Num.nan : Num K).pow 2 = .nan from rfl, Num.nan_mul, Num.nan_add]

theorem paRow_stuck {cell : ℕ → ℕ → Num K} {F V : ℕ → Num K} {i p : ℕ} (h2 : 2 ≤ i) (hi : i < n) (hp : p < n - 1)
    (hF : F p = .nan) (hcell : ∀ j, p < j → j < n → cell i j = .nan) : paRow cell F V n i (i - 1) = .nan := by
  obtain ⟨k, rfl⟩ : ∃ k, i = k + 2 := ⟨i - 2, by omega⟩
  show (F _).pow 2 * _ + (cell _ _).pow 2 * V _ + V _ * _ = _
  rw [show n - (k + 2) + k = n - 2 by omega]
  rcases Nat.lt_or_ge p (n - 2) with hlt | hge
  · rw [hcell _ hlt (by omega), show (Num.nan : Num K).pow 2 = .nan from rfl, Num.nan_mul, Num.add_nan, Num.nan_add]
  · obtain rfl : p = n - 2 := by omega
    rw [hF, show (Num.nan : Num K).pow 2 = .nan from rfl, Num.nan_mul, Num.nan_add, Num.nan_add]

/-- Everything `mack_cl` reports when periods may have lost all their link ratios. -/
theorem mackCore_missing (h : Spec.Stair t n c) (hp : Spec.Positive n c) (hi : IndW t ind n w)
    (hw : ∀ i j, i + j + 1 < n → 0 ≤ w i j) (hn : 4 ≤ n) (alpha : ℕ) :
    ∃ r, mackCore alpha t ind = .ok r ∧ r.rows.length = n ∧
      (∀ j < n - 1, r.ldfs.iloc j = facN alpha n c w j) ∧
      (∀ i < n, ∃ row, r.rows[i]? = some row ∧ row.latest = .fin (c i (n - 1 - i)) ∧
        row.ultimate = .fin (c i (n - 1 - i)) * cumAt (facN alpha n c w) n (n - 1 - i) ∧
        row.reserve = .fin (c i (n - 1 - i)) * cumAt (facN alpha n c w) n (n - 1 - i) - .fin (c i (n - 1 - i))) ∧
      r.totUltimate = Num.sumSkip ((List.range n).map
        (fun i => .fin (c i (n - 1 - i)) * cumAt (facN alpha n c w) n (n - 1 - i))) ∧
      r.totReserve = Num.sumSkip ((List.range n).map
        (fun i => .fin (c i (n - 1 - i)) * cumAt (facN alpha n c w) n (n - 1 - i) - .fin (c i (n - 1 - i)))) ∧
      r.totLatest = .fin (∑ i ∈ Finset.range n, c i (n - 1 - i)) ∧
      ∀ i < n, 2 ≤ i → Spec.Stuck n w i → r.mse[i]? = some 0 := by
  obtain ⟨lab, -, h1⟩ := mackLdfs_missing h hp.ne_zero hi (by omega) alpha
  have hsnd : (((List.range (n - 1)).map t.dAt ++ [lab]).zip ((List.range n).map (facN alpha n c w))).map Prod.snd =
      (List.range n).map (facN alpha n c w) := List.map_snd_zip (by simp; omega)
  obtain ⟨b, b1, b2, b3, b4, b5, b6, b7⟩ := base_core_missing h (by omega) hsnd
  obtain ⟨v, h2⟩ := devpVariance_missing h hp.ne_zero hi hn alpha (lab := lab) (F := facN alpha n c w)
  have h3 := ldfVariance_stair h hp.ne_zero hi alpha v
  have hr : ∃ r, mackCore alpha t ind = .ok r ∧ r.rows = b.rows ∧
      r.ldfs = ((List.range (n - 1)).map t.dAt ++ [lab]).zip ((List.range n).map (facN alpha n c w)) ∧
      r.totUltimate = b.totUltimate ∧ r.totReserve = b.totReserve ∧ r.totLatest = b.totLatest ∧
      ∃ S V : ℕ → Num K, r.mse = List.zipWith (· + ·) (processError b.sqr.tri.cell r.ldfs.iloc S n)
        (parameterError b.sqr.tri.cell r.ldfs.iloc V n) := by
    unfold mackCore
    rw [h1]
    show ∃ r, Except.bind _ _ = _ ∧ _
    simp only [Except.bind]
    rw [b1]
    show ∃ r, Except.bind _ _ = _ ∧ _
    simp only [Except.bind]
    rw [h2]
    show ∃ r, Except.bind _ _ = _ ∧ _
    simp only [Except.bind]
    rw [h3]
    show ∃ r, Except.bind _ _ = _ ∧ _
    simp only [Except.bind]
    rw [if_neg (by rw [h.nc]; simp)]
    simp only [h.nc]
    exact ⟨_, rfl, rfl, rfl, rfl, rfl, rfl, _, _, rfl⟩
  obtain ⟨r, r1, r2, r3, r4, r5, r6, S, V, r7⟩ := hr
  refine ⟨r, r1, by rw [r2, b2], fun j hj => by rw [r3]; exact iloc_of_snd hsnd (by omega), by rw [r2]; exact b3,
    by rw [r4, b4], by rw [r5, b5], by rw [r6, b6], ?_⟩
  intro i hi' h2i hst
  obtain ⟨p, hp1, hp2, hlost⟩ := hst
  have hF : facN alpha n c w p = .nan := facN_lost (by omega) hlost
  have hiloc : Ser.iloc (((List.range (n - 1)).map t.dAt ++ [lab]).zip ((List.range n).map (facN alpha n c w))) p =
      Num.nan := by
    rw [iloc_of_snd hsnd (by omega), hF]
  have hcell : ∀ j, p < j → j < n → b.sqr.tri.cell i j = .nan := by
    intro j hj1 hj2
    rw [b7]
    refine sqrCell_nan h hi' hp1 ?_ j hj1 hj2
    rw [hsnd, List.getD_eq_getElem?_getD, List.getElem?_map, List.getElem?_range (by omega)]
    exact hF
  rw [r7, r3]
  unfold processError parameterError
  rw [List.zipWith_map, List.zipWith_self, List.getElem?_map, List.getElem?_range hi']
  simp only [Option.map_some]
  rw [if_neg (by omega), if_neg (by omega), peRow_stuck h2i hi' hp2 hiloc hcell, paRow_stuck h2i hi' hp2 hiloc hcell]
  rw [nanTo0_nan, Num.fin_add, add_zero]
  rfl

/-! ## C215 -/

/-- **C215, part that holds.** For every positive staircase with at least four periods, all exclusions and every `alpha`,
the ultimate and the reserve of an origin are missing exactly when the origin still has to pass a period without link ratios;
otherwise the ultimate is the latest amount times the factors.  The full statement also asks this of the standard errors
(`C215_errors_fail`) and totals (`C215_totals_fail`). -/
theorem C215_missing_partial (h : Spec.Stair t n c) (hp : Spec.Positive n c) (hi : IndW t ind n w)
    (hw : ∀ i j, i + j + 1 < n → 0 ≤ w i j) (hn : 4 ≤ n) (alpha : ℕ) :
    ∃ r, mackCore alpha t ind = .ok r ∧ ∀ i < n, ∃ row, r.rows[i]? = some row ∧ row.latest = .fin (c i (n - 1 - i)) ∧
      (row.ultimate = .nan ↔ Spec.Stuck n w i) ∧ (row.reserve = .nan ↔ Spec.Stuck n w i) ∧
      (¬ Spec.Stuck n w i → ∃ f : ℕ → K, (∀ j, n - 1 ≤ i + j → j < n - 1 → r.ldfs.iloc j = .fin (f j)) ∧
        row.ultimate = .fin (c i (n - 1 - i) * ∏ j ∈ Finset.Ico (n - 1 - i) (n - 1), f j)) := by
  obtain ⟨r, h1, -, h2, h3, -⟩ := mackCore_missing h hp hi hw hn alpha
  refine ⟨r, h1, fun i hin => ?_⟩
  obtain ⟨row, e1, e2, e3, e4⟩ := h3 i hin
  refine ⟨row, e1, e2, ?_⟩
  by_cases hs : Spec.Stuck n w i
  · have hs' := hs
    obtain ⟨p, hp1, hp2, hl⟩ := hs'
    have hc : cumAt (facN alpha n c w) n (n - 1 - i) = .nan :=
      cumAt_nan (by omega) (by omega) (facN_lost (by omega) hl)
    rw [hc, Num.mul_nan] at e3 e4
    exact ⟨⟨fun _ => hs, fun _ => e3⟩, ⟨fun _ => hs, fun _ => by rw [e4]; rfl⟩, fun hn => absurd hs hn⟩
  · have hf : ∀ m, n - 1 - i ≤ m → m < n → facN alpha n c w m = .fin (Spec.mackAll alpha n c w m) :=
      fun m hm1 hm2 => facN_kept hp hw fun hm hl => hs ⟨m, by omega, by omega, hl⟩
    have hc := cumAt_fin (F := facN alpha n c w) (f := Spec.mackAll alpha n c w) (by omega) hf
    rw [hc, Num.fin_mul] at e3 e4
    rw [Num.fin_sub] at e4
    refine ⟨⟨fun e => ?_, fun h' => absurd h' hs⟩, ⟨fun e => ?_, fun h' => absurd h' hs⟩, fun _ => ?_⟩
    · rw [e3] at e; cases e
    · rw [e4] at e; cases e
    · refine ⟨Spec.mackAll alpha n c w, fun j hj1 hj2 => ?_, ?_⟩
      · rw [h2 j hj2, hf j (by omega) (by omega)]
      · rw [e3]
        unfold Spec.mackAll
        rw [tailProd_withTail _ _ (by omega), mul_one]
        congr 2
        exact Finset.prod_congr rfl fun j hj => by
          have := Finset.mem_Ico.1 hj
          unfold Spec.withTail
          rw [if_pos (by omega)]

/-- **C215, the code violates it.** The mean squared error of every origin but the two oldest whose ultimate is missing is 0,
not missing. -/
theorem C215_errors_fail (h : Spec.Stair t n c) (hp : Spec.Positive n c) (hi : IndW t ind n w)
    (hw : ∀ i j, i + j + 1 < n → 0 ≤ w i j) (hn : 4 ≤ n) (alpha : ℕ) :
    ∃ r, mackCore alpha t ind = .ok r ∧ ∀ i < n, 2 ≤ i → Spec.Stuck n w i →
      (∃ row, r.rows[i]? = some row ∧ row.ultimate = .nan) ∧ r.mse[i]? = some 0 := by
  obtain ⟨r, h1, -, -, h3, -, -, -, h4⟩ := mackCore_missing h hp hi hw hn alpha
  refine ⟨r, h1, fun i hin h2 hs => ⟨?_, h4 i hin h2 hs⟩⟩
  obtain ⟨row, e1, -, e3, -⟩ := h3 i hin
  obtain ⟨p, hp1, hp2, hl⟩ := hs
  exact ⟨row, e1, by rw [e3, cumAt_nan (by omega) (by omega) (facN_lost (by omega) hl), Num.mul_nan]⟩

/-- **C215, the code violates it.** Totals: when period `p` lost all its link ratios and no later one did, the total ultimate
and the total reserve are those of the origins that have passed the period alone, although the total of the latest amounts
is that of all origins: total ultimate minus total latest falls short of the total reserve by the latest amounts of the origins
left out. -/
theorem C215_totals_fail (h : Spec.Stair t n c) (hp : Spec.Positive n c) (hi : IndW t ind n w)
    (hw : ∀ i j, i + j + 1 < n → 0 ≤ w i j) (hn : 4 ≤ n) (alpha : ℕ) {p : ℕ} (hpn : p < n - 1) (hl : Spec.Lost n w p)
    (hk : ∀ j, p < j → j < n - 1 → ¬ Spec.Lost n w j) :
    ∃ r l u v, mackCore alpha t ind = .ok r ∧ r.totLatest = .fin l ∧ r.totUltimate = .fin u ∧ r.totReserve = .fin v ∧
      l = ∑ i ∈ Finset.range n, c i (n - 1 - i) ∧
      (∃ g : ℕ → K, (∀ i < n - 1 - p, ∃ row, r.rows[i]? = some row ∧ row.ultimate = .fin (g i)) ∧
        u = ∑ i ∈ Finset.range (n - 1 - p), g i) ∧
      v - (u - l) = ∑ i ∈ Finset.Ico (n - 1 - p) n, c i (n - 1 - i) ∧ u - l < v := by
  obtain ⟨r, h1, -, h2, h3, h4, h5, h6, -⟩ := mackCore_missing h hp hi hw hn alpha
  have hfin : ∀ i < n - 1 - p, cumAt (facN alpha n c w) n (n - 1 - i) =
      .fin (Spec.tailProd (Spec.mackAll alpha n c w) n (n - 1 - i)) := fun i hi' =>
    cumAt_fin (by omega) fun m hm1 hm2 => facN_kept hp hw fun hm => hk m (by omega) (by omega)
  have hnan : ∀ i, n - 1 - p ≤ i → i < n → cumAt (facN alpha n c w) n (n - 1 - i) = .nan := fun i h1 h2 =>
    cumAt_nan (p := p) (by omega) (by omega) (facN_lost (by omega) hl)
  have hsplit : List.range n = List.range (n - 1 - p) ++ (List.range (p + 1)).map (n - 1 - p + ·) := by
    conv_lhs => rw [show n = n - 1 - p + (p + 1) by omega, List.range_add]
  have hsum : ∀ (x : ℕ → Num K) (g : ℕ → K), (∀ i < n - 1 - p, x i = .fin (g i)) →
      (∀ i, n - 1 - p ≤ i → i < n → x i = .nan) →
      Num.sumSkip ((List.range n).map x) = .fin (∑ i ∈ Finset.range (n - 1 - p), g i) := by
    intro x g hx hx'
    rw [hsplit, List.map_append, Num.sumSkip_append, Num.sumSkip_map_fin' _ _ g (fun i hi => hx i (List.mem_range.1 hi)),
      List.map_map, Num.sumSkip_all_nan, list_range_sum]
    · show Num.fin _ + Num.fin 0 = _
      rw [Num.fin_add, add_zero]
    · intro k hk
      have := List.mem_range.1 hk
      exact hx' _ (by simp only; omega) (by simp only; omega)
  rw [hsum _ (fun i => c i (n - 1 - i) * Spec.tailProd (Spec.mackAll alpha n c w) n (n - 1 - i))
    (fun i hi' => by rw [hfin i hi', Num.fin_mul]) (fun i a b => by rw [hnan i a b, Num.mul_nan])] at h4
  rw [hsum _ (fun i => c i (n - 1 - i) * Spec.tailProd (Spec.mackAll alpha n c w) n (n - 1 - i) - c i (n - 1 - i))
    (fun i hi' => by rw [hfin i hi', Num.fin_mul, Num.fin_sub]) (fun i a b => by rw [hnan i a b, Num.mul_nan]; rfl)] at h5
  have hlsplit : ∑ i ∈ Finset.range n, c i (n - 1 - i) = ∑ i ∈ Finset.range (n - 1 - p), c i (n - 1 - i) +
      ∑ i ∈ Finset.Ico (n - 1 - p) n, c i (n - 1 - i) :=
    (Finset.sum_range_add_sum_Ico _ (by omega)).symm
  have hpos : 0 < ∑ i ∈ Finset.Ico (n - 1 - p) n, c i (n - 1 - i) :=
    Finset.sum_pos (fun i hi => hp _ _ (by have := Finset.mem_Ico.1 hi; omega)) ⟨n - 1, Finset.mem_Ico.2 (by omega)⟩
  refine ⟨r, _, _, _, h1, h6, h4, h5, rfl, ⟨_, fun i hi' => ?_, rfl⟩, ?_, ?_⟩
  · obtain ⟨row, e1, -, e3, -⟩ := h3 i (by omega)
    exact ⟨row, e1, by rw [e3, hfin i hi', Num.fin_mul]⟩
  · rw [Finset.sum_sub_distrib, hlsplit]; ring
  · rw [Finset.sum_sub_distrib, hlsplit]; linarith

/-- **C215, the code violates it**, for the standard errors as reported with either distribution: 0 beside a missing reserve. -/
theorem C215_stderr_fails {t ind : Tri ℝ} {c w : ℕ → ℕ → ℝ} (h : Spec.Stair t n c) (hp : Spec.Positive n c)
    (hi : IndW t ind n w) (hw : ∀ i j, i + j + 1 < n → 0 ≤ w i j) (hn : 4 ≤ n) (alpha : ℕ) {dist : String}
    (hd : dist = "norm" ∨ dist = "lognorm") :
    ∃ r, mackCall alpha t ind dist = .ok r ∧ ∀ i < n, 2 ≤ i → Spec.Stuck n w i →
      (∃ row, r.core.rows[i]? = some row ∧ row.reserve = .nan) ∧ r.stdErr[i]? = some 0 := by
  obtain ⟨core, h1, -, -, h3, -, -, -, h4⟩ := mackCore_missing h hp hi hw hn alpha
  obtain ⟨r, r1, r2, r3, -⟩ := mackCall_ok h1 hd
  refine ⟨r, r1, fun i hin h2 hs => ⟨?_, ?_⟩⟩
  · obtain ⟨row, e1, -, -, e4⟩ := h3 i hin
    obtain ⟨p, hp1, hp2, hl⟩ := hs
    refine ⟨row, by rw [r2]; exact e1, ?_⟩
    rw [e4, cumAt_nan (by omega) (by omega) (facN_lost (by omega) hl), Num.mul_nan]; rfl
  · have e := h4 i hin h2 hs
    have hlt : i < core.mse.length := (List.getElem?_eq_some_iff.1 e).1
    rw [r3, List.getElem?_append_left (by simpa using hlt), List.getElem?_map, e]
    show some (Num.sqrt 0) = _
    exact congrArg some (by show Num.sqrt (Num.fin 0) = _; simp [Num.sqrt]; rfl)

/-! ## examples -/

/-- Five origins. -/
def exLost : ℕ → ℕ → ℚ := fun i j => (100 + 7 * i) * (1 + j) + i * j * j

/-- With both link ratios of the third period excluded, three ultimates are missing beside mean squared errors of 0, and the
total ultimate is less than the total of the latest amounts although the total reserve is positive. -/
example : (mackCore 1 (stairTri 5 exLost) (((stairTri 5 exLost).a2aind0.setAt 2001 3 0).setAt 2002 3 0)).toOption.map
      (fun r => (r.rows.map SummRow.ultimate, r.mse, r.totLatest, r.totUltimate, r.totReserve)) =
    some ([.fin 500, .fin (2185 / 4), .nan, .nan, .nan], [0, 0, 0, 0, 0], .fin 1660, .fin (4185 / 4), .fin (437 / 4)) := by
  decide +kernel

/-- With the only link ratio of the last period excluded, the second origin has an infinite mean squared error, and the
total mean squared error is 0. -/
example : (mackCore 1 (stairTri 5 exLost) ((stairTri 5 exLost).a2aind0.setAt 2001 4 0)).toOption.map
      (fun r => (r.rows.map SummRow.ultimate, r.mse, r.totUltimate, r.totReserve, r.totMse)) =
    some ([.fin 500, .nan, .nan, .nan, .nan], [0, .pinf, 0, 0, 0], .fin 500, 0, 0) := by
  decide +kernel

end Trikit
