import Verif.Rounded
import Verif.FloatRd
import Verif.Props.BaseScale
import Verif.Examples
import Mathlib.Data.Rat.Floor

/-! # C149: change of scale in rounded arithmetic -/

set_option linter.unusedSectionVars false

namespace Trikit

variable {K : Type} [Field K] [LinearOrder K] [IsStrictOrderedRing K] {rd : K → K} {a : K} {br : ℕ → SumTree}

/-- Rounding commutes with multiplication by `a`. -/
def Spec.Homog (rd : K → K) (a : K) : Prop := ∀ x, rd (a * x) = a * rd x

/-- Rounding to binary digits commutes with multiplication by a power of two. -/
theorem floatRd_homog [FloorRing K] (p : ℕ) (e : ℤ) : Spec.Homog (floatRd p : K → K) (2 ^ e) := by
  intro x
  have h2 : (0 : K) < 2 ^ e := zpow_pos (by norm_num) _
  by_cases hx : x = 0
  · subst hx; rw [mul_zero, floatRd_zero, mul_zero]
  have hl : Int.log 2 |(2 : K) ^ e * x| = Int.log 2 |x| + e := by
    rw [abs_mul, abs_of_pos h2]
    have hx' : 0 < |x| := abs_pos.2 hx
    have h2x : 0 < (2 : K) ^ e * |x| := mul_pos h2 hx'
    have l1 := Int.zpow_log_le_self (R := K) (b := 2) (by norm_num) hx'
    have l2 := Int.lt_zpow_succ_log_self (R := K) (b := 2) (by norm_num) |x|
    have k1 := Int.zpow_log_le_self (R := K) (b := 2) (by norm_num) h2x
    have k2 := Int.lt_zpow_succ_log_self (R := K) (b := 2) (by norm_num) ((2 : K) ^ e * |x|)
    push_cast at l1 l2 k1 k2
    have c1 : (2 : K) ^ (Int.log 2 |x| + e) < 2 ^ (Int.log 2 ((2 : K) ^ e * |x|) + 1) := by
      rw [zpow_add₀ (by norm_num), mul_comm]
      exact (mul_le_mul_of_nonneg_left l1 h2.le).trans_lt k2
    have c2 : (2 : K) ^ (Int.log 2 ((2 : K) ^ e * |x|)) < 2 ^ (Int.log 2 |x| + 1 + e) := by
      rw [zpow_add₀ (by norm_num) _ e, mul_comm _ ((2 : K) ^ e)]
      exact k1.trans_lt (mul_lt_mul_of_pos_left l2 h2)
    have := (zpow_lt_zpow_iff_right₀ (by norm_num : (1 : K) < 2)).1 c1
    have := (zpow_lt_zpow_iff_right₀ (by norm_num : (1 : K) < 2)).1 c2
    omega
  have hu : floatUlp p ((2 : K) ^ e * x) = 2 ^ e * floatUlp p x := by
    unfold floatUlp
    rw [hl, ← zpow_add₀ (by norm_num)]
    congr 1
    ring
  unfold floatRd
  rw [hu, mul_div_mul_left _ _ h2.ne']
  ring

theorem Num.rounded_scale (h : Spec.Homog rd a) (ha : 0 < a) (x : Num K) :
    (Num.fin a * x).rounded rd = Num.fin a * x.rounded rd := by
  cases x with
  | nan => simp [Num.rounded]
  | pinf => rw [Num.pos_mul_pinf ha]; show Num.pinf = Num.fin a * Num.pinf; rw [Num.pos_mul_pinf ha]
  | ninf => rw [Num.pos_mul_ninf ha]; show Num.ninf = Num.fin a * Num.ninf; rw [Num.pos_mul_ninf ha]
  | fin x => show Num.fin (rd (a * x)) = Num.fin (a * rd x); rw [h x]

theorem eval_scale (h : Spec.Homog rd a) (f : ℕ → K) (s : SumTree) :
    s.eval rd (fun i => a * f i) = a * s.eval rd f := by
  induction s with
  | leaf i => rfl
  | node l r h1 h2 => rw [SumTree.eval, SumTree.eval, h1, h2, ← mul_add, h]

theorem roundedSum_scale (h : Spec.Homog rd a) (l : List K) :
    roundedSum br rd (l.map (fun x => a * x)) = a * roundedSum br rd l := by
  unfold roundedSum
  by_cases e : l = []
  · subst e; simp
  · rw [if_neg (by simpa using e), if_neg e, List.length_map, ← eval_scale h]
    congr 1
    funext i
    rw [List.getD_eq_getElem?_getD, List.getD_eq_getElem?_getD, List.getElem?_map]
    cases l[i]? <;> simp

theorem Num.sum_scale (ha : 0 < a) (l : List (Num K)) : (l.map (fun x => Num.fin a * x)).sum = Num.fin a * l.sum := by
  induction l with
  | nil => show (0 : Num K) = Num.fin a * Num.fin 0; rw [Num.fin_mul, mul_zero]; rfl
  | cons x l ih => rw [List.map_cons, List.sum_cons, List.sum_cons, ih, Num.pos_mul_add ha]

theorem sumR_scale (h : Spec.Homog rd a) (ha : 0 < a) (l : List (Num K)) :
    sumR br rd (l.map (fun x => Num.fin a * x)) = Num.fin a * sumR br rd l := by
  have hf : ∀ x : Num K, (Num.fin a * x).isFin = x.isFin := by
    intro x
    cases x with
    | nan => simp
    | pinf => rw [Num.pos_mul_pinf ha]
    | ninf => rw [Num.pos_mul_ninf ha]
    | fin x => rfl
  have h1 : (l.map (fun x => Num.fin a * x)).all Num.isFin = l.all Num.isFin := by
    rw [List.all_map]; congr 1; funext x; exact hf x
  have h2 : ∀ l : List (Num K), l.all Num.isFin = true → (l.map (fun x => Num.fin a * x)).filterMap Num.toFin =
      (l.filterMap Num.toFin).map (fun x => a * x) := by
    intro l hl
    induction l with
    | nil => rfl
    | cons x l ih =>
      rw [List.all_cons, Bool.and_eq_true] at hl
      cases x with
      | fin x => simp only [List.map_cons, Num.fin_mul, List.filterMap_cons, Num.toFin]; rw [ih hl.2]
      | nan => simp [Num.isFin] at hl
      | pinf => simp [Num.isFin] at hl
      | ninf => simp [Num.isFin] at hl
  unfold sumR
  rw [h1]
  split
  · rename_i hl
    rw [h2 l hl, roundedSum_scale h, Num.fin_mul]
  · exact Num.sum_scale ha l

theorem sumSkipR_scale (h : Spec.Homog rd a) (ha : 0 < a) (l : List (Num K)) :
    sumSkipR br rd (l.map (fun x => Num.fin a * x)) = Num.fin a * sumSkipR br rd l := by
  unfold sumSkipR
  rw [← sumR_scale h ha, List.filter_map]
  congr 2
  apply List.filter_congr
  intro x _
  simp only [Function.comp_apply, Num.pos_mul_isNaN ha]

theorem Tri.scale_a2aR (ha : 0 < a) (t : Tri K) : (t.scale a).a2aR rd = t.a2aR rd := by
  unfold Tri.a2aR
  rw [Tri.scale_linkRatios ha]

theorem weightedAvgR_scale (h : Spec.Homog rd a) (ha : 0 < a) (t : Tri K) (d j : ℕ) :
    weightedAvgR br rd (t.scale a) d j = weightedAvgR br rd t d j := by
  have hcount : ∀ l : List (Num K), ((l.map (fun x => Num.fin a * x)).filter (fun v => !v.isNaN)).length
      = (l.filter (fun v => !v.isNaN)).length := by
    intro l
    induction l with
    | nil => rfl
    | cons x l ih =>
      rw [List.map_cons, List.filter_cons, List.filter_cons, Num.pos_mul_isNaN ha]
      split <;> simp [ih]
  have hs : ∀ (l : List (Num K)) (p q : ℕ), pySlice (l.map (fun x => Num.fin a * x)) p q =
      (pySlice l p q).map (fun x => Num.fin a * x) := by
    intro l p q
    unfold pySlice
    rw [← List.map_take, ← List.map_drop]
  unfold weightedAvgR
  simp only [Tri.scale_col, hcount, hs, sumSkipR_scale h ha, Num.pos_mul_div ha]
  rfl

theorem a2aAvgsR_scale (h : Spec.Homog rd a) (ha : 0 < a) (gm : List (Num K) → Num K) (t ind : Tri K) :
    a2aAvgsR br rd gm (t.scale a) ind = a2aAvgsR br rd gm t ind := by
  unfold a2aAvgsR
  simp only [Tri.scale_a2aR ha]
  have : ∀ adj k d j, avgCellR br rd gm (t.scale a) adj k d j = avgCellR br rd gm t adj k d j := by
    intro adj k d j
    cases k <;> first | rfl | exact weightedAvgR_scale h ha t d j
  simp only [this]

theorem sqrCellR_scale (h : Spec.Homog rd a) (ha : 0 < a) (t : Tri K) (g : ℕ → Num K) (i j : ℕ) :
    sqrCellR rd (t.scale a) g i j = .fin a * sqrCellR rd t g i j := by
  induction j with
  | zero => rfl
  | succ j ih =>
    rw [sqrCellR, sqrCellR, Tri.scale_triindAt ha]
    split
    · rw [ih, Num.pos_mul_assoc ha, Num.rounded_scale h ha]
    · rfl

theorem ultimatesOfR_scale (h : Spec.Homog rd a) (ha : 0 < a) (t : Tri K) (cl : Ser K) :
    ultimatesOfR rd (t.scale a) cl = (ultimatesOfR rd t cl).map (List.map (fun x => .fin a * x)) := by
  unfold ultimatesOfR
  rw [Tri.scale_latest ha]
  simp only
  generalize (cl.map Prod.snd).reverse = b
  generalize t.latestByOrigin = l
  have hnr : (t.scale a).nr = t.nr := rfl
  have e1 : (l.map (fun p : Int × Num K => (p.1, Num.fin a * p.2))).map Prod.snd =
      (l.map Prod.snd).map (fun x => Num.fin a * x) := by
    rw [List.map_map, List.map_map]; rfl
  rw [e1, hnr]
  generalize l.map Prod.snd = l
  rw [List.length_map]
  have key : ∀ x y : Num K, (Num.fin a * x * y).rounded rd = Num.fin a * (x * y).rounded rd := fun x y => by
    rw [Num.pos_mul_assoc ha, Num.rounded_scale h ha]
  split
  · show Except.ok _ = Except.ok _
    congr 1
    rw [List.zipWith_map_left, List.map_zipWith]
    congr 1
    funext x y
    exact key x y
  · split
    · show Except.ok _ = Except.ok _
      congr 1
      rw [List.map_map, List.map_map]
      apply List.map_congr_left
      intro x _
      exact key x _
    · split
      · rename_i h3
        show Except.ok _ = Except.ok _
        congr 1
        rw [List.map_map]
        apply List.map_congr_left
        intro x _
        cases l with
        | nil => simp at h3
        | cons y l => exact key y x
      · rfl

theorem reservesOfR_scale (h : Spec.Homog rd a) (ha : 0 < a) (t : Tri K) (u : List (Num K)) :
    reservesOfR rd (t.scale a) (u.map (fun x => .fin a * x)) =
      (reservesOfR rd t u).map (fun x => .fin a * x) := by
  unfold reservesOfR
  rw [Tri.scale_latest ha, List.map_map]
  show (t.origins.zip _).map _ = _
  rw [List.zip_map_right, List.map_map]
  apply List.map_congr_left
  intro p _
  show (Num.fin a * p.2 - Ser.get _ p.1).rounded rd = Num.fin a * (p.2 - _).rounded rd
  rw [Ser.get_map_scale, ← Num.pos_mul_sub ha, Num.rounded_scale h ha]

theorem trisqrdOfR_scale (h : Spec.Homog rd a) (ha : 0 < a) (t : Tri K) (l : Ser K) :
    trisqrdOfR rd (t.scale a) l = (trisqrdOfR rd t l).map
      (fun s => { tri := s.tri.scale a, ultimate := s.ultimate.map (fun x => .fin a * x) }) := by
  unfold trisqrdOfR
  rw [Tri.scale_triind ha]
  cases t.triind with
  | error e => rfl
  | ok ind =>
    show (if l.length < t.nc - 1 ∨ l = [] then _ else _) = Except.map _ (if l.length < t.nc - 1 ∨ l = [] then _ else _)
    split
    · rfl
    · show Except.ok _ = Except.ok _
      congr 1
      simp only [Sqr.mk.injEq]
      constructor
      · unfold Tri.scale
        simp only [Tri.mk.injEq, true_and]
        funext i j
        exact sqrCellR_scale h ha t _ i j
      · rw [List.map_map]
        apply List.map_congr_left
        intro i _
        show (sqrCellR rd (t.scale a) _ i (t.nc - 1) * _).rounded rd = _
        rw [sqrCellR_scale h ha, Num.pos_mul_assoc ha, Num.rounded_scale h ha]
        rfl

theorem baseFromLdfsR_scale (h : Spec.Homog rd a) (ha : 0 < a) (t : Tri K) (l : Ser K) :
    baseFromLdfsR br rd (t.scale a) l = (baseFromLdfsR br rd t l).map (BaseResult.scale a) := by
  unfold baseFromLdfsR
  simp only [ultimatesOfR_scale h ha, Tri.scale_maturity ha, trisqrdOfR_scale h ha]
  cases ultimatesOfR rd t (cldfsOfR rd l) with
  | error e => rfl
  | ok u =>
    cases t.maturity with
    | error e => rfl
    | ok m =>
      cases trisqrdOfR rd t l with
      | error e => rfl
      | ok s =>
        have hrow : ∀ i, ({
            origin := (t.scale a).oAt i, maturity := m.getD i 0, cldf := Ser.get (cldfsOfR rd l) (m.getD i 0),
            emergence := (1 / Ser.get (cldfsOfR rd l) (m.getD i 0)).rounded rd,
            latest := Ser.get (t.scale a).latestByOrigin ((t.scale a).oAt i),
            ultimate := (u.map (fun x => Num.fin a * x)).getD i .nan,
            reserve := (reservesOfR rd (t.scale a) (u.map (fun x => Num.fin a * x))).getD i .nan } : SummRow K) =
            SummRow.scale a
            { origin := t.oAt i, maturity := m.getD i 0, cldf := Ser.get (cldfsOfR rd l) (m.getD i 0),
              emergence := (1 / Ser.get (cldfsOfR rd l) (m.getD i 0)).rounded rd,
              latest := Ser.get t.latestByOrigin (t.oAt i), ultimate := u.getD i .nan,
              reserve := (reservesOfR rd t u).getD i .nan } := by
          intro i
          rw [Tri.scale_latest ha, Ser.get_map_scale, reservesOfR_scale h ha, getD_map_scale,
            getD_map_scale]
          rfl
        show Except.ok _ = Except.ok _
        congr 1
        have hnr : (t.scale a).nr = t.nr := rfl
        simp only [BaseResult.scale, BaseResult.mk.injEq, true_and, hrow, hnr, List.map_map, and_true]
        refine ⟨rfl, ?_, ?_, ?_⟩
        · rw [← sumSkipR_scale h ha, List.map_map]; rfl
        · rw [← sumSkipR_scale h ha, List.map_map]; rfl
        · rw [← sumSkipR_scale h ha, List.map_map]; rfl

theorem baseCLR_scale (h : Spec.Homog rd a) (ha : 0 < a) (gm : List (Num K) → Num K) (t ind : Tri K) (sel : String)
    (tail : Num K) : baseCLR br rd gm (t.scale a) ind sel tail =
      (baseCLR br rd gm t ind sel tail).map (BaseResult.scale a) := by
  have e : ldfsByNameR br rd gm (t.scale a) ind sel tail = ldfsByNameR br rd gm t ind sel tail := by
    unfold ldfsByNameR
    rw [a2aAvgsR_scale h ha]
  unfold baseCLR
  rw [e]
  cases ldfsByNameR br rd gm t ind sel tail with
  | error e => rfl
  | ok l => exact baseFromLdfsR_scale h ha t l

/-- **C149, partial.** In arithmetic rounded to `p` binary digits, multiplying all losses by a power of two keeps all
factors and multiplies all amounts of `base_cl` by it without any error.  For every triangle, any exclusions, any average
and any order of additions.  Missing: scales that are not powers of two, see `C149_fails`. -/
theorem C149_partial [FloorRing K] (p : ℕ) (e : ℤ) (gm : List (Num K) → Num K) (t ind : Tri K) (sel : String)
    (tail : Num K) : baseCLR br (floatRd p) gm (t.scale (2 ^ e)) ind sel tail =
      (baseCLR br (floatRd p) gm t ind sel tail).map (BaseResult.scale (2 ^ e)) :=
  baseCLR_scale (floatRd_homog p e) (zpow_pos (by norm_num) _) gm t ind sel tail

/-- **C149 fails** for the scale 3 in double precision: some ultimate is not exactly multiplied. -/
theorem C149_fails :
    (baseCLR (fun n => seqTree (n - 1)) (floatRd 53) (fun _ => .nan) (exTri.scale 3) exTri.a2aind0 "all-weighted"
      (.fin 1)).map (fun r => r.rows.map (fun x => x.ultimate)) ≠
    (baseCLR (fun n => seqTree (n - 1)) (floatRd 53) (fun _ => .nan) exTri exTri.a2aind0 "all-weighted"
      (.fin 1)).map (fun r => r.rows.map (fun x => .fin 3 * x.ultimate)) := by
  decide +kernel

/-- The example in eighths, rounded to five digits: ultimates 200, 248, 232 and 256 become 25, 31, 29 and 32. -/
example : (baseCLR (fun n => seqTree (n - 1)) (floatRd 5) (fun _ => .nan) (exTri.scale ((2 : ℚ) ^ (-3 : ℤ)))
    exTri.a2aind0 "all-weighted" (.fin 1)).map (fun r => r.rows.map (fun x => x.ultimate)) =
    .ok [.fin 25, .fin 31, .fin 29, .fin 32] := by
  decide +kernel

end Trikit
