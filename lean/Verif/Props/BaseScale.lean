import Mathlib.Algebra.Order.BigOperators.GroupWithZero.Finset
import Mathlib.Algebra.Order.BigOperators.Group.Finset
import Verif.Props.Base

/-! # C34, C35, C40: scaling, factors above one, exact data -/

set_option linter.unusedSectionVars false

namespace Trikit

variable {K : Type}

namespace Num
section
variable [Field K] [LinearOrder K] [IsStrictOrderedRing K]

theorem infTimes_pos_mul {a : K} (ha : 0 < a) (x : K) :
    (infTimes (a * x) : Num K) = infTimes x := by
  unfold infTimes
  have h1 : a * x = 0 ↔ x = 0 := by
    constructor
    · intro h; rcases mul_eq_zero.1 h with h | h
      · exact absurd h ha.ne'
      · exact h
    · rintro rfl; simp
  have h2 : 0 < a * x ↔ 0 < x := mul_pos_iff_of_pos_left ha
  simp only [h1, h2]

theorem pos_mul_pinf {a : K} (ha : 0 < a) : (fin a * pinf : Num K) = pinf := by
  show infTimes a = _
  unfold infTimes
  rw [if_neg ha.ne', if_pos ha]

theorem pos_mul_ninf {a : K} (ha : 0 < a) : (fin a * ninf : Num K) = ninf := by
  show infTimes (-a) = _
  unfold infTimes
  rw [if_neg (by simpa using ha.ne'), if_neg (by simpa using ha.le)]

theorem pos_mul_isNaN {a : K} (ha : 0 < a) (x : Num K) : (fin a * x).isNaN = x.isNaN := by
  cases x with
  | nan => rfl
  | pinf => rw [pos_mul_pinf ha]
  | ninf => rw [pos_mul_ninf ha]
  | fin x => rfl

theorem infTimes_cases (x : K) : (infTimes x : Num K) = nan ∨ (infTimes x : Num K) = pinf ∨
    (infTimes x : Num K) = ninf := by
  unfold infTimes
  split
  · exact Or.inl rfl
  · split
    · exact Or.inr (Or.inl rfl)
    · exact Or.inr (Or.inr rfl)

theorem pos_mul_infTimes {a : K} (ha : 0 < a) (x : K) :
    (fin a * infTimes x : Num K) = infTimes x := by
  rcases infTimes_cases x with h | h | h <;> rw [h]
  · rfl
  · exact pos_mul_pinf ha
  · exact pos_mul_ninf ha

theorem pos_mul_assoc {a : K} (ha : 0 < a) (x y : Num K) : fin a * x * y = fin a * (x * y) := by
  cases x with
  | nan => simp
  | pinf =>
    rw [pos_mul_pinf ha]
    cases y with
    | nan => rfl
    | pinf => exact (pos_mul_pinf ha).symm
    | ninf => exact (pos_mul_ninf ha).symm
    | fin y => exact (pos_mul_infTimes ha y).symm
  | ninf =>
    rw [pos_mul_ninf ha]
    cases y with
    | nan => rfl
    | pinf => exact (pos_mul_ninf ha).symm
    | ninf => exact (pos_mul_pinf ha).symm
    | fin y => exact (pos_mul_infTimes ha (-y)).symm
  | fin x =>
    cases y with
    | nan => rfl
    | pinf =>
      show infTimes (a * x) = fin a * infTimes x
      rw [infTimes_pos_mul ha, pos_mul_infTimes ha]
    | ninf =>
      show infTimes (-(a * x)) = fin a * infTimes (-x)
      rw [← mul_neg, infTimes_pos_mul ha, pos_mul_infTimes ha]
    | fin y => simp [mul_assoc]

theorem pos_mul_neg (a : K) (x : Num K) : fin a * -x = -(fin a * x) := by
  cases x with
  | nan => rfl
  | pinf =>
    show infTimes (-a) = -(infTimes a)
    unfold infTimes
    rcases lt_trichotomy a 0 with h | h | h
    · simp [h.ne, not_lt.2 h.le, h]; rfl
    · subst h; simp
    · simp [h.ne', h, not_lt.2 h.le]; rfl
  | ninf =>
    show infTimes a = -(infTimes (-a))
    unfold infTimes
    rcases lt_trichotomy a 0 with h | h | h
    · simp [h.ne, not_lt.2 h.le, h]; rfl
    · subst h; simp
    · simp [h.ne', h, not_lt.2 h.le]; rfl
  | fin x => simp

theorem pos_mul_add {a : K} (ha : 0 < a) (x y : Num K) :
    fin a * (x + y) = fin a * x + fin a * y := by
  cases x <;> cases y <;> first
    | rfl
    | (simp only [pos_mul_pinf ha, pos_mul_ninf ha]
       first
         | rfl
         | exact pos_mul_pinf ha
         | exact pos_mul_ninf ha)
    | simp [mul_add]

theorem pos_mul_sub {a : K} (ha : 0 < a) (x y : Num K) :
    fin a * (x - y) = fin a * x - fin a * y := by
  rw [sub_def, sub_def, pos_mul_add ha, pos_mul_neg]

theorem mul_neg_iff_of_pos {a y : K} (ha : 0 < a) : a * y < 0 ↔ y < 0 := by
  constructor
  · intro h
    by_contra h'
    exact absurd h (not_lt.2 (mul_nonneg ha.le (not_lt.1 h')))
  · exact mul_neg_of_pos_of_neg ha

theorem pos_mul_div {a : K} (ha : 0 < a) (x y : Num K) :
    (fin a * x) / (fin a * y) = x / y := by
  cases x with
  | nan => simp
  | pinf =>
    rw [pos_mul_pinf ha]
    cases y with
    | nan => rfl
    | pinf => rw [pos_mul_pinf ha]
    | ninf => rw [pos_mul_ninf ha]
    | fin y =>
      show (if a * y < 0 then ninf else pinf) = (if y < 0 then ninf else pinf)
      have : a * y < 0 ↔ y < 0 := mul_neg_iff_of_pos ha
      simp only [this]
  | ninf =>
    rw [pos_mul_ninf ha]
    cases y with
    | nan => rfl
    | pinf => rw [pos_mul_pinf ha]
    | ninf => rw [pos_mul_ninf ha]
    | fin y =>
      show (if a * y < 0 then pinf else ninf) = (if y < 0 then pinf else ninf)
      have : a * y < 0 ↔ y < 0 := mul_neg_iff_of_pos ha
      simp only [this]
  | fin x =>
    cases y with
    | nan => rfl
    | pinf => rw [pos_mul_pinf ha]; rfl
    | ninf => rw [pos_mul_ninf ha]; rfl
    | fin y =>
      by_cases h : y = 0
      · subst h
        rw [fin_mul, fin_mul, mul_zero, fin_div_zero, fin_div_zero, infTimes_pos_mul ha]
      · rw [fin_mul, fin_mul, fin_div _ _ h, fin_div _ _ (mul_ne_zero ha.ne' h)]
        congr 1
        exact mul_div_mul_left x y ha.ne'

theorem sumSkip_pos_mul {a : K} (ha : 0 < a) (l : List (Num K)) :
    sumSkip (l.map (fun x => fin a * x)) = fin a * sumSkip l := by
  induction l with
  | nil => show (0 : Num K) = fin a * fin 0; rw [fin_mul, mul_zero]; rfl
  | cons x l ih =>
    rw [List.map_cons, sumSkip_cons, sumSkip_cons, pos_mul_isNaN ha, ih]
    split
    · rfl
    · rw [pos_mul_add ha]

end
end Num

section
variable [Field K] [LinearOrder K]

/-- Every cell multiplied by `a`. -/
def Tri.scale (a : K) (t : Tri K) : Tri K := { t with cell := fun i j => .fin a * t.cell i j }

/-- One row of the summary with its amounts multiplied by `a`. -/
def SummRow.scale (a : K) (x : SummRow K) : SummRow K :=
  { origin := x.origin, maturity := x.maturity, cldf := x.cldf, emergence := x.emergence
    latest := .fin a * x.latest, ultimate := .fin a * x.ultimate, reserve := .fin a * x.reserve }

/-- What scaling does to a result: losses are multiplied, factors and labels kept. -/
def BaseResult.scale (a : K) (r : BaseResult K) : BaseResult K :=
  { r with
    rows := r.rows.map (SummRow.scale a)
    totLatest := .fin a * r.totLatest, totUltimate := .fin a * r.totUltimate
    totReserve := .fin a * r.totReserve
    sqr := { tri := r.sqr.tri.scale a, ultimate := r.sqr.ultimate.map (fun x => .fin a * x) } }

variable [IsStrictOrderedRing K] {a : K}

theorem lastValid_congr_isNaN {f g : ℕ → Num K} (h : ∀ i, (f i).isNaN = (g i).isNaN) (n : ℕ) :
    lastValid f n = lastValid g n := by
  induction n with
  | zero => rfl
  | succ n ih => rw [lastValid, lastValid, h n, ih]

theorem Tri.scale_linkRatios (ha : 0 < a) (t : Tri K) : (t.scale a).linkRatios = t.linkRatios := by
  unfold Tri.linkRatios Tri.scale
  simp only [Tri.mk.injEq, true_and]
  funext i j
  show (if j + 1 < t.nc then _ else _) / _ = _
  split
  · exact Num.pos_mul_div ha _ _
  · simp

theorem Tri.scale_a2a (ha : 0 < a) (t : Tri K) : (t.scale a).a2a = t.a2a := by
  unfold Tri.a2a
  rw [Tri.scale_linkRatios ha]

theorem Tri.scale_a2aind0 (ha : 0 < a) (t : Tri K) : (t.scale a).a2aind0 = t.a2aind0 := by
  unfold Tri.a2aind0
  rw [Tri.scale_a2a ha]

theorem Tri.scale_col (t : Tri K) (j : ℕ) :
    (t.scale a).col j = (t.col j).map (fun x => .fin a * x) := by
  unfold Tri.col Tri.scale
  rw [List.map_map]
  rfl

theorem weightedAvg_scale (ha : 0 < a) (t : Tri K) (d j : ℕ) :
    weightedAvg (t.scale a) d j = weightedAvg t d j := by
  have hcount : ∀ l : List (Num K), ((l.map (fun x => Num.fin a * x)).filter (fun v => !v.isNaN)).length
      = (l.filter (fun v => !v.isNaN)).length := by
    intro l
    induction l with
    | nil => rfl
    | cons x l ih =>
      rw [List.map_cons, List.filter_cons, List.filter_cons, Num.pos_mul_isNaN ha]
      split <;> simp [ih]
  have hs : ∀ (l : List (Num K)) (p q : ℕ), pySlice (l.map (fun x => Num.fin a * x)) p q =
      (pySlice l p q).map (fun x => Num.fin a * x) := by
    intro l p q
    unfold pySlice
    rw [← List.map_take, ← List.map_drop]
  unfold weightedAvg
  simp only [Tri.scale_col, hcount, hs, Num.sumSkip_pos_mul ha, Num.pos_mul_div ha]
  rfl

theorem a2aAvgs_scale (ha : 0 < a) (gm : List (Num K) → Num K) (t ind : Tri K) :
    a2aAvgs gm (t.scale a) ind = a2aAvgs gm t ind := by
  unfold a2aAvgs
  simp only [Tri.scale_a2a ha]
  have : ∀ adj k d j, avgCell gm (t.scale a) adj k d j = avgCell gm t adj k d j := by
    intro adj k d j
    cases k <;> first | rfl | exact weightedAvg_scale ha t d j
  simp only [this]

theorem Tri.scale_triindAt (ha : 0 < a) (t : Tri K) : (t.scale a).triindAt = t.triindAt := by
  funext i j
  have : (t.scale a).clvi j = t.clvi j := lastValid_congr_isNaN (fun i => Num.pos_mul_isNaN ha _) _
  unfold Tri.triindAt
  rw [this]

theorem Tri.scale_triind (ha : 0 < a) (t : Tri K) : (t.scale a).triind = t.triind := by
  have : ∀ j, (t.scale a).clvi j = t.clvi j := fun j =>
    lastValid_congr_isNaN (fun i => Num.pos_mul_isNaN ha _) _
  unfold Tri.triind
  simp only [this, Tri.scale_triindAt ha]
  rfl

theorem Tri.scale_maturity (ha : 0 < a) (t : Tri K) : (t.scale a).maturity = t.maturity := by
  unfold Tri.maturity
  rw [Tri.scale_triind ha]
  rfl

theorem Tri.scale_latest (ha : 0 < a) (t : Tri K) :
    (t.scale a).latestByOrigin = t.latestByOrigin.map (fun p => (p.1, .fin a * p.2)) := by
  unfold Tri.latestByOrigin Tri.latest
  rw [List.map_map, List.map_filterMap, List.map_filterMap]
  apply List.filterMap_congr
  intro i _
  have : (t.scale a).rlvi i = t.rlvi i := lastValid_congr_isNaN (fun j => Num.pos_mul_isNaN ha _) _
  rw [this]
  cases t.rlvi i <;> rfl

theorem Ser.get_map_scale (s : Ser K) (d : Int) :
    Ser.get (s.map (fun p => (p.1, .fin a * p.2))) d = .fin a * Ser.get s d := by
  unfold Ser.get
  induction s with
  | nil => simp
  | cons p s ih =>
    rw [List.map_cons, List.find?_cons, List.find?_cons]
    by_cases h : p.1 == d
    · simp only [h]
    · simp only [h]; exact ih

theorem sqrCell_scale (ha : 0 < a) (t : Tri K) (g : ℕ → Num K) (i j : ℕ) :
    sqrCell (t.scale a) g i j = .fin a * sqrCell t g i j := by
  induction j with
  | zero => rfl
  | succ j ih =>
    rw [sqrCell, sqrCell, Tri.scale_triindAt ha]
    split
    · rw [ih, Num.pos_mul_assoc ha]
    · rfl

theorem ultimatesOf_scale (ha : 0 < a) (t : Tri K) (cl : Ser K) :
    ultimatesOf (t.scale a) cl = (ultimatesOf t cl).map (List.map (fun x => .fin a * x)) := by
  unfold ultimatesOf
  rw [Tri.scale_latest ha]
  simp only
  generalize (cl.map Prod.snd).reverse = b
  generalize t.latestByOrigin = l
  have hnr : (t.scale a).nr = t.nr := rfl
  have e1 : (l.map (fun p : Int × Num K => (p.1, Num.fin a * p.2))).map Prod.snd =
      (l.map Prod.snd).map (fun x => Num.fin a * x) := by
    rw [List.map_map, List.map_map]; rfl
  rw [e1, hnr]
  generalize l.map Prod.snd = l
  rw [List.length_map]
  split
  · show Except.ok _ = Except.ok _
    congr 1
    rw [List.zipWith_map_left, List.map_zipWith]
    congr 1
    funext x y
    exact Num.pos_mul_assoc ha x y
  · split
    · show Except.ok _ = Except.ok _
      congr 1
      rw [List.map_map, List.map_map]
      apply List.map_congr_left
      intro x _
      exact Num.pos_mul_assoc ha x _
    · split
      · rename_i h3
        show Except.ok _ = Except.ok _
        congr 1
        rw [List.map_map]
        apply List.map_congr_left
        intro x _
        cases l with
        | nil => simp at h3
        | cons y l => exact Num.pos_mul_assoc ha y x
      · rfl

theorem reservesOf_scale (ha : 0 < a) (t : Tri K) (u : List (Num K)) :
    reservesOf (t.scale a) (u.map (fun x => .fin a * x)) =
      (reservesOf t u).map (fun x => .fin a * x) := by
  unfold reservesOf
  rw [Tri.scale_latest ha, List.map_map]
  show (t.origins.zip _).map _ = _
  rw [List.zip_map_right, List.map_map]
  apply List.map_congr_left
  intro p _
  show Num.fin a * p.2 - Ser.get _ p.1 = Num.fin a * (p.2 - _)
  rw [Ser.get_map_scale, Num.pos_mul_sub ha]

theorem trisqrdOf_scale (ha : 0 < a) (t : Tri K) (l : Ser K) :
    trisqrdOf (t.scale a) l = (trisqrdOf t l).map
      (fun s => { tri := s.tri.scale a, ultimate := s.ultimate.map (fun x => .fin a * x) }) := by
  unfold trisqrdOf
  rw [Tri.scale_triind ha]
  cases t.triind with
  | error e => rfl
  | ok ind =>
    show (if l.length < t.nc - 1 ∨ l = [] then _ else _) = Except.map _ (if l.length < t.nc - 1 ∨ l = [] then _ else _)
    split
    · rfl
    · show Except.ok _ = Except.ok _
      congr 1
      simp only [Sqr.mk.injEq]
      constructor
      · unfold Tri.scale
        simp only [Tri.mk.injEq, true_and]
        funext i j
        exact sqrCell_scale ha t _ i j
      · rw [List.map_map]
        apply List.map_congr_left
        intro i _
        show sqrCell (t.scale a) _ i (t.nc - 1) * _ = _
        rw [sqrCell_scale ha, Num.pos_mul_assoc ha]
        rfl

theorem getD_map_scale (l : List (Num K)) (i : ℕ) :
    (l.map (fun x => Num.fin a * x)).getD i .nan = .fin a * l.getD i .nan := by
  rw [List.getD_eq_getElem?_getD, List.getD_eq_getElem?_getD, List.getElem?_map]
  cases l[i]? <;> simp

theorem baseFromLdfs_scale (ha : 0 < a) (t : Tri K) (l : Ser K) :
    baseFromLdfs (t.scale a) l = (baseFromLdfs t l).map (BaseResult.scale a) := by
  unfold baseFromLdfs
  simp only [ultimatesOf_scale ha, Tri.scale_maturity ha, trisqrdOf_scale ha]
  cases ultimatesOf t (cldfsOf l) with
  | error e => rfl
  | ok u =>
    cases t.maturity with
    | error e => rfl
    | ok m =>
      cases trisqrdOf t l with
      | error e => rfl
      | ok s =>
        have hrow : ∀ i, ({
            origin := (t.scale a).oAt i, maturity := m.getD i 0, cldf := Ser.get (cldfsOf l) (m.getD i 0),
            emergence := 1 / Ser.get (cldfsOf l) (m.getD i 0),
            latest := Ser.get (t.scale a).latestByOrigin ((t.scale a).oAt i),
            ultimate := (u.map (fun x => Num.fin a * x)).getD i .nan,
            reserve := (reservesOf (t.scale a) (u.map (fun x => Num.fin a * x))).getD i .nan } : SummRow K) =
            SummRow.scale a
            { origin := t.oAt i, maturity := m.getD i 0, cldf := Ser.get (cldfsOf l) (m.getD i 0),
              emergence := 1 / Ser.get (cldfsOf l) (m.getD i 0),
              latest := Ser.get t.latestByOrigin (t.oAt i), ultimate := u.getD i .nan,
              reserve := (reservesOf t u).getD i .nan } := by
          intro i
          rw [Tri.scale_latest ha, Ser.get_map_scale, reservesOf_scale ha, getD_map_scale,
            getD_map_scale]
          rfl
        show Except.ok _ = Except.ok _
        congr 1
        have hnr : (t.scale a).nr = t.nr := rfl
        simp only [BaseResult.scale, BaseResult.mk.injEq, true_and, hrow, hnr, List.map_map, and_true]
        refine ⟨rfl, ?_, ?_, ?_⟩
        · rw [← Num.sumSkip_pos_mul ha, List.map_map]; rfl
        · rw [← Num.sumSkip_pos_mul ha, List.map_map]; rfl
        · rw [← Num.sumSkip_pos_mul ha, List.map_map]; rfl

/-- **C34** scaling all losses by `a > 0`: link ratios, indicators and averages (of every kind and
window, with any exclusions) are unchanged; `base_cl` (by name, array or Series) raises the same
exception or returns the same factors with latest, ultimate, reserve, totals and all cells of the
squared triangle multiplied by `a`.  For every triangle, staircase or not. -/
theorem C34_scale (ha : 0 < a) (gm : List (Num K) → Num K) (t ind : Tri K) :
    (t.scale a).a2a = t.a2a ∧ (t.scale a).a2aind0 = t.a2aind0 ∧
    a2aAvgs gm (t.scale a) ind = a2aAvgs gm t ind ∧
    (∀ sel tail, baseCL gm (t.scale a) ind sel tail =
      (baseCL gm t ind sel tail).map (BaseResult.scale a)) ∧
    (∀ sel tail, baseCLArray (t.scale a) sel tail =
      (baseCLArray t sel tail).map (BaseResult.scale a)) ∧
    ∀ sel tail, baseCLSeries (t.scale a) sel tail =
      ((baseCLSeries t sel tail).1, (baseCLSeries t sel tail).2.map (BaseResult.scale a)) := by
  refine ⟨Tri.scale_a2a ha t, Tri.scale_a2aind0 ha t, a2aAvgs_scale ha gm t ind, ?_, ?_, ?_⟩
  · intro sel tail
    unfold baseCL ldfsByName
    rw [a2aAvgs_scale ha]
    cases a2aAvgs gm t ind with
    | error e => rfl
    | ok tab =>
      show (do
        let ldfs ← (match tab.rows.lookup sel with
          | none => .error .keyError
          | some vals => do
            let lab ← tailLabel tab.devs
            .ok (Ser.locSet (tab.devs.zip vals) lab tail) : Except PyErr (Ser K))
        baseFromLdfs (t.scale a) ldfs) = Except.map _ (do
        let ldfs ← (match tab.rows.lookup sel with
          | none => .error .keyError
          | some vals => do
            let lab ← tailLabel tab.devs
            .ok (Ser.locSet (tab.devs.zip vals) lab tail) : Except PyErr (Ser K))
        baseFromLdfs t ldfs)
      cases tab.rows.lookup sel with
      | none => rfl
      | some vals =>
        show (do
          let ldfs ← (do
            let lab ← tailLabel tab.devs
            .ok (Ser.locSet (tab.devs.zip vals) lab tail) : Except PyErr (Ser K))
          baseFromLdfs (t.scale a) ldfs) = Except.map _ (do
          let ldfs ← (do
            let lab ← tailLabel tab.devs
            .ok (Ser.locSet (tab.devs.zip vals) lab tail) : Except PyErr (Ser K))
          baseFromLdfs t ldfs)
        cases tailLabel tab.devs with
        | error e => rfl
        | ok lab => exact baseFromLdfs_scale ha t _
  · intro sel tail
    unfold baseCLArray ldfsByArray
    have hnc : (t.scale a).nc = t.nc := rfl
    rw [hnc]
    by_cases hlen : (sel ++ [tail]).length = t.nc
    · rw [if_pos hlen, if_pos hlen]
      exact baseFromLdfs_scale ha t _
    · rw [if_neg hlen, if_neg hlen]
      rfl
  · intro sel tail
    have hb : ldfsBySeries (t.scale a) sel tail = ldfsBySeries t sel tail := rfl
    unfold baseCLSeries
    simp only [hb]
    congr 1
    cases (ldfsBySeries t sel tail).2 with
    | error e => rfl
    | ok l => exact baseFromLdfs_scale ha t l

example : ((baseCL (fun _ => .nan) (exTri.scale 3) exTri.a2aind0 "all-weighted" (.fin (11 / 10))).map
      (fun r => (r.ldfs, r.rows.map (fun x => x.ultimate)))) =
    .ok ([(1, .fin (494 / 330)), (2, .fin (400 / 326)), (3, .fin (198 / 180)), (4, .fin (11 / 10))],
      [.fin (3 * (198 * (11 / 10))), .fin (3 * (220 * (121 / 100))),
        .fin (3 * (168 * (400 / 326) * (121 / 100))),
        .fin (3 * (130 * (494 / 330) * (400 / 326) * (121 / 100)))]) := by
  decide +kernel

/-! ## C35 -/

theorem sum_map_le_sum_map {l : List ℕ} {f g : ℕ → K} (h : ∀ i ∈ l, f i ≤ g i) :
    (l.map f).sum ≤ (l.map g).sum := by
  induction l with
  | nil => exact le_refl _
  | cons x l ih =>
    rw [List.map_cons, List.map_cons, List.sum_cons, List.sum_cons]
    exact add_le_add (h x (by simp)) (ih (fun i hi => h i (by simp [hi])))

theorem sum_map_mul_left' (l : List ℕ) (f : ℕ → K) (b : K) :
    (l.map (fun i => b * f i)).sum = b * (l.map f).sum := by
  induction l with
  | nil => simp
  | cons x l ih => rw [List.map_cons, List.sum_cons, ih, List.map_cons, List.sum_cons, mul_add]

/-- **C35**, first part: factors and tail at least 1 and non-negative latest values give non-negative
reserves and cumulative factors that do not increase with maturity. -/
theorem C35_reserves {t : Tri K} {n : ℕ} {c : ℕ → ℕ → K} (h : Spec.Stair t n c) (hn : 1 ≤ n)
    {ldfs : Ser K} {f : ℕ → K} (hf : LdfVals ldfs n f) (h1 : ∀ j < n, 1 ≤ f j)
    (hl : ∀ i < n, 0 ≤ c i (n - 1 - i)) :
    ∃ r, baseFromLdfs t ldfs = .ok r ∧ (∃ tot, r.totReserve = .fin tot ∧ 0 ≤ tot) ∧
      (∀ i < n, ∃ row x, r.rows[i]? = some row ∧ row.reserve = .fin x ∧ 0 ≤ x) ∧
      ∃ g : ℕ → K, r.cldfs.map Prod.snd = (List.range n).map (fun j => .fin (g j)) ∧
        (∀ j, j + 1 < n → g (j + 1) ≤ g j) ∧ ∀ j < n, 1 ≤ g j := by
  obtain ⟨r, hr, hs⟩ := base_core h hn hf
  have hge : ∀ j, 1 ≤ Spec.tailProd f n j := by
    intro j
    unfold Spec.tailProd
    apply Finset.one_le_prod
    intro m hm
    exact h1 m (Finset.mem_Ico.1 hm).2
  have hpos : ∀ i < n, 0 ≤ c i (n - 1 - i) * Spec.tailProd f n (n - 1 - i) - c i (n - 1 - i) := by
    intro i hi
    have := mul_le_mul_of_nonneg_left (hge (n - 1 - i)) (hl i hi)
    rw [mul_one] at this
    exact sub_nonneg.2 this
  refine ⟨r, hr, ⟨_, hs.totReserve, ?_⟩, ?_, Spec.tailProd f n, hs.cldfs_values, ?_, fun j _ => hge j⟩
  · apply Finset.sum_nonneg
    intro i hi
    exact hpos i (Finset.mem_range.1 hi)
  · intro i hi
    obtain ⟨row, a1, _, _, _, _, _, _, a8⟩ := hs.rows i hi
    exact ⟨row, _, a1, a8, hpos i hi⟩
  · intro j hj
    rw [Spec.tailProd_succ f (show j < n by omega)]
    exact le_mul_of_one_le_left (le_trans zero_le_one (hge (j + 1))) (h1 j (by omega))

/-- **C35**, second part: on a positive staircase with nondecreasing rows every simple, weighted and
medial average that is a number is at least 1, whatever is excluded. -/
theorem C35_averages {gm : List (Num K) → Num K} {t ind : Tri K} {n : ℕ} {c w : ℕ → ℕ → K}
    (h : Spec.Stair t n c) (hp : Spec.Positive n c)
    (hmono : ∀ i j, i + j + 1 < n → c i j ≤ c i (j + 1)) (hi : IndOn t ind n w)
    (hw : ∀ i j, i + j + 1 < n → w i j = 0 ∨ w i j = 1) {tab : AvgTable K}
    (htab : a2aAvgs gm t ind = .ok tab) {kind : String}
    (hk : kind = "simple" ∨ kind = "weighted" ∨ kind = "medial") {k j : ℕ} (hk' : k < n - 1)
    (hj : j < n - 1) {v : K} (hv : Spec.entry tab (Spec.avgName kind k) j = some (.fin v)) :
    1 ≤ v := by
  have hwin : ∀ x ∈ (Spec.lastN k (adjRatios n c w j)).filter (fun x => decide (0 < x)), 1 ≤ x := by
    intro x hx
    obtain ⟨h1, h2⟩ := List.mem_filter.1 hx
    have h3 := lastN_subset _ _ x h1
    unfold adjRatios at h3
    obtain ⟨i, hi', rfl⟩ := List.mem_map.1 h3
    rw [List.mem_range] at hi'
    rcases hw i j (by omega) with e | e
    · rw [e] at h2; simp at h2
    · rw [e, mul_one, one_le_div (hp i j (by omega))]
      exact hmono i j (by omega)
  have hent : ∀ kd : AvgKind, Spec.entry tab (avgLabel kd k) j = some (.fin v) →
      avgEntry gm t ind kd k j = .ok (.fin v) := by
    intro kd hkd
    have hnr : k < t.a2a.nr := by rw [h.a2a_nr hp.ne_zero]; exact hk'
    have hnc : j < (Tri.alignOp (· * ·) t.a2a ind).nc := by
      rw [adj_nc h hp.ne_zero hi]; exact hj
    obtain ⟨v', hv'⟩ := a2aAvgs_ok_entry htab kd (Or.inr hnr) hnc
    have := entry_of_ok htab kd (Or.inr hnr) hnc hv'
    rw [hkd] at this
    injection this with this
    rw [hv', ← this]
  have hmean : ∀ l : List K, l ≠ [] → (∀ x ∈ l, 1 ≤ x) → 1 ≤ Spec.mean l := fun l hl hall =>
    le_mean hl hall
  rcases hk with rfl | rfl | rfl
  · have := hent .simple hv
    rw [entry_simple h hp.ne_zero hi hj] at this
    generalize hl : (Spec.lastN k (adjRatios n c w j)).filter (fun x => decide (0 < x)) = l at *
    by_cases e : l = []
    · subst e; simp [simpleAvg] at this
    · rw [simpleAvg_fin e] at this
      injection this with this
      injection this with this
      rw [← this]
      exact hmean l e hwin
  · have := hent .weighted hv
    rw [entry_weighted h hj] at this
    have hne : wOrigins n k j ≠ [] := by
      unfold wOrigins
      apply lastN_ne_nil
      simp; omega
    have hmem : ∀ i ∈ wOrigins n k j, i < n - 1 - j := by
      intro i hi'
      exact List.mem_range.1 (lastN_subset _ _ i hi')
    have hpos : 0 < ((wOrigins n k j).map (fun i => c i j)).sum :=
      sum_pos_of hne (fun i hi' => hp i j (by have := hmem i hi'; omega))
    rw [Num.fin_div _ _ hpos.ne'] at this
    injection this with this
    injection this with this
    rw [← this, one_le_div hpos]
    apply sum_map_le_sum_map
    intro i hi'
    exact hmono i j (by have := hmem i hi'; omega)
  · have := hent .medial hv
    rw [entry_medial h hp.ne_zero hi hj] at this
    generalize hl : (Spec.lastN k (adjRatios n c w j)).filter (fun x => decide (0 < x)) = l at *
    by_cases e : l = []
    · subst e; simp [medialAvg_nil] at this
    · obtain ⟨lo, hi, h1, h2, h3, h4⟩ := exists_min_max e
      rw [medialAvg_spec h1 h2 h3 h4] at this
      injection this with this
      split at this
      · injection this with this
        rw [← this]; exact hwin lo h1
      · split at this
        · injection this with this
          rw [← this]; exact hmean l e hwin
        · split at this
          · cases this
          · rename_i e4
            injection this with this
            rw [← this]
            exact hmean _ e4 (fun x hx => hwin x (List.mem_filter.1 hx).1)

/-! ## C40: exact data -/

/-- Data that develop with the same factors in every row. -/
def Spec.exact (a0 f : ℕ → K) : ℕ → ℕ → K := fun i j => a0 i * ∏ m ∈ Finset.range j, f m

theorem exact_pos {a0 f : ℕ → K} {n : ℕ} (h0 : ∀ i < n, 0 < a0 i) (hf : ∀ j < n - 1, 0 < f j) :
    Spec.Positive n (Spec.exact a0 f) := by
  intro i j hij
  apply mul_pos (h0 i (by omega))
  apply Finset.prod_pos
  intro m hm
  exact hf m (by have := Finset.mem_range.1 hm; omega)

theorem exact_ratio {a0 f : ℕ → K} {n : ℕ} (h0 : ∀ i < n, 0 < a0 i) (hf : ∀ j < n - 1, 0 < f j)
    {i j : ℕ} (hij : i + j + 1 < n) :
    Spec.exact a0 f i (j + 1) / Spec.exact a0 f i j = f j := by
  have hp := (exact_pos h0 hf i j (by omega)).ne'
  rw [div_eq_iff hp]
  unfold Spec.exact
  rw [Finset.prod_range_succ]; ring

theorem exact_ratios {a0 f : ℕ → K} {n : ℕ} (h0 : ∀ i < n, 0 < a0 i) (hf : ∀ j < n - 1, 0 < f j)
    {j : ℕ} :
    Spec.ratios n (Spec.exact a0 f) j = List.replicate (n - 1 - j) (f j) := by
  unfold Spec.ratios
  rw [List.eq_replicate_iff]
  refine ⟨by simp, ?_⟩
  intro x hx
  obtain ⟨i, hi, rfl⟩ := List.mem_map.1 hx
  rw [List.mem_range] at hi
  exact exact_ratio h0 hf (by omega)

/-- **C40** exact chain-ladder data: every average of every window is the factor, the projected
triangle is the full product triangle, and the link ratios do not deviate from the factors.  `gm` only
has to return the common value of a list of equal positive numbers (true of the geometric mean, see
`Verif.Props.GeoMean`). -/
theorem C40_exact {gm : List (Num K) → Num K}
    (hgm : ∀ m (x : K), 0 < x → gm (List.replicate (m + 1) (.fin x)) = .fin x)
    {t : Tri K} {n : ℕ} (hn : 3 ≤ n) {a0 f : ℕ → K} (h0 : ∀ i < n, 0 < a0 i)
    (hf : ∀ j < n - 1, 0 < f j) (h : Spec.Stair t n (Spec.exact a0 f)) :
    (∀ i j, i + j + 1 < n → t.a2a.cell i j = .fin (f j)) ∧
    ∀ kind : AvgKind, ∀ k < n - 1,
      Spec.RowIs gm t t.a2aind0 (Spec.avgName kind.name k)
        ((List.range (n - 1)).map (fun j => .fin (f j))) ∧
      ∀ tail, ∃ r, baseCL gm t t.a2aind0 (Spec.avgName kind.name k) (.fin tail) = .ok r ∧
        (∀ i < n, ∀ j < n, r.sqr.tri.cell i j = .fin (Spec.exact a0 f i j)) ∧
        ∀ i < n, ∃ row, r.rows[i]? = some row ∧
          row.ultimate = .fin (Spec.exact a0 f i (n - 1) * tail) := by
  have hp := exact_pos h0 hf
  have hind := h.indOn0 hp.ne_zero
  refine ⟨?_, ?_⟩
  · intro i j hij
    rw [(h.a2a_spec hp.ne_zero).2.2 i (by omega) j (by omega), if_pos hij, exact_ratio h0 hf hij]
  · intro kind k hk
    have hrow : Spec.RowIs gm t t.a2aind0 (Spec.avgName kind.name k)
        ((List.range (n - 1)).map (fun j => .fin (f j))) := by
      obtain ⟨tab, htab⟩ := a2aAvgs_noexcl_ok gm h hp
      refine ⟨tab, htab, ?_⟩
      have hnr : k < t.a2a.nr := by rw [h.a2a_nr hp.ne_zero]; exact hk
      obtain ⟨_, vals, h1, h2⟩ := a2aAvgs_lookup htab (k := kind) (Or.inr hnr)
      rw [avgName_eq] at h1
      rw [h1]
      rw [adj_nc h hp.ne_zero hind] at h2
      have h3 : (List.range (n - 1)).mapM (avgEntry gm t t.a2aind0 kind k) =
          .ok ((List.range (n - 1)).map (fun j => .fin (f j))) := by
        apply mapM_ok
        intro j hj
        rw [List.mem_range] at hj
        have hr := exact_ratios h0 hf (j := j)
        have hfj := hf j hj
        obtain ⟨q, hq⟩ : ∃ q, Spec.lastN k (Spec.ratios n (Spec.exact a0 f) j) =
            List.replicate (q + 1) (f j) := by
          have hne := lastN_ne_nil k (ratios_ne_nil (n := n) (c := Spec.exact a0 f) hj)
          have hall : ∀ x ∈ Spec.lastN k (Spec.ratios n (Spec.exact a0 f) j), x = f j := by
            intro x hx
            have := lastN_subset _ _ x hx
            rw [hr] at this
            exact List.eq_of_mem_replicate this
          refine ⟨(Spec.lastN k (Spec.ratios n (Spec.exact a0 f) j)).length - 1, ?_⟩
          rw [List.eq_replicate_iff]
          refine ⟨?_, hall⟩
          have := List.length_pos_iff.2 hne
          omega
        have hmap : (List.replicate (q + 1) (f j)).map Num.fin = List.replicate (q + 1) (Num.fin (f j)) :=
          List.map_replicate
        have hne : List.replicate (q + 1) (f j) ≠ [] := by simp
        cases kind with
        | simple =>
          rw [entry_simple h hp.ne_zero hind hj, window_noexcl hp, hq, simpleAvg_fin hne,
            mean_replicate (by omega)]
        | geometric =>
          rw [entry_geometric h hp.ne_zero hind hj, window_noexcl hp, hq, hmap]
          unfold geometricAvg
          rw [if_neg (by simp), hgm q (f j) hfj]
        | medial =>
          rw [entry_medial h hp.ne_zero hind hj, window_noexcl hp, hq]
          have hm : f j ∈ List.replicate (q + 1) (f j) := by simp
          have hall : ∀ x ∈ List.replicate (q + 1) (f j), x = f j := fun x hx =>
            List.eq_of_mem_replicate hx
          rw [medialAvg_spec hm (fun x hx => (hall x hx).ge) hm (fun x hx => (hall x hx).le),
            if_pos rfl]
        | weighted =>
          rw [entry_weighted h hj]
          have hne : wOrigins n k j ≠ [] := by
            unfold wOrigins
            apply lastN_ne_nil
            simp; omega
          have hmem : ∀ i ∈ wOrigins n k j, i < n - 1 - j := by
            intro i hi'
            exact List.mem_range.1 (lastN_subset _ _ i hi')
          have hpos : 0 < ((wOrigins n k j).map (fun i => Spec.exact a0 f i j)).sum :=
            sum_pos_of hne (fun i hi' => hp i j (by have := hmem i hi'; omega))
          rw [Num.fin_div _ _ hpos.ne']
          congr 2
          rw [div_eq_iff hpos.ne', ← sum_map_mul_left']
          congr 1
          apply List.map_congr_left
          intro i hi'
          have hlt := hmem i hi'
          have := exact_ratio h0 hf (show i + j + 1 < n by omega)
          rw [div_eq_iff (hp i j (by omega)).ne'] at this
          exact this
      rw [h3] at h2
      injection h2 with h2
      rw [h2]
    refine ⟨hrow, ?_⟩
    intro tail
    obtain ⟨r, lab, hr, _, _, _, hs⟩ := baseCL_stair h hp.ne_zero hind hn hrow tail
    have hext : ∀ i < n, ∀ j < n, n - 1 - i ≤ j →
        Spec.exact a0 f i (n - 1 - i) * ∏ m ∈ Finset.Ico (n - 1 - i) j, f m =
          Spec.exact a0 f i j := by
      intro i hi j hj hij
      unfold Spec.exact
      rw [mul_assoc, Finset.prod_range_mul_prod_Ico f hij]
    refine ⟨r, hr, ?_, ?_⟩
    · intro i hi j hj
      rw [hs.sqr_cells i hi j hj]
      congr 1
      split
      · rfl
      · rename_i e
        rw [← hext i hi j hj (by omega)]
        congr 1
        apply Finset.prod_congr rfl
        intro m hm
        have := (Finset.mem_Ico.1 hm).2
        unfold Spec.withTail
        rw [if_pos (by omega)]
    · intro i hi
      obtain ⟨row, a1, _, _, _, _, _, a7, _⟩ := hs.rows i hi
      refine ⟨row, a1, ?_⟩
      rw [a7, tailProd_withTail f tail (by omega), ← mul_assoc, hext i hi (n - 1) (by omega) (by omega)]

/-- A case of `C40_exact`: rows 100, 80, 50 with factors 3/2 and 6/5. -/
example : (baseCL (fun l => l.headD .nan) (stairTri 3 (Spec.exact
      (fun i => ([100, 80, 50] : List ℚ).getD i 0) (fun j => ([3 / 2, 6 / 5] : List ℚ).getD j 0)))
      (stairTri 3 (Spec.exact (fun i => ([100, 80, 50] : List ℚ).getD i 0)
        (fun j => ([3 / 2, 6 / 5] : List ℚ).getD j 0))).a2aind0 "medial-1" (.fin 1)).map
      (fun r => (r.sqr.tri.row 1, r.sqr.tri.row 2)) =
    .ok ([.fin 80, .fin 120, .fin 144], [.fin 50, .fin 75, .fin 90]) := by
  decide +kernel

end

end Trikit
