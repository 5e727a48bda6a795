import Verif.RoundedMack
import Verif.Props.RoundedScale
import Verif.Props.BootScale

/-! # C154: change of scale of Mack chain ladder in rounded arithmetic -/

set_option linter.unusedSectionVars false

namespace Trikit

variable {K : Type} [Field K] [LinearOrder K] [IsStrictOrderedRing K] {rd : K → K} {a : K} {br : ℕ → SumTree}

/-! ### operations -/

theorem Spec.Homog.sq (h : Spec.Homog rd a) : Spec.Homog rd (a * a) := by
  intro x
  rw [mul_assoc, h, h, mul_assoc]

theorem Num.mulR_left (h : Spec.Homog rd a) (ha : 0 < a) (x y : Num K) :
    Num.mulR rd (.fin a * x) y = .fin a * Num.mulR rd x y := by
  unfold Num.mulR
  rw [Num.pos_mul_assoc ha, Num.rounded_scale h ha]

theorem Num.mulR_right (h : Spec.Homog rd a) (ha : 0 < a) (x y : Num K) :
    Num.mulR rd x (.fin a * y) = .fin a * Num.mulR rd x y := by
  unfold Num.mulR
  rw [Num.mul_comm' x, Num.pos_mul_assoc ha, Num.rounded_scale h ha, Num.mul_comm' y]

theorem Num.fin_fin_mul (ha : 0 < a) {b : K} (x : Num K) : Num.fin a * (Num.fin b * x) = .fin (a * b) * x := by
  rw [← Num.pos_mul_assoc ha, Num.fin_mul]

theorem Num.mulR_both (h : Spec.Homog rd a) (ha : 0 < a) (x y : Num K) :
    Num.mulR rd (.fin a * x) (.fin a * y) = .fin (a * a) * Num.mulR rd x y := by
  rw [Num.mulR_left h ha, Num.mulR_right h ha, Num.fin_fin_mul ha]

theorem Num.addR_both (h : Spec.Homog rd a) (ha : 0 < a) (x y : Num K) :
    Num.addR rd (.fin a * x) (.fin a * y) = .fin a * Num.addR rd x y := by
  unfold Num.addR
  rw [← Num.pos_mul_add ha, Num.rounded_scale h ha]

theorem Num.divR_both (ha : 0 < a) (x y : Num K) : Num.divR rd (.fin a * x) (.fin a * y) = Num.divR rd x y := by
  unfold Num.divR
  rw [Num.pos_mul_div ha]

theorem Num.divR_left (h : Spec.Homog rd a) (ha : 0 < a) (x y : Num K) :
    Num.divR rd (.fin a * x) y = .fin a * Num.divR rd x y := by
  unfold Num.divR
  rw [Num.pos_mul_div_right ha, Num.rounded_scale h ha]

theorem Num.powR_two (h : Spec.Homog rd a) (ha : 0 < a) (x : Num K) :
    (Num.fin a * x).powR rd 2 = .fin (a * a) * x.powR rd 2 := by
  unfold Num.powR
  rw [Num.pos_mul_pow2 ha, Num.rounded_scale h.sq (mul_pos ha ha)]

theorem Num.pow_one' (x : Num K) : x.pow 1 = x := by
  cases x <;> simp [Num.pow]

theorem Num.powR_one (h : Spec.Homog rd a) (ha : 0 < a) (x : Num K) :
    (Num.fin a * x).powR rd 1 = .fin a * x.powR rd 1 := by
  unfold Num.powR
  rw [Num.pow_one', Num.pow_one', Num.rounded_scale h ha]

theorem Num.lt_scale (ha : 0 < a) (x y : Num K) : Num.lt (.fin a * x) (.fin a * y) = Num.lt x y := by
  cases x <;> cases y <;> simp only [Num.pos_mul_pinf ha, Num.pos_mul_ninf ha, Num.mul_nan, Num.fin_mul] <;>
    simp [Num.lt, ha]

theorem npMin2_scale (ha : 0 < a) (x y : Num K) : npMin2 (.fin a * x) (.fin a * y) = .fin a * npMin2 x y := by
  unfold npMin2
  rw [Num.pos_mul_isNaN ha, Num.pos_mul_isNaN ha, Num.lt_scale ha]
  split
  · simp
  · split <;> rfl

theorem nanTo0_scale (ha : 0 < a) (x : Num K) : nanTo0 (.fin a * x) = .fin a * nanTo0 x := by
  unfold nanTo0
  rw [Num.pos_mul_isNaN ha]
  split
  · rw [Num.zero_def, Num.fin_mul, mul_zero]
  · rfl

theorem pySumR_scale (h : Spec.Homog rd a) (ha : 0 < a) (l : List (Num K)) :
    pySumR rd (l.map (fun x => .fin a * x)) = .fin a * pySumR rd l := sumR_scale h ha l

/-! ### frames -/

theorem Tri.dropNaNRows_scale (ha : 0 < a) (t : Tri K) : (t.scale a).dropNaNRows = t.dropNaNRows.scale a := by
  have : Tri.keepIdx (t.scale a).nr (fun i => (List.range (t.scale a).nc).any (fun j => !((t.scale a).cell i j).isNaN)) =
      Tri.keepIdx t.nr (fun i => (List.range t.nc).any (fun j => !(t.cell i j).isNaN)) := by
    congr 1
    funext i
    congr 1
    funext j
    show (!(Num.fin a * t.cell i j).isNaN) = _
    rw [Num.pos_mul_isNaN ha]
  unfold Tri.dropNaNRows
  simp only [this]
  unfold Tri.scale
  simp only [Tri.mk.injEq, true_and]
  refine ⟨rfl, ?_⟩
  funext i j
  split <;> simp_all

theorem Tri.dropNaNCols_scale (ha : 0 < a) (t : Tri K) : (t.scale a).dropNaNCols = t.dropNaNCols.scale a := by
  have : Tri.keepIdx (t.scale a).nc (fun j => (List.range (t.scale a).nr).any (fun i => !((t.scale a).cell i j).isNaN)) =
      Tri.keepIdx t.nc (fun j => (List.range t.nr).any (fun i => !(t.cell i j).isNaN)) := by
    congr 1
    funext j
    congr 1
    funext i
    show (!(Num.fin a * t.cell i j).isNaN) = _
    rw [Num.pos_mul_isNaN ha]
  unfold Tri.dropNaNCols
  simp only [this]
  unfold Tri.scale
  simp only [Tri.mk.injEq, true_and]
  refine ⟨rfl, ?_⟩
  funext i j
  split <;> simp_all

theorem Tri.modTri_scale (ha : 0 < a) (t : Tri K) : (t.scale a).modTri = t.modTri.scale a := by
  unfold Tri.modTri
  have : ({ t.scale a with cell := fun i j => if (t.scale a).rlvi i = some j then .nan else (t.scale a).cell i j } : Tri K) =
      ({ t with cell := fun i j => if t.rlvi i = some j then .nan else t.cell i j } : Tri K).scale a := by
    unfold Tri.scale
    simp only [Tri.mk.injEq, true_and]
    funext i j
    have hr : (t.scale a).rlvi i = t.rlvi i := lastValid_congr_isNaN (fun j => Num.pos_mul_isNaN ha _) _
    unfold Tri.scale at hr
    rw [hr]
    split
    · simp
    · rfl
  rw [this, Tri.dropNaNRows_scale ha, Tri.dropNaNCols_scale ha]

theorem Tri.powTR_scale (h : Spec.Homog rd a) (ha : 0 < a) (t : Tri K) :
    (t.scale a).powTR rd 1 = (t.powTR rd 1).scale a := by
  unfold Tri.powTR Tri.scale
  simp only [Tri.mk.injEq, true_and]
  funext i j
  exact Num.powR_one h ha _

theorem Tri.at_scale (t : Tri K) (o d : Int) : (t.scale a).at' o d = .fin a * t.at' o d := by
  unfold Tri.at' Tri.scale
  simp only
  split
  · rfl
  · simp

theorem Tri.alignOp_scale (h : Spec.Homog rd a) (ha : 0 < a) (x y : Tri K) :
    Tri.alignOp (Num.mulR rd) x (y.scale a) = (Tri.alignOp (Num.mulR rd) x y).scale a := by
  unfold Tri.alignOp
  simp only [Tri.at_scale, Num.mulR_right h ha]
  show (if x.origins = y.origins ∧ x.devs = y.devs then _ else _) = _
  split
  · unfold Tri.scale
    simp only [Num.mulR_right h ha]
  · unfold Tri.scale
    simp only [Tri.mk.injEq, true_and]
    funext i j
    generalize (labels (x.origins ++ y.origins))[i]? = o
    generalize (labels (x.devs ++ y.devs))[j]? = d
    cases o <;> cases d <;> simp

/-- A Series with its values multiplied. -/
def Ser.scale (a : K) (s : Ser K) : Ser K := s.map (fun p => (p.1, .fin a * p.2))

theorem Ser.scale_fst (s : Ser K) : (Ser.scale a s).map Prod.fst = s.map Prod.fst := by
  unfold Ser.scale
  rw [List.map_map]; rfl

theorem Ser.scale_snd (s : Ser K) : (Ser.scale a s).map Prod.snd = (s.map Prod.snd).map (fun x => .fin a * x) := by
  unfold Ser.scale
  rw [List.map_map, List.map_map]; rfl

theorem Ser.get_scale (s : Ser K) (d : Int) : Ser.get (Ser.scale a s) d = .fin a * Ser.get s d := Ser.get_map_scale s d

theorem Ser.iloc_scale (s : Ser K) (k : ℕ) : (Ser.scale a s).iloc k = .fin a * s.iloc k := by
  unfold Ser.iloc
  rw [Ser.scale_snd]
  exact getD_map_scale _ _

theorem Tri.colSumsR_scale (h : Spec.Homog rd a) (ha : 0 < a) (t : Tri K) :
    (t.scale a).colSumsR br rd = Ser.scale a (t.colSumsR br rd) := by
  unfold Tri.colSumsR Ser.scale
  rw [List.map_map]
  apply List.map_congr_left
  intro j _
  simp only [Tri.scale_col, sumSkipR_scale h ha]
  rfl

theorem Ser.divSR_scale (ha : 0 < a) (x y : Ser K) :
    Ser.divSR rd (Ser.scale a x) (Ser.scale a y) = Ser.divSR rd x y := by
  unfold Ser.divSR
  rw [Ser.scale_fst, Ser.scale_fst]
  split
  · unfold Ser.scale
    rw [List.zipWith_map]
    simp only [Num.divR_both ha]
  · simp only [Ser.get_scale, Num.divR_both ha]

/-! ### the estimator -/

theorem mackLdfsR_scale (h : Spec.Homog rd a) (ha : 0 < a) (t ind : Tri K) (tail : Num K) :
    mackLdfsR br rd 1 (t.scale a) ind tail = mackLdfsR br rd 1 t ind tail := by
  unfold mackLdfsR
  simp only [Tri.modTri_scale ha, Tri.powTR_scale h ha, Tri.scale_a2aR ha, Tri.alignOp_scale h ha,
    Tri.colSumsR_scale h ha, Ser.divSR_scale ha]

theorem devpSumR_scale (h : Spec.Homog rd a) (ha : 0 < a) (t ind : Tri K) (f : Num K) (d : Int) :
    devpSumR br rd 1 (t.scale a) ind f d = .fin a * devpSumR br rd 1 t ind f d := by
  unfold devpSumR
  simp only [Tri.modTri_scale ha, Tri.powTR_scale h ha, Tri.scale_a2aR ha, Tri.at_scale, Num.mulR_right h ha,
    Num.mulR_left h ha]
  rw [← sumSkipR_scale h ha, List.map_map]
  rfl

theorem devpVarianceR_scale (h : Spec.Homog rd a) (ha : 0 < a) (t ind : Tri K) (l : Ser K) :
    devpVarianceR br rd 1 (t.scale a) ind l = (devpVarianceR br rd 1 t ind l).map (Ser.scale a) := by
  have hv : ∀ (labs devs : List Int), labs.map (fun d => if d ∈ devs then
        Num.divR rd (devpSumR br rd 1 (t.scale a) ind (Ser.get l d) d)
          (.fin ((((t.scale a).nr : Int) - (devs.idxOf d : Int) - 2 : Int) : K)) else .nan) =
      (labs.map (fun d => if d ∈ devs then Num.divR rd (devpSumR br rd 1 t ind (Ser.get l d) d)
          (.fin (((t.nr : Int) - (devs.idxOf d : Int) - 2 : Int) : K)) else .nan)).map (fun x => .fin a * x) := by
    intro labs devs
    rw [List.map_map]
    apply List.map_congr_left
    intro d _
    simp only [Function.comp_apply]
    split
    · rw [devpSumR_scale h ha, Num.divR_left h ha]; rfl
    · simp
  unfold devpVarianceR
  simp only [hv]
  have hmod : (t.scale a).modTri.devs = t.modTri.devs := by rw [Tri.modTri_scale ha]; rfl
  rw [Tri.scale_a2aR ha, hmod]
  show (if t.devs.dropLast.dropLast.all _ = false then _ else _) = Except.map _ (if t.devs.dropLast.dropLast.all _ = false then _ else _)
  split
  · rfl
  · simp only [List.length_map]
    show (if _ < 3 then _ else _) = Except.map _ (if _ < 3 then _ else _)
    split
    · rfl
    · show Except.ok _ = Except.ok _
      congr 1
      simp only [getD_map_scale, Num.powR_two h ha, ← List.map_dropLast, npMin2_scale ha]
      simp only [← Num.fin_fin_mul ha, Num.divR_both ha, Num.divR_left h ha, npMin2_scale ha]
      unfold Ser.scale
      have key : ∀ (labs : List Int) (X : List (Num K)) (z : Num K), labs.zip (X.map (fun x => Num.fin a * x) ++ [Num.fin a * z]) =
          (labs.zip (X ++ [z])).map (fun p => (p.1, Num.fin a * p.2)) := by
        intro labs X z
        have : X.map (fun x => Num.fin a * x) ++ [Num.fin a * z] = (X ++ [z]).map (fun x => Num.fin a * x) := by simp
        rw [this, List.zip_map_right]
        rfl
      exact key _ _ _

theorem ldfVarianceR_scale (h : Spec.Homog rd a) (ha : 0 < a) (t ind : Tri K) (l : Ser K) :
    ldfVarianceR br rd 1 (t.scale a) ind (Ser.scale a l) = ldfVarianceR br rd 1 t ind l := by
  unfold ldfVarianceR
  rw [Ser.scale_fst, Tri.modTri_scale ha]
  show (if ind.devs.all (fun d => decide (d ∈ l.map Prod.fst ∧ d ∈ t.modTri.devs)) = false then _ else _) = _
  split
  · rfl
  · congr 1
    unfold Ser.scale
    rw [List.map_map]
    apply List.map_congr_left
    intro p _
    simp only [Function.comp_apply]
    split
    · simp only [Tri.powTR_scale h ha, Tri.at_scale, Num.mulR_right h ha]
      have := sumSkipR_scale (br := br) h ha (ind.origins.map (fun o =>
        Num.mulR rd (ind.modInd.at' o p.1) ((t.modTri.powTR rd 1).at' o p.1)))
      rw [List.map_map] at this
      have e : (fun o => Num.fin a * Num.mulR rd (ind.modInd.at' o p.1) ((t.modTri.powTR rd 1).at' o p.1)) =
          (fun x => Num.fin a * x) ∘ (fun o => Num.mulR rd (ind.modInd.at' o p.1) ((t.modTri.powTR rd 1).at' o p.1)) := rfl
      rw [e, this, Num.divR_both ha]
    · rfl

theorem peRowR_scale (h : Spec.Homog rd a) (ha : 0 < a) (c : ℕ → ℕ → Num K) (f s : ℕ → Num K) (n i m : ℕ) :
    peRowR rd (fun i j => .fin a * c i j) f (fun k => .fin a * s k) n i m = .fin (a * a) * peRowR rd c f s n i m := by
  have haa := mul_pos ha ha
  induction m with
  | zero => exact Num.mulR_both h ha _ _
  | succ m ih => rw [peRowR, ih, Num.mulR_right h.sq haa, Num.mulR_both h ha, Num.addR_both h.sq haa, peRowR]

theorem paRowR_scale (h : Spec.Homog rd a) (ha : 0 < a) (c : ℕ → ℕ → Num K) (f v : ℕ → Num K) (n i m : ℕ) :
    paRowR rd (fun i j => .fin a * c i j) f v n i m = .fin (a * a) * paRowR rd c f v n i m := by
  have haa := mul_pos ha ha
  induction m with
  | zero => rw [paRowR, Num.powR_two h ha, Num.mulR_left h.sq haa, paRowR]
  | succ m ih =>
    rw [paRowR, ih, Num.mulR_right h.sq haa, Num.mulR_right h.sq haa, Num.powR_two h ha, Num.mulR_left h.sq haa,
      Num.addR_both h.sq haa, Num.addR_both h.sq haa, paRowR]

theorem mseTotalRowR_scale (h : Spec.Homog rd a) (ha : 0 < a) (c : ℕ → ℕ → Num K) (f s : ℕ → Num K) (n : ℕ)
    (os : List Int) (mse ults : List (Num K)) (i : ℕ) :
    mseTotalRowR br rd (fun i j => .fin a * c i j) f (fun k => .fin a * s k) n os (mse.map (fun x => .fin (a * a) * x))
      (ults.map (fun x => .fin a * x)) i = .fin (a * a) * mseTotalRowR br rd c f s n os mse ults i := by
  have haa := mul_pos ha ha
  have hl : ((os.zip (ults.map (fun x => Num.fin a * x))).filter (fun p => decide (os.getD i 0 < p.1))).map Prod.snd =
      (((os.zip ults).filter (fun p => decide (os.getD i 0 < p.1))).map Prod.snd).map (fun x => .fin a * x) := by
    rw [List.zip_map_right, List.filter_map, List.map_map, List.map_map]
    rfl
  have hr : ∀ p, pySumR rd ((List.range (n - 1 - p)).map (fun r => Num.fin a * c r p)) =
      .fin a * pySumR rd ((List.range (n - 1 - p)).map (fun r => c r p)) := by
    intro p
    rw [← pySumR_scale h ha, List.map_map]
    rfl
  have ht : ∀ x y z : Num K, Num.divR rd (Num.divR rd (.fin a * x) y) (.fin a * z) = Num.divR rd (Num.divR rd x y) z := by
    intro x y z
    rw [Num.divR_left h ha, Num.divR_both ha]
  unfold mseTotalRowR
  simp only [hl, hr, ht, sumSkipR_scale h ha, getD_map_scale, Num.mulR_right h ha, Num.mulR_both h ha]
  simp only [Num.fin_fin_mul ha, Num.mulR_left h ha, Num.mulR_left h.sq haa, Num.addR_both h.sq haa]

/-- What a change of scale does to the results: factors and their variances stay, amounts and variance parameters are
multiplied by `a`, errors by `a²`. -/
def MackCore.scale (a : K) (r : MackCore K) : MackCore K :=
  { r with
    rows := r.rows.map (SummRow.scale a)
    totLatest := .fin a * r.totLatest, totUltimate := .fin a * r.totUltimate, totReserve := .fin a * r.totReserve
    sqr := { tri := r.sqr.tri.scale a, ultimate := r.sqr.ultimate.map (fun x => .fin a * x) }
    devpvar := Ser.scale a r.devpvar
    procErr := r.procErr.map (fun x => .fin (a * a) * x), paramErr := r.paramErr.map (fun x => .fin (a * a) * x)
    mse := r.mse.map (fun x => .fin (a * a) * x), totMse := .fin (a * a) * r.totMse }

theorem mackCoreR_scale (h : Spec.Homog rd a) (ha : 0 < a) (t ind : Tri K) :
    mackCoreR br rd 1 (t.scale a) ind = (mackCoreR br rd 1 t ind).map (MackCore.scale a) := by
  have haa := mul_pos ha ha
  unfold mackCoreR
  rw [mackLdfsR_scale h ha]
  cases mackLdfsR br rd 1 t ind 1 with
  | error e => rfl
  | ok l =>
    simp only [bind, Except.bind]
    rw [baseFromLdfsR_scale h ha]
    cases baseFromLdfsR br rd t l with
    | error e => rfl
    | ok b =>
      simp only [Except.map]
      rw [devpVarianceR_scale h ha]
      cases devpVarianceR br rd 1 t ind l with
      | error e => rfl
      | ok dv =>
        simp only [Except.map]
        rw [ldfVarianceR_scale h ha]
        cases ldfVarianceR br rd 1 t ind dv with
        | error e => rfl
        | ok lv =>
          have hlen : (Ser.scale a dv).length = dv.length := by unfold Ser.scale; simp
          have hnc : (t.scale a).nc = t.nc := rfl
          simp only [hlen, hnc]
          split
          · rfl
          · have hil : (Ser.scale a dv).iloc = fun k => .fin a * dv.iloc k := funext fun k => Ser.iloc_scale dv k
            have hpe : processErrorR rd (fun i j => .fin a * b.sqr.tri.cell i j) l.iloc (fun k => .fin a * dv.iloc k) t.nc =
                (processErrorR rd b.sqr.tri.cell l.iloc dv.iloc t.nc).map (fun x => .fin (a * a) * x) := by
              unfold processErrorR
              rw [List.map_map]
              apply List.map_congr_left
              intro i _
              simp only [Function.comp_apply]
              split
              · rw [Num.zero_def, Num.fin_mul, mul_zero]
              · rw [peRowR_scale h ha, nanTo0_scale haa]
            have hpa : parameterErrorR rd (fun i j => .fin a * b.sqr.tri.cell i j) l.iloc lv.iloc t.nc =
                (parameterErrorR rd b.sqr.tri.cell l.iloc lv.iloc t.nc).map (fun x => .fin (a * a) * x) := by
              unfold parameterErrorR
              rw [List.map_map]
              apply List.map_congr_left
              intro i _
              simp only [Function.comp_apply]
              split
              · rw [Num.zero_def, Num.fin_mul, mul_zero]
              · rw [paRowR_scale h ha, nanTo0_scale haa]
            have hmse : ∀ p q : List (Num K), List.zipWith (Num.addR rd) (p.map (fun x => .fin (a * a) * x))
                (q.map (fun x => .fin (a * a) * x)) = (List.zipWith (Num.addR rd) p q).map (fun x => .fin (a * a) * x) := by
              intro p q
              rw [List.zipWith_map, List.map_zipWith]
              simp only [Num.addR_both h.sq haa]
            have hult : (b.rows.map (SummRow.scale a)).map SummRow.ultimate =
                (b.rows.map SummRow.ultimate).map (fun x => .fin a * x) := by
              rw [List.map_map, List.map_map]; rfl
            have hcell : (b.sqr.tri.scale a).cell = fun i j => .fin a * b.sqr.tri.cell i j := rfl
            have ho : (t.scale a).origins = t.origins := rfl
            simp only [BaseResult.scale, hil, hcell, hpe, hpa, hmse, hult, ho, mseTotalRowR_scale h ha]
            congr 1
            unfold MackCore.scale
            simp only [MackCore.mk.injEq, true_and]
            rw [← sumSkipR_scale h.sq haa, List.map_map]
            rfl

/-- **C154, partial.** Mack chain ladder with `alpha = 1` in arithmetic rounded to `p` binary digits: multiplying all
losses by a power of two keeps the factors and their variances, multiplies amounts and variance parameters by it and all
mean squared errors by its square, without any error.  For every triangle, any exclusions and any order of additions.
Missing: other scales, see `C154_fails`. -/
theorem C154_partial [FloorRing K] (p : ℕ) (e : ℤ) (t ind : Tri K) :
    mackCoreR br (floatRd p) 1 (t.scale (2 ^ e)) ind =
      (mackCoreR br (floatRd p) 1 t ind).map (MackCore.scale (2 ^ e)) :=
  mackCoreR_scale (floatRd_homog p e) (zpow_pos (by norm_num) _) t ind

/-- **C154 fails** for the scale 3 in double precision: some mean squared error is not exactly multiplied by 9. -/
theorem C154_fails :
    (mackCoreR (fun n => seqTree (n - 1)) (floatRd 53) 1 (exTri.scale 3) exTri.a2aind0).map (fun r => r.mse) ≠
    (mackCoreR (fun n => seqTree (n - 1)) (floatRd 53) 1 exTri exTri.a2aind0).map
      (fun r => r.mse.map (fun x => .fin 9 * x)) := by
  decide +kernel

end Trikit
