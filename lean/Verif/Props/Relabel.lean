import Verif.Mack
import Verif.Bootstrap
import Verif.Examples

/-!
# C97: origin labels do not matter

Replacing the origin labels by others in the same order (years by year ends, a shift of the calendar)
changes nothing but the labels.  For every triangle, staircase or not.
-/

set_option linter.unusedSectionVars false

namespace Trikit

variable {K : Type} {f : Int → Int}

/-- New origin labels. -/
def Tri.relabel (f : Int → Int) (t : Tri K) : Tri K := { t with origins := t.origins.map f }

def Rec.relabel (f : Int → Int) (r : Rec K) : Rec K := { r with origin := f r.origin }

def SummRow.relabel (f : Int → Int) (r : SummRow K) : SummRow K := { r with origin := f r.origin }

def Sqr.relabel (f : Int → Int) (s : Sqr K) : Sqr K := { s with tri := s.tri.relabel f }

def BaseResult.relabel (f : Int → Int) (r : BaseResult K) : BaseResult K :=
  { r with rows := r.rows.map (SummRow.relabel f), sqr := r.sqr.relabel f }

def MackCore.relabel (f : Int → Int) (r : MackCore K) : MackCore K :=
  { r with rows := r.rows.map (SummRow.relabel f), sqr := r.sqr.relabel f }

namespace Tri

@[simp] theorem relabel_nr (t : Tri K) : (t.relabel f).nr = t.nr := List.length_map _
@[simp] theorem relabel_nc (t : Tri K) : (t.relabel f).nc = t.nc := rfl
@[simp] theorem relabel_dAt (t : Tri K) (j : ℕ) : (t.relabel f).dAt j = t.dAt j := rfl
@[simp] theorem relabel_cell (t : Tri K) (i j : ℕ) : (t.relabel f).cell i j = t.cell i j := rfl
@[simp] theorem relabel_devs (t : Tri K) : (t.relabel f).devs = t.devs := rfl
@[simp] theorem relabel_origins (t : Tri K) : (t.relabel f).origins = t.origins.map f := rfl

theorem relabel_oAt (t : Tri K) {i : ℕ} (h : i < t.nr) : (t.relabel f).oAt i = f (t.oAt i) := by
  unfold nr at h
  simp only [oAt, relabel_origins, List.getD_eq_getElem?_getD, List.getElem?_map,
    List.getElem?_eq_getElem h, Option.map_some, Option.getD_some]

@[simp] theorem relabel_rlvi (t : Tri K) (i : ℕ) : (t.relabel f).rlvi i = t.rlvi i := rfl
@[simp] theorem relabel_clvi (t : Tri K) (j : ℕ) : (t.relabel f).clvi j = t.clvi j := by
  unfold clvi; rw [relabel_nr]; rfl
@[simp] theorem relabel_triindAt (t : Tri K) (i j : ℕ) : (t.relabel f).triindAt i j = t.triindAt i j := by
  unfold triindAt; rw [relabel_clvi]
@[simp] theorem relabel_triind (t : Tri K) : (t.relabel f).triind = t.triind := by
  have : (t.relabel f).triindAt = t.triindAt := by funext i j; simp
  unfold triind; simp only [relabel_clvi, relabel_nc, this]
@[simp] theorem relabel_maturity (t : Tri K) : (t.relabel f).maturity = t.maturity := by
  unfold maturity; simp only [relabel_triind, relabel_nr, relabel_nc, relabel_dAt]
@[simp] theorem relabel_col (t : Tri K) (j : ℕ) : (t.relabel f).col j = t.col j := by
  unfold col; rw [relabel_nr]; rfl
@[simp] theorem relabel_nbrCells (t : Tri K) : (t.relabel f).nbrCells = t.nbrCells := by
  unfold nbrCells; simp only [relabel_nc, relabel_col]

theorem relabel_latest (t : Tri K) : (t.relabel f).latest = t.latest.map (Rec.relabel f) := by
  unfold latest
  rw [relabel_nr, List.map_filterMap]
  refine List.filterMap_congr fun i hi => ?_
  rw [relabel_rlvi]
  cases t.rlvi i with
  | none => rfl
  | some j =>
    simp only [Option.map_some, Rec.relabel, relabel_oAt t (List.mem_range.1 hi), relabel_dAt, relabel_cell]

theorem relabel_latestByOrigin (t : Tri K) :
    (t.relabel f).latestByOrigin = t.latestByOrigin.map (fun p => (f p.1, p.2)) := by
  unfold latestByOrigin
  rw [relabel_latest, List.map_map, List.map_map]; rfl

theorem relabel_toTbl (t : Tri K) : (t.relabel f).toTbl = t.toTbl.map (Rec.relabel f) := by
  unfold toTbl
  rw [relabel_nr, List.map_flatMap]
  refine List.flatMap_congr fun i hi => ?_
  rw [List.map_filterMap]
  refine List.filterMap_congr fun j _ => ?_
  rw [relabel_cell]
  split
  · rfl
  · simp only [Option.map_some, Rec.relabel, relabel_oAt t (List.mem_range.1 hi), relabel_dAt]

theorem relabel_dropNaNCols (t : Tri K) : (t.relabel f).dropNaNCols = t.dropNaNCols.relabel f := by
  unfold dropNaNCols
  simp only [relabel_nr, relabel_nc, relabel_cell]; rfl

theorem relabel_dropNaNRows (t : Tri K) : (t.relabel f).dropNaNRows = t.dropNaNRows.relabel f := by
  unfold dropNaNRows
  simp only [relabel_nr, relabel_nc, relabel_cell, relabel_devs]
  unfold relabel
  congr 1
  simp only [List.map_map]
  refine List.map_congr_left fun i hi => ?_
  unfold keepIdx at hi
  exact relabel_oAt t (List.mem_range.1 (List.mem_of_mem_filter hi))

theorem idxOf_map_inj (hf : Function.Injective f) (o : Int) (l : List Int) :
    (l.map f).idxOf (f o) = l.idxOf o := by
  induction l with
  | nil => rfl
  | cons x l ih =>
    rw [List.map_cons, List.idxOf_cons, List.idxOf_cons, ih]
    have : (f x == f o) = (x == o) := by rw [Bool.eq_iff_iff, beq_iff_eq, beq_iff_eq, hf.eq_iff]
    rw [this]

theorem relabel_at' (hf : Function.Injective f) (t : Tri K) (o d : Int) :
    (t.relabel f).at' (f o) d = t.at' o d := by
  unfold at'
  simp only [relabel_origins, List.mem_map_of_injective hf, relabel_devs, relabel_cell,
    idxOf_map_inj hf]

end Tri

theorem insLabel_map (hf : StrictMono f) (x : Int) (l : List Int) :
    insLabel (f x) (l.map f) = (insLabel x l).map f := by
  induction l with
  | nil => rfl
  | cons y l ih =>
    simp only [List.map_cons, insLabel, hf.lt_iff_lt, hf.injective.eq_iff, ih]
    split
    · rfl
    · split <;> rfl

theorem labels_map (hf : StrictMono f) (l : List Int) : labels (l.map f) = (labels l).map f := by
  unfold labels
  induction l with
  | nil => rfl
  | cons y l ih => rw [List.map_cons, List.foldr_cons, List.foldr_cons, ih, insLabel_map hf]

theorem Ser.get_relabel (hf : Function.Injective f) (s : Ser K) (d : Int) :
    Ser.get (s.map (fun p => (f p.1, p.2))) (f d) = Ser.get s d := by
  unfold Ser.get
  rw [List.find?_map]
  have : ((fun p : Int × Num K => p.1 == f d) ∘ fun p : Int × Num K => (f p.1, p.2)) = fun p => p.1 == d := by
    funext p
    rw [Bool.eq_iff_iff]
    show (f p.1 == f d) = true ↔ _
    rw [beq_iff_eq, beq_iff_eq, hf.eq_iff]
  rw [this]
  cases s.find? (fun p => p.1 == d) <;> rfl

section
variable [Field K] [LinearOrder K]

namespace Tri

theorem relabel_a2a (t : Tri K) : (t.relabel f).a2a = t.a2a.relabel f := by
  unfold a2a
  have : (t.relabel f).linkRatios = t.linkRatios.relabel f := rfl
  rw [this, relabel_dropNaNCols, relabel_dropNaNRows]

theorem relabel_a2aind0 (t : Tri K) : (t.relabel f).a2aind0 = t.a2aind0.relabel f := by
  unfold a2aind0; rw [relabel_a2a]; rfl

theorem relabel_modTri (t : Tri K) : (t.relabel f).modTri = t.modTri.relabel f := by
  unfold modTri
  rw [← relabel_dropNaNCols, ← relabel_dropNaNRows]; rfl

theorem relabel_alignOp (hf : StrictMono f) (g : Num K → Num K → Num K) (a b : Tri K) :
    alignOp g (a.relabel f) (b.relabel f) = (alignOp g a b).relabel f := by
  unfold alignOp
  simp only [relabel_origins, relabel_devs, (List.map_injective_iff.2 hf.injective).eq_iff]
  split
  · rfl
  · simp only [relabel, ← List.map_append, labels_map hf]
    congr 1
    funext i j
    rw [List.getElem?_map]
    cases (labels (a.origins ++ b.origins))[i]? with
    | none => rfl
    | some o =>
      cases (labels (a.devs ++ b.devs))[j]? with
      | none => rfl
      | some d =>
        show g ((a.relabel f).at' (f o) d) ((b.relabel f).at' (f o) d) = _
        rw [relabel_at' hf.injective, relabel_at' hf.injective]

theorem relabel_colSums (t : Tri K) : (t.relabel f).colSums = t.colSums := by
  unfold colSums; simp only [relabel_nc, relabel_dAt, relabel_col]

end Tri

theorem weightedAvg_relabel (t : Tri K) (dur j : ℕ) : weightedAvg (t.relabel f) dur j = weightedAvg t dur j := by
  unfold weightedAvg
  simp only [Tri.relabel_col, Tri.relabel_nr, Tri.relabel_nc, Tri.relabel_cell, Tri.relabel_clvi]

theorem a2aAvgs_relabel (hf : StrictMono f) (gm : List (Num K) → Num K) (t ind : Tri K) :
    a2aAvgs gm (t.relabel f) (ind.relabel f) = a2aAvgs gm t ind := by
  have : ∀ k dur j, avgCell gm (t.relabel f) ((Tri.alignOp (· * ·) t.a2a ind).relabel f) k dur j =
      avgCell gm t (Tri.alignOp (· * ·) t.a2a ind) k dur j := by
    intro k dur j
    cases k <;> simp only [avgCell, Tri.relabel_col, weightedAvg_relabel]
  unfold a2aAvgs
  simp only [Tri.relabel_a2a, Tri.relabel_alignOp hf, Tri.relabel_nr, Tri.relabel_nc, Tri.relabel_devs, this]

theorem ultimatesOf_relabel (t : Tri K) (s : Ser K) : ultimatesOf (t.relabel f) s = ultimatesOf t s := by
  unfold ultimatesOf
  simp only [Tri.relabel_latestByOrigin, List.map_map, Tri.relabel_nr]
  rfl

theorem reservesOf_relabel (hf : Function.Injective f) (t : Tri K) (u : List (Num K)) :
    reservesOf (t.relabel f) u = reservesOf t u := by
  unfold reservesOf
  rw [Tri.relabel_origins, List.zip_map_left, List.map_map, Tri.relabel_latestByOrigin]
  refine List.map_congr_left fun p _ => ?_
  show p.2 - Ser.get _ (f p.1) = _
  rw [Ser.get_relabel hf]

theorem sqrCell_relabel (t : Tri K) (ldf : ℕ → Num K) (i j : ℕ) :
    sqrCell (t.relabel f) ldf i j = sqrCell t ldf i j := by
  induction j with
  | zero => rfl
  | succ j ih => simp only [sqrCell, ih, Tri.relabel_triindAt, Tri.relabel_cell]

theorem trisqrdOf_relabel (t : Tri K) (s : Ser K) :
    trisqrdOf (t.relabel f) s = (trisqrdOf t s).map (Sqr.relabel f) := by
  unfold trisqrdOf
  rw [Tri.relabel_triind]
  cases t.triind with
  | error e => rfl
  | ok x =>
    simp only [Tri.relabel_nc, bind, Except.bind, sqrCell_relabel, Tri.relabel_nr]
    split <;> rfl

theorem baseFromLdfs_relabel (hf : Function.Injective f) (t : Tri K) (s : Ser K) :
    baseFromLdfs (t.relabel f) s = (baseFromLdfs t s).map (BaseResult.relabel f) := by
  unfold baseFromLdfs
  simp only [ultimatesOf_relabel, Tri.relabel_maturity, trisqrdOf_relabel, bind, Except.bind]
  cases ultimatesOf t (cldfsOf s) with
  | error e => rfl
  | ok u =>
    cases t.maturity with
    | error e => rfl
    | ok mat =>
      cases trisqrdOf t s with
      | error e => rfl
      | ok q =>
        have hrows : ((List.range (t.relabel f).nr).map (fun i =>
            ({ origin := (t.relabel f).oAt i
               maturity := mat.getD i 0
               cldf := Ser.get (cldfsOf s) (mat.getD i 0)
               emergence := 1 / Ser.get (cldfsOf s) (mat.getD i 0)
               latest := Ser.get (t.relabel f).latestByOrigin ((t.relabel f).oAt i)
               ultimate := u.getD i .nan
               reserve := (reservesOf (t.relabel f) u).getD i .nan } : SummRow K))) =
            ((List.range t.nr).map (fun i =>
            ({ origin := t.oAt i
               maturity := mat.getD i 0
               cldf := Ser.get (cldfsOf s) (mat.getD i 0)
               emergence := 1 / Ser.get (cldfsOf s) (mat.getD i 0)
               latest := Ser.get t.latestByOrigin (t.oAt i)
               ultimate := u.getD i .nan
               reserve := (reservesOf t u).getD i .nan } : SummRow K))).map (SummRow.relabel f) := by
          rw [List.map_map, Tri.relabel_nr]
          refine List.map_congr_left fun i hi => ?_
          simp only [Function.comp, SummRow.relabel, Tri.relabel_oAt t (List.mem_range.1 hi),
            Tri.relabel_latestByOrigin, Ser.get_relabel hf, reservesOf_relabel hf]
        simp only [Except.map, hrows, BaseResult.relabel, List.map_map]
        rfl

theorem mackLdfs_relabel (hf : StrictMono f) (alpha : ℕ) (t ind : Tri K) (tail : Num K) :
    mackLdfs alpha (t.relabel f) (ind.relabel f) tail = mackLdfs alpha t ind tail := by
  unfold mackLdfs
  have h1 : (ind.relabel f).modInd = ind.modInd.relabel f := rfl
  have h2 : ∀ x : Tri K, (x.relabel f).powT alpha = (x.powT alpha).relabel f := fun _ => rfl
  simp only [h1, h2, Tri.relabel_modTri, Tri.relabel_a2a, Tri.relabel_alignOp hf, Tri.relabel_colSums]

theorem devpVariance_relabel (hf : StrictMono f) (alpha : ℕ) (t ind : Tri K) (s : Ser K) :
    devpVariance alpha (t.relabel f) (ind.relabel f) s = devpVariance alpha t ind s := by
  have hs : ∀ x d, devpSum alpha (t.relabel f) (ind.relabel f) x d = devpSum alpha t ind x d := by
    intro x d
    unfold devpSum
    have h1 : (ind.relabel f).modInd = ind.modInd.relabel f := rfl
    have h2 : ∀ x : Tri K, (x.relabel f).powT alpha = (x.powT alpha).relabel f := fun _ => rfl
    simp only [h1, h2, Tri.relabel_modTri, Tri.relabel_a2a, Tri.relabel_origins, List.map_map,
      Function.comp_def, Tri.relabel_at' hf.injective]
  unfold devpVariance
  simp only [hs, Tri.relabel_devs, Tri.relabel_modTri, Tri.relabel_a2a, Tri.relabel_nr]

theorem ldfVariance_relabel (hf : StrictMono f) (alpha : ℕ) (t ind : Tri K) (s : Ser K) :
    ldfVariance alpha (t.relabel f) (ind.relabel f) s = ldfVariance alpha t ind s := by
  unfold ldfVariance
  have h1 : (ind.relabel f).modInd = ind.modInd.relabel f := rfl
  have h2 : ∀ x : Tri K, (x.relabel f).powT alpha = (x.powT alpha).relabel f := fun _ => rfl
  simp only [h1, h2, Tri.relabel_modTri, Tri.relabel_origins, List.map_map, Tri.relabel_devs,
    Function.comp_def, Tri.relabel_at' hf.injective]

theorem mseTotalRow_relabel (hf : StrictMono f) (c : ℕ → ℕ → Num K) (g s : ℕ → Num K) (n : ℕ) (os : List Int)
    (mse ults : List (Num K)) (hl : ults.length = os.length) (i : ℕ) :
    mseTotalRow c g s n (os.map f) mse ults i = mseTotalRow c g s n os mse ults i := by
  unfold mseTotalRow
  by_cases hi : i < os.length
  · have : ((os.map f).zip ults).filter (fun p => decide ((os.map f).getD i 0 < p.1)) =
        ((os.zip ults).filter (fun p => decide (os.getD i 0 < p.1))).map (fun p => (f p.1, p.2)) := by
      rw [List.zip_map_left, List.filter_map]
      refine congrArg _ (List.filter_congr fun p _ => ?_)
      simp only [Function.comp, Prod.map, id, List.getD_eq_getElem?_getD, List.getElem?_map,
        List.getElem?_eq_getElem hi, Option.map_some, Option.getD_some, hf.lt_iff_lt]
    simp only [this, List.map_map]
    rfl
  · have : ults.getD i .nan = Num.nan := by
      rw [List.getD_eq_getElem?_getD, List.getElem?_eq_none (by omega)]; rfl
    simp only [this, Num.mul_nan, Num.nan_mul]

theorem mackCore_relabel (hf : StrictMono f) (alpha : ℕ) (t ind : Tri K) :
    mackCore alpha (t.relabel f) (ind.relabel f) = (mackCore alpha t ind).map (MackCore.relabel f) := by
  unfold mackCore
  simp only [mackLdfs_relabel hf, baseFromLdfs_relabel hf.injective, devpVariance_relabel hf,
    ldfVariance_relabel hf, bind, Except.bind]
  cases mackLdfs alpha t ind 1 with
  | error e => rfl
  | ok ldfs =>
    dsimp only
    cases hb : baseFromLdfs t ldfs with
    | error e => rfl
    | ok b =>
      have hlen : (b.rows.map SummRow.ultimate).length = t.origins.length := by
        revert hb
        unfold baseFromLdfs
        simp only [bind, Except.bind]
        cases ultimatesOf t (cldfsOf ldfs) with
        | error e => intro h; cases h
        | ok u =>
          cases t.maturity with
          | error e => intro h; cases h
          | ok mat =>
            cases trisqrdOf t ldfs with
            | error e => intro h; cases h
            | ok q =>
              intro h
              obtain rfl := Except.ok.inj h
              simp only [List.length_map, List.length_range]; rfl
      simp only [Except.map]
      cases devpVariance alpha t ind ldfs with
      | error e => rfl
      | ok dv =>
        dsimp only
        cases ldfVariance alpha t ind dv with
        | error e => rfl
        | ok lv =>
          simp only [Tri.relabel_nc]
          have e1 : ((BaseResult.relabel f b).rows.map SummRow.ultimate) = b.rows.map SummRow.ultimate := by
            simp only [BaseResult.relabel, List.map_map]; rfl
          simp only [e1, Tri.relabel_origins, mseTotalRow_relabel hf _ _ _ _ _ _ _ hlen]
          by_cases hl : List.length dv < t.nc - 1
          · rw [if_pos hl, if_pos hl]
          · rw [if_neg hl, if_neg hl]
            rfl

/-- **C97** new origin labels in the same order: `base_cl` by name, array and Series and `mack_cl` (with
the exclusions carried over) raise the same exception or return the same result with the new labels. -/
theorem C97_estimates (hf : StrictMono f) (gm : List (Num K) → Num K) (t ind : Tri K) :
    (∀ sel tail, baseCL gm (t.relabel f) (ind.relabel f) sel tail =
      (baseCL gm t ind sel tail).map (BaseResult.relabel f)) ∧
    (∀ sel tail, baseCLArray (t.relabel f) sel tail = (baseCLArray t sel tail).map (BaseResult.relabel f)) ∧
    (∀ sel tail, baseCLSeries (t.relabel f) sel tail =
      ((baseCLSeries t sel tail).1, (baseCLSeries t sel tail).2.map (BaseResult.relabel f))) ∧
    (∀ alpha, mackCore alpha (t.relabel f) (ind.relabel f) =
      (mackCore alpha t ind).map (MackCore.relabel f)) ∧
    (t.relabel f).a2aind0 = t.a2aind0.relabel f := by
  refine ⟨fun sel tail => ?_, fun sel tail => ?_, fun sel tail => ?_, fun alpha => mackCore_relabel hf alpha t ind,
    Tri.relabel_a2aind0 t⟩
  · have : ldfsByName gm (t.relabel f) (ind.relabel f) sel tail = ldfsByName gm t ind sel tail := by
      unfold ldfsByName; rw [a2aAvgs_relabel hf]
    unfold baseCL
    rw [this]
    cases ldfsByName gm t ind sel tail with
    | error e => rfl
    | ok s => exact baseFromLdfs_relabel hf.injective t s
  · unfold baseCLArray
    have : ldfsByArray (t.relabel f) sel tail = ldfsByArray t sel tail := rfl
    rw [this]
    cases ldfsByArray t sel tail with
    | error e => rfl
    | ok s => exact baseFromLdfs_relabel hf.injective t s
  · unfold baseCLSeries
    have : ldfsBySeries (t.relabel f) sel tail = ldfsBySeries t sel tail := rfl
    rw [this]
    refine congrArg (Prod.mk _) ?_
    show _ = Except.map _ ((ldfsBySeries t sel tail).2.bind (baseFromLdfs t))
    cases (ldfsBySeries t sel tail).2 with
    | error e => rfl
    | ok s => exact baseFromLdfs_relabel hf.injective t s

end

/-- Concrete case: the 4 x 4 example with origins renumbered in steps of 12. -/
example : (mackCore 1 (exTri.relabel (fun y => 12 * y - 5)) (exTri.a2aind0.relabel (fun y => 12 * y - 5))).toOption.map
    (fun r => (r.rows.map (fun x => (x.origin, x.reserve)), r.totMse)) =
    (mackCore 1 exTri exTri.a2aind0).toOption.map
    (fun r => (r.rows.map (fun x => (12 * x.origin - 5, x.reserve)), r.totMse)) := by
  decide +kernel

end Trikit
