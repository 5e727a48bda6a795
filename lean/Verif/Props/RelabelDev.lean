import Verif.Props.Relabel

/-!
# C98: the unit of the development labels does not matter

Development periods counted in months, quarters or years, from any starting number: `base_cl` and
`mack_cl` return the same numbers under the converted labels.  For every triangle, staircase or not.
-/

set_option linter.unusedSectionVars false

namespace Trikit

variable {K : Type} {a b : Int}

/-- Conversion of development labels, `x ↦ a * x + b` (`a = 12`: years to months). -/
def conv (a b : Int) (x : Int) : Int := a * x + b

theorem conv_mono (ha : 0 < a) : StrictMono (conv a b) := by
  intro x y h
  unfold conv
  nlinarith

/-- New development labels. -/
def Tri.redev (g : Int → Int) (t : Tri K) : Tri K := { t with devs := t.devs.map g }

def Ser.redev (g : Int → Int) (s : Ser K) : Ser K := s.map (fun p => (g p.1, p.2))

def SummRow.redev (g : Int → Int) (r : SummRow K) : SummRow K := { r with maturity := g r.maturity }

def Sqr.redev (g : Int → Int) (s : Sqr K) : Sqr K := { s with tri := s.tri.redev g }

def BaseResult.redev (g : Int → Int) (r : BaseResult K) : BaseResult K :=
  { r with ldfs := Ser.redev g r.ldfs, cldfs := Ser.redev g r.cldfs, rows := r.rows.map (SummRow.redev g)
           sqr := r.sqr.redev g }

def MackCore.redev (g : Int → Int) (r : MackCore K) : MackCore K :=
  { r with ldfs := Ser.redev g r.ldfs, cldfs := Ser.redev g r.cldfs, rows := r.rows.map (SummRow.redev g)
           sqr := r.sqr.redev g, devpvar := Ser.redev g r.devpvar, ldfvar := Ser.redev g r.ldfvar }

section
variable {g : Int → Int}

namespace Tri

@[simp] theorem redev_nc (t : Tri K) : (t.redev g).nc = t.nc := List.length_map _
@[simp] theorem redev_nr (t : Tri K) : (t.redev g).nr = t.nr := rfl
@[simp] theorem redev_oAt (t : Tri K) (j : ℕ) : (t.redev g).oAt j = t.oAt j := rfl
@[simp] theorem redev_cell (t : Tri K) (i j : ℕ) : (t.redev g).cell i j = t.cell i j := rfl
@[simp] theorem redev_devs (t : Tri K) : (t.redev g).devs = t.devs.map g := rfl
@[simp] theorem redev_origins (t : Tri K) : (t.redev g).origins = t.origins := rfl

theorem redev_dAt (t : Tri K) {i : ℕ} (h : i < t.nc) : (t.redev g).dAt i = g (t.dAt i) := by
  unfold nc at h
  simp only [dAt, redev_devs, List.getD_eq_getElem?_getD, List.getElem?_map,
    List.getElem?_eq_getElem h, Option.map_some, Option.getD_some]

@[simp] theorem redev_clvi (t : Tri K) (j : ℕ) : (t.redev g).clvi j = t.clvi j := rfl
@[simp] theorem redev_rlvi (t : Tri K) (i : ℕ) : (t.redev g).rlvi i = t.rlvi i := by
  unfold rlvi; rw [redev_nc]; rfl
@[simp] theorem redev_triindAt (t : Tri K) (i j : ℕ) : (t.redev g).triindAt i j = t.triindAt i j := rfl
@[simp] theorem redev_triind (t : Tri K) : (t.redev g).triind = t.triind := by
  unfold triind; rw [redev_nc]; rfl
@[simp] theorem redev_col (t : Tri K) (j : ℕ) : (t.redev g).col j = t.col j := rfl

theorem lastZero_lt {p : ℕ → Bool} {n k : ℕ} (h : lastZero p n = some k) : k < n := by
  induction n with
  | zero => cases h
  | succ n ih =>
    unfold lastZero at h
    split at h
    · exact Nat.lt_succ_of_lt (ih h)
    · exact (Option.some.inj h) ▸ Nat.lt_succ_self n

theorem mapM_map_ok {α β : Type} (φ : β → β) {F G : α → Except PyErr β} {l : List α}
    (h : ∀ x ∈ l, F x = (G x).map φ) : l.mapM F = (l.mapM G).map (List.map φ) := by
  induction l with
  | nil => rfl
  | cons x l ih =>
    rw [List.mapM_cons, List.mapM_cons, h x (by simp), ih (fun y hy => h y (by simp [hy]))]
    cases G x with
    | error e => rfl
    | ok y =>
      cases l.mapM G with
      | error e => rfl
      | ok ys => rfl

theorem redev_maturity (t : Tri K) : (t.redev g).maturity = t.maturity.map (List.map g) := by
  unfold maturity
  rw [redev_triind]
  cases t.triind with
  | error e => rfl
  | ok ind =>
    refine mapM_map_ok g fun i _ => ?_
    rw [redev_nc]
    cases h : lastZero (ind i) t.nc with
    | none => rfl
    | some j => simp only [Except.map, redev_dAt t (lastZero_lt h)]

theorem redev_latest (t : Tri K) :
    (t.redev g).latestByOrigin = t.latestByOrigin := by
  unfold latestByOrigin latest
  rw [List.map_filterMap, List.map_filterMap, redev_nr]
  refine List.filterMap_congr fun i _ => ?_
  rw [redev_rlvi]
  cases t.rlvi i <;> rfl

theorem redev_dropNaNRows (t : Tri K) : (t.redev g).dropNaNRows = t.dropNaNRows.redev g := by
  unfold dropNaNRows
  simp only [redev_nr, redev_nc, redev_cell]; rfl

theorem redev_dropNaNCols (t : Tri K) : (t.redev g).dropNaNCols = t.dropNaNCols.redev g := by
  unfold dropNaNCols
  simp only [redev_nr, redev_nc, redev_cell, redev_origins]
  unfold redev
  congr 1
  simp only [List.map_map]
  refine List.map_congr_left fun i hi => ?_
  unfold keepIdx at hi
  exact redev_dAt t (List.mem_range.1 (List.mem_of_mem_filter hi))

theorem redev_at' (hg : Function.Injective g) (t : Tri K) (o d : Int) :
    (t.redev g).at' o (g d) = t.at' o d := by
  unfold at'
  simp only [redev_origins, List.mem_map_of_injective hg, redev_devs, redev_cell, idxOf_map_inj hg]

variable [Field K] [LinearOrder K]

theorem redev_a2a (t : Tri K) : (t.redev g).a2a = t.a2a.redev g := by
  unfold a2a
  have : (t.redev g).linkRatios = t.linkRatios.redev g := by
    unfold linkRatios; simp only [redev_nc]; rfl
  rw [this, redev_dropNaNCols, redev_dropNaNRows]

theorem redev_a2aind0 (t : Tri K) : (t.redev g).a2aind0 = t.a2aind0.redev g := by
  unfold a2aind0; rw [redev_a2a]; rfl

theorem redev_modTri (t : Tri K) : (t.redev g).modTri = t.modTri.redev g := by
  unfold modTri
  rw [← redev_dropNaNCols, ← redev_dropNaNRows]
  simp only [redev_rlvi]; rfl

theorem redev_alignOp (hg : StrictMono g) (F : Num K → Num K → Num K) (x y : Tri K) :
    alignOp F (x.redev g) (y.redev g) = (alignOp F x y).redev g := by
  unfold alignOp
  simp only [redev_origins, redev_devs, (List.map_injective_iff.2 hg.injective).eq_iff]
  split
  · rfl
  · simp only [redev, ← List.map_append, labels_map hg]
    congr 1
    funext i j
    rw [List.getElem?_map]
    cases (labels (x.origins ++ y.origins))[i]? with
    | none => rfl
    | some o =>
      cases (labels (x.devs ++ y.devs))[j]? with
      | none => rfl
      | some d =>
        show F ((x.redev g).at' o (g d)) ((y.redev g).at' o (g d)) = _
        rw [redev_at' hg.injective, redev_at' hg.injective]

theorem redev_colSums (t : Tri K) : (t.redev g).colSums = Ser.redev g t.colSums := by
  unfold colSums Ser.redev
  rw [redev_nc, List.map_map]
  refine List.map_congr_left fun j hj => ?_
  simp only [Function.comp, redev_dAt t (List.mem_range.1 hj), redev_col]

end Tri

@[simp] theorem Ser.redev_snd (s : Ser K) : (Ser.redev g s).map Prod.snd = s.map Prod.snd := by
  unfold Ser.redev; rw [List.map_map]; rfl

@[simp] theorem Ser.redev_fst (s : Ser K) : (Ser.redev g s).map Prod.fst = (s.map Prod.fst).map g := by
  unfold Ser.redev; rw [List.map_map, List.map_map]; rfl

theorem Ser.redev_zip (l : List Int) (v : List (Num K)) : (l.map g).zip v = Ser.redev g (l.zip v) := by
  unfold Ser.redev; rw [List.zip_map_left]; rfl

@[simp] theorem Ser.redev_length (s : Ser K) : List.length (Ser.redev g s) = List.length s := List.length_map _

theorem Ser.redev_iloc (s : Ser K) : Ser.iloc (Ser.redev g s) = Ser.iloc s := by
  funext k; unfold Ser.iloc; rw [Ser.redev_snd]

theorem Ser.redev_get (hg : Function.Injective g) (s : Ser K) (d : Int) :
    Ser.get (Ser.redev g s) (g d) = Ser.get s d := Ser.get_relabel hg s d

theorem Ser.redev_locSet (hg : Function.Injective g) (s : Ser K) (d : Int) (v : Num K) :
    Ser.locSet (Ser.redev g s) (g d) v = Ser.redev g (Ser.locSet s d v) := by
  unfold Ser.locSet
  simp only [Ser.redev_fst, List.mem_map_of_injective hg]
  split
  · unfold Ser.redev
    rw [List.map_map, List.map_map]
    refine List.map_congr_left fun p _ => ?_
    simp only [Function.comp, hg.eq_iff]
    split <;> rfl
  · unfold Ser.redev; rw [List.map_append]; rfl

end

theorem labelDiffs_conv (l : List Int) : labelDiffs (l.map (conv a b)) = (labelDiffs l).map (a * ·) := by
  unfold labelDiffs
  rw [← List.map_tail, List.zipWith_map, List.map_zipWith]
  congr 1
  funext x y
  unfold conv
  ring

theorem min?_map' {f : Int → Int} (hf : StrictMono f) (l : List Int) : (l.map f).min? = l.min?.map f := by
  cases l with
  | nil => rfl
  | cons a l =>
    rw [List.map_cons, List.min?_cons', List.min?_cons', Option.map_some]
    congr 1
    induction l generalizing a with
    | nil => rfl
    | cons b l ih => rw [List.map_cons, List.foldl_cons, List.foldl_cons, ← hf.monotone.map_min, ih]

theorem max?_map' {f : Int → Int} (hf : StrictMono f) (l : List Int) : (l.map f).max? = l.max?.map f := by
  cases l with
  | nil => rfl
  | cons a l =>
    rw [List.map_cons, List.max?_cons', List.max?_cons', Option.map_some]
    congr 1
    induction l generalizing a with
    | nil => rfl
    | cons b l ih => rw [List.map_cons, List.foldl_cons, List.foldl_cons, ← hf.monotone.map_max, ih]

theorem tailLabel_conv (ha : 0 < a) (l : List Int) : tailLabel (l.map (conv a b)) = (tailLabel l).map (conv a b) := by
  unfold tailLabel minIncrement
  have h1 : StrictMono (fun x : Int => a * x) := fun x y h => by show a * x < a * y; nlinarith
  rw [labelDiffs_conv, min?_map' h1, max?_map' (conv_mono ha)]
  cases (labelDiffs l).min? with
  | none => rfl
  | some d =>
    cases l.max? with
    | none => rfl
    | some m =>
      show Except.ok (conv a b m + a * d) = Except.ok (conv a b (m + d))
      unfold conv
      congr 1
      ring

section
variable [Field K] [LinearOrder K]

theorem a2aAvgs_redev {g : Int → Int} (hg : StrictMono g) (gm : List (Num K) → Num K) (t ind : Tri K) :
    a2aAvgs gm (t.redev g) (ind.redev g) =
      (a2aAvgs gm t ind).map (fun x => { x with devs := x.devs.map g }) := by
  have h0 : ∀ dur j, weightedAvg (t.redev g) dur j = weightedAvg t dur j := fun _ _ => rfl
  have : ∀ k dur j, avgCell gm (t.redev g) ((Tri.alignOp (· * ·) t.a2a ind).redev g) k dur j =
      avgCell gm t (Tri.alignOp (· * ·) t.a2a ind) k dur j := by
    intro k dur j
    cases k <;> simp only [avgCell, Tri.redev_col, h0]
  unfold a2aAvgs
  simp only [Tri.redev_a2a, Tri.redev_alignOp hg, Tri.redev_nr, Tri.redev_nc, Tri.redev_devs, this]
  cases (avgGrid t.a2a.nr).mapM (fun p => do
      let vals ← (List.range (Tri.alignOp (· * ·) t.a2a ind).nc).mapM
        (fun j => avgCell gm t (Tri.alignOp (· * ·) t.a2a ind) p.1 p.2 j)
      pure (avgLabel p.1 p.2, vals)) with
  | error e => rfl
  | ok r => rfl

theorem ldfsByName_redev (ha : 0 < a) (gm : List (Num K) → Num K) (t ind : Tri K) (sel : String) (tail : Num K) :
    ldfsByName gm (t.redev (conv a b)) (ind.redev (conv a b)) sel tail =
      (ldfsByName gm t ind sel tail).map (Ser.redev (conv a b)) := by
  unfold ldfsByName
  rw [a2aAvgs_redev (conv_mono ha)]
  cases a2aAvgs gm t ind with
  | error e => rfl
  | ok tab =>
    simp only [Except.map, bind, Except.bind]
    cases tab.rows.lookup sel with
    | none => rfl
    | some vals =>
      simp only [tailLabel_conv ha]
      cases tailLabel tab.devs with
      | error e => rfl
      | ok lab =>
        simp only [Except.map, Ser.redev_zip, Ser.redev_locSet (conv_mono ha).injective]

theorem ldfsByArray_redev {g : Int → Int} (t : Tri K) (sel : List (Num K)) (tail : Num K) :
    ldfsByArray (t.redev g) sel tail = (ldfsByArray t sel tail).map (Ser.redev g) := by
  unfold ldfsByArray
  simp only [Tri.redev_nc, Tri.redev_devs, Ser.redev_zip]
  split <;> rfl

theorem ldfsBySeries_redev (ha : 0 < a) (t : Tri K) (sel : Ser K) (tail : Num K) :
    ldfsBySeries (t.redev (conv a b)) (Ser.redev (conv a b) sel) tail =
      (Ser.redev (conv a b) (ldfsBySeries t sel tail).1,
        (ldfsBySeries t sel tail).2.map (Ser.redev (conv a b))) := by
  have hg := (conv_mono (b := b) ha).injective
  unfold ldfsBySeries
  simp only [Tri.redev_nc, Ser.redev_length, Ser.redev_fst, tailLabel_conv ha]
  by_cases h : List.length sel ≠ t.nc - 1
  · simp only [if_pos h]; rfl
  · simp only [if_neg h]
    cases tailLabel (sel.map Prod.fst) with
    | error e => rfl
    | ok lab =>
      simp only [Except.map, Ser.redev_locSet hg, Ser.redev_fst, List.nodup_map_iff hg]
      split
      · congr 2
        unfold Ser.redev
        simp only [Tri.redev_devs, List.map_map]
        refine List.map_congr_left fun d _ => ?_
        simp only [Function.comp]
        congr 1
        exact Ser.redev_get hg _ d
      · rfl

theorem cldfsOf_redev {g : Int → Int} (s : Ser K) : cldfsOf (Ser.redev g s) = Ser.redev g (cldfsOf s) := by
  unfold cldfsOf
  rw [Ser.redev_fst, Ser.redev_snd, Ser.redev_zip]

theorem sqrCell_redev {g : Int → Int} (t : Tri K) (ldf : ℕ → Num K) (i j : ℕ) :
    sqrCell (t.redev g) ldf i j = sqrCell t ldf i j := by
  induction j with
  | zero => rfl
  | succ j ih => simp only [sqrCell, ih, Tri.redev_triindAt, Tri.redev_cell]

theorem trisqrdOf_redev {g : Int → Int} (t : Tri K) (s : Ser K) :
    trisqrdOf (t.redev g) (Ser.redev g s) = (trisqrdOf t s).map (Sqr.redev g) := by
  have h0 : Ser.redev g s = [] ↔ s = [] := List.map_eq_nil_iff
  unfold trisqrdOf
  rw [Tri.redev_triind]
  cases t.triind with
  | error e => rfl
  | ok x =>
    simp only [Tri.redev_nc, bind, Except.bind, sqrCell_redev, Tri.redev_nr, Ser.redev_length, Ser.redev_snd, h0]
    split <;> rfl

theorem maturity_length {t : Tri K} {mat : List Int} (h : t.maturity = .ok mat) : mat.length = t.nr := by
  unfold Tri.maturity at h
  cases h1 : t.triind with
  | error e => rw [h1] at h; cases h
  | ok ind =>
    rw [h1] at h
    have : ∀ (l : List ℕ) (F : ℕ → Except PyErr Int) (r : List Int), l.mapM F = .ok r → r.length = l.length := by
      intro l F
      induction l with
      | nil => intro r hr; cases hr; rfl
      | cons x l ih =>
        intro r hr
        rw [List.mapM_cons] at hr
        cases hx : F x with
        | error e => rw [hx] at hr; cases hr
        | ok y =>
          rw [hx] at hr
          cases hl : l.mapM F with
          | error e => rw [hl] at hr; cases hr
          | ok ys =>
            rw [hl] at hr
            obtain rfl := Except.ok.inj hr
            simp [ih ys hl]
    have := this _ _ _ h
    rwa [List.length_range] at this

theorem baseFromLdfs_redev {g : Int → Int} (hg : Function.Injective g) (t : Tri K) (s : Ser K) :
    baseFromLdfs (t.redev g) (Ser.redev g s) = (baseFromLdfs t s).map (BaseResult.redev g) := by
  have hu : ∀ c : Ser K, ultimatesOf (t.redev g) (Ser.redev g c) = ultimatesOf t c := by
    intro c; unfold ultimatesOf; simp only [Tri.redev_latest, Ser.redev_snd, Tri.redev_nr]
  have hr : ∀ u : List (Num K), reservesOf (t.redev g) u = reservesOf t u := by
    intro u; unfold reservesOf; rw [Tri.redev_latest]; rfl
  unfold baseFromLdfs
  simp only [cldfsOf_redev, hu, Tri.redev_maturity, trisqrdOf_redev, bind, Except.bind]
  cases ultimatesOf t (cldfsOf s) with
  | error e => rfl
  | ok u =>
    dsimp only
    cases hm : t.maturity with
    | error e => rfl
    | ok mat =>
      dsimp only [Except.map]
      cases trisqrdOf t s with
      | error e => rfl
      | ok q =>
        dsimp only [Except.map]
        have hrows : ((List.range t.nr).map (fun i =>
            (⟨t.oAt i, (mat.map g).getD i 0, Ser.get (Ser.redev g (cldfsOf s)) ((mat.map g).getD i 0),
              1 / Ser.get (Ser.redev g (cldfsOf s)) ((mat.map g).getD i 0),
              Ser.get t.latestByOrigin (t.oAt i), u.getD i .nan, (reservesOf t u).getD i .nan⟩ : SummRow K))) =
            ((List.range t.nr).map (fun i =>
            (⟨t.oAt i, mat.getD i 0, Ser.get (cldfsOf s) (mat.getD i 0),
              1 / Ser.get (cldfsOf s) (mat.getD i 0),
              Ser.get t.latestByOrigin (t.oAt i), u.getD i .nan, (reservesOf t u).getD i .nan⟩ : SummRow K))).map
              (SummRow.redev g) := by
          rw [List.map_map]
          refine List.map_congr_left fun i hi => ?_
          have hi : i < mat.length := by rw [maturity_length hm]; exact List.mem_range.1 hi
          have e : (mat.map g).getD i 0 = g (mat.getD i 0) := by
            simp only [List.getD_eq_getElem?_getD, List.getElem?_map, List.getElem?_eq_getElem hi,
              Option.map_some, Option.getD_some]
          simp only [Function.comp, SummRow.redev, e, Ser.redev_get hg]
        simp only [Tri.redev_nr, Tri.redev_oAt, Tri.redev_latest, hr, hrows, BaseResult.redev, List.map_map]
        rfl

theorem Ser.redev_divS {g : Int → Int} (hg : StrictMono g) (x y : Ser K) :
    Ser.divS (Ser.redev g x) (Ser.redev g y) = Ser.redev g (Ser.divS x y) := by
  unfold Ser.divS
  simp only [Ser.redev_fst, (List.map_injective_iff.2 hg.injective).eq_iff]
  split
  · unfold Ser.redev; rw [List.zipWith_map, List.map_zipWith]
  · rw [← List.map_append, labels_map hg]
    unfold Ser.redev
    rw [List.map_map, List.map_map]
    refine List.map_congr_left fun d _ => ?_
    simp only [Function.comp]
    rw [show Ser.get (x.map fun p => (g p.1, p.2)) (g d) = Ser.get x d from Ser.redev_get hg.injective x d,
      show Ser.get (y.map fun p => (g p.1, p.2)) (g d) = Ser.get y d from Ser.redev_get hg.injective y d]

theorem mackLdfs_redev (ha : 0 < a) (alpha : ℕ) (t ind : Tri K) (tail : Num K) :
    mackLdfs alpha (t.redev (conv a b)) (ind.redev (conv a b)) tail =
      (mackLdfs alpha t ind tail).map (Ser.redev (conv a b)) := by
  have hg := conv_mono (b := b) ha
  have h1 : (ind.redev (conv a b)).modInd = ind.modInd.redev (conv a b) := rfl
  have h2 : ∀ x : Tri K, (x.redev (conv a b)).powT alpha = (x.powT alpha).redev (conv a b) := fun _ => rfl
  unfold mackLdfs
  simp only [h1, h2, Tri.redev_modTri, Tri.redev_a2a, Tri.redev_alignOp hg, Tri.redev_colSums, Ser.redev_divS hg,
    Ser.redev_fst, tailLabel_conv ha]
  generalize Ser.divS (K := K) _ _ = s
  cases tailLabel (s.map Prod.fst) with
  | error e => rfl
  | ok lab =>
    simp only [Except.map, bind, Except.bind, Ser.redev_locSet hg.injective]

theorem devpVariance_redev {g : Int → Int} (hg : StrictMono g) (alpha : ℕ) (t ind : Tri K) (s : Ser K) :
    devpVariance alpha (t.redev g) (ind.redev g) (Ser.redev g s) =
      (devpVariance alpha t ind s).map (Ser.redev g) := by
  have h1 : (ind.redev g).modInd = ind.modInd.redev g := rfl
  have h2 : ∀ x : Tri K, (x.redev g).powT alpha = (x.powT alpha).redev g := fun _ => rfl
  have hs : ∀ x d, devpSum alpha (t.redev g) (ind.redev g) x (g d) = devpSum alpha t ind x d := by
    intro x d
    unfold devpSum
    simp only [h1, h2, Tri.redev_modTri, Tri.redev_a2a, Tri.redev_origins, Tri.redev_at' hg.injective]
  unfold devpVariance
  simp only [Tri.redev_devs, Tri.redev_modTri, Tri.redev_a2a, Ser.redev_fst, ← List.map_dropLast, List.all_map,
    Function.comp_def, List.mem_map_of_injective hg.injective, Tri.redev_nr, Ser.redev_zip]
  generalize s.map Prod.fst = L
  simp only [List.map_map, Function.comp_def, List.mem_map_of_injective hg.injective, hs,
    Ser.redev_get hg.injective, Tri.idxOf_map_inj hg.injective, List.length_map]
  split
  · rfl
  · split <;> rfl

theorem ldfVariance_redev {g : Int → Int} (hg : StrictMono g) (alpha : ℕ) (t ind : Tri K) (s : Ser K) :
    ldfVariance alpha (t.redev g) (ind.redev g) (Ser.redev g s) =
      (ldfVariance alpha t ind s).map (Ser.redev g) := by
  have h1 : (ind.redev g).modInd = ind.modInd.redev g := rfl
  have h2 : ∀ x : Tri K, (x.redev g).powT alpha = (x.powT alpha).redev g := fun _ => rfl
  unfold ldfVariance
  simp only [h1, h2, Tri.redev_devs, Tri.redev_modTri, Ser.redev_fst, List.all_map, Function.comp_def,
    List.mem_map_of_injective hg.injective, Tri.redev_origins]
  split
  · rfl
  · simp only [Except.map]
    congr 1
    unfold Ser.redev
    rw [List.map_map, List.map_map]
    refine List.map_congr_left fun p _ => ?_
    simp only [Function.comp, List.mem_map_of_injective hg.injective, Tri.redev_at' hg.injective]

theorem mackCore_redev (ha : 0 < a) (alpha : ℕ) (t ind : Tri K) :
    mackCore alpha (t.redev (conv a b)) (ind.redev (conv a b)) =
      (mackCore alpha t ind).map (MackCore.redev (conv a b)) := by
  have hg := conv_mono (b := b) ha
  unfold mackCore
  simp only [mackLdfs_redev ha, bind, Except.bind]
  cases mackLdfs alpha t ind 1 with
  | error e => rfl
  | ok ldfs =>
    dsimp only [Except.map]
    simp only [baseFromLdfs_redev hg.injective, devpVariance_redev hg]
    cases baseFromLdfs t ldfs with
    | error e => rfl
    | ok x =>
      dsimp only [Except.map]
      cases devpVariance alpha t ind ldfs with
      | error e => rfl
      | ok dv =>
        dsimp only [Except.map]
        simp only [ldfVariance_redev hg]
        cases ldfVariance alpha t ind dv with
        | error e => rfl
        | ok lv =>
          dsimp only [Except.map]
          have e1 : ((BaseResult.redev (conv a b) x).rows.map SummRow.ultimate) = x.rows.map SummRow.ultimate := by
            simp only [BaseResult.redev, List.map_map]; rfl
          simp only [Tri.redev_nc, Ser.redev_length, Ser.redev_iloc, e1, Tri.redev_origins]
          by_cases hl : List.length dv < t.nc - 1
          · rw [if_pos hl, if_pos hl]
          · rw [if_neg hl, if_neg hl]
            rfl

/-- **C98** development labels converted by `x ↦ a x + b`, `a > 0`: `base_cl` by name, array and Series
and `mack_cl` raise the same exception or return the same numbers under the converted labels. -/
theorem C98_unit (ha : 0 < a) (gm : List (Num K) → Num K) (t ind : Tri K) :
    (∀ sel tail, baseCL gm (t.redev (conv a b)) (ind.redev (conv a b)) sel tail =
      (baseCL gm t ind sel tail).map (BaseResult.redev (conv a b))) ∧
    (∀ sel tail, baseCLArray (t.redev (conv a b)) sel tail =
      (baseCLArray t sel tail).map (BaseResult.redev (conv a b))) ∧
    (∀ sel tail, baseCLSeries (t.redev (conv a b)) (Ser.redev (conv a b) sel) tail =
      (Ser.redev (conv a b) (baseCLSeries t sel tail).1,
        (baseCLSeries t sel tail).2.map (BaseResult.redev (conv a b)))) ∧
    (∀ alpha, mackCore alpha (t.redev (conv a b)) (ind.redev (conv a b)) =
      (mackCore alpha t ind).map (MackCore.redev (conv a b))) ∧
    (t.redev (conv a b)).a2aind0 = t.a2aind0.redev (conv a b) := by
  have hg := (conv_mono (b := b) ha).injective
  refine ⟨fun sel tail => ?_, fun sel tail => ?_, fun sel tail => ?_, fun alpha => mackCore_redev ha alpha t ind,
    Tri.redev_a2aind0 t⟩
  · unfold baseCL
    rw [ldfsByName_redev ha]
    cases ldfsByName gm t ind sel tail with
    | error e => rfl
    | ok s => exact baseFromLdfs_redev hg t s
  · unfold baseCLArray
    rw [ldfsByArray_redev]
    cases ldfsByArray t sel tail with
    | error e => rfl
    | ok s => exact baseFromLdfs_redev hg t s
  · unfold baseCLSeries
    simp only [ldfsBySeries_redev ha]
    refine congrArg (Prod.mk _) ?_
    cases (ldfsBySeries t sel tail).2 with
    | error e => rfl
    | ok s => exact baseFromLdfs_redev hg t s

end

/-- Concrete case: the 4 x 4 example with periods counted in months. -/
example : (mackCore 1 (exTri.redev (conv 12 0)) (exTri.a2aind0.redev (conv 12 0))).toOption.map
    (fun r => (r.rows.map (fun x => (x.maturity, x.reserve)), r.totMse)) =
    (mackCore 1 exTri exTri.a2aind0).toOption.map
    (fun r => (r.rows.map (fun x => (12 * x.maturity, x.reserve)), r.totMse)) := by
  decide +kernel

end Trikit
