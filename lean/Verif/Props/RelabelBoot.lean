import Verif.Props.Relabel
import Verif.FillLemmas
import Mathlib.Data.List.Find

/-!
# C97, bootstrap: origin labels do not matter
-/

set_option linter.unusedSectionVars false

namespace Trikit

variable {K : Type} {f : Int → Int}

def SampRow.relabel (f : Int → Int) (r : SampRow K) : SampRow K := { r with origin := f r.origin }
def CombRow.relabel (f : Int → Int) (r : CombRow K) : CombRow K := { r with samp := r.samp.relabel f }
def FcRow.relabel (f : Int → Int) (r : FcRow K) : FcRow K := { r with origin := f r.origin }
def SqrdRow.relabel (f : Int → Int) (r : SqrdRow K) : SqrdRow K := { r with origin := f r.origin }
def ProcRow.relabel (f : Int → Int) (r : ProcRow K) : ProcRow K := { r with base := r.base.relabel f }
def ResRow.relabel (f : Int → Int) (r : ResRow K) : ResRow K := { r with origin := f r.origin }

def SimResult.relabel (f : Int → Int) (r : SimResult K) : SimResult K :=
  { samples := r.samples.map (SampRow.relabel f), ldfs := r.ldfs, forecasts := r.forecasts.map (SqrdRow.relabel f)
    proc := r.proc.map (ProcRow.relabel f), reserves := r.reserves.map (ResRow.relabel f) }

def BootFit.relabel (f : Int → Int) (r : BootFit K) : BootFit K :=
  { r with sqr := r.sqr.relabel f, fitCum := r.fitCum.relabel f, fitIncr := r.fitIncr.relabel f
           residUs := r.residUs.relabel f, residAdj := r.residAdj.relabel f }

def BootResult.relabel (f : Int → Int) (r : BootResult K) : BootResult K :=
  { r with fit := r.fit.relabel f, sim := r.sim.relabel f }

section prim
variable {α α' β κ κ' : Type} [DecidableEq κ] [DecidableEq κ'] [Inhabited β]

theorem gtGo_map {key : α → κ} {key' : α' → κ'} {g : α → α'} {F : List α → List β} {F' : List α' → List β}
    (hk : ∀ x y, key' (g x) = key' (g y) ↔ key x = key y) (hF : ∀ l, F' (l.map g) = F l) (all : List α) :
    ∀ seen l, gtGo key' F' (all.map g) (seen.map g) (l.map g) = gtGo key F all seen l
  | seen, [] => rfl
  | seen, r :: rs => by
    have h1 : ∀ s : List α, (s.map g).filter (fun x => key' x = key' (g r)) =
        (s.filter (fun x => key x = key r)).map g := by
      intro s
      rw [List.filter_map]
      refine congrArg _ (List.filter_congr fun x _ => ?_)
      exact decide_eq_decide.2 (hk x r)
    have h2 := gtGo_map hk hF all (seen ++ [r]) rs
    rw [List.map_append] at h2
    simp only [List.map_cons, List.map_nil] at h2
    simp only [List.map_cons, gtGo]
    rw [h1, h1, hF, List.length_map, h2]

theorem groupTransform_map {key : α → κ} {key' : α' → κ'} {g : α → α'} {F : List α → List β}
    {F' : List α' → List β} (hk : ∀ x y, key' (g x) = key' (g y) ↔ key x = key y)
    (hF : ∀ l, F' (l.map g) = F l) (l : List α) :
    groupTransform key' F' (l.map g) = groupTransform key F l := gtGo_map hk hF l [] l

theorem dropDups_map {α α' : Type} [DecidableEq α] [DecidableEq α'] {g : α → α'} (hg : Function.Injective g)
    (l : List α) : dropDups (l.map g) = (dropDups l).map g := by
  induction l with
  | nil => rfl
  | cons a l ih =>
    simp only [List.map_cons, dropDups, ih, List.filter_map]
    refine congrArg _ (congrArg _ (List.filter_congr fun x _ => ?_))
    simp only [Function.comp, ne_eq, hg.eq_iff]

theorem min?_map (hf : StrictMono f) (l : List Int) : (l.map f).min? = l.min?.map f := by
  cases l with
  | nil => rfl
  | cons a l =>
    rw [List.map_cons, List.min?_cons', List.min?_cons', Option.map_some]
    congr 1
    induction l generalizing a with
    | nil => rfl
    | cons b l ih => rw [List.map_cons, List.foldl_cons, List.foldl_cons, ← hf.monotone.map_min, ih]

end prim

section
variable [Field K] [LinearOrder K]

theorem key_iff (hf : Function.Injective f) (s s' : ℕ) (o o' : Int) : (s, f o) = (s', f o') ↔ (s, o) = (s', o') := by
  simp only [Prod.mk.injEq, hf.eq_iff]

theorem minDevp_relabel (m : Tri K) : minDevp (m.relabel f) = minDevp m := by
  unfold minDevp
  rw [Tri.relabel_toTbl, List.map_map]; rfl

theorem bootIncr_relabel (m : Tri K) (i j : ℕ) : bootIncr (m.relabel f) i j = bootIncr m i j := by
  unfold bootIncr
  rw [minDevp_relabel, Tri.relabel_dAt, Tri.relabel_cell]

theorem sampRows_relabel (sq : Num K → Num K) (m : Tri K) (sims : ℕ) (draw : ℕ → Num K) :
    sampRows sq (m.relabel f) sims draw = (sampRows sq m sims draw).map (SampRow.relabel f) := by
  unfold sampRows
  simp only [List.map_flatMap, List.map_map, Tri.relabel_nr, Tri.relabel_nc, bootIncr_relabel]
  refine List.flatMap_congr fun s _ => List.flatMap_congr fun i hi => List.map_congr_left fun j _ => ?_
  simp only [Function.comp, SampRow.relabel, Tri.relabel_oAt m (List.mem_range.1 hi), Tri.relabel_dAt]

theorem zipWith_map_left' {α β γ : Type} {g : α → α} {h : γ → γ} {F : α → β → γ}
    (hF : ∀ a b, F (g a) b = h (F a b)) (l : List α) (m : List β) :
    List.zipWith F (l.map g) m = (List.zipWith F l m).map h := by
  induction l generalizing m with
  | nil => rfl
  | cons a l ih => cases m with
    | nil => rfl
    | cons b m => simp only [List.map_cons, List.zipWith_cons_cons, ih, hF]

theorem bsSamples_relabel (hf : Function.Injective f) (sq : Num K → Num K) (m : Tri K) (sims : ℕ)
    (draw : ℕ → Num K) :
    bsSamples sq (m.relabel f) sims draw = (bsSamples sq m sims draw).map (SampRow.relabel f) := by
  unfold bsSamples
  simp only [sampRows_relabel]
  rw [groupTransform_map (key := fun r : SampRow K => (r.sim, r.origin))
    (F := fun l => cumsumL (l.map SampRow.sampIncr))]
  · exact zipWith_map_left' (g := SampRow.relabel f) (h := SampRow.relabel f) (fun _ _ => rfl) _ _
  · intro x y; exact key_iff hf _ _ _ _
  · intro l; rw [List.map_map]; rfl

theorem lastOrigin_relabel (t : Tri K) (d : Int) : lastOrigin (t.relabel f) d = (lastOrigin t d).map f := by
  unfold lastOrigin
  have h0 : (List.range (t.relabel f).nc).find? (fun j => decide ((t.relabel f).dAt j = d)) =
      (List.range t.nc).find? (fun j => decide (t.dAt j = d)) := rfl
  rw [h0]
  cases (List.range t.nc).find? (fun j => decide (t.dAt j = d)) with
  | none => rfl
  | some j =>
    show ((t.relabel f).clvi j).map _ = ((t.clvi j).map _).map f
    rw [Tri.relabel_clvi]
    cases h : t.clvi j with
    | none => rfl
    | some i =>
      have : i < t.nr := (lastValid_some.1 h).1
      simp only [Option.map_some, Tri.relabel_oAt t this]

theorem aggRows_relabel (hf : Function.Injective f) (t : Tri K) (sims : ℕ) (l : List (SampRow K)) :
    aggRows (t.relabel f) sims (l.map (SampRow.relabel f)) = aggRows t sims l := by
  unfold aggRows
  refine List.flatMap_congr fun s _ => ?_
  refine List.filterMap_congr fun d _ => ?_
  have h1 : (l.map (SampRow.relabel f)).filter (fun r => decide (r.sim = s ∧ r.dev = d ∧ r.sampCum.isNaN = false)) =
      (l.filter (fun r => decide (r.sim = s ∧ r.dev = d ∧ r.sampCum.isNaN = false))).map (SampRow.relabel f) := by
    rw [List.filter_map]; rfl
  simp only [h1, List.map_eq_nil_iff, List.map_map, lastOrigin_relabel]
  have h2 : ((fun r : SampRow K => if some r.origin = Option.map f (lastOrigin t d) then (0 : Num K) else r.sampCum) ∘
      SampRow.relabel f) = fun r => if some r.origin = lastOrigin t d then 0 else r.sampCum := by
    funext r
    show (if some (f r.origin) = Option.map f (lastOrigin t d) then (0 : Num K) else r.sampCum) = _
    have h3 : some (f r.origin) = Option.map f (lastOrigin t d) ↔ some r.origin = lastOrigin t d :=
      (Option.map_injective hf).eq_iff (a := some r.origin)
    simp only [h3]
  rw [h2]
  rfl

theorem bsLdfs_relabel (hf : Function.Injective f) (t : Tri K) (sims : ℕ) (l : List (SampRow K)) :
    bsLdfs (t.relabel f) sims (l.map (SampRow.relabel f)) = bsLdfs t sims l := by
  unfold bsLdfs; rw [aggRows_relabel hf]

theorem bsCombined_relabel (hf : Function.Injective f) (t : Tri K) (l : List (SampRow K)) (ldfs : List (LdfRow K)) :
    bsCombined (t.relabel f) (l.map (SampRow.relabel f)) ldfs = (bsCombined t l ldfs).map (CombRow.relabel f) := by
  unfold bsCombined
  rw [List.flatMap_map, List.map_flatMap]
  refine List.flatMap_congr fun r _ => ?_
  have h1 : (List.range (t.relabel f).nr).find? (fun i => decide ((t.relabel f).oAt i = (r.relabel f).origin)) =
      (List.range t.nr).find? (fun i => decide (t.oAt i = r.origin)) := by
    rw [Tri.relabel_nr]
    refine List.find?_congr fun i hi => decide_eq_decide.2 ?_
    rw [Tri.relabel_oAt t (List.mem_range.1 hi)]
    exact hf.eq_iff
  simp only [h1, Tri.relabel_rlvi]
  show (match ldfs.filter (fun l => decide (l.sim = r.sim ∧ l.dev = r.dev)) with
    | [] => _
    | ms => _) = _
  cases ldfs.filter (fun l => decide (l.sim = r.sim ∧ l.dev = r.dev)) with
  | nil => rfl
  | cons a ms => simp only [List.map_cons, List.map_map]; rfl

theorem fcstRows_relabel (hf : Function.Injective f) (l : List (CombRow K × ℕ)) :
    fcstRows (l.map (Prod.map (CombRow.relabel f) id)) = (fcstRows l).map (FcRow.relabel f) := by
  have hk : ∀ x y : CombRow K × ℕ,
      ((Prod.map (CombRow.relabel f) id x).1.samp.sim, (Prod.map (CombRow.relabel f) id x).1.samp.origin) =
      ((Prod.map (CombRow.relabel f) id y).1.samp.sim, (Prod.map (CombRow.relabel f) id y).1.samp.origin) ↔
      (x.1.samp.sim, x.1.samp.origin) = (y.1.samp.sim, y.1.samp.origin) := fun x y => key_iff hf _ _ _ _
  unfold fcstRows
  dsimp only
  rw [groupTransform_map (β := ℕ) (key := fun p : CombRow K × ℕ => (p.1.samp.sim, p.1.samp.origin))
      (F := fun l => l.map (fun _ => ((l.map Prod.snd).min?).getD 0)) hk
      (fun l => by simp only [List.map_map]; rfl),
    groupTransform_map (β := Num K) (key := fun p : CombRow K × ℕ => (p.1.samp.sim, p.1.samp.origin))
      (F := fun l => cumprodL (l.map (fun p => p.1.ldf))) hk
      (fun l => by simp only [List.map_map]; rfl)]
  have hfind : ∀ k : ℕ, (l.map (Prod.map (CombRow.relabel f) id)).find? (fun p => decide (p.2 = k)) =
      (l.find? (fun p => decide (p.2 = k))).map (Prod.map (CombRow.relabel f) id) := by
    intro k; rw [List.find?_map]; rfl
  simp only [hfind]
  rw [zipWith_map_left' (g := Prod.map (CombRow.relabel f) id) (h := FcRow.relabel f) (fun _ _ => rfl)]
  refine congrArg (List.map _) (congrArg (List.zipWith _ _) (congrArg (fun x => List.zip x _) ?_))
  refine List.map_congr_left fun k _ => ?_
  cases l.find? (fun p => decide (p.2 = k)) <;> rfl

theorem mergeBack_relabel {p p' : CombRow K × ℕ → Bool} (hp : ∀ x, p' (Prod.map (CombRow.relabel f) id x) = p x) :
    ∀ (l : List (CombRow K × ℕ)) (new : List (FcRow K)),
    mergeBack p' (l.map (Prod.map (CombRow.relabel f) id)) (new.map (FcRow.relabel f)) =
      (mergeBack p l new).map (FcRow.relabel f)
  | [], _ => rfl
  | r :: rs, new => by
    simp only [List.map_cons, mergeBack, hp]
    by_cases h : p r = true
    · rw [if_pos h, if_pos h]
      cases new with
      | nil => exact mergeBack_relabel hp rs []
      | cons v vs =>
        simp only [List.map_cons]
        rw [mergeBack_relabel hp rs vs]
    · rw [if_neg h, if_neg h, List.map_cons, mergeBack_relabel hp rs new]
      rfl

theorem zipIdx_map' {α β : Type} (g : α → β) (l : List α) (k : ℕ) :
    (l.map g).zipIdx k = (l.zipIdx k).map (Prod.map g id) := by
  induction l generalizing k with
  | nil => rfl
  | cons a l ih => simp only [List.map_cons, List.zipIdx_cons, ih]; rfl

theorem bsForecasts_relabel (hf : StrictMono f) (t : Tri K) (l : List (SampRow K)) (ldfs : List (LdfRow K)) :
    bsForecasts (t.relabel f) (l.map (SampRow.relabel f)) ldfs =
      (bsForecasts t l ldfs).map (SqrdRow.relabel f) := by
  unfold bsForecasts
  dsimp only
  rw [bsCombined_relabel hf.injective, zipIdx_map']
  generalize (bsCombined t l ldfs).zipIdx = comb
  have hmin : ((comb.map (Prod.map (CombRow.relabel f) id)).map (fun p => p.1.samp.origin)).min? =
      ((comb.map (fun p => p.1.samp.origin)).min?).map f := by
    rw [← min?_map hf, List.map_map, List.map_map]; rfl
  rw [hmin]
  generalize (comb.map (fun p => p.1.samp.origin)).min? = mo
  have hp : ∀ x : CombRow K × ℕ, isFcstRow (mo.map f) (Prod.map (CombRow.relabel f) id x).1 = isFcstRow mo x.1 := by
    intro x
    have h3 : some (f x.1.samp.origin) = mo.map f ↔ some x.1.samp.origin = mo :=
      (Option.map_injective hf.injective).eq_iff (a := some x.1.samp.origin)
    show (!(decide (some (f x.1.samp.origin) = mo.map f) || _)) = _
    unfold isFcstRow
    simp only [h3]
    rfl
  have hfil : (comb.map (Prod.map (CombRow.relabel f) id)).filter (fun p => isFcstRow (mo.map f) p.1) =
      (comb.filter (fun p => isFcstRow mo p.1)).map (Prod.map (CombRow.relabel f) id) := by
    rw [List.filter_map]
    exact congrArg _ (List.filter_congr fun x _ => hp x)
  rw [hfil, fcstRows_relabel hf.injective,
    mergeBack_relabel (p := fun p => isFcstRow mo p.1) (p' := fun p => isFcstRow (mo.map f) p.1) hp]
  generalize mergeBack (fun p : CombRow K × ℕ => isFcstRow mo p.1) comb
    (fcstRows (comb.filter (fun p => isFcstRow mo p.1))) = rows
  rw [groupTransform_map (key := fun r : FcRow K => (r.sim, r.origin)) (F := fun l => diffL (l.map FcRow.sampCum))
    (fun x y => key_iff hf.injective _ _ _ _) (fun l => by simp only [List.map_map]; rfl)]
  exact zipWith_map_left' (g := FcRow.relabel f) (h := SqrdRow.relabel f) (fun _ _ => rfl) _ _

theorem bsProcess_relabel (hf : Function.Injective f) (scale : Num K) (gam : ℕ → Num K → Num K → Num K)
    (l : List (SqrdRow K)) :
    bsProcess scale gam (l.map (SqrdRow.relabel f)) = (bsProcess scale gam l).map (ProcRow.relabel f) := by
  unfold bsProcess
  dsimp only
  rw [zipIdx_map', List.map_map]
  have : ((fun p : SqrdRow K × ℕ => (p.1, if p.1.fcst = true then gam p.2 (p.1.sampIncr / scale).abs' scale * p.1.sign
        else p.1.sampIncr)) ∘ Prod.map (SqrdRow.relabel f) id) =
      Prod.map (SqrdRow.relabel f) id ∘ (fun p : SqrdRow K × ℕ => (p.1, if p.1.fcst = true then
        gam p.2 (p.1.sampIncr / scale).abs' scale * p.1.sign else p.1.sampIncr)) := rfl
  rw [this, ← List.map_map]
  rw [groupTransform_map (key := fun p : SqrdRow K × Num K => (p.1.sim, p.1.origin))
    (F := fun l => cumsumL (l.map Prod.snd))
    (fun x y => key_iff hf _ _ _ _) (fun l => by simp only [List.map_map]; rfl)]
  exact zipWith_map_left' (g := Prod.map (SqrdRow.relabel f) id) (h := ProcRow.relabel f) (fun _ _ => rfl) _ _

theorem insRes_relabel (hf : StrictMono f) (r : ResRow K) (l : List (ResRow K)) :
    insRes (r.relabel f) (l.map (ResRow.relabel f)) = (insRes r l).map (ResRow.relabel f) := by
  induction l with
  | nil => rfl
  | cons s l ih =>
    have h : ((r.relabel f).origin < (s.relabel f).origin ∨
        ((r.relabel f).origin = (s.relabel f).origin ∧ (r.relabel f).sim ≤ (s.relabel f).sim)) ↔
        (r.origin < s.origin ∨ (r.origin = s.origin ∧ r.sim ≤ s.sim)) := by
      show f r.origin < f s.origin ∨ (f r.origin = f s.origin ∧ _) ↔ _
      rw [hf.lt_iff_lt, hf.injective.eq_iff]; rfl
    simp only [List.map_cons, insRes, ih, h]
    split <;> rfl

theorem sortRes_relabel (hf : StrictMono f) (l : List (ResRow K)) :
    sortRes (l.map (ResRow.relabel f)) = (sortRes l).map (ResRow.relabel f) := by
  unfold sortRes
  induction l with
  | nil => rfl
  | cons r l ih => rw [List.map_cons, List.foldr_cons, List.foldr_cons, ih, insRes_relabel hf]

theorem bsReserves_relabel (hf : StrictMono f) (l : List (ProcRow K)) :
    bsReserves (l.map (ProcRow.relabel f)) = (bsReserves l).map (ResRow.relabel f) := by
  have hinj : Function.Injective (ResRow.relabel (K := K) f) := by
    intro a b h
    cases a; cases b
    simp only [ResRow.relabel, ResRow.mk.injEq, hf.injective.eq_iff] at h ⊢
    exact h
  unfold bsReserves
  dsimp only
  rw [List.map_map]
  have h0 : ((fun r : ProcRow K => r.base.dev) ∘ ProcRow.relabel f) = fun r => r.base.dev := rfl
  rw [h0, List.filter_map, List.map_map]
  have h1 : ((fun r : ProcRow K => decide (some r.base.dev = (l.map (fun r => r.base.dev)).max?)) ∘
    ProcRow.relabel f) = fun r => decide (some r.base.dev = (l.map (fun r => r.base.dev)).max?) := rfl
  have h2 : ((fun r : ProcRow K => (⟨r.base.sim, r.base.origin, r.base.lactCum, r.ultimate,
      r.ultimate - r.base.lactCum⟩ : ResRow K)) ∘ ProcRow.relabel f) =
      ResRow.relabel f ∘ (fun r : ProcRow K => (⟨r.base.sim, r.base.origin, r.base.lactCum, r.ultimate,
      r.ultimate - r.base.lactCum⟩ : ResRow K)) := rfl
  rw [h1, h2, ← List.map_map, dropDups_map hinj, List.map_map, ← sortRes_relabel hf, List.map_map]
  rfl

theorem bootSims_relabel (hf : StrictMono f) (sq : Num K → Num K) (t m : Tri K) (scale : Num K) (sims : ℕ)
    (draw : ℕ → Num K) (gam : ℕ → Num K → Num K → Num K) :
    bootSims sq (t.relabel f) (m.relabel f) scale sims draw gam =
      (bootSims sq t m scale sims draw gam).relabel f := by
  unfold bootSims SimResult.relabel
  simp only [bsSamples_relabel hf.injective, bsLdfs_relabel hf.injective, bsForecasts_relabel hf,
    bsProcess_relabel hf.injective, bsReserves_relabel hf]

/-! ### the fit -/

theorem cellValues_relabel (hf : Function.Injective f) (l : List (Rec K)) (o d : Int) :
    cellValues (l.map (Rec.relabel f)) (f o) d = cellValues l o d := by
  unfold cellValues
  rw [List.filter_map, List.map_map]
  have : ((fun r : Rec K => decide (r.origin = f o ∧ r.dev = d)) ∘ Rec.relabel f) =
      fun r => decide (r.origin = o ∧ r.dev = d) := by
    funext r
    refine decide_eq_decide.2 ?_
    show f r.origin = f o ∧ r.dev = d ↔ _
    rw [hf.eq_iff]
  rw [this]; rfl

theorem negHandler_relabel (l : List (Rec K)) :
    negHandler (l.map (Rec.relabel f)) = (negHandler l).map (Rec.relabel f) := by
  unfold negHandler
  rw [List.map_map]
  have : (Rec.dev ∘ Rec.relabel f : Rec K → Int) = Rec.dev := rfl
  rw [this]
  cases (l.map Rec.dev).min? with
  | none => rfl
  | some m =>
    simp only [List.map_map]
    refine List.map_congr_left fun r _ => ?_
    simp only [Function.comp]
    show (if r.dev = m ∧ Num.le r.value 0 = true then _ else _) = _
    split <;> rfl

theorem pivot_relabel (hf : StrictMono f) (l : List (Rec K)) :
    pivot (l.map (Rec.relabel f)) = (pivot l).relabel f := by
  have h1 : (l.map (Rec.relabel f)).map Rec.origin = (l.map Rec.origin).map f := by
    rw [List.map_map, List.map_map]; rfl
  have h2 : (l.map (Rec.relabel f)).map Rec.dev = l.map Rec.dev := by rw [List.map_map]; rfl
  unfold pivot Tri.relabel
  simp only [h1, h2, labels_map hf]
  congr 1
  funext i j
  rw [List.getElem?_map]
  cases (labels (l.map Rec.origin))[i]? with
  | none => rfl
  | some o =>
    cases (labels (l.map Rec.dev))[j]? with
    | none => rfl
    | some d =>
      show groupCell _ (f o) d = groupCell _ o d
      unfold groupCell
      rw [cellValues_relabel hf.injective]

theorem baseInit_relabel (hf : StrictMono f) (l : List (Rec K)) :
    baseInit (l.map (Rec.relabel f)) = (baseInit l).map (Tri.relabel f) := by
  unfold baseInit
  simp only [List.map_eq_nil_iff, negHandler_relabel, pivot_relabel hf]
  split <;> rfl

theorem toIncr_relabel (hf : StrictMono f) (t : Tri K) :
    (t.relabel f).toIncr = t.toIncr.map (Tri.relabel f) := by
  unfold Tri.toIncr incrTri
  have : (t.relabel f).diffTri = t.diffTri.relabel f := rfl
  rw [this, Tri.relabel_toTbl, baseInit_relabel hf]

theorem bootFit_relabel (hf : StrictMono f) (sq : Num K → Num K) (gm : List (Num K) → Num K) (t ind : Tri K) :
    bootFit sq gm (t.relabel f) (ind.relabel f) = (bootFit sq gm t ind).map (BootFit.relabel f) := by
  have h0 : ldfsByName gm (t.relabel f) (ind.relabel f) "all-weighted" 1 = ldfsByName gm t ind "all-weighted" 1 := by
    unfold ldfsByName; rw [a2aAvgs_relabel hf]
  unfold bootFit
  simp only [h0, Tri.relabel_maturity, trisqrdOf_relabel, toIncr_relabel hf, bind, Except.bind]
  cases ldfsByName gm t ind "all-weighted" 1 with
  | error e => rfl
  | ok s =>
    dsimp only
    cases t.maturity with
    | error e => rfl
    | ok mat =>
      dsimp only
      cases trisqrdOf t s with
      | error e => rfl
      | ok q =>
        dsimp only [Except.map]
        cases t.toIncr with
        | error e => rfl
        | ok obs =>
          dsimp only [Except.map]
          have hfi : triFitIncr (triFitCum (t.relabel f) (fun j => (s.map Prod.snd).getD j .nan)) =
              (triFitIncr (triFitCum t (fun j => (s.map Prod.snd).getD j .nan))).relabel f := rfl
          have hru : residUs sq (obs.relabel f) ((triFitIncr (triFitCum t (fun j => (s.map Prod.snd).getD j
              .nan))).relabel f) = (residUs sq obs (triFitIncr (triFitCum t (fun j => (s.map Prod.snd).getD j
              .nan)))).relabel f := Tri.relabel_alignOp hf _ _ _
          have hdof : bootDof (t.relabel f) = bootDof t := by
            unfold bootDof; rw [Tri.relabel_nbrCells, Tri.relabel_nr, Tri.relabel_nc]
          have hra : ∀ r : Tri K, residAdj sq (t.relabel f) (r.relabel f) = (residAdj sq t r).relabel f := by
            intro r
            unfold residAdj
            rw [hdof, Tri.relabel_nbrCells]; rfl
          have hsc : ∀ r : Tri K, scaleParam (t.relabel f) (r.relabel f) = scaleParam t r := by
            intro r
            unfold scaleParam
            simp only [hdof, Tri.relabel_col, Tri.relabel_nc]
          have hsd : ∀ r : Tri K, samplingDist (r.relabel f) = samplingDist r := by
            intro r
            unfold samplingDist
            simp only [Tri.relabel_nr, Tri.relabel_nc, Tri.relabel_cell]
          simp only [hfi, hru, hra, hsc, hsd]
          rfl

/-! ### the call -/

theorem filter_origin_relabel (hf : Function.Injective f) (l : List (ResRow K)) (o : Int) :
    (l.map (ResRow.relabel f)).filter (fun r => decide (r.origin = f o)) =
      (l.filter (fun r => decide (r.origin = o))).map (ResRow.relabel f) := by
  rw [List.filter_map]
  refine congrArg _ (List.filter_congr fun r _ => decide_eq_decide.2 ?_)
  exact hf.eq_iff

theorem bootUltimates_relabel (hf : Function.Injective f) (t : Tri K) (l : List (ResRow K)) :
    bootUltimates (t.relabel f) (l.map (ResRow.relabel f)) = bootUltimates t l := by
  unfold bootUltimates
  rw [Tri.relabel_nr]
  refine List.map_congr_left fun i hi => ?_
  have hi := List.mem_range.1 hi
  simp only [Tri.relabel_oAt t (show 0 < t.nr by omega), Tri.relabel_oAt t hi, Tri.relabel_latestByOrigin,
    Ser.get_relabel hf, filter_origin_relabel hf, List.map_map]
  rfl

theorem bootReserves_relabel (hf : Function.Injective f) (t : Tri K) (l : List (ResRow K)) :
    bootReserves (t.relabel f) (l.map (ResRow.relabel f)) = bootReserves t l := by
  unfold bootReserves
  rw [bootUltimates_relabel hf, Tri.relabel_nr]
  apply List.ext_getElem
  · simp
  · intro i h1 h2
    have hi : i < t.nr := by simp at h1; omega
    simp only [List.getElem_zipWith, List.getElem_range, Tri.relabel_oAt t hi, Tri.relabel_latestByOrigin,
      Ser.get_relabel hf]

theorem bootStdErr_relabel (hf : Function.Injective f) (sq : Num K → Num K) (t : Tri K) (sims : ℕ)
    (l : List (ResRow K)) :
    bootStdErr sq (t.relabel f) sims (l.map (ResRow.relabel f)) = bootStdErr sq t sims l := by
  have ht : bootTotals sims (l.map (ResRow.relabel f)) = bootTotals sims l := by
    unfold bootTotals
    refine List.map_congr_left fun s _ => ?_
    rw [List.filter_map, List.map_map]; rfl
  unfold bootStdErr
  rw [ht, Tri.relabel_origins, List.map_map]
  congr 1
  refine List.map_congr_left fun o _ => ?_
  simp only [Function.comp, filter_origin_relabel hf, List.map_map]
  rfl

/-- **C97** for the bootstrap: with new origin labels in the same order and the same random numbers,
`boot_cl` raises the same exception or returns the same result with the new labels; the generators are
left in the same state. -/
theorem C97_bootstrap (hf : StrictMono f) {S : Type} (P : Prng S K) (sq : Num K → Num K)
    (gm : List (Num K) → Num K) (t ind : Tri K) (sims : ℕ) (isGamma parametric : Bool) (arg : RandArg) (w : World S) :
    bootCall P sq gm (t.relabel f) (ind.relabel f) sims isGamma parametric arg w =
      (bootCall P sq gm t ind sims isGamma parametric arg w).map (fun p => (p.1.relabel f, p.2)) := by
  unfold bootCall
  rw [bootFit_relabel hf]
  cases bootFit sq gm t ind with
  | error e => rfl
  | ok fit =>
    simp only [bind, Except.bind, Except.map, Tri.relabel_nr, Tri.relabel_nc]
    cases getGen P w arg with
    | error e => rfl
    | ok g =>
      obtain ⟨s1, put1⟩ := g
      dsimp only
      have hs : (fit.relabel f).sampling = fit.sampling := rfl
      have hsc : (fit.relabel f).scale = fit.scale := rfl
      have hfi : (fit.relabel f).fitIncr = fit.fitIncr.relabel f := rfl
      simp only [hs, hsc, hfi]
      cases parametric with
      | true =>
        simp only [if_true]
        cases getGen P (put1 (P.normal (stdL sq fit.sampling) (sims * (t.nr * t.nc)) s1).2) arg with
        | error e => rfl
        | ok g2 =>
          obtain ⟨s2, put2⟩ := g2
          cases isGamma with
          | false => rfl
          | true =>
            simp only [bsSamples_relabel hf.injective, bsLdfs_relabel hf.injective, bsForecasts_relabel hf,
              List.map_map, bootSims_relabel hf]
            have hr : ∀ x : SimResult K, (x.relabel f).reserves = x.reserves.map (ResRow.relabel f) := fun _ => rfl
            simp only [hr, bootUltimates_relabel hf.injective, bootReserves_relabel hf.injective,
              bootStdErr_relabel hf.injective]
            rfl
      | false =>
        simp only [Bool.false_eq_true, if_false]
        by_cases hc : fit.sampling = [] ∧ sims * (t.nr * t.nc) ≠ 0
        · simp only [if_pos hc]
        simp only [if_neg hc]
        cases getGen P (put1 (P.choice fit.sampling (sims * (t.nr * t.nc)) s1).2) arg with
        | error e => rfl
        | ok g2 =>
          obtain ⟨s2, put2⟩ := g2
          cases isGamma with
          | false => rfl
          | true =>
            simp only [bsSamples_relabel hf.injective, bsLdfs_relabel hf.injective, bsForecasts_relabel hf,
              List.map_map, bootSims_relabel hf]
            have hr : ∀ x : SimResult K, (x.relabel f).reserves = x.reserves.map (ResRow.relabel f) := fun _ => rfl
            simp only [hr, bootUltimates_relabel hf.injective, bootReserves_relabel hf.injective,
              bootStdErr_relabel hf.injective]
            rfl

end

end Trikit
