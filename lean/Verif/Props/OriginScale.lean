import Verif.Props.ExcludeHigh
import Verif.Props.BaseScale
import Verif.Props.Influence

/-!
# C207: the size of the origins

Every origin multiplied by a number of its own: `a2a` (triangle.py:577-588), `a2a_avgs` (triangle.py:777-856), `base_cl`
(base.py:25-170), `mack_cl` with `alpha = 0` (mack.py:59-330).
-/

set_option linter.unusedSectionVars false

namespace Trikit

section
variable {K : Type} [Field K] [LinearOrder K] [IsStrictOrderedRing K]

/-! ## specification -/

/-- All amounts of the `i`-th origin multiplied by `a i`. -/
def Tri.scaleRows (a : ℕ → K) (t : Tri K) : Tri K := { t with cell := fun i j => .fin (a i) * t.cell i j }

/-- Same factors; amounts of the `i`-th origin multiplied by `a i`, totals are the sums of the new amounts. -/
structure Spec.OriginsScaled (a : ℕ → K) (r r' : BaseResult K) : Prop where
  ldfs : r'.ldfs = r.ldfs
  cldfs : r'.cldfs = r.cldfs
  rows : r'.rows = r.rows.mapIdx (fun i x => x.scale (a i))
  latest : r'.totLatest = Num.sumSkip (r'.rows.map SummRow.latest)
  ultimate : r'.totUltimate = Num.sumSkip (r'.rows.map SummRow.ultimate)
  reserve : r'.totReserve = Num.sumSkip (r'.rows.map SummRow.reserve)
  sqr : r'.sqr.tri = r.sqr.tri.scaleRows a
  sqr_ultimate : r'.sqr.ultimate = r.sqr.ultimate.mapIdx (fun i x => .fin (a i) * x)

/-! ## link ratios and averages -/

variable {a : ℕ → K}

theorem scaleRows_linkRatios (ha : ∀ i, 0 < a i) (t : Tri K) : (t.scaleRows a).linkRatios = t.linkRatios := by
  unfold Tri.linkRatios Tri.scaleRows
  simp only [Tri.mk.injEq, true_and]
  funext i j
  show (if j + 1 < t.nc then _ else _) / _ = _
  split
  · exact Num.pos_mul_div (ha i) _ _
  · simp

theorem scaleRows_a2a (ha : ∀ i, 0 < a i) (t : Tri K) : (t.scaleRows a).a2a = t.a2a := by
  unfold Tri.a2a
  rw [scaleRows_linkRatios ha]

theorem scaleRows_a2aind0 (ha : ∀ i, 0 < a i) (t : Tri K) : (t.scaleRows a).a2aind0 = t.a2aind0 := by
  unfold Tri.a2aind0
  rw [scaleRows_a2a ha]

/-- Two computations that fail alike. -/
def SameError {α β : Type} (x : Except PyErr α) (y : Except PyErr β) : Prop :=
  (∃ e, x = .error e ∧ y = .error e) ∨ ((∃ u, x = .ok u) ∧ ∃ v, y = .ok v)

theorem sameError_mapM {ι α β : Type} {f : ι → Except PyErr α} {g : ι → Except PyErr β} :
    ∀ {l : List ι}, (∀ i ∈ l, SameError (f i) (g i)) → SameError (l.mapM f) (l.mapM g)
  | [], _ => Or.inr ⟨⟨[], rfl⟩, ⟨[], rfl⟩⟩
  | i :: l, h => by
    rw [List.mapM_cons, List.mapM_cons]
    rcases h i (by simp) with ⟨e, h1, h2⟩ | ⟨⟨u, h1⟩, ⟨v, h2⟩⟩
    · rw [h1, h2]; exact Or.inl ⟨e, rfl, rfl⟩
    · rw [h1, h2]
      rcases sameError_mapM (l := l) (fun i hi => h i (by simp [hi])) with ⟨e, h3, h4⟩ | ⟨⟨u', h3⟩, ⟨v', h4⟩⟩
      · rw [h3, h4]; exact Or.inl ⟨e, rfl, rfl⟩
      · rw [h3, h4]; exact Or.inr ⟨⟨_, rfl⟩, ⟨_, rfl⟩⟩

theorem weightedAvg_sameError (ha : ∀ i, 0 < a i) (t : Tri K) (d j : ℕ) :
    SameError (weightedAvg (t.scaleRows a) d j) (weightedAvg t d j) := by
  have hcount : ((((t.scaleRows a).col (j + 1)).filter (fun v => !v.isNaN)).length) =
      (((t.col (j + 1)).filter (fun v => !v.isNaN)).length) := by
    unfold Tri.col Tri.scaleRows
    rw [List.filter_map, List.filter_map, List.length_map, List.length_map]
    congr 1
    apply List.filter_congr
    intro i _
    simp only [Function.comp_apply, Num.pos_mul_isNaN (ha i)]
  unfold weightedAvg
  simp only [hcount]
  have : (t.scaleRows a).nr = t.nr := rfl
  rw [this]
  split
  · exact Or.inl ⟨_, rfl, rfl⟩
  · exact Or.inr ⟨⟨_, rfl⟩, ⟨_, rfl⟩⟩

theorem sameError_refl {α : Type} (x : Except PyErr α) : SameError x x := by
  cases x with
  | error e => exact Or.inl ⟨e, rfl, rfl⟩
  | ok u => exact Or.inr ⟨⟨u, rfl⟩, ⟨u, rfl⟩⟩

theorem a2aAvgs_sameError (ha : ∀ i, 0 < a i) (gm : List (Num K) → Num K) (t ind : Tri K) :
    SameError (a2aAvgs gm (t.scaleRows a) ind) (a2aAvgs gm t ind) := by
  have hcell : ∀ adj k d j, SameError (avgCell gm (t.scaleRows a) adj k d j) (avgCell gm t adj k d j) := by
    intro adj k d j
    cases k <;> first | exact sameError_refl _ | exact weightedAvg_sameError ha t d j
  unfold a2aAvgs
  simp only [scaleRows_a2a ha]
  have := sameError_mapM (l := avgGrid t.a2a.nr)
    (f := fun p => do
      let vals ← (List.range (Tri.alignOp (· * ·) t.a2a ind).nc).mapM
        (fun j => avgCell gm (t.scaleRows a) (Tri.alignOp (· * ·) t.a2a ind) p.1 p.2 j)
      (pure (avgLabel p.1 p.2, vals) : Except PyErr (String × List (Num K))))
    (g := fun p => do
      let vals ← (List.range (Tri.alignOp (· * ·) t.a2a ind).nc).mapM
        (fun j => avgCell gm t (Tri.alignOp (· * ·) t.a2a ind) p.1 p.2 j)
      (pure (avgLabel p.1 p.2, vals) : Except PyErr (String × List (Num K))))
    (fun p _ => by
      rcases sameError_mapM (l := List.range (Tri.alignOp (· * ·) t.a2a ind).nc)
        (fun j _ => hcell (Tri.alignOp (· * ·) t.a2a ind) p.1 p.2 j) with ⟨e, h1, h2⟩ | ⟨⟨u, h1⟩, ⟨v, h2⟩⟩
      · beta_reduce; rw [h1, h2]; exact Or.inl ⟨e, rfl, rfl⟩
      · beta_reduce; rw [h1, h2]; exact Or.inr ⟨⟨_, rfl⟩, ⟨_, rfl⟩⟩)
  rcases this with ⟨e, h1, h2⟩ | ⟨⟨u, h1⟩, ⟨v, h2⟩⟩
  · rw [h1, h2]; exact Or.inl ⟨e, rfl, rfl⟩
  · rw [h1, h2]; exact Or.inr ⟨⟨_, rfl⟩, ⟨_, rfl⟩⟩

/-- **C207, averages.** For every triangle and every indicator: multiplying the origins by positive numbers of their own changes
no link ratio, no indicator and no simple, geometric or medial average; `a2a_avgs()` raises the same exception if any.
Missing: weighted averages (`C207_weighted_fails`). -/
theorem C207_averages_partial (ha : ∀ i, 0 < a i) (gm : List (Num K) → Num K) (t ind : Tri K) {kind : AvgKind}
    (hk : kind ≠ .weighted) {k : ℕ} (hk' : k = 0 ∨ k < t.a2a.nr) :
    (t.scaleRows a).a2a = t.a2a ∧ (t.scaleRows a).a2aind0 = t.a2aind0 ∧
    (a2aAvgs gm (t.scaleRows a) ind).map (fun tab => (tab.devs, tab.rows.lookup (Spec.avgName kind.name k))) =
      (a2aAvgs gm t ind).map (fun tab => (tab.devs, tab.rows.lookup (Spec.avgName kind.name k))) := by
  refine ⟨scaleRows_a2a ha t, scaleRows_a2aind0 ha t, ?_⟩
  rcases a2aAvgs_sameError ha gm t ind with ⟨e, h1, h2⟩ | ⟨⟨u, h1⟩, ⟨v, h2⟩⟩
  · rw [h1, h2]
  · rw [h1, h2]
    obtain ⟨d1, vals, l1, m1⟩ := a2aAvgs_lookup h1 (k := kind) (d := k) (by rw [scaleRows_a2a ha]; exact hk')
    obtain ⟨d2, vals', l2, m2⟩ := a2aAvgs_lookup h2 (k := kind) (d := k) hk'
    rw [scaleRows_a2a ha] at d1 m1
    have hent : avgEntry gm (t.scaleRows a) ind kind k = avgEntry gm t ind kind k := by
      funext j
      unfold avgEntry
      rw [scaleRows_a2a ha]
      cases kind <;> first | rfl | exact absurd rfl hk
    rw [hent, m2] at m1
    have := Except.ok.inj m1
    rw [avgName_eq] at l1 l2
    show Except.ok (u.devs, u.rows.lookup _) = Except.ok (v.devs, v.rows.lookup _)
    rw [d1, d2, l1, l2, this]

theorem ldfsByName_scaleRows (ha : ∀ i, 0 < a i) (gm : List (Num K) → Num K) (t ind : Tri K) {kind : AvgKind}
    (hk : kind ≠ .weighted) {k : ℕ} (hk' : k = 0 ∨ k < t.a2a.nr) (tail : Num K) :
    ldfsByName gm (t.scaleRows a) ind (Spec.avgName kind.name k) tail =
      ldfsByName gm t ind (Spec.avgName kind.name k) tail := by
  have h := (C207_averages_partial ha gm t ind hk hk').2.2
  unfold ldfsByName
  cases h1 : a2aAvgs gm (t.scaleRows a) ind with
  | error e =>
    cases h2 : a2aAvgs gm t ind with
    | error e' => rw [h1, h2] at h; cases h; rfl
    | ok v => rw [h1, h2] at h; cases h
  | ok u =>
    cases h2 : a2aAvgs gm t ind with
    | error e' => rw [h1, h2] at h; cases h
    | ok v =>
      rw [h1, h2] at h
      have e := Except.ok.inj h
      have e1 := congrArg Prod.fst e
      have e2 := congrArg Prod.snd e
      simp only at e1 e2
      show (match u.rows.lookup (Spec.avgName kind.name k) with
        | none => Except.error PyErr.keyError
        | some vals => _) = (match v.rows.lookup (Spec.avgName kind.name k) with
        | none => Except.error PyErr.keyError
        | some vals => _)
      rw [e1, e2]

/-! ## results -/

theorem scaleRows_triindAt (ha : ∀ i, 0 < a i) (t : Tri K) : (t.scaleRows a).triindAt = t.triindAt := by
  funext i j
  have : (t.scaleRows a).clvi j = t.clvi j := lastValid_congr_isNaN (fun i => Num.pos_mul_isNaN (ha i) _) _
  unfold Tri.triindAt
  rw [this]

theorem scaleRows_triind (ha : ∀ i, 0 < a i) (t : Tri K) : (t.scaleRows a).triind = t.triind := by
  have : ∀ j, (t.scaleRows a).clvi j = t.clvi j := fun j =>
    lastValid_congr_isNaN (fun i => Num.pos_mul_isNaN (ha i) _) _
  unfold Tri.triind
  simp only [this, scaleRows_triindAt ha]
  rfl

theorem scaleRows_maturity (ha : ∀ i, 0 < a i) (t : Tri K) : (t.scaleRows a).maturity = t.maturity := by
  unfold Tri.maturity
  rw [scaleRows_triind ha]
  rfl

theorem scaleRows_rlvi (ha : ∀ i, 0 < a i) (t : Tri K) (i : ℕ) : (t.scaleRows a).rlvi i = t.rlvi i :=
  lastValid_congr_isNaN (fun _ => Num.pos_mul_isNaN (ha i) _) _

/-- Latest value of an origin. -/
def latOf (t : Tri K) (i : ℕ) : Num K := match t.rlvi i with
  | some j => t.cell i j
  | none => .nan

theorem latOf_scaleRows (ha : ∀ i, 0 < a i) (t : Tri K) (i : ℕ) : latOf (t.scaleRows a) i = .fin (a i) * latOf t i := by
  unfold latOf
  rw [scaleRows_rlvi ha]
  cases t.rlvi i <;> rfl

theorem latestByOrigin_full {t : Tri K} (hrow : ∀ i < t.nr, t.rlvi i ≠ none) :
    t.latestByOrigin = (List.range t.nr).map (fun i => (t.oAt i, latOf t i)) := by
  unfold Tri.latestByOrigin Tri.latest
  rw [List.map_filterMap, ← List.filterMap_eq_map]
  apply List.filterMap_congr
  intro i hi
  have := hrow i (List.mem_range.1 hi)
  unfold latOf
  cases h : t.rlvi i with
  | none => exact absurd h this
  | some j => simp [h]

theorem sqrCell_scaleRows (ha : ∀ i, 0 < a i) (t : Tri K) (g : ℕ → Num K) (i j : ℕ) :
    sqrCell (t.scaleRows a) g i j = .fin (a i) * sqrCell t g i j := by
  induction j with
  | zero => rfl
  | succ j ih =>
    rw [sqrCell, sqrCell, scaleRows_triindAt ha]
    split
    · rw [ih, Num.pos_mul_assoc (ha i)]
    · rfl

theorem trisqrdOf_scaleRows (ha : ∀ i, 0 < a i) (t : Tri K) (l : Ser K) :
    trisqrdOf (t.scaleRows a) l = (trisqrdOf t l).map
      (fun s => { tri := s.tri.scaleRows a, ultimate := s.ultimate.mapIdx (fun i x => .fin (a i) * x) }) := by
  unfold trisqrdOf
  rw [scaleRows_triind ha]
  cases t.triind with
  | error e => rfl
  | ok ind =>
    show (if l.length < t.nc - 1 ∨ l = [] then _ else _) = Except.map _ (if l.length < t.nc - 1 ∨ l = [] then _ else _)
    split
    · rfl
    · show Except.ok _ = Except.ok _
      congr 1
      simp only [Sqr.mk.injEq]
      constructor
      · unfold Tri.scaleRows
        simp only [Tri.mk.injEq, true_and]
        funext i j
        exact sqrCell_scaleRows ha t _ i j
      · apply List.ext_getElem?
        intro i
        have : (t.scaleRows a).nr = t.nr := rfl
        rw [this, List.getElem?_mapIdx, List.getElem?_map, List.getElem?_map]
        by_cases hi : i < t.nr
        · rw [List.getElem?_range hi]
          show some (sqrCell (t.scaleRows a) _ i (t.nc - 1) * _) = _
          rw [sqrCell_scaleRows ha, Num.pos_mul_assoc (ha i)]
          rfl
        · rw [List.getElem?_eq_none (by simp; omega)]; rfl

theorem ultimatesOf_scaleRows (ha : ∀ i, 0 < a i) {t : Tri K} (hrow : ∀ i < t.nr, t.rlvi i ≠ none) (cl : Ser K) :
    ultimatesOf (t.scaleRows a) cl = (ultimatesOf t cl).map (List.mapIdx (fun i x => .fin (a i) * x)) := by
  have hrow' : ∀ i < (t.scaleRows a).nr, (t.scaleRows a).rlvi i ≠ none := fun i hi => by
    rw [scaleRows_rlvi ha]; exact hrow i hi
  unfold ultimatesOf
  rw [latestByOrigin_full hrow, latestByOrigin_full hrow']
  have hnr : (t.scaleRows a).nr = t.nr := rfl
  simp only [hnr, List.map_map, List.length_map, List.length_range]
  generalize (cl.map Prod.snd).reverse = b
  have hl : ∀ i, (Prod.snd ∘ fun i => ((t.scaleRows a).oAt i, latOf (t.scaleRows a) i)) i =
      Num.fin (a i) * latOf t i := fun i => latOf_scaleRows ha t i
  by_cases h1 : t.nr = b.length ∧ b.length = t.nr
  · rw [if_pos h1, if_pos h1]
    show Except.ok _ = Except.ok _
    congr 1
    apply List.ext_getElem?
    intro i
    rw [List.getElem?_mapIdx, List.getElem?_zipWith, List.getElem?_zipWith, List.getElem?_map, List.getElem?_map]
    by_cases hi : i < t.nr
    · rw [List.getElem?_range hi]
      cases b[i]? with
      | none => rfl
      | some y =>
        simp only [Option.map_some, hl]
        congr 1
        exact Num.pos_mul_assoc (ha i) _ _
    · rw [List.getElem?_eq_none (by simp; omega)]; rfl
  · rw [if_neg h1, if_neg h1]
    by_cases h2 : b.length = 1 ∧ True
    · rw [if_pos h2, if_pos h2]
      show Except.ok _ = Except.ok _
      congr 1
      apply List.ext_getElem?
      intro i
      rw [List.getElem?_mapIdx, List.getElem?_map, List.getElem?_map]
      by_cases hi : i < t.nr
      · rw [List.getElem?_range hi]
        simp only [Option.map_some, Function.comp_apply]
        congr 1
        rw [latOf_scaleRows ha]
        exact Num.pos_mul_assoc (ha i) _ _
      · rw [List.getElem?_eq_none (by simp; omega)]; rfl
    · rw [if_neg h2, if_neg h2]
      have h3 : ¬ (t.nr = 1 ∧ b.length = t.nr) := fun hh => h1 ⟨hh.2.symm, hh.2⟩
      rw [if_neg h3, if_neg h3]
      rfl

theorem latest_get {t : Tri K} (hrow : ∀ i < t.nr, t.rlvi i ≠ none) (hnd : t.origins.Nodup) {i : ℕ} (hi : i < t.nr) :
    Ser.get t.latestByOrigin (t.oAt i) = latOf t i := by
  have hget : ∀ q < t.nr, t.origins[q]? = some (t.oAt q) := fun q hq => by
    have hq' : q < t.origins.length := hq
    unfold Tri.oAt
    rw [List.getD_eq_getElem?_getD, List.getElem?_eq_getElem hq']
    rfl
  have e : t.latestByOrigin = t.origins.zip ((List.range t.nr).map (latOf t)) := by
    rw [latestByOrigin_full hrow]
    have : t.origins = (List.range t.nr).map t.oAt := by
      apply List.ext_getElem?
      intro q
      by_cases hq : q < t.nr
      · rw [hget q hq, List.getElem?_map, List.getElem?_range hq]; rfl
      · rw [List.getElem?_eq_none (by show t.nr ≤ q; omega), List.getElem?_eq_none (by simp; omega)]
    conv_rhs => rw [this]
    rw [List.zip_map']
  rw [e]
  exact Ser.get_zip hnd (k := i) (hget i hi) (by rw [List.getElem?_map, List.getElem?_range hi]; rfl)

theorem reserves_getD {t : Tri K} (hrow : ∀ i < t.nr, t.rlvi i ≠ none) (hnd : t.origins.Nodup) (u : List (Num K)) {i : ℕ}
    (hi : i < t.nr) : (reservesOf t u).getD i .nan = u.getD i .nan - latOf t i := by
  have hi' : i < t.origins.length := hi
  unfold reservesOf
  rw [List.getD_eq_getElem?_getD, List.getD_eq_getElem?_getD, List.getElem?_map]
  have ho : t.origins[i]? = some (t.oAt i) := by
    unfold Tri.oAt
    rw [List.getD_eq_getElem?_getD, List.getElem?_eq_getElem hi']
    rfl
  cases hu : u[i]? with
  | none =>
    have : (t.origins.zip u)[i]? = none := by
      rw [List.getElem?_eq_none_iff] at hu ⊢
      rw [List.length_zip]; omega
    rw [this]
    simp
  | some x =>
    have : (t.origins.zip u)[i]? = some (t.oAt i, x) := List.getElem?_zip_eq_some.2 ⟨ho, hu⟩
    rw [this]
    simp only [Option.map_some, Option.getD_some]
    rw [latest_get hrow hnd hi]

theorem baseFromLdfs_scaleRows (ha : ∀ i, 0 < a i) {t : Tri K} (hrow : ∀ i < t.nr, t.rlvi i ≠ none)
    (hnd : t.origins.Nodup) (l : Ser K) :
    (∃ e, baseFromLdfs (t.scaleRows a) l = .error e ∧ baseFromLdfs t l = .error e) ∨
    ∃ r r', baseFromLdfs t l = .ok r ∧ baseFromLdfs (t.scaleRows a) l = .ok r' ∧ Spec.OriginsScaled a r r' := by
  have hrow' : ∀ i < (t.scaleRows a).nr, (t.scaleRows a).rlvi i ≠ none := fun i hi => by
    rw [scaleRows_rlvi ha]; exact hrow i hi
  have hnd' : (t.scaleRows a).origins.Nodup := hnd
  unfold baseFromLdfs
  simp only [ultimatesOf_scaleRows ha hrow, scaleRows_maturity ha, trisqrdOf_scaleRows ha]
  cases ultimatesOf t (cldfsOf l) with
  | error e => exact Or.inl ⟨e, rfl, rfl⟩
  | ok u =>
    cases t.maturity with
    | error e => exact Or.inl ⟨e, rfl, rfl⟩
    | ok m =>
      cases trisqrdOf t l with
      | error e => exact Or.inl ⟨e, rfl, rfl⟩
      | ok s =>
        refine Or.inr ⟨_, _, rfl, rfl, ⟨rfl, rfl, ?_, rfl, rfl, rfl, rfl, rfl⟩⟩
        apply List.ext_getElem?
        intro i
        have hnr : (t.scaleRows a).nr = t.nr := rfl
        simp only [hnr]
        rw [List.getElem?_mapIdx, List.getElem?_map, List.getElem?_map]
        by_cases hi : i < t.nr
        · rw [List.getElem?_range hi]
          simp only [Option.map_some]
          congr 1
          rw [latest_get hrow' hnd' hi, latest_get hrow hnd hi, reserves_getD hrow' hnd' _ hi, reserves_getD hrow hnd _ hi,
            latOf_scaleRows ha]
          have hu : (u.mapIdx (fun i x => Num.fin (a i) * x)).getD i .nan = .fin (a i) * u.getD i .nan := by
            rw [List.getD_eq_getElem?_getD, List.getD_eq_getElem?_getD, List.getElem?_mapIdx]
            cases u[i]? <;> simp
          rw [hu, ← Num.pos_mul_sub (ha i)]
          rfl
        · rw [List.getElem?_eq_none (by simp; omega)]; rfl

/-- **C207, `base_cl`.** For every triangle with distinct origins that all have an amount, every indicator, every simple, geometric
or medial average of the table and every tail: when the origins are multiplied by positive numbers of their own, `base_cl`
raises the same exception, or returns the same factors with the latest value, ultimate, reserve and squared triangle of every
origin multiplied by its number.  Missing: weighted averages (`C207_weighted_fails`). -/
theorem C207_partial (ha : ∀ i, 0 < a i) (gm : List (Num K) → Num K) {t : Tri K} (hrow : ∀ i < t.nr, t.rlvi i ≠ none)
    (hnd : t.origins.Nodup) (ind : Tri K) {kind : AvgKind} (hk : kind ≠ .weighted) {k : ℕ} (hk' : k = 0 ∨ k < t.a2a.nr)
    (tail : Num K) :
    (∃ e, baseCL gm (t.scaleRows a) ind (Spec.avgName kind.name k) tail = .error e ∧
      baseCL gm t ind (Spec.avgName kind.name k) tail = .error e) ∨
    ∃ r r', baseCL gm t ind (Spec.avgName kind.name k) tail = .ok r ∧
      baseCL gm (t.scaleRows a) ind (Spec.avgName kind.name k) tail = .ok r' ∧ Spec.OriginsScaled a r r' := by
  unfold baseCL
  rw [ldfsByName_scaleRows ha gm t ind hk hk' tail]
  cases ldfsByName gm t ind (Spec.avgName kind.name k) tail with
  | error e => exact Or.inl ⟨e, rfl, rfl⟩
  | ok l => exact baseFromLdfs_scaleRows ha hrow hnd l

/-! ## Mack with `alpha = 0` -/

variable {t t' : Tri K} {n : ℕ} {c w : ℕ → ℕ → K}

theorem ratio_rows (ha : ∀ i, 0 < a i) (i j : ℕ) : a i * c i (j + 1) / (a i * c i j) = c i (j + 1) / c i j :=
  mul_div_mul_left _ _ (ha i).ne'

theorem mackF_rows (ha : ∀ i, 0 < a i) : Spec.mackF 0 n (fun i j => a i * c i j) w = Spec.mackF 0 n c w := by
  funext j
  unfold Spec.mackF Spec.mackW
  simp only [pow_zero, ratio_rows ha]

theorem mackW_rows : Spec.mackW 0 n (fun i j => a i * c i j) w = Spec.mackW 0 n c w := by
  funext j
  unfold Spec.mackW
  simp only [pow_zero]

theorem sig0_rows (ha : ∀ i, 0 < a i) : Spec.sig0 0 n (fun i j => a i * c i j) w = Spec.sig0 0 n c w := by
  funext j
  unfold Spec.sig0 Spec.sqDev
  simp only [pow_zero, ratio_rows ha, mackF_rows ha]

theorem sigma2_rows (ha : ∀ i, 0 < a i) : Spec.sigma2 0 n (fun i j => a i * c i j) w = Spec.sigma2 0 n c w := by
  funext j
  unfold Spec.sigma2
  rw [sig0_rows ha]

theorem ldfVar_rows (ha : ∀ i, 0 < a i) : Spec.ldfVar 0 n (fun i j => a i * c i j) w = Spec.ldfVar 0 n c w := by
  funext j
  unfold Spec.ldfVar
  rw [sigma2_rows ha, mackW_rows]

theorem degenerate_rows (ha : ∀ i, 0 < a i) :
    Spec.Degenerate 0 n (fun i j => a i * c i j) w ↔ Spec.Degenerate 0 n c w := by
  unfold Spec.Degenerate
  rw [sig0_rows ha]

theorem ult_rows (f : ℕ → K) (i : ℕ) : Spec.ult n (fun i j => a i * c i j) f i = a i * Spec.ult n c f i := by
  unfold Spec.ult Spec.proj
  ring

theorem storedVar_rows (ha : ∀ i, 0 < a i) (j : ℕ) : storedVar 0 n (fun i j => a i * c i j) w j = storedVar 0 n c w j := by
  unfold storedVar
  rw [sig0_rows ha]

theorem paramVar_rows (f v : ℕ → K) (i : ℕ) :
    Spec.paramVar n (fun i j => a i * c i j) f v i = a i ^ 2 * Spec.paramVar n c f v i := by
  unfold Spec.paramVar
  ring

theorem procVar_rows (f s : ℕ → K) (i : ℕ) :
    Spec.procVar n (fun i j => a i * c i j) f s i = a i * Spec.procVar n c f s i := by
  unfold Spec.procVar Spec.proj
  rw [Finset.mul_sum]
  exact Finset.sum_congr rfl fun k _ => by ring

/-- **C207, `mack_cl` with `alpha = 0`.** On positive staircases with at least four periods and any exclusion weights: when the
origins are multiplied by positive numbers of their own, factors, variances and factor variances stay, ultimates and
reserves are multiplied by the number of the origin, parameter errors by its square and process errors by the number
(the square would be right for `alpha = 0`, see C94). -/
theorem C207_mack_partial (ha : ∀ i, 0 < a i) (h : Spec.Stair t n c) (h' : Spec.Stair t' n (fun i j => a i * c i j))
    (hp : Spec.Positive n c) (hn : 4 ≤ n) {ind ind' : Tri K} (hi : IndW t ind n w) (hi' : IndW t' ind' n w)
    (hw : Spec.Weights n w) :
    ∃ r r', mackCore 0 t ind = .ok r ∧ mackCore 0 t' ind' = .ok r' ∧
      r'.ldfs.map Prod.snd = r.ldfs.map Prod.snd ∧ r'.devpvar.map Prod.snd = r.devpvar.map Prod.snd ∧
      r'.ldfvar.map Prod.snd = r.ldfvar.map Prod.snd ∧
      (∀ i < n, ∃ row row' u v p q, r.rows[i]? = some row ∧ r'.rows[i]? = some row' ∧
        row.ultimate = .fin u ∧ row'.ultimate = .fin (a i * u) ∧ row.reserve = .fin v ∧ row'.reserve = .fin (a i * v) ∧
        r.paramErr[i]? = some (.fin p) ∧ r'.paramErr[i]? = some (.fin (a i ^ 2 * p)) ∧
        r.procErr[i]? = some (.fin q) ∧ r'.procErr[i]? = some (.fin (a i * q))) := by
  have hp' : Spec.Positive n (fun i j => a i * c i j) := fun i j hij => mul_pos (ha i) (hp i j hij)
  obtain ⟨r, b, lab, a1, a2⟩ := mack_parts h hp hi hw hn 0
  obtain ⟨r', b', lab', b1, b2⟩ := mack_parts h' hp' hi' hw hn 0
  obtain ⟨r₀, c1, c2, _, c4, c5⟩ := mack_ults h hp hi hw hn 0
  obtain ⟨r₀', d1, d2, _, d4, d5⟩ := mack_ults h' hp' hi' hw hn 0
  rw [a1] at c1
  rw [b1] at d1
  obtain rfl := Except.ok.inj c1
  obtain rfl := Except.ok.inj d1
  refine ⟨r, r', a1, b1, ?_, ?_, ?_, ?_⟩
  · rw [a2.factors, b2.factors, mackSer_snd h (by omega) lab _, mackSer_snd h' (by omega) lab' _]
    unfold Spec.mackAll
    rw [mackF_rows ha]
  · rw [a2.devpvar, b2.devpvar, List.map_map, List.map_map]
    exact List.map_congr_left fun j _ => storedVar_rows ha j
  · rw [a2.ldfvar, b2.ldfvar, List.map_map, List.map_map]
    apply List.map_congr_left
    intro j _
    show storedVar _ _ _ _ _ / _ = storedVar _ _ _ _ _ / _
    rw [storedVar_rows ha, mackW_rows]
  · intro i hin
    obtain ⟨row, x1, _, x2, x3⟩ := c2 i hin
    obtain ⟨row', y1, _, y2, y3⟩ := d2 i hin
    rw [mackF_rows ha, ult_rows] at y2 y3
    rw [← mul_sub] at y3
    by_cases hd : Spec.Degenerate 0 n c w
    · obtain ⟨_, e1, e2⟩ := c4 hd
      obtain ⟨_, f1, f2⟩ := d4 ((degenerate_rows ha).2 hd)
      refine ⟨row, row', _, _, 0, 0, x1, y1, x2, y2, x3, y3, ?_, ?_, ?_, ?_⟩
      · rw [e2, List.getElem?_map, List.getElem?_range hin]; rfl
      · rw [f2, List.getElem?_map, List.getElem?_range hin, mul_zero]; rfl
      · rw [e1, List.getElem?_map, List.getElem?_range hin]; rfl
      · rw [f1, List.getElem?_map, List.getElem?_range hin, mul_zero]; rfl
    · obtain ⟨_, e1, e2⟩ := c5 hd
      obtain ⟨_, f1, f2⟩ := d5 (fun hh => hd ((degenerate_rows ha).1 hh))
      rw [mackF_rows ha, sigma2_rows ha] at f1
      rw [mackF_rows ha, ldfVar_rows ha] at f2
      refine ⟨row, row', _, _, Spec.paramVar n c (Spec.mackF 0 n c w) (Spec.ldfVar 0 n c w) i,
        Spec.procVar n c (Spec.mackF 0 n c w) (Spec.sigma2 0 n c w) i, x1, y1, x2, y2, x3, y3, ?_, ?_, ?_, ?_⟩
      · rw [e2, List.getElem?_map, List.getElem?_range hin]; rfl
      · rw [f2, List.getElem?_map, List.getElem?_range hin]
        simp only [Option.map_some, paramVar_rows]
      · rw [e1, List.getElem?_map, List.getElem?_range hin]; rfl
      · rw [f1, List.getElem?_map, List.getElem?_range hin]
        simp only [Option.map_some, procVar_rows]

end

/-! ## what fails, and an example -/

/-- Link ratios 2 and 1 of the first period. -/
def exSize : ℕ → ℕ → ℚ := fun i j => if j = 0 then 100 else if i = 0 then 200 else 100

/-- **C207 is false of the code** for weighted averages (and so for `mack_cl` with `alpha = 1`): with the oldest origin three times
as large the first factor rises from 3/2 to 7/4 and the ultimate of the youngest origin, whose amounts are the same, from 150
to 175. -/
theorem C207_weighted_fails :
    ((baseCL (fun _ => .nan) (stairTri 3 exSize) (stairTri 3 exSize).a2aind0 "all-weighted" 1).map
        (fun r => (r.ldfs.map Prod.snd, r.rows.map SummRow.ultimate))).toOption =
      some ([.fin (3 / 2), .fin 1, .fin 1], [.fin 200, .fin 100, .fin 150]) ∧
    ((baseCL (fun _ => .nan) ((stairTri 3 exSize).scaleRows (fun i => if i = 0 then 3 else 1))
        (stairTri 3 exSize).a2aind0 "all-weighted" 1).map
        (fun r => (r.ldfs.map Prod.snd, r.rows.map SummRow.ultimate))).toOption =
      some ([.fin (7 / 4), .fin 1, .fin 1], [.fin 600, .fin 100, .fin 175]) := by
  constructor <;> decide +kernel

/-- The simple average and the other ultimates stay. -/
example :
    ((baseCL (fun _ => .nan) ((stairTri 3 exSize).scaleRows (fun i => if i = 0 then 3 else 1))
        (stairTri 3 exSize).a2aind0 "all-simple" 1).map
        (fun r => (r.ldfs.map Prod.snd, r.rows.map SummRow.ultimate))).toOption =
      some ([.fin (3 / 2), .fin 1, .fin 1], [.fin 600, .fin 100, .fin 150]) := by
  decide +kernel

end Trikit
