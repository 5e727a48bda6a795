import Verif.Props.BootSumm

/-! # One reserve per origin and simulation, for every triangle and all draws (C89) -/

set_option linter.unusedSectionVars false

namespace Trikit

section
variable {K : Type} [Field K] [LinearOrder K] [IsStrictOrderedRing K]
variable {t m : Tri K}

/-! ### keys survive every step -/

def SampRow.key (r : SampRow K) : ℕ × Int × Int := (r.sim, r.origin, r.dev)
def FcRow.key (r : FcRow K) : ℕ × Int × Int := (r.sim, r.origin, r.dev)
def SqrdRow.key (r : SqrdRow K) : ℕ × Int × Int := (r.sim, r.origin, r.dev)
def CombRow.key (r : CombRow K) : ℕ × Int × Int := r.samp.key

theorem zipWith_map_left {α β γ δ : Type} {f : α → β → γ} {g : γ → δ} {h : α → δ} (hf : ∀ a b, g (f a b) = h a) :
    ∀ {l : List α} {l' : List β}, l.length ≤ l'.length → (List.zipWith f l l').map g = l.map h := by
  intro l
  induction l with
  | nil => intro l' _; rfl
  | cons a l ih =>
    intro l' hl
    cases l' with
    | nil => simp at hl
    | cons b l' =>
      simp only [List.length_cons, Nat.add_le_add_iff_right] at hl
      rw [List.zipWith_cons_cons, List.map_cons, List.map_cons, hf, ih hl]

theorem bsSamples_keys (sq : Num K → Num K) (m : Tri K) (S : ℕ) (draw : ℕ → Num K) :
    (bsSamples sq m S draw).map SampRow.key = (List.range S).flatMap (fun s => (List.range m.nr).flatMap (fun i =>
      (List.range m.nc).map (fun j => (s, m.oAt i, m.dAt j)))) := by
  unfold bsSamples
  dsimp only
  refine (zipWith_map_left (h := SampRow.key) (fun _ _ => ?_) (groupTransform_length _ _ _).ge).trans ?_
  · rfl
  unfold sampRows
  simp only [List.map_flatMap, List.map_map]
  rfl

theorem fcstRows_keys (fc : List (CombRow K × ℕ)) : (fcstRows fc).map FcRow.key = fc.map (fun p => p.1.key) := by
  unfold fcstRows
  dsimp only
  refine zipWith_map_left (h := fun p : CombRow K × ℕ => p.1.key) (fun _ _ => ?_) ?_
  · rfl
  rw [List.length_zip, List.length_map, shift1_length, groupTransform_length, groupTransform_length, Nat.min_self]

theorem mergeBack_keys (p : CombRow K × ℕ → Bool) : ∀ (l : List (CombRow K × ℕ)) (new : List (FcRow K)),
    new.map FcRow.key = (l.filter p).map (fun q => q.1.key) →
    (mergeBack p l new).map FcRow.key = l.map (fun q => q.1.key) := by
  intro l
  induction l with
  | nil => intro new _; rfl
  | cons r l ih =>
    intro new h
    unfold mergeBack
    by_cases hp : p r = true
    · rw [List.filter_cons_of_pos hp, List.map_cons] at h
      rw [if_pos hp]
      cases new with
      | nil => cases h
      | cons v vs =>
        rw [List.map_cons, List.cons.injEq] at h
        dsimp only
        rw [List.map_cons, List.map_cons, ih vs h.2, h.1]
    · rw [List.filter_cons_of_neg hp] at h
      rw [if_neg hp, List.map_cons, List.map_cons, ih new h]
      rfl

theorem bsForecasts_keys (t : Tri K) (samples : List (SampRow K)) (ldfs : List (LdfRow K)) :
    (bsForecasts t samples ldfs).map SqrdRow.key = (bsCombined t samples ldfs).map CombRow.key := by
  unfold bsForecasts
  dsimp only
  refine (zipWith_map_left (h := FcRow.key) (fun _ _ => ?_) (groupTransform_length _ _ _).ge).trans ?_
  · rfl
  rw [mergeBack_keys _ _ _ (fcstRows_keys _)]
  rw [show (fun q : CombRow K × ℕ => q.1.key) = CombRow.key ∘ Prod.fst from rfl, ← List.map_map, List.zipIdx_map_fst]

theorem bsProcess_keys (scale : Num K) (gam : ℕ → Num K → Num K → Num K) (rows : List (SqrdRow K)) :
    (bsProcess scale gam rows).map (fun r => r.base.key) = rows.map SqrdRow.key := by
  unfold bsProcess
  dsimp only
  refine (zipWith_map_left (h := fun p : SqrdRow K × Num K => p.1.key) (fun _ _ => ?_)
    (groupTransform_length _ _ _).ge).trans ?_
  · rfl
  rw [List.map_map]
  conv_rhs => rw [← List.zipIdx_map_fst 0 rows, List.map_map]
  rfl

/-! ### at most one factor for the last development label -/

/-- Order of the groups: simulation, then development label. -/
def aggLt (a b : AggRow K) : Prop := a.sim < b.sim ∨ (a.sim = b.sim ∧ a.dev < b.dev)

theorem aggRows_sorted (hD : t.devs.Pairwise (· < ·)) (S : ℕ) (samples : List (SampRow K)) :
    (aggRows t S samples).Pairwise aggLt := by
  unfold aggRows
  rw [List.pairwise_flatMap]
  constructor
  · intro s _
    rw [List.pairwise_filterMap]
    refine hD.imp ?_
    intro a b hab x hx y hy
    dsimp only at hx hy
    split at hx
    · cases hx
    · split at hy
      · cases hy
      · cases hx; cases hy
        exact Or.inr ⟨rfl, hab⟩
  · refine (List.pairwise_lt_range).imp ?_
    intro a b hab x hx y hy
    rw [List.mem_filterMap] at hx hy
    obtain ⟨d, -, hx⟩ := hx
    obtain ⟨e, -, hy⟩ := hy
    dsimp only at hx hy
    split at hx
    · cases hx
    · split at hy
      · cases hy
      · cases hx; cases hy
        exact Or.inl hab

theorem aggRows_dev (S : ℕ) (samples : List (SampRow K)) : ∀ r ∈ aggRows t S samples, r.dev ∈ t.devs := by
  intro r hr
  unfold aggRows at hr
  rw [List.mem_flatMap] at hr
  obtain ⟨s, -, hr⟩ := hr
  rw [List.mem_filterMap] at hr
  obtain ⟨d, hd, hr⟩ := hr
  dsimp only at hr
  split at hr
  · cases hr
  · cases hr; exact hd

/-- The pair of a group with its predecessor gives a factor of simulation `s` for label `d`. -/
def hitPair (s : ℕ) (d : Int) (p : AggRow K × Option (AggRow K)) : Bool :=
  decide (p.1.sim = s) && (match p.2 with | some q => decide (q.dev = d) | none => false)

theorem pairs_none {s : ℕ} {d : Int} : ∀ {l : List (AggRow K)} {b : AggRow K}, (b :: l).Pairwise aggLt →
    (∀ r ∈ b :: l, r.dev ≤ d) → s ≤ b.sim → (pairsFrom (some b) l).filter (hitPair s d) = [] := by
  intro l
  induction l with
  | nil => intro b _ _ _; rfl
  | cons a l ih =>
    intro b hs hd hb
    have hab : aggLt b a := (List.pairwise_cons.1 hs).1 a (by simp)
    have hle : s ≤ a.sim := by rcases hab with h | h <;> omega
    show List.filter _ ((a, some b) :: pairsFrom (some a) l) = []
    rw [List.filter_cons_of_neg, ih (List.pairwise_cons.1 hs).2 (fun r hr => hd r (by simp [List.mem_cons.1 hr])) hle]
    intro h
    simp only [hitPair, Bool.and_eq_true, decide_eq_true_eq] at h
    have := hd a (by simp)
    rcases hab with h' | h' <;> omega

theorem pairs_one {s : ℕ} {d : Int} : ∀ {l : List (AggRow K)} (p : Option (AggRow K)), l.Pairwise aggLt →
    (∀ r ∈ l, r.dev ≤ d) → ((pairsFrom p l).filter (hitPair s d)).length ≤ 1 := by
  intro l
  induction l with
  | nil => intro p _ _; simp [pairsFrom]
  | cons a l ih =>
    intro p hs hd
    show (List.filter _ ((a, p) :: pairsFrom (some a) l)).length ≤ 1
    by_cases h : hitPair s d (a, p) = true
    · rw [List.filter_cons_of_pos h, pairs_none hs hd]
      · simp
      · simp only [hitPair, Bool.and_eq_true, decide_eq_true_eq] at h
        exact h.1.ge
    · rw [List.filter_cons_of_neg h]
      exact ih _ (List.pairwise_cons.1 hs).2 (fun r hr => hd r (by simp [hr]))

theorem filterMap_filter_length {α β : Type} {f : α → Option β} {p : β → Bool} {q : α → Bool}
    (h : ∀ a b, f a = some b → p b = true → q a = true) : ∀ l : List α,
    ((l.filterMap f).filter p).length ≤ (l.filter q).length := by
  intro l
  induction l with
  | nil => simp
  | cons a l ih =>
    cases hf : f a with
    | none =>
      rw [List.filterMap_cons_none hf]
      refine ih.trans ?_
      rw [List.filter_cons]
      split <;> simp
    | some b =>
      rw [List.filterMap_cons_some hf]
      by_cases hp : p b = true
      · rw [List.filter_cons_of_pos hp, List.filter_cons_of_pos (h a b hf hp)]
        simpa using ih
      · rw [List.filter_cons_of_neg hp]
        refine ih.trans ?_
        rw [List.filter_cons]
        split <;> simp

theorem bsLdfs_last (hD : t.devs.Pairwise (· < ·)) (S : ℕ) (samples : List (SampRow K)) {d : Int}
    (hd : ∀ e ∈ t.devs, e ≤ d) (s : ℕ) :
    ((bsLdfs t S samples).filter (fun l => decide (l.sim = s ∧ l.dev = d))).length ≤ 1 := by
  refine le_trans ?_ (pairs_one (s := s) (d := d) none (aggRows_sorted hD S samples)
    (fun r hr => hd _ (aggRows_dev S samples r hr)))
  unfold bsLdfs shift1
  dsimp only
  rw [zip_shift]
  refine filterMap_filter_length ?_ _
  rintro ⟨a, q⟩ b hf hp
  cases q with
  | none => cases hf
  | some q =>
    dsimp only at hf
    split at hf
    · cases hf
    · cases hf
      simpa [hitPair] using hp

/-- The rows a sample row gives when the factors are attached. -/
def combOf (t : Tri K) (ldfs : List (LdfRow K)) (r : SampRow K) : List (CombRow K) :=
  let la := ((List.range t.nr).find? (fun i => t.oAt i = r.origin)).bind (fun i => (t.rlvi i).map t.dAt)
  match ldfs.filter (fun l => l.sim = r.sim ∧ l.dev = r.dev) with
  | [] => [{ samp := r, ldf := .nan, lactDev := la }]
  | ms => ms.map (fun l => { samp := r, ldf := l.ldf, lactDev := la })

theorem bsCombined_eq (samples : List (SampRow K)) (ldfs : List (LdfRow K)) :
    bsCombined t samples ldfs = samples.flatMap (combOf t ldfs) := rfl

theorem combOf_key {ldfs : List (LdfRow K)} {r : SampRow K} : ∀ x ∈ combOf t ldfs r, x.key = r.key := by
  intro x hx
  unfold combOf at hx
  dsimp only at hx
  split at hx
  · rw [List.mem_singleton] at hx; rw [hx]; rfl
  · obtain ⟨l, -, rfl⟩ := List.mem_map.1 hx; rfl

theorem combOf_one {ldfs : List (LdfRow K)} {r : SampRow K}
    (h : (ldfs.filter (fun l => decide (l.sim = r.sim ∧ l.dev = r.dev))).length ≤ 1) :
    (combOf t ldfs r).map CombRow.key = [r.key] := by
  unfold combOf
  dsimp only
  generalize ldfs.filter (fun l => decide (l.sim = r.sim ∧ l.dev = r.dev)) = ms at h
  rcases ms with - | ⟨l, - | ⟨l', ms⟩⟩
  · rfl
  · rfl
  · simp at h

theorem bsCombined_mem {samples : List (SampRow K)} {ldfs : List (LdfRow K)} :
    ∀ k ∈ (bsCombined t samples ldfs).map CombRow.key, k ∈ samples.map SampRow.key := by
  intro k hk
  obtain ⟨x, hx, rfl⟩ := List.mem_map.1 hk
  rw [bsCombined_eq, List.mem_flatMap] at hx
  obtain ⟨r, hr, hx⟩ := hx
  rw [combOf_key x hx]
  exact List.mem_map_of_mem hr

theorem bsCombined_last {samples : List (SampRow K)} {ldfs : List (LdfRow K)} {d : Int}
    (h : ∀ s, (ldfs.filter (fun l => decide (l.sim = s ∧ l.dev = d))).length ≤ 1) :
    ((bsCombined t samples ldfs).map CombRow.key).filter (fun k => decide (k.2.2 = d)) =
      (samples.map SampRow.key).filter (fun k => decide (k.2.2 = d)) := by
  rw [bsCombined_eq]
  induction samples with
  | nil => rfl
  | cons r l ih =>
    rw [List.flatMap_cons, List.map_append, List.filter_append, ih, List.map_cons]
    by_cases hk : r.dev = d
    · rw [combOf_one (by rw [hk]; exact h r.sim), ← List.filter_append]
      rfl
    · have hk0 : ¬ decide (r.key.2.2 = d) = true := fun e => hk (of_decide_eq_true e)
      rw [List.filter_cons_of_neg (p := fun k : ℕ × Int × Int => decide (k.2.2 = d)) hk0, List.filter_eq_nil_iff.2, List.nil_append]
      intro k hk'
      obtain ⟨x, hx, rfl⟩ := List.mem_map.1 hk'
      rw [combOf_key x hx]
      exact hk0

/-! ### one reserve per simulation and origin -/

/-- The pairs of a simulation and an origin. -/
def simGrid (t : Tri K) (S : ℕ) : List (ℕ × Int) :=
  (List.range S).flatMap (fun s => (List.range t.nr).map (fun i => (s, t.oAt i)))

theorem origins_map (t : Tri K) : (List.range t.nr).map t.oAt = t.origins := by
  apply List.ext_getElem
  · simp [Tri.nr]
  · intro i h1 h2
    simp [Tri.oAt, List.getD_eq_getElem?_getD, List.getElem?_eq_getElem h2]

theorem devs_map (t : Tri K) : (List.range t.nc).map t.dAt = t.devs := by
  apply List.ext_getElem
  · simp [Tri.nc]
  · intro i h1 h2
    simp [Tri.dAt, List.getD_eq_getElem?_getD, List.getElem?_eq_getElem h2]

theorem simGrid_eq (t : Tri K) (S : ℕ) :
    simGrid t S = (List.range S).flatMap (fun s => t.origins.map (fun o => (s, o))) := by
  unfold simGrid
  congr 1
  funext s
  rw [← origins_map t, List.map_map]
  rfl

theorem simGrid_nodup (hO : t.origins.Nodup) (S : ℕ) : (simGrid t S).Nodup := by
  rw [simGrid_eq]
  unfold List.Nodup
  rw [List.pairwise_flatMap]
  constructor
  · intro s _
    rw [List.pairwise_map]
    exact hO.imp (fun hab h => hab (Prod.mk.inj h).2)
  · refine (List.pairwise_lt_range).imp ?_
    intro a b hab x hx y hy e
    obtain ⟨o, -, rfl⟩ := List.mem_map.1 hx
    obtain ⟨o', -, rfl⟩ := List.mem_map.1 hy
    have := (Prod.mk.inj e).1
    omega

theorem filter_eq_single {α : Type} [DecidableEq α] {l : List α} (h : l.Nodup) {a : α} (ha : a ∈ l) :
    l.filter (fun b => decide (b = a)) = [a] := by
  induction l with
  | nil => cases ha
  | cons x l ih =>
    rw [List.nodup_cons] at h
    by_cases e : x = a
    · subst e
      rw [List.filter_cons_of_pos (by simp), List.filter_eq_nil_iff.2]
      intro b hb hb'
      rw [decide_eq_true_eq] at hb'
      exact h.1 (hb' ▸ hb)
    · rw [List.filter_cons_of_neg (by simpa using e), ih h.2]
      rcases List.mem_cons.1 ha with h' | h'
      · exact absurd h'.symm e
      · exact h'

theorem sampKeys_last (t : Tri K) (S : ℕ) {d : Int} (hD : t.devs.Nodup) (hd : d ∈ t.devs) :
    ((List.range S).flatMap (fun s => (List.range t.nr).flatMap (fun i =>
      (List.range t.nc).map (fun j => (s, t.oAt i, t.dAt j))))).filter (fun k => decide (k.2.2 = d)) =
      (simGrid t S).map (fun k => (k.1, k.2, d)) := by
  have h : ∀ (s : ℕ) (o : Int), ((List.range t.nc).map (fun j => (s, o, t.dAt j))).filter
      (fun k => decide (k.2.2 = d)) = [(s, o, d)] := by
    intro s o
    have e : (List.range t.nc).map (fun j => (s, o, t.dAt j)) = t.devs.map (fun e => (s, o, e)) := by
      conv_rhs => rw [← devs_map t, List.map_map]
      rfl
    rw [e, List.filter_map, show ((fun k : ℕ × Int × Int => decide (k.2.2 = d)) ∘ fun e => (s, o, e)) =
      fun e => decide (e = d) from rfl, filter_eq_single hD hd]
    rfl
  unfold simGrid
  simp only [List.filter_flatMap, List.map_flatMap, List.map_map, h]
  congr 1
  funext s
  rw [← List.map_eq_flatMap]
  rfl

def ResRow.key (r : ResRow K) : ℕ × Int := (r.sim, r.origin)

theorem bsReserves_keys {rows : List (ProcRow K)} {G : List (ℕ × Int)} {d : Int} (hG : G.Nodup)
    (hle : ∀ r ∈ rows, r.base.dev ≤ d) (hne : rows ≠ [] → G ≠ [])
    (hk : (rows.map (fun r => r.base.key)).filter (fun k => decide (k.2.2 = d)) = G.map (fun k => (k.1, k.2, d))) :
    ((bsReserves rows).map ResRow.key).Perm G := by
  have hmax : rows.filter (fun r => decide (some r.base.dev = (rows.map (fun r => r.base.dev)).max?)) =
      rows.filter (fun r => decide (r.base.dev = d)) := by
    by_cases h0 : rows = []
    · rw [h0]; rfl
    have hm : (rows.map (fun r => r.base.dev)).max? = some d := by
      rw [List.max?_eq_some_iff]
      refine ⟨?_, ?_⟩
      · obtain ⟨k, hk'⟩ := List.exists_mem_of_ne_nil _ (hne h0)
        have hm := List.mem_map_of_mem (f := fun k : ℕ × Int => (k.1, k.2, d)) hk'
        rw [← hk, List.mem_filter, List.mem_map] at hm
        obtain ⟨⟨r, hr, he⟩, -⟩ := hm
        rw [List.mem_map]
        exact ⟨r, hr, (Prod.mk.inj (Prod.mk.inj he).2).2⟩
      · intro b hb
        obtain ⟨r, hr, rfl⟩ := List.mem_map.1 hb
        exact hle r hr
    rw [hm]
    simp only [Option.some_inj]
  have hsel : (rows.filter (fun r => decide (r.base.dev = d))).map (fun r => (r.base.sim, r.base.origin)) = G := by
    have e := congrArg (List.map (fun k : ℕ × Int × Int => (k.1, k.2.1))) hk
    rw [List.filter_map, List.map_map, List.map_map] at e
    refine Eq.trans ?_ (e.trans ?_)
    · rfl
    · conv_rhs => rw [← List.map_id G]
      rfl
  unfold bsReserves
  dsimp only
  rw [hmax]
  rw [dropDups_nodup]
  · refine ((sortRes_perm _).map _).trans (List.Perm.of_eq ?_)
    rw [List.map_map, List.map_map]
    exact hsel
  · refine List.Nodup.of_map ResRow.key ?_
    rw [List.map_map]
    exact hsel ▸ hG

theorem nanToNum_fin (x : Num K) : ∃ y : K, nanToNum x = .fin y := by
  cases x
  · exact ⟨0, rfl⟩
  · exact ⟨_, rfl⟩
  · exact ⟨_, rfl⟩
  · exact ⟨_, rfl⟩

theorem bsReserves_fin (rows : List (ProcRow K)) : ∀ q ∈ bsReserves rows, ∃ y : K, q.reserve = .fin y := by
  intro q hq
  unfold bsReserves at hq
  dsimp only at hq
  have := (sortRes_perm _).mem_iff.1 hq
  obtain ⟨r, -, rfl⟩ := List.mem_map.1 this
  exact nanToNum_fin _

theorem bootSims_keys (sq : Num K → Num K) (ho : m.origins = t.origins) (hd : m.devs = t.devs)
    (hO : t.origins.Nodup) (hD : t.devs.Pairwise (· < ·)) (h0 : t.devs ≠ []) (scale : Num K) (S : ℕ)
    (draw : ℕ → Num K) (gam : ℕ → Num K → Num K → Num K) :
    ((bootSims sq t m scale S draw gam).reserves.map ResRow.key).Perm (simGrid t S) := by
  have hmem : t.devs.getLast h0 ∈ t.devs := List.getLast_mem h0
  have hle : ∀ e ∈ t.devs, e ≤ t.devs.getLast h0 := by
    intro e he
    rw [← List.dropLast_append_getLast h0, List.pairwise_append] at hD
    rw [← List.dropLast_append_getLast h0, List.mem_append] at he
    rcases he with he | he
    · exact (hD.2.2 e he _ (by simp)).le
    · rw [List.mem_singleton] at he; exact he.le
  have hsk := bsSamples_keys sq m S draw
  have enr : m.nr = t.nr := by unfold Tri.nr; rw [ho]
  have enc : m.nc = t.nc := by unfold Tri.nc; rw [hd]
  have eo : m.oAt = t.oAt := by funext i; unfold Tri.oAt; rw [ho]
  have ed : m.dAt = t.dAt := by funext i; unfold Tri.dAt; rw [hd]
  rw [enr, enc, eo, ed] at hsk
  have hkeys : (bootSims sq t m scale S draw gam).proc.map (fun r => r.base.key) =
      (bsCombined t (bsSamples sq m S draw) (bsLdfs t S (bsSamples sq m S draw))).map CombRow.key := by
    show (bsProcess _ _ _).map _ = _
    rw [bsProcess_keys, bsForecasts_keys]
  have hin : ∀ r ∈ (bootSims sq t m scale S draw gam).proc, ∃ s < S, ∃ i < t.nr, ∃ j < t.nc,
      r.base.key = (s, t.oAt i, t.dAt j) := by
    intro r hr
    have h1 := List.mem_map_of_mem (f := fun r : ProcRow K => r.base.key) hr
    rw [hkeys] at h1
    have h2 := bsCombined_mem _ h1
    rw [hsk] at h2
    simp only [List.mem_flatMap, List.mem_map, List.mem_range] at h2
    obtain ⟨s, hs, i, hi, j, hj, e⟩ := h2
    exact ⟨s, hs, i, hi, j, hj, e.symm⟩
  refine bsReserves_keys (d := t.devs.getLast h0) (simGrid_nodup hO S) ?_ ?_ ?_
  · intro r hr
    obtain ⟨s, -, i, -, j, hj, e⟩ := hin r hr
    have : r.base.dev = t.dAt j := (Prod.mk.inj (Prod.mk.inj e).2).2
    rw [this]
    apply hle
    rw [← devs_map t]
    exact List.mem_map_of_mem (List.mem_range.2 hj)
  · intro hne
    obtain ⟨r, hr⟩ := List.exists_mem_of_ne_nil _ hne
    obtain ⟨s, hs, i, hi, -⟩ := hin r hr
    refine List.ne_nil_of_mem (a := (s, t.oAt i)) ?_
    unfold simGrid
    rw [List.mem_flatMap]
    exact ⟨s, List.mem_range.2 hs, List.mem_map_of_mem (f := fun i => (s, t.oAt i)) (List.mem_range.2 hi)⟩
  · show ((bootSims sq t m scale S draw gam).proc.map _).filter _ = _
    rw [hkeys, bsCombined_last (fun s => bsLdfs_last hD S _ hle s), hsk,
      sampKeys_last t S (hD.imp (fun h => ne_of_lt h)) hmem]

theorem sumSkip_perm {l l' : List (Num K)} (h : l.Perm l') : Num.sumSkip l = Num.sumSkip l' :=
  (h.filter _).sum_eq

theorem meanL_perm {l l' : List (Num K)} (h : l.Perm l') : meanL l = meanL l' := by
  unfold meanL
  rw [h.sum_eq, h.length_eq]

/-- **C89** for every triangle with distinct origin labels and increasing development labels, whatever its missing
values, and for all draws, finite or not: each origin has one row in each simulation, with a finite reserve; the reserves of an origin are those of the simulations; the
total of a simulation is the sum of its reserves over the origins; and the mean total is the sum of the mean
reserves. -/
theorem C89_totals (sq : Num K → Num K) (ho : m.origins = t.origins) (hd : m.devs = t.devs)
    (hO : t.origins.Nodup) (hD : t.devs.Pairwise (· < ·)) (h0 : t.devs ≠ []) (scale : Num K) (S : ℕ)
    (draw : ℕ → Num K) (gam : ℕ → Num K → Num K → Num K) :
    let res := (bootSims sq t m scale S draw gam).reserves
    ∃ R : ℕ → ℕ → K,
      (∀ s < S, ∀ i < t.nr, (res.filter (fun q => decide (q.sim = s) && decide (q.origin = t.oAt i))).map
        ResRow.reserve = [.fin (R s i)]) ∧
      res.length = S * t.nr ∧
      (∀ i < t.nr, ((res.filter (fun q => decide (q.origin = t.oAt i))).map ResRow.reserve).Perm
        ((List.range S).map (fun s => .fin (R s i)))) ∧
      bootTotals S res = (List.range S).map (fun s => .fin (∑ i ∈ Finset.range t.nr, R s i)) ∧
      (0 < S → (∀ i < t.nr, meanL ((res.filter (fun q => decide (q.origin = t.oAt i))).map ResRow.reserve) =
          .fin ((∑ s ∈ Finset.range S, R s i) / S)) ∧
        meanL (bootTotals S res) = .fin (∑ i ∈ Finset.range t.nr, (∑ s ∈ Finset.range S, R s i) / S)) := by
  intro res
  have hk : (res.map ResRow.key).Perm (simGrid t S) := bootSims_keys sq ho hd hO hD h0 scale S draw gam
  have hfin : ∀ q ∈ res, ∃ y : K, q.reserve = .fin y := bsReserves_fin _
  have hnd : (res.map ResRow.key).Nodup := hk.nodup_iff.2 (simGrid_nodup hO S)
  have hF : ∃ F : ℕ × Int → K, ∀ q ∈ res, q.reserve = .fin (F q.key) := by
    classical
    refine ⟨fun k => if h : ∃ q ∈ res, q.key = k then (hfin h.choose h.choose_spec.1).choose else 0, ?_⟩
    intro q hq
    have h : ∃ q' ∈ res, q'.key = q.key := ⟨q, hq, rfl⟩
    dsimp only
    rw [dif_pos h]
    have e : h.choose = q := List.inj_on_of_nodup_map hnd h.choose_spec.1 hq h.choose_spec.2
    have := (hfin h.choose h.choose_spec.1).choose_spec
    rw [← this, e]
  obtain ⟨F, hF⟩ := hF
  have hmap : ∀ p : ℕ × Int → Bool, ((res.filter (fun q => p q.key)).map ResRow.reserve).Perm
      (((simGrid t S).filter p).map (fun k => Num.fin (F k))) := by
    intro p
    have e : (res.filter (fun q => p q.key)).map ResRow.reserve =
        ((res.map ResRow.key).filter p).map (fun k => Num.fin (F k)) := by
      rw [List.filter_map, List.map_map]
      exact List.map_congr_left (fun q hq => hF q (List.mem_filter.1 hq).1)
    rw [e]
    exact (hk.filter p).map _
  have hsim : ∀ s < S, (simGrid t S).filter (fun k => decide (k.1 = s)) =
      (List.range t.nr).map (fun i => (s, t.oAt i)) := by
    intro s hs
    unfold simGrid
    rw [filter_flatMap_single hs, List.filter_eq_self.2]
    · intro k hk'
      obtain ⟨i, -, rfl⟩ := List.mem_map.1 hk'
      simp
    · intro s' hs' k hk'
      obtain ⟨i, -, rfl⟩ := List.mem_map.1 hk'
      simpa using hs'
  have horg : ∀ i < t.nr, (simGrid t S).filter (fun k => decide (k.2 = t.oAt i)) =
      (List.range S).map (fun s => (s, t.oAt i)) := by
    intro i hi
    have hm : t.oAt i ∈ t.origins := by
      rw [← origins_map t]; exact List.mem_map_of_mem (List.mem_range.2 hi)
    rw [simGrid_eq, List.filter_flatMap, List.map_eq_flatMap]
    congr 1
    funext s
    rw [List.filter_map, show ((fun k : ℕ × Int => decide (k.2 = t.oAt i)) ∘ fun o => (s, o)) =
      fun o => decide (o = t.oAt i) from rfl, filter_eq_single hO hm]
    rfl
  have htot : bootTotals S res = (List.range S).map (fun s => Num.fin (∑ i ∈ Finset.range t.nr, F (s, t.oAt i))) := by
    unfold bootTotals
    refine List.map_congr_left (fun s hs => ?_)
    rw [← sumSkip_fin_range]
    have h := hmap (fun k => decide (k.1 = s))
    rw [hsim s (List.mem_range.1 hs), List.map_map] at h
    exact sumSkip_perm h
  have hper : ∀ i < t.nr, ((res.filter (fun q => decide (q.origin = t.oAt i))).map ResRow.reserve).Perm
      ((List.range S).map (fun s => Num.fin (F (s, t.oAt i)))) := by
    intro i hi
    have h := hmap (fun k => decide (k.2 = t.oAt i))
    rw [horg i hi, List.map_map] at h
    exact h
  refine ⟨fun s i => F (s, t.oAt i), ?_, ?_, hper, htot, fun hS => ⟨?_, ?_⟩⟩
  · intro s hs i hi
    have h := hmap (fun k => decide (k.1 = s) && decide (k.2 = t.oAt i))
    have e : (simGrid t S).filter (fun k => decide (k.1 = s) && decide (k.2 = t.oAt i)) = [(s, t.oAt i)] := by
      rw [← List.filter_filter, horg i hi]
      exact filter_map_range_single (g := fun s => (s, t.oAt i)) hs (fun k _ => rfl)
    rw [e] at h
    exact List.perm_singleton.1 h
  · have h := hk.length_eq
    rw [List.length_map] at h
    rw [h]
    unfold simGrid
    simp [List.length_flatMap]
  · intro i hi
    rw [← meanL_range _ hS]
    exact meanL_perm (hper i hi)
  · rw [htot, meanL_range _ hS, Finset.sum_comm]
    simp only [div_eq_mul_inv, Finset.sum_mul]

end

/-- The run of the C89 example with a missing draw in simulation 0: its reserves are still numbers and the totals
their sums. -/
example : ((bootFit exSqrt (fun _ => .nan) exBoot exBoot.a2aind0).map (fun fit =>
      (bootSims exSqrt exBoot fit.fitIncr fit.scale 2 (fun p => if p = 3 then .nan else 0)
        (fun _ a b => a * b)).reserves)).map (fun r => (r.map (fun q => (q.sim, q.origin)),
        r.map ResRow.reserve, bootTotals 2 r)) =
    .ok ([(0, 2001), (1, 2001), (0, 2002), (1, 2002), (0, 2003), (1, 2003)],
      [0, 0, .fin (-50), .fin 100, .fin 350, .fin 200], [.fin 300, .fin 300]) := by
  decide +kernel

end Trikit
