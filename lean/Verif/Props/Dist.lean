import Verif.Dist
import Verif.Props.BootSumm
import Verif.Props.Diag2

/-! # Tables of simulated reserves (C105, C106) -/

set_option linter.unusedSectionVars false

namespace Trikit

section
variable {K : Type} [Field K] [LinearOrder K] [IsStrictOrderedRing K]
variable {t m : Tri K} {n S : ℕ} {c v : ℕ → ℕ → K}

namespace Spec

/-- Row of origin `o i` in simulation `s`. -/
def distRow (o : ℕ → Int) (L U R : ℕ → ℕ → K) (s i : ℕ) : DistRow K :=
  ⟨s, some (o i), .fin (L s i), .fin (U s i), .fin (R s i)⟩

/-- Row of the totals of simulation `s`. -/
def distTotal (n : ℕ) (L U R : ℕ → ℕ → K) (s : ℕ) : DistRow K :=
  ⟨s, none, .fin (∑ i ∈ Finset.range n, L s i), .fin (∑ i ∈ Finset.range n, U s i),
    .fin (∑ i ∈ Finset.range n, R s i)⟩

end Spec

theorem labels_sims (S : ℕ) {l : List Int} (h : ∀ x, x ∈ l ↔ ∃ s < S, (s : Int) = x) :
    labels l = (List.range S).map (fun s : ℕ => (s : Int)) := by
  apply labels_eq_of_mem
  · rw [List.pairwise_map]
    exact List.pairwise_lt_range.imp (fun h => by exact_mod_cast h)
  · intro x
    rw [h]
    simp only [List.mem_map, List.mem_range]

theorem labels_origins {o : ℕ → Int} (ho : ∀ i < n, ∀ j < n, i < j → o i < o j) {l : List Int}
    (h : ∀ x, x ∈ l ↔ ∃ i < n, o i = x) : labels l = (List.range n).map o := by
  apply labels_eq_of_mem
  · rw [List.pairwise_map]
    refine List.Pairwise.imp_of_mem ?_ List.pairwise_lt_range
    intro a b ha hb hab
    exact ho a (List.mem_range.1 ha) b (List.mem_range.1 hb) hab
  · intro x
    rw [h]
    simp

section
variable {o : ℕ → Int} {L U R : ℕ → ℕ → K}

/-- Rows of one simulation. -/
theorem grid_sim {s : ℕ} (hs : s < S) :
    ((List.range n).flatMap (fun i => (List.range S).map (fun s => Spec.distRow o L U R s i))).filter
      (fun r => decide ((r.sim : Int) = (s : Int))) = (List.range n).map (fun i => Spec.distRow o L U R s i) := by
  induction n with
  | zero => rfl
  | succ n ih =>
    rw [List.range_succ, List.flatMap_append, List.filter_append, ih, List.map_append]
    congr 1
    rw [List.flatMap_singleton, filter_map_range_single (g := fun s => Spec.distRow o L U R s n) hs]
    · rfl
    · intro k _
      simp [Spec.distRow]

/-- Rows of one origin. -/
theorem grid_origin (ho : ∀ i < n, ∀ j < n, i < j → o i < o j) {i : ℕ} (hi : i < n) :
    ((List.range n).flatMap (fun i => (List.range S).map (fun s => Spec.distRow o L U R s i))).filter
      (fun r => decide (r.origin = some (o i))) = (List.range S).map (fun s => Spec.distRow o L U R s i) := by
  rw [filter_flatMap_single' hi, List.filter_eq_self.2]
  · intro q hq
    obtain ⟨s, -, rfl⟩ := List.mem_map.1 hq
    simp [Spec.distRow]
  · intro k hk hne q hq
    obtain ⟨s, -, rfl⟩ := List.mem_map.1 hq
    apply decide_eq_false
    intro e
    have e := Option.some.inj e
    rcases Nat.lt_or_gt_of_ne hne with h | h
    · have := ho k hk i hi h; omega
    · have := ho i hi k hk h; omega

/-- One row per simulation is added. -/
theorem reserveDist_grid (hn : 0 < n) {res : List (ResRow K)}
    (h : res.map ResRow.toDist = (List.range n).flatMap (fun i => (List.range S).map (fun s =>
      Spec.distRow o L U R s i))) :
    reserveDist res = (List.range n).flatMap (fun i => (List.range S).map (fun s => Spec.distRow o L U R s i)) ++
      (List.range S).map (Spec.distTotal n L U R) := by
  have hl : labels (res.map (fun r => (r.sim : Int))) = (List.range S).map (fun s : ℕ => (s : Int)) := by
    have e : res.map (fun r => (r.sim : Int)) = (res.map ResRow.toDist).map (fun r => (r.sim : Int)) := by
      rw [List.map_map]; rfl
    rw [e, h]
    apply labels_sims
    intro x
    simp only [List.mem_map, List.mem_flatMap, List.mem_range]
    constructor
    · rintro ⟨r, ⟨i, hi, s, hs, rfl⟩, rfl⟩
      exact ⟨s, hs, rfl⟩
    · rintro ⟨s, hs, rfl⟩
      exact ⟨_, ⟨0, hn, s, hs, rfl⟩, rfl⟩
  unfold reserveDist
  simp only [h, hl, List.map_map]
  congr 1
  refine List.map_congr_left fun s hs => ?_
  have hs := List.mem_range.1 hs
  simp only [Function.comp_apply, Int.toNat_natCast]
  rw [grid_sim hs]
  unfold sumDist Spec.distTotal
  simp only [List.map_map, DistRow.mk.injEq, true_and]
  exact ⟨sumSkip_fin_range _ _, sumSkip_fin_range _ _, sumSkip_fin_range _ _⟩

/-- Sums over a single row. -/
theorem sumDist_single {s : ℕ} {k : Option Int} {a b d : K} :
    sumDist s k [(⟨s, k, .fin a, .fin b, .fin d⟩ : DistRow K)] = ⟨s, k, .fin a, .fin b, .fin d⟩ := by
  simp [sumDist, Num.sumSkip_cons, Num.isNaN]

/-- Rows of one simulation of the complete table. -/
theorem full_sim {s : ℕ} (hs : s < S) :
    ((List.range n).flatMap (fun i => (List.range S).map (fun s => Spec.distRow o L U R s i)) ++
      (List.range S).map (Spec.distTotal n L U R)).filter (fun r => decide ((r.sim : Int) = (s : Int))) =
    (List.range n).map (fun i => Spec.distRow o L U R s i) ++ [Spec.distTotal n L U R s] := by
  rw [List.filter_append, grid_sim hs, filter_map_range_single hs]
  intro k _
  simp [Spec.distTotal]

theorem originDist_grid (ho : ∀ i < n, ∀ j < n, i < j → o i < o j) :
    originDist ((List.range n).flatMap (fun i => (List.range S).map (fun s => Spec.distRow o L U R s i)) ++
      (List.range S).map (Spec.distTotal n L U R)) =
    (List.range S).flatMap (fun s => (List.range n).map (fun i => Spec.distRow o L U R s i) ++
      [Spec.distTotal n L U R s]) := by
  set d := (List.range n).flatMap (fun i => (List.range S).map (fun s => Spec.distRow o L U R s i)) ++
      (List.range S).map (Spec.distTotal n L U R) with hd
  have hl : labels (d.map (fun r => (r.sim : Int))) = (List.range S).map (fun s : ℕ => (s : Int)) := by
    apply labels_sims
    intro x
    rw [hd]
    simp only [List.mem_map, List.mem_append, List.mem_flatMap, List.mem_range]
    constructor
    · rintro ⟨r, ⟨i, hi, s, hs, rfl⟩ | ⟨s, hs, rfl⟩, rfl⟩
      · exact ⟨s, hs, rfl⟩
      · exact ⟨s, hs, rfl⟩
    · rintro ⟨s, hs, rfl⟩
      exact ⟨_, Or.inr ⟨s, hs, rfl⟩, rfl⟩
  unfold originDist
  rw [hl, List.flatMap_map]
  refine flatMap_congr_mem fun s hs => ?_
  have hs := List.mem_range.1 hs
  have hkeys : originKeys (d.filter (fun r => decide ((r.sim : Int) = (s : Int)))) =
      (List.range n).map (fun i => some (o i)) ++ [none] := by
    rw [hd, full_sim hs]
    unfold originKeys
    congr 1
    · rw [labels_origins (n := n) (o := o) ho, List.map_map]
      · rfl
      · intro x
        simp [List.mem_filterMap, Spec.distRow, Spec.distTotal]
    · rw [if_pos]
      simp [Spec.distTotal]
  have hff : ∀ k : Option Int, d.filter (fun r => decide ((r.sim : Int) = (s : Int)) && decide (r.origin = k)) =
      ((List.range n).map (fun i => Spec.distRow o L U R s i) ++ [Spec.distTotal n L U R s]).filter
        (fun r => decide (r.origin = k)) := by
    intro k
    rw [← full_sim (o := o) hs, ← hd, List.filter_filter]
    congr 1
    funext r
    exact Bool.and_comm _ _
  rw [hkeys, List.map_append, List.map_map]
  congr 1
  · refine List.map_congr_left fun i hi => ?_
    have hi := List.mem_range.1 hi
    simp only [Function.comp_apply, Int.toNat_natCast]
    rw [hff, List.filter_append, filter_map_range_single (j := i) hi]
    · rw [show [Spec.distTotal n L U R s].filter (fun r => decide (r.origin = some (o i))) = [] from by
        simp [Spec.distTotal], List.append_nil]
      exact sumDist_single
    · intro k hk
      simp only [Spec.distRow, Option.some.injEq, decide_eq_decide]
      refine ⟨fun e => ?_, fun e => by rw [e]⟩
      by_contra hne
      rcases Nat.lt_or_gt_of_ne hne with h | h
      · have := ho k hk i hi h; omega
      · have := ho i hi k hk h; omega
  · simp only [List.map_cons, List.map_nil, Int.toNat_natCast]
    rw [hff, List.filter_append, List.filter_eq_nil_iff.2, List.nil_append,
      List.filter_eq_self.2]
    · rw [show sumDist s none [Spec.distTotal n L U R s] = Spec.distTotal n L U R s from sumDist_single]
    · simp [Spec.distTotal]
    · intro r hr
      obtain ⟨i, -, rfl⟩ := List.mem_map.1 hr
      simp [Spec.distRow]

end

/-- The simulated reserves in the form of the tables. -/
theorem SimSpec.toDist {x g : ℕ → ℕ → ℕ → K} {r : SimResult K} (h : SimSpec t n S x g r) :
    ∃ L U R : ℕ → ℕ → K, (∀ s i, R s i = U s i - L s i) ∧
      r.reserves.map ResRow.toDist = (List.range n).flatMap (fun i => (List.range S).map (fun s =>
        Spec.distRow t.oAt L U R s i)) := by
  refine ⟨fun s i => if i = 0 then ∑ k ∈ Finset.range n, Spec.finalIncr t n x g s i k else x s i (n - 1 - i),
    fun s i => ∑ k ∈ Finset.range n, Spec.finalIncr t n x g s i k,
    fun s i => if i = 0 then 0 else ∑ k ∈ Finset.range n, Spec.finalIncr t n x g s i k - x s i (n - 1 - i), ?_, ?_⟩
  · intro s i
    by_cases hi : i = 0 <;> simp [hi]
  · rw [h.reserves, List.map_flatMap]
    refine flatMap_congr_mem fun i _ => ?_
    rw [List.map_map]
    refine List.map_congr_left fun s _ => ?_
    by_cases hi : i = 0 <;> simp [hi, resRowAt, ResRow.toDist, Spec.distRow]

theorem flatMap_append_perm' {α β : Type} (l : List α) (f g : α → List β) :
    (l.flatMap f ++ l.flatMap g).Perm (l.flatMap (fun x => f x ++ g x)) := by
  induction l with
  | nil => simp
  | cons a l ih =>
    simp only [List.flatMap_cons, List.append_assoc]
    refine List.Perm.append_left _ ?_
    refine List.Perm.trans ?_ (List.Perm.append_left _ ih)
    rw [← List.append_assoc, ← List.append_assoc]
    exact List.Perm.append_right _ List.perm_append_comm

theorem swap_perm {β : Type} (n S : ℕ) (f : ℕ → ℕ → β) :
    ((List.range S).flatMap (fun s => (List.range n).map (fun i => f s i))).Perm
      ((List.range n).flatMap (fun i => (List.range S).map (fun s => f s i))) := by
  induction n with
  | zero => simp
  | succ n ih =>
    simp only [List.range_succ, List.map_append, List.flatMap_append, List.map_singleton, List.flatMap_singleton]
    refine (flatMap_append_perm' _ _ _).symm.trans (ih.append ?_)
    rw [← List.map_eq_flatMap]

/-- **C105** on staircases without negative fitted increments after the first period, for finite draws:
`reserve_dist` lists the simulated amounts of each origin, then the totals of each simulation; `origin_dist` lists the
same rows simulation by simulation, origins in ascending order and their total last.  In every row the reserve is the
ultimate less the latest value. -/
theorem C105_dist {sq : Num K → Num K} (hsq : ∀ y : K, 0 ≤ y → ∃ r, sq (.fin y) = .fin r)
    (ht : Spec.Stair t n c) (hn : 0 < n) (hS : 0 < S) (hm : Spec.Stair m n v)
    (ho : m.origins = t.origins) (hd : m.devs = t.devs) (hv : ∀ i j, i + j < n → 0 < j → 0 ≤ v i j)
    {scale : Num K} {draw : ℕ → Num K} {gam : ℕ → Num K → Num K → Num K}
    (hz : ∀ p < S * (n * n), (draw p).isFin = true)
    (hg : ∀ p < S * (n * n), ∀ a b, (gam p a b).isFin = true) :
    let res := (bootSims sq t m scale S draw gam).reserves
    ∃ L U R : ℕ → ℕ → K, (∀ s i, R s i = U s i - L s i) ∧
      res.map ResRow.toDist =
        (List.range n).flatMap (fun i => (List.range S).map (fun s => Spec.distRow t.oAt L U R s i)) ∧
      reserveDist res = res.map ResRow.toDist ++ (List.range S).map (Spec.distTotal n L U R) ∧
      originDist (reserveDist res) = (List.range S).flatMap (fun s =>
        (List.range n).map (fun i => Spec.distRow t.oAt L U R s i) ++ [Spec.distTotal n L U R s]) ∧
      (originDist (reserveDist res)).Perm (reserveDist res) := by
  obtain ⟨rt, hrt⟩ := exists_roots (sq := sq) hsq hv
  obtain ⟨L, U, R, hR, hres⟩ := (bootSims_stair ht hn hS hm ho hd hrt hz (scale := scale) hg).toDist
  have hlt : ∀ i < n, ∀ j < n, i < j → t.oAt i < t.oAt j := fun i hi j hj h => (ht.oAt_lt hi hj).2 h
  refine ⟨L, U, R, hR, hres, ?_, ?_, ?_⟩
  · rw [reserveDist_grid hn hres, hres]
  · rw [reserveDist_grid hn hres, originDist_grid hlt]
  · rw [reserveDist_grid hn hres, originDist_grid hlt]
    refine (flatMap_append_perm' _ _ _).symm.trans ((swap_perm _ _ _).append ?_)
    rw [← List.map_eq_flatMap]

/-! ### C106 -/

theorem numMax_fin {l : List K} (h : l ≠ []) :
    ∃ M ∈ l, numMax (l.map Num.fin) = .fin M ∧ ∀ x ∈ l, x ≤ M := by
  have key : ∀ (l : List K) (a : K), ∃ M ∈ a :: l,
      (l.map Num.fin).foldl (fun m v => if Num.le m v then v else m) (Num.fin a) = .fin M ∧ ∀ x ∈ a :: l, x ≤ M := by
    intro l
    induction l with
    | nil => intro a; exact ⟨a, by simp, rfl, by simp⟩
    | cons b l ih =>
      intro a
      by_cases hab : a ≤ b
      · obtain ⟨M, hM, e, hx⟩ := ih b
        refine ⟨M, List.mem_cons_of_mem _ hM, ?_, ?_⟩
        · rw [List.map_cons, List.foldl_cons, if_pos (by simpa [Num.le] using hab)]; exact e
        · intro x hxm
          rcases List.mem_cons.1 hxm with rfl | hxm
          · exact hab.trans (hx b (by simp))
          · exact hx x hxm
      · obtain ⟨M, hM, e, hx⟩ := ih a
        refine ⟨M, ?_, ?_, ?_⟩
        · rcases List.mem_cons.1 hM with rfl | hM
          · simp
          · simp [hM]
        · rw [List.map_cons, List.foldl_cons, if_neg (by simpa [Num.le] using hab)]; exact e
        · intro x hxm
          rcases List.mem_cons.1 hxm with rfl | hxm
          · exact hx x (by simp)
          rcases List.mem_cons.1 hxm with rfl | hxm
          · exact (not_le.1 hab).le.trans (hx a (by simp))
          · exact hx x (by simp [hxm])
  cases l with
  | nil => exact absurd rfl h
  | cons a l =>
    have e : ((a :: l).map Num.fin).filter (fun v => !v.isNaN) = Num.fin a :: l.map Num.fin := by
      rw [List.filter_eq_self.2]
      · rfl
      · intro v hv
        obtain ⟨x, -, rfl⟩ := List.mem_map.1 hv
        rfl
    obtain ⟨M, hM, hf, hx⟩ := key l a
    refine ⟨M, hM, ?_, hx⟩
    unfold numMax
    rw [e]
    exact hf

theorem Spec.IsMedian.le {l : List K} {q M : K} (h : Spec.IsMedian l q) (hM : ∀ x ∈ l, x ≤ M) : q ≤ M := by
  obtain ⟨s, hp, -, ⟨k, x, -, hx, rfl⟩ | ⟨k, x, y, -, hx, hy, rfl⟩⟩ := h
  · exact hM _ (hp.mem_iff.1 (List.mem_of_getElem? hx))
  · have h1 := hM _ (hp.mem_iff.1 (List.mem_of_getElem? hx))
    have h2 := hM _ (hp.mem_iff.1 (List.mem_of_getElem? hy))
    linarith

theorem clipNeg_fin (x : K) : clipNeg (.fin x) = .fin (max 0 x) := by
  unfold clipNeg
  rw [Num.zero_def, Num.lt_fin]
  by_cases h : x < 0
  · rw [if_pos (by simpa using h), max_eq_left h.le]
  · rw [if_neg (by simpa using h), max_eq_right (not_lt.1 h)]

theorem dropDups_replicate {α : Type} [DecidableEq α] (k : α) (l : List α) (S : ℕ) :
    (dropDups (List.replicate S k ++ l)).filter (fun b => b ≠ k) = (dropDups l).filter (fun b => b ≠ k) := by
  induction S with
  | zero => rfl
  | succ S ih =>
    rw [List.replicate_succ, List.cons_append, dropDups, List.filter_cons_of_neg (by simp), List.filter_filter]
    rw [← ih]
    congr 1
    funext b
    simp

theorem dropDups_blocks {α : Type} [DecidableEq α] {ks : List α} (h : ks.Nodup) (hS : 0 < S) :
    dropDups (ks.flatMap (fun k => List.replicate S k)) = ks := by
  induction ks with
  | nil => rfl
  | cons k ks ih =>
    obtain ⟨S, rfl⟩ : ∃ k, S = k + 1 := ⟨S - 1, by omega⟩
    rw [List.nodup_cons] at h
    rw [List.flatMap_cons]
    conv_lhs => arg 1; arg 1; rw [List.replicate_succ]
    rw [List.cons_append, dropDups, dropDups_replicate, ih h.2, List.filter_eq_self.2]
    intro a ha
    simp only [ne_eq, decide_eq_true_eq]
    rintro rfl
    exact h.1 ha

/-- What a panel has to show for the values `ys` of origin `k`: its own label, its own values, and
the median, cut at 0, inside the axis, which ends 2.5 % above the largest value. -/
def Spec.PanelOK (k : Option Int) (ys : List K) (p : HistPanel K) : Prop :=
  p.label = k ∧ p.shows = k ∧ p.data = ys.map .fin ∧
    ∃ q M, Spec.IsMedian ys q ∧ M ∈ ys ∧ (∀ x ∈ ys, x ≤ M) ∧ p.xmed = .fin (max 0 q) ∧
      p.xmax = .fin (max 0 M * (41 / 40)) ∧ max 0 q ≤ max 0 M * (41 / 40)

theorem panelOK_mk (k : Option Int) {ys : List K} (h : ys ≠ []) :
    Spec.PanelOK k ys ⟨k, k, ys.map .fin, clipNeg (numMax (ys.map .fin)) * .fin (41 / 40),
      clipNeg (npMedian (ys.map .fin))⟩ := by
  obtain ⟨M, hM, e, hx⟩ := numMax_fin h
  have e2 : (ys.map Num.fin).filterMap Num.toFin = ys := by
    rw [List.filterMap_map]
    exact List.filterMap_some
  obtain ⟨q, hq, hmed⟩ := npMedian_spec (ys.map Num.fin) (fun v hv => by
    obtain ⟨x, -, rfl⟩ := List.mem_map.1 hv
    exact Or.inr ⟨x, rfl⟩) (by rw [e2]; exact h)
  rw [e2] at hmed
  refine ⟨rfl, rfl, rfl, q, M, hmed, hM, hx, ?_, ?_, ?_⟩
  · show clipNeg (npMedian _) = _
    rw [hq, clipNeg_fin]
  · show clipNeg (numMax _) * _ = _
    rw [e, clipNeg_fin, Num.fin_mul]
  · have h1 := hmed.le hx
    have h2 : max 0 q ≤ max 0 M := max_le_max le_rfl h1
    have h3 : (0 : K) ≤ max 0 M := le_max_left _ _
    linarith

theorem histPanels_grid {o : ℕ → Int} {L U R : ℕ → ℕ → K} (hn : 0 < n) (hS : 0 < S)
    (ho : ∀ i < n, ∀ j < n, i < j → o i < o j) :
    ∃ (ps : List (HistPanel K)) (tot : HistPanel K),
      histPanels ((List.range n).flatMap (fun i => (List.range S).map (fun s => Spec.distRow o L U R s i)) ++
        (List.range S).map (Spec.distTotal n L U R)) = .ok (ps ++ [tot]) ∧
      List.Forall₂ (fun i p => Spec.PanelOK (some (o i)) ((List.range S).map (fun s => R s i)) p)
        (List.range n) ps ∧
      Spec.PanelOK none ((List.range S).map (fun s => ∑ i ∈ Finset.range n, R s i)) tot := by
  set d := (List.range n).flatMap (fun i => (List.range S).map (fun s => Spec.distRow o L U R s i)) ++
      (List.range S).map (Spec.distTotal n L U R) with hd
  have hinj : ∀ i < n, ∀ j < n, o i = o j → i = j := by
    intro i hi j hj e
    by_contra hne
    rcases Nat.lt_or_gt_of_ne hne with h | h
    · have := ho i hi j hj h; omega
    · have := ho j hj i hi h; omega
  have hmem : ∀ x : Int, x ∈ d.filterMap DistRow.origin ↔ ∃ i < n, o i = x := by
    intro x
    rw [hd]
    simp only [List.mem_filterMap, List.mem_append, List.mem_flatMap, List.mem_map, List.mem_range]
    constructor
    · rintro ⟨r, ⟨i, hi, s, hs, rfl⟩ | ⟨s, hs, rfl⟩, e⟩
      · exact ⟨i, hi, Option.some.inj e⟩
      · cases e
    · rintro ⟨i, hi, rfl⟩
      exact ⟨_, Or.inl ⟨i, hi, 0, hS, rfl⟩, rfl⟩
  have hkeys : originKeys d = (List.range n).map (fun i => some (o i)) ++ [none] := by
    unfold originKeys
    rw [labels_origins ho hmem, List.map_map, if_pos]
    · rfl
    · rw [List.any_eq_true]
      exact ⟨Spec.distTotal n L U R 0, by
        rw [hd]; exact List.mem_append_right _ (List.mem_map.2 ⟨0, List.mem_range.2 hS, rfl⟩), rfl⟩
  have hdup : dropDups (d.map DistRow.origin) = (List.range n).map (fun i => some (o i)) ++ [none] := by
    rw [← dropDups_blocks (ks := (List.range n).map (fun i => some (o i)) ++ [none]) ?_ hS]
    · congr 1
      rw [hd, List.map_append, List.flatMap_append, List.map_flatMap, List.flatMap_map]
      congr 1
      · refine flatMap_congr_mem fun i _ => ?_
        rw [List.map_map]
        exact (List.map_const' ..).trans (by rw [List.length_range])
      · rw [List.map_map, List.flatMap_singleton]
        exact (List.map_const' ..).trans (by rw [List.length_range])
    · rw [List.nodup_append]
      refine ⟨?_, by simp, ?_⟩
      · refine List.Nodup.map_on ?_ List.nodup_range
        intro i hi j hj e
        exact hinj i (List.mem_range.1 hi) j (List.mem_range.1 hj) (Option.some.inj e)
      · intro a ha b hb
        obtain ⟨i, -, rfl⟩ := List.mem_map.1 ha
        rw [List.mem_singleton.1 hb]
        simp
  have hval : ∀ i < n, reservesOf' d (some (o i)) = ((List.range S).map (fun s => R s i)).map Num.fin := by
    intro i hi
    unfold reservesOf'
    rw [hd, List.filter_append, grid_origin ho hi, List.filter_eq_nil_iff.2, List.append_nil, List.map_map,
      List.map_map]
    · rfl
    · intro r hr
      obtain ⟨s, -, rfl⟩ := List.mem_map.1 hr
      simp [Spec.distTotal]
  have htot : reservesOf' d none = ((List.range S).map (fun s => ∑ i ∈ Finset.range n, R s i)).map Num.fin := by
    unfold reservesOf'
    rw [hd, List.filter_append, List.filter_eq_nil_iff.2, List.nil_append, List.filter_eq_self.2, List.map_map,
      List.map_map]
    · rfl
    · intro r hr
      obtain ⟨s, -, rfl⟩ := List.mem_map.1 hr
      rfl
    · intro r hr
      obtain ⟨i, -, hr⟩ := List.mem_flatMap.1 hr
      obtain ⟨s, -, rfl⟩ := List.mem_map.1 hr
      simp [Spec.distRow]
  have hne : d.filterMap DistRow.origin ≠ [] := by
    intro e
    have := (hmem (o 0)).2 ⟨0, hn, rfl⟩
    rw [e] at this
    cases this
  have hS' : ∀ y : ℕ → K, (List.range S).map y ≠ [] := by
    intro y e
    rw [List.map_eq_nil_iff, List.range_eq_nil] at e
    omega
  unfold histPanels
  rw [if_neg hne, hkeys, hdup]
  have hz : ∀ l : List (Option Int), l.zip l = l.map (fun a => (a, a)) := by
    intro l
    induction l with
    | nil => rfl
    | cons a l ih => rw [List.zip_cons_cons, ih]; rfl
  rw [hz, List.map_map, List.map_append, List.map_singleton, List.map_map]
  refine ⟨_, _, rfl, ?_, ?_⟩
  · rw [List.forall₂_map_right_iff, List.forall₂_same]
    intro i hi
    simp only [Function.comp_apply]
    rw [hval i (List.mem_range.1 hi)]
    exact panelOK_mk _ (hS' _)
  · simp only [Function.comp_apply]
    rw [htot]
    exact panelOK_mk _ (hS' _)

theorem reserves_toDist (l : List (ResRow K)) (k : Int) :
    (l.filter (fun q => decide (q.origin = k))).map ResRow.reserve =
      ((l.map ResRow.toDist).filter (fun r => decide (r.origin = some k))).map DistRow.reserve := by
  rw [List.filter_map, List.map_map]
  congr 1
  refine List.filter_congr fun q _ => ?_
  simp [ResRow.toDist]

/-- **C106** on the same inputs: `hist` draws one panel per origin in ascending order and one for the total; every
panel carries the label of the origin whose simulated reserves it shows, and its line is at the median of these
reserves (0 if negative), inside the axis. -/
theorem C106_hist {sq : Num K → Num K} (hsq : ∀ y : K, 0 ≤ y → ∃ r, sq (.fin y) = .fin r)
    (ht : Spec.Stair t n c) (hn : 0 < n) (hS : 0 < S) (hm : Spec.Stair m n v)
    (ho : m.origins = t.origins) (hd : m.devs = t.devs) (hv : ∀ i j, i + j < n → 0 < j → 0 ≤ v i j)
    {scale : Num K} {draw : ℕ → Num K} {gam : ℕ → Num K → Num K → Num K}
    (hz : ∀ p < S * (n * n), (draw p).isFin = true)
    (hg : ∀ p < S * (n * n), ∀ a b, (gam p a b).isFin = true) :
    let res := (bootSims sq t m scale S draw gam).reserves
    ∃ (R : ℕ → ℕ → K) (ps : List (HistPanel K)) (tot : HistPanel K),
      (∀ i < n, (res.filter (fun q => decide (q.origin = t.oAt i))).map ResRow.reserve =
        (List.range S).map (fun s => .fin (R s i))) ∧
      histPanels (reserveDist res) = .ok (ps ++ [tot]) ∧
      List.Forall₂ (fun i p => Spec.PanelOK (some (t.oAt i)) ((List.range S).map (fun s => R s i)) p)
        (List.range n) ps ∧
      Spec.PanelOK none ((List.range S).map (fun s => ∑ i ∈ Finset.range n, R s i)) tot := by
  obtain ⟨rt, hrt⟩ := exists_roots (sq := sq) hsq hv
  have hspec := bootSims_stair ht hn hS hm ho hd hrt hz (scale := scale) hg
  obtain ⟨L, U, R, hR, hres⟩ := hspec.toDist
  have hlt : ∀ i < n, ∀ j < n, i < j → t.oAt i < t.oAt j := fun i hi j hj h => (ht.oAt_lt hi hj).2 h
  obtain ⟨ps, tot, h1, h2, h3⟩ := histPanels_grid (o := t.oAt) (L := L) (U := U) (R := R) hn hS hlt
  refine ⟨R, ps, tot, ?_, ?_, h2, h3⟩
  · intro i hi
    rw [reserves_toDist, hres, grid_origin hlt hi, List.map_map]
    rfl
  · rw [reserveDist_grid hn hres, h1]

end

/-- The tables of the example: simulated reserves 105 and 100 for 2002, 1350/7 and 200 for 2003. -/
example : latestRun.map (fun r => (reserveDist r.reserves).map (fun q => (q.sim, q.origin, q.reserve))) =
    .ok [(0, some 2001, 0), (1, some 2001, 0), (0, some 2002, .fin 105), (1, some 2002, .fin 100),
      (0, some 2003, .fin (1350 / 7)), (1, some 2003, .fin 200), (0, none, .fin (2085 / 7)), (1, none, .fin 300)] ∧
  latestRun.map (fun r => (originDist (reserveDist r.reserves)).map (fun q => (q.sim, q.origin, q.reserve))) =
    .ok [(0, some 2001, 0), (0, some 2002, .fin 105), (0, some 2003, .fin (1350 / 7)), (0, none, .fin (2085 / 7)),
      (1, some 2001, 0), (1, some 2002, .fin 100), (1, some 2003, .fin 200), (1, none, .fin 300)] := by
  decide +kernel

/-- Its panels. -/
example : latestRun.map (fun r => (histPanels (reserveDist r.reserves)).map (List.map (fun p =>
    (p.label, p.shows, p.xmed, p.xmax)))) =
    .ok (.ok [(some 2001, some 2001, 0, 0), (some 2002, some 2002, .fin (205 / 2), .fin (861 / 8)),
      (some 2003, some 2003, .fin (1375 / 7), .fin 205), (none, none, .fin (4185 / 14), .fin (615 / 2))]) := by
  decide +kernel

end Trikit
