import Mathlib.Data.List.Sort
import Mathlib.Order.Bounds.Basic
import Verif.Exhibits
import Verif.Props.Transform
import Verif.Props.Dist
import Verif.Props.Ticks
import Verif.Props.Density
import Verif.Props.BootPlot

/-!
# C133, C134, C135: the exhibits of the chain ladder and Mack results
-/

set_option linter.unusedSectionVars false

namespace Trikit

section base
variable {K : Type} [Field K] [LinearOrder K] [IsStrictOrderedRing K]

/-- The name of panel `k`: origin `k`, or the total (`none`). -/
def Spec.panelKey (t : Tri K) (n k : ℕ) : Option Int := if k < n then some (t.oAt k) else none

/-- The amounts for which the axis of a panel can be drawn. -/
def Spec.Tickable (x : K) : Prop := 1 < x ∧ x < 10 ^ 10 ∧ ∀ k : ℕ, x ≠ 10 ^ k

theorem dropDups_append {α : Type} [DecidableEq α] (a b : List α) :
    dropDups (a ++ b) = dropDups a ++ (dropDups b).filter (fun x => decide (x ∉ a)) := by
  induction a with
  | nil => simp [dropDups]
  | cons y a ih =>
    simp only [List.cons_append, dropDups, ih, List.filter_append, List.filter_filter]
    congr 2
    refine List.filter_congr (fun x _ => ?_)
    by_cases h : x = y <;> simp [h]

/-- Positions `0 … n-1`, then some of them again, then `n` several times. -/
theorem dropDups_keys {α : Type} [DecidableEq α] (g : ℕ → α) {n : ℕ} (hg : ∀ i ≤ n, ∀ j ≤ n, g i = g j → i = j)
    {J T : List ℕ} (hJ : ∀ x ∈ J, x < n) (hT : ∀ x ∈ T, x = n) (hT0 : T ≠ []) :
    dropDups ((List.range n ++ J ++ T).map g) = (List.range (n + 1)).map g := by
  have hnd : ((List.range n).map g).Nodup := by
    refine List.Nodup.map_on ?_ List.nodup_range
    intro i hi j hj e
    exact hg i (List.mem_range.1 hi).le j (List.mem_range.1 hj).le e
  have hTd : dropDups (T.map g) = [g n] := by
    obtain ⟨x, T, rfl⟩ := List.exists_cons_of_ne_nil hT0
    obtain rfl := hT x (by simp)
    rw [List.map_cons, dropDups, List.filter_eq_nil_iff.2]
    intro y hy
    obtain ⟨z, hz, rfl⟩ := List.mem_map.1 (mem_dropDups_iff.1 hy)
    rw [hT z (by simp [hz])]
    simp
  rw [List.map_append, List.map_append, dropDups_append, dropDups_append, dropDups_nodup hnd,
    List.filter_eq_nil_iff.2, hTd, List.filter_eq_self.2, List.append_nil, List.range_succ, List.map_append]
  · rfl
  · intro y hy
    rw [List.mem_singleton] at hy
    subst hy
    rw [decide_eq_true_eq, List.mem_append, not_or]
    constructor
    · intro hm
      obtain ⟨i, hi, e⟩ := List.mem_map.1 hm
      rw [List.mem_range] at hi
      have := hg i hi.le n le_rfl e
      omega
    · intro hm
      obtain ⟨i, hi, e⟩ := List.mem_map.1 hm
      have := hJ i hi
      have := hg i this.le n le_rfl e
      omega
  · intro y hy
    obtain ⟨i, hi, rfl⟩ := List.mem_map.1 (mem_dropDups_iff.1 hy)
    have := hJ i hi
    simp only [decide_eq_true_eq, not_not]
    exact List.mem_map_of_mem (List.mem_range.2 this)

theorem mapM_ok_map {α β : Type} {f : α → Except PyErr β} {l : List α} (g : α → β)
    (h : ∀ x ∈ l, f x = .ok (g x)) : l.mapM f = .ok (l.map g) := by
  induction l with
  | nil => rfl
  | cons a l ih =>
    rw [List.mapM_cons, h a (by simp), ih (fun x hx => h x (by simp [hx]))]
    rfl

theorem mapM_some_error {α β : Type} {f : α → Except PyErr β} {e : PyErr} {l : List α}
    (h : ∀ x ∈ l, (∃ y, f x = .ok y) ∨ f x = .error e) (hx : ∃ x ∈ l, f x = .error e) : l.mapM f = .error e := by
  induction l with
  | nil => simp at hx
  | cons a l ih =>
    rw [List.mapM_cons]
    rcases h a (by simp) with ⟨y, hy⟩ | hy
    · rw [hy]
      obtain ⟨x, hm, hxe⟩ := hx
      rcases List.mem_cons.1 hm with rfl | hm
      · rw [hy] at hxe; cases hxe
      · rw [ih (fun x hx => h x (by simp [hx])) ⟨x, hm, hxe⟩]; rfl
    · rw [hy]; rfl

theorem Spec.Stair.panelKey_inj {t : Tri K} {n : ℕ} {c : ℕ → ℕ → K} (h : Spec.Stair t n c) :
    ∀ i ≤ n, ∀ j ≤ n, Spec.panelKey t n i = Spec.panelKey t n j → i = j := by
  intro i hi j hj e
  unfold Spec.panelKey at e
  split at e <;> split at e
  · rename_i h1 h2
    exact (h.oAt_eq_iff h1 h2).1 (Option.some.inj e)
  · cases e
  · cases e
  · omega

/-- **C133** on every staircase and for every list of factors: the rows of the exhibit fill one panel per origin and a
last one for the total.  Each panel carries the name of the origin it shows.  If the largest loss of every panel is
between 1 and 10^10 and no power of ten, the axes have five equally spaced ticks from 0 to an amount above all losses
of the panel and below twice the largest; otherwise there is no exhibit.  The ticks of the x axis are the development
periods and "ult". -/
theorem C133_partial {t : Tri K} {n : ℕ} {c : ℕ → ℕ → K} (h : Spec.Stair t n c) (hn : 0 < n) {f : ℕ → K}
    {ldfs : Ser K} {b : BaseResult K} (hs : Spec.BaseSpec t n c f ldfs b) {lab : Int}
    (hl : tailLabel (ldfs.map Prod.fst) = .ok lab) :
    ∃ (rows : List (PlotRow K)) (M : ℕ → K), plotData t b = .ok rows ∧
      (∀ k ≤ n, IsGreatest {x | ∃ r ∈ rows, r.origin = Spec.panelKey t n k ∧ r.loss = .fin x} (M k)) ∧
      ((∀ k ≤ n, Spec.Tickable (M k)) → ∃ ps, basePanels rows = .ok ps ∧ ps.length = n + 1 ∧
        ∀ k ≤ n, ∃ p, ps[k]? = some p ∧ p.label = Spec.panelKey t n k ∧ p.shows = Spec.panelKey t n k ∧
          (∀ r, r ∈ p.points ↔ r ∈ rows ∧ r.origin = Spec.panelKey t n k) ∧
          ∃ top, M k < top ∧ top < 2 * M k ∧
            p.yticks = [0, top / 4, 2 * (top / 4), 3 * (top / 4), top]) ∧
      ((∃ k ≤ n, ¬ Spec.Tickable (M k)) → basePanels rows = .error .valueError) ∧
      ((∀ j < n, t.dAt j < lab) →
        xTicks rows = (List.range n).map (fun j => (t.dAt j, some (t.dAt j))) ++ [(lab, none)]) := by
  have hrows := plotData_stair h hs hl
  generalize hR : (_ ++ _ : List (PlotRow K)) = rows at hrows
  have hkey : ∀ r ∈ rows, r.index ≤ n ∧ r.origin = Spec.panelKey t n r.index ∧ (∃ x, r.loss = .fin x) ∧
      ((∃ j < n, r.dev = t.dAt j) ∨ r.dev = lab) := by
    intro r hr
    rw [← hR] at hr
    simp only [List.mem_append, List.mem_flatMap, List.mem_map, List.mem_filter, List.mem_range,
      List.mem_singleton] at hr
    rcases hr with ((⟨j, hj, i, ⟨hi, _⟩, rfl⟩ | ⟨j, hj, i, ⟨hi, _⟩, rfl⟩) | ⟨i, hi, rfl⟩) | (⟨j, hj, rfl⟩ | rfl)
    · exact ⟨hi.le, by simp [Spec.panelKey, hi], ⟨_, rfl⟩, Or.inl ⟨j, hj, rfl⟩⟩
    · exact ⟨hi.le, by simp [Spec.panelKey, hi], ⟨_, rfl⟩, Or.inl ⟨j, hj, rfl⟩⟩
    · exact ⟨hi.le, by simp [Spec.panelKey, hi], ⟨_, rfl⟩, Or.inr rfl⟩
    · exact ⟨le_rfl, by simp [Spec.panelKey], ⟨_, rfl⟩, Or.inl ⟨j, hj, rfl⟩⟩
    · exact ⟨le_rfl, by simp [Spec.panelKey], ⟨_, rfl⟩, Or.inr rfl⟩
  have hidx : ∃ J T : List ℕ, rows.map PlotRow.index = List.range n ++ J ++ T ∧ (∀ x ∈ J, x < n) ∧
      (∀ x ∈ T, x = n) ∧ T ≠ [] := by
    obtain ⟨m, rfl⟩ : ∃ m, n = m + 1 := ⟨n - 1, by omega⟩
    rw [← hR, List.map_append]
    rw [List.map_append, List.map_append, List.range_succ_eq_map (n := m), List.flatMap_cons, List.map_append,
      ← List.range_succ_eq_map]
    rw [show ((((List.range (m + 1)).filter (fun i => decide (i + 0 < m + 1))).map (fun i =>
        (⟨i, some (t.oAt i), t.dAt 0, .fin (c i 0), 0, false⟩ : PlotRow K))).map PlotRow.index) =
        List.range (m + 1) by
      rw [List.map_map, List.filter_eq_self.2 (fun i hi => by simpa using hi)]
      exact List.map_id _]
    rw [List.append_assoc (List.range (m + 1)), List.append_assoc (List.range (m + 1))]
    refine ⟨_, _, rfl, ?_, ?_, ?_⟩
    · intro x hx
      simp only [List.mem_append, List.mem_map, List.mem_flatMap, List.mem_filter, List.mem_range] at hx
      rcases hx with (⟨_, ⟨_, _, i, ⟨hi, _⟩, rfl⟩, rfl⟩ | ⟨_, ⟨_, _, i, ⟨hi, _⟩, rfl⟩, rfl⟩) | ⟨_, ⟨i, hi, rfl⟩, rfl⟩
      all_goals exact hi
    · intro x hx
      simp only [List.mem_append, List.mem_map, List.mem_singleton] at hx
      rcases hx with ⟨_, ⟨_, _, rfl⟩ | rfl, rfl⟩ <;> rfl
    · simp
  obtain ⟨J, T, hJT, hJ, hT, hT0⟩ := hidx
  have hori : dropDups (rows.map PlotRow.origin) = (List.range (n + 1)).map (Spec.panelKey t n) := by
    rw [← dropDups_keys _ h.panelKey_inj hJ hT hT0, ← hJT, List.map_map]
    exact congrArg _ (List.map_congr_left fun r hr => (hkey r hr).2.1)
  have hord : originOrder rows = (List.range (n + 1)).map (Spec.panelKey t n) := by
    unfold originOrder
    have e : dropDups (rows.map (fun r => (r.index, r.origin))) =
        (List.range (n + 1)).map (fun k => (k, Spec.panelKey t n k)) := by
      rw [← dropDups_keys (fun k => (k, Spec.panelKey t n k)) (fun i _ j _ e => (Prod.mk.inj e).1) hJ hT hT0, ← hJT,
        List.map_map]
      exact congrArg _ (List.map_congr_left fun r hr => Prod.ext rfl (hkey r hr).2.1)
    rw [e, List.Pairwise.insertionSort_eq, List.map_map]
    · rfl
    · rw [List.pairwise_map]
      exact List.pairwise_lt_range.imp (fun h => h.le)
  have hmax : ∀ k, ∃ M : K, k ≤ n →
      IsGreatest {x | ∃ r ∈ rows, r.origin = Spec.panelKey t n k ∧ r.loss = .fin x} M ∧
      numMax ((rows.filter (fun r => decide (r.origin = Spec.panelKey t n k))).map PlotRow.loss) = .fin M := by
    intro k
    by_cases hk : k ≤ n
    swap
    · exact ⟨0, fun h => absurd h hk⟩
    have hne : ∃ r ∈ rows, r.origin = Spec.panelKey t n k := by
      have : Spec.panelKey t n k ∈ dropDups (rows.map PlotRow.origin) := by
        rw [hori]; exact List.mem_map_of_mem (List.mem_range.2 (by omega))
      rw [mem_dropDups_iff] at this
      obtain ⟨r, hr, e⟩ := List.mem_map.1 this
      exact ⟨r, hr, e⟩
    have hx : ∀ r : PlotRow K, ∃ x : K, r ∈ rows → r.loss = .fin x := by
      intro r
      by_cases hr : r ∈ rows
      · obtain ⟨x, hx⟩ := (hkey r hr).2.2.1
        exact ⟨x, fun _ => hx⟩
      · exact ⟨0, fun h => absurd h hr⟩
    choose x hx using hx
    have e : (rows.filter (fun r => decide (r.origin = Spec.panelKey t n k))).map PlotRow.loss =
        ((rows.filter (fun r => decide (r.origin = Spec.panelKey t n k))).map x).map Num.fin := by
      rw [List.map_map]
      exact List.map_congr_left fun r hr => hx r (List.mem_filter.1 hr).1
    obtain ⟨M, hM, hM1, hM2⟩ := numMax_fin (l := (rows.filter (fun r : PlotRow K => decide (r.origin = Spec.panelKey t n k))).map x)
      (by
        obtain ⟨r, hr, he⟩ := hne
        exact List.ne_nil_of_mem (List.mem_map_of_mem (List.mem_filter.2 ⟨hr, by simpa using he⟩)))
    refine ⟨M, fun _ => ⟨⟨?_, ?_⟩, by rw [e, hM1]⟩⟩
    · obtain ⟨r, hr, rfl⟩ := List.mem_map.1 hM
      obtain ⟨hr, he⟩ := List.mem_filter.1 hr
      exact ⟨r, hr, by simpa using he, hx r hr⟩
    · rintro y ⟨r, hr, he, hy⟩
      have : y = x r := by rw [hx r hr] at hy; exact (Num.fin.inj hy).symm
      rw [this]
      exact hM2 _ (List.mem_map_of_mem (List.mem_filter.2 ⟨hr, by simpa using he⟩))
  choose M hM using hmax
  have hzip : (originOrder rows).zip (dropDups (rows.map PlotRow.origin)) =
      (List.range (n + 1)).map (fun k => (Spec.panelKey t n k, Spec.panelKey t n k)) := by
    rw [hord, hori, List.zip_map', ]
  have htick : ∀ k ≤ n, lossTicks (numMax ((rows.filter (fun r => decide (r.origin = Spec.panelKey t n k))).map
      PlotRow.loss)) = getYticks (M k) := fun k hk => by rw [(hM k hk).2]; rfl
  refine ⟨rows, M, hrows, fun k hk => (hM k hk).1, ?_, ?_, ?_⟩
  · intro hall
    have : ∀ k, ∃ top : K, k ≤ n → M k < top ∧ top < 2 * M k ∧
        getYticks (M k) = .ok [0, top / 4, 2 * (top / 4), 3 * (top / 4), top] := by
      intro k
      by_cases hk : k ≤ n
      swap
      · exact ⟨0, fun h => absurd h hk⟩
      obtain ⟨h1, h2, h3⟩ := hall k hk
      obtain ⟨e, he, he1, he2⟩ : ∃ e : ℕ, e < 10 ∧ (10 : K) ^ e < M k ∧ M k < 10 ^ (e + 1) := by
        rcases xDiv_spec (M k) with ⟨e, he, -, h4, h5⟩ | ⟨-, h⟩
        · refine ⟨e, he, h4, ?_⟩
          by_cases h9 : e < 9
          · exact lt_of_le_of_ne (h5 h9) (h3 _)
          · obtain rfl : e = 9 := by omega
            exact h2
        · exact absurd h (not_le.2 h1)
      obtain ⟨m, -, -, hm1, hm2, hm3⟩ := C69_ticks (M k) e he he1 he2
      refine ⟨10 ^ e * m, fun _ => ⟨hm1, ?_, hm3⟩⟩
      have : (10 : K) ^ e * ((m : K) - 1) = 10 ^ e * m - 10 ^ e := by ring
      rw [this] at hm2
      linarith
    choose top htop using this
    refine ⟨(List.range (n + 1)).map (fun k => ⟨Spec.panelKey t n k, Spec.panelKey t n k,
      rows.filter (fun r => decide (r.origin = Spec.panelKey t n k)),
      [0, top k / 4, 2 * (top k / 4), 3 * (top k / 4), top k]⟩), ?_, by simp, ?_⟩
    · unfold basePanels
      rw [hzip, List.mapM_map]
      refine mapM_ok_map _ (fun k hk => ?_)
      rw [List.mem_range] at hk
      show (lossTicks _ >>= _) = _
      rw [htick k (by omega), (htop k (by omega)).2.2]
      rfl
    · intro k hk
      refine ⟨_, by rw [List.getElem?_map, List.getElem?_range (by omega)]; rfl, rfl, rfl, ?_, top k,
        (htop k hk).1, (htop k hk).2.1, rfl⟩
      intro r
      simp [List.mem_filter]
  · rintro ⟨k, hk, hbad⟩
    unfold basePanels
    rw [hzip, List.mapM_map]
    have hcase : ∀ k ≤ n, (Spec.Tickable (M k) ∧ ∃ l, getYticks (M k) = .ok l) ∨
        (¬ Spec.Tickable (M k) ∧ getYticks (M k) = .error .valueError) := by
      intro k _
      by_cases hT : Spec.Tickable (M k)
      · exact Or.inl ⟨hT, (C69_iff _).2 hT⟩
      · refine Or.inr ⟨hT, C69_raises _ ?_⟩
        by_contra hc
        rw [not_or, not_or] at hc
        exact hT ⟨not_le.1 hc.1, not_le.1 hc.2.2, fun j hj => hc.2.1 ⟨j, hj⟩⟩
    refine mapM_some_error ?_ ⟨k, List.mem_range.2 (by omega), ?_⟩
    · intro k hk
      rw [List.mem_range] at hk
      rcases hcase k (by omega) with ⟨-, l, hl⟩ | ⟨-, hl⟩
      · left
        refine ⟨⟨Spec.panelKey t n k, Spec.panelKey t n k,
          rows.filter (fun r => decide (r.origin = Spec.panelKey t n k)), l⟩, ?_⟩
        show (lossTicks _ >>= _) = _
        rw [htick k (by omega), hl]
        rfl
      · right
        show (lossTicks _ >>= _) = _
        rw [htick k (by omega), hl]
        rfl
    · rcases hcase k hk with ⟨hT, -⟩ | ⟨-, hl⟩
      · exact absurd hT hbad
      · show (lossTicks _ >>= _) = _
        rw [htick k hk, hl]
        rfl
  · intro hlab
    have hd : labels (rows.map PlotRow.dev) = (List.range n).map t.dAt ++ [lab] := by
      refine labels_eq_of_mem ?_ (fun x => ?_)
      · rw [List.pairwise_append]
        refine ⟨by rw [← h.devs_eq]; exact h.devs, by simp, ?_⟩
        intro a ha y hy
        obtain ⟨j, hj, rfl⟩ := List.mem_map.1 ha
        rw [List.mem_singleton] at hy
        rw [hy]
        exact hlab j (List.mem_range.1 hj)
      · simp only [List.mem_append, List.mem_map (f := t.dAt), List.mem_range, List.mem_singleton]
        constructor
        · intro hx
          rw [← hR]
          simp only [List.mem_map, List.mem_append, List.mem_range, List.mem_singleton]
          rcases hx with ⟨j, hj, rfl⟩ | rfl
          · exact ⟨_, Or.inr (Or.inl ⟨j, hj, rfl⟩), rfl⟩
          · exact ⟨_, Or.inr (Or.inr rfl), rfl⟩
        · intro hx
          obtain ⟨r, hr, rfl⟩ := List.mem_map.1 hx
          rcases (hkey r hr).2.2.2 with ⟨j, hj, e⟩ | e
          · exact Or.inl ⟨j, hj, e.symm⟩
          · exact Or.inr e
    have hmx : ((List.range n).map t.dAt ++ [lab]).max? = some lab := by
      rw [List.max?_eq_some_iff]
      refine ⟨by simp, fun y hy => ?_⟩
      simp only [List.mem_append, List.mem_map, List.mem_range, List.mem_singleton] at hy
      rcases hy with ⟨j, hj, rfl⟩ | rfl
      · exact (hlab j hj).le
      · exact le_rfl
    unfold xTicks
    rw [hd]
    dsimp only
    rw [hmx, List.map_append, List.map_map]
    congr 1
    · refine List.map_congr_left fun j hj => ?_
      have := hlab j (List.mem_range.1 hj)
      simp [this.ne]
    · simp

/-- **C133 is false of the code**: the losses of this triangle are all 100, so no axis can be drawn. -/
theorem C133_fails :
    let t : Tri ℚ := stairTri 3 (fun _ _ => 100)
    (((baseCL (fun _ => .nan) t t.a2aind0 "all-weighted" (.fin 1)).bind (plotData t)).bind basePanels).map
      List.length = .error .valueError := by
  decide +kernel

/-- Beside `C133_partial`: the panels of the 4 x 4 example, the ticks of the total and those of the x axis. -/
example : (((baseCL (fun _ => .nan) exTri exTri.a2aind0 "all-weighted" (.fin 1)).bind (plotData exTri)).bind
    basePanels).map (fun ps => (ps.map (fun p => (p.label, p.shows)), ps.map (fun p => p.points.length),
      (ps.map BasePanel.yticks).getLast?)) =
    .ok ([2001, 2002, 2003, 2004].map (fun o => (some o, some o)) ++ [(none, none)], [6, 6, 6, 6, 5],
      some [0, 250, 500, 750, 1000]) := by
  decide +kernel

example : ((baseCL (fun _ => .nan) exTri exTri.a2aind0 "all-weighted" (.fin 1)).bind (plotData exTri)).map xTicks =
    .ok [(1, some 1), (2, some 2), (3, some 3), (4, some 4), (5, none)] := by
  decide +kernel

end base

/-! ## C134 -/

section mack

theorem densityRows_keys {α : Type} (n : ℕ) (g : ℕ → List α) :
    dropDups (((List.range n).flatMap (fun i => (g i).map (fun p => (i, p)))).map Prod.fst) =
      (List.range n).filter (fun i => !(g i).isEmpty) := by
  induction n with
  | zero => rfl
  | succ n ih =>
    rw [List.range_succ, List.flatMap_append, List.map_append, dropDups_append, ih, List.filter_append]
    congr 1
    have e : ((([n] : List ℕ).flatMap (fun i => (g i).map (fun p => (i, p)))).map Prod.fst) =
        List.replicate (g n).length n := by
      rw [List.flatMap_singleton, List.map_map, List.eq_replicate_iff]
      refine ⟨by simp, fun b hb => ?_⟩
      obtain ⟨_, _, rfl⟩ := List.mem_map.1 hb
      rfl
    rw [e]
    cases hg : g n with
    | nil => simp [hg, dropDups]
    | cons a l =>
      have hd : dropDups (List.replicate (l.length + 1) n) = [n] := by
        rw [List.replicate_succ, dropDups, List.filter_eq_nil_iff.2]
        intro y hy
        have := List.eq_of_mem_replicate (mem_dropDups_iff.1 hy)
        simp [this]
      rw [List.length_cons, hd, List.filter_eq_self.2, List.filter_eq_self.2]
      · intro x hx
        rw [List.mem_singleton] at hx
        rw [hx, hg]; rfl
      · intro x hx
        rw [List.mem_singleton] at hx
        subst hx
        simp only [decide_eq_true_eq, List.mem_map, List.mem_flatMap, List.mem_range]
        rintro ⟨_, ⟨i, hi, q, _, rfl⟩, e⟩
        simp at e
        omega

/-- The panels in the order in which the grid fills them: the distributions with a curve. -/
theorem mackDensity_keys (r : MackResult) (z : ℝ → Num ℝ) :
    dropDups ((mackDensity r z).map Prod.fst) = (List.range r.rvs.length).filter
      (fun i => !(((mackDensity r z).filter (fun p => decide (p.1 = i))).map Prod.snd).isEmpty) := by
  conv_lhs => unfold mackDensity
  rw [densityRows_keys]
  refine List.filter_congr fun i hi => ?_
  rw [mackDensity_block (List.getElem?_eq_getElem (List.mem_range.1 hi)),
    List.getElem?_eq_getElem (List.mem_range.1 hi)]
  rfl

theorem lognorm_rv_mean {s R : ℝ} (hs : 0 < s) (hR : 0 < R) {v : RV}
    (hv : mackRV "lognorm" (.fin s) (.fin R) = .ok v) : v.mean = .fin (max R 1) := by
  obtain ⟨a, σ, e, ha, -, hσ, hm, -⟩ := lognorm_moments (s := s) hR
  rw [e] at hv
  obtain rfl := Except.ok.inj hv
  have hσ := hσ.2 hs.ne'
  rw [lognormal_mean] at hm
  show (if Num.lt 0 (.fin σ) = true ∧ Num.lt 0 (.fin a) = true then
    Num.fin a * Num.exp ((Num.fin σ).pow 2 / .fin 2) else .nan) = _
  rw [if_pos (by simp [Num.zero_def, Num.lt_fin, hσ, ha]), show (Num.fin σ).pow 2 = Num.fin (σ ^ 2) from rfl, Num.fin_div _ _ (by norm_num), Num.exp_fin,
    Num.fin_mul, hm]

variable {t ind : Tri ℝ} {n : ℕ} {c w : ℕ → ℕ → ℝ}

theorem mack_rvs_length (h : Spec.Stair t n c) (hp : Spec.Positive n c) (hi : IndW t ind n w) (hw : Spec.Weights n w)
    (hn : 4 ≤ n) (alpha : ℕ) {dist : String} {r : MackResult} (hr : mackCall alpha t ind dist = .ok r) :
    r.rvs.length = n + 1 := by
  have hd : dist = "norm" ∨ dist = "lognorm" := by
    by_contra hd
    rw [not_or] at hd
    rw [(C49_quantiles h hp hi hw hn alpha dist).1 hd.1 hd.2] at hr
    cases hr
  obtain ⟨r', hr', hq⟩ := (C49_quantiles h hp hi hw hn alpha dist).2 hd
  obtain rfl := Except.ok.inj (hr.symm.trans hr')
  have := (hq (fun _ => .fin 0) 0 0 (by simp [Num.le])).1
  simpa [MackResult.getQuantile] using this

/-- **C134 is false of the code**: on every positive staircase, for every distribution and all valid levels, the plot
raises `KeyError`. -/
theorem C134_fails (h : Spec.Stair t n c) (hp : Spec.Positive n c) (hi : IndW t ind n w) (hw : Spec.Weights n w)
    (hn : 4 ≤ n) (alpha : ℕ) {dist : String} {r : MackResult} (hr : mackCall alpha t ind dist = .ok r) (z : ℝ → Num ℝ)
    {q : List (Num ℝ)} {qs : List ℝ} (hq : qtlsFormatterRes q = .ok qs) :
    mackPlot false t r z q = .error .keyError := by
  have hd : dist = "norm" ∨ dist = "lognorm" := by
    by_contra hd
    rw [not_or] at hd
    rw [(C49_quantiles h hp hi hw hn alpha dist).1 hd.1 hd.2] at hr
    cases hr
  obtain ⟨core, b, lab, hr0, p⟩ := mack_parts h hp hi hw hn alpha
  obtain ⟨r', hr2, hcore, -⟩ := mackCall_ok hr0 hd
  obtain rfl := Except.ok.inj (hr.symm.trans hr2)
  have hb : r.core.toBase = b := by
    rw [hcore]
    unfold MackCore.toBase
    rw [p.cldfs, p.rows, p.totLatest, p.totUltimate, p.totReserve, p.sqr, ← p.spec.factors]
  have hl : ∃ l, tailLabel (core.ldfs.map Prod.fst) = .ok l := by
    rw [p.factors, mackSer_fst h (by omega)]
    obtain ⟨l, hl, -⟩ := tailLabel_spec (l := (List.range (n - 1)).map t.dAt ++ [lab]) (by
      rw [Spec.Increasing, List.pairwise_append]
      refine ⟨by rw [← h.take_devs]; exact h.devs.sublist (List.take_sublist _ _), by simp, ?_⟩
      intro a ha y hy
      obtain ⟨j, hj, rfl⟩ := List.mem_map.1 ha
      rw [List.mem_singleton] at hy
      rw [hy]
      exact p.lab_gt j (List.mem_range.1 hj)) (by simp; omega)
    exact ⟨l, hl⟩
  obtain ⟨l, hl⟩ := hl
  have hrows := plotData_stair h p.spec hl
  unfold mackPlot
  rw [if_neg (by simp), hb, hrows, hq]
  show (if _ = [] then _ else _) = _
  rw [if_neg (by simp)]

/-- **C134, partial**: with the table of density curves, on every positive staircase.  If all standard errors from the
second origin on are positive (and, for the lognormal, the reserves), there is one panel for each of these origins and
the total.  It carries the name of the distribution whose curve it shows, the line of the mean is at the reserve (for
the lognormal: at the larger of the reserve and 1), and the other lines are at the quantiles of `get_quantiles`. -/
theorem C134_partial (h : Spec.Stair t n c) (hp : Spec.Positive n c) (hi : IndW t ind n w) (hw : Spec.Weights n w)
    (hn : 4 ≤ n) (alpha : ℕ) {dist : String} {r : MackResult} (hr : mackCall alpha t ind dist = .ok r)
    {z : ℝ → Num ℝ} {z1 z2 : ℝ} (hz1 : z (1 / 1000) = .fin z1) (hz2 : z (999 / 1000) = .fin z2) (hz : z1 < z2)
    {q : List (Num ℝ)} {qs : List ℝ} (hq : qtlsFormatterRes q = .ok qs) {s R : ℕ → ℝ}
    (hs : ∀ i ≤ n, r.stdErr[i]? = some (.fin (s i)))
    (hR : ∀ i ≤ n, (r.core.rows.map SummRow.reserve ++ [r.core.totReserve])[i]? = some (.fin (R i)))
    (hpos : ∀ i, 1 ≤ i → i ≤ n → 0 < s i ∧ (dist = "lognorm" → 0 < R i)) :
    ∃ ps, mackPlot true t r z q = .ok ps ∧ ps.length = n ∧ ∀ k < n, ∃ p, ps[k]? = some p ∧
      p.label = k + 1 ∧ p.shows = k + 1 ∧ p.points.length = 100 ∧
      p.points = ((mackDensity r z).filter (fun x => decide (x.1 = k + 1))).map Prod.snd ∧
      p.mean = .fin (if dist = "norm" then R (k + 1) else max (R (k + 1)) 1) ∧
      p.lines = qs.map (fun q => (r.getQuantile z q).getD (k + 1) .nan) := by
  have hd : dist = "norm" ∨ dist = "lognorm" := by
    by_contra hd
    rw [not_or] at hd
    rw [(C49_quantiles h hp hi hw hn alpha dist).1 hd.1 hd.2] at hr
    cases hr
  have hlen := mack_rvs_length h hp hi hw hn alpha hr
  obtain ⟨s', R', hs0, hC⟩ := C107_points h hp hi hw hn alpha hr hz1 hz2 hz
  have hblk : ∀ i ≤ n, (i = 0 → ((mackDensity r z).filter (fun x => decide (x.1 = i))).map Prod.snd = []) ∧
      (1 ≤ i → (((mackDensity r z).filter (fun x => decide (x.1 = i))).map Prod.snd).length = 100) := by
    intro i hi'
    obtain ⟨-, a1, a2, b1, b2, b3, b4⟩ := hC i hi'
    have es : s' i = s i := Num.fin.inj (Option.some.inj (a1.symm.trans (hs i hi')))
    have eR : R' i = R i := Num.fin.inj (Option.some.inj (a2.symm.trans (hR i hi')))
    refine ⟨fun e => b1 (by rw [e]; exact hs0), fun h1 => ?_⟩
    obtain ⟨p1, p2⟩ := hpos i h1 hi'
    rcases hd with e | e
    · rw [(b2 e (es ▸ p1)).1]; simp
    · obtain ⟨a, σ, -, -, -, hcv, -⟩ := b3 e (es ▸ p1) (eR ▸ p2 e)
      rw [hcv]; simp
  have hkeys : dropDups ((mackDensity r z).map Prod.fst) = (List.range n).map Nat.succ := by
    rw [mackDensity_keys, hlen, List.range_succ_eq_map, List.filter_cons_of_neg, List.filter_eq_self.2]
    · intro i hi'
      obtain ⟨k, hk, rfl⟩ := List.mem_map.1 hi'
      rw [List.mem_range] at hk
      have := (hblk (k + 1) (by omega)).2 (by omega)
      rw [Bool.not_eq_true', List.isEmpty_eq_false_iff]
      intro e
      rw [show k.succ = k + 1 from rfl] at e
      rw [e] at this
      simp at this
    · rw [(hblk 0 (by omega)).1 rfl]; simp
  refine ⟨_, by unfold mackPlot; rw [if_pos rfl, hq]; rfl, ?_, ?_⟩
  · unfold mackPanels
    rw [hkeys, hlen, List.range_succ_eq_map]
    simp
  · intro k hk
    obtain ⟨v, hv⟩ : ∃ v, r.rvs[k + 1]? = some v := ⟨_, List.getElem?_eq_getElem (by omega)⟩
    have hmean : v.mean = .fin (if dist = "norm" then R (k + 1) else max (R (k + 1)) 1) := by
      obtain ⟨core, b, lab, hr0, p⟩ := mack_parts h hp hi hw hn alpha
      obtain ⟨r', hr2, hcore, -, -, hvv⟩ := mackCall_ok hr0 hd
      obtain rfl := Except.ok.inj (hr.symm.trans hr2)
      obtain ⟨v', hv1, hv2⟩ := hvv (k + 1) _ _ (hs _ (by omega)) (by rw [← hcore]; exact hR _ (by omega))
      obtain rfl := Option.some.inj (hv.symm.trans hv2)
      obtain ⟨p1, p2⟩ := hpos (k + 1) (by omega) (by omega)
      rcases hd with rfl | rfl
      · rw [if_pos rfl]
        unfold mackRV at hv1
        rw [if_pos rfl] at hv1
        obtain rfl := Except.ok.inj hv1
        show (if Num.lt 0 (Num.fin (s (k + 1))) = true then Num.fin (R (k + 1)) else Num.nan) = _
        rw [if_pos (by simpa [Num.zero_def, Num.lt_fin] using p1)]
      · rw [if_neg (by decide)]
        exact lognorm_rv_mean p1 (p2 rfl) hv1
    refine ⟨_, by
      unfold mackPanels
      rw [hkeys, hlen, List.range_succ_eq_map, List.tail_cons, List.zip_map', List.map_map, List.getElem?_map,
        List.getElem?_range hk]
      rfl, rfl, rfl, (hblk (k + 1) (by omega)).2 (by omega), rfl, ?_, ?_⟩
    · show (r.rvs[k + 1]?).elim .nan RV.mean = _
      rw [hv]
      exact hmean
    · refine List.map_congr_left fun q _ => ?_
      show (r.rvs[k + 1]?).elim .nan (RV.ppf z q) = _
      unfold MackResult.getQuantile
      rw [List.getD_eq_getElem?_getD, List.getElem?_map, hv]
      rfl

/-- The names of the panels are shifted as soon as the second origin has no lognormal distribution: with a reserve of at
most 0 there and a positive one (and standard error) for the third origin, the first panel is named after the second
origin and shows the third. -/
theorem C134_shift (h : Spec.Stair t n c) (hp : Spec.Positive n c) (hi : IndW t ind n w) (hw : Spec.Weights n w)
    (hn : 4 ≤ n) (alpha : ℕ) {r : MackResult} (hr : mackCall alpha t ind "lognorm" = .ok r)
    {z : ℝ → Num ℝ} {z1 z2 : ℝ} (hz1 : z (1 / 1000) = .fin z1) (hz2 : z (999 / 1000) = .fin z2) (hz : z1 < z2)
    {q : List (Num ℝ)} {qs : List ℝ} (hq : qtlsFormatterRes q = .ok qs) {R1 R2 s2 : ℝ}
    (h1 : (r.core.rows.map SummRow.reserve ++ [r.core.totReserve])[1]? = some (.fin R1)) (h1' : R1 ≤ 0)
    (h2 : (r.core.rows.map SummRow.reserve ++ [r.core.totReserve])[2]? = some (.fin R2)) (h2' : 0 < R2)
    (h3 : r.stdErr[2]? = some (.fin s2)) (h3' : 0 < s2) :
    ∃ p ps, mackPlot true t r z q = .ok (p :: ps) ∧ p.label = 1 ∧ p.shows = 2 := by
  have hlen := mack_rvs_length h hp hi hw hn alpha hr
  obtain ⟨s', R', hs0, hC⟩ := C107_points h hp hi hw hn alpha hr hz1 hz2 hz
  have b0 : ((mackDensity r z).filter (fun x => decide (x.1 = 0))).map Prod.snd = [] :=
    (hC 0 (by omega)).2.2.2.1 hs0
  have b1 : ((mackDensity r z).filter (fun x => decide (x.1 = 1))).map Prod.snd = [] := by
    obtain ⟨-, -, a2, -, -, -, b4⟩ := hC 1 (by omega)
    have eR : R' 1 = R1 := Num.fin.inj (Option.some.inj (a2.symm.trans h1))
    exact b4 rfl (eR ▸ h1')
  have b2 : ((mackDensity r z).filter (fun x => decide (x.1 = 2))).map Prod.snd ≠ [] := by
    obtain ⟨-, a1, a2, -, -, b3, -⟩ := hC 2 (by omega)
    have eR : R' 2 = R2 := Num.fin.inj (Option.some.inj (a2.symm.trans h2))
    have es : s' 2 = s2 := Num.fin.inj (Option.some.inj (a1.symm.trans h3))
    obtain ⟨a, σ, -, -, -, hcv, -⟩ := b3 rfl (es ▸ h3') (eR ▸ h2')
    rw [hcv]
    intro e
    have := congrArg List.length e
    simp at this
  obtain ⟨m, rfl⟩ : ∃ m, n = m + 2 := ⟨n - 2, by omega⟩
  have hr3 : List.range (m + 3) = 0 :: 1 :: 2 :: (List.range m).map (· + 3) := by
    rw [List.range_succ_eq_map, List.range_succ_eq_map, List.range_succ_eq_map]
    simp [List.map_map, Function.comp_def]
  have hkeys : ∃ l, dropDups ((mackDensity r z).map Prod.fst) = 2 :: l := by
    rw [mackDensity_keys, hlen, hr3, List.filter_cons_of_neg (by rw [b0]; simp),
      List.filter_cons_of_neg (by rw [b1]; simp),
      List.filter_cons_of_pos (by rw [Bool.not_eq_true', List.isEmpty_eq_false_iff]; exact b2)]
    exact ⟨_, rfl⟩
  obtain ⟨l, hl⟩ := hkeys
  unfold mackPlot
  rw [if_pos rfl, hq]
  unfold mackPanels
  rw [hl, hlen, hr3]
  exact ⟨_, _, rfl, rfl, rfl⟩

/-- Values of the witness: the oldest origin does not develop in the last period. -/
noncomputable def flatVals (i j : ℕ) : ℝ := if j = 0 then 100 else if j = 1 then 150 + 10 * i else 200 + 10 * i

theorem flatVals_pos : Spec.Positive 4 flatVals := by
  intro i j _
  unfold flatVals
  split
  · norm_num
  · split <;> positivity

/-- **C134 fails** also with the table of density curves: there is a positive triangle whose first panel, for all levels
and every `z` increasing between the two ends, is named after the second origin and shows the third. -/
theorem C134_fails_names : ∃ (t : Tri ℝ) (r : MackResult), Spec.Stair t 4 flatVals ∧
    mackCall 1 t t.a2aind0 "lognorm" = .ok r ∧ ∀ (z : ℝ → Num ℝ) (z1 z2 : ℝ), z (1 / 1000) = .fin z1 →
      z (999 / 1000) = .fin z2 → z1 < z2 → ∀ q qs, qtlsFormatterRes q = .ok qs →
      ∃ p ps, mackPlot true t r z q = .ok (p :: ps) ∧ p.label = 1 ∧ p.shows = 2 := by
  have h := stairTri_stair 4 flatVals
  have hp := flatVals_pos
  have hi := h.indW0 hp.ne_zero
  have hw : Spec.Weights (K := ℝ) 4 (fun _ _ => 1) := Spec.Weights.one (by norm_num)
  obtain ⟨core, b, lab, hc, p⟩ := mack_parts h hp hi hw (le_refl _) 1
  obtain ⟨r, hr, e2, e3, -, -⟩ := mackCall_ok hc (Or.inr rfl : "lognorm" = "norm" ∨ "lognorm" = "lognorm")
  refine ⟨_, r, h, hr, fun z z1 z2 hz1 hz2 hz q qs hq => ?_⟩
  have hs1 : Spec.sig0 1 4 flatVals (fun _ _ => 1) 1 ≠ 0 := by
    unfold Spec.sig0 Spec.sqDev Spec.mackF Spec.mackW Spec.colSum flatVals
    norm_num [Finset.sum_range_succ]
  have p1 := lt_of_le_of_ne (sig0_nonneg hp hw 1 1) (Ne.symm hs1)
  have hd : ¬ Spec.Degenerate 1 4 flatVals (fun _ _ => 1) := fun hd => hs1 hd.1
  have hsig : 0 < Spec.sigma2 1 4 flatVals (fun _ _ => 1) 1 := by
    unfold Spec.sigma2
    rw [if_pos (by norm_num)]
    exact p1
  have hm0 : 0 < Spec.mse 1 4 flatVals (fun _ _ => 1) 2 := by
    unfold Spec.mse
    exact add_pos_of_pos_of_nonneg (procVar_pos hp (fun j hj => mackF_pos hp hw 1 hj)
      (fun j _ => sigma2_nonneg hp hw 1 j) (by norm_num) (by norm_num) (by norm_num) hsig)
      (paramVar_nonneg (fun j hj => ldfVar_nonneg hp hw 1 hj) 2)
  have hse : r.stdErr[2]? = some (.fin (Real.sqrt (Spec.mse 1 4 flatVals (fun _ _ => 1) 2))) := by
    have hm : core.mse[2]? = some (.fin (Spec.mse 1 4 flatVals (fun _ _ => 1) 2)) := by
      rw [p.mse_eq h hp hw hd]; rfl
    have hl : 2 < core.mse.length := by rw [p.mse_eq h hp hw hd]; simp
    rw [e3, List.getElem?_append_left (by simpa using hl), List.getElem?_map, hm, Option.map_some,
      Num.sqrt_fin hm0.le]
  have hf1 : Spec.mackF 1 4 flatVals (fun _ _ => 1) 1 = 41 / 31 := by
    unfold Spec.mackF Spec.mackW Spec.colSum flatVals
    norm_num [Finset.sum_range_succ]
  have hf2 : Spec.mackF 1 4 flatVals (fun _ _ => 1) 2 = 1 := by
    unfold Spec.mackF Spec.mackW Spec.colSum flatVals
    norm_num [Finset.sum_range_succ]
  have ht2 : Spec.tailProd (Spec.mackAll 1 4 flatVals (fun _ _ => 1)) 4 2 = 1 := by
    unfold Spec.tailProd
    rw [Finset.prod_Ico_succ_top (by norm_num), Finset.prod_Ico_succ_top (by norm_num), Finset.Ico_self,
      Finset.prod_empty, Spec.mackAll_lt (by norm_num), hf2]
    unfold Spec.mackAll Spec.withTail
    norm_num
  have ht1 : Spec.tailProd (Spec.mackAll 1 4 flatVals (fun _ _ => 1)) 4 1 = 41 / 31 := by
    unfold Spec.tailProd
    rw [Finset.prod_Ico_succ_top (by norm_num), Finset.prod_Ico_succ_top (by norm_num),
      Finset.prod_Ico_succ_top (by norm_num), Finset.Ico_self, Finset.prod_empty,
      Spec.mackAll_lt (by norm_num), Spec.mackAll_lt (by norm_num), hf1, hf2]
    unfold Spec.mackAll Spec.withTail
    norm_num
  have hres : ∀ i < 4, (r.core.rows.map SummRow.reserve ++ [r.core.totReserve])[i]? =
      some (.fin (flatVals i (4 - 1 - i) * Spec.tailProd (Spec.mackAll 1 4 flatVals (fun _ _ => 1)) 4 (4 - 1 - i) -
        flatVals i (4 - 1 - i))) := by
    intro i hi'
    obtain ⟨row, q1, -, -, -, -, -, -, q2⟩ := p.spec.rows i hi'
    rw [e2, List.getElem?_append_left (by rw [List.length_map, p.rows, p.spec.rows_length]; exact hi'),
      List.getElem?_map, p.rows, q1, Option.map_some, q2]
  refine C134_shift h hp hi hw (le_refl _) 1 hr hz1 hz2 hz hq (hres 1 (by norm_num)) ?_ (hres 2 (by norm_num)) ?_ hse
    (Real.sqrt_pos.2 hm0)
  · rw [show (4 : ℕ) - 1 - 1 = 2 from rfl, ht2]
    norm_num
  · rw [show (4 : ℕ) - 1 - 2 = 1 from rfl, ht1]
    unfold flatVals
    norm_num

/-! ## C135 -/

/-- The development path of origin `i`: observed values, then projections, the ultimate last. -/
noncomputable def Spec.path (t : Tri ℝ) (n : ℕ) (c : ℕ → ℕ → ℝ) (f : ℕ → ℝ) (i : ℕ) : List (PathRow ℝ) :=
  (List.range n).map (fun j => ⟨t.oAt i, some (t.dAt j), .fin (Spec.squared n c f i j)⟩) ++
    [⟨t.oAt i, none, .fin (c i (n - 1 - i) * Spec.tailProd f n (n - 1 - i))⟩]

theorem filter_key_single {α : Type} {p : α → Bool} {g : ℕ → α} {n i : ℕ} (hi : i < n)
    (hp : ∀ k < n, p (g k) = decide (k = i)) : ((List.range n).map g).filter p = [g i] := by
  rw [List.filter_map, List.filter_congr (p := p ∘ g) (q := fun k => decide (k = i))
    (fun k hk => hp k (List.mem_range.1 hk))]
  have : (List.range n).filter (fun k => decide (k = i)) = [i] := by
    rw [List.filter_eq, List.count_eq_one_of_mem List.nodup_range (List.mem_range.2 hi)]
    rfl
  rw [this]
  rfl

/-- The paths of the exhibit on every staircase. -/
theorem diag_paths (h : Spec.Stair t n c) {f : ℕ → ℝ} {ldfs : Ser ℝ} {b : BaseResult ℝ}
    (hs : Spec.BaseSpec t n c f ldfs b) :
    pathGroups (clData t b.sqr) t.origins = .ok ((List.range n).map (Spec.path t n c f)) := by
  have hg : ∀ i < n, (clData t b.sqr).filter (fun r => decide (r.origin = t.oAt i)) = Spec.path t n c f i := by
    intro i hi
    unfold clData Spec.path
    rw [List.filter_append, h.nr, h.nc, List.filter_flatMap]
    congr 1
    · rw [List.map_eq_flatMap]
      refine List.flatMap_congr fun j hj => ?_
      rw [List.mem_range] at hj
      rw [filter_key_single (p := fun r : PathRow ℝ => decide (r.origin = t.oAt i)) hi
        (fun k hk => decide_eq_decide.2 (h.oAt_eq_iff hk hi)), hs.sqr_cells i hi j hj]
      rfl
    · rw [filter_key_single (p := fun r : PathRow ℝ => decide (r.origin = t.oAt i)) hi
        (fun k hk => decide_eq_decide.2 (h.oAt_eq_iff hk hi)), hs.sqr_ultimate, List.getD_eq_getElem?_getD, List.getElem?_map, List.getElem?_range hi]
      rfl
  unfold pathGroups
  rw [h.origins_eq, List.mapM_map]
  refine mapM_ok_map _ (fun i hi => ?_)
  rw [List.mem_range] at hi
  simp only [Function.comp_apply]
  rw [hg i hi]
  cases hpth : Spec.path t n c f i with
  | nil => simp [Spec.path] at hpth
  | cons a l => rfl

/-- **C135 is false of the code**: on every positive staircase `diagnostics` raises `KeyError`; if it read the column of
the development labels under its name it would raise `TypeError`. -/
theorem C135_fails (h : Spec.Stair t n c) (hp : Spec.Positive n c) (hi : IndW t ind n w) (hw : Spec.Weights n w)
    (hn : 4 ≤ n) (alpha : ℕ) {dist : String} {r : MackResult} (hr : mackCall alpha t ind dist = .ok r)
    (z : ℝ → Num ℝ) :
    (diagnostics false t r z).map DiagExhibit.mean = .error .keyError ∧
    (diagnostics true t r z).map DiagExhibit.mean = .error .typeError := by
  have hd : dist = "norm" ∨ dist = "lognorm" := by
    by_contra hd
    rw [not_or] at hd
    rw [(C49_quantiles h hp hi hw hn alpha dist).1 hd.1 hd.2] at hr
    cases hr
  obtain ⟨core, b, lab, hr0, p⟩ := mack_parts h hp hi hw hn alpha
  obtain ⟨r', hr2, hcore, -⟩ := mackCall_ok hr0 hd
  obtain rfl := Except.ok.inj (hr.symm.trans hr2)
  have hg := diag_paths h p.spec
  have hsq : r.core.sqr = b.sqr := by rw [hcore, p.sqr]
  have ht : pathTicks (clData t b.sqr) = .error .typeError := by
    unfold pathTicks
    rw [if_pos]
    unfold clData
    rw [h.nr, h.nc]
    simp only [List.any_eq_true, List.mem_append, List.mem_flatMap, List.mem_map, List.mem_range]
    exact ⟨⟨_, Or.inl ⟨0, by omega, 0, by omega, rfl⟩, rfl⟩, ⟨_, Or.inr ⟨0, by omega, rfl⟩, rfl⟩⟩
  unfold diagnostics
  dsimp only
  rw [hsq, hg]
  constructor
  · rfl
  · show ((pathTicks (clData t b.sqr) >>= _).map _ : Except PyErr (Num ℝ)) = _
    rw [ht]
    rfl

/-- **C135, partial**: what the facets would show, on every positive staircase.  The path of an origin consists of its
observed values, then of the previous value times the factor, and ends at the ultimate of the summary.  The line in the
first facet is at the sum of the reserves of the origins; for the normal distribution the curve is the density with
this mean and the standard error of the total, provided the latter is positive.  Missing: an exhibit at all. -/
theorem C135_partial (h : Spec.Stair t n c) (hp : Spec.Positive n c) (hi : IndW t ind n w) (hw : Spec.Weights n w)
    (hn : 4 ≤ n) (alpha : ℕ) {dist : String} {r : MackResult} (hr : mackCall alpha t ind dist = .ok r)
    {z : ℝ → Num ℝ} {z1 z2 : ℝ} (hz1 : z (1 / 1000) = .fin z1) (hz2 : z (999 / 1000) = .fin z2) (hz : z1 < z2) :
    ∃ (gs : List (List (PathRow ℝ))) (v : ℕ → ℕ → ℝ) (u : ℕ → ℝ) (tot : ℝ),
      pathGroups (clData t r.core.sqr) t.origins = .ok gs ∧ gs.length = n ∧
      (∀ i < n, gs[i]? = some ((List.range n).map (fun j => ⟨t.oAt i, some (t.dAt j), .fin (v i j)⟩) ++
          [⟨t.oAt i, none, .fin (u i)⟩]) ∧
        (∀ j, i + j < n → v i j = c i j) ∧
        (∀ j, n ≤ i + j + 1 → j + 1 < n → ∃ f, r.core.ldfs.iloc j = .fin f ∧ v i (j + 1) = v i j * f) ∧
        ∃ row, r.core.rows[i]? = some row ∧ row.ultimate = .fin (u i) ∧
          row.reserve = .fin (u i - c i (n - 1 - i))) ∧
      (diagFacets t r z gs).mean = .fin tot ∧ tot = ∑ i ∈ Finset.range n, (u i - c i (n - 1 - i)) ∧
      (dist = "norm" → ∀ s, r.stdErr[n]? = some (.fin s) → 0 < s →
        Spec.Curve (tot + s * z1) (tot + s * z2) (Spec.normDensity tot s) (diagFacets t r z gs).density) := by
  have hd : dist = "norm" ∨ dist = "lognorm" := by
    by_contra hd
    rw [not_or] at hd
    rw [(C49_quantiles h hp hi hw hn alpha dist).1 hd.1 hd.2] at hr
    cases hr
  have hlen := mack_rvs_length h hp hi hw hn alpha hr
  obtain ⟨s', R', -, hC⟩ := C107_points h hp hi hw hn alpha hr hz1 hz2 hz
  obtain ⟨core, b, lab, hr0, p⟩ := mack_parts h hp hi hw hn alpha
  obtain ⟨r', hr2, hcore, -⟩ := mackCall_ok hr0 hd
  obtain rfl := Except.ok.inj (hr.symm.trans hr2)
  have hrows : core.rows.length = n := by rw [p.rows, p.spec.rows_length]
  refine ⟨_, Spec.squared n c (Spec.mackAll alpha n c w),
    fun i => c i (n - 1 - i) * Spec.tailProd (Spec.mackAll alpha n c w) n (n - 1 - i), _,
    by rw [hcore, p.sqr]; exact diag_paths h p.spec, by simp, ?_, ?_, rfl, ?_⟩
  · intro i hi'
    refine ⟨by rw [List.getElem?_map, List.getElem?_range hi']; rfl, ?_, ?_, ?_⟩
    · intro j hj
      exact if_pos hj
    · intro j h1 h2
      refine ⟨_, by rw [hcore]; exact p.ldf h j (by omega), ?_⟩
      unfold Spec.squared
      rw [if_neg (by omega), Finset.prod_Ico_succ_top (by omega), ← mul_assoc,
        Spec.mackAll_lt (by omega)]
      congr 1
      by_cases hlt : i + j < n
      · obtain rfl : j = n - 1 - i := by omega
        rw [if_pos hlt, Finset.Ico_self, Finset.prod_empty, mul_one]
      · rw [if_neg hlt]
    · obtain ⟨row, q1, -, -, -, -, -, q3, q2⟩ := p.spec.rows i hi'
      exact ⟨row, by rw [hcore, p.rows]; exact q1, q3, q2⟩
  · show r.core.totReserve = _
    rw [hcore, p.totReserve, p.spec.totReserve]
  · intro e s hs hs0
    obtain ⟨-, a1, a2, -, b2, -⟩ := hC n le_rfl
    have es : s' n = s := Num.fin.inj (Option.some.inj (a1.symm.trans hs))
    have eR : R' n = ∑ i ∈ Finset.range n,
        (c i (n - 1 - i) * Spec.tailProd (Spec.mackAll alpha n c w) n (n - 1 - i) - c i (n - 1 - i)) := by
      rw [hcore, List.getElem?_append_right (by simp [hrows])] at a2
      simp only [List.length_map, hrows, Nat.sub_self, List.getElem?_cons_zero] at a2
      rw [p.totReserve, p.spec.totReserve] at a2
      exact (Num.fin.inj (Option.some.inj a2)).symm
    have := b2 e (es ▸ hs0)
    rw [es, eR] at this
    unfold diagFacets
    dsimp only
    rw [hlen, Nat.add_sub_cancel]
    exact this

end mack

/-- Beside `C135_partial`: the path of the second origin of the 4 x 4 example with its volume weighted factors. -/
example : ((baseCL (fun _ => .nan) exTri exTri.a2aind0 "all-weighted" (.fin 1)).bind
    (fun b => pathGroups (clData exTri b.sqr) exTri.origins)).map (fun gs => (gs.map List.length,
      (gs[1]?.getD []).map (fun p => (p.dev, p.value)))) =
    .ok ([5, 5, 5, 5], [(some 1, .fin 110), (some 2, .fin 176), (some 3, .fin 220), (some 4, .fin 242),
      (none, .fin 242)]) := by
  decide +kernel

end Trikit
