import Verif.RoundedDiag
import Verif.DiagLemmas
import Verif.RoundedMackLemmas

/-! # Lemmas on the tests of the Mack model in rounded arithmetic -/

set_option linter.unusedSectionVars false

namespace Trikit

variable {K : Type} [Field K] [LinearOrder K] [IsStrictOrderedRing K]
variable {a t : Tri K} {n : ℕ} {c : ℕ → ℕ → K} {o : ℕ → Int} {x : ℕ → ℕ → K} {rd : K → K} {br : ℕ → SumTree}

/-- A table of link ratios: `x j i` is the link ratio of origin `i` in period `j`. -/
structure Spec.Links (a : Tri K) (n : ℕ) (o : ℕ → Int) (x : ℕ → ℕ → K) : Prop where
  nr : a.nr = n - 1
  nc : a.nc = n - 1
  oAt : ∀ i < n - 1, a.oAt i = o i
  lt : ∀ {i j}, i < n → j < n → (o i < o j ↔ i < j)
  cell : ∀ i < n - 1, ∀ j < n - 1, a.cell i j = if i + j + 1 < n then .fin (x j i) else .nan

theorem links_a2aR (rd : K → K) (h : Spec.Stair t n c) (hc : ∀ i j, i + j < n → c i j ≠ 0) :
    Spec.Links (t.a2aR rd) n t.oAt (fun j i => rd (ratio c j i)) := by
  refine ⟨?_, ?_, ?_, fun hi hj => h.oAt_lt hi hj, fun i hi j hj => a2aR_cell rd h hc hi hj⟩
  · rw [a2aR_eq]; exact h.a2a_nr hc
  · rw [a2aR_eq]; exact h.a2a_nc hc
  · intro i hi
    rw [a2aR_eq]; exact h.a2a_oAt hc hi

theorem Spec.Links.clvi (h : Spec.Links a n o x) {j : ℕ} (hj : j < n - 1) : a.clvi j = some (n - 2 - j) := by
  unfold Tri.clvi
  rw [h.nr, lastValid_some]
  refine ⟨by omega, ?_, ?_⟩
  · rw [h.cell _ (by omega) j hj, if_pos (by omega)]; simp
  · intro m hm hm'
    rw [h.cell _ (by omega) j hj, if_neg (by omega)]

theorem Spec.Links.lvi (h : Spec.Links a n o x) : lviOf a = (List.range (n - 1)).map (fun j => o (n - 2 - j)) := by
  unfold lviOf
  rw [h.nc]
  refine List.map_congr_left (fun j hj => ?_)
  rw [List.mem_range] at hj
  rw [h.clvi hj]
  exact h.oAt (n - 2 - j) (by omega)

theorem rankROf_vals (h : Spec.Links a n o x) {d i : ℕ} (hd : d < n - 1) (hi : i < n - 1) :
    (rankROf a d).vals.getD i .nan =
      if i < n - 1 - d then .fin (Spec.midrank ((List.range (n - 1 - d)).map (x d)) (x d i)) else .nan := by
  unfold rankROf Tri.col
  simp only
  rw [h.nr]
  refine rankAvg_prefix (by omega) _ _ ?_ ?_ hi
  · intro k hk; rw [h.cell k (by omega) d hd, if_pos (by omega)]
  · intro k hk hk'; rw [h.cell k hk d hd, if_neg (by omega)]

theorem rankSOf_vals (h : Spec.Links a n o x) {d i : ℕ} (hd : d < n - 1) (hi : i < n - 1) :
    (rankSOf a d).vals.getD i .nan =
      if i < n - 2 - d then .fin (Spec.midrank ((List.range (n - 2 - d)).map (x d)) (x d i)) else .nan := by
  have hl : (lviOf a).getD d 0 = o (n - 2 - d) := by
    rw [h.lvi, List.getD_eq_getElem?_getD, List.getElem?_map, List.getElem?_range hd]; rfl
  have hlt : ∀ k < n - 1, (a.oAt k < (lviOf a).getD d 0 ↔ k < n - 2 - d) := by
    intro k hk
    rw [hl, h.oAt k hk, h.lt (by omega) (by omega)]
  unfold rankSOf
  simp only
  rw [h.nr]
  refine rankAvg_prefix (by omega) _ _ ?_ ?_ hi
  · intro k hk
    rw [if_pos ((hlt k (by omega)).2 hk), h.cell k (by omega) d hd, if_pos (by omega)]
  · intro k hk hk'
    rw [if_neg (fun hh => by have := (hlt k hk).1 hh; omega)]

theorem rankedOf_links (h : Spec.Links a n o x) (hn : 4 ≤ n) :
    ∃ p : ℕ → Bool, (∀ d i, d < n - 3 → i < n - 2 - d → p i = true) ∧
      rankedOf a = .ok ((List.range (n - 3)).flatMap (fun d =>
        [{ rankSOf a d with vals := ((List.range (n - 1)).filter p).map (fun i => (rankSOf a d).vals.getD i .nan) },
         { rankROf a (d + 1) with
            vals := ((List.range (n - 1)).filter p).map (fun i => (rankROf a (d + 1)).vals.getD i .nan) }])) := by
  obtain ⟨m, rfl⟩ : ∃ m, n = m + 4 := ⟨n - 4, by omega⟩
  have e1 : (List.range (a.nc - 1)).flatMap (fun d => [rankROf a d, rankSOf a d]) =
      (List.range (m + 1 + 1)).flatMap (fun d => [rankROf a d, rankSOf a d]) := by
    rw [h.nc]; rfl
  have e2 := flatMap_shift (rankROf a) (rankSOf a) (m + 1)
  set cs := (List.range (m + 1)).flatMap (fun d => [rankSOf a d, rankROf a (d + 1)]) with hcs
  refine ⟨fun i => cs.any (fun q => !(q.vals.getD i .nan).isNaN), ?_, ?_⟩
  · intro d i hd hi
    rw [List.any_eq_true]
    refine ⟨rankSOf a d, ?_, ?_⟩
    · rw [hcs, List.mem_flatMap]
      exact ⟨d, List.mem_range.2 (by omega), by simp⟩
    · rw [rankSOf_vals h (by omega) (by omega), if_pos hi]; rfl
  · unfold rankedOf
    simp only
    rw [e1, e2]
    have hne : cs ≠ [] := by rw [hcs, List.range_succ_eq_map]; simp
    obtain ⟨b, l, hal⟩ := List.exists_cons_of_ne_nil hne
    have hr : rankRows a.nr cs = (List.range (m + 4 - 1)).filter
        (fun i => cs.any (fun q => !(q.vals.getD i .nan).isNaN)) := by
      unfold rankRows; rw [h.nr]
    rw [show (m + 4 - 3) = m + 1 by omega]
    generalize hP : (List.range (m + 4 - 1)).filter
        (fun i => cs.any (fun q => !(q.vals.getD i .nan).isNaN)) = rows at *
    have hm : ∀ l : List ℕ, (l.flatMap (fun d => [rankSOf a d, rankROf a (d + 1)])).map
        (fun q : RankCol K => { q with vals := rows.map (fun i => q.vals.getD i .nan) }) =
        l.flatMap (fun d => [
          { rankSOf a d with vals := rows.map (fun i => (rankSOf a d).vals.getD i .nan) },
          { rankROf a (d + 1) with vals := rows.map (fun i => (rankROf a (d + 1)).vals.getD i .nan) }]) := by
      intro l
      induction l with
      | nil => rfl
      | cons x l ih => simp only [List.flatMap_cons, List.map_append, ih]; rfl
    rw [hal]
    simp only
    rw [← hal, hr, hcs, hm]

theorem sumR_fin_map {ι : Type} (br : ℕ → SumTree) (rd : K → K) (l : List ι) (g : ι → K) :
    sumR br rd (l.map (fun i => Num.fin (g i))) = .fin (roundedSum br rd (l.map g)) := by
  unfold sumR
  rw [if_pos (by rw [List.all_eq_true]; intro v hv; obtain ⟨i, -, rfl⟩ := List.mem_map.1 hv; rfl)]
  congr 2
  induction l with
  | nil => rfl
  | cons i l ih => rw [List.map_cons, List.filterMap_cons_some (f := Num.toFin) rfl, ih]; rfl

theorem sumSkipR_filter_prefix {N m : ℕ} (hN : N ≤ m) (p : ℕ → Bool) (f : ℕ → Num K) (g : ℕ → K)
    (h1 : ∀ i < N, p i = true ∧ f i = .fin (g i)) (h2 : ∀ i, i < m → N ≤ i → f i = .nan) :
    sumSkipR br rd (((List.range m).filter p).map f) = .fin (roundedSum br rd ((List.range N).map g)) := by
  obtain ⟨k, rfl⟩ := Nat.exists_eq_add_of_le hN
  have e : (((List.range (N + k)).filter p).map f).filter (fun v => !v.isNaN) = (List.range N).map (fun i => Num.fin (g i)) := by
    rw [List.range_add, List.filter_append, List.map_append, List.filter_append,
      List.filter_eq_self.2 (fun i hi => (h1 i (List.mem_range.1 hi)).1)]
    have e1 : (List.range N).map f = (List.range N).map (fun i => Num.fin (g i)) :=
      List.map_congr_left fun i hi => (h1 i (List.mem_range.1 hi)).2
    rw [e1, List.filter_eq_self.2 (by intro v hv; obtain ⟨i, -, rfl⟩ := List.mem_map.1 hv; rfl)]
    have e2 : ((((List.range k).map (fun i => N + i)).filter p).map f).filter (fun v => !v.isNaN) = [] := by
      rw [List.filter_eq_nil_iff]
      intro v hv
      obtain ⟨i, hi, rfl⟩ := List.mem_map.1 hv
      rw [List.mem_filter, List.mem_map] at hi
      obtain ⟨⟨b, hb, rfl⟩, -⟩ := hi
      rw [List.mem_range] at hb
      rw [h2 _ (by omega) (by omega)]
      simp
    rw [e2, List.append_nil]
  unfold sumSkipR
  rw [e, sumR_fin_map]

/-- Squared difference of ranks over `N³ - N`, rounded. -/
def Spec.rankTermR (rd : K → K) (N : ℕ) (x y : ℕ → K) (i : ℕ) : K :=
  rd (rd (rd (Spec.midrank ((List.range N).map y) (y i) - Spec.midrank ((List.range N).map x) (x i)) ^ 2) /
    ((N : K) ^ 3 - N))

/-- Rank correlation of `x` and `y` with every operation rounded. -/
def Spec.coefR (br : ℕ → SumTree) (rd : K → K) (N : ℕ) (x y : ℕ → K) : K :=
  rd (1 - rd (6 * roundedSum br rd ((List.range N).map (Spec.rankTermR rd N x y))))

theorem coeffsR_value (br : ℕ → SumTree) (rd : K → K) (h : Spec.Stair t n c) (hc : ∀ i j, i + j < n → c i j ≠ 0)
    (hn : 4 ≤ n) :
    spearmanCoeffsR br rd t = .ok ((List.range (n - 3)).map (fun d =>
      ⟨d + 2, (n : Int) - (d + 2) - 1, .fin (Spec.coefR br rd (n - 2 - d) (fun i => rd (c i (d + 1) / c i d))
        (fun i => rd (c i (d + 2) / c i (d + 1))))⟩)) := by
  have hl := links_a2aR rd h hc
  obtain ⟨p, hp, he⟩ := rankedOf_links hl hn
  unfold spearmanCoeffsR
  rw [he]
  simp only [bind, Except.bind]
  rw [pairUp_flatMap, List.map_map]
  congr 1
  refine List.map_congr_left (fun d hd => ?_)
  rw [List.mem_range] at hd
  simp only [Function.comp]
  have hN : 2 ≤ n - 2 - d := by omega
  have hden : ((((t.nc : Int) - ((d + 2 : ℕ) : Int)) ^ 3 - t.nc + ((d + 2 : ℕ) : Int) : Int) : K) =
      ((n - 2 - d : ℕ) : K) ^ 3 - ((n - 2 - d : ℕ) : K) := by
    rw [h.nc]
    have e : (n : Int) - ((d + 2 : ℕ) : Int) = ((n - 2 - d : ℕ) : Int) := by omega
    rw [e, show (((n - 2 - d : ℕ) : Int) ^ 3 - (n : Int) + ((d + 2 : ℕ) : Int)) =
      ((n - 2 - d : ℕ) : Int) ^ 3 - ((n - 2 - d : ℕ) : Int) by omega]
    push_cast; rfl
  have hpos := cube_sub_pos (K := K) hN
  have hk : (rankSOf (t.a2aR rd) d).k = d + 2 := rfl
  rw [hk]
  have hw : (t.nc : Int) - ((d + 2 : ℕ) : Int) - 1 = (n : Int) - (d + 2) - 1 := by
    rw [h.nc]; push_cast; rfl
  rw [hw]
  congr 1
  unfold spearmanR
  simp only
  rw [hden, List.zipWith_map, List.zipWith_self]
  rw [sumSkipR_filter_prefix (N := n - 2 - d) (by omega) p _ (Spec.rankTermR rd (n - 2 - d)
    (fun i => rd (ratio c d i)) (fun i => rd (ratio c (d + 1) i)))]
  · unfold Num.mulR Num.subR
    rw [Num.fin_mul]
    show Num.rounded rd (Num.fin (1 : K) - Num.fin _) = _
    rw [Num.fin_sub]
    rfl
  · intro i hi
    refine ⟨hp d i hd hi, ?_⟩
    rw [rankSOf_vals hl (by omega) (by omega), rankROf_vals hl (by omega) (by omega), if_pos hi,
      if_pos (by omega), show n - 1 - (d + 1) = n - 2 - d by omega]
    unfold Num.divR Num.powR Num.subR
    rw [Num.fin_sub]
    show Num.rounded rd (Num.rounded rd (Num.pow (Num.fin (_ : K)) 2) / Num.fin (_ : K)) = _
    rw [Num.pow_fin]
    show Num.rounded rd (Num.fin (_ : K) / Num.fin (_ : K)) = _
    rw [Num.fin_div _ _ hpos.ne']
    rfl
  · intro i hi hi'
    rw [rankSOf_vals hl (by omega) hi, if_neg (by omega)]
    unfold Num.divR Num.powR Num.subR
    rw [Num.sub_nan]
    rfl

end Trikit
