import Verif.Props.RoundedSel

/-!
# C227: actual against expected development

`base_cl` with given factors (base.py:97-170) at two evaluations one period apart, with the same factors, the tail of the first
being the last factor of the second.  The forecast of the first for the new diagonal is in its squared triangle
(base.py:255-285).
-/

set_option linter.unusedSectionVars false

namespace Trikit

section
variable {K : Type} [Field K] [LinearOrder K] [IsStrictOrderedRing K]
variable {t t' : Tri K} {n : ℕ} {c c' : ℕ → ℕ → K}

/-- What the two evaluations say about old origin `i`: latest amounts, ultimates and reserves; the amount `e` the first one
forecasts for the new diagonal; the cumulative factor `g` of the second at this age. -/
structure Spec.TwoViews (n i : ℕ) (r r' : BaseResult K) (L L' U U' R R' e g : K) : Prop where
  old : ∃ row, r.rows[i]? = some row ∧ row.latest = .fin L ∧ row.ultimate = .fin U ∧ row.reserve = .fin R
  new : ∃ row, r'.rows[i]? = some row ∧ row.latest = .fin L' ∧ row.ultimate = .fin U' ∧ row.reserve = .fin R'
  forecast : if i = 0 then r.sqr.ultimate[0]? = some (.fin e) else r.sqr.tri.cell i (n - i) = .fin e
  factor : (r'.cldfs.map Prod.snd)[n - i]? = some (.fin g)

theorem tailProd_next {f f' : ℕ → K} (hf : ∀ j < n, f' j = f j) (h1 : f' n = 1) {a : ℕ} (ha : a ≤ n) :
    Spec.tailProd f' (n + 1) a = Spec.tailProd f n a := by
  unfold Spec.tailProd
  rw [Finset.prod_Ico_succ_top ha, h1, mul_one]
  exact Finset.prod_congr rfl fun j hj => hf j (Finset.mem_Ico.1 hj).2

/-- **C227.** Any two staircases of `n` and `n + 1` origins, any `n - 1` factors and tail: the ultimate of every old origin
moves by the actual less the forecast amount of the new diagonal times the cumulative factor still to come; the reserve is what
was paid, the new reserve and the fall of the ultimate together; the total ultimate moves by the sum of these, and that of the
new origin. -/
theorem C227_actual (h : Spec.Stair t n c) (h' : Spec.Stair t' (n + 1) c') (hn : 1 ≤ n) {sel : List K}
    (hs : sel.length = n - 1) (tail : K) :
    ∃ (r r' : BaseResult K) (L L' U U' R R' e g : ℕ → K),
      baseCLArray t (sel.map .fin) (.fin tail) = .ok r ∧
      baseCLArray t' ((sel ++ [tail]).map .fin) (.fin 1) = .ok r' ∧
      (∀ i < n, Spec.TwoViews n i r r' (L i) (L' i) (U i) (U' i) (R i) (R' i) (e i) (g i)) ∧
      (∀ i < n, U' i - U i = (L' i - e i) * g i ∧ R i = (L' i - L i) + R' i + (U i - U' i)) ∧
      ∃ (V V' w : K) (row : SummRow K), r.totUltimate = .fin V ∧ r'.totUltimate = .fin V' ∧ r'.rows[n]? = some row ∧
        row.ultimate = .fin w ∧ V' - V = ∑ i ∈ Finset.range n, (L' i - e i) * g i + w := by
  obtain ⟨e1, _, e3⟩ := array_vals h hn hs tail
  obtain ⟨r, s1, s2⟩ := base_core h hn e3
  obtain ⟨e1', _, e3'⟩ := array_vals h' (by omega) (sel := sel ++ [tail]) (by simp [hs]; omega) 1
  obtain ⟨r', s1', s2'⟩ := base_core h' (by omega) e3'
  set f : ℕ → K := fun j => (sel ++ [tail]).getD j 1 with hf
  set f' : ℕ → K := fun j => (sel ++ [tail] ++ [1]).getD j 1 with hf'
  have hlen : (sel ++ [tail]).length = n := by simp [hs]; omega
  have hff : ∀ j < n, f' j = f j := fun j hj => by
    simp only [hf, hf']
    rw [List.getD_eq_getElem?_getD, List.getD_eq_getElem?_getD, List.getElem?_append_left (by omega)]
  have hfn : f' n = 1 := by
    simp only [hf']
    rw [List.getD_eq_getElem?_getD, List.getElem?_append_right (by omega), hlen, Nat.sub_self]
    rfl
  have hT : ∀ a ≤ n, Spec.tailProd f' (n + 1) a = Spec.tailProd f n a := fun a ha => tailProd_next hff hfn ha
  have hstep : ∀ i < n, Spec.tailProd f n (n - 1 - i) = f (n - 1 - i) * Spec.tailProd f n (n - i) := fun i hi => by
    rw [Spec.tailProd_succ f (by omega), show n - 1 - i + 1 = n - i by omega]
  have key : ∀ i < n, c' i (n - i) * Spec.tailProd f n (n - i) - c i (n - 1 - i) * Spec.tailProd f n (n - 1 - i) =
      (c' i (n - i) - c i (n - 1 - i) * f (n - 1 - i)) * Spec.tailProd f n (n - i) := fun i hi => by
    rw [hstep i hi]; ring
  refine ⟨r, r', fun i => c i (n - 1 - i), fun i => c' i (n - i), fun i => c i (n - 1 - i) * Spec.tailProd f n (n - 1 - i),
    fun i => c' i (n - i) * Spec.tailProd f n (n - i),
    fun i => c i (n - 1 - i) * Spec.tailProd f n (n - 1 - i) - c i (n - 1 - i),
    fun i => c' i (n - i) * Spec.tailProd f n (n - i) - c' i (n - i), fun i => c i (n - 1 - i) * f (n - 1 - i),
    fun i => Spec.tailProd f n (n - i), by unfold baseCLArray; rw [e1]; exact s1, by unfold baseCLArray; rw [e1']; exact s1',
    fun i hi => ⟨?_, ?_, ?_, ?_⟩, fun i hi => ⟨key i hi, by ring⟩, ?_⟩
  · obtain ⟨row, a1, _, _, _, _, a6, a7, a8⟩ := s2.rows i hi
    exact ⟨row, a1, a6, a7, a8⟩
  · obtain ⟨row, a1, _, _, _, _, a6, a7, a8⟩ := s2'.rows i (by omega)
    rw [show n + 1 - 1 - i = n - i by omega] at a6 a7 a8
    rw [hT _ (by omega)] at a7 a8
    exact ⟨row, a1, a6, a7, a8⟩
  · split
    · next h0 =>
      subst h0
      rw [s2.sqr_ultimate, List.getElem?_map, List.getElem?_range hi]
      have := hstep 0 hi
      rw [Nat.sub_zero, Nat.sub_zero] at this
      have h1 : Spec.tailProd f n n = 1 := by unfold Spec.tailProd; simp
      simp only [Option.map_some, Nat.sub_zero]
      rw [this, h1, mul_one]
    · next h0 =>
      rw [s2.sqr_cells i hi (n - i) (by omega), if_neg (by omega), show n - i = n - 1 - i + 1 by omega,
        Finset.prod_Ico_succ_top le_rfl, Finset.Ico_self, Finset.prod_empty, one_mul]
  · rw [s2'.cldfs_values, List.getElem?_map, List.getElem?_range (by omega), Option.map_some, hT _ (by omega)]
  · obtain ⟨row, a1, _, _, _, _, a6, a7, a8⟩ := s2'.rows n (by omega)
    refine ⟨_, _, _, row, s2.totUltimate, s2'.totUltimate, a1, a7, ?_⟩
    rw [Finset.sum_range_succ, add_sub_right_comm, ← Finset.sum_sub_distrib]
    congr 1
    refine Finset.sum_congr rfl fun i hi => ?_
    have hi := Finset.mem_range.1 hi
    rw [show n + 1 - 1 - i = n - i by omega, hT _ (by omega), key i hi]

end

/-- A concrete case: three origins with forecasts 220 and 150; actual amounts 230, 140 and an oldest origin with 210 instead of
the 220 the tail says.  Ultimates go from 220, 242 and 363/2 to 210, 253 and 847/5. -/
example :
    let v : ℕ → ℕ → ℚ := fun i j => [[100, 150, 200, 210], [130, 200, 230], [100, 140], [120]].getD i [] |>.getD j 0
    ((baseCLArray (stairTri 3 v) [.fin (3/2), .fin (11/10)] (.fin (11/10))).map
      (fun r => (r.rows.map (fun x => x.ultimate), r.sqr.tri.cell 1 2, r.sqr.tri.cell 2 1))).toOption =
      some ([.fin 220, .fin 242, .fin (363/2)], .fin 220, .fin 150) ∧
    ((baseCLArray (stairTri 4 v) [.fin (3/2), .fin (11/10), .fin (11/10)] (.fin 1)).map
      (fun r => r.rows.map (fun x => x.ultimate))).toOption =
      some [.fin 210, .fin 253, .fin (847/5), .fin (1089/5)] := by decide +kernel

end Trikit
