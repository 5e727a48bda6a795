import Verif.Props.BootSim

/-! # Reported against simulated reserves (C85) -/

set_option linter.unusedSectionVars false

namespace Trikit

section
variable {K : Type} [Field K] [LinearOrder K] [IsStrictOrderedRing K]
variable {t m : Tri K} {n S : ℕ} {c v : ℕ → ℕ → K}

/-- Rows of one origin, simulation by simulation. -/
theorem SimSpec.reserves_origin {x g : ℕ → ℕ → ℕ → K} {r : SimResult K} (ht : Spec.Stair t n c)
    (h : SimSpec t n S x g r) {i : ℕ} (hi : i < n) :
    r.reserves.filter (fun q => decide (q.origin = t.oAt i)) =
      (List.range S).map (fun s => resRowAt t n x g s i) := by
  rw [h.reserves, filter_flatMap_single' hi, List.filter_eq_self.2]
  · intro q hq
    obtain ⟨s, -, rfl⟩ := List.mem_map.1 hq
    simp [resRowAt]
  · intro k hk hne q hq
    obtain ⟨s, -, rfl⟩ := List.mem_map.1 hq
    exact decide_eq_false (fun e => hne (ht.oAt_inj hk hi e))

theorem meanL_range (y : ℕ → K) (hS : 0 < S) :
    meanL ((List.range S).map (fun s => Num.fin (y s))) = .fin ((∑ s ∈ Finset.range S, y s) / S) := by
  have h0 : (S : K) ≠ 0 := by exact_mod_cast hS.ne'
  unfold meanL
  rw [sum_fin_range, List.length_map, List.length_range, Num.fin_div _ _ h0]

theorem meanSkip_range (y : ℕ → K) (hS : 0 < S) :
    meanSkip ((List.range S).map (fun s => Num.fin (y s))) = .fin ((∑ s ∈ Finset.range S, y s) / S) := by
  unfold meanSkip
  rw [List.filter_eq_self.2, meanL_range y hS]
  intro v hv
  obtain ⟨s, -, rfl⟩ := List.mem_map.1 hv
  rfl

theorem SimSpec.reported {x g : ℕ → ℕ → ℕ → K} {r : SimResult K} (ht : Spec.Stair t n c) (hS : 0 < S)
    (h : SimSpec t n S x g r) :
    ∀ i < n, 0 < i → ∃ a l : K,
      meanL ((r.reserves.filter (fun q => decide (q.origin = t.oAt i))).map ResRow.reserve) = .fin a ∧
      meanL ((r.reserves.filter (fun q => decide (q.origin = t.oAt i))).map ResRow.latest) = .fin l ∧
      (bootReserves t r.reserves)[i]? = some (.fin (a + (l - c i (n - 1 - i)))) ∧
      ((bootReserves t r.reserves)[i]? = some (.fin a) ↔ l = c i (n - 1 - i)) := by
  intro i hi hi0
  have hrow := h.reserves_origin ht hi
  have hne : i ≠ 0 := by omega
  have h0 : (S : K) ≠ 0 := by exact_mod_cast hS.ne'
  have e1 : meanL ((r.reserves.filter (fun q => decide (q.origin = t.oAt i))).map ResRow.reserve) =
      .fin ((∑ s ∈ Finset.range S, (∑ k ∈ Finset.range n, Spec.finalIncr t n x g s i k -
        x s i (n - 1 - i))) / S) := by
    rw [hrow, List.map_map, ← meanL_range _ hS]
    congr 1
    refine List.map_congr_left (fun s _ => ?_)
    simp [resRowAt, hne]
  have e2 : meanL ((r.reserves.filter (fun q => decide (q.origin = t.oAt i))).map ResRow.latest) =
      .fin ((∑ s ∈ Finset.range S, x s i (n - 1 - i)) / S) := by
    rw [hrow, List.map_map, ← meanL_range _ hS]
    congr 1
    refine List.map_congr_left (fun s _ => ?_)
    simp [resRowAt, hne]
  have e3 : meanSkip ((r.reserves.filter (fun q => decide (q.origin = t.oAt i))).map ResRow.ultimate) =
      .fin ((∑ s ∈ Finset.range S, ∑ k ∈ Finset.range n, Spec.finalIncr t n x g s i k) / S) := by
    rw [hrow, List.map_map, ← meanSkip_range _ hS]
    rfl
  have e4 : (bootReserves t r.reserves)[i]? = some (.fin
      ((∑ s ∈ Finset.range S, (∑ k ∈ Finset.range n, Spec.finalIncr t n x g s i k -
        x s i (n - 1 - i))) / S +
      ((∑ s ∈ Finset.range S, x s i (n - 1 - i)) / S - c i (n - 1 - i)))) := by
    have hi' : i < t.nr := by rw [ht.nr]; exact hi
    unfold bootReserves bootUltimates
    rw [List.getElem?_zipWith, List.getElem?_map, List.getElem?_range hi']
    simp only [Option.map_some, if_neg hne]
    rw [e3, ht.latest_get hi, Num.fin_sub, Finset.sum_sub_distrib]
    congr 2
    ring
  refine ⟨_, _, e1, e2, e4, ?_⟩
  rw [e4, Option.some_inj, Num.fin.injEq, add_eq_left, sub_eq_zero]

/-- **C85 (partial)** on staircases without negative fitted increments after the first period, for finite
draws: the reported reserve of an origin exceeds the mean of its simulated reserves by the mean of its
simulated latest values less its latest value; they agree exactly when the simulated latest values have
the observed one as mean.  Missing: agreement otherwise, which is false (`C85_fails`). -/
theorem C85_partial {sq : Num K → Num K} (hsq : ∀ y : K, 0 ≤ y → ∃ r, sq (.fin y) = .fin r)
    (ht : Spec.Stair t n c) (hn : 0 < n) (hS : 0 < S) (hm : Spec.Stair m n v)
    (ho : m.origins = t.origins) (hd : m.devs = t.devs) (hv : ∀ i j, i + j < n → 0 < j → 0 ≤ v i j)
    {scale : Num K} {draw : ℕ → Num K} {gam : ℕ → Num K → Num K → Num K}
    (hz : ∀ p < S * (n * n), (draw p).isFin = true)
    (hg : ∀ p < S * (n * n), ∀ a b, (gam p a b).isFin = true) :
    let res := (bootSims sq t m scale S draw gam).reserves
    ∀ i < n, 0 < i → ∃ a l : K,
      meanL ((res.filter (fun q => decide (q.origin = t.oAt i))).map ResRow.reserve) = .fin a ∧
      meanL ((res.filter (fun q => decide (q.origin = t.oAt i))).map ResRow.latest) = .fin l ∧
      (bootReserves t res)[i]? = some (.fin (a + (l - c i (n - 1 - i)))) ∧
      ((bootReserves t res)[i]? = some (.fin a) ↔ l = c i (n - 1 - i)) := by
  obtain ⟨rt, hrt⟩ := exists_roots (sq := sq) hsq hv
  exact (bootSims_stair ht hn hS hm ho hd hrt hz (scale := scale) hg).reported ht hS

end

/-- Two simulations; the residual of the first cell of the second origin in simulation 0 is 1, all others
are 0; gamma draws are their means. -/
def latestRun : Except PyErr (SimResult ℚ) :=
  (bootFit exSqrt (fun _ => .nan) exBoot exBoot.a2aind0).map (fun fit =>
    bootSims exSqrt exBoot fit.fitIncr fit.scale 2 (fun p => if p = 3 then .fin 1 else 0) (fun _ a b => a * b))

/-- **C85 fails**: simulated reserves 105 and 100, reported reserve 107.5. -/
theorem C85_fails :
    latestRun.map (fun r => ((r.reserves.filter (fun q => decide (q.origin = 2002))).map ResRow.reserve,
      meanL ((r.reserves.filter (fun q => decide (q.origin = 2002))).map ResRow.reserve),
      (bootReserves exBoot r.reserves)[1]?)) =
      .ok ([.fin 105, .fin 100], .fin (205 / 2), some (.fin (215 / 2))) := by
  decide +kernel

/-- C89 on the example. -/
example : latestRun.map (fun r => (r.reserves.map (fun q => (q.sim, q.reserve)), bootTotals 2 r.reserves)) =
    .ok ([(0, 0), (1, 0), (0, .fin 105), (1, .fin 100), (0, .fin (1350 / 7)), (1, .fin 200)],
      [.fin (2085 / 7), .fin 300]) := by
  decide +kernel

end Trikit
