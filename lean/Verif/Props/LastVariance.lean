import Verif.Props.MackExclude

/-!
# C239: an exclusion can raise the last variance parameter

`MackChainLadder._devp_variance` (mack.py:301-334) takes the last parameter from the two before it, the square of the nearer one over
the other one if that is smaller than both.
-/

set_option linter.unusedSectionVars false

namespace Trikit

section
variable {K : Type} [Field K] [LinearOrder K] [IsStrictOrderedRing K]
variable {t ind ind' : Tri K} {n : ℕ} {c w w' : ℕ → ℕ → K}

theorem colSum_agree {j : ℕ} {g g' : ℕ → K} (h : ∀ q < n - 1 - j, g q = g' q) : Spec.colSum n j g = Spec.colSum n j g' :=
  Finset.sum_congr rfl fun q hq => h q (Finset.mem_range.1 hq)

/-- Variance parameters only depend on the weights of their period. -/
theorem sig0_agree (alpha : ℕ) {j : ℕ} (h : ∀ q < n - 1 - j, w' q j = w q j) :
    Spec.sig0 alpha n c w' j = Spec.sig0 alpha n c w j := by
  unfold Spec.sig0 Spec.sqDev Spec.mackF Spec.mackW
  congr 1
  have e1 : Spec.colSum n j (fun q => w' q j * c q j ^ alpha * (c q (j + 1) / c q j)) =
      Spec.colSum n j (fun q => w q j * c q j ^ alpha * (c q (j + 1) / c q j)) := colSum_agree fun q hq => by rw [h q hq]
  have e2 : Spec.colSum n j (fun q => w' q j * c q j ^ alpha) = Spec.colSum n j (fun q => w q j * c q j ^ alpha) :=
    colSum_agree fun q hq => by rw [h q hq]
  rw [e1, e2]
  exact colSum_agree fun q hq => by rw [h q hq]

theorem sigLast_cases {b a : K} (hb : 0 < b) (ha : 0 ≤ a) : (a ≤ b ∧ Spec.sigLast b a = a) ∨
    (b < a ∧ Spec.sigLast b a = b ^ 2 / a) := by
  rcases le_or_gt a b with h | h
  · refine Or.inl ⟨h, ?_⟩
    rcases ha.eq_or_lt with e | e
    · subst e; simp [Spec.sigLast, hb.le]
    · unfold Spec.sigLast
      have : a ≤ b ^ 2 / a := by rw [le_div_iff₀ e]; nlinarith
      simp [h, this, e.ne']
  · refine Or.inr ⟨h, ?_⟩
    have e : 0 < a := hb.trans h
    unfold Spec.sigLast
    have : b ^ 2 / a ≤ b := by rw [div_le_iff₀ e]; nlinarith
    simp [h.le, this, e.ne']

/-- The last parameter as the farther of the two it comes from falls from `a` to `a'`. -/
theorem sigLast_move {b a a' : K} (hb : 0 < b) (ha' : 0 ≤ a') (h : a' < a) :
    (Spec.sigLast b a < Spec.sigLast b a' ↔ b ^ 2 < a * a') ∧ (Spec.sigLast b a' < Spec.sigLast b a ↔ a * a' < b ^ 2) := by
  have ha : 0 < a := ha'.trans_lt h
  rcases sigLast_cases hb ha.le with ⟨u, e⟩ | ⟨u, e⟩ <;> rcases sigLast_cases hb ha' with ⟨u', e'⟩ | ⟨u', e'⟩ <;> rw [e, e']
  · exact ⟨⟨fun x => absurd x h.not_gt, fun x => by nlinarith⟩, ⟨fun _ => by nlinarith, fun _ => h⟩⟩
  · exact absurd (h.trans_le u) u'.not_gt
  · exact ⟨by rw [div_lt_iff₀ ha, mul_comm a], by rw [lt_div_iff₀ ha, mul_comm a]⟩
  · have ha0 : 0 < a' := hb.trans u'
    have p : b ^ 2 < a * a' := by nlinarith
    have q : b ^ 2 / a < b ^ 2 / a' := div_lt_div_of_pos_left (pow_pos hb 2) ha0 h
    exact ⟨⟨fun _ => p, fun _ => q⟩, ⟨fun x => absurd x q.not_gt, fun x => absurd x p.not_gt⟩⟩

/-- **C239.** `mack_cl` with any `alpha` on a positive staircase, with any exclusion weights and with one more link ratio of the
third period from the end excluded, one that is not equal to the factor.  Let `a` and `a'` be the variance parameter of that period
before and after, and `b > 0` the one of the next period.  Then `a' < a` and `b` stays, but the last parameter, taken from the two,
rises exactly when `a * a' > b ^ 2`, and falls exactly when `a * a' < b ^ 2`. -/
theorem C239_last (h : Spec.Stair t n c) (hp : Spec.Positive n c) (hn : 4 ≤ n) (hi : IndW t ind n w) (hi' : IndW t ind' n w')
    (hw : Spec.Weights n w) (hw' : Spec.Weights n w') {i : ℕ} (hij : i < 3) (hpos : 0 < w i (n - 4))
    (h0 : w' i (n - 4) = 0) (hoff : ∀ p q, p + q + 1 < n → ¬ (p = i ∧ q = n - 4) → w' p q = w p q) (alpha : ℕ)
    {r r' : MackCore K} (hr : mackCore alpha t ind = .ok r) (hr' : mackCore alpha t ind' = .ok r') {f b : K}
    (hf : r.ldfs.iloc (n - 4) = .fin f) (hd : c i (n - 4 + 1) / c i (n - 4) ≠ f) (hb : r.devpvar.iloc (n - 3) = .fin b)
    (hb0 : 0 < b) :
    ∃ a a' l l' : K, r.devpvar.iloc (n - 4) = .fin a ∧ r'.devpvar.iloc (n - 4) = .fin a' ∧ r'.devpvar.iloc (n - 3) = .fin b ∧
      r.devpvar.iloc (n - 2) = .fin l ∧ r'.devpvar.iloc (n - 2) = .fin l' ∧ a' < a ∧
      (l < l' ↔ b ^ 2 < a * a') ∧ (l' < l ↔ a * a' < b ^ 2) := by
  obtain ⟨r0, r0', F, F', z, d, a, a', s, s', m, g1, g1', f1, -, v1, v1', -, -, -, -, -, hdd, -, -, -, -, hlt, -⟩ :=
    C237_exclude h hp hn hi hi' hw hw' (i := i) (j := n - 4) (by omega) (by omega) hpos h0 hoff alpha
  rw [hr] at g1
  rw [hr'] at g1'
  obtain rfl := Except.ok.inj g1
  obtain rfl := Except.ok.inj g1'
  rw [hf] at f1
  obtain rfl := Num.fin.inj f1
  have hlt' : a' < a := hlt.2 (by rw [hdd]; exact sub_ne_zero.2 hd)
  obtain ⟨r1, b1, lab, q1, p⟩ := mack_parts h hp hi hw hn alpha
  obtain ⟨r1', b1', lab', q1', p'⟩ := mack_parts h hp hi' hw' hn alpha
  rw [hr] at q1
  rw [hr'] at q1'
  obtain rfl := Except.ok.inj q1
  obtain rfl := Except.ok.inj q1'
  have st : ∀ (v : ℕ → ℕ → K) (k : ℕ), k + 2 < n → storedVar alpha n c v k = .fin (Spec.sig0 alpha n c v k) := fun v k hk => by
    unfold storedVar; rw [if_pos hk]
  have la : ∀ v : ℕ → ℕ → K, storedVar alpha n c v (n - 2) =
      lastVar (Spec.sig0 alpha n c v (n - 3)) (Spec.sig0 alpha n c v (n - 4)) := fun v => by
    unfold storedVar; rw [if_neg (by omega)]
  have ea := v1
  have ea' := v1'
  have eb := hb
  rw [p.dv _ (by omega), st w _ (by omega)] at ea eb
  rw [p'.dv _ (by omega), st w' _ (by omega)] at ea'
  have ea := Num.fin.inj ea
  have ea' := Num.fin.inj ea'
  have eb := Num.fin.inj eb
  have eb' : Spec.sig0 alpha n c w' (n - 3) = b := by
    rw [← eb]
    exact sig0_agree alpha fun q hq => hoff q (n - 3) (by omega) (fun hh => by omega)
  have ha0 : 0 ≤ a' := by rw [← ea']; exact sig0_nonneg hp hw' alpha _
  have l1 : r.devpvar.iloc (n - 2) = .fin (Spec.sigLast b a) := by
    rw [p.dv _ (by omega), la, ea, eb]
    exact (lastVar_spec hb0.le (ha0.trans hlt'.le)).1 (fun e => hb0.ne' e.1)
  have l2 : r'.devpvar.iloc (n - 2) = .fin (Spec.sigLast b a') := by
    rw [p'.dv _ (by omega), la, ea', eb']
    exact (lastVar_spec hb0.le ha0).1 (fun e => hb0.ne' e.1)
  have l3 : r'.devpvar.iloc (n - 3) = .fin b := by rw [p'.dv _ (by omega), st w' _ (by omega), eb']
  exact ⟨a, a', _, _, v1, v1', l3, l1, l2, hlt', sigLast_move hb0 ha0 hlt'⟩

/-- **C239, the period before the last.** It has two link ratios; whichever is excluded, its variance parameter becomes 0, and so does
the last one, unless the parameter of the period before is 0 as well: then the last one is missing (`0 / 0`). -/
theorem C239_single (h : Spec.Stair t n c) (hp : Spec.Positive n c) (hn : 4 ≤ n) (hi : IndW t ind n w) (hw : Spec.Weights n w)
    {i : ℕ} (hij : i < 2) (h0 : w i (n - 3) = 0) (alpha : ℕ) :
    ∃ (r : MackCore K) (a : K), mackCore alpha t ind = .ok r ∧ r.devpvar.iloc (n - 4) = .fin a ∧
      r.devpvar.iloc (n - 3) = .fin 0 ∧ r.devpvar.iloc (n - 2) = if a = 0 then .nan else .fin 0 := by
  obtain ⟨r, b, lab, g, p⟩ := mack_parts h hp hi hw hn alpha
  have hW := mackW_pos hp hw alpha (j := n - 3) (by omega)
  have hz : Spec.sig0 alpha n c w (n - 3) = 0 := by
    unfold Spec.sig0 Spec.sqDev Spec.mackF
    unfold Spec.mackW at hW ⊢
    unfold Spec.colSum at hW ⊢
    rw [show n - 1 - (n - 3) = 2 by omega] at hW ⊢
    simp only [Finset.sum_range_succ, Finset.sum_range_zero, zero_add] at hW ⊢
    obtain rfl | rfl : i = 0 ∨ i = 1 := by omega
    · rw [h0, zero_mul, zero_add] at hW
      rw [h0]
      simp only [zero_mul, zero_add]
      rw [mul_div_cancel_left₀ _ hW.ne']
      simp
    · rw [h0, zero_mul, add_zero] at hW
      rw [h0]
      simp only [zero_mul, add_zero]
      rw [mul_div_cancel_left₀ _ hW.ne']
      simp
  have st : ∀ k, k + 2 < n → r.devpvar.iloc k = .fin (Spec.sig0 alpha n c w k) := fun k hk => by
    rw [p.dv _ (by omega)]; unfold storedVar; rw [if_pos hk]
  have ha := sig0_nonneg hp hw alpha (n - 4)
  refine ⟨r, _, g, st _ (by omega), by rw [st _ (by omega), hz], ?_⟩
  rw [p.dv _ (by omega)]
  unfold storedVar
  rw [if_neg (by omega), hz]
  split
  · next e => exact (lastVar_spec le_rfl ha).2 ⟨rfl, e⟩
  · next e =>
    rw [(lastVar_spec le_rfl ha).1 (fun x => e x.2)]
    congr 1
    unfold Spec.sigLast
    simp [ha]

end

/-- Four origins, the ratios of the first period 9, 5, 1 of amounts 100, those of the second 11/10 and 1. -/
def exLastVar (i j : ℕ) : ℚ := if j = 0 then 100 else if j = 1 then [900, 500, 100].getD i 0 else if i = 0 then 990 else 500

/-- A concrete case: without the 9 the first parameter falls from 1600 to 400, and the last one rises fourfold. -/
example : [(stairTri 4 exLastVar).a2aind0, (stairTri 4 exLastVar).a2aind0.setAt 2001 1 0].map (fun ind =>
    ((mackCore 1 (stairTri 4 exLastVar) ind).toOption.map (fun r => r.devpvar.map Prod.snd))) =
    [some [.fin 1600, .fin (45 / 14), .fin ((45 / 14) ^ 2 / 1600)], some [.fin 400, .fin (45 / 14), .fin ((45 / 14) ^ 2 / 400)]] := by
  decide +kernel

/-- A concrete case: without the 11/10 the last two parameters are 0. -/
example : ((mackCore 1 (stairTri 4 exLastVar) ((stairTri 4 exLastVar).a2aind0.setAt 2001 2 0)).toOption.map
    (fun r => r.devpvar.map Prod.snd)) = some [.fin 1600, .fin 0, .fin 0] := by decide +kernel

end Trikit
