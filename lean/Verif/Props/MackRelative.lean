import Verif.Props.Influence

/-!
# C209: the relative parameter error of `mack_cl` never falls from an origin to the next younger one

`_parameter_error` (mack.py:390-441) against the ultimates (base.py:203-225).
-/

set_option linter.unusedSectionVars false

namespace Trikit

section
variable {K : Type} [Field K] [LinearOrder K] [IsStrictOrderedRing K]
variable {t ind : Tri K} {n : ℕ} {c w : ℕ → ℕ → K}

theorem paramVar_rel {f v : ℕ → K} {i : ℕ} (hc : c i (n - 1 - i) ≠ 0) (hf : ∀ k < n - 1, f k ≠ 0) :
    1 + Spec.paramVar n c f v i / Spec.ult n c f i ^ 2 =
      ∏ k ∈ Finset.Ico (n - 1 - i) (n - 1), (1 + v k / f k ^ 2) := by
  have hP : ∏ k ∈ Finset.Ico (n - 1 - i) (n - 1), f k ^ 2 ≠ 0 :=
    Finset.prod_ne_zero_iff.2 fun k hk => pow_ne_zero 2 (hf k (Finset.mem_Ico.1 hk).2)
  have e : ∏ k ∈ Finset.Ico (n - 1 - i) (n - 1), (1 + v k / f k ^ 2) =
      (∏ k ∈ Finset.Ico (n - 1 - i) (n - 1), (f k ^ 2 + v k)) / ∏ k ∈ Finset.Ico (n - 1 - i) (n - 1), f k ^ 2 := by
    rw [← Finset.prod_div_distrib]
    refine Finset.prod_congr rfl fun k hk => ?_
    rw [add_div, div_self (pow_ne_zero 2 (hf k (Finset.mem_Ico.1 hk).2))]
  rw [e]
  unfold Spec.paramVar Spec.ult Spec.proj
  rw [mul_pow, ← Finset.prod_pow]
  field_simp
  ring

/-- **C209.** For every positive staircase, every indicator of exclusions that keeps a link ratio in every period, and every `alpha`: as
soon as the variance of the last period is a number, one plus the squared relative parameter error of an origin is that of the
next older origin times `1 + v / f²`, for the factor `f` of the one period more it has to develop and the variance `v` of that
factor. So the relative parameter error never falls, and it stays exactly where that variance is 0. When the variance of the
last period is missing all parameter errors are 0. -/
theorem C209_relative (h : Spec.Stair t n c) (hp : Spec.Positive n c) (hi : IndW t ind n w)
    (hw : Spec.Weights n w) (hn : 4 ≤ n) (alpha : ℕ) :
    ∃ r, mackCore alpha t ind = .ok r ∧
      ∀ i, i + 1 < n → ∃ row row' u u' p p', r.rows[i]? = some row ∧ r.rows[i + 1]? = some row' ∧
        row.ultimate = .fin u ∧ row'.ultimate = .fin u' ∧ 0 < u ∧ 0 < u' ∧
        r.paramErr[i]? = some (.fin p) ∧ r.paramErr[i + 1]? = some (.fin p') ∧
        p / u ^ 2 ≤ p' / u' ^ 2 ∧
        (r.devpvar.iloc (n - 2) = .nan → p = 0 ∧ p' = 0) ∧
        (r.devpvar.iloc (n - 2) ≠ .nan → ∃ f v, r.ldfs.iloc (n - 2 - i) = .fin f ∧
          r.ldfvar.iloc (n - 2 - i) = .fin v ∧ 0 < f ∧ 0 ≤ v ∧
          1 + p' / u' ^ 2 = (1 + p / u ^ 2) * (1 + v / f ^ 2) ∧
          (p / u ^ 2 = p' / u' ^ 2 ↔ v = 0)) := by
  obtain ⟨r, b, lab, hr, pp⟩ := mack_parts h hp hi hw hn alpha
  obtain ⟨r₀, hr₀, hrows, _, hdeg, hnd⟩ := mack_ults h hp hi hw hn alpha
  rw [hr] at hr₀
  obtain rfl := Except.ok.inj hr₀
  have hf : ∀ k < n - 1, 0 < Spec.mackF alpha n c w k := fun k hk => mackF_pos hp hw alpha hk
  have hu : ∀ i < n, 0 < Spec.ult n c (Spec.mackF alpha n c w) i := fun i hi => by
    unfold Spec.ult Spec.proj
    exact mul_pos (hp _ _ (by omega)) (Finset.prod_pos fun m hm => hf m (Finset.mem_Ico.1 hm).2)
  refine ⟨r, hr, fun i hin => ?_⟩
  obtain ⟨row, e1, _, e2, _⟩ := hrows i (by omega)
  obtain ⟨row', e1', _, e2', _⟩ := hrows (i + 1) hin
  by_cases hd : Spec.Degenerate alpha n c w
  · obtain ⟨_, _, h3⟩ := hdeg hd
    have hnan : r.devpvar.iloc (n - 2) = .nan := by
      rw [pp.dv _ (by omega), storedVar_degenerate hp hw (by omega) hd]
    refine ⟨row, row', _, _, 0, 0, e1, e1', e2, e2', hu i (by omega), hu (i + 1) hin, ?_, ?_, ?_, ?_, ?_⟩
    · rw [h3, List.getElem?_map, List.getElem?_range (by omega)]; rfl
    · rw [h3, List.getElem?_map, List.getElem?_range hin]; rfl
    · rw [zero_div, zero_div]
    · exact fun _ => ⟨rfl, rfl⟩
    · exact fun hne => absurd hnan hne
  · obtain ⟨_, _, h3⟩ := hnd hd
    have hfin : r.devpvar.iloc (n - 2) ≠ .nan := by
      rw [pp.dv _ (by omega), storedVar_fin hp hw hd]
      intro e; cases e
    have hne : ∀ k < n - 1, Spec.mackF alpha n c w k ≠ 0 := fun k hk => (hf k hk).ne'
    have q := paramVar_rel (v := Spec.ldfVar alpha n c w) (hp i (n - 1 - i) (by omega)).ne' hne
    have q' := paramVar_rel (v := Spec.ldfVar alpha n c w) (hp (i + 1) (n - 1 - (i + 1)) (by omega)).ne' hne
    have hstep : ∏ k ∈ Finset.Ico (n - 1 - (i + 1)) (n - 1),
          (1 + Spec.ldfVar alpha n c w k / Spec.mackF alpha n c w k ^ 2) =
        (1 + Spec.ldfVar alpha n c w (n - 2 - i) / Spec.mackF alpha n c w (n - 2 - i) ^ 2) *
          ∏ k ∈ Finset.Ico (n - 1 - i) (n - 1), (1 + Spec.ldfVar alpha n c w k / Spec.mackF alpha n c w k ^ 2) := by
      rw [show n - 1 - (i + 1) = n - 2 - i by omega, Finset.prod_eq_prod_Ico_succ_bot (by omega),
        show n - 2 - i + 1 = n - 1 - i by omega]
    have hv0 : 0 ≤ Spec.ldfVar alpha n c w (n - 2 - i) := ldfVar_nonneg hp hw alpha (by omega)
    have hf0 := hf (n - 2 - i) (by omega)
    have hx : 0 ≤ Spec.ldfVar alpha n c w (n - 2 - i) / Spec.mackF alpha n c w (n - 2 - i) ^ 2 := by positivity
    have hpos : 0 < ∏ k ∈ Finset.Ico (n - 1 - i) (n - 1),
        (1 + Spec.ldfVar alpha n c w k / Spec.mackF alpha n c w k ^ 2) := by
      refine Finset.prod_pos fun k hk => ?_
      have := ldfVar_nonneg hp hw alpha (Finset.mem_Ico.1 hk).2
      have := hf k (Finset.mem_Ico.1 hk).2
      positivity
    have key : 1 + Spec.paramVar n c (Spec.mackF alpha n c w) (Spec.ldfVar alpha n c w) (i + 1) /
          Spec.ult n c (Spec.mackF alpha n c w) (i + 1) ^ 2 =
        (1 + Spec.paramVar n c (Spec.mackF alpha n c w) (Spec.ldfVar alpha n c w) i /
          Spec.ult n c (Spec.mackF alpha n c w) i ^ 2) *
          (1 + Spec.ldfVar alpha n c w (n - 2 - i) / Spec.mackF alpha n c w (n - 2 - i) ^ 2) := by
      rw [q', hstep, ← q]; ring
    rw [← q] at hpos
    refine ⟨row, row', _, _, _, _, e1, e1', e2, e2', hu i (by omega), hu (i + 1) hin,
      by rw [h3, List.getElem?_map, List.getElem?_range (by omega)]; rfl,
      by rw [h3, List.getElem?_map, List.getElem?_range hin]; rfl, ?_, fun e => absurd e hfin, fun _ => ?_⟩
    · nlinarith [mul_nonneg hpos.le hx]
    · refine ⟨_, _, pp.ldf h _ (by omega), by rw [pp.lv _ (by omega), stored_ldfvar hp hw hd (by omega)], hf0, hv0, key,
        ?_⟩
      constructor
      · intro e
        rw [← e] at key
        have h0 : Spec.ldfVar alpha n c w (n - 2 - i) / Spec.mackF alpha n c w (n - 2 - i) ^ 2 = 0 := by
          have : (1 + Spec.paramVar n c (Spec.mackF alpha n c w) (Spec.ldfVar alpha n c w) i /
            Spec.ult n c (Spec.mackF alpha n c w) i ^ 2) *
            (Spec.ldfVar alpha n c w (n - 2 - i) / Spec.mackF alpha n c w (n - 2 - i) ^ 2) = 0 := by linarith
          exact (mul_eq_zero.1 this).resolve_left hpos.ne'
        exact (div_eq_zero_iff.1 h0).resolve_right (pow_ne_zero 2 hf0.ne')
      · intro e
        rw [e, zero_div, add_zero, mul_one] at key
        linarith

end

/-! ## an example -/

/-- Four origins: one and a half or twice the amount after the first period, then 6/5 or 13/10, then 11/10. -/
def exRel : ℕ → ℕ → ℚ := fun i j => match i, j with
  | 0, 0 => 100 | 0, 1 => 150 | 0, 2 => 180 | 0, _ => 198
  | 1, 0 => 100 | 1, 1 => 200 | 1, _ => 260
  | 2, 0 => 200 | 2, _ => 320
  | _, _ => 400

/-- Squared relative parameter errors of the four origins, oldest first. -/
example :
    ((mackCore 1 (stairTri 4 exRel) (stairTri 4 exRel).a2aind0).map (fun r =>
      (List.zipWith (fun (row : SummRow ℚ) p => p / row.ultimate.pow 2) r.rows r.paramErr))).toOption =
      some [.fin 0, .fin (160 / 349811), .fin (194239 / 96747728), .fin (1066207685 / 124085871712)] := by
  decide +kernel

end Trikit
