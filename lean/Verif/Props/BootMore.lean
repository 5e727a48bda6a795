import Verif.Props.Boot
import Verif.Props.BootSim

/-! # When the bootstrap has something to sample from (C72, C74), and seeds (C73) -/

set_option linter.unusedSectionVars false

namespace Trikit

section
variable {t : Tri ℝ} {n : ℕ} {c : ℕ → ℕ → ℝ}

/-- The adjusted residual of an observed cell in the three cases. -/
theorem residAdj_cases (gm : List (Num ℝ) → Num ℝ) (h : Spec.Stair t n c) (hp : Spec.Positive n c)
    (hn : 3 ≤ n) {fit : BootFit ℝ} (hf : bootFit Num.sqrt gm t t.a2aind0 = .ok fit) :
    ∃ a : ℝ, 0 < a ∧ ∀ i j, i + j < n →
      (Spec.fitIncr n c i j ≠ 0 → fit.residAdj.cell i j =
        .fin (a * ((Spec.incr c i j - Spec.fitIncr n c i j) / Real.sqrt |Spec.fitIncr n c i j|))) ∧
      (Spec.fitIncr n c i j = 0 → 0 < Spec.incr c i j → fit.residAdj.cell i j = .pinf) ∧
      (Spec.fitIncr n c i j = 0 → Spec.incr c i j < 0 → fit.residAdj.cell i j = .ninf) ∧
      (Spec.fitIncr n c i j = 0 → Spec.incr c i j = 0 → fit.residAdj.cell i j = .nan) := by
  obtain ⟨fit', hf', hs⟩ := bootFit_stair Num.sqrt gm h hp hn
  obtain ⟨fit'', hf'', -, hus, -, ⟨a, ha, -, hadj⟩, -, -⟩ := C53_residuals gm h hp hn
  rw [hf] at hf' hf''
  cases hf'
  cases hf''
  refine ⟨a, ha, fun i j hij => ⟨fun hne => ?_, fun h0 hpos => ?_, fun h0 hneg => ?_, fun h0 hz => ?_⟩⟩
  · rw [hadj, hus i j hij hne, Num.fin_mul]
  all_goals
    have h0' : Spec.incr (Spec.fitCum n c) i j = 0 := h0
    rw [hadj, hs.us i j hij, h0', abs_zero, sub_zero, Num.sqrt_fin (le_refl 0), Real.sqrt_zero,
      Num.fin_div_zero]
  · have e : Num.infTimes (Spec.incr c i j) = .pinf := by simp [Num.infTimes, hpos, hpos.ne']
    rw [e]
    show Num.infTimes a = _
    simp [Num.infTimes, ha, ha.ne']
  · have e : Num.infTimes (Spec.incr c i j) = .ninf := by
      simp [Num.infTimes, hneg.ne, not_lt.2 hneg.le]
    rw [e]
    show Num.infTimes (-a) = _
    simp [Num.infTimes, ha.ne', not_lt.2 ha.le]
  · rw [hz]
    have e : Num.infTimes (0 : ℝ) = .nan := by simp [Num.infTimes]
    rw [e]
    rfl

/-- **C72** what is left to sample from: nothing exactly when the chain ladder reproduces every observed
increment outside the last origin and the last period. -/
theorem C72_empty (gm : List (Num ℝ) → Num ℝ) (h : Spec.Stair t n c) (hp : Spec.Positive n c)
    (hn : 3 ≤ n) {fit : BootFit ℝ} (hf : bootFit Num.sqrt gm t t.a2aind0 = .ok fit) :
    fit.sampling = [] ↔
      ∀ i j, i + j < n → i + 1 < n → j + 1 < n → Spec.incr c i j = Spec.fitIncr n c i j := by
  obtain ⟨a, ha, hc⟩ := residAdj_cases gm h hp hn hf
  obtain ⟨fit', hf', -, -, hmiss, ⟨a', -, -, hadj⟩, hmem, -⟩ := C53_residuals gm h hp hn
  rw [hf] at hf'
  cases hf'
  constructor
  · intro he i j hij hi hj
    by_contra hne
    have hv : fit.residAdj.cell i j ∈ fit.sampling := by
      rw [hmem]
      refine ⟨i, j, by omega, by omega, rfl, ?_⟩
      by_cases h0 : Spec.fitIncr n c i j = 0
      · rw [h0] at hne
        rcases lt_or_gt_of_ne hne with hlt | hgt
        · rw [(hc i j hij).2.2.1 h0 hlt]; simp
        · rw [(hc i j hij).2.1 h0 hgt]; simp
      · rw [(hc i j hij).1 h0]
        refine ⟨by simp, fun e => ?_⟩
        rw [Num.fin.injEq] at e
        have h1 : Real.sqrt |Spec.fitIncr n c i j| ≠ 0 := (Real.sqrt_pos.2 (abs_pos.2 h0)).ne'
        rcases mul_eq_zero.1 e with e | e
        · exact ha.ne' e
        · rcases div_eq_zero_iff.1 e with e | e
          · exact hne (sub_eq_zero.1 e)
          · exact h1 e
    rw [he] at hv
    simp at hv
  · intro hall
    rw [List.eq_nil_iff_forall_not_mem]
    intro v hv
    obtain ⟨i, j, hi, hj, rfl, h1, h2⟩ := (hmem v).1 hv
    by_cases hij : i + j < n
    · have e := hall i j hij (by omega) (by omega)
      by_cases h0 : Spec.fitIncr n c i j = 0
      · exact h1 ((hc i j hij).2.2.2 h0 (e.trans h0))
      · apply h2
        rw [(hc i j hij).1 h0, e]
        simp
    · apply h1
      rw [hadj, hmiss i (by omega) j (by omega) (by omega)]
      simp

/-- **C72** (partial) On a positive staircase with at least three origins, gamma process error, a usable
seed and at least one simulation, `boot_cl` returns exactly if some observed increment outside the last
origin and period differs from its fitted value; otherwise it raises `ValueError`.  (The parametric
version always returns.) -/
theorem C72_partial {S : Type} (P : Prng S ℝ) (gm : List (Num ℝ) → Num ℝ) (h : Spec.Stair t n c)
    (hp : Spec.Positive n c) (hn : 3 ≤ n) {sims : ℕ} (hS : 0 < sims) (arg : RandArg) (w : World S)
    (hother : arg ≠ .other) (hseed : ∀ k, arg = .int k → ∃ s, P.seed k = .ok s) :
    ((∃ i j, i + j < n ∧ i + 1 < n ∧ j + 1 < n ∧ Spec.incr c i j ≠ Spec.fitIncr n c i j) →
      ∃ b, bootCall P Num.sqrt gm t t.a2aind0 sims true false arg w = .ok b) ∧
    ((∀ i j, i + j < n → i + 1 < n → j + 1 < n → Spec.incr c i j = Spec.fitIncr n c i j) →
      bootCall P Num.sqrt gm t t.a2aind0 sims true false arg w = .error .valueError) ∧
    (∃ b, bootCall P Num.sqrt gm t t.a2aind0 sims true true arg w = .ok b) := by
  obtain ⟨fit, hf, -⟩ := bootFit_stair Num.sqrt gm h hp hn
  have he := C72_empty gm h hp hn hf
  have hgen : ∀ w : World S, ∃ z, getGen P w arg = .ok z := by
    intro w
    cases arg with
    | none => exact ⟨_, rfl⟩
    | int k =>
      obtain ⟨s, hs⟩ := hseed k rfl
      exact ⟨(s, fun _ => w), by simp only [getGen, hs, Except.map]⟩
    | state r => exact ⟨_, rfl⟩
    | other => exact absurd rfl hother
  have hsize : sims * (t.nr * t.nc) ≠ 0 := by
    rw [h.nr, h.nc]
    have : 0 < n := by omega
    positivity
  refine ⟨?_, ?_, ?_⟩
  · rintro ⟨i, j, h1, h2, h3, h4⟩
    have hne : fit.sampling ≠ [] := fun e => h4 (he.1 e i j h1 h2 h3)
    unfold bootCall
    obtain ⟨z1, hz1⟩ := hgen w
    simp only [hf, hz1, bind, Except.bind, Bool.false_eq_true, if_false,
      if_neg (c := fit.sampling = [] ∧ sims * (t.nr * t.nc) ≠ 0) (fun e => hne e.1)]
    obtain ⟨z2, hz2⟩ := hgen (z1.2 (P.choice fit.sampling (sims * (t.nr * t.nc)) z1.1).2)
    simp only [hz2, Bool.true_eq_false, if_false]
    exact ⟨_, rfl⟩
  · intro hall
    unfold bootCall
    obtain ⟨z1, hz1⟩ := hgen w
    simp only [hf, hz1, bind, Except.bind, Bool.false_eq_true, if_false,
      if_pos (c := fit.sampling = [] ∧ sims * (t.nr * t.nc) ≠ 0) ⟨he.2 hall, hsize⟩]
  · unfold bootCall
    obtain ⟨z1, hz1⟩ := hgen w
    simp only [hf, hz1, bind, Except.bind, if_true]
    obtain ⟨z2, hz2⟩ := hgen (z1.2 (P.normal (stdL Num.sqrt fit.sampling) (sims * (t.nr * t.nc)) z1.1).2)
    simp only [hz2, Bool.true_eq_false, if_false]
    exact ⟨_, rfl⟩

/-- **C74** (partial) The sampling distribution contains something infinite exactly if a fitted increment
outside the last origin and period vanishes where the observed one does not; all its other entries are
finite numbers. -/
theorem C74_partial (gm : List (Num ℝ) → Num ℝ) (h : Spec.Stair t n c) (hp : Spec.Positive n c)
    (hn : 3 ≤ n) {fit : BootFit ℝ} (hf : bootFit Num.sqrt gm t t.a2aind0 = .ok fit) :
    (∀ v ∈ fit.sampling, v.isFin = true) ↔
      ∀ i j, i + j < n → i + 1 < n → j + 1 < n → Spec.fitIncr n c i j = 0 → Spec.incr c i j = 0 := by
  obtain ⟨a, ha, hc⟩ := residAdj_cases gm h hp hn hf
  obtain ⟨fit', hf', -, -, hmiss, ⟨a', -, -, hadj⟩, hmem, -⟩ := C53_residuals gm h hp hn
  rw [hf] at hf'
  cases hf'
  constructor
  · intro hall i j hij hi hj h0
    by_contra hne
    rcases lt_or_gt_of_ne hne with hlt | hgt
    · have e := (hc i j hij).2.2.1 h0 hlt
      have := hall .ninf ((hmem _).2 ⟨i, j, by omega, by omega, e.symm, by simp, by simp⟩)
      simp [Num.isFin] at this
    · have e := (hc i j hij).2.1 h0 hgt
      have := hall .pinf ((hmem _).2 ⟨i, j, by omega, by omega, e.symm, by simp, by simp⟩)
      simp [Num.isFin] at this
  · intro hall v hv
    obtain ⟨i, j, hi, hj, rfl, h1, h2⟩ := (hmem v).1 hv
    by_cases hij : i + j < n
    · by_cases h0 : Spec.fitIncr n c i j = 0
      · exact absurd ((hc i j hij).2.2.2 h0 (hall i j hij (by omega) (by omega) h0)) h1
      · rw [(hc i j hij).1 h0]; rfl
    · refine absurd ?_ h1
      rw [hadj, hmiss i (by omega) j (by omega) (by omega)]
      simp

end

/-! ### C73 -/

section
variable {K : Type} [Field K] [LinearOrder K]

/-- **C73** (partial) An integer seed and a generator object in the state of that seed give the same fit,
samples, factors and forecasts.  Missing: process error, whose draws start from the seed again in the first
case and continue in the second, see `C73_fails`. -/
theorem C73_partial {S : Type} (P : Prng S K) (sq : Num K → Num K) (gm : List (Num K) → Num K) (t ind : Tri K)
    (sims : ℕ) (isGamma parametric : Bool) (k : Int) (s : S) (hk : P.seed k = .ok s) (ref : ℕ)
    (w w' : World S) (hw : w'.gens ref = s) :
    (bootCall P sq gm t ind sims isGamma parametric (.int k) w).map
        (fun p => (p.1.fit, p.1.sim.samples, p.1.sim.ldfs, p.1.sim.forecasts)) =
      (bootCall P sq gm t ind sims isGamma parametric (.state ref) w').map
        (fun p => (p.1.fit, p.1.sim.samples, p.1.sim.ldfs, p.1.sim.forecasts)) := by
  unfold bootCall
  cases h : bootFit sq gm t ind with
  | error e => rfl
  | ok fit =>
    simp only [bind, Except.bind, getGen, hk, hw, Except.map]
    cases parametric with
    | true => cases isGamma <;> rfl
    | false =>
      simp only [Bool.false_eq_true, if_false]
      by_cases hc : fit.sampling = [] ∧ sims * (t.nr * t.nc) ≠ 0
      · simp only [if_pos hc]
      · simp only [if_neg hc]
        cases isGamma <;> rfl

/-- **C73** (partial) If gamma draws did not depend on the state of the generator everything would agree:
the restarted generator is the only difference. -/
theorem C73_gamma_partial {S : Type} (P : Prng S K) (sq : Num K → Num K) (gm : List (Num K) → Num K)
    (t ind : Tri K) (sims : ℕ) (isGamma parametric : Bool) (k : Int) (s : S) (hk : P.seed k = .ok s)
    (ref : ℕ) (w w' : World S) (hw : w'.gens ref = s)
    (hg : ∀ l b s s', (P.gamma l b s).1 = (P.gamma l b s').1) :
    (bootCall P sq gm t ind sims isGamma parametric (.int k) w).map Prod.fst =
      (bootCall P sq gm t ind sims isGamma parametric (.state ref) w').map Prod.fst := by
  unfold bootCall
  cases h : bootFit sq gm t ind with
  | error e => rfl
  | ok fit =>
    simp only [bind, Except.bind, getGen, hk, hw, Except.map]
    cases parametric with
    | true =>
      cases isGamma with
      | false => rfl
      | true =>
        simp only [if_true, Bool.true_eq_false, if_false]
        rw [hg _ _ s]
    | false =>
      simp only [Bool.false_eq_true, if_false]
      by_cases hc : fit.sampling = [] ∧ sims * (t.nr * t.nc) ≠ 0
      · simp only [if_pos hc]
      · simp only [if_neg hc]
        cases isGamma with
        | false => rfl
        | true =>
          simp only [Bool.true_eq_false, if_false]
          rw [hg _ _ s]

end

/-- A generator whose gamma draws depend on the state. -/
def toyPrng2 : Prng ℕ ℚ := { toyPrng with gamma := fun l b s => (l.map (fun a => a * b + .fin s), s + l.length) }

/-- **C73** fails: seed 0 and a generator in the state of seed 0 give different reserves. -/
theorem C73_fails :
    (bootCall toyPrng2 exSqrt (fun _ => .nan) exBoot exBoot.a2aind0 1 true false (.int 0)
        ⟨fun _ => 0, fun _ => 0, 0⟩).map (fun p => p.1.reserves) ≠
      (bootCall toyPrng2 exSqrt (fun _ => .nan) exBoot exBoot.a2aind0 1 true false (.state 0)
        ⟨fun _ => 0, fun _ => 0, 0⟩).map (fun p => p.1.reserves) := by
  decide +kernel

/-- A triangle reproduced exactly by the chain ladder. -/
def exExact : Tri ℚ := stairTri 3 (fun i j =>
  ((([[100, 200, 300], [100, 200], [100]] : List (List ℚ)).getD i []).getD j 0))

/-- **C72** fails: `boot_cl` raises on a positive staircase. -/
theorem C72_fails :
    (bootCall toyPrng exSqrt (fun _ => .nan) exExact exExact.a2aind0 1 true false (.int 0)
        ⟨fun _ => 0, fun _ => 0, 0⟩).map (fun p => p.1.reserves) = .error .valueError ∧
    (bootCall toyPrng exSqrt (fun _ => .nan) exBoot exBoot.a2aind0 1 true false (.int 0)
        ⟨fun _ => 0, fun _ => 0, 0⟩).map (fun p => p.1.reserves) =
      .ok [.fin 0, .fin 119, .fin (3281 / 22)] := by
  decide +kernel

/-- A triangle with first factor 1 although its rows move. -/
def exFlat : Tri ℚ := stairTri 3 (fun i j =>
  ((([[100, 150, 300], [100, 50], [100]] : List (List ℚ)).getD i []).getD j 0))

/-- **C74** fails: both infinities are among the values drawn from. -/
theorem C74_fails :
    (bootFit exSqrt (fun _ => .nan) exFlat exFlat.a2aind0).map
      (fun f => (f.sampling.length, decide (Num.pinf ∈ f.sampling), decide (Num.ninf ∈ f.sampling))) =
      .ok (4, true, true) := by
  decide +kernel

example : (bootFit exSqrt (fun _ => .nan) exBoot exBoot.a2aind0).map (fun f => f.sampling.length) =
    .ok 4 := by
  decide +kernel

end Trikit
