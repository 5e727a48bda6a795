import Verif.MackObj
import Verif.Props.Exclusions
import Verif.Props.RoundedMackError
import Verif.Examples

/-! # Exclusions and the Mack estimator as an object (C156) -/

set_option linter.unusedSectionVars false

namespace Trikit

section
variable {K : Type} [Field K] [LinearOrder K]

theorem modInd_idem (f : Tri K) : f.modInd.modInd = f.modInd := by
  unfold Tri.modInd
  simp only
  congr 1
  funext i j
  by_cases e : Num.eqF (f.cell i j) 0 = true
  · simp [e]
  · simp [e]

/-- The core results only depend on the indicator with zeros removed. -/
theorem mackCore_modInd (alpha : ℕ) (t ind : Tri K) : mackCore alpha t ind.modInd = mackCore alpha t ind := by
  have h1 : mackLdfs alpha t ind.modInd 1 = mackLdfs alpha t ind 1 := by
    unfold mackLdfs; rw [modInd_idem]
  have h2 : ∀ l, devpVariance alpha t ind.modInd l = devpVariance alpha t ind l := by
    intro l; unfold devpVariance devpSum; rw [modInd_idem]; rfl
  have h3 : ∀ l, ldfVariance alpha t ind.modInd l = ldfVariance alpha t ind l := by
    intro l; unfold ldfVariance; rw [modInd_idem]; rfl
  unfold mackCore
  rw [h1]
  simp only [h2, h3]

theorem call_eq (m : MackObj K) (alpha : ℕ) : (m.call alpha).2 = mackCore alpha m.tri.tri (m.modInd.getD m.tri.read.2) := by
  unfold MackObj.call MackObj.readInd
  cases m.modInd with
  | none => exact mackCore_modInd _ _ _
  | some w => rfl

theorem step_tri (m : MackObj K) (op : MackOp K) : (m.step op).tri.tri = m.tri.tri := by
  cases op with
  | exclude a =>
    unfold MackObj.step IndState.assign
    cases m.tri.ind <;> rfl
  | read =>
    unfold MackObj.step IndState.read
    cases m.tri.ind <;> rfl
  | call alpha =>
    unfold MackObj.step MackObj.call MackObj.readInd IndState.read
    cases m.modInd <;> cases m.tri.ind <;> rfl

theorem step_modInd {m : MackObj K} {w : Tri K} (h : m.modInd = some w) (op : MackOp K) :
    (m.step op).modInd = some w := by
  cases op with
  | exclude a =>
    unfold MackObj.step
    simp only
    cases m.tri.assign a <;> exact h
  | read => exact h
  | call alpha =>
    unfold MackObj.step MackObj.call MackObj.readInd
    rw [h]; exact h

/-- **C156 fails for an estimator that is called twice.** Every call after the first one returns what it would have returned
at the time of the first one, whatever has been excluded in between. -/
theorem C156_stale_fails (m : MackObj K) (alpha₀ alpha : ℕ) (ops : List (MackOp K)) :
    ((ops.foldl MackObj.step (m.call alpha₀).1).call alpha).2 = (m.call alpha).2 := by
  have hinv : ∀ (ops : List (MackOp K)) (m' : MackObj K) (w : Tri K), m'.modInd = some w →
      (ops.foldl MackObj.step m').modInd = some w ∧ (ops.foldl MackObj.step m').tri.tri = m'.tri.tri := by
    intro ops
    induction ops with
    | nil => intro m' w h; exact ⟨h, rfl⟩
    | cons op ops ih =>
      intro m' w h
      obtain ⟨a, b⟩ := ih (m'.step op) w (step_modInd h op)
      exact ⟨a, b.trans (step_tri m' op)⟩
  have h1 : (m.call alpha₀).1.modInd = some (m.modInd.getD m.tri.read.2.modInd) := by
    unfold MackObj.call MackObj.readInd
    cases e : m.modInd with
    | none => rfl
    | some w => simp [e]
  obtain ⟨a, b⟩ := hinv ops _ _ h1
  rw [call_eq, a, b, show (m.call alpha₀).1.tri.tri = m.tri.tri from step_tri m (.call alpha₀), call_eq]
  cases m.modInd with
  | none => exact mackCore_modInd _ _ _
  | some w => rfl

/-- A new estimator uses the indicator as it is, whatever was called before. -/
theorem mackCl_eq (s : IndState K) (alpha : ℕ) : s.mackCl alpha = (s.read.1, mackCore alpha s.tri s.read.2) := by
  unfold IndState.mackCl
  simp only
  rw [call_eq]
  rfl

end

variable {K : Type} [Field K] [LinearOrder K] [IsStrictOrderedRing K]

/-- Origins whose link ratio of period `j` the history has not excluded. -/
def Spec.keptOrigins (t : Tri K) (n : ℕ) (l : List (Assign K)) (j : ℕ) : List ℕ :=
  (List.range (n - 1 - j)).filter (fun i => decide (Spec.lastAssigned l (t.oAt i) (t.dAt j) ≠ some (.fin 0)))

/-- **C156, part that holds.** `tri.mack_cl()` after any history of assignments of 0 and 1 to existing link ratios that
keeps one per period returns, leaves the exclusions as they are, and its factors are the averages of exactly the link
ratios that are not excluded, weighted with `C^alpha`.  Missing: an estimator that has been called before
(`C156_stale_fails`). -/
theorem C156_partial {t : Tri K} {n : ℕ} {c : ℕ → ℕ → K} (h : Spec.Stair t n c) (hp : Spec.Positive n c) (hn : 4 ≤ n)
    (l : List (Assign K)) (hl : ∀ a ∈ l, ∃ i j, i + j + 1 < n ∧ a.origin = t.oAt i ∧ a.dev = t.dAt j)
    (hbin : ∀ a ∈ l, a.value = .fin 0 ∨ a.value = .fin 1)
    (hkept : ∀ j < n - 1, Spec.keptOrigins t n l j ≠ []) (alpha : ℕ) :
    ∃ s r, IndState.assignAll (IndState.read { tri := t }).1 l = .ok s ∧ s.mackCl alpha = (s, .ok r) ∧
      r.ldfs.length = n ∧ ∀ j < n - 1, r.ldfs[j]? = some (t.dAt j, .fin
        (((Spec.keptOrigins t n l j).map (fun i => c i j ^ alpha * (c i (j + 1) / c i j))).sum /
          ((Spec.keptOrigins t n l j).map (fun i => c i j ^ alpha)).sum)) := by
  have hc := hp.ne_zero
  obtain ⟨ha, hb, hcell⟩ := h.a2a_spec hc
  have hl' : ∀ a ∈ l, a.origin ∈ t.a2aind0.origins ∧ a.dev ∈ t.a2aind0.devs := by
    intro a hal
    obtain ⟨i, j, hij, ho, hd⟩ := hl a hal
    constructor
    · change a.origin ∈ t.a2a.origins
      rw [ha, ho]; exact List.mem_map.2 ⟨i, List.mem_range.2 (by omega), rfl⟩
    · change a.dev ∈ t.a2a.devs
      rw [hb, hd]; exact List.mem_map.2 ⟨j, List.mem_range.2 (by omega), rfl⟩
  obtain ⟨g, h1, h2, h3, h4⟩ := assignAll_spec t l t.a2aind0 hl'
  have hoAt : ∀ i < n - 1, t.a2aind0.oAt i = t.oAt i := by
    intro i hi
    change t.a2a.origins.getD i 0 = _
    rw [ha, List.getD_eq_getElem?_getD, List.getElem?_map, List.getElem?_range hi]
    rfl
  have hdAt : ∀ j < n - 1, t.a2aind0.dAt j = t.dAt j := by
    intro i hi
    change t.a2a.devs.getD i 0 = _
    rw [hb, List.getD_eq_getElem?_getD, List.getElem?_map, List.getElem?_range hi]
    rfl
  have hg : ∀ i < n - 1, ∀ j < n - 1, g.cell i j =
      (Spec.lastAssigned l (t.oAt i) (t.dAt j)).getD (t.a2aind0.cell i j) := by
    intro i hi j hj
    rw [h4 i (by change i < t.a2a.nr; rw [h.a2a_nr hc]; omega) j (by change j < t.a2a.nc; rw [h.a2a_nc hc]; omega),
      hoAt i hi, hdAt j hj]
  have h0 := h.indW0 hc
  let w : ℕ → ℕ → K := fun i j => if Spec.lastAssigned l (t.oAt i) (t.dAt j) = some (.fin 0) then 0 else 1
  have hW : IndW t g n w := by
    refine ⟨⟨h2, h3, ?_⟩, ?_⟩
    · intro i j hij
      rw [hg i (by omega) j (by omega), h0.vals i j hij]
      cases e : Spec.lastAssigned l (t.oAt i) (t.dAt j) with
      | none => simp [w, e]
      | some v =>
        have e' := e
        unfold Spec.lastAssigned at e'
        obtain ⟨a, ha', rfl⟩ := Option.map_eq_some_iff.1 e'
        rcases hbin a (List.mem_reverse.1 (List.mem_of_find?_eq_some ha')) with hv | hv
        · simp [w, e, hv]
        · simp [w, e, hv]
    · intro i hi j hj hij
      rw [hg i hi j hj]
      cases e : Spec.lastAssigned l (t.oAt i) (t.dAt j) with
      | none => exact h0.miss i hi j hj hij
      | some v =>
        exfalso
        unfold Spec.lastAssigned at e
        obtain ⟨a, ha', rfl⟩ := Option.map_eq_some_iff.1 e
        have hq := List.find?_some ha'
        simp only [Bool.and_eq_true, beq_iff_eq] at hq
        obtain ⟨i', j', hij', ho, hd⟩ := hl a (List.mem_reverse.1 (List.mem_of_find?_eq_some ha'))
        have e1 : i' = i := h.oAt_inj (by omega) (by omega) (ho.symm.trans hq.1)
        have e2 : j' = j := h.dAt_inj (by omega) (by omega) (hd.symm.trans hq.2)
        omega
  have hmem : ∀ i j, i ∈ Spec.keptOrigins t n l j ↔ i < n - 1 - j ∧ w i j = 1 := by
    intro i j
    unfold Spec.keptOrigins
    rw [List.mem_filter, List.mem_range]
    simp only [decide_eq_true_eq, w]
    by_cases e : Spec.lastAssigned l (t.oAt i) (t.dAt j) = some (.fin 0) <;> simp [e]
  have hwt : Spec.Weights n w := by
    constructor
    · intro i j _
      simp only [w]; split <;> simp
    · intro j hj
      obtain ⟨i, hi⟩ := List.exists_mem_of_ne_nil _ (hkept j hj)
      obtain ⟨hi1, hi2⟩ := (hmem i j).1 hi
      exact ⟨i, by omega, by rw [hi2]; exact one_pos⟩
  obtain ⟨r, b, lab, hr, hparts⟩ := mackCore_stair h hc hW hn alpha (fun j hj => (mackW_pos hp hwt alpha hj).ne')
  have hsum : ∀ (j : ℕ) (g : ℕ → K), Spec.colSum n j (fun i => w i j * g i) = ((Spec.keptOrigins t n l j).map g).sum := by
    intro j g
    have e : (Spec.keptOrigins t n l j).map g = (Spec.keptOrigins t n l j).map (fun i => w i j * g i) :=
      List.map_congr_left fun i hi => by rw [((hmem i j).1 hi).2, one_mul]
    rw [e]
    unfold Spec.keptOrigins Spec.colSum
    rw [filter_sum, list_range_sum]
    intro i _ hi
    have hi' : Spec.lastAssigned l (t.oAt i) (t.dAt j) = some (.fin 0) := by simpa using hi
    simp [w, hi']
  refine ⟨{ tri := t, ind := some g }, r, h1, ?_, ?_, ?_⟩
  · rw [mackCl_eq]
    exact congrArg _ hr
  · rw [hparts.factors]
    unfold mackSer
    rw [h.take_devs]
    simp
    omega
  · intro j hj
    rw [hparts.factors]
    unfold mackSer
    rw [h.take_devs, List.getElem?_zip_eq_some]
    refine ⟨?_, ?_⟩
    · rw [List.getElem?_append_left (by simpa using hj), List.getElem?_map, List.getElem?_range hj]
      rfl
    · rw [List.getElem?_map, List.getElem?_range (by omega)]
      simp only [Option.map_some]
      rw [Spec.mackAll_lt hj]
      unfold Spec.mackF Spec.mackW
      simp only [mul_assoc]
      rw [hsum j (fun i => c i j ^ alpha * (c i (j + 1) / c i j)), hsum j (fun i => c i j ^ alpha)]

/-- Factors of an outcome, for the examples. -/
def Spec.factorsOf (r : Except PyErr (MackCore K)) : Option (List (Num K)) :=
  match r with
  | .ok r => some (r.ldfs.map Prod.snd)
  | .error _ => none

/-- A triangle whose estimator has been called, and then one link ratio is excluded. -/
def exCalled : MackObj ℚ :=
  [MackOp.call 1, .exclude ⟨exTri.oAt 0, exTri.dAt 0, .fin 0⟩].foldl MackObj.step { tri := { tri := exTri } }

/-- The reused estimator and a new one disagree: the first still averages the excluded link ratio. -/
theorem C156_differs_fails :
    Spec.factorsOf (exCalled.call 1).2 ≠ Spec.factorsOf (exCalled.tri.mackCl 1).2 ∧
      Spec.factorsOf (exCalled.call 1).2 = Spec.factorsOf (IndState.mackCl { tri := exTri } 1).2 ∧
      Spec.factorsOf (exCalled.tri.mackCl 1).2 ≠ none := by
  decide +kernel

/-- One excluded link ratio on the example: the history satisfies every hypothesis of `C156_partial`. -/
example : ∃ s r, IndState.assignAll (IndState.read { tri := exTri }).1 [⟨exTri.oAt 0, exTri.dAt 0, .fin 0⟩] = .ok s ∧
    s.mackCl 1 = (s, .ok r) ∧ r.ldfs[0]? = some (exTri.dAt 0,
      .fin ((exVals 1 0 * (exVals 1 1 / exVals 1 0) + exVals 2 0 * (exVals 2 1 / exVals 2 0)) / (exVals 1 0 + exVals 2 0))) := by
  obtain ⟨s, r, h1, h2, _, h4⟩ := C156_partial exTri_stair exVals_pos (by decide) [⟨exTri.oAt 0, exTri.dAt 0, .fin 0⟩]
    (by intro a ha; rw [List.mem_singleton] at ha; subst ha; exact ⟨0, 0, by decide, rfl, rfl⟩)
    (by intro a ha; rw [List.mem_singleton] at ha; subst ha; exact Or.inl rfl) (by decide +kernel) 1
  refine ⟨s, r, h1, h2, ?_⟩
  rw [h4 0 (by decide)]
  decide +kernel

end Trikit
