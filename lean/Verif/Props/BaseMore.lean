import Verif.Props.BaseScale

/-! # C71: on which staircases `base_cl` returns; further cases of C33, C35, C36 -/

set_option linter.unusedSectionVars false

namespace Trikit

variable {K : Type}

section
variable [Field K] [LinearOrder K]

/-- With one factor per period the estimator returns, whatever the factors are. -/
theorem base_returns {t : Tri K} {n : ℕ} {c : ℕ → ℕ → K} (h : Spec.Stair t n c) (hn : 1 ≤ n)
    {ldfs : Ser K} (hl : ldfs.length = n) : ∃ r, baseFromLdfs t ldfs = .ok r := by
  have hu : ∃ u, ultimatesOf t (cldfsOf ldfs) = .ok u := by
    unfold ultimatesOf
    simp only
    rw [if_pos]
    · exact ⟨_, rfl⟩
    · have h1 : (cldfsOf ldfs).length = n := by
        unfold cldfsOf; rw [List.length_zip, cumprodRev_length]; simp [hl]
      have h2 : t.latestByOrigin.length = n := by rw [h.latestByOrigin]; simp
      simp [h1, h2, h.nr]
  have hs : ∃ s, trisqrdOf t ldfs = .ok s := by
    unfold trisqrdOf
    rw [Tri.triind_ok h.staircase.colsObserved]
    show ∃ s, (if ldfs.length < t.nc - 1 ∨ ldfs = [] then _ else _) = _
    rw [if_neg]
    · exact ⟨_, rfl⟩
    · rw [h.nc, hl]
      rintro (h1 | h1)
      · omega
      · subst h1; simp at hl; omega
  obtain ⟨u, hu⟩ := hu
  obtain ⟨s, hs⟩ := hs
  unfold baseFromLdfs
  simp only
  rw [hu, h.maturity, hs]
  exact ⟨_, rfl⟩

variable [IsStrictOrderedRing K]

/-- **C71 is false of the code** for two origins: every average exists, but with a single link ratio
the label of the tail cannot be computed (`IndexError`). -/
theorem C71_two_origins_fails (gm : List (Num K) → Num K) {t : Tri K} {c : ℕ → ℕ → K}
    (h : Spec.Stair t 2 c) (hp : Spec.Positive 2 c) (kind : AvgKind) (tail : Num K) :
    (∃ vals, Spec.RowIs gm t t.a2aind0 (Spec.avgName kind.name 0) vals) ∧
    baseCL gm t t.a2aind0 (Spec.avgName kind.name 0) tail = .error .indexError := by
  obtain ⟨tab, htab⟩ := a2aAvgs_noexcl_ok gm h hp
  obtain ⟨hd, vals, h1, _⟩ := a2aAvgs_lookup htab (k := kind) (d := 0) (Or.inl rfl)
  rw [avgName_eq] at h1
  refine ⟨⟨vals, tab, htab, h1⟩, ?_⟩
  have hs : tailLabel tab.devs = .error .indexError := by
    apply tailLabel_short
    rw [hd]
    show t.a2a.nc < 2
    rw [h.a2a_nc hp.ne_zero]; omega
  unfold baseCL ldfsByName
  rw [htab]
  show (do
    let ldfs ← (match tab.rows.lookup (Spec.avgName kind.name 0) with
      | none => .error .keyError
      | some vals => do
        let lab ← tailLabel tab.devs
        .ok (Ser.locSet (tab.devs.zip vals) lab tail) : Except PyErr (Ser K))
    baseFromLdfs t ldfs) = _
  rw [h1]
  show (do
    let ldfs ← (do
      let lab ← tailLabel tab.devs
      .ok (Ser.locSet (tab.devs.zip vals) lab tail) : Except PyErr (Ser K))
    baseFromLdfs t ldfs) = _
  rw [hs]
  rfl

/-- **C71, partial**: for three or more origins `base_cl` returns for every average type and window,
also when the selected row contains NaN (missing: two origins). -/
theorem C71_returns_partial (gm : List (Num K) → Num K) {t : Tri K} {n : ℕ} {c : ℕ → ℕ → K}
    (h : Spec.Stair t n c) (hp : Spec.Positive n c) (hn : 3 ≤ n) (kind : AvgKind) {k : ℕ}
    (hk : k < n - 1) (tail : Num K) :
    ∃ r, baseCL gm t t.a2aind0 (Spec.avgName kind.name k) tail = .ok r := by
  obtain ⟨tab, htab⟩ := a2aAvgs_noexcl_ok gm h hp
  have hnr : k < t.a2a.nr := by rw [h.a2a_nr hp.ne_zero]; exact hk
  obtain ⟨_, vals, h1, _⟩ := a2aAvgs_lookup htab (k := kind) (Or.inr hnr)
  rw [avgName_eq] at h1
  have hind := h.indOn0 hp.ne_zero
  obtain ⟨hvl, lab, _, _, hs⟩ := ldfsByName_spec h.devs hind.origins hind.devs
    (by rw [h.a2a_nc hp.ne_zero]; omega) ⟨tab, htab, h1⟩ tail
  have hdl : t.a2a.devs.length = n - 1 := h.a2a_nc hp.ne_zero
  obtain ⟨r, hr⟩ := base_returns h (by omega)
    (ldfs := (t.a2a.devs ++ [lab]).zip (vals ++ [tail])) (by
      rw [List.length_zip]; simp [hdl, hvl]; omega)
  refine ⟨r, ?_⟩
  unfold baseCL
  rw [hs]
  exact hr

end

/-- C71: two origins. -/
example : (baseCL (fun _ => .nan) (stairTri 2 exVals) (stairTri 2 exVals).a2aind0 "all-simple"
    (.fin 1)).map (fun r => r.ldfs) = .error .indexError := by
  decide +kernel

/-- C33: tails 1 and 6/5. -/
example : (baseCL (fun _ => .nan) exTri exTri.a2aind0 "simple-1" (.fin 1)).map
      (fun r => r.rows.map SummRow.ultimate) = .ok [.fin 198, .fin 242, .fin 231, .fin (1001 / 4)] ∧
    (baseCL (fun _ => .nan) exTri exTri.a2aind0 "simple-1" (.fin (6 / 5))).map
      (fun r => r.rows.map SummRow.ultimate) =
      .ok [.fin (198 * 6 / 5), .fin (242 * 6 / 5), .fin (231 * 6 / 5), .fin (1001 / 4 * 6 / 5)] := by
  decide +kernel

/-- C36: the oldest origin with tail 1. -/
example : (baseCL (fun _ => .nan) exTri exTri.a2aind0 "simple-1" (.fin 1)).map
      (fun r => (r.rows.take 1).map (fun x => [x.cldf, x.emergence, x.reserve])) =
    .ok [[.fin 1, .fin 1, .fin 0]] := by
  decide +kernel

/-- C35: the example triangle has nondecreasing rows; some of its averages. -/
example : (a2aAvgs (fun _ => .nan) exTri exTri.a2aind0).map
      (fun tab => [Spec.entry tab "all-medial" 0, Spec.entry tab "weighted-1" 1,
        Spec.entry tab "simple-2" 1]) =
    .ok [some (.fin (3 / 2)), some (.fin (5 / 4)), some (.fin (49 / 40))] := by
  decide +kernel

end Trikit
