import Verif.Props.RoundedTri
import Verif.Props.Rounded
import Verif.Props.EndToEnd

/-! # C150: from records to reserves in double precision -/

set_option linter.unusedSectionVars false

namespace Trikit

variable {K : Type} [Field K] [LinearOrder K] [IsStrictOrderedRing K]
variable {recs : List (Rec K)} {n : ℕ} {o d : ℕ → Int} {x : ℕ → ℕ → K} {br : ℕ → SumTree}

/-- The summary is the chain ladder of the amounts `c` up to rounding with unit `u`: labels and latest amounts are exact,
ultimates and reserves are off by the stated multiples of `u`. -/
structure Spec.NearChainLadder (u : K) (n : ℕ) (o d : ℕ → Int) (c : ℕ → ℕ → K) (r : BaseResult K) : Prop where
  row : ∀ i < n, ∃ row U R, r.rows[i]? = some row ∧ row.origin = o i ∧ row.maturity = d (n - 1 - i) ∧
    row.latest = .fin (c i (n - 1 - i)) ∧ row.ultimate = .fin U ∧ row.reserve = .fin R ∧
    |U - Spec.clUltimate n c i| ≤ 2 * ((i : K) ^ 2 + 3 * i + 1) * u * Spec.clUltimate n c i ∧
    |R - (Spec.clUltimate n c i - c i (n - 1 - i))| ≤
      u * |Spec.clUltimate n c i - c i (n - 1 - i)| + 4 * ((i : K) ^ 2 + 3 * i + 1) * u * Spec.clUltimate n c i
  total : ∃ U R, r.totUltimate = .fin U ∧ r.totReserve = .fin R ∧
    |U - ∑ i ∈ Finset.range n, Spec.clUltimate n c i| ≤
      2 * ((n : K) ^ 2 + 2 * n) * u * ∑ i ∈ Finset.range n, Spec.clUltimate n c i ∧
    |R - ∑ i ∈ Finset.range n, (Spec.clUltimate n c i - c i (n - 1 - i))| ≤ (4 * (n : K) ^ 2 + 6 * n) * u *
      (∑ i ∈ Finset.range n, Spec.clUltimate n c i + ∑ i ∈ Finset.range n, c i (n - 1 - i))

theorem nearChainLadder_of {u : K} {c : ℕ → ℕ → K} {r r' : BaseResult K} (hb : Spec.ErrorBounds u n r r')
    (hc : Spec.ChainLadder n o d c r.rows r.totLatest r.totUltimate r.totReserve) :
    Spec.NearChainLadder u n o d c r' := by
  obtain ⟨_, _, h3, L, L', U, U', R, R', t1, t2, t3, t4, t5, t6, _, _, _, t7, t8⟩ := hb
  constructor
  · intro i hi
    obtain ⟨row, row', L, U, U', R, R', S', a1, a2, a3, a4, a5, a6, a7, a8, a9, a10, _, _, a11, _, a12⟩ := h3 i hi
    obtain ⟨row2, b1, b2, b3, b4, b5, b6⟩ := hc.row i hi
    obtain rfl : row = row2 := by rw [a1] at b1; exact Option.some.inj b1
    rw [a5] at b4; rw [a7] at b5; rw [a9] at b6
    have e1 := Num.fin.inj b4
    have e2 := Num.fin.inj b5
    have e3 := Num.fin.inj b6
    subst e1 e2 e3
    exact ⟨row', U', R', a2, a3.trans b2, a4.trans b3, a6, a8, a10, a11, a12⟩
  · have e1 := hc.latest
    have e2 := hc.ultimate
    have e3 := hc.reserve
    rw [t1] at e1; rw [t3] at e2; rw [t5] at e3
    have e1 := Num.fin.inj e1
    have e2 := Num.fin.inj e2
    have e3 := Num.fin.inj e3
    subst e1 e2 e3
    exact ⟨U', R', t4, t6, t7, t8⟩

/-- **C150**: incremental records with whole amounts, `totri(data).base_cl()`, every operation in double precision. -/
theorem C150_incr [FloorRing K] (gm : List (Num K) → Num K) (h : Spec.StairRecs recs n o d x) (hord : DevOrdered recs)
    (hp : Spec.Positive n (Spec.cumOf x)) (hn : 3 ≤ n) (hn' : n ≤ 2 ^ 25)
    (he : Spec.EvenlySpaced ((List.range n).map d)) (hw : Spec.Whole (2 ^ 53) (recs.map Rec.value))
    (hb : Spec.Bracketing br) :
    ∃ t r, totriCumR (floatRd 53) recs = .ok t ∧
      baseCLR br (floatRd 53) gm t t.a2aind0 "all-weighted" (.fin 1) = .ok r ∧
      Spec.NearChainLadder (2 ^ (-53 : ℤ)) n o d (Spec.cumOf x) r := by
  obtain ⟨t, h1, h2, h3, h4⟩ := C90_cum h (fun i hi => by simpa [Spec.cumOf] using hp i 0 (by omega)) hord
  obtain ⟨r, a1, a2⟩ := chainLadder_of_stair gm h2 hp hn h3 h4 he
  obtain ⟨r1, r', b1, b2, b3⟩ := C142_float64 gm gm h2 hp hn hn' hb (kind := .weighted) (Or.inr rfl) (k := 0)
    (by omega) (tail := 1) one_pos
  have e : r1 = r := by
    have b1 : baseCL gm t t.a2aind0 "all-weighted" 1 = .ok r1 := b1
    rw [a1] at b1; exact (Except.ok.inj b1).symm
  subst e
  exact ⟨t, r', by rw [C146_cum (floatRd_exactInt (by norm_num)) h.onePerCell hw, h1], b2, nearChainLadder_of b3 a2⟩

/-- **C150**: cumulative records, rows in any order, with whole increments, `totri(data, data_format="cum").base_cl()`. -/
theorem C150_cum [FloorRing K] (gm : List (Num K) → Num K) (h : Spec.StairRecs recs n o d x)
    (hp : Spec.Positive n x) (hn : 3 ≤ n) (hn' : n ≤ 2 ^ 25)
    (he : Spec.EvenlySpaced ((List.range n).map d)) (hw : Spec.Whole (2 ^ 53) ((decumRecs recs).map Rec.value))
    (hb : Spec.Bracketing br) :
    ∃ t r, totriCumR (floatRd 53) (decumRecsR (floatRd 53) recs) = .ok t ∧
      baseCLR br (floatRd 53) gm t t.a2aind0 "all-weighted" (.fin 1) = .ok r ∧
      Spec.NearChainLadder (2 ^ (-53 : ℤ)) n o d x r := by
  obtain ⟨t, h1, h2, h3, h4⟩ := C90_cum_format h (fun i hi => hp i 0 (by omega))
  obtain ⟨r, a1, a2⟩ := chainLadder_of_stair gm h2 hp hn h3 h4 he
  obtain ⟨r1, r', b1, b2, b3⟩ := C142_float64 gm gm h2 hp hn hn' hb (kind := .weighted) (Or.inr rfl) (k := 0)
    (by omega) (tail := 1) one_pos
  have e : r1 = r := by
    have b1 : baseCL gm t t.a2aind0 "all-weighted" 1 = .ok r1 := b1
    rw [a1] at b1; exact (Except.ok.inj b1).symm
  subst e
  exact ⟨t, r', by rw [C146_cum_format (floatRd_exactInt (by norm_num)) h.onePerCell hw, h1], b2,
    nearChainLadder_of b3 a2⟩

/-- The records of C90, 466 units altogether. -/
example : Spec.Whole (2 ^ 53) (exStairRecs.map Rec.value) :=
  ⟨[130, 100, 50, 110, 10, 66], .cons (Or.inr ⟨130, by decide +kernel, by decide⟩)
    (.cons (Or.inr ⟨100, by decide +kernel, by decide⟩) (.cons (Or.inr ⟨50, by decide +kernel, by decide⟩)
    (.cons (Or.inr ⟨110, by decide +kernel, by decide⟩) (.cons (Or.inr ⟨-10, by decide +kernel, by decide⟩)
    (.cons (Or.inr ⟨66, by decide +kernel, by decide⟩) .nil))))), by decide⟩

/-- In double precision: latest amounts 140, 176, 130, the two projected ultimates (exactly 2464/15 and 8476/45) rounded. -/
example : ((totriCumR (floatRd 53) exStairRecs).toOption.bind (fun t =>
    (baseCLR (fun n => seqTree (n - 1)) (floatRd 53) (fun _ => .nan) t t.a2aind0 "all-weighted" 1).toOption)).map
      (fun r => (r.rows.map SummRow.latest, r.rows.map (fun x =>
        (x.ultimate == .fin 140, x.ultimate == .fin (2464 / 15), x.ultimate == .fin (8476 / 45))))) =
    some ([.fin 140, .fin 176, .fin 130], [(true, false, false), (false, false, false), (false, false, false)]) := by
  decide +kernel

end Trikit
