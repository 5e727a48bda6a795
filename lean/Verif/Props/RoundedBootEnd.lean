import Verif.QuantRows
import Verif.Props.RoundedBootSumm
import Verif.Props.QuantStable
import Verif.Props.RoundedLevels

/-! # Runs of the bootstrap in rounded and in exact arithmetic (C186, C187, C188) -/

set_option linter.unusedSectionVars false

namespace Trikit

section
variable {K : Type} [Field K] [LinearOrder K] [IsStrictOrderedRing K]
variable {t m m' : Tri K} {n S N : ℕ} {c v v' : ℕ → ℕ → K} {rd : K → K} {br : ℕ → SumTree} {u : K}
variable {U R : ℕ → ℕ → K} {res : List (ResRow K)}

/-- Entry of the table of reserves. -/
theorem Reserves.get (h : Spec.Reserves rd t n S U R res) {s i : ℕ} (hs : s < S) (hi : i < n) :
    ∃ q, res[i * S + s]? = some q ∧ q.sim = s ∧ q.origin = t.oAt i ∧ q.ultimate = .fin (U s i) ∧ q.reserve = .fin (R s i) := by
  obtain ⟨L, hL⟩ := h.rows
  have h1 := table2_get (fun i s => Spec.distRow t.oAt L U R s i) hs hi
  rw [← hL, List.getElem?_map] at h1
  obtain ⟨q, hq, e⟩ := Option.map_eq_some_iff.1 h1
  refine ⟨q, hq, ?_⟩
  injection e with e1 e2 e3 e4 e5
  exact ⟨e1, Option.some.inj e2, e4, e5⟩

theorem formatRd_id : Spec.FormatRd (id : K → K) 0 :=
  ⟨⟨le_rfl, zero_lt_one, fun x => by simp⟩, fun _ => rfl, rfl⟩

/-- **C186** A run in rounded arithmetic beside a run in exact arithmetic on the same triangle.  If the forecast increments
after process error of an origin differ by at most `δ`, its reserves differ by at most `δ` for each forecast period plus
`10u` times the first simulated value, the variation of the observed part and the absolute forecast increments; its
ultimates differ by the difference of the latest simulated values in addition. -/
theorem C186_reserves (hf : Spec.FormatRd rd u) (h1 : t.dAt 0 = 1) (hu : 20 * (n : K) * u ≤ 1) {sq sq' : Num K → Num K}
    {draw draw' : ℕ → Num K} {scale scale' : Num K} {gam gam' : ℕ → Num K → Num K → Num K}
    (h : Spec.FiniteRun t m n S c v sq draw scale gam) (h' : Spec.FiniteRun t m' n S c v' sq' draw' scale' gam') :
    ∃ (U R U' R' : ℕ → ℕ → K) (y f y' f' : ℕ → ℕ → ℕ → K),
      Spec.Reserves rd t n S U R (bootSimsR rd sq t m scale S draw gam).reserves ∧
      Spec.Reserves id t n S U' R' (bootSims sq' t m' scale' S draw' gam').reserves ∧
      (∀ s < S, ∀ i < n, ∀ j < n, ∃ r r',
        (bootSimsR rd sq t m scale S draw gam).proc[s * (n * n) + (i * n + j)]? = some r ∧
        (bootSims sq' t m' scale' S draw' gam').proc[s * (n * n) + (i * n + j)]? = some r' ∧
        r.base.sampCum = .fin (y s i j) ∧ r.finalIncr = .fin (f s i j) ∧
        r'.base.sampCum = .fin (y' s i j) ∧ r'.finalIncr = .fin (f' s i j)) ∧
      ∀ s < S, ∀ i < n, ∀ δ, (∀ j < n, n ≤ i + j → |f s i j - f' s i j| ≤ δ) →
        |R s i - R' s i| ≤ i * δ + 10 * u * (|y s i 0| + ∑ j ∈ Finset.range (n - 1 - i), |y s i (j + 1) - y s i j| +
          ∑ j ∈ Finset.Ico (n - i) n, |f s i j|) ∧
        |U s i - U' s i| ≤ |y s i (n - 1 - i) - y' s i (n - 1 - i)| + i * δ + 10 * u * (|y s i 0| +
          ∑ j ∈ Finset.range (n - 1 - i), |y s i (j + 1) - y s i j| + ∑ j ∈ Finset.Ico (n - i) n, |f s i j|) := by
  have hS := h.two
  obtain ⟨U, R, hR⟩ := C180_run hf.toIdem h
  obtain ⟨U', R', hR'⟩ := C180_run formatRd_id.toIdem h'
  obtain ⟨y, f, V, Q, hp⟩ := C165_partial hf h.tri h.pos (by omega) h.fit h.origins h.devs h1 h.root h.incr h.draws hu h.gammas
  obtain ⟨y', f', V', Q', hp'⟩ := C165_partial formatRd_id h'.tri h'.pos (by omega) h'.fit h'.origins h'.devs h1 h'.root
    h'.incr h'.draws (by rw [mul_zero]; exact zero_le_one) h'.gammas
  have key : ∀ s < S, ∀ i < n, R s i = Q s i ∧ U s i = V s i ∧ R' s i = Q' s i ∧ U' s i = V' s i := by
    intro s hs i hi
    obtain ⟨q, a1, -, -, a2, a3⟩ := Reserves.get hR hs hi
    obtain ⟨q', b1, -, -, b2, b3⟩ := Reserves.get hR' hs hi
    obtain ⟨-, ⟨w, c1, -, -, -, c2, c3⟩, -⟩ := hp s hs i hi
    obtain ⟨-, ⟨w', d1, -, -, -, d2, d3⟩, -⟩ := hp' s hs i hi
    rw [a1] at c1
    rw [b1] at d1
    cases Option.some.inj c1
    cases Option.some.inj d1
    exact ⟨Num.fin.inj (a3.symm.trans c3), Num.fin.inj (a2.symm.trans c2), Num.fin.inj (b3.symm.trans d3),
      Num.fin.inj (b2.symm.trans d2)⟩
  rw [C164_exact] at hR'
  refine ⟨U, R, U', R', y, f, y', f', hR, hR', ?_, ?_⟩
  · intro s hs i hi j hj
    obtain ⟨r, a1, a2, -, a3⟩ := (hp s hs i hi).1 j hj
    obtain ⟨r', b1, b2, -, b3⟩ := (hp' s hs i hi).1 j hj
    rw [C164_exact] at b1
    exact ⟨r, r', a1, b1, a2, a3, b2, b3⟩
  · intro s hs i hi δ hδ
    obtain ⟨k1, k2, k3, k4⟩ := key s hs i hi
    obtain ⟨-, -, -, e1, e2⟩ := hp s hs i hi
    obtain ⟨-, -, -, e3, e4⟩ := hp' s hs i hi
    rw [mul_zero, zero_mul] at e3 e4
    have e3' := sub_eq_zero.1 (abs_nonpos_iff.1 e3)
    have e4' := sub_eq_zero.1 (abs_nonpos_iff.1 e4)
    have hs1 : |∑ j ∈ Finset.Ico (n - i) n, f s i j - ∑ j ∈ Finset.Ico (n - i) n, f' s i j| ≤ i * δ := by
      rw [← Finset.sum_sub_distrib]
      refine (Finset.abs_sum_le_sum_abs _ _).trans ((Finset.sum_le_card_nsmul _ _ δ ?_).trans ?_)
      · intro j hj
        have := Finset.mem_Ico.1 hj
        exact hδ j this.2 (by omega)
      · rw [Nat.card_Ico, nsmul_eq_mul, show n - (n - i) = i by omega]
    rw [k1, k2, k3, k4, e3', e4']
    set A := |y s i 0| + ∑ j ∈ Finset.range (n - 1 - i), |y s i (j + 1) - y s i j| + ∑ j ∈ Finset.Ico (n - i) n, |f s i j|
    set F := ∑ j ∈ Finset.Ico (n - i) n, f s i j
    set F' := ∑ j ∈ Finset.Ico (n - i) n, f' s i j
    constructor
    · have := abs_add_le (Q s i - F) (F - F')
      rw [sub_add_sub_cancel] at this
      linarith
    · have g1 := abs_add_le (V s i - (y s i (n - 1 - i) + F)) ((y s i (n - 1 - i) - y' s i (n - 1 - i)) + (F - F'))
      rw [show V s i - (y s i (n - 1 - i) + F) + ((y s i (n - 1 - i) - y' s i (n - 1 - i)) + (F - F')) =
        V s i - (y' s i (n - 1 - i) + F') by ring] at g1
      have g2 := abs_add_le (y s i (n - 1 - i) - y' s i (n - 1 - i)) (F - F')
      linarith

/-- **C186** for the reported ultimates: means over the simulations. -/
theorem C186_means (hr : Spec.RelErr rd u) (hu : 20 * (S : K) * u ≤ 1) (ht : Spec.Stair t n c) (hn : 0 < n) (hS : 2 ≤ S)
    {U' R' : ℕ → ℕ → K} {res' : List (ResRow K)} (h : Spec.Reserves rd t n S U R res)
    (h' : Spec.Reserves id t n S U' R' res') {i : ℕ} (hi : i < n) (h0 : 0 < i) {δ : K}
    (hδ : ∀ s < S, |U s i - U' s i| ≤ δ) :
    ∃ V V', (bootUltimatesR rd t res)[i]? = some (.fin V) ∧ (bootUltimates t res')[i]? = some (.fin V') ∧
      |V - V'| ≤ δ + 16 * u * Spec.meanOf S (fun s => |U s i|) := by
  have hS0 : (0 : K) < S := Nat.cast_pos.2 (by omega)
  obtain ⟨a1, -⟩ := bootR_columns (sq := id) (br := fun k => seqTree (k - 1)) ht hn hS h
  obtain ⟨L, hL⟩ := h'.rows
  obtain ⟨b1, -⟩ := boot_columns (sq := id) ht hn hS hL
  refine ⟨Spec.bootUltR rd n S c U i, Spec.bootUlt n S c U' i, ?_, ?_, ?_⟩
  · rw [a1, List.getElem?_map, List.getElem?_range hi]; rfl
  · rw [b1, List.getElem?_map, List.getElem?_range hi]; rfl
  · unfold Spec.bootUltR Spec.bootUlt
    rw [if_neg h0.ne', if_neg h0.ne']
    have e1 := kmean_error hr (by omega : 0 < S) hu (fun s => U s i)
    have e2 : |Spec.meanOf S (fun s => U s i) - Spec.meanOf S (fun s => U' s i)| ≤ δ := by
      unfold Spec.meanOf
      rw [← sub_div, ← Finset.sum_sub_distrib, abs_div, abs_of_pos hS0, div_le_iff₀ hS0]
      refine (Finset.abs_sum_le_sum_abs _ _).trans ((Finset.sum_le_card_nsmul _ _ δ fun s hs =>
        hδ s (Finset.mem_range.1 hs)).trans ?_)
      rw [Finset.card_range, nsmul_eq_mul, mul_comm]
    have e3 := abs_add_le (rd (Spec.kpre rd (fun s => U s i) S / S) - Spec.meanOf S (fun s => U s i))
      (Spec.meanOf S (fun s => U s i) - Spec.meanOf S (fun s => U' s i))
    rw [sub_add_sub_cancel] at e3
    linarith
end

/-! ### standard errors -/

section
variable {t : Tri ℝ} {n S N : ℕ} {c : ℕ → ℕ → ℝ} {rd : ℝ → ℝ} {br : ℕ → SumTree} {u : ℝ}
variable {sq : Num ℝ → Num ℝ} {g : ℝ → ℝ} {U R U' R' : ℕ → ℕ → ℝ} {res res' : List (ResRow ℝ)}

theorem abs_sub_sqrt_le {e V B : ℝ} (he : 0 ≤ e) (hV : 0 ≤ V) (h : |e ^ 2 - V| ≤ B) : |e - √V| ≤ √B := by
  refine Real.abs_le_sqrt ((le_trans ?_ h))
  have hv := Real.sqrt_nonneg V
  have e1 : e ^ 2 - V = (e - √V) * (e + √V) := by
    have := Real.sq_sqrt hV
    ring_nf
    rw [this]
  rw [e1, abs_mul, abs_of_nonneg (by linarith : 0 ≤ e + √V), ← sq_abs, pow_two]
  refine mul_le_mul_of_nonneg_left ?_ (abs_nonneg _)
  rw [abs_le]
  constructor <;> linarith

theorem sqrt_add_le {a b : ℝ} (ha : 0 ≤ a) (hb : 0 ≤ b) : √(a + b) ≤ √a + √b := by
  have h1 := Real.sqrt_nonneg a
  have h2 := Real.sqrt_nonneg b
  rw [Real.sqrt_le_iff]
  refine ⟨by linarith, ?_⟩
  have := Real.sq_sqrt ha
  have := Real.sq_sqrt hb
  nlinarith [mul_nonneg h1 h2]

theorem std_close {x y : ℕ → ℝ} (hS : 2 ≤ S) {δ : ℝ} (h : ∀ s < S, |x s - y s| ≤ δ) :
    |√(Spec.sampleVar S x) - √(Spec.sampleVar S y)| ≤ δ * √((S : ℝ) / ((S : ℝ) - 1)) := by
  have h2 : (2 : ℝ) ≤ S := by exact_mod_cast hS
  have h3 : 0 < Real.sqrt ((S : ℝ) - 1) := Real.sqrt_pos.2 (by linarith)
  rw [sqrt_sampleVar, sqrt_sampleVar, ← sub_div, abs_div, abs_of_pos h3, Real.sqrt_div (by linarith), ← mul_div_assoc]
  exact div_le_div_of_nonneg_right ((abs_norm_sub_norm_le _ _).trans (devVec_sub_norm (by omega) h)) h3.le

/-- **C187** Standard error of an origin: rounded run against exact run whose reserves differ by at most `δ`. -/
theorem C187_origin (hm : Spec.MonoRd rd N) (hr : Spec.RelErr rd u) (hu : 2 * ((S + 3) * u) ≤ 1) (hb : Spec.Bracketing br)
    (hs : Spec.SqrtLike sq g) (hg : ∀ x, 0 ≤ x → |g x ^ 2 - x| ≤ 3 * u * x) (ht : Spec.Stair t n c) (hn : 0 < n) (hS : 2 ≤ S)
    (h : Spec.Reserves rd t n S U R res) (h' : Spec.Reserves id t n S U' R' res') {i : ℕ} (hi : i < n) {a b M δ : ℝ}
    (hab : ∀ s < S, a ≤ R s i ∧ R s i ≤ b) (hM : -M ≤ a ∧ b ≤ M) (hδ : ∀ s < S, |R s i - R' s i| ≤ δ) :
    ∃ e e', (bootStdErrR br rd sq t S res)[i]? = some (.fin e) ∧ (bootStdErr Num.sqrt t S res')[i]? = some (.fin e') ∧
      |e - e'| ≤ δ * √((S : ℝ) / ((S : ℝ) - 1)) +
        √(u * ((S ^ 2 + 21 * S) * (b - a) ^ 2 + (S ^ 2 + 2 * S) / 2 * (M * (b - a))) / ((S : ℝ) - 1)) := by
  have hu4 : 4 * u ≤ 1 := by
    have := hr.nonneg
    have : (2 : ℝ) ≤ S := by exact_mod_cast hS
    nlinarith
  obtain ⟨e, e1, e2⟩ := C181_accuracy hm hr hu hb hs hg ht hn hS h hi hab hM
  have e0 : 0 ≤ e := by
    obtain ⟨w, w1, w2, -⟩ := C180_std hm hr hu4 hb hs ht hn hS h
    rw [w1, List.getElem?_map, List.getElem?_range (by omega)] at e1
    have := Num.fin.inj (Option.some.inj e1)
    rw [← this]
    exact w2 i
  obtain ⟨L, hL⟩ := h'.rows
  obtain ⟨-, -, b3⟩ := boot_columns (sq := Num.sqrt) ht hn hS hL
  have hv := sampleVar_nonneg hS (fun s => R' s i)
  refine ⟨e, √(Spec.sampleVar S (fun s => R' s i)), e1, ?_, ?_⟩
  · rw [b3, List.getElem?_append_left (by simpa using hi), List.getElem?_map, List.getElem?_range hi]
    show some (Num.sqrt _) = _
    rw [Num.sqrt_fin hv]
  · have g1 := abs_sub_sqrt_le e0 (sampleVar_nonneg hS (fun s => R s i)) e2
    have g2 := std_close hS (x := fun s => R s i) (y := fun s => R' s i) hδ
    have g3 := abs_add_le (e - √(Spec.sampleVar S (fun s => R s i)))
      (√(Spec.sampleVar S (fun s => R s i)) - √(Spec.sampleVar S (fun s => R' s i)))
    rw [sub_add_sub_cancel] at g3
    linarith

/-- **C187** Standard error of the total. -/
theorem C187_total (hm : Spec.MonoRd rd N) (hr : Spec.RelErr rd u) (hu : 2 * ((S + 3) * u) ≤ 1) (hun : 20 * (n : ℝ) * u ≤ 1)
    (hb : Spec.Bracketing br) (hs : Spec.SqrtLike sq g) (hg : ∀ x, 0 ≤ x → |g x ^ 2 - x| ≤ 3 * u * x)
    (hg' : ∀ x, 0 < x → 0 < g x) (ht : Spec.Stair t n c) (hn : 0 < n) (hS : 2 ≤ S)
    (h : Spec.Reserves rd t n S U R res) (h' : Spec.Reserves id t n S U' R' res') {A δ : ℝ}
    (hA : ∀ s < S, ∑ i ∈ Finset.range n, |R s i| ≤ A) (hδ : ∀ s < S, ∀ i < n, |R s i - R' s i| ≤ δ) :
    ∃ e e' D, (bootStdErrR br rd sq t S res)[n]? = some (.fin e) ∧ (bootStdErr Num.sqrt t S res')[n]? = some (.fin e') ∧
      D = n * δ + 8 * u * A ∧
      |e - e'| ≤ D * √((S : ℝ) / ((S : ℝ) - 1)) + √((2 * S + 16) * u) * (e' + D * √((S : ℝ) / ((S : ℝ) - 1))) +
        √(12 * S ^ 3 / ((S : ℝ) - 1)) * (u * ((1 + 8 * u) * A)) := by
  have u0 := hr.nonneg
  have h2 : (2 : ℝ) ≤ S := by exact_mod_cast hS
  have hu4 : 4 * u ≤ 1 := by nlinarith
  obtain ⟨T, e, t1, e1, -, e2⟩ := C183_total hm hr hu hb hs hg hg' ht hn hS h
  have e0 : 0 ≤ e := by
    obtain ⟨w, w1, w2, -⟩ := C180_std hm hr hu4 hb hs ht hn hS h
    rw [w1, List.getElem?_map, List.getElem?_range (by omega)] at e1
    have := Num.fin.inj (Option.some.inj e1)
    rw [← this]
    exact w2 n
  have hT : ∀ s < S, T s = Spec.totalR rd n R s := by
    obtain ⟨-, -, a3, -⟩ := bootR_columns (sq := sq) (br := br) ht hn hS h
    rw [a3] at t1
    intro s hs'
    have := congrArg (fun l => l[s]?) t1
    simp only [List.getElem?_map, List.getElem?_range hs', Option.map_some] at this
    exact (Num.fin.inj (Option.some.inj this)).symm
  obtain ⟨L, hL⟩ := h'.rows
  obtain ⟨-, -, b3⟩ := boot_columns (sq := Num.sqrt) ht hn hS hL
  have hv := sampleVar_nonneg hS (fun s => ∑ i ∈ Finset.range n, R' s i)
  have hTs : ∀ s < S, |T s - ∑ i ∈ Finset.range n, R s i| ≤ 8 * u * ∑ i ∈ Finset.range n, |R s i| := by
    intro s hs'
    rw [hT s hs']
    have hk := kfold_error hr ((List.range n).map (R s)) (by simpa using hun)
    rw [list_sum_map_range, List.map_map] at hk
    have e5 : (List.map ((fun x => |x|) ∘ R s) (List.range n)).sum = ∑ i ∈ Finset.range n, |R s i| := by
      rw [← list_sum_map_range]; rfl
    rw [e5] at hk
    exact hk
  have hD : ∀ s < S, |T s - ∑ i ∈ Finset.range n, R' s i| ≤ n * δ + 8 * u * A := by
    intro s hs'
    have g1 := hTs s hs'
    have g2 : |∑ i ∈ Finset.range n, R s i - ∑ i ∈ Finset.range n, R' s i| ≤ n * δ := by
      rw [← Finset.sum_sub_distrib]
      refine (Finset.abs_sum_le_sum_abs _ _).trans ((Finset.sum_le_card_nsmul _ _ δ fun i hi =>
        hδ s hs' i (Finset.mem_range.1 hi)).trans ?_)
      rw [Finset.card_range, nsmul_eq_mul]
    have g3 := abs_add_le (T s - ∑ i ∈ Finset.range n, R s i) (∑ i ∈ Finset.range n, R s i - ∑ i ∈ Finset.range n, R' s i)
    rw [sub_add_sub_cancel] at g3
    have g4 := mul_le_mul_of_nonneg_left (hA s hs') (by linarith : 0 ≤ 8 * u)
    linarith
  have hTM : ∀ s < S, |T s| ≤ (1 + 8 * u) * A := by
    intro s hs'
    have g1 := hTs s hs'
    have g2 := Finset.abs_sum_le_sum_abs (R s) (Finset.range n)
    have g3 := abs_add_le (T s - ∑ i ∈ Finset.range n, R s i) (∑ i ∈ Finset.range n, R s i)
    rw [sub_add_cancel] at g3
    have g4 := mul_le_mul_of_nonneg_left (hA s hs') (by linarith : 0 ≤ 8 * u)
    have := hA s hs'
    linarith
  refine ⟨e, √(Spec.sampleVar S (fun s => ∑ i ∈ Finset.range n, R' s i)), _, e1, ?_, rfl, ?_⟩
  · rw [b3, List.getElem?_append_right (by simp)]
    simp only [List.length_map, List.length_range, Nat.sub_self, List.getElem?_cons_zero]
    rw [Num.sqrt_fin hv]
  · have A0 : 0 ≤ A := (Finset.sum_nonneg fun _ _ => abs_nonneg _).trans (hA 0 (by omega))
    have hVT := sampleVar_nonneg hS T
    have g1 := abs_sub_sqrt_le e0 hVT (e2 _ hTM)
    have g2 := std_close hS (x := T) (y := fun s => ∑ i ∈ Finset.range n, R' s i) hD
    have g3 := abs_add_le (e - √(Spec.sampleVar S T))
      (√(Spec.sampleVar S T) - √(Spec.sampleVar S (fun s => ∑ i ∈ Finset.range n, R' s i)))
    rw [sub_add_sub_cancel] at g3
    set D := n * δ + 8 * u * A
    set e' := √(Spec.sampleVar S (fun s => ∑ i ∈ Finset.range n, R' s i))
    have g4 : √(Spec.sampleVar S T) ≤ e' + D * √((S : ℝ) / ((S : ℝ) - 1)) := by
      have := (abs_le.1 g2).2
      linarith
    have g5 : √((2 * S + 16) * u * Spec.sampleVar S T + 12 * S ^ 3 * u ^ 2 * ((1 + 8 * u) * A) ^ 2 / ((S : ℝ) - 1)) ≤
        √((2 * S + 16) * u) * √(Spec.sampleVar S T) + √(12 * S ^ 3 / ((S : ℝ) - 1)) * (u * ((1 + 8 * u) * A)) := by
      rw [← Real.sqrt_mul (by positivity)]
      have e6 : √(12 * S ^ 3 / ((S : ℝ) - 1)) * (u * ((1 + 8 * u) * A)) =
          √(12 * S ^ 3 * u ^ 2 * ((1 + 8 * u) * A) ^ 2 / ((S : ℝ) - 1)) := by
        rw [← Real.sqrt_sq (by positivity : 0 ≤ u * ((1 + 8 * u) * A)), ← Real.sqrt_mul (div_nonneg (by positivity) (by linarith))]
        congr 1
        ring
      rw [e6]
      exact sqrt_add_le (by positivity) (div_nonneg (by positivity) (by linarith))
    have g6 := mul_le_mul_of_nonneg_left g4 (Real.sqrt_nonneg ((2 * S + 16) * u))
    linarith
end

/-! ### quantile columns -/

section
variable {K : Type} [Field K] [LinearOrder K] [IsStrictOrderedRing K] [FloorRing K]
variable {t : Tri K} {n S p : ℕ} {c : ℕ → ℕ → K} {rd : K → K}
variable {U R U' R' : ℕ → ℕ → K} {res res' : List (ResRow K)}

theorem kpre_id (y : ℕ → K) (l : ℕ) : Spec.kpre id y l = ∑ i ∈ Finset.range l, y i := by
  have := kahanSum_range (rd := id) y l
  rw [kahanSum_id, sumSkip_fin_range] at this
  exact (Num.fin.inj this).symm

/-- Samples behind the quantiles. -/
theorem quantRowsR_eq (ht : Spec.Stair t n c) (hn : 0 < n) (hS : 2 ≤ S) (h : Spec.Reserves rd t n S U R res) :
    reserveRowsR rd t S res = (List.range n).map (fun i => (List.range S).map (fun s => Num.fin (R s i))) ++
      [(List.range S).map (fun s => Num.fin (Spec.totalR rd n R s))] := by
  obtain ⟨-, -, e3, -⟩ := bootR_columns (sq := id) (br := fun k => seqTree (k - 1)) ht hn hS h
  obtain ⟨L, hL⟩ := h.rows
  unfold reserveRowsR
  rw [e3]
  congr 1
  conv_lhs => rw [ht.origins_eq, List.map_map]
  refine List.map_congr_left fun i hi => ?_
  rw [Function.comp_apply, map_reserve, grid_col_origin ht hL (List.mem_range.1 hi), List.map_map]
  rfl

theorem rowBound_range (hp : 1 ≤ p) (hS : 2 ≤ S) (hSp : 2 * S ≤ 2 ^ p) {y : ℕ → K} {M : K} (hM : ∀ s < S, |y s| ≤ M)
    (hy : ∀ s < S, Spec.IsFloat p (y s)) :
    Spec.RowBound p ((2 : K) ^ (-(p : ℤ)) * ((14 * S - 7) * M)) ((List.range S).map (fun s => Num.fin (y s))) := by
  have M0 : 0 ≤ M := (abs_nonneg _).trans (hM 0 (by omega))
  have hl : ((List.range S).map y).length = S := by simp
  have hmem : ∀ x ∈ (List.range S).map y, |x| ≤ M := by
    intro x hx
    obtain ⟨s, hs, rfl⟩ := List.mem_map.1 hx
    exact hM s (List.mem_range.1 hs)
  refine ⟨(List.range S).map y, 2 * M, M, by rw [List.map_map]; rfl, ?_, ?_, by rw [hl]; exact hSp, by linarith, ?_, hmem, ?_⟩
  · intro e
    rw [e] at hl
    simp at hl
    omega
  · intro x hx
    obtain ⟨s, hs, rfl⟩ := List.mem_map.1 hx
    exact hy s (List.mem_range.1 hs)
  · intro i hi
    have key : ∀ k, k < S → |(((List.range S).map y).insertionSort (· ≤ ·)).getD k 0| ≤ M := by
      intro k hk
      have hk' : k < (((List.range S).map y).insertionSort (· ≤ ·)).length := by
        rw [List.length_insertionSort, hl]; exact hk
      rw [List.getD_eq_getElem?_getD, List.getElem?_eq_getElem hk', Option.getD_some]
      exact hmem _ ((List.perm_insertionSort _ _).mem_iff.1 (List.getElem_mem hk'))
    rw [hl] at hi
    have a := abs_le.1 (key (i + 1) hi)
    have b := abs_le.1 (key i (by omega))
    linarith [a.2, b.1]
  · rw [hl]
    refine le_of_eq ?_
    ring

theorem closeTo_range {x y : ℕ → K} {d : K} (h : ∀ s < S, |x s - y s| ≤ d) :
    List.Forall₂ (Spec.CloseTo d) ((List.range S).map (fun s => Num.fin (x s))) ((List.range S).map (fun s => Num.fin (y s))) := by
  rw [List.forall₂_map_left_iff, List.forall₂_map_right_iff]
  refine List.forall₂_same.2 fun s hs => ⟨x s, y s, rfl, rfl, h s (List.mem_range.1 hs)⟩

/-- **C188** Quantile columns of the summary of a run with `p` digits beside those of a run in exact arithmetic whose
simulated reserves differ by at most `δ`: same headers in the same order, values within the bound. -/
theorem C188_columns (hp : 26 ≤ p) (ht : Spec.Stair t n c) (hn : 0 < n) (hS : 2 ≤ S) (hSp : 2 * S ≤ 2 ^ p)
    (hu : 20 * (n : K) * (2 : K) ^ (-(p : ℤ)) ≤ 1) (h : Spec.Reserves (floatRd p) t n S U R res)
    (h' : Spec.Reserves id t n S U' R' res') {A δ : K} (h0 : 0 ≤ δ)
    (hA : ∀ s < S, ∑ i ∈ Finset.range n, |R s i| ≤ A) (hδ : ∀ s < S, ∀ i < n, |R s i - R' s i| ≤ δ) (ks : List ℕ)
    (two : Bool) (hk : ∀ k ∈ ks, k ≤ if two then 5 * 10 ^ 6 else 10 ^ 7) :
    ∃ tbl tbl' e, e = (2 : K) ^ (-(p : ℤ)) * (28 * S * A) + n * δ ∧
      bootQuantColsR (floatRd p) .linear (reserveRowsR (floatRd p) t S res)
        (ks.map (fun k : ℕ => Num.fin (floatRd p ((k : K) / if two then 5 * 10 ^ 6 else 10 ^ 7)))) two = .ok tbl ∧
      bootQuantCols .linear (reserveRows t S res')
        (ks.map (fun k : ℕ => Num.fin ((k : K) / if two then 5 * 10 ^ 6 else 10 ^ 7))) two = .ok tbl' ∧
      List.Forall₂ (fun a b => a.1 = b.1 ∧ List.Forall₂ (Spec.CloseTo e) a.2 b.2) tbl tbl' := by
  have hr : Spec.RelErr (floatRd p : K → K) ((2 : K) ^ (-(p : ℤ))) := floatRd_relErr (by omega)
  set u := (2 : K) ^ (-(p : ℤ)) with hudef
  have u0 := hr.nonneg
  have hn1 : (1 : K) ≤ n := by exact_mod_cast hn
  have h2 : (2 : K) ≤ S := by exact_mod_cast hS
  have hu20 : 20 * u ≤ 1 := by nlinarith
  have A0 : 0 ≤ A := (Finset.sum_nonneg fun _ _ => abs_nonneg _).trans (hA 0 (by omega))
  have hTs : ∀ s < S, |Spec.totalR (floatRd p) n R s - ∑ i ∈ Finset.range n, R s i| ≤ 8 * u * A := by
    intro s hs
    have hk := kfold_error hr ((List.range n).map (R s)) (by simpa using hu)
    rw [list_sum_map_range, List.map_map] at hk
    have e5 : (List.map ((fun x => |x|) ∘ R s) (List.range n)).sum = ∑ i ∈ Finset.range n, |R s i| := by
      rw [← list_sum_map_range]; rfl
    rw [e5] at hk
    exact le_trans hk (mul_le_mul_of_nonneg_left (hA s hs) (by linarith))
  have rows' : reserveRows t S res' = (List.range n).map (fun i => (List.range S).map (fun s => Num.fin (R' s i))) ++
      [(List.range S).map (fun s => Num.fin (∑ i ∈ Finset.range n, R' s i))] := by
    have e1 := quantRowsR_eq ht hn hS h'
    have e2 : reserveRowsR id t S res' = reserveRows t S res' := by
      unfold reserveRowsR reserveRows
      unfold bootTotalsR bootTotals
      rw [show (kahanSum id : List (Num K) → _) = Num.sumSkip from funext kahanSum_id]
    rw [e2] at e1
    rw [e1]
    have e : Spec.totalR id n R' = fun s => ∑ i ∈ Finset.range n, R' s i := funext fun s => kpre_id _ _
    rw [e]
  have rows := quantRowsR_eq ht hn hS h
  have hM : ∀ s < S, |Spec.totalR (floatRd p) n R s| ≤ 2 * A := by
    intro s hs
    have g1 := hTs s hs
    have g2 := (Finset.abs_sum_le_sum_abs (R s) (Finset.range n)).trans (hA s hs)
    have g3 := abs_add_le (Spec.totalR (floatRd p) n R s - ∑ i ∈ Finset.range n, R s i) (∑ i ∈ Finset.range n, R s i)
    rw [sub_add_cancel] at g3
    have : 8 * u * A ≤ 1 * A := mul_le_mul_of_nonneg_right (by linarith) A0
    linarith
  have hRM : ∀ i < n, ∀ s < S, |R s i| ≤ 2 * A := by
    intro i hi s hs
    have := (Finset.single_le_sum (f := fun i => |R s i|) (fun i _ => abs_nonneg _) (Finset.mem_range.2 hi)).trans (hA s hs)
    linarith
  have hbound : ∀ l ∈ reserveRowsR (floatRd p) t S res, Spec.RowBound p (u * ((14 * S - 7) * (2 * A))) l := by
    rw [rows]
    intro l hl
    rcases List.mem_append.1 hl with hl | hl
    · obtain ⟨i, hi, rfl⟩ := List.mem_map.1 hl
      refine rowBound_range (by omega) hS hSp (hRM i (List.mem_range.1 hi)) fun s _ => ?_
      rw [← h.rsv s i]
      exact floatRd_isFloat p _
    · rw [List.mem_singleton.1 hl]
      refine rowBound_range (by omega) hS hSp hM fun s _ => ?_
      obtain ⟨k, rfl⟩ := Nat.exists_eq_succ_of_ne_zero hn.ne'
      obtain ⟨y, hy⟩ := kpre_rd (rd := (floatRd p : K → K)) (R s) k
      show Spec.IsFloat p (Spec.kpre _ _ (k + 1))
      rw [hy]
      exact floatRd_isFloat p _
  have hclose : List.Forall₂ (List.Forall₂ (Spec.CloseTo (n * δ + 8 * u * A))) (reserveRowsR (floatRd p) t S res)
      (reserveRows t S res') := by
    rw [rows, rows']
    refine List.rel_append ?_ (.cons ?_ .nil)
    · rw [List.forall₂_map_left_iff, List.forall₂_map_right_iff]
      refine List.forall₂_same.2 fun i hi => closeTo_range fun s hs => ?_
      have := hδ s hs i (List.mem_range.1 hi)
      have : 1 * δ ≤ n * δ := mul_le_mul_of_nonneg_right hn1 h0
      have : 0 ≤ 8 * u * A := by positivity
      linarith
    · refine closeTo_range fun s hs => ?_
      have g1 := hTs s hs
      have g2 : |∑ i ∈ Finset.range n, R s i - ∑ i ∈ Finset.range n, R' s i| ≤ n * δ := by
        rw [← Finset.sum_sub_distrib]
        refine (Finset.abs_sum_le_sum_abs _ _).trans ((Finset.sum_le_card_nsmul _ _ δ fun i hi =>
          hδ s hs i (Finset.mem_range.1 hi)).trans ?_)
        rw [Finset.card_range, nsmul_eq_mul]
      have g3 := abs_add_le (Spec.totalR (floatRd p) n R s - ∑ i ∈ Finset.range n, R s i)
        (∑ i ∈ Finset.range n, R s i - ∑ i ∈ Finset.range n, R' s i)
      rw [sub_add_sub_cancel] at g3
      linarith
  have he : u * ((14 * S - 7) * (2 * A)) + (n * δ + 8 * u * A) ≤ u * (28 * S * A) + n * δ := by
    have : 0 ≤ u * A := mul_nonneg u0 A0
    nlinarith
  have weak : ∀ {t1 t2 : List (List Char × List (Num K))},
      List.Forall₂ (fun a b => a.1 = b.1 ∧ List.Forall₂ (Spec.CloseTo (u * ((14 * S - 7) * (2 * A)) + (n * δ + 8 * u * A)))
        a.2 b.2) t1 t2 →
      List.Forall₂ (fun a b => a.1 = b.1 ∧ List.Forall₂ (Spec.CloseTo (u * (28 * S * A) + n * δ)) a.2 b.2) t1 t2 :=
    fun hh => hh.imp fun a b hab => ⟨hab.1, hab.2.imp fun _ _ => closeTo_mono he⟩
  cases two
  · obtain ⟨t1, t2, a1, a2, a3⟩ := (C177_run hp hclose hbound ks).2.1 (by simpa using hk)
    exact ⟨t1, t2, _, rfl, by simpa using a1, by simpa using a2, weak a3⟩
  · obtain ⟨t1, t2, a1, a2, a3⟩ := (C177_run hp hclose hbound ks).1 (by simpa using hk)
    exact ⟨t1, t2, _, rfl, by simpa using a1, by simpa using a2, weak a3⟩
end

/-! ### examples -/

/-- Process errors 0.1, 0.2, … without rounding. -/
def exTenthsE : ℕ → Num ℚ → Num ℚ → Num ℚ := fun p _ _ => .fin ((p + 1) / 10)

theorem exHundred_runE : Spec.FiniteRun exHundred exHundred 3 3 (fun _ _ => 100) (fun _ _ => 100) exSqrt (fun _ => 0) 1
    exTenthsE :=
  ⟨exHundred_stair, by norm_num, by norm_num, exHundred_stair, rfl, rfl,
    fun y hy => ⟨Rat.sqrt y, if_neg (not_lt.2 hy)⟩, fun _ _ _ _ => by norm_num, fun _ _ => rfl, fun _ _ _ => rfl⟩

/-- Beside `C186_reserves`: the hypotheses hold for the two runs. -/
example : ∃ U R U' R' : ℕ → ℕ → ℚ,
    Spec.Reserves (floatRd 53) exHundred 3 3 U R
      (bootSimsR (floatRd 53) exSqrt exHundred exHundred 1 3 (fun _ => 0) exTenths).reserves ∧
    Spec.Reserves id exHundred 3 3 U' R' (bootSims exSqrt exHundred exHundred 1 3 (fun _ => 0) exTenthsE).reserves := by
  obtain ⟨U, R, U', R', -, -, -, -, h, h', -⟩ := C186_reserves (floatRd_formatRd (p := 53) (by norm_num)) (by decide +kernel)
    (by norm_num) exHundred_run exHundred_runE
  exact ⟨U, R, U', R', h, h'⟩

/-- Beside `C186_reserves` and `C186_means`: reserves of the last origin and reported ultimates of the two runs. -/
example : let res := (bootSimsR (floatRd 53) exSqrt exHundred exHundred 1 3 (fun _ => 0) exTenths).reserves
    let res' := (bootSims exSqrt exHundred exHundred 1 3 (fun _ => 0) exTenthsE).reserves
    (res.filter (fun r => r.origin = 2003)).map ResRow.reserve =
      [.fin (119626865102029 / 70368744177664), .fin (7 / 2), .fin (372954344141619 / 70368744177664)] ∧
    (res'.filter (fun r => r.origin = 2003)).map ResRow.reserve = [.fin (17 / 10), .fin (7 / 2), .fin (53 / 10)] ∧
    bootUltimatesR (floatRd 53) exHundred res = bootUltimates exHundred res' := by
  decide +kernel

/-- Beside `C187_total`: totals of the two runs. -/
example : let res := (bootSimsR (floatRd 53) exSqrt exHundred exHundred 1 3 (fun _ => 0) exTenths).reserves
    let res' := (bootSims exSqrt exHundred exHundred 1 3 (fun _ => 0) exTenthsE).reserves
    bootTotalsR (floatRd 53) 3 res = [.fin (161848111608627 / 70368744177664), .fin 5, .fin (541839330168013 / 70368744177664)] ∧
    bootTotals 3 res' = [.fin (23 / 10), .fin 5, .fin (77 / 10)] := by
  decide +kernel

/-- Beside `C187_origin`: a spread of reserves that changes by 1/10 in one simulation of two. -/
example : |√(Spec.sampleVar 2 (fun s => if s = 0 then (1 : ℝ) else 3)) -
    √(Spec.sampleVar 2 (fun s => if s = 0 then (1 : ℝ) else 31 / 10))| ≤ 1 / 10 * √(((2 : ℕ) : ℝ) / (((2 : ℕ) : ℝ) - 1)) :=
  std_close le_rfl fun s _ => by
    beta_reduce
    split <;> norm_num [abs_le]

/-- Beside `C188_columns`: the column `30%` of the two runs. -/
example : let res := (bootSimsR (floatRd 53) exSqrt exHundred exHundred 1 3 (fun _ => 0) exTenths).reserves
    let res' := (bootSims exSqrt exHundred exHundred 1 3 (fun _ => 0) exTenthsE).reserves
    (bootQuantColsR (floatRd 53) .linear (reserveRowsR (floatRd 53) exHundred 3 res) [.fin (floatRd 53 (3 / 10))] false).toOption =
      some [(['3', '0', '%'], [.fin 0, .fin (5134103575202355 / 4503599627370496), .fin (97812554406953 / 35184372088832),
        .fin (4413527634823085 / 1125899906842624)])] ∧
    (bootQuantCols .linear (reserveRows exHundred 3 res') [.fin (3 / 10)] false).toOption =
      some [(['3', '0', '%'], [.fin 0, .fin (57 / 50), .fin (139 / 50), .fin (98 / 25)])] := by
  decide +kernel

end Trikit
