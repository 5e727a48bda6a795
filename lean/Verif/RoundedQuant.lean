import Verif.RoundedMack
import Verif.QuantTables
import Verif.FloatRd

/-!
# Quantiles in rounded arithmetic

`np.percentile(values, 100 * q, method=m)` (bootstrap.py:217-220, 1121-1124) and the quantile tables with every
arithmetic operation followed by the rounding `rd`, in the order in which numpy 1.26.2 performs them.  Sorting, `floor`,
`ceil`, `around` and comparisons are exact.
-/

set_option linter.unusedSectionVars false

namespace Trikit

section
variable {K : Type} [Field K] [LinearOrder K] [FloorRing K]

/-- `(n - 1) * quantiles` of numpy's `_QuantileMethods` at the argument `100 * ii` of bootstrap.py:219, 1123;
`np.percentile` divides its argument by 100. -/
def virtualR (rd : K → K) (n : ℕ) (q : K) : K := rd (((n : K) - 1) * rd (rd (100 * q) / 100))

/-- `_lerp(a, b, t)` of numpy: from the nearer end. -/
def lerpR (rd : K → K) (a b : Num K) (t : K) : Num K :=
  let d := Num.subR rd b a
  if 1 / 2 ≤ t then Num.subR rd b (Num.mulR rd d (.fin (rd (1 - t)))) else Num.addR rd a (Num.mulR rd d (.fin t))

/-- Interpolation at a real index: `_get_indexes` sets both neighbours to the last value (index `-1`) at and above the
last position. -/
def lerpAtR (rd : K → K) (a : List (Num K)) (v gamma : K) : Num K :=
  if (a.length : K) - 1 ≤ v then lerpR rd (takeAt a ((a.length : ℤ) - 1)) (takeAt a ((a.length : ℤ) - 1)) gamma
  else lerpR rd (takeAt a ⌊v⌋) (takeAt a (⌊v⌋ + 1)) gamma

/-- `np.percentile(a, 100 * q, method=m)`.  Simplification: at and above the last position the weight of the method
`linear`, which multiplies the difference of a number and itself, is the index plus one as in numpy, without rounding. -/
def percentileR (rd : K → K) (m : Interp) (l : List (Num K)) (q : K) : Num K :=
  if l.any Num.isNaN then .nan
  else
    let a := l.insertionSort (fun x y => Num.le x y = true)
    let h : K := virtualR rd a.length q
    match m with
    | .linear => lerpAtR rd a h (if (a.length : K) - 1 ≤ h then h + 1 else rd (h - (⌊h⌋ : K)))
    | .lower => takeAt a ⌊h⌋
    | .higher => takeAt a ⌈h⌉
    | .nearest => takeAt a (roundHalfEven h)
    | .midpoint =>
      let v : K := rd (1 / 2 * rd ((⌊h⌋ : K) + (⌈h⌉ : K)))
      lerpAtR rd a v (if v = (⌊v⌋ : K) then 0 else 1 / 2)

/-- One column of `get_quantiles` (bootstrap.py:1120-1129). -/
def quantileColumnR (rd : K → K) (m : Interp) (lb : Option K) (rows : List (List (Num K))) (q : K) : List (Num K) :=
  rows.map (fun l => applyLb lb (percentileR rd m l q))

/-- `_qtls_formatter` (base.py:621-628): the levels of two-sided intervals are rounded. -/
def qtlsFormatterR (rd : K → K) (q : List (Num K)) (twoSided : Bool) : Except PyErr (List K) :=
  if qtlsInRange q then
    let v := finVals q
    .ok (if twoSided then sortUnique (v.map (fun x => rd (rd (1 - x) / 2)) ++ v.map (fun x => rd (rd (1 + x) / 2)))
         else sortUnique v)
  else .error .valueError

/-- `100000 * (100 q)` rounded to an integer, the number behind a header; `100 * qtls` is rounded (base.py:629, 678),
`"{:.5f}".format` rounds its exact value. -/
def hdrNumR (rd : K → K) (q : K) : ℕ := (roundHalfEven (100000 * rd (100 * q))).toNat

/-- `BootstrapChainLadderResult.get_quantiles` (bootstrap.py:1114-1130). -/
def getQuantilesR (rd : K → K) (m : Interp) (lb : Option K) (rows : List (List (Num K))) (q : List (Num K)) :
    Except PyErr (List (List Char × List (Num K))) := do
  let qs ← qtlsFormatterR rd q false
  let hs ← qs.mapM (fun x => hdrOrd (hdrNumR rd x))
  if qs.isEmpty && !rows.isEmpty then .error .valueError
  else .ok ((hs.zip qs).foldl (fun d p => dictSet p.1 (quantileColumnR rd m lb rows p.2) d) [])

/-- Quantile columns of the summary (bootstrap.py:187, 216-222). -/
def bootQuantColsR (rd : K → K) (m : Interp) (rows : List (List (Num K))) (q : List (Num K)) (twoSided : Bool) :
    Except PyErr (List (List Char × List (Num K))) := do
  let qs ← qtlsFormatterR rd q twoSided
  .ok ((qs.map (fun x => (hdrPct (hdrNumR rd x), x))).foldl
    (fun d p => dictSet p.1 (quantileColumnR rd m none rows p.2) d) [])

end

/-! ### interpolation between two numbers with `p` binary digits -/

section
variable {K : Type} [Field K] [LinearOrder K] [IsStrictOrderedRing K] [FloorRing K]

/-- `_lerp` on numbers. -/
def Spec.lerp (rd : K → K) (a b t : K) : K :=
  if 1 / 2 ≤ t then rd (b - rd (rd (b - a) * rd (1 - t))) else rd (a + rd (rd (b - a) * t))

theorem lerpR_fin (rd : K → K) (a b t : K) : lerpR rd (.fin a) (.fin b) t = .fin (Spec.lerp rd a b t) := by
  unfold lerpR Spec.lerp Num.subR Num.mulR Num.addR
  simp only [Num.fin_sub, Num.rounded, Num.fin_mul, Num.fin_add]
  split <;> rfl

theorem isFloat_half {p : ℕ} {x : K} (h : Spec.IsFloat p x) : Spec.IsFloat p (x / 2) := by
  obtain ⟨m, e, hm, rfl⟩ := h
  refine ⟨m, e - 1, hm, ?_⟩
  rw [zpow_sub_one₀ (by norm_num)]
  ring

theorem rd_half {p : ℕ} (hp : 1 ≤ p) (x : K) : floatRd p (floatRd p x / 2) = floatRd p x / 2 :=
  floatRd_fix hp (isFloat_half (floatRd_isFloat p x))

theorem floatRd_nn {p : ℕ} (hp : 1 ≤ p) {x : K} (hx : 0 ≤ x) : 0 ≤ floatRd p x := by
  rw [← floatRd_zero p]; exact floatRd_mono hp hx

theorem two_neg_p {p : ℕ} (hp : 1 ≤ p) : (2 : K) ^ (-(p : ℤ)) ≤ 1 / 2 := by
  have : (2 : K) ^ (-(p : ℤ)) ≤ 2 ^ (-1 : ℤ) := zpow_le_zpow_right₀ (by norm_num) (by omega)
  refine this.trans (by norm_num)

/-- A number below one half with `p` digits is at most the number before one half. -/
theorem lt_half {p : ℕ} (hp : 1 ≤ p) {t : K} (ht : Spec.IsFloat p t) (h : t < 1 / 2) :
    t ≤ 1 / 2 - (2 : K) ^ (-(p : ℤ) - 1) := by
  have e1 : (2 : K) ^ (-(p : ℤ) - 1) = 2 ^ (-(p : ℤ)) / 2 := by rw [zpow_sub_one₀ (by norm_num)]; ring
  rcases lt_or_ge t (1 / 4) with h4 | h4
  · have := two_neg_p (K := K) hp
    rw [e1]; linarith
  · have hl : Int.log 2 |(1 / 4 : K)| = -2 := by
      have : |(1 / 4 : K)| = ((2 : ℕ) : K) ^ (-2 : ℤ) := by
        rw [abs_of_pos (by norm_num)]; norm_num
      rw [this, Int.log_zpow (by norm_num)]
    obtain ⟨k, hk⟩ := isFloat_multiple hp (x := (1 / 4 : K)) ht (by
      rw [hl, abs_of_nonneg (by linarith)]
      refine le_trans (le_of_eq (by norm_num)) h4)
    have hu : floatUlp p (1 / 4 : K) = 2 ^ (-(p : ℤ) - 1) := by
      unfold floatUlp; rw [hl]; congr 1; ring
    rw [hu] at hk
    have hpos : (0 : K) < 2 ^ (-(p : ℤ) - 1) := zpow_pos (by norm_num) _
    have hone : (1 / 2 : K) = (2 ^ p : ℤ) * 2 ^ (-(p : ℤ) - 1) := by
      push_cast
      rw [← zpow_natCast (2 : K) p, ← two_zpow_add]
      rw [show (p : ℤ) + (-(p : ℤ) - 1) = -1 by ring]; norm_num
    have hlt : k < 2 ^ p := by
      rw [hone, hk] at h
      have := lt_of_mul_lt_mul_right h hpos.le
      exact_mod_cast this
    have hle : (k : K) ≤ ((2 ^ p : ℤ) : K) - 1 := by
      have : ((k + 1 : ℤ) : K) ≤ ((2 ^ p : ℤ) : K) := Int.cast_le.2 (by omega)
      push_cast at this ⊢
      linarith
    rw [hk]
    nlinarith

/-- The rounded difference `d` of two numbers may exceed the difference `w`, but then a weight below one half gives at
most the number before `d / 2`. -/
theorem lerp_gap {p : ℕ} (hp : 1 ≤ p) {w t : K} (hw : 0 ≤ w) (ht : Spec.IsFloat p t) (h : t < 1 / 2) :
    floatRd p (floatRd p w * t) + floatRd p w / 2 ≤ w := by
  set d := floatRd p w with hd
  have hd0 : 0 ≤ d := floatRd_nn hp hw
  rcases le_or_gt d w with hdw | hdw
  · have : floatRd p (d * t) ≤ d / 2 := by
      rw [← rd_half hp w]
      exact floatRd_mono hp (by nlinarith)
    linarith
  · have hw0 : w ≠ 0 := by
      intro h0
      rw [h0, floatRd_zero] at hd
      rw [hd, h0] at hdw
      exact lt_irrefl _ hdw
    set L := Int.log 2 |w| with hL
    set s := floatUlp p w with hs
    have hs0 : 0 < s := floatUlp_pos p w
    have hLw : (2 : K) ^ L ≤ w := (log_le_abs hw0).trans_eq (abs_of_nonneg hw)
    have hsL : (2 : K) ^ L = ((2 ^ (p - 1) : ℤ) : K) * s := by
      rw [hs]
      unfold floatUlp
      push_cast
      rw [← hL, ← zpow_natCast (2 : K) (p - 1), ← two_zpow_add]
      congr 1
      push_cast [hp]
      ring
    have hdist : d - w ≤ s / 2 := by
      have := floatRd_dist p w
      rw [abs_sub_comm] at this
      exact (le_abs_self _).trans this
    -- `d` is a multiple of the spacing
    obtain ⟨k, hk⟩ := isFloat_multiple hp (x := w) (floatRd_isFloat p w) (by
      rw [← hd, abs_of_nonneg hd0]; exact hLw.trans hdw.le)
    rw [← hd, ← hs] at hk
    have hkgt : (2 : ℤ) ^ (p - 1) + 1 ≤ k := by
      have h1 : ((2 ^ (p - 1) : ℤ) : K) * s < (k : K) * s := by rw [← hsL, ← hk]; linarith
      have := Int.cast_lt.1 (lt_of_mul_lt_mul_right h1 hs0.le)
      omega
    have hkK : ((2 ^ (p - 1) : ℤ) : K) + 1 ≤ (k : K) := by exact_mod_cast hkgt
    have hdL : (2 : K) ^ L + s ≤ d := by
      rw [hsL, hk]; nlinarith
    -- half of the number before
    set z := d / 2 - s / 2 with hz
    have hzf : Spec.IsFloat p z := by
      obtain ⟨m, e, hm, he⟩ := floatRd_isFloat p w
      have hks : (k : K) ≤ (2 ^ p : ℤ) := by
        have h1 : d ≤ 2 ^ (L + 1) := by
          have hf : Spec.IsFloat p ((2 : K) ^ (L + 1)) := ⟨1, L + 1, by
            rw [abs_one]; exact_mod_cast Nat.one_le_two_pow, by simp⟩
          rw [← floatRd_fix hp hf]
          refine floatRd_mono hp ?_
          have := abs_lt_log w
          rw [abs_of_nonneg hw] at this
          rw [hL, abs_of_nonneg hw]
          exact this.le
        have h2 : (2 : K) ^ (L + 1) = (2 ^ p : ℤ) * s := by
          rw [hs]
          unfold floatUlp
          push_cast
          rw [← hL, ← zpow_natCast (2 : K) p, ← two_zpow_add]
          congr 1
          ring
        rw [h2, hk] at h1
        exact le_of_mul_le_mul_right h1 hs0
      have hk2 : k ≤ 2 ^ p := by exact_mod_cast hks
      refine ⟨k - 1, L - p, ?_, ?_⟩
      · have : (0 : ℤ) < 2 ^ (p - 1) := by positivity
        rw [abs_le]; constructor <;> omega
      · have : (2 : K) ^ (L - p : ℤ) = s / 2 := by
          rw [hs]; unfold floatUlp
          rw [← hL, show L + 1 - (p : ℤ) = (L - p) + 1 by ring, zpow_add_one₀ (by norm_num)]
          ring
        rw [hz, hk, this]; push_cast; ring
    have key : floatRd p (d * t) ≤ z := by
      by_contra hc
      rw [not_le] at hc
      have hzt : z < d * t := by
        by_contra h'
        rw [not_lt] at h'
        have := floatRd_mono hp h'
        rw [floatRd_fix hp hzf] at this
        exact absurd this (not_le.2 hc)
      have hlt : d * t < z + s / 4 := by
        have h1 := lt_half hp ht h
        set c := (2 : K) ^ (-(p : ℤ) - 1) with hcdef
        have hc0 : 0 < c := zpow_pos (by norm_num) _
        have h2 : (2 : K) ^ L * c = s / 4 := by
          rw [hs]; unfold floatUlp
          rw [hcdef, ← hL, ← two_zpow_add, show L + 1 - (p : ℤ) = (L + (-(p : ℤ) - 1)) + 2 by ring, two_zpow_add _ 2]
          norm_num
        have h3 : d * t ≤ d * (1 / 2 - c) := mul_le_mul_of_nonneg_left h1 hd0
        have h4 : ((2 : K) ^ L + s) * c ≤ d * c := mul_le_mul_of_nonneg_right hdL hc0.le
        have h5 : 0 < s * c := mul_pos hs0 hc0
        rw [hz]
        nlinarith
      have hn := floatRd_nearest hp (d * t) hzf
      rw [abs_of_pos (sub_pos.2 hzt)] at hn
      have hup : floatRd p (d * t) < z + s / 2 := by
        have := (abs_le.1 hn).1
        linarith
      -- no number with `p` digits lies strictly between `z` and `d / 2`
      have hl1 : Int.log 2 |(2 : K) ^ (L - 1)| = L - 1 := by
        rw [abs_of_pos (zpow_pos (by norm_num) _)]
        have : (2 : K) ^ (L - 1) = ((2 : ℕ) : K) ^ (L - 1) := by norm_num
        rw [this, Int.log_zpow (by norm_num)]
      have hLz : (2 : K) ^ (L - 1) ≤ z := by
        rw [zpow_sub_one₀ (by norm_num), hz]; linarith
      obtain ⟨k', hk'⟩ := isFloat_multiple hp (x := (2 : K) ^ (L - 1)) (floatRd_isFloat p (d * t)) (by
        rw [hl1]
        exact (hLz.trans hc.le).trans (le_abs_self _))
      have hu : floatUlp p ((2 : K) ^ (L - 1)) = s / 2 := by
        rw [hs]; unfold floatUlp
        rw [hl1, ← hL, show L + 1 - (p : ℤ) = (L - 1 + 1 - (p : ℤ)) + 1 by ring, zpow_add_one₀ (by norm_num)]
        ring
      rw [hu] at hk'
      have hz' : z = ((k - 1 : ℤ) : K) * (s / 2) := by rw [hz, hk]; push_cast; ring
      have a1 : ((k - 1 : ℤ) : K) < (k' : K) := by
        rw [hz', hk'] at hc
        exact lt_of_mul_lt_mul_right hc (by linarith)
      have a2 : (k' : K) < ((k : ℤ) : K) := by
        rw [hk', hz'] at hup
        have : (k' : K) * (s / 2) < ((k : ℤ) : K) * (s / 2) := by push_cast at hup ⊢; linarith
        exact lt_of_mul_lt_mul_right this (by linarith)
      have a3 := Int.cast_lt.1 a1
      have a4 := Int.cast_lt.1 a2
      omega
    rw [hz] at key
    linarith

theorem isFloat_one (p : ℕ) : Spec.IsFloat p (1 : K) := ⟨1, 0, by rw [abs_one]; exact_mod_cast Nat.one_le_two_pow, by simp⟩

theorem rd_one {p : ℕ} (hp : 1 ≤ p) : floatRd p (1 : K) = 1 := floatRd_fix hp (isFloat_one p)

theorem rd_half_one {p : ℕ} (hp : 1 ≤ p) : floatRd p (1 / 2 : K) = 1 / 2 := floatRd_fix hp (isFloat_half (isFloat_one p))

/-- The interpolated value lies between its neighbours. -/
theorem lerp_mem {p : ℕ} (hp : 1 ≤ p) {a b t : K} (ha : Spec.IsFloat p a) (hb : Spec.IsFloat p b) (hab : a ≤ b)
    (h0 : 0 ≤ t) (h1 : t ≤ 1) : a ≤ Spec.lerp (floatRd p) a b t ∧ Spec.lerp (floatRd p) a b t ≤ b := by
  set d := floatRd p (b - a) with hd
  have hd0 : 0 ≤ d := floatRd_nn hp (sub_nonneg.2 hab)
  have hdu : d / 2 ≤ b - a := by
    have h1 := floatRd_err p (b - a)
    rw [abs_of_nonneg (sub_nonneg.2 hab)] at h1
    have h2 := (abs_le.1 h1).2
    have h3 := mul_le_mul_of_nonneg_right (two_neg_p (K := K) hp) (sub_nonneg.2 hab)
    linarith
  have half : ∀ y : K, 0 ≤ y → y ≤ 1 / 2 → 0 ≤ floatRd p (d * y) ∧ floatRd p (d * y) ≤ d / 2 := fun y y0 y1 =>
    ⟨floatRd_nn hp (mul_nonneg hd0 y0), by
      rw [← rd_half hp (b - a)]
      exact floatRd_mono hp (by nlinarith)⟩
  unfold Spec.lerp
  split
  · next h =>
    obtain ⟨g1, g2⟩ := half (floatRd p (1 - t)) (floatRd_nn hp (by linarith)) (by
      rw [← rd_half_one hp]; exact floatRd_mono hp (by linarith))
    constructor
    · conv_lhs => rw [← floatRd_fix hp ha]
      exact floatRd_mono hp (by linarith)
    · conv_rhs => rw [← floatRd_fix hp hb]
      exact floatRd_mono hp (by linarith)
  · next h =>
    obtain ⟨g1, g2⟩ := half t h0 (by linarith [not_le.1 h])
    constructor
    · conv_lhs => rw [← floatRd_fix hp ha]
      exact floatRd_mono hp (by linarith)
    · conv_rhs => rw [← floatRd_fix hp hb]
      exact floatRd_mono hp (by linarith)

/-- A larger weight gives a value that is not smaller. -/
theorem lerp_mono {p : ℕ} (hp : 1 ≤ p) {a b t t' : K} (hab : a ≤ b) (ht : Spec.IsFloat p t) (htt : t ≤ t') :
    Spec.lerp (floatRd p) a b t ≤ Spec.lerp (floatRd p) a b t' := by
  set d := floatRd p (b - a) with hd
  have hd0 : 0 ≤ d := floatRd_nn hp (sub_nonneg.2 hab)
  unfold Spec.lerp
  split
  · next h =>
    rw [if_pos (h.trans htt)]
    refine floatRd_mono hp (sub_le_sub_left (floatRd_mono hp (mul_le_mul_of_nonneg_left ?_ hd0)) _)
    exact floatRd_mono hp (by linarith)
  · next h =>
    split
    · next h' =>
      refine floatRd_mono hp ?_
      have g1 := lerp_gap hp (sub_nonneg.2 hab) ht (not_le.1 h)
      have g2 : floatRd p (d * floatRd p (1 - t')) ≤ d / 2 := by
        rw [← rd_half hp (b - a)]
        refine floatRd_mono hp ?_
        have : floatRd p (1 - t') ≤ 1 / 2 := by
          rw [← rd_half_one hp]; exact floatRd_mono hp (by linarith)
        nlinarith
      linarith
    · next h' =>
      exact floatRd_mono hp (add_le_add_right (floatRd_mono hp (mul_le_mul_of_nonneg_left htt hd0)) _)

end

end Trikit
