import Verif.RoundedGeo
import Verif.Props.RoundedMedial

/-!
# C163: rounding errors of the base chain ladder with geometric averages
-/

set_option linter.unusedSectionVars false

namespace Trikit

variable {t : Tri ℝ} {n : ℕ} {c : ℕ → ℕ → ℝ} {u v : ℝ} {rd : ℝ → ℝ} {br : ℕ → SumTree} {lg ex : Num ℝ → Num ℝ}

/-! ## specification -/

/-- A logarithm with relative error at most `v`. -/
def Spec.LogWithin (v : ℝ) (lg : Num ℝ → Num ℝ) : Prop :=
  ∀ x : ℝ, 0 < x → ∃ y, lg (.fin x) = .fin y ∧ |y - Real.log x| ≤ v * |Real.log x|

/-- An exponential function with relative error at most `v`. -/
def Spec.ExpWithin (v : ℝ) (ex : Num ℝ → Num ℝ) : Prop :=
  ∀ x : ℝ, ∃ y, ex (.fin x) = .fin y ∧ |y - Real.exp x| ≤ v * Real.exp x

/-- Correctly rounded functions are such functions. -/
theorem logWithin_rounded (hr : Spec.RelErr rd u) : Spec.LogWithin u (fun v => (Num.log v).rounded rd) := by
  intro x hx
  refine ⟨rd (Real.log x), ?_, hr.err _⟩
  simp only [Num.log_fin hx]
  rfl

theorem expWithin_rounded (hr : Spec.RelErr rd u) : Spec.ExpWithin u (fun v => (Num.exp v).rounded rd) := by
  intro x
  refine ⟨rd (Real.exp x), rfl, ?_⟩
  have := hr.err (Real.exp x)
  rwa [abs_of_pos (Real.exp_pos x)] at this

/-! ## lemmas on the real line -/

theorem relErr_mono (hr : Spec.RelErr rd u) {w : ℝ} (h : u ≤ w) (h1 : w < 1) : Spec.RelErr rd w :=
  ⟨hr.nonneg.trans h, h1, fun x => (hr.err x).trans (mul_le_mul_of_nonneg_right h (abs_nonneg x))⟩

theorem near_of_log (h0 : 0 ≤ u) (h1 : u < 1) {k : ℕ} {x y : ℝ} (hx : 0 < x) (hy : 0 < y)
    (h : |Real.log y - Real.log x| ≤ k * u) : Spec.Near u k x y := by
  have key : (1 - u) ^ k ≤ Real.exp (-(k * u)) := by
    have e1 : 1 - u ≤ Real.exp (-u) := by have := Real.add_one_le_exp (-u); linarith
    have e2 : (1 - u) ^ k ≤ Real.exp (-u) ^ k := pow_le_pow_left₀ (by linarith) e1 k
    rw [← Real.exp_nat_mul] at e2
    rwa [show (k : ℝ) * -u = -(k * u) by ring] at e2
  have gen : ∀ a b : ℝ, 0 < a → 0 < b → Real.log a - Real.log b ≤ k * u → (1 - u) ^ k * a ≤ b := by
    intro a b ha hb hab
    calc (1 - u) ^ k * a ≤ Real.exp (-(k * u)) * a := mul_le_mul_of_nonneg_right key ha.le
      _ = Real.exp (-(k * u) + Real.log a) := by rw [Real.exp_add, Real.exp_log ha]
      _ ≤ Real.exp (Real.log b) := Real.exp_le_exp.2 (by linarith)
      _ = b := Real.exp_log hb
  have := abs_le.1 h
  exact ⟨gen x y hx hy (by linarith), gen y x hy hx (by linarith)⟩

theorem log_of_relErr (h0 : 0 ≤ u) (h1 : u ≤ 1 / 3) {x y : ℝ} (hx : 0 < x) (h : |y - x| ≤ u * x) :
    0 < y ∧ |Real.log y - Real.log x| ≤ 3 / 2 * u := by
  obtain ⟨e1, e2⟩ := abs_le.1 h
  have hy : (1 - u) * x ≤ y := by linarith
  have hy' : 0 < y := lt_of_lt_of_le (mul_pos (by linarith) hx) hy
  refine ⟨hy', ?_⟩
  rw [← Real.log_div hy'.ne' hx.ne', abs_le]
  constructor
  · have q : 0 < x / y := div_pos hx hy'
    have := Real.log_le_sub_one_of_pos q
    have e : Real.log (y / x) = -Real.log (x / y) := by rw [← Real.log_inv, inv_div]
    rw [e]
    have b : x / y ≤ 1 + 3 / 2 * u := by
      rw [div_le_iff₀ hy']
      have : (1 + 3 / 2 * u) * ((1 - u) * x) ≤ (1 + 3 / 2 * u) * y := mul_le_mul_of_nonneg_left hy (by linarith)
      have : 1 ≤ (1 + 3 / 2 * u) * (1 - u) := by nlinarith
      nlinarith
    linarith
  · have := Real.log_le_sub_one_of_pos (div_pos hy' hx)
    have b : y / x ≤ 1 + u := by
      rw [div_le_iff₀ hx]; linarith
    linarith

theorem pow_le_lin (h0 : 0 ≤ u) {k : ℕ} (hk : (k : ℝ) * u ≤ 1 / 2) : (1 + u) ^ k ≤ 1 + 2 * (k * u) := by
  have e1 : 1 + u ≤ Real.exp u := by have := Real.add_one_le_exp u; linarith
  have e2 : (1 + u) ^ k ≤ Real.exp (k * u) := by
    rw [Real.exp_nat_mul]
    exact pow_le_pow_left₀ (by linarith) e1 k
  refine e2.trans ?_
  set x := (k : ℝ) * u with hx
  have hx0 : 0 ≤ x := mul_nonneg (Nat.cast_nonneg k) h0
  have e3 : 1 - x ≤ Real.exp (-x) := by have := Real.add_one_le_exp (-x); linarith
  have e4 : Real.exp x * Real.exp (-x) = 1 := by rw [← Real.exp_add]; simp
  have e5 : 1 ≤ (1 + 2 * x) * (1 - x) := by nlinarith
  have e6 := Real.exp_pos x
  nlinarith [Real.exp_pos (-x)]

/-! ## the averages -/

theorem abs_sum_map_le (l : List ℕ) (a : ℕ → ℝ) : |(l.map a).sum| ≤ (l.map (fun i => |a i|)).sum := by
  induction l with
  | nil => simp
  | cons i l ih =>
    rw [List.map_cons, List.sum_cons, List.map_cons, List.sum_cons]
    exact (abs_add_le _ _).trans (add_le_add le_rfl ih)

/-- The rounded mean of rounded logarithms. -/
theorem mean_log_err (hr : Spec.RelErr rd u) (hb : Spec.Bracketing br) {w : List ℕ} (hw : w ≠ []) {a b : ℕ → ℝ} {δ L : ℝ}
    (hd : 0 ≤ δ) (ha : ∀ i ∈ w, |a i| ≤ L) (hn : ∀ i ∈ w, |b i - a i| ≤ δ + u * (|a i| + δ)) :
    |rd (roundedSum br rd (w.map b) / (w.length : ℝ)) - Spec.mean (w.map a)| ≤
      ((1 + u) ^ (w.length + 1) - 1) * L + (1 + u) ^ (w.length + 1) * δ := by
  have h0 := hr.nonneg
  have hlen : (0 : ℝ) < w.length := by exact_mod_cast List.length_pos_of_ne_nil hw
  have hlen1 := List.length_pos_of_ne_nil hw
  have key := sum_err hr hb hw hn
  set A := (w.map (fun i => |a i|)).sum with hA
  have hAL : A ≤ w.length * L := by
    have : (w.map (fun i => |a i|)).sum ≤ (w.map (fun _ => L)).sum := List.sum_le_sum ha
    rw [List.map_const', List.sum_replicate, nsmul_eq_mul] at this
    exact this
  have hA0 : 0 ≤ A := List.sum_nonneg (by
    intro x hx
    obtain ⟨i, _, rfl⟩ := List.mem_map.1 hx
    exact abs_nonneg _)
  have hB : (w.map (fun i => |a i| + (δ + u * (|a i| + δ)))).sum = (1 + u) * (A + w.length * δ) := by
    have : (fun i => |a i| + (δ + u * (|a i| + δ))) = (fun i => (1 + u) * (|a i| + δ)) := by funext i; ring
    rw [this, List.sum_map_mul_left, List.sum_map_add, List.map_const', List.sum_replicate, nsmul_eq_mul]
  rw [hB] at key
  set S := roundedSum br rd (w.map b)
  set T := (w.map a).sum with hT
  have hTA : |T| ≤ A := by
    rw [hT, hA]
    exact abs_sum_map_le w a
  have hp : (1 + u) ^ (w.length - 1) * ((1 + u) * (A + w.length * δ)) = (1 + u) ^ w.length * (A + w.length * δ) := by
    rw [← mul_assoc, ← pow_succ, Nat.sub_add_cancel hlen1]
  rw [hp] at key
  have hS : |S| ≤ (1 + u) ^ w.length * (A + w.length * δ) := by
    have : |S| ≤ |S - T| + |T| := by
      have := abs_add_le (S - T) T
      rwa [sub_add_cancel] at this
    linarith
  unfold Spec.mean
  rw [List.length_map]
  have e1 := hr.err (S / w.length)
  have e2 : |rd (S / w.length) - T / w.length| ≤ u * |S / w.length| + |S - T| / w.length := by
    have : rd (S / w.length) - T / w.length = (rd (S / w.length) - S / w.length) + (S - T) / w.length := by ring
    rw [this]
    refine (abs_add_le _ _).trans (add_le_add e1 ?_)
    rw [abs_div, abs_of_pos hlen]
  refine e2.trans ?_
  rw [abs_div, abs_of_pos hlen, ← mul_div_assoc, ← add_div, div_le_iff₀ hlen, pow_succ]
  set P := (1 + u) ^ w.length with hPdef
  have hP : 1 ≤ P := one_le_pow₀ (by linarith)
  have e3 : u * |S| ≤ u * (P * (A + w.length * δ)) := mul_le_mul_of_nonneg_left hS h0
  have e4 : (P * (1 + u) - 1) * A ≤ (P * (1 + u) - 1) * (w.length * L) :=
    mul_le_mul_of_nonneg_left hAL (by nlinarith)
  nlinarith

/-- The geometric average of a window in exact and in rounded arithmetic. -/
theorem gmeanR_near (hr : Spec.RelErr rd u) (hb : Spec.Bracketing br) (hlg : Spec.LogWithin u lg)
    (hex : Spec.ExpWithin u ex) {w : List ℕ} (hw : w ≠ []) {r : ℕ → ℝ} (hpos : ∀ i ∈ w, 0 < r i) {L : ℝ}
    (hL : ∀ i ∈ w, |Real.log (r i)| ≤ L) (hu : ((w.length + 1 : ℕ) : ℝ) * u ≤ 1 / 6) (hu1 : 3 * (1 + L) * u < 1) :
    ∃ y, gmeanR br rd lg ex ((w.map (fun i => rd (rd (r i)))).map Num.fin) = .fin y ∧ 0 < y ∧
      Spec.Near (3 * (1 + L) * u) (2 * w.length + 1) (Real.exp (Spec.mean (w.map (fun i => Real.log (r i))))) y := by
  have h0 := hr.nonneg
  have hlen1 := List.length_pos_of_ne_nil hw
  have hlen : (1 : ℝ) ≤ w.length := by exact_mod_cast hlen1
  have hL0 : 0 ≤ L := by
    obtain ⟨i, hi⟩ := List.exists_mem_of_ne_nil _ hw
    exact (abs_nonneg _).trans (hL i hi)
  push_cast at hu
  have hu3 : u ≤ 1 / 12 := by nlinarith
  -- logarithms of the rounded ratios
  have hlog : ∀ i ∈ w, 0 < rd (rd (r i)) ∧ |Real.log (rd (rd (r i))) - Real.log (r i)| ≤ 3 * u := by
    intro i hi
    have p := hpos i hi
    have e1 := hr.err (r i)
    rw [abs_of_pos p] at e1
    obtain ⟨q1, q2⟩ := log_of_relErr h0 (by linarith) p e1
    have e2 := hr.err (rd (r i))
    rw [abs_of_pos q1] at e2
    obtain ⟨q3, q4⟩ := log_of_relErr h0 (by linarith) q1 e2
    refine ⟨q3, ?_⟩
    have := abs_add_le (Real.log (rd (rd (r i))) - Real.log (rd (r i))) (Real.log (rd (r i)) - Real.log (r i))
    rw [sub_add_sub_cancel] at this
    linarith
  have hlg' : ∀ i, ∃ y, i ∈ w → lg (.fin (rd (rd (r i)))) = .fin y ∧
      |y - Real.log (r i)| ≤ 3 * u + u * (|Real.log (r i)| + 3 * u) := by
    intro i
    by_cases hi : i ∈ w
    · obtain ⟨p, q⟩ := hlog i hi
      obtain ⟨y, y1, y2⟩ := hlg _ p
      refine ⟨y, fun _ => ⟨y1, ?_⟩⟩
      have e1 : |Real.log (rd (rd (r i)))| ≤ |Real.log (r i)| + 3 * u := by
        have := abs_add_le (Real.log (rd (rd (r i))) - Real.log (r i)) (Real.log (r i))
        rw [sub_add_cancel] at this
        linarith
      have e2 := mul_le_mul_of_nonneg_left e1 h0
      have := abs_add_le (y - Real.log (rd (rd (r i)))) (Real.log (rd (rd (r i))) - Real.log (r i))
      rw [sub_add_sub_cancel] at this
      linarith
    · exact ⟨0, fun e => absurd e hi⟩
  choose b hb' using hlg'
  have hmap : ((w.map (fun i => rd (rd (r i)))).map Num.fin).map lg = (w.map b).map Num.fin := by
    rw [List.map_map, List.map_map, List.map_map]
    apply List.map_congr_left
    intro i hi
    exact (hb' i hi).1
  have herr := mean_log_err hr hb hw (δ := 3 * u) (by linarith) hL (fun i hi => (hb' i hi).2)
  set s := rd (roundedSum br rd (w.map b) / (w.length : ℝ)) with hs
  set g := Spec.mean (w.map (fun i => Real.log (r i))) with hg
  obtain ⟨y, y1, y2⟩ := hex s
  obtain ⟨y3, y4⟩ := log_of_relErr h0 (by linarith) (Real.exp_pos s) y2
  rw [Real.log_exp] at y4
  refine ⟨y, ?_, y3, ?_⟩
  · unfold gmeanR npMeanR
    rw [hmap, sumR_fin, List.length_map, List.length_map, Num.fin_div _ _ (by linarith)]
    exact y1
  · refine near_of_log (mul_nonneg (by linarith) h0) hu1 (Real.exp_pos _) y3 ?_
    rw [Real.log_exp]
    have hP := pow_le_lin h0 (k := w.length + 1) (by push_cast; linarith)
    push_cast at hP ⊢
    set P := (1 + u) ^ (w.length + 1)
    have e1 : (P - 1) * L ≤ 2 * (((w.length : ℝ) + 1) * u) * L := mul_le_mul_of_nonneg_right (by linarith) hL0
    have e2 : P * (3 * u) ≤ 2 * (3 * u) := mul_le_mul_of_nonneg_right (by linarith) (by linarith)
    have e3 : |Real.log y - g| ≤ |Real.log y - s| + |s - g| := by
      have := abs_add_le (Real.log y - s) (s - g)
      rwa [sub_add_sub_cancel] at this
    have e4 : |Real.log y - g| ≤ 3 / 2 * u + (2 * (((w.length : ℝ) + 1) * u) * L + 6 * u) := by linarith
    refine e4.trans ?_
    have hLu : 0 ≤ L * u := mul_nonneg hL0 h0
    have e5 : ((w.length : ℝ) + 1) * (L * u) ≤ (2 * w.length + 1) * (L * u) := mul_le_mul_of_nonneg_right (by linarith) hLu
    have e6 : 3 * u ≤ (2 * (w.length : ℝ) + 1) * u := mul_le_mul_of_nonneg_right (by linarith) h0
    have e7 : 0 ≤ (2 * (w.length : ℝ) + 1) * (L * u) := mul_nonneg (by linarith) hLu
    nlinarith

/-! ## the estimator -/

/-- **C163.** Rounding errors of `base_cl` with geometric averages.  Every operation, `np.log` and `np.exp` included, has
relative error at most `u`, and the logarithms of all link ratios lie between `-L` and `L`.  With `u' = 3(1+L)u` and
`2(n² + 2n)u' ≤ 1` the rounded and the exact estimator both return and the bounds of C142 hold with `u'` in place of `u`. -/
theorem C163_error (h : Spec.Stair t n c) (hp : Spec.Positive n c) (hn : 3 ≤ n) (hr : Spec.RelErr rd u)
    (hb : Spec.Bracketing br) (hlg : Spec.LogWithin u lg) (hex : Spec.ExpWithin u ex) {L : ℝ}
    (hL : ∀ i j, i + j + 1 < n → |Real.log (c i (j + 1) / c i j)| ≤ L)
    (hu : 2 * ((n : ℝ) ^ 2 + 2 * n) * (3 * (1 + L) * u) ≤ 1) {k : ℕ} (hk : k < n - 1) {tail : ℝ} (htail : 0 < tail) :
    ∃ r r', baseCL gmean t t.a2aind0 (Spec.avgName "geometric" k) (.fin tail) = .ok r ∧
      baseCLR br rd (gmeanR br rd lg ex) t t.a2aind0 (Spec.avgName "geometric" k) (.fin tail) = .ok r' ∧
      Spec.ErrorBounds (3 * (1 + L) * u) n r r' := by
  have h0 := hr.nonneg
  have hn3 : (3 : ℝ) ≤ n := by exact_mod_cast hn
  have hL0 : 0 ≤ L := (abs_nonneg _).trans (hL 0 0 (by omega))
  set u' := 3 * (1 + L) * u with hu'
  have hle : 3 * u ≤ u' := by
    have := mul_nonneg hL0 h0
    rw [hu']; nlinarith
  have hu0 : 0 ≤ u' := by linarith
  have hu2 : (n : ℝ) * u' ≤ 1 / 10 := by
    have : (0:ℝ) ≤ n * u' := mul_nonneg (by linarith) hu0
    nlinarith
  have hu1 : u' < 1 := by nlinarith
  have hr' : Spec.RelErr rd u' := relErr_mono hr (by linarith) hu1
  have key : ∀ j, ∃ y, j < n - 1 → avgCellR br rd (gmeanR br rd lg ex) t
      (Tri.alignOp (fun a b => (a * b).rounded rd) (t.a2aR rd) t.a2aind0) .geometric k j = .ok (.fin y) ∧ 0 < y ∧
      Spec.Near u' (2 * (n - 1 - j) + 1)
        (Real.exp (Spec.mean ((wOrigins n k j).map (fun i => Real.log (Spec.ratioAt c j i))))) y := by
    intro j
    by_cases hj : j < n - 1
    · have hw := wOrigins_ne_nil (k := k) hj
      have hlen := wOrigins_length (n := n) k j
      obtain ⟨y, y1, y2, y3⟩ := gmeanR_near hr hb hlg hex hw (r := Spec.ratioAt c j) (ratioAt_pos hp)
        (fun i hi => hL i j (wOrigins_lt hi)) (by
          have : (((wOrigins n k j).length + 1 : ℕ) : ℝ) ≤ n := by apply Nat.cast_le.2; omega
          have e := mul_le_mul_of_nonneg_right this h0
          nlinarith) hu1
      refine ⟨y, fun _ => ⟨?_, y2, near_mono hu0 hu1 (by omega) (Real.exp_pos _) y2 y3⟩⟩
      show Except.ok (geometricAvg _ (avgWindow _ k)) = _
      rw [windowR hr h hp k hj]
      unfold geometricAvg
      rw [if_neg (by simpa using hw), y1]
    · exact ⟨0, fun e => absurd e hj⟩
  choose g' hg' using key
  refine errorBounds_of_entries gmean _ h hp hn hr' hb hu .geometric hk htail
    (g := fun j => Real.exp (Spec.mean ((wOrigins n k j).map (fun i => Real.log (Spec.ratioAt c j i))))) ?_
    (fun j hj => (hg' j hj).1) (fun j _ => Real.exp_pos _) (fun j hj => (hg' j hj).2.1) (fun j hj => (hg' j hj).2.2)
  intro j hj
  have hw := wOrigins_ne_nil (n := n) (k := k) hj
  rw [entry_geometric h hp.ne_zero (h.indOn0 hp.ne_zero) hj, window_noexcl hp, lastN_ratios]
  unfold geometricAvg
  rw [if_neg (by simpa using hw), gmean_fin (fun x hx => by
    obtain ⟨i, hi, rfl⟩ := List.mem_map.1 hx
    exact ratioAt_pos hp i hi) (by simpa using hw), List.map_map]
  rfl

/-- **C163 for double precision**: link ratios between e⁻⁵ and e⁵ ≈ 148, logarithms and exponentials within four units of
relative error 2⁻⁵³, triangles with at most 2²² periods.  The bounds of C142 hold with 72·2⁻⁵³ in place of 2⁻⁵³. -/
theorem C163_float64 (h : Spec.Stair t n c) (hp : Spec.Positive n c) (hn : 3 ≤ n) (hn' : n ≤ 2 ^ 22)
    (hb : Spec.Bracketing br) (hlg : Spec.LogWithin (4 * 2 ^ (-53 : ℤ)) lg) (hex : Spec.ExpWithin (4 * 2 ^ (-53 : ℤ)) ex)
    (hL : ∀ i j, i + j + 1 < n → |Real.log (c i (j + 1) / c i j)| ≤ 5) {k : ℕ} (hk : k < n - 1) {tail : ℝ}
    (htail : 0 < tail) :
    ∃ r r', baseCL gmean t t.a2aind0 (Spec.avgName "geometric" k) (.fin tail) = .ok r ∧
      baseCLR br (floatRd 53) (gmeanR br (floatRd 53) lg ex) t t.a2aind0 (Spec.avgName "geometric" k) (.fin tail) = .ok r' ∧
      Spec.ErrorBounds (72 * 2 ^ (-53 : ℤ)) n r r' := by
  have hr : Spec.RelErr (floatRd 53 : ℝ → ℝ) ((2 : ℝ) ^ (-((53 : ℕ) : ℤ))) := floatRd_relErr (p := 53) (by norm_num)
  have hr4 : Spec.RelErr (floatRd 53 : ℝ → ℝ) (4 * 2 ^ (-53 : ℤ)) := by
    refine relErr_mono hr ?_ ?_ <;> norm_num
  have hnr : (n : ℝ) ≤ 2 ^ 22 := by exact_mod_cast hn'
  have hn0 : (0 : ℝ) ≤ n := Nat.cast_nonneg n
  have e : (72 : ℝ) * 2 ^ (-53 : ℤ) = 3 * (1 + 5) * (4 * 2 ^ (-53 : ℤ)) := by norm_num
  rw [e]
  refine C163_error h hp hn hr4 hb hlg hex hL ?_ hk htail
  have h2 : (n : ℝ) ^ 2 + 2 * n ≤ 2 ^ 44 + 2 ^ 23 := by nlinarith
  calc 2 * ((n : ℝ) ^ 2 + 2 * n) * (3 * (1 + 5) * (4 * 2 ^ (-53 : ℤ))) ≤
      2 * (2 ^ 44 + 2 ^ 23) * (3 * (1 + 5) * (4 * 2 ^ (-53 : ℤ))) := by
        apply mul_le_mul_of_nonneg_right (by linarith)
        norm_num
    _ ≤ 1 := by norm_num

/-- Five origins whose amounts grow by one half each period, correctly rounded functions, averages over the last two
origins. -/
example : ∃ r r', baseCL gmean (stairTri 5 (fun _ j => (3 / 2 : ℝ) ^ j)) (stairTri 5 (fun _ j => (3 / 2 : ℝ) ^ j)).a2aind0
      "geometric-2" (.fin 1) = .ok r ∧
    baseCLR (fun k => seqTree (k - 1)) (floatRd 53) (gmeanR (fun k => seqTree (k - 1)) (floatRd 53)
      (fun v => (Num.log v).rounded (floatRd 53)) (fun v => (Num.exp v).rounded (floatRd 53)))
      (stairTri 5 (fun _ j => (3 / 2 : ℝ) ^ j)) (stairTri 5 (fun _ j => (3 / 2 : ℝ) ^ j)).a2aind0 "geometric-2" (.fin 1) = .ok r' ∧
    Spec.ErrorBounds (72 * 2 ^ (-53 : ℤ)) 5 r r' := by
  have hr : Spec.RelErr (floatRd 53 : ℝ → ℝ) ((2 : ℝ) ^ (-((53 : ℕ) : ℤ))) := floatRd_relErr (p := 53) (by norm_num)
  have hr4 : Spec.RelErr (floatRd 53 : ℝ → ℝ) (4 * 2 ^ (-53 : ℤ)) := by
    refine relErr_mono hr ?_ ?_ <;> norm_num
  refine C163_float64 (n := 5) (k := 2) (c := fun _ j => (3 / 2 : ℝ) ^ j) (stairTri_stair _ _) ?_ (by norm_num)
    (by norm_num) seqTree_bracketing (logWithin_rounded hr4) (expWithin_rounded hr4) ?_ (by norm_num) (by norm_num)
  · intro i j _
    positivity
  · intro i j _
    have e : ((3 / 2 : ℝ) ^ (j + 1) / (3 / 2) ^ j) = 3 / 2 := by
      rw [pow_succ]; field_simp
    rw [e, abs_of_pos (Real.log_pos (by norm_num))]
    have := Real.log_le_sub_one_of_pos (show (0 : ℝ) < 3 / 2 by norm_num)
    linarith

end Trikit
