import Verif.BootFit

/-! # Closed form of one bootstrap run on a staircase -/

set_option linter.unusedSectionVars false

namespace Trikit

section
variable {K : Type} [Field K] [LinearOrder K] [IsStrictOrderedRing K]
variable {t m : Tri K} {n S : ℕ} {c v : ℕ → ℕ → K}

/-- The finite part of a draw. -/
def finD (draw : ℕ → Num K) (p : ℕ) : K := ((draw p).toFin).getD 0

theorem finD_eq {draw : ℕ → Num K} {p : ℕ} (h : (draw p).isFin = true) : draw p = .fin (finD draw p) := by
  obtain ⟨y, hy⟩ := (Num.isFin_iff _).1 h
  unfold finD
  rw [hy]; rfl

/-- Finite value of the gamma draw of a forecast cell. -/
def gamD (t : Tri K) (n : ℕ) (x : ℕ → ℕ → ℕ → K) (scale : Num K) (gam : ℕ → Num K → Num K → Num K)
    (s i j : ℕ) : K :=
  ((gam (s * (n * n) + (i * n + j)) (Num.fin (Spec.simIncr t n x s i j) / scale).abs' scale).toFin).getD 0

/-- All tables of a run in terms of the simulated cumulative values `x` and the gamma draws `g`. -/
structure SimSpec (t : Tri K) (n S : ℕ) (x g : ℕ → ℕ → ℕ → K) (r : SimResult K) : Prop where
  samples : ∃ row, SampTab t n S r.samples row x
  ldfs : r.ldfs = (List.range S).flatMap (fun s => (List.range (n - 1)).filterMap (fun j =>
      (Spec.simLdf n x s j).map (fun f => (⟨s, t.dAt j, .fin f⟩ : LdfRow K))))
  forecasts : r.forecasts = (List.range S).flatMap (fun s =>
      (List.range n).flatMap (fun i => (List.range n).map (fun j => sqrdRowAt t n x s i j)))
  proc : r.proc = (List.range S).flatMap (fun s => (List.range n).flatMap (fun i =>
        (List.range n).map (fun j => procRowAt t n x g s i j)))
  reserves : r.reserves =
      (List.range n).flatMap (fun i => (List.range S).map (fun s => resRowAt t n x g s i))

theorem bootSims_stair' (ht : Spec.Stair t n c) (hn : 0 < n) (hS : 0 < S) (hm : Spec.Stair m n v)
    (ho : m.origins = t.origins) (hd : m.devs = t.devs) {sq : Num K → Num K} {rt : ℕ → ℕ → K}
    (hsq : ∀ i j, i + j < n → sq (.fin (Spec.startIncr v i j)) = .fin (rt i j))
    {draw : ℕ → Num K} (hz : ∀ p < S * (n * n), (draw p).isFin = true)
    {scale : Num K} {gam : ℕ → Num K → Num K → Num K} (hg : ∀ p < S * (n * n), ∀ y : K, (gam p (Num.fin y / scale).abs' scale).isFin = true) :
    SimSpec t n S (Spec.simCum n (Spec.startIncr v) rt (finD draw))
      (gamD t n (Spec.simCum n (Spec.startIncr v) rt (finD draw)) scale gam)
      (bootSims sq t m scale S draw gam) := by
  obtain ⟨row, htab, -⟩ := bsSamples_tab (S := S) hm ho hd hsq (draw := draw) (z := finD draw)
    (fun p hp => finD_eq (hz p hp))
  have hf := bsForecasts_stair ht hn hS htab
  have hp := bsProcess_stair (S := S) ht (x := Spec.simCum n (Spec.startIncr v) rt (finD draw)) (scale := scale)
    (gam := gam) (g := gamD t n (Spec.simCum n (Spec.startIncr v) rt (finD draw)) scale gam) (by
      intro s i j hs hi hj _
      obtain ⟨y, hy⟩ := (Num.isFin_iff _).1 (hg _ (posLt hs hi hj)
        (Spec.simIncr t n (Spec.simCum n (Spec.startIncr v) rt (finD draw)) s i j))
      unfold gamD
      rw [hy]; rfl)
  refine ⟨⟨row, htab⟩, bsLdfs_stair ht hn htab, hf, ?_, ?_⟩
  · show bsProcess scale gam (bsForecasts t _ (bsLdfs t S _)) = _
    rw [hf, hp]
  · show bsReserves (bsProcess scale gam (bsForecasts t _ (bsLdfs t S _))) = _
    rw [hf, hp, bsReserves_stair ht hn hS]

theorem bootSims_stair (ht : Spec.Stair t n c) (hn : 0 < n) (hS : 0 < S) (hm : Spec.Stair m n v)
    (ho : m.origins = t.origins) (hd : m.devs = t.devs) {sq : Num K → Num K} {rt : ℕ → ℕ → K}
    (hsq : ∀ i j, i + j < n → sq (.fin (Spec.startIncr v i j)) = .fin (rt i j))
    {draw : ℕ → Num K} (hz : ∀ p < S * (n * n), (draw p).isFin = true)
    {scale : Num K} {gam : ℕ → Num K → Num K → Num K} (hg : ∀ p < S * (n * n), ∀ a b, (gam p a b).isFin = true) :
    SimSpec t n S (Spec.simCum n (Spec.startIncr v) rt (finD draw))
      (gamD t n (Spec.simCum n (Spec.startIncr v) rt (finD draw)) scale gam)
      (bootSims sq t m scale S draw gam) :=
  bootSims_stair' ht hn hS hm ho hd hsq hz (fun p hp _ => hg p hp _ _)

/-- Roots of the starting increments exist when fitted increments are not negative. -/
theorem exists_roots {sq : Num K → Num K} (hsq : ∀ y : K, 0 ≤ y → ∃ r, sq (.fin y) = .fin r)
    (hv : ∀ i j, i + j < n → 0 < j → 0 ≤ v i j) :
    ∃ rt : ℕ → ℕ → K, ∀ i j, i + j < n → sq (.fin (Spec.startIncr v i j)) = .fin (rt i j) := by
  have : ∀ i j, ∃ r, i + j < n → sq (.fin (Spec.startIncr v i j)) = .fin r := by
    intro i j
    by_cases h : i + j < n
    · have h0 : 0 ≤ Spec.startIncr v i j := by
        unfold Spec.startIncr
        split
        · exact zero_le_one
        · rename_i hneg
          by_cases hj : j = 0
          · by_contra hlt
            exact hneg ⟨hj, not_le.1 hlt⟩
          · exact hv i j h (by omega)
      obtain ⟨r, hr⟩ := hsq _ h0
      exact ⟨r, fun _ => hr⟩
    · exact ⟨0, fun h' => absurd h' h⟩
  choose rt hrt using this
  exact ⟨rt, hrt⟩

/-! ### dependence on one simulation -/

section congr
variable {x y g g' : ℕ → ℕ → ℕ → K} {s : ℕ}

theorem simA_congr (h : ∀ i j, i + j < n → x s i j = y s i j) (j : ℕ) :
    Spec.simA1 n x s j = Spec.simA1 n y s j ∧ Spec.simA2 n x s j = Spec.simA2 n y s j := by
  unfold Spec.simA1 Spec.simA2
  constructor
  · apply Finset.sum_congr rfl
    intro i hi
    rw [Finset.mem_range] at hi
    exact h i j (by omega)
  · apply Finset.sum_congr rfl
    intro i hi
    rw [Finset.mem_range] at hi
    exact h i j (by omega)

theorem simLdf_congr (h : ∀ i j, i + j < n → x s i j = y s i j) (j : ℕ) :
    Spec.simLdf n x s j = Spec.simLdf n y s j := by
  unfold Spec.simLdf
  rw [(simA_congr h j).2, (simA_congr h (j + 1)).1]

theorem simFull_congr (h : ∀ i j, i + j < n → x s i j = y s i j) {i : ℕ} (hi : i < n) (j : ℕ) :
    Spec.simFull n x s i j = Spec.simFull n y s i j := by
  unfold Spec.simFull Spec.simProj
  simp only [simLdf_congr h, h i (n - 1 - i) (by omega)]
  by_cases hij : i + j < n
  · rw [if_pos hij, if_pos hij, h i j hij]
  · rw [if_neg hij, if_neg hij]

theorem simIncr_congr (t : Tri K) (h : ∀ i j, i + j < n → x s i j = y s i j) {i : ℕ} (hi : i < n) (j : ℕ) :
    Spec.simIncr t n x s i j = Spec.simIncr t n y s i j := by
  unfold Spec.simIncr
  rw [simFull_congr h hi, simFull_congr h hi]

theorem sqrdRowAt_congr (t : Tri K) (h : ∀ i j, i + j < n → x s i j = y s i j) {i : ℕ} (hi : i < n) (j : ℕ) :
    sqrdRowAt t n x s i j = sqrdRowAt t n y s i j := by
  unfold sqrdRowAt
  rw [simFull_congr h hi, simIncr_congr t h hi, h i (n - 1 - i) (by omega)]

theorem finalIncr_congr (t : Tri K) (h : ∀ i j, i + j < n → x s i j = y s i j)
    (hg : ∀ i < n, ∀ j < n, n ≤ i + j → g s i j = g' s i j) {i j : ℕ} (hi : i < n) (hj : j < n) :
    Spec.finalIncr t n x g s i j = Spec.finalIncr t n y g' s i j := by
  unfold Spec.finalIncr
  rw [simIncr_congr t h hi]
  by_cases hij : n ≤ i + j
  · rw [if_pos hij, if_pos hij, hg i hi j hj hij]
  · rw [if_neg hij, if_neg hij]

theorem resRowAt_congr (t : Tri K) (h : ∀ i j, i + j < n → x s i j = y s i j)
    (hg : ∀ i < n, ∀ j < n, n ≤ i + j → g s i j = g' s i j) {i : ℕ} (hi : i < n) :
    resRowAt t n x g s i = resRowAt t n y g' s i := by
  have e : ∑ k ∈ Finset.range n, Spec.finalIncr t n x g s i k = ∑ k ∈ Finset.range n, Spec.finalIncr t n y g' s i k := by
    apply Finset.sum_congr rfl
    intro k hk
    exact finalIncr_congr t h hg hi (Finset.mem_range.1 hk)
  unfold resRowAt
  rw [e, h i (n - 1 - i) (by omega)]

end congr

/-! ### rows of one simulation -/

variable {x g : ℕ → ℕ → ℕ → K} {r : SimResult K}

theorem SimSpec.ldfs_sim (h : SimSpec t n S x g r) {s : ℕ} (hs : s < S) :
    r.ldfs.filter (fun q => decide (q.sim = s)) = (List.range (n - 1)).filterMap (fun j =>
      (Spec.simLdf n x s j).map (fun f => (⟨s, t.dAt j, .fin f⟩ : LdfRow K))) := by
  rw [h.ldfs, filter_flatMap_single hs, List.filter_eq_self.2]
  · intro q hq
    rw [List.mem_filterMap] at hq
    obtain ⟨j, -, hq⟩ := hq
    rw [Option.map_eq_some_iff] at hq
    obtain ⟨f, -, rfl⟩ := hq
    simp
  · intro s' hs' q hq
    rw [List.mem_filterMap] at hq
    obtain ⟨j, -, hq⟩ := hq
    rw [Option.map_eq_some_iff] at hq
    obtain ⟨f, -, rfl⟩ := hq
    simp [hs']

theorem SimSpec.forecasts_sim (h : SimSpec t n S x g r) {s : ℕ} (hs : s < S) :
    r.forecasts.filter (fun q => decide (q.sim = s)) =
      (List.range n).flatMap (fun i => (List.range n).map (fun j => sqrdRowAt t n x s i j)) := by
  rw [h.forecasts, filter_flatMap_single hs, List.filter_eq_self.2]
  · intro q hq
    simp only [List.mem_flatMap, List.mem_map] at hq
    obtain ⟨i, -, j, -, rfl⟩ := hq
    simp [sqrdRowAt]
  · intro s' hs' q hq
    simp only [List.mem_flatMap, List.mem_map] at hq
    obtain ⟨i, -, j, -, rfl⟩ := hq
    simp [sqrdRowAt, hs']

theorem SimSpec.proc_sim (h : SimSpec t n S x g r) {s : ℕ} (hs : s < S) :
    r.proc.filter (fun q => decide (q.base.sim = s)) =
      (List.range n).flatMap (fun i => (List.range n).map (fun j => procRowAt t n x g s i j)) := by
  rw [h.proc, filter_flatMap_single hs, List.filter_eq_self.2]
  · intro q hq
    simp only [List.mem_flatMap, List.mem_map] at hq
    obtain ⟨i, -, j, -, rfl⟩ := hq
    simp [procRowAt, sqrdRowAt]
  · intro s' hs' q hq
    simp only [List.mem_flatMap, List.mem_map] at hq
    obtain ⟨i, -, j, -, rfl⟩ := hq
    simp [procRowAt, sqrdRowAt, hs']

theorem SimSpec.reserves_sim (h : SimSpec t n S x g r) {s : ℕ} (hs : s < S) :
    r.reserves.filter (fun q => decide (q.sim = s)) = (List.range n).map (fun i => resRowAt t n x g s i) := by
  rw [h.reserves, List.filter_flatMap]
  refine Eq.trans (flatMap_congr_mem (g := fun i => [resRowAt t n x g s i]) ?_) (List.flatMap_pure_eq_map _ _)
  intro i _
  exact filter_map_range_single (g := fun s => resRowAt t n x g s i) hs (fun k _ => rfl)

theorem SimSpec.mem_reserves (h : SimSpec t n S x g r) {q : ResRow K} :
    q ∈ r.reserves ↔ ∃ s i, s < S ∧ i < n ∧ q = resRowAt t n x g s i := by
  rw [h.reserves]
  simp only [List.mem_flatMap, List.mem_map, List.mem_range]
  constructor
  · rintro ⟨i, hi, s, hs, rfl⟩; exact ⟨s, i, hs, hi, rfl⟩
  · rintro ⟨s, i, hs, hi, rfl⟩; exact ⟨i, hi, s, hs, rfl⟩

/-- Sum of the final increments: the observed part telescopes. -/
theorem finalIncr_sum (t : Tri K) (x g : ℕ → ℕ → ℕ → K) (s : ℕ) {i : ℕ} (hi : i < n) :
    ∑ k ∈ Finset.range n, Spec.finalIncr t n x g s i k =
      (∑ k ∈ Finset.range (n - i), if t.dAt k = 1 then x s i k else 0) +
      (x s i (n - 1 - i) - x s i 0) + ∑ k ∈ Finset.Ico (n - i) n, Spec.finalIncr t n x g s i k := by
  rw [← Finset.sum_range_add_sum_Ico _ (show n - i ≤ n by omega)]
  congr 1
  have : ∀ k ∈ Finset.range (n - i), Spec.finalIncr t n x g s i k =
      (if t.dAt k = 1 then x s i k else 0) + (if k = 0 then 0 else x s i k - x s i (k - 1)) := by
    intro k hk
    rw [Finset.mem_range] at hk
    unfold Spec.finalIncr Spec.simIncr Spec.simFull
    rw [if_neg (c := n ≤ i + k) (by omega), if_pos (c := i + k < n) (by omega),
      if_pos (show i + (k - 1) < n by omega)]
  rw [Finset.sum_congr rfl this, Finset.sum_add_distrib]
  congr 1
  obtain ⟨k, hk⟩ : ∃ k, n - i = k + 1 := ⟨n - i - 1, by omega⟩
  rw [hk, show n - 1 - i = k by omega]
  clear hk this
  induction k with
  | zero => simp
  | succ k ih =>
    rw [Finset.sum_range_succ, ih]
    simp

end

end Trikit
