import Verif.Props.Rounded

/-!
# C197: no overflow and no underflow in the base chain ladder

`floatRd p` has no limits on the exponent.  Here the results of `base_cl` are shown to be the same for every rounding
that agrees with `floatRd p` between two bounds, so that no operation has a result outside.
-/

set_option linter.unusedSectionVars false

namespace Trikit

variable {K : Type} [Field K] [LinearOrder K] [IsStrictOrderedRing K]
variable {t : Tri K} {n : ℕ} {c : ℕ → ℕ → K} {u : K} {rd rd' : K → K} {br : ℕ → SumTree} {lo hi : K}

/-- Zero, or of a size between `lo` and `hi`. -/
def Spec.InRange (lo hi x : K) : Prop := x = 0 ∨ (lo ≤ |x| ∧ |x| ≤ hi)

/-- Two roundings agree on numbers in the range. -/
def Spec.AgreeOn (lo hi : K) (rd rd' : K → K) : Prop := ∀ x, Spec.InRange lo hi x → rd' x = rd x

/-- Positive amounts of moderate size: between `A` and `B`, and changing by a factor of at most `ρ` per period. -/
structure Spec.Moderate (n : ℕ) (c : ℕ → ℕ → K) (A B ρ : K) : Prop where
  pos : 0 < A
  le_one : A ≤ 1
  one_le : 1 ≤ B
  one_le' : 1 ≤ ρ
  lower : ∀ i j, i + j < n → A ≤ c i j
  upper : ∀ i j, i + j < n → c i j ≤ B
  up : ∀ i j, i + j + 1 < n → c i (j + 1) ≤ ρ * c i j
  down : ∀ i j, i + j + 1 < n → c i j ≤ ρ * c i (j + 1)

/-- Results with the same numbers. -/
def Spec.SameNumbers (n : ℕ) (r r' : BaseResult K) : Prop :=
  r'.ldfs = r.ldfs ∧ r'.cldfs = r.cldfs ∧ r'.rows = r.rows ∧ r'.totLatest = r.totLatest ∧ r'.totUltimate = r.totUltimate ∧
    r'.totReserve = r.totReserve ∧ r'.sqr.ultimate = r.sqr.ultimate ∧
    ∀ i < n, ∀ j < n, r'.sqr.tri.cell i j = r.sqr.tri.cell i j

/-! ### sums -/

theorem half_le_pow (h0 : 0 ≤ u) (h1 : u < 1) {k : ℕ} (hk : 2 * (k : K) * u ≤ 1) : 1 / 2 ≤ (1 - u) ^ k := by
  have := one_add_mul_le_pow (a := -u) (by linarith) k
  have e : (1 + -u) = 1 - u := by ring
  rw [e] at this
  linarith

theorem near_two (h0 : 0 ≤ u) (h1 : u < 1) {k : ℕ} (hk : 2 * (k : K) * u ≤ 1) {x y : K} (hx : 0 < x) (hy : 0 < y)
    (h : Spec.Near u k x y) : x / 2 ≤ y ∧ y ≤ 2 * x := by
  have := half_le_pow h0 h1 hk
  have a1 := mul_le_mul_of_nonneg_right this hx.le
  have a2 := mul_le_mul_of_nonneg_right this hy.le
  have := h.1
  have := h.2
  constructor <;> linarith

theorem list_sum_bounds {ι : Type} (l : List ι) {a : ι → K} {α β : K} (h : ∀ i ∈ l, α ≤ a i ∧ a i ≤ β) :
    (l.length : K) * α ≤ (l.map a).sum ∧ (l.map a).sum ≤ (l.length : K) * β := by
  induction l with
  | nil => simp
  | cons x l ih =>
    obtain ⟨h1, h2⟩ := ih (fun i hi => h i (List.mem_cons_of_mem _ hi))
    obtain ⟨h3, h4⟩ := h x List.mem_cons_self
    simp only [List.map_cons, List.sum_cons, List.length_cons]
    push_cast
    constructor <;> linarith

theorem tree_agree (hr : Spec.RelErr rd u) (ha : Spec.AgreeOn lo hi rd rd') {a : ℕ → K} {α β : K} (hα : 0 < α) (hlo : lo ≤ α)
    (s : SumTree) (hs : ∀ i ∈ s.leaves, α ≤ a i ∧ a i ≤ β) (hlen : 2 * (s.leaves.length : K) * u ≤ 1)
    (hhi : 2 * (s.leaves.length : K) * β ≤ hi) : s.eval rd' a = s.eval rd a := by
  induction s with
  | leaf i => rfl
  | node l r ihl ihr =>
    have h0 := hr.nonneg
    simp only [SumTree.leaves, List.length_append, Nat.cast_add] at hlen hhi
    have hl : ∀ i ∈ l.leaves, α ≤ a i ∧ a i ≤ β := fun i hi => hs i (by simp [SumTree.leaves, hi])
    have hr' : ∀ i ∈ r.leaves, α ≤ a i ∧ a i ≤ β := fun i hi => hs i (by simp [SumTree.leaves, hi])
    have pl : (1 : K) ≤ (l.leaves.length : K) := by exact_mod_cast l.leaves_pos
    have pr : (1 : K) ≤ (r.leaves.length : K) := by exact_mod_cast r.leaves_pos
    obtain ⟨i0, hi0⟩ := List.exists_mem_of_length_pos l.leaves_pos
    have hβ : 0 < β := hα.trans_le ((hl i0 hi0).1.trans (hl i0 hi0).2)
    have ll : 2 * (l.leaves.length : K) * u ≤ 1 := by nlinarith
    have lr : 2 * (r.leaves.length : K) * u ≤ 1 := by nlinarith
    rw [SumTree.eval, SumTree.eval, ihl hl ll (by nlinarith), ihr hr' lr (by nlinarith)]
    have key : ∀ s : SumTree, (∀ i ∈ s.leaves, α ≤ a i ∧ a i ≤ β) → 2 * (s.leaves.length : K) * u ≤ 1 →
        α / 2 ≤ s.eval rd a ∧ s.eval rd a ≤ 2 * ((s.leaves.length : K) * β) := by
      intro s hs hlen
      have hp : ∀ i ∈ s.leaves, 0 < a i := fun i hi => hα.trans_le (hs i hi).1
      obtain ⟨h1, h2, h3⟩ := tree_near hr (k := 0) s hp hp (fun i hi => near_refl h0 hr.lt_one (hp i hi))
      have hk : 2 * ((0 + (s.leaves.length - 1) : ℕ) : K) * u ≤ 1 := by
        have : ((0 + (s.leaves.length - 1) : ℕ) : K) ≤ (s.leaves.length : K) := by exact_mod_cast (by omega)
        nlinarith
      obtain ⟨h4, h5⟩ := near_two h0 hr.lt_one hk h1 h2 h3
      obtain ⟨h6, h7⟩ := list_sum_bounds s.leaves hs
      have ps : (1 : K) ≤ (s.leaves.length : K) := by exact_mod_cast s.leaves_pos
      constructor
      · nlinarith
      · linarith
    obtain ⟨a1, a2⟩ := key l hl ll
    obtain ⟨b1, b2⟩ := key r hr' lr
    refine ha _ (Or.inr ?_)
    rw [abs_of_nonneg (by linarith)]
    exact ⟨by linarith, by linarith⟩

theorem getD_map_mem {ι : Type} {l : List ι} {b : ι → K} {i : ℕ} (hi : i < l.length) : ∃ x ∈ l, (l.map b).getD i 0 = b x := by
  refine ⟨l[i], List.getElem_mem hi, ?_⟩
  rw [List.getD_eq_getElem?_getD, List.getElem?_map, List.getElem?_eq_getElem hi]
  rfl

theorem roundedSum_agree (hr : Spec.RelErr rd u) (ha : Spec.AgreeOn lo hi rd rd') (hb : Spec.Bracketing br) {ι : Type} {l : List ι}
    {b : ι → K} {α β : K} (hα : 0 < α) (hlo : lo ≤ α) (hs : ∀ i ∈ l, α ≤ b i ∧ b i ≤ β) (hlen : 2 * (l.length : K) * u ≤ 1)
    (hhi : 2 * (l.length : K) * β ≤ hi) : roundedSum br rd' (l.map b) = roundedSum br rd (l.map b) := by
  unfold roundedSum
  split
  · rfl
  · rename_i hne
    have hne' : l ≠ [] := by simpa using hne
    rw [List.length_map]
    have hp := hb l.length (List.length_pos_of_ne_nil hne')
    have hlen' : (br l.length).leaves.length = l.length := by rw [hp.length_eq, List.length_range]
    refine tree_agree hr ha hα hlo _ (fun i hi => ?_) (by rw [hlen']; exact hlen) (by rw [hlen']; exact hhi)
    obtain ⟨x, hx, e⟩ := getD_map_mem (b := b) (List.mem_range.1 (hp.subset hi))
    rw [e]; exact hs x hx

/-- A multiple of `g`. -/
def Spec.Multiple (g x : K) : Prop := ∃ m : ℤ, x = m * g

theorem Spec.Multiple.abs {g x : K} (hg : 0 < g) (h : Spec.Multiple g x) : x = 0 ∨ g ≤ |x| := by
  obtain ⟨m, rfl⟩ := h
  rcases eq_or_ne m 0 with h0 | h0
  · left; rw [h0]; simp
  · right
    have : (1 : K) ≤ |(m : K)| := by exact_mod_cast Int.one_le_abs h0
    rw [abs_mul, abs_of_pos hg]; nlinarith

theorem Spec.Multiple.add {g x y : K} (h : Spec.Multiple g x) (h' : Spec.Multiple g y) : Spec.Multiple g (x + y) := by
  obtain ⟨m, rfl⟩ := h
  obtain ⟨k, rfl⟩ := h'
  exact ⟨m + k, by push_cast; ring⟩

theorem Spec.Multiple.sub {g x y : K} (h : Spec.Multiple g x) (h' : Spec.Multiple g y) : Spec.Multiple g (x - y) := by
  obtain ⟨m, rfl⟩ := h
  obtain ⟨k, rfl⟩ := h'
  exact ⟨m - k, by push_cast; ring⟩

theorem tree_agree_grid (hr : Spec.RelErr rd u) (ha : Spec.AgreeOn lo hi rd rd') {g : K} (hg : 0 < g) (hlo : lo ≤ g)
    (hm : ∀ x, Spec.Multiple g x → Spec.Multiple g (rd x)) {a : ℕ → K} {β : K} (hβ : 0 ≤ β)
    (s : SumTree) (hs : ∀ i ∈ s.leaves, Spec.Multiple g (a i) ∧ |a i| ≤ β) (hlen : 2 * (s.leaves.length : K) * u ≤ 1)
    (hhi : 2 * (s.leaves.length : K) * β ≤ hi) : s.eval rd' a = s.eval rd a ∧ Spec.Multiple g (s.eval rd a) := by
  induction s with
  | leaf i => exact ⟨rfl, (hs i (by simp [SumTree.leaves])).1⟩
  | node l r ihl ihr =>
    have h0 := hr.nonneg
    simp only [SumTree.leaves, List.length_append, Nat.cast_add] at hlen hhi
    have hl : ∀ i ∈ l.leaves, Spec.Multiple g (a i) ∧ |a i| ≤ β := fun i hi => hs i (by simp [SumTree.leaves, hi])
    have hr' : ∀ i ∈ r.leaves, Spec.Multiple g (a i) ∧ |a i| ≤ β := fun i hi => hs i (by simp [SumTree.leaves, hi])
    have pl : (0 : K) ≤ (l.leaves.length : K) := Nat.cast_nonneg _
    have pr : (0 : K) ≤ (r.leaves.length : K) := Nat.cast_nonneg _
    have ll : 2 * (l.leaves.length : K) * u ≤ 1 := by nlinarith [mul_nonneg pr h0]
    have lr : 2 * (r.leaves.length : K) * u ≤ 1 := by nlinarith [mul_nonneg pl h0]
    obtain ⟨el, ml⟩ := ihl hl ll (by nlinarith [mul_nonneg pr hβ])
    obtain ⟨er, mr⟩ := ihr hr' lr (by nlinarith [mul_nonneg pl hβ])
    have key : ∀ s : SumTree, (∀ i ∈ s.leaves, Spec.Multiple g (a i) ∧ |a i| ≤ β) → 2 * (s.leaves.length : K) * u ≤ 1 →
        |s.eval rd a| ≤ 2 * ((s.leaves.length : K) * β) := by
      intro s hs hlen
      obtain ⟨h1, h2, _⟩ := tree_err hr (a := a) (b := a) (e := fun _ => 0) s (fun i _ => by simp)
      simp only [add_zero] at h1
      have hk : 2 * ((s.leaves.length - 1 : ℕ) : K) * u ≤ 1 := by
        have : ((s.leaves.length - 1 : ℕ) : K) ≤ (s.leaves.length : K) := by exact_mod_cast (by omega)
        nlinarith
      have h3 := onePlus_pow h0 hr.lt_one hk
      have h4 := (list_sum_bounds s.leaves (a := fun i => |a i|) (α := 0) (β := β) (fun i hi => ⟨abs_nonneg _, (hs i hi).2⟩))
      rw [mul_zero] at h4
      have h5 : |s.eval rd a| ≤ |s.eval rd a - (s.leaves.map a).sum| + |(s.leaves.map a).sum| := by
        have := abs_add_le (s.eval rd a - (s.leaves.map a).sum) (s.leaves.map a).sum
        rwa [sub_add_cancel] at this
      have h6 : (1 + u) ^ (s.leaves.length - 1) * (s.leaves.map (fun i => |a i|)).sum ≤ 2 * (s.leaves.map (fun i => |a i|)).sum :=
        mul_le_mul_of_nonneg_right (by linarith) h4.1
      linarith [h4.2]
    have kl := key l hl ll
    have kr := key r hr' lr
    have hsum := ml.add mr
    rw [SumTree.eval, SumTree.eval, el, er]
    refine ⟨ha _ ?_, hm _ hsum⟩
    rcases hsum.abs hg with h | h
    · exact Or.inl h
    · refine Or.inr ⟨hlo.trans h, (abs_add_le _ _).trans ?_⟩
      linarith

theorem roundedSum_agree_grid (hr : Spec.RelErr rd u) (ha : Spec.AgreeOn lo hi rd rd') (hb : Spec.Bracketing br) {g : K} (hg : 0 < g)
    (hlo : lo ≤ g) (hm : ∀ x, Spec.Multiple g x → Spec.Multiple g (rd x)) {ι : Type} {l : List ι} {b : ι → K} {β : K} (hβ : 0 ≤ β)
    (hs : ∀ i ∈ l, Spec.Multiple g (b i) ∧ |b i| ≤ β) (hlen : 2 * (l.length : K) * u ≤ 1)
    (hhi : 2 * (l.length : K) * β ≤ hi) : roundedSum br rd' (l.map b) = roundedSum br rd (l.map b) := by
  unfold roundedSum
  split
  · rfl
  · rename_i hne
    have hne' : l ≠ [] := by simpa using hne
    rw [List.length_map]
    have hp := hb l.length (List.length_pos_of_ne_nil hne')
    have hlen' : (br l.length).leaves.length = l.length := by rw [hp.length_eq, List.length_range]
    refine (tree_agree_grid hr ha hg hlo hm hβ _ (fun i hi => ?_) (by rw [hlen']; exact hlen) (by rw [hlen']; exact hhi)).1
    obtain ⟨x, hx, e⟩ := getD_map_mem (b := b) (List.mem_range.1 (hp.subset hi))
    rw [e]; exact hs x hx

/-! ### numbers on a grid -/

section
variable [FloorRing K]

theorem rhe_int (k : ℤ) : roundHalfEven (k : K) = k := by
  have := rhe_nearest (k : K) k
  rw [sub_self, abs_zero] at this
  have h := abs_eq_zero.1 (le_antisymm this (abs_nonneg _))
  exact_mod_cast (sub_eq_zero.1 h).symm

/-- Rounding keeps multiples of a power of two. -/
theorem floatRd_multiple (p : ℕ) (e : ℤ) {x : K} (h : Spec.Multiple ((2 : K) ^ e) x) : Spec.Multiple ((2 : K) ^ e) (floatRd p x) := by
  have two : (2 : K) ≠ 0 := by norm_num
  rcases le_total e (Int.log 2 |x| + 1 - (p : ℤ)) with h1 | h1
  · refine ⟨roundHalfEven (x / floatUlp p x) * 2 ^ (Int.log 2 |x| + 1 - (p : ℤ) - e).toNat, ?_⟩
    unfold floatRd
    push_cast
    rw [mul_assoc, ← zpow_natCast (2 : K) (Int.toNat _), Int.toNat_of_nonneg (by omega), ← two_zpow_add,
      show Int.log 2 |x| + 1 - (p : ℤ) - e + e = Int.log 2 |x| + 1 - (p : ℤ) by ring]
    rfl
  · obtain ⟨m, hm⟩ := h
    have e1 : x / floatUlp p x = ((m * 2 ^ (e - (Int.log 2 |x| + 1 - (p : ℤ))).toNat : ℤ) : K) := by
      rw [div_eq_iff (floatUlp_pos p x).ne']
      push_cast
      unfold floatUlp
      rw [mul_assoc, ← zpow_natCast (2 : K) (Int.toNat _), Int.toNat_of_nonneg (by omega), ← two_zpow_add]
      rw [show e - (Int.log 2 |x| + 1 - (p : ℤ)) + (Int.log 2 |x| + 1 - (p : ℤ)) = e by ring]
      exact hm
    refine ⟨m, ?_⟩
    have e2 : floatRd p x = x := by
      unfold floatRd
      rw [e1, rhe_int, ← e1, div_mul_cancel₀ _ (floatUlp_pos p x).ne']
    rw [e2]; exact hm

theorem isFloat_grid {p : ℕ} {x : K} (hx : Spec.IsFloat p x) {e : ℤ} (h : (2 : K) ^ e * 2 ^ p ≤ |x|) : Spec.Multiple ((2 : K) ^ e) x := by
  obtain ⟨m, k, hm, rfl⟩ := hx
  have hk : (0 : K) < 2 ^ k := zpow_pos (by norm_num) _
  rw [abs_mul, abs_of_pos hk] at h
  have hm' : |(m : K)| ≤ 2 ^ p := by exact_mod_cast hm
  have h1 : (2 : K) ^ e * 2 ^ p ≤ 2 ^ k * 2 ^ p := by nlinarith
  have h2 : (2 : K) ^ e ≤ 2 ^ k := le_of_mul_le_mul_right h1 (by positivity)
  have h3 : e ≤ k := (zpow_le_zpow_iff_right₀ (by norm_num : (1 : K) < 2)).1 h2
  refine ⟨m * 2 ^ (k - e).toNat, ?_⟩
  push_cast
  rw [mul_assoc, ← zpow_natCast (2 : K) (Int.toNat _), Int.toNat_of_nonneg (by omega), ← two_zpow_add, sub_add_cancel]

end

/-! ### one operation -/

/-- Room for the numbers of a triangle with amounts between `A` and `B`. -/
structure Spec.Room (n : ℕ) (A B ρ u lo hi : K) : Prop where
  n3 : 3 ≤ n
  pos : 0 < lo
  low : lo * 4 * ρ ^ n ≤ A
  high : 8 * n * B * ρ ^ n ≤ hi
  err : 2 * ((n : K) ^ 2 + 2 * n) * u ≤ 1

section room
variable {A B ρ : K}

theorem room_k (R : Spec.Room n A B ρ u lo hi) (h0 : 0 ≤ u) {k : ℕ} (hk : k ≤ n ^ 2 + 2 * n) : 2 * (k : K) * u ≤ 1 := by
  have h : (k : K) ≤ ((n ^ 2 + 2 * n : ℕ) : K) := Nat.cast_le.2 hk
  push_cast at h
  nlinarith [R.err]

theorem room_pow (hM : Spec.Moderate n c A B ρ) : 1 ≤ ρ ^ n := one_le_pow₀ hM.one_le'

theorem room_pow_le (hM : Spec.Moderate n c A B ρ) {k : ℕ} (hk : k ≤ n) : ρ ^ k ≤ ρ ^ n := pow_le_pow_right₀ hM.one_le' hk

theorem room_lo (hM : Spec.Moderate n c A B ρ) (R : Spec.Room n A B ρ u lo hi) : lo ≤ A / ρ ^ n / 4 := by
  have := room_pow hM
  rw [div_div, le_div_iff₀ (by positivity)]
  linarith [R.low]

theorem room_hi (hM : Spec.Moderate n c A B ρ) (R : Spec.Room n A B ρ u lo hi) : 24 * (B * ρ ^ n) ≤ hi := by
  have h1 : (3 : K) ≤ n := by exact_mod_cast R.n3
  have h2 : 0 ≤ B * ρ ^ n := mul_nonneg (by linarith [hM.one_le]) (by linarith [room_pow hM])
  nlinarith [R.high]

/-- A positive number whose rounded value is near one of moderate size is rounded the same. -/
theorem room_agree (hr : Spec.RelErr rd u) (ha : Spec.AgreeOn lo hi rd rd') (hM : Spec.Moderate n c A B ρ)
    (R : Spec.Room n A B ρ u lo hi) {x T : K} (hx : 0 < x) (hT : A / ρ ^ n ≤ T) (hT' : T ≤ B * ρ ^ n) {k : ℕ}
    (hk : k ≤ n ^ 2 + 2 * n) (h : Spec.Near u k T (rd x)) : rd' x = rd x := by
  have hP := room_pow hM
  have hTp : 0 < T := (div_pos hM.pos (by linarith)).trans_le hT
  obtain ⟨a1, a2⟩ := near_two hr.nonneg hr.lt_one (room_k R hr.nonneg hk) hTp (rd_pos hr hx) h
  obtain ⟨b1, b2⟩ := near_two hr.nonneg hr.lt_one (k := 1) (room_k R hr.nonneg (by nlinarith [R.n3])) hx (rd_pos hr hx) (near_rd hr hx)
  have l := room_lo hM R
  have g := room_hi hM R
  refine ha _ (Or.inr ?_)
  rw [abs_of_pos hx]
  constructor <;> linarith

/-! ### factors -/

theorem list_sum_scale {ι : Type} (l : List ι) {a b : ι → K} {s : K} (h : ∀ i ∈ l, a i ≤ s * b i) :
    (l.map a).sum ≤ s * (l.map b).sum := by
  induction l with
  | nil => simp
  | cons x l ih =>
    have h1 := ih (fun i hi => h i (List.mem_cons_of_mem _ hi))
    have h2 := h x List.mem_cons_self
    simp only [List.map_cons, List.sum_cons]
    linarith

theorem ratio_moderate (hM : Spec.Moderate n c A B ρ) {i j : ℕ} (hij : i + j + 1 < n) :
    0 < c i (j + 1) / c i j ∧ ρ⁻¹ ≤ c i (j + 1) / c i j ∧ c i (j + 1) / c i j ≤ ρ := by
  have h1 := hM.pos.trans_le (hM.lower i j (by omega))
  have h2 := hM.pos.trans_le (hM.lower i (j + 1) (by omega))
  have hρ : 0 < ρ := by linarith [hM.one_le']
  refine ⟨div_pos h2 h1, ?_, ?_⟩
  · rw [inv_eq_one_div, div_le_div_iff₀ hρ h1]; linarith [hM.down i j hij]
  · rw [div_le_iff₀ h1]; exact hM.up i j hij

theorem avgOf_moderate (hM : Spec.Moderate n c A B ρ) {kind : AvgKind} (hkind : kind = .simple ∨ kind = .weighted) (k : ℕ) {j : ℕ}
    (hj : j < n - 1) : ρ⁻¹ ≤ Spec.avgOf kind n k c j ∧ Spec.avgOf kind n k c j ≤ ρ := by
  have hne := wOrigins_ne_nil (k := k) hj
  have hm1 := List.length_pos_of_ne_nil hne
  have hlen : (0 : K) < ((wOrigins n k j).length : K) := by exact_mod_cast hm1
  have hρ : 0 < ρ := by linarith [hM.one_le']
  rcases hkind with rfl | rfl
  · have e : Spec.avgOf .simple n k c j = ((wOrigins n k j).map (fun i => c i (j + 1) / c i j)).sum /
        ((wOrigins n k j).length : K) := by
      show Spec.mean (Spec.lastN k (Spec.ratios n c j)) = _
      unfold Spec.mean Spec.ratios wOrigins
      rw [lastN_map, List.length_map]
    obtain ⟨h1, h2⟩ := list_sum_bounds (wOrigins n k j) (a := fun i => c i (j + 1) / c i j) (α := ρ⁻¹) (β := ρ)
      (fun i hi => (ratio_moderate hM (wOrigins_lt hi)).2)
    rw [e]
    constructor
    · rw [le_div_iff₀ hlen]; linarith
    · rw [div_le_iff₀ hlen]; linarith
  · have e : Spec.avgOf .weighted n k c j = ((wOrigins n k j).map (fun i => c i (j + 1))).sum /
        ((wOrigins n k j).map (fun i => c i j)).sum := rfl
    have h1 := list_sum_scale (wOrigins n k j) (a := fun i => c i (j + 1)) (b := fun i => c i j)
      (fun i hi => hM.up i j (wOrigins_lt hi))
    have h2 := list_sum_scale (wOrigins n k j) (a := fun i => c i j) (b := fun i => c i (j + 1))
      (fun i hi => hM.down i j (wOrigins_lt hi))
    have hp0 : 0 < ((wOrigins n k j).map (fun i => c i j)).sum :=
      sum_pos_of hne fun i hi => hM.pos.trans_le (hM.lower i j (by have := wOrigins_lt hi; omega))
    rw [e]
    constructor
    · rw [inv_eq_one_div, div_le_div_iff₀ hρ hp0]; linarith
    · rw [div_le_iff₀ hp0]; exact h1

theorem one_moderate (hM : Spec.Moderate n c A B ρ) (hn : 1 ≤ n) {x : K} (h1 : ρ⁻¹ ≤ x) (h2 : x ≤ ρ) :
    A / ρ ^ n ≤ x ∧ x ≤ B * ρ ^ n := by
  have hρ : 0 < ρ := by linarith [hM.one_le']
  have hp : ρ ≤ ρ ^ n := by simpa using room_pow_le hM hn
  have hB := hM.one_le
  constructor
  · refine le_trans ?_ h1
    rw [inv_eq_one_div, div_le_div_iff₀ (by positivity) hρ]
    nlinarith [hM.le_one, hM.pos]
  · nlinarith

theorem Spec.Moderate.positive (hM : Spec.Moderate n c A B ρ) : Spec.Positive n c := fun i j hij => hM.pos.trans_le (hM.lower i j hij)

theorem ratio_agree (hr : Spec.RelErr rd u) (ha : Spec.AgreeOn lo hi rd rd') (hM : Spec.Moderate n c A B ρ)
    (R : Spec.Room n A B ρ u lo hi) {i j : ℕ} (hij : i + j + 1 < n) :
    rd' (rd' (c i (j + 1) / c i j)) = rd (rd (c i (j + 1) / c i j)) := by
  have n3 := R.n3
  obtain ⟨h1, h2, h3⟩ := ratio_moderate hM hij
  obtain ⟨h4, h5⟩ := one_moderate hM (by omega) h2 h3
  have h6 := near_rd hr h1
  rw [room_agree hr ha hM R h1 h4 h5 (by nlinarith) h6]
  exact room_agree hr ha hM R (rd_pos hr h1) h4 h5 (by nlinarith) (near_rd' hr (rd_pos hr h1) h6)

theorem window_len (R : Spec.Room n A B ρ u lo hi) (h0 : 0 ≤ u) (k j : ℕ) : 2 * ((wOrigins n k j).length : K) * u ≤ 1 := by
  have := wOrigins_length (n := n) k j
  exact room_k R h0 (by nlinarith [R.n3, Nat.sub_le n (1 + j), Nat.sub_sub n 1 j])

theorem window_hi (hM : Spec.Moderate n c A B ρ) (R : Spec.Room n A B ρ u lo hi) (k j : ℕ) {β : K} (hβ0 : 0 ≤ β)
    (hβ : β ≤ 4 * (B * ρ ^ n)) : 2 * ((wOrigins n k j).length : K) * β ≤ hi := by
  have h1 := wOrigins_length (n := n) k j
  have h2 : ((wOrigins n k j).length : K) ≤ n := by exact_mod_cast h1.trans (by omega)
  have h3 : (0 : K) ≤ n := Nat.cast_nonneg n
  have := mul_le_mul h2 hβ hβ0 h3
  nlinarith [R.high]

theorem amounts_agree (hr : Spec.RelErr rd u) (ha : Spec.AgreeOn lo hi rd rd') (hb : Spec.Bracketing br) (hM : Spec.Moderate n c A B ρ)
    (R : Spec.Room n A B ρ u lo hi) (k j m : ℕ) (hm : m ≤ j + 1) : roundedSum br rd' ((wOrigins n k j).map (fun i => c i m)) =
      roundedSum br rd ((wOrigins n k j).map (fun i => c i m)) := by
  have hP := room_pow hM
  have hB := hM.one_le
  refine roundedSum_agree hr ha hb hM.pos ?_ (fun i hi => ⟨hM.lower i m (by have := wOrigins_lt hi; omega),
    hM.upper i m (by have := wOrigins_lt hi; omega)⟩) (window_len R hr.nonneg k j) (window_hi hM R k j (by linarith) (by nlinarith))
  have := R.low
  have := mul_le_mul_of_nonneg_left hP (show 0 ≤ lo * 4 by linarith [R.pos])
  linarith [R.pos]

theorem avgOfR_agree (hr : Spec.RelErr rd u) (ha : Spec.AgreeOn lo hi rd rd') (hb : Spec.Bracketing br) (hM : Spec.Moderate n c A B ρ)
    (R : Spec.Room n A B ρ u lo hi) {kind : AvgKind} (hkind : kind = .simple ∨ kind = .weighted) (k : ℕ) {j : ℕ} (hj : j < n - 1) :
    Spec.avgOfR br rd' kind n k c j = Spec.avgOfR br rd kind n k c j := by
  have n3 := R.n3
  have hP := room_pow hM
  have hB := hM.one_le
  have hρ : 0 < ρ := by linarith [hM.one_le']
  have hPρ : ρ ≤ ρ ^ n := by simpa using room_pow_le hM (k := 1) (by omega)
  obtain ⟨m1, m2⟩ := avgOf_moderate hM hkind k hj
  obtain ⟨m3, m4⟩ := one_moderate hM (by omega) m1 m2
  obtain ⟨v1, v2, v3⟩ := avgOfR_near hr hb hM.positive hkind k hj
  have hk : 2 * (n - 1 - j) + 1 ≤ n ^ 2 + 2 * n := by nlinarith [Nat.sub_le n (1 + j), Nat.sub_sub n 1 j]
  have hne := wOrigins_ne_nil (k := k) hj
  rcases hkind with rfl | rfl
  · have e1 : (wOrigins n k j).map (fun i => rd' (rd' (c i (j + 1) / c i j))) =
        (wOrigins n k j).map (fun i => rd (rd (c i (j + 1) / c i j))) :=
      List.map_congr_left fun i hi => ratio_agree hr ha hM R (wOrigins_lt hi)
    have hb2 : ∀ i ∈ wOrigins n k j, (2 * ρ)⁻¹ ≤ rd (rd (c i (j + 1) / c i j)) ∧ rd (rd (c i (j + 1) / c i j)) ≤ 2 * ρ := by
      intro i hi
      obtain ⟨h1, h2, h3⟩ := ratio_moderate hM (wOrigins_lt hi)
      obtain ⟨h4, h5⟩ := near_two hr.nonneg hr.lt_one (room_k R hr.nonneg (k := 2) (by nlinarith)) h1 (rd_pos hr (rd_pos hr h1))
        (near_rd' hr (rd_pos hr h1) (near_rd hr h1))
      rw [mul_inv]
      constructor <;> linarith
    have e2 : roundedSum br rd' ((wOrigins n k j).map (fun i => rd (rd (c i (j + 1) / c i j)))) =
        roundedSum br rd ((wOrigins n k j).map (fun i => rd (rd (c i (j + 1) / c i j)))) := by
      refine roundedSum_agree hr ha hb (by positivity) ?_ hb2 (window_len R hr.nonneg k j)
        (window_hi hM R k j (by positivity) (by nlinarith))
      have := room_lo hM R
      have := (one_moderate hM (by omega) le_rfl (show ρ⁻¹ ≤ ρ from (inv_le_one_of_one_le₀ hM.one_le').trans hM.one_le')).1
      rw [mul_inv]
      have : 0 < ρ⁻¹ := inv_pos.2 hρ
      linarith
    show rd' _ = rd _
    rw [e1, e2]
    refine room_agree hr ha hM R ?_ m3 m4 hk v3
    refine div_pos ?_ (by exact_mod_cast List.length_pos_of_ne_nil hne)
    have hp : ∀ i ∈ wOrigins n k j, 0 < rd (rd (c i (j + 1) / c i j)) := fun i hi => ratio_posR hr hM.positive i j (wOrigins_lt hi)
    exact (sum_near hr hb hne (k := 0) hp hp (fun i hi => near_refl hr.nonneg hr.lt_one (hp i hi))).2.1
  · show rd' _ = rd _
    rw [amounts_agree hr ha hb hM R k j (j + 1) le_rfl, amounts_agree hr ha hb hM R k j j (by omega)]
    refine room_agree hr ha hM R ?_ m3 m4 hk v3
    have hp1 : ∀ i ∈ wOrigins n k j, 0 < c i (j + 1) := fun i hi => hM.positive _ _ (by have := wOrigins_lt hi; omega)
    exact div_pos (sum_near hr hb hne (k := 0) hp1 hp1 (fun i hi => near_refl hr.nonneg hr.lt_one (hp1 i hi))).2.1
      (sum_posR hr hb hM.positive k j hj)

/-! ### cumulative factors and projections -/

/-- Factors between `ρ⁻¹` and `ρ`. -/
def Spec.ModerateFactors (n : ℕ) (ρ : K) (f : ℕ → K) : Prop := ∀ j < n, ρ⁻¹ ≤ f j ∧ f j ≤ ρ

variable {f f' : ℕ → K}

theorem prod_moderate (hρ : 1 ≤ ρ) (hf : Spec.ModerateFactors n ρ f) (j : ℕ) : ∀ s, j + s ≤ n →
    (ρ ^ s)⁻¹ ≤ ∏ m ∈ Finset.range s, f (j + m) ∧ ∏ m ∈ Finset.range s, f (j + m) ≤ ρ ^ s := by
  intro s
  have h0 : 0 < ρ := by linarith
  induction s with
  | zero => intro _; simp
  | succ s ih =>
    intro hs
    obtain ⟨h1, h2⟩ := ih (by omega)
    obtain ⟨h3, h4⟩ := hf (j + s) (by omega)
    have p1 : 0 < (ρ ^ s)⁻¹ := by positivity
    have p2 : 0 < ρ⁻¹ := by positivity
    rw [Finset.prod_range_succ, pow_succ, mul_inv]
    exact ⟨mul_le_mul h1 h3 p2.le (p1.le.trans h1), mul_le_mul h2 h4 (p2.le.trans h3) (by positivity)⟩

theorem scaled_moderate (hM : Spec.Moderate n c A B ρ) {a x : K} (ha : A ≤ a) (ha' : a ≤ B) {s : ℕ} (hs : s ≤ n)
    (h1 : (ρ ^ s)⁻¹ ≤ x) (h2 : x ≤ ρ ^ s) : A / ρ ^ n ≤ a * x ∧ a * x ≤ B * ρ ^ n := by
  have hρ : 0 < ρ := by linarith [hM.one_le']
  have hp := room_pow_le hM hs
  have hA := hM.pos
  have p1 : 0 < (ρ ^ s)⁻¹ := by positivity
  constructor
  · rw [div_eq_mul_inv]
    exact mul_le_mul ha ((inv_anti₀ (by positivity) hp).trans h1) (by positivity) (by linarith)
  · exact mul_le_mul ha' (h2.trans hp) (p1.le.trans h1) (by linarith [hM.one_le])

theorem tailProd_moderate (hρ : 1 ≤ ρ) (hf : Spec.ModerateFactors n ρ f) {d : ℕ} (hd : d < n) :
    (ρ ^ (d + 1))⁻¹ ≤ Spec.tailProd f n (n - 1 - d) ∧ Spec.tailProd f n (n - 1 - d) ≤ ρ ^ (d + 1) := by
  unfold Spec.tailProd
  rw [Finset.prod_Ico_eq_prod_range, show n - (n - 1 - d) = d + 1 by omega]
  exact prod_moderate hρ hf _ _ (by omega)

theorem k_tail {d : ℕ} (hd : d < n) : d ^ 2 + 3 * d + 1 ≤ n ^ 2 + 2 * n := by
  obtain ⟨m, rfl⟩ : ∃ m, n = d + 1 + m := ⟨n - (d + 1), by omega⟩
  nlinarith [Nat.zero_le (m * d), Nat.zero_le m, Nat.zero_le (m * m)]

theorem tailProdR_agree (hr : Spec.RelErr rd u) (ha : Spec.AgreeOn lo hi rd rd') (hM : Spec.Moderate n c A B ρ)
    (R : Spec.Room n A B ρ u lo hi) (hF : Spec.NearFactors u n f f') (hf : Spec.ModerateFactors n ρ f) :
    ∀ d, d < n → Spec.tailProdR rd' f' n (n - 1 - d) = Spec.tailProdR rd f' n (n - 1 - d) := by
  intro d
  induction d with
  | zero => intro hd; rw [Nat.sub_zero, tailProdR_last rd f' hd, tailProdR_last rd' f' hd]
  | succ d ih =>
    intro hd
    have h1 := ih (by omega)
    obtain ⟨a1, a2, a3⟩ := tailProd_near hr hF (d + 1) hd
    obtain ⟨b1, b2, b3⟩ := tailProd_near hr hF d (by omega)
    obtain ⟨g1, g2⟩ := tailProd_moderate hM.one_le' hf hd
    have ej : n - 1 - d = n - 1 - (d + 1) + 1 := by omega
    rw [ej] at h1 b2
    rw [tailProdR_succ rd f' (by omega)] at a3
    rw [tailProdR_succ rd f' (by omega), tailProdR_succ rd' f' (by omega), h1]
    obtain ⟨g3, g4⟩ := scaled_moderate hM hM.le_one hM.one_le hd g1 g2
    rw [one_mul] at g3 g4
    exact room_agree hr ha hM R (mul_pos b2 (hF.posR _ (by omega))) g3 g4 ((Nat.le_succ _).trans (k_tail hd)) a3

theorem ultimate_agree (hr : Spec.RelErr rd u) (ha : Spec.AgreeOn lo hi rd rd') (hM : Spec.Moderate n c A B ρ)
    (R : Spec.Room n A B ρ u lo hi) (hF : Spec.NearFactors u n f f') (hf : Spec.ModerateFactors n ρ f) {i : ℕ} (hi : i < n) {a : K}
    (h1 : A ≤ a) (h2 : a ≤ B) :
    rd' (a * Spec.tailProdR rd f' n (n - 1 - i)) = rd (a * Spec.tailProdR rd f' n (n - 1 - i)) ∧
      A / ρ ^ n / 2 ≤ rd (a * Spec.tailProdR rd f' n (n - 1 - i)) ∧ rd (a * Spec.tailProdR rd f' n (n - 1 - i)) ≤ 2 * (B * ρ ^ n) := by
  obtain ⟨a1, a2, a3⟩ := tailProd_near hr hF i hi
  obtain ⟨g1, g2⟩ := tailProd_moderate hM.one_le' hf hi
  obtain ⟨g3, g4⟩ := scaled_moderate hM h1 h2 hi g1 g2
  have hap : 0 < a := hM.pos.trans_le h1
  have hn := near_rd' hr (mul_pos hap a2) (near_mul hr.lt_one hap hap a1 a2 (near_refl hr.nonneg hr.lt_one (k := 0) hap) a3)
  rw [zero_add] at hn
  refine ⟨room_agree hr ha hM R (mul_pos hap a2) g3 g4 (k_tail hi) hn, ?_⟩
  obtain ⟨b1, b2⟩ := near_two hr.nonneg hr.lt_one (room_k R hr.nonneg (k_tail hi)) (mul_pos hap a1) (rd_pos hr (mul_pos hap a2)) hn
  constructor <;> linarith

theorem projR_agree (hr : Spec.RelErr rd u) (ha : Spec.AgreeOn lo hi rd rd') (hM : Spec.Moderate n c A B ρ)
    (R : Spec.Room n A B ρ u lo hi) (hF : Spec.NearFactors u n f f') (hf : Spec.ModerateFactors n ρ f) {i : ℕ} (hi : i < n) {a : K}
    (h1 : A ≤ a) (h2 : a ≤ B) : ∀ s, s ≤ i + 1 → Spec.projR rd' a f' (n - 1 - i) s = Spec.projR rd a f' (n - 1 - i) s := by
  have hap : 0 < a := hM.pos.trans_le h1
  intro s
  induction s with
  | zero => intro _; rfl
  | succ s ih =>
    intro hs
    obtain ⟨a1, a2, a3⟩ := proj_near hr hF hi hap s (by omega)
    rw [Spec.projR, ih (by omega), Spec.projR]
    obtain ⟨g1, g2⟩ := prod_moderate hM.one_le' hf (n - 1 - i) (s + 1) (by omega)
    obtain ⟨g3, g4⟩ := scaled_moderate hM h1 h2 (by omega) g1 g2
    by_cases e : s + 1 ≤ i
    · obtain ⟨b1, b2, b3⟩ := proj_near hr hF hi hap (s + 1) e
      rw [Spec.projR] at b3
      refine room_agree hr ha hM R (mul_pos a2 (hF.posR _ (by omega))) g3 g4 ?_ b3
      obtain ⟨q, rfl⟩ : ∃ q, i = s + 1 + q := ⟨i - (s + 1), by omega⟩
      rw [show 2 * (s + 1 + q) + 3 - (s + 1) = s + 2 * q + 4 by omega]
      have := k_tail hi
      nlinarith
    · obtain rfl : s = i := by omega
      have b3 := sqrUlt_near hr hF hi hap
      rw [Spec.projR] at b3
      refine room_agree hr ha hM R (mul_pos a2 (hF.posR _ (by omega))) ?_ ?_ (k_tail hi) b3
      · obtain ⟨g5, g6⟩ := tailProd_moderate hM.one_le' hf hi
        exact (scaled_moderate hM h1 h2 hi g5 g6).1
      · obtain ⟨g5, g6⟩ := tailProd_moderate hM.one_le' hf hi
        exact (scaled_moderate hM h1 h2 hi g5 g6).2

theorem emergence_agree (hr : Spec.RelErr rd u) (ha : Spec.AgreeOn lo hi rd rd') (hM : Spec.Moderate n c A B ρ)
    (R : Spec.Room n A B ρ u lo hi) (hF : Spec.NearFactors u n f f') (hf : Spec.ModerateFactors n ρ f) {d : ℕ} (hd : d < n) :
    Spec.tailProdR rd f' n (n - 1 - d) ≠ 0 ∧
      rd' (1 / Spec.tailProdR rd f' n (n - 1 - d)) = rd (1 / Spec.tailProdR rd f' n (n - 1 - d)) := by
  obtain ⟨a1, a2, a3⟩ := tailProd_near hr hF d hd
  obtain ⟨g1, g2⟩ := tailProd_moderate hM.one_le' hf hd
  have hρ : 0 < ρ := by linarith [hM.one_le']
  have i1 : (ρ ^ (d + 1))⁻¹ ≤ (Spec.tailProd f n (n - 1 - d))⁻¹ := inv_anti₀ a1 g2
  have i2 : (Spec.tailProd f n (n - 1 - d))⁻¹ ≤ ρ ^ (d + 1) := inv_le_of_inv_le₀ (by positivity) g1
  obtain ⟨g3, g4⟩ := scaled_moderate hM hM.le_one hM.one_le hd i1 i2
  rw [one_mul] at g3 g4
  refine ⟨a2.ne', ?_⟩
  rw [one_div]
  exact room_agree hr ha hM R (inv_pos.2 a2) g3 g4 (k_tail hd) (near_rd' hr (inv_pos.2 a2) (near_inv a1 a2 a3))

end room

/-! ### results -/

theorem serGet_cases {s : Ser K} {m : ℕ} {g : ℕ → K} (h : s.map Prod.snd = (List.range m).map (fun j => Num.fin (g j))) (d : Int) :
    Ser.get s d = .nan ∨ ∃ j < m, Ser.get s d = .fin (g j) := by
  unfold Ser.get
  cases e : s.find? (fun p => p.1 == d) with
  | none => exact Or.inl rfl
  | some q =>
    right
    have h1 : q.2 ∈ s.map Prod.snd := List.mem_map_of_mem (List.mem_of_find?_eq_some e)
    rw [h, List.mem_map] at h1
    obtain ⟨j, hj, e2⟩ := h1
    exact ⟨j, List.mem_range.1 hj, e2.symm⟩

theorem ser_ext {s s' : Ser K} (h1 : s'.map Prod.fst = s.map Prod.fst) (h2 : s'.map Prod.snd = s.map Prod.snd) : s' = s :=
  (List.zip_of_prod h1 h2).trans (List.zip_of_prod rfl rfl).symm

section main
variable [FloorRing K] {A B ρ : K} {p : ℕ} {f f' : ℕ → K}

/-- A unit that divides every amount of size at least `M`. -/
theorem exists_grid (p : ℕ) {M : K} (hM : 0 < M) : ∃ e : ℤ, (2 : K) ^ e * 2 ^ p ≤ M ∧ M < (2 : K) ^ e * 2 ^ p * 2 := by
  have h2 : (0 : K) < 2 ^ p := by positivity
  have hq : 0 < M / 2 ^ p := div_pos hM h2
  have a := log_le_abs hq.ne'
  have b := abs_lt_log (M / 2 ^ p)
  rw [abs_of_pos hq] at a b
  refine ⟨Int.log 2 (M / 2 ^ p), ?_, ?_⟩
  · rwa [le_div_iff₀ h2] at a
  · rw [two_zpow_add, zpow_one, div_lt_iff₀ h2] at b
    linarith

theorem reserve_agree (hp : 1 ≤ p) {M N : K} (hM : 0 < M) (hlo : lo * 2 ^ p * 2 ≤ M) (hhi : 2 * N ≤ hi)
    (ha : Spec.AgreeOn lo hi (floatRd p) rd') : ∃ g : K, 0 < g ∧ lo ≤ g ∧
      (∀ x, Spec.Multiple g x → Spec.Multiple g (floatRd p x)) ∧ ∀ U L : K, Spec.IsFloat p U → Spec.IsFloat p L → M ≤ U → M ≤ L → U ≤ N → L ≤ N →
      rd' (U - L) = floatRd p (U - L) ∧ Spec.Multiple g (floatRd p (U - L)) ∧ |floatRd p (U - L)| ≤ 2 * N := by
  obtain ⟨e, h1, h2⟩ := exists_grid p hM
  have hg : (0 : K) < 2 ^ e := zpow_pos (by norm_num) _
  have h2p : (0 : K) < 2 ^ p := by positivity
  have hlg : lo ≤ (2 : K) ^ e := by
    have : lo * (2 ^ p * 2) ≤ (2 : K) ^ e * (2 ^ p * 2) := by linarith
    exact le_of_mul_le_mul_right this (by positivity)
  refine ⟨2 ^ e, hg, hlg, fun x hx => floatRd_multiple p e hx, ?_⟩
  intro U L hU hL mU mL nU nL
  have gU := isFloat_grid hU (e := e) (by rw [abs_of_pos (hM.trans_le mU)]; linarith)
  have gL := isFloat_grid hL (e := e) (by rw [abs_of_pos (hM.trans_le mL)]; linarith)
  have gd := gU.sub gL
  have hd : |U - L| ≤ N := by rw [abs_le]; constructor <;> linarith
  refine ⟨ha _ ?_, floatRd_multiple p e gd, ?_⟩
  · rcases gd.abs hg with h | h
    · exact Or.inl h
    · exact Or.inr ⟨hlg.trans h, by linarith⟩
  · have hr := floatRd_relErr (K := K) hp
    have := hr.err (U - L)
    have := abs_add_le (floatRd p (U - L) - (U - L)) (U - L)
    rw [sub_add_cancel] at this
    have := mul_le_mul_of_nonneg_right hr.lt_one.le (abs_nonneg (U - L))
    linarith

theorem sameNumbers_core (hp : 1 ≤ p) (hM : Spec.Moderate n c A B ρ) (hfl : ∀ i j, i + j < n → Spec.IsFloat p (c i j))
    (hb : Spec.Bracketing br) (R : Spec.Room n A B ρ ((2 : K) ^ (-(p : ℤ))) lo hi) (hlo : lo * (4 * 2 ^ p) * ρ ^ n ≤ A)
    (ha : Spec.AgreeOn lo hi (floatRd p) rd') (hF : Spec.NearFactors ((2 : K) ^ (-(p : ℤ))) n f f') (hf : Spec.ModerateFactors n ρ f)
    {l : Ser K} {r r' : BaseResult K} (s : Spec.BaseSpecR br (floatRd p) t n c f' l r) (s' : Spec.BaseSpecR br rd' t n c f' l r') :
    Spec.SameNumbers n r r' := by
  have hr := floatRd_relErr (K := K) hp
  have n3 := R.n3
  have hP := room_pow hM
  have hB := hM.one_le
  have hA := hM.pos
  have hn0 : (0 : K) ≤ n := Nat.cast_nonneg n
  have hBP : B ≤ B * ρ ^ n := by nlinarith
  have hAP : A / ρ ^ n ≤ A := div_le_self hA.le hP
  have hAP0 : 0 < A / ρ ^ n := by positivity
  have htp : ∀ j < n, Spec.tailProdR rd' f' n j = Spec.tailProdR (floatRd p) f' n j := by
    intro j hj
    have := tailProdR_agree hr ha hM R hF hf (n - 1 - j) (by omega)
    rwa [show n - 1 - (n - 1 - j) = j by omega] at this
  have hL : ∀ i < n, A ≤ c i (n - 1 - i) ∧ c i (n - 1 - i) ≤ B := fun i hi => ⟨hM.lower _ _ (by omega), hM.upper _ _ (by omega)⟩
  have hU : ∀ i < n, rd' (c i (n - 1 - i) * Spec.tailProdR rd' f' n (n - 1 - i)) =
      floatRd p (c i (n - 1 - i) * Spec.tailProdR (floatRd p) f' n (n - 1 - i)) := by
    intro i hi
    rw [htp _ (by omega)]
    exact (ultimate_agree hr ha hM R hF hf hi (hL i hi).1 (hL i hi).2).1
  have hUb := fun i (hi : i < n) => (ultimate_agree hr ha hM R hF hf hi (hL i hi).1 (hL i hi).2).2
  have hbig : 2 * (2 * (B * ρ ^ n)) ≤ hi := by linarith [room_hi hM R, mul_nonneg (show 0 ≤ B by linarith) (show 0 ≤ ρ ^ n by linarith)]
  obtain ⟨g, hg, hlg, hmul, hres⟩ := reserve_agree hp (M := A / ρ ^ n / 2) (N := 2 * (B * ρ ^ n)) (by positivity)
    (by rw [div_div, le_div_iff₀ (by positivity)]; linarith) hbig ha
  have hRes := fun i (hi : i < n) => hres (floatRd p (c i (n - 1 - i) * Spec.tailProdR (floatRd p) f' n (n - 1 - i)))
    (c i (n - 1 - i)) (floatRd_isFloat p _) (hfl i (n - 1 - i) (by omega)) (hUb i hi).1 (by linarith [(hL i hi).1])
    (hUb i hi).2 (by linarith [(hL i hi).2])
  have hcl : r'.cldfs = r.cldfs := by
    refine ser_ext (s'.cldfs_labels.trans s.cldfs_labels.symm) ?_
    rw [s'.cldfs_values, s.cldfs_values]
    exact List.map_congr_left fun j hj => by rw [htp j (List.mem_range.1 hj)]
  have hlen : 2 * ((List.range n).length : K) * 2 ^ (-(p : ℤ)) ≤ 1 := by
    rw [List.length_range]; exact room_k R hr.nonneg (by nlinarith)
  refine ⟨s'.factors.trans s.factors.symm, hcl, ?_, ?_, ?_, ?_, ?_, ?_⟩
  · apply List.ext_getElem?
    intro i
    by_cases hi : i < n
    · obtain ⟨row, a1, a2, a3, a4, a5, a6, a7, a8⟩ := s.rows i hi
      obtain ⟨row', b1, b2, b3, b4, b5, b6, b7, b8⟩ := s'.rows i hi
      rw [a1, b1]
      have e4 : row'.cldf = row.cldf := by rw [b4, a4, hcl]
      have e5 : row'.emergence = row.emergence := by
        rw [b5, a5, e4]
        rcases serGet_cases s.cldfs_values (t.dAt (n - 1 - i)) with e | ⟨j, hj, e⟩
        · rw [a4, e]; rfl
        · obtain ⟨g1, g2⟩ := emergence_agree hr ha hM R hF hf (d := n - 1 - j) (by omega)
          rw [show n - 1 - (n - 1 - j) = j by omega] at g1 g2
          rw [a4, e, show (1 : Num K) = Num.fin 1 from rfl, Num.fin_div _ _ g1]
          simp only [Num.rounded]
          rw [g2]
      have e7 : row'.ultimate = row.ultimate := by rw [b7, a7, hU i hi]
      have e8 : row'.reserve = row.reserve := by rw [b8, a8, hU i hi, (hRes i hi).1]
      have e6 : row'.latest = row.latest := by rw [b6, a6]
      have e2 : row'.origin = row.origin := by rw [b2, a2]
      have e3 : row'.maturity = row.maturity := by rw [b3, a3]
      cases row
      cases row'
      simp only at e2 e3 e4 e5 e6 e7 e8
      rw [e2, e3, e4, e5, e6, e7, e8]
    · rw [List.getElem?_eq_none (by rw [s'.rows_length]; omega), List.getElem?_eq_none (by rw [s.rows_length]; omega)]
  · rw [s'.totLatest, s.totLatest]
    congr 1
    refine roundedSum_agree hr ha hb hA (by linarith [room_lo hM R]) (fun i hi => hL i (List.mem_range.1 hi)) hlen ?_
    rw [List.length_range]
    nlinarith [R.high, mul_le_mul_of_nonneg_left hBP hn0, mul_nonneg hn0 (show 0 ≤ B by linarith)]
  · rw [s'.totUltimate, s.totUltimate, List.map_congr_left fun i hi => hU i (List.mem_range.1 hi)]
    congr 1
    refine roundedSum_agree hr ha hb (α := A / ρ ^ n / 2) (by positivity) (by linarith [room_lo hM R])
      (fun i hi => hUb i (List.mem_range.1 hi)) hlen ?_
    rw [List.length_range]
    nlinarith [R.high, mul_nonneg hn0 (show 0 ≤ B * ρ ^ n by nlinarith)]
  · rw [s'.totReserve, s.totReserve]
    rw [List.map_congr_left (f := fun i => rd' (rd' (c i (n - 1 - i) * Spec.tailProdR rd' f' n (n - 1 - i)) - c i (n - 1 - i)))
      (g := fun i => floatRd p (floatRd p (c i (n - 1 - i) * Spec.tailProdR (floatRd p) f' n (n - 1 - i)) - c i (n - 1 - i)))
      fun i hi => by rw [hU i (List.mem_range.1 hi), (hRes i (List.mem_range.1 hi)).1]]
    congr 1
    refine roundedSum_agree_grid hr ha hb hg hlg hmul (β := 2 * (2 * (B * ρ ^ n))) (by nlinarith)
      (fun i hi => (hRes i (List.mem_range.1 hi)).2) hlen ?_
    rw [List.length_range]
    linarith [R.high]
  · rw [s'.sqr_ultimate, s.sqr_ultimate]
    refine List.map_congr_left fun i hi => ?_
    have hi := List.mem_range.1 hi
    rw [projR_agree hr ha hM R hF hf hi (hL i hi).1 (hL i hi).2 (i + 1) le_rfl]
  · intro i hi j hj
    rw [s'.sqr_cells i hi j hj, s.sqr_cells i hi j hj]
    split
    · rfl
    · rw [projR_agree hr ha hM R hF hf hi (hL i hi).1 (hL i hi).2 _ (by omega)]

/-- **C197.** Limits of the exponent do not matter to `base_cl`.  Positive staircase with `n ≥ 3` periods, simple or
weighted averages over all or the last `k` origins, amounts with `p` binary digits between `A` and `B`, amounts of
consecutive periods and the tail factor at most a factor `ρ` apart.  Every rounding that agrees with rounding to `p`
binary digits on numbers of size between `lo` and `hi` gives the same results, whatever it does elsewhere, if `lo` is at
most `A / (2^(p+2) ρ^n)` and `hi` is at least `8 n B ρ^n`. -/
theorem C197_same (gm : List (Num K) → Num K) (h : Spec.Stair t n c) (hp : 1 ≤ p) (hn : 3 ≤ n) (hM : Spec.Moderate n c A B ρ)
    (hfl : ∀ i j, i + j < n → Spec.IsFloat p (c i j)) (hb : Spec.Bracketing br)
    (hu : 2 * ((n : K) ^ 2 + 2 * n) ≤ 2 ^ p) (hlo0 : 0 < lo) (hlo : lo * (4 * 2 ^ p) * ρ ^ n ≤ A) (hhi : 8 * n * B * ρ ^ n ≤ hi)
    (ha : Spec.AgreeOn lo hi (floatRd p) rd') {kind : AvgKind} (hkind : kind = .simple ∨ kind = .weighted) {k : ℕ} (hk : k < n - 1)
    {tail : K} (ht : ρ⁻¹ ≤ tail) (ht' : tail ≤ ρ) :
    ∃ r r', baseCLR br (floatRd p) gm t t.a2aind0 (Spec.avgName kind.name k) (.fin tail) = .ok r ∧
      baseCLR br rd' gm t t.a2aind0 (Spec.avgName kind.name k) (.fin tail) = .ok r' ∧ Spec.SameNumbers n r r' := by
  have hr := floatRd_relErr (K := K) hp
  have hpos := hM.positive
  have hP := room_pow hM
  have hρ : 0 < ρ := by linarith [hM.one_le']
  have h2p : (1 : K) ≤ 2 ^ p := one_le_pow₀ (by norm_num)
  have R : Spec.Room n A B ρ ((2 : K) ^ (-(p : ℤ))) lo hi := by
    refine ⟨hn, hlo0, ?_, hhi, ?_⟩
    · have : lo * 4 * ρ ^ n * 1 ≤ lo * 4 * ρ ^ n * 2 ^ p := mul_le_mul_of_nonneg_left h2p (by positivity)
      linarith
    · have h3 : (0 : K) < 2 ^ p := by positivity
      rw [zpow_neg, zpow_natCast, ← div_eq_mul_inv, div_le_one h3]
      exact hu
  have htp : 0 < tail := (inv_pos.2 hρ).trans_le ht
  have hfac := fun j (hj : j < n - 1) => avgOfR_near hr hb hpos hkind k hj
  have hff : Spec.withTail (Spec.avgOfR br rd' kind n k c) n tail = Spec.withTail (Spec.avgOfR br (floatRd p) kind n k c) n tail := by
    funext j
    unfold Spec.withTail
    split
    · exact avgOfR_agree hr ha hb hM R hkind k (by omega)
    · rfl
  have hF : Spec.NearFactors ((2 : K) ^ (-(p : ℤ))) n (Spec.withTail (Spec.avgOf kind n k c) n tail)
      (Spec.withTail (Spec.avgOfR br (floatRd p) kind n k c) n tail) := by
    unfold Spec.withTail
    refine ⟨fun j hj => ?_, fun j hj => ?_, fun j hj => ?_, ?_⟩
    · split
      · exact (hfac j (by omega)).1
      · exact htp
    · split
      · exact (hfac j (by omega)).2.1
      · exact htp
    · rw [if_pos hj, if_pos hj]; exact (hfac j (by omega)).2.2
    · rw [if_neg (by omega), if_neg (by omega)]
  have hf : Spec.ModerateFactors n ρ (Spec.withTail (Spec.avgOf kind n k c) n tail) := by
    intro j hj
    unfold Spec.withTail
    split
    · exact avgOf_moderate hM hkind k (by omega)
    · exact ⟨ht, ht'⟩
  obtain ⟨r, lab, r1, r2, r3, r4, r5⟩ := baseCLR_stair gm h hpos hn (ratio_posR hr hpos)
    (fun k j hj => sum_posR hr hb hpos k j hj) hkind hk tail
  obtain ⟨r', lab', s1, s2, s3, s4, s5⟩ := baseCLR_stair (rd := rd') gm h hpos hn
    (fun i j hij => by rw [ratio_agree hr ha hM R hij]; exact ratio_posR hr hpos i j hij)
    (fun k j hj => by rw [amounts_agree hr ha hb hM R k j j (by omega)]; exact sum_posR hr hb hpos k j hj) hkind hk tail
  rw [hff] at s4 s5
  have hl : r'.ldfs = r.ldfs := by
    rw [r2] at s2
    injection s2 with e
    refine ser_ext (by rw [s3, r3, e]) ?_
    unfold LdfVals at s4 r4
    rw [s4, r4]
  rw [hl] at s5
  exact ⟨r, r', r1, s1, sameNumbers_core hp hM hfl hb R hlo ha hF hf r5 s5⟩

/-- **C197 for double precision.** At most 80 periods, amounts between 2⁻²⁰ and 2⁶⁰, amounts of consecutive periods and
the tail factor at most a factor 1000 apart: no result depends on how numbers below 2⁻¹⁰²² or above 2¹⁰²³ are rounded. -/
theorem C197_double (gm : List (Num K) → Num K) (h : Spec.Stair t n c) (hn : 3 ≤ n) (hn' : n ≤ 80)
    (hM : Spec.Moderate n c (2 ^ (-20 : ℤ)) (2 ^ (60 : ℕ)) 1000)
    (hfl : ∀ i j, i + j < n → Spec.IsFloat 53 (c i j)) (hb : Spec.Bracketing br)
    (ha : Spec.AgreeOn ((2 : K) ^ (-1022 : ℤ)) (2 ^ (1023 : ℕ)) (floatRd 53) rd') {kind : AvgKind}
    (hkind : kind = .simple ∨ kind = .weighted) {k : ℕ} (hk : k < n - 1) {tail : K} (ht : 1 / 1000 ≤ tail) (ht' : tail ≤ 1000) :
    ∃ r r', baseCLR br (floatRd 53) gm t t.a2aind0 (Spec.avgName kind.name k) (.fin tail) = .ok r ∧
      baseCLR br rd' gm t t.a2aind0 (Spec.avgName kind.name k) (.fin tail) = .ok r' ∧ Spec.SameNumbers n r r' := by
  have hn3 : (n : K) ≤ 80 := by exact_mod_cast hn'
  have hn0 : (0 : K) ≤ n := Nat.cast_nonneg n
  have hpw : (1000 : K) ^ n ≤ 2 ^ 800 := by
    calc (1000 : K) ^ n ≤ 1024 ^ n := pow_le_pow_left₀ (by norm_num) (by norm_num) n
      _ = 2 ^ (10 * n) := by rw [pow_mul]; norm_num
      _ ≤ 2 ^ 800 := pow_le_pow_right₀ (by norm_num) (by omega)
  refine C197_same gm h (by norm_num) hn hM hfl hb (by nlinarith) (zpow_pos (by norm_num) _) ?_ ?_ ha hkind hk
    (by rw [inv_eq_one_div]; exact ht) ht'
  · have e : (2 : K) ^ (-1022 : ℤ) * (4 * 2 ^ 53) * 2 ^ 800 ≤ 2 ^ (-20 : ℤ) := by
      rw [show (4 : K) * 2 ^ 53 = 2 ^ (55 : ℤ) by norm_num, show (2 : K) ^ (800 : ℕ) = 2 ^ (800 : ℤ) from (zpow_natCast 2 800).symm,
        ← two_zpow_add, ← two_zpow_add]
      exact zpow_le_zpow_right₀ (by norm_num) (by norm_num)
    have hz : (0 : K) < 2 ^ (-1022 : ℤ) := zpow_pos (by norm_num) _
    exact (mul_le_mul_of_nonneg_left hpw (by positivity)).trans e
  · calc 8 * (n : K) * 2 ^ 60 * 1000 ^ n ≤ 8 * 80 * 2 ^ 60 * 2 ^ 800 := by
          refine mul_le_mul ?_ hpw (by positivity) (by positivity)
          nlinarith
      _ ≤ 2 ^ 10 * 2 ^ 60 * 2 ^ 800 := by
          refine mul_le_mul_of_nonneg_right ?_ (by positivity)
          norm_num
      _ = 2 ^ 870 := by rw [← pow_add, ← pow_add]
      _ ≤ 2 ^ 1023 := pow_le_pow_right₀ (by norm_num) (by norm_num)

end main

/-! ### example -/

/-- Rounding that loses every number outside a range. -/
def flushRd (lo hi : ℚ) (x : ℚ) : ℚ := if x = 0 ∨ (lo ≤ |x| ∧ |x| ≤ hi) then floatRd 53 x else 0

/-- The example triangle in double precision. -/
example (kind : AvgKind) (hkind : kind = .simple ∨ kind = .weighted) :
    ∃ r r', baseCLR (fun n => seqTree (n - 1)) (floatRd 53) (fun _ => .nan) exTri exTri.a2aind0 (Spec.avgName kind.name 0) (.fin 1) =
        .ok r ∧
      baseCLR (fun n => seqTree (n - 1)) (flushRd (2 ^ (-1022 : ℤ)) (2 ^ (1023 : ℕ))) (fun _ => .nan) exTri exTri.a2aind0
        (Spec.avgName kind.name 0) (.fin 1) = .ok r' ∧ Spec.SameNumbers 4 r r' := by
  have hM : Spec.Moderate 4 exVals (2 ^ (-20 : ℤ)) (2 ^ (60 : ℕ)) 1000 := by
    have h : ∀ i < 4, ∀ j < 4, i + j < 4 → (1 : ℚ) ≤ exVals i j ∧ exVals i j ≤ 1000 ∧ (i + j + 1 < 4 →
        exVals i (j + 1) ≤ 1000 * exVals i j ∧ exVals i j ≤ 1000 * exVals i (j + 1)) := by decide +kernel
    refine ⟨by norm_num, by norm_num, by norm_num, by norm_num, fun i j hij => ?_, fun i j hij => ?_, fun i j hij => ?_, fun i j hij => ?_⟩
    · have := (h i (by omega) j (by omega) hij).1
      norm_num
      linarith
    · have := (h i (by omega) j (by omega) hij).2.1
      norm_num
      linarith
    · exact ((h i (by omega) j (by omega) (by omega)).2.2 hij).1
    · exact ((h i (by omega) j (by omega) (by omega)).2.2 hij).2
  refine C197_double (fun _ => .nan) exTri_stair (by norm_num) (by norm_num) hM ?_ ?_ (fun x hx => if_pos hx) hkind (by norm_num)
    (by norm_num) (by norm_num)
  · intro i j hij
    have h : ∀ i < 4, ∀ j < 4, exVals i j = ((exVals i j).num.toNat : ℚ) ∧ (exVals i j).num.toNat ≤ 2 ^ 53 := by decide +kernel
    obtain ⟨h1, h2⟩ := h i (by omega) j (by omega)
    rw [h1]
    exact isFloat_nat h2
  · intro n hn
    have := seqTree_leaves (n - 1)
    rw [this, show n - 1 + 1 = n by omega]

/-- With a range that ends at 200 the total of the latest amounts is lost. -/
example : ((baseCLR (fun n => seqTree (n - 1)) (floatRd 53) (fun _ => .nan) exTri exTri.a2aind0 "all-weighted"
      (.fin 1)).map (fun r => r.totLatest)).toOption ≠
    ((baseCLR (fun n => seqTree (n - 1)) (flushRd (1 / 1000) 200) (fun _ => .nan) exTri exTri.a2aind0 "all-weighted"
      (.fin 1)).map (fun r => r.totLatest)).toOption := by
  decide +kernel

end Trikit
