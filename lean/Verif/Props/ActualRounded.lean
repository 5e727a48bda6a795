import Verif.Props.ActualExpected

/-!
# C231: actual against expected development in double precision

The two evaluations of C227 (`base_cl` with given factors, base.py:97-170), every operation rounded to double precision as in
C222.
-/

set_option linter.unusedSectionVars false

namespace Trikit

section
variable {K : Type} [Field K] [LinearOrder K] [IsStrictOrderedRing K] [FloorRing K]
variable {br : ℕ → SumTree} {t t' : Tri K} {n : ℕ} {c c' : ℕ → ℕ → K}

/-- Product of the factors of the periods `a, …, n - 1`, the last of them the tail. -/
def Spec.toCome (sel : List K) (tail : K) (n a : ℕ) : K := ∏ j ∈ Finset.Ico a n, (sel ++ [tail]).getD j 1

/-- **C231.** Any two staircases of `n` and `n + 1` origins, any factors and tail: in double precision the ultimate of old
origin `i` moves by the actual less the expected amount times the factors to come, up to `(i + 1) 2⁻⁵²` of the two exact
ultimates; and when the exact movement is larger than that, the computed ultimate moves in the right direction. -/
theorem C231_float64 (h : Spec.Stair t n c) (h' : Spec.Stair t' (n + 1) c') (hn : 1 ≤ n) (hn' : n < 2 ^ 52)
    (hb : Spec.Bracketing br) {sel : List K} (hs : sel.length = n - 1) (tail : K) :
    ∃ r r', baseCLArrayR br (floatRd 53) t (sel.map .fin) (.fin tail) = .ok r ∧
      baseCLArrayR br (floatRd 53) t' ((sel ++ [tail]).map .fin) (.fin 1) = .ok r' ∧
      ∀ i < n, ∃ (row row' : SummRow K) (U U' : K), r.rows[i]? = some row ∧ r'.rows[i]? = some row' ∧
        row.ultimate = .fin U ∧ row'.ultimate = .fin U' ∧
        ∀ E A g : K, E = c i (n - 1 - i) * (sel ++ [tail]).getD (n - 1 - i) 1 → A = c' i (n - i) →
          g = Spec.toCome sel tail n (n - i) →
          |(U' - U) - (A - E) * g| ≤ (i + 1) * 2 ^ (-52 : ℤ) * (|E * g| + |A * g|) ∧
          ((i + 1) * 2 ^ (-52 : ℤ) * (|E * g| + |A * g|) < (A - E) * g → U < U') ∧
          ((i + 1) * 2 ^ (-52 : ℤ) * (|E * g| + |A * g|) < (E - A) * g → U' < U) := by
  obtain ⟨x, r, x1, r1, hx⟩ := C222_float64 h hn (by omega) hb hs tail
  obtain ⟨x', r', x1', r1', hx'⟩ := C222_float64 h' (by omega) (by omega) hb (sel := sel ++ [tail]) (by simp [hs]; omega) 1
  obtain ⟨e1, _, e3⟩ := array_vals h hn hs tail
  obtain ⟨y, s1, s2⟩ := base_core h hn e3
  obtain ⟨e1', _, e3'⟩ := array_vals h' (by omega) (sel := sel ++ [tail]) (by simp [hs]; omega) 1
  obtain ⟨y', s1', s2'⟩ := base_core h' (by omega) e3'
  obtain rfl : x = y := by
    unfold baseCLArray at x1; rw [e1] at x1; exact Except.ok.inj (x1.symm.trans s1)
  obtain rfl : x' = y' := by
    unfold baseCLArray at x1'; rw [e1'] at x1'; exact Except.ok.inj (x1'.symm.trans s1')
  have hlen : (sel ++ [tail]).length = n := by simp [hs]; omega
  have hT : ∀ a ≤ n, Spec.tailProd (fun j => (sel ++ [tail] ++ [1]).getD j 1) (n + 1) a = Spec.toCome sel tail n a :=
    fun a ha => tailProd_next (f := fun j => (sel ++ [tail]).getD j 1)
      (fun j hj => by
        rw [List.getD_eq_getElem?_getD, List.getD_eq_getElem?_getD, List.getElem?_append_left (by omega)])
      (by
        rw [List.getD_eq_getElem?_getD, List.getElem?_append_right (by omega), hlen, Nat.sub_self]
        rfl) ha
  refine ⟨r, r', r1, r1', fun i hi => ?_⟩
  obtain ⟨w, row, W, U, a1, a2, a3, a4, a5⟩ := hx i hi
  obtain ⟨w', row', W', U', b1, b2, b3, b4, b5⟩ := hx' i (by omega)
  refine ⟨row, row', U, U', a2, b2, a4, b4, fun E A g hE hA hg => ?_⟩
  have hW : W = E * g := by
    obtain ⟨v, k1, _, _, _, _, _, k7, _⟩ := s2.rows i hi
    obtain rfl : v = w := Option.some.inj (k1.symm.trans a1)
    rw [Num.fin.inj (a3.symm.trans k7), hE, hg, Spec.tailProd_succ _ (by omega), show n - 1 - i + 1 = n - i by omega,
      mul_assoc]
    rfl
  have hW' : W' = A * g := by
    obtain ⟨v, k1, _, _, _, _, _, k7, _⟩ := s2'.rows i (by omega)
    obtain rfl : v = w' := Option.some.inj (k1.symm.trans b1)
    rw [Num.fin.inj (b3.symm.trans k7), hA, hg, show n + 1 - 1 - i = n - i by omega, hT _ (by omega)]
  rw [hW] at a5
  rw [hW'] at b5
  rw [abs_le] at a5 b5
  have hd : (i + 1 : K) * 2 ^ (-52 : ℤ) * (|E * g| + |A * g|) =
      (i + 1) * 2 ^ (-52 : ℤ) * |E * g| + (i + 1) * 2 ^ (-52 : ℤ) * |A * g| := by ring
  rw [hd, sub_mul, sub_mul]
  refine ⟨abs_le.2 ⟨?_, ?_⟩, fun hq => ?_, fun hq => ?_⟩ <;> linarith [a5.1, a5.2, b5.1, b5.2]

end

/-- The triangles of C227. -/
def exActual (i j : ℕ) : ℚ := ([[100, 150, 200, 210], [130, 200, 230], [100, 140], [120]].getD i []).getD j 0

/-- A concrete case: the two evaluations of C227 with factors 3/2, 9/8, 9/8 and only eight binary digits; the ultimate of the second
origin rises by 5 instead of 45/8, that of the youngest old one falls by 13 instead of 405/32. -/
example :
    ((baseCLArrayR (fun n => seqTree (n - 1)) (floatRd 8) (stairTri 3 exActual) [.fin (3/2), .fin (9/8)] (.fin (9/8))).map
      (fun r => r.rows.map (fun x => x.ultimate))).toOption = some [.fin 225, .fin 253, .fin 190] ∧
    ((baseCLArrayR (fun n => seqTree (n - 1)) (floatRd 8) (stairTri 4 exActual) [.fin (3/2), .fin (9/8), .fin (9/8)]
      (.fin 1)).map (fun r => r.rows.map (fun x => x.ultimate))).toOption =
      some [.fin 210, .fin 258, .fin 177, .fin 228] := by decide +kernel

end Trikit
