import Mathlib.Algebra.Order.Field.Basic
import Mathlib.Algebra.BigOperators.Group.List.Basic
import Mathlib.Tactic.Ring
import Mathlib.Tactic.Linarith

/-!
# Float-like numbers without rounding

`Num K` models the values stored in a pandas `float64` column: NaN, the two infinities and the
finite numbers.  Finite arithmetic is exact (simplification: no rounding, no overflow, no signed
zero).  The tables below are the IEEE 754 rules that numpy follows with warnings only (division by
zero never raises for numpy floats).

`PyErr` lists the Python exception classes that the modelled code can raise.
-/

set_option linter.unusedSectionVars false

namespace Trikit

/-- Python exception classes raised by the modelled code. -/
inductive PyErr
  | typeError | valueError | keyError | indexError | nameError | attributeError
  | unboundLocalError | notImplementedError
  deriving DecidableEq, Repr

deriving instance DecidableEq for Except

/-- A float64 value: NaN, +inf, -inf or a finite number (exact). -/
inductive Num (K : Type) where
  | nan : Num K
  | pinf : Num K
  | ninf : Num K
  | fin (x : K) : Num K
  deriving DecidableEq, Repr

namespace Num

variable {K : Type}

/-- `np.isnan`. -/
def isNaN : Num K → Bool
  | nan => true
  | _ => false

/-- The finite value, when there is one (specification side only). -/
def toFin : Num K → Option K
  | fin x => some x
  | _ => none

/-- `v.isFin` holds for finite values. -/
def isFin : Num K → Bool
  | fin _ => true
  | _ => false

section ops
variable [Field K] [LinearOrder K]

/-- IEEE addition (numpy `+`). -/
def add : Num K → Num K → Num K
  | nan, _ => nan
  | _, nan => nan
  | pinf, ninf => nan
  | ninf, pinf => nan
  | pinf, _ => pinf
  | _, pinf => pinf
  | ninf, _ => ninf
  | _, ninf => ninf
  | fin x, fin y => fin (x + y)

/-- IEEE negation. -/
def neg : Num K → Num K
  | nan => nan
  | pinf => ninf
  | ninf => pinf
  | fin x => fin (-x)

/-- An infinity carrying the sign of `x`; `0` gives NaN (`inf * 0`). -/
def infTimes (x : K) : Num K :=
  if x = 0 then nan else if 0 < x then pinf else ninf

/-- IEEE multiplication (numpy `*`). -/
def mul : Num K → Num K → Num K
  | nan, _ => nan
  | _, nan => nan
  | pinf, pinf => pinf
  | pinf, ninf => ninf
  | ninf, pinf => ninf
  | ninf, ninf => pinf
  | pinf, fin y => infTimes y
  | fin x, pinf => infTimes x
  | ninf, fin y => infTimes (-y)
  | fin x, ninf => infTimes (-x)
  | fin x, fin y => fin (x * y)

/-- IEEE division (numpy `/`); a zero divisor gives an infinity or NaN, never an exception. -/
def div : Num K → Num K → Num K
  | nan, _ => nan
  | _, nan => nan
  | pinf, pinf => nan
  | pinf, ninf => nan
  | ninf, pinf => nan
  | ninf, ninf => nan
  | pinf, fin y => if y < 0 then ninf else pinf
  | ninf, fin y => if y < 0 then pinf else ninf
  | fin _, pinf => fin 0
  | fin _, ninf => fin 0
  | fin x, fin y => if y = 0 then infTimes x else fin (x / y)

/-- numpy `**` with a natural exponent; `nan ** 0 = 1`. -/
def pow : Num K → ℕ → Num K
  | _, 0 => fin 1
  | nan, _ + 1 => nan
  | pinf, _ + 1 => pinf
  | ninf, n + 1 => if (n + 1) % 2 = 0 then pinf else ninf
  | fin x, n + 1 => fin (x ^ (n + 1))

/-- `np.abs`. -/
def abs' : Num K → Num K
  | nan => nan
  | pinf => pinf
  | ninf => pinf
  | fin x => fin (if x < 0 then -x else x)

/-- IEEE `<` (False when an operand is NaN). -/
def lt : Num K → Num K → Bool
  | nan, _ => false
  | _, nan => false
  | pinf, _ => false
  | ninf, ninf => false
  | ninf, _ => true
  | fin _, pinf => true
  | fin _, ninf => false
  | fin x, fin y => decide (x < y)

/-- IEEE `<=` (False when an operand is NaN). -/
def le : Num K → Num K → Bool
  | nan, _ => false
  | _, nan => false
  | _, pinf => true
  | ninf, _ => true
  | pinf, _ => false
  | fin _, ninf => false
  | fin x, fin y => decide (x ≤ y)

/-- IEEE `==` (False when an operand is NaN). -/
def eqF : Num K → Num K → Bool
  | nan, _ => false
  | _, nan => false
  | a, b => decide (a = b)

instance : Zero (Num K) := ⟨fin 0⟩
instance : One (Num K) := ⟨fin 1⟩
instance : Add (Num K) := ⟨add⟩
instance : Neg (Num K) := ⟨neg⟩
instance : Sub (Num K) := ⟨fun a b => add a (neg b)⟩
instance : Mul (Num K) := ⟨mul⟩
instance : Div (Num K) := ⟨div⟩
instance : Inhabited (Num K) := ⟨nan⟩

theorem zero_def : (0 : Num K) = fin 0 := rfl
theorem one_def : (1 : Num K) = fin 1 := rfl
@[simp] theorem fin_add (x y : K) : (fin x + fin y : Num K) = fin (x + y) := rfl
@[simp] theorem fin_mul (x y : K) : (fin x * fin y : Num K) = fin (x * y) := rfl
@[simp] theorem fin_neg (x : K) : (-fin x : Num K) = fin (-x) := rfl
@[simp] theorem nan_add (a : Num K) : nan + a = nan := by cases a <;> rfl
@[simp] theorem add_nan (a : Num K) : a + nan = nan := by cases a <;> rfl
@[simp] theorem nan_mul (a : Num K) : nan * a = nan := by cases a <;> rfl
@[simp] theorem mul_nan (a : Num K) : a * nan = nan := by cases a <;> rfl
@[simp] theorem nan_div (a : Num K) : nan / a = nan := by cases a <;> rfl
@[simp] theorem div_nan (a : Num K) : a / nan = nan := by cases a <;> rfl
@[simp] theorem neg_nan : (-nan : Num K) = nan := rfl
theorem sub_def (a b : Num K) : a - b = a + -b := rfl
@[simp] theorem nan_sub (a : Num K) : nan - a = nan := by rw [sub_def, nan_add]
@[simp] theorem sub_nan (a : Num K) : a - nan = nan := by rw [sub_def, neg_nan, add_nan]
@[simp] theorem fin_sub (x y : K) : (fin x - fin y : Num K) = fin (x - y) := by
  rw [sub_def, fin_neg, fin_add, sub_eq_add_neg]
theorem fin_div (x y : K) (h : y ≠ 0) : (fin x / fin y : Num K) = fin (x / y) := by
  change div (fin x) (fin y) = _
  simp [div, h]
theorem fin_div_zero (x : K) : (fin x / fin 0 : Num K) = infTimes x := by
  change div (fin x) (fin 0) = _
  simp [div]
@[simp] theorem pow_fin (x : K) (n : ℕ) : (fin x).pow n = fin (x ^ n) := by
  cases n <;> simp [pow]
@[simp] theorem lt_fin (x y : K) : lt (fin x) (fin y) = decide (x < y) := rfl
@[simp] theorem le_fin (x y : K) : le (fin x) (fin y) = decide (x ≤ y) := rfl
@[simp] theorem lt_nan (a : Num K) : lt a nan = false := by cases a <;> rfl
@[simp] theorem nan_lt (a : Num K) : lt nan a = false := by cases a <;> rfl
@[simp] theorem le_nan (a : Num K) : le a nan = false := by cases a <;> rfl
@[simp] theorem nan_le (a : Num K) : le nan a = false := by cases a <;> rfl
@[simp] theorem eqF_fin (x y : K) : eqF (fin x) (fin y) = decide (x = y) := by
  simp [eqF]

@[simp] theorem fin_inj' {x y : K} : (fin x : Num K) = fin y ↔ x = y :=
  ⟨fun h => by injection h, fun h => by rw [h]⟩

private theorem add_assoc' (a b c : Num K) : a + b + c = a + (b + c) := by
  cases a <;> cases b <;> cases c <;> first | rfl | simp [add_assoc]
private theorem add_comm' (a b : Num K) : a + b = b + a := by
  cases a <;> cases b <;> first | rfl | simp [add_comm]
private theorem zero_add' (a : Num K) : 0 + a = a := by
  cases a <;> first | rfl | simp [zero_def]

/-- IEEE addition without rounding is commutative and associative. -/
instance : AddCommMonoid (Num K) where
  add_assoc := add_assoc'
  zero_add := zero_add'
  add_zero a := by rw [add_comm', zero_add']
  add_comm := add_comm'
  nsmul := nsmulRec

theorem mul_comm' (a b : Num K) : a * b = b * a := by
  cases a <;> cases b <;> first | rfl | simp [mul_comm]

end ops

@[simp] theorem isNaN_nan : (nan : Num K).isNaN = true := rfl
@[simp] theorem isNaN_fin (x : K) : (fin x).isNaN = false := rfl
theorem isNaN_iff (a : Num K) : a.isNaN = true ↔ a = nan := by cases a <;> simp [isNaN]
theorem isNaN_false_iff (a : Num K) : a.isNaN = false ↔ a ≠ nan := by cases a <;> simp [isNaN]
@[simp] theorem isFin_fin (x : K) : (fin x).isFin = true := rfl
theorem isFin_iff (a : Num K) : a.isFin = true ↔ ∃ x, a = fin x := by
  cases a <;> simp [isFin]

section sums
variable [Field K] [LinearOrder K]

/-- pandas `Series.sum()` (`skipna=True`): missing values are dropped, the empty sum is `0.0`. -/
def sumSkip (l : List (Num K)) : Num K := (l.filter (fun v => !v.isNaN)).sum

@[simp] theorem sumSkip_nil : sumSkip ([] : List (Num K)) = 0 := rfl

theorem sumSkip_cons (a : Num K) (l : List (Num K)) :
    sumSkip (a :: l) = if a.isNaN then sumSkip l else a + sumSkip l := by
  unfold sumSkip
  cases h : a.isNaN <;> simp [List.filter, h]

@[simp] theorem sumSkip_cons_nan (l : List (Num K)) : sumSkip (nan :: l) = sumSkip l := by
  simp [sumSkip_cons]

@[simp] theorem sumSkip_cons_fin (x : K) (l : List (Num K)) :
    sumSkip (fin x :: l) = fin x + sumSkip l := by
  simp [sumSkip_cons]

theorem sumSkip_append (l₁ l₂ : List (Num K)) :
    sumSkip (l₁ ++ l₂) = sumSkip l₁ + sumSkip l₂ := by
  simp [sumSkip]

theorem sumSkip_perm {l₁ l₂ : List (Num K)} (h : l₁.Perm l₂) : sumSkip l₁ = sumSkip l₂ :=
  (h.filter _).sum_eq

theorem sum_map_fin (l : List K) : ((l.map fin).sum : Num K) = fin l.sum := by
  induction l with
  | nil => rfl
  | cons a l ih => simp [ih]

theorem sumSkip_map_fin (l : List K) : sumSkip (l.map fin) = (fin l.sum : Num K) := by
  induction l with
  | nil => rfl
  | cons a l ih => simp [ih]

/-- A sum over present values only. -/
theorem sumSkip_map_fin' {ι : Type} (l : List ι) (f : ι → Num K) (g : ι → K)
    (h : ∀ i ∈ l, f i = fin (g i)) : sumSkip (l.map f) = fin (l.map g).sum := by
  have : l.map f = (l.map g).map fin := by
    rw [List.map_map]; exact List.map_congr_left h
  rw [this, sumSkip_map_fin]

theorem sumSkip_all_nan {ι : Type} (l : List ι) (f : ι → Num K)
    (h : ∀ i ∈ l, f i = nan) : sumSkip (l.map f) = 0 := by
  induction l with
  | nil => rfl
  | cons a l ih =>
    have ha := h a (by simp)
    simp only [List.map_cons, ha, sumSkip_cons_nan]
    exact ih (fun i hi => h i (by simp [hi]))

end sums

end Num
end Trikit
