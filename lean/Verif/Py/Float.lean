import Mathlib.Algebra.Order.Field.Basic
import Mathlib.Tactic.Linarith

/-!
# IEEE-like numbers

`F K` is a number of the ordered field `K`, or an infinity, or NaN.  Comparisons follow IEEE 754 (every
comparison with NaN is false).  Rounding, overflow and the sign of zero are not modelled
(division by zero takes the sign of the numerator).
-/

set_option linter.unusedSectionVars false

namespace Verif.Py

/-- Values of a Python float. -/
inductive F (K : Type*)
  | nan | ninf | fin (x : K) | pinf
  deriving DecidableEq, Repr

namespace F
variable {K : Type*}

section Cmp
variable [LinearOrder K]

/-- `a < b` -/
def lt : F K → F K → Bool
  | nan, _ => false
  | _, nan => false
  | ninf, ninf => false
  | ninf, _ => true
  | _, ninf => false
  | pinf, _ => false
  | fin _, pinf => true
  | fin x, fin y => decide (x < y)

/-- `a <= b` -/
def le : F K → F K → Bool
  | nan, _ => false
  | _, nan => false
  | ninf, _ => true
  | _, ninf => false
  | _, pinf => true
  | pinf, _ => false
  | fin x, fin y => decide (x ≤ y)

/-- `a > b` -/
abbrev gt (a b : F K) : Bool := lt b a
/-- `a >= b` -/
abbrev ge (a b : F K) : Bool := le b a

/-- Is it NaN? -/
def isNan : F K → Bool
  | nan => true
  | _ => false

/-- For two numbers that are not NaN, `<` is the negation of `>=`. -/
theorem lt_eq_not_le {a b : F K} (ha : a ≠ nan) (hb : b ≠ nan) : lt a b = !le b a := by
  cases a <;> cases b <;> simp_all [lt, le]
  rename_i x y
  by_cases h : y ≤ x
  · simp [h]
  · simp [h, not_le.mp h]

theorem lt_trans_le {a b c : F K} (h1 : lt a b = true) (h2 : le b c = true) : lt a c = true := by
  cases a <;> cases b <;> cases c <;> simp_all [lt, le]
  exact lt_of_lt_of_le h1 h2

theorem le_trans_lt {a b c : F K} (h1 : le a b = true) (h2 : lt b c = true) : lt a c = true := by
  cases a <;> cases b <;> cases c <;> simp_all [lt, le]
  exact lt_of_le_of_lt h1 h2

theorem lt_irrefl (a : F K) : lt a a = false := by cases a <;> simp [lt]

@[simp] theorem lt_nan_left (a : F K) : lt nan a = false := by cases a <;> rfl
@[simp] theorem lt_nan_right (a : F K) : lt a nan = false := by cases a <;> rfl
@[simp] theorem le_nan_left (a : F K) : le nan a = false := by cases a <;> rfl
@[simp] theorem le_nan_right (a : F K) : le a nan = false := by cases a <;> rfl
@[simp] theorem lt_fin (x y : K) : lt (fin x) (fin y) = decide (x < y) := rfl
@[simp] theorem le_fin (x y : K) : le (fin x) (fin y) = decide (x ≤ y) := rfl

end Cmp

section Arith
variable [Field K] [LinearOrder K]

/-- `a + b` -/
def add : F K → F K → F K
  | nan, _ => nan
  | _, nan => nan
  | fin x, fin y => fin (x + y)
  | pinf, ninf => nan
  | ninf, pinf => nan
  | pinf, _ => pinf
  | _, pinf => pinf
  | ninf, _ => ninf
  | _, ninf => ninf

/-- `-a` -/
def neg : F K → F K
  | nan => nan
  | pinf => ninf
  | ninf => pinf
  | fin x => fin (-x)

/-- `a - b` -/
def sub (a b : F K) : F K := add a (neg b)

/-- infinity with the sign of `x`, NaN for `0` (product of an infinity and `x`) -/
def infSign (x : K) : F K := if x = 0 then nan else if 0 < x then pinf else ninf

/-- `a * b` -/
def mul : F K → F K → F K
  | nan, _ => nan
  | _, nan => nan
  | fin x, fin y => fin (x * y)
  | pinf, fin x => infSign x
  | fin x, pinf => infSign x
  | ninf, fin x => neg (infSign x)
  | fin x, ninf => neg (infSign x)
  | pinf, pinf => pinf
  | ninf, ninf => pinf
  | pinf, ninf => ninf
  | ninf, pinf => ninf

/-- `a / b` with numpy semantics (no exception); a zero divisor counts as positive zero. -/
def div : F K → F K → F K
  | nan, _ => nan
  | _, nan => nan
  | fin x, fin y => if y = 0 then infSign x else fin (x / y)
  | fin _, pinf => fin 0
  | fin _, ninf => fin 0
  | pinf, fin y => if y < 0 then ninf else pinf
  | ninf, fin y => if y < 0 then pinf else ninf
  | _, _ => nan

@[simp] theorem add_fin (x y : K) : add (fin x) (fin y) = fin (x + y) := rfl
@[simp] theorem mul_fin (x y : K) : mul (fin x) (fin y) = fin (x * y) := rfl
@[simp] theorem neg_fin (x : K) : neg (fin x) = fin (-x) := rfl
@[simp] theorem add_nan_left (a : F K) : add nan a = nan := by cases a <;> rfl
@[simp] theorem add_nan_right (a : F K) : add a nan = nan := by cases a <;> rfl
@[simp] theorem mul_nan_left (a : F K) : mul nan a = nan := by cases a <;> rfl
@[simp] theorem mul_nan_right (a : F K) : mul a nan = nan := by cases a <;> rfl
theorem div_fin (x : K) {y : K} (h : y ≠ 0) : div (fin x) (fin y) = fin (x / y) := by simp [div, h]

/-- `sum` of a list, from left to right. -/
def sum (l : List (F K)) : F K := l.foldl add (fin 0)

theorem foldl_add_fin (l : List K) (a : K) :
    (l.map fin).foldl add (fin a) = fin (a + l.sum) := by
  induction l generalizing a with
  | nil => simp
  | cons x xs ih => simp [ih, add_assoc]

theorem sum_fin (l : List K) : sum (l.map fin) = fin l.sum := by
  simp [sum, foldl_add_fin]

end Arith
end F
end Verif.Py
