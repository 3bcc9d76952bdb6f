import Mathlib.Algebra.Order.Field.Basic

/-!
Extended numbers: the values of a C++ `double` seen as exact numbers, with infinities and NaN. Used where the behaviour of the code
depends on them. IEEE 754 rules, except that there is no rounding and only one zero (division by zero gives the infinity
of the sign of the dividend).
-/

namespace Orp

/-- a `double`: finite, infinite or not a number -/
inductive Dbl (K : Type) where
  | fin (x : K)
  | pinf
  | ninf
  | nan
  deriving DecidableEq

namespace Dbl

set_option linter.unusedSectionVars false

variable {K : Type} [Field K] [LinearOrder K]

/-- infinity with the sign of `x`, NaN for zero -/
def infOf (x : K) : Dbl K := if 0 < x then pinf else if x < 0 then ninf else nan

def neg : Dbl K → Dbl K
  | fin x => fin (-x)
  | pinf => ninf
  | ninf => pinf
  | nan => nan

def add : Dbl K → Dbl K → Dbl K
  | fin x, fin y => fin (x + y)
  | nan, _ => nan
  | _, nan => nan
  | pinf, ninf => nan
  | ninf, pinf => nan
  | pinf, _ => pinf
  | _, pinf => pinf
  | ninf, _ => ninf
  | _, ninf => ninf

def sub (a b : Dbl K) : Dbl K := add a (neg b)

def mul : Dbl K → Dbl K → Dbl K
  | fin x, fin y => fin (x * y)
  | nan, _ => nan
  | _, nan => nan
  | fin x, pinf => infOf x
  | fin x, ninf => infOf (-x)
  | pinf, fin x => infOf x
  | ninf, fin x => infOf (-x)
  | pinf, pinf => pinf
  | ninf, ninf => pinf
  | pinf, ninf => ninf
  | ninf, pinf => ninf

def div : Dbl K → Dbl K → Dbl K
  | fin x, fin y => if y = 0 then infOf x else fin (x / y)
  | nan, _ => nan
  | _, nan => nan
  | fin _, _ => fin 0
  | pinf, fin y => if y < 0 then ninf else pinf
  | ninf, fin y => if y < 0 then pinf else ninf
  | _, _ => nan

/-- `a < b`; false if one of them is NaN -/
def lt : Dbl K → Dbl K → Bool
  | fin x, fin y => decide (x < y)
  | nan, _ => false
  | _, nan => false
  | pinf, _ => false
  | _, ninf => false
  | ninf, _ => true
  | _, pinf => true

/-- `a <= b`; false if one of them is NaN -/
def le : Dbl K → Dbl K → Bool
  | fin x, fin y => decide (x ≤ y)
  | nan, _ => false
  | _, nan => false
  | ninf, _ => true
  | _, pinf => true
  | pinf, _ => false
  | _, ninf => false

/-- `isnan` -/
def isNan : Dbl K → Bool
  | nan => true
  | _ => false

theorem lt_nan_left (b : Dbl K) : lt nan b = false := by cases b <;> rfl
theorem lt_nan_right (a : Dbl K) : lt a nan = false := by cases a <;> rfl

theorem lt_irrefl (a : Dbl K) : lt a a = false := by cases a <;> simp [lt]

/-- on numbers that are not NaN the order is total -/
theorem le_of_not_lt {a b : Dbl K} (ha : a ≠ nan) (hb : b ≠ nan) (h : lt a b = false) : le b a = true := by
  cases a <;> cases b <;> simp_all [lt, le]

theorem le_of_lt {a b : Dbl K} (h : lt a b = true) : le a b = true := by
  cases a <;> cases b <;> simp_all [lt, le]; exact _root_.le_of_lt h

theorem le_trans {a b c : Dbl K} (h1 : le a b = true) (h2 : le b c = true) : le a c = true := by
  cases a <;> cases b <;> cases c <;> simp_all [le]; exact _root_.le_trans h1 h2

theorem lt_of_lt_of_le {a b c : Dbl K} (h1 : lt a b = true) (h2 : le b c = true) : lt a c = true := by
  cases a <;> cases b <;> cases c <;> simp_all [lt, le]; exact _root_.lt_of_lt_of_le h1 h2

theorem lt_of_le_of_lt {a b c : Dbl K} (h1 : le a b = true) (h2 : lt b c = true) : lt a c = true := by
  cases a <;> cases b <;> cases c <;> simp_all [lt, le]; exact _root_.lt_of_le_of_lt h1 h2

theorem le_refl {a : Dbl K} (h : a ≠ nan) : le a a = true := by cases a <;> simp_all [le]

theorem lt_ne_nan {a b : Dbl K} (h : lt a b = true) : a ≠ nan ∧ b ≠ nan := by
  constructor
  · rintro rfl; simp [lt_nan_left] at h
  · rintro rfl; simp [lt_nan_right] at h

end Dbl
end Orp
