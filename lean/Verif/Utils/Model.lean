import Verif.Basic
import Mathlib.Algebra.Order.Floor.Ring
import Mathlib.Algebra.Field.Defs
import Mathlib.Data.Rat.Floor
import Mathlib.Analysis.SpecialFunctions.Log.Basic

/-!
Model of `Utils` (`/repo/src/utils.hpp`, whole file except `expm1`, which is a call of `func::exp` minus 1).

Simplifications: `double` is an ordered field `K` (exact arithmetic, no overflow, no NaN); the values returned by
`func::rand_uniform()` are arguments; pointer+size arrays are lists.
-/

namespace Orp.Utils

variable {α : Type} {K : Type} [Field K] [LinearOrder K] [FloorRing K]

/-- Conversion of a floating point number to an integer type: truncation toward zero (C++ standard conversion,
used at utils.hpp:86, 100, 101). -/
def trunc (x : K) : Int := if x < 0 then ⌈x⌉ else ⌊x⌋

/-- `pick_from_distribution` (utils.hpp:13-21): loop from index `i`, over the remaining probabilities. -/
def pickFrom (u : K) : (i : Nat) → List K → Nat
  | i, [] => i
  | i, p :: ps => if u ≤ p then i else pickFrom u (i + 1) ps

/-- `pick_from_distribution` (utils.hpp:13-21); `u` is the value of `func::rand_uniform()`. -/
def pick (probs : List K) (u : K) : Nat := pickFrom u 0 probs

/-- The loop of `turn_array_into_probability` (utils.hpp:40-41); `prev` is `values[i-1]`. -/
def cumulate (sum prev : K) : List K → List K
  | [] => []
  | v :: vs => (prev + v / sum) :: cumulate sum (prev + v / sum) vs

/-- `turn_array_into_probability` (utils.hpp:29-42); `sum` is the optional argument (default -1). `values[0]` is
accessed unconditionally: undefined behaviour on an empty array. Division by a zero sum gives NaN or infinity in
the code; here it is reported as `ub`. -/
def turnIntoProbability (values : List K) (sum : K := -1) : Res (List K) :=
  let sum := if sum < 0 then values.foldl (· + ·) 0 else sum
  match values with
  | [] => .error .ub
  | v :: vs => if sum = 0 then .error .ub else .ok ((v / sum) :: cumulate sum (v / sum) vs)

/-- The loop of `index_max` (utils.hpp:55-57) from index `i`, over the remaining elements. -/
def indexMaxFrom {α : Type} [LT α] [DecidableLT α] (best : Nat) (bestVal : α) : (i : Nat) → List α → Nat
  | _, [] => best
  | i, x :: xs => if bestVal < x then indexMaxFrom i x (i + 1) xs else indexMaxFrom best bestVal (i + 1) xs

/-- `index_max` (utils.hpp:53-59); the code returns 0 on an empty array. The model carries `array[best]` along
instead of reading it again: the array is not modified by the loop. -/
def indexMax {α : Type} [LT α] [DecidableLT α] : List α → Nat
  | [] => 0
  | x :: xs => indexMaxFrom 0 x 1 xs

/-- `min` (utils.hpp:66-69) -/
def min {α : Type} [LT α] [DecidableLT α] (a b : α) : α := if a < b then a else b

/-- `max` (utils.hpp:70-73) -/
def max {α : Type} [LT α] [DecidableLT α] (a b : α) : α := if b < a then a else b

/-- `div_int` (utils.hpp:78-81): C++ `%` and `/` on `int` truncate; division by 0 is undefined, and so is the
remainder of the smallest int by -1. -/
def divInt (a b : Int) : Res Int :=
  if b = 0 then .error .ub
  else if a = -(2 ^ 31) ∧ b = -1 then .error .ub
  else .ok ((a - a.tmod b).tdiv b)

/-- One iteration of the loop of `shuffle` (utils.hpp:85-88), `u` being the random number. A swap index below zero
or past the end is undefined behaviour. -/
def shuffleStep (array : List α) (i : Nat) (u : K) : Res (List α) := do
  let tmp ← rd array i
  let swapIdx := trunc (u * (i : K))
  if swapIdx < 0 then .error .ub
  let x ← rd array swapIdx.toNat
  let array ← wr array i x
  wr array swapIdx.toNat tmp

/-- The loop of `shuffle` (utils.hpp:84) for `i, i-1, ..., 1`; `u i` is the random number drawn in iteration `i`. -/
def shuffleLoop (u : Nat → K) : (i : Nat) → List α → Res (List α)
  | 0, array => .ok array
  | i + 1, array => do
      let array ← shuffleStep array (i + 1) (u (i + 1))
      shuffleLoop u i array

/-- `shuffle` (utils.hpp:82-90). -/
def shuffle (array : List α) (u : Nat → K) : Res (List α) := shuffleLoop u (array.length - 1) array

/-- `abs` (utils.hpp:91-96) over exact numbers. -/
def abs {R : Type} [Ring R] [LT R] [DecidableLT R] (v : R) : R := if v < 0 then -1 * v else v

/-- `round` (utils.hpp:97-102). -/
def round (v : K) : Int := if v < 0 then trunc (v - 1 / 2) else trunc (v + 1 / 2)

/-- `rand_exponential` (utils.hpp:60-64) over the reals, with the mathematical logarithm; `u` is the value of
`func::rand_uniform()`. A zero rate (division by zero in the code) is not meaningful here. -/
noncomputable def randExponential (rate u : ℝ) : ℝ := Real.log (1 - u) / (-rate)

end Orp.Utils
