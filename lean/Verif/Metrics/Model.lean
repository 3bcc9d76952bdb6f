import Verif.Basic
import Mathlib.Data.Rat.Defs
import Mathlib.Algebra.Field.Rat
import Mathlib.Algebra.Order.Ring.Rat

/-!
Model of `/repo/src/metrics.hpp` (all classes; `NoMetrics` has no state and is constantly 0).

Simplifications: `int` counters are unbounded integers (no history reaches 2^31 items); `double` is `ℚ` (exact);
a score that is not a finite number in the code (division by zero) is `none`.
-/

namespace Orp.Metrics

/-- floating point quotient: `none` when the code obtains an infinity or NaN -/
def quot (a b : ℚ) : Option ℚ := if b = 0 then none else some (a / b)

/-! ### ErrorMetrics -/

/-- `ErrorMetrics` data members (metrics.hpp:4-5) -/
structure ErrState where
  count : Int := 0
  errorCount : Int := 0
  deriving DecidableEq

/-- `update` (metrics.hpp:7-10) -/
def ErrState.update (s : ErrState) (trueLabel prediction : Int) : ErrState :=
  { count := s.count + 1, errorCount := s.errorCount + (if trueLabel ≠ prediction then 1 else 0) }

/-- `increase_error` (metrics.hpp:20-24) -/
def ErrState.increaseError (s : ErrState) (c : Int) : ErrState :=
  { count := s.count + c, errorCount := s.errorCount + c }

/-- `reset` (metrics.hpp:25-28) -/
def ErrState.reset (_ : ErrState) : ErrState := { count := 0, errorCount := 0 }

/-- `score` (metrics.hpp:11-19) -/
def ErrState.score (useRatio : Bool) (s : ErrState) (invert : Bool := false) (treeSize : Int := -1) : Option ℚ :=
  if useRatio && !invert then (quot s.errorCount s.count).map (· * (treeSize : ℚ))
  else if !useRatio && !invert then quot s.errorCount s.count
  else if useRatio && invert then (quot ((s.count - s.errorCount : Int) : ℚ) s.count).bind (quot · treeSize)
  else quot ((s.count - s.errorCount : Int) : ℚ) s.count

/-- operations of a user on a metric object -/
inductive Op where
  | update (trueLabel prediction : Int)
  | increaseError (c : Nat)
  | reset

/-- one operation on `ErrorMetrics` -/
def ErrState.apply (s : ErrState) : Op → ErrState
  | .update t p => s.update t p
  | .increaseError c => s.increaseError c
  | .reset => s.reset

/-! ### KappaMetrics -/

/-- `KappaMetrics` data members (metrics.hpp:49-50). Only the entries with both indices below `label_count` exist;
the operations check this. -/
structure KappaState where
  confusion : Nat → Nat → Int
  total : Int

/-- `reset` and the constructor (metrics.hpp:52-54, 95-100) -/
def KappaState.init : KappaState := { confusion := fun _ _ => 0, total := 0 }

/-- `confusion[i][j] += c; total += c` -/
def KappaState.bump (n : Nat) (s : KappaState) (i j : Int) (c : Int) : Res KappaState :=
  if 0 ≤ i ∧ i < n ∧ 0 ≤ j ∧ j < n then
    .ok { confusion := fun a b => if a = i.toNat ∧ b = j.toNat then s.confusion a b + c else s.confusion a b
          total := s.total + c }
  else .error .ub

/-- `update` (metrics.hpp:63-66) -/
def KappaState.update (n : Nat) (s : KappaState) (trueLabel prediction : Int) : Res KappaState :=
  s.bump n trueLabel prediction 1

/-- `increase_error` (metrics.hpp:91-94) -/
def KappaState.increaseError (n : Nat) (s : KappaState) (c : Int) : Res KappaState := s.bump n 0 1 c

/-- one operation on `KappaMetrics<n>` -/
def KappaState.apply (n : Nat) (s : KappaState) : Op → Res KappaState
  | .update t p => s.update n t p
  | .increaseError c => s.increaseError n c
  | .reset => .ok KappaState.init

/-- a history of operations -/
def KappaState.run (n : Nat) (s : KappaState) : List Op → Res KappaState
  | [] => .ok s
  | o :: os => do
      let s ← s.apply n o
      s.run n os

/-- the loops of `kappa` (metrics.hpp:74-77): sum of row `i` and of column `i` -/
def KappaState.sumCol (n : Nat) (s : KappaState) (i : Nat) : ℚ :=
  (List.range n).foldl (fun acc j => acc + (s.confusion i j : ℚ)) 0

/-- metrics.hpp:76 -/
def KappaState.sumRow (n : Nat) (s : KappaState) (i : Nat) : ℚ :=
  (List.range n).foldl (fun acc j => acc + (s.confusion j i : ℚ)) 0

/-- `kappa` (metrics.hpp:68-81) -/
def KappaState.kappa (n : Nat) (s : KappaState) : Option ℚ :=
  let diagonal : ℚ := (List.range n).foldl (fun acc i => acc + (s.confusion i i : ℚ)) 0
  let sumColRow : ℚ := (List.range n).foldl (fun acc i => acc + s.sumCol n i * s.sumRow n i) 0
  quot ((s.total : ℚ) * diagonal - sumColRow) ((s.total : ℚ) * (s.total : ℚ) - sumColRow)

/-- `score` (metrics.hpp:82-90) -/
def KappaState.score (n : Nat) (useRatio : Bool) (s : KappaState) (invert : Bool := false)
    (treeSize : Int := -1) : Option ℚ :=
  if useRatio && invert then ((s.kappa n).map fun k => (k + 1) / 2).bind (quot · treeSize)
  else if !useRatio && invert then (s.kappa n).map fun k => (k + 1) / 2
  else if useRatio && !invert then (s.kappa n).map fun k => (k * (-1) + 1) / 2 * (treeSize : ℚ)
  else (s.kappa n).map fun k => (k * (-1) + 1) / 2

/-! ### ReservoirSamplingMetrics -/

/-- The static counter (metrics.hpp:106, 134) and the `number` of every live object (metrics.hpp:107). -/
structure RsmWorld where
  total : Int
  numbers : List Int

/-- program start (metrics.hpp:134) -/
def RsmWorld.init : RsmWorld := { total := 0, numbers := [] }

/-- user actions: construct an object, reset object `i`, assign object `j` to object `i` -/
inductive RsmOp where
  | construct
  | reset (i : Nat)
  | assign (i j : Nat)

/-- constructor (metrics.hpp:109-111), `reset` (126-129), `operator=` (112-116; self assignment changes nothing
either way). An index without object is an invalid program: `ub`. -/
def RsmWorld.apply (w : RsmWorld) : RsmOp → Res RsmWorld
  | .construct => .ok { total := w.total + 1, numbers := w.numbers ++ [w.total + 1] }
  | .reset i => do
      let numbers ← wr w.numbers i (w.total + 1)
      return { total := w.total + 1, numbers }
  | .assign i j => do
      let x ← rd w.numbers j
      let numbers ← wr w.numbers i x
      return { w with numbers }

/-- a history -/
def RsmWorld.run (w : RsmWorld) : List RsmOp → Res RsmWorld
  | [] => .ok w
  | o :: os => do
      let w ← w.apply o
      w.run os

/-- `score` of the object with the given number (metrics.hpp:119-123) -/
def rsmScore (total number : Int) (sampleSize : Int := 1) : Option ℚ :=
  if total = number then quot ((number - sampleSize : Int) : ℚ) total else quot 1 total

end Orp.Metrics
