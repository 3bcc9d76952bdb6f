import Verif.Basic
import Mathlib.Algebra.Order.Floor.Ring
import Mathlib.Algebra.Field.Defs
import Mathlib.Data.Rat.Floor

/-!
Model of `Reservoir`, `ReservoirSampling` and `ExponentialReservoirSampling`
(`/repo/src/reservoir_sampling.hpp`, whole file).

Simplifications:
* `double` is an arbitrary linearly ordered field `K` (exact arithmetic, no rounding); theorems about
  probability use `K = ℝ`, concrete runs `K = ℚ`.
* the values returned by `func::random()` are arguments: `r1`, `r2` are the first and second call made by
  one `sample_index` (the second is only looked at when the code makes the second call).
* `counter` is an `unsigned int`: a natural number below `2^32`, increments wrap around.
* `sample_size` is below `2^31`, so the conversions between `int` and `unsigned int` are value preserving.
-/

namespace Orp.Reservoir

variable {α : Type} {K : Type} [Field K] [LinearOrder K] [FloorRing K]

/-- Object state (reservoir_sampling.hpp:7-9, 37-39, 91-93). The array initially holds `sample`
(indeterminate or default constructed values). -/
structure State (α : Type) where
  sample : List α
  counter : Nat
  deriving DecidableEq

/-- the value of `counter + 1` for an `unsigned int` -/
def incr (counter : Nat) : Nat := (counter + 1) % 2 ^ 32

/-- `rnd < num / den` in `double`: a zero denominator gives +infinity (or NaN if `num` is zero too). -/
def ltQuot (rnd : K) (num den : Nat) : Bool :=
  if den = 0 then decide (num ≠ 0) else decide (rnd < (num : K) / (den : K))

/-- `ReservoirSampling::sample_index` (reservoir_sampling.hpp:58-73); -1 is the "not sampled" result. -/
def sampleIndex (sampleSize : Nat) (s : State α) (r1 r2 : K) : State α × Int :=
  let idx : Int :=
    if s.counter < sampleSize then (s.counter : Int)
    else if ltQuot r1 sampleSize (incr s.counter) then ⌊r2 * (sampleSize : K)⌋
    else -1
  ({ s with counter := incr s.counter }, idx)

/-- `ReservoirSampling::add` (reservoir_sampling.hpp:47-53). -/
def add (sampleSize : Nat) (s : State α) (e : α) (r1 r2 : K) : Res (State α × Int) :=
  let (s, idx) := sampleIndex sampleSize s r1 r2
  if idx ≥ 0 then do
    let sample ← wr s.sample idx.toNat e
    return ({ s with sample }, idx)
  else return (s, idx)

/-- `count` (reservoir_sampling.hpp:77-79 and 130-132). -/
def count (s : State α) : Nat := s.counter

/-- One call of `add` with the random numbers it draws. -/
structure Call (α K : Type) where
  e : α
  r1 : K
  r2 : K

/-- A stream of `add` calls. -/
def adds (sampleSize : Nat) (s : State α) : List (Call α K) → Res (State α)
  | [] => .ok s
  | c :: cs => do
      let (s, _) ← add sampleSize s c.e c.r1 c.r2
      adds sampleSize s cs

/-- A new object: counter 0 (reservoir_sampling.hpp:39, 93). -/
def new (garbage : List α) : State α := { sample := garbage, counter := 0 }

/-! ### Exponential variant -/

/-- `ExponentialReservoirSampling::sample_index` (reservoir_sampling.hpp:112-126). -/
def expSampleIndex (sampleSize : Nat) (s : State α) (r1 r2 : K) : State α × Int :=
  if ltQuot r1 s.counter sampleSize then (s, ⌊r2 * (s.counter : K)⌋)
  else ({ s with counter := incr s.counter }, (s.counter : Int))

/-- `ExponentialReservoirSampling::add` (reservoir_sampling.hpp:101-107). -/
def expAdd (sampleSize : Nat) (s : State α) (e : α) (r1 r2 : K) : Res (State α × Int) :=
  let (s, idx) := expSampleIndex sampleSize s r1 r2
  if idx ≥ 0 then do
    let sample ← wr s.sample idx.toNat e
    return ({ s with sample }, idx)
  else return (s, idx)

/-- A stream of `add` calls on the exponential variant. -/
def expAdds (sampleSize : Nat) (s : State α) : List (Call α K) → Res (State α)
  | [] => .ok s
  | c :: cs => do
      let (s, _) ← expAdd sampleSize s c.e c.r1 c.r2
      expAdds sampleSize s cs

end Orp.Reservoir
