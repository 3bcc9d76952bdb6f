import Verif.Basic
import Mathlib.Data.Rat.Floor

/-!
Model of `LTC` (`/repo/src/ltc.hpp`, whole class).

* `element_type`: the calls `min(value + epsilon, max_value)` only compile when `value + epsilon` is an `int`, so
  the elements are integers. Values are stored in `ℚ`, and every store into an element (lines 72, 76, 122) goes through
  a conversion `conv`. The code is the instance `conv = trunc` (truncation toward zero), for which all stored
  values are integers; `conv = id` is the same algorithm in exact arithmetic.
* `double` is `ℚ`. For consecutive timestamps the products in lines 72 and 76 have a factor 1 and the
  double computation truncates to the same integer as the exact one (proved in `Verif/Rounding/Ltc.lean`,
  `C111_consecutive`); with gaps it may differ (`C111_needless`).
* Timestamps are integers; no overflow. Equal timestamps, for which the code divides by zero (giving an infinity or
  NaN, not a crash), are not modelled: they are reported as `ub`.
* `new_ul` and `new_ll` are recomputed from scratch by `update` before every use, so they are local here.
-/

namespace Orp.Ltc

/-- `data_point` (ltc.hpp:15-18) -/
structure Point where
  t : Int
  v : ℚ
  deriving DecidableEq

/-- Template parameters (ltc.hpp:10) and the conversion to `element_type`. -/
structure Cfg where
  eps : Int
  maxValue : Int := 32767
  minValue : Int := -32768
  tud : Int := 1
  conv : ℚ → ℚ

/-- conversion of a `double` to an integer type: truncation toward zero -/
def trunc (x : ℚ) : ℚ := if x < 0 then (⌈x⌉ : ℚ) else (⌊x⌋ : ℚ)

/-- Object state (ltc.hpp:19-21). -/
structure State where
  last : Point
  ul : Point
  ll : Point
  toTransmit : Point
  counter : Nat
  deriving DecidableEq

/-- Upper limit of a new sample (ltc.hpp:54-55 with `min`, 27-31). -/
def newUl (c : Cfg) (t : Int) (v : ℚ) : Point :=
  { t, v := if v + c.eps > (c.maxValue : ℚ) then (c.maxValue : ℚ) else v + c.eps }

/-- Lower limit of a new sample (ltc.hpp:56-57 with `max`, 36-40). -/
def newLl (c : Cfg) (t : Int) (v : ℚ) : Point :=
  { t, v := if v - c.eps < (c.minValue : ℚ) then (c.minValue : ℚ) else v - c.eps }

/-- Slope from `p` to `q` (ltc.hpp:63-66). -/
def deriva (c : Cfg) (p q : Point) : ℚ := (q.v - p.v) / ((q.t - p.t : Int) : ℚ) / (c.tud : ℚ)

/-- Lines 72 and 76: the limit `lim` (slope `d`) extended to time `t`; integer division by the time unit. -/
def extend (c : Cfg) (lim : Point) (d : ℚ) (t : Int) : Point :=
  { t, v := c.conv (((t - lim.t).tdiv c.tud : Int) * d + lim.v) }

/-- `need_transmit` (ltc.hpp:62-79); the new limits are returned when there is no need to transmit. -/
def needTransmit (c : Cfg) (s : State) (nul nll : Point) : Res (Option (Point × Point)) :=
  if s.ul.t = s.last.t ∨ s.ll.t = s.last.t ∨ nul.t = s.last.t ∨ nll.t = s.last.t ∨ c.tud = 0 then .error .ub
  else
    let oldUp := deriva c s.last s.ul
    let oldLow := deriva c s.last s.ll
    let newUp := deriva c s.last nul
    let newLow := deriva c s.last nll
    if oldUp < newLow ∨ oldLow > newUp then .ok none
    else
      let nul := if oldUp < newUp then extend c s.ul oldUp nul.t else nul
      let nll := if oldLow > newLow then extend c s.ll oldLow nll.t else nll
      .ok (some (nul, nll))

/-- The part of `add` executed when `counter == 1` (ltc.hpp:109-114). -/
def addSecond (c : Cfg) (s : State) (t : Int) (v : ℚ) : State :=
  { s with ul := newUl c t v, ll := newLl c t v, counter := 2 }

/-- `add` (ltc.hpp:102-129). The recursive call at line 126 happens with `counter == 1`. -/
def add (c : Cfg) (s : State) (t : Int) (v : ℚ) : Res (State × Bool) :=
  if s.counter = 0 then .ok ({ s with last := ⟨t, v⟩, counter := 1 }, false)
  else if s.counter = 1 then .ok (addSecond c s t v, false)
  else do
    match ← needTransmit c s (newUl c t v) (newLl c t v) with
    | some (nul, nll) => return ({ s with ul := nul, ll := nll }, false)
    | none =>
        let s := { s with
          toTransmit := s.last
          last := ⟨t - 1, c.conv ((s.ul.v + s.ll.v) / 2)⟩
          counter := 1 }
        return (addSecond c s t v, true)

/-- A new object: counter 0, the points are indeterminate (ltc.hpp:19-21, 84-85). -/
def new (garbage : Point) : State :=
  { last := garbage, ul := garbage, ll := garbage, toTransmit := garbage, counter := 0 }

/-- What a user sees of one `add`: `none` if it returned false, else the point read by `get_value_to_transmit`
(ltc.hpp:91-95). -/
def observe (s : State) (r : Bool) : Option Point := if r then some s.toTransmit else none

/-- A stream of samples and what the user sees. -/
def run (c : Cfg) (s : State) : List Point → Res (State × List (Option Point))
  | [] => .ok (s, [])
  | p :: ps => do
      let (s, r) ← add c s p.t p.v
      let (s', os) ← run c s ps
      return (s', observe s r :: os)

end Orp.Ltc
