import Verif.Basic
import Mathlib.Algebra.Order.Floor.Ring
import Mathlib.Algebra.Field.Defs
import Mathlib.Data.Rat.Floor

/-!
Model of `ChainedReservoirSampling` (`/repo/src/chained_reservoir.hpp`, whole class), with an explicit heap.

* The heap is a list of cells; a pointer is a position in it. The cells `0 … sample_size-1` are the member array
  `sample`; `malloc` adds a cell at the end (nothing is ever freed) and does not fail.
* Loops and recursions that follow pointers get a fuel of the number of cells (plus one). Running out of fuel means that
  the chain is cyclic, that is an infinite loop or recursion of the program; it is reported as `ub`.
* `double` is an ordered field `K`; the values of `funct::random()` are arguments.
* `counter` and `next[i]` are natural numbers: fewer than `2^32 - sample_size` adds (beyond, line 127 converts a
  `double` that is too large to `unsigned int`, which is undefined).
-/

namespace Orp.Chained

variable {α : Type} {K : Type} [Field K] [LinearOrder K] [FloorRing K]

/-- `node` (chained_reservoir.hpp:17-24) -/
structure Cell (α : Type) where
  next : Option Nat
  elem : α
  ts : Nat
  deriving DecidableEq

/-- Object state (chained_reservoir.hpp:25-29) and the heap. -/
structure State (α : Type) where
  heap : List (Cell α)
  next : List Nat
  counter : Nat
  deriving DecidableEq

/-- the value `next[i]` is initialised with (chained_reservoir.hpp:116) -/
def never : Nat := 4294967294

/-- Constructor (chained_reservoir.hpp:110-117); the elements are indeterminate (`garbage`). -/
def new (garbage : List α) : State α :=
  { heap := garbage.map (fun e => { next := none, elem := e, ts := 0 })
    next := garbage.map (fun _ => never)
    counter := 0 }

/-- `round` (chained_reservoir.hpp:35-37) of a non-negative number: truncation of `d + 0.5`. -/
def round (d : K) : Nat := ⌊d + 1 / 2⌋.toNat

/-- `round(funct::random() * (sample_size-1))` -/
def draw (n : Nat) (r : K) : Nat := round (r * ((n - 1 : Nat) : K))

/-- `clear_chain` (chained_reservoir.hpp:42-48). -/
def clearChain : Nat → List (Cell α) → Option Nat → Res (List (Cell α))
  | _, h, none => .ok h
  | 0, _, some _ => .error .ub
  | fuel + 1, h, some p => do
      let c ← rd h p
      let h ← wr h p { c with ts := 0 }
      clearChain fuel h c.next

/-- The loop of `push_on_chain` (chained_reservoir.hpp:59-79) with `fuel` iterations left of the 5000. -/
def pushLoop (e : α) (ts : Nat) : Nat → List (Cell α) → Nat → Res (List (Cell α))
  | 0, _, _ => .error .assert
  | fuel + 1, h, p => do
      let c ← rd h p
      if c.ts = 0 then wr h p { c with elem := e, ts := ts }
      else match c.next with
        | none => wr (h ++ [{ next := none, elem := e, ts := ts }]) p { c with next := some h.length }
        | some q => pushLoop e ts fuel h q

/-- `push_on_chain` (chained_reservoir.hpp:55-80). -/
def pushOnChain (h : List (Cell α)) (head : Nat) (e : α) (ts : Nat) : Res (List (Cell α)) :=
  pushLoop e ts 5000 h head

/-- First loop of `shift_chain` (chained_reservoir.hpp:89-98). `receiver` and `mover` are C++ references: they
designate the cells `head` and `cur` for ever, the assignments of lines 93-94 copy cells (with their `next`). -/
def shiftLoop1 : Nat → List (Cell α) → Nat → Nat → Res (List (Cell α))
  | 0, _, _, _ => .error .ub
  | fuel + 1, h, head, cur => do
      let m ← rd h cur
      let r ← rd h head
      let h ← wr h head { r with elem := m.elem, ts := m.ts }
      match m.next with
      | none => return h
      | some mn => do
          let c ← rd h mn
          let h ← wr h cur c
          match r.next with
          | none => .error .ub
          | some rn => do
              let c ← rd h rn
              let h ← wr h head c
              shiftLoop1 fuel h head cur

/-- Second loop of `shift_chain` (chained_reservoir.hpp:100-103). -/
def shiftLoop2 : Nat → List (Cell α) → Nat → Res (List (Cell α))
  | 0, _, _ => .error .ub
  | fuel + 1, h, head => do
      let r ← rd h head
      match r.next with
      | none => return h
      | some rn => do
          let c ← rd h rn
          let h ← wr h head { c with ts := 0 }
          shiftLoop2 fuel h head

/-- `shift_chain` (chained_reservoir.hpp:86-104). In `shiftLoop1` the cell `head` differs from `cur`, so reading
`mover.next` before or after the assignments of lines 90-91 is the same. -/
def shiftChain (h : List (Cell α)) (head cur : Nat) : Res (List (Cell α)) := do
  let h ← shiftLoop1 (h.length + 1) h head cur
  shiftLoop2 (h.length + 1) h head

/-- The search loop of `obsolete` (chained_reservoir.hpp:173-179): `none` if the end of the chain is reached. -/
def findLive (t : Nat) : Nat → List (Cell α) → Nat → Res (Option Nat)
  | 0, _, _ => .error .ub
  | fuel + 1, h, p => do
      let c ← rd h p
      if c.ts < t then
        match c.next with
        | none => return none
        | some q => findLive t fuel h q
      else return some p

/-- The loop of `obsolete` (chained_reservoir.hpp:168-182) from slot `i`, `k` slots left. -/
def obsoleteLoop (t : Nat) : Nat → Nat → List (Cell α) → Res (List (Cell α))
  | _, 0, h => .ok h
  | i, k + 1, h => do
      let h ← match ← findLive t (h.length + 1) h i with
        | none => pure h
        | some cur => if i ≠ cur then shiftChain h i cur else pure h
      obsoleteLoop t (i + 1) k h

/-- `obsolete` (chained_reservoir.hpp:167-183). -/
def obsolete (n : Nat) (s : State α) (t : Nat) : Res (State α) := do
  let heap ← obsoleteLoop t 0 n s.heap
  return { s with heap }

/-- The loop of `add` over `next` (chained_reservoir.hpp:141-146) from slot `i`, `k` slots left; `rs i` is the random
number drawn for slot `i`. -/
def addLoop (n : Nat) (e : α) (ts : Nat) (rs : Nat → K) : Nat → Nat → State α → Res (State α)
  | _, 0, s => .ok s
  | i, k + 1, s => do
      let nx ← rd s.next i
      if s.counter = nx then do
        let heap ← pushOnChain s.heap i e ts
        let next ← wr s.next i (s.counter + 1 + draw n (rs i))
        addLoop n e ts rs (i + 1) k { s with heap, next }
      else addLoop n e ts rs (i + 1) k s

/-- One call of `add` with the random numbers it may draw. -/
structure Call (α K : Type) where
  e : α
  ts : Nat
  /-- line 131 -/
  r1 : K
  /-- line 133 -/
  r2 : K
  /-- line 127 or 137 -/
  r3 : K
  /-- line 144, for each slot -/
  rs : Nat → K

/-- First half of `add` (chained_reservoir.hpp:123-139). -/
def addHead (n : Nat) (s : State α) (c : Call α K) : Res (State α) :=
  if s.counter < n then do
    let heap ← wr s.heap s.counter { next := none, elem := c.e, ts := c.ts }
    let next ← wr s.next s.counter (s.counter + 1 + draw n c.r3)
    return { s with heap, next }
  else if c.r1 < (n : K) / (s.counter : K) then do
    let index := draw n c.r2
    let x ← rd s.heap index
    let heap ← wr s.heap index { x with elem := c.e, ts := c.ts }
    let heap ← clearChain (heap.length + 1) heap x.next
    let next ← wr s.next index (s.counter + 1 + draw n c.r3)
    return { s with heap, next }
  else return s

/-- `add` (chained_reservoir.hpp:122-148). -/
def add (n : Nat) (s : State α) (c : Call α K) : Res (State α) := do
  let s ← addHead n s c
  let s ← addLoop n c.e c.ts c.rs 0 n s
  return { s with counter := s.counter + 1 }

/-- `operator[]` (chained_reservoir.hpp:153-162). -/
def get (s : State α) (i : Nat) : Res α := do
  let c ← rd s.heap i
  return c.elem

/-- Calls that change the object. -/
inductive Op (α K : Type) where
  | add (c : Call α K)
  | obsolete (t : Nat)

def step (n : Nat) (s : State α) : Op α K → Res (State α)
  | .add c => add n s c
  | .obsolete t => obsolete n s t

/-- A history. -/
def run (n : Nat) (s : State α) : List (Op α K) → Res (State α)
  | [] => .ok s
  | op :: ops => do
      let s ← step n s op
      run n s ops

end Orp.Chained
