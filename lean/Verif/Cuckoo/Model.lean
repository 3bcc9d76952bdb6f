import Verif.Basic
import Mathlib.Data.Rat.Floor

/-!
Model of `CuckooFilter` (`/repo/src/cuckoo_filter.hpp`), the whole class.

Simplifications:
* `bit_index` computations use `Nat` instead of `unsigned int`: the class only compiles when
  `bucket_count*bucket_size*entry_size` fits in an `int` and indices are asserted to be in range before
  they are multiplied, so no wrap-around can occur.
* The numbers returned by `random_function` are inputs: `rndA i` and `rndB i` are the first and the second
  number drawn in iteration `i` of the loop of `add`. They are exact rationals.
* For `entry_size > 8` the C++ shift `value << count` is truncated to 8 bits; the model agrees (up to 31).
-/

namespace Orp.Cuckoo

/-- `BYTE_SIZE` (cuckoo_filter.hpp:7): `sizeof(unsigned char)`, which is 1 (not 8). -/
def BYTE_SIZE : Nat := 1

/-- Template parameters (cuckoo_filter.hpp:22) and the functions of `funct`. -/
structure Cfg (E : Type) where
  bucketCount : Nat
  bucketSize : Nat
  entrySize : Nat
  emptyValue : Int
  fingerprint : E → BitVec 8
  hashE : E → BitVec 32
  hashF : BitVec 8 → BitVec 32

/-- The object's only mutable member: `unsigned char filter[total_size]` (cuckoo_filter.hpp:29). -/
abbrev Filter := List (BitVec 8)

variable {E : Type}

/-- `bit_size` (cuckoo_filter.hpp:27). -/
def Cfg.bitSize (c : Cfg E) : Nat := c.bucketCount * c.bucketSize * c.entrySize

/-- `total_size` (cuckoo_filter.hpp:28). -/
def Cfg.totalSize (c : Cfg E) : Nat :=
  (c.bitSize + (BYTE_SIZE - c.bitSize % BYTE_SIZE)) / BYTE_SIZE

/-- Initial value `{0}` of the array (cuckoo_filter.hpp:29) and constructor (150-151). -/
def init (c : Cfg E) : Filter := List.replicate c.totalSize 0#8

/-- `get_bit` (cuckoo_filter.hpp:35-39). -/
def getBit (f : Filter) (bitIndex : Nat) : Res Bool := do
  let mod := bitIndex % BYTE_SIZE
  let byteIndex := (bitIndex - mod) / BYTE_SIZE
  let b ← rd f byteIndex
  return (b &&& (1#8 <<< mod)) != 0#8

/-- `set_bit` (cuckoo_filter.hpp:45-52). -/
def setBit (f : Filter) (bitIndex : Nat) (value : Bool) : Res Filter := do
  let mod := bitIndex % BYTE_SIZE
  let byteIndex := (bitIndex - mod) / BYTE_SIZE
  let b ← rd f byteIndex
  if value = false then wr f byteIndex (b &&& ~~~(1#8 <<< mod))
  else wr f byteIndex (b ||| (1#8 <<< mod))

/-- loop of `get_entry` (cuckoo_filter.hpp:79-82): `n` iterations left, `bi = base + count`. -/
def getLoop (f : Filter) (base : Nat) : Nat → Nat → BitVec 8 → Res (BitVec 8)
  | _, 0, tmp => .ok tmp
  | count, n+1, tmp => do
      let value ← getBit f (base + count)
      getLoop f base (count+1) n (tmp ||| ((if value then 1#8 else 0#8) <<< count))

/-- the assertions shared by `get_entry` (cuckoo_filter.hpp:59-60, 71-74) and `set_entry` (92-93, 100-102) -/
def entryAsserts (c : Cfg E) (bucket entry : Nat) : Bool :=
  let bitIndex := bucket * c.bucketSize * c.entrySize + entry * c.entrySize
  let lastBitIndex := bitIndex + c.entrySize
  decide (bucket < c.bucketCount) && decide (entry < c.bucketSize) &&
  decide (bitIndex < c.bucketCount * c.bucketSize * c.entrySize) &&
  decide (lastBitIndex ≤ c.bucketCount * c.bucketSize * c.entrySize) &&
  decide (bitIndex ≤ lastBitIndex)

/-- `get_entry` (cuckoo_filter.hpp:58-84). -/
def getEntry (c : Cfg E) (f : Filter) (bucket entry : Nat) : Res (BitVec 8) :=
  if entryAsserts c bucket entry then
    getLoop f (bucket * c.bucketSize * c.entrySize + entry * c.entrySize) 0 c.entrySize 0#8
  else .error .assert

/-- loop of `set_entry` (cuckoo_filter.hpp:104-107). -/
def setLoop (fp : BitVec 8) (base : Nat) : Nat → Nat → Filter → Res Filter
  | _, 0, f => .ok f
  | count, n+1, f => do
      let value := (fp &&& (1#8 <<< count)) != 0#8
      let f ← setBit f (base + count) value
      setLoop fp base (count+1) n f

/-- `set_entry` (cuckoo_filter.hpp:91-108). -/
def setEntry (c : Cfg E) (f : Filter) (bucket entry : Nat) (fp : BitVec 8) : Res Filter :=
  if entryAsserts c bucket entry then
    setLoop fp (bucket * c.bucketSize * c.entrySize + entry * c.entrySize) 0 c.entrySize f
  else .error .assert

/-- comparison `tmp == empty_value` (cuckoo_filter.hpp:117): `unsigned char` promoted to `int`. -/
def isEmptyValue (c : Cfg E) (x : BitVec 8) : Bool := (x.toNat : Int) == c.emptyValue

/-- loop of `space_in_bucket` (cuckoo_filter.hpp:114-119); `none` models the result -1. -/
def spaceLoop (c : Cfg E) (f : Filter) (bucket : Nat) : Nat → Nat → Res (Option Nat)
  | _, 0 => .ok none
  | i, n+1 => do
      let tmp ← getEntry c f bucket i
      if isEmptyValue c tmp then return some i
      spaceLoop c f bucket (i+1) n

/-- `space_in_bucket` (cuckoo_filter.hpp:113-121). -/
def spaceInBucket (c : Cfg E) (f : Filter) (bucket : Nat) : Res (Option Nat) :=
  spaceLoop c f bucket 0 c.bucketSize

/-- inner loop of `search` (cuckoo_filter.hpp:135-142). -/
def searchBucket (c : Cfg E) (f : Filter) (fp : BitVec 8) (bucket : Nat) : Nat → Nat → Res (Option Nat)
  | _, 0 => .ok none
  | j, n+1 => do
      let tmp ← getEntry c f bucket j
      if tmp = fp then return some j
      searchBucket c f fp bucket (j+1) n

/-- `search` (cuckoo_filter.hpp:129-145); the result carries the two output parameters. -/
def search (c : Cfg E) (f : Filter) (e : E) : Res (Option (Nat × Nat)) := do
  let fp := c.fingerprint e
  let h0 := c.hashE e
  let h1 := h0 ^^^ c.hashF fp
  match ← searchBucket c f fp h0.toNat 0 c.bucketSize with
  | some j => return some (h0.toNat, j)
  | none =>
    match ← searchBucket c f fp h1.toNat 0 c.bucketSize with
    | some j => return some (h1.toNat, j)
    | none => return none

/-- The do-while loop of `add` (cuckoo_filter.hpp:170-202), from iteration `i` with `n` iterations left. -/
def addLoop (c : Cfg E) (rndA rndB : Nat → ℚ) : Nat → Nat → Filter → BitVec 8 → BitVec 32 → BitVec 32 →
    Res (Filter × Bool)
  | _, 0, f, _, _, _ => .ok (f, false)
  | i, n+1, f, fp, h1, h2 => do
      let s1 ← spaceInBucket c f h1.toNat
      let s2 ← spaceInBucket c f h2.toNat
      match s1, s2 with
      | none, some j => do
          let f ← setEntry c f h2.toNat j fp
          return (f, true)
      | some j, none => do
          let f ← setEntry c f h1.toNat j fp
          return (f, true)
      | some j1, some j2 => do
          let a := rndA i
          let h := if a > 1/2 then h1 else h2
          let j := if a > 1/2 then j1 else j2
          let f ← setEntry c f h.toNat j fp
          return (f, true)
      | none, none => do
          let a := rndA i
          let h := if a > 1/2 then h1 else h2
          let j := (⌊rndB i * ((c.bucketSize - 1 : Nat) : ℚ)⌋).toNat
          let tmp ← getEntry c f h.toNat j
          let f ← setEntry c f h.toNat j fp
          let fp := tmp
          let h1 := h
          let h2 := h1 ^^^ c.hashF fp
          addLoop c rndA rndB (i+1) n f fp h1 h2

/-- `add` (cuckoo_filter.hpp:163-205, 156-158): at most 500 iterations. -/
def add (c : Cfg E) (rndA rndB : Nat → ℚ) (f : Filter) (e : E) : Res (Filter × Bool) :=
  let fp := c.fingerprint e
  let h1 := c.hashE e
  let h2 := h1 ^^^ c.hashF fp
  addLoop c rndA rndB 0 500 f fp h1 h2

/-- `lookup` (cuckoo_filter.hpp:217-220, 210-212). -/
def lookup (c : Cfg E) (f : Filter) (e : E) : Res Bool := do
  let r ← search c f e
  return r.isSome

/-- `remove` (cuckoo_filter.hpp:232-238, 225-227). `set_entry(…, empty_value)` converts the `int` to
`unsigned char`. -/
def remove (c : Cfg E) (f : Filter) (e : E) : Res Filter := do
  match ← search c f e with
  | some (b, j) => setEntry c f b j (BitVec.ofInt 8 c.emptyValue)
  | none => return f

/-- `clear` (cuckoo_filter.hpp:242-245). -/
def clear (f : Filter) : Filter := f.map (fun _ => 0#8)

/-- Public calls; `add` carries the random numbers it will draw. -/
inductive Op (E : Type) where
  | add (e : E) (rndA rndB : Nat → ℚ)
  | lookup (e : E)
  | remove (e : E)
  | clear

/-- Observable result of a call. -/
inductive Out where
  | added (ok : Bool)
  | found (yes : Bool)
  | unit
  deriving DecidableEq

/-- One call. -/
def step (c : Cfg E) (f : Filter) : Op E → Res (Filter × Out)
  | .add e a b => do
      let (f, r) ← add c a b f e
      return (f, .added r)
  | .lookup e => do
      let r ← lookup c f e
      return (f, .found r)
  | .remove e => do
      let f ← remove c f e
      return (f, .unit)
  | .clear => return (clear f, .unit)

/-- A history of calls with its results. -/
def run (c : Cfg E) (f : Filter) : List (Op E) → Res (Filter × List Out)
  | [] => .ok (f, [])
  | op :: ops => do
      let (f, o) ← step c f op
      let (f, os) ← run c f ops
      return (f, o :: os)

end Orp.Cuckoo
