import Verif.Basic

/-!
Model of `BloomFilter` (`/repo/src/bloom_filter.hpp`), the whole class.

* `bits` is the byte array `unsigned char bits[bit_size]` (line 15).
* A hash function returns `unsigned int`: `E → BitVec 32` (line 14).
* Null pointers are not modelled (elements and hash functions are values), so the `!= nullptr`
  assertions (lines 25, 30, 40, 59, 88) always hold here.
-/

namespace Orp.Bloom

/-- `BYTE_SIZE` (bloom_filter.hpp:4): `sizeof(unsigned char)`, which is 1 (not 8). -/
def BYTE_SIZE : Nat := 1

/-- Object state (bloom_filter.hpp:13-17). `bitSize` is the template parameter. -/
structure Filter (E : Type) where
  bitSize : Nat
  bits : List (BitVec 8)
  hashs : List (E → BitVec 32)

/-- `real_size` (bloom_filter.hpp:17). -/
def realSize (bitSize : Nat) : Nat :=
  (bitSize - bitSize % BYTE_SIZE) / BYTE_SIZE + (if bitSize % BYTE_SIZE > 0 then 1 else 0)

variable {E : Type}

/-- the loop of `clear` (bloom_filter.hpp:79-80) from index `i`, `n` iterations left. -/
def clearLoop : Nat → Nat → List (BitVec 8) → Res (List (BitVec 8))
  | _, 0, bits => .ok bits
  | i, n+1, bits => do
      let bits ← wr bits i 0
      clearLoop (i+1) n bits

/-- `clear` (bloom_filter.hpp:78-81). -/
def clear (f : Filter E) : Res (Filter E) := do
  let bits ← clearLoop 0 (realSize f.bitSize) f.bits
  return { f with bits }

/-- Constructor (bloom_filter.hpp:24-33). `garbage` is the indeterminate initial content of `bits`,
of `bitSize` bytes. -/
def construct (bitSize : Nat) (garbage : List (BitVec 8)) (hashs : List (E → BitVec 32)) :
    Res (Filter E) :=
  if bitSize ≥ 1 ∧ hashs.length ≥ 1 then clear { bitSize, bits := garbage, hashs }
  else .error .assert

/-- `set_bit_to_one` (bloom_filter.hpp:98-103). The parameter is an `int`: the caller's
`unsigned int` is converted (`BitVec.toInt`). -/
def setBitToOne (f : Filter E) (index : Int) : Res (Filter E) :=
  if 0 ≤ index ∧ index < f.bitSize then do
    let mod := index.toNat % BYTE_SIZE
    let realIndex := (index.toNat - mod) / BYTE_SIZE
    let b ← rd f.bits realIndex
    let bits ← wr f.bits realIndex (b ||| (1#8 <<< mod))
    return { f with bits }
  else .error .assert

/-- `get_bit` (bloom_filter.hpp:108-113); the returned `int` is 0 or 1, modelled as a `Bool`. -/
def getBit (f : Filter E) (index : Int) : Res Bool :=
  if 0 ≤ index ∧ index < f.bitSize then do
    let mod := index.toNat % BYTE_SIZE
    let realIndex := (index.toNat - mod) / BYTE_SIZE
    let b ← rd f.bits realIndex
    return (b &&& (1#8 <<< mod)) != 0#8
  else .error .assert

/-- the loop of `add` (bloom_filter.hpp:41-42) over the remaining hash functions. -/
def addLoop (e : E) : List (E → BitVec 32) → Filter E → Res (Filter E)
  | [], f => .ok f
  | h :: hs, f => do
      let f ← setBitToOne f (h e).toInt
      addLoop e hs f

/-- `add` (bloom_filter.hpp:39-43, 49-51). -/
def add (f : Filter E) (e : E) : Res (Filter E) := addLoop e f.hashs f

/-- the loop of `lookup` (bloom_filter.hpp:60-63): stops at the first zero bit. -/
def lookupLoop (e : E) (f : Filter E) : List (E → BitVec 32) → Res Bool
  | [] => .ok true
  | h :: hs => do
      let b ← getBit f (h e).toInt
      if b = false then return false
      lookupLoop e f hs

/-- `lookup` (bloom_filter.hpp:58-64, 70-72). -/
def lookup (f : Filter E) (e : E) : Res Bool := lookupLoop e f f.hashs

/-- the loop of `set` (bloom_filter.hpp:89-90). -/
def setLoop (newBits : List (BitVec 8)) : Nat → Nat → List (BitVec 8) → Res (List (BitVec 8))
  | _, 0, bits => .ok bits
  | i, n+1, bits => do
      let x ← rd newBits i
      let bits ← wr bits i x
      setLoop newBits (i+1) n bits

/-- `set` (bloom_filter.hpp:87-91); `newBits` is the memory the argument points to. -/
def set (f : Filter E) (newBits : List (BitVec 8)) : Res (Filter E) := do
  let bits ← setLoop newBits 0 (realSize f.bitSize) f.bits
  return { f with bits }

/-- Calls of the public API that change the filter. -/
inductive Op (E : Type) where
  | add (e : E)
  | clear
  | set (newBits : List (BitVec 8))

/-- One call. -/
def step (f : Filter E) : Op E → Res (Filter E)
  | .add e => add f e
  | .clear => clear f
  | .set b => set f b

/-- A history of calls. -/
def run (f : Filter E) : List (Op E) → Res (Filter E)
  | [] => .ok f
  | op :: ops => do
      let f ← step f op
      run f ops

/-- Construction followed by a history. -/
def exec (bitSize : Nat) (garbage : List (BitVec 8)) (hashs : List (E → BitVec 32))
    (ops : List (Op E)) : Res (Filter E) := do
  let f ← construct bitSize garbage hashs
  run f ops

end Orp.Bloom
