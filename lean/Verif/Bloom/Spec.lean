import Verif.Bloom.Model

/-!
Vocabulary for the Bloom filter properties, independent of how the bit array is manipulated.
-/

namespace Orp.Bloom

variable {E : Type}

/-- The documented contract: a hash function returns the index of a bit of the filter.
`bit_size` is a C++ `int`. -/
def Contract (bitSize : Nat) (hashs : List (E → BitVec 32)) : Prop :=
  1 ≤ bitSize ∧ bitSize < 2 ^ 31 ∧ 1 ≤ hashs.length ∧ ∀ h ∈ hashs, ∀ e, (h e).toNat < bitSize

/-- `i` is a hash position of `e`. -/
def Position (hashs : List (E → BitVec 32)) (e : E) (i : Nat) : Prop :=
  ∃ h ∈ hashs, (h e).toNat = i

/-- Calls whose arguments are usable: the array given to `set` has at least `bit_size` bytes. -/
def Op.Valid (bitSize : Nat) : Op E → Prop
  | .set b => bitSize ≤ b.length
  | _ => True

/-- the elements added after the last `clear` or `set` of a history -/
def addedSince : List (Op E) → List E :=
  List.foldl (fun acc op => match op with
    | .add e => acc ++ [e]
    | _ => []) []

end Orp.Bloom
