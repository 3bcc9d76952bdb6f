import Verif.Cuckoo.Model
import Mathlib.Data.Sym.Sym2
import Mathlib.Data.Multiset.AddSub

/-!
Specification of the Cuckoo filter: a bag (multiset) of *keys*. The key of an element is its fingerprint
together with its unordered pair of candidate buckets. Nothing here refers to how entries are stored.
-/

namespace Orp.Cuckoo

variable {E : Type}

/-- Documented requirements on the template parameters (cuckoo_filter.hpp:8-21). The documentation does
not say that `bucket_count` must be a power of two, but the xor of two bucket indices must be an index. -/
structure Contract (c : Cfg E) : Prop where
  pow : ∃ k, c.bucketCount = 2 ^ k
  size : 1 ≤ c.bucketSize
  /-- the class only compiles if this product fits in an `int` (cuckoo_filter.hpp:27) -/
  fitsInt : c.bucketCount * c.bucketSize * c.entrySize < 2 ^ 31
  entry : 1 ≤ c.entrySize ∧ c.entrySize ≤ 8
  empty : c.emptyValue = 0
  hashE : ∀ e, (c.hashE e).toNat < c.bucketCount
  hashF : ∀ x, (c.hashF x).toNat < c.bucketCount
  fp : ∀ e, c.fingerprint e ≠ 0#8 ∧ (c.fingerprint e).toNat < 2 ^ c.entrySize

/-- random numbers are in `[0,1]` -/
def Unit01 (r : Nat → ℚ) : Prop := ∀ i, 0 ≤ r i ∧ r i ≤ 1

def Op.Valid : Op E → Prop
  | .add _ a b => Unit01 a ∧ Unit01 b
  | _ => True

abbrev Key := BitVec 8 × Sym2 (BitVec 32)

/-- the key of an element -/
def key (c : Cfg E) (e : E) : Key :=
  (c.fingerprint e, s(c.hashE e, c.hashE e ^^^ c.hashF (c.fingerprint e)))

/-- Abstract behaviour of one call on a bag of keys. -/
inductive BagStep (c : Cfg E) : Multiset Key → Op E → Out → Multiset Key → Prop
  | added (m e a b) : BagStep c m (.add e a b) (.added true) (m + {key c e})
  /-- a failed add: the new key enters but exactly one key `k` (possibly another one) is dropped -/
  | failed (m m' e a b k) : m' + {k} = m + {key c e} → BagStep c m (.add e a b) (.added false) m'
  | found (m e r) : (r = true ↔ key c e ∈ m) → BagStep c m (.lookup e) (.found r) m
  | removed (m e) : BagStep c m (.remove e) .unit (m.erase (key c e))
  | cleared (m) : BagStep c m .clear .unit 0

/-- Abstract behaviour of a history. -/
inductive BagRun (c : Cfg E) : Multiset Key → List (Op E) → List Out → Multiset Key → Prop
  | nil (m) : BagRun c m [] [] m
  | cons {m m1 m2 op ops o os} : BagStep c m op o m1 → BagRun c m1 ops os m2 →
      BagRun c m (op :: ops) (o :: os) m2

end Orp.Cuckoo
