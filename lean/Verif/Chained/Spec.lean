import Verif.Chained.Model

/-!
Specification vocabulary for the chained reservoir: what it means for memory to hold a chain, and what a chain should hold.
-/

namespace Orp.Chained

variable {α K : Type}

/-- Memory holds a finite chain through the cells `l`, with the elements and timestamps `xs`, ended by a null pointer. -/
def Chain (h : List (Cell α)) : List Nat → List (α × Nat) → Prop
  | [a], [x] => h[a]? = some ⟨none, x.1, x.2⟩
  | a :: b :: l, x :: xs => h[a]? = some ⟨some b, x.1, x.2⟩ ∧ Chain h (b :: l) xs
  | _, _ => False

/-- The chains of the `n` slots: `idx i` are the cells of slot `i`, starting in the array cell `i` itself, `con i` their
content. Every chain is finite and without repetition, different slots share no cell. -/
structure Chains (n : Nat) (h : List (Cell α)) (idx : Nat → List Nat) (con : Nat → List (α × Nat)) : Prop where
  chain : ∀ i < n, Chain h (idx i) (con i)
  head : ∀ i < n, (idx i).head? = some i
  nodup : ∀ i < n, (idx i).Nodup
  disjoint : ∀ i < n, ∀ j < n, i ≠ j → ∀ a ∈ idx i, a ∉ idx j

/-- random numbers are in [0, 1] -/
def Call.Valid {K : Type} [Field K] [LinearOrder K] (c : Call α K) : Prop :=
  0 ≤ c.r1 ∧ c.r1 ≤ 1 ∧ 0 ≤ c.r2 ∧ c.r2 ≤ 1 ∧ 0 ≤ c.r3 ∧ c.r3 ≤ 1 ∧ ∀ i, 0 ≤ c.rs i ∧ c.rs i ≤ 1

def Op.Valid {K : Type} [Field K] [LinearOrder K] : Op α K → Prop
  | .add c => c.Valid
  | .obsolete _ => True

/-- the elements passed to `add`, in order -/
def added : List (Op α K) → List α
  | [] => []
  | .add c :: ops => c.e :: added ops
  | .obsolete _ :: ops => added ops

/-- the timestamps passed to `add`, in order -/
def stamps : List (Op α K) → List Nat
  | [] => []
  | .add c :: ops => c.ts :: stamps ops
  | .obsolete _ :: ops => stamps ops

/-- What `push_on_chain` should do to the content of a chain: use the first free cell (timestamp 0), or add one. -/
def pushList (e : α) (t : Nat) : List (α × Nat) → List (α × Nat)
  | [] => [(e, t)]
  | x :: xs => if x.2 = 0 then (e, t) :: xs else x :: pushList e t xs

end Orp.Chained
