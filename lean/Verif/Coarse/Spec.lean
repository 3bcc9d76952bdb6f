import Verif.Coarse.Model
import Verif.Mondrian.Spec

/-!
What the trees of the coarse forest should be after trimming.
-/

set_option linter.unusedSectionVars false

namespace Orp.Coarse

open Finset
open Mondrian (Tree Data)

variable {K : Type} [Field K] [LinearOrder K] [IsStrictOrderedRing K] [FloorRing K] {F L : Nat}

/-- The leaves of a tree, from right to left: place and data -/
def leaves : Tree K F L → List (Nat × Data K F L)
  | .leaf id d => [(id, d)]
  | .node _ _ _ _ l r => leaves r ++ leaves l

/-- The tree `t'` is the tree `t` without the leaf at place `id` and without the split node above it: the sibling of the leaf takes the place of the split node. -/
inductive Removes (id : Nat) : Tree K F L → Tree K F L → Prop where
  | atLeft {q d dim sp dl r} : Removes id (.node q d dim sp (.leaf id dl) r) r
  | atRight {q d dim sp l dr} : Removes id (.node q d dim sp l (.leaf id dr)) l
  | left {q d dim sp l l' r} (h : Removes id l l') : Removes id (.node q d dim sp l r) (.node q d dim sp l' r)
  | right {q d dim sp l r r'} (h : Removes id r r') : Removes id (.node q d dim sp l r) (.node q d dim sp l r')

/-- The score of a leaf that trimming compares: the number of points counted, or the faded number -/
def score (c : Config K) (fading : List K) (z : Nat × Data K F L) : K :=
  if c.trim = .fading then fading.getD z.1 0 else ∑ i, (z.2.counts i : K)

/-- The leaf `z` may be chosen by trimming: any one with `TRIM_RANDOM`, otherwise a leaf with the smallest score, if its part of the sum of the scores is not above
the limit. -/
def Choice (c : Config K) (fading : List K) (t : Tree K F L) (z : Nat × Data K F L) : Prop :=
  z ∈ leaves t ∧ (c.trim ≠ .random → (∀ y ∈ leaves t, score c fading z ≤ score c fading y) ∧
    (0 < ((leaves t).map (score c fading)).sum → score c fading z / ((leaves t).map (score c fading)).sum ≤ c.maximumTrimSize))

/-- What trimming does to one tree: it removes a leaf that may be chosen, together with the split node above it, unless the tree is a single leaf, is higher than
the stack of the search, or has no leaf that may be chosen. -/
def Trimmed (c : Config K) (fading : List K) : Option (Tree K F L) → Option (Tree K F L) → Prop
  | none, o' => o' = none
  | some t, o' => (∃ z t', Choice c fading t z ∧ Removes z.1 t t' ∧ o' = some t') ∨
      (o' = some t ∧ (t.height = 1 ∨ 100 < t.height ∨ ¬ ∃ z, Choice c fading t z))

end Orp.Coarse
