import Verif.Mondrian.Spec
import Mathlib.Data.Real.Basic
import Mathlib.Algebra.BigOperators.Group.Finset.Basic

/-!
What property C95 is about: which points a tree keeps together.
-/

namespace Orp.Mondrian

variable {F L : Nat}

/-- all points of the list reach the same leaf of the tree -/
def Tree.Together (t : Tree ℝ F L) (Q : List (Point ℝ F L)) : Prop := ∀ a ∈ Q, ∀ b ∈ Q, t.leafOf a.1 = t.leafOf b.1

/-- the sum of the side lengths of a box -/
noncomputable def Box.size (q : Box ℝ F) : ℝ := ∑ i, (q.upper i - q.lower i)

/-- a list of calls of `train` -/
def trainAll (zs : List (Point ℝ F L)) : List (Op ℝ F L) := zs.map fun z => .train z.1 z.2

end Orp.Mondrian
