import Verif.Mondrian.KernelSpec

/-!
What property C144 is about: the time of the split that separates the points of a group.
-/

namespace Orp.Mondrian

variable {F L : Nat}

open Classical in
/-- The time of the split that separates the points of the list: the first split on their way that does not send them all to the same side; `none` if
they reach the same leaf -/
noncomputable def Tree.apart (Q : List (Point ℝ F L)) : Tree ℝ F L → Option ℝ
  | .leaf _ _ => none
  | .node _ d dim sp l r => if ∀ z ∈ Q, z.1 dim ≤ sp then l.apart Q else if ∀ z ∈ Q, ¬ z.1 dim ≤ sp then r.apart Q else some d.tau

/-- The points of the list are not separated before the time `T`. -/
def Tree.Until (T : ℝ) (Q : List (Point ℝ F L)) (t : Tree ℝ F L) : Prop := ∀ s, t.apart Q = some s → T ≤ s

end Orp.Mondrian
