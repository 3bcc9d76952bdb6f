import Verif.Mondrian.Spec
import Verif.Reservoir.Prob
import Mathlib.Probability.ProductMeasure
import Mathlib.Analysis.SpecialFunctions.Log.Basic

/-!
Specification of the law of a Mondrian process restricted to the training points: what can happen to a tree when a point is added, and with which
probability. Above a node of time `τ`, whose parent has time `τ'` (0 for the root) and whose box has distance `η` from the new point (in the sum
norm), a split is introduced at a time `τ' + E`, with `E` exponentially distributed with rate `η`, if this is before `τ`; its dimension is drawn in
proportion to the distances in the dimensions and its value is uniform between the box and the point. Otherwise the same happens at the child that
the point is routed to.
-/

namespace Orp.Mondrian

open MeasureTheory Orp.Reservoir

variable {F L : Nat}

/-- a sequence of independent uniform random numbers in `[0,1[` -/
noncomputable def draws : Measure (Nat → U01) := Measure.infinitePi fun _ => volume

/-- the draws as numbers -/
def nums (ω : Nat → U01) : Nat → ℝ := fun i => (ω i).1

/-- the distance of a point from a box in one dimension -/
def Box.distIn (b : Box ℝ F) (x : Fin F → ℝ) (i : Fin F) : ℝ := max (b.lower i - x i) 0 + max (x i - b.upper i) 0

/-- the distance of a point from a box, summed over the dimensions -/
def Box.dist (b : Box ℝ F) (x : Fin F → ℝ) : ℝ := ∑ i, b.distIn x i

/-- the lower end of the gap between the box and the point in a dimension -/
noncomputable def Box.gapLow (b : Box ℝ F) (x : Fin F → ℝ) (d : Fin F) : ℝ := if b.upper d < x d then b.upper d else x d

/-- the upper end of the gap between the box and the point in a dimension -/
noncomputable def Box.gapHigh (b : Box ℝ F) (x : Fin F → ℝ) (d : Fin F) : ℝ := if b.upper d < x d then x d else b.lower d

/-- the nodes that a point passes on its way to a leaf, each with the time of its parent -/
noncomputable def Tree.path (x : Fin F → ℝ) : Tree ℝ F L → ℝ → List (ℝ × Data ℝ F L)
  | .leaf _ d, ptau => [(ptau, d)]
  | .node _ d dim sp l r, ptau => (ptau, d) :: if x dim ≤ sp then l.path x d.tau else r.path x d.tau

/-- the subtree that a point reaches after `j` steps -/
noncomputable def Tree.sub (x : Fin F → ℝ) : Tree ℝ F L → Nat → Option (Tree ℝ F L)
  | t, 0 => some t
  | .leaf _ _, _ + 1 => none
  | .node _ _ dim sp l r, j + 1 => if x dim ≤ sp then l.sub x j else r.sub x j

/-- What can happen to a tree when a point is added: no new nodes, or a new split on the way of the point after `depth` steps, in the dimension
`dim`, at a time before `time` and with a value below `value`. -/
inductive Growth (F : Nat) where
  | stays
  | splits (depth : Nat) (dim : Fin F) (time value : ℝ)

/-- The event, for a tree `t` and the tree `t'` after the point `x` is added -/
def Growth.Happens (x : Fin F → ℝ) (t t' : Tree ℝ F L) : Growth F → Prop
  | .stays => t'.ids.length = t.ids.length
  | .splits j dim θ v => ∃ id d sp l r, t'.sub x j = some (.node id d dim sp l r) ∧ id ∉ t.ids ∧ d.tau < θ ∧ sp < v

/-- The event is one of those whose probability is stated: the dimension is one where the point is outside the box, `time` is between that of the
parent and that of the node and `value` is not beyond the gap between box and point. -/
def Growth.Proper (x : Fin F → ℝ) (t : Tree ℝ F L) (ptau : ℝ) : Growth F → Prop
  | .stays => True
  | .splits j dim θ v => ∃ q, (t.path x ptau)[j]? = some q ∧ 0 < q.2.box.distIn x dim ∧ q.1 ≤ θ ∧ θ ≤ q.2.tau ∧ q.2.box.gapLow x dim ≤ v ∧
      v ≤ q.2.box.gapHigh x dim

/-- the distances times the intervals between parent and child, along a way -/
noncomputable def weight (x : Fin F → ℝ) (qs : List (ℝ × Data ℝ F L)) : ℝ := (qs.map fun q => q.2.box.dist x * (q.2.tau - q.1)).sum

/-- The probability of the event under a Mondrian process -/
noncomputable def Growth.chance (x : Fin F → ℝ) (t : Tree ℝ F L) (ptau : ℝ) : Growth F → ℝ
  | .stays => Real.exp (-weight x (t.path x ptau))
  | .splits j dim θ v =>
    match (t.path x ptau)[j]? with
    | none => 0
    | some q => Real.exp (-weight x ((t.path x ptau).take j)) *
        ((1 - Real.exp (-(q.2.box.dist x * (θ - q.1)))) * ((v - q.2.box.gapLow x dim) / q.2.box.dist x))

end Orp.Mondrian
