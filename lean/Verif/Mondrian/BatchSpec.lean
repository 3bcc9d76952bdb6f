import Verif.Mondrian.KernelSpec
import Mathlib.MeasureTheory.Measure.Lebesgue.Basic
import Mathlib.Analysis.SpecialFunctions.Exp

/-!
What property C145 is about: a Mondrian tree of given points that is sampled from scratch, without a training history.
-/

namespace Orp.Mondrian

open MeasureTheory

variable {F L : Nat}

/-- the smallest box around the points of a non-empty list -/
noncomputable def hull : List (Point ℝ F L) → Box ℝ F
  | [] => ⟨fun _ => 0, fun _ => 0⟩
  | z :: zs => zs.foldl (fun b w => b.extend w.1) ⟨z.1, z.1⟩

/-- the points on the left of a split -/
noncomputable def lefts (pts : List (Point ℝ F L)) (d : Fin F) (x : ℝ) : List (Point ℝ F L) := pts.filter fun z => z.1 d ≤ x

/-- the points on the right of a split -/
noncomputable def rights (pts : List (Point ℝ F L)) (d : Fin F) (x : ℝ) : List (Point ℝ F L) := pts.filter fun z => ¬ z.1 d ≤ x

/-- The expectation of `f` of a Mondrian tree of the points `pts` that starts at the time `r`. Let `size` be the sum of the side lengths of the smallest
box around the points. The first split is at the time `s`, in the dimension `d` and at the value `x` with the density `exp (-(size * (s - r)))`, for `s`
before the lifetime and `x` inside the box: the time is exponentially distributed with rate `size`, the dimension is chosen in proportion to the side
lengths and the value is uniform. After it the points on the left and those on the right have independent Mondrian trees that start at the time `s`. If there
is no split before the lifetime, the tree is a leaf. The tree has no splits without points on both sides, so `n` bounds its depth, if it is at
least the number of points. -/
noncomputable def batch (life : ℝ) : Nat → List (Point ℝ F L) → ℝ → (Tree ℝ F L → ENNReal) → ENNReal
  | 0, _, _, _ => 0
  | n + 1, pts, r, f => ENNReal.ofReal (Real.exp (-((hull pts).size * (life - r)))) * f (.leaf 0 ⟨life, hull pts, histogram pts⟩) +
      ∫⁻ s in Set.Ico r life, ∑ d, ∫⁻ x in Set.Ico ((hull pts).lower d) ((hull pts).upper d), ENNReal.ofReal (Real.exp (-((hull pts).size * (s - r)))) *
        batch life n (lefts pts d x) s fun l => batch life n (rights pts d x) s fun r => f (.node 0 ⟨s, hull pts, fun _ => 0⟩ d x l r)

/-- a box whose bounds are measurable functions of a parameter -/
def VBox {X : Type} [MeasurableSpace X] (b : X → Box ℝ F) : Prop := ∀ i, Measurable (fun y => (b y).lower i) ∧ Measurable fun y => (b y).upper i

/-- a tree of fixed shape whose numbers are measurable functions of a parameter -/
inductive VTree {X : Type} [MeasurableSpace X] : (X → Tree ℝ F L) → Prop where
  | leaf (id : Nat) (counts : Fin L → Nat) {tau : X → ℝ} {box : X → Box ℝ F} (ht : Measurable tau) (hb : VBox box) : VTree fun y => .leaf id ⟨tau y, box y, counts⟩
  | node (id : Nat) (counts : Fin L → Nat) (dim : Fin F) {tau sp : X → ℝ} {box : X → Box ℝ F} {l r : X → Tree ℝ F L}
      (ht : Measurable tau) (hb : VBox box) (hs : Measurable sp) (hl : VTree l) (hr : VTree r) : VTree fun y => .node id ⟨tau y, box y, counts⟩ dim (sp y) (l y) (r y)

/-- The sets of trees whose probability is considered: those that are Borel sets in the numbers of the tree (times, split values, boxes), for every shape -/
def IsEvent (E : Set (Tree ℝ F L)) : Prop := ∀ (X : Type) [MeasurableSpace X] (t : X → Tree ℝ F L), VTree t → MeasurableSet (t ⁻¹' E)

open Classical in
/-- The probability that a Mondrian tree of the points is in the set `E` -/
noncomputable def mondrian (life : ℝ) (pts : List (Point ℝ F L)) (E : Set (Tree ℝ F L)) : ENNReal := batch life pts.length pts 0 fun t => if t ∈ E then 1 else 0

end Orp.Mondrian
