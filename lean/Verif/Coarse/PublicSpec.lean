import Verif.Coarse.Spec

/-!
What the further public functions should compute.
-/

set_option linter.unusedSectionVars false

namespace Orp.Coarse

open Finset
open Mondrian (Tree Data Box)

variable {K : Type} [Field K] [LinearOrder K] [IsStrictOrderedRing K] [FloorRing K] {F L : Nat}

/-- `m` is the score of the label minus the best of the scores of the other labels. -/
def IsMargin (score : Fin L → K) (label : Fin L) (m : K) : Prop :=
  ∃ o, o ≠ label ∧ (∀ j, j ≠ label → score j ≤ score o) ∧ m = score label - score o

/-- `t` is the part of the tree that starts at one of its nodes. -/
inductive Part : Tree K F L → Tree K F L → Prop where
  | self {t} : Part t t
  | left {t id d dim sp l r} (h : Part t l) : Part t (.node id d dim sp l r)
  | right {t id d dim sp l r} (h : Part t r) : Part t (.node id d dim sp l r)

/-- The number of points counted in a leaf -/
def points1 (z : Nat × Data K F L) : Nat := ∑ i, z.2.counts i

/-- The number of points counted in the leaves of a tree -/
def pointsOf (t : Tree K F L) : Nat := ((leaves t).map points1).sum

/-- The mean of the centres of the boxes of the leaves, weighted with the numbers of points counted in the leaves -/
def weightedMean (t : Tree K F L) (i : Fin F) : K :=
  ((leaves t).map (fun z => (points1 z : K) * ((z.2.box.lower i + z.2.box.upper i) / 2))).sum / (pointsOf t : K)

/-- The counter of a label in the leaves of a tree, added up -/
def countOf (t : Tree K F L) (i : Fin L) : Nat := ((leaves t).map (fun z => z.2.counts i)).sum

/-- The split goes through the box. -/
def Crosses (dim : Fin F) (v : K) (z : Nat × Data K F L) : Prop := z.2.box.lower dim < v ∧ v < z.2.box.upper dim

instance (dim : Fin F) (v : K) (z : Nat × Data K F L) : Decidable (Crosses dim v z) := inferInstanceAs (Decidable (_ ∧ _))

/-- The part of the box of a leaf that is below the split -/
def partBelow (dim : Fin F) (v : K) (z : Nat × Data K F L) : K :=
  if z.2.box.upper dim ≤ v then 1 else if v ≤ z.2.box.lower dim then 0 else (v - z.2.box.lower dim) / (z.2.box.upper dim - z.2.box.lower dim)

/-- Something holds for the boxes of all the nodes of a tree. -/
def AllBoxes (P : Box K F → Prop) : Tree K F L → Prop
  | .leaf _ d => P d.box
  | .node _ d _ _ l r => P d.box ∧ AllBoxes P l ∧ AllBoxes P r

/-- The boxes of all the nodes are on the right side of the splits above them. -/
def Separated : Tree K F L → Prop
  | .leaf _ _ => True
  | .node _ _ dim sp l r => AllBoxes (fun b => b.upper dim ≤ sp) l ∧ AllBoxes (fun b => sp < b.lower dim) r ∧ Separated l ∧ Separated r

/-- The box of a split node contains the boxes of its children. -/
def Nested : Tree K F L → Prop
  | .leaf _ _ => True
  | .node _ d _ _ l r => l.data.box.Inside d.box ∧ r.data.box.Inside d.box ∧ Nested l ∧ Nested r

end Orp.Coarse
