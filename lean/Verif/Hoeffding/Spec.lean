import Verif.Hoeffding.Model

/-!
Notions used to state the properties of the Hoeffding tree: labels of a history, majority, the feature of a limit.
-/

namespace Orp.Hoeffding

variable {K : Type} {L : Nat}

/-- The labels of the training points of a history, in order -/
def labels : List (Op K L) → List (Fin L)
  | [] => []
  | .train _ l :: ops => l :: labels ops
  | .rootTrain _ l :: ops => l :: labels ops
  | _ :: ops => labels ops

/-- The number of training points of each label -/
def hist (ops : List (Op K L)) (l : Fin L) : Nat := (labels ops).count l

/-- `i` is the most frequent label for the counts `h`, the first of them in case of a tie -/
def IsMajority (h : Fin L → Nat) (i : Nat) : Prop :=
  ∃ hi : i < L, (∀ j : Fin L, h j ≤ h ⟨i, hi⟩) ∧ ∀ j : Fin L, j.val < i → h j < h ⟨i, hi⟩

/-- The feature whose limits include number `i`, when feature `f` has `sizes[f] - 1` limits, stored one feature after the other. -/
def featureOfLimit : List Nat → Nat → Nat
  | [], _ => 0
  | sz :: rest, i => if i < sz - 1 then 0 else featureOfLimit rest (i - (sz - 1)) + 1

/-- The position of limit number `i` among the limits of its feature -/
def placeOfLimit : List Nat → Nat → Nat
  | [], i => i
  | sz :: rest, i => if i < sz - 1 then i else placeOfLimit rest (i - (sz - 1))

/-- Calls that may split the root -/
def Op.maySplit : Op K L → Prop
  | .train _ _ => True
  | .rootSplit _ _ => True
  | _ => False

/-- Calls that go through the tree, not through the pointer returned by `get_root` -/
def Op.viaTree : Op K L → Prop
  | .train _ _ => True
  | .predict _ => True
  | _ => False

/-- Calls through the pointer returned by `get_root`; a split is on a feature that exists. -/
def Op.onRoot (featureCount : Nat) : Op K L → Prop
  | .rootTrain _ _ => True
  | .setLimits _ => True
  | .rootSplit f _ => f < featureCount
  | _ => False

end Orp.Hoeffding
