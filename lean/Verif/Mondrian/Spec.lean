import Verif.Mondrian.Model

/-!
Specification of a Mondrian forest: trees as an inductive type, what it means that the pool of nodes holds given trees, and what it means that a
tree is right for a list of training points.
-/

namespace Orp.Mondrian

variable {K : Type} [Field K] [LinearOrder K] {F L : Nat}

/-- What every node of a tree carries: its time, its box and its class counters -/
structure Data (K : Type) (F L : Nat) where
  tau : K
  box : Box K F
  counts : Fin L → Nat

/-- A binary tree; `id` is the place of a node in the pool. A split node sends points with `x dim ≤ sp` to the left. -/
inductive Tree (K : Type) (F L : Nat) where
  | leaf (id : Nat) (d : Data K F L)
  | node (id : Nat) (d : Data K F L) (dim : Fin F) (sp : K) (l r : Tree K F L)

/-- A training point: features and label -/
abbrev Point (K : Type) (F L : Nat) := (Fin F → K) × Fin L

def Tree.id : Tree K F L → Nat
  | .leaf id _ => id
  | .node id _ _ _ _ _ => id

def Tree.data : Tree K F L → Data K F L
  | .leaf _ d => d
  | .node _ d _ _ _ _ => d

/-- the places of the nodes of a tree -/
def Tree.ids : Tree K F L → List Nat
  | .leaf id _ => [id]
  | .node id _ _ _ l r => id :: (l.ids ++ r.ids)

/-- the number of edges on the longest path to a leaf, plus one -/
def Tree.height : Tree K F L → Nat
  | .leaf _ _ => 1
  | .node _ _ _ _ l r => Nat.max l.height r.height + 1

/-- the leaf that a point is routed to -/
def Tree.route (x : Fin F → K) : Tree K F L → Data K F L
  | .leaf _ d => d
  | .node _ _ dim sp l r => if x dim ≤ sp then l.route x else r.route x

/-- the place of the leaf that a point is routed to -/
def Tree.leafOf (x : Fin F → K) : Tree K F L → Nat
  | .leaf id _ => id
  | .node _ _ dim sp l r => if x dim ≤ sp then l.leafOf x else r.leafOf x

/-- A member of the pool holds the data `d` and has parent `par`. -/
def Node.Has (n : Node K F L) (par : Option Nat) (d : Data K F L) : Prop :=
  n.parent = par ∧ n.tau = d.tau ∧ n.box = some d.box ∧ n.counts = d.counts

/-- The pool `nodes` holds the tree, below the parent `par`: every node is in its place, with the right links to its children and its parent. -/
def Holds (nodes : List (Node K F L)) : Option Nat → Tree K F L → Prop
  | par, .leaf id d => ∃ n, nodes[id]? = some n ∧ n.Has par d ∧ n.dim = none
  | par, .node id d dim sp l r => (∃ n, nodes[id]? = some n ∧ n.Has par d ∧ n.dim = some dim ∧ n.split = some sp ∧
      n.left = some l.id ∧ n.right = some r.id) ∧ Holds nodes (some id) l ∧ Holds nodes (some id) r

/-- The box is the smallest one that contains the points: it contains them all, and every face is touched by a point. -/
def IsHull (pts : List (Point K F L)) (b : Box K F) : Prop :=
  (∀ z ∈ pts, ∀ i, b.lower i ≤ z.1 i ∧ z.1 i ≤ b.upper i) ∧ ∀ i, (∃ z ∈ pts, z.1 i = b.lower i) ∧ (∃ z ∈ pts, z.1 i = b.upper i)

/-- The number of points of each label -/
def histogram (pts : List (Point K F L)) (l : Fin L) : Nat := pts.countP (fun z => z.2 = l)

/-- The tree is right for the training points `pts`: the box of every node is the smallest box of the points that reach it, every leaf is reached by
a point, and its counters are the label histogram of the points that reach it. -/
def Right : List (Point K F L) → Tree K F L → Prop
  | pts, .leaf _ d => pts ≠ [] ∧ IsHull pts d.box ∧ d.counts = histogram pts
  | pts, .node _ d dim sp l r => IsHull pts d.box ∧ Right (pts.filter (fun z => z.1 dim ≤ sp)) l ∧ Right (pts.filter (fun z => ¬ z.1 dim ≤ sp)) r

/-- The times: leaves have the time `lifetime`, split nodes a smaller one, in relation `R` (`≤` or `<`) to that of their parents; `ptau` is the time
of the parent. -/
def Times (R : K → K → Prop) (lifetime : K) : K → Tree K F L → Prop
  | _, .leaf _ d => d.tau = lifetime
  | ptau, .node _ d _ _ l r => R ptau d.tau ∧ d.tau < lifetime ∧ Times R lifetime d.tau l ∧ Times R lifetime d.tau r

/-- box `a` is inside box `b` -/
def Box.Inside (a b : Box K F) : Prop := ∀ i, b.lower i ≤ a.lower i ∧ a.upper i ≤ b.upper i

/-- The splits separate: the boxes of the children are inside the box of the node, on different sides of the split value. -/
def Separates : Tree K F L → Prop
  | .leaf _ _ => True
  | .node _ d dim sp l r => l.data.box.Inside d.box ∧ r.data.box.Inside d.box ∧ l.data.box.upper dim ≤ sp ∧ sp < r.data.box.lower dim ∧
      Separates l ∧ Separates r

/-- The counters of the split nodes recomputed from the leaves: each child counts once for every label it has -/
def Tree.recount : Tree K F L → Tree K F L
  | .leaf id d => .leaf id d
  | .node id d dim sp l r =>
      .node id { d with counts := fun i => min 1 (l.recount.data.counts i) + min 1 (r.recount.data.counts i) } dim sp l.recount r.recount

/-- The tree without the places of its nodes -/
def Tree.anon : Tree K F L → Tree K F L
  | .leaf _ d => .leaf 0 d
  | .node _ d dim sp l r => .node 0 d dim sp l.anon r.anon

/-- What a tree says: its nodes, apart from their places, with the counters of the split nodes as determined by the leaves -/
def Tree.content (t : Tree K F L) : Tree K F L := t.recount.anon

/-- Two forests have the same trees, in nodes at possibly different places. -/
def SameTrees (trees trees' : List (Option (Tree K F L))) : Prop := trees.map (fun t => t.map Tree.content) = trees'.map (fun t => t.map Tree.content)

/-- The training points of a history, in order -/
def points : List (Op K F L) → List (Point K F L)
  | [] => []
  | .train x l :: ops => (x, l) :: points ops
  | .predict _ :: ops => points ops

/-- The nodes of the trees of a forest -/
def allIds (trees : List (Option (Tree K F L))) : List Nat := trees.flatMap (fun t => match t with | some t => t.ids | none => [])

/-- The state of the object holds the trees: each root link points to the root of its tree, the pool holds the trees, no node is used twice. -/
structure HoldsAll (s : Forest K F L) (trees : List (Option (Tree K F L))) : Prop where
  roots : s.roots = trees.map (fun t => t.map Tree.id)
  holds : ∀ t, some t ∈ trees → Holds s.nodes none t
  nodup : (allIds trees).Nodup

end Orp.Mondrian
