import Mathlib.Algebra.BigOperators.Fin
import Mathlib.Algebra.BigOperators.Group.Finset.Basic
import Mathlib.Algebra.Order.Field.Rat
import Mathlib.Logic.Function.Basic
import Verif.Basic
import Verif.Dbl

/-!
Model of `HoeffdingTree` (`/repo/src/hoeffding_tree.hpp`, whole class).

* `feature_count` is `sizes.length`; a data point is a function from feature numbers, of which only those below `feature_count` are read.
* The buffer holds the nodes from its beginning and blocks of counters from its end. Nodes are the list `nodes`; node `i` starts at byte
  `i * sizeof(Node)`. Block number `b` is the memory from byte `max_size - (b+1)*total`, where `total` is `compute_total_size_counters`. An access to a block
  that begins before the end of the nodes or lies outside the buffer is undefined behaviour here. Alignment is not modelled.
* Boxes, limits and split values are `Dbl`: exact numbers, infinities or NaN. Information gains are exact numbers. Quotients `0/0`, which are NaN in the code, are only
  compared with 0 or replaced by 0 (lines 275, 378-388); they are 0 here, see `ratio`.
* `operator new` is not `noexcept`; when it returns `nullptr` the constructor runs on a null pointer, which is undefined behaviour.
-/

namespace Orp.Hoeffding

variable {K : Type} [Field K] [LinearOrder K] {L : Nat}

/-- Template and constructor parameters (hoeffding_tree.hpp:13, 17-24, 483) -/
structure Params (K : Type) where
  /-- `features_size` -/
  sizes : List Nat
  delta : K
  /-- `max_size` -/
  maxSize : Nat
  /-- `sizeof(Node)` -/
  nodeSize : Nat
  /-- natural logarithm -/
  log : K → K
  /-- base two logarithm -/
  log2 : K → K

/-- `sum_feature_size` (hoeffding_tree.hpp:484-488) -/
def Params.sum (p : Params K) : Nat := p.sizes.sum

/-- `sum_feature_size-feature_count`, the number of limits of a leaf; the bins of a feature have one limit less. The theorems assume that every feature has
at least one bin, so this is not negative. -/
def Params.limitCount (p : Params K) : Nat := p.sum - p.sizes.length

/-- `compute_total_size_counters` (hoeffding_tree.hpp:445-450), with 4 bytes per `int` and 8 per `double` -/
def Params.total (p : Params K) (L : Nat) : Nat := 4 + 2 * p.limitCount * 8 + p.sum * 4 * L

/-- A block of counters (hoeffding_tree.hpp:400-434). The counters of the code are indexed by label, then by bin; here `bins` is indexed by bin, then by label. -/
structure Block (K : Type) (L : Nat) where
  count : Nat
  limits : List (Dbl K)
  infoSum : List K
  bins : List (Fin L → Nat)

/-- `Node` (hoeffding_tree.hpp:27-40); `value = none` is the indeterminate value of an uninitialised variable. -/
structure Node (K : Type) where
  split : Int
  value : Option (Dbl K)
  lbox : List (Dbl K)
  ubox : List (Dbl K)
  left : Int
  right : Int

/-- Object state (hoeffding_tree.hpp:16-24); `buffer_offset` is `nodes.length * sizeof(Node)`. -/
structure Tree (K : Type) (L : Nat) where
  nodes : List (Node K)
  blocks : Nat → Block K L
  /-- `buffer_preset` -/
  preset : Int

/-- a block of zeros (hoeffding_tree.hpp:457-463) -/
def zeroBlock (p : Params K) : Block K L :=
  { count := 0, limits := List.replicate p.limitCount (.fin 0), infoSum := List.replicate p.limitCount 0, bins := List.replicate p.sum (fun _ => 0) }

/-- The number of the block of a node with a given `split_feature` (hoeffding_tree.hpp:411, 428, 460); undefined if the block is not between the nodes and the end of
the buffer. -/
def blockOf (p : Params K) (s : Tree K L) (split : Int) : Res Nat :=
  let base : Int := p.maxSize + split * p.total L
  if split < 0 ∧ ((s.nodes.length * p.nodeSize : Nat) : Int) ≤ base then .ok (-split - 1).toNat else .error .ub

/-- the block of a node (hoeffding_tree.hpp:400-434) -/
def getBlock (p : Params K) (s : Tree K L) (split : Int) : Res (Block K L) := do
  let b ← blockOf p s split
  return s.blocks b

/-- writes to the block of a node (through the pointers of hoeffding_tree.hpp:400-434) -/
def setBlock (p : Params K) (s : Tree K L) (split : Int) (blk : Block K L) : Res (Tree K L) := do
  let b ← blockOf p s split
  return { s with blocks := Function.update s.blocks b blk }

/-- `operator new` (hoeffding_tree.hpp:329-337) and storing a node -/
def alloc (p : Params K) (s : Tree K L) (n : Node K) : Res (Tree K L) :=
  let tmpOffset : Int := ((s.nodes.length * p.nodeSize + p.nodeSize : Nat) : Int)
  let tmpPreset : Int := s.preset - p.total L
  if tmpPreset < tmpOffset then .error .ub else .ok { s with nodes := s.nodes ++ [n] }

/-- `Node(HoeffdingTree&)` (hoeffding_tree.hpp:46-65, `reset_counters` 457-463) in `new (*tree) Node(*tree)` -/
def newNode (p : Params K) (s : Tree K L) : Res (Tree K L) := do
  let tmpPreset : Int := s.preset - p.total L
  let split : Int := - ((p.maxSize - tmpPreset) / p.total L)
  let s ← alloc p s {
    split := split
    value := none
    lbox := List.replicate p.sizes.length .ninf
    ubox := List.replicate p.sizes.length .pinf
    left := -1
    right := -1 }
  setBlock p s split (zeroBlock p)

/-- `Node(Node const&)` (hoeffding_tree.hpp:71-81) in `new (*tree) Node(parent)` -/
def copyNode (p : Params K) (s : Tree K L) (parent : Node K) : Res (Tree K L) := do
  let s ← alloc p s { parent with
    value := none
    left := -1
    right := -1 }
  setBlock p s parent.split (zeroBlock p)

/-- Constructor (hoeffding_tree.hpp:483-492) -/
def new (p : Params K) : Res (Tree K L) := newNode p { nodes := [], blocks := fun _ => zeroBlock p, preset := p.maxSize }

/-! ### Bins -/

/-- The loop over the limits of one feature (hoeffding_tree.hpp:184-196) from bin `i`; `k` limits left; `base` is the index of the first limit of the feature. -/
def findBin (limits : List (Dbl K)) (base : Nat) (x : K) : Nat → Nat → Res Nat
  | i, 0 => .ok i
  | i, k + 1 => do
      let l ← rd limits (base + i)
      if Dbl.lt (.fin x) l then return i else findBin limits base x (i + 1) k

/-- one more point of a label in a bin (hoeffding_tree.hpp:189, 196) -/
def bump (c : Fin L → Nat) (label : Fin L) : Fin L → Nat := fun l => if l = label then c l + 1 else c l

/-- The loop over the features (hoeffding_tree.hpp:183-198): feature number `f` with the first bin `start`, for the features left. A feature without bins
writes in front of its counters. -/
def fillBins (limits : List (Dbl K)) (x : Nat → K) (label : Fin L) : Nat → Nat → List Nat → List (Fin L → Nat) → Res (List (Fin L → Nat))
  | _, _, [], bins => .ok bins
  | f, start, sz :: rest, bins =>
      if sz = 0 then .error .ub
      else do
        let i ← findBin limits (start - f) (x f) 0 (sz - 1)
        let c ← rd bins (start + i)
        let bins ← wr bins (start + i) (bump c label)
        fillBins limits x label (f + 1) (start + sz) rest bins

/-! ### Information gain -/

/-- `a/b`, where the NaN of `0/0` is replaced by 0. (Where it is used, `b = 0` implies `a = 0`.) -/
def ratio (a b : K) : K := if b = 0 then 0 else a / b

/-- the summand `x*log2(x)` if `x > 0` (hoeffding_tree.hpp:275-276, 378-381) -/
def xlog (p : Params K) (x : K) : K := if 0 < x then x * p.log2 x else 0

/-- Entropy of one cut from the counts of both sides (hoeffding_tree.hpp:360-391) -/
def cutEntropy (p : Params K) (s0 s1 : Fin L → Int) : K :=
  let sum0 : K := ∑ l, ((s0 l : Int) : K)
  let sum1 : K := ∑ l, ((s1 l : Int) : K)
  let part0 := ∑ l, xlog p (ratio (s0 l) sum0)
  let part1 := ∑ l, xlog p (ratio (s1 l) sum1)
  (-1) * part0 * ratio sum0 (sum0 + sum1) + (-1) * part1 * ratio sum1 (sum0 + sum1)

/-- The loop over the cuts of a feature (hoeffding_tree.hpp:357-393): `start+v` is the next bin, `k` cuts left. -/
def cutLoop (p : Params K) (bins : List (Fin L → Nat)) (start : Nat) : Nat → Nat → (Fin L → Int) → (Fin L → Int) → Res (List K)
  | _, 0, _, _ => .ok []
  | v, k + 1, s0, s1 => do
      let c ← rd bins (start + v)
      let s0 := fun l => s0 l + (c l : Int)
      let s1 := fun l => s1 l - (c l : Int)
      let rest ← cutLoop p bins start (v + 1) k s0 s1
      return cutEntropy p s0 s1 :: rest

/-- The sum of the counters of a feature (hoeffding_tree.hpp:350-354, also 105-109 and 271-273) from bin `start+v`, `k` bins left -/
def sideSum (bins : List (Fin L → Nat)) (start : Nat) : Nat → Nat → (Fin L → Int) → Res (Fin L → Int)
  | _, 0, acc => .ok acc
  | v, k + 1, acc => do
      let c ← rd bins (start + v)
      sideSum bins start (v + 1) k (fun l => acc l + (c l : Int))

/-- `compute_entropy` (hoeffding_tree.hpp:346-394) -/
def featureEntropy (p : Params K) (bins : List (Fin L → Nat)) (start sz : Nat) : Res (List K) := do
  let s1 ← sideSum bins start 0 sz (fun _ => 0)
  cutLoop p bins start 0 (sz - 1) (fun _ => 0) s1

/-- The loop over the features (hoeffding_tree.hpp:280-286): the entropies of all cuts in order -/
def entropies (p : Params K) (bins : List (Fin L → Nat)) : Nat → List Nat → Res (List K)
  | _, [] => .ok []
  | start, sz :: rest => do
      let a ← featureEntropy p bins start sz
      let b ← entropies p bins (start + sz) rest
      return a ++ b

/-- Entropy of the leaf (hoeffding_tree.hpp:269-278) from the number of points per label -/
def leafEntropy (p : Params K) (count : Nat) (c : Fin L → Int) : K := (∑ l, xlog p (ratio (c l) (count : K))) * (-1)

/-- `compute_information_gain` with counters (hoeffding_tree.hpp:268-289) -/
def gains (p : Params K) (count : Nat) (bins : List (Fin L → Nat)) : Res (List K) := do
  let sz ← rd p.sizes 0
  let c ← sideSum bins 0 0 sz (fun _ => 0)
  let e ← entropies p bins 0 p.sizes
  return e.map (fun x => leafEntropy p count c - x)

/-! ### Training a leaf -/

/-- Upper bounds after a point (hoeffding_tree.hpp:178-181), from feature `f` -/
def growUpper (x : Nat → K) : Nat → List (Dbl K) → List (Dbl K)
  | _, [] => []
  | f, u :: us => (if Dbl.lt u (.fin (x f)) then .fin (x f) else u) :: growUpper x (f + 1) us

/-- Lower bounds after a point (hoeffding_tree.hpp:180) -/
def growLower (x : Nat → K) : Nat → List (Dbl K) → List (Dbl K)
  | _, [] => []
  | f, l :: ls => (if Dbl.lt (.fin (x f)) l then .fin (x f) else l) :: growLower x (f + 1) ls

/-- The two best cuts (hoeffding_tree.hpp:219-227): the loop from index `i` -/
def bestLoop (best : Nat) (b0 b1 : K) : Nat → List K → Nat × K × K
  | _, [] => (best, b0, b1)
  | i, g :: gs => if b0 < g then bestLoop i g b0 (i + 1) gs else if b1 < g then bestLoop best b0 g (i + 1) gs else bestLoop best b0 b1 (i + 1) gs

/-- The index of the best cut, its information gain and the second best gain (hoeffding_tree.hpp:211-227). With fewer than two cuts the code reads past the end
of `info_gain`. -/
def bestTwo : List K → Res (Nat × K × K)
  | g0 :: g1 :: gs => .ok (if g0 < g1 then bestLoop 1 g1 g0 2 gs else bestLoop 0 g0 g1 2 gs)
  | _ => .error .ub

/-- The feature of a cut as the code finds it (hoeffding_tree.hpp:235-242): the loop at feature `f`, `acc` is `tmp_c` -/
def decodeLoop (i : Nat) : Nat → Nat → List Nat → Nat
  | f, _, [] => f
  | f, acc, sz :: rest => if i < acc then f else decodeLoop i (f + 1) (acc + sz) rest

/-- The feature of a cut, first step (hoeffding_tree.hpp:235) -/
def decode (sizes : List Nat) (i : Nat) : Nat :=
  match sizes with
  | [] => 0
  | sz :: rest => decodeLoop i 0 sz rest

/-- `Node::train` (hoeffding_tree.hpp:161-245) on node `id`: new state, and the feature and value of the suggested split, if any -/
def trainNode (p : Params K) (s : Tree K L) (id : Nat) (x : Nat → K) (label : Fin L) : Res (Tree K L × Option (Nat × Dbl K)) := do
  let n ← rd s.nodes id
  let b ← getBlock p s n.split
  let count := b.count + 1
  let nodes ← wr s.nodes id { n with
    lbox := growLower x 0 n.lbox
    ubox := growUpper x 0 n.ubox }
  let bins ← fillBins b.limits x label 0 0 p.sizes b.bins
  let g ← gains p count bins
  let infoSum := List.zipWith (· + ·) b.infoSum g
  let s ← setBlock p { s with nodes := nodes } n.split { b with
    count := count
    infoSum := infoSum
    bins := bins }
  let (best, g0, g1) ← bestTwo (infoSum.map (fun a => a / (count : K)))
  let epsilon := 4 * p.log (1 / p.delta) / (2 * (count : K))
  let diff := g0 - g1
  if epsilon < diff * diff ∧ 0 < g0 then do
    let v ← rd b.limits best
    return (s, some (decode p.sizes best, v))
  else return (s, none)

/-! ### Splitting -/

/-- The limits of one feature (hoeffding_tree.hpp:315-320): those from number `i`, `k` left -/
def featureLimits (l u : Dbl K) (sz : Nat) : Nat → Nat → List (Dbl K)
  | _, 0 => []
  | i, k + 1 => Dbl.add l (Dbl.mul (.fin (i : K)) (Dbl.div (Dbl.sub u l) (.fin (sz : K)))) :: featureLimits l u sz (i + 1) k

/-- `select_split_values` (hoeffding_tree.hpp:308-322): the limits of all features -/
def newLimits : List (Dbl K) → List (Dbl K) → List Nat → List (Dbl K)
  | l :: ls, u :: us, sz :: rest => featureLimits l u sz 1 (sz - 1) ++ newLimits ls us rest
  | _, _, _ => []

/-- `select_split_values` on node `id` (hoeffding_tree.hpp:308-322) -/
def selectSplitValues (p : Params K) (s : Tree K L) (id : Nat) : Res (Tree K L) := do
  let n ← rd s.nodes id
  let b ← getBlock p s n.split
  setBlock p s n.split { b with limits := newLimits n.lbox n.ubox p.sizes }

/-- `Node::split` (hoeffding_tree.hpp:126-154) on node `id` -/
def splitNode (p : Params K) (s : Tree K L) (id : Nat) (feature : Nat) (value : Dbl K) : Res (Tree K L) := do
  let right := s.nodes.length
  let s ← newNode p s
  let n ← rd s.nodes id
  let left := s.nodes.length
  let s ← copyNode p s n
  let nodes ← wr s.nodes id { n with
    split := feature
    value := some value
    left := left
    right := right }
  let r ← rd nodes right
  let rl ← wr n.lbox feature value
  let nodes ← wr nodes right { r with
    lbox := rl
    ubox := n.ubox }
  let l ← rd nodes left
  let lu ← wr l.ubox feature value
  let nodes ← wr nodes left { l with ubox := lu }
  let s ← selectSplitValues p { s with nodes := nodes } right
  selectSplitValues p s left

/-! ### The tree -/

/-- The loop of `sort_in_leaf` (hoeffding_tree.hpp:545-559), at most `k` steps left: the node reached -/
def sortLoop (s : Tree K L) (x : Nat → K) (featureCount : Nat) : Nat → Nat → Res Nat
  | 0, id => .ok id
  | k + 1, id => do
      let n ← rd s.nodes id
      if n.split < 0 then return id
      else if featureCount ≤ n.split.toNat then .error .ub
      else match n.value with
        | none => .error .ub
        | some v =>
            let child := if Dbl.le (.fin (x n.split.toNat)) v then n.left else n.right
            if child < 0 then .error .ub else sortLoop s x featureCount k child.toNat

/-- `sort_in_leaf` (hoeffding_tree.hpp:545-559) -/
def sortInLeaf (p : Params K) (s : Tree K L) (x : Nat → K) : Res Nat := sortLoop s x p.sizes.length (p.maxSize / p.nodeSize) 0

/-- `train` (hoeffding_tree.hpp:499-513); it returns true unless memory is exhausted, which is undefined behaviour before. -/
def train (p : Params K) (s : Tree K L) (x : Nat → K) (label : Fin L) : Res (Tree K L) := do
  let leaf ← sortInLeaf p s x
  let (s, r) ← trainNode p s leaf x label
  match r with
  | none => return s
  | some (f, v) => do
      let s ← splitNode p s leaf f v
      let n ← rd s.nodes leaf
      let child := if Dbl.le (.fin (x f)) v then n.left else n.right
      if child < 0 then .error .ub
      else do
        let (s, _) ← trainNode p s child.toNat x label
        return s

/-- The index of the largest score (hoeffding_tree.hpp:524-527): the loop from index `i` -/
def argmaxLoop (best : Nat) (v : Dbl K) : Nat → List (Dbl K) → Nat
  | _, [] => best
  | i, y :: ys => if Dbl.lt v y then argmaxLoop i y (i + 1) ys else argmaxLoop best v (i + 1) ys

/-- The index of the largest score (hoeffding_tree.hpp:524-527) -/
def argmax : List (Dbl K) → Nat
  | [] => 0
  | y :: ys => argmaxLoop 0 y 1 ys

/-- `Node::predict` (hoeffding_tree.hpp:93-119): the scores from the number of points per label -/
def scoresOf (c : Fin L → Int) : List (Dbl K) := List.ofFn (fun l => Dbl.div (.fin ((c l : Int) : K)) (.fin (∑ k, ((c k : Int) : K))))

/-- `predict` (hoeffding_tree.hpp:520-533): label and scores -/
def predict (p : Params K) (s : Tree K L) (x : Nat → K) : Res (Nat × List (Dbl K)) := do
  let leaf ← sortInLeaf p s x
  let n ← rd s.nodes leaf
  let b ← getBlock p s n.split
  let sz ← rd p.sizes 0
  let c ← sideSum b.bins 0 0 sz (fun _ => 0)
  let sc := scoresOf c
  return (argmax sc, sc)

/-- `get_root()->set_limits(limits)` (hoeffding_tree.hpp:294-301, 537-539). The caller's array has at least `limitCount` elements. -/
def setLimits (p : Params K) (s : Tree K L) (limits : Nat → Dbl K) : Res (Tree K L) := do
  let n ← rd s.nodes 0
  let b ← getBlock p s n.split
  setBlock p s n.split { b with limits := (List.range p.limitCount).map limits }

/-- `get_root()->compute_information_gain(output)` (hoeffding_tree.hpp:251-260) -/
def rootGains (p : Params K) (s : Tree K L) : Res (List K) := do
  let n ← rd s.nodes 0
  let b ← getBlock p s n.split
  gains p b.count b.bins

/-- A call on the object; `rootTrain` is `get_root()->train(…)`, which does not split, and `rootSplit` is `get_root()->split(…)`. -/
inductive Op (K : Type) (L : Nat) where
  | train (x : Nat → K) (label : Fin L)
  | predict (x : Nat → K)
  | rootTrain (x : Nat → K) (label : Fin L)
  | setLimits (limits : Nat → Dbl K)
  | rootSplit (feature : Nat) (value : Dbl K)

/-- Executes a call; the returned values are dropped. -/
def exec (p : Params K) (op : Op K L) (s : Tree K L) : Res (Tree K L) :=
  match op with
  | .train x label => train p s x label
  | .predict x => (predict p s x).map (fun _ => s)
  | .rootTrain x label => (trainNode p s 0 x label).map (·.1)
  | .setLimits l => setLimits p s l
  | .rootSplit f v => splitNode p s 0 f v

/-- A history of calls -/
def run (p : Params K) : List (Op K L) → Tree K L → Res (Tree K L)
  | [], s => .ok s
  | op :: ops, s => do
      let s ← exec p op s
      run p ops s

end Orp.Hoeffding
