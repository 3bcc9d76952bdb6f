import Verif.Basic
import Verif.Dbl
import Mathlib.Data.Rat.Defs
import Mathlib.Algebra.Order.Ring.Rat
import Mathlib.Algebra.Field.Rat

/-!
Model of `MCNN` (`/repo/src/mc_nn.hpp`, whole class).

* Features are exact numbers of an ordered field `K` (`feature_type` = `double` without rounding; the instantiation with
  `int`, for which lines 91 and 178 divide differently, is modelled in `IntModel.lean`). A data point is a list of `feature_count` numbers; loops
  over the features are `List.zipWith`, `List.map` and `List.sum`.
* Timestamps are integers (they are integer valued in the code); the participation of a cluster, which can be infinite or NaN, is a `Dbl ℚ`.
* The indices -1 of the code are `none`. `sqrt` (line 277) is a parameter.
* The clusters of a new object are indeterminate: they are an argument of `new`.
-/

namespace Orp.Mcnn

variable {K : Type} [Field K] [LinearOrder K]

/-- `cluster` (mc_nn.hpp:17-25) -/
structure Cluster (K : Type) where
  /-- `features_square_sum` -/
  sq : List K
  /-- `features_sum` -/
  sum : List K
  tsSq : Int
  tsSum : Int
  /-- `data_count` -/
  n : Nat
  label : Int
  err : Int
  init : Int
  deriving DecidableEq

/-- `variance` (mc_nn.hpp:35-40) for all features -/
def Cluster.variances (c : Cluster K) : List K :=
  List.zipWith (fun q s => q / (c.n : K) - (s / (c.n : K)) * (s / (c.n : K))) c.sq c.sum

/-- `incorporate` (mc_nn.hpp:46-54) -/
def Cluster.incorporate (c : Cluster K) (x : List K) (t : Int) : Cluster K :=
  { c with
    tsSum := c.tsSum + t
    tsSq := c.tsSq + t * t
    n := c.n + 1
    sum := List.zipWith (fun s v => s + v) c.sum x
    sq := List.zipWith (fun s v => s + v * v) c.sq x }

/-- `triangular_number` (mc_nn.hpp:27-30) -/
def triangular (t : Int) : ℚ := ((t * t + t : Int) : ℚ) * (1 / 2)

/-- `performance` (mc_nn.hpp:59-65) -/
def Cluster.performance (c : Cluster K) (now : Int) : Dbl ℚ :=
  Dbl.mul (.fin (c.tsSum : ℚ)) (Dbl.div (.fin 100) (.fin (triangular now - triangular c.init)))

/-- `initialize` (mc_nn.hpp:73-84) -/
def initCluster (x : List K) (label : Int) (t : Int) (thr : Int) : Cluster K :=
  { init := t, tsSum := t, tsSq := t * t, n := 1, err := thr, label := label, sum := x, sq := x.map (fun v => v * v) }

/-- `centroid` (mc_nn.hpp:89-93); `data_count` is not zero for active clusters (proved). -/
def Cluster.centroid (c : Cluster K) : List K := c.sum.map (fun s => s / (c.n : K))

/-- Object state (mc_nn.hpp:115-123) -/
structure State (K : Type) where
  clusters : List (Cluster K)
  active : List Bool
  /-- `count_active_cluster` -/
  count : Int
  timestamp : Int
  errorThr : Int
  perfThr : ℚ
  cleaning : Nat
  deriving DecidableEq

/-- Constructor (mc_nn.hpp:115-123, 294-298) -/
def new (garbage : List (Cluster K)) (errorThr : Nat) (cleaning : Nat) (perfThr : ℚ) : State K :=
  { clusters := garbage, active := garbage.map (fun _ => false), count := 0, timestamp := -1, errorThr := errorThr,
    perfThr := perfThr, cleaning := cleaning }

/-- `get_lowest_participation` (mc_nn.hpp:130-143), from cluster `i`, `k` clusters left; the pair is `lowest`,
`lowest_value`. -/
def lowestLoop (s : State K) : Nat → Nat → Option Nat → Dbl ℚ → Res (Option Nat)
  | _, 0, low, _ => .ok low
  | i, k + 1, low, val => do
      let a ← rd s.active i
      if a then do
        let c ← rd s.clusters i
        let perf := c.performance s.timestamp
        if low = none ∨ perf.lt val then lowestLoop s (i + 1) k (some i) perf
        else lowestLoop s (i + 1) k low val
      else lowestLoop s (i + 1) k low val

def lowest (s : State K) : Res (Option Nat) := lowestLoop s 0 s.clusters.length none (.fin 101)

/-- First loop of `split` (mc_nn.hpp:149-155): first inactive cluster other than `skip`. -/
def freeLoop (active : List Bool) (skip : Option Nat) : Nat → Nat → Res (Option Nat)
  | _, 0 => .ok none
  | i, k + 1 => do
      let a ← rd active i
      if a = false ∧ some i ≠ skip then return some i
      else freeLoop active skip (i + 1) k

/-- The loop that chooses the split attribute (mc_nn.hpp:165-173). -/
def splitLoop : List K → Nat → Option Nat → K → Option Nat × K
  | [], _, idx, hv => (idx, hv)
  | v :: vs, i, idx, hv =>
      if v > hv ∨ idx = none then splitLoop vs (i + 1) (some i) v else splitLoop vs (i + 1) idx hv

/-- Last part of `split` (mc_nn.hpp:164-191), with `newIdx` chosen. -/
def splitInto (sqrt : K → K) (s : State K) (ci newIdx : Nat) : Res (State K) := do
  let c ← rd s.clusters ci
  match splitLoop c.variances 0 none 0 with
  | (none, _) => .error .ub -- feature_count = 0: writes cluster_minus[-1]
  | (some si, hv) => do
      let h := sqrt hv
      let center := c.centroid
      let old : Int := c.tsSum.tdiv (c.n : Int)
      let clusters ← wr s.clusters newIdx (initCluster (center.modify si (fun v => v - h)) c.label old s.errorThr)
      let c2 ← rd clusters ci
      let clusters ← wr clusters ci (initCluster (center.modify si (fun v => v + h)) c2.label old s.errorThr)
      let active ← wr s.active newIdx true
      return { s with
        clusters := clusters
        active := active
        count := s.count + 1 }

/-- `split` (mc_nn.hpp:148-192) -/
def split (sqrt : K → K) (s : State K) (ci : Nat) : Res (State K) := do
  match ← freeLoop s.active (some ci) 0 s.clusters.length with
  | some j => splitInto sqrt s ci j
  | none =>
      if s.cleaning = 0 ∨ s.cleaning = 2 then do
        match ← lowest s with
        | some j => splitInto sqrt s ci j
        | none => .error .ub
      else return s

/-- `euclidean_distance` (mc_nn.hpp:198-204) -/
def distance (a b : List K) : K := (List.zipWith (fun x y => (x - y) * (x - y)) a b).sum

/-- The search loops (mc_nn.hpp:225-236 and 254-266): nearest active cluster among those selected by `p`, from cluster `i`, `k`
clusters left. -/
def nearestLoop (s : State K) (x : List K) (p : Cluster K → Bool) : Nat → Nat → Option Nat → K → Res (Option Nat × K)
  | _, 0, best, d => .ok (best, d)
  | i, k + 1, best, d => do
      let a ← rd s.active i
      let c ← rd s.clusters i
      if a && p c then
        let e := distance x c.centroid
        if e < d then nearestLoop s x p (i + 1) k (some i) e else nearestLoop s x p (i + 1) k best d
      else nearestLoop s x p (i + 1) k best d

/-- `find_nearest_clusters` with three arguments (mc_nn.hpp:249-271) -/
def findNearest (s : State K) (x : List K) : Res (Option Nat × K) :=
  nearestLoop s x (fun _ => true) 0 s.clusters.length none 1000000

/-- `find_nearest_clusters` with a label (mc_nn.hpp:212-242): nearest, nearest with the label -/
def findNearestClass (s : State K) (x : List K) (label : Int) : Res (Option Nat × Option Nat) := do
  let (near, dn) ← findNearest s x
  let same : Bool ← match near with
    | some j => do
        let c ← rd s.clusters j
        pure (decide (c.label = label))
    | none => pure false
  if same then return (near, near)
  else do
    let (nc, dc) ← nearestLoop s x (fun c => decide (c.label = label)) 0 s.clusters.length none 1000000
    if dc = dn then return (nc, nc) else return (near, nc)

/-- `clean_low_performance_clusters` (mc_nn.hpp:282-286) -/
def clean (s : State K) : State K :=
  { s with active := List.zipWith (fun a c => if a && decide (c.n > 1) && (c.performance s.timestamp).lt (.fin s.perfThr)
      then false else a) s.active s.clusters }

/-- `train` when no cluster with the label is near (mc_nn.hpp:316-333) -/
def insert (s : State K) (x : List K) (label : Int) : Res (State K × Bool) := do
  match ← freeLoop s.active none 0 s.clusters.length with
  | some i => do
      let active ← wr s.active i true
      let clusters ← wr s.clusters i (initCluster x label s.timestamp s.errorThr)
      return ({ s with
        active := active
        clusters := clusters
        count := s.count + 1 }, true)
  | none =>
      if s.cleaning = 0 ∨ s.cleaning = 2 then do
        match ← lowest s with
        | some i => do
            let clusters ← wr s.clusters i (initCluster x label s.timestamp s.errorThr)
            return ({ s with clusters := clusters }, true)
        | none => .error .ub
      else return (s, false)

/-- `train` when a cluster with the label is near (mc_nn.hpp:335-359) -/
def absorb (sqrt : K → K) (s : State K) (x : List K) (near nc : Nat) : Res (State K) := do
  if near = nc then do
    let c ← rd s.clusters near
    let clusters ← wr s.clusters near (({ c with err := c.err + 1 } : Cluster K).incorporate x s.timestamp)
    return { s with clusters := clusters }
  else do
    let a ← rd s.clusters near
    let clusters ← wr s.clusters near { a with err := a.err - 1 }
    let b ← rd clusters nc
    let clusters ← wr clusters nc (({ b with err := b.err - 1 } : Cluster K).incorporate x s.timestamp)
    let s := { s with clusters := clusters }
    let s ← if b.err - 1 ≤ 0 then split sqrt s nc else pure s
    let a ← rd s.clusters near
    if a.err ≤ 0 then split sqrt s near else return s

/-- `train` (mc_nn.hpp:305-360) -/
def train (sqrt : K → K) (s : State K) (x : List K) (label : Int) : Res (State K × Bool) := do
  let s := if s.cleaning = 1 ∨ s.cleaning = 2 then clean s else s
  let s := { s with timestamp := s.timestamp + 1 }
  match ← findNearestClass s x label with
  | (_, none) => insert s x label
  | (none, some _) => .error .ub
  | (some near, some nc) => do
      let s ← absorb sqrt s x near nc
      return (s, true)

/-- `predict` (mc_nn.hpp:366-374) -/
def predict (emptyClass : Int) (s : State K) (x : List K) : Res Int := do
  match (← findNearest s x).1 with
  | none => return emptyClass
  | some j => do
      let c ← rd s.clusters j
      return c.label

/-- `count_clusters` (mc_nn.hpp:379-381) -/
def countClusters (s : State K) : Int := s.count

/-- A training history: points with labels, the results of `train` are dropped. -/
def run (sqrt : K → K) (s : State K) : List (List K × Int) → Res (State K)
  | [] => .ok s
  | p :: ps => do
      let (s, _) ← train sqrt s p.1 p.2
      run sqrt s ps

end Orp.Mcnn
