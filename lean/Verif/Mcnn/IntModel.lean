import Verif.Mcnn.Model
import Mathlib.Data.Rat.Floor

/-!
Model of `MCNN<int, …>` (`/repo/src/mc_nn.hpp`): the class instantiated with `feature_type` = `int`.

The files `Model.lean` and following treat the features as exact real numbers. With integer features the same source text
means something else:

* `features_sum` and `features_square_sum` are `int` with 32 bits, and a sum, difference or product that does not fit is undefined behaviour;
* `centroid` (line 91) divides as `double` and stores the quotient in an `int`, which truncates toward zero;
* `split` (line 178) divides an `int` by an `unsigned int`: the sum is first converted to `unsigned int`;
* lines 182-183 add a `double` to an `int` and convert back, which truncates.

The clusters and the state are those of `Model.lean` at type `Int`; `double` computations are exact. (The integer-valued
`double`s of lines 91 and 202 are exact up to 2^53; the quotient of line 91 is not, but rounding it does not reach another integer,
because its numerator is below 2^31.)
-/

namespace Orp.McnnInt

open Orp.Mcnn (freeLoop splitLoop triangular)

abbrev Cluster := Orp.Mcnn.Cluster Int
abbrev State := Orp.Mcnn.State Int

/-- The result of an `int` operation: undefined behaviour unless it fits in 32 bits. -/
def int32 (z : Int) : Res Int := if -2147483648 ≤ z ∧ z ≤ 2147483647 then .ok z else .error .ub

/-- Conversion of a `double` to `int`: toward zero. -/
def trunc (q : ℚ) : Int := if 0 ≤ q then ⌊q⌋ else ⌈q⌉

/-- `variance` (mc_nn.hpp:35-40) for all features; the sums are converted to `double` first. -/
def variances (c : Cluster) : List ℚ :=
  List.zipWith (fun q s => (q : ℚ) / (c.n : ℚ) - ((s : ℚ) / (c.n : ℚ)) * ((s : ℚ) / (c.n : ℚ))) c.sq c.sum

/-- The loop of `incorporate` (mc_nn.hpp:50-53) over the features: new sums and sums of squares. -/
def incLoop : List Int → List Int → List Int → Res (List Int × List Int)
  | s :: ss, q :: qs, v :: vs => do
      let s' ← int32 (s + v)
      let w ← int32 (v * v)
      let q' ← int32 (q + w)
      let (ss', qs') ← incLoop ss qs vs
      return (s' :: ss', q' :: qs')
  | _, _, _ => .ok ([], [])

/-- `incorporate` (mc_nn.hpp:46-54) -/
def incorporate (c : Cluster) (x : List Int) (t : Int) : Res Cluster := do
  let (sum, sq) ← incLoop c.sum c.sq x
  return { c with
    tsSum := c.tsSum + t
    tsSq := c.tsSq + t * t
    n := c.n + 1
    sum := sum
    sq := sq }

/-- `performance` (mc_nn.hpp:59-65) -/
def performance (c : Cluster) (now : Int) : Dbl ℚ :=
  Dbl.mul (.fin (c.tsSum : ℚ)) (Dbl.div (.fin 100) (.fin (triangular now - triangular c.init)))

/-- The squares of `initialize` (mc_nn.hpp:80-83). -/
def squares : List Int → Res (List Int)
  | [] => .ok []
  | v :: vs => do
      let w ← int32 (v * v)
      let ws ← squares vs
      return w :: ws

/-- `initialize` (mc_nn.hpp:73-84) -/
def initCluster (x : List Int) (label : Int) (t : Int) (thr : Int) : Res Cluster := do
  let sq ← squares x
  return { init := t, tsSum := t, tsSq := t * t, n := 1, err := thr, label := label, sum := x, sq := sq }

/-- `centroid` (mc_nn.hpp:89-93) -/
def centroid (c : Cluster) : List Int := c.sum.map (fun s => s.tdiv (c.n : Int))

/-- `features_sum / data_count` (mc_nn.hpp:178): the `int` is converted to `unsigned int`, divided, and the quotient is converted
back to `int` (both conversions are modulo 2^32). -/
def unsignedDiv (s : Int) (n : Nat) : Int :=
  let u := (s % 4294967296) / (n : Int)
  if u < 2147483648 then u else u - 4294967296

/-- Constructor (mc_nn.hpp:115-123, 294-298) -/
def new (garbage : List Cluster) (errorThr : Nat) (cleaning : Nat) (perfThr : ℚ) : State :=
  { clusters := garbage, active := garbage.map (fun _ => false), count := 0, timestamp := -1, errorThr := errorThr,
    perfThr := perfThr, cleaning := cleaning }

/-- `get_lowest_participation` (mc_nn.hpp:130-143), from cluster `i`, `k` clusters left. -/
def lowestLoop (s : State) : Nat → Nat → Option Nat → Dbl ℚ → Res (Option Nat)
  | _, 0, low, _ => .ok low
  | i, k + 1, low, val => do
      let a ← rd s.active i
      if a then do
        let c ← rd s.clusters i
        let perf := performance c s.timestamp
        if low = none ∨ perf.lt val then lowestLoop s (i + 1) k (some i) perf
        else lowestLoop s (i + 1) k low val
      else lowestLoop s (i + 1) k low val

def lowest (s : State) : Res (Option Nat) := lowestLoop s 0 s.clusters.length none (.fin 101)

/-- Last part of `split` (mc_nn.hpp:164-191), with `newIdx` chosen. -/
def splitInto (sqrt : ℚ → ℚ) (s : State) (ci newIdx : Nat) : Res State := do
  let c ← rd s.clusters ci
  match splitLoop (variances c) 0 none 0 with
  | (none, _) => .error .ub -- feature_count = 0: writes cluster_minus[-1]
  | (some si, hv) => do
      let h := sqrt hv
      let center := c.sum.map (fun v => unsignedDiv v c.n)
      let v ← rd center si
      let lower ← int32 (trunc ((v : ℚ) - h))
      let upper ← int32 (trunc ((v : ℚ) + h))
      let old : Int := c.tsSum.tdiv (c.n : Int)
      let a ← initCluster (center.set si lower) c.label old s.errorThr
      let clusters ← wr s.clusters newIdx a
      let c2 ← rd clusters ci
      let b ← initCluster (center.set si upper) c2.label old s.errorThr
      let clusters ← wr clusters ci b
      let active ← wr s.active newIdx true
      return { s with
        clusters := clusters
        active := active
        count := s.count + 1 }

/-- `split` (mc_nn.hpp:148-192) -/
def split (sqrt : ℚ → ℚ) (s : State) (ci : Nat) : Res State := do
  match ← freeLoop s.active (some ci) 0 s.clusters.length with
  | some j => splitInto sqrt s ci j
  | none =>
      if s.cleaning = 0 ∨ s.cleaning = 2 then do
        match ← lowest s with
        | some j => splitInto sqrt s ci j
        | none => .error .ub
      else return s

/-- `euclidean_distance` (mc_nn.hpp:198-204): the differences and products are `int`, their sum is a `double`. -/
def distance : List Int → List Int → Res Int
  | x :: xs, y :: ys => do
      let d ← int32 (x - y)
      let w ← int32 (d * d)
      let r ← distance xs ys
      return w + r
  | _, _ => .ok 0

/-- The search loops (mc_nn.hpp:225-236 and 254-266): nearest active cluster among those selected by `p`, from cluster `i`, `k`
clusters left. -/
def nearestLoop (s : State) (x : List Int) (p : Cluster → Bool) : Nat → Nat → Option Nat → Int → Res (Option Nat × Int)
  | _, 0, best, d => .ok (best, d)
  | i, k + 1, best, d => do
      let a ← rd s.active i
      let c ← rd s.clusters i
      if a && p c then do
        let e ← distance x (centroid c)
        if e < d then nearestLoop s x p (i + 1) k (some i) e else nearestLoop s x p (i + 1) k best d
      else nearestLoop s x p (i + 1) k best d

/-- `find_nearest_clusters` with three arguments (mc_nn.hpp:249-271) -/
def findNearest (s : State) (x : List Int) : Res (Option Nat × Int) :=
  nearestLoop s x (fun _ => true) 0 s.clusters.length none 1000000

/-- `find_nearest_clusters` with a label (mc_nn.hpp:212-242): nearest, nearest with the label -/
def findNearestClass (s : State) (x : List Int) (label : Int) : Res (Option Nat × Option Nat) := do
  let (near, dn) ← findNearest s x
  let same : Bool ← match near with
    | some j => do
        let c ← rd s.clusters j
        pure (decide (c.label = label))
    | none => pure false
  if same then return (near, near)
  else do
    let (nc, dc) ← nearestLoop s x (fun c => decide (c.label = label)) 0 s.clusters.length none 1000000
    if dc = dn then return (nc, nc) else return (near, nc)

/-- `clean_low_performance_clusters` (mc_nn.hpp:282-286) -/
def clean (s : State) : State :=
  { s with active := List.zipWith (fun a c => if a && decide (c.n > 1) && (performance c s.timestamp).lt (.fin s.perfThr)
      then false else a) s.active s.clusters }

/-- `train` when no cluster with the label is near (mc_nn.hpp:316-333) -/
def insert (s : State) (x : List Int) (label : Int) : Res (State × Bool) := do
  match ← freeLoop s.active none 0 s.clusters.length with
  | some i => do
      let active ← wr s.active i true
      let c ← initCluster x label s.timestamp s.errorThr
      let clusters ← wr s.clusters i c
      return ({ s with
        active := active
        clusters := clusters
        count := s.count + 1 }, true)
  | none =>
      if s.cleaning = 0 ∨ s.cleaning = 2 then do
        match ← lowest s with
        | some i => do
            let c ← initCluster x label s.timestamp s.errorThr
            let clusters ← wr s.clusters i c
            return ({ s with clusters := clusters }, true)
        | none => .error .ub
      else return (s, false)

/-- `train` when a cluster with the label is near (mc_nn.hpp:335-359) -/
def absorb (sqrt : ℚ → ℚ) (s : State) (x : List Int) (near nc : Nat) : Res State := do
  if near = nc then do
    let c ← rd s.clusters near
    let c ← incorporate { c with err := c.err + 1 } x s.timestamp
    let clusters ← wr s.clusters near c
    return { s with clusters := clusters }
  else do
    let a ← rd s.clusters near
    let clusters ← wr s.clusters near { a with err := a.err - 1 }
    let b ← rd clusters nc
    let b' ← incorporate { b with err := b.err - 1 } x s.timestamp
    let clusters ← wr clusters nc b'
    let s := { s with clusters := clusters }
    let s ← if b.err - 1 ≤ 0 then split sqrt s nc else pure s
    let a ← rd s.clusters near
    if a.err ≤ 0 then split sqrt s near else return s

/-- `train` (mc_nn.hpp:305-360) -/
def train (sqrt : ℚ → ℚ) (s : State) (x : List Int) (label : Int) : Res (State × Bool) := do
  let s := if s.cleaning = 1 ∨ s.cleaning = 2 then clean s else s
  let s := { s with timestamp := s.timestamp + 1 }
  match ← findNearestClass s x label with
  | (_, none) => insert s x label
  | (none, some _) => .error .ub
  | (some near, some nc) => do
      let s ← absorb sqrt s x near nc
      return (s, true)

/-- `predict` (mc_nn.hpp:366-374) -/
def predict (emptyClass : Int) (s : State) (x : List Int) : Res Int := do
  match (← findNearest s x).1 with
  | none => return emptyClass
  | some j => do
      let c ← rd s.clusters j
      return c.label

/-- A training history: points with labels, the results of `train` are dropped. -/
def run (sqrt : ℚ → ℚ) (s : State) : List (List Int × Int) → Res State
  | [] => .ok s
  | p :: ps => do
      let (s, _) ← train sqrt s p.1 p.2
      run sqrt s ps

end Orp.McnnInt
