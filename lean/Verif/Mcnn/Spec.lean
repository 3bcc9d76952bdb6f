import Verif.Mcnn.Model

/-! Specification vocabulary for MC-NN. -/

namespace Orp.Mcnn

variable {K : Type} [Field K] [LinearOrder K]

/-- Cluster `i` is in use and has the content `c`. -/
def Active (s : State K) (i : Nat) (c : Cluster K) : Prop := s.active[i]? = some true ∧ s.clusters[i]? = some c

/-- number of clusters in use -/
def activeCount (s : State K) : Nat := s.active.count true

/-- The cluster holds the sums and the sums of squares of the points `pts`. -/
def Summarises (fc : Nat) (c : Cluster K) (pts : List (List K)) : Prop :=
  c.n = pts.length ∧ c.sum.length = fc ∧ c.sq.length = fc ∧
  ∀ i < fc, c.sum[i]? = some ((pts.map (fun x => x.getD i 0)).sum) ∧
    c.sq[i]? = some ((pts.map (fun x => x.getD i 0 * x.getD i 0)).sum)

/-- `j` is the nearest among the active clusters selected by `p`: minimal squared distance to the centroid, the first one in case of a
tie, and the distance is below `cap`. -/
def IsNearest (s : State K) (x : List K) (p : Cluster K → Bool) (cap : K) (j : Nat) : Prop :=
  ∃ c, Active s j c ∧ p c = true ∧ distance x c.centroid < cap ∧
    (∀ i d, Active s i d → p d = true → distance x c.centroid ≤ distance x d.centroid) ∧
    (∀ i d, Active s i d → p d = true → i < j → distance x c.centroid < distance x d.centroid)

/-- no active cluster selected by `p` has a distance below `cap` -/
def NoneNear (s : State K) (x : List K) (p : Cluster K → Bool) (cap : K) : Prop :=
  ∀ i d, Active s i d → p d = true → cap ≤ distance x d.centroid

/-- squared euclidean distance of two points with `fc` features -/
def sqDist (fc : Nat) (a b : List K) : K :=
  ((List.range fc).map (fun i => (a.getD i 0 - b.getD i 0) ^ 2)).sum

/-- mean of feature `i` of some points -/
def meanOf (pts : List (List K)) (i : Nat) : K := (pts.map (fun x => x.getD i 0)).sum / (pts.length : K)

/-- population variance of feature `i` of some points -/
def varOf (pts : List (List K)) (i : Nat) : K :=
  (pts.map (fun x => (x.getD i 0 - meanOf pts i) ^ 2)).sum / (pts.length : K)

/-- `c` is a cluster with the lowest participation -/
def IsLowest (s : State K) (j : Nat) : Prop :=
  ∃ c : Cluster K, Active s j c ∧ ∀ (i : Nat) (d : Cluster K), Active s i d → (d.performance s.timestamp).lt (c.performance s.timestamp) = false

/-- `f` is a feature with the highest variance in the cluster, `v` its variance -/
def IsWidest (c : Cluster K) (f : Nat) (v : K) : Prop :=
  c.variances[f]? = some v ∧ ∀ (g : Nat) (w : K), c.variances[g]? = some w → w ≤ v

/-- the state after cluster `ci` was split, the new cluster being stored at `j` -/
def splitState (s : State K) (ci j : Nat) (minus plus : List K) (label old : Int) : State K :=
  { s with
    clusters := (s.clusters.set j (initCluster minus label old s.errorThr)).set ci (initCluster plus label old s.errorThr)
    active := s.active.set j true
    count := s.count + 1 }

/-- What splitting cluster `ci` may do. Nothing, if all clusters are in use and none may be evicted. Otherwise the cluster is replaced by two
clusters with its label, seeded at its centroid minus and plus the standard deviation along the feature with the highest variance; the first
one is stored in a free place `j`, or in the place of the cluster with the lowest participation. If that is `ci` itself only the second one is left, see
`splitState` and `C67_half_lost`. -/
def SplitStep (sqrt : K → K) (fc : Nat) (s : State K) (ci : Nat) (s' : State K) : Prop :=
  (s' = s ∧ (∀ i < s.active.length, s.active[i]? = some true) ∧ s.cleaning ≠ 0 ∧ s.cleaning ≠ 2) ∨
  ∃ c j f v, s.clusters[ci]? = some c ∧ j < s.active.length ∧ f < fc ∧ IsWidest c f v ∧
    s' = splitState s ci j (c.centroid.modify f (fun y => y - sqrt v)) (c.centroid.modify f (fun y => y + sqrt v)) c.label
      (c.tsSum.tdiv (c.n : Int)) ∧
    ((s.active[j]? = some false ∧ j ≠ ci) ∨
      ((∀ i < s.active.length, s.active[i]? = some true) ∧ (s.cleaning = 0 ∨ s.cleaning = 2) ∧ IsLowest s j))

/-- Where an active cluster comes from. `tr` is the training history, the time of a training point is its position. The cluster summarises a
first point and then the training points at the times `rest`, in order, all with the label of the cluster. The first point was made by a
split, or is itself the training point at the time at which the cluster was created. -/
def Good (fc : Nat) (tr : List (List K × Int)) (c : Cluster K) : Prop :=
  (∃ p ∈ tr, p.2 = c.label) ∧
  ∃ (first : List K) (rest : List (List K × Nat)), Summarises fc c (first :: rest.map Prod.fst) ∧ first.length = fc ∧
    (∀ q ∈ rest, tr[q.2]? = some (q.1, c.label)) ∧ (rest.map Prod.snd).Pairwise (· < ·) ∧
    c.tsSum = c.init + ((rest.map (fun q => (q.2 : Int))).sum)

end Orp.Mcnn
