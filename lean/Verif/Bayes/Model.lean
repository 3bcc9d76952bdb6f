import Verif.Basic
import Verif.Dbl

/-!
Model of `NaiveBayes` (`/repo/src/naive_bayes.hpp`, whole class).

* Features, weights and estimators are exact numbers in an ordered field `K` (finite, no rounding). Scores are `Dbl K`,
  because `log 0` and `0/0` decide the prediction.
* Labels are natural numbers; an index outside an array is undefined behaviour.
-/

namespace Orp.Bayes

variable {K : Type} [Field K] [LinearOrder K]

/-- The functions of `func` (naive_bayes.hpp:8-9) and `exp` (line 37). -/
structure Env (K : Type) where
  log : K → Dbl K
  sqrt : K → K
  exp : K → K

/-- `GaussianEstimator` (naive_bayes.hpp:13-14) -/
structure Est (K : Type) where
  weightSum : K
  varianceSum : K
  mean : K
  deriving DecidableEq

/-- a new estimator (naive_bayes.hpp:14) -/
def Est.new : Est K := { weightSum := 0, varianceSum := 0, mean := 0 }

/-- `GaussianEstimator::train` (naive_bayes.hpp:16-28) -/
def Est.train (e : Est K) (value weight : K) : Est K :=
  if e.weightSum > 0 then
    let ws := e.weightSum + weight
    let previous := e.mean
    let mean := e.mean + weight * (value - previous) / ws
    { weightSum := ws, mean := mean, varianceSum := e.varianceSum + weight * (value - previous) * (value - mean) }
  else { mean := value, weightSum := weight, varianceSum := 0 }

/-- `GaussianEstimator::probability_density` (naive_bayes.hpp:29-40) -/
def Est.density (env : Env K) (e : Est K) (value : K) : K :=
  if e.weightSum ≤ 0 then 0
  else
    let variance := if e.weightSum > 1 then e.varianceSum / (e.weightSum - 1) else 0
    let stdev := env.sqrt variance
    if stdev > 0 then
      let diff := value - e.mean
      1 / (250663 / 100000 * stdev) * env.exp (-(diff * diff / (2 * stdev * stdev)))
    else if value = e.mean then 1 else 0

/-- Object state (naive_bayes.hpp:45-49); `sum_feature_size` is never used. -/
structure Model (K : Type) where
  counters : List (Est K)
  labelWeights : List K
  totalWeights : K
  smoothing : K
  deriving DecidableEq

/-- Constructor (naive_bayes.hpp:45-59) for `lc` labels and `fc` features. -/
def new (lc fc : Nat) (smoothing : K) : Model K :=
  { counters := List.replicate (lc * fc) Est.new
    labelWeights := List.replicate lc 0
    totalWeights := 0
    smoothing := smoothing }

/-- The loop of `train` (naive_bayes.hpp:67-68), from feature `i`, `k` features left. -/
def trainLoop (fc : Nat) (x : List K) (label : Nat) (w : K) : Nat → Nat → List (Est K) → Res (List (Est K))
  | _, 0, c => .ok c
  | i, k + 1, c => do
      let v ← rd x i
      let e ← rd c (label * fc + i)
      let c ← wr c (label * fc + i) (e.train v w)
      trainLoop fc x label w (i + 1) k c

/-- `train` (naive_bayes.hpp:66-72); it always returns true. -/
def train (fc : Nat) (m : Model K) (x : List K) (label : Nat) (w : K) : Res (Model K) := do
  let c ← trainLoop fc x label w 0 fc m.counters
  let lw ← rd m.labelWeights label
  let lws ← wr m.labelWeights label (lw + w)
  return { m with
    counters := c
    labelWeights := lws
    totalWeights := m.totalWeights + w }

/-- `func::log` of a `double` -/
def logD (env : Env K) : Dbl K → Dbl K
  | .fin x => env.log x
  | .pinf => .pinf
  | .ninf => .nan
  | .nan => .nan

/-- The inner loop of `predict` (naive_bayes.hpp:83-84), from feature `f`, `k` features left. -/
def scoreLoop (env : Env K) (fc : Nat) (m : Model K) (x : List K) (l : Nat) : Nat → Nat → Dbl K → Res (Dbl K)
  | _, 0, acc => .ok acc
  | f, k + 1, acc => do
      let e ← rd m.counters (l * fc + f)
      let v ← rd x f
      scoreLoop env fc m x l (f + 1) k (acc.add (env.log (e.density env v)))

/-- The score of label `l` (naive_bayes.hpp:82-84). -/
def score (env : Env K) (fc : Nat) (m : Model K) (x : List K) (l : Nat) : Res (Dbl K) := do
  let lw ← rd m.labelWeights l
  scoreLoop env fc m x l 0 fc (logD env (Dbl.div (.fin lw) (.fin m.totalWeights)))

/-- The first loop of `predict` (naive_bayes.hpp:81-85), from label `l`, `k` labels left. -/
def scoresFrom (env : Env K) (fc : Nat) (m : Model K) (x : List K) : Nat → Nat → Res (List (Dbl K))
  | _, 0 => .ok []
  | l, k + 1 => do
      let s ← score env fc m x l
      let r ← scoresFrom env fc m x (l + 1) k
      return s :: r

/-- The second loop of `predict` (naive_bayes.hpp:88-91), from label `l`, `k` labels left. -/
def argmaxLoop (scores : List (Dbl K)) : Nat → Nat → Nat → Res Nat
  | _, 0, best => .ok best
  | l, k + 1, best => do
      let a ← rd scores best
      let b ← rd scores l
      argmaxLoop scores (l + 1) k (if a.lt b then l else best)

/-- `predict` (naive_bayes.hpp:78-97): the label and the scores written to `scores`. -/
def predict (env : Env K) (lc fc : Nat) (m : Model K) (x : List K) : Res (Nat × List (Dbl K)) := do
  let scores ← scoresFrom env fc m x 0 lc
  let best ← argmaxLoop scores 1 (lc - 1) 0
  return (best, scores)

/-- `set_smoothing` (naive_bayes.hpp:102-104) -/
def setSmoothing (m : Model K) (v : K) : Model K := { m with smoothing := v }

/-- `get_smoothing` (naive_bayes.hpp:109-111) -/
def getSmoothing (m : Model K) : K := m.smoothing

/-- A training example. -/
structure Ex (K : Type) where
  x : List K
  label : Nat
  w : K
  deriving DecidableEq

/-- A training history. -/
def run (fc : Nat) (m : Model K) : List (Ex K) → Res (Model K)
  | [] => .ok m
  | e :: es => do
      let m ← train fc m e.x e.label e.w
      run fc m es

end Orp.Bayes
