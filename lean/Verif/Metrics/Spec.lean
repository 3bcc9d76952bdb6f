import Verif.Metrics.Model
import Mathlib.Algebra.BigOperators.Group.Finset.Basic

/-!
Specification of the metrics in terms of the history of operations only.
-/

namespace Orp.Metrics.Spec

/-- the operations since the last reset -/
def sinceReset (ops : List Op) : List Op :=
  (ops.reverse.takeWhile (fun o => match o with | .reset => false | _ => true)).reverse

/-- number of items recorded by an operation -/
def items : Op → Nat
  | .update _ _ => 1
  | .increaseError c => c
  | .reset => 0

/-- number of errors recorded by an operation -/
def errors : Op → Nat
  | .update t p => if t = p then 0 else 1
  | .increaseError c => c
  | .reset => 0

/-- all recorded items of a history without reset -/
def allItems (ops : List Op) : Nat := (ops.map items).sum

/-- all recorded errors of a history without reset -/
def allErrors (ops : List Op) : Nat := (ops.map errors).sum

/-! Cohen's kappa of a list of (truth, prediction) pairs with labels `0, …, n-1`. -/

/-- pairs recorded by one operation: an update records its pair, a penalty of `c` records `c` times
"truth 0 predicted as 1" -/
def pairsOf (o : Op) : List (Nat × Nat) :=
  match o with
  | .update t p => [(t.toNat, p.toNat)]
  | .increaseError c => List.replicate c (0, 1)
  | .reset => []

/-- all (truth, prediction) pairs recorded since the last reset -/
def recorded (ops : List Op) : List (Nat × Nat) := (sinceReset ops).flatMap pairsOf

/-- labels in range; penalties need the cell (0,1) -/
def ValidOp (n : Nat) : Op → Prop
  | .update t p => 0 ≤ t ∧ t < n ∧ 0 ≤ p ∧ p < n
  | .increaseError _ => 2 ≤ n
  | .reset => True

/-- observed agreement -/
def po (l : List (Nat × Nat)) : ℚ := ((l.filter (fun x => x.1 = x.2)).length : ℚ) / (l.length : ℚ)

/-- frequency of label `i` among the truths -/
def freqTruth (l : List (Nat × Nat)) (i : Nat) : ℚ := ((l.filter (fun x => x.1 = i)).length : ℚ) / (l.length : ℚ)

/-- frequency of label `i` among the predictions -/
def freqPred (l : List (Nat × Nat)) (i : Nat) : ℚ := ((l.filter (fun x => x.2 = i)).length : ℚ) / (l.length : ℚ)

/-- agreement expected by chance -/
def pe (n : Nat) (l : List (Nat × Nat)) : ℚ := ∑ i ∈ Finset.range n, freqTruth l i * freqPred l i

end Orp.Metrics.Spec
