import Verif.Ltc.Model

/-!
Specification vocabulary for LTC: only streams of samples, answers of `add` and straight lines; nothing about
limits or slopes kept by the object.
-/

namespace Orp.Ltc

/-- timestamps strictly increase -/
def Increasing (ps : List Point) : Prop := ps.Pairwise (fun p q => p.t < q.t)

/-- timestamps are consecutive integers -/
def Consecutive (ps : List Point) : Prop := ps.IsChain (fun p q => q.t = p.t + 1)

/-- values within the declared range -/
def InRange (c : Cfg) (ps : List Point) : Prop := ∀ p ∈ ps, (c.minValue : ℚ) ≤ p.v ∧ p.v ≤ c.maxValue

/-- value at time `t` of the line through `P` with slope `σ` -/
def ray (P : Point) (σ : ℚ) (t : Int) : ℚ := P.v + σ * (t - P.t : Int)

/-- value at time `t` of the line through `P` and `Q` -/
def lineAt (P Q : Point) (t : Int) : ℚ := ray P ((Q.v - P.v) / (Q.t - P.t : Int)) t

/-- the points a user gets by calling `get_value_to_transmit` after every `add` that returned true -/
def transmitted (os : List (Option Point)) : List Point := os.filterMap id

/-- The samples of the segment that is still open: those since (and including) the last one whose `add` returned
true; if there was none, all but the first sample. -/
def openSegment : List (Point × Option Point) → List Point
  | [] => []
  | _ :: h => h.foldl (fun seg x => if x.2.isSome then [x.1] else seg ++ [x.1]) []

/-- every sample of the stream is within `ε` of the line joining two consecutive transmitted points around it -/
def ErrorBounded (ε : ℚ) (ps : List Point) (sent : List Point) : Prop :=
  ∀ (before after : List Point) (P Q : Point), sent = before ++ P :: Q :: after →
    ∀ p ∈ ps, P.t ≤ p.t → p.t ≤ Q.t → |lineAt P Q p.t - p.v| ≤ ε

/-- the line through `P` with slope `σ` is within `ε` of all samples -/
def Fits (ε : ℚ) (P : Point) (σ : ℚ) (seg : List Point) : Prop := ∀ p ∈ seg, |ray P σ p.t - p.v| ≤ ε

end Orp.Ltc
