import Verif.Rounding.Probability
import Verif.Mcnn.Lemmas

/-!
`MCNN` with rounded arithmetic (C110). Features are numbers or NaN (`none`); exponent overflow is not modelled. Timestamps are integers, as in `Mcnn.Model`;
their triangular numbers are exact as long as they are below `2^26`.
-/

set_option linter.unusedSectionVars false

namespace Orp.Rounding

open Mcnn

variable {f : Fmt} {fl : ℚ → ℚ}

/-- a `double` that is a number or NaN -/
abbrev Num := Option ℚ

namespace Num

/-- arithmetic with rounding; NaN if an operand is NaN -/
def lift (fl : ℚ → ℚ) (op : ℚ → ℚ → ℚ) : Num → Num → Num
  | some a, some b => some (fl (op a b))
  | _, _ => none

def add (fl : ℚ → ℚ) : Num → Num → Num := lift fl (· + ·)
def sub (fl : ℚ → ℚ) : Num → Num → Num := lift fl (· - ·)
def mul (fl : ℚ → ℚ) : Num → Num → Num := lift fl (· * ·)
def div (fl : ℚ → ℚ) : Num → Num → Num := lift fl (· / ·)

/-- comparison; false for NaN -/
def lt : Num → Num → Bool
  | some a, some b => decide (a < b)
  | _, _ => false

/-- equality of C++; false for NaN -/
def eq : Num → Num → Bool
  | some a, some b => decide (a = b)
  | _, _ => false

/-- `sqrt_local` (mc_nn.hpp:276-278): NaN for negative numbers -/
def sqrt (root : ℚ → ℚ) : Num → Num
  | some a => if a < 0 then none else some (root a)
  | none => none

end Num

/-- rounding of the finite numbers -/
def rndD (fl : ℚ → ℚ) : Dbl ℚ → Dbl ℚ
  | .fin x => .fin (fl x)
  | x => x

/-- `variance` (mc_nn.hpp:35-40) for all features, with rounding -/
def variancesR (fl : ℚ → ℚ) (c : Cluster Num) : List Num :=
  List.zipWith (fun q s => Num.sub fl (Num.div fl q (some c.n)) (Num.mul fl (Num.div fl s (some c.n)) (Num.div fl s (some c.n)))) c.sq c.sum

/-- `incorporate` (mc_nn.hpp:46-54) with rounding -/
def incorporateR (fl : ℚ → ℚ) (c : Cluster Num) (x : List Num) (t : Int) : Cluster Num :=
  { c with
    tsSum := c.tsSum + t
    tsSq := c.tsSq + t * t
    n := c.n + 1
    sum := List.zipWith (fun s v => Num.add fl s v) c.sum x
    sq := List.zipWith (fun s v => Num.add fl s (Num.mul fl v v)) c.sq x }

/-- `performance` (mc_nn.hpp:59-65) with rounding -/
def performanceR (fl : ℚ → ℚ) (c : Cluster Num) (now : Int) : Dbl ℚ :=
  rndD fl (Dbl.mul (.fin (c.tsSum : ℚ)) (rndD fl (Dbl.div (.fin 100) (.fin (triangular now - triangular c.init)))))

/-- `initialize` (mc_nn.hpp:73-84) with rounding -/
def initClusterR (fl : ℚ → ℚ) (x : List Num) (label : Int) (t : Int) (thr : Int) : Cluster Num :=
  { init := t, tsSum := t, tsSq := t * t, n := 1, err := thr, label := label, sum := x, sq := x.map (fun v => Num.mul fl v v) }

/-- `centroid` (mc_nn.hpp:89-93) with rounding -/
def centroidR (fl : ℚ → ℚ) (c : Cluster Num) : List Num := c.sum.map (fun s => Num.div fl s (some c.n))

/-- `get_lowest_participation` (mc_nn.hpp:130-143) with rounding; see `lowestLoop` -/
def lowestLoopR (fl : ℚ → ℚ) (s : State Num) : Nat → Nat → Option Nat → Dbl ℚ → Res (Option Nat)
  | _, 0, low, _ => .ok low
  | i, k + 1, low, val => do
      let a ← rd s.active i
      if a then do
        let c ← rd s.clusters i
        let perf := performanceR fl c s.timestamp
        if low = none ∨ perf.lt val then lowestLoopR fl s (i + 1) k (some i) perf
        else lowestLoopR fl s (i + 1) k low val
      else lowestLoopR fl s (i + 1) k low val

def lowestR (fl : ℚ → ℚ) (s : State Num) : Res (Option Nat) := lowestLoopR fl s 0 s.clusters.length none (.fin 101)

/-- The loop that chooses the split attribute (mc_nn.hpp:165-173) -/
def splitLoopR : List Num → Nat → Option Nat → Num → Option Nat × Num
  | [], _, idx, hv => (idx, hv)
  | v :: vs, i, idx, hv =>
      if hv.lt v = true ∨ idx = none then splitLoopR vs (i + 1) (some i) v else splitLoopR vs (i + 1) idx hv

/-- Last part of `split` (mc_nn.hpp:164-191), with `newIdx` chosen, with rounding -/
def splitIntoR (fl root : ℚ → ℚ) (s : State Num) (ci newIdx : Nat) : Res (State Num) := do
  let c ← rd s.clusters ci
  match splitLoopR (variancesR fl c) 0 none (some 0) with
  | (none, _) => .error .ub -- feature_count = 0: writes cluster_minus[-1]
  | (some si, hv) => do
      let h := Num.sqrt root hv
      let center := centroidR fl c
      let old : Int := Utils.trunc (fl ((c.tsSum : ℚ) / (c.n : ℚ)))
      let clusters ← wr s.clusters newIdx (initClusterR fl (center.modify si (fun v => Num.sub fl v h)) c.label old s.errorThr)
      let c2 ← rd clusters ci
      let clusters ← wr clusters ci (initClusterR fl (center.modify si (fun v => Num.add fl v h)) c2.label old s.errorThr)
      let active ← wr s.active newIdx true
      return { s with
        clusters := clusters
        active := active
        count := s.count + 1 }

/-- `split` (mc_nn.hpp:148-192) with rounding -/
def splitStepR (fl root : ℚ → ℚ) (s : State Num) (ci : Nat) : Res (State Num) := do
  match ← freeLoop s.active (some ci) 0 s.clusters.length with
  | some j => splitIntoR fl root s ci j
  | none =>
      if s.cleaning = 0 ∨ s.cleaning = 2 then do
        match ← lowestR fl s with
        | some j => splitIntoR fl root s ci j
        | none => .error .ub
      else return s

/-- `euclidean_distance` (mc_nn.hpp:198-204) with rounding -/
def distanceR (fl : ℚ → ℚ) (a b : List Num) : Num :=
  (List.zipWith (fun x y => Num.mul fl (Num.sub fl x y) (Num.sub fl x y)) a b).foldl (Num.add fl) (some 0)

/-- The search loops (mc_nn.hpp:225-236 and 254-266) with rounding; see `nearestLoop` -/
def nearestLoopR (fl : ℚ → ℚ) (s : State Num) (x : List Num) (p : Cluster Num → Bool) : Nat → Nat → Option Nat → Num → Res (Option Nat × Num)
  | _, 0, best, d => .ok (best, d)
  | i, k + 1, best, d => do
      let a ← rd s.active i
      let c ← rd s.clusters i
      if a && p c then
        let e := distanceR fl x (centroidR fl c)
        if e.lt d then nearestLoopR fl s x p (i + 1) k (some i) e else nearestLoopR fl s x p (i + 1) k best d
      else nearestLoopR fl s x p (i + 1) k best d

/-- `find_nearest_clusters` with three arguments (mc_nn.hpp:249-271) with rounding -/
def findNearestR (fl : ℚ → ℚ) (s : State Num) (x : List Num) : Res (Option Nat × Num) :=
  nearestLoopR fl s x (fun _ => true) 0 s.clusters.length none (some 1000000)

/-- `find_nearest_clusters` with a label (mc_nn.hpp:212-242) with rounding -/
def findNearestClassR (fl : ℚ → ℚ) (s : State Num) (x : List Num) (label : Int) : Res (Option Nat × Option Nat) := do
  let (near, dn) ← findNearestR fl s x
  let same : Bool ← match near with
    | some j => do
        let c ← rd s.clusters j
        pure (decide (c.label = label))
    | none => pure false
  if same then return (near, near)
  else do
    let (nc, dc) ← nearestLoopR fl s x (fun c => decide (c.label = label)) 0 s.clusters.length none (some 1000000)
    if dc.eq dn then return (nc, nc) else return (near, nc)

/-- `clean_low_performance_clusters` (mc_nn.hpp:282-286) with rounding -/
def cleanR (fl : ℚ → ℚ) (s : State Num) : State Num :=
  { s with active := List.zipWith (fun a c => if a && decide (c.n > 1) && (performanceR fl c s.timestamp).lt (.fin s.perfThr)
      then false else a) s.active s.clusters }

/-- `train` when no cluster with the label is near (mc_nn.hpp:316-333), with rounding -/
def insertR (fl : ℚ → ℚ) (s : State Num) (x : List Num) (label : Int) : Res (State Num × Bool) := do
  match ← freeLoop s.active none 0 s.clusters.length with
  | some i => do
      let active ← wr s.active i true
      let clusters ← wr s.clusters i (initClusterR fl x label s.timestamp s.errorThr)
      return ({ s with
        active := active
        clusters := clusters
        count := s.count + 1 }, true)
  | none =>
      if s.cleaning = 0 ∨ s.cleaning = 2 then do
        match ← lowestR fl s with
        | some i => do
            let clusters ← wr s.clusters i (initClusterR fl x label s.timestamp s.errorThr)
            return ({ s with clusters := clusters }, true)
        | none => .error .ub
      else return (s, false)

/-- `train` when a cluster with the label is near (mc_nn.hpp:335-359), with rounding -/
def absorbR (fl root : ℚ → ℚ) (s : State Num) (x : List Num) (near nc : Nat) : Res (State Num) := do
  if near = nc then do
    let c ← rd s.clusters near
    let clusters ← wr s.clusters near (incorporateR fl { c with err := c.err + 1 } x s.timestamp)
    return { s with clusters := clusters }
  else do
    let a ← rd s.clusters near
    let clusters ← wr s.clusters near { a with err := a.err - 1 }
    let b ← rd clusters nc
    let clusters ← wr clusters nc (incorporateR fl { b with err := b.err - 1 } x s.timestamp)
    let s := { s with clusters := clusters }
    let s ← if b.err - 1 ≤ 0 then splitStepR fl root s nc else pure s
    let a ← rd s.clusters near
    if a.err ≤ 0 then splitStepR fl root s near else return s

/-- `train` (mc_nn.hpp:305-360) with rounding -/
def mcTrainR (fl root : ℚ → ℚ) (s : State Num) (x : List Num) (label : Int) : Res (State Num × Bool) := do
  let s := if s.cleaning = 1 ∨ s.cleaning = 2 then cleanR fl s else s
  let s := { s with timestamp := s.timestamp + 1 }
  match ← findNearestClassR fl s x label with
  | (_, none) => insertR fl s x label
  | (none, some _) => .error .ub
  | (some near, some nc) => do
      let s ← absorbR fl root s x near nc
      return (s, true)

/-- `predict` (mc_nn.hpp:366-374) with rounding -/
def mcPredictR (fl : ℚ → ℚ) (emptyClass : Int) (s : State Num) (x : List Num) : Res Int := do
  match (← findNearestR fl s x).1 with
  | none => return emptyClass
  | some j => do
      let c ← rd s.clusters j
      return c.label

/-- Constructor (mc_nn.hpp:115-123, 294-298) -/
def mcNewR (garbage : List (Cluster Num)) (errorThr : Nat) (cleaning : Nat) (perfThr : ℚ) : State Num :=
  { clusters := garbage, active := garbage.map (fun _ => false), count := 0, timestamp := -1, errorThr := errorThr,
    perfThr := perfThr, cleaning := cleaning }

/-- A training history with rounding: points with labels, the results of `train` are dropped. -/
def mcRunR (fl root : ℚ → ℚ) (s : State Num) : List (List ℚ × Int) → Res (State Num)
  | [] => .ok s
  | p :: ps => do
      let (s, _) ← mcTrainR fl root s (p.1.map some) p.2
      mcRunR fl root s ps

/-! ### Soundness -/

/-- Cluster `i` is in use and has the content `c`. -/
def InUse (s : State Num) (i : Nat) (c : Cluster Num) : Prop := s.active[i]? = some true ∧ s.clusters[i]? = some c

structure McInv (fc m : Nat) (labels : List Int) (s : State Num) : Prop where
  clen : s.clusters.length = m
  alen : s.active.length = m
  good : ∀ i c, InUse s i c → c.sum.length = fc ∧ c.sq.length = fc ∧ 1 ≤ c.n ∧ c.label ∈ labels

theorem lowestLoopR_ok (s : State Num) (hlen : s.clusters.length = s.active.length) : ∀ (k i : Nat) (low : Option Nat) (val : Dbl ℚ),
    i + k = s.active.length → (∀ j, low = some j → s.active[j]? = some true) →
    ∃ r, lowestLoopR fl s i k low val = .ok r ∧ (∀ j, r = some j → s.active[j]? = some true) ∧
      (r = none → low = none ∧ ∀ j, i ≤ j → j < s.active.length → s.active[j]? = some false)
  | 0, i, low, val, h, hl => ⟨low, rfl, hl, fun hn => ⟨hn, fun j h1 h2 => by omega⟩⟩
  | k + 1, i, low, val, h, hl => by
      have hi : i < s.active.length := by omega
      have hic : i < s.clusters.length := by omega
      cases ha : s.active[i]
      · obtain ⟨r, h1, h2, h3⟩ := lowestLoopR_ok s hlen k (i + 1) low val (by omega) hl
        refine ⟨r, ?_, h2, fun hn => ⟨(h3 hn).1, fun j h4 h5 => ?_⟩⟩
        · simp only [lowestLoopR, rd_ok hi, bind, Except.bind, ha, Bool.false_eq_true, if_false, h1]
        · rcases Nat.eq_or_lt_of_le h4 with rfl | h4
          · rw [List.getElem?_eq_getElem hi, ha]
          · exact (h3 hn).2 j h4 h5
      · by_cases hc : low = none ∨ (performanceR fl s.clusters[i] s.timestamp).lt val
        · obtain ⟨r, h1, h2, h3⟩ := lowestLoopR_ok s hlen k (i + 1) (some i) (performanceR fl s.clusters[i] s.timestamp) (by omega)
            (by rintro j ⟨⟩; rw [List.getElem?_eq_getElem hi, ha])
          refine ⟨r, ?_, h2, fun hn => absurd (h3 hn).1 (by simp)⟩
          simp only [lowestLoopR, rd_ok hi, rd_ok hic, bind, Except.bind, ha, if_true, if_pos hc, h1]
        · obtain ⟨r, h1, h2, h3⟩ := lowestLoopR_ok s hlen k (i + 1) low val (by omega) hl
          push Not at hc
          refine ⟨r, ?_, h2, fun hn => absurd (h3 hn).1 hc.1⟩
          have hc' : ¬ (low = none ∨ (performanceR fl s.clusters[i] s.timestamp).lt val) := by push Not; exact hc
          simp only [lowestLoopR, rd_ok hi, rd_ok hic, bind, Except.bind, ha, if_true, if_neg hc', h1]

theorem lowestR_ok (s : State Num) (hlen : s.clusters.length = s.active.length) {i : Nat} (hi : s.active[i]? = some true) :
    ∃ j, lowestR fl s = .ok (some j) ∧ s.active[j]? = some true := by
  obtain ⟨r, h1, h2, h3⟩ := lowestLoopR_ok (fl := fl) s hlen s.active.length 0 none (.fin 101) (by omega) (by simp)
  rw [← hlen] at h1
  cases r with
  | none =>
    have := (h3 rfl).2 i (Nat.zero_le _) (List.getElem?_eq_some_iff.1 hi).1
    rw [hi] at this
    cases this
  | some j => exact ⟨j, h1, h2 j rfl⟩

theorem nearestLoopR_ok (s : State Num) (x : List Num) (p : Cluster Num → Bool) (hlen : s.clusters.length = s.active.length) :
    ∀ (k i : Nat) (best : Option Nat) (d : Num), i + k = s.active.length → (∀ j, best = some j → ∃ c, InUse s j c ∧ p c = true) →
    ∃ best' d', nearestLoopR fl s x p i k best d = .ok (best', d') ∧ ∀ j, best' = some j → ∃ c, InUse s j c ∧ p c = true
  | 0, i, best, d, h, hb => ⟨best, d, rfl, hb⟩
  | k + 1, i, best, d, h, hb => by
      have hi : i < s.active.length := by omega
      have hic : i < s.clusters.length := by omega
      by_cases hsel : (s.active[i] && p s.clusters[i]) = true
      · by_cases hd : (distanceR fl x (centroidR fl s.clusters[i])).lt d = true
        · obtain ⟨b, d', h1, h2⟩ := nearestLoopR_ok s x p hlen k (i + 1) (some i) (distanceR fl x (centroidR fl s.clusters[i])) (by omega) (by
            rintro j ⟨⟩
            have : s.active[i] = true ∧ p s.clusters[i] = true := by simpa using hsel
            exact ⟨_, ⟨by rw [List.getElem?_eq_getElem hi, this.1], List.getElem?_eq_getElem hic⟩, this.2⟩)
          exact ⟨b, d', by simp only [nearestLoopR, rd_ok hi, rd_ok hic, bind, Except.bind, if_pos hsel, if_pos hd, h1], h2⟩
        · obtain ⟨b, d', h1, h2⟩ := nearestLoopR_ok s x p hlen k (i + 1) best d (by omega) hb
          exact ⟨b, d', by simp only [nearestLoopR, rd_ok hi, rd_ok hic, bind, Except.bind, if_pos hsel, if_neg hd, h1], h2⟩
      · obtain ⟨b, d', h1, h2⟩ := nearestLoopR_ok s x p hlen k (i + 1) best d (by omega) hb
        exact ⟨b, d', by simp only [nearestLoopR, rd_ok hi, rd_ok hic, bind, Except.bind, if_neg hsel, h1], h2⟩

theorem findNearestR_ok (s : State Num) (x : List Num) (hlen : s.clusters.length = s.active.length) :
    ∃ best d, findNearestR fl s x = .ok (best, d) ∧ ∀ j, best = some j → ∃ c, InUse s j c := by
  obtain ⟨b, d, h1, h2⟩ := nearestLoopR_ok (fl := fl) s x (fun _ => true) hlen s.active.length 0 none (some 1000000) (by omega) (by simp)
  refine ⟨b, d, by unfold findNearestR; rw [hlen]; exact h1, fun j hj => ?_⟩
  obtain ⟨c, h3, -⟩ := h2 j hj
  exact ⟨c, h3⟩

theorem Num.lt_trans {a b c : Num} (h1 : a.lt b = true) (h2 : b.lt c = true) : a.lt c = true := by
  cases a <;> cases b <;> cases c <;> simp only [Num.lt, decide_eq_true_eq, Bool.false_eq_true] at *
  exact _root_.lt_trans h1 h2

/-- A search that finds nothing has met only clusters that are too far away (or NaN); a search that finds something has found a cluster within the cap. -/
theorem nearestLoopR_none (s : State Num) (x : List Num) (p : Cluster Num → Bool) (hlen : s.clusters.length = s.active.length) :
    ∀ (k i : Nat) (best : Option Nat) (d : Num) (r : Option Nat) (d' : Num), i + k = s.active.length →
    nearestLoopR fl s x p i k best d = .ok (r, d') →
    (r = none → best = none ∧ ∀ j c, i ≤ j → InUse s j c → p c = true → (distanceR fl x (centroidR fl c)).lt d = false) ∧
    (∀ j, r = some j → best = some j ∨ ∃ c, InUse s j c ∧ p c = true ∧ (distanceR fl x (centroidR fl c)).lt d = true)
  | 0, i, best, d, r, d', h, he => by
      simp only [nearestLoopR, Except.ok.injEq, Prod.mk.injEq] at he
      obtain ⟨rfl, rfl⟩ := he
      refine ⟨fun hn => ⟨hn, fun j c h1 h2 => ?_⟩, fun j hj => .inl hj⟩
      have := (List.getElem?_eq_some_iff.1 h2.1).1
      omega
  | k + 1, i, best, d, r, d', h, he => by
      have hi : i < s.active.length := by omega
      have hic : i < s.clusters.length := by omega
      by_cases hsel : (s.active[i] && p s.clusters[i]) = true
      · have hs2 : s.active[i] = true ∧ p s.clusters[i] = true := by simpa using hsel
        by_cases hd : (distanceR fl x (centroidR fl s.clusters[i])).lt d = true
        · simp only [nearestLoopR, rd_ok hi, rd_ok hic, bind, Except.bind, if_pos hsel, if_pos hd] at he
          obtain ⟨h1, h2⟩ := nearestLoopR_none s x p hlen k (i + 1) _ _ r d' (by omega) he
          refine ⟨fun hn => absurd (h1 hn).1 (by simp), fun j hj => .inr ?_⟩
          rcases h2 j hj with h3 | ⟨c, h3, h4, h5⟩
          · cases h3
            exact ⟨_, ⟨by rw [List.getElem?_eq_getElem hi, hs2.1], List.getElem?_eq_getElem hic⟩, hs2.2, hd⟩
          · exact ⟨c, h3, h4, Num.lt_trans h5 hd⟩
        · simp only [nearestLoopR, rd_ok hi, rd_ok hic, bind, Except.bind, if_pos hsel, if_neg hd] at he
          obtain ⟨h1, h2⟩ := nearestLoopR_none s x p hlen k (i + 1) _ _ r d' (by omega) he
          refine ⟨fun hn => ⟨(h1 hn).1, fun j c h3 h4 h5 => ?_⟩, h2⟩
          rcases Nat.eq_or_lt_of_le h3 with rfl | h3
          · have : c = s.clusters[i] := by have := h4.2; rw [List.getElem?_eq_getElem hic] at this; cases this; rfl
            rw [this]
            simpa using hd
          · exact (h1 hn).2 j c h3 h4 h5
      · simp only [nearestLoopR, rd_ok hi, rd_ok hic, bind, Except.bind, if_neg hsel] at he
        obtain ⟨h1, h2⟩ := nearestLoopR_none s x p hlen k (i + 1) _ _ r d' (by omega) he
        refine ⟨fun hn => ⟨(h1 hn).1, fun j c h3 h4 h5 => ?_⟩, h2⟩
        rcases Nat.eq_or_lt_of_le h3 with rfl | h3
        · have e1 : c = s.clusters[i] := by have := h4.2; rw [List.getElem?_eq_getElem hic] at this; cases this; rfl
          have e2 : s.active[i] = true := by have := h4.1; rw [List.getElem?_eq_getElem hi] at this; exact Option.some.inj this
          exact absurd (by rw [e2, ← e1, h5]; rfl) hsel
        · exact (h1 hn).2 j c h3 h4 h5

theorem findNearestClassR_ok (s : State Num) (x : List Num) (label : Int) (hlen : s.clusters.length = s.active.length) :
    ∃ near nc, findNearestClassR fl s x label = .ok (near, nc) ∧
      ∀ j, nc = some j → (∃ c, InUse s j c ∧ c.label = label) ∧ ∃ i d, near = some i ∧ InUse s i d := by
  obtain ⟨best, dn, h1, h2⟩ := findNearestR_ok (fl := fl) s x hlen
  obtain ⟨nc, dc, h3, h4⟩ := nearestLoopR_ok (fl := fl) s x (fun c => decide (c.label = label)) hlen s.active.length 0 none (some 1000000) (by omega) (by simp)
  have h5 := nearestLoopR_none s x _ hlen _ 0 none (some 1000000) nc dc (by omega) h3
  have h6 := nearestLoopR_none s x (fun _ => true) hlen s.active.length 0 none (some 1000000) best dn (by omega) (by rw [← hlen]; exact h1)
  rw [← hlen] at h3
  have key : ∀ j, nc = some j → (∃ c, InUse s j c ∧ c.label = label) ∧ ∃ i d, best = some i ∧ InUse s i d := by
    intro j hj
    obtain ⟨c, g1, g2⟩ := h4 j hj
    refine ⟨⟨c, g1, of_decide_eq_true g2⟩, ?_⟩
    cases hb : best with
    | some i =>
      obtain ⟨d, hd⟩ := h2 i hb
      exact ⟨i, d, rfl, hd⟩
    | none =>
      rcases h5.2 j hj with g | ⟨c', g3, g4, g5⟩
      · cases g
      · rw [(h6.1 hb).2 j c' (Nat.zero_le _) g3 rfl] at g5
        cases g5
  have key2 : ∀ j, nc = some j → (∃ c, InUse s j c ∧ c.label = label) ∧ ∃ i d, nc = some i ∧ InUse s i d := by
    intro j hj
    obtain ⟨⟨c, g1, g2⟩, -⟩ := key j hj
    exact ⟨⟨c, g1, g2⟩, j, c, hj, g1⟩
  have second : ∃ near nc', (if dc.eq dn = true then (Except.ok (nc, nc) : Res (Option Nat × Option Nat)) else .ok (best, nc)) = .ok (near, nc') ∧
      ∀ j, nc' = some j → (∃ c, InUse s j c ∧ c.label = label) ∧ ∃ i d, near = some i ∧ InUse s i d := by
    by_cases hq : dc.eq dn = true
    · exact ⟨nc, nc, by rw [if_pos hq], key2⟩
    · exact ⟨best, nc, by rw [if_neg hq], key⟩
  cases hb : best with
  | none =>
    rw [hb] at h1 second
    obtain ⟨near, nc', s1, s2⟩ := second
    refine ⟨near, nc', ?_, s2⟩
    simpa only [findNearestClassR, h1, bind, Except.bind, pure, Except.pure, Bool.false_eq_true, if_false, h3] using s1
  | some i =>
    obtain ⟨d, hd⟩ := h2 i hb
    have hil : i < s.clusters.length := (List.getElem?_eq_some_iff.1 hd.2).1
    have hdi : s.clusters[i] = d := by have := hd.2; rw [List.getElem?_eq_getElem hil] at this; cases this; rfl
    by_cases hl : d.label = label
    · refine ⟨some i, some i, ?_, ?_⟩
      · simp only [findNearestClassR, h1, hb, bind, Except.bind, pure, Except.pure, rd_ok hil, hdi, hl, decide_true, if_true]
      · rintro j ⟨⟩
        exact ⟨⟨d, hd, hl⟩, i, d, rfl, hd⟩
    · rw [hb] at h1 second
      obtain ⟨near, nc', s1, s2⟩ := second
      refine ⟨near, nc', ?_, s2⟩
      simpa only [findNearestClassR, h1, bind, Except.bind, pure, Except.pure, rd_ok hil, hdi, hl, decide_false, Bool.false_eq_true, if_false, h3] using s1

/-- a cluster that may stand in an active slot -/
def Fit (fc : Nat) (labels : List Int) (c : Cluster Num) : Prop := c.sum.length = fc ∧ c.sq.length = fc ∧ 1 ≤ c.n ∧ c.label ∈ labels

theorem McInv.put {fc m : Nat} {labels : List Int} {s s' : State Num} (h : McInv fc m labels s) {j : Nat} {c : Cluster Num}
    (hc : Fit fc labels c) (h1 : s'.clusters = s.clusters.set j c) (h2 : s'.active = s.active ∨ s'.active = s.active.set j true) :
    McInv fc m labels s' := by
  refine ⟨by rw [h1, List.length_set, h.clen], ?_, ?_⟩
  · rcases h2 with h2 | h2 <;> rw [h2]
    · exact h.alen
    · rw [List.length_set, h.alen]
  · rintro i d ⟨ha, hd⟩
    rw [h1] at hd
    by_cases e : j = i
    · subst e
      rw [List.getElem?_set_self' ] at hd
      cases hs : s.clusters[j]? with
      | none => rw [hs] at hd; cases hd
      | some _ =>
        rw [hs] at hd
        have hd' : c = d := Option.some.inj hd
        rw [← hd']
        exact hc
    · rw [List.getElem?_set_ne e] at hd
      refine h.good i d ⟨?_, hd⟩
      rcases h2 with h2 | h2
      · rw [← h2]; exact ha
      · rw [h2, List.getElem?_set_ne e] at ha
        exact ha

theorem splitLoopR_some : ∀ (vs : List Num) (i : Nat) (idx : Option Nat) (hv : Num), (idx ≠ none ∨ vs ≠ []) →
    ∃ k v, splitLoopR vs i idx hv = (some k, v)
  | [], i, idx, hv, h => by
      obtain ⟨k, hk⟩ := Option.ne_none_iff_exists'.1 (h.resolve_right (by simp))
      exact ⟨k, hv, by rw [hk]; rfl⟩
  | v :: vs, i, idx, hv, h => by
      unfold splitLoopR
      by_cases hc : hv.lt v = true ∨ idx = none
      · rw [if_pos hc]
        exact splitLoopR_some vs (i + 1) (some i) v (.inl (by simp))
      · rw [if_neg hc]
        push Not at hc
        exact splitLoopR_some vs (i + 1) idx hv (.inl hc.2)

theorem fit_init {fc : Nat} {labels : List Int} {x : List Num} (hx : x.length = fc) {l : Int} (hl : l ∈ labels) (t thr : Int) :
    Fit fc labels (initClusterR fl x l t thr) := ⟨hx, by simp [initClusterR, hx], le_refl 1, hl⟩

theorem fit_incorporate {fc : Nat} {labels : List Int} {c : Cluster Num} (hc : Fit fc labels c) {x : List Num} (hx : x.length = fc) (t : Int) :
    Fit fc labels (incorporateR fl c x t) := by
  obtain ⟨h1, h2, h3, h4⟩ := hc
  exact ⟨by simp [incorporateR, h1, hx], by simp [incorporateR, h2, hx], by simp only [incorporateR]; omega, h4⟩

theorem splitIntoR_ok (root : ℚ → ℚ) {fc m : Nat} {labels : List Int} {s : State Num} (h : McInv fc m labels s) (hfc : 1 ≤ fc) {ci j : Nat} {c : Cluster Num}
    (hc : InUse s ci c) (hj : j < m) : ∃ s', splitIntoR fl root s ci j = .ok s' ∧ McInv fc m labels s' ∧ (∀ i : Nat, s.active[i]? = some true → s'.active[i]? = some true) ∧
      s'.timestamp = s.timestamp := by
  obtain ⟨g1, g2, g3, g4⟩ := h.good ci c hc
  have hci : ci < s.clusters.length := (List.getElem?_eq_some_iff.1 hc.2).1
  have hcc : s.clusters[ci] = c := by have := hc.2; rw [List.getElem?_eq_getElem hci] at this; exact Option.some.inj this
  have hjc : j < s.clusters.length := by rw [h.clen]; exact hj
  have hja : j < s.active.length := by rw [h.alen]; exact hj
  obtain ⟨si, hv, hs⟩ := splitLoopR_some (variancesR fl c) 0 none (some 0) (.inr (by
    intro h0
    have := congrArg List.length h0
    simp [variancesR, g1, g2] at this
    omega))
  have hcl : (centroidR fl c).length = fc := by simp [centroidR, g1]
  set c1 := initClusterR fl ((centroidR fl c).modify si (fun v => Num.sub fl v (Num.sqrt root hv))) c.label (Utils.trunc (fl ((c.tsSum : ℚ) / (c.n : ℚ)))) s.errorThr with hc1
  have f1 : Fit fc labels c1 := fit_init (by rw [List.length_modify, hcl]) g4 _ _
  have hci2 : ci < (s.clusters.set j c1).length := by rw [List.length_set]; exact hci
  have hlab : (s.clusters.set j c1)[ci].label = c.label := by
    rw [List.getElem_set]
    by_cases e : j = ci
    · rw [if_pos e]; rfl
    · rw [if_neg e, hcc]
  set c2 := initClusterR fl ((centroidR fl c).modify si (fun v => Num.add fl v (Num.sqrt root hv))) c.label (Utils.trunc (fl ((c.tsSum : ℚ) / (c.n : ℚ)))) s.errorThr with hc2
  have f2 : Fit fc labels c2 := fit_init (by rw [List.length_modify, hcl]) g4 _ _
  refine ⟨{ s with clusters := (s.clusters.set j c1).set ci c2, active := s.active.set j true, count := s.count + 1 }, ?_, ?_, ?_, rfl⟩
  · simp only [splitIntoR, rd_ok hci, hcc, hs, bind, Except.bind, wr_ok _ hjc, ← hc1, rd_ok hci2, wr_ok _ hci2, wr_ok _ hja, pure, Except.pure, hlab, ← hc2]
  · have m1 : McInv fc m labels { s with clusters := s.clusters.set j c1, active := s.active.set j true } := h.put f1 rfl (.inr rfl)
    exact m1.put f2 rfl (.inl rfl)
  · intro i hi
    show (s.active.set j true)[i]? = some true
    by_cases e : j = i
    · subst e; exact List.getElem?_set_self hja
    · rw [List.getElem?_set_ne e]; exact hi

theorem splitStepR_ok (root : ℚ → ℚ) {fc m : Nat} {labels : List Int} {s : State Num} (h : McInv fc m labels s) (hfc : 1 ≤ fc) {ci : Nat} {c : Cluster Num}
    (hc : InUse s ci c) : ∃ s', splitStepR fl root s ci = .ok s' ∧ McInv fc m labels s' ∧ (∀ i : Nat, s.active[i]? = some true → s'.active[i]? = some true) ∧
      s'.timestamp = s.timestamp := by
  have hlen : s.clusters.length = s.active.length := by rw [h.clen, h.alen]
  rcases freeLoop_spec s.active (some ci) s.active.length 0 (by omega) with ⟨j, a1, _, a2, a3⟩ | ⟨a1, a2⟩
  · have hj : j < m := by rw [← h.alen]; exact (List.getElem?_eq_some_iff.1 a2).1
    obtain ⟨s', b1, b2⟩ := splitIntoR_ok (fl := fl) root h hfc hc hj
    exact ⟨s', by simp only [splitStepR, hlen, a1, bind, Except.bind, b1], b2⟩
  · by_cases hcl : s.cleaning = 0 ∨ s.cleaning = 2
    · obtain ⟨j, b1, b2⟩ := lowestR_ok (fl := fl) s hlen hc.1
      have hj : j < m := by rw [← h.alen]; exact (List.getElem?_eq_some_iff.1 b2).1
      obtain ⟨s', c1, c2⟩ := splitIntoR_ok (fl := fl) root h hfc hc hj
      exact ⟨s', by simp only [splitStepR, hlen, a1, bind, Except.bind, if_pos hcl, b1, c1], c2⟩
    · exact ⟨s, by simp only [splitStepR, hlen, a1, bind, Except.bind, if_neg hcl, pure, Except.pure], h, fun _ hi => hi, rfl⟩

theorem McInv.inUse {fc m : Nat} {labels : List Int} {s : State Num} (h : McInv fc m labels s) {i : Nat} (hi : s.active[i]? = some true) : ∃ c, InUse s i c := by
  have : i < s.clusters.length := by rw [h.clen, ← h.alen]; exact (List.getElem?_eq_some_iff.1 hi).1
  exact ⟨_, hi, List.getElem?_eq_getElem this⟩

theorem absorbR_ok (root : ℚ → ℚ) {fc m : Nat} {labels : List Int} {s : State Num} (h : McInv fc m labels s) (hfc : 1 ≤ fc) {x : List Num} (hx : x.length = fc)
    {i j : Nat} {d c : Cluster Num} (hi : InUse s i d) (hj : InUse s j c) : ∃ s', absorbR fl root s x i j = .ok s' ∧ McInv fc m labels s' := by
  have hil : i < s.clusters.length := (List.getElem?_eq_some_iff.1 hi.2).1
  have hjl : j < s.clusters.length := (List.getElem?_eq_some_iff.1 hj.2).1
  have hid : s.clusters[i] = d := by have := hi.2; rw [List.getElem?_eq_getElem hil] at this; exact Option.some.inj this
  have hjd : s.clusters[j] = c := by have := hj.2; rw [List.getElem?_eq_getElem hjl] at this; exact Option.some.inj this
  have fd : Fit fc labels d := h.good i d hi
  by_cases e : i = j
  · refine ⟨_, by simp only [absorbR, if_pos e, rd_ok hil, bind, Except.bind, wr_ok _ hil, pure, Except.pure]; rfl, ?_⟩
    refine h.put (j := i) (c := incorporateR fl { s.clusters[i] with err := s.clusters[i].err + 1 } x s.timestamp) (fit_incorporate ?_ hx _) rfl (.inl rfl)
    rw [hid]; exact fd
  · have hjl2 : j < (s.clusters.set i { s.clusters[i] with err := s.clusters[i].err - 1 }).length := by rw [List.length_set]; exact hjl
    have hb : (s.clusters.set i { s.clusters[i] with err := s.clusters[i].err - 1 })[j] = c := by rw [List.getElem_set, if_neg e, hjd]
    have m1 : McInv fc m labels { s with clusters := s.clusters.set i { s.clusters[i] with err := s.clusters[i].err - 1 } } :=
      h.put (j := i) (c := { s.clusters[i] with err := s.clusters[i].err - 1 }) (by rw [hid]; exact fd) rfl (.inl rfl)
    set s2 : State Num := { s with clusters := (s.clusters.set i { s.clusters[i] with err := s.clusters[i].err - 1 }).set j (incorporateR fl { c with err := c.err - 1 } x s.timestamp) } with hs2
    have m2 : McInv fc m labels s2 := m1.put (j := j) (c := incorporateR fl { c with err := c.err - 1 } x s.timestamp)
      (fit_incorporate (c := { c with err := c.err - 1 }) (h.good j c hj) hx s.timestamp) rfl (.inl rfl)
    obtain ⟨cj, hcj⟩ := m2.inUse (i := j) hj.1
    obtain ⟨s3, r1, r2, r3⟩ : ∃ s3, (if c.err - 1 ≤ 0 then splitStepR fl root s2 j else (.ok s2 : Res (State Num))) = .ok s3 ∧ McInv fc m labels s3 ∧
        ∀ i : Nat, s2.active[i]? = some true → s3.active[i]? = some true := by
      by_cases hz : c.err - 1 ≤ 0
      · obtain ⟨s3, q1, q2, q3, _⟩ := splitStepR_ok (fl := fl) root m2 hfc hcj
        exact ⟨s3, by rw [if_pos hz]; exact q1, q2, q3⟩
      · exact ⟨s2, by rw [if_neg hz], m2, fun _ hk => hk⟩
    obtain ⟨di, hdi⟩ := r2.inUse (i := i) (r3 i hi.1)
    have hil3 : i < s3.clusters.length := (List.getElem?_eq_some_iff.1 hdi.2).1
    have tail : ∃ s', (if s3.clusters[i].err ≤ 0 then splitStepR fl root s3 i else (.ok s3 : Res (State Num))) = .ok s' ∧ McInv fc m labels s' := by
      by_cases hz : s3.clusters[i].err ≤ 0
      · obtain ⟨s4, q1, q2, _⟩ := splitStepR_ok (fl := fl) root r2 hfc hdi
        exact ⟨s4, by rw [if_pos hz]; exact q1, q2⟩
      · exact ⟨s3, by rw [if_neg hz], r2⟩
    obtain ⟨s', t1, t2⟩ := tail
    refine ⟨s', ?_, t2⟩
    simp only [absorbR, if_neg e, rd_ok hil, bind, Except.bind, wr_ok _ hil, rd_ok hjl2, hb, wr_ok _ hjl2, ← hs2, pure, Except.pure]
    by_cases hz : c.err - 1 ≤ 0
    · rw [if_pos hz] at r1
      simp only [if_pos hz, r1, rd_ok hil3]
      exact t1
    · rw [if_neg hz] at r1
      cases r1
      simp only [if_neg hz, rd_ok hil3]
      exact t1

theorem insertR_ok {fc m : Nat} {labels : List Int} {s : State Num} (h : McInv fc m labels s) (hm : 1 ≤ m) {x : List Num} (hx : x.length = fc)
    {l : Int} (hl : l ∈ labels) : ∃ s' b, insertR fl s x l = .ok (s', b) ∧ McInv fc m labels s' := by
  have hlen : s.clusters.length = s.active.length := by rw [h.clen, h.alen]
  have fx : Fit fc labels (initClusterR fl x l s.timestamp s.errorThr) := fit_init hx hl _ _
  rcases freeLoop_spec s.active none s.active.length 0 (by omega) with ⟨j, a1, _, a2, a3⟩ | ⟨a1, a2⟩
  · have hja : j < s.active.length := (List.getElem?_eq_some_iff.1 a2).1
    have hjc : j < s.clusters.length := by rw [hlen]; exact hja
    exact ⟨_, _, by simp only [insertR, hlen, a1, bind, Except.bind, wr_ok _ hja, wr_ok _ hjc, pure, Except.pure]; rfl, h.put (j := j) fx rfl (.inr rfl)⟩
  · by_cases hcl : s.cleaning = 0 ∨ s.cleaning = 2
    · have h0 : s.active[0]? = some true := by
        rcases a2 0 (le_refl 0) (by rw [h.alen]; exact hm) with h | h
        · exact h
        · cases h
      obtain ⟨j, b1, b2⟩ := lowestR_ok (fl := fl) s hlen h0
      have hjc : j < s.clusters.length := by rw [hlen]; exact (List.getElem?_eq_some_iff.1 b2).1
      exact ⟨{ s with clusters := s.clusters.set j (initClusterR fl x l s.timestamp s.errorThr) }, true,
        by simp only [insertR, hlen, a1, bind, Except.bind, if_pos hcl, b1, wr_ok _ hjc, pure, Except.pure], h.put (j := j) fx rfl (.inl rfl)⟩
    · exact ⟨s, false, by simp only [insertR, hlen, a1, bind, Except.bind, if_neg hcl, pure, Except.pure], h⟩

theorem McInv.mono {fc m : Nat} {labels labels' : List Int} {s : State Num} (h : McInv fc m labels s) (hs : ∀ l ∈ labels, l ∈ labels') : McInv fc m labels' s :=
  ⟨h.clen, h.alen, fun i c hi => ⟨(h.good i c hi).1, (h.good i c hi).2.1, (h.good i c hi).2.2.1, hs _ (h.good i c hi).2.2.2⟩⟩

theorem McInv.clean {fc m : Nat} {labels : List Int} {s : State Num} (h : McInv fc m labels s) : McInv fc m labels (cleanR fl s) := by
  refine ⟨h.clen, by simp [cleanR, h.clen, h.alen], ?_⟩
  rintro i c ⟨h1, h2⟩
  refine h.good i c ⟨?_, h2⟩
  simp only [cleanR, List.getElem?_zipWith] at h1
  cases ha : s.active[i]? with
  | none => rw [ha] at h1; simp at h1
  | some a =>
    rw [ha, show s.clusters[i]? = some c from h2] at h1
    simp only [Option.some.injEq] at h1
    cases a
    · simp at h1
    · rfl

theorem mcTrainR_ok (root : ℚ → ℚ) {fc m : Nat} {labels : List Int} {s : State Num} (h : McInv fc m labels s) (hfc : 1 ≤ fc) (hm : 1 ≤ m) {x : List Num}
    (hx : x.length = fc) {l : Int} (hl : l ∈ labels) : ∃ s' b, mcTrainR fl root s x l = .ok (s', b) ∧ McInv fc m labels s' := by
  obtain ⟨s1, e1, m1⟩ : ∃ s1, s1 = (if s.cleaning = 1 ∨ s.cleaning = 2 then cleanR fl s else s) ∧ McInv fc m labels s1 := by
    refine ⟨_, rfl, ?_⟩
    split
    · exact h.clean
    · exact h
  have m2 : McInv fc m labels { s1 with timestamp := s1.timestamp + 1 } := ⟨m1.clen, m1.alen, m1.good⟩
  set s2 : State Num := { s1 with timestamp := s1.timestamp + 1 } with hs2
  obtain ⟨near, nc, f1, f2⟩ := findNearestClassR_ok (fl := fl) s2 x l (by rw [m2.clen, m2.alen])
  cases nc with
  | none =>
    obtain ⟨s', b, i1, i2⟩ := insertR_ok (fl := fl) m2 hm hx hl
    exact ⟨s', b, by simp only [mcTrainR, ← e1, ← hs2, f1, bind, Except.bind, i1], i2⟩
  | some j =>
    obtain ⟨⟨c, g1, g2⟩, i, d, rfl, g3⟩ := f2 j rfl
    obtain ⟨s', a1, a2⟩ := absorbR_ok (fl := fl) root m2 hfc hx g3 g1
    exact ⟨s', true, by simp only [mcTrainR, ← e1, ← hs2, f1, bind, Except.bind, a1, pure, Except.pure], a2⟩

theorem mcRunR_ok (root : ℚ → ℚ) {fc m : Nat} {labels : List Int} (hfc : 1 ≤ fc) (hm : 1 ≤ m) : ∀ (ps : List (List ℚ × Int)) (s : State Num), McInv fc m labels s →
    (∀ p ∈ ps, p.1.length = fc ∧ p.2 ∈ labels) → ∃ s', mcRunR fl root s ps = .ok s' ∧ McInv fc m labels s'
  | [], s, h, _ => ⟨s, rfl, h⟩
  | p :: ps, s, h, hp => by
      obtain ⟨s1, b, h1, h2⟩ := mcTrainR_ok (fl := fl) root h hfc hm (x := p.1.map some) (by simp [(hp p (by simp)).1]) (hp p (by simp)).2
      obtain ⟨s2, h3, h4⟩ := mcRunR_ok root hfc hm ps s1 h2 (fun q hq => hp q (by simp [hq]))
      exact ⟨s2, by simp only [mcRunR, h1, bind, Except.bind, h3], h4⟩

theorem mcNewR_inv (fc : Nat) (garbage : List (Cluster Num)) (thr cl : Nat) (perf : ℚ) (labels : List Int) :
    McInv fc garbage.length labels (mcNewR garbage thr cl perf) := by
  refine ⟨rfl, by simp [mcNewR], ?_⟩
  rintro i c ⟨h1, -⟩
  simp only [mcNewR] at h1
  rw [List.getElem?_map] at h1
  cases h : garbage[i]? <;> rw [h] at h1 <;> simp at h1

/-- **C110 (memory safety and labels).** With any rounding, any square root and any leftover content of the clusters, every training history of points
with the right number of features runs without undefined behaviour, and every prediction is the "no class" value or a label of the history. -/
theorem C110_sound (fl root : ℚ → ℚ) {fc : Nat} (hfc : 1 ≤ fc) (garbage : List (Cluster Num)) (hg : garbage ≠ []) (thr cl : Nat) (perf : ℚ) (emptyClass : Int)
    (ps : List (List ℚ × Int)) (hp : ∀ p ∈ ps, p.1.length = fc) (x : List ℚ) :
    ∃ s, mcRunR fl root (mcNewR garbage thr cl perf) ps = .ok s ∧
      ∃ l, mcPredictR fl emptyClass s (x.map some) = .ok l ∧ (l = emptyClass ∨ ∃ p ∈ ps, p.2 = l) := by
  obtain ⟨s, h1, h2⟩ := mcRunR_ok (fl := fl) root hfc (List.length_pos_iff.2 hg) ps _ (mcNewR_inv fc garbage thr cl perf (ps.map (·.2)))
    (fun p h => ⟨hp p h, List.mem_map_of_mem h⟩)
  refine ⟨s, h1, ?_⟩
  obtain ⟨best, d, h3, h4⟩ := findNearestR_ok (fl := fl) s (x.map some) (by rw [h2.clen, h2.alen])
  cases best with
  | none => exact ⟨emptyClass, by simp only [mcPredictR, h3, bind, Except.bind, pure, Except.pure], .inl rfl⟩
  | some j =>
    obtain ⟨c, hc⟩ := h4 j rfl
    have hjl : j < s.clusters.length := (List.getElem?_eq_some_iff.1 hc.2).1
    have hcc : s.clusters[j] = c := by have := hc.2; rw [List.getElem?_eq_getElem hjl] at this; exact Option.some.inj this
    refine ⟨c.label, by simp only [mcPredictR, h3, bind, Except.bind, rd_ok hjl, hcc, pure, Except.pure], .inr ?_⟩
    obtain ⟨p, hp1, hp2⟩ := List.mem_map.1 (h2.good j c hc).2.2.2
    exact ⟨p, hp1, hp2⟩

end Orp.Rounding
