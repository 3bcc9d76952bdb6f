import Verif.Rounding.McnnError

/-!
The model of `MCNN` with rounding agrees with the exact model when nothing is rounded (part of C110).
-/

set_option linter.unusedSectionVars false

namespace Orp.Rounding

open Mcnn

/-- a cluster of the exact model -/
def liftC (c : Cluster ℚ) : Cluster Num :=
  { sq := c.sq.map some, sum := c.sum.map some, tsSq := c.tsSq, tsSum := c.tsSum, n := c.n, label := c.label, err := c.err, init := c.init }

/-- a state of the exact model -/
def liftS (s : State ℚ) : State Num :=
  { clusters := s.clusters.map liftC, active := s.active, count := s.count, timestamp := s.timestamp, errorThr := s.errorThr, perfThr := s.perfThr,
    cleaning := s.cleaning }

theorem rd_map {α β : Type} (g : α → β) (l : List α) (i : Nat) : rd (l.map g) i = (rd l i).map g := by
  by_cases h : i < l.length
  · rw [rd_ok h, rd_ok (by simpa using h)]
    simp [Except.map]
  · cases h1 : rd l i with
    | ok a => exact absurd (List.getElem?_eq_some_iff.1 (rd_eq_ok_iff.1 h1)).1 h
    | error e =>
      unfold rd at h1 ⊢
      rw [List.getElem?_map]
      revert h1
      cases l[i]? with
      | none => intro h1; cases h1; rfl
      | some a => intro h1; cases h1

theorem wr_map {α β : Type} (g : α → β) (l : List α) (i : Nat) (a : α) : wr (l.map g) i (g a) = (wr l i a).map (List.map g) := by
  unfold wr
  by_cases h : i < l.length
  · rw [if_pos h, if_pos (by simpa using h)]
    simp [Except.map, List.map_set]
  · rw [if_neg h, if_neg (by simpa using h)]
    rfl

theorem zipWith_some (op : ℚ → ℚ → ℚ) (g : Num → Num → Num) (hg : ∀ a b, g (some a) (some b) = some (op a b)) : ∀ a b : List ℚ,
    List.zipWith g (a.map some) (b.map some) = (List.zipWith op a b).map some
  | [], _ => by simp
  | _ :: _, [] => by simp
  | x :: a, y :: b => by simp [hg, zipWith_some op g hg a b]

theorem variancesR_id (c : Cluster ℚ) : variancesR id (liftC c) = c.variances.map some :=
  zipWith_some _ _ (fun _ _ => rfl) _ _

theorem incorporateR_id (c : Cluster ℚ) (x : List ℚ) (t : Int) : incorporateR id (liftC c) (x.map some) t = liftC (c.incorporate x t) := by
  have e1 : List.zipWith (fun s v => Num.add id s v) (c.sum.map some) (x.map some) = (List.zipWith (fun s v => s + v) c.sum x).map some :=
    zipWith_some _ _ (fun _ _ => rfl) _ _
  have e2 : List.zipWith (fun s v => Num.add id s (Num.mul id v v)) (c.sq.map some) (x.map some) = (List.zipWith (fun s v => s + v * v) c.sq x).map some :=
    zipWith_some _ _ (fun _ _ => rfl) _ _
  simp only [incorporateR, liftC, Cluster.incorporate, e1, e2]

theorem initClusterR_id (x : List ℚ) (l t thr : Int) : initClusterR id (x.map some) l t thr = liftC (initCluster x l t thr) := by
  simp only [initClusterR, liftC, initCluster, List.map_map]
  rfl

theorem centroidR_id (c : Cluster ℚ) : centroidR id (liftC c) = c.centroid.map some := by
  simp only [centroidR, liftC, Cluster.centroid, List.map_map]
  rfl

theorem performanceR_id (c : Cluster ℚ) (now : Int) : performanceR id (liftC c) now = c.performance now := by
  have : ∀ x : Dbl ℚ, rndD id x = x := by intro x; cases x <;> rfl
  simp only [performanceR, this]
  rfl

theorem distanceR_id (x y : List ℚ) : distanceR id (x.map some) (y.map some) = some (distance x y) := by
  unfold distanceR distance
  rw [zipWith_some (fun x y => (x - y) * (x - y)) _ (fun _ _ => rfl)]
  have : ∀ (l : List ℚ) (a : ℚ), (l.map some).foldl (Num.add id) (some a) = some (a + l.sum) := by
    intro l
    induction l with
    | nil => intro a; simp
    | cons b l ih =>
      intro a
      rw [List.map_cons, List.foldl_cons, show Num.add id (some a) (some b) = some (a + b) from rfl, ih, List.sum_cons, add_assoc]
  rw [this, zero_add]

theorem lowestLoopR_id (s : State ℚ) : ∀ (k i : Nat) (low : Option Nat) (val : Dbl ℚ), lowestLoopR id (liftS s) i k low val = lowestLoop s i k low val
  | 0, i, low, val => rfl
  | k + 1, i, low, val => by
      unfold lowestLoopR lowestLoop
      rw [show (liftS s).active = s.active from rfl, show (liftS s).clusters = s.clusters.map liftC from rfl, show (liftS s).timestamp = s.timestamp from rfl]
      cases rd s.active i with
      | error e => rfl
      | ok a =>
        simp only [bind, Except.bind, rd_map]
        cases a
        · simp only [Bool.false_eq_true, if_false, lowestLoopR_id s k]
        · simp only [if_true]
          cases rd s.clusters i with
          | error e => rfl
          | ok c => simp only [Except.map, performanceR_id, lowestLoopR_id s k]

theorem lowestR_id (s : State ℚ) : lowestR id (liftS s) = lowest s := by
  unfold lowestR lowest
  rw [lowestLoopR_id, show (liftS s).clusters = s.clusters.map liftC from rfl, List.length_map]

theorem splitLoopR_id : ∀ (vs : List ℚ) (i : Nat) (idx : Option Nat) (hv : ℚ),
    splitLoopR (vs.map some) i idx (some hv) = ((splitLoop vs i idx hv).1, some (splitLoop vs i idx hv).2)
  | [], _, _, _ => rfl
  | v :: vs, i, idx, hv => by
      have e : (Num.lt (some hv) (some v) = true) = (v > hv) := by simp [Num.lt]
      simp only [List.map_cons, splitLoopR, splitLoop, e]
      by_cases hc : v > hv ∨ idx = none
      · rw [if_pos hc, if_pos hc, splitLoopR_id vs]
      · rw [if_neg hc, if_neg hc, splitLoopR_id vs]

theorem trunc_div (a : Int) (n : Nat) : Utils.trunc ((a : ℚ) / (n : ℚ)) = a.tdiv n := by
  unfold Utils.trunc
  by_cases h : a < 0
  · rcases Nat.eq_zero_or_pos n with rfl | hn
    · simp
    · have hn0 : (0 : ℚ) < n := by exact_mod_cast hn
      rw [if_pos (div_neg_of_neg_of_pos (by exact_mod_cast h) hn0)]
      have e : (a : ℚ) / n = -(((-a : Int) : ℚ) / n) := by push_cast; ring
      rw [e, Int.ceil_neg, Rat.floor_intCast_div_natCast]
      have : a.tdiv n = -((-a).tdiv n) := by rw [Int.neg_tdiv, neg_neg]
      rw [this, Int.tdiv_eq_ediv_of_nonneg (by omega)]
  · have h' : 0 ≤ a := not_lt.1 h
    have : (0 : ℚ) ≤ (a : ℚ) / n := div_nonneg (by exact_mod_cast h') (by positivity)
    rw [if_neg (not_lt.2 this), Rat.floor_intCast_div_natCast, Int.tdiv_eq_ediv_of_nonneg h']

theorem modify_some (l : List ℚ) (k : Nat) (g : ℚ → ℚ) (g' : Num → Num) (hg : ∀ a, g' (some a) = some (g a)) :
    (l.map some).modify k g' = (l.modify k g).map some := by
  induction l generalizing k with
  | nil => simp
  | cons a l ih => cases k <;> simp [hg, ih]

theorem splitLoop_mem : ∀ (vs : List ℚ) (i : Nat) (idx : Option Nat) (hv : ℚ), (splitLoop vs i idx hv).2 = hv ∨ (splitLoop vs i idx hv).2 ∈ vs
  | [], _, _, _ => .inl rfl
  | v :: vs, i, idx, hv => by
      unfold splitLoop
      split
      · rcases splitLoop_mem vs (i + 1) (some i) v with h | h
        · right; rw [h]; simp
        · right; simp [h]
      · rcases splitLoop_mem vs (i + 1) idx hv with h | h
        · left; exact h
        · right; simp [h]

theorem splitIntoR_id (root : ℚ → ℚ) (s : State ℚ) (ci j : Nat) (hv : ∀ c, s.clusters[ci]? = some c → ∀ v ∈ c.variances, 0 ≤ v) :
    splitIntoR id root (liftS s) ci j = (splitInto root s ci j).map liftS := by
  unfold splitIntoR splitInto
  rw [show (liftS s).clusters = s.clusters.map liftC from rfl, show (liftS s).errorThr = s.errorThr from rfl, show (liftS s).active = s.active from rfl, rd_map]
  cases hc : rd s.clusters ci with
  | error e => rfl
  | ok c =>
    simp only [Except.map, bind, Except.bind, variancesR_id, splitLoopR_id]
    have hnn : 0 ≤ (splitLoop c.variances 0 none 0).2 := by
      rcases splitLoop_mem c.variances 0 none 0 with h | h
      · rw [h]
      · exact hv c (rd_eq_ok_iff.1 hc) _ h
    revert hnn
    rcases splitLoop c.variances 0 none 0 with ⟨idx, w⟩
    intro hnn
    cases idx with
    | none => rfl
    | some si =>
      have e1 : Num.sqrt root (some w) = some (root w) := by simp only [Num.sqrt, if_neg (not_lt.2 hnn)]
      have e2 : Utils.trunc (id (((liftC c).tsSum : ℚ) / ((liftC c).n : ℚ))) = c.tsSum.tdiv c.n := trunc_div _ _
      simp only [e1, e2, centroidR_id]
      rw [modify_some _ _ (fun v => v - root w) _ (fun _ => rfl), modify_some _ _ (fun v => v + root w) _ (fun _ => rfl), initClusterR_id,
        show (liftC c).label = c.label from rfl, wr_map]
      cases wr s.clusters j (initCluster (c.centroid.modify si fun v => v - root w) c.label (c.tsSum.tdiv c.n) s.errorThr) with
      | error e => rfl
      | ok cl =>
        simp only [Except.map, rd_map]
        cases rd cl ci with
        | error e => rfl
        | ok c2 =>
          simp only
          rw [show (liftC c2).label = c2.label from rfl, initClusterR_id, wr_map]
          cases wr cl ci (initCluster (c.centroid.modify si fun v => v + root w) c2.label (c.tsSum.tdiv c.n) s.errorThr) with
          | error e => rfl
          | ok cl2 =>
            simp only [Except.map]
            cases wr s.active j true with
            | error e => rfl
            | ok act => rfl

theorem splitStepR_id (root : ℚ → ℚ) (s : State ℚ) (ci : Nat) (hv : ∀ c, s.clusters[ci]? = some c → ∀ v ∈ c.variances, 0 ≤ v) :
    splitStepR id root (liftS s) ci = (split root s ci).map liftS := by
  unfold splitStepR split
  rw [show (liftS s).clusters.length = s.clusters.length by simp [liftS], show (liftS s).active = s.active from rfl, show (liftS s).cleaning = s.cleaning from rfl,
    lowestR_id]
  cases freeLoop s.active (some ci) 0 s.clusters.length with
  | error e => rfl
  | ok r =>
    cases r with
    | some j => simp only [bind, Except.bind]; exact splitIntoR_id root s ci j hv
    | none =>
      simp only [bind, Except.bind]
      by_cases hc : s.cleaning = 0 ∨ s.cleaning = 2
      · simp only [if_pos hc]
        cases lowest s with
        | error e => rfl
        | ok r =>
          cases r with
          | some j => exact splitIntoR_id root s ci j hv
          | none => rfl
      · simp only [if_neg hc]; rfl

theorem nearestLoopR_id (s : State ℚ) (x : List ℚ) (p : Cluster ℚ → Bool) (p' : Cluster Num → Bool) (hp : ∀ c, p' (liftC c) = p c) :
    ∀ (k i : Nat) (best : Option Nat) (d : ℚ),
    nearestLoopR id (liftS s) (x.map some) p' i k best (some d) = (nearestLoop s x p i k best d).map (fun r => (r.1, some r.2))
  | 0, i, best, d => rfl
  | k + 1, i, best, d => by
      unfold nearestLoopR nearestLoop
      rw [show (liftS s).active = s.active from rfl, show (liftS s).clusters = s.clusters.map liftC from rfl]
      cases rd s.active i with
      | error e => rfl
      | ok a =>
        simp only [bind, Except.bind, rd_map]
        cases rd s.clusters i with
        | error e => rfl
        | ok c =>
          simp only [Except.map, hp, centroidR_id, distanceR_id]
          have hlt : Num.lt (some (distance x c.centroid)) (some d) = decide (distance x c.centroid < d) := rfl
          rw [hlt]
          simp only [decide_eq_true_eq]
          split
          · split
            · exact nearestLoopR_id s x p p' hp k _ _ _
            · exact nearestLoopR_id s x p p' hp k _ _ _
          · exact nearestLoopR_id s x p p' hp k _ _ _

theorem findNearestR_id (s : State ℚ) (x : List ℚ) : findNearestR id (liftS s) (x.map some) = (findNearest s x).map (fun r => (r.1, some r.2)) := by
  unfold findNearestR findNearest
  rw [show (liftS s).clusters.length = s.clusters.length by simp [liftS]]
  exact nearestLoopR_id s x (fun _ => true) (fun _ => true) (fun _ => rfl) _ _ _ _

theorem findNearestClassR_id (s : State ℚ) (x : List ℚ) (l : Int) : findNearestClassR id (liftS s) (x.map some) l = findNearestClass s x l := by
  unfold findNearestClassR findNearestClass
  rw [findNearestR_id, show (liftS s).clusters.length = s.clusters.length by simp [liftS],
    nearestLoopR_id s x (fun c => decide (c.label = l)) _ (fun _ => rfl)]
  cases findNearest s x with
  | error e => rfl
  | ok r =>
    obtain ⟨near, dn⟩ := r
    simp only [Except.map, bind, Except.bind]
    have hd : ∀ a : ℚ, (Num.eq (some a) (some dn) = true) = (a = dn) := by intro a; simp [Num.eq]
    cases near with
    | none =>
      simp only [pure, Except.pure, Bool.false_eq_true, if_false]
      cases nearestLoop s x (fun c => decide (c.label = l)) 0 s.clusters.length none 1000000 with
      | error e => rfl
      | ok r => simp only [hd]
    | some j =>
      simp only [show (liftS s).clusters = s.clusters.map liftC from rfl, rd_map]
      cases rd s.clusters j with
      | error e => rfl
      | ok c =>
        simp only [Except.map, pure, Except.pure, show (liftC c).label = c.label from rfl]
        cases nearestLoop s x (fun c => decide (c.label = l)) 0 s.clusters.length none 1000000 with
        | error e => rfl
        | ok r => simp only [hd]

theorem cleanR_id (s : State ℚ) : cleanR id (liftS s) = liftS (clean s) := by
  simp only [cleanR, clean, liftS, List.zipWith_map_right, performanceR_id]
  rfl

theorem insertR_id (s : State ℚ) (x : List ℚ) (l : Int) : insertR id (liftS s) (x.map some) l = (Mcnn.insert s x l).map (fun r => (liftS r.1, r.2)) := by
  unfold insertR Mcnn.insert
  rw [show (liftS s).clusters.length = s.clusters.length by simp [liftS], show (liftS s).active = s.active from rfl, show (liftS s).cleaning = s.cleaning from rfl,
    lowestR_id, initClusterR_id, show (liftS s).clusters = s.clusters.map liftC from rfl, show (liftS s).timestamp = s.timestamp from rfl,
    show (liftS s).errorThr = s.errorThr from rfl]
  cases freeLoop s.active none 0 s.clusters.length with
  | error e => rfl
  | ok r =>
    cases r with
    | some j =>
      simp only [bind, Except.bind, wr_map]
      cases wr s.active j true with
      | error e => rfl
      | ok act =>
        simp only
        cases wr s.clusters j (initCluster x l s.timestamp s.errorThr) with
        | error e => rfl
        | ok cl => rfl
    | none =>
      simp only [bind, Except.bind]
      by_cases hc : s.cleaning = 0 ∨ s.cleaning = 2
      · simp only [if_pos hc]
        cases lowest s with
        | error e => rfl
        | ok r =>
          cases r with
          | some j =>
            simp only [wr_map]
            cases wr s.clusters j (initCluster x l s.timestamp s.errorThr) with
            | error e => rfl
            | ok cl => rfl
          | none => rfl
      · simp only [if_neg hc]; rfl

/-! ### Splits do not meet negative variances -/

/-- every active cluster summarises some points -/
def Sums (fc : Nat) (s : State ℚ) : Prop := ∀ i c, Active s i c → ∃ pts, pts ≠ [] ∧ Summarises fc c pts

theorem variances_nonneg {fc : Nat} {c : Cluster ℚ} {pts : List (List ℚ)} (hp : pts ≠ []) (h : Summarises fc c pts) : ∀ v ∈ c.variances, 0 ≤ v := by
  intro v hv
  obtain ⟨i, hi, rfl⟩ := List.getElem_of_mem hv
  have hif : i < fc := by
    have := hi
    simp only [Cluster.variances, List.length_zipWith, h.2.1, h.2.2.1] at this
    omega
  obtain ⟨s1, s2⟩ := h.2.2.2 i hif
  have hl : (c.n : ℚ) = (pts.length : ℚ) := by rw [h.1]
  have e : c.variances[i]? = some (varOf pts i) := by
    rw [varOf_eq hp]
    simp only [Cluster.variances, List.getElem?_zipWith, s1, s2, hl, List.map_map, Function.comp_def]
    rw [sq]
  rw [List.getElem?_eq_getElem hi] at e
  rw [Option.some.inj e]
  apply div_nonneg
  · apply List.sum_nonneg
    intro v hv
    obtain ⟨y, _, rfl⟩ := List.mem_map.1 hv
    positivity
  · positivity

theorem Sums.put {fc : Nat} {s s' : State ℚ} (h : Sums fc s) {j : Nat} {c : Cluster ℚ} (hc : ∃ pts, pts ≠ [] ∧ Summarises fc c pts)
    (h1 : s'.clusters = s.clusters.set j c) (h2 : s'.active = s.active ∨ s'.active = s.active.set j true) : Sums fc s' := by
  rintro i d ⟨ha, hd⟩
  rw [h1] at hd
  by_cases e : j = i
  · subst e
    rw [List.getElem?_set_self'] at hd
    cases hs : s.clusters[j]? with
    | none => rw [hs] at hd; cases hd
    | some _ =>
      rw [hs] at hd
      have hd' : c = d := Option.some.inj hd
      rw [← hd']
      exact hc
  · rw [List.getElem?_set_ne e] at hd
    refine h i d ⟨?_, hd⟩
    rcases h2 with h2 | h2
    · rw [← h2]; exact ha
    · rw [h2, List.getElem?_set_ne e] at ha
      exact ha

theorem split_sums (root : ℚ → ℚ) {fc : Nat} (hfc : 1 ≤ fc) {s s' : State ℚ} (hlen : s.clusters.length = s.active.length) (h : Sums fc s) {ci : Nat} {c : Cluster ℚ}
    (hc : Active s ci c) (he : split root s ci = .ok s') : Sums fc s' ∧ s'.clusters.length = s'.active.length ∧
      ∀ i : Nat, s.active[i]? = some true → s'.active[i]? = some true := by
  obtain ⟨pts, hp, hs⟩ := h ci c hc
  obtain ⟨s'', h1, h2⟩ := split_spec root s hfc hlen hc hs
  rw [he] at h1
  cases h1
  rcases h2 with ⟨rfl, _⟩ | ⟨d, j, fe, v, g1, g2, g3, g4, rfl, g5⟩
  · exact ⟨h, hlen, fun _ hi => hi⟩
  · have hcd : d = c := by rw [hc.2] at g1; exact (Option.some.inj g1).symm
    subst hcd
    have hcl := (summ_centroid hs).1
    refine ⟨?_, by simp [splitState, hlen], ?_⟩
    · have m1 : Sums fc { s with clusters := s.clusters.set j (initCluster (d.centroid.modify fe (fun y => y - root v)) d.label (d.tsSum.tdiv (d.n : Int)) s.errorThr),
                                 active := s.active.set j true } :=
        h.put ⟨_, by simp, summ_init fc _ (by rw [List.length_modify, hcl]) _ _ _⟩ rfl (.inr rfl)
      exact m1.put ⟨_, by simp, summ_init fc (d.centroid.modify fe (fun y => y + root v)) (by rw [List.length_modify, hcl]) d.label (d.tsSum.tdiv (d.n : Int)) s.errorThr⟩
        rfl (.inl rfl)
    · intro i hi
      show (s.active.set j true)[i]? = some true
      by_cases e : j = i
      · subst e; exact List.getElem?_set_self g2
      · rw [List.getElem?_set_ne e]; exact hi

theorem absorbR_id (root : ℚ → ℚ) {fc : Nat} (hfc : 1 ≤ fc) {s : State ℚ} (hlen : s.clusters.length = s.active.length) (h : Sums fc s) {x : List ℚ} (hx : x.length = fc)
    {i j : Nat} {d c : Cluster ℚ} (hi : Active s i d) (hj : Active s j c) :
    absorbR id root (liftS s) (x.map some) i j = (absorb root s x i j).map liftS := by
  have hil : i < s.clusters.length := (List.getElem?_eq_some_iff.1 hi.2).1
  have hjl : j < s.clusters.length := (List.getElem?_eq_some_iff.1 hj.2).1
  have hid : s.clusters[i] = d := by have := hi.2; rw [List.getElem?_eq_getElem hil] at this; exact Option.some.inj this
  have hjd : s.clusters[j] = c := by have := hj.2; rw [List.getElem?_eq_getElem hjl] at this; exact Option.some.inj this
  have hil' : i < (liftS s).clusters.length := by simpa [liftS] using hil
  have hid' : (liftS s).clusters[i] = liftC d := by simp [liftS, hid]
  by_cases e : i = j
  · have e1 : incorporateR id { liftC d with err := (liftC d).err + 1 } (x.map some) s.timestamp = liftC (({ d with err := d.err + 1 } : Cluster ℚ).incorporate x s.timestamp) :=
      incorporateR_id { d with err := d.err + 1 } x s.timestamp
    simp only [absorbR, absorb, if_pos e, rd_ok hil, rd_ok hil', hid, hid', bind, Except.bind, wr_ok _ hil, wr_ok _ hil', pure, Except.pure, Except.map,
      show (liftS s).timestamp = s.timestamp from rfl, e1]
    simp only [liftS, List.map_set]
  · obtain ⟨pd, hpd, sd⟩ := h i d hi
    obtain ⟨pc, hpc, sc⟩ := h j c hj
    have hjl2 : j < (s.clusters.set i { d with err := d.err - 1 }).length := by rw [List.length_set]; exact hjl
    have hb : (s.clusters.set i { d with err := d.err - 1 })[j] = c := by rw [List.getElem_set, if_neg e, hjd]
    have m1 : Sums fc { s with clusters := s.clusters.set i { d with err := d.err - 1 } } :=
      h.put (j := i) (c := { d with err := d.err - 1 }) ⟨pd, hpd, sd⟩ rfl (.inl rfl)
    set s2 : State ℚ := { s with clusters := (s.clusters.set i { d with err := d.err - 1 }).set j (({ c with err := c.err - 1 } : Cluster ℚ).incorporate x s.timestamp) } with hs2
    have m2 : Sums fc s2 := m1.put (j := j) (c := ({ c with err := c.err - 1 } : Cluster ℚ).incorporate x s.timestamp)
      ⟨pc ++ [x], by simp, summ_incorporate (summ_err sc _) hx _⟩ rfl (.inl rfl)
    have hlen2 : s2.clusters.length = s2.active.length := by simp [hs2, hlen]
    have act2 : ∀ k : Nat, s2.active[k]? = some true → ∃ e, Active s2 k e := by
      intro k hk
      have : k < s2.clusters.length := by rw [hlen2]; exact (List.getElem?_eq_some_iff.1 hk).1
      exact ⟨_, hk, List.getElem?_eq_getElem this⟩
    obtain ⟨cj, hcj⟩ := act2 j hj.1
    have nn : ∀ (t : State ℚ), Sums fc t → ∀ (k : Nat) (e : Cluster ℚ), Active t k e → ∀ c, t.clusters[k]? = some c → ∀ v ∈ c.variances, 0 ≤ v := by
      intro t ht k e he c' hc'
      rw [he.2] at hc'
      cases hc'
      obtain ⟨p, h1, h2⟩ := ht k e he
      exact variances_nonneg h1 h2
    have tail : ∀ t : State ℚ, Sums fc t → t.clusters.length = t.active.length → t.active[i]? = some true →
        Except.bind (rd (liftS t).clusters i) (fun a => if a.err ≤ 0 then splitStepR id root (liftS t) i else .ok (liftS t)) =
        (Except.bind (rd t.clusters i) (fun a => if a.err ≤ 0 then split root t i else .ok t)).map liftS := by
      intro t ht htl hti
      have hk : i < t.clusters.length := by rw [htl]; exact (List.getElem?_eq_some_iff.1 hti).1
      rw [show (liftS t).clusters = t.clusters.map liftC from rfl, rd_map, rd_ok hk]
      simp only [Except.map, Except.bind]
      rw [show (liftC t.clusters[i]).err = t.clusters[i].err from rfl]
      by_cases hz : t.clusters[i].err ≤ 0
      · rw [if_pos hz, if_pos hz]
        exact splitStepR_id root t i (nn t ht i _ ⟨hti, List.getElem?_eq_getElem hk⟩)
      · rw [if_neg hz, if_neg hz]
    have e1 : ((liftS s).clusters.set i { liftC d with err := (liftC d).err - 1 }) = (s.clusters.set i { d with err := d.err - 1 }).map liftC := by
      rw [List.map_set]; rfl
    have hjl3 : j < ((s.clusters.set i { d with err := d.err - 1 }).map liftC).length := by rw [List.length_map]; exact hjl2
    have hb3 : ((s.clusters.set i { d with err := d.err - 1 }).map liftC)[j] = liftC c := by rw [List.getElem_map, hb]
    have e2 : incorporateR id { liftC c with err := (liftC c).err - 1 } (x.map some) (liftS s).timestamp = liftC (({ c with err := c.err - 1 } : Cluster ℚ).incorporate x s.timestamp) :=
      incorporateR_id { c with err := c.err - 1 } x s.timestamp
    have e3 : ({ liftS s with clusters := ((s.clusters.set i { d with err := d.err - 1 }).map liftC).set j (liftC (({ c with err := c.err - 1 } : Cluster ℚ).incorporate x s.timestamp)) } : State Num) = liftS s2 := by
      simp only [hs2, liftS, List.map_set]
    simp only [absorbR, absorb, if_neg e, rd_ok hil, rd_ok hil', hid, hid', bind, Except.bind, wr_ok _ hil, wr_ok _ hil', e1, rd_ok hjl2, rd_ok hjl3, hb, hb3,
      wr_ok _ hjl2, wr_ok _ hjl3, e2, e3, ← hs2, pure, Except.pure]
    simp only [show (liftC c).err = c.err from rfl]
    by_cases hz : c.err - 1 ≤ 0
    · simp only [if_pos hz, splitStepR_id root s2 j (nn s2 m2 j cj hcj)]
      cases hsp : split root s2 j with
      | error e => rfl
      | ok s3 =>
        obtain ⟨q1, q2, q3⟩ := split_sums root hfc hlen2 m2 hcj hsp
        exact tail s3 q1 q2 (q3 i hi.1)
    · simp only [if_neg hz]
      exact tail s2 m2 hlen2 hi.1

theorem Mcnn.clean_active {s : State ℚ} {i : Nat} {c : Cluster ℚ} (h : Active (clean s) i c) : Active s i c := by
  refine ⟨?_, h.2⟩
  have h1 := h.1
  simp only [clean, List.getElem?_zipWith] at h1
  cases ha : s.active[i]? with
  | none => rw [ha] at h1; simp at h1
  | some a =>
    rw [ha, show s.clusters[i]? = some c from h.2] at h1
    simp only [Option.some.injEq] at h1
    cases a
    · simp at h1
    · rfl

theorem mcTrainR_id (root : ℚ → ℚ) {fc : Nat} (hfc : 1 ≤ fc) {s : State ℚ} (hlen : s.clusters.length = s.active.length) (h : Sums fc s) {x : List ℚ} (hx : x.length = fc)
    (l : Int) : mcTrainR id root (liftS s) (x.map some) l = (train root s x l).map (fun r => (liftS r.1, r.2)) := by
  unfold mcTrainR train
  obtain ⟨s1, e1, m1, l1⟩ : ∃ s1, s1 = (if s.cleaning = 1 ∨ s.cleaning = 2 then clean s else s) ∧ Sums fc s1 ∧ s1.clusters.length = s1.active.length := by
    refine ⟨_, rfl, ?_⟩
    split
    · exact ⟨fun i c hc => h i c (Mcnn.clean_active hc), by simp [clean, hlen]⟩
    · exact ⟨h, hlen⟩
  have e2 : (if (liftS s).cleaning = 1 ∨ (liftS s).cleaning = 2 then cleanR id (liftS s) else liftS s) = liftS s1 := by
    rw [e1, cleanR_id, show (liftS s).cleaning = s.cleaning from rfl]
    split <;> rfl
  rw [e2, ← e1]
  simp only
  set s2 : State ℚ := { s1 with timestamp := s1.timestamp + 1 } with hs2
  have e3 : ({ liftS s1 with timestamp := (liftS s1).timestamp + 1 } : State Num) = liftS s2 := rfl
  rw [e3, findNearestClassR_id]
  have m2 : Sums fc s2 := m1
  rcases findNearestClass_spec s2 x l l1 with ⟨near, g1, -⟩ | ⟨i, j, c, d, g1, g2, g3, -⟩
  · rw [g1]
    exact insertR_id s2 x l
  · rw [g1]
    simp only [bind, Except.bind, absorbR_id root hfc (s := s2) l1 m2 hx g2 g3]
    cases absorb root s2 x i j with
    | error e => rfl
    | ok s3 => rfl

/-- Without rounding the model of this file is the exact model, for every history. -/
theorem mcRunR_id (root : ℚ → ℚ) {fc : Nat} (hfc : 1 ≤ fc) (garbage : List (Cluster ℚ)) (hg : garbage ≠ []) (thr cl : Nat) (perf : ℚ) (ps : List (List ℚ × Int))
    (hp : ∀ p ∈ ps, p.1.length = fc) :
    mcRunR id root (mcNewR (garbage.map liftC) thr cl perf) ps = (Mcnn.run root (Mcnn.new garbage thr cl perf) ps).map liftS := by
  have key : ∀ (ps : List (List ℚ × Int)) (s : State ℚ) (tr : List (List ℚ × Int)), Inv fc garbage.length tr s → s.timestamp + 1 = (tr.length : Int) →
      (∀ p ∈ ps, p.1.length = fc) → mcRunR id root (liftS s) ps = (Mcnn.run root s ps).map liftS := by
    intro ps
    induction ps with
    | nil => intro s tr _ _ _; rfl
    | cons p ps ih =>
      intro s tr h ht hv
      obtain ⟨s1, r, a1, a2, a2', a3, _⟩ := train_spec root hfc (List.length_pos_iff.2 hg) h ht (hv p (by simp)) p.2
      have hsum : Sums fc s := by
        intro i c hc
        obtain ⟨-, fi, re, hs, -⟩ := h.good i c hc
        exact ⟨_, by simp, hs⟩
      simp only [mcRunR, Mcnn.run, mcTrainR_id root hfc h.hlen hsum (hv p (by simp)) p.2, a1, Except.map, bind, Except.bind]
      exact ih s1 (tr ++ [p]) a2 (by rw [a2', ht]; simp) (fun q hq => hv q (by simp [hq]))
  have e : mcNewR (garbage.map liftC) thr cl perf = liftS (Mcnn.new garbage thr cl perf) := by
    simp only [mcNewR, liftS, Mcnn.new, List.map_map]
    rfl
  rw [e]
  exact key ps _ [] (new_inv fc garbage thr cl perf) rfl hp

theorem mcPredictR_id (emptyClass : Int) (s : State ℚ) (x : List ℚ) : mcPredictR id emptyClass (liftS s) (x.map some) = Mcnn.predict emptyClass s x := by
  unfold mcPredictR predict
  rw [findNearestR_id]
  cases findNearest s x with
  | error e => rfl
  | ok r =>
    obtain ⟨near, d⟩ := r
    cases near with
    | none => rfl
    | some j =>
      simp only [Except.map, bind, Except.bind]
      rw [show (liftS s).clusters = s.clusters.map liftC from rfl, rd_map]
      cases rd s.clusters j with
      | error e => rfl
      | ok c => rfl

end Orp.Rounding
