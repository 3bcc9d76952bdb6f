import Verif.Mcnn.IntRun
import Mathlib.Tactic.NormNum

/-!
C139: MC-NN instantiated with `int` features (`MCNN<int, …>`).

The property: training and prediction are defined for all points of moderate size, and a point is predicted as the label of the nearest
cluster, the position of a cluster being the mean of its points up to the truncation to integers. False of the code: a cluster with a negative
sum of coordinates cannot be split (the sum is divided as an `unsigned int`).
-/

namespace Orp.McnnInt

open Orp.Mcnn (freeLoop freeLoop_spec)

/-! ### violations -/

/-- cluster of the witness: sums, count, label, error count, first timestamp -/
def wc (sq sum tsSq tsSum : Int) (n : Nat) (label err init : Int) : Cluster :=
  { sq := [sq], sum := [sum], tsSq := tsSq, tsSum := tsSum, n := n, label := label, err := err, init := init }

/-- state of the witness -/
def ws (clusters : List Cluster) (active : List Bool) (count timestamp : Int) : State :=
  { clusters := clusters, active := active, count := count, timestamp := timestamp, errorThr := 2, perfThr := 50, cleaning := 0 }

theorem witness_1 (sqrt : ℚ → ℚ) (g0 g1 g2 : Cluster) : train sqrt (new [g0, g1, g2] 2 0 50) [-4] 0 =
    .ok (ws [wc 16 (-4) 0 0 1 0 2 0, g1, g2] [true, false, false] 1 0, true) := by
  with_unfolding_all rfl

theorem witness_2 (sqrt : ℚ → ℚ) (g1 g2 : Cluster) : train sqrt (ws [wc 16 (-4) 0 0 1 0 2 0, g1, g2] [true, false, false] 1 0) [-1] 1 =
    .ok (ws [wc 16 (-4) 0 0 1 0 2 0, wc 1 (-1) 1 1 1 1 2 1, g2] [true, true, false] 2 1, true) := by
  with_unfolding_all rfl

theorem witness_3 (sqrt : ℚ → ℚ) (g2 : Cluster) :
    train sqrt (ws [wc 16 (-4) 0 0 1 0 2 0, wc 1 (-1) 1 1 1 1 2 1, g2] [true, true, false] 2 1) [-2] 0 =
    .ok (ws [wc 20 (-6) 4 2 2 0 1 0, wc 1 (-1) 1 1 1 1 1 1, g2] [true, true, false] 2 2, true) := by
  with_unfolding_all rfl

theorem witness_4 (sqrt : ℚ → ℚ) (hsq : ∀ q, 0 ≤ sqrt q) (g2 : Cluster) :
    train sqrt (ws [wc 20 (-6) 4 2 2 0 1 0, wc 1 (-1) 1 1 1 1 1 1, g2] [true, true, false] 2 2) [-1] 0 = .error .ub := by
  have hab : absorb sqrt (ws [wc 20 (-6) 4 2 2 0 1 0, wc 1 (-1) 1 1 1 1 1 1, g2] [true, true, false] 2 3) [-1] 1 0 = .error .ub := by
    have key : absorb sqrt (ws [wc 20 (-6) 4 2 2 0 1 0, wc 1 (-1) 1 1 1 1 1 1, g2] [true, true, false] 2 3) [-1] 1 0 = (do
        let s ← splitInto sqrt (ws [wc 21 (-7) 13 5 3 0 0 0, wc 1 (-1) 1 1 1 1 0 1, g2] [true, true, false] 2 3) 0 2
        let a ← rd s.clusters 1
        if a.err ≤ 0 then split sqrt s 1 else return s) := by
      rfl
    rw [key, splitInto_ub hsq _ 0 2 (c := wc 21 (-7) 13 5 3 0 0 0) rfl (by decide) (i := 0) (v := -7) rfl (by norm_num) (by norm_num)]
    rfl
  have hp : prepared (ws [wc 20 (-6) 4 2 2 0 1 0, wc 1 (-1) 1 1 1 1 1 1, g2] [true, true, false] 2 2) =
      ws [wc 20 (-6) 4 2 2 0 1 0, wc 1 (-1) 1 1 1 1 1 1, g2] [true, true, false] 2 3 := by rfl
  have hf : findNearestClass (ws [wc 20 (-6) 4 2 2 0 1 0, wc 1 (-1) 1 1 1 1 1 1, g2] [true, true, false] 2 3) [-1] 0 =
      .ok (some 1, some 0) := by rfl
  rw [train_eq, hp]
  simp only [hf, hab, bind, Except.bind]

/-- **C139, violated.** With the default settings and one integer feature, four points between -4 and -1 lead to undefined behaviour, whatever
the indeterminate memory of the clusters and whatever square root is used. -/
theorem C139_violated (sqrt : ℚ → ℚ) (hsq : ∀ q, 0 ≤ sqrt q) (g0 g1 g2 : Cluster) :
    run sqrt (new [g0, g1, g2] 2 0 50) [([-4], 0), ([-1], 1), ([-2], 0), ([-1], 0)] = .error .ub := by
  simp only [run, witness_1, witness_2, witness_3, witness_4 sqrt hsq, bind, Except.bind]

/-- Every split of a cluster in which some coordinate has a negative sum over 2 to 40000 points is undefined behaviour,
if there is a free cluster to split into. -/
theorem C139_negative_split (sqrt : ℚ → ℚ) (hsq : ∀ q, 0 ≤ sqrt q) (s : State) (ci : Nat) (c : Cluster)
    (hlen : s.clusters.length = s.active.length) (hc : s.clusters[ci]? = some c) (hfree : ∃ j, j ≠ ci ∧ s.active[j]? = some false)
    (hn : 2 ≤ c.n ∧ c.n ≤ 40000) (i : Nat) (v : Int) (hv : c.sum[i]? = some v) (h1 : -2147483648 ≤ v) (h2 : v < 0) :
    split sqrt s ci = .error .ub := by
  rcases freeLoop_spec s.active (some ci) s.active.length 0 (by omega) with ⟨j, a1, _, _, _⟩ | ⟨_, a2⟩
  · simp only [split, hlen, a1, bind, Except.bind]
    exact splitInto_ub hsq s ci j hc hn hv h1 h2
  · obtain ⟨j, b1, b2⟩ := hfree
    rcases a2 j (by omega) (List.getElem?_eq_some_iff.1 b2).1 with h | h
    · rw [b2] at h; cases h
    · rw [Option.some.injEq] at h; exact absurd h b1

example : (∃ j, j ≠ 0 ∧ ([true, false] : List Bool)[j]? = some false) ∧ (2 ≤ 3 ∧ 3 ≤ 40000) := ⟨⟨1, by decide, rfl⟩, by decide⟩

/-- The first point of a new object must have all coordinates of size below 46341: otherwise its square overflows. -/
theorem C139_large_coordinate (sqrt : ℚ → ℚ) (g : List Cluster) (hg : g ≠ []) (thr cl : Nat) (pt : ℚ) (x : List Int) (l : Int)
    (h : ∃ v ∈ x, 46341 ≤ |v|) : train sqrt (new g thr cl pt) x l = .error .ub := by
  have hp := prepared_inv (new_inv x.length g thr cl pt)
  have hno : ∀ i c, ¬ Active (prepared (new g thr cl pt)) i c := by
    intro i c hc
    obtain ⟨⟨pts, h1⟩, _⟩ := hp.good i c hc
    have h2 := h1.2.1
    have : pts = [] := by simpa [membersOf] using h2
    exact h1.1 this
  rw [train_eq]
  rcases findNearestClass_spec (prepared (new g thr cl pt)) x (fun _ => 0) (fun i c hc => absurd hc (hno i c)) l hp.hlen with
    ⟨near, a1⟩ | ⟨i, j, c, d, _, a2, _⟩
  · have hins : insert (prepared (new g thr cl pt)) x l = .error .ub := by
      rcases freeLoop_spec (prepared (new g thr cl pt)).active none (prepared (new g thr cl pt)).active.length 0 (by omega) with
        ⟨j, b1, _, b2, _⟩ | ⟨_, b2⟩
      · have hj := (List.getElem?_eq_some_iff.1 b2).1
        simp only [insert, hp.hlen, b1, bind, Except.bind, wr_ok _ hj, initCluster_ub h]
      · have h0 : 0 < g.length := List.length_pos_iff.2 hg
        have hc0 : 0 < (prepared (new g thr cl pt)).clusters.length := by rw [hp.clen]; exact h0
        rcases b2 0 (by omega) (by rw [hp.alen]; exact h0) with h | h
        · exact absurd ⟨h, List.getElem?_eq_getElem hc0⟩ (hno 0 _)
        · cases h
    simp only [a1, bind, Except.bind]
    cases near <;> exact hins
  · exact absurd a2 (hno i d)

example : ∃ v ∈ ([3, -50000] : List Int), 46341 ≤ |v| := ⟨-50000, by simp, by norm_num⟩

/-! ### what holds -/

/-- **C139, the part that holds.** Points with coordinates of size at most `B`, where `4 B²` and the number of points times `B²` are below 2^31,
and no more points than the error threshold (so that no cluster is split): training is defined; each cluster in use stands for some of the points
given with its label, and its position is their mean, in each coordinate truncated toward zero; a point is predicted as the label of the
first of the clusters at the smallest distance, if that is below 1000000, and as the empty class otherwise. -/
theorem C139_no_overflow_partial (sqrt : ℚ → ℚ) (fc : Nat) (g : List Cluster) (hg : g ≠ []) (thr cl : Nat) (pt : ℚ) (B : Int) (hB : 0 ≤ B)
    (hB2 : 4 * (B * B) ≤ 2147483647) (ps : List (List Int × Int)) (hs : ∀ p ∈ ps, Small fc B p.1)
    (hN : (ps.length : Int) * (B * B) ≤ 2147483647) (hthr : ps.length ≤ thr) :
    ∃ s, run sqrt (new g thr cl pt) ps = .ok s ∧
      (∀ i c, Active s i c → ∃ pts, pts ≠ [] ∧ pts.Sublist (membersOf ps c.label) ∧ centroid c = truncMean fc pts) ∧
      ∀ (e : Int) (x : List Int), Small fc B x →
        (∃ j c, predict e s x = .ok c.label ∧ Active s j c ∧ IsNearest s (fun d => sqDist fc x (centroid d)) (fun _ => true) 1000000 j) ∨
        (predict e s x = .ok e ∧ NoneNear s (fun d => sqDist fc x (centroid d)) (fun _ => true) 1000000) := by
  have hm1 : 1 ≤ g.length := List.length_pos_iff.2 hg
  obtain ⟨s, h1, h2⟩ := run_spec sqrt hm1 hB hB2 ps (new g thr cl pt) [] (new_inv fc g thr cl pt) (by simpa using hs) (by simpa using hN)
    (by simpa using hthr)
  rw [List.nil_append] at h2
  refine ⟨s, h1, ?_, ?_⟩
  · intro i c hc
    obtain ⟨⟨pts, a⟩, _⟩ := h2.good i c hc
    exact ⟨pts, a.1, a.2.1, a.centroid⟩
  · intro e x hx
    obtain ⟨best, d, b1, b2⟩ := nearest_full s x _ (h2.distance hB hB2 hs hx) (fun _ => true) 1000000 h2.hlen
    have b1' : findNearest s x = .ok (best, d) := b1
    rcases b2 with ⟨rfl, _, b3⟩ | ⟨j, c, rfl, b3, b4, _⟩
    · right
      exact ⟨by simp only [predict, b1', bind, Except.bind, pure, Except.pure], b3⟩
    · left
      exact ⟨j, c, by simp only [predict, b1', bind, Except.bind, pure, Except.pure, rd_eq_ok_iff.2 b4.2], b4, b3⟩

/-- The truncated mean is less than one away from the mean, on the side of zero. -/
theorem C139_centre_near_mean (fc : Nat) (pts : List (List Int)) (h0 : pts ≠ []) (i : Nat) (hi : i < fc) :
    ∃ v, (truncMean fc pts)[i]? = some v ∧ |(v : ℚ) - (colSum pts i : ℚ) / (pts.length : ℚ)| < 1 ∧
      |(v : ℚ)| ≤ |(colSum pts i : ℚ) / (pts.length : ℚ)| := by
  refine ⟨(colSum pts i).tdiv pts.length, by simp [truncMean, hi], ?_⟩
  have hn : (0 : Int) < pts.length := by exact_mod_cast List.length_pos_iff.2 h0
  have hnq : (0 : ℚ) < pts.length := by exact_mod_cast hn
  generalize colSum pts i = t
  generalize hnn : (pts.length : Int) = n at hn
  have hcast : (pts.length : ℚ) = (n : ℚ) := by rw [← hnn]; push_cast; rfl
  rw [hcast] at hnq ⊢
  have hdm := Int.mul_tdiv_add_tmod t n
  have h1 : |t.tmod n| < n := by
    have := Int.natAbs_tmod t n
    rw [Int.abs_eq_natAbs, this]
    have := Nat.mod_lt t.natAbs (y := n.natAbs) (by omega)
    omega
  have hq : (t : ℚ) = n * (t.tdiv n : ℚ) + (t.tmod n : ℚ) := by exact_mod_cast hdm.symm
  constructor
  · have : (t.tdiv n : ℚ) - (t : ℚ) / n = -((t.tmod n : ℚ) / n) := by
      rw [hq]; field_simp; ring
    rw [this, abs_neg, abs_div, abs_of_pos hnq, div_lt_one hnq]
    exact_mod_cast h1
  · rw [abs_div, abs_of_pos hnq, le_div_iff₀ hnq]
    have h2 : |t.tdiv n| * n ≤ |t| := by
      rw [Int.abs_eq_natAbs, Int.abs_eq_natAbs, Int.natAbs_tdiv]
      have := Nat.div_mul_le_self t.natAbs n.natAbs
      have e : (n.natAbs : Int) = n := by omega
      calc ((t.natAbs / n.natAbs : Nat) : Int) * n = ((t.natAbs / n.natAbs * n.natAbs : Nat) : Int) := by rw [Nat.cast_mul, e]
        _ ≤ (t.natAbs : Int) := by exact_mod_cast this
    exact_mod_cast h2

example : truncMean 2 [[-4, 3], [-1, 4]] = [-2, 3] := by decide

/-- The division made by `split` agrees with the position of the cluster when the sum is not negative. -/
theorem C139_nonnegative_centre (s : Int) (n : Nat) (hs : 0 ≤ s) (hs2 : s ≤ 2147483647) : unsignedDiv s n = s.tdiv (n : Int) := by
  have e : s % 4294967296 = s := by omega
  have h : s / (n : Int) ≤ s := Int.ediv_le_self _ hs
  rw [Int.tdiv_eq_ediv_of_nonneg hs]
  simp only [unsignedDiv, e]
  rw [if_pos (by omega)]

/-- a run within the limits of `C139_no_overflow_partial` -/
def exampleRun : List (List Int × Int) := [([-4, 10], 0), ([-1, 3], 1), ([-2, 8], 0), ([100, -7], 1)]

def emptyCluster : Cluster := { sq := [], sum := [], tsSq := 0, tsSum := 0, n := 0, label := 0, err := 0, init := 0 }

example : (∀ p ∈ exampleRun, Small 2 100 p.1) ∧ 4 * ((100 : Int) * 100) ≤ 2147483647 ∧
    (exampleRun.length : Int) * (100 * 100) ≤ 2147483647 ∧ exampleRun.length ≤ 10 := by
  refine ⟨?_, by decide, by decide, by decide⟩
  intro p hp
  simp only [exampleRun, List.mem_cons, List.not_mem_nil, or_false] at hp
  rcases hp with rfl | rfl | rfl | rfl <;> exact ⟨rfl, by decide⟩

example : (do predict (-1) (← run (fun q => q) (new [emptyCluster, emptyCluster, emptyCluster] 10 0 50) exampleRun) [-3, 8]) = .ok 0 := by
  decide +kernel

end Orp.McnnInt
