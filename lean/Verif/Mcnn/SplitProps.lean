import Verif.Mcnn.Props

/-!
Property C67 again: whether a split leaves two clusters. When there is no free place, `split` takes the place of the cluster with the lowest participation
(mc_nn.hpp:158), which can be the cluster that is split. Then the second half overwrites the first one. It can also be the cluster that has just absorbed the training point (C46).
-/

set_option linter.unusedSectionVars false

namespace Orp.Mcnn

variable {K : Type} [Field K] [LinearOrder K] [IsStrictOrderedRing K]

/-- **C67** (what holds) If a place is free, or a cluster may be evicted and the cluster that is split is not one with the lowest participation, the split leaves two clusters of one
point and with the label of the old one, at its centroid minus and plus the square root of the highest variance; no other place changes. Missing: the case that the cluster that is
split has the lowest participation, see `C67_half_lost` and `C67_violated`. -/
theorem C67_two_clusters_partial (sqrt : K → K) (s : State K) (fc : Nat) (hfc : 1 ≤ fc) (hlen : s.clusters.length = s.active.length)
    (ci : Nat) (c : Cluster K) (pts : List (List K)) (hc : Active s ci c) (hs : Summarises fc c pts)
    (hplace : (∃ j : Nat, s.active[j]? = some false) ∨ ((s.cleaning = 0 ∨ s.cleaning = 2) ∧ ¬ IsLowest s ci)) :
    ∃ (s' : State K) (j f : Nat) (v : K), split sqrt s ci = .ok s' ∧ j ≠ ci ∧ f < fc ∧ IsWidest c f v ∧
      Active s' ci (initCluster (c.centroid.modify f (fun y => y + sqrt v)) c.label (c.tsSum.tdiv (c.n : Int)) s.errorThr) ∧
      Active s' j (initCluster (c.centroid.modify f (fun y => y - sqrt v)) c.label (c.tsSum.tdiv (c.n : Int)) s.errorThr) ∧
      (∀ i : Nat, i ≠ ci → i ≠ j → s'.clusters[i]? = s.clusters[i]? ∧ s'.active[i]? = s.active[i]?) ∧
      (s.active[j]? = some false ∨ IsLowest s j) := by
  obtain ⟨s', h1, h2⟩ := C67_split sqrt s fc hfc hlen ci c pts hc hs
  rcases h2 with ⟨_, hall, n0, n2⟩ | ⟨c', j, f, v, e1, hj, hf, hw, rfl, hor⟩
  · rcases hplace with ⟨j, hj⟩ | ⟨hcl, _⟩
    · rw [hall j (List.getElem?_eq_some_iff.1 hj).1] at hj
      simp at hj
    · rcases hcl with h | h
      · exact absurd h n0
      · exact absurd h n2
  · obtain rfl : c = c' := Option.some.inj (hc.2.symm.trans e1)
    have hjc : j ≠ ci := by
      rcases hor with ⟨_, h⟩ | ⟨hall, _, hlow⟩
      · exact h
      · rcases hplace with ⟨k, hk⟩ | ⟨_, hnot⟩
        · rw [hall k (List.getElem?_eq_some_iff.1 hk).1] at hk
          simp at hk
        · rintro rfl
          exact hnot hlow
    have hci : ci < s.clusters.length := (List.getElem?_eq_some_iff.1 hc.2).1
    refine ⟨_, j, f, v, h1, hjc, hf, hw, ⟨?_, ?_⟩, ⟨?_, ?_⟩, fun i i1 i2 => ⟨?_, ?_⟩, ?_⟩
    · simp only [splitState]
      rw [List.getElem?_set_ne hjc]
      exact hc.1
    · simp only [splitState]
      rw [List.getElem?_set_self (by simpa using hci)]
    · simp only [splitState]
      rw [List.getElem?_set_self hj]
    · simp only [splitState]
      rw [List.getElem?_set_ne hjc.symm, List.getElem?_set_self (by omega)]
    · simp only [splitState]
      rw [List.getElem?_set_ne i1.symm, List.getElem?_set_ne i2.symm]
    · simp only [splitState]
      rw [List.getElem?_set_ne i2.symm]
    · rcases hor with ⟨h, _⟩ | ⟨_, _, h⟩
      · exact .inl h
      · exact .inr h

/-- **C67** fails whenever all clusters are in use, clusters are evicted when a place is needed and the cluster that is split is the only one with the lowest participation: it is replaced by
the half at its centroid plus the square root of the variance, the other half is lost and nothing else is evicted. `count_clusters` grows by one all the same. -/
theorem C67_half_lost (sqrt : K → K) (s : State K) (fc : Nat) (hfc : 1 ≤ fc) (hlen : s.clusters.length = s.active.length)
    (ci : Nat) (c : Cluster K) (pts : List (List K)) (hc : Active s ci c) (hs : Summarises fc c pts)
    (hall : ∀ i < s.active.length, s.active[i]? = some true) (hcl : s.cleaning = 0 ∨ s.cleaning = 2) (hlow : ∀ j, IsLowest s j → j = ci) :
    ∃ (s' : State K) (f : Nat) (v : K), split sqrt s ci = .ok s' ∧ f < fc ∧ IsWidest c f v ∧
      Active s' ci (initCluster (c.centroid.modify f (fun y => y + sqrt v)) c.label (c.tsSum.tdiv (c.n : Int)) s.errorThr) ∧
      (∀ i : Nat, i ≠ ci → s'.clusters[i]? = s.clusters[i]?) ∧ s'.active = s.active ∧ countClusters s' = countClusters s + 1 := by
  obtain ⟨s', h1, h2⟩ := C67_split sqrt s fc hfc hlen ci c pts hc hs
  rcases h2 with ⟨_, _, n0, n2⟩ | ⟨c', j, f, v, e1, hj, hf, hw, rfl, hor⟩
  · rcases hcl with h | h
    · exact absurd h n0
    · exact absurd h n2
  · obtain rfl : c = c' := Option.some.inj (hc.2.symm.trans e1)
    have hci : ci < s.clusters.length := (List.getElem?_eq_some_iff.1 hc.2).1
    rcases hor with ⟨h, _⟩ | ⟨_, _, h⟩
    · rw [hall j hj] at h
      simp at h
    · obtain rfl := hlow j h
      refine ⟨_, f, v, h1, hf, hw, ⟨?_, ?_⟩, fun i hi => ?_, ?_, rfl⟩
      · simp only [splitState]
        rw [List.getElem?_set_self hj]
      · simp only [splitState]
        rw [List.getElem?_set_self (by simpa using hci)]
      · simp only [splitState]
        rw [List.getElem?_set_ne hi.symm, List.getElem?_set_ne hi.symm]
      · simp only [splitState]
        apply List.ext_getElem?
        intro i
        by_cases hij : i = j
        · subst hij
          rw [List.getElem?_set_self hj, hall i hj]
        · rw [List.getElem?_set_ne (Ne.symm hij)]

/-- Two points of label 1 at -10 and 10, then points of label 2 in between. -/
def halfHistory : List (List ℚ × Int) := [([-10], 1), ([10], 1), ([1], 2), ([3], 2), ([3], 2), ([1], 2)]

/-- **C67** is violated: with two places, the next point of label 2 makes the cluster of label 1, with centroid 0 and variance 100, split. It has the lowest participation, so only the half at 10 is
left, and the training point -10 of label 1 is now predicted as label 2. -/
theorem C67_violated :
    (run (fun _ => 10) (new [junk, junk] 1 0 50) halfHistory).map (fun s => (s.clusters.map (·.centroid), s.clusters.map (·.variances), predict (-1) s [-10])) =
      .ok ([[0], [2]], [[100], [1]], .ok 1) ∧
    (run (fun _ => 10) (new [junk, junk] 1 0 50) (halfHistory ++ [([1/2], 2)])).map
      (fun s => (s.clusters.map (·.centroid), s.clusters.map (·.label), s.active, countClusters s, predict (-1) s [-10])) =
      .ok ([[10], [17/10]], [1, 2], [true, true], 3, .ok 2) := by
  constructor <;> decide +kernel

/-- the hypotheses of `C67_two_clusters_partial` are met: a place is free -/
example : ((run (K := ℚ) (fun _ => 3) (new [junk, junk, junk] 2 0 50) [([0], 1), ([6], 1), ([10], 2)]).map (fun s => (s.active, s.clusters.length))) =
    .ok ([true, true, false], 3) := by
  decide +kernel

/-- Label 1 at 0, label 2 at 100, label 3 at 10; label 3 and then label 1 are confirmed three times, then four points of label 3 come near the cluster of label 1. -/
def victimHistory : List (List ℚ × Int) :=
  [([0], 1), ([100], 2), ([10], 3), ([10], 3), ([10], 3), ([10], 3), ([0], 1), ([0], 1), ([0], 1), ([1], 3), ([1], 3), ([1], 3), ([1], 3)]

/-- **C46** is violated: `train` of a point of label 2 returns true and the cluster of label 2 absorbs the point, but then the cluster of label 1 is split and takes the place of just this
cluster. Before the call there is a cluster of each label, after it there is none of label 2. -/
theorem C46_absorbed_and_evicted :
    ((run (fun _ => 0) (new [junk, junk, junk] 2 0 50) victimHistory).bind (fun s => (train (fun _ => 0) s [1] 2).map (fun r =>
      (s.clusters.map (·.label), s.active, r.2, r.1.clusters.map (·.label), r.1.active)))) =
      .ok ([1, 2, 3], [true, true, true], true, [1, 1, 3], [true, true, true]) := by
  decide +kernel

end Orp.Mcnn
