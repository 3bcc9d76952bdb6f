import Verif.Mcnn.Lemmas

/-!
Properties C44–C47 and C67 of MC-NN. The hypotheses of the theorems about histories are: at least one cluster, at least one feature, and
every training point has `fc` features.
-/

set_option linter.unusedSectionVars false

namespace Orp.Mcnn

variable {K : Type} [Field K] [LinearOrder K] [IsStrictOrderedRing K]

theorem zipWith_sum (f : K → K → K) (fc : Nat) (a b : List K) (ha : a.length = fc) (hb : b.length = fc) :
    (List.zipWith f a b).sum = ((List.range fc).map (fun i => f (a.getD i 0) (b.getD i 0))).sum := by
  congr 1
  apply List.ext_getElem
  · simp [ha, hb]
  · intro i h1 h2
    simp only [List.length_zipWith, ha, hb, Nat.min_self] at h1
    simp [show i < a.length by omega, show i < b.length by omega]

theorem distance_eq (fc : Nat) (a b : List K) (ha : a.length = fc) (hb : b.length = fc) : distance a b = sqDist fc a b := by
  rw [distance, zipWith_sum _ fc a b ha hb, sqDist]
  congr 1
  apply List.map_congr_left
  intro i _; ring

theorem sq_dev_sum (l : List K) (mu : K) : (l.map (fun v => (v - mu) ^ 2)).sum =
    (l.map (fun v => v * v)).sum - 2 * mu * l.sum + (l.length : K) * mu ^ 2 := by
  induction l with
  | nil => simp
  | cons v l ih => simp only [List.map_cons, List.sum_cons, ih, List.length_cons]; push_cast; ring

theorem good_len {fc : Nat} {tr : List (List K × Int)} {c : Cluster K} (h : Good fc tr c) : c.centroid.length = fc :=
  (summ_centroid h.2.choose_spec.choose_spec.1).1

/-! ### C44 -/

/-- C44: after every training history `predict` returns the label of the cluster in use whose centroid is nearest to the query (the first
one in case of a tie), a label which was trained; or `empty_class`, and then every cluster in use has a squared distance of at least
1000000 to the query. -/
theorem C44_predict_partial (sqrt : K → K) (garbage : List (Cluster K)) (hg : garbage ≠ []) (fc : Nat) (hfc : 1 ≤ fc)
    (errorThr cleaning : Nat) (perfThr : ℚ) (emptyClass : Int) (ps : List (List K × Int)) (hp : ∀ p ∈ ps, p.1.length = fc)
    (x : List K) (hx : x.length = fc) :
    ∃ s r, run sqrt (new garbage errorThr cleaning perfThr) ps = .ok s ∧ predict emptyClass s x = .ok r ∧
      ((∃ j c, Active s j c ∧ r = c.label ∧ (∃ p ∈ ps, p.2 = r) ∧ sqDist fc x c.centroid < 1000000 ∧
          (∀ i d, Active s i d → sqDist fc x c.centroid ≤ sqDist fc x d.centroid) ∧
          (∀ i d, Active s i d → i < j → sqDist fc x c.centroid < sqDist fc x d.centroid)) ∨
       (r = emptyClass ∧ ∀ i d, Active s i d → 1000000 ≤ sqDist fc x d.centroid)) := by
  obtain ⟨s, h1, h2, _, _⟩ := run_inv sqrt hfc (List.length_pos_iff.2 hg) ps _ [] (new_inv fc garbage errorThr cleaning perfThr) rfl hp
  have hd : ∀ i d, Active s i d → distance x d.centroid = sqDist fc x d.centroid :=
    fun i d hi => distance_eq fc x _ hx (good_len (h2.good i d hi))
  obtain ⟨best, d, a1, a2⟩ := findNearest_spec s x h2.hlen
  rcases a2 with ⟨rfl, _, a3⟩ | ⟨j, c, rfl, ⟨c', b1, b2, b3, b4, b5⟩, b6, _⟩
  · refine ⟨s, emptyClass, h1, ?_, .inr ⟨rfl, fun i d hi => ?_⟩⟩
    · simp only [predict, a1, bind, Except.bind, pure, Except.pure]
    · rw [← hd i d hi]; exact a3 i d hi rfl
  · have hcc : c' = c := by
      have := b1.2; rw [b6.2] at this; cases this; rfl
    subst hcc
    refine ⟨s, c'.label, h1, ?_, .inl ⟨j, c', b1, rfl, ?_, ?_, ?_, ?_⟩⟩
    · simp only [predict, a1, bind, Except.bind, pure, Except.pure, rd_eq_ok_iff.2 b6.2]
    · simpa using (h2.good j c' b1).1
    · rw [← hd j c' b1]; exact b3
    · intro i d hi; rw [← hd j c' b1, ← hd i d hi]; exact b4 i d hi rfl
    · intro i d hi hij; rw [← hd j c' b1, ← hd i d hi]; exact b5 i d hi rfl hij

/-- C44: `empty_class` is returned when nothing was trained -/
theorem C44_untrained (garbage : List (Cluster K)) (errorThr cleaning : Nat) (perfThr : ℚ) (emptyClass : Int) (x : List K) :
    predict emptyClass (new garbage errorThr cleaning perfThr) x = .ok emptyClass := by
  have h := new_inv 0 garbage errorThr cleaning perfThr
  obtain ⟨best, d, a1, a2⟩ := findNearest_spec (new garbage errorThr cleaning perfThr) x h.hlen
  rcases a2 with ⟨rfl, _, _⟩ | ⟨j, c, rfl, _, b, _⟩
  · simp only [predict, a1, bind, Except.bind, pure, Except.pure]
  · exfalso
    have := b.1
    simp only [new, List.getElem?_map] at this
    cases hg : garbage[j]? <;> simp [hg] at this

/-- an indeterminate cluster for the examples -/
def junk : Cluster ℚ := { sq := [7], sum := [3], tsSq := 5, tsSum := 9, n := 0, label := 42, err := 4, init := 2 }

/-- C44 is violated: the point 0 was trained with label 1, and the query 1000 gets `empty_class`, because the distance of the search starts at
1000000 and distances are squared. -/
theorem C44_violated :
    (run (K := ℚ) id (new [junk, junk] 2 0 50) [([0], 1)]).bind (fun s => predict (-1) s [1000]) = .ok (-1) ∧
    (run (K := ℚ) id (new [junk, junk] 2 0 50) [([0], 1)]).bind (fun s => predict (-1) s [999]) = .ok 1 := by
  decide +kernel

example : (run (K := ℚ) id (new [junk, junk] 2 0 50) [([0], 1), ([10], 2)]).map (fun s =>
    (predict (-1) s [4], predict (-1) s [6], predict (-1) s [5])) = .ok (.ok 1, .ok 2, .ok 1) := by
  decide +kernel

/-! ### C45 -/

/-- number of places -/
def places (s : State K) : Nat := s.active.length

theorem all_count (l : List Bool) (h : ∀ i < l.length, l[i]? = some true) : l.count true = l.length := by
  rw [List.count_eq_length]
  intro b hb
  obtain ⟨i, hi, rfl⟩ := List.getElem_of_mem hb
  have := h i hi
  rw [List.getElem?_eq_getElem hi] at this
  simpa using this.symm

theorem count_set_false (l : List Bool) (i : Nat) (h : l[i]? = some false) : (l.set i true).count true = l.count true + 1 := by
  obtain ⟨hi, h2⟩ := List.getElem?_eq_some_iff.1 h
  rw [List.count_set hi, h2]; simp

theorem set_true_self (l : List Bool) (i : Nat) (h : l[i]? = some true) : l.set i true = l := by
  obtain ⟨hi, h2⟩ := List.getElem?_eq_some_iff.1 h
  rw [← h2]; exact List.set_getElem_self hi

theorem count_le (l : List Bool) : l.count true ≤ l.length := List.count_le_length

/-- what is true of the counter -/
def CountOk (m : Nat) (s : State K) : Prop :=
  (activeCount s : Int) ≤ s.count ∧
  (s.cleaning ≠ 1 → s.cleaning ≠ 2 → s.count = activeCount s ∨ (activeCount s = m ∧ (m : Int) < s.count)) ∧
  (s.cleaning ≠ 0 → s.cleaning ≠ 1 → s.cleaning ≠ 2 → s.count = activeCount s)

theorem countOk_split {sqrt : K → K} {fc m : Nat} {s s' : State K} {ci : Nat} (hl : s.active.length = m) (h : CountOk m s)
    (hs : SplitStep sqrt fc s ci s') : CountOk m s' ∧ s'.active.length = m := by
  rcases hs with ⟨rfl, _⟩ | ⟨c, j, f, v, _, hj, _, _, rfl, hcase⟩
  · exact ⟨h, hl⟩
  · refine ⟨?_, by simpa [splitState] using hl⟩
    obtain ⟨h1, h2, h3⟩ := h
    rcases hcase with ⟨ha, _⟩ | ⟨hall, hcl, _⟩
    · have hcnt := count_set_false s.active j ha
      have hlt : activeCount s < m := by
        have := count_le (s.active.set j true)
        rw [hcnt] at this
        simp only [List.length_set, hl] at this
        exact this
      simp only [CountOk, activeCount, splitState, hcnt] at *
      refine ⟨by push_cast; omega, fun a b => ?_, fun a b c => ?_⟩
      · rcases h2 a b with h2 | h2
        · left; push_cast; omega
        · omega
      · have := h3 a b c; push_cast; omega
    · have hset := set_true_self s.active j (hall j hj)
      have hcnt := all_count s.active hall
      simp only [CountOk, activeCount, splitState, hset, hcnt, hl] at *
      refine ⟨by omega, fun a b => .inr ⟨trivial, by omega⟩, fun a b c => ?_⟩
      rcases hcl with h | h
      · exact absurd h a
      · exact absurd h c

theorem countOk_prepared {m : Nat} {s : State K} (hl : s.active.length = m) (hc : s.clusters.length = m) (h : CountOk m s) :
    CountOk m (prepared s) ∧ (prepared s).active.length = m := by
  unfold prepared
  by_cases hcl : s.cleaning = 1 ∨ s.cleaning = 2
  · simp only [if_pos hcl]
    refine ⟨?_, by simp [clean, hl, hc]⟩
    have := clean_count_le s
    have h1 := h.1
    refine ⟨?_, fun a b => ?_, fun _ a b => ?_⟩
    · show (activeCount (clean s) : Int) ≤ s.count
      omega
    · rcases hcl with h | h
      · exact absurd h a
      · exact absurd h b
    · rcases hcl with h | h
      · exact absurd h a
      · exact absurd h b
  · simp only [if_neg hcl]
    exact ⟨h, hl⟩

theorem countOk_train (sqrt : K → K) {fc m : Nat} (hfc : 1 ≤ fc) (hm1 : 1 ≤ m) {tr : List (List K × Int)} {s : State K} (h : Inv fc m tr s)
    (ht : s.timestamp + 1 = (tr.length : Int)) {x : List K} (hx : x.length = fc) (label : Int) (hc : CountOk m s) {s' : State K} {r : Bool}
    (htr : train sqrt s x label = .ok (s', r)) : CountOk m s' := by
  obtain ⟨s'', r', a1, a2, _, _, a3⟩ := train_spec sqrt hfc hm1 h ht hx label
  rw [htr] at a1
  obtain ⟨rfl, rfl⟩ : s' = s'' ∧ r = r' := by simpa using a1
  obtain ⟨hcp, hlp⟩ := countOk_prepared h.alen h.clen hc
  rcases a3 with ⟨_, ⟨i, rfl, rfl, b⟩ | ⟨i, rfl, rfl, b, b'⟩ | ⟨rfl, rfl, b⟩⟩ | ⟨rfl, i, j, c, d, mid, s2, _, _, _, _, _, _, e1, e2, e3, _, _, e4, e5⟩
  · have hcnt := count_set_false (prepared s).active i b
    have hle := count_le ((prepared s).active.set i true)
    rw [hcnt, List.length_set, hlp] at hle
    obtain ⟨h1, h2, h3⟩ := hcp
    simp only [CountOk, activeCount, hcnt] at *
    refine ⟨by push_cast; omega, fun a b => ?_, fun a b c => ?_⟩
    · rcases h2 a b with h2 | h2
      · left; push_cast; omega
      · omega
    · have := h3 a b c; push_cast; omega
  · exact hcp
  · exact hcp
  · have hcl : (prepared s).cleaning = s.cleaning := by unfold prepared; split <;> rfl
    have hmid : CountOk m mid ∧ mid.active.length = m := by
      refine ⟨?_, by rw [e1]; exact hlp⟩
      simpa only [CountOk, activeCount, e1, e2, e3, hcl] using hcp
    have hs2 : CountOk m s2 ∧ s2.active.length = m := by
      rcases e4 with rfl | e4
      · exact hmid
      · exact countOk_split hmid.2 hmid.1 e4
    rcases e5 with rfl | e5
    · exact hs2.1
    · exact (countOk_split hs2.2 hs2.1 e5).1

theorem train_cleaning (sqrt : K → K) {fc m : Nat} (hfc : 1 ≤ fc) (hm1 : 1 ≤ m) {tr : List (List K × Int)} {s : State K} (h : Inv fc m tr s)
    (ht : s.timestamp + 1 = (tr.length : Int)) {x : List K} (hx : x.length = fc) (label : Int) {s' : State K} {r : Bool}
    (htr : train sqrt s x label = .ok (s', r)) : s'.cleaning = s.cleaning := by
  obtain ⟨s'', r', a1, a2, _, _, a3⟩ := train_spec sqrt hfc hm1 h ht hx label
  rw [htr] at a1
  obtain ⟨rfl, rfl⟩ : s' = s'' ∧ r = r' := by simpa using a1
  have hcl : (prepared s).cleaning = s.cleaning := by unfold prepared; split <;> rfl
  rcases a3 with ⟨_, ⟨i, rfl, rfl, b⟩ | ⟨i, rfl, rfl, b, b'⟩ | ⟨rfl, rfl, b⟩⟩ | ⟨rfl, i, j, c, d, mid, s2, _, _, _, _, _, _, e1, e2, e3, _, _, e4, e5⟩
  · exact hcl
  · exact hcl
  · exact hcl
  · have h2 : s2.cleaning = s.cleaning := by
      rcases e4 with rfl | ⟨rfl, _⟩ | ⟨c, j, f, v, _, _, _, _, rfl, _⟩
      · exact e3
      · exact e3
      · exact e3
    rcases e5 with rfl | ⟨rfl, _⟩ | ⟨c, j, f, v, _, _, _, _, rfl, _⟩
    · exact h2
    · exact h2
    · exact h2

theorem countOk_run (sqrt : K → K) {fc m : Nat} (hfc : 1 ≤ fc) (hm1 : 1 ≤ m) (ps : List (List K × Int)) : ∀ (s s' : State K)
    (tr : List (List K × Int)), Inv fc m tr s → s.timestamp + 1 = (tr.length : Int) → (∀ p ∈ ps, p.1.length = fc) → CountOk m s →
    run sqrt s ps = .ok s' → CountOk m s' ∧ s'.cleaning = s.cleaning := by
  induction ps with
  | nil => intro s s' tr _ _ _ h hr; simp only [run, Except.ok.injEq] at hr; subst hr; exact ⟨h, rfl⟩
  | cons p ps ih =>
      intro s s' tr h ht hv hc hr
      obtain ⟨s1, r, a1, a2, a2', _, _⟩ := train_spec sqrt hfc hm1 h ht (hv p (by simp)) p.2
      simp only [run, a1, bind, Except.bind] at hr
      have := ih s1 s' (tr ++ [p]) a2 (by rw [a2', ht]; simp) (fun q hq => hv q (by simp [hq]))
        (countOk_train sqrt hfc hm1 h ht (hv p (by simp)) p.2 hc a1) hr
      exact ⟨this.1, this.2.trans (train_cleaning sqrt hfc hm1 h ht (hv p (by simp)) p.2 a1)⟩

/-- C45, what holds: the number of clusters in use never exceeds `max_cluster` nor `count_clusters()`; with a cleaning method other than 0, 1
and 2, `count_clusters()` is the number of clusters in use; with cleaning method 0 it is, except that after a split of a cluster while all
clusters are in use it is larger than `max_cluster`. -/
theorem C45_count_partial (sqrt : K → K) (garbage : List (Cluster K)) (hg : garbage ≠ []) (fc : Nat) (hfc : 1 ≤ fc)
    (errorThr cleaning : Nat) (perfThr : ℚ) (ps : List (List K × Int)) (hp : ∀ p ∈ ps, p.1.length = fc) :
    ∃ s, run sqrt (new garbage errorThr cleaning perfThr) ps = .ok s ∧ activeCount s ≤ garbage.length ∧
      (activeCount s : Int) ≤ countClusters s ∧
      (cleaning = 0 → countClusters s = activeCount s ∨ (activeCount s = garbage.length ∧ (garbage.length : Int) < countClusters s)) ∧
      (3 ≤ cleaning → countClusters s = activeCount s ∧ countClusters s ≤ (garbage.length : Int)) := by
  have hm := List.length_pos_iff.2 hg
  have h0 := new_inv fc garbage errorThr cleaning perfThr
  obtain ⟨s, h1, h2, _, _⟩ := run_inv sqrt hfc hm ps _ [] h0 rfl hp
  have hz : activeCount (new garbage errorThr cleaning perfThr) = 0 := by
    simp [activeCount, new, List.count_eq_zero]
  obtain ⟨⟨c1, c2, c3⟩, c4⟩ := countOk_run sqrt hfc hm ps _ s [] h0 rfl hp
    (by simp only [CountOk, hz]; exact ⟨by simp [new], fun _ _ => .inl (by simp [new]), fun _ _ _ => by simp [new]⟩) h1
  have hle : activeCount s ≤ garbage.length := by
    rw [← h2.alen]; exact count_le _
  have hcl : s.cleaning = cleaning := c4
  rw [hcl] at c2 c3
  refine ⟨s, h1, hle, c1, fun h => c2 (by omega) (by omega), fun h => ?_⟩
  have := c3 (by omega) (by omega) (by omega)
  exact ⟨this, by rw [countClusters, this]; exact_mod_cast hle⟩

/-- C45 is violated by a split while all clusters are in use: with two clusters, `count_clusters()` returns 3. -/
theorem C45_violated_split : (run (K := ℚ) id (new [junk, junk] 1 0 50) [([0], 1), ([10], 2), ([6], 1)]).map (fun s =>
    (countClusters s, activeCount s, places s)) = .ok (3, 2, 2) := by
  decide +kernel

/-- C45 is violated by cleaning: `count_clusters()` returns 2 while one cluster is in use. -/
theorem C45_violated_clean : (run (K := ℚ) id (new [junk, junk, junk] 2 1 90)
      [([0], 1), ([0], 1), ([10], 2), ([10], 2)]).map (fun s => (countClusters s, activeCount s)) = .ok (2, 1) := by
  decide +kernel

/-! ### C46 -/

/-- the places in use after the cleaning at the start of `train` -/
def inUse (s : State K) (i : Nat) : Prop :=
  ∃ c, Active s i c ∧ ¬ ((s.cleaning = 1 ∨ s.cleaning = 2) ∧ c.n > 1 ∧ (c.performance s.timestamp).lt (.fin s.perfThr) = true)

theorem prepared_active {s : State K} (i : Nat) (c : Cluster K) :
    Active (prepared s) i c ↔ Active s i c ∧ ¬ ((s.cleaning = 1 ∨ s.cleaning = 2) ∧ c.n > 1 ∧
      (c.performance s.timestamp).lt (.fin s.perfThr) = true) := by
  by_cases hcl : s.cleaning = 1 ∨ s.cleaning = 2
  · have hp : Active (prepared s) i c ↔ Active (clean s) i c := by unfold prepared; rw [if_pos hcl]; exact Iff.rfl
    rw [hp]
    constructor
    · intro h0
      have hA := clean_active h0
      refine ⟨hA, fun hq => ?_⟩
      have := h0.1
      simp only [clean, List.getElem?_zipWith, hA.1, hA.2, Option.some.injEq] at this
      rw [if_pos (by simp [hq.2.1, hq.2.2])] at this
      cases this
    · rintro ⟨hA, hq⟩
      refine ⟨?_, hA.2⟩
      simp only [clean, List.getElem?_zipWith, hA.1, hA.2, Option.some.injEq]
      rw [if_neg]
      intro h
      apply hq
      exact ⟨hcl, by simpa using h⟩
  · have hp : Active (prepared s) i c ↔ Active s i c := by unfold prepared; rw [if_neg hcl]; exact Iff.rfl
    rw [hp]
    exact ⟨fun h => ⟨h, fun h' => hcl h'.1⟩, fun h => h.1⟩

theorem prepared_all {m : Nat} {s : State K} (hc : s.clusters.length = m) (hl : s.active.length = m)
    (h : ∀ i < m, (prepared s).active[i]? = some true) : (prepared s).active = s.active := by
  apply List.ext_getElem?
  intro i
  by_cases hi : i < m
  · rw [h i hi]
    have hcl : (prepared s).clusters = s.clusters := by unfold prepared; split <;> rfl
    have : Active (prepared s) i (s.clusters[i]'(by omega)) := ⟨h i hi, by rw [hcl]; exact List.getElem?_eq_getElem _⟩
    exact ((prepared_active i _).1 this).1.1.symm
  · have : (prepared s).active.length = m := by
      unfold prepared; split <;> simp [clean, hc, hl]
    rw [List.getElem?_eq_none (by omega), List.getElem?_eq_none (by omega)]

/-- C46: in every state reached by training, `train` succeeds and returns false exactly when every place is in use after the cleaning, the
cleaning method does not allow to evict a cluster, and every cluster in use with the label of the point has a squared distance to it of at
least 1000000. If it returns false, the clusters and the places in use are unchanged. -/
theorem C46_false (sqrt : K → K) (garbage : List (Cluster K)) (hg : garbage ≠ []) (fc : Nat) (hfc : 1 ≤ fc)
    (errorThr cleaning : Nat) (perfThr : ℚ) (ps : List (List K × Int)) (hp : ∀ p ∈ ps, p.1.length = fc)
    (x : List K) (hx : x.length = fc) (label : Int) :
    ∃ s s' r, run sqrt (new garbage errorThr cleaning perfThr) ps = .ok s ∧ train sqrt s x label = .ok (s', r) ∧
      (r = false ↔ (∀ i < garbage.length, inUse s i) ∧ cleaning ≠ 0 ∧ cleaning ≠ 2 ∧
        ∀ i c, Active s i c → c.label = label → 1000000 ≤ sqDist fc x c.centroid) ∧
      (r = false → s'.clusters = s.clusters ∧ s'.active = s.active ∧ countClusters s' = countClusters s) := by
  have hm := List.length_pos_iff.2 hg
  have h0 := new_inv fc garbage errorThr cleaning perfThr
  obtain ⟨s, h1, h2, h3, _⟩ := run_inv sqrt hfc hm ps _ [] h0 rfl hp
  have hz : activeCount (new garbage errorThr cleaning perfThr) = 0 := by
    simp [activeCount, new, List.count_eq_zero]
  have hclean : s.cleaning = cleaning := (countOk_run sqrt hfc hm ps _ s [] h0 rfl hp
    (by simp only [CountOk, hz]; exact ⟨by simp [new], fun _ _ => .inl (by simp [new]), fun _ _ _ => by simp [new]⟩) h1).2
  obtain ⟨s', r, a1, a2, _, _, a3⟩ := train_spec sqrt hfc hm h2 h3 hx label
  have hpi := prepared_inv h2
  have hpc : (prepared s).clusters = s.clusters := by unfold prepared; split <;> rfl
  have hpn : (prepared s).count = s.count := by unfold prepared; split <;> rfl
  have hd : ∀ i d, Active s i d → distance x d.centroid = sqDist fc x d.centroid :=
    fun i d hi => distance_eq fc x _ hx (good_len (h2.good i d hi))
  have huse : (∀ i < garbage.length, (prepared s).active[i]? = some true) ↔ ∀ i < garbage.length, inUse s i := by
    constructor
    · intro h i hi
      have hic : i < s.clusters.length := by rw [h2.clen]; exact hi
      exact ⟨_, (prepared_active i _).1 ⟨h i hi, by rw [hpc]; exact List.getElem?_eq_getElem hic⟩⟩
    · intro h i hi
      obtain ⟨c, hc⟩ := h i hi
      exact ((prepared_active i c).2 hc).1
  refine ⟨s, s', r, h1, a1, ?_, ?_⟩
  · rcases a3 with ⟨hnn, ⟨i, rfl, _, b⟩ | ⟨i, rfl, _, b, b', _⟩ | ⟨rfl, _, b, b1, b2⟩⟩ |
      ⟨rfl, i, j, c, d, mid, s2, ei, ej, el, _, _, edist, _⟩
    · refine iff_of_false (by simp) ?_
      rintro ⟨hu, _⟩
      have := huse.2 hu i (by rw [← hpi.alen]; exact (List.getElem?_eq_some_iff.1 b).1)
      rw [b] at this; cases this
    · refine iff_of_false (by simp) ?_
      rintro ⟨_, c1, c2, _⟩
      rw [hclean] at b'
      rcases b' with b' | b'
      · exact c1 b'
      · exact c2 b'
    · refine iff_of_true rfl ⟨huse.1 b, by rwa [hclean] at b1, by rwa [hclean] at b2, fun i c hc hl => ?_⟩
      rw [← hd i c hc]
      have hpa := prepared_all h2.clen h2.alen b
      exact hnn i c ⟨by rw [hpa]; exact hc.1, by rw [hpc]; exact hc.2⟩ (by simpa using hl)
    · refine iff_of_false (by simp) ?_
      rintro ⟨_, _, _, hn⟩
      have hA := ((prepared_active j c).1 ej).1
      have := hn j c hA el
      rw [← hd j c hA] at this
      exact absurd edist (not_lt.2 this)
  · rintro rfl
    rcases a3 with ⟨_, ⟨i, h, _⟩ | ⟨i, h, _⟩ | ⟨_, rfl, b, _⟩⟩ | ⟨h, _⟩
    · cases h
    · cases h
    · exact ⟨hpc, prepared_all h2.clen h2.alen b, hpn⟩
    · cases h

/-- C46: when `train` returns true the point was absorbed. Either no cluster with its label was within reach: then a new cluster with this one
point and this label exists in a place that was free or was the place of the cluster with the lowest participation, and all other
clusters are unchanged. Or the nearest cluster with its label absorbed it (its sums and its number of points are updated), and then this
cluster and the nearest cluster may have been split. Missing: the second split may evict the cluster that has absorbed the point, see
`C46_absorbed_and_evicted`. -/
theorem C46_true_partial (sqrt : K → K) (garbage : List (Cluster K)) (hg : garbage ≠ []) (fc : Nat) (hfc : 1 ≤ fc)
    (errorThr cleaning : Nat) (perfThr : ℚ) (ps : List (List K × Int)) (hp : ∀ p ∈ ps, p.1.length = fc)
    (x : List K) (hx : x.length = fc) (label : Int) :
    ∃ s s' r, run sqrt (new garbage errorThr cleaning perfThr) ps = .ok s ∧ train sqrt s x label = .ok (s', r) ∧
      (r = true →
        (∃ i c, Active s' i c ∧ c.label = label ∧ Summarises fc c [x] ∧ (∀ k ≠ i, ∀ d, Active s' k d ↔ inUse s k ∧ Active s k d) ∧
          (¬ inUse s i ∨ ((∀ k < garbage.length, inUse s k) ∧ IsLowest (prepared s) i))) ∨
        (∃ i j c d mid s2 e, Active s i d ∧ Active s j c ∧ inUse s i ∧ inUse s j ∧ c.label = label ∧
          (∀ k e, inUse s k → Active s k e → sqDist fc x d.centroid ≤ sqDist fc x e.centroid) ∧
          (∀ k e, inUse s k → Active s k e → e.label = label → sqDist fc x c.centroid ≤ sqDist fc x e.centroid) ∧
          Active mid j e ∧ e.label = label ∧ (∀ pts, Summarises fc c pts → Summarises fc e (pts ++ [x])) ∧
          (s2 = mid ∨ SplitStep sqrt fc mid j s2) ∧ (s' = s2 ∨ SplitStep sqrt fc s2 i s'))) := by
  have hm := List.length_pos_iff.2 hg
  obtain ⟨s, h1, h2, h3, _⟩ := run_inv sqrt hfc hm ps _ [] (new_inv fc garbage errorThr cleaning perfThr) rfl hp
  obtain ⟨s', r, a1, a2, _, _, a3⟩ := train_spec sqrt hfc hm h2 h3 hx label
  have hpi := prepared_inv h2
  have hd : ∀ i d, Active s i d → distance x d.centroid = sqDist fc x d.centroid :=
    fun i d hi => distance_eq fc x _ hx (good_len (h2.good i d hi))
  have huse : ∀ i d, Active (prepared s) i d ↔ inUse s i ∧ Active s i d := by
    intro i d
    rw [prepared_active]
    constructor
    · rintro ⟨a, b⟩; exact ⟨⟨d, a, b⟩, a⟩
    · rintro ⟨⟨c, a, b⟩, h⟩
      have : c = d := by have := a.2; rw [h.2] at this; cases this; rfl
      subst this; exact ⟨a, b⟩
  refine ⟨s, s', r, h1, a1, ?_⟩
  rintro rfl
  rcases a3 with ⟨hnn, ⟨i, _, rfl, b⟩ | ⟨i, _, rfl, b, _, b2, b3⟩ | ⟨h, _⟩⟩ | ⟨_, i, j, c, d, mid, s2, ei, ej, el, en1, en2, _, _, _, _, ⟨e, ee⟩, _, e4, e5⟩
  · have hi : i < (prepared s).active.length := (List.getElem?_eq_some_iff.1 b).1
    have hi' : i < (prepared s).clusters.length := by rw [hpi.hlen]; exact hi
    left
    refine ⟨i, _, ⟨by simp [hi], List.getElem?_set_self hi'⟩, rfl, summ_init fc x hx _ _ _, fun k hk d => ?_, .inl ?_⟩
    · rw [← huse]
      simp only [Active, List.getElem?_set_ne (Ne.symm hk)]
    · rintro ⟨c, hc⟩
      have := ((prepared_active i c).2 hc).1
      rw [b] at this; cases this
  · have hi' : i < (prepared s).clusters.length := by rw [hpi.clen]; exact b2
    left
    refine ⟨i, _, ⟨b i b2, List.getElem?_set_self hi'⟩, rfl, summ_init fc x hx _ _ _, fun k hk d => ?_, .inr ⟨fun k hk => ?_, b3⟩⟩
    · rw [← huse]
      simp only [Active, List.getElem?_set_ne (Ne.symm hk)]
    · have hk' : k < (prepared s).clusters.length := by rw [hpi.clen]; exact hk
      exact ((huse k _).1 ⟨b k hk, List.getElem?_eq_getElem hk'⟩).1
  · cases h
  · right
    have hA := (huse i d).1 ei
    have hB := (huse j c).1 ej
    refine ⟨i, j, c, d, mid, s2, _, hA.2, hB.2, hA.1, hB.1, el, ?_, ?_, ee, el, ?_, e4, e5⟩
    · intro k f h1 h2
      rw [← hd i d hA.2, ← hd k f h2]; exact en1 k f ((huse k f).2 ⟨h1, h2⟩)
    · intro k f h1 h2 h3
      rw [← hd j c hB.2, ← hd k f h2]; exact en2 k f ((huse k f).2 ⟨h1, h2⟩) h3
    · intro pts hs
      exact summ_incorporate (summ_err hs e) hx _

example : (run (K := ℚ) id (new [junk] 2 1 50) [([0], 1)]).bind (fun s => (train id s [5] 2).map (fun r => r.2)) = .ok false := by
  decide +kernel

example : (run (K := ℚ) id (new [junk, junk] 2 1 50) [([0], 1)]).bind (fun s => (train id s [5] 1).map (fun r => r.2)) = .ok true := by
  decide +kernel

/-! ### C47 -/

/-- C47: after every training history every cluster in use has at least one data point, its label was trained, and it summarises a first point
and then training points with its label, each at most once; its participation is computed from the times of these points. -/
theorem C47_sound (sqrt : K → K) (garbage : List (Cluster K)) (hg : garbage ≠ []) (fc : Nat) (hfc : 1 ≤ fc)
    (errorThr cleaning : Nat) (perfThr : ℚ) (ps : List (List K × Int)) (hp : ∀ p ∈ ps, p.1.length = fc) :
    ∃ s, run sqrt (new garbage errorThr cleaning perfThr) ps = .ok s ∧ s.clusters.length = garbage.length ∧
      (ps ≠ [] → ∃ i c, Active s i c) ∧ ∀ i c, Active s i c → 1 ≤ c.n ∧ Good fc ps c := by
  obtain ⟨s, h1, h2, _, h3⟩ := run_inv sqrt hfc (List.length_pos_iff.2 hg) ps _ [] (new_inv fc garbage errorThr cleaning perfThr) rfl hp
  refine ⟨s, h1, h2.clen, h3, fun i c hc => ?_⟩
  have h := h2.good i c hc
  refine ⟨?_, by simpa using h⟩
  obtain ⟨_, f, r, hs, _⟩ := h
  exact summ_pos hs (by simp)

/-- C47: a cluster which was created by the point `x` and then absorbed the points `xs` has their mean as centroid and their population
variance as variances, and these are not negative, so that the square root taken by a split is defined. -/
theorem C47_mean (fc : Nat) (x : List K) (xs : List (List K × Int)) (hx : x.length = fc) (hxs : ∀ q ∈ xs, q.1.length = fc)
    (label t thr : Int) (c : Cluster K) (hc : c = xs.foldl (fun c q => c.incorporate q.1 q.2) (initCluster x label t thr)) :
    c.label = label ∧ c.n = xs.length + 1 ∧ c.centroid.length = fc ∧ c.variances.length = fc ∧
    (∀ i < fc, c.centroid[i]? = some (meanOf (x :: xs.map Prod.fst) i) ∧
      c.variances[i]? = some (varOf (x :: xs.map Prod.fst) i) ∧ 0 ≤ varOf (x :: xs.map Prod.fst) i) := by
  have key : ∀ (xs : List (List K × Int)) (c0 : Cluster K) (pts : List (List K)), (∀ q ∈ xs, q.1.length = fc) → Summarises fc c0 pts →
      Summarises fc (xs.foldl (fun c q => c.incorporate q.1 q.2) c0) (pts ++ xs.map Prod.fst) ∧
      (xs.foldl (fun c q => c.incorporate q.1 q.2) c0).label = c0.label := by
    intro xs
    induction xs with
    | nil => intro c0 pts _ h; exact ⟨by simpa using h, rfl⟩
    | cons q xs ih =>
        intro c0 pts hv h
        have := ih (c0.incorporate q.1 q.2) (pts ++ [q.1]) (fun q' hq' => hv q' (by simp [hq'])) (summ_incorporate h (hv q (by simp)) _)
        refine ⟨by simpa using this.1, by simpa [Cluster.incorporate] using this.2⟩
  obtain ⟨hs, hl⟩ := key xs _ [x] hxs (summ_init fc x hx label t thr)
  rw [← hc] at hs hl
  have hs' : Summarises fc c (x :: xs.map Prod.fst) := by simpa using hs
  have hn : c.n = xs.length + 1 := by rw [hs'.1]; simp
  obtain ⟨m1, m2⟩ := summ_centroid hs'
  refine ⟨hl, hn, m1, by simp [Cluster.variances, hs'.2.1, hs'.2.2.1], fun i hi => ⟨m2 i hi, ?_, ?_⟩⟩
  · obtain ⟨s1, s2⟩ := hs'.2.2.2 i hi
    have hn0 : (c.n : K) ≠ 0 := by rw [hn]; push_cast; positivity
    have hlen : ((x :: xs.map Prod.fst).length : K) = (c.n : K) := by rw [hs'.1]
    simp only [Cluster.variances, List.getElem?_zipWith, s1, s2, varOf, meanOf, Option.some.injEq, hlen]
    have := sq_dev_sum ((x :: xs.map Prod.fst).map (fun y => y.getD i 0))
      (((x :: xs.map Prod.fst).map (fun y => y.getD i 0)).sum / (c.n : K))
    rw [List.map_map, List.map_map, List.length_map, hlen] at this
    simp only [Function.comp_def] at this
    rw [this]
    field_simp
    ring
  · apply div_nonneg
    · apply List.sum_nonneg
      intro v hv
      obtain ⟨y, _, rfl⟩ := List.mem_map.1 hv
      positivity
    · positivity

/-! ### C67 -/

/-- C67: splitting a cluster that has absorbed some points. It is replaced by two clusters of one point and with its label, at its centroid minus and plus the
square root of the variance, along the feature with the highest variance; the second place is a free one or that of the cluster with the lowest
participation (possibly the one that is split, see `C67_half_lost`). If there is none of these, nothing changes. -/
theorem C67_split (sqrt : K → K) (s : State K) (fc : Nat) (hfc : 1 ≤ fc) (hlen : s.clusters.length = s.active.length)
    (ci : Nat) (c : Cluster K) (pts : List (List K)) (hc : Active s ci c) (hs : Summarises fc c pts) :
    ∃ s', split sqrt s ci = .ok s' ∧ SplitStep sqrt fc s ci s' := split_spec sqrt s hfc hlen hc hs

example : ((run (K := ℚ) (fun _ => 3) (new [junk, junk, junk] 2 0 50) [([0], 1), ([6], 1), ([10], 2)]).bind (fun s =>
    split (fun _ => 3) s 0)).map (fun s => (s.clusters.map (·.centroid), s.active)) = .ok ([[6], [10], [0]], [true, true, true]) := by
  decide +kernel

end Orp.Mcnn
