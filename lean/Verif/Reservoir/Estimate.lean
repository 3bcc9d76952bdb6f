import Verif.Reservoir.Joint
import Mathlib.MeasureTheory.Integral.Bochner.Basic
import Mathlib.MeasureTheory.Integral.Bochner.Set
import Mathlib.Algebra.BigOperators.Field

/-!
Estimating the mean of a stream of numbers by the mean of the numbers in the reservoir: the estimate is unbiased and has
the variance of simple random sampling.
-/

namespace Orp.Reservoir

open MeasureTheory Set

/-- the mean of the `k` numbers in the array after the numbers `x 0, ..., x (N - 1)` have been added -/
noncomputable def estimate (k : Nat) (garbage : List ℝ) (x : Nat → ℝ) (N : Nat) (ω : Draws N) : ℝ :=
  match adds k (new garbage) (List.ofFn fun i : Fin N => ⟨x i.val, (ω i).1.1, (ω i).2.1⟩) with
  | .ok s => s.sample.sum / k
  | .error _ => 0

/-- the mean of the first `N` numbers of the stream -/
noncomputable def streamMean (x : Nat → ℝ) (N : Nat) : ℝ := (∑ i ∈ Finset.range N, x i) / N

/-- the variance of the first `N` numbers of the stream -/
noncomputable def streamVariance (x : Nat → ℝ) (N : Nat) : ℝ :=
  (∑ i ∈ Finset.range N, (x i - streamMean x N) ^ 2) / N

/-! ### the code treats the items as opaque -/

theorem wr_map {α β : Type} (f : α → β) (a : List α) (i : Nat) (e : α) :
    wr (a.map f) i (f e) = (wr a i e).map (List.map f) := by
  unfold wr
  simp only [List.length_map]
  split
  · simp [Except.map, List.map_set]
  · rfl

theorem adds_map {α β : Type} (f : α → β) (k : Nat) : ∀ (cs : List (Call α ℝ)) (s : State α),
    adds k ⟨s.sample.map f, s.counter⟩ (cs.map fun c => ⟨f c.e, c.r1, c.r2⟩) =
      (adds k s cs).map fun s => ⟨s.sample.map f, s.counter⟩
  | [], s => rfl
  | c :: cs, s => by
      have h : add k (⟨s.sample.map f, s.counter⟩ : State β) (f c.e) c.r1 c.r2 =
          (add k s c.e c.r1 c.r2).map fun r => (⟨r.1.sample.map f, r.1.counter⟩, r.2) := by
        unfold add sampleIndex
        dsimp only
        by_cases hi : (if s.counter < k then (s.counter : Int) else if ltQuot c.r1 k (incr s.counter) then
            ⌊c.r2 * (k : ℝ)⌋ else -1) ≥ 0
        · rw [if_pos hi, if_pos hi, wr_map]
          cases wr s.sample _ c.e <;> rfl
        · rw [if_neg hi, if_neg hi]; rfl
      rw [List.map_cons, adds, adds, h]
      cases hadd : add k s c.e c.r1 c.r2 with
      | error e => rfl
      | ok r => exact adds_map f k cs r.1

/-- the estimate is the mean over the set of stream positions in the sample -/
theorem estimate_eq {k : Nat} (hk : 1 ≤ k) (garbage : List ℝ) (hg : garbage.length = k) (x : Nat → ℝ) {N : Nat}
    (hkN : k ≤ N) (hN : N < 2 ^ 32) : ∃ gp : List Nat, gp.length = k ∧ ∀ ω : Draws N,
      estimate k garbage x N ω = (∑ p ∈ (walk gp (pstep k) N ω).toFinset, x p) / k := by
  refine ⟨(List.range k).map (N + ·), by simp, fun ω => ?_⟩
  set gp := (List.range k).map (N + ·) with hgp
  let f : Nat → ℝ := fun p => if p < N then x p else garbage.getD (p - N) 0
  have hgl : gp.length = k := by simp [hgp]
  have hgf : gp.map f = garbage := by
    apply List.ext_getElem
    · rw [List.length_map, hgl, hg]
    · intro i h1 h2
      simp [hgp, f, h2]
  have hcalls : (List.ofFn fun i : Fin N => (⟨x i.val, (ω i).1.1, (ω i).2.1⟩ : Call ℝ ℝ)) =
      (calls ω).map fun c => ⟨f c.e, c.r1, c.r2⟩ := by
    rw [calls, List.map_ofFn]
    congr 1
    funext i
    simp [f]
  have hadds := adds_map f k (calls ω) (new gp)
  rw [adds_walk hk gp hgl N hN ω, ← hcalls] at hadds
  have hnew : (⟨(new gp).sample.map f, (new gp).counter⟩ : State ℝ) = new garbage := by
    unfold new; dsimp only; rw [hgf]
  rw [hnew] at hadds
  obtain ⟨f1, f2, f3, _⟩ := walk_facts hk gp hgl N hN hkN ω
  unfold estimate
  rw [hadds]
  simp only [Except.map]
  congr 1
  rw [List.sum_toFinset _ f2]
  congr 1
  apply List.map_congr_left
  intro p hp
  simp [f, f3 p hp]

/-! ### averages over all subsets -/

theorem card_containing {s T : Finset Nat} (hT : T ⊆ s) {k : Nat} (hk : T.card ≤ k) :
    ((s.powersetCard k).filter (T ⊆ ·)).card = (s.card - T.card).choose (k - T.card) := by
  rw [← Finset.card_sdiff_of_subset hT, ← Finset.card_powersetCard]
  refine Finset.card_nbij' (fun A => A \ T) (fun B => B ∪ T) ?_ ?_ ?_ ?_
  · intro A hA
    simp only [Finset.coe_filter, Finset.mem_powersetCard, Set.mem_ofPred_eq] at hA
    simp only [Finset.mem_coe, Finset.mem_powersetCard]
    exact ⟨Finset.sdiff_subset_sdiff hA.1.1 subset_rfl, by rw [Finset.card_sdiff_of_subset hA.2, hA.1.2]⟩
  · intro B hB
    simp only [Finset.mem_coe, Finset.mem_powersetCard] at hB
    simp only [Finset.coe_filter, Finset.mem_powersetCard, Set.mem_ofPred_eq]
    have hd : Disjoint B T := Finset.disjoint_of_subset_left hB.1 Finset.sdiff_disjoint
    refine ⟨⟨Finset.union_subset (hB.1.trans Finset.sdiff_subset) hT, ?_⟩, Finset.subset_union_right⟩
    rw [Finset.card_union_of_disjoint hd, hB.2]; omega
  · intro A hA
    simp only [Finset.coe_filter, Finset.mem_powersetCard, Set.mem_ofPred_eq] at hA
    exact Finset.sdiff_union_of_subset hA.2
  · intro B hB
    simp only [Finset.mem_coe, Finset.mem_powersetCard] at hB
    have hd : Disjoint B T := Finset.disjoint_of_subset_left hB.1 Finset.sdiff_disjoint
    exact Finset.union_sdiff_cancel_right hd

/-- the part of the `k`-subsets of `N` things that contain a given one -/
theorem part_one {N k : Nat} (hk : 1 ≤ k) (hkN : k ≤ N) {i : Nat} (hi : i < N) :
    ((((Finset.range N).powersetCard k).filter (i ∈ ·)).card : ℝ) = N.choose k * ((k : ℝ) / N) := by
  have h := card_containing (s := Finset.range N) (T := {i}) (by simpa using hi) (k := k) (by simpa using hk)
  simp only [Finset.singleton_subset_iff, Finset.card_range, Finset.card_singleton] at h
  rw [h]
  obtain ⟨n, rfl⟩ : ∃ n, N = n + 1 := ⟨N - 1, by omega⟩
  obtain ⟨m, rfl⟩ : ∃ m, k = m + 1 := ⟨k - 1, by omega⟩
  simp only [Nat.add_sub_cancel]
  have h2 := Nat.add_one_mul_choose_eq n m
  have h3 : ((n + 1 : Nat) : ℝ) * (n.choose m : ℝ) = ((n + 1).choose (m + 1) : ℝ) * ((m + 1 : Nat) : ℝ) := by
    exact_mod_cast h2
  have hpos : (0 : ℝ) < ((n + 1 : Nat) : ℝ) := by positivity
  field_simp
  linarith

/-- the part that contain two given ones -/
theorem part_two {N k : Nat} (hk : 1 ≤ k) (hkN : k ≤ N) {i j : Nat} (hi : i < N) (hj : j < N) (hij : i ≠ j) :
    ((((Finset.range N).powersetCard k).filter (fun A => i ∈ A ∧ j ∈ A)).card : ℝ) =
      N.choose k * ((k : ℝ) / N * (((k : ℝ) - 1) / ((N : ℝ) - 1))) := by
  obtain ⟨n, rfl⟩ : ∃ n, N = n + 2 := ⟨N - 2, by omega⟩
  rcases Nat.lt_or_ge k 2 with h1 | h2
  · obtain rfl : k = 1 := by omega
    have : ((Finset.range (n + 2)).powersetCard 1).filter (fun A => i ∈ A ∧ j ∈ A) = ∅ := by
      apply Finset.filter_eq_empty_iff.2
      rintro A hA ⟨h3, h4⟩
      obtain ⟨a, rfl⟩ := Finset.card_eq_one.1 (Finset.mem_powersetCard.1 hA).2
      simp only [Finset.mem_singleton] at h3 h4
      exact hij (h3.trans h4.symm)
    rw [this]; simp
  · have h := card_containing (s := Finset.range (n + 2)) (T := {i, j})
      (by intro x hx; simp only [Finset.mem_insert, Finset.mem_singleton] at hx; rcases hx with rfl | rfl <;> simpa)
      (k := k) (by rw [Finset.card_pair hij]; exact h2)
    rw [Finset.card_pair hij] at h
    have hset : ((Finset.range (n + 2)).powersetCard k).filter (fun A => i ∈ A ∧ j ∈ A) =
        ((Finset.range (n + 2)).powersetCard k).filter ({i, j} ⊆ ·) := by
      apply Finset.filter_congr
      intro A _
      simp [Finset.insert_subset_iff]
    rw [hset, h]
    obtain ⟨m, rfl⟩ : ∃ m, k = m + 2 := ⟨k - 2, by omega⟩
    simp only [Finset.card_range, Nat.add_sub_cancel]
    have e1 : ((n + 2 : Nat) : ℝ) * ((n + 1).choose (m + 1) : ℝ) = ((n + 2).choose (m + 2) : ℝ) * ((m + 2 : Nat) : ℝ) := by
      exact_mod_cast Nat.add_one_mul_choose_eq (n + 1) (m + 1)
    have e2 : ((n + 1 : Nat) : ℝ) * (n.choose m : ℝ) = ((n + 1).choose (m + 1) : ℝ) * ((m + 1 : Nat) : ℝ) := by
      exact_mod_cast Nat.add_one_mul_choose_eq n m
    push_cast at e1 e2 ⊢
    have p1 : (0 : ℝ) < (n : ℝ) + 2 := by positivity
    have p2 : (0 : ℝ) < (n : ℝ) + 1 := by positivity
    have p3 : (n : ℝ) + 2 - 1 = n + 1 := by ring
    have p4 : (m : ℝ) + 2 - 1 = m + 1 := by ring
    rw [p3, p4]
    field_simp
    have : ((n : ℝ) + 2) * (((n : ℝ) + 1) * (n.choose m : ℝ)) =
        ((n + 2).choose (m + 2) : ℝ) * ((m : ℝ) + 2) * ((m : ℝ) + 1) := by rw [e2, ← e1]; ring
    linarith

theorem sum_first (N k : Nat) (hk : 1 ≤ k) (hkN : k ≤ N) (y : Nat → ℝ) :
    ∑ A ∈ (Finset.range N).powersetCard k, ∑ i ∈ A, y i = N.choose k * ((k : ℝ) / N * ∑ i ∈ Finset.range N, y i) := by
  have h : ∀ A ∈ (Finset.range N).powersetCard k, ∑ i ∈ A, y i =
      ∑ i ∈ Finset.range N, if i ∈ A then y i else 0 := by
    intro A hA
    rw [← Finset.sum_filter]
    apply Finset.sum_congr _ (fun _ _ => rfl)
    rw [Finset.filter_mem_eq_inter, Finset.inter_eq_right.2 (Finset.mem_powersetCard.1 hA).1]
  rw [Finset.sum_congr rfl h, Finset.sum_comm, Finset.mul_sum, Finset.mul_sum]
  apply Finset.sum_congr rfl
  intro i hi
  rw [← Finset.sum_filter, Finset.sum_const, nsmul_eq_mul, part_one hk hkN (Finset.mem_range.1 hi)]
  ring

/-- the second moment, for numbers with sum 0 -/
theorem sum_second (N k : Nat) (hk : 1 ≤ k) (hkN : k ≤ N) (hN : 2 ≤ N) (y : Nat → ℝ)
    (hy : ∑ i ∈ Finset.range N, y i = 0) :
    ∑ A ∈ (Finset.range N).powersetCard k, (∑ i ∈ A, y i) ^ 2 =
      N.choose k * ((k : ℝ) / N * (((N : ℝ) - k) / ((N : ℝ) - 1)) * ∑ i ∈ Finset.range N, y i ^ 2) := by
  have h : ∀ A ∈ (Finset.range N).powersetCard k, (∑ i ∈ A, y i) ^ 2 =
      ∑ i ∈ Finset.range N, ∑ j ∈ Finset.range N, if i ∈ A ∧ j ∈ A then y i * y j else 0 := by
    intro A hA
    have hs := (Finset.mem_powersetCard.1 hA).1
    have e : ∑ i ∈ A, y i = ∑ i ∈ Finset.range N, if i ∈ A then y i else 0 := by
      rw [← Finset.sum_filter]
      apply Finset.sum_congr _ (fun _ _ => rfl)
      rw [Finset.filter_mem_eq_inter, Finset.inter_eq_right.2 hs]
    rw [e, sq, Finset.sum_mul_sum]
    apply Finset.sum_congr rfl; intro i _
    apply Finset.sum_congr rfl; intro j _
    by_cases h1 : i ∈ A <;> by_cases h2 : j ∈ A <;> simp [h1, h2]
  rw [Finset.sum_congr rfl h, Finset.sum_comm]
  have hin : ∀ i ∈ Finset.range N, ∑ A ∈ (Finset.range N).powersetCard k,
      (∑ j ∈ Finset.range N, if i ∈ A ∧ j ∈ A then y i * y j else 0) =
      N.choose k * ((k : ℝ) / N * (((N : ℝ) - k) / ((N : ℝ) - 1)) * y i ^ 2) := by
    intro i hi
    rw [Finset.sum_comm]
    have hj : ∀ j ∈ Finset.range N, ∑ A ∈ (Finset.range N).powersetCard k,
        (if i ∈ A ∧ j ∈ A then y i * y j else 0) =
        N.choose k * ((k : ℝ) / N * (((k : ℝ) - 1) / ((N : ℝ) - 1))) * (y i * y j) +
          if j = i then N.choose k * ((k : ℝ) / N * (((N : ℝ) - k) / ((N : ℝ) - 1))) * (y i * y i) else 0 := by
      intro j hj
      rw [← Finset.sum_filter, Finset.sum_const, nsmul_eq_mul]
      have hp : (0 : ℝ) < (N : ℝ) - 1 := by
        have : (2 : ℝ) ≤ N := by exact_mod_cast hN
        linarith
      by_cases hij : j = i
      · subst hij
        rw [if_pos rfl]
        have := part_one hk hkN (Finset.mem_range.1 hj)
        simp only [and_self]
        rw [this]
        have e : ((k : ℝ) - 1) / ((N : ℝ) - 1) + ((N : ℝ) - k) / ((N : ℝ) - 1) = 1 := by
          rw [← add_div, div_eq_one_iff_eq hp.ne']; ring
        have e2 : ((N : ℝ) - k) / ((N : ℝ) - 1) = 1 - ((k : ℝ) - 1) / ((N : ℝ) - 1) := by linarith
        rw [e2]; ring
      · rw [if_neg hij, part_two hk hkN (Finset.mem_range.1 hi) (Finset.mem_range.1 hj) (fun h => hij h.symm)]
        ring
    rw [Finset.sum_congr rfl hj, Finset.sum_add_distrib, ← Finset.mul_sum, ← Finset.mul_sum, hy,
      Finset.sum_ite_eq' (Finset.range N) i, if_pos hi]
    ring
  rw [Finset.sum_congr rfl hin, ← Finset.mul_sum, ← Finset.mul_sum]

/-! ### expectations -/

/-- the expectation of anything computed from the set of positions is its average over all sets -/
theorem integral_sample {k : Nat} (hk : 1 ≤ k) (gp : List Nat) (hg : gp.length = k) {N : Nat} (hkN : k ≤ N)
    (hN : N < 2 ^ 32) (F : Finset Nat → ℝ) :
    Integrable (fun ω : Draws N => F (walk gp (pstep k) N ω).toFinset) ∧
    ∫ ω : Draws N, F (walk gp (pstep k) N ω).toFinset =
      (∑ A ∈ (Finset.range N).powersetCard k, F A) / N.choose k := by
  classical
  have hm : ∀ A : Finset Nat, MeasurableSet {ω : Draws N | (walk gp (pstep k) N ω).toFinset = A} := fun A =>
    walk_set_meas gp (pstep k) (pstep_meas k) N (fun S => S.toFinset = A)
  have hpt : (fun ω : Draws N => F (walk gp (pstep k) N ω).toFinset) = fun ω =>
      ∑ A ∈ (Finset.range N).powersetCard k,
        {ω : Draws N | (walk gp (pstep k) N ω).toFinset = A}.indicator (fun _ => F A) ω := by
    funext ω
    obtain ⟨f1, f2, f3, _⟩ := walk_facts hk gp hg N hN hkN ω
    have hmem : (walk gp (pstep k) N ω).toFinset ∈ (Finset.range N).powersetCard k := by
      rw [Finset.mem_powersetCard]
      refine ⟨fun p hp => ?_, by rw [List.toFinset_card_of_nodup f2, f1]⟩
      rw [Finset.mem_range]; exact f3 p (List.mem_toFinset.1 hp)
    rw [Finset.sum_eq_single_of_mem _ hmem]
    · rw [indicator_of_mem]; rfl
    · intro A _ hne
      rw [indicator_of_notMem]
      exact fun h => hne h.symm
  have hint : ∀ A ∈ (Finset.range N).powersetCard k,
      Integrable ({ω : Draws N | (walk gp (pstep k) N ω).toFinset = A}.indicator (fun _ => F A)) volume := fun A _ =>
    (integrable_const (F A)).indicator (hm A)
  rw [hpt]
  refine ⟨integrable_finset_sum _ hint, ?_⟩
  rw [integral_finset_sum _ hint, Finset.sum_div]
  apply Finset.sum_congr rfl
  intro A hA
  obtain ⟨h1, h2⟩ := Finset.mem_powersetCard.1 hA
  rw [integral_indicator_const _ (hm A), Measure.real, joint_law hk gp hg N hN hkN A h1 h2,
    ENNReal.toReal_ofReal (by positivity), smul_eq_mul]
  ring

end Orp.Reservoir
