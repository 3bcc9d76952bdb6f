import Verif.Reservoir.Estimate

/-!
Property C156: the exponential reservoir of a stream of numbers estimates sums with exponentially decaying weights, and is soon
full.
-/

namespace Orp.Reservoir

open MeasureTheory Set

/-- the object after the numbers `x 0, ..., x (N - 1)` have been added to a new exponential reservoir -/
noncomputable def recent (k : Nat) (garbage : List ℝ) (x : Nat → ℝ) (N : Nat) (ω : Draws N) : Res (State ℝ) :=
  expAdds k (new garbage) (List.ofFn fun i : Fin N => ⟨x i.val, (ω i).1.1, (ω i).2.1⟩)

/-- the sum of the numbers it holds -/
noncomputable def recentSum (k : Nat) (garbage : List ℝ) (x : Nat → ℝ) (N : Nat) (ω : Draws N) : ℝ :=
  match recent k garbage x N ω with
  | .ok s => (s.sample.take (count s)).sum
  | .error _ => 0

/-- how many numbers it holds -/
noncomputable def recentCount (k : Nat) (garbage : List ℝ) (x : Nat → ℝ) (N : Nat) (ω : Draws N) : Nat :=
  match recent k garbage x N ω with
  | .ok s => count s
  | .error _ => 0

theorem expAdds_map {α β : Type} (f : α → β) (k : Nat) : ∀ (cs : List (Call α ℝ)) (s : State α),
    expAdds k ⟨s.sample.map f, s.counter⟩ (cs.map fun c => ⟨f c.e, c.r1, c.r2⟩) =
      (expAdds k s cs).map fun s => ⟨s.sample.map f, s.counter⟩
  | [], s => rfl
  | c :: cs, s => by
      have h : expAdd k (⟨s.sample.map f, s.counter⟩ : State β) (f c.e) c.r1 c.r2 =
          (expAdd k s c.e c.r1 c.r2).map fun r => (⟨r.1.sample.map f, r.1.counter⟩, r.2) := by
        unfold expAdd expSampleIndex
        by_cases hq : ltQuot c.r1 s.counter k = true
        · simp only [hq, if_true]
          by_cases hi : ⌊c.r2 * (s.counter : ℝ)⌋ ≥ 0
          · rw [if_pos hi, if_pos hi, wr_map]
            cases wr s.sample _ c.e <;> rfl
          · rw [if_neg hi, if_neg hi]; rfl
        · simp only [hq, if_false, Bool.false_eq_true]
          have hi : (s.counter : Int) ≥ 0 := by omega
          rw [if_pos hi, if_pos hi, wr_map]
          cases wr s.sample _ c.e <;> rfl
      rw [List.map_cons, expAdds, expAdds, h]
      cases hadd : expAdd k s c.e c.r1 c.r2 with
      | error e => rfl
      | ok r => exact expAdds_map f k cs r.1

/-- the object holds the numbers at the positions of the walk -/
theorem recent_eq {k : Nat} (hk : 1 ≤ k) (hk2 : k < 2 ^ 31) (garbage : List ℝ) (hg : garbage.length = k) (x : Nat → ℝ)
    (N : Nat) : ∃ gp : List Nat, gp.length = k ∧ ∀ ω : Draws N, ∃ s, recent k garbage x N ω = .ok s ∧
      s.sample.take (count s) =
        ((walk (gp, 0) (estep k) N ω).1.take (walk (gp, 0) (estep k) N ω).2).map x ∧
      count s = ((walk (gp, 0) (estep k) N ω).1.take (walk (gp, 0) (estep k) N ω).2).length := by
  refine ⟨(List.range k).map (N + ·), by simp, fun ω => ?_⟩
  set gp := (List.range k).map (N + ·) with hgp
  let f : Nat → ℝ := fun p => if p < N then x p else garbage.getD (p - N) 0
  have hgl : gp.length = k := by simp [hgp]
  have hgf : gp.map f = garbage := by
    apply List.ext_getElem
    · rw [List.length_map, hgl, hg]
    · intro i h1 h2
      simp [hgp, f, h2]
  have hcalls : (List.ofFn fun i : Fin N => (⟨x i.val, (ω i).1.1, (ω i).2.1⟩ : Call ℝ ℝ)) =
      (calls ω).map fun c => ⟨f c.e, c.r1, c.r2⟩ := by
    rw [calls, List.map_ofFn]
    congr 1
    funext i
    simp [f]
  have hadds := expAdds_map f k (calls ω) (new gp)
  rw [expAdds_walk hk hk2 gp hgl N ω, ← hcalls] at hadds
  have hnew : (⟨(new gp).sample.map f, (new gp).counter⟩ : State ℝ) = new garbage := by
    unfold new; dsimp only; rw [hgf]
  rw [hnew] at hadds
  obtain ⟨f1, f2, _, f4, _⟩ := ewalk_facts hk hk2 gp hgl N ω
  refine ⟨_, hadds, ?_, ?_⟩
  · simp only [count]
    rw [← List.map_take]
    apply List.map_congr_left
    intro p hp
    simp [f, f4 p hp]
  · simp only [count, List.length_take]
    omega

/-- the expectation of the sum -/
theorem integral_recentSum {k : Nat} (hk : 1 ≤ k) (hk2 : k < 2 ^ 31) (gp : List Nat) (hg : gp.length = k) (x : Nat → ℝ)
    (N : Nat) :
    Integrable (fun ω : Draws N =>
      (((walk (gp, 0) (estep k) N ω).1.take (walk (gp, 0) (estep k) N ω).2).map x).sum) ∧
    ∫ ω : Draws N, (((walk (gp, 0) (estep k) N ω).1.take (walk (gp, 0) (estep k) N ω).2).map x).sum =
      ∑ p ∈ Finset.range N, (1 - 1 / (k : ℝ)) ^ (N - 1 - p) * x p := by
  have hkpos : (0 : ℝ) < k := by exact_mod_cast hk
  have hq : (0 : ℝ) ≤ 1 - 1 / (k : ℝ) := by
    rw [sub_nonneg, div_le_one hkpos]; exact_mod_cast hk
  let E : Nat → Set (Draws N) := fun p =>
    {ω | p ∈ (walk (gp, 0) (estep k) N ω).1.take (walk (gp, 0) (estep k) N ω).2}
  have hm : ∀ p, MeasurableSet (E p) := fun p =>
    walk_set_meas (gp, 0) (estep k) (estep_meas k) N (fun z => p ∈ z.1.take z.2)
  have hfun : (fun ω : Draws N =>
      (((walk (gp, 0) (estep k) N ω).1.take (walk (gp, 0) (estep k) N ω).2).map x).sum) =
      fun ω => ∑ p ∈ Finset.range N, (E p).indicator (fun _ => x p) ω := by
    funext ω
    obtain ⟨_, _, f3, f4, _⟩ := ewalk_facts hk hk2 gp hg N ω
    rw [← List.sum_toFinset _ f3]
    have : ∀ p ∈ Finset.range N, (E p).indicator (fun _ => x p) ω =
        if p ∈ ((walk (gp, 0) (estep k) N ω).1.take (walk (gp, 0) (estep k) N ω).2).toFinset then x p else 0 := by
      intro p _
      by_cases h : p ∈ (walk (gp, 0) (estep k) N ω).1.take (walk (gp, 0) (estep k) N ω).2
      · rw [indicator_of_mem (show ω ∈ E p from h), if_pos (List.mem_toFinset.2 h)]
      · rw [indicator_of_notMem (show ω ∉ E p from h), if_neg (fun h2 => h (List.mem_toFinset.1 h2))]
    rw [Finset.sum_congr rfl this, ← Finset.sum_filter]
    refine Finset.sum_congr ?_ (fun _ _ => rfl)
    rw [Finset.filter_mem_eq_inter, Finset.inter_eq_right.2]
    intro p hp
    exact Finset.mem_range.2 (f4 p (List.mem_toFinset.1 hp))
  have hint : ∀ p ∈ Finset.range N, Integrable ((E p).indicator (fun _ => x p)) :=
    fun p _ => (integrable_const (x p)).indicator (hm p)
  rw [hfun]
  refine ⟨integrable_finset_sum _ hint, ?_⟩
  rw [integral_finset_sum _ hint]
  apply Finset.sum_congr rfl
  intro p hp
  rw [integral_indicator_const _ (hm p), Measure.real, exp_law hk hk2 gp hg N p (Finset.mem_range.1 hp),
    ENNReal.toReal_ofReal (pow_nonneg hq _), smul_eq_mul]

/-- the sum of the weights -/
theorem weights {k : Nat} (hk : 1 ≤ k) (N : Nat) :
    ∑ p ∈ Finset.range N, (1 - 1 / (k : ℝ)) ^ (N - 1 - p) * 1 = k * (1 - (1 - 1 / (k : ℝ)) ^ N) := by
  have hkpos : (0 : ℝ) < k := by exact_mod_cast hk
  simp only [mul_one]
  rw [Finset.sum_range_reflect (fun i => (1 - 1 / (k : ℝ)) ^ i) N]
  have h := mul_neg_geom_sum (1 - 1 / (k : ℝ)) N
  have e : 1 - (1 - 1 / (k : ℝ)) = 1 / k := by ring
  rw [e] at h
  rw [← h]
  field_simp

theorem recentCount_sum {k : Nat} (hk : 1 ≤ k) (hk2 : k < 2 ^ 31) (garbage : List ℝ) (hg : garbage.length = k)
    (x : Nat → ℝ) (N : Nat) : ∃ gp : List Nat, gp.length = k ∧ ∀ ω : Draws N,
      (recentCount k garbage x N ω : ℝ) =
        (((walk (gp, 0) (estep k) N ω).1.take (walk (gp, 0) (estep k) N ω).2).map fun _ => (1 : ℝ)).sum ∧
      recentCount k garbage x N ω ≤ k := by
  obtain ⟨gp, h1, h2⟩ := recent_eq hk hk2 garbage hg x N
  refine ⟨gp, h1, fun ω => ?_⟩
  obtain ⟨s, h3, _, h5⟩ := h2 ω
  obtain ⟨f1, f2, _⟩ := ewalk_facts hk hk2 gp h1 N ω
  have : recentCount k garbage x N ω =
      ((walk (gp, 0) (estep k) N ω).1.take (walk (gp, 0) (estep k) N ω).2).length := by
    unfold recentCount; rw [h3]; exact h5
  rw [this]
  refine ⟨by simp, ?_⟩
  rw [List.length_take]; omega

/-- **C156** The expected sum of the numbers in the exponential reservoir is the sum of the stream with weights that decay
exponentially with the age. -/
theorem C156_weighted_sum {k : Nat} (hk : 1 ≤ k) (hk2 : k < 2 ^ 31) (garbage : List ℝ) (hg : garbage.length = k)
    (x : Nat → ℝ) (N : Nat) :
    Integrable (recentSum k garbage x N) ∧
    ∫ ω, recentSum k garbage x N ω = ∑ p ∈ Finset.range N, (1 - 1 / (k : ℝ)) ^ (N - 1 - p) * x p := by
  obtain ⟨gp, h1, h2⟩ := recent_eq hk hk2 garbage hg x N
  have hfun : recentSum k garbage x N = fun ω =>
      (((walk (gp, 0) (estep k) N ω).1.take (walk (gp, 0) (estep k) N ω).2).map x).sum := by
    funext ω
    obtain ⟨s, h3, h4, _⟩ := h2 ω
    unfold recentSum; rw [h3]
    exact congrArg List.sum h4
  rw [hfun]
  exact integral_recentSum hk hk2 gp h1 x N

/-- **C156** The expected number of items after `N` adds is `k (1 - (1 - 1/k)^N)`: the sum of those weights. -/
theorem C156_expected_count {k : Nat} (hk : 1 ≤ k) (hk2 : k < 2 ^ 31) (garbage : List ℝ) (hg : garbage.length = k)
    (x : Nat → ℝ) (N : Nat) :
    Integrable (fun ω => (recentCount k garbage x N ω : ℝ)) ∧
    ∫ ω, (recentCount k garbage x N ω : ℝ) = k * (1 - (1 - 1 / (k : ℝ)) ^ N) := by
  obtain ⟨gp, h1, h2⟩ := recentCount_sum hk hk2 garbage hg x N
  rw [show (fun ω => (recentCount k garbage x N ω : ℝ)) = fun ω =>
      (((walk (gp, 0) (estep k) N ω).1.take (walk (gp, 0) (estep k) N ω).2).map fun _ => (1 : ℝ)).sum from
    funext fun ω => (h2 ω).1]
  have h3 := integral_recentSum hk hk2 gp h1 (fun _ => 1) N
  exact ⟨h3.1, h3.2.trans (weights hk N)⟩

/-- **C156** The reservoir is full after `N` adds except with probability at most `k (1 - 1/k)^N`. -/
theorem C156_full {k : Nat} (hk : 1 ≤ k) (hk2 : k < 2 ^ 31) (garbage : List ℝ) (hg : garbage.length = k)
    (x : Nat → ℝ) (N : Nat) :
    volume {ω : Draws N | recentCount k garbage x N ω ≠ k} ≤ ENNReal.ofReal (k * (1 - 1 / (k : ℝ)) ^ N) := by
  obtain ⟨gp, h1, h2⟩ := recentCount_sum hk hk2 garbage hg x N
  obtain ⟨h3, h4⟩ := C156_expected_count hk hk2 garbage hg x N
  have hi : Integrable (fun ω : Draws N => (k : ℝ) - recentCount k garbage x N ω) := (integrable_const _).sub h3
  have h5 : ∫ ω : Draws N, ((k : ℝ) - recentCount k garbage x N ω) = k * (1 - 1 / (k : ℝ)) ^ N := by
    rw [integral_sub (integrable_const _) h3, h4, integral_const]
    simp only [probReal_univ, one_smul]
    ring
  have hnn : 0 ≤ᵐ[volume] fun ω : Draws N => (k : ℝ) - recentCount k garbage x N ω :=
    Filter.Eventually.of_forall fun ω => by
      have : (recentCount k garbage x N ω : ℝ) ≤ k := by exact_mod_cast (h2 ω).2
      simpa using this
  have h6 := mul_meas_ge_le_integral_of_nonneg hnn hi 1
  rw [one_mul, h5] at h6
  have h7 : {ω : Draws N | recentCount k garbage x N ω ≠ k} ⊆
      {ω : Draws N | 1 ≤ (k : ℝ) - recentCount k garbage x N ω} := by
    intro ω h
    have h8 : recentCount k garbage x N ω + 1 ≤ k := by
      have := (h2 ω).2
      simp only [Set.mem_ofPred_eq] at h
      omega
    have h9 : (recentCount k garbage x N ω : ℝ) + 1 ≤ k := by exact_mod_cast h8
    simp only [Set.mem_ofPred_eq]
    linarith
  rw [← ofReal_measureReal]
  exact ENNReal.ofReal_le_ofReal ((measureReal_mono (s₂ := _) h7).trans h6)

/-- two slots, three numbers: the newest weighs 1, the one before 1/2, the oldest 1/4 -/
example (x : Nat → ℝ) : ∫ ω, recentSum 2 [0, 0] x 3 ω = 1 / 4 * x 0 + 1 / 2 * x 1 + x 2 := by
  rw [(C156_weighted_sum (k := 2) (by norm_num) (by norm_num) [0, 0] rfl x 3).2]
  simp only [Finset.sum_range_succ, Finset.sum_range_zero]
  norm_num

example (x : Nat → ℝ) : ∫ ω, (recentCount 2 [0, 0] x 3 ω : ℝ) = 7 / 4 := by
  rw [(C156_expected_count (k := 2) (by norm_num) (by norm_num) [0, 0] rfl x 3).2]
  norm_num

end Orp.Reservoir
