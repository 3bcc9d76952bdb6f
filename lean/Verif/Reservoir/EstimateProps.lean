import Verif.Reservoir.Estimate

/-!
Property C152: estimates from the reservoir.
-/

namespace Orp.Reservoir

open MeasureTheory Set

/-- **C152** The mean of the numbers in the reservoir is an unbiased estimate of the mean of the stream. -/
theorem C152_unbiased {k : Nat} (hk : 1 ≤ k) (garbage : List ℝ) (hg : garbage.length = k) (x : Nat → ℝ) {N : Nat}
    (hkN : k ≤ N) (hN : N < 2 ^ 32) :
    Integrable (estimate k garbage x N) ∧ ∫ ω, estimate k garbage x N ω = streamMean x N := by
  obtain ⟨gp, h1, h2⟩ := estimate_eq hk garbage hg x hkN hN
  have h3 := integral_sample hk gp h1 hkN hN (fun A => (∑ p ∈ A, x p) / k)
  have hfun : estimate k garbage x N = fun ω => (∑ p ∈ (walk gp (pstep k) N ω).toFinset, x p) / k := funext h2
  rw [hfun]
  refine ⟨h3.1, h3.2.trans ?_⟩
  rw [← Finset.sum_div, sum_first N k hk hkN x, streamMean]
  have hc : (0 : ℝ) < (N.choose k : ℝ) := by exact_mod_cast Nat.choose_pos hkN
  have hkp : (0 : ℝ) < k := by exact_mod_cast hk
  have hNp : (0 : ℝ) < N := by exact_mod_cast (by omega : 0 < N)
  field_simp

/-- **C152** The expected squared error of the estimate is exactly that of a simple random sample without replacement. -/
theorem C152_variance {k : Nat} (hk : 1 ≤ k) (garbage : List ℝ) (hg : garbage.length = k) (x : Nat → ℝ) {N : Nat}
    (hkN : k ≤ N) (hN : N < 2 ^ 32) (hN2 : 2 ≤ N) :
    Integrable (fun ω => (estimate k garbage x N ω - streamMean x N) ^ 2) ∧
    ∫ ω, (estimate k garbage x N ω - streamMean x N) ^ 2 =
      streamVariance x N / k * (((N : ℝ) - k) / ((N : ℝ) - 1)) := by
  obtain ⟨gp, h1, h2⟩ := estimate_eq hk garbage hg x hkN hN
  have hc : (0 : ℝ) < (N.choose k : ℝ) := by exact_mod_cast Nat.choose_pos hkN
  have hkp : (0 : ℝ) < k := by exact_mod_cast hk
  have hNp : (0 : ℝ) < N := by exact_mod_cast (by omega : 0 < N)
  have hN1 : (0 : ℝ) < (N : ℝ) - 1 := by
    have : (2 : ℝ) ≤ N := by exact_mod_cast hN2
    linarith
  have hy : ∑ i ∈ Finset.range N, (x i - streamMean x N) = 0 := by
    rw [Finset.sum_sub_distrib, Finset.sum_const, Finset.card_range, nsmul_eq_mul, streamMean]
    field_simp
    ring
  have h3 := integral_sample hk gp h1 hkN hN (fun A => ((∑ p ∈ A, (x p - streamMean x N)) / k) ^ 2)
  have hfun : (fun ω => (estimate k garbage x N ω - streamMean x N) ^ 2) =
      fun ω => ((∑ p ∈ (walk gp (pstep k) N ω).toFinset, (x p - streamMean x N)) / k) ^ 2 := by
    funext ω
    obtain ⟨f1, f2, _, _⟩ := walk_facts hk gp h1 N hN hkN ω
    rw [h2 ω, Finset.sum_sub_distrib, Finset.sum_const, List.toFinset_card_of_nodup f2, f1, nsmul_eq_mul]
    congr 1
    field_simp
  rw [hfun]
  refine ⟨h3.1, h3.2.trans ?_⟩
  simp only [div_pow]
  rw [← Finset.sum_div, sum_second N k hk hkN hN2 _ hy, streamVariance]
  field_simp

/-- **C152** So the estimate is as good as the sample is large: an error of `δ` or more has probability at most the variance of
the stream over `k δ²`, whatever the length of the stream. -/
theorem C152_close {k : Nat} (hk : 1 ≤ k) (garbage : List ℝ) (hg : garbage.length = k) (x : Nat → ℝ) {N : Nat}
    (hkN : k ≤ N) (hN : N < 2 ^ 32) {δ : ℝ} (hδ : 0 < δ) :
    volume {ω : Draws N | δ ≤ |estimate k garbage x N ω - streamMean x N|} ≤
      ENNReal.ofReal (streamVariance x N / (k * δ ^ 2)) := by
  have hkp : (0 : ℝ) < k := by exact_mod_cast hk
  have hNp : (0 : ℝ) < N := by exact_mod_cast (by omega : 0 < N)
  have hv : 0 ≤ streamVariance x N := div_nonneg (Finset.sum_nonneg fun i _ => sq_nonneg _) hNp.le
  rcases Nat.lt_or_ge N 2 with h1 | hN2
  · -- a single item: no error
    obtain rfl : N = 1 := by omega
    obtain rfl : k = 1 := by omega
    obtain ⟨gp, e1, e2⟩ := estimate_eq hk garbage hg x hkN hN
    have : {ω : Draws 1 | δ ≤ |estimate 1 garbage x 1 ω - streamMean x 1|} = ∅ := by
      ext ω
      simp only [Set.mem_ofPred_eq, mem_empty_iff_false, iff_false, not_le]
      obtain ⟨_, _, _, f4⟩ := walk_facts hk gp e1 1 hN hkN ω
      rw [e2 ω, f4 rfl, streamMean]
      simpa using hδ
    rw [this]; simp
  · obtain ⟨hi, he⟩ := C152_variance hk garbage hg x hkN hN hN2
    have hN1 : (0 : ℝ) < (N : ℝ) - 1 := by
      have : (2 : ℝ) ≤ N := by exact_mod_cast hN2
      linarith
    have hm := mul_meas_ge_le_integral_of_nonneg (μ := (volume : Measure (Draws N)))
      (Filter.Eventually.of_forall fun ω => sq_nonneg (estimate k garbage x N ω - streamMean x N)) hi (δ ^ 2)
    rw [he] at hm
    have hset : {ω : Draws N | δ ≤ |estimate k garbage x N ω - streamMean x N|} =
        {ω : Draws N | δ ^ 2 ≤ (estimate k garbage x N ω - streamMean x N) ^ 2} := by
      ext ω
      simp only [Set.mem_ofPred_eq]
      rw [sq_le_sq, abs_of_pos hδ]
    rw [hset, ← ENNReal.ofReal_toReal (measure_ne_top volume {ω : Draws N | δ ^ 2 ≤
      (estimate k garbage x N ω - streamMean x N) ^ 2})]
    apply ENNReal.ofReal_le_ofReal
    have hm' : δ ^ 2 * (volume {ω : Draws N | δ ^ 2 ≤ (estimate k garbage x N ω - streamMean x N) ^ 2}).toReal ≤
        streamVariance x N / k * (((N : ℝ) - k) / ((N : ℝ) - 1)) := hm
    have hle : ((N : ℝ) - k) / ((N : ℝ) - 1) ≤ 1 := by
      rw [div_le_one hN1]
      have : (1 : ℝ) ≤ k := by exact_mod_cast hk
      linarith
    have h5 : streamVariance x N / k * (((N : ℝ) - k) / ((N : ℝ) - 1)) ≤ streamVariance x N / k :=
      mul_le_of_le_one_right (div_nonneg hv hkp.le) hle
    rw [le_div_iff₀ (by positivity)]
    have h6 := hm'.trans h5
    rw [le_div_iff₀ hkp] at h6
    linarith

/-- two of the three numbers 0, 1, 5: the means 1/2, 5/2 and 3 have mean 2 and variance 7/6 -/
example : ∫ ω : Draws 3, estimate 2 [0, 0] (fun i => if i = 0 then 0 else if i = 1 then 1 else 5) 3 ω = 2 ∧
    ∫ ω : Draws 3, (estimate 2 [0, 0] (fun i => if i = 0 then 0 else if i = 1 then 1 else 5) 3 ω -
      streamMean (fun i => if i = 0 then 0 else if i = 1 then 1 else 5) 3) ^ 2 = 7 / 6 := by
  constructor
  · rw [(C152_unbiased (k := 2) (by omega) [0, 0] rfl _ (by omega) (by omega)).2]
    norm_num [streamMean, Finset.sum_range_succ]
  · rw [(C152_variance (k := 2) (by omega) [0, 0] rfl _ (by omega) (by omega) (by omega)).2]
    norm_num [streamMean, streamVariance, Finset.sum_range_succ]

end Orp.Reservoir
