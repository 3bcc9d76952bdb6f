import Verif.Metrics.Props
import Mathlib.Probability.StrongLaw
import Mathlib.Probability.Moments.SubGaussian
import Mathlib.Probability.Independence.InfinitePi

/-!
Property C155: the scores of the metrics estimate the error probability and Cohen's kappa of the law of the (truth, prediction) pairs.
-/

namespace Orp.Metrics

open Spec
open Filter hiding bind
open MeasureTheory ProbabilityTheory Topology Finset

set_option linter.unusedSectionVars false

variable {L : Nat}

/-! ### Specification -/

/-- the calls of `update` for the first `n` pairs of a stream of (truth, prediction) pairs -/
def updates (z : Nat → Fin L × Fin L) (n : Nat) : List Op := (List.range n).map fun k => .update ((z k).1.1 : Int) ((z k).2.1 : Int)

section Law

variable {Ω : Type} [MeasurableSpace Ω]

/-- the probability of a wrong prediction -/
noncomputable def errorProb (μ : Measure Ω) (Z : Ω → Fin L × Fin L) : ℝ := μ.real {ω | (Z ω).1 ≠ (Z ω).2}

/-- the probability that truth and prediction would agree if they were independent, with the same distributions -/
noncomputable def chanceProb (μ : Measure Ω) (Z : Ω → Fin L × Fin L) : ℝ := ∑ i, μ.real {ω | (Z ω).1 = i} * μ.real {ω | (Z ω).2 = i}

/-- Cohen's kappa of the law of the pairs -/
noncomputable def trueKappa (μ : Measure Ω) (Z : Ω → Fin L × Fin L) : ℝ := (1 - errorProb μ Z - chanceProb μ Z) / (1 - chanceProb μ Z)

end Law

/-! ### Counts -/

theorem updates_succ (z : Nat → Fin L × Fin L) (n : Nat) : updates z (n + 1) = updates z n ++ [.update ((z n).1.1 : Int) ((z n).2.1 : Int)] := by
  simp [updates, List.range_succ]

theorem updates_since (z : Nat → Fin L × Fin L) (n : Nat) : sinceReset (updates z n) = updates z n := by
  have hw : ∀ (p : Op → Bool) (l : List Op), (∀ o ∈ l, p o = true) → l.takeWhile p = l := by
    intro p l
    induction l with
    | nil => intro _; rfl
    | cons a l ih => intro hl; rw [List.takeWhile_cons, if_pos (hl a List.mem_cons_self), ih fun o ho => hl o (List.mem_cons_of_mem _ ho)]
  rw [sinceReset, hw _ _ ?_, List.reverse_reverse]
  intro o ho
  simp only [updates, List.mem_reverse, List.mem_map] at ho
  obtain ⟨k, -, rfl⟩ := ho
  rfl

theorem updates_items (z : Nat → Fin L × Fin L) : ∀ n, allItems (updates z n) = n
  | 0 => rfl
  | n + 1 => by
      have := updates_items z n
      simp only [allItems] at this ⊢
      rw [updates_succ, List.map_append, List.sum_append, this]
      simp [items]

theorem updates_errors (z : Nat → Fin L × Fin L) : ∀ n, (allErrors (updates z n) : ℝ) = ∑ k ∈ range n, if (z k).1 ≠ (z k).2 then (1 : ℝ) else 0
  | 0 => by simp [allErrors, updates]
  | n + 1 => by
      have := updates_errors z n
      simp only [allErrors] at this ⊢
      rw [updates_succ, List.map_append, List.sum_append, Nat.cast_add, this, Finset.sum_range_succ]
      congr 1
      have e : (((z n).1.1 : Nat) : Int) = ((z n).2.1 : Int) ↔ (z n).1 = (z n).2 := by rw [Nat.cast_inj, Fin.ext_iff]
      by_cases c : (z n).1 = (z n).2
      · simp [errors, c]
      · rw [if_pos c]
        have : ¬ (((z n).1.1 : Nat) : Int) = ((z n).2.1 : Int) := fun h => c (e.1 h)
        simp [errors, this]

/-- the first `n` pairs -/
def firstPairs (z : Nat → Fin L × Fin L) (n : Nat) : List (Nat × Nat) := (List.range n).map fun k => ((z k).1.1, (z k).2.1)

theorem updates_recorded (z : Nat → Fin L × Fin L) (n : Nat) : recorded (updates z n) = firstPairs z n := by
  rw [recorded, updates_since]
  induction n with
  | zero => rfl
  | succ n ih =>
      rw [updates_succ, List.flatMap_append, ih]
      simp [firstPairs, List.range_succ, pairsOf]

theorem updates_valid (z : Nat → Fin L × Fin L) (n : Nat) : ∀ o ∈ updates z n, ValidOp L o := by
  intro o ho
  simp only [updates, List.mem_map] at ho
  obtain ⟨k, -, rfl⟩ := ho
  have h1 := (z k).1.2
  have h2 := (z k).2.2
  simp only [ValidOp]
  omega

theorem filter_first (z : Nat → Fin L × Fin L) (P : Nat × Nat → Bool) : ∀ n,
    ((((firstPairs z n).filter P).length : Nat) : ℝ) = ∑ k ∈ range n, if P ((z k).1.1, (z k).2.1) = true then (1 : ℝ) else 0
  | 0 => by simp [firstPairs]
  | n + 1 => by
      have e : firstPairs z (n + 1) = firstPairs z n ++ [((z n).1.1, (z n).2.1)] := by simp [firstPairs, List.range_succ]
      rw [e, List.filter_append, List.length_append, Nat.cast_add, filter_first z P n, Finset.sum_range_succ]
      congr 1
      by_cases c : P ((z n).1.1, (z n).2.1) = true <;> simp [c]

/-- the score after `n` pairs is the share of the wrong predictions -/
theorem score_eq (z : Nat → Fin L × Fin L) {n : Nat} (hn : 1 ≤ n) :
    ∃ e : ℚ, ((updates z n).foldl ErrState.apply {}).score false = some e ∧ (e : ℝ) = (∑ k ∈ range n, if (z k).1 ≠ (z k).2 then (1 : ℝ) else 0) / n := by
  obtain ⟨e, -, h1, -, h2, -⟩ := C34_error_rate (updates z n) (by rw [updates_since, updates_items]; exact hn)
  refine ⟨e, h1, ?_⟩
  rw [h2, updates_since, updates_items, ← updates_errors]
  push_cast
  rfl

/-! ### The property -/

section Law

variable {Ω : Type} [MeasurableSpace Ω] {μ : Measure Ω} [IsProbabilityMeasure μ] {Z : Nat → Ω → Fin L × Fin L}
  (hZ : ∀ i, Measurable (Z i)) (hindep : iIndepFun Z μ) (hident : ∀ i, IdentDistrib (Z i) (Z 0) μ μ)

include hZ hindep hident in
/-- averages over the stream converge to probabilities -/
theorem share_ae (P : Fin L × Fin L → Prop) [DecidablePred P] :
    ∀ᵐ ω ∂μ, Tendsto (fun n : Nat => (∑ k ∈ range n, if P (Z k ω) then (1 : ℝ) else 0) / n) atTop (𝓝 (μ.real {ω | P (Z 0 ω)})) := by
  set g : Fin L × Fin L → ℝ := fun s => if P s then 1 else 0 with hg
  have hm : MeasurableSet {s : Fin L × Fin L | P s} := DiscreteMeasurableSpace.forall_measurableSet _
  have hgm : Measurable g := Measurable.ite hm measurable_const measurable_const
  have e : (fun ω => g (Z 0 ω)) = (Z 0 ⁻¹' {s | P s}).indicator fun _ => (1 : ℝ) := by
    funext ω
    simp only [hg, Set.indicator, Set.mem_preimage, Set.mem_ofPred_eq]
  have hint : Integrable (fun ω => g (Z 0 ω)) μ := by rw [e]; exact (integrable_const _).indicator (hZ 0 hm)
  have h := strong_law_ae_real (fun k ω => g (Z k ω)) hint (fun i j hij => (hindep.indepFun hij).comp hgm hgm) fun k => (hident k).comp hgm
  have e2 : ∫ ω, g (Z 0 ω) ∂μ = μ.real {ω | P (Z 0 ω)} := by
    rw [e, integral_indicator (hZ 0 hm), setIntegral_const, smul_eq_mul, mul_one]
    rfl
  rw [e2] at h
  exact h

include hZ hindep hident in
/-- **C155, error rate, any number of pairs.** After `n` independent pairs of the same law, the score of `ErrorMetrics` is wrong by `t` or more, as an estimate of the probability of a wrong
prediction, with probability at most `2 exp(-2 n t^2)`. -/
theorem C155_error {n : Nat} (hn : 1 ≤ n) {t : ℝ} (ht : 0 ≤ t) :
    μ.real {ω | ¬ ∃ e : ℚ, ((updates (fun k => Z k ω) n).foldl ErrState.apply {}).score false = some e ∧ |(e : ℝ) - errorProb μ (Z 0)| < t} ≤ 2 * Real.exp (-2 * n * t ^ 2) := by
  have hn0 : (0 : ℝ) < n := by exact_mod_cast hn
  set g : Fin L × Fin L → ℝ := fun s => if s.1 ≠ s.2 then 1 else 0 with hg
  have hm : MeasurableSet {s : Fin L × Fin L | s.1 ≠ s.2} := DiscreteMeasurableSpace.forall_measurableSet _
  have hgm : Measurable g := measurable_of_countable g
  have hmean : ∀ k, ∫ ω, g (Z k ω) ∂μ = errorProb μ (Z 0) := by
    intro k
    refine ((hident k).comp hgm).integral_eq.trans ?_
    have e : (g ∘ Z 0) = (Z 0 ⁻¹' {s | s.1 ≠ s.2}).indicator fun _ => (1 : ℝ) := by
      funext ω
      simp only [hg, Function.comp_apply, Set.indicator, Set.mem_preimage, Set.mem_ofPred_eq]
    rw [e, integral_indicator (hZ 0 hm), setIntegral_const, smul_eq_mul, mul_one]
    rfl
  have hsub : ∀ k, HasSubgaussianMGF (fun ω => g (Z k ω) - errorProb μ (Z 0)) ((‖(1 : ℝ) - 0‖₊ / 2) ^ 2) μ := by
    intro k
    have h := hasSubgaussianMGF_of_mem_Icc (μ := μ) (X := fun ω => g (Z k ω)) (a := 0) (b := 1) (hgm.comp (hZ k)).aemeasurable
      (Eventually.of_forall fun ω => by simp only [hg]; split <;> simp)
    rw [hmean k] at h
    exact h
  have hind : iIndepFun (fun k ω => g (Z k ω) - errorProb μ (Z 0)) μ :=
    hindep.comp (fun _ s => g s - errorProb μ (Z 0)) fun _ => hgm.sub_const _
  have hindn : iIndepFun (fun k ω => -(g (Z k ω) - errorProb μ (Z 0))) μ :=
    hindep.comp (fun _ s => -(g s - errorProb μ (Z 0))) fun _ => (hgm.sub_const _).neg
  have h1 := HasSubgaussianMGF.measure_sum_range_ge_le_of_iIndepFun hind (n := n) (fun i _ => hsub i) (ε := n * t) (by positivity)
  have h2 := HasSubgaussianMGF.measure_sum_range_ge_le_of_iIndepFun hindn (n := n) (fun i _ => (hsub i).neg) (ε := n * t) (by positivity)
  have hexp : -(n * t) ^ 2 / (2 * n * (((‖(1 : ℝ) - 0‖₊ / 2) ^ 2 : NNReal) : ℝ)) = -2 * n * t ^ 2 := by
    simp only [sub_zero, nnnorm_one]
    push_cast
    field_simp
  rw [hexp] at h1 h2
  refine (measureReal_mono (s₂ := {ω | n * t ≤ ∑ k ∈ range n, (g (Z k ω) - errorProb μ (Z 0))} ∪ {ω | n * t ≤ ∑ k ∈ range n, -(g (Z k ω) - errorProb μ (Z 0))}) ?_).trans
    ((measureReal_union_le _ _).trans (by linarith))
  intro ω hω
  simp only [Set.mem_ofPred_eq, not_exists, not_and, not_lt] at hω
  obtain ⟨e, e1, e2⟩ := score_eq (fun k => Z k ω) hn
  have h := hω e e1
  have hs : ∑ k ∈ range n, (g (Z k ω) - errorProb μ (Z 0)) = n * ((e : ℝ) - errorProb μ (Z 0)) := by
    rw [Finset.sum_sub_distrib, e2]
    simp only [hg, Finset.sum_const, Finset.card_range, nsmul_eq_mul]
    field_simp
  rcases le_abs.1 h with c | c
  · left
    simp only [Set.mem_ofPred_eq]
    rw [hs]
    exact mul_le_mul_of_nonneg_left c hn0.le
  · right
    simp only [Set.mem_ofPred_eq]
    rw [Finset.sum_neg_distrib, hs, ← mul_neg]
    exact mul_le_mul_of_nonneg_left c hn0.le

include hZ hindep hident in
/-- **C155, error rate, in the limit.** Almost surely the score converges to the probability of a wrong prediction. -/
theorem C155_error_limit : ∀ᵐ ω ∂μ, ∀ ε > 0, ∀ᶠ n in atTop, ∃ e : ℚ, ((updates (fun k => Z k ω) n).foldl ErrState.apply {}).score false = some e ∧
    |(e : ℝ) - errorProb μ (Z 0)| < ε := by
  filter_upwards [share_ae hZ hindep hident (fun s => s.1 ≠ s.2)] with ω hω ε hε
  filter_upwards [Metric.tendsto_nhds.1 hω ε hε, eventually_ge_atTop 1] with n h1 h2
  obtain ⟨e, e1, e2⟩ := score_eq (fun k => Z k ω) h2
  refine ⟨e, e1, ?_⟩
  rw [e2, errorProb]
  rw [Real.dist_eq] at h1
  exact h1

include hZ hindep hident in
/-- **C155, kappa.** If truth and prediction are not constantly the same label, `kappa` of `KappaMetrics` is almost surely a number after all but finitely many numbers of pairs and converges to Cohen's
kappa of the law of the pairs. -/
theorem C155_kappa (hc : chanceProb μ (Z 0) ≠ 1) : ∀ᵐ ω ∂μ, ∀ ε > 0, ∀ᶠ n in atTop, ∃ (s : KappaState) (k : ℚ),
    KappaState.init.run L (updates (fun k => Z k ω) n) = .ok s ∧ s.kappa L = some k ∧ |(k : ℝ) - trueKappa μ (Z 0)| < ε := by
  have hT : ∀ᵐ ω ∂μ, ∀ i : Fin L, Tendsto (fun n : Nat => (∑ k ∈ range n, if (Z k ω).1 = i then (1 : ℝ) else 0) / n) atTop (𝓝 (μ.real {ω | (Z 0 ω).1 = i})) :=
    ae_all_iff.2 fun i => share_ae hZ hindep hident (fun s => s.1 = i)
  have hP : ∀ᵐ ω ∂μ, ∀ i : Fin L, Tendsto (fun n : Nat => (∑ k ∈ range n, if (Z k ω).2 = i then (1 : ℝ) else 0) / n) atTop (𝓝 (μ.real {ω | (Z 0 ω).2 = i})) :=
    ae_all_iff.2 fun i => share_ae hZ hindep hident (fun s => s.2 = i)
  have hagree : μ.real {ω | (Z 0 ω).1 = (Z 0 ω).2} = 1 - errorProb μ (Z 0) := by
    have hm : MeasurableSet {ω | (Z 0 ω).1 = (Z 0 ω).2} := hZ 0 (DiscreteMeasurableSpace.forall_measurableSet {s : Fin L × Fin L | s.1 = s.2})
    have := probReal_compl_eq_one_sub (μ := μ) hm
    rw [errorProb]
    have e : {ω | (Z 0 ω).1 ≠ (Z 0 ω).2} = {ω | (Z 0 ω).1 = (Z 0 ω).2}ᶜ := rfl
    rw [e, this]
    ring
  filter_upwards [share_ae hZ hindep hident (fun s => s.1 = s.2), hT, hP] with ω w1 w2 w3 ε hε
  rw [hagree] at w1
  set z : Nat → Fin L × Fin L := fun k => Z k ω with hz
  have hlen : ∀ n, (firstPairs z n).length = n := fun n => by simp [firstPairs]
  have hpo : ∀ n, ((po (firstPairs z n) : ℚ) : ℝ) = (∑ k ∈ range n, if (Z k ω).1 = (Z k ω).2 then (1 : ℝ) else 0) / n := by
    intro n
    have h := filter_first z (fun x => decide (x.1 = x.2)) n
    rw [po, hlen]
    push_cast
    rw [h]
    congr 1
    refine Finset.sum_congr rfl fun k _ => ?_
    simp only [hz, decide_eq_true_eq, Fin.ext_iff]
  have hft : ∀ n (i : Fin L), ((freqTruth (firstPairs z n) i.1 : ℚ) : ℝ) = (∑ k ∈ range n, if (Z k ω).1 = i then (1 : ℝ) else 0) / n := by
    intro n i
    have h := filter_first z (fun x => decide (x.1 = i.1)) n
    rw [freqTruth, hlen]
    push_cast
    rw [h]
    congr 1
    refine Finset.sum_congr rfl fun k _ => ?_
    simp only [hz, decide_eq_true_eq, Fin.ext_iff]
  have hfp : ∀ n (i : Fin L), ((freqPred (firstPairs z n) i.1 : ℚ) : ℝ) = (∑ k ∈ range n, if (Z k ω).2 = i then (1 : ℝ) else 0) / n := by
    intro n i
    have h := filter_first z (fun x => decide (x.2 = i.1)) n
    rw [freqPred, hlen]
    push_cast
    rw [h]
    congr 1
    refine Finset.sum_congr rfl fun k _ => ?_
    simp only [hz, decide_eq_true_eq, Fin.ext_iff]
  have hpe : Tendsto (fun n => ((pe L (firstPairs z n) : ℚ) : ℝ)) atTop (𝓝 (chanceProb μ (Z 0))) := by
    have : ∀ n, ((pe L (firstPairs z n) : ℚ) : ℝ) = ∑ i : Fin L, ((freqTruth (firstPairs z n) i.1 : ℚ) : ℝ) * ((freqPred (firstPairs z n) i.1 : ℚ) : ℝ) := by
      intro n
      rw [pe, Finset.sum_range]
      push_cast
      rfl
    simp only [this, hft, hfp]
    exact tendsto_finsetSum _ fun i _ => (w2 i).mul (w3 i)
  have hkap : Tendsto (fun n => (((po (firstPairs z n) : ℚ) : ℝ) - ((pe L (firstPairs z n) : ℚ) : ℝ)) / (1 - ((pe L (firstPairs z n) : ℚ) : ℝ))) atTop (𝓝 (trueKappa μ (Z 0))) := by
    refine Tendsto.div (Tendsto.sub ?_ hpe) (tendsto_const_nhds.sub hpe) (sub_ne_zero.2 hc.symm)
    simp only [hpo]
    exact w1
  filter_upwards [Metric.tendsto_nhds.1 hkap ε hε, hpe.eventually_ne hc, eventually_ge_atTop 1] with n k1 k2 k3
  have hne : recorded (updates z n) ≠ [] := by
    rw [updates_recorded]
    intro h
    have := hlen n
    rw [h] at this
    simp at this
    omega
  obtain ⟨s, r1, r2, r3⟩ := C35_kappa L (updates z n) (updates_valid z n) hne
  rw [updates_recorded] at r2 r3
  cases hk : s.kappa L with
  | none =>
      exfalso
      obtain ⟨a, ha⟩ := r2.1 hk
      have hn0 : ((n : Nat) : ℚ) ≠ 0 := by exact_mod_cast (by omega : n ≠ 0)
      have ha0 : a < L := by
        have h0 : ((z 0).1.1, (z 0).2.1) ∈ firstPairs z n := by
          simp only [firstPairs, List.mem_map, List.mem_range]
          exact ⟨0, by omega, rfl⟩
        have h1 := ha _ h0
        have h2 : (z 0).1.1 = a := congrArg Prod.fst h1
        rw [← h2]
        exact (z 0).1.2
      have hall : ∀ (P : Nat × Nat → Bool), ((firstPairs z n).filter P).length = if P (a, a) then n else 0 := by
        intro P
        by_cases c : P (a, a) = true
        · rw [if_pos c, List.filter_eq_self.2 fun x hx => by rw [ha x hx]; exact c, hlen]
        · rw [if_neg c, List.filter_eq_nil_iff.2 fun x hx => by rw [ha x hx]; exact c]
          rfl
      have h1 : pe L (firstPairs z n) = 1 := by
        rw [pe, Finset.sum_eq_single a]
        · simp [freqTruth, freqPred, hall, hlen, hn0]
        · intro b _ hb
          have : ¬ a = b := fun e => hb e.symm
          simp [freqTruth, hall, this]
        · intro h
          exact absurd (Finset.mem_range.2 ha0) h
      rw [h1] at k2
      exact k2 (by norm_num)
  | some k =>
      obtain ⟨hk', -⟩ := r3 k hk
      refine ⟨s, k, r1, hk, ?_⟩
      rw [hk']
      push_cast
      simpa only [Real.dist_eq] using k1

end Law

/-! ### Example -/

/-- truth 0 with prediction 0, truth 1 with prediction 1 and truth 1 with prediction 0, twice as often as the others -/
noncomputable def quarterLaw : Measure (Fin 2 × Fin 2) := (4⁻¹ : ENNReal) • (Measure.dirac (0, 0) + Measure.dirac (1, 1) + Measure.dirac (1, 0) + Measure.dirac (1, 0))

theorem quarterLaw_prob : IsProbabilityMeasure quarterLaw := ⟨by
  simp only [quarterLaw, Measure.smul_apply, Measure.add_apply, measure_univ, smul_eq_mul]
  norm_num
  exact ENNReal.inv_mul_cancel (by norm_num) (by norm_num)⟩

/-- a stream of such pairs -/
noncomputable def quarterStream : Measure (Nat → Fin 2 × Fin 2) := haveI := quarterLaw_prob; Measure.infinitePi fun _ => quarterLaw

theorem quarterStream_real (A : Set (Fin 2 × Fin 2)) [DecidablePred (· ∈ A)] : quarterStream.real {ω | ω 0 ∈ A} =
    ((if (0, 0) ∈ A then 1 else 0) + (if (1, 1) ∈ A then 1 else 0) + (if (1, 0) ∈ A then 2 else 0)) / 4 := by
  haveI := quarterLaw_prob
  have hm : MeasurableSet A := DiscreteMeasurableSpace.forall_measurableSet _
  have e : quarterStream.real {ω | ω 0 ∈ A} = quarterLaw.real A := by
    rw [Measure.real, Measure.real, ← (measurePreserving_eval_infinitePi (fun _ : Nat => quarterLaw) 0).measure_preimage hm.nullMeasurableSet]
    rfl
  rw [e, Measure.real, quarterLaw, Measure.smul_apply, Measure.add_apply, Measure.add_apply, Measure.add_apply, Measure.dirac_apply' _ hm, Measure.dirac_apply' _ hm, Measure.dirac_apply' _ hm]
  simp only [Set.indicator, Pi.one_apply, smul_eq_mul, ENNReal.toReal_mul]
  split <;> split <;> split <;> norm_num

/-- For this stream the error rate is within 1/10 of 1/2 after 200 pairs except with probability `2 exp(-4)`, and kappa converges to 1/5. -/
example : quarterStream.real {ω | ¬ ∃ e : ℚ, ((updates ω 200).foldl ErrState.apply {}).score false = some e ∧ |(e : ℝ) - 1 / 2| < 1 / 10} ≤ 2 * Real.exp (-4) ∧
    ∀ᵐ ω ∂quarterStream, ∀ ε > 0, ∀ᶠ n in atTop, ∃ (s : KappaState) (k : ℚ), KappaState.init.run 2 (updates ω n) = .ok s ∧ s.kappa 2 = some k ∧ |(k : ℝ) - 1 / 5| < ε := by
  classical
  haveI := quarterLaw_prob
  haveI : IsProbabilityMeasure quarterStream := by unfold quarterStream; infer_instance
  have hpres : ∀ i, MeasurePreserving (fun ω : Nat → Fin 2 × Fin 2 => ω i) quarterStream quarterLaw := fun i => measurePreserving_eval_infinitePi _ i
  have hI : ∀ i, IdentDistrib (fun ω : Nat → Fin 2 × Fin 2 => ω i) (fun ω => ω 0) quarterStream quarterStream := fun i =>
    ⟨(measurable_pi_apply i).aemeasurable, (measurable_pi_apply 0).aemeasurable, by rw [(hpres i).map_eq, (hpres 0).map_eq]⟩
  have hind : iIndepFun (fun i (ω : Nat → Fin 2 × Fin 2) => ω i) quarterStream :=
    iIndepFun_infinitePi (P := fun _ : Nat => quarterLaw) (X := fun _ s => s) fun _ => measurable_id
  have he : errorProb quarterStream (fun ω => ω 0) = 1 / 2 := by
    have h := quarterStream_real {s | s.1 ≠ s.2}
    simp only [Set.mem_ofPred_eq] at h
    rw [errorProb, h]
    norm_num
  have h1 : ∀ i : Fin 2, quarterStream.real {ω | (ω 0).1 = i} = if i = 0 then 1 / 4 else 3 / 4 := by
    intro i
    have h := quarterStream_real {s | s.1 = i}
    simp only [Set.mem_ofPred_eq] at h
    rw [h]
    fin_cases i <;> norm_num
  have h2 : ∀ i : Fin 2, quarterStream.real {ω | (ω 0).2 = i} = if i = 0 then 3 / 4 else 1 / 4 := by
    intro i
    have h := quarterStream_real {s | s.2 = i}
    simp only [Set.mem_ofPred_eq] at h
    rw [h]
    fin_cases i <;> norm_num
  have hch : chanceProb quarterStream (fun ω => ω 0) = 3 / 8 := by
    simp only [chanceProb, h1, h2, Fin.sum_univ_two]
    norm_num
  have hk : trueKappa quarterStream (fun ω => ω 0) = 1 / 5 := by
    rw [trueKappa, he, hch]
    norm_num
  constructor
  · have h := C155_error (Z := fun i (ω : Nat → Fin 2 × Fin 2) => ω i) (fun i => measurable_pi_apply i) hind hI (n := 200) (by norm_num) (t := 1 / 10) (by norm_num)
    rw [he] at h
    refine h.trans (le_of_eq ?_)
    norm_num
  · have h := C155_kappa (Z := fun i (ω : Nat → Fin 2 × Fin 2) => ω i) (fun i => measurable_pi_apply i) hind hI (by rw [hch]; norm_num)
    rw [hk] at h
    exact h

end Orp.Metrics
