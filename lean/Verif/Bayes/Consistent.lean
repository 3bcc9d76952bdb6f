import Verif.Bayes.Decision
import Mathlib.Probability.StrongLaw
import Mathlib.Probability.Independence.InfinitePi

/-!
Property C149: on a stream of independent examples of the same law, almost surely the estimates converge to the shares, means and variances of the labels and, for every query,
the prediction is eventually the Bayes decision for them.
-/

set_option linter.unusedSectionVars false

namespace Orp.Bayes

open MeasureTheory ProbabilityTheory Filter Topology Finset

/-! ### Specification -/

/-- an example: the values of the features and the label -/
abbrev Sample (lc fc : Nat) : Type := (Fin fc → ℝ) × Fin lc

/-- the first `n` examples of a stream, as calls of `train` with the default weight 1 -/
def firsts {lc fc : Nat} (z : Nat → Sample lc fc) (n : Nat) : List (Ex ℝ) := (List.range n).map fun i => ⟨List.ofFn (z i).1, (z i).2, 1⟩

section Law

variable {lc fc : Nat} {Ω : Type} [MeasurableSpace Ω] (μ : Measure Ω) (Z : Ω → Sample lc fc)

/-- the probability of label `l` -/
noncomputable def share (l : Fin lc) : ℝ := μ.real {ω | (Z ω).2 = l}

/-- the mean of feature `f` of the examples with label `l` -/
noncomputable def classMean (l : Fin lc) (f : Fin fc) : ℝ := (∫ ω in {ω | (Z ω).2 = l}, (Z ω).1 f ∂μ) / share μ Z l

/-- the variance of feature `f` of the examples with label `l` -/
noncomputable def classVar (l : Fin lc) (f : Fin fc) : ℝ := (∫ ω in {ω | (Z ω).2 = l}, ((Z ω).1 f - classMean μ Z l f) ^ 2 ∂μ) / share μ Z l

/-- prior times likelihood of label `l` for the law of the examples: what the Bayes decision compares -/
noncomputable def truePosterior (x : Fin fc → ℝ) (l : Fin lc) : ℝ := share μ Z l * ∏ f, gauss (classMean μ Z l f) (classVar μ Z l f) (x f)

end Law

/-! ### Sums over the stream -/

theorem sum_range_list (g : Nat → ℝ) : ∀ n : Nat, ((List.range n).map g).sum = ∑ i ∈ range n, g i
  | 0 => rfl
  | n + 1 => by rw [List.range_succ, List.map_append, List.sum_append, sum_range_list g n, Finset.sum_range_succ]; simp

section Stream

variable {lc fc : Nat} (z : Nat → Sample lc fc)

/-- a sum over the examples with label `l` -/
noncomputable def total (l : Fin lc) (φ : (Fin fc → ℝ) → ℝ) (n : Nat) : ℝ := ∑ i ∈ range n, if (z i).2 = l then φ (z i).1 else 0

theorem total_list (l : Fin lc) (g : Ex ℝ → ℝ) (φ : (Fin fc → ℝ) → ℝ) (h : ∀ x k, g ⟨List.ofFn x, k, 1⟩ = φ x) (n : Nat) :
    (((firsts z n).filter (fun e => e.label = l.1)).map g).sum = total z l φ n := by
  rw [sum_filter, firsts, List.map_map, sum_range_list, total]
  refine Finset.sum_congr rfl fun i _ => ?_
  simp only [Function.comp_apply, h, Fin.ext_iff]

theorem getD_ofFn (x : Fin fc → ℝ) (f : Fin fc) : (List.ofFn x).getD f.1 0 = x f := by simp [List.getD]

theorem firsts_total (l : Fin lc) (n : Nat) : labelTotal (firsts z n) l.1 = total z l (fun _ => 1) n := total_list z l _ _ (fun _ _ => rfl) n

theorem firsts_mean (l : Fin lc) (f : Fin fc) (n : Nat) : labelMean (firsts z n) l.1 f.1 = total z l (fun x => x f) n / total z l (fun _ => 1) n := by
  rw [labelMean, firsts_total, total_list z l _ (fun x => x f) fun x k => by simp]

theorem total_add (l : Fin lc) (φ ψ : (Fin fc → ℝ) → ℝ) (n : Nat) : total z l (fun x => φ x + ψ x) n = total z l φ n + total z l ψ n := by
  unfold total
  rw [← Finset.sum_add_distrib]
  exact Finset.sum_congr rfl fun i _ => by split <;> simp

theorem total_mul (l : Fin lc) (c : ℝ) (φ : (Fin fc → ℝ) → ℝ) (n : Nat) : total z l (fun x => c * φ x) n = c * total z l φ n := by
  unfold total
  rw [Finset.mul_sum]
  exact Finset.sum_congr rfl fun i _ => by split <;> simp

theorem firsts_var (l : Fin lc) (f : Fin fc) (n : Nat) (h : total z l (fun _ => 1) n ≠ 0) :
    labelVar (firsts z n) l.1 f.1 = (total z l (fun x => x f ^ 2) n - total z l (fun x => x f) n ^ 2 / total z l (fun _ => 1) n) / (total z l (fun _ => 1) n - 1) := by
  rw [labelVar, firsts_total, total_list z l _ (fun x => (x f - labelMean (firsts z n) l.1 f.1) ^ 2) fun x k => by simp]
  congr 1
  set m := labelMean (firsts z n) l.1 f.1 with hm
  have e : (fun x : Fin fc → ℝ => (x f - m) ^ 2) = fun x => x f ^ 2 + ((-2 * m) * x f + m ^ 2 * 1) := by
    funext x
    ring
  rw [e, total_add z l (fun x => x f ^ 2), total_add z l (fun x => (-2 * m) * x f) (fun _ => m ^ 2 * 1), total_mul z l (-2 * m) (fun x => x f), total_mul z l (m ^ 2) (fun _ => 1)]
  rw [hm, firsts_mean]
  field_simp
  ring

theorem firsts_weights (n : Nat) : ((firsts z n).map Ex.w).sum = n := by
  rw [firsts, List.map_map, sum_range_list]
  simp

theorem firsts_fits (n : Nat) : ∀ e ∈ firsts z n, e.Fits lc fc := by
  intro e he
  obtain ⟨i, -, rfl⟩ := List.mem_map.1 he
  exact ⟨(z i).2.2, by simp⟩

theorem firsts_pos (n : Nat) : ∀ e ∈ firsts z n, 0 < e.w := by
  intro e he
  obtain ⟨i, -, rfl⟩ := List.mem_map.1 he
  exact zero_lt_one

variable {z} {l : Fin lc}

/-- the averages over the stream converge -/
structure Averages (z : Nat → Sample lc fc) (l : Fin lc) (a : ℝ) (b c : Fin fc → ℝ) : Prop where
  pos : 0 < a
  count : Tendsto (fun n : Nat => total z l (fun _ => 1) n / n) atTop (𝓝 a)
  first : ∀ f, Tendsto (fun n : Nat => total z l (fun x => x f) n / n) atTop (𝓝 (b f))
  second : ∀ f, Tendsto (fun n : Nat => total z l (fun x => x f ^ 2) n / n) atTop (𝓝 (c f))

variable {a : ℝ} {b c : Fin fc → ℝ}

theorem Averages.many (h : Averages z l a b c) : Tendsto (fun n : Nat => total z l (fun _ => 1) n) atTop atTop := by
  have := h.count.pos_mul_atTop h.pos (tendsto_natCast_atTop_atTop (R := ℝ))
  refine this.congr' ((eventually_gt_atTop 0).mono fun n hn => ?_)
  have : (n : ℝ) ≠ 0 := by exact_mod_cast hn.ne'
  field_simp

theorem Averages.mean (h : Averages z l a b c) (f : Fin fc) : Tendsto (fun n => labelMean (firsts z n) l.1 f.1) atTop (𝓝 (b f / a)) := by
  refine ((h.first f).div h.count h.pos.ne').congr' ((eventually_gt_atTop 0).mono fun n hn => ?_)
  have : (n : ℝ) ≠ 0 := by exact_mod_cast hn.ne'
  simp only [Pi.div_apply]
  rw [firsts_mean, div_div_div_cancel_right₀ this]

theorem Averages.var (h : Averages z l a b c) (f : Fin fc) : Tendsto (fun n => labelVar (firsts z n) l.1 f.1) atTop (𝓝 ((c f - b f ^ 2 / a) / a)) := by
  have h1 : Tendsto (fun n : Nat => total z l (fun _ => 1) n / n - 1 / n) atTop (𝓝 a) := by
    have := h.count.sub (tendsto_one_div_atTop_nhds_zero_nat (𝕜 := ℝ))
    simpa using this
  have h2 := ((h.second f).sub (((h.first f).pow 2).div h.count h.pos.ne')).div h1 h.pos.ne'
  refine h2.congr' (((eventually_gt_atTop 0).and (h.many.eventually_gt_atTop 1)).mono fun n hn => ?_)
  have e1 : (n : ℝ) ≠ 0 := by exact_mod_cast hn.1.ne'
  have e2 : total z l (fun _ => 1) n ≠ 0 := by linarith [hn.2]
  have e3 : total z l (fun _ => 1) n - 1 ≠ 0 := by linarith [hn.2]
  simp only [Pi.div_apply]
  rw [firsts_var z l f n e2]
  have e4 : total z l (fun _ => 1) n / n - 1 / n = (total z l (fun _ => 1) n - 1) / n := by ring
  rw [e4]
  field_simp

theorem gauss_tendsto {u v : Nat → ℝ} {m s : ℝ} (hu : Tendsto u atTop (𝓝 m)) (hv : Tendsto v atTop (𝓝 s)) (hs : 0 < s) (x : ℝ) :
    Tendsto (fun n => gauss (u n) (v n) x) atTop (𝓝 (gauss m s x)) := by
  unfold gauss
  refine Tendsto.mul (Tendsto.div tendsto_const_nhds ((Real.continuous_sqrt.tendsto _).comp (hv.const_mul _)) ?_) ((Real.continuous_exp.tendsto _).comp ?_)
  · exact (Real.sqrt_pos.2 (by positivity)).ne'
  · exact Tendsto.div (((tendsto_const_nhds.sub hu).pow 2).neg) (hv.const_mul _) (by positivity)

theorem Averages.posterior (h : Averages z l a b c) (hv : ∀ f, 0 < (c f - b f ^ 2 / a) / a) (x : Fin fc → ℝ) :
    Tendsto (fun n => posterior (firsts z n) fc (List.ofFn x) l.1) atTop (𝓝 (a * ∏ f, gauss (b f / a) ((c f - b f ^ 2 / a) / a) (x f))) := by
  simp only [Bayes.posterior, firsts_weights, firsts_total]
  refine h.count.mul ?_
  have : ∀ n, ∏ f ∈ range fc, gauss (labelMean (firsts z n) l.1 f) (labelVar (firsts z n) l.1 f) ((List.ofFn x).getD f 0) =
      ∏ f : Fin fc, gauss (labelMean (firsts z n) l.1 f.1) (labelVar (firsts z n) l.1 f.1) (x f) := by
    intro n
    rw [Finset.prod_range]
    exact Finset.prod_congr rfl fun f _ => by rw [getD_ofFn]
  simp only [this]
  exact tendsto_finset_prod _ fun f _ => gauss_tendsto (h.mean f) (h.var f) (hv f) (x f)

end Stream

/-! ### The law of large numbers -/

section Law

variable {lc fc : Nat} {Ω : Type} [MeasurableSpace Ω] {μ : Measure Ω} [IsProbabilityMeasure μ] {Z : Nat → Ω → Sample lc fc}
  (hZ : ∀ i, Measurable (Z i)) (hindep : Pairwise fun i j => IndepFun (Z i) (Z j) μ) (hident : ∀ i, IdentDistrib (Z i) (Z 0) μ μ)

include hZ hindep hident in
theorem average {g : Sample lc fc → ℝ} (hg : Measurable g) (hint : Integrable (fun ω => g (Z 0 ω)) μ) :
    ∀ᵐ ω ∂μ, Tendsto (fun n : Nat => (∑ i ∈ range n, g (Z i ω)) / n) atTop (𝓝 (∫ ω, g (Z 0 ω) ∂μ)) :=
  strong_law_ae_real (fun i ω => g (Z i ω)) hint (fun i j hij => (hindep hij).comp hg hg) fun i => (hident i).comp hg

theorem label_meas (l : Fin lc) : MeasurableSet {s : Sample lc fc | s.2 = l} := measurable_snd (measurableSet_singleton l)

include hZ hindep hident in
theorem average_label (l : Fin lc) {φ : (Fin fc → ℝ) → ℝ} (hφ : Measurable φ) (hint : Integrable (fun ω => φ (Z 0 ω).1) μ) :
    ∀ᵐ ω ∂μ, Tendsto (fun n : Nat => total (fun i => Z i ω) l φ n / n) atTop (𝓝 (∫ ω in {ω | (Z 0 ω).2 = l}, φ (Z 0 ω).1 ∂μ)) := by
  have hm : MeasurableSet {ω | (Z 0 ω).2 = l} := hZ 0 (label_meas l)
  have e : (fun ω => if (Z 0 ω).2 = l then φ (Z 0 ω).1 else 0) = {ω | (Z 0 ω).2 = l}.indicator fun ω => φ (Z 0 ω).1 := by
    funext ω
    simp only [Set.indicator, Set.mem_ofPred_eq]
  have := average hZ hindep hident (g := fun s => if s.2 = l then φ s.1 else 0) (Measurable.ite (label_meas l) (hφ.comp measurable_fst) measurable_const)
    (by rw [e]; exact hint.indicator hm)
  rw [e, integral_indicator hm] at this
  exact this

include hZ hindep hident in
/-- almost surely the averages of all labels that can occur converge, and the others never occur -/
theorem stream_averages (hsq : ∀ f, MemLp (fun ω => (Z 0 ω).1 f) 2 μ) : ∀ᵐ ω ∂μ, ∀ l,
    (0 < share μ (Z 0) l → Averages (fun i => Z i ω) l (share μ (Z 0) l) (fun f => ∫ ω in {ω | (Z 0 ω).2 = l}, (Z 0 ω).1 f ∂μ)
      (fun f => ∫ ω in {ω | (Z 0 ω).2 = l}, (Z 0 ω).1 f ^ 2 ∂μ)) ∧ (share μ (Z 0) l = 0 → ∀ i, (Z i ω).2 ≠ l) := by
  rw [ae_all_iff]
  intro l
  have h1 := average_label hZ hindep hident l (φ := fun _ => 1) measurable_const (integrable_const _)
  have h2 : ∀ᵐ ω ∂μ, ∀ f, Tendsto (fun n : Nat => total (fun i => Z i ω) l (fun x => x f) n / n) atTop (𝓝 (∫ ω in {ω | (Z 0 ω).2 = l}, (Z 0 ω).1 f ∂μ)) :=
    ae_all_iff.2 fun f => average_label hZ hindep hident l (φ := fun x => x f) (measurable_pi_apply f) ((hsq f).integrable one_le_two)
  have h3 : ∀ᵐ ω ∂μ, ∀ f, Tendsto (fun n : Nat => total (fun i => Z i ω) l (fun x => x f ^ 2) n / n) atTop (𝓝 (∫ ω in {ω | (Z 0 ω).2 = l}, (Z 0 ω).1 f ^ 2 ∂μ)) :=
    ae_all_iff.2 fun f => average_label hZ hindep hident l (φ := fun x => x f ^ 2) ((measurable_pi_apply f).pow_const 2) (hsq f).integrable_sq
  have h4 : share μ (Z 0) l = 0 → ∀ᵐ ω ∂μ, ∀ i, (Z i ω).2 ≠ l := by
    intro h0
    rw [ae_all_iff]
    intro i
    have e0 : μ {ω | (Z 0 ω).2 = l} = 0 := by
      unfold share at h0
      exact (measureReal_eq_zero_iff).1 h0
    have e1 := (hident i).measure_mem_eq (label_meas l)
    have e2 : μ {ω | (Z i ω).2 = l} = 0 := e1.trans e0
    rw [ae_iff]
    simpa using e2
  by_cases h0 : share μ (Z 0) l = 0
  · filter_upwards [h4 h0] with ω hω
    exact ⟨fun hp => absurd h0 hp.ne', fun _ => hω⟩
  · filter_upwards [h1, h2, h3] with ω w1 w2 w3
    refine ⟨fun hp => ⟨hp, ?_, w2, w3⟩, fun h => absurd h h0⟩
    simpa [share] using w1

theorem share_nonneg (l : Fin lc) : 0 ≤ share μ (Z 0) l := measureReal_nonneg

include hZ in
theorem classVar_eq (hsq : ∀ f, MemLp (fun ω => (Z 0 ω).1 f) 2 μ) {l : Fin lc} (h : 0 < share μ (Z 0) l) (f : Fin fc) :
    classVar μ (Z 0) l f = ((∫ ω in {ω | (Z 0 ω).2 = l}, (Z 0 ω).1 f ^ 2 ∂μ) - (∫ ω in {ω | (Z 0 ω).2 = l}, (Z 0 ω).1 f ∂μ) ^ 2 / share μ (Z 0) l) / share μ (Z 0) l := by
  have i1 : Integrable (fun ω => (Z 0 ω).1 f) (μ.restrict {ω | (Z 0 ω).2 = l}) := ((hsq f).integrable one_le_two).integrableOn
  have i2 : Integrable (fun ω => (Z 0 ω).1 f ^ 2) (μ.restrict {ω | (Z 0 ω).2 = l}) := (hsq f).integrable_sq.integrableOn
  rw [classVar]
  congr 1
  set m := classMean μ (Z 0) l f with hm
  have e : (fun ω => ((Z 0 ω).1 f - m) ^ 2) = fun ω => (Z 0 ω).1 f ^ 2 + ((-2 * m) * (Z 0 ω).1 f + m ^ 2) := by
    funext ω
    ring
  have i3 : Integrable (fun ω => (-2 * m) * (Z 0 ω).1 f) (μ.restrict {ω | (Z 0 ω).2 = l}) := i1.const_mul _
  have i4 : Integrable (fun _ : Ω => m ^ 2) (μ.restrict {ω | (Z 0 ω).2 = l}) := integrable_const _
  have i5 : Integrable (fun ω => (-2 * m) * (Z 0 ω).1 f + m ^ 2) (μ.restrict {ω | (Z 0 ω).2 = l}) := i3.add i4
  rw [e, integral_add i2 i5, integral_add i3 i4, integral_const_mul, setIntegral_const, smul_eq_mul]
  rw [show μ.real {ω | (Z 0 ω).2 = l} = share μ (Z 0) l from rfl, hm, classMean]
  field_simp
  ring

/-! ### The property -/

include hZ hindep hident in
/-- **C149, the estimates.** Almost surely, for every label that can occur, the mean and the sample variance that the object holds for a feature converge to the mean and the
variance of the feature for that label, and the weight of the label, divided by the number of examples, to its probability. -/
theorem C149_estimates (sm : ℝ) (hsq : ∀ f, MemLp (fun ω => (Z 0 ω).1 f) 2 μ) : ∀ᵐ ω ∂μ, ∀ l : Fin lc, 0 < share μ (Z 0) l → ∀ f : Fin fc, ∀ ε > 0, ∀ᶠ n in atTop,
    ∃ m est w, run fc (new lc fc sm) (firsts (fun i => Z i ω) n) = .ok m ∧ m.counters[l.1 * fc + f.1]? = some est ∧ m.labelWeights[l.1]? = some w ∧
      |w / m.totalWeights - share μ (Z 0) l| < ε ∧ |est.mean - classMean μ (Z 0) l f| < ε ∧ |est.varianceSum / (est.weightSum - 1) - classVar μ (Z 0) l f| < ε := by
  filter_upwards [stream_averages hZ hindep hident hsq] with ω hω l hl f ε hε
  have h := (hω l).1 hl
  have h1 := Metric.tendsto_nhds.1 h.count ε hε
  have h2 := Metric.tendsto_nhds.1 (h.mean f) ε hε
  have h3 := h.var f
  rw [← classVar_eq hZ hsq hl f] at h3
  have h3 := Metric.tendsto_nhds.1 h3 ε hε
  filter_upwards [h1, h2, h3, h.many.eventually_gt_atTop 1] with n k1 k2 k3 k4
  obtain ⟨m, r1, r2⟩ := run_new sm (firsts (fun i => Z i ω) n) (firsts_fits _ n)
  have k5 : 1 < labelTotal (firsts (fun i => Z i ω) n) l.1 := by rw [firsts_total]; exact k4
  obtain ⟨c1, c2, c3⟩ := estOf_column (firsts (fun i => Z i ω) n) (firsts_pos _ n) l.1 f.1 k5
  refine ⟨m, _, _, r1, r2.counters l.1 l.2 f.1 f.2, r2.weights l.1 l.2, ?_, ?_, ?_⟩
  · rw [r2.total, firsts_weights]
    have := firsts_total (fun i => Z i ω) l n
    unfold labelTotal at this
    rw [this]
    exact k1
  · rw [c2]; exact k2
  · rw [c1, c3]; exact k3

include hZ hindep hident in
/-- **C149, the predictions.** Almost surely, for every query and label such that the label is the Bayes decision for the query, without ties, the object predicts this label for the
query after all but finitely many numbers of training examples. -/
theorem C149_consistent (sm : ℝ) (hsq : ∀ f, MemLp (fun ω => (Z 0 ω).1 f) 2 μ) (hvar : ∀ l, 0 < share μ (Z 0) l → ∀ f, 0 < classVar μ (Z 0) l f) :
    ∀ᵐ ω ∂μ, ∀ (x : Fin fc → ℝ) (l : Fin lc), (∀ j, j ≠ l → truePosterior μ (Z 0) x j < truePosterior μ (Z 0) x l) → ∀ᶠ n in atTop,
      ∃ m scores, run fc (new lc fc sm) (firsts (fun i => Z i ω) n) = .ok m ∧ predict realEnv lc fc m (List.ofFn x) = .ok (l.1, scores) := by
  filter_upwards [stream_averages hZ hindep hident hsq] with ω hω x l hl
  set es := firsts (fun i => Z i ω)
  have hnone : ∀ j, share μ (Z 0) j = 0 → ∀ n, ∀ e ∈ es n, e.label ≠ j.1 := by
    intro j hj n e he
    obtain ⟨i, -, rfl⟩ := List.mem_map.1 he
    exact fun h => (hω j).2 hj i (Fin.ext h)
  have hlim : ∀ j, Tendsto (fun n => posterior (es n) fc (List.ofFn x) j.1) atTop (𝓝 (truePosterior μ (Z 0) x j)) := by
    intro j
    rcases (share_nonneg (μ := μ) (Z := Z) j).lt_or_eq with hp | h0
    · have hA := (hω j).1 hp
      have := hA.posterior (fun f => by rw [← classVar_eq hZ hsq hp f]; exact hvar j hp f) x
      simp only [← classVar_eq hZ hsq hp] at this
      exact this
    · have e : ∀ n, posterior (es n) fc (List.ofFn x) j.1 = 0 := by
        intro n
        have : (es n).filter (fun e => e.label = j.1) = [] := by
          rw [List.filter_eq_nil_iff]; intro e he; simpa using hnone j h0.symm n e he
        rw [posterior, labelTotal, this]
        simp
      rw [truePosterior, ← h0, zero_mul]
      simp only [e]
      exact tendsto_const_nhds
  have hbest : ∀ᶠ n in atTop, ∀ j : Fin lc, j ≠ l → posterior (es n) fc (List.ofFn x) j.1 < posterior (es n) fc (List.ofFn x) l.1 :=
    eventually_all.2 fun j => by
      by_cases hj : j = l
      · exact Eventually.of_forall fun n h => absurd hj h
      · exact ((hlim j).eventually_lt (hlim l) (hl j hj)).mono fun n h _ => h
  have hvaried : ∀ᶠ n in atTop, ∀ j : Fin lc, (∀ e ∈ es n, e.label ≠ j.1) ∨ (1 < labelTotal (es n) j.1 ∧ ∀ f < fc, 0 < labelVar (es n) j.1 f) :=
    eventually_all.2 fun j => by
      rcases (share_nonneg (μ := μ) (Z := Z) j).lt_or_eq with hp | h0
      · have hA := (hω j).1 hp
        have hv : ∀ᶠ n in atTop, ∀ f : Fin fc, 0 < labelVar (es n) j.1 f.1 := eventually_all.2 fun f => by
          have := hA.var f
          rw [← classVar_eq hZ hsq hp f] at this
          exact this.eventually_const_lt (hvar j hp f)
        filter_upwards [hv, hA.many.eventually_gt_atTop 1] with n k1 k2
        exact Or.inr ⟨by rw [firsts_total]; exact k2, fun f hf => k1 ⟨f, hf⟩⟩
      · exact Eventually.of_forall fun n => Or.inl (hnone j h0.symm n)
  filter_upwards [hbest, hvaried, eventually_gt_atTop 0] with n k1 k2 k3
  have hlc : 1 ≤ lc := by have := l.2; omega
  obtain ⟨m, l', scores, a1, a2, a3, a4, -⟩ := C141_bayes hlc sm (es n) (firsts_fits _ n) (firsts_pos _ n) (by
    intro h
    have := congrArg List.length h
    simp [es, firsts] at this
    omega) (fun j hj => k2 ⟨j, hj⟩) (List.ofFn x) (by simp)
  refine ⟨m, scores, a1, ?_⟩
  have : l' = l.1 := by
    by_contra hne
    have h1 := k1 ⟨l', a3⟩ (fun h => hne (congrArg Fin.val h))
    exact absurd (a4 l.1 l.2) (not_le.2 h1)
  rw [a2, this]

end Law

/-! ### Example -/

/-- four equally likely examples with one feature: the values 0 and 2 with label 0, the values 10 and 12 with label 1 -/
noncomputable def fourLaw : Measure (Sample 2 1) :=
  (4⁻¹ : ENNReal) • (Measure.dirac (fun _ => 0, 0) + Measure.dirac (fun _ => 2, 0) + Measure.dirac (fun _ => 10, 1) + Measure.dirac (fun _ => 12, 1))

theorem fourLaw_prob : IsProbabilityMeasure fourLaw := ⟨by
  simp only [fourLaw, Measure.smul_apply, Measure.add_apply, measure_univ, smul_eq_mul]
  norm_num
  exact ENNReal.inv_mul_cancel (by norm_num) (by norm_num)⟩

theorem fourLaw_int (g : Sample 2 1 → ℝ) : Integrable g fourLaw := by
  unfold fourLaw
  refine Integrable.smul_measure (((Integrable.add_measure ?_ ?_).add_measure ?_).add_measure ?_) (by norm_num) <;> exact integrable_dirac (by simp)

theorem fourLaw_integral (g : Sample 2 1 → ℝ) : ∫ s, g s ∂fourLaw = (g (fun _ => 0, 0) + g (fun _ => 2, 0) + g (fun _ => 10, 1) + g (fun _ => 12, 1)) / 4 := by
  have i : ∀ a : Sample 2 1, Integrable g (Measure.dirac a) := fun a => integrable_dirac (by simp)
  rw [fourLaw, integral_smul_measure, integral_add_measure (((i _).add_measure (i _)).add_measure (i _)) (i _), integral_add_measure ((i _).add_measure (i _)) (i _),
    integral_add_measure (i _) (i _), integral_dirac, integral_dirac, integral_dirac, integral_dirac]
  simp
  ring

/-- a stream of such examples -/
noncomputable def fourStream : Measure (Nat → Sample 2 1) := haveI := fourLaw_prob; Measure.infinitePi fun _ => fourLaw

theorem fourStream_facts : IsProbabilityMeasure fourStream ∧ (Pairwise fun i j => IndepFun (fun ω : Nat → Sample 2 1 => ω i) (fun ω => ω j) fourStream) ∧
    (∀ i, MeasurePreserving (fun ω : Nat → Sample 2 1 => ω i) fourStream fourLaw) := by
  haveI := fourLaw_prob
  refine ⟨by unfold fourStream; infer_instance, fun i j hij => ?_, fun i => measurePreserving_eval_infinitePi _ i⟩
  exact (iIndepFun_infinitePi (P := fun _ : Nat => fourLaw) (X := fun _ s => s) fun _ => measurable_id).indepFun hij

theorem fourStream_integral (l : Fin 2) (g : Sample 2 1 → ℝ) (hg : Measurable g) :
    ∫ ω in {ω : Nat → Sample 2 1 | (ω 0).2 = l}, g (ω 0) ∂fourStream = ∫ s, (if s.2 = l then g s else 0) ∂fourLaw := by
  have hm : MeasurableSet {ω : Nat → Sample 2 1 | (ω 0).2 = l} :=
    (measurable_snd.comp (measurable_pi_apply (X := fun _ : Nat => Sample 2 1) 0)) (measurableSet_singleton l)
  rw [← integral_indicator hm, ← (fourStream_facts.2.2 0).map_eq, integral_map (measurable_pi_apply 0).aemeasurable
    (Measurable.ite (label_meas l) hg measurable_const).aestronglyMeasurable]
  refine integral_congr_ae (Eventually.of_forall fun ω => ?_)
  simp only [Set.indicator, Set.mem_ofPred_eq]

theorem fourStream_share (l : Fin 2) : share fourStream (fun ω => ω 0) l = 1 / 2 := by
  have h := fourStream_integral l (fun _ => 1) measurable_const
  rw [setIntegral_const, smul_eq_mul, mul_one, fourLaw_integral] at h
  rw [share, h]
  fin_cases l <;> norm_num

theorem fourStream_mean (l : Fin 2) (f : Fin 1) : classMean fourStream (fun ω => ω 0) l f = if l = 0 then 1 else 11 := by
  rw [classMean, fourStream_share, fourStream_integral l (fun s => s.1 f) ((measurable_pi_apply f).comp measurable_fst), fourLaw_integral]
  fin_cases l <;> norm_num

theorem fourStream_var (l : Fin 2) (f : Fin 1) : classVar fourStream (fun ω => ω 0) l f = 1 := by
  rw [classVar, fourStream_share, fourStream_mean,
    fourStream_integral l (fun s => (s.1 f - if l = 0 then 1 else 11) ^ 2) ((((measurable_pi_apply f).comp measurable_fst).sub_const _).pow_const 2), fourLaw_integral]
  fin_cases l <;> norm_num

/-- The value 3 gets label 0 and the value 8 gets label 1 after all but finitely many numbers of training examples. -/
example : ∀ᵐ ω ∂fourStream, ∀ᶠ n in atTop, ∃ m scores scores', run 1 (new 2 1 0) (firsts ω n) = .ok m ∧ predict realEnv 2 1 m [3] = .ok (0, scores) ∧
    predict realEnv 2 1 m [8] = .ok (1, scores') := by
  have := fourStream_facts.1
  have hsq : ∀ f, MemLp (fun ω : Nat → Sample 2 1 => (ω 0).1 f) 2 fourStream := fun f => by
    have h : MemLp (fun s : Sample 2 1 => s.1 f) 2 fourLaw :=
      (memLp_two_iff_integrable_sq ((measurable_pi_apply f).comp measurable_fst).aestronglyMeasurable).2 (fourLaw_int _)
    exact h.comp_measurePreserving (fourStream_facts.2.2 0)
  have hI : ∀ i, IdentDistrib (fun ω : Nat → Sample 2 1 => ω i) (fun ω => ω 0) fourStream fourStream := fun i =>
    ⟨(measurable_pi_apply i).aemeasurable, (measurable_pi_apply 0).aemeasurable, by rw [(fourStream_facts.2.2 i).map_eq, (fourStream_facts.2.2 0).map_eq]⟩
  have key := C149_consistent (Z := fun i (ω : Nat → Sample 2 1) => ω i) (fun i => measurable_pi_apply i) fourStream_facts.2.1 hI 0 hsq
    (fun l _ f => by rw [fourStream_var]; norm_num)
  have hpost : ∀ (x : ℝ) (j l : Fin 2), (x - if l = 0 then 1 else 11) ^ 2 < (x - if j = 0 then 1 else 11) ^ 2 →
      truePosterior fourStream (fun ω => ω 0) (fun _ => x) j < truePosterior fourStream (fun ω => ω 0) (fun _ => x) l := by
    intro x j l h
    simp only [truePosterior, fourStream_share, fourStream_mean, fourStream_var, Finset.univ_unique, Finset.prod_singleton, gauss]
    refine mul_lt_mul_of_pos_left (mul_lt_mul_of_pos_left (Real.exp_lt_exp.2 ?_) (by positivity)) (by norm_num)
    linarith
  filter_upwards [key] with ω hω
  have h3 := hω (fun _ => 3) 0 (fun j hj => hpost 3 j 0 (by fin_cases j <;> simp at hj ⊢; norm_num))
  have h8 := hω (fun _ => 8) 1 (fun j hj => hpost 8 j 1 (by fin_cases j <;> simp at hj ⊢; norm_num))
  filter_upwards [h3, h8] with n k3 k8
  obtain ⟨m, sc, r1, r2⟩ := k3
  obtain ⟨m', sc', r1', r2'⟩ := k8
  rw [r1] at r1'
  cases r1'
  exact ⟨m, sc, sc', r1, by simpa using r2, by simpa using r2'⟩

end Orp.Bayes
