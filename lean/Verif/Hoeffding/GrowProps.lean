import Verif.Hoeffding.Grow
import Verif.Hoeffding.Witness
import Mathlib.Probability.StrongLaw
import Mathlib.Probability.Independence.InfinitePi

/-!
Property C153: on a stream of independent examples of the same law for which one limit gains more than every other, the tree is split after finitely many examples, almost surely.
If every limit divides the examples like some other limit, it is never split.
-/

namespace Orp.Hoeffding

open Filter hiding bind
open MeasureTheory ProbabilityTheory Topology Finset

set_option linter.unusedSectionVars false

variable {L : Nat} {p : Params ℝ} {lims : Nat → ℝ} {z : Nat → (Nat → ℝ) × Fin L}

/-- **C153, for a single stream.** If for each limit the share of the examples with a given label on a given side of it converges, and the information gain of one limit for these
shares is more than that of every other, then the tree is split after all but finitely many numbers of training examples. -/
theorem C153_frequencies (hp : p.Ok) (hlog : p.log2 = Real.logb 2) (hfit : Fits p L) (hl : SortedLimits p lims) {s0 : Tree ℝ L} (h0 : new p = .ok s0)
    {q : Nat → Bool → Fin L → ℝ} (hq : ∀ i < p.limitCount, ∀ b l, Tendsto (frequency p lims z i b l) atTop (𝓝 (q i b l)))
    {i : Nat} (hi : i < p.limitCount) (hbest : ∀ j < p.limitCount, j ≠ i → gainOf (q j true) (q j false) < gainOf (q i true) (q i false)) :
    ∀ᶠ n in atTop, ∃ s, Hoeffding.run p (teach lims z n) s0 = .ok s ∧ s.nodes.length = 3 := by
  set G : Nat → ℝ := fun j => gainOf (q j true) (q j false) with hG
  have hgain : ∀ j < p.limitCount, Tendsto (fun n => gainN p lims z j n) atTop (𝓝 (G j)) := fun j hj => gains_tendsto p lims z j (hq j hj)
  have havg : ∀ j < p.limitCount, Tendsto (fun n : Nat => (∑ k ∈ range n, gainN p lims z j (k + 1)) / n) atTop (𝓝 (G j)) := by
    intro j hj
    have := ((tendsto_add_atTop_iff_nat 1).2 (hgain j hj)).cesaro
    refine this.congr fun n => ?_
    rw [div_eq_inv_mul]
  have hG0 : ∀ j < p.limitCount, 0 ≤ G j := fun j hj => ge_of_tendsto' (hgain j hj) fun n => gainBy_nonneg _ _
  have hne : ((range p.limitCount).erase i).Nonempty := by
    rw [← Finset.card_pos, Finset.card_erase_of_mem (Finset.mem_range.2 hi), Finset.card_range]
    have := hp.two
    omega
  obtain ⟨m, hm, hmax⟩ := Finset.exists_max_image ((range p.limitCount).erase i) G hne
  have hmi := (Finset.mem_erase.1 hm).1
  have hml := Finset.mem_range.1 (Finset.mem_erase.1 hm).2
  have hgap := hbest m hml hmi
  set d : ℝ := (G i - G m) / 4 with hd
  have hdpos : 0 < d := by
    rw [hd]
    have : G m < G i := hgap
    linarith
  have hclose : ∀ᶠ n in atTop, ∀ j ∈ range p.limitCount, |(∑ k ∈ range n, gainN p lims z j (k + 1)) / (n : ℝ) - G j| < d := by
    rw [eventually_all_finset]
    intro j hj
    have := Metric.tendsto_nhds.1 (havg j (Finset.mem_range.1 hj)) d hdpos
    simpa only [Real.dist_eq] using this
  have heps : ∀ᶠ n : Nat in atTop, 2 * p.log (1 / p.delta) / (n : ℝ) < d ^ 2 := (tendsto_const_div_atTop_nhds_zero_nat _).eventually_lt_const (by positivity)
  obtain ⟨N, hN⟩ := ((hclose.and heps).and (eventually_ge_atTop 1)).exists
  obtain ⟨⟨hN1, hN2⟩, hN3⟩ := hN
  have hdec : Decides p N (meanGains p lims z N) := by
    have hib := abs_lt.1 (hN1 i (Finset.mem_range.2 hi))
    have hGm := hG0 m hml
    refine decides_of hp (by simp [meanGains]) (meanGains_get p lims z N hi) hdpos.le ?_ ?_ hN2
    · intro j y hj hy
      have hjl : j < p.limitCount := by
        have := (List.getElem?_eq_some_iff.1 hy).1
        simpa [meanGains] using this
      rw [meanGains_get p lims z N hjl] at hy
      obtain rfl := Option.some.inj hy
      have hjb := abs_lt.1 (hN1 j (Finset.mem_range.2 hjl))
      have hjm := hmax j (Finset.mem_erase.2 ⟨hj, Finset.mem_range.2 hjl⟩)
      have : G i = G m + 4 * d := by rw [hd]; ring
      linarith
    · have : G i = G m + 4 * d := by rw [hd]; ring
      linarith
  filter_upwards [eventually_ge_atTop N] with n hn
  obtain ⟨s, e1, e2⟩ := teach_state (z := z) hp hlog hfit hl h0 n
  refine ⟨s, e1, ?_⟩
  rcases e2 with ⟨-, e2⟩ | ⟨⟨h, e2⟩, -⟩
  · exact absurd hdec (e2 N hN3 hn)
  · exact e2.nodes_length

section Law

variable {Ω : Type} [MeasurableSpace Ω] {μ : Measure Ω} [IsProbabilityMeasure μ] {Z : Nat → Ω → (Nat → ℝ) × Fin L}
  (hZ : ∀ i, Measurable (Z i)) (hindep : Pairwise fun i j => IndepFun (Z i) (Z j) μ) (hident : ∀ i, IdentDistrib (Z i) (Z 0) μ μ)

/-- the probability that an example has label `l` and is on the side `b` of limit `i` -/
noncomputable def sideShare (μ : Measure Ω) (p : Params ℝ) (lims : Nat → ℝ) (Z : Ω → (Nat → ℝ) × Fin L) (i : Nat) (b : Bool) (l : Fin L) : ℝ :=
  μ.real {ω | decide ((Z ω).1 (featureOfLimit p.sizes i) < lims i) = b ∧ (Z ω).2 = l}

/-- the information that the side of limit `i` gives about the label, for the law of the examples -/
noncomputable def trueGain (μ : Measure Ω) (p : Params ℝ) (lims : Nat → ℝ) (Z : Ω → (Nat → ℝ) × Fin L) (i : Nat) : ℝ :=
  gainOf (sideShare μ p lims Z i true) (sideShare μ p lims Z i false)

theorem side_meas (p : Params ℝ) (lims : Nat → ℝ) (i : Nat) (b : Bool) (l : Fin L) :
    MeasurableSet {s : (Nat → ℝ) × Fin L | decide (s.1 (featureOfLimit p.sizes i) < lims i) = b ∧ s.2 = l} := by
  have h1 : MeasurableSet {s : (Nat → ℝ) × Fin L | s.1 (featureOfLimit p.sizes i) < lims i} :=
    measurableSet_lt ((measurable_pi_apply _).comp measurable_fst) measurable_const
  have h2 : MeasurableSet {s : (Nat → ℝ) × Fin L | s.2 = l} := measurable_snd (measurableSet_singleton l)
  cases b
  · have : {s : (Nat → ℝ) × Fin L | decide (s.1 (featureOfLimit p.sizes i) < lims i) = false ∧ s.2 = l} =
        {s : (Nat → ℝ) × Fin L | s.1 (featureOfLimit p.sizes i) < lims i}ᶜ ∩ {s | s.2 = l} := by
      ext s; simp
    rw [this]
    exact h1.compl.inter h2
  · have : {s : (Nat → ℝ) × Fin L | decide (s.1 (featureOfLimit p.sizes i) < lims i) = true ∧ s.2 = l} =
        {s : (Nat → ℝ) × Fin L | s.1 (featureOfLimit p.sizes i) < lims i} ∩ {s | s.2 = l} := by
      ext s; simp
    rw [this]
    exact h1.inter h2

include hZ hindep hident in
theorem frequency_ae (p : Params ℝ) (lims : Nat → ℝ) (i : Nat) (b : Bool) (l : Fin L) :
    ∀ᵐ ω ∂μ, Tendsto (frequency p lims (fun k => Z k ω) i b l) atTop (𝓝 (sideShare μ p lims (Z 0) i b l)) := by
  set g : (Nat → ℝ) × Fin L → ℝ := fun s => if decide (s.1 (featureOfLimit p.sizes i) < lims i) = b ∧ s.2 = l then 1 else 0 with hg
  have hm := side_meas (L := L) p lims i b l
  have hgm : Measurable g := Measurable.ite hm measurable_const measurable_const
  have e : (fun ω => g (Z 0 ω)) = (Z 0 ⁻¹' {s | decide (s.1 (featureOfLimit p.sizes i) < lims i) = b ∧ s.2 = l}).indicator fun _ => (1 : ℝ) := by
    funext ω
    simp only [hg, Set.indicator, Set.mem_preimage, Set.mem_ofPred_eq]
  have hint : Integrable (fun ω => g (Z 0 ω)) μ := by rw [e]; exact (integrable_const _).indicator (hZ 0 hm)
  have h := strong_law_ae_real (fun k ω => g (Z k ω)) hint (fun i j hij => (hindep hij).comp hgm hgm) fun k => (hident k).comp hgm
  have e2 : ∫ ω, g (Z 0 ω) ∂μ = sideShare μ p lims (Z 0) i b l := by
    rw [e, integral_indicator (hZ 0 hm), setIntegral_const, smul_eq_mul, mul_one]
    rfl
  rw [e2] at h
  exact h

include hZ hindep hident in
/-- **C153.** Let the limits be set, in increasing order for each feature, on a new tree with memory for three nodes, and let one limit give more information about the label than every
other. Trained with independent examples of the same law, the tree is almost surely split after all but finitely many numbers of examples. -/
theorem C153_splits (hp : p.Ok) (hlog : p.log2 = Real.logb 2) (hfit : Fits p L) (hl : SortedLimits p lims) {s0 : Tree ℝ L} (h0 : new p = .ok s0)
    {i : Nat} (hi : i < p.limitCount) (hbest : ∀ j < p.limitCount, j ≠ i → trueGain μ p lims (Z 0) j < trueGain μ p lims (Z 0) i) :
    ∀ᵐ ω ∂μ, ∀ᶠ n in atTop, ∃ s, Hoeffding.run p (teach lims (fun k => Z k ω) n) s0 = .ok s ∧ s.nodes.length = 3 := by
  have h : ∀ᵐ ω ∂μ, ∀ j b l, Tendsto (frequency p lims (fun k => Z k ω) j b l) atTop (𝓝 (sideShare μ p lims (Z 0) j b l)) := by
    simp only [ae_all_iff]
    exact fun j b l => frequency_ae hZ hindep hident p lims j b l
  filter_upwards [h] with ω hω
  exact C153_frequencies (z := fun k => Z k ω) hp hlog hfit hl h0 (q := fun j b l => sideShare μ p lims (Z 0) j b l) (fun j _ b l => hω j b l) hi hbest

end Law

/-- **C153, ties.** If every limit divides the examples of the stream like some other limit, for instance because every feature occurs twice, the tree is never split, whatever the
examples: there is no rule for ties. -/
theorem C153_ties (hp : p.Ok) (hlog : p.log2 = Real.logb 2) (hfit : Fits p L) (hl : SortedLimits p lims) (hdelta : 0 ≤ p.log (1 / p.delta)) {s0 : Tree ℝ L} (h0 : new p = .ok s0)
    (htwin : ∀ i < p.limitCount, ∃ j < p.limitCount, j ≠ i ∧ ∀ k, ((z k).1 (featureOfLimit p.sizes i) < lims i ↔ (z k).1 (featureOfLimit p.sizes j) < lims j)) (n : Nat) :
    ∃ s, Hoeffding.run p (teach lims z n) s0 = .ok s ∧ s.nodes.length = 1 := by
  obtain ⟨s, e1, e2⟩ := teach_state (z := z) hp hlog hfit hl h0 n
  refine ⟨s, e1, ?_⟩
  rcases e2 with ⟨e2, -⟩ | ⟨-, k, k1, k2, i, g0, g1, ⟨hb1, hb2, hb3, hb4⟩, hdec, -⟩
  · obtain ⟨h, hs⟩ := e2.filled.leaf
    exact hs.nodes_length
  · exfalso
    have hi : i < p.limitCount := by
      have := (List.getElem?_eq_some_iff.1 hb1).1
      simpa [meanGains] using this
    obtain ⟨j, hj, hji, hsame⟩ := htwin i hi
    have hg : ∀ m, gainN p lims z i m = gainN p lims z j m := by
      intro m
      rw [gainN, gainN, gainBy, gainBy]
      congr 1 <;> funext l <;> refine Nat.cast_injective (R := ℝ) ?_ <;> rw [countIf_first, countIf_first] <;> refine Finset.sum_congr rfl fun k _ => ?_ <;> simp [hsame k]
    have hj' := meanGains_get p lims z k hj
    have hi' := meanGains_get p lims z k hi
    rw [hb1] at hi'
    have hv : g0 = (∑ m ∈ range k, gainN p lims z j (m + 1)) / (k : ℝ) := by
      rw [Option.some.inj hi']
      congr 1
      exact Finset.sum_congr rfl fun m _ => hg _
    rw [← hv] at hj'
    have h1 := hb3 j g0 hji hj'
    obtain ⟨j', -, hj2⟩ := hb4
    have h2 := hb2 g1 (List.mem_of_getElem? hj2)
    have h3 : g0 - g1 = 0 := by linarith
    rw [h3, zero_pow two_ne_zero] at hdec
    have h4 : 0 ≤ 2 * p.log (1 / p.delta) / (k : ℝ) := div_nonneg (by linarith) (Nat.cast_nonneg k)
    linarith

/-! ### Examples -/

namespace Witness

/-- limits 1 and 2 for feature 0, and 5 for feature 1 -/
def thresholds : Nat → ℝ := fun i => if i = 0 then 1 else if i = 1 then 2 else 5

theorem thresholds_sorted : SortedLimits (params 284) thresholds := by
  intro i j hij hj hf
  have h3 : (params 284).limitCount = 3 := rfl
  have hj' : j < 3 := h3 ▸ hj
  have hs : (params 284).sizes = [3, 2] := rfl
  rw [hs] at hf
  have : (i = 0 ∨ i = 1 ∨ i = 2) ∧ (j = 0 ∨ j = 1 ∨ j = 2) := by omega
  rcases this with ⟨rfl | rfl | rfl, rfl | rfl | rfl⟩ <;> first | omega | (simp [thresholds] <;> norm_num)

/-- two equally likely examples: (0, 0) with label 0 and (0, 9) with label 1 -/
noncomputable def twoLaw : Measure ((Nat → ℝ) × Fin 2) := (2⁻¹ : ENNReal) • (Measure.dirac (pointA, 0) + Measure.dirac (pointB, 1))

theorem twoLaw_prob : IsProbabilityMeasure twoLaw := ⟨by
  simp only [twoLaw, Measure.smul_apply, Measure.add_apply, measure_univ, smul_eq_mul]
  rw [one_add_one_eq_two]
  exact ENNReal.inv_mul_cancel (by norm_num) (by norm_num)⟩

/-- a stream of such examples -/
noncomputable def twoStream : Measure (Nat → (Nat → ℝ) × Fin 2) := haveI := twoLaw_prob; Measure.infinitePi fun _ => twoLaw

theorem twoStream_share (i : Nat) (b : Bool) (l : Fin 2) : sideShare twoStream (params 284) thresholds (fun ω => ω 0) i b l =
    ((if decide (pointA (featureOfLimit [3, 2] i) < thresholds i) = b ∧ 0 = l then 1 else 0) + (if decide (pointB (featureOfLimit [3, 2] i) < thresholds i) = b ∧ 1 = l then 1 else 0)) / 2 := by
  haveI := twoLaw_prob
  have hm := side_meas (L := 2) (params 284) thresholds i b l
  have e : sideShare twoStream (params 284) thresholds (fun ω => ω 0) i b l = twoLaw.real {s | decide (s.1 (featureOfLimit (params 284).sizes i) < thresholds i) = b ∧ s.2 = l} := by
    rw [sideShare, Measure.real, Measure.real, ← (measurePreserving_eval_infinitePi (fun _ : Nat => twoLaw) 0).measure_preimage hm.nullMeasurableSet]
    rfl
  rw [e, Measure.real, twoLaw, Measure.smul_apply, Measure.add_apply, Measure.dirac_apply' _ hm, Measure.dirac_apply' _ hm]
  have hs : (params 284).sizes = [3, 2] := rfl
  simp only [Set.indicator, Set.mem_ofPred_eq, hs, Pi.one_apply, smul_eq_mul, ENNReal.toReal_mul]
  split <;> split <;> norm_num

/-- The hypotheses of `C153_splits` are met by this stream: almost surely the tree is split after finitely many examples. -/
example : ∃ s0 : Tree ℝ 2, new (params 284) = .ok s0 ∧ ∀ᵐ ω ∂twoStream, ∀ᶠ n in atTop, ∃ s, Hoeffding.run (params 284) (teach thresholds ω n) s0 = .ok s ∧ s.nodes.length = 3 := by
  haveI := twoLaw_prob
  haveI : IsProbabilityMeasure twoStream := by unfold twoStream; infer_instance
  obtain ⟨s0, -, h0, -⟩ := start_at (size := 284) (by norm_num)
  refine ⟨s0, h0, ?_⟩
  have hpres : ∀ i, MeasurePreserving (fun ω : Nat → (Nat → ℝ) × Fin 2 => ω i) twoStream twoLaw := fun i => measurePreserving_eval_infinitePi _ i
  have hI : ∀ i, IdentDistrib (fun ω : Nat → (Nat → ℝ) × Fin 2 => ω i) (fun ω => ω 0) twoStream twoStream := fun i =>
    ⟨(measurable_pi_apply i).aemeasurable, (measurable_pi_apply 0).aemeasurable, by rw [(hpres i).map_eq, (hpres 0).map_eq]⟩
  have hind : Pairwise fun i j => IndepFun (fun ω : Nat → (Nat → ℝ) × Fin 2 => ω i) (fun ω => ω j) twoStream := fun i j hij =>
    (iIndepFun_infinitePi (P := fun _ : Nat => twoLaw) (X := fun _ s => s) fun _ => measurable_id).indepFun hij
  have hfit : Fits (params 284) 2 := by
    rw [Fits, total_eq]
    simp [params]
  have f0 : featureOfLimit [3, 2] 0 = 0 := rfl
  have f1 : featureOfLimit [3, 2] 1 = 0 := rfl
  have f2 : featureOfLimit [3, 2] 2 = 1 := rfl
  have g0 : trueGain twoStream (params 284) thresholds (fun ω => ω 0) 0 = 0 := by
    simp [trueGain, gainOf, entropyOf, twoStream_share, Fin.sum_univ_two, f0, pointA, pointB, thresholds]
  have g1 : trueGain twoStream (params 284) thresholds (fun ω => ω 0) 1 = 0 := by
    simp [trueGain, gainOf, entropyOf, twoStream_share, Fin.sum_univ_two, f1, pointA, pointB, thresholds]
  have g2 : trueGain twoStream (params 284) thresholds (fun ω => ω 0) 2 = 1 := by
    have n9 : ¬ (9 : ℝ) < 5 := by norm_num
    simp [trueGain, gainOf, entropyOf, twoStream_share, Fin.sum_univ_two, f2, pointA, pointB, thresholds, n9]
    have hl : Real.logb 2 (1 / 2) = -1 := by rw [one_div, Real.logb_inv, Real.logb_self_eq_one (by norm_num)]
    norm_num
    rw [hl]
    norm_num
  have h3 : (params 284).limitCount = 3 := rfl
  refine C153_splits (Z := fun i (ω : Nat → (Nat → ℝ) × Fin 2) => ω i) (fun i => measurable_pi_apply i) hind hI (params_ok 284) rfl hfit thresholds_sorted h0 (i := 2) (by rw [h3]; norm_num) ?_
  intro j hj hne
  rw [h3] at hj
  have : j = 0 ∨ j = 1 := by omega
  rcases this with rfl | rfl
  · rw [g0, g2]; norm_num
  · rw [g1, g2]; norm_num

/-- two features with two bins each -/
noncomputable def twins : Params ℝ := { params 284 with sizes := [2, 2] }

/-- The hypotheses of `C153_ties` are met by examples with two equal features, even if these determine the label: the tree is never split. -/
example : ∃ s0 : Tree ℝ 2, new twins = .ok s0 ∧ ∀ n, ∃ s, Hoeffding.run twins (teach (fun _ => 5) (fun k => (fun _ => if k % 2 = 0 then 0 else 9, if k % 2 = 0 then 0 else 1)) n) s0 = .ok s ∧
    s.nodes.length = 1 := by
  have hp : twins.Ok := by
    constructor
    · simp [twins, params]
    · simp [twins, params, Params.limitCount, Params.sum]
    · simp [twins, params]
  have h2 : twins.limitCount = 2 := rfl
  have ht : twins.total 2 = 68 := by simp [twins, params, Params.total, Params.limitCount, Params.sum]
  have hfit : Fits twins 2 := by
    rw [Fits, ht]
    simp [twins, params]
  obtain ⟨s0, h0⟩ : ∃ s0 : Tree ℝ 2, new twins = .ok s0 := by
    obtain ⟨s0, h0, -⟩ := (new_eq (L := 2) twins hp).1 (by rw [ht]; simp [twins, params])
    exact ⟨s0, h0⟩
  refine ⟨s0, h0, fun n => C153_ties hp rfl hfit (fun i j _ _ _ => le_refl _) ?_ h0 (fun i hi => ⟨1 - i, by omega, by omega, fun k => Iff.rfl⟩) n⟩
  have : (1 : ℝ) ≤ 1 / (9 / 10) := by norm_num
  exact Real.log_nonneg this

end Witness

end Orp.Hoeffding
