import Verif.Hoeffding.Props
import Verif.Hoeffding.GrowProps

/-!
Property C154: what a Hoeffding tree predicts in the long run on a stream of independent examples of the same law: the most probable label for every query, and the probabilities of the
labels as scores. So it does not learn the labels that its features determine.
-/

namespace Orp.Hoeffding

open Filter hiding bind
open MeasureTheory ProbabilityTheory Topology Finset

set_option linter.unusedSectionVars false

variable {L : Nat} {p : Params ℝ} {lims : Nat → ℝ} {z : Nat → (Nat → ℝ) × Fin L}

/-- how many of the first `n` examples of a stream have label `l` -/
def labelCount (z : Nat → (Nat → ℝ) × Fin L) (n : Nat) (l : Fin L) : Nat := ∑ k ∈ range n, if (z k).2 = l then 1 else 0

theorem bump_count (h : Fin L → Nat) (z : Nat → (Nat → ℝ) × Fin L) (n : Nat) : bump h (z n).2 = fun l => h l + if (z n).2 = l then 1 else 0 := by
  funext l
  by_cases c : l = (z n).2
  · simp [bump, c]
  · simp [bump, c, Ne.symm c]

/-- the tree has one leaf or is split, with the labels counted by `h` -/
def Holds (p : Params ℝ) (h : Fin L → Nat) (s : Tree ℝ L) : Prop := OneLeaf p h s ∨ Split p h s

theorem Holds.predict (hp : p.Ok) {h : Fin L → Nat} {s : Tree ℝ L} (hs : Holds p h s) (x : Nat → ℝ) :
    predict p s x = .ok (argmax (scoresOf (fun l => (h l : Int)) : List (Dbl ℝ)), scoresOf (fun l => (h l : Int))) := by
  rcases hs with hs | hs
  · exact hs.predict hp x
  · exact hs.predict hp x

theorem teach_next {n : Nat} {s0 s s' : Tree ℝ L} (h1 : Hoeffding.run p (teach lims z n) s0 = .ok s) (h2 : Hoeffding.train p s (z n).1 (z n).2 = .ok s') :
    Hoeffding.run p (teach lims z (n + 1)) s0 = .ok s' := by
  rw [teach_succ, run_snoc, h1]
  exact h2

theorem after_split (hp : p.Ok) {s0 s : Tree ℝ L} {N : Nat} {h : Fin L → Nat} (hr : Hoeffding.run p (teach lims z N) s0 = .ok s) (hs : Split p h s) :
    ∀ m, ∃ s' h', Hoeffding.run p (teach lims z (N + m)) s0 = .ok s' ∧ Split p h' s' ∧ ∀ l, h' l + labelCount z N l = h l + labelCount z (N + m) l
  | 0 => ⟨s, h, hr, hs, fun _ => rfl⟩
  | m + 1 => by
      obtain ⟨s', h', e1, e2, e3⟩ := after_split hp hr hs m
      obtain ⟨s'', f1, f2⟩ := e2.train hp (z (N + m)).1 (z (N + m)).2
      refine ⟨s'', _, teach_next e1 f1, f2, fun l => ?_⟩
      have e4 : labelCount z (N + (m + 1)) l = labelCount z (N + m) l + if (z (N + m)).2 = l then 1 else 0 := Finset.sum_range_succ _ _
      rw [bump_count, e4]
      have := e3 l
      dsimp only
      omega

/-- In the long run and up to a constant, the counters of the labels are those of the stream. -/
theorem teach_counts (hp : p.Ok) (hfit : Fits p L) {s0 : Tree ℝ L} (h0 : new p = .ok s0) (lims : Nat → ℝ) (z : Nat → (Nat → ℝ) × Fin L) :
    ∃ C N : Nat, ∀ n ≥ N, ∃ s h, Hoeffding.run p (teach lims z n) s0 = .ok s ∧ Holds p h s ∧ ∀ l, h l ≤ labelCount z n l + C ∧ labelCount z n l ≤ h l + C := by
  have hall : ∀ n, ∃ s, Hoeffding.run p (teach lims z n) s0 = .ok s ∧ (OneLeaf p (labelCount z n) s ∨ ∃ N ≤ n, ∃ s' h, Hoeffding.run p (teach lims z N) s0 = .ok s' ∧ Split p h s') := by
    intro n
    induction n with
    | zero =>
        obtain ⟨a1, -, -⟩ := OneLeaf.zero_info hp h0
        obtain ⟨s, e1, e2⟩ := a1.setLimits hp (fun i => .fin (lims i))
        refine ⟨s, ?_, Or.inl ?_⟩
        · simp [teach, Hoeffding.run, exec, e1, bind, Except.bind]
        · have : labelCount z 0 = fun _ => 0 := rfl
          rw [this]
          exact e2
    | succ n ih =>
        obtain ⟨s, e1, e2⟩ := ih
        rcases e2 with e2 | ⟨N, hN, s', h, f1, f2⟩
        · rcases e2.train hp (z n).1 (z n).2 with ⟨s', t1, t2⟩ | ⟨s', t1, t2⟩ | ⟨t1, -⟩
          · refine ⟨s', teach_next e1 t1, Or.inl ?_⟩
            rw [bump_count] at t2
            have : labelCount z (n + 1) = fun l => labelCount z n l + if (z n).2 = l then 1 else 0 := by
              funext l
              exact Finset.sum_range_succ _ _
            rw [this]
            exact t2
          · exact ⟨s', teach_next e1 t1, Or.inr ⟨n + 1, le_refl _, s', _, teach_next e1 t1, t2⟩⟩
          · exact absurd hfit t1
        · obtain ⟨s'', h'', g1, -, -⟩ := after_split hp f1 f2 (n + 1 - N)
          rw [show N + (n + 1 - N) = n + 1 by omega] at g1
          exact ⟨s'', g1, Or.inr ⟨N, by omega, s', h, f1, f2⟩⟩
  by_cases hex : ∃ N s h, Hoeffding.run p (teach lims z N) s0 = .ok s ∧ Split p h s
  · obtain ⟨N, sN, h, f1, f2⟩ := hex
    have hcount : ∀ n l, labelCount z n l ≤ n := by
      intro n l
      have : labelCount z n l ≤ ∑ k ∈ range n, 1 := Finset.sum_le_sum fun k _ => by split <;> omega
      simpa using this
    have hsum : ∀ l, h l ≤ ∑ k, h k := fun l => Finset.single_le_sum (fun _ _ => Nat.zero_le _) (Finset.mem_univ l)
    refine ⟨N + ∑ l, h l, N, fun n c => ?_⟩
    obtain ⟨s', h', g1, g2, g3⟩ := after_split hp f1 f2 (n - N)
    rw [show N + (n - N) = n by omega] at g1 g3
    refine ⟨s', h', g1, Or.inr g2, fun l => ⟨?_, ?_⟩⟩
    · have h1 := g3 l
      have h2 := hsum l
      omega
    · have h1 := g3 l
      have h2 := hcount N l
      omega
  · refine ⟨0, 0, fun n _ => ?_⟩
    obtain ⟨s, e1, e2⟩ := hall n
    rcases e2 with e2 | ⟨N, -, s', h, f1, f2⟩
    · exact ⟨s, _, e1, Or.inl e2, fun l => ⟨by omega, by omega⟩⟩
    · exact absurd ⟨N, s', h, f1, f2⟩ hex

/-! ### Limits -/

/-- If the shares of the labels in the stream converge, so do the scores, for every query. -/
theorem counts_tendsto {q : Fin L → ℝ} (hq : ∀ l, Tendsto (fun n : Nat => (labelCount z n l : ℝ) / n) atTop (𝓝 (q l))) {C N : Nat} {h : Nat → Fin L → Nat}
    (hh : ∀ n ≥ N, ∀ l, h n l ≤ labelCount z n l + C ∧ labelCount z n l ≤ h n l + C) (l : Fin L) : Tendsto (fun n : Nat => (h n l : ℝ) / n) atTop (𝓝 (q l)) := by
  have hC : Tendsto (fun n : Nat => (C : ℝ) / n) atTop (𝓝 0) := tendsto_const_div_atTop_nhds_zero_nat _
  have h1 : Tendsto (fun n : Nat => (labelCount z n l : ℝ) / n + (C : ℝ) / n) atTop (𝓝 (q l)) := by simpa using (hq l).add hC
  have h2 : Tendsto (fun n : Nat => (labelCount z n l : ℝ) / n - (C : ℝ) / n) atTop (𝓝 (q l)) := by simpa using (hq l).sub hC
  refine tendsto_of_tendsto_of_tendsto_of_le_of_le' h2 h1 ?_ ?_
  · filter_upwards [eventually_ge_atTop N] with n hn
    have : (labelCount z n l : ℝ) ≤ h n l + C := by exact_mod_cast (hh n hn l).2
    rw [← sub_div]
    exact div_le_div_of_nonneg_right (by linarith) (Nat.cast_nonneg n)
  · filter_upwards [eventually_ge_atTop N] with n hn
    have : (h n l : ℝ) ≤ labelCount z n l + C := by exact_mod_cast (hh n hn l).1
    rw [← add_div]
    exact div_le_div_of_nonneg_right this (Nat.cast_nonneg n)

theorem labelCount_total (z : Nat → (Nat → ℝ) × Fin L) (n : Nat) : ∑ l, labelCount z n l = n := by
  simp only [labelCount]
  rw [Finset.sum_comm]
  simp

/-- **C154, for a single stream.** If the shares of the labels among the examples converge and that of label `l` is the largest, then after all but finitely many numbers of training
examples the tree predicts `l` for every query, and its scores are within `ε` of the shares. -/
theorem C154_frequencies_partial (hp : p.Ok) (hfit : Fits p L) {s0 : Tree ℝ L} (h0 : new p = .ok s0) {q : Fin L → ℝ}
    (hq : ∀ l, Tendsto (fun n : Nat => (labelCount z n l : ℝ) / n) atTop (𝓝 (q l))) {l : Fin L} (hl : ∀ j, j ≠ l → q j < q l) {ε : ℝ} (hε : 0 < ε) :
    ∀ᶠ n in atTop, ∃ s scores, Hoeffding.run p (teach lims z n) s0 = .ok s ∧ (∀ x, predict p s x = .ok (l.1, (List.ofFn scores).map Dbl.fin)) ∧ ∀ j : Fin L, |scores j - q j| < ε := by
  obtain ⟨C, N, hall⟩ := teach_counts hp hfit h0 lims z
  have hall' : ∀ n, ∃ h : Fin L → Nat, n ≥ N → ∃ s, Hoeffding.run p (teach lims z n) s0 = .ok s ∧ Holds p h s ∧ ∀ l, h l ≤ labelCount z n l + C ∧ labelCount z n l ≤ h l + C := by
    intro n
    by_cases c : n ≥ N
    · obtain ⟨s, h, e⟩ := hall n c
      exact ⟨h, fun _ => ⟨s, e⟩⟩
    · exact ⟨fun _ => 0, fun c' => absurd c' c⟩
  choose h hh using hall'
  have ht : ∀ j, Tendsto (fun n : Nat => (h n j : ℝ) / n) atTop (𝓝 (q j)) := fun j => counts_tendsto hq (N := N) (C := C) (fun n hn l => by
    obtain ⟨s, -, -, e⟩ := hh n hn
    exact e l) j
  have hq1 : ∑ j, q j = 1 := by
    refine tendsto_nhds_unique (tendsto_finsetSum _ fun j _ => hq j) (tendsto_const_nhds.congr' ?_)
    filter_upwards [eventually_ne_atTop 0] with n hn
    rw [← Finset.sum_div, ← Nat.cast_sum, labelCount_total, div_self (by exact_mod_cast hn)]
  have hsum : Tendsto (fun n : Nat => ((∑ j, h n j : Nat) : ℝ) / n) atTop (𝓝 1) := by
    rw [← hq1]
    refine (tendsto_finsetSum _ fun j _ => ht j).congr fun n => ?_
    rw [← Finset.sum_div, Nat.cast_sum]
  have hscore : ∀ j, Tendsto (fun n : Nat => (h n j : ℝ) / ((∑ j, h n j : Nat) : ℝ)) atTop (𝓝 (q j)) := by
    intro j
    have := (ht j).div hsum one_ne_zero
    rw [div_one] at this
    refine this.congr' ?_
    filter_upwards [eventually_ne_atTop 0] with n hn
    exact div_div_div_cancel_right₀ (by exact_mod_cast hn) _ _
  have e1 : ∀ᶠ n in atTop, ∀ j, j ≠ l → h n j < h n l := eventually_all.2 fun j => by
    by_cases c : j = l
    · exact Eventually.of_forall fun n hn => absurd c hn
    · filter_upwards [(ht j).eventually_lt (ht l) (hl j c), eventually_gt_atTop 0] with n hn h0 _
      have hn0 : (0 : ℝ) < n := by exact_mod_cast h0
      exact_mod_cast (div_lt_div_iff_of_pos_right hn0).1 hn
  have e2 : ∀ᶠ n in atTop, 0 < ∑ j, h n j := by
    filter_upwards [hsum.eventually_const_lt (show (0 : ℝ) < 1 by norm_num)] with n hn
    rcases Nat.eq_zero_or_pos (∑ j, h n j) with c | c
    · rw [c] at hn
      simp at hn
    · exact c
  have e3 : ∀ᶠ n in atTop, ∀ j, |(h n j : ℝ) / ((∑ j, h n j : Nat) : ℝ) - q j| < ε := eventually_all.2 fun j => by
    simpa only [Real.dist_eq] using Metric.tendsto_nhds.1 (hscore j) ε hε
  filter_upwards [e1, e2, e3, eventually_ge_atTop N] with n k1 k2 k3 k4
  obtain ⟨s, r1, r2, -⟩ := hh n k4
  refine ⟨s, fun j => (h n j : ℝ) / ((∑ j, h n j : Nat) : ℝ), r1, fun x => ?_, k3⟩
  rw [r2.predict hp x, ← scores_pos k2]
  obtain ⟨hi, m1, -⟩ := majority (K := ℝ) k2
  have : argmax (scoresOf (fun l => (h n l : Int)) : List (Dbl ℝ)) = l.1 := by
    by_contra hne
    have h1 := k1 ⟨_, hi⟩ (fun e => hne (congrArg Fin.val e))
    have h2 := m1 l
    omega
  rw [this]

section Law

variable {Ω : Type} [MeasurableSpace Ω] {μ : Measure Ω} [IsProbabilityMeasure μ] {Z : Nat → Ω → (Nat → ℝ) × Fin L}
  (hZ : ∀ i, Measurable (Z i)) (hindep : Pairwise fun i j => IndepFun (Z i) (Z j) μ) (hident : ∀ i, IdentDistrib (Z i) (Z 0) μ μ)

/-- the probability of label `l` -/
noncomputable def labelShare (μ : Measure Ω) (Z : Ω → (Nat → ℝ) × Fin L) (l : Fin L) : ℝ := μ.real {ω | (Z ω).2 = l}

include hZ hindep hident in
theorem labelShare_ae (l : Fin L) : ∀ᵐ ω ∂μ, Tendsto (fun n : Nat => (labelCount (fun k => Z k ω) n l : ℝ) / n) atTop (𝓝 (labelShare μ (Z 0) l)) := by
  set g : (Nat → ℝ) × Fin L → ℝ := fun s => if s.2 = l then 1 else 0 with hg
  have hm : MeasurableSet {s : (Nat → ℝ) × Fin L | s.2 = l} := measurable_snd (measurableSet_singleton l)
  have hgm : Measurable g := Measurable.ite hm measurable_const measurable_const
  have e : (fun ω => g (Z 0 ω)) = (Z 0 ⁻¹' {s | s.2 = l}).indicator fun _ => (1 : ℝ) := by
    funext ω
    simp only [hg, Set.indicator, Set.mem_preimage, Set.mem_ofPred_eq]
  have hint : Integrable (fun ω => g (Z 0 ω)) μ := by rw [e]; exact (integrable_const _).indicator (hZ 0 hm)
  have h := strong_law_ae_real (fun k ω => g (Z k ω)) hint (fun i j hij => (hindep hij).comp hgm hgm) fun k => (hident k).comp hgm
  have e2 : ∫ ω, g (Z 0 ω) ∂μ = labelShare μ (Z 0) l := by
    rw [e, integral_indicator (hZ 0 hm), setIntegral_const, smul_eq_mul, mul_one]
    rfl
  rw [e2] at h
  filter_upwards [h] with ω hω
  refine hω.congr fun n => ?_
  simp only [labelCount, hg, Nat.cast_sum, Nat.cast_ite, Nat.cast_one, Nat.cast_zero]

include hZ hindep hident in
/-- **C154, what is left of it.** Trained with independent examples of the same law, of which label `l` is the most probable, the tree almost surely predicts `l` for every query after
all but finitely many numbers of examples, with scores that converge to the probabilities of the labels. -/
theorem C154_majority_partial (hp : p.Ok) (hfit : Fits p L) {s0 : Tree ℝ L} (h0 : new p = .ok s0) (lims : Nat → ℝ) {l : Fin L} (hl : ∀ j, j ≠ l → labelShare μ (Z 0) j < labelShare μ (Z 0) l) :
    ∀ᵐ ω ∂μ, ∀ ε > 0, ∀ᶠ n in atTop, ∃ s scores, Hoeffding.run p (teach lims (fun k => Z k ω) n) s0 = .ok s ∧
      (∀ x, predict p s x = .ok (l.1, (List.ofFn scores).map Dbl.fin)) ∧ ∀ j : Fin L, |scores j - labelShare μ (Z 0) j| < ε := by
  have h : ∀ᵐ ω ∂μ, ∀ j, Tendsto (fun n : Nat => (labelCount (fun k => Z k ω) n j : ℝ) / n) atTop (𝓝 (labelShare μ (Z 0) j)) :=
    ae_all_iff.2 fun j => labelShare_ae hZ hindep hident j
  filter_upwards [h] with ω hω ε hε
  exact C154_frequencies_partial hp hfit h0 hω hl hε

end Law

/-! ### Violation -/

namespace Witness

/-- two examples: (0, 0) with label 0, of probability 2/3, and (0, 9) with label 1, of probability 1/3 -/
noncomputable def thirdLaw : Measure ((Nat → ℝ) × Fin 2) := (3⁻¹ : ENNReal) • (Measure.dirac (pointA, 0) + Measure.dirac (pointA, 0) + Measure.dirac (pointB, 1))

theorem thirdLaw_prob : IsProbabilityMeasure thirdLaw := ⟨by
  simp only [thirdLaw, Measure.smul_apply, Measure.add_apply, measure_univ, smul_eq_mul]
  rw [one_add_one_eq_two, two_add_one_eq_three]
  exact ENNReal.inv_mul_cancel (by norm_num) (by norm_num)⟩

/-- a stream of such examples -/
noncomputable def thirdStream : Measure (Nat → (Nat → ℝ) × Fin 2) := haveI := thirdLaw_prob; Measure.infinitePi fun _ => thirdLaw

theorem thirdStream_real {A : Set ((Nat → ℝ) × Fin 2)} [DecidablePred (· ∈ A)] (hm : MeasurableSet A) : thirdStream.real {ω | ω 0 ∈ A} = ((if (pointA, 0) ∈ A then 2 else 0) + (if (pointB, 1) ∈ A then 1 else 0)) / 3 := by
  haveI := thirdLaw_prob
  have e : thirdStream.real {ω | ω 0 ∈ A} = thirdLaw.real A := by
    rw [Measure.real, Measure.real, ← (measurePreserving_eval_infinitePi (fun _ : Nat => thirdLaw) 0).measure_preimage hm.nullMeasurableSet]
    rfl
  rw [e, Measure.real, thirdLaw, Measure.smul_apply, Measure.add_apply, Measure.add_apply, Measure.dirac_apply' _ hm, Measure.dirac_apply' _ hm]
  simp only [Set.indicator, Pi.one_apply, smul_eq_mul, ENNReal.toReal_mul]
  split <;> split <;> norm_num

theorem thirdStream_side (i : Nat) (b : Bool) (l : Fin 2) : sideShare thirdStream (params 284) thresholds (fun ω => ω 0) i b l =
    ((if decide (pointA (featureOfLimit [3, 2] i) < thresholds i) = b ∧ 0 = l then 2 else 0) + (if decide (pointB (featureOfLimit [3, 2] i) < thresholds i) = b ∧ 1 = l then 1 else 0)) / 3 := by
  classical
  have h := thirdStream_real (side_meas (L := 2) (params 284) thresholds i b l)
  have hs : (params 284).sizes = [3, 2] := rfl
  rw [hs] at h
  simp only [Set.mem_ofPred_eq] at h
  rw [sideShare, hs]
  exact h

theorem thirdStream_label (l : Fin 2) : labelShare thirdStream (fun ω => ω 0) l = if l = 0 then 2 / 3 else 1 / 3 := by
  classical
  have hm : MeasurableSet {s : (Nat → ℝ) × Fin 2 | s.2 = l} := measurable_snd (measurableSet_singleton l)
  have h := thirdStream_real hm
  simp only [Set.mem_ofPred_eq] at h
  rw [labelShare, h]
  fin_cases l <;> norm_num

/-- **C154 is violated.** There is a stream of independent examples of the same law in which the side of a limit determines the label, and this limit is better than every other, so that the tree is
split almost surely; but almost surely the label predicted for every query, also for the examples of the second label, is in the long run that of the first. The wrong predictions have
probability 1/3. -/
theorem C154_violated : ∃ (μ : Measure (Nat → (Nat → ℝ) × Fin 2)) (s0 : Tree ℝ 2), IsProbabilityMeasure μ ∧
    (Pairwise fun i j => IndepFun (fun ω : Nat → (Nat → ℝ) × Fin 2 => ω i) (fun ω => ω j) μ) ∧
    (∀ i, IdentDistrib (fun ω : Nat → (Nat → ℝ) × Fin 2 => ω i) (fun ω => ω 0) μ μ) ∧
    (∀ᵐ ω ∂μ, (ω 0).2 = if (ω 0).1 1 < thresholds 2 then 0 else 1) ∧ labelShare μ (fun ω => ω 0) 1 = 1 / 3 ∧
    new (params 284) = .ok s0 ∧ SortedLimits (params 284) thresholds ∧
    ∀ᵐ ω ∂μ, ∀ᶠ n in atTop, ∃ s scores, Hoeffding.run (params 284) (teach thresholds ω n) s0 = .ok s ∧ s.nodes.length = 3 ∧ ∀ x, predict (params 284) s x = .ok (0, scores) := by
  haveI := thirdLaw_prob
  haveI : IsProbabilityMeasure thirdStream := by unfold thirdStream; infer_instance
  obtain ⟨s0, -, h0, -⟩ := start_at (size := 284) (by norm_num)
  have hpres : ∀ i, MeasurePreserving (fun ω : Nat → (Nat → ℝ) × Fin 2 => ω i) thirdStream thirdLaw := fun i => measurePreserving_eval_infinitePi _ i
  have hI : ∀ i, IdentDistrib (fun ω : Nat → (Nat → ℝ) × Fin 2 => ω i) (fun ω => ω 0) thirdStream thirdStream := fun i =>
    ⟨(measurable_pi_apply i).aemeasurable, (measurable_pi_apply 0).aemeasurable, by rw [(hpres i).map_eq, (hpres 0).map_eq]⟩
  have hind : Pairwise fun i j => IndepFun (fun ω : Nat → (Nat → ℝ) × Fin 2 => ω i) (fun ω => ω j) thirdStream := fun i j hij =>
    (iIndepFun_infinitePi (P := fun _ : Nat => thirdLaw) (X := fun _ s => s) fun _ => measurable_id).indepFun hij
  have hfit : Fits (params 284) 2 := by
    rw [Fits, total_eq]
    simp [params]
  have n9 : ¬ (9 : ℝ) < 5 := by norm_num
  have hdet : ∀ᵐ ω ∂thirdStream, (ω 0).2 = if (ω 0).1 1 < thresholds 2 then 0 else 1 := by
    classical
    have hm1 : MeasurableSet {s : (Nat → ℝ) × Fin 2 | s.1 1 < thresholds 2} := measurableSet_lt ((measurable_pi_apply _).comp measurable_fst) measurable_const
    have hm : MeasurableSet {s : (Nat → ℝ) × Fin 2 | ¬ s.2 = if s.1 1 < thresholds 2 then 0 else 1} :=
      (measurableSet_eq_fun measurable_snd (Measurable.ite hm1 measurable_const measurable_const)).compl
    have h := thirdStream_real hm
    rw [ae_iff]
    refine (measureReal_eq_zero_iff).1 (h.trans ?_)
    simp [pointA, pointB, thresholds, n9]
  have f0 : featureOfLimit [3, 2] 0 = 0 := rfl
  have f1 : featureOfLimit [3, 2] 1 = 0 := rfl
  have f2 : featureOfLimit [3, 2] 2 = 1 := rfl
  have e3 : (2 : ℝ) / 3 + 3⁻¹ = 1 := by norm_num
  have g0 : trueGain thirdStream (params 284) thresholds (fun ω => ω 0) 0 = 0 := by
    simp [trueGain, gainOf, entropyOf, thirdStream_side, Fin.sum_univ_two, f0, pointA, pointB, thresholds, e3]
  have g1 : trueGain thirdStream (params 284) thresholds (fun ω => ω 0) 1 = 0 := by
    simp [trueGain, gainOf, entropyOf, thirdStream_side, Fin.sum_univ_two, f1, pointA, pointB, thresholds, e3]
  have g2 : 0 < trueGain thirdStream (params 284) thresholds (fun ω => ω 0) 2 := by
    have l1 : Real.logb 2 (2 / 3) < 0 := Real.logb_neg (by norm_num) (by norm_num) (by norm_num)
    have l2 : 0 < Real.logb 2 3 := Real.logb_pos (by norm_num) (by norm_num)
    simp [trueGain, gainOf, entropyOf, thirdStream_side, Fin.sum_univ_two, f2, pointA, pointB, thresholds, n9, e3]
    nlinarith
  have h3 : (params 284).limitCount = 3 := rfl
  have hsplit := C153_splits (Z := fun i (ω : Nat → (Nat → ℝ) × Fin 2) => ω i) (fun i => measurable_pi_apply i) hind hI (params_ok 284) rfl hfit thresholds_sorted h0 (i := 2) (by rw [h3]; norm_num) (by
    intro j hj hne
    rw [h3] at hj
    have : j = 0 ∨ j = 1 := by omega
    rcases this with rfl | rfl
    · rw [g0]; exact g2
    · rw [g1]; exact g2)
  have hmaj := C154_majority_partial (Z := fun i (ω : Nat → (Nat → ℝ) × Fin 2) => ω i) (fun i => measurable_pi_apply i) hind hI (params_ok 284) hfit h0 thresholds (l := 0) (by
    intro j hj
    rw [thirdStream_label, thirdStream_label, if_neg hj, if_pos rfl]
    norm_num)
  refine ⟨thirdStream, s0, inferInstance, hind, hI, hdet, by rw [thirdStream_label]; norm_num, h0, thresholds_sorted, ?_⟩
  filter_upwards [hsplit, hmaj] with ω w1 w2
  filter_upwards [w1, w2 1 one_pos] with n k1 k2
  obtain ⟨s, r1, r2⟩ := k1
  obtain ⟨s', scores, r3, r4, -⟩ := k2
  rw [r1] at r3
  obtain rfl := Except.ok.inj r3
  exact ⟨s, _, r1, r2, r4⟩

end Witness

end Orp.Hoeffding
