import Verif.Mondrian.Leaves
import Verif.Mondrian.BatchPredictProps
import Mathlib.MeasureTheory.Integral.Lebesgue.Markov

/-!
Property C148: the memory a Mondrian forest needs does not grow with the stream. When all training points lie in a box, the expected number of nodes of a tree is
at most `2 * ∏ (1 + lifetime * side) - 1`, for any number of training points.
-/

set_option linter.unusedSectionVars false

namespace Orp.Mondrian

open MeasureTheory Orp.Reservoir

variable {F L : Nat}

/-! ### The expected number of leaves as an integral -/

theorem leafCount_measurable : Measurable fun t : Tree ℝ F L => (t.leafCount : ENNReal) := measurable_tree fun X _ t ht => leafCount_measF X t ht

theorem nat_tsum (m : Nat) : (m : ENNReal) = ∑' k : Nat, if k < m then 1 else 0 := by
  rw [tsum_eq_sum (s := Finset.range m) (fun k hk => if_neg (by simpa using hk)), Finset.sum_congr rfl fun k hk => if_pos (Finset.mem_range.1 hk)]
  simp

theorem isEvent_more (k : Nat) : IsEvent {t : Tree ℝ F L | k < t.leafCount} := fun X _ t ht => by
  obtain ⟨c, hc⟩ := ht.leafCount
  have : t ⁻¹' {t | k < t.leafCount} = {_y | k < c} := by
    ext y
    simp [hc]
  rw [this]
  exact MeasurableSet.const _

theorem lintegral_leaves (life : ℝ) (pts : List (Point ℝ F L)) : ∫⁻ t, (t.leafCount : ENNReal) ∂mondrianLaw life pts = batch life pts.length pts 0 fun t => (t.leafCount : ENNReal) := by
  have e : ∀ k, Measurable fun t : Tree ℝ F L => if k < t.leafCount then (1 : ENNReal) else 0 := fun k => Measurable.ite (isEvent_more k) measurable_const measurable_const
  have h : MeasT fun (k : Nat) (t : Tree ℝ F L) => if k < t.leafCount then (1 : ENNReal) else 0 := by
    intro Y _ a t ha ht
    obtain ⟨c, hc⟩ := ht.leafCount
    simp only [hc]
    exact Measurable.ite (ha (measurableSet_Iio (a := c))) measurable_const measurable_const
  simp only [nat_tsum (Tree.leafCount _)]
  rw [lintegral_tsum fun k => (e k).aemeasurable]
  have := batch_swap life pts.length pts 0 (Measure.count : Measure Nat) h
  simp only [lintegral_count] at this
  rw [this]
  refine tsum_congr fun k => ?_
  have h1 : ∫⁻ t, (if k < t.leafCount then (1 : ENNReal) else 0) ∂mondrianLaw life pts = mondrianLaw life pts {t | k < t.leafCount} := by
    rw [← lintegral_indicator_one (show MeasurableSet {t : Tree ℝ F L | k < t.leafCount} from isEvent_more k)]
    refine lintegral_congr fun t => ?_
    simp only [Set.indicator, Set.mem_ofPred_eq, Pi.one_apply]
  rw [h1, mondrianLaw_apply life pts (isEvent_more k)]
  unfold mondrian
  congr 1
  funext t
  simp only [Set.mem_ofPred_eq]
  by_cases hk : k < t.leafCount <;> simp [hk]

/-- the expected number of nodes of one tree -/
theorem lintegral_nodes {life : ℝ} (hlife : 0 ≤ life) {pts : List (Point ℝ F L)} (h : pts ≠ []) {b : Box ℝ F} (hb : ∀ z ∈ pts, ∀ d, b.lower d ≤ z.1 d ∧ z.1 d ≤ b.upper d) :
    ∫⁻ t, (t.ids.length : ENNReal) ∂mondrianLaw life pts ≤ ENNReal.ofReal (2 * growth b life - 1) := by
  have := mondrianLaw_prob life hlife pts h
  have e1 : (∫⁻ t, (t.ids.length : ENNReal) ∂mondrianLaw life pts) + 1 = 2 * ∫⁻ t, (t.leafCount : ENNReal) ∂mondrianLaw life pts := by
    rw [← lintegral_const_mul _ leafCount_measurable]
    have : (1 : ENNReal) = ∫⁻ _, 1 ∂mondrianLaw life pts := by simp
    conv_lhs => rw [this]
    rw [← lintegral_add_right _ measurable_const]
    refine lintegral_congr fun t => ?_
    exact_mod_cast t.ids_leafCount
  have hin := fun d => hull_within h (lo := b.lower) (up := b.upper) hb d
  have e2 : ∫⁻ t, (t.leafCount : ENNReal) ∂mondrianLaw life pts ≤ ENNReal.ofReal (growth b life) := by
    rw [lintegral_leaves]
    refine (batch_leaves life _ h hlife).trans (ENNReal.ofReal_le_ofReal ?_)
    rw [sub_zero]
    exact growth_mono hlife (fun d => (hin d).2.1) fun d => by linarith [(hin d).1, (hin d).2.2]
  have e3 : 1 ≤ growth b life := by
    unfold growth
    refine Finset.one_le_prod fun d _ => ?_
    have := mul_nonneg hlife (sub_nonneg.2 (((hin d).1.trans (hin d).2.1).trans (hin d).2.2))
    linarith
  have e4 : (∫⁻ t, (t.ids.length : ENNReal) ∂mondrianLaw life pts) + 1 ≤ ENNReal.ofReal (2 * growth b life - 1) + 1 := by
    rw [e1]
    have : ENNReal.ofReal (2 * growth b life - 1) + 1 = 2 * ENNReal.ofReal (growth b life) := by
      rw [← ENNReal.ofReal_one, ← ENNReal.ofReal_add (by linarith) zero_le_one, ← ENNReal.ofReal_ofNat 2, ← ENNReal.ofReal_mul (by norm_num)]
      congr 1
      ring
    rw [this]
    exact mul_le_mul_right e2 _
  exact (ENNReal.add_le_add_iff_right ENNReal.one_ne_top).1 e4

/-! ### The nodes of a forest -/

/-- the number of nodes of the unlimited forest after a history; 0 when the history fails -/
noncomputable def nodesUsed (p : Params ℝ) (n : Nat) (ops : List (Op ℝ F L)) (ω : Nat → U01) : Nat :=
  match Unbound.run p (nums ω) ops (Unbound.new n) 0 with
  | .ok (s, _) => s.heap.length
  | .error _ => 0

theorem allIds_sum : ∀ (trees : List (Option (Tree ℝ F L))), (allIds trees).length = (trees.map fun o => (oids o).length).sum
  | [] => rfl
  | o :: os => by rw [allIds_cons, List.length_append, allIds_sum os, List.map_cons, List.sum_cons]

theorem nodes_trained {p : Params ℝ} (hlife : 0 ≤ p.lifetime) (h0 : p.exp 0 = 1) (hdisc : 0 ≤ p.discount) {n : Nat} (hn : 0 < n) {ops : List (Op ℝ F L)} (hz : points ops ≠ []) :
    ∀ᵐ ω ∂(draws : Measure (Nat → U01)), nodesUsed p n ops ω = ∑ k, (trained p (n * (2 * (points ops).length - 1)) n (points ops) ω k).ids.length := by
  refine draws_pos.mono fun ω hω => ?_
  have hω' : ∀ i, 0 < nums ω i ∧ nums ω i < 1 := fun i => ⟨hω i, (nums_range ω i).2⟩
  obtain ⟨⟨s, pos⟩, hr⟩ := Unbound.run_ok p h0 hdisc (nums ω) hω' n hn ops 0
  obtain ⟨trees₀, a1, a2, -, -, a5⟩ := Unbound.run_good p (nums ω) (nums_range ω) (· ≤ ·) (fun a b h => h.le) (Unbound.draw_le' (nums_range ω)) n ops 0 _ hr
  have hlen : s.heap.length ≤ n * (2 * (points ops).length - 1) := by
    have := allIds_le a5
    rwa [a1.length, a2] at this
  obtain ⟨s₁, h1, ⟨ts, ts₁, h2, h3, h4⟩, -⟩ := Unbound.C59_bounded_follows p hlife (nums ω) (nums_range ω) _ n ops 0 s pos hr hlen
  obtain ⟨s₂, g1, ⟨us, us₂, g2, g3, g4⟩, -⟩ := C71_predict_is_pure p hlife (nums ω) (nums_range ω) _ n ops 0 s₁ pos h1
  rw [trainings_all] at g1
  obtain ⟨vs, k1, k2, k3⟩ := trained_run hlife hz le_rfl g1
  have e1 : (allIds trees₀).length = (allIds vs).length := by
    rw [C52_trees_unique a1.all h2, h4.ids_length, C52_trees_unique h3 g2, g4.ids_length, C52_trees_unique g3 k1]
  have e2 : nodesUsed p n ops ω = s.heap.length := by
    unfold nodesUsed
    rw [hr]
  rw [e2, ← a1.length, e1, allIds_sum, ← Fin.sum_univ_getElem]
  subst k2
  rw [← Equiv.sum_comp (finCongr (List.length_map (as := vs) fun o => (oids o).length))]
  refine Finset.sum_congr rfl fun k _ => ?_
  obtain ⟨t, t1, t2⟩ := k3 (finCongr (List.length_map (as := vs) fun o => (oids o).length) k)
  rw [t2, anon_length]
  have t3 : vs[k.1]? = some (some t) := by simpa using t1
  obtain ⟨q, t4⟩ := List.getElem?_eq_some_iff.1 t3
  simp only [List.getElem_map, t4, oids]

/-- **C148, the expectation.** The calls of `train` and `predict` on a new unlimited forest with `n` trees, with training points in the box `b`: the expected number of nodes is at most
`n * (2 * ∏ (1 + lifetime * side) - 1)`, whatever the number of calls. -/
theorem C148_expected (p : Params ℝ) (hlife : 0 ≤ p.lifetime) (hlog : p.log = Real.log) (h0 : p.exp 0 = 1) (hdisc : 0 ≤ p.discount) (n : Nat) (hn : 0 < n)
    (ops : List (Op ℝ F L)) (hz : points ops ≠ []) (b : Box ℝ F) (hb : ∀ z ∈ points ops, ∀ d, b.lower d ≤ z.1 d ∧ z.1 d ≤ b.upper d) :
    (∀ᵐ ω ∂(draws : Measure (Nat → U01)), ∃ s pos, Unbound.run p (nums ω) ops (Unbound.new n) 0 = .ok (s, pos) ∧ s.heap.length = nodesUsed p n ops ω) ∧
    ∫⁻ ω, (nodesUsed p n ops ω : ENNReal) ∂(draws : Measure (Nat → U01)) ≤ n * ENNReal.ofReal (2 * ∏ d, (1 + p.lifetime * (b.upper d - b.lower d)) - 1) := by
  constructor
  · refine draws_pos.mono fun ω hω => ?_
    obtain ⟨⟨s, pos⟩, hr⟩ := Unbound.run_ok p h0 hdisc (nums ω) (fun i => ⟨hω i, (nums_range ω i).2⟩) n hn ops 0
    exact ⟨s, pos, hr, by unfold nodesUsed; rw [hr]⟩
  have hm : Measurable fun t : Tree ℝ F L => (t.ids.length : ENNReal) := measurable_tree fun X _ t ht => by
    obtain ⟨k, hk⟩ := ht.nodes
    simp only [hk]
    exact measurable_const
  have := mondrianLaw_prob p.lifetime hlife (points ops) hz
  have hk : ∀ k : Fin n, Measurable fun T : Fin n → Tree ℝ F L => ((T k).ids.length : ENNReal) := fun k => hm.comp (measurable_pi_apply (X := fun _ : Fin n => Tree ℝ F L) k)
  calc ∫⁻ ω, (nodesUsed p n ops ω : ENNReal) ∂(draws : Measure (Nat → U01))
      = ∫⁻ ω, ∑ k, ((trained p (n * (2 * (points ops).length - 1)) n (points ops) ω k).ids.length : ENNReal) ∂(draws : Measure (Nat → U01)) :=
        lintegral_congr_ae ((nodes_trained hlife h0 hdisc hn hz).mono fun ω hω => by simp only [hω, Nat.cast_sum])
    _ = ∫⁻ T, ∑ k, ((T k).ids.length : ENNReal) ∂(Measure.pi fun _ : Fin n => mondrianLaw p.lifetime (points ops)) := by
        rw [← trained_law hlife hlog _ n hz le_rfl, lintegral_map (Finset.measurable_fun_sum _ fun k _ => hk k) (trained_meas hlog _ n _)]
    _ = ∑ k : Fin n, ∫⁻ T, ((T k).ids.length : ENNReal) ∂(Measure.pi fun _ : Fin n => mondrianLaw p.lifetime (points ops)) := lintegral_finsetSum _ fun k _ => hk k
    _ = ∑ _k : Fin n, ∫⁻ t, (t.ids.length : ENNReal) ∂mondrianLaw p.lifetime (points ops) := by
        refine Finset.sum_congr rfl fun k _ => ?_
        exact (measurePreserving_eval (fun _ : Fin n => mondrianLaw p.lifetime (points ops)) k).lintegral_comp hm
    _ ≤ ∑ _k : Fin n, ENNReal.ofReal (2 * growth b p.lifetime - 1) := Finset.sum_le_sum fun k _ => lintegral_nodes hlife hz hb
    _ = n * ENNReal.ofReal (2 * ∏ d, (1 + p.lifetime * (b.upper d - b.lower d)) - 1) := by simp [growth]

/-- **C148, the tail.** -/
theorem C148_tail (p : Params ℝ) (hlife : 0 ≤ p.lifetime) (hlog : p.log = Real.log) (h0 : p.exp 0 = 1) (hdisc : 0 ≤ p.discount) (n : Nat) (hn : 0 < n)
    (ops : List (Op ℝ F L)) (hz : points ops ≠ []) (b : Box ℝ F) (hb : ∀ z ∈ points ops, ∀ d, b.lower d ≤ z.1 d ∧ z.1 d ≤ b.upper d) (m : Nat) :
    draws {ω | ∃ s pos, Unbound.run p (nums ω) ops (Unbound.new n) 0 = .ok (s, pos) ∧ m < s.heap.length} ≤
      n * ENNReal.ofReal (2 * ∏ d, (1 + p.lifetime * (b.upper d - b.lower d)) - 1) / (m + 1) := by
  have hmeas : AEMeasurable (fun ω => (nodesUsed p n ops ω : ENNReal)) (draws : Measure (Nat → U01)) := by
    refine ⟨fun ω => ∑ k, ((trained p (n * (2 * (points ops).length - 1)) n (points ops) ω k).ids.length : ENNReal), ?_, ?_⟩
    · have hm : Measurable fun t : Tree ℝ F L => (t.ids.length : ENNReal) := measurable_tree fun X _ t ht => by
        obtain ⟨k, hk⟩ := ht.nodes
        simp only [hk]
        exact measurable_const
      exact Finset.measurable_fun_sum _ fun k _ => hm.comp ((measurable_pi_apply (X := fun _ : Fin n => Tree ℝ F L) k).comp (trained_meas hlog _ n _))
    · exact (nodes_trained hlife h0 hdisc hn hz).mono fun ω hω => by simp only [hω, Nat.cast_sum]
  have h1 := (C148_expected p hlife hlog h0 hdisc n hn ops hz b hb).2
  have h2 := mul_meas_ge_le_lintegral₀ hmeas ((m : ENNReal) + 1)
  rw [ENNReal.le_div_iff_mul_le (Or.inl (by simp)) (Or.inl (by exact_mod_cast ENNReal.natCast_ne_top (m + 1))), mul_comm]
  refine le_trans (mul_le_mul_right (measure_mono ?_) _) (h2.trans h1)
  rintro ω ⟨s, pos, hr, hlt⟩
  have e : nodesUsed p n ops ω = s.heap.length := by
    unfold nodesUsed
    rw [hr]
  show (m : ENNReal) + 1 ≤ (nodesUsed p n ops ω : ENNReal)
  rw [e]
  exact_mod_cast hlt

/-- **C148, the forest with `m` nodes.** Except with a small probability that does not depend on the number of calls, the forest with `m` nodes has the trees and gives the
answers of the unlimited one. -/
theorem C148_bounded (p : Params ℝ) (hlife : 0 ≤ p.lifetime) (hlog : p.log = Real.log) (h0 : p.exp 0 = 1) (hdisc : 0 ≤ p.discount) (n : Nat) (hn : 0 < n)
    (ops : List (Op ℝ F L)) (hz : points ops ≠ []) (b : Box ℝ F) (hb : ∀ z ∈ points ops, ∀ d, b.lower d ≤ z.1 d ∧ z.1 d ≤ b.upper d) (m : Nat) :
    draws {ω | ¬ ∃ s s' pos trees trees', Unbound.run p (nums ω) ops (Unbound.new n) 0 = .ok (s, pos) ∧ run p (nums ω) ops (new m n) 0 = .ok (s', pos) ∧
      HoldsAll ⟨s.heap, s.roots⟩ trees ∧ HoldsAll s' trees' ∧ SameTrees trees trees' ∧ ∀ x, (predict p s' x).map (fun r => r.2) = Unbound.predict p s x} ≤
      n * ENNReal.ofReal (2 * ∏ d, (1 + p.lifetime * (b.upper d - b.lower d)) - 1) / (m + 1) := by
  refine le_trans (measure_mono_ae (draws_pos.mono fun ω hω => ?_)) (C148_tail p hlife hlog h0 hdisc n hn ops hz b hb m)
  intro hnot
  obtain ⟨⟨s, pos⟩, hr⟩ := Unbound.run_ok p h0 hdisc (nums ω) (fun i => ⟨hω i, (nums_range ω i).2⟩) n hn ops 0
  refine ⟨s, pos, hr, ?_⟩
  by_contra hle
  obtain ⟨s', h1, ⟨trees, trees', h2, h3, h4⟩, h5⟩ := Unbound.C59_bounded_follows p hlife (nums ω) (nums_range ω) m n ops 0 s pos hr (not_lt.1 hle)
  exact hnot ⟨s, s', pos, trees, trees', hr, h1, h2, h3, h4, h5⟩

/-- **C148, the memory to reserve.** For every box and every probability there is a number of nodes that is enough for streams of every length in the box. -/
theorem C148_memory (p : Params ℝ) (hlife : 0 ≤ p.lifetime) (hlog : p.log = Real.log) (h0 : p.exp 0 = 1) (hdisc : 0 ≤ p.discount) (n : Nat) (hn : 0 < n) (b : Box ℝ F)
    {ε : ENNReal} (hε : 0 < ε) :
    ∃ m, ∀ ops : List (Op ℝ F L), points ops ≠ [] → (∀ z ∈ points ops, ∀ d, b.lower d ≤ z.1 d ∧ z.1 d ≤ b.upper d) →
      draws {ω | ¬ ∃ s s' pos trees trees', Unbound.run p (nums ω) ops (Unbound.new n) 0 = .ok (s, pos) ∧ run p (nums ω) ops (new m n) 0 = .ok (s', pos) ∧
        HoldsAll ⟨s.heap, s.roots⟩ trees ∧ HoldsAll s' trees' ∧ SameTrees trees trees' ∧ ∀ x, (predict p s' x).map (fun r => r.2) = Unbound.predict p s x} ≤ ε := by
  set c : ENNReal := n * ENNReal.ofReal (2 * ∏ d, (1 + p.lifetime * (b.upper d - b.lower d)) - 1) with hc
  have hct : c ≠ ⊤ := ENNReal.mul_ne_top (ENNReal.natCast_ne_top _) ENNReal.ofReal_ne_top
  obtain ⟨m, hm⟩ := ENNReal.exists_nat_gt (r := c / ε) (ENNReal.div_ne_top hct hε.ne')
  refine ⟨m, fun ops hz hb => (C148_bounded p hlife hlog h0 hdisc n hn ops hz b hb m).trans ?_⟩
  rw [← hc]
  by_cases ht : ε = ⊤
  · rw [ht]; exact le_top
  rw [ENNReal.div_le_iff_le_mul (Or.inl (by simp)) (Or.inl (by exact_mod_cast ENNReal.natCast_ne_top (m + 1)))]
  have h1 : c ≤ m * ε := (ENNReal.div_le_iff_le_mul (Or.inl hε.ne') (Or.inl ht)).1 hm.le
  calc c ≤ m * ε := h1
    _ ≤ ε * (m + 1) := by rw [mul_comm]; exact mul_le_mul_right le_self_add _

/-! ### Example -/

/-- any number of points in the unit square: the 2 trees of lifetime 2 have an expected number of nodes of at most 34 -/
example (ops : List (Op ℝ 2 2)) (hz : points ops ≠ []) (hb : ∀ z ∈ points ops, ∀ d, (0 : ℝ) ≤ z.1 d ∧ z.1 d ≤ 1) :
    ∫⁻ ω, (nodesUsed exR 2 ops ω : ENNReal) ∂(draws : Measure (Nat → U01)) ≤ 34 := by
  have := (C148_expected exR (by norm_num [exR]) rfl (by simp [exR]) (by norm_num [exR]) 2 (by norm_num) ops hz ⟨fun _ => 0, fun _ => 1⟩ hb).2
  refine this.trans (le_of_eq ?_)
  norm_num [exR]

example : points [.train (pt2 0 1) 0, .predict (pt2 1 1), .train (pt2 1 0) (1 : Fin 2)] ≠ [] ∧
    ∀ z ∈ points [.train (pt2 0 1) 0, .predict (pt2 1 1), .train (pt2 1 0) (1 : Fin 2)], ∀ d, (0 : ℝ) ≤ z.1 d ∧ z.1 d ≤ 1 := by
  constructor
  · simp [points]
  · intro z hz d
    simp only [points, List.mem_cons, List.not_mem_nil, or_false] at hz
    rcases hz with rfl | rfl <;> fin_cases d <;> norm_num [pt2]

end Orp.Mondrian
