import Verif.Mondrian.Many
import Verif.Mondrian.LeavesProps
import Verif.Mondrian.Distribution

/-!
Property C158: with many trees a Mondrian forest gives the label with the largest expected vote.
-/

set_option linter.unusedSectionVars false

namespace Orp.Mondrian

open MeasureTheory Orp.Reservoir

variable {F L : Nat}

/-- **C158.** After any history, on a forest with nodes for it, the probability that the query `x` gets the label `lab` is at least `1 - L * exp (-(n * gap ^ 2 / (8 * B ^ 2)))`
for a forest of `n` trees, if the expected vote for `lab` of a Mondrian tree of the training points is by `gap` larger than that for any other label. The number `B` depends on the
number of training points and the parameters only. -/
theorem C158_many_trees (p : Params ℝ) (hlife : 0 ≤ p.lifetime) (hlog : p.log = Real.log) (hexp : p.exp = Real.exp) (hdisc : 0 ≤ p.discount) (m n : Nat) (hn : 0 < n)
    (ops : List (Op ℝ F L)) (hz : points ops ≠ []) (hm : n * (2 * (points ops).length - 1) ≤ m) (x : Fin F → ℝ) (lab : Fin L) (gap : ℝ) (hgap : 0 < gap)
    (h : ∀ l, l ≠ lab → expectedVote p (points ops) x l + gap ≤ expectedVote p (points ops) x lab) :
    1 - L * Real.exp (-(n * gap ^ 2 / (8 * maxVote p (points ops).length ^ 2))) ≤
      draws.real {ω | ∃ s pos, run p (nums ω) ops (new m n) 0 = .ok (s, pos) ∧ (predict p s x).map (fun r => r.2) = .ok lab.val} := by
  have hem : Measurable p.exp := by rw [hexp]; exact Real.measurable_exp
  have h1 := C146_predictions p hlife hlog hem (by rw [hexp, Real.exp_zero]) hdisc m n hn ops hz hm [(x, lab.val)]
  have h2 := answers_many hlife hlog hexp hdisc hz hn x lab hgap h
  simp only [List.mem_singleton, forall_eq] at h1
  rw [measureReal_def, h1]
  exact h2

/-- **C158** for `MondrianForestUnbound`, without a condition on the memory -/
theorem C158_unbound (p : Params ℝ) (hlife : 0 ≤ p.lifetime) (hlog : p.log = Real.log) (hexp : p.exp = Real.exp) (hdisc : 0 ≤ p.discount) (n : Nat) (hn : 0 < n)
    (ops : List (Op ℝ F L)) (hz : points ops ≠ []) (x : Fin F → ℝ) (lab : Fin L) (gap : ℝ) (hgap : 0 < gap)
    (h : ∀ l, l ≠ lab → expectedVote p (points ops) x l + gap ≤ expectedVote p (points ops) x lab) :
    1 - L * Real.exp (-(n * gap ^ 2 / (8 * maxVote p (points ops).length ^ 2))) ≤
      draws.real {ω | ∃ s pos, Unbound.run p (nums ω) ops (Unbound.new n) 0 = .ok (s, pos) ∧ Unbound.predict p s x = .ok lab.val} := by
  have hem : Measurable p.exp := by rw [hexp]; exact Real.measurable_exp
  have h1 := C146_unbound p hlife hlog hem (by rw [hexp, Real.exp_zero]) hdisc n hn ops hz [(x, lab.val)]
  have h2 := answers_many hlife hlog hexp hdisc hz hn x lab hgap h
  simp only [List.mem_singleton, forall_eq] at h1
  rw [measureReal_def, h1]
  exact h2

theorem maxVote_pos (p : Params ℝ) (k : Nat) : 0 < maxVote p k := by
  have h1 := voteBound_leaf p k (abs_nonneg p.base)
  have h2 := meanUp_nonneg p (abs_nonneg p.base)
  have h3 := abs_nonneg p.base
  unfold maxVote
  linarith

theorem bound_limit (L : Nat) {gap B : ℝ} (hgap : 0 < gap) (hB : 0 < B) :
    Filter.Tendsto (fun n : Nat => 1 - L * Real.exp (-(n * gap ^ 2 / (8 * B ^ 2)))) Filter.atTop (nhds 1) := by
  have h1 : Filter.Tendsto (fun n : Nat => (n : ℝ) * (gap ^ 2 / (8 * B ^ 2))) Filter.atTop Filter.atTop :=
    Filter.Tendsto.atTop_mul_const (by positivity) tendsto_natCast_atTop_atTop
  have h2 := (Real.tendsto_exp_neg_atTop_nhds_zero.comp h1).const_mul (L : ℝ)
  have h3 := h2.const_sub 1
  simp only [mul_zero, sub_zero, Function.comp_apply] at h3
  simpa only [mul_div_assoc] using h3

/-- **C158.** With more and more trees, each with nodes for the history, the probability of the label with the largest expected vote tends to 1. -/
theorem C158_limit (p : Params ℝ) (hlife : 0 ≤ p.lifetime) (hlog : p.log = Real.log) (hexp : p.exp = Real.exp) (hdisc : 0 ≤ p.discount) (m : Nat → Nat)
    (ops : List (Op ℝ F L)) (hz : points ops ≠ []) (hm : ∀ n, n * (2 * (points ops).length - 1) ≤ m n) (x : Fin F → ℝ) (lab : Fin L)
    (h : ∀ l, l ≠ lab → expectedVote p (points ops) x l < expectedVote p (points ops) x lab) :
    Filter.Tendsto (fun n => draws.real {ω | ∃ s pos, run p (nums ω) ops (new (m n) n) 0 = .ok (s, pos) ∧ (predict p s x).map (fun r => r.2) = .ok lab.val})
      Filter.atTop (nhds 1) := by
  obtain ⟨gap, hgap, hg⟩ : ∃ gap : ℝ, 0 < gap ∧ ∀ l, l ≠ lab → expectedVote p (points ops) x l + gap ≤ expectedVote p (points ops) x lab := by
    by_cases hS : (Finset.univ.filter (· ≠ lab) : Finset (Fin L)).Nonempty
    · obtain ⟨l0, hl0, hmin⟩ := Finset.exists_min_image _ (fun l => expectedVote p (points ops) x lab - expectedVote p (points ops) x l) hS
      exact ⟨_, sub_pos.2 (h l0 (by simpa using hl0)), fun l hl => by have := hmin l (by simpa using hl); linarith⟩
    · exact ⟨1, one_pos, fun l hl => absurd ⟨l, by simpa using hl⟩ hS⟩
  refine tendsto_of_tendsto_of_tendsto_of_le_of_le' (bound_limit L hgap (maxVote_pos p (points ops).length)) tendsto_const_nhds ?_
    (Filter.Eventually.of_forall fun n => measureReal_le_one)
  filter_upwards [Filter.eventually_gt_atTop 0] with n hn
  exact C158_many_trees p hlife hlog hexp hdisc (m n) n hn ops hz (hm n) x lab gap hgap hg

/-- **C158.** Two forests with their own random numbers, trained with the same points in any order, agree with high probability: both predict the label with the largest expected
vote. -/
theorem C158_agree (p : Params ℝ) (hlife : 0 ≤ p.lifetime) (hlog : p.log = Real.log) (hexp : p.exp = Real.exp) (hdisc : 0 ≤ p.discount) (m m' n n' : Nat) (hn : 0 < n) (hn' : 0 < n')
    (ops ops' : List (Op ℝ F L)) (hp : (points ops).Perm (points ops')) (hz : points ops ≠ []) (hm : n * (2 * (points ops).length - 1) ≤ m)
    (hm' : n' * (2 * (points ops).length - 1) ≤ m') (x : Fin F → ℝ) (lab : Fin L) (gap : ℝ) (hgap : 0 < gap)
    (h : ∀ l, l ≠ lab → expectedVote p (points ops) x l + gap ≤ expectedVote p (points ops) x lab) :
    1 - L * Real.exp (-(n * gap ^ 2 / (8 * maxVote p (points ops).length ^ 2))) - L * Real.exp (-(n' * gap ^ 2 / (8 * maxVote p (points ops).length ^ 2))) ≤
      (draws.prod draws).real {ω | ∃ s pos s' pos', run p (nums ω.1) ops (new m n) 0 = .ok (s, pos) ∧ run p (nums ω.2) ops' (new m' n') 0 = .ok (s', pos') ∧
        (predict p s x).map (fun r => r.2) = .ok lab.val ∧ (predict p s' x).map (fun r => r.2) = .ok lab.val} := by
  have h1 := C158_many_trees p hlife hlog hexp hdisc m n hn ops hz hm x lab gap hgap h
  have h2 := C158_many_trees p hlife hlog hexp hdisc m' n' hn' ops' (fun e => hz (e ▸ hp).eq_nil) (by rw [← hp.length_eq]; exact hm') x lab gap hgap (fun l hl => by
    simp only [expectedVote, ← mondrianLaw_perm p.lifetime hp]; exact h l hl)
  rw [← hp.length_eq] at h2
  set A := {ω | ∃ s pos, run p (nums ω) ops (new m n) 0 = .ok (s, pos) ∧ (predict p s x).map (fun r => r.2) = .ok lab.val} with hA
  set A' := {ω | ∃ s pos, run p (nums ω) ops' (new m' n') 0 = .ok (s, pos) ∧ (predict p s x).map (fun r => r.2) = .ok lab.val} with hA'
  have e : {ω : (Nat → U01) × (Nat → U01) | ∃ s pos s' pos', run p (nums ω.1) ops (new m n) 0 = .ok (s, pos) ∧ run p (nums ω.2) ops' (new m' n') 0 = .ok (s', pos') ∧
      (predict p s x).map (fun r => r.2) = .ok lab.val ∧ (predict p s' x).map (fun r => r.2) = .ok lab.val} = A ×ˢ A' := by
    ext ω
    simp only [hA, hA', Set.mem_ofPred_eq, Set.mem_prod]
    constructor
    · rintro ⟨s, pos, s', pos', a, b, c, d⟩
      exact ⟨⟨s, pos, a, c⟩, ⟨s', pos', b, d⟩⟩
    · rintro ⟨⟨s, pos, a, c⟩, ⟨s', pos', b, d⟩⟩
      exact ⟨s, pos, s', pos', a, b, c, d⟩
  rw [e, measureReal_prod_prod]
  have h3 : draws.real A ≤ 1 := measureReal_le_one
  have h4 : draws.real A' ≤ 1 := measureReal_le_one
  nlinarith [mul_nonneg (sub_nonneg.2 h3) (sub_nonneg.2 h4)]

/-! ### Example -/

/-- no discount -/
noncomputable def exM : Params ℝ := { lifetime := 2, base := 1 / 2, discount := 0, exp := Real.exp, log := Real.log }

/-- two places with two points each -/
def fourPts : List (Point ℝ 2 2) := [(pt2 0 0, 0), (pt2 0 0, 0), (pt2 5 5, 1), (pt2 5 5, 1)]

theorem anon_leafCount : ∀ t : Tree ℝ F L, t.anon.leafCount = t.leafCount
  | .leaf _ _ => rfl
  | .node _ _ _ _ l r => by simp only [Tree.anon, Tree.leafCount, anon_leafCount l, anon_leafCount r]

theorem scores_in_leaf (id : Nat) (d : Data ℝ 2 2) (x : Fin 2 → ℝ) (pm : Fin 2 → ℝ) (ptau : ℝ) (he : eta d.box x = 0) :
    scores exM x (.leaf id d) ptau 1 pm (fun _ => 0) = .ok (meanOf exM d ptau pm) := by
  simp [scores, he, smooth, exM, bind, Except.bind, pure, Except.pure]

theorem scores_in_node (id : Nat) (d : Data ℝ 2 2) (dim : Fin 2) (sp : ℝ) (l r : Tree ℝ 2 2) (x : Fin 2 → ℝ) (pm : Fin 2 → ℝ) (ptau : ℝ) (he : eta d.box x = 0) (hx : x dim ≤ sp) :
    scores exM x (.node id d dim sp l r) ptau 1 pm (fun _ => 0) = scores exM x l d.tau 1 (meanOf exM d ptau pm) (fun _ => 0) := by
  simp [scores, he, smooth, exM, bind, Except.bind, hx]

theorem four_hull {b : Box ℝ 2} (h : IsHull fourPts b) : ∀ i, b.lower i ≤ pt2 0 0 i ∧ pt2 0 0 i ≤ b.upper i := fun i =>
  h.1 (pt2 0 0, 0) (by simp [fourPts]) i

theorem four_votes (t : Tree ℝ 2 2) (hr : Right fourPts t) : vote exM (pt2 0 0) 0 t - vote exM (pt2 0 0) 1 t = if 1 < t.leafCount then 1 / 4 else 0 := by
  cases t with
  | leaf id d =>
      have he := eta_inside (four_hull hr.2.1)
      have hc := hr.2.2
      simp only [vote, Tree.recount, treeScores, scores_in_leaf id d _ _ _ he, resVal, Tree.leafCount]
      simp [meanOf, hc, histogram, fourPts, exM, Utils.min, Fin.sum_univ_two, List.countP_cons]
  | node id d dim sp l r =>
      have he := eta_inside (four_hull hr.1)
      have h1 := hr.2.1.ne_nil
      have h2 := hr.2.2.ne_nil
      have e0 : pt2 0 0 dim = 0 := by fin_cases dim <;> rfl
      have e5 : pt2 5 5 dim = 5 := by fin_cases dim <;> rfl
      have hs0 : 0 ≤ sp := by
        by_contra hc
        apply h1
        simp [fourPts, e0, e5]
        constructor <;> linarith
      have hs5 : ¬ 5 ≤ sp := by
        intro hc
        apply h2
        simp [fourPts, e0, e5, hc, hs0]
      have el : fourPts.filter (fun z => z.1 dim ≤ sp) = [(pt2 0 0, 0), (pt2 0 0, 0)] := by simp [fourPts, e0, e5, hs0, hs5]
      have er : fourPts.filter (fun z => ¬ z.1 dim ≤ sp) = [(pt2 5 5, 1), (pt2 5 5, 1)] := by simp [fourPts, e0, e5, hs0, not_le.1 hs5]
      have hl := hr.2.1
      have hr' := hr.2.2
      rw [el] at hl
      rw [er] at hr'
      obtain ⟨i1, d1, rfl, b1, c1⟩ := hl.leaf_of_place (z := pt2 0 0) (by simp)
      obtain ⟨i2, d2, rfl, b2, c2⟩ := hr'.leaf_of_place (z := pt2 5 5) (by simp)
      have he1 : eta d1.box (pt2 0 0) = 0 := eta_inside fun i => ⟨(b1 i).1.le, (b1 i).2.ge⟩
      simp only [vote, Tree.recount, treeScores, Tree.leafCount]
      rw [scores_in_node _ _ _ _ _ _ _ _ _ (by exact he) (by rw [e0]; exact hs0), scores_in_leaf _ _ _ _ _ he1]
      simp [resVal, meanOf, Tree.data, c1, c2, histogram, exM, Utils.min, Fin.sum_univ_two, List.countP_cons]
      norm_num

/-- A tree of the four points has a split with probability `1 - exp (-20)`. -/
theorem four_leaf : mondrianLaw 2 fourPts {t | 1 < t.leafCount}ᶜ = ENNReal.ofReal (Real.exp (-20)) := by
  have hE : MeasurableSet {t : Tree ℝ 2 2 | 1 < t.leafCount} := isEvent_more 1
  rw [mondrianLaw_apply 2 _ hE.compl, mondrian]
  have e : fourPts.length = 3 + 1 := rfl
  have hsize : (hull fourPts).size = 10 := by
    simp [hull, fourPts, Box.size, Box.extend, Fin.sum_univ_two, pt2]
    norm_num
  have hpos : ∀ t : Tree ℝ 2 2, 0 < t.leafCount := fun t => by have := t.ids_leafCount; omega
  have hnode : ∀ (i : Nat) (d : Data ℝ 2 2) (dim : Fin 2) (x : ℝ) (l r : Tree ℝ 2 2), ¬ (Tree.node i d dim x l r) ∈ {t : Tree ℝ 2 2 | 1 < t.leafCount}ᶜ := fun i d dim x l r h => by
    have h1 := hpos l
    have h2 := hpos r
    simp only [Set.mem_compl_iff, Set.mem_ofPred_eq, Tree.leafCount, not_lt] at h
    omega
  have hleaf : ∀ (i : Nat) (d : Data ℝ 2 2), (Tree.leaf i d) ∈ {t : Tree ℝ 2 2 | 1 < t.leafCount}ᶜ := fun i d => by simp [Tree.leafCount]
  rw [e]
  rw [batch]
  simp only [hnode, hleaf, if_true, if_false, batch_zero, mul_one, mul_zero, lintegral_zero, Finset.sum_const_zero, add_zero, hsize]
  norm_num

theorem four_gap : expectedVote exM fourPts (pt2 0 0) 1 + (1 - Real.exp (-20)) / 4 ≤ expectedVote exM fourPts (pt2 0 0) 0 := by
  have hz : fourPts ≠ [] := by simp [fourPts]
  have hprob := mondrianLaw_prob exM.lifetime (by norm_num [exM]) fourPts hz
  have hE : MeasurableSet {t : Tree ℝ 2 2 | 1 < t.leafCount} := isEvent_more 1
  have hae := votes_ae (p := exM) (by norm_num [exM]) rfl rfl le_rfl hz (pt2 0 0)
  have hm : ∀ l, Measurable (vote (L := 2) exM (pt2 0 0) l) := fun l => vote_meas Real.measurable_exp _ l
  have hvi : ∀ l, Integrable (vote (L := 2) exM (pt2 0 0) l) (mondrianLaw exM.lifetime fourPts) := fun l =>
    Integrable.of_mem_Icc (-maxVote exM fourPts.length) (maxVote exM fourPts.length) (hm l).aemeasurable (hae.mono fun t ht => abs_le.1 (ht.2 l))
  have h1 : ∀ᵐ t ∂mondrianLaw exM.lifetime fourPts, vote exM (pt2 0 0) 0 t - vote exM (pt2 0 0) 1 t = {t : Tree ℝ 2 2 | 1 < t.leafCount}.indicator (fun _ => 1 / 4) t := by
    refine law_ae (p := exM) (by norm_num [exM]) rfl hz ?_ fun t hr _ => ?_
    · exact measurableSet_eq_fun ((hm 0).sub (hm 1)) (measurable_const.indicator hE)
    · have := four_votes t hr
      simp only [vote, treeScores_anon, Set.indicator, Set.mem_ofPred_eq, anon_leafCount] at this ⊢
      exact this
  have h2 : expectedVote exM fourPts (pt2 0 0) 0 - expectedVote exM fourPts (pt2 0 0) 1 = (1 - Real.exp (-20)) / 4 := by
    rw [expectedVote, expectedVote, ← integral_sub (hvi 0) (hvi 1), integral_congr_ae h1, integral_indicator_const _ hE]
    have h3 := probReal_compl_eq_one_sub (μ := mondrianLaw exM.lifetime fourPts) hE
    rw [measureReal_def, show exM.lifetime = 2 from rfl, four_leaf, ENNReal.toReal_ofReal (Real.exp_pos _).le] at h3
    rw [smul_eq_mul, show exM.lifetime = 2 from rfl]
    linarith
  linarith

/-- Trained with two points of label 0 at `(0, 0)` and two of label 1 at `(5, 5)`, in any order and with predictions in between, forests with more and more trees predict the
label 0 at `(0, 0)` with a probability that tends to 1. -/
example : Filter.Tendsto (fun n => draws.real {ω | ∃ s pos, run exM (nums ω) [.train (pt2 0 0) 0, .train (pt2 0 0) 0, .predict (pt2 1 1), .train (pt2 5 5) 1, .train (pt2 5 5) (1 : Fin 2)]
    (new (n * 7) n) 0 = .ok (s, pos) ∧ (predict exM s (pt2 0 0)).map (fun r => r.2) = .ok 0}) Filter.atTop (nhds 1) := by
  refine C158_limit exM (by norm_num [exM]) rfl rfl le_rfl (fun n => n * 7) _ (by simp [points]) (fun n => by simp [points]) (pt2 0 0) (0 : Fin 2) fun l hl => ?_
  have e : l = 1 := by omega
  subst e
  have h1 := four_gap
  have h2 : Real.exp (-20) < 1 := Real.exp_lt_one_iff.2 (by norm_num)
  change expectedVote exM fourPts (pt2 0 0) 1 < expectedVote exM fourPts (pt2 0 0) 0
  linarith

end Orp.Mondrian
