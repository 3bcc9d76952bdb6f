import Verif.Hoeffding.EvidenceProps
import Verif.Hoeffding.Witness

/-!
Examples for property C115, and a tree with five labels whose split does not exceed Hoeffding's bound.
-/

namespace Orp.Hoeffding.Five

open Orp.Hoeffding

set_option linter.unusedSectionVars false

/-- one feature with three bins, five labels, `delta = exp (-1/5)` (about 0.82) -/
noncomputable def params : Params ℝ := { sizes := [3], delta := Real.exp (-(1 / 5)), maxSize := 1000, nodeSize := 64, log := Real.log, log2 := Real.logb 2 }

/-- limits 1 and 2 -/
def limits : Nat → Dbl ℝ := fun i => if i = 0 then .fin 1 else .fin 2

/-- the first point is 0 -/
def pointA : Nat → ℝ := fun _ => 0

/-- the second point is 3/2 -/
noncomputable def pointB : Nat → ℝ := fun _ => 3 / 2

theorem params_ok : params.Ok := by
  constructor
  · simp [params]
  · simp [params, Params.limitCount, Params.sum]
  · simp [params]

theorem total_eq : params.total 5 = 96 := by simp [params, Params.total, Params.limitCount, Params.sum]

theorem log_eq : Real.log (1 / Real.exp (-(1 / 5))) = 1 / 5 := by
  rw [one_div, ← Real.exp_neg, Real.log_exp, neg_neg]

/-- the counters after the first point -/
def bins1 : List (Fin 5 → Nat) := [![1, 0, 0, 0, 0], fun _ => 0, fun _ => 0]

/-- the counters after both points -/
def bins2 : List (Fin 5 → Nat) := [![1, 0, 0, 0, 0], ![0, 1, 0, 0, 0], fun _ => 0]

theorem bump_a : bump (fun _ => 0) (0 : Fin 5) = ![1, 0, 0, 0, 0] := by funext l; fin_cases l <;> rfl
theorem bump_b : bump (fun _ => 0) (1 : Fin 5) = ![0, 1, 0, 0, 0] := by funext l; fin_cases l <;> rfl

theorem fill1 : fillBins [.fin 1, .fin 2] pointA (0 : Fin 5) 0 0 [3] [fun _ => 0, fun _ => 0, fun _ => 0] = .ok bins1 := by
  simp [fillBins, findBin, rd, wr, bind, Except.bind, pure, Except.pure, Dbl.lt, pointA, bump_a, bins1]

theorem fill2 : fillBins [.fin 1, .fin 2] pointB (1 : Fin 5) 0 0 [3] bins1 = .ok bins2 := by
  have h1 : ¬ ((3 : ℝ) / 2 < 1) := by norm_num
  have h2 : (3 : ℝ) / 2 < 2 := by norm_num
  simp [fillBins, findBin, rd, wr, bind, Except.bind, pure, Except.pure, Dbl.lt, pointB, bump_b, bins1, bins2, h1, h2]

theorem xlog_one : xlog params 1 = 0 := by simp [xlog, params]
theorem xlog_zero : xlog params 0 = 0 := by simp [xlog]
theorem xlog_half : xlog params (1 / 2) = - 1 / 2 := by
  have : Real.logb 2 (1 / 2) = -1 := by
    rw [one_div, Real.logb_inv, Real.logb_self_eq_one (by norm_num)]
  simp only [xlog, params]
  rw [if_pos (by norm_num), this]
  norm_num

theorem gains1 : gains params 1 bins1 = .ok [0, 0] := by
  have h := gains_eq params 1 [[![1, 0, 0, 0, 0], fun _ => 0, fun _ => 0]] ![1, 0, 0, 0, 0] rfl (by simp) (by
    intro g hg
    simp at hg
    rcases hg with rfl
    funext l; fin_cases l <;> simp [tally])
  have e : [[![1, 0, 0, 0, 0], fun _ => 0, fun _ => 0]].flatten = bins1 := rfl
  rw [e] at h
  rw [h]
  simp [gainsOf, gainAt, leafEntropy, cutAt, cutEntropy, tally, ratio, xlog_one, xlog_zero, List.range_succ, Fin.sum_univ_succ]

theorem gains2 : gains params 2 bins2 = .ok [1, 0] := by
  have h := gains_eq params 2 [[![1, 0, 0, 0, 0], ![0, 1, 0, 0, 0], fun _ => 0]] ![1, 1, 0, 0, 0] rfl (by simp) (by
    intro g hg
    simp at hg
    rcases hg with rfl
    funext l; fin_cases l <;> simp [tally])
  have e : [[![1, 0, 0, 0, 0], ![0, 1, 0, 0, 0], fun _ => 0]].flatten = bins2 := rfl
  rw [e] at h
  rw [h]
  have hh := xlog_half
  simp [gainsOf, gainAt, leafEntropy, cutAt, cutEntropy, tally, ratio, xlog_one, xlog_zero, List.range_succ, one_add_one_eq_two, Fin.sum_univ_succ, -one_div, hh]
  norm_num

/-- the block of the root after some points -/
def block (count : Nat) (info : List ℝ) (bins : List (Fin 5 → Nat)) : Block ℝ 5 := { count := count, limits := [.fin 1, .fin 2], infoSum := info, bins := bins }

/-- the tree has one leaf, with a given block -/
def At (s : Tree ℝ 5) (b : Block ℝ 5) : Prop := s.nodes = [freshNode params] ∧ s.blocks 0 = b

theorem set_at {s : Tree ℝ 5} (hs : At s (zeroBlock params)) : ∃ s1, setLimits params s limits = .ok s1 ∧ At s1 (block 0 [0, 0] [fun _ => 0, fun _ => 0, fun _ => 0]) := by
  obtain ⟨h1, h3⟩ := hs
  have hm : s.nodes.length * params.nodeSize + params.total 5 ≤ params.maxSize := by rw [h1, total_eq]; simp [params]
  have h0 : rd s.nodes 0 = .ok (freshNode params) := by rw [h1]; rfl
  have hf : (freshNode params).split = -1 := rfl
  simp only [setLimits, h0, hf, getBlock_leaf hm, bind, Except.bind]
  rw [setBlock_leaf hm]
  refine ⟨_, rfl, h1, ?_⟩
  simp [h3, block, zeroBlock, params, Params.limitCount, Params.sum, limits, List.range_succ, List.replicate_succ]

theorem start_at : ∃ s0 s1, new params = .ok s0 ∧ setLimits params s0 limits = .ok s1 ∧ At s1 (block 0 [0, 0] [fun _ => 0, fun _ => 0, fun _ => 0]) := by
  have e := newNode_eq (p := params) (s := ({ nodes := [], blocks := fun _ => zeroBlock params, preset := params.maxSize } : Tree ℝ 5)) rfl
  rw [if_pos (by rw [total_eq]; simp [params])] at e
  obtain ⟨s1, e1, a1⟩ := set_at (s := { nodes := [freshNode params], blocks := Function.update (fun _ => zeroBlock params) 0 (zeroBlock params), preset := params.maxSize }) ⟨rfl, by simp⟩
  exact ⟨_, s1, e, e1, a1⟩

theorem grown_fresh (x : Nat → ℝ) : grown x (freshNode params) = freshNode params := by
  simp [grown, freshNode, growUpper_inf, growLower_inf]

theorem node_a {s : Tree ℝ 5} (hs : At s (block 0 [0, 0] [fun _ => 0, fun _ => 0, fun _ => 0])) :
    ∃ s', trainNode params s 0 pointA 0 = .ok (s', none) ∧ At s' (block 1 [0, 0] bins1) := by
  obtain ⟨h1, h3⟩ := hs
  have e := trainNode_eq (p := params) (s := s) (id := 0) (n := freshNode params) (x := pointA) (label := (0 : Fin 5)) (bins := bins1) (g := [0, 0])
    (by rw [h1]; rfl) rfl (by rw [h1, total_eq]; simp [params]) (by rw [h3]; exact fill1) (by rw [h3]; exact gains1)
  rw [e, h3]
  have hb : bestTwo ((filled (block 0 [0, 0] [fun _ => 0, fun _ => 0, fun _ => 0]) bins1 [0, 0]).infoSum.map
      (fun a => a / ((((block 0 [0, 0] [fun _ => 0, fun _ => 0, fun _ => 0]).count + 1 : Nat)) : ℝ))) = .ok (0, 0, 0) := by
    simp [block, filled, bestTwo, bestLoop]
  rw [hb]
  simp only [bind, Except.bind]
  rw [if_neg (by simp)]
  refine ⟨_, rfl, ?_, ?_⟩
  · simp only [trained, h1, grown_fresh]; rfl
  · simp [trained, filled, block]

theorem node_b {s : Tree ℝ 5} (hs : At s (block 1 [0, 0] bins1)) :
    ∃ s' v, trainNode params s 0 pointB 1 = .ok (s', some (0, v)) ∧ At s' (block 2 [1, 0] bins2) := by
  obtain ⟨h1, h3⟩ := hs
  have e := trainNode_eq (p := params) (s := s) (id := 0) (n := freshNode params) (x := pointB) (label := (1 : Fin 5)) (bins := bins2) (g := [1, 0])
    (by rw [h1]; rfl) rfl (by rw [h1, total_eq]; simp [params]) (by rw [h3]; exact fill2) (by rw [h3]; exact gains2)
  rw [e, h3]
  have hb : bestTwo ((filled (block 1 [0, 0] bins1) bins2 [1, 0]).infoSum.map (fun a => a / ((((block 1 [0, 0] bins1).count + 1 : Nat)) : ℝ)))
      = .ok (0, 1 / 2, 0) := by
    simp [block, filled, bestTwo, bestLoop]
  rw [hb]
  simp only [bind, Except.bind]
  rw [if_pos (by
    simp only [params, block]
    rw [log_eq]
    refine ⟨?_, by norm_num⟩
    push_cast
    norm_num)]
  refine ⟨_, _, rfl, ?_, ?_⟩
  · simp only [trained, h1, grown_fresh]; rfl
  · simp [trained, filled, block]

/-- the history before the last point -/
noncomputable def history : List (Op ℝ 5) := [.setLimits limits, .train pointA 0]

theorem splits : ∃ s0 s s', new params = .ok s0 ∧ run params history s0 = .ok s ∧ s.nodes.length = 1 ∧ train params s pointB 1 = .ok s' ∧ s'.nodes.length = 3 ∧
    gainHistory params (history ++ [.train pointB 1]) s0 = .ok [[0, 0], [1, 0]] := by
  have hp := params_ok
  obtain ⟨s0, s1, e0, e1, a1⟩ := start_at
  obtain ⟨s2, e2, a2⟩ := node_a a1
  obtain ⟨s3, v, e3, a3⟩ := node_b a2
  obtain ⟨f0, -, -⟩ := OneLeaf.zero_info hp e0
  obtain ⟨s1', e1', f1⟩ := f0.setLimits hp limits
  rw [e1] at e1'; have := Except.ok.inj e1'; subst this
  obtain ⟨s2', r2, e2', f2, _⟩ := f1.trainNode hp pointA 0
  rw [e2] at e2'
  have := Except.ok.inj e2'
  simp only [Prod.mk.injEq] at this
  obtain ⟨rfl, _⟩ := this
  obtain ⟨s3', r3, e3', f3, _⟩ := f2.trainNode hp pointB 1
  rw [e3] at e3'
  have := Except.ok.inj e3'
  simp only [Prod.mk.injEq] at this
  obtain ⟨rfl, _⟩ := this
  have t1 : train params s1 pointA 0 = .ok s2 := by
    simp only [train, sort_one f1, e2, bind, Except.bind, pure, Except.pure]
  obtain ⟨s4, e4, sp4, root, right, left, n4, r4, v4⟩ := (splitNode_eq hp f3 (f := 0) (by simp [params]) v).1 (by rw [total_eq]; simp [params])
  obtain ⟨s5, t2, t3⟩ : ∃ s5, train params s2 pointB 1 = .ok s5 ∧ s5.nodes.length = 3 := by
    have hF : Fits params 5 := by simp only [Fits, total_eq]; simp [params]
    rcases f2.train hp pointB 1 with ⟨s5, g1, g2⟩ | ⟨s5, g1, g2⟩ | ⟨g1, -⟩
    · exfalso
      obtain ⟨root', right', left', v', hns, _, hv, hle, hri, hrs, hls⟩ := sp4.node
      have hr0 : rd s4.nodes 0 = .ok root' := by rw [hns]; rfl
      simp only [train, sort_one f2, e3, e4, hr0, bind, Except.bind] at g1
      have h2 : (2 : Int).toNat = 2 := rfl
      have h1 : (1 : Int).toNat = 1 := rfl
      by_cases cx : Dbl.le (.fin (pointB 0)) v = true
      · obtain ⟨s6, k1, k2⟩ := sp4.trainNode hp (id := 2) (n := left') (Or.inr rfl) (by rw [hns]; rfl) hls pointB 1
        rw [if_pos cx, hle, if_neg (by omega), h2, k1] at g1
        obtain rfl := Except.ok.inj g1
        have := g2.nodes_length
        rw [k2.nodes_length] at this
        omega
      · obtain ⟨s6, k1, k2⟩ := sp4.trainNode hp (id := 1) (n := right') (Or.inl rfl) (by rw [hns]; rfl) hrs pointB 1
        rw [if_neg cx, hri, if_neg (by omega), h1, k1] at g1
        obtain rfl := Except.ok.inj g1
        have := g2.nodes_length
        rw [k2.nodes_length] at this
        omega
    · exact ⟨s5, g1, g2.nodes_length⟩
    · exact absurd hF g1
  refine ⟨s0, s2, s5, e0, ?_, by rw [a2.1]; rfl, t2, t3, ?_⟩
  · simp only [run, history, exec, e1, t1, bind, Except.bind]
  · have rg : ∀ {k : Fin 5 → Nat} {s : Tree ℝ 5} {b : Block ℝ 5}, OneLeaf params k s → At s b → rootGains params s = gains params b.count b.bins := by
      intro k s b h1 h2
      have hm : s.nodes.length * params.nodeSize + params.total 5 ≤ params.maxSize := by rw [h1.nodes_length, Nat.one_mul]; exact h1.mem
      have h0 : rd s.nodes 0 = .ok (freshNode params) := by rw [h2.1]; rfl
      have hf : (freshNode params).split = -1 := rfl
      simp only [rootGains, h0, hf, getBlock_leaf hm, bind, Except.bind, h2.2]
    have g1 := rg f2 a2
    have g2 := rg f3 a3
    simp only [block, gains1, gains2] at g1 g2
    simp only [history, List.cons_append, List.nil_append, gainHistory, e1, e2, e3, g1, g2, bind, Except.bind, pure, Except.pure]

theorem logb_five : (9 : ℝ) / 4 ≤ Real.logb 2 5 := by
  rw [Real.le_logb_iff_rpow_le (by norm_num) (by norm_num)]
  have h : ((2 : ℝ) ^ ((9 : ℝ) / 4)) ^ (4 : ℕ) ≤ 5 ^ (4 : ℕ) := by
    rw [← Real.rpow_natCast, ← Real.rpow_mul (by norm_num)]
    norm_num
  exact le_of_pow_le_pow_left₀ (by norm_num) (by norm_num) h

/-- **C115** With five labels the tree can split although the difference of the best average gains is below Hoeffding's bound. -/
theorem C115_bound_violated : ∃ (p : Params ℝ) (ops : List (Op ℝ 5)) (s0 s s' : Tree ℝ 5) (x : Nat → ℝ) (label : Fin 5) (gs : List (List ℝ)),
    p.log = Real.log ∧ p.log2 = Real.logb 2 ∧ p.Ok ∧ 0 < p.delta ∧ p.delta < 1 ∧ new p = .ok s0 ∧ run p ops s0 = .ok s ∧ s.nodes.length = 1 ∧ train p s x label = .ok s' ∧
    s'.nodes.length = 3 ∧ gainHistory p (ops ++ [.train x label]) s0 = .ok gs ∧ averages p gs = [1 / 2, 0] ∧ ¬ ExceedsBound (Real.logb 2 5) p.delta gs.length (1 / 2 - 0) := by
  obtain ⟨s0, s, s', h1, h2, h3, h4, h5, h6⟩ := splits
  refine ⟨params, history, s0, s, s', pointB, 1, _, rfl, rfl, params_ok, Real.exp_pos _, ?_, h1, h2, h3, h4, h5, h6, ?_, ?_⟩
  · exact Real.exp_lt_one_iff.2 (by norm_num)
  · simp [averages, params, Params.limitCount, Params.sum, List.range_succ]
  · have h := logb_five
    simp only [ExceedsBound, params]
    rw [log_eq]
    simp only [List.length_cons, List.length_nil]
    push_cast
    rw [not_lt, sub_zero]
    nlinarith

end Orp.Hoeffding.Five

namespace Orp.Hoeffding

/-- `C115_waits` applies: two labels and `delta = exp (-1)` leave room for two points. -/
example : ∃ s0 s : Tree ℝ 2, new { Witness.params 156 with delta := Real.exp (-1) } = .ok s0 ∧
    run { Witness.params 156 with delta := Real.exp (-1) } Witness.history s0 = .ok s ∧ s.nodes.length = 1 := by
  refine C115_waits (L := 2) (p := { Witness.params 156 with delta := Real.exp (-1) }) rfl ⟨(Witness.params_ok 156).pos, (Witness.params_ok 156).two, (Witness.params_ok 156).node⟩ ?_ ?_ ?_
  · exact le_of_eq (congrArg (64 + ·) (Witness.total_eq 156))
  · intro op ho
    simp only [Witness.history, List.mem_cons, List.not_mem_nil, or_false] at ho
    rcases ho with rfl | rfl | rfl <;> trivial
  · have : Real.log (1 / Real.exp (-1)) = 1 := by rw [one_div, ← Real.exp_neg, Real.log_exp, neg_neg]
    simp only [Witness.history, labels, Witness.params, this]
    simp

/-- With `delta = 9 / 10` the same points split the tree (`Witness.splits`), so `C115_bound_partial` and `C115_split_rule` apply to them. -/
example : ∃ s0 s : Tree ℝ 2, new (Witness.params 284) = .ok s0 ∧ run (Witness.params 284) Witness.history s0 = .ok s ∧ s.nodes.length = 3 := by
  obtain ⟨s0, s, root, right, left, h1, h2, h3, -⟩ := Witness.splits (size := 284) (le_refl _)
  exact ⟨s0, s, h1, h2, by rw [h3]; rfl⟩

/-- `C115_one_label` applies: the same label for both points, and the split of the other example does not happen. -/
example : ∃ s0 s : Tree ℝ 2, new (Witness.params 156) = .ok s0 ∧
    run (Witness.params 156) [.setLimits Witness.limits, .train Witness.pointA 1, .train Witness.pointB 1] s0 = .ok s ∧ s.nodes.length = 1 := by
  refine C115_one_label (L := 2) (l0 := 1) rfl (Witness.params_ok 156) (le_of_eq (congrArg (64 + ·) (Witness.total_eq 156))) ?_ ?_
  · intro op ho
    simp only [List.mem_cons, List.not_mem_nil, or_false] at ho
    rcases ho with rfl | rfl | rfl <;> trivial
  · simp [labels]

end Orp.Hoeffding
