import Verif.Hoeffding.Gain
import Verif.Hoeffding.Run
import Mathlib.Analysis.SpecialFunctions.Log.Deriv
import Mathlib.Tactic.FinCases
import Mathlib.Analysis.Complex.ExponentialBounds

/-!
A history over the real numbers, with the real logarithms, in which the tree splits: two features with three and two bins, two labels, and two training points
that differ in the second feature only.
-/

namespace Orp.Hoeffding.Witness

open Orp.Hoeffding

set_option linter.unusedSectionVars false

/-- parameters with a given amount of memory -/
noncomputable def params (size : Nat) : Params ℝ :=
  { sizes := [3, 2], delta := 9 / 10, maxSize := size, nodeSize := 64, log := Real.log, log2 := Real.logb 2 }

/-- limits 1 and 2 for feature 0, and 5 for feature 1 -/
def limits : Nat → Dbl ℝ := fun i => if i = 0 then .fin 1 else if i = 1 then .fin 2 else .fin 5

/-- the first point is (0, 0) -/
def pointA : Nat → ℝ := fun _ => 0

/-- the second point is (0, 9) -/
def pointB : Nat → ℝ := fun i => if i = 1 then 9 else 0

/-- the history: set the limits, then train both points, with different labels -/
def history : List (Op ℝ 2) := [.setLimits limits, .train pointA 0, .train pointB 1]

theorem params_ok (size : Nat) : (params size).Ok := by
  constructor
  · simp [params]
  · simp [params, Params.limitCount, Params.sum]
  · simp [params]

theorem total_eq (size : Nat) : (params size).total 2 = 92 := by simp [params, Params.total, Params.limitCount, Params.sum]

theorem log_bound : Real.log (1 / (9 / 10)) < 1 / 4 := by
  have h := Real.log_le_sub_one_of_pos (x := 1 / (9 / 10 : ℝ)) (by norm_num)
  have : (1 : ℝ) / (9 / 10) - 1 < 1 / 4 := by norm_num
  linarith

/-- the counters after the first point -/
def bins1 : List (Fin 2 → Nat) := [![1, 0], fun _ => 0, fun _ => 0, ![1, 0], fun _ => 0]

/-- the counters after both points -/
def bins2 : List (Fin 2 → Nat) := [![1, 1], fun _ => 0, fun _ => 0, ![1, 0], ![0, 1]]

theorem bump_a : bump (fun _ => 0) (0 : Fin 2) = ![1, 0] := by funext l; fin_cases l <;> rfl
theorem bump_b : bump (fun _ => 0) (1 : Fin 2) = ![0, 1] := by funext l; fin_cases l <;> rfl
theorem bump_c : bump ![1, 0] (1 : Fin 2) = ![1, 1] := by funext l; fin_cases l <;> rfl

theorem fill1 : fillBins [.fin 1, .fin 2, .fin 5] pointA (0 : Fin 2) 0 0 [3, 2] [fun _ => 0, fun _ => 0, fun _ => 0, fun _ => 0, fun _ => 0] = .ok bins1 := by
  simp [fillBins, findBin, rd, wr, bind, Except.bind, pure, Except.pure, Dbl.lt, pointA, bump_a, bins1]

theorem fill2 : fillBins [.fin 1, .fin 2, .fin 5] pointB (1 : Fin 2) 0 0 [3, 2] bins1 = .ok bins2 := by
  simp [fillBins, findBin, rd, wr, bind, Except.bind, pure, Except.pure, Dbl.lt, pointB, bump_c, bins1, bins2]
  norm_num
  exact bump_b

theorem xlog_one (size : Nat) : xlog (params size) 1 = 0 := by simp [xlog, params]
theorem xlog_zero (size : Nat) : xlog (params size) 0 = 0 := by simp [xlog]
theorem xlog_half (size : Nat) : xlog (params size) (1 / 2) = - 1 / 2 := by
  have : Real.logb 2 (1 / 2) = -1 := by
    rw [one_div, Real.logb_inv, Real.logb_self_eq_one (by norm_num)]
  simp only [xlog, params]
  rw [if_pos (by norm_num), this]
  norm_num

theorem gains1 (size : Nat) : gains (params size) 1 bins1 = .ok [0, 0, 0] := by
  have h := gains_eq (params size) 1 [[![1, 0], fun _ => 0, fun _ => 0], [![1, 0], fun _ => 0]] ![1, 0] rfl (by simp) (by
    intro g hg
    simp at hg
    rcases hg with rfl | rfl <;> (funext l; fin_cases l <;> simp [tally]))
  have e : [[![1, 0], fun _ => 0, fun _ => 0], [![1, 0], fun _ => 0]].flatten = bins1 := rfl
  rw [e] at h
  rw [h]
  simp [gainsOf, gainAt, leafEntropy, cutAt, cutEntropy, tally, ratio, xlog_one, xlog_zero, List.range_succ]

theorem gains2 (size : Nat) : gains (params size) 2 bins2 = .ok [0, 0, 1] := by
  have h := gains_eq (params size) 2 [[![1, 1], fun _ => 0, fun _ => 0], [![1, 0], ![0, 1]]] ![1, 1] rfl (by simp) (by
    intro g hg
    simp at hg
    rcases hg with rfl | rfl <;> (funext l; fin_cases l <;> simp [tally]))
  have e : [[![1, 1], fun _ => 0, fun _ => 0], [![1, 0], ![0, 1]]].flatten = bins2 := rfl
  rw [e] at h
  rw [h]
  have hh := xlog_half size
  simp [gainsOf, gainAt, leafEntropy, cutAt, cutEntropy, tally, ratio, xlog_one, xlog_zero, List.range_succ, one_add_one_eq_two, -one_div, hh]
  norm_num

/-- the block of the root after some points -/
def block (count : Nat) (info : List ℝ) (bins : List (Fin 2 → Nat)) : Block ℝ 2 := { count := count, limits := [.fin 1, .fin 2, .fin 5], infoSum := info, bins := bins }

/-- the tree has one leaf, with a given block -/
def At (size : Nat) (s : Tree ℝ 2) (b : Block ℝ 2) : Prop := s.nodes = [freshNode (params size)] ∧ s.preset = size ∧ s.blocks 0 = b

theorem set_at {size : Nat} (h : 156 ≤ size) {s : Tree ℝ 2} (hs : At size s (zeroBlock (params size))) : ∃ s1, setLimits (params size) s limits = .ok s1 ∧
    At size s1 (block 0 [0, 0, 0] [fun _ => 0, fun _ => 0, fun _ => 0, fun _ => 0, fun _ => 0]) := by
  obtain ⟨h1, h2, h3⟩ := hs
  have hsz : (params size).maxSize = size := rfl
  have hns : (params size).nodeSize = 64 := rfl
  have hm : s.nodes.length * (params size).nodeSize + (params size).total 2 ≤ (params size).maxSize := by rw [h1, total_eq, hsz, hns]; simpa using h
  have h0 : rd s.nodes 0 = .ok (freshNode (params size)) := by rw [h1]; rfl
  have hf : (freshNode (params size)).split = -1 := rfl
  simp only [setLimits, h0, hf, getBlock_leaf hm, bind, Except.bind]
  rw [setBlock_leaf hm]
  refine ⟨_, rfl, h1, h2, ?_⟩
  simp [h3, block, zeroBlock, params, Params.limitCount, Params.sum, limits, List.range_succ, List.replicate_succ]

theorem start_at {size : Nat} (h : 156 ≤ size) : ∃ s0 s1, new (params size) = .ok s0 ∧ setLimits (params size) s0 limits = .ok s1 ∧
    At size s1 (block 0 [0, 0, 0] [fun _ => 0, fun _ => 0, fun _ => 0, fun _ => 0, fun _ => 0]) := by
  have e := newNode_eq (p := params size) (s := ({ nodes := [], blocks := fun _ => zeroBlock (params size), preset := (params size).maxSize } : Tree ℝ 2)) rfl
  have hsz : (params size).maxSize = size := rfl
  have hns : (params size).nodeSize = 64 := rfl
  rw [if_pos (by rw [total_eq, hsz, hns]; simpa using h)] at e
  obtain ⟨s1, e1, a1⟩ := set_at h (s := { nodes := [freshNode (params size)], blocks := Function.update (fun _ => zeroBlock (params size)) 0 (zeroBlock (params size)), preset := size }) ⟨rfl, rfl, by simp⟩
  exact ⟨_, s1, e, e1, a1⟩

theorem grown_fresh (size : Nat) (x : Nat → ℝ) : grown x (freshNode (params size)) = freshNode (params size) := by
  simp [grown, freshNode, growUpper_inf, growLower_inf]

theorem node_a {size : Nat} (h : 156 ≤ size) {s : Tree ℝ 2} (hs : At size s (block 0 [0, 0, 0] [fun _ => 0, fun _ => 0, fun _ => 0, fun _ => 0, fun _ => 0])) :
    ∃ s', trainNode (params size) s 0 pointA 0 = .ok (s', none) ∧ At size s' (block 1 [0, 0, 0] bins1) := by
  obtain ⟨h1, h2, h3⟩ := hs
  have hsz : (params size).maxSize = size := rfl
  have hns : (params size).nodeSize = 64 := rfl
  have e := trainNode_eq (p := params size) (s := s) (id := 0) (n := freshNode (params size)) (x := pointA) (label := (0 : Fin 2)) (bins := bins1) (g := [0, 0, 0])
    (by rw [h1]; rfl) rfl (by rw [h1, total_eq, hsz, hns]; simpa using h) (by rw [h3]; exact fill1) (by rw [h3]; exact gains1 size)
  rw [e, h3]
  have hb : bestTwo ((filled (block 0 [0, 0, 0] [fun _ => 0, fun _ => 0, fun _ => 0, fun _ => 0, fun _ => 0]) bins1 [0, 0, 0]).infoSum.map
      (fun a => a / ((((block 0 [0, 0, 0] [fun _ => 0, fun _ => 0, fun _ => 0, fun _ => 0, fun _ => 0]).count + 1 : Nat)) : ℝ))) = .ok (0, 0, 0) := by
    simp [block, filled, bestTwo, bestLoop]
  rw [hb]
  simp only [bind, Except.bind]
  rw [if_neg (by simp)]
  refine ⟨_, rfl, ?_, h2, ?_⟩
  · simp only [trained, h1, grown_fresh]; rfl
  · simp [trained, filled, block]

theorem node_b {size : Nat} (h : 156 ≤ size) {s : Tree ℝ 2} (hs : At size s (block 1 [0, 0, 0] bins1)) :
    ∃ s', trainNode (params size) s 0 pointB 1 = .ok (s', some (0, .fin 5)) ∧ At size s' (block 2 [0, 0, 1] bins2) := by
  obtain ⟨h1, h2, h3⟩ := hs
  have hsz : (params size).maxSize = size := rfl
  have hns : (params size).nodeSize = 64 := rfl
  have e := trainNode_eq (p := params size) (s := s) (id := 0) (n := freshNode (params size)) (x := pointB) (label := (1 : Fin 2)) (bins := bins2) (g := [0, 0, 1])
    (by rw [h1]; rfl) rfl (by rw [h1, total_eq, hsz, hns]; simpa using h) (by rw [h3]; exact fill2) (by rw [h3]; exact gains2 size)
  rw [e, h3]
  have hb : bestTwo ((filled (block 1 [0, 0, 0] bins1) bins2 [0, 0, 1]).infoSum.map (fun a => a / ((((block 1 [0, 0, 0] bins1).count + 1 : Nat)) : ℝ)))
      = .ok (2, 1 / 2, 0) := by
    simp [block, filled, bestTwo, bestLoop]
  rw [hb]
  have hlog := log_bound
  simp only [bind, Except.bind]
  rw [if_pos (by
    simp only [params, block]
    refine ⟨?_, by norm_num⟩
    push_cast
    norm_num at hlog ⊢
    linarith)]
  refine ⟨_, rfl, ?_, h2, ?_⟩
  · simp only [trained, h1, grown_fresh]; rfl
  · simp [trained, filled, block]

theorem at_one {size : Nat} (h : 156 ≤ size) {s0 s1 s2 s3 : Tree ℝ 2} (h0 : new (params size) = .ok s0) (h1 : setLimits (params size) s0 limits = .ok s1)
    (h2 : trainNode (params size) s1 0 pointA 0 = .ok (s2, none)) {r : Option (Nat × Dbl ℝ)} (h3 : trainNode (params size) s2 0 pointB 1 = .ok (s3, r)) :
    ∃ k, OneLeaf (params size) k s1 ∧ ∃ k2, OneLeaf (params size) k2 s2 ∧ ∃ k3, OneLeaf (params size) k3 s3 := by
  have hp := params_ok size
  obtain ⟨s0', e0, f0⟩ := (new_eq (L := 2) (params size) hp).1 (by rw [total_eq]; simpa [params] using h)
  rw [h0] at e0; have := Except.ok.inj e0; subst this
  obtain ⟨s1', e1, f1⟩ := f0.setLimits hp limits
  rw [h1] at e1; have := Except.ok.inj e1; subst this
  obtain ⟨s2', r2, e2, f2, _⟩ := f1.trainNode hp pointA 0
  rw [h2] at e2
  have := Except.ok.inj e2
  simp only [Prod.mk.injEq] at this
  obtain ⟨rfl, _⟩ := this
  obtain ⟨s3', r3, e3, f3, _⟩ := f2.trainNode hp pointB 1
  rw [h3] at e3
  have := Except.ok.inj e3
  simp only [Prod.mk.injEq] at this
  obtain ⟨rfl, _⟩ := this
  exact ⟨_, f1, _, f2, _, f3⟩

/-- With enough memory the second point splits the root: on feature 0, at the limit of feature 1. -/
theorem splits {size : Nat} (h : 284 ≤ size) : ∃ s0 s root right left, new (params size) = .ok s0 ∧ run (params size) history s0 = .ok s ∧
    s.nodes = [root, right, left] ∧ root.split = 0 ∧ root.value = some (.fin 5) := by
  have hp := params_ok size
  obtain ⟨s0, s1, e0, e1, a1⟩ := start_at (size := size) (by omega)
  obtain ⟨s2, e2, a2⟩ := node_a (by omega) a1
  obtain ⟨s3, e3, a3⟩ := node_b (by omega) a2
  obtain ⟨k1, o1, k2, o2, k3, o3⟩ := at_one (by omega) e0 e1 e2 e3
  obtain ⟨s4, e4, sp4, root, right, left, n4, r4, v4⟩ := (splitNode_eq hp o3 (f := 0) (by simp [params]) (.fin 5)).1 (by rw [total_eq]; simpa [params] using h)
  obtain ⟨root', right', left', v', hns, hf, hv, hle, hri, hrs, hls⟩ := sp4.node
  rw [n4] at hns
  simp only [List.cons.injEq, and_true] at hns
  obtain ⟨rfl, rfl, rfl⟩ := hns
  obtain ⟨b5, e5, _⟩ := trainNode_frozen hp (id := 2) (n := left) pointB 1 (by rw [n4]; rfl) hls (by rw [sp4.nodes_length]; exact sp4.mem) sp4.block
  have t1 : train (params size) s1 pointA 0 = .ok s2 := by
    simp only [train, sort_one o1, e2, bind, Except.bind, pure, Except.pure]
  have r0 : rd s4.nodes 0 = .ok root := by rw [n4]; rfl
  have t2 : train (params size) s2 pointB 1 = .ok (trained s4 2 (grown pointB left) b5) := by
    have hle' : Dbl.le (.fin (pointB 0)) (.fin 5) = true := by simp [Dbl.le, pointB]
    simp only [train, sort_one o2, e3, e4, r0, bind, Except.bind, pure, Except.pure, hle', if_true, hle]
    rw [if_neg (by omega)]
    have : (2 : Int).toNat = 2 := rfl
    rw [this, e5]
  refine ⟨s0, trained s4 2 (grown pointB left) b5, root, right, grown pointB left, e0, ?_, ?_, r4, v4⟩
  · simp only [run, history, exec, e1, t1, t2, bind, Except.bind]
  · simp [trained, n4]

/-- With memory for one node only, the same history is undefined. -/
theorem splits_ub {size : Nat} (h : 156 ≤ size) (h' : size < 284) : ∃ s0, new (params size) = .ok s0 ∧ run (params size) history s0 = .error .ub := by
  have hp := params_ok size
  obtain ⟨s0, s1, e0, e1, a1⟩ := start_at (size := size) (by omega)
  obtain ⟨s2, e2, a2⟩ := node_a (by omega) a1
  obtain ⟨s3, e3, a3⟩ := node_b (by omega) a2
  obtain ⟨k1, o1, k2, o2, k3, o3⟩ := at_one (by omega) e0 e1 e2 e3
  have e4 := (splitNode_eq hp o3 (f := 0) (by simp [params]) (.fin 5)).2 (by rw [total_eq]; simp [params]; omega)
  have t1 : train (params size) s1 pointA 0 = .ok s2 := by
    simp only [train, sort_one o1, e2, bind, Except.bind, pure, Except.pure]
  have t2 : train (params size) s2 pointB 1 = .error .ub := by
    simp only [train, sort_one o2, e3, e4, bind, Except.bind]
  refine ⟨s0, e0, ?_⟩
  simp only [run, history, exec, e1, t1, t2, bind, Except.bind]

end Orp.Hoeffding.Witness
