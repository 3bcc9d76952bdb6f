import Verif.Coarse.OptRun
import Verif.Coarse.Props

/-!
Property C96: `UNBOUND_OPTIMIZE`, which moves work from `predict` to `train`, does not change what `train` and `predict` return.

`run`, `train` and `predict` are the code without the macro, `runOpt`, `trainOpt` and `predictOpt` the code with it. `Calm ops`: no other object of the same type gets a node
before the first call of `train`.
-/

namespace Orp.Coarse

set_option linter.unusedSectionVars false

open Mondrian (Node Forest Params Tree exω exP pt)

variable {K : Type} [Field K] [LinearOrder K] [IsStrictOrderedRing K] [FloorRing K] {F L : Nat}

/-- what a call of `train` returns after a history, `pos` random numbers used before it -/
def trained (r : Res (State K F L × Nat × Bool)) : Res (Nat × Bool) := r.map Prod.snd

/-- **C96** (partial) With `EXTEND_ORIGINAL`, without trimming, if there is a node for the root of each tree and the first node of the memory is the first to be used:
after every history the optimised code is in a defined state exactly if the original code is, it has used the same number of random numbers, `train` returns the same, and
`predict` returns the same label for every point and every number of trees.
Missing: the other cases, see `C96_other_object`, `C96_trim`, `C96_extend` and `C96_too_few_nodes`. -/
theorem C96_optimize_partial (c : Config K) (hc : c.extend = .original) (ht : c.trim = .none) (p : Params K) (ω : Nat → K)
    (maxSize sizeNode sizeBase : Nat) (junk : List Int) (last : Nat) (s0 : State K F L) (ops : List (Op K F L))
    (h : Setting c p ω maxSize sizeNode sizeBase junk last s0 ops) (h1 : 0 < junk.length) (h2 : junk.length ≤ s0.forest.nodes.length)
    (hl : last % s0.forest.nodes.length = 0) (hops : Calm ops) (pos : Nat) :
    (∀ e, run c p ω ops s0 pos = .error e ↔ runOpt c p ω ops s0 pos = .error e) ∧
    (∀ s pos', run c p ω ops s0 pos = .ok (s, pos') → ∃ s', runOpt c p ω ops s0 pos = .ok (s', pos') ∧
      (∀ x label, trained (train c p ω x label s pos') = trained (trainOpt c p ω x label s' pos')) ∧
      (∀ x use, Valid junk.length (.predict x use : Op K F L) → ∃ s1 l, predict c p s x use = .ok (s1, l) ∧ predictOpt p s' x use = .ok l)) := by
  have hnew := new_spec c maxSize sizeNode sizeBase junk last s0 h.made False (fun hlt => absurd hlt (by omega))
  have hnone : ∀ t : Tree K F L, some t ∉ List.replicate junk.length (none : Option (Tree K F L)) := fun t ht => by
    have := (List.mem_replicate.1 ht).2
    cases this
  have hlast : s0.last = last := by
    have hm := h.made
    unfold new at hm
    cases h1 : nodeCount maxSize sizeNode sizeBase junk.length with
    | error e => simp only [h1, bind, Except.bind] at hm; cases hm
    | ok n =>
        cases h2 : initBases c.management n junk.length c.sizeLimit junk with
        | error e => simp only [h1, h2, bind, Except.bind] at hm; cases hm
        | ok bases =>
            simp only [h1, h2, bind, Except.bind, pure, Except.pure] at hm
            have := Except.ok.inj hm
            subst this
            rfl
  have hP : Pair c s0.bases s0.forest.nodes.length junk.length s0 s0 (List.replicate junk.length none) :=
    ⟨Twin.refl s0, ⟨_, hnew.1, List.length_replicate⟩, hnew.1, fun t ht => absurd ht (hnone t), List.length_replicate⟩
  have hz : AtZero s0 (List.replicate junk.length none) := ⟨fun o ho => (List.mem_replicate.1 ho).2, by rw [hlast]; exact hl⟩
  have hm : 0 < s0.forest.nodes.length := by omega
  have hrun := run_twin c hc ht p h.exp0 h.discount h.lifetime ω h.random s0.bases s0.forest.nodes.length junk.length hm h1 ops hP
    (Or.inr ⟨hz, hops⟩) h.valid pos
  cases hr : run c p ω ops s0 pos with
  | error e =>
      rw [hr] at hrun
      cases hr' : runOpt c p ω ops s0 pos with
      | ok b => rw [hr'] at hrun; exact hrun.elim
      | error e' =>
          rw [hr'] at hrun
          have : e = e' := hrun
          subst this
          exact ⟨fun _ => Iff.rfl, fun s pos' h => by cases h⟩
  | ok a =>
      rw [hr] at hrun
      cases hr' : runOpt c p ω ops s0 pos with
      | error e => rw [hr'] at hrun; exact hrun.elim
      | ok b =>
          rw [hr'] at hrun
          obtain ⟨s1, pos1⟩ := a
          obtain ⟨s2, pos2⟩ := b
          obtain ⟨e1, trees, e2, e3⟩ := hrun
          simp only at e1 e2 e3
          subst e1
          refine ⟨fun e => ⟨fun h => (by cases h), fun h => (by cases h)⟩, fun s pos' h' => ?_⟩
          cases h'
          refine ⟨s2, rfl, fun x label => ?_, fun x use hv => ?_⟩
          · have hrel := train_twin c hc ht p h.lifetime ω h.random s0.bases s0.forest.nodes.length junk.length hm h1 x label e2 (e3.imp_right fun h => h.1) pos1
            unfold trained
            cases ha : train c p ω x label s1 pos1 <;> cases hb : trainOpt c p ω x label s2 pos1 <;> rw [ha, hb] at hrel
            · exact congrArg Except.error hrel
            · exact hrel.elim
            · exact hrel.elim
            · exact congrArg Except.ok hrel.1
          · obtain ⟨s3, l, f1, f2, -⟩ := e2.predict (by rw [hc]; decide) h.exp0 h.discount x use hv.1 hv.2
            exact ⟨s3, l, f1, f2⟩

example : ∃ s0 : State ℚ 1 2, Setting (cfg .phoenix 0 .original .none) exP (exω []) 85 10 5 [0] 0 s0 (.predict (pt 1) none :: exOps) ∧
    s0.forest.nodes.length = 8 ∧ Calm (.predict (pt 1) none :: exOps) :=
  ⟨_, exSetting _ _ _ rfl (by simp [exOps, Valid, usedTrees]), by decide +kernel, trivial⟩

/-! ### Where the property is violated: the labels of the code without and with the macro for the points `xs` -/

/-- the labels that the original code returns -/
def labels (c : Config ℚ) (junk : List Int) (last : Nat) (ops : List (Op ℚ 1 2)) (xs : List ℚ) : Res (List Nat) := do
  let s ← new c 85 10 5 junk last
  let (s, _) ← run c exP (exω []) ops s 0
  xs.mapM fun x => do
    let (_, l) ← predict c exP s (pt x) none
    return l

/-- the labels that the optimised code returns -/
def labelsOpt (c : Config ℚ) (junk : List Int) (last : Nat) (ops : List (Op ℚ 1 2)) (xs : List ℚ) : Res (List Nat) := do
  let s ← new c 85 10 5 junk last
  let (s, _) ← runOpt c exP (exω []) ops s 0
  xs.mapM fun x => predictOpt exP s (pt x) none

/-- four points for the violations -/
def exOpt : List (Op ℚ 1 2) := [.train (pt 0) 1, .train (pt 1) 0, .train (pt 2) 1, .train (pt 3) 0]

/-- four points for the violations -/
def exOpt' : List (Op ℚ 1 2) := [.train (pt 1) 0, .train (pt 2) 0, .train (pt 0) 1, .train (pt 3) 1]

/-- the hypotheses of `C96_optimize_partial` are met: the labels are the same -/
example : labels (cfg .phoenix 0 .original .none) [0] 0 exOpt' [0, 1, 2, 3, 4] = .ok [0, 1, 1, 0, 1] ∧
    labelsOpt (cfg .phoenix 0 .original .none) [0] 0 exOpt' [0, 1, 2, 3, 4] = .ok [0, 1, 1, 0, 1] := by decide +kernel

/-- **C96** (violation) Another object of the same type has used node 7 before: the first node becomes a split node, whose counters are not updated. -/
theorem C96_other_object : labels (cfg .phoenix 0 .original .none) [0] 7 exOps [4] = .ok [1] ∧
    labelsOpt (cfg .phoenix 0 .original .none) [0] 7 exOps [4] = .ok [0] := by decide +kernel

/-- **C96** (violation) After a leaf has been trimmed, in each of the three ways, the split nodes above it still count it. -/
theorem C96_trim : ∀ t ∈ [Trim.random, .fading, .count], labels (cfg .phoenix 0 .original t) [0] 0 (exOpt' ++ [.trim]) [4] = .ok [0] ∧
    labelsOpt (cfg .phoenix 0 .original t) [0] 0 (exOpt' ++ [.trim]) [4] = .ok [1] := by decide +kernel

/-- **C96** (violation) The other ways to extend a tree, except `EXTEND_NONE`, change counters of which the path of the point knows nothing. -/
theorem C96_extend :
    (labels (cfg .phoenix 0 .ghost .none) [0] 0 exOpt [-1] = .ok [1] ∧ labelsOpt (cfg .phoenix 0 .ghost .none) [0] 0 exOpt [-1] = .ok [0]) ∧
    (labels (cfg .phoenix 0 .partialUpdate .none) [0] 0 exOpt [1] = .ok [0] ∧ labelsOpt (cfg .phoenix 0 .partialUpdate .none) [0] 0 exOpt [1] = .ok [1]) ∧
    (labels (cfg .phoenix 0 .counterNoUpdate .none) [0] 0 exOpt [1] = .ok [0] ∧
      labelsOpt (cfg .phoenix 0 .counterNoUpdate .none) [0] 0 exOpt [1] = .ok [1]) ∧
    (labels (cfg .phoenix 0 .barycenter .none) [0] 0 exOpt' [1] = .ok [1] ∧ labelsOpt (cfg .phoenix 0 .barycenter .none) [0] 0 exOpt' [1] = .ok [0]) := by
  decide +kernel

/-- **C96** (violation) Sixteen trees and no node for each of them: the optimised code reads the node of an empty tree. -/
theorem C96_too_few_nodes : labels (cfg .phoenix 0 .original .none) (List.replicate 16 0) 0 exOps [0] = .ok [0] ∧
    labelsOpt (cfg .phoenix 0 .original .none) (List.replicate 16 0) 0 exOps [0] = .error .ub := by decide +kernel

end Orp.Coarse
