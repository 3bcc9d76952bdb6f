import Verif.Coarse.ViewProps
import Verif.Mondrian.Unseen

/-!
Labels without training points in the coarse forest (C105): exchanging the names of two of them changes nothing, so they get the same votes, and only the smallest of
them can be predicted.
-/

namespace Orp.Coarse

set_option linter.unusedSectionVars false

open Mondrian (Params exω exP pt)

variable {K : Type} [Field K] [LinearOrder K] [IsStrictOrderedRing K] [FloorRing K] {F L : Nat}

/-- some training point has the label -/
def Taught (ops : List (Op K F L)) (l : Fin L) : Prop := ∃ x, Op.train x l ∈ ops

theorem renamed_untaught {ops : List (Op K F L)} {l j : Fin L} (hl : ¬ Taught ops l) (hj : ¬ Taught ops j) : ops.map (renamedOp (Equiv.swap l j)) = ops := by
  conv_rhs => rw [← List.map_id ops]
  refine List.map_congr_left fun op hop => ?_
  cases op with
  | train x label =>
      have h1 : label ≠ l := fun e => hl ⟨x, by rw [← e]; exact hop⟩
      have h2 : label ≠ j := fun e => hj ⟨x, by rw [← e]; exact hop⟩
      simp only [renamedOp, Equiv.swap_apply_of_ne_of_ne h1 h2, id]
  | _ => rfl

/-- **C105** for the coarse forest: in every configuration and after every history, any two labels without a training point get the same votes, whatever the query and
the number of trees used. -/
theorem C105_equal_votes (c : Config K) (p : Params K) (hlife : 0 ≤ p.lifetime) (ω : Nat → K) (hω : ∀ i, 0 ≤ ω i ∧ ω i < 1) (maxSize sizeNode sizeBase : Nat)
    (junk : List Int) (last : Nat) (s0 : State K F L) (h0 : new c maxSize sizeNode sizeBase junk last = .ok s0) (ops : List (Op K F L)) (pos : Nat)
    (s : State K F L) (q : Nat) (e : run c p ω ops s0 pos = .ok (s, q)) (x : Fin F → K) (k : Nat) (v : Fin L → K) (hv : ballot c p s x k = .ok v) (l j : Fin L)
    (hl : ¬ Taught ops l) (hj : ¬ Taught ops j) : v l = v j := by
  obtain ⟨-, -, hb, -⟩ := (C127_votes (Equiv.swap l j) c p hlife ω hω maxSize sizeNode sizeBase junk last s0 h0 ops pos).2 s s q q e
    (by rw [renamed_untaught hl hj]; exact e)
  have hb := hb x k
  rw [hv] at hb
  have := congrFun (Except.ok.inj hb) l
  simpa using this

/-- **C105** for the coarse forest: the predicted label is the label of a training point or the smallest label that has none. -/
theorem C105_predicted (c : Config K) (p : Params K) (hlife : 0 ≤ p.lifetime) (ω : Nat → K) (hω : ∀ i, 0 ≤ ω i ∧ ω i < 1) (maxSize sizeNode sizeBase : Nat)
    (junk : List Int) (last : Nat) (s0 : State K F L) (h0 : new c maxSize sizeNode sizeBase junk last = .ok s0) (hL : 0 < L) (ops : List (Op K F L)) (pos : Nat)
    (s : State K F L) (q : Nat) (e : run c p ω ops s0 pos = .ok (s, q)) (x : Fin F → K) (use : Option Nat) (r : State K F L × Nat)
    (hr : predict c p s x use = .ok r) : ∃ l : Fin L, l.val = r.2 ∧ (Taught ops l ∨ ∀ i < l, Taught ops i) := by
  have key := run_seen (u := (Mondrian.rescale 1 (fun _ => 0) : Mondrian.Change K F L)) one_pos c p hlife ω hω _ ops ops _ s0 s0 _ pos (le_refl _)
    (by rw [rescale_one_op]) (couple_new _ h0 h0)
  obtain ⟨_, -, -, π, trees, hp⟩ := key.ok e
  have h1 := predict_ballot c p hp.l x use
  rw [hr] at h1
  split at h1
  · cases h1
  · cases hv : ballot c p s x (usedTrees trees.length use) with
    | error e => rw [hv] at h1; cases h1
    | ok v =>
        rw [hv] at h1
        have h2 : r.2 = Utils.indexMax (List.ofFn (fun i => v i / (usedTrees trees.length use : K))) := Except.ok.inj h1
        by_cases hu : ∃ j, ¬ Taught ops j
        · obtain ⟨j, hj⟩ := hu
          exact Mondrian.winner_first h2 hL (Taught ops) (v j) fun l hl =>
            C105_equal_votes c p hlife ω hω maxSize sizeNode sizeBase junk last s0 h0 ops pos s q e x _ v hv l j hl hj
        · push Not at hu
          exact Mondrian.winner_first h2 hL (Taught ops) 0 fun l hl => absurd (hu l) hl

/-- four labels, of which 0 and 2 have no training point; the trees are trimmed once -/
def fewOps : List (Op ℚ 1 4) := [.train (pt 0) 1, .train (pt 1) 3, .train (pt 3) 3, .trim]

example : (do
    let s ← new (cfg .phoenix 0 .original .count) 85 10 5 [0] 0
    let (s, _) ← run (cfg .phoenix 0 .original .count) exP (exω []) fewOps s 0
    let v ← ballot (cfg .phoenix 0 .original .count) exP s (pt (1 / 3)) 1
    return (v 0 == v 2, v 1 == v 0, v 3 == v 0) : Res (Bool × Bool × Bool)) = .ok (true, false, false) := by decide +kernel

end Orp.Coarse
