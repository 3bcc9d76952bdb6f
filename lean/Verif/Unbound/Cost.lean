import Verif.Mondrian.Cost
import Verif.Unbound.Props

/-!
Property C171 for `MondrianForestUnbound` (mondrian_unbound.hpp:228-342, 460-469): how many random numbers a call of `train` needs.
-/

set_option linter.unusedSectionVars false

namespace Orp.Unbound

open Mondrian

variable {K : Type} [Field K] [LinearOrder K] [IsStrictOrderedRing K] [FloorRing K] {F L : Nat}

theorem trainLoop_pos (p : Params K) (ω : Nat → K) (hω : ∀ i, ω i ≤ 1) (x : Fin F → K) (label : Fin L) :
    ∀ (k i : Nat) (s : Forest K F L) (trees : List (Option (Mondrian.Tree K F L))) (pos : Nat) (res : Option Bool)
      (r : Forest K F L × Nat × Option Bool), i + k = trees.length → Inv s trees → trainLoop p ω x label i k s pos res = .ok r →
      pos ≤ r.2.1 ∧ r.2.1 ≤ pos + levels (trees.drop i) + 2 * k
  | 0, i, s, trees, pos, res, r, hk, hI, h => by
      simp only [trainLoop, Except.ok.injEq] at h
      subst h
      exact ⟨le_rfl, by simp only; omega⟩
  | k + 1, i, s, trees, pos, res, r, hk, hI, h => by
      simp only [trainLoop, bind, Except.bind] at h
      have hlt : i < trees.length := by omega
      have hi := List.getElem?_eq_getElem hlt
      rw [levels_drop hi]
      have key : ∃ s1 pos1 o1, trainTree p ω x label i s pos = .ok (s1, pos1, true) ∧ Inv s1 (trees.set i o1) ∧ pos ≤ pos1 ∧ pos1 ≤ pos + treeLevels trees[i] + 2 := by
        cases ho : trees[i] with
        | none =>
            obtain ⟨s1, a1, a2, -⟩ := trainTree_none p ω x label s trees hI i pos (by rw [hi, ho])
            exact ⟨s1, pos, _, a1, a2, le_rfl, by omega⟩
        | some t =>
            have := trainTree_some p ω hω x label s trees hI i pos t (by rw [hi, ho])
            cases hg : grow p ω (some (s.heap.length, s.heap.length + 1)) x label t 0 pos with
            | error e =>
                rw [hg] at this
                simp only at this
                rw [this] at h
                cases h
            | ok q =>
                rw [hg] at this
                obtain ⟨s1, a1, a2, -⟩ := this
                obtain ⟨c1, -, c3⟩ := grow_pos p ω hω _ x label t 0 pos _ hg
                exact ⟨s1, _, _, a1, a2, c1, c3 (by simp)⟩
      obtain ⟨s1, pos1, o1, a1, a2, a3, a4⟩ := key
      rw [a1] at h
      obtain ⟨b1, b2⟩ := trainLoop_pos p ω hω x label k (i + 1) s1 _ pos1 _ r (by rw [List.length_set]; omega) a2 h
      rw [List.drop_set_of_lt (by omega)] at b2
      constructor
      · omega
      · omega

/-- **C171** The unbounded forest: after any history, a call of `train` uses at most one random number for each level of the trees and two more for each tree. -/
theorem C171_unbound (p : Params K) (ω : Nat → K) (hω : ∀ i, 0 ≤ ω i ∧ ω i < 1) (n : Nat) (ops : List (Op K F L))
    (pos : Nat) (s : Forest K F L) (pos' : Nat) (h : run p ω ops (new n) pos = .ok (s, pos')) :
    ∃ trees : List (Option (Mondrian.Tree K F L)), trees.length = n ∧ HoldsAll { nodes := s.heap, roots := s.roots } trees ∧
      ∀ (ω' : Nat → K) (_ : ∀ i, ω' i ≤ 1) (x : Fin F → K) (label : Fin L) (q : Nat) (s' : Forest K F L) (q' : Nat) (r : Option Bool),
        train p ω' x label s q = .ok (s', q', r) → q ≤ q' ∧ q' ≤ q + levels trees + 2 * n := by
  obtain ⟨trees, a1, a2, -, -, -⟩ := run_good p ω hω (· ≤ ·) (fun a b h => h.le) (draw_le' hω) n ops pos _ h
  refine ⟨trees, a2, a1.all, fun ω' hω' x label q s' q' r ht => ?_⟩
  have hl : s.roots.length = trees.length := a1.roots_length
  simp only [train, hl, bind, Except.bind] at ht
  cases hc : trainLoop p ω' x label 0 trees.length s q none with
  | error e => rw [hc] at ht; cases ht
  | ok c =>
      rw [hc] at ht
      simp only [pure, Except.pure, Except.ok.injEq, Prod.mk.injEq] at ht
      obtain ⟨-, rfl, -⟩ := ht
      have := trainLoop_pos p ω' hω' x label _ 0 s trees q none _ (by simp) a1 hc
      simpa [a2] using this

/-- the bound is reached by a second point for two trees: one level each, three random numbers each -/
example : (run exP (exω []) [.train (pt 0) 0, .train (pt 1) (1 : Fin 2)] (new 2) 0).map (fun r => r.2) = .ok 6 := by decide +kernel

end Orp.Unbound
