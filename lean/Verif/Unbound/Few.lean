import Verif.Mondrian.Few
import Verif.Unbound.Props

/-!
C167: `MondrianForestUnbound` with a random function that has only `R` different values, such as `rand()/(RAND_MAX+1.0)`.
-/

set_option linter.unusedSectionVars false

namespace Orp.Unbound

open MeasureTheory Set Mondrian
open Orp.Reservoir (U01 grid)

variable {F L : Nat}

/-- **C167** (violation) As for the bounded forest: training with a second point that has the same first feature has undefined behaviour with probability `1/R`, if
the time that is drawn is before the end of the lifetime. -/
theorem C167_unbound_two_points {R : Nat} (hR : 1 ≤ R) (p : Params ℝ)
    (x y : Fin (F + 1) → ℝ) (a b : Fin L) (hxy : x 0 = y 0) (hne : x ≠ y) (t v : ℝ) (ht : 0 < t ∧ t < 1) (hv : 0 < v ∧ v < 1)
    (hacc : 0 ≤ p.log (1 - t) / (-∑ i, |x i - y i|) ∧ p.log (1 - t) / (-∑ i, |x i - y i|) < p.lifetime) :
    volume {u : U01 | run p (threeω t (grid R u).1 v) [.train x a, .train y b] (new 1) 0 = .error .ub} = ENNReal.ofReal (1 / R) := by
  rw [← draw_two_points hR p x y hxy hne t v ht hv hacc]
  congr 1
  ext u
  simp only [mem_ofPred_eq]
  have hω : ∀ i, threeω t (grid R u).1 v i ≤ 1 := by
    intro i
    unfold threeω
    split
    · exact ht.2.le
    · split
      · exact (grid R u).2.2.le
      · exact hv.2.le
  generalize threeω t (grid R u).1 v = ω at hω
  obtain ⟨s1, e1, e2, -⟩ := trainTree_none p ω x a (new (F := F + 1) (L := L) 1) [none] (inv_new 1) 0 0 rfl
  have hr1 : s1.roots.length = 1 := e2.roots_length
  have h2 := trainTree_some p ω hω y b { s1 with points := s1.points + 1 } _ (e2.points _) 0 0 (newLeaf p.lifetime 0 x a) rfl
  have hrun : run p ω [.train x a, .train y b] (new 1) 0 =
      (trainTree p ω y b 0 { s1 with points := s1.points + 1 } 0).map (fun r => ({ r.1 with points := r.1.points + 1 }, r.2.1)) := by
    have hn : (new (K := ℝ) (F := F + 1) (L := L) 1).roots.length = 1 := by simp [new]
    simp only [run, exec, train, hn, trainLoop, e1, bind, Except.bind, pure, Except.pure, hr1]
    cases trainTree p ω y b 0 { s1 with points := s1.points + 1 } 0 <;> rfl
  rw [hrun]
  simp only [newLeaf, grow] at h2
  cases hd : Mondrian.draw p ω 0 (Box.point x) y 0 p.lifetime with
  | error e =>
      simp only [hd] at h2
      rw [h2]
      simp [Except.map]
  | ok q =>
      obtain ⟨c, pos1⟩ := q
      simp only [hd] at h2
      have hok : ∃ r, trainTree p ω y b 0 { s1 with points := s1.points + 1 } 0 = .ok r := by
        split at h2
        · rename_i heq
          split at heq <;> cases heq
        · obtain ⟨s', h, -⟩ := h2
          exact ⟨_, h⟩
      obtain ⟨r, hr⟩ := hok
      rw [hr]
      simp [Except.map]

/-- the hypotheses are met by the points (0,0) and (0,1) -/
example : ∃ (p : Params ℝ) (x y : Fin 2 → ℝ), x 0 = y 0 ∧ x ≠ y ∧
    0 ≤ p.log (1 - 1 / 2) / (-∑ i, |x i - y i|) ∧ p.log (1 - 1 / 2) / (-∑ i, |x i - y i|) < p.lifetime := by
  refine ⟨⟨2, 0, 0, id, fun z => z - 1⟩, ![0, 0], ![0, 1], rfl, fun h => ?_, ?_⟩
  · have := congrFun h 1
    simp at this
  · have : ∑ i, |(![0, 0] : Fin 2 → ℝ) i - ![(0 : ℝ), 1] i| = 1 := by simp [Fin.sum_univ_two]
    rw [this]
    norm_num

end Orp.Unbound
