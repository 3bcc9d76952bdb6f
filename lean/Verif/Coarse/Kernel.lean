import Verif.Coarse.IdealProps
import Verif.Mondrian.KernelMore


/-!
The kernel of the coarse forest (C95): with `EXTEND_ORIGINAL` and `PHOENIX_MANAGEMENT` it realises the Laplace kernel as long as there is memory.
-/

set_option linter.unusedSectionVars false

namespace Orp.Coarse

open MeasureTheory Orp.Reservoir
open Mondrian (Box Params Point IsHull HoldsAll draws nums draws_pos nums_range allIds_le same_keeps C52_trees_unique Tree exR pt2 hull_pair)

variable {F L : Nat}

/-- **C95** for `CoarseMondrianForest` with `EXTEND_ORIGINAL` and `PHOENIX_MANAGEMENT`: if there are nodes for all training points (with trimming: two more), the
probability that in every tree the points of its group are in one leaf is `exp (-lifetime * ∑ k, size (q k))`. `ops` is any sequence of `train`, `predict` with all trees,
`tree_fade_counts` and uses of other objects. -/
theorem C95_coarse (c : Config ℝ) (hx : c.extend = .original) (hm : c.management = .phoenix) (p : Params ℝ) (hlife : 0 ≤ p.lifetime) (hlog : p.log = Real.log)
    (h0 : p.exp 0 = 1) (hdisc : 0 ≤ p.discount) (maxSize sizeNode sizeBase : Nat) (junk : List Int) (last : Nat) (hn : 0 < junk.length) (s0 : State ℝ F L)
    (hs0 : new c maxSize sizeNode sizeBase junk last = .ok s0) (ops : List (Op ℝ F L)) (hP : ∀ op ∈ ops, PlainUse c op)
    (hroom : junk.length * (2 * (Mondrian.points (ops.filterMap plainCall)).length - 1) + (if c.trim = .none then 0 else 2) ≤ s0.forest.nodes.length)
    (Q : Fin junk.length → List (Point ℝ F L)) (hQ : ∀ k, Q k ≠ [] ∧ ∀ z ∈ Q k, z ∈ Mondrian.points (ops.filterMap plainCall)) (q : Fin junk.length → Box ℝ F)
    (hq : ∀ k, IsHull (Q k) (q k)) :
    draws {ω | ∃ s pos trees, run c p (nums ω) ops s0 0 = .ok (s, pos) ∧ HoldsAll s.forest trees ∧
      ∀ k : Fin junk.length, ∃ t, trees[k]? = some (some t) ∧ t.Together (Q k)} = ENNReal.ofReal (Real.exp (-(p.lifetime * ∑ k, (q k).size))) := by
  rw [← Mondrian.C95_unbound p hlife hlog h0 hdisc junk.length hn (ops.filterMap plainCall) Q hQ q hq]
  refine measure_congr (Filter.eventuallyEq_set.2 (draws_pos.mono fun ω hω => ?_))
  have hω' : ∀ i, 0 < nums ω i ∧ nums ω i < 1 := fun i => ⟨hω i, (nums_range ω i).2⟩
  obtain ⟨⟨s, pos⟩, hr⟩ := Unbound.run_ok p h0 hdisc (nums ω) hω' junk.length hn (ops.filterMap plainCall) 0
  obtain ⟨trees₀, a1, a2, -, -, a5⟩ := Unbound.run_good p (nums ω) (nums_range ω) (· ≤ ·) (fun a b h => h.le) (Unbound.draw_le' (nums_range ω)) junk.length _ 0 _ hr
  have hlen : s.heap.length ≤ junk.length * (2 * (Mondrian.points (ops.filterMap plainCall)).length - 1) := by
    have := allIds_le a5
    rwa [a1.length, a2] at this
  obtain ⟨s', h1, ⟨trees, trees', h2, h3, h4⟩, -⟩ := C113_coarse_follows c hx hm p hlife (nums ω) (nums_range ω) maxSize sizeNode sizeBase junk last s0 hs0 ops hP 0 s
    pos hr (by omega) (fun ht => by rw [if_neg ht] at hroom; omega)
  simp only [Set.mem_ofPred_eq, hr, h1, Except.ok.injEq, Prod.mk.injEq]
  constructor
  · rintro ⟨_, _, ts, ⟨rfl, rfl⟩, h5, h6⟩
    rw [C52_trees_unique h5 h3] at h6
    exact ⟨s, pos, trees, ⟨rfl, rfl⟩, h2, same_keeps (Eq.symm h4) h3.nodup h2.nodup Q h6⟩
  · rintro ⟨_, _, ts, ⟨rfl, rfl⟩, h5, h6⟩
    rw [C52_trees_unique h5 h2] at h6
    exact ⟨s', pos, trees', ⟨rfl, rfl⟩, h3, same_keeps h4 h2.nodup h3.nodup Q h6⟩

/-- the configuration of the example -/
noncomputable def cfgR : Config ℝ := ⟨.phoenix, 0, .original, .none, 1, 1⟩

/-- two trees and room for eight nodes: the two points are in one leaf of both trees with probability `exp (-16)` -/
example : ∃ s0 : State ℝ 2 2, new cfgR 90 10 5 [0, 0] 0 = .ok s0 ∧
    draws {ω | ∃ s pos trees, run cfgR exR (nums ω) [.train (pt2 0 0) 0, .other 3, .predict (pt2 1 1) none, .train (pt2 1 3) 1] s0 0 = .ok (s, pos) ∧
      HoldsAll s.forest trees ∧ ∀ k : Fin 2, ∃ t, trees[k]? = some (some t) ∧ t.Together [(pt2 0 0, 0), (pt2 1 3, 1)]} = ENNReal.ofReal (Real.exp (-16)) := by
  refine ⟨_, rfl, (C95_coarse cfgR rfl rfl exR (by norm_num [exR]) rfl (by simp [exR]) (by norm_num [exR]) 90 10 5 [0, 0] 0 (by norm_num) _ rfl _ (by simp [PlainUse])
    ?_ _ (fun k => ⟨by simp, by simp [Mondrian.points, plainCall, List.filterMap]⟩) _ (fun k => hull_pair _ _)).trans ?_⟩
  · simp [Mondrian.points, plainCall, List.filterMap, cfgR]
  · congr 2
    simp [Fin.sum_univ_two, pt2, exR, Box.size]
    norm_num

end Orp.Coarse
