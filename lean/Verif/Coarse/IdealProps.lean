import Verif.Coarse.Ideal
import Verif.Coarse.Props
import Verif.Unbound.Props

/-!
Property C113: with `EXTEND_ORIGINAL` and `PHOENIX_MANAGEMENT` the coarse forest is the Mondrian forest, as long as there is memory.
-/

set_option linter.unusedSectionVars false

namespace Orp.Coarse

open Mondrian (Node Forest Params Tree avail allIds HoldsAll SameTrees exω exP pt)
open Unbound (contents)

variable {K : Type} [Field K] [LinearOrder K] [IsStrictOrderedRing K] [FloorRing K] {F L : Nat}

section

variable (c : Config K) (hx : c.extend = .original) (hm : c.management = .phoenix) (p : Params K) (hlife : 0 ≤ p.lifetime) (ω : Nat → K)
  (hω : ∀ i, 0 ≤ ω i ∧ ω i < 1) (maxSize sizeNode sizeBase : Nat) (junk : List Int) (last : Nat) (s0 : State K F L)
  (h0 : new c maxSize sizeNode sizeBase junk last = .ok s0) (ops : List (Op K F L)) (hP : ∀ op ∈ ops, PlainUse c op) (pos : Nat)

include hm in
theorem roomy (bases : List Base) : Roomy c bases := by
  refine ⟨by simp [Config.isCobble, hm], fun h => ?_⟩
  rw [hm] at h
  rcases h with h | h <;> cases h

include h0 in
theorem fresh_inv : Inv s0 (List.replicate junk.length none) := (new_spec c maxSize sizeNode sizeBase junk last s0 h0 True (fun _ => trivial)).1.inv

theorem contents_fresh (n : Nat) : contents (List.replicate n (none : Option (Tree K F L))) = List.replicate n none := by simp [contents]

include hx hm hlife hω h0 hP in
/-- **C113** Given the same calls and the same random numbers: if the forest with unlimited memory ends up with no more nodes than the coarse forest has (with
trimming: two nodes less), the coarse forest consumes the same random numbers, has the same trees with the same boxes, splits, times and counters, and predicts the
same labels. `ops` is any sequence of `train`, `predict` with all trees, `tree_fade_counts` and uses of other objects. -/
theorem C113_coarse_follows (s : Unbound.Forest K F L) (pos' : Nat) (h : Unbound.run p ω (ops.filterMap plainCall) (Unbound.new junk.length) pos = .ok (s, pos'))
    (hle : s.heap.length ≤ s0.forest.nodes.length) (htrim : c.trim ≠ .none → s.heap.length + 2 ≤ s0.forest.nodes.length) :
    ∃ s', run c p ω ops s0 pos = .ok (s', pos') ∧
      (∃ trees trees', HoldsAll { nodes := s.heap, roots := s.roots } trees ∧ HoldsAll s'.forest trees' ∧ SameTrees trees trees') ∧
      ∀ x, (predict c p s' x none).map (fun r => r.2) = Unbound.predict p s x := by
  obtain ⟨trees, a1, a2, -, a4, -⟩ := Unbound.run_good p ω hω (· ≤ ·) (fun a b h => h.le) (Unbound.draw_le' hω) junk.length (ops.filterMap plainCall) pos _ h
  have hlen := a1.length
  obtain ⟨s', trees', b1, b2, b3, b4⟩ := run_exact c hx p hlife ω hω s0.bases (roomy c hm s0.bases) junk.length ops s0 (List.replicate junk.length none) pos _ _ hP
    (by simp) (fresh_inv c maxSize sizeNode sizeBase junk last s0 h0) rfl (by rw [contents_fresh] at a4 ⊢; exact a4) (by rw [Unbound.contents_ids_length, hlen]; exact hle)
    (by rw [Unbound.contents_ids_length, hlen]; exact htrim)
  have hsame : SameTrees trees trees' := b3
  refine ⟨s', b1, ⟨trees, trees', a1.all, b2.mem.all, hsame⟩, fun x => ?_⟩
  obtain ⟨nodes', -, -, d4⟩ := predict_exact c (by rw [hx]; simp) p b2
  rw [d4 x, a1.predict_eq p x]
  conv_rhs => rw [← a1.recountAll]
  rw [Mondrian.label_congr p x hsame]
  cases Mondrian.label p x (Mondrian.recountAll trees') <;> rfl

include hx hm hlife hω h0 hP in
/-- **C113** The same from the side of the coarse forest without trimming: if it has two free nodes at the end, the forest with unlimited memory has the same trees and
predicts the same. -/
theorem C113_unbounded_follows (ht : c.trim = .none) (s' : State K F L) (pos' : Nat) (h : run c p ω ops s0 pos = .ok (s', pos')) (hf : 2 ≤ s'.free) :
    ∃ s : Unbound.Forest K F L, Unbound.run p ω (ops.filterMap plainCall) (Unbound.new junk.length) pos = .ok (s, pos') ∧
      (∃ trees trees', HoldsAll { nodes := s.heap, roots := s.roots } trees ∧ HoldsAll s'.forest trees' ∧ SameTrees trees trees') ∧
      ∀ x, (predict c p s' x none).map (fun r => r.2) = Unbound.predict p s x := by
  obtain ⟨trees', b1, -, b3⟩ := run_free c hx ht p hlife ω hω s0.bases (roomy c hm s0.bases) junk.length ops s0 (List.replicate junk.length none) pos _ hP
    (by simp) (fresh_inv c maxSize sizeNode sizeBase junk last s0 h0) rfl h
  have b3 := b3 (by have := b1.free; simp only at this ⊢; omega)
  have h1 := Unbound.run_ideal p ω hω (· ≤ ·) (fun a b h => h.le) (Unbound.draw_le' hω) junk.length (ops.filterMap plainCall) (Unbound.new junk.length)
    (List.replicate junk.length none) pos [] (Unbound.inv_new junk.length) (by simp) (by
      intro o ho; rw [List.eq_of_mem_replicate ho]; rfl)
  rw [b3] at h1
  obtain ⟨s, trees, c1, c2, c3, -⟩ := h1
  have hsame : SameTrees trees trees' := c3.symm
  refine ⟨s, c1, ⟨trees, trees', c2.all, b1.mem.all, hsame⟩, fun x => ?_⟩
  obtain ⟨nodes', -, -, d4⟩ := predict_exact c (by rw [hx]; simp) p b1
  rw [d4 x, c2.predict_eq p x]
  conv_rhs => rw [← c2.recountAll]
  rw [Mondrian.label_congr p x hsame]
  cases Mondrian.label p x (Mondrian.recountAll trees') <;> rfl

include hx hm hlife hω h0 hP in
/-- **C113** The coarse forest against the forest of `mondrian.hpp` with the same number of nodes: if the latter has two free nodes at the end, the coarse forest
consumes the same random numbers, has the same trees and predicts the same. -/
theorem C113_replaces (s : Forest K F L) (pos' : Nat) (h : Mondrian.run p ω (ops.filterMap plainCall) (Mondrian.new s0.forest.nodes.length junk.length) pos = .ok (s, pos'))
    (hf : 2 ≤ s.nodes.countP Node.available) :
    ∃ s', run c p ω ops s0 pos = .ok (s', pos') ∧ (∃ trees trees', HoldsAll s trees ∧ HoldsAll s'.forest trees' ∧ SameTrees trees trees') ∧
      ∀ x, (predict c p s' x none).map (fun r => r.2) = (Mondrian.predict p s x).map (fun r => r.2) := by
  obtain ⟨trees, lost, b1, -, b3⟩ := Unbound.bounded_free_run p hlife ω hω junk.length (ops.filterMap plainCall) (Mondrian.new s0.forest.nodes.length junk.length)
    (List.replicate junk.length none) [] pos _ (by simp) (Mondrian.inv_new _ _) h
  have hav : 2 ≤ (avail s.nodes).length := by rw [Unbound.avail_count]; exact hf
  have b3 := b3 hav
  have hpc := Unbound.pool_count b1
  have hnl : s.nodes.length = s0.forest.nodes.length := by
    obtain ⟨_, _, e, -⟩ := Mondrian.C55_pool_partial p hlife ω hω _ _ _ pos s pos' h
    exact e
  simp only at hpc
  obtain ⟨s', trees', d1, d2, d3, -⟩ := run_exact c hx p hlife ω hω s0.bases (roomy c hm s0.bases) junk.length ops s0 (List.replicate junk.length none) pos _ _ hP
    (by simp) (fresh_inv c maxSize sizeNode sizeBase junk last s0 h0) rfl b3 (by rw [Unbound.contents_ids_length]; omega)
    (by rw [Unbound.contents_ids_length]; intro _; omega)
  have hsame : SameTrees trees trees' := d3
  refine ⟨s', d1, ⟨trees, trees', b1.all, d2.mem.all, hsame⟩, fun x => ?_⟩
  obtain ⟨nodes', -, -, d4⟩ := predict_exact c (by rw [hx]; simp) p d2
  obtain ⟨nodes1, -, -, -, d5⟩ := b1.predict_eq p
  rw [d4 x, d5 x, Mondrian.label_congr p x hsame]
  cases Mondrian.label p x (Mondrian.recountAll trees') <;> rfl

end

/-- calls of all kinds -/
def mixOps : List (Op ℚ 1 2) := [.train (pt 0) 0, .train (pt 1) 1, .other 5, .predict (pt 3) none, .fade, .train (pt 2) 1]

/-- the hypotheses of the theorems: 9 nodes, one tree, of which 4 nodes stay free -/
example : ∃ s0, new (cfg .phoenix 0 .original .none) 95 10 5 [0] 0 = .ok s0 ∧ (∀ op ∈ mixOps, PlainUse (cfg .phoenix 0 .original .none) op) ∧
    s0.forest.nodes.length = 9 ∧
    (Unbound.run exP (exω []) (mixOps.filterMap plainCall) (Unbound.new 1) 0).map (fun r => r.1.heap.length) = .ok 5 ∧
    (Mondrian.run exP (exω []) (mixOps.filterMap plainCall) (Mondrian.new 9 1) 0).map (fun r => r.1.nodes.countP Node.available) = .ok 4 ∧
    (run (cfg .phoenix 0 .original .none) exP (exω []) mixOps s0 0).map (fun r => r.1.free) = .ok 4 :=
  ⟨_, rfl, by simp [mixOps, PlainUse], by decide +kernel, by decide +kernel, by decide +kernel, by decide +kernel⟩

/-- **C113** When memory is short the two bounded forests go different ways: that of `mondrian.hpp` consumes more random numbers (it makes all choices for a new split
before it looks for memory, and with one free node it loses this node), although the calls and the number of nodes are the same. -/
theorem C113_short_memory : ∃ (p : Params ℚ) (ω : Nat → ℚ) (c : Config ℚ) (ops : List (Op ℚ 1 2)), (∀ i, 0 ≤ ω i ∧ ω i < 1) ∧ c.extend = .original ∧
    c.management = .phoenix ∧
    ((new c 45 10 5 [0] 0).bind (fun s0 => run c p ω ops s0 0)).map (fun r => (r.1.forest.nodes.countP Node.available, r.2)) = .ok (1, 5) ∧
    (Mondrian.run p ω (ops.filterMap plainCall) (Mondrian.new 4 1) 0).map (fun r => (r.1.nodes.countP Node.available, r.2)) = .ok (0, 9) :=
  ⟨exP, exω [], cfg .phoenix 0 .original .none, exOps, fun i => ⟨(exω_pos i).1.le, (exω_pos i).2⟩, rfl, rfl, by decide +kernel, by decide +kernel⟩

/-- **C113** With the default parameters (`EXTEND_NONE`) the trees stay single leaves, whatever memory there is: the labels differ from those of the other forests. -/
theorem C113_default_differs : ∃ (p : Params ℚ) (ω : Nat → ℚ) (ops : List (Op ℚ 1 2)) (x : Fin 1 → ℚ), (∀ i, 0 ≤ ω i ∧ ω i < 1) ∧
    ((new Config.default 95 10 5 [0] 0).bind (fun s0 => (run Config.default p ω ops s0 0).bind (fun r => (predict Config.default p r.1 x none).map (fun q => q.2)))) = .ok 0 ∧
    (Mondrian.run p ω (ops.filterMap plainCall) (Mondrian.new 9 1) 0).bind (fun r => (Mondrian.predict p r.1 x).map (fun q => q.2)) = .ok 1 :=
  ⟨exP, exω [], exOps, pt 1, fun i => ⟨(exω_pos i).1.le, (exω_pos i).2⟩, by decide +kernel, by decide +kernel⟩

end Orp.Coarse
