import Verif.Mondrian.Seen
import Verif.Unbound.Props

/-!
Property C170 for `MondrianForestUnbound` (mondrian_unbound.hpp:228-342, 460-469).
-/

set_option linter.unusedSectionVars false

namespace Orp.Unbound

open Mondrian

variable {K : Type} [Field K] [LinearOrder K] [IsStrictOrderedRing K] [FloorRing K] {F L : Nat}

theorem grow_with (p : Params K) (ω : Nat → K) (fresh : Option (Nat × Nat)) (x : Fin F → K) (label : Fin L) :
    ∀ (t : Mondrian.Tree K F L) (ptau : K) (pos : Nat), grow p ω fresh x label t ptau pos = growWith p (Mondrian.draw p ω) fresh x label t ptau pos
  | .leaf id d, ptau, pos => by
      simp only [grow, growWith]
      rfl
  | .node id d dim sp l r, ptau, pos => by
      simp only [grow, growWith, grow_with p ω fresh x label l, grow_with p ω fresh x label r]
      rfl

theorem trainLoop_contains (p : Params K) (ω : Nat → K) (hω : ∀ i, ω i ≤ 1) (x : Fin F → K) (label : Fin L) (pts : List (Point K F L)) (res : Option Bool) (pos : Nat) :
    ∀ (todo before : List (Mondrian.Tree K F L)) (s : Forest K F L), Inv s ((before ++ todo).map some) →
      (∀ t ∈ todo, Right pts t ∧ (t.route x).box.Contains x) →
      ∃ s' : Forest K F L, trainLoop p ω x label before.length todo.length s pos res = .ok (s', pos, res) ∧
        Inv s' ((before ++ todo.map (fun t => (t.addCount x label).recount)).map some) ∧ s'.points = s.points
  | [], before, s, hI, _ => ⟨s, rfl, by simpa using hI, rfl⟩
  | t :: todo, before, s, hI, ht => by
      obtain ⟨h1, h2⟩ := ht t List.mem_cons_self
      have hi : ((before ++ t :: todo).map some)[before.length]? = some (some t) := by simp
      have h := trainTree_some p ω hω x label s _ hI before.length pos t hi
      rw [grow_with, growWith_contains p ω _ x label t pts 0 pos h1 h2] at h
      obtain ⟨s1, a1, a2, a3⟩ := h
      have hset : ((before ++ t :: todo).map some).set before.length (some (t.addCount x label).recount) =
          (((before ++ [(t.addCount x label).recount]) ++ todo).map some) := by
        simp
      rw [hset] at a2
      obtain ⟨s', b1, b2, b3⟩ := trainLoop_contains p ω hω x label pts res pos todo (before ++ [(t.addCount x label).recount]) s1 a2
        (fun t' ht' => ht t' (List.mem_cons_of_mem _ ht'))
      refine ⟨s', ?_, by simpa using b2, b3.trans a3⟩
      simp only [List.length_append, List.length_singleton] at b1
      simp only [List.length_cons, trainLoop, a1, bind, Except.bind, if_true, b1]

/-- **C170** The unbounded forest: after any history, training with a point that is inside the box of the leaf it is routed to in every tree, whatever the label and the
random numbers, uses no random number and allocates nothing. The trees are as before but for the counter of the label in these leaves and the counters of the split
nodes, which are computed from those of the leaves (C60). -/
theorem C170_unbound_inside (p : Params K) (ω : Nat → K) (hω : ∀ i, 0 ≤ ω i ∧ ω i < 1) (n : Nat) (ops : List (Op K F L))
    (pos : Nat) (s : Forest K F L) (pos' : Nat) (h : run p ω ops (new n) pos = .ok (s, pos')) (hne : points ops ≠ []) :
    ∃ trees : List (Mondrian.Tree K F L), trees.length = n ∧ HoldsAll { nodes := s.heap, roots := s.roots } (trees.map some) ∧
      (∀ z ∈ points ops, ∀ t ∈ trees, (t.route z.1).box.Contains z.1) ∧
      ∀ (x : Fin F → K) (label : Fin L) (ω' : Nat → K) (q : Nat), (∀ i, ω' i ≤ 1) → (∀ t ∈ trees, (t.route x).box.Contains x) →
        ∃ s' r, train p ω' x label s q = .ok (s', q, r) ∧ s'.heap.length = s.heap.length ∧
          HoldsAll { nodes := s'.heap, roots := s'.roots } ((trees.map (fun t => (t.addCount x label).recount)).map some) := by
  obtain ⟨trees, a1, a2, -, -, a5⟩ := run_good p ω hω (· ≤ ·) (fun a b h => h.le) (draw_le' hω) n ops pos _ h
  obtain ⟨ts, rfl⟩ := all_some trees (by rintro o ho rfl; exact hne (a5 _ ho))
  have hR : ∀ t ∈ ts, Right (points ops) t := fun t ht => (a5 _ (List.mem_map.2 ⟨t, ht, rfl⟩)).1
  refine ⟨ts, by simpa using a2, a1.all, fun z hz t ht i => (hR t ht).leaf_box z hz i, fun x label ω' q hω' hx => ?_⟩
  obtain ⟨s', b1, b2, b3⟩ := trainLoop_contains p ω' hω' x label (points ops) none q ts [] s (by simpa using a1) (fun t ht => ⟨hR t ht, hx t ht⟩)
  have hl : s.roots.length = ts.length := by
    have := a1.roots_length
    simpa using this
  simp only [List.length_nil, List.nil_append] at b1 b2
  refine ⟨{ s' with points := s'.points + 1 }, none, by simp only [train, hl, b1, bind, Except.bind, pure, Except.pure], ?_, b2.all⟩
  have e1 := a1.length
  have e2 := b2.length
  rw [← e1, ← e2]
  have hids : ∀ t : Mondrian.Tree K F L, ((t.addCount x label).recount).ids = t.ids := by
    intro t
    rw [recount_ids]
    induction t with
    | leaf => rfl
    | node id d dim sp l r hl hr =>
        simp only [Tree.addCount]
        split
        · simp only [Tree.ids, hl]
        · simp only [Tree.ids, hr]
  congr 1
  simp only [allIds, List.flatMap_map, hids]

/-- the hypotheses are met: a point of the history uses no random number, a new point does -/
example : (run exP (exω []) exOps (new 2) 0).bind (fun r => (train exP (exω []) (pt 1) 0 r.1 r.2).map (fun q => q.2.1 - r.2)) = .ok 0 ∧
    (run exP (exω []) exOps (new 2) 0).bind (fun r => (train exP (exω []) (pt 7) 0 r.1 r.2).map (fun q => decide (0 < q.2.1 - r.2))) = .ok true := by
  decide +kernel

end Orp.Unbound
