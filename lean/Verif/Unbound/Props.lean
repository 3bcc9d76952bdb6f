import Verif.Unbound.Run
import Verif.Mondrian.Props

/-!
Properties of the Mondrian forest with unlimited memory (`/repo/src/mondrian_unbound.hpp`), see `/verif/properties.jsonl`.

The theorems range over every history `ops` of calls of `train` and `predict` on a new object with `n` trees, every sequence `ω` of random numbers in `[0, 1[`,
every `exp` and `log` and every ordered field. `run … = .ok (s, pos)` says that the history ended, in state `s`, without undefined behaviour; `C72_no_ub_partial`
says when it does. `HoldsAll { nodes := s.heap, roots := s.roots } trees` says that `trees` are the trees that the nodes on the heap make up.
-/

namespace Orp.Unbound

open Mondrian

set_option linter.unusedSectionVars false

variable {K : Type} [Field K] [LinearOrder K] [IsStrictOrderedRing K] [FloorRing K] {F L : Nat}

example : (run exP (exω []) exOps (new 2) 0).map (fun r => (r.1.heap.map (fun n => (n.tau, n.parent, n.dim.isSome)), r.1.internals, r.1.leaves)) =
    .ok ([(10, some 2, false), (10, some 4, false), (1 / 2, none, true), (10, some 6, false), (1 / 2, none, true), (10, some 8, false),
      (1, some 2, true), (10, some 6, false), (1, some 4, true), (10, some 8, false)], 4, 6) := by
  decide +kernel

theorem avail_count (nodes : List (Node K F L)) : (avail nodes).length = nodes.countP Node.available := by
  unfold avail
  rw [← List.countP_eq_length_filter, ← countP_range Node.available nodes]
  refine List.countP_congr fun i _ => ?_
  cases nodes[i]? <;> simp

/-! ### C59 -/

theorem draw_le' {p : Params K} {ω : Nat → K} (hω : ∀ i, 0 ≤ ω i ∧ ω i < 1) (pos : Nat) (b : Box K F) (x : Fin F → K) (ptau tau : K) (c : Cut K F)
    (pos' : Nat) (h : Mondrian.draw p ω pos b x ptau tau = .ok (some c, pos')) : ptau ≤ c.tau := Mondrian.draw_le hω pos b x ptau tau c pos' h

/-- **C59** Given the same calls and the same random numbers: if the unbounded forest ends up with no more than `m` nodes, the bounded forest with `m` nodes
consumes the same random numbers, has the same trees with the same boxes, splits, times and counters (`SameTrees`; the counters of split nodes are those
that `predict` works with), and predicts the same. -/
theorem C59_bounded_follows (p : Params K) (hlife : 0 ≤ p.lifetime) (ω : Nat → K) (hω : ∀ i, 0 ≤ ω i ∧ ω i < 1) (m n : Nat) (ops : List (Op K F L)) (pos : Nat)
    (s : Forest K F L) (pos' : Nat) (h : run p ω ops (new n) pos = .ok (s, pos')) (hm : s.heap.length ≤ m) :
    ∃ s' : Mondrian.Forest K F L, Mondrian.run p ω ops (Mondrian.new m n) pos = .ok (s', pos') ∧
      (∃ trees trees', HoldsAll { nodes := s.heap, roots := s.roots } trees ∧ HoldsAll s' trees' ∧ SameTrees trees trees') ∧
      ∀ x, (Mondrian.predict p s' x).map (fun r => r.2) = predict p s x := by
  obtain ⟨trees, a1, a2, -, a4, -⟩ := run_good p ω hω (· ≤ ·) (fun a b h => h.le) (draw_le' hω) n ops pos _ h
  have hlen := a1.length
  obtain ⟨s', trees', lost', b1, b2, b3, b4⟩ := bounded_run p hlife ω hω n ops (Mondrian.new m n) (List.replicate n none) [] pos _ _ (by simp)
    (Mondrian.inv_new m n) (Or.inr ⟨rfl, fun j o hj _ => List.eq_of_mem_replicate (List.mem_of_getElem? hj), fun j o _ hj => by omega⟩) a4 (by
      rw [contents_ids_length, hlen]
      simpa [Mondrian.new] using hm)
  have hsame : SameTrees trees trees' := b4
  refine ⟨s', b1, ⟨trees, trees', a1.all, b2.all, hsame⟩, fun x => ?_⟩
  obtain ⟨nodes', -, -, -, d4⟩ := b2.predict_eq p
  rw [d4 x, a1.predict_eq p x]
  conv_rhs => rw [← a1.recountAll]
  rw [label_congr p x hsame]
  cases label p x (recountAll trees') <;> rfl

/-- **C59** The same from the side of the bounded forest: if it has two free nodes at the end, the unbounded forest has the same trees and predicts the same. -/
theorem C59_unbounded_follows (p : Params K) (hlife : 0 ≤ p.lifetime) (ω : Nat → K) (hω : ∀ i, 0 ≤ ω i ∧ ω i < 1) (m n : Nat) (ops : List (Op K F L)) (pos : Nat)
    (s' : Mondrian.Forest K F L) (pos' : Nat) (h : Mondrian.run p ω ops (Mondrian.new m n) pos = .ok (s', pos')) (hm : 2 ≤ s'.nodes.countP Node.available) :
    ∃ s : Forest K F L, run p ω ops (new n) pos = .ok (s, pos') ∧
      (∃ trees trees', HoldsAll { nodes := s.heap, roots := s.roots } trees ∧ HoldsAll s' trees' ∧ SameTrees trees trees') ∧
      ∀ x, (Mondrian.predict p s' x).map (fun r => r.2) = predict p s x := by
  obtain ⟨trees', lost', b1, -, b3⟩ := bounded_free_run p hlife ω hω n ops (Mondrian.new m n) (List.replicate n none) [] pos _ (by simp)
    (Mondrian.inv_new m n) h
  have b3 := b3 (by rw [avail_count]; exact hm)
  have h1 := run_ideal p ω hω (· ≤ ·) (fun a b h => h.le) (draw_le' hω) n ops (new n) (List.replicate n none) pos [] (inv_new n) (by simp) (by
    intro o ho; rw [List.eq_of_mem_replicate ho]; rfl)
  rw [b3] at h1
  obtain ⟨s, trees, c1, c2, c3, -⟩ := h1
  have hsame : SameTrees trees trees' := c3.symm
  refine ⟨s, c1, ⟨trees, trees', c2.all, b1.all, hsame⟩, fun x => ?_⟩
  obtain ⟨nodes', -, -, -, d4⟩ := b1.predict_eq p
  rw [d4 x, c2.predict_eq p x]
  conv_rhs => rw [← c2.recountAll]
  rw [label_congr p x hsame]
  cases label p x (recountAll trees') <;> rfl

/-- the hypotheses of `C59_bounded_follows` for 10 nodes, of `C59_unbounded_follows` for 12 nodes -/
example : (run exP (exω []) exOps (new 2) 0).map (fun r => (r.1.heap.length, r.2)) = .ok (10, 14) ∧
    (Mondrian.run exP (exω []) exOps (Mondrian.new 12 2) 0).map (fun r => (r.1.nodes.countP Node.available, r.2)) = .ok (2, 14) := by
  decide +kernel

/-- Without enough nodes the two forests differ: a tree with 2 nodes predicts another label than one that may grow. -/
theorem C59_needs_nodes : ∃ (p : Params ℚ) (ω : Nat → ℚ) (ops : List (Op ℚ 1 2)) (x : Fin 1 → ℚ), (∀ i, 0 ≤ ω i ∧ ω i < 1) ∧
    (run p ω ops (new 1) 0).bind (fun r => predict p r.1 x) = .ok 1 ∧
    (Mondrian.run p ω ops (Mondrian.new 2 1) 0).bind (fun r => (Mondrian.predict p r.1 x).map (fun q => q.2)) = .ok 0 :=
  ⟨{ exP with discount := -1 }, exω [], [.train (pt 0) 0, .train (pt 1) 1, .train (pt 0) 0], pt 1, exω_range _, by decide +kernel, by decide +kernel⟩

/-! ### C60 -/

/-- **C60** After any history, the counter of a split node for a label is min(1, left child's counter) + min(1, right child's counter). -/
theorem C60_counters (p : Params K) (ω : Nat → K) (hω : ∀ i, 0 ≤ ω i ∧ ω i < 1) (n : Nat) (ops : List (Op K F L)) (pos : Nat) (s : Forest K F L) (pos' : Nat)
    (h : run p ω ops (new n) pos = .ok (s, pos')) (nd : Node K F L) (hnd : nd ∈ s.heap) (hs : nd.dim.isSome) :
    ∃ (a b : Nat) (na nb : Node K F L), nd.left = some a ∧ nd.right = some b ∧ s.heap[a]? = some na ∧ s.heap[b]? = some nb ∧
      ∀ l, nd.counts l = min 1 (na.counts l) + min 1 (nb.counts l) := by
  obtain ⟨trees, a1, -⟩ := run_good p ω hω (· ≤ ·) (fun a b h => h.le) (draw_le' hω) n ops pos _ h
  obtain ⟨i, hi⟩ := List.mem_iff_getElem?.1 hnd
  have hmem : i ∈ allIds trees := a1.cover.mem_iff.2 (List.mem_range.2 (lt_of_get hi))
  obtain ⟨o, ho, hio⟩ := List.mem_flatMap.1 hmem
  cases o with
  | none => cases hio
  | some t => exact holds_counter hi hs (a1.all.holds t ho) (a1.right t ho) hio

/-- **C60** After any history, the number of leaves on the heap is the number of split nodes plus the number of non-empty trees; the counts of nodes and of
data points that the object keeps are right. -/
theorem C60_leaves (p : Params K) (ω : Nat → K) (hω : ∀ i, 0 ≤ ω i ∧ ω i < 1) (n : Nat) (ops : List (Op K F L)) (pos : Nat) (s : Forest K F L) (pos' : Nat)
    (h : run p ω ops (new n) pos = .ok (s, pos')) :
    s.heap.countP (fun nd => nd.dim.isNone) = s.heap.countP (fun nd => nd.dim.isSome) + s.roots.countP Option.isSome ∧
      s.leaves = s.heap.countP (fun nd => nd.dim.isNone) ∧ s.internals = s.heap.countP (fun nd => nd.dim.isSome) ∧ s.points = (points ops).length := by
  obtain ⟨trees, a1, -, a3, -⟩ := run_good p ω hω (· ≤ ·) (fun a b h => h.le) (draw_le' hω) n ops pos _ h
  obtain ⟨c1, c2, c3⟩ := a1.counts
  have := a1.extra
  exact ⟨by rw [c1, c2, ← c3]; exact this, c2.symm, c1.symm, a3⟩

example : (run exP (exω []) exOps (new 2) 0).map (fun r => (r.1.heap.map (fun n => (n.dim.isSome, n.counts 0, n.counts 1)), r.1.roots, r.1.points)) =
    .ok ([(false, 1, 0), (false, 1, 0), (true, 1, 1), (false, 0, 1), (true, 1, 1), (false, 0, 1), (true, 0, 2), (false, 0, 1), (true, 0, 2), (false, 0, 1)],
      [some 2, some 4], 3) := by
  decide +kernel

/-! ### C70 -/

/-- **C70** After any history the destructor frees every node that was ever allocated, each exactly once, and reads no freed node. -/
theorem C70_destructor (p : Params K) (ω : Nat → K) (hω : ∀ i, 0 ≤ ω i ∧ ω i < 1) (n : Nat) (ops : List (Op K F L)) (pos : Nat) (s : Forest K F L) (pos' : Nat)
    (h : run p ω ops (new n) pos = .ok (s, pos')) :
    ∃ freed, destroy s s.roots [] = .ok freed ∧ List.Perm freed (List.range s.heap.length) := by
  obtain ⟨trees, a1, -⟩ := run_good p ω hω (· ≤ ·) (fun a b h => h.le) (draw_le' hω) n ops pos _ h
  obtain ⟨out, o1, o2⟩ := destroy_spec a1.bare trees [] (fun t ht => by
    obtain ⟨j, hj⟩ := List.mem_iff_getElem?.1 ht
    exact ⟨a1.all.holds t ht, a1.height_le hj⟩) a1.all.nodup (by simp)
  rw [List.append_nil] at o2
  have hr : s.roots = trees.map (fun t => t.map Mondrian.Tree.id) := a1.all.roots
  exact ⟨out, hr ▸ o1, o2.trans a1.cover⟩

example : (run exP (exω []) exOps (new 2) 0).bind (fun r => destroy r.1 r.1.roots []) = .ok [4, 8, 9, 5, 1, 2, 6, 7, 3, 0] := by decide +kernel

/-- **C70** (violation) The class does not declare its own copy constructor, so a copy has the same roots; after at least one training point, destroying
the object and a copy of it frees nodes twice, which is undefined behaviour. -/
theorem C70_copies_unsafe (p : Params K) (ω : Nat → K) (hω : ∀ i, 0 ≤ ω i ∧ ω i < 1) (n : Nat) (hn : 0 < n) (ops : List (Op K F L)) (hne : points ops ≠ [])
    (pos : Nat) (s : Forest K F L) (pos' : Nat) (h : run p ω ops (new n) pos = .ok (s, pos')) :
    (destroy s s.roots []).bind (fun freed => destroy s s.roots freed) = .error .ub := by
  obtain ⟨out, o1, o2⟩ := C70_destructor p ω hω n ops pos s pos' h
  obtain ⟨trees, a1, a2, -, -, a5⟩ := run_good p ω hω (· ≤ ·) (fun a b h => h.le) (draw_le' hω) n ops pos _ h
  rw [o1]
  simp only [Except.bind]
  have hr : s.roots = trees.map (fun t => t.map Mondrian.Tree.id) := a1.all.roots
  cases trees with
  | nil => simp at a2; omega
  | cons o os =>
      cases o with
      | none => exact absurd (a5 none (by simp)) hne
      | some t =>
          have hmem : t.id ∈ out := o2.mem_iff.2 (a1.cover.mem_iff.1 (mem_allIds (i := 0) rfl (id_mem_ids t)))
          have hpos : s.heap.length ≠ 0 := by
            intro e
            have := o2.mem_iff.1 hmem
            rw [e] at this
            simp at this
          obtain ⟨f, hf⟩ := Nat.exists_eq_succ_of_ne_zero hpos
          rw [hr, List.map_cons, Option.map_some]
          simp only [destroy, hf, Nat.succ_eq_add_one, destroyNode, if_pos hmem, bind, Except.bind]

/-! ### C72 -/

/-- **C72** After any history with at least one training point every tree is there, and it is right for the training points: boxes are the smallest boxes around the
points routed to a node, splits separate them, leaf counters count them (`Right`); split times are between 0 and `lifetime` and do not decrease on the way down. The
trees are made up of all nodes on the heap. -/
theorem C72_trees_right (p : Params K) (ω : Nat → K) (hω : ∀ i, 0 ≤ ω i ∧ ω i < 1) (n : Nat) (ops : List (Op K F L)) (pos : Nat) (s : Forest K F L) (pos' : Nat)
    (h : run p ω ops (new n) pos = .ok (s, pos')) (hne : points ops ≠ []) :
    ∃ trees : List (Mondrian.Tree K F L), trees.length = n ∧ HoldsAll { nodes := s.heap, roots := s.roots } (trees.map some) ∧
      List.Perm (allIds (trees.map some)) (List.range s.heap.length) ∧ ∀ t ∈ trees, Right (points ops) t ∧ Separates t ∧ Times (· ≤ ·) p.lifetime 0 t ∧
        ∀ (x : Fin F → K) (l : Fin L), (t.route x).counts l = (points ops).countP (fun w => t.leafOf w.1 = t.leafOf x ∧ w.2 = l) := by
  obtain ⟨trees, a1, a2, -, -, a5⟩ := run_good p ω hω (· ≤ ·) (fun a b h => h.le) (draw_le' hω) n ops pos _ h
  obtain ⟨ts, rfl⟩ := all_some trees (by rintro o ho rfl; exact hne (a5 _ ho))
  refine ⟨ts, by simpa using a2, a1.all, a1.cover, fun t ht => ?_⟩
  have hm : some t ∈ ts.map some := List.mem_map.2 ⟨t, ht, rfl⟩
  have hR := (a5 _ hm).1
  obtain ⟨j, hj⟩ := List.mem_iff_getElem?.1 hm
  exact ⟨hR, hR.separates, (a5 _ hm).2, fun x l => hR.leaf_counts (a1.ready hj).nodup x l⟩

example : points exOps ≠ [] := by decide +kernel

/-- **C72** (partial) With random numbers in `]0, 1[` and at least one tree no call does anything undefined, and `predict` returns a label in range. Missing: the
random number 0, see `C72_uninitialised`. -/
theorem C72_no_ub_partial (p : Params K) (h0 : p.exp 0 = 1) (hdisc : 0 ≤ p.discount) (ω : Nat → K) (hω : ∀ i, 0 < ω i ∧ ω i < 1) (hL : 0 < L)
    (n : Nat) (hn : 0 < n) (ops : List (Op K F L)) (pos : Nat) :
    ∃ s pos', run p ω ops (new n) pos = .ok (s, pos') ∧ ∀ x, ∃ l < L, predict p s x = .ok l := by
  have hω' : ∀ i, 0 ≤ ω i ∧ ω i < 1 := fun i => ⟨(hω i).1.le, (hω i).2⟩
  obtain ⟨r, hr⟩ := run_ok p h0 hdisc ω hω n hn ops pos
  obtain ⟨trees, a1, a2, -, -, a5⟩ := run_good p ω hω' (· ≤ ·) (fun a b h => h.le) (draw_le' hω') n ops pos _ hr
  refine ⟨r.1, r.2, hr, fun x => ?_⟩
  obtain ⟨u, hu⟩ := label_ok p h0 hdisc x trees (by omega) (fun t ht => by
    have := (a5 _ ht).1.positive
    rwa [a1.right t ht] at this)
  exact ⟨u, label_lt hL hu, (a1.predict_eq p x).trans hu⟩

example : exP.exp 0 = 1 ∧ 0 ≤ exP.discount ∧ ∀ i, 0 < exω [] i ∧ exω [] i < 1 := by
  refine ⟨by decide +kernel, by decide +kernel, fun i => ?_⟩
  unfold exω
  norm_num

/-- **C72** (violation) If the random number for the dimension is 0, the first dimension is chosen even if the point is inside the box in it, and uninitialised
values are read: the points (0,0) and (0,1), second random number 0. -/
theorem C72_uninitialised : ∃ (p : Params ℚ) (ω : Nat → ℚ) (x y : Fin 2 → ℚ), (∀ i, 0 ≤ ω i ∧ ω i < 1) ∧
    (run p ω [.train x 0, .train y (1 : Fin 2)] (new 1) 0).map (fun r => r.2) = .error .ub :=
  ⟨exP, exω [1], ![0, 0], ![0, 1], exω_range _, by decide +kernel⟩

/-- **C72** (violation) The value that `train` returns is always the indeterminate value of an uninitialised variable. -/
theorem C72_returns_indeterminate (p : Params K) (ω : Nat → K) (hω : ∀ i, 0 ≤ ω i ∧ ω i < 1) (n : Nat) (ops : List (Op K F L)) (pos : Nat) (s : Forest K F L)
    (pos' : Nat) (h : run p ω ops (new n) pos = .ok (s, pos')) (z : Point K F L) (s' : Forest K F L) (pos'' : Nat) (res : Option Bool)
    (ht : train p ω z.1 z.2 s pos' = .ok (s', pos'', res)) : res = none := by
  obtain ⟨trees, a1, a2, -⟩ := run_good p ω hω (· ≤ ·) (fun a b h => h.le) (draw_le' hω) n ops pos _ h
  have h1 := trainLoop_ideal p ω (fun i => (hω i).2.le) z.1 z.2 n 0 s trees pos' none (by omega) a1
  simp only [train, a1.roots_length, a2, bind, Except.bind, pure, Except.pure] at ht
  cases hl : idealLoop p ω z.1 z.2 0 n (contents trees) pos' with
  | error e => rw [hl] at h1; simp only at h1; rw [h1] at ht; cases ht
  | ok q =>
      rw [hl] at h1
      obtain ⟨s1, _, e1, -⟩ := h1
      rw [e1] at ht
      simp only [Except.ok.injEq, Prod.mk.injEq] at ht
      exact ht.2.2.symm

example : (train exP (exω []) (pt 0) (0 : Fin 2) (new 1) 0).map (fun r => r.2) = .ok (0, none) := by decide +kernel

end Orp.Unbound
