import Verif.Unbound.Props

/-!
C129: the counters of the leaves of the Mondrian forests on long streams. Only the counters of leaves are incremented; those of split nodes are assigned sums of two numbers that are at
most 1.
-/

set_option linter.unusedSectionVars false

namespace Orp.Mondrian

variable {K : Type} [Field K] [LinearOrder K] [IsStrictOrderedRing K] [FloorRing K] {F L : Nat}

theorem countP_copies {z : Point K F L} {k : Nat} {t : Tree K F L} (h : Right (List.replicate k z) t) (x : Fin F → K) :
    (List.replicate k z).countP (fun w => t.leafOf w.1 = t.leafOf x ∧ w.2 = z.2) = k := by
  obtain ⟨id, d, rfl, -⟩ := h.leaf_of_copies
  rw [List.countP_replicate]
  simp [Tree.leafOf]

/-- **C129** Mondrian forest: after a history with `N` training points every counter of a leaf is at most `N`, so the counters, which have type `int`, are exact for up to
`2^31 - 1` training points. After `N` copies of one point the counter of its label is `N` in every tree, so with `2^31` copies the counter overflows. -/
theorem C129_forest (p : Params K) (hlife : 0 ≤ p.lifetime) (ω : Nat → K) (hω : ∀ i, 0 ≤ ω i ∧ ω i < 1) (m n : Nat) (ops : List (Op K F L))
    (pos : Nat) (s : Forest K F L) (pos' : Nat) (h : run p ω ops (new m n) pos = .ok (s, pos')) (hne : points ops ≠ []) :
    ∃ trees : List (Tree K F L), trees.length = n ∧ HoldsAll s (trees.map some) ∧ ∀ t ∈ trees, ∀ x : Fin F → K,
      (∀ l, (t.route x).counts l ≤ (points ops).length) ∧
      ∀ k z, points ops = List.replicate k z → (t.route x).counts z.2 = k := by
  obtain ⟨trees, lost, a1, a2, a3, a4⟩ := run_good p hlife ω hω (· ≤ ·) (fun a b h => h.le) (draw_le hω) m n ops pos _ h
  obtain ⟨ts, rfl⟩ := all_some trees (by rintro o ho rfl; exact hne (a4 _ ho))
  refine ⟨ts, by simpa using a3, a1.all, fun t ht x => ?_⟩
  have hm : some t ∈ ts.map some := List.mem_map.2 ⟨t, ht, rfl⟩
  have hR := (a4 _ hm).1
  obtain ⟨j, hj⟩ := List.mem_iff_getElem?.1 hm
  refine ⟨fun l => ?_, fun k z e => ?_⟩
  · rw [hR.leaf_counts (a1.ready hj).nodup x l]
    exact List.countP_le_length
  · rw [hR.leaf_counts (a1.ready hj).nodup x z.2, e]
    rw [e] at hR
    exact countP_copies hR x

example : points exOps ≠ [] := by decide +kernel

end Orp.Mondrian

namespace Orp.Unbound

open Orp.Mondrian

variable {K : Type} [Field K] [LinearOrder K] [IsStrictOrderedRing K] [FloorRing K] {F L : Nat}

theorem leaf_le {heap : List (Mondrian.Node K F L)} {i : Nat} {n : Mondrian.Node K F L} (hn : heap[i]? = some n) (hd : n.dim = none) (l : Fin L) :
    ∀ {t : Mondrian.Tree K F L} {par : Option Nat} {pts : List (Point K F L)}, Holds heap par t → Right pts t → i ∈ t.ids → n.counts l ≤ pts.length
  | .leaf id d, par, pts, ⟨m, h1, h2, h3⟩, hR, hi => by
      simp only [Mondrian.Tree.ids, List.mem_singleton] at hi
      subst hi
      rw [hn] at h1
      have := Option.some.inj h1
      subst this
      rw [h2.2.2.2, hR.2.2]
      exact List.countP_le_length
  | .node id d dim sp tl tr, par, pts, ⟨⟨m, h1, h2, h3, h4, h5, h6⟩, hl, hr⟩, hR, hi => by
      simp only [Mondrian.Tree.ids, List.mem_cons, List.mem_append] at hi
      rcases hi with rfl | hi | hi
      · rw [hn] at h1
        have := Option.some.inj h1
        subst this
        rw [hd] at h3
        cases h3
      · exact (leaf_le hn hd l hl hR.2.1 hi).trans (List.length_filter_le _ _)
      · exact (leaf_le hn hd l hr hR.2.2 hi).trans (List.length_filter_le _ _)

/-- **C129** The unbounded Mondrian forest: after a history with `N` training points every counter of a leaf is at most `N`, so the counters, which have type `long long int`, are exact
for every history of fewer than `2^63` points; the counters of split nodes, which have type `char`, are at most 2. -/
theorem C129_forest (p : Params K) (ω : Nat → K) (hω : ∀ i, 0 ≤ ω i ∧ ω i < 1) (n : Nat) (ops : List (Op K F L)) (pos : Nat) (s : Forest K F L) (pos' : Nat)
    (h : run p ω ops (new n) pos = .ok (s, pos')) (nd : Mondrian.Node K F L) (hnd : nd ∈ s.heap) (l : Fin L) :
    (nd.dim = none → nd.counts l ≤ (points ops).length) ∧ (nd.dim ≠ none → nd.counts l ≤ 2) := by
  constructor
  · intro hd
    obtain ⟨trees, a1, a2, -, -, a5⟩ := run_good p ω hω (· ≤ ·) (fun a b h => h.le) (draw_le' hω) n ops pos _ h
    obtain ⟨i, hi⟩ := List.mem_iff_getElem?.1 hnd
    have hmem : i ∈ allIds trees := a1.cover.mem_iff.2 (List.mem_range.2 (lt_of_get hi))
    obtain ⟨o, ho, hio⟩ := List.mem_flatMap.1 hmem
    cases o with
    | none => cases hio
    | some t => exact leaf_le hi hd l (a1.all.holds t ho) (a5 _ ho).1 hio
  · intro hd
    obtain ⟨a, b, na, nb, -, -, -, -, e⟩ := C60_counters p ω hω n ops pos s pos' h nd hnd (Option.isSome_iff_ne_none.2 hd)
    rw [e]
    omega

example : (run exP (exω []) exOps (new 2) 0).map (fun r => r.1.heap.length) = .ok 10 := by decide +kernel

end Orp.Unbound
