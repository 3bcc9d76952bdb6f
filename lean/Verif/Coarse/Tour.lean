import Verif.Coarse.LeafHist

/-!
The loop over the leaves below a node that `find_barycenter`, `count_sides` and `adjust_counters` share, from any node of a tree.
-/

set_option linter.unusedSectionVars false

namespace Orp.Coarse

open Mondrian (Node Tree Holds Data Frame plug ctxPar HoldsCtx lt_of_get init holds_plug set_same holds_congr id_mem_ids)

variable {K : Type} [Field K] [LinearOrder K] [IsStrictOrderedRing K] [FloorRing K] {F L : Nat}

/-- the tree with other counters in the leaves -/
def recountLeaves (h : Data K F L → Fin L → Nat) : Tree K F L → Tree K F L
  | .leaf id d => .leaf id { d with counts := h d }
  | .node id d dim sp l r => .node id d dim sp (recountLeaves h l) (recountLeaves h r)

theorem recountLeaves_id (h : Data K F L → Fin L → Nat) (t : Tree K F L) : (recountLeaves h t).id = t.id := by cases t <;> rfl

theorem recountLeaves_ids (h : Data K F L → Fin L → Nat) : ∀ t : Tree K F L, (recountLeaves h t).ids = t.ids
  | .leaf _ _ => rfl
  | .node _ _ _ _ l r => by simp only [recountLeaves, Tree.ids, recountLeaves_ids h l, recountLeaves_ids h r]

theorem recountLeaves_same : ∀ t : Tree K F L, recountLeaves (fun d => d.counts) t = t
  | .leaf _ _ => rfl
  | .node _ _ _ _ l r => by simp only [recountLeaves, recountLeaves_same l, recountLeaves_same r]

theorem leaves_recount (h : Data K F L → Fin L → Nat) : ∀ t : Tree K F L,
    leaves (recountLeaves h t) = (leaves t).map (fun z => (z.1, { z.2 with counts := h z.2 }))
  | .leaf _ _ => rfl
  | .node _ _ _ _ l r => by simp only [recountLeaves, leaves, leaves_recount h l, leaves_recount h r, List.map_append]

section

variable {A : Type} {start : Nat} {act : Node K F L → A → Res (Node K F L × A)} {h : Data K F L → Fin L → Nat} {g : Data K F L → A → A}

/-- The loop changes at most the counters of a leaf, and computes with what the leaf holds. -/
def Acts (act : Node K F L → A → Res (Node K F L × A)) (h : Data K F L → Fin L → Nat) (g : Data K F L → A → A) : Prop :=
  ∀ n par d a, n.Has par d → act n a = .ok ({ n with counts := h d }, g d a)

/-- The nodes below a node have new counters in the leaves, the others are the same. -/
structure Recounted (h : Data K F L → Fin L → Nat) (t : Tree K F L) (par : Option Nat) (nodes nodes' : List (Node K F L)) : Prop where
  length : nodes'.length = nodes.length
  holds : Holds nodes' par (recountLeaves h t)
  other : ∀ i, i ∉ t.ids → nodes'[i]? = nodes[i]?
  rest : ∀ (i : Nat) (n : Node K F L), nodes[i]? = some n → ∃ c, nodes'[i]? = some { n with counts := c }

theorem recounted_leaf {nodes : List (Node K F L)} {id : Nat} {d : Data K F L} {n : Node K F L} {par : Option Nat} (h1 : nodes[id]? = some n) (h2 : n.Has par d)
    (h3 : n.dim = none) : Recounted h (.leaf id d) par nodes (nodes.set id { n with counts := h d }) := by
  have hlt := lt_of_get h1
  refine ⟨by simp, ⟨_, List.getElem?_set_self hlt, ⟨h2.1, h2.2.1, h2.2.2.1, rfl⟩, h3⟩, fun i hi => ?_, fun i m hm => ?_⟩
  · rw [List.getElem?_set_ne]
    rintro rfl
    exact hi (by simp [Tree.ids])
  · by_cases hi : id = i
    · subst hi
      rw [h1] at hm
      cases hm
      exact ⟨_, List.getElem?_set_self hlt⟩
    · exact ⟨m.counts, by rw [List.getElem?_set_ne hi]; exact hm⟩

/-- first the right subtree, then the left one -/
theorem recounted_node {nodes nodes1 nodes2 : List (Node K F L)} {id : Nat} {d : Data K F L} {dim : Fin F} {sp : K} {l r : Tree K F L} {par : Option Nat}
    (hnd : (Mondrian.Tree.node id d dim sp l r).ids.Nodup) (hh : Holds nodes par (.node id d dim sp l r)) (hr : Recounted h r (some id) nodes nodes1)
    (hl : Recounted h l (some id) nodes1 nodes2) : Recounted h (.node id d dim sp l r) par nodes nodes2 := by
  obtain ⟨⟨n, h1, h2, h3, h4, h5, h6⟩, -, -⟩ := hh
  simp only [Tree.ids, List.nodup_cons, List.mem_append, not_or, List.nodup_append'] at hnd
  refine ⟨hl.length.trans hr.length, ⟨⟨n, ?_, h2, h3, h4, ?_, ?_⟩, hl.holds, ?_⟩, fun i hi => ?_, fun i m hm => ?_⟩
  · rw [hl.other id hnd.1.1, hr.other id hnd.1.2, h1]
  · rw [recountLeaves_id]; exact h5
  · rw [recountLeaves_id]; exact h6
  · refine holds_congr (fun i hi => hl.other i ?_) hr.holds
    rw [recountLeaves_ids] at hi
    exact fun hi' => hnd.2.2.2 hi' hi
  · simp only [Tree.ids, List.mem_cons, List.mem_append, not_or] at hi
    rw [hl.other i hi.2.1, hr.other i hi.2.2]
  · obtain ⟨c, hc⟩ := hr.rest i m hm
    obtain ⟨c', hc'⟩ := hl.rest i _ hc
    exact ⟨c', hc'⟩

theorem tour_right {nodes : List (Node K F L)} {id : Nat} {n : Node K F L} {dim : Fin F} {r : Nat} (h1 : nodes[id]? = some n) (h3 : n.dim = some dim)
    (h6 : n.right = some r) (fuel i d : Nat) (stack : List Int) (hc : Clear stack d) (hd : d < 99) (hi : i < nodes.length) (a : A) :
    tour start act (fuel + 1) i (some id) d stack nodes a = tour start act fuel i (some r) ((d + 1 : Nat) : Int) (stack.set d 0) nodes a := by
  have hw := wr_ok (0 : Int) (show d < stack.length by rw [hc.1]; omega)
  rw [tour, if_pos hi]
  simp only [rd_eq_ok_iff.2 h1, bind, Except.bind, h3, level_nat, rd_eq_ok_iff.2 (hc.2 d le_rfl (by omega)), if_true, hw, h6]
  rw [if_neg (by omega)]
  norm_cast

theorem tour_left {nodes : List (Node K F L)} {id : Nat} {n : Node K F L} {dim : Fin F} {l : Nat} (h1 : nodes[id]? = some n) (h3 : n.dim = some dim)
    (h5 : n.left = some l) (fuel i d : Nat) (stack : List Int) (hc : Clear stack d) (hd : d < 99) (hi : i < nodes.length) (a : A) :
    tour start act (fuel + 1) i (some id) d (stack.set d 0) nodes a = tour start act fuel i (some l) ((d + 1 : Nat) : Int) (stack.set d 1) nodes a := by
  have hlt : d < stack.length := by rw [hc.1]; omega
  have hw := wr_ok (1 : Int) (show d < (stack.set d 0).length by simpa using hlt)
  rw [tour, if_pos hi]
  simp only [rd_eq_ok_iff.2 h1, bind, Except.bind, h3, level_nat, rd_eq_ok_iff.2 (List.getElem?_set_self hlt), hw, h5, List.set_set]
  rw [if_neg (by omega), if_pos trivial, if_neg (by omega)]
  norm_cast

theorem tour_up {nodes : List (Node K F L)} {id : Nat} {n : Node K F L} {dim : Fin F} (h1 : nodes[id]? = some n) (h3 : n.dim = some dim)
    (fuel i d : Nat) (stack : List Int) (hc : Clear stack d) (hd : d < 100) (hi : i < nodes.length) (a : A) :
    tour start act (fuel + 1) i (some id) d (stack.set d 1) nodes a =
      if id = start then .ok (decide ((d : Int) - 1 = -1), nodes, a) else tour start act fuel (i + 1) n.parent ((d : Int) - 1) stack nodes a := by
  have hlt : d < stack.length := by rw [hc.1]; exact hd
  have hw := wr_ok (-1 : Int) (show d < (stack.set d 1).length by simpa using hlt)
  rw [tour, if_pos hi]
  simp only [rd_eq_ok_iff.2 h1, bind, Except.bind, h3, level_nat, rd_eq_ok_iff.2 (List.getElem?_set_self hlt), hw, hc.restore hd]
  rw [if_neg (by omega), if_neg (by omega)]
  rfl

/-- The loop comes back from a subtree that does not contain the start. -/
theorem tour_tree (hact : Acts act h g) : ∀ (t : Tree K F L) (par : Option Nat) (fuel i d : Nat) (stack : List Int) (nodes : List (Node K F L)) (a : A),
    t.ids.Nodup → start ∉ t.ids → Holds nodes par t → Clear stack d → d + t.height ≤ 100 → i + t.ids.length ≤ nodes.length →
    ∃ nodes', Recounted h t par nodes nodes' ∧ tour start act (fuel + steps t) i (some t.id) d stack nodes a =
      tour start act fuel (i + t.ids.length) par ((d : Int) - 1) stack nodes' ((leaves t).foldl (fun a z => g z.2 a) a)
  | .leaf id dt, par, fuel, i, d, stack, nodes, a, _, hst, ⟨n, h1, h2, h3⟩, hc, hd, hi => by
      simp only [Tree.ids, List.length_singleton, Mondrian.Tree.height, List.mem_singleton] at hi hd hst ⊢
      refine ⟨_, recounted_leaf h1 h2 h3, ?_⟩
      show tour start act (fuel + 1) i (some id) d stack nodes a = _
      rw [tour, if_pos (by omega)]
      simp only [rd_eq_ok_iff.2 h1, bind, Except.bind, h3, level_nat, wr_ok (-1 : Int) (show d < stack.length by rw [hc.1]; omega), hact n par dt a h2,
        wr_ok _ (lt_of_get h1)]
      rw [set_same (hc.2 d le_rfl (by omega)), if_neg (fun e => hst e.symm), h2.1]
      rfl
  | .node id dt dim sp l r, par, fuel, i, d, stack, nodes, a, hnd, hst, hh, hc, hd, hi => by
      have hh' := hh
      obtain ⟨⟨n, h1, h2, h3, h4, h5, h6⟩, hl, hr⟩ := hh'
      have hpl := height_pos l
      have hml : l.height ≤ Nat.max l.height r.height := Nat.le_max_left _ _
      have hmr : r.height ≤ Nat.max l.height r.height := Nat.le_max_right _ _
      have hnd' := hnd
      simp only [Mondrian.Tree.height] at hd
      simp only [Tree.ids, List.length_cons, List.length_append, List.mem_cons, List.mem_append, not_or] at hi hst ⊢
      simp only [Tree.ids, List.nodup_cons, List.mem_append, not_or, List.nodup_append'] at hnd'
      obtain ⟨nodes1, e1, e2⟩ := tour_tree hact r (some id) (fuel + 1 + steps l + 1) i (d + 1) (stack.set d 0) nodes a hnd'.2.2.1 hst.2.2 hr (hc.set 0)
        (by omega) (by omega)
      have hl1 : Holds nodes1 (some id) l := holds_congr (fun i hi => e1.other i fun hi' => hnd'.2.2.2 hi hi') hl
      have h11 : nodes1[id]? = some n := by rw [e1.other id hnd'.1.2]; exact h1
      have len1 := e1.length
      obtain ⟨nodes2, e3, e4⟩ := tour_tree hact l (some id) (fuel + 1) (i + r.ids.length) (d + 1) (stack.set d 1) nodes1 _ hnd'.2.1 hst.2.1 hl1 (hc.set 1)
        (by omega) (by omega)
      have h12 : nodes2[id]? = some n := by rw [e3.other id hnd'.1.1]; exact h11
      have len2 := e3.length
      refine ⟨nodes2, recounted_node hnd hh e1 e3, ?_⟩
      have c1 : ((d + 1 : Nat) : Int) - 1 = d := by omega
      show tour start act (fuel + (3 + steps l + steps r)) i (some id) d stack nodes a = _
      rw [show fuel + (3 + steps l + steps r) = (fuel + 1 + steps l + 1 + steps r) + 1 by omega, tour_right h1 h3 h6 _ _ _ _ hc (by omega) (by omega), e2, c1,
        tour_left h11 h3 h5 _ _ _ _ hc (by omega) (by omega), e4, c1, tour_up h12 h3 _ _ _ _ hc (by omega) (by omega), if_neg (fun e => hst.1 e.symm), h2.1]
      simp only [leaves, List.foldl_append]
      congr 1
      omega

/-- The loop from any node of a tree that has at most 100 levels below it -/
theorem tourFrom_tree (hact : Acts act h g) (t : Tree K F L) (par : Option Nat) (nodes : List (Node K F L)) (a : A) (hnd : t.ids.Nodup) (hh : Holds nodes par t)
    (hd : t.height ≤ 100) (hi : t.ids.length ≤ nodes.length) :
    ∃ nodes', Recounted h t par nodes nodes' ∧ tourFrom act nodes t.id a = .ok (true, nodes', (leaves t).foldl (fun a z => g z.2 a) a) := by
  cases t with
  | leaf id dt =>
      obtain ⟨n, h1, h2, h3⟩ := hh
      exact ⟨_, recounted_leaf h1 h2 h3, tourFrom_leaf act nodes id a h1 h3 (hact n par dt a h2)⟩
  | node id dt dim sp l r =>
      have hh' := hh
      obtain ⟨⟨n, h1, h2, h3, h4, h5, h6⟩, hl, hr⟩ := hh'
      have hml : l.height ≤ Nat.max l.height r.height := Nat.le_max_left _ _
      have hmr : r.height ≤ Nat.max l.height r.height := Nat.le_max_right _ _
      have hpl := height_pos l
      have hnd' := hnd
      have hs1 := steps_le l
      have hs2 := steps_le r
      simp only [Mondrian.Tree.height] at hd
      simp only [Tree.ids, List.length_cons, List.length_append] at hi
      simp only [Tree.ids, List.nodup_cons, List.mem_append, not_or, List.nodup_append'] at hnd'
      have hc := clear_replicate
      obtain ⟨fuel, hf⟩ : ∃ fuel, 3 * nodes.length + 1 = (fuel + 1 + steps l + 1 + steps r) + 1 := ⟨3 * nodes.length + 1 - (3 + steps l + steps r), by omega⟩
      obtain ⟨nodes1, e1, e2⟩ := tour_tree (start := id) hact r (some id) (fuel + 1 + steps l + 1) 0 (0 + 1) ((List.replicate 100 (-1)).set 0 0) nodes a hnd'.2.2.1
        hnd'.1.2 hr (hc.set 0) (by omega) (by omega)
      have hl1 : Holds nodes1 (some id) l := holds_congr (fun i hi => e1.other i fun hi' => hnd'.2.2.2 hi hi') hl
      have h11 : nodes1[id]? = some n := by rw [e1.other id hnd'.1.2]; exact h1
      have len1 := e1.length
      obtain ⟨nodes2, e3, e4⟩ := tour_tree (start := id) hact l (some id) (fuel + 1) (0 + r.ids.length) (0 + 1) ((List.replicate 100 (-1)).set 0 1) nodes1 _
        hnd'.2.1 hnd'.1.1 hl1 (hc.set 1) (by omega) (by omega)
      have h12 : nodes2[id]? = some n := by rw [e3.other id hnd'.1.1]; exact h11
      have len2 := e3.length
      refine ⟨nodes2, recounted_node hnd hh e1 e3, ?_⟩
      have c1 : ((0 + 1 : Nat) : Int) - 1 = ((0 : Nat) : Int) := by omega
      show tour id act (3 * nodes.length + 1) 0 (some id) ((0 : Nat) : Int) (List.replicate 100 (-1)) nodes a = _
      rw [hf, tour_right h1 h3 h6 _ _ _ _ hc (by omega) (by omega), e2, c1, tour_left h11 h3 h5 _ _ _ _ hc (by omega) (by omega), e4, c1,
        tour_up h12 h3 _ _ _ _ hc (by omega) (by omega), if_pos rfl]
      simp only [leaves, List.foldl_append]
      rfl

end

end Orp.Coarse
