import Verif.Coarse.Down

/-!
The loop of `adjust_boxes` from any node of a tree, as long as no box is left without width.
-/

set_option linter.unusedSectionVars false

namespace Orp.Coarse

open Mondrian (Node Box Tree Holds Data lt_of_get init set_same holds_congr id_mem_ids upd_spec holds_root)

variable {K : Type} [Field K] [LinearOrder K] [IsStrictOrderedRing K] [FloorRing K] {F L : Nat}

/-- the tree with other boxes -/
def mapBoxes (g : Box K F → Box K F) : Tree K F L → Tree K F L
  | .leaf id d => .leaf id { d with box := g d.box }
  | .node id d dim sp l r => .node id { d with box := g d.box } dim sp (mapBoxes g l) (mapBoxes g r)

theorem mapBoxes_id (g : Box K F → Box K F) (t : Tree K F L) : (mapBoxes g t).id = t.id := by cases t <;> rfl

theorem mapBoxes_data (g : Box K F → Box K F) (t : Tree K F L) : (mapBoxes g t).data.box = g t.data.box := by cases t <;> rfl

theorem mapBoxes_ids (g : Box K F → Box K F) : ∀ t : Tree K F L, (mapBoxes g t).ids = t.ids
  | .leaf _ _ => rfl
  | .node _ _ _ _ l r => by simp only [mapBoxes, Tree.ids, mapBoxes_ids g l, mapBoxes_ids g r]

theorem allBoxes_root {P : Box K F → Prop} {t : Tree K F L} (h : AllBoxes P t) : P t.data.box := by
  cases t with
  | leaf _ _ => exact h
  | node _ _ _ _ _ _ => exact h.1

/-- the state with other nodes -/
def State.withNodes (s : State K F L) (nodes : List (Node K F L)) : State K F L := { s with forest := { s.forest with nodes := nodes } }

/-- The nodes below a node have new boxes, the others are the same. -/
structure Reboxed (g : Box K F → Box K F) (t : Tree K F L) (par : Option Nat) (nodes nodes' : List (Node K F L)) : Prop where
  length : nodes'.length = nodes.length
  holds : Holds nodes' par (mapBoxes g t)
  other : ∀ i, i ∉ t.ids → nodes'[i]? = nodes[i]?

section

variable {start tree : Nat} {dim : Fin F} {v : K} {onLeft : Bool}

theorem upd_box {s : State K F L} {nodes : List (Node K F L)} {id : Nat} {n : Node K F L} (h1 : nodes[id]? = some n) (b : Box K F) :
    (s.withNodes nodes).upd id (fun n => { n with box := some b }) = .ok (s.withNodes (nodes.set id { n with box := some b })) := by
  have hlt := lt_of_get h1
  simp only [State.upd, State.withNodes, Mondrian.upd, rd_eq_ok_iff.2 h1, wr_ok _ hlt, bind, Except.bind, pure, Except.pure]

theorem adjust_right {s : State K F L} {nodes : List (Node K F L)} {id : Nat} {n : Node K F L} {nd : Fin F} {r : Nat} {b : Box K F} (h1 : nodes[id]? = some n)
    (h2 : n.box = some b) (h3 : n.dim = some nd) (h6 : n.right = some r) (hw : (clip onLeft dim v b).upper dim - (clip onLeft dim v b).lower dim ≠ 0)
    (fuel i d : Nat) (stack : List Int) (hc : Clear stack d) (hd : d < 99) (hi : i < nodes.length) :
    adjustLoop start dim v onLeft tree (fuel + 1) i (some id) d stack (s.withNodes nodes) =
      adjustLoop start dim v onLeft tree fuel i (some r) ((d + 1 : Nat) : Int) (stack.set d 0) (s.withNodes (nodes.set id { n with box := some (clip onLeft dim v b) })) := by
  have hw' := wr_ok (0 : Int) (show d < stack.length by rw [hc.1]; omega)
  have e1 : rd (s.withNodes nodes).forest.nodes id = .ok n := rd_eq_ok_iff.2 h1
  rw [adjustLoop, if_pos (show i < (s.withNodes nodes).forest.nodes.length from hi)]
  simp only [e1, bind, Except.bind, h3, level_nat, rd_eq_ok_iff.2 (hc.2 d le_rfl (by omega)), if_true, h2, init, upd_box h1, hw, if_false, hw', h6]
  rw [if_neg (by omega)]
  norm_cast

theorem adjust_left {s : State K F L} {nodes : List (Node K F L)} {id : Nat} {n : Node K F L} {nd : Fin F} {l : Nat} (h1 : nodes[id]? = some n) (h3 : n.dim = some nd)
    (h5 : n.left = some l) (fuel i d : Nat) (stack : List Int) (hc : Clear stack d) (hd : d < 99) (hi : i < nodes.length) :
    adjustLoop start dim v onLeft tree (fuel + 1) i (some id) d (stack.set d 0) (s.withNodes nodes) =
      adjustLoop start dim v onLeft tree fuel i (some l) ((d + 1 : Nat) : Int) (stack.set d 1) (s.withNodes nodes) := by
  have hlt : d < stack.length := by rw [hc.1]; omega
  have hw := wr_ok (1 : Int) (show d < (stack.set d 0).length by simpa using hlt)
  have e1 : rd (s.withNodes nodes).forest.nodes id = .ok n := rd_eq_ok_iff.2 h1
  rw [adjustLoop, if_pos (show i < (s.withNodes nodes).forest.nodes.length from hi)]
  simp only [e1, bind, Except.bind, h3, level_nat, rd_eq_ok_iff.2 (List.getElem?_set_self hlt), hw, h5, List.set_set]
  rw [if_neg (by omega), if_pos trivial, if_neg (by omega)]
  norm_cast

theorem adjust_up {s : State K F L} {nodes : List (Node K F L)} {id : Nat} {n : Node K F L} {nd : Fin F} {l r : Nat} {nl nr : Node K F L} {bl br : Box K F}
    (h1 : nodes[id]? = some n) (h3 : n.dim = some nd) (h5 : n.left = some l) (h6 : n.right = some r) (hl : nodes[l]? = some nl) (hr : nodes[r]? = some nr)
    (hbl : nl.box = some bl) (hbr : nr.box = some br) (hwl : bl.upper dim - bl.lower dim ≠ 0) (hwr : br.upper dim - br.lower dim ≠ 0)
    (fuel i d : Nat) (stack : List Int) (hc : Clear stack d) (hd : d < 100) (hi : i < nodes.length) :
    adjustLoop start dim v onLeft tree (fuel + 1) i (some id) d (stack.set d 1) (s.withNodes nodes) =
      if id = start then .ok (s.withNodes nodes) else adjustLoop start dim v onLeft tree fuel (i + 1) n.parent ((d : Int) - 1) stack (s.withNodes nodes) := by
  have hlt : d < stack.length := by rw [hc.1]; exact hd
  have hw := wr_ok (-1 : Int) (show d < (stack.set d 1).length by simpa using hlt)
  have e1 : rd (s.withNodes nodes).forest.nodes id = .ok n := rd_eq_ok_iff.2 h1
  have e2 : rd (s.withNodes nodes).forest.nodes l = .ok nl := rd_eq_ok_iff.2 hl
  have e3 : rd (s.withNodes nodes).forest.nodes r = .ok nr := rd_eq_ok_iff.2 hr
  rw [adjustLoop, if_pos (show i < (s.withNodes nodes).forest.nodes.length from hi)]
  simp only [e1, e2, e3, bind, Except.bind, h3, level_nat, rd_eq_ok_iff.2 (List.getElem?_set_self hlt), hw, hc.restore hd, h5, h6, init, zeroed, hbl, hbr, pure, Except.pure,
    hwl, hwr, decide_false, Bool.false_eq_true, or_self, if_false]
  rw [if_neg (by omega), if_neg (by omega)]

theorem reboxed_leaf {nodes : List (Node K F L)} {id : Nat} {d : Data K F L} {n : Node K F L} {par : Option Nat} (g : Box K F → Box K F) (h1 : nodes[id]? = some n)
    (h2 : n.Has par d) (h3 : n.dim = none) : Reboxed g (.leaf id d) par nodes (nodes.set id { n with box := some (g d.box) }) := by
  have hlt := lt_of_get h1
  refine ⟨by simp, ⟨_, List.getElem?_set_self hlt, ⟨h2.1, h2.2.1, rfl, h2.2.2.2⟩, h3⟩, fun i hi => ?_⟩
  rw [List.getElem?_set_ne]
  rintro rfl
  exact hi (by simp [Tree.ids])

/-- what is known after the visits of both subtrees -/
theorem reboxed_node {g : Box K F → Box K F} {nodes nodes1 nodes2 : List (Node K F L)} {id : Nat} {d : Data K F L} {nd : Fin F} {sp : K} {l r : Tree K F L}
    {par : Option Nat} {n : Node K F L} (hnd : (Mondrian.Tree.node id d nd sp l r).ids.Nodup) (h1 : nodes[id]? = some n) (h2 : n.Has par d) (h3 : n.dim = some nd)
    (h4 : n.split = some sp) (h5 : n.left = some l.id) (h6 : n.right = some r.id)
    (hr : Reboxed g r (some id) (nodes.set id { n with box := some (g d.box) }) nodes1) (hl : Reboxed g l (some id) nodes1 nodes2) :
    Reboxed g (.node id d nd sp l r) par nodes nodes2 ∧ nodes2[id]? = some { n with box := some (g d.box) } := by
  have hlt := lt_of_get h1
  simp only [Tree.ids, List.nodup_cons, List.mem_append, not_or, List.nodup_append'] at hnd
  have e : nodes2[id]? = some { n with box := some (g d.box) } := by rw [hl.other id hnd.1.1, hr.other id hnd.1.2, List.getElem?_set_self hlt]
  refine ⟨⟨by rw [hl.length, hr.length, List.length_set], ⟨⟨_, e, ⟨h2.1, h2.2.1, rfl, h2.2.2.2⟩, h3, h4, ?_, ?_⟩, hl.holds, ?_⟩, fun i hi => ?_⟩, e⟩
  · rw [mapBoxes_id]; exact h5
  · rw [mapBoxes_id]; exact h6
  · refine holds_congr (fun i hi => hl.other i ?_) hr.holds
    rw [mapBoxes_ids] at hi
    exact fun hi' => hnd.2.2.2 hi' hi
  · simp only [Tree.ids, List.mem_cons, List.mem_append, not_or] at hi
    rw [hl.other i hi.2.1, hr.other i hi.2.2, List.getElem?_set_ne (fun e => hi.1 e.symm)]

/-- a box that keeps a width -/
def Wide (onLeft : Bool) (dim : Fin F) (v : K) (b : Box K F) : Prop := (clip onLeft dim v b).upper dim - (clip onLeft dim v b).lower dim ≠ 0

/-- The loop comes back from a subtree that does not contain the start. -/
theorem adjust_tree (s : State K F L) : ∀ (t : Tree K F L) (par : Option Nat) (fuel i d : Nat) (stack : List Int) (nodes : List (Node K F L)),
    t.ids.Nodup → start ∉ t.ids → Holds nodes par t → Clear stack d → d + t.height ≤ 100 → i + t.ids.length ≤ nodes.length → AllBoxes (Wide onLeft dim v) t →
    ∃ nodes', Reboxed (clip onLeft dim v) t par nodes nodes' ∧ adjustLoop start dim v onLeft tree (fuel + steps t) i (some t.id) d stack (s.withNodes nodes) =
      adjustLoop start dim v onLeft tree fuel (i + t.ids.length) par ((d : Int) - 1) stack (s.withNodes nodes')
  | .leaf id dt, par, fuel, i, d, stack, nodes, _, hst, ⟨n, h1, h2, h3⟩, hc, hd, hi, _ => by
      simp only [Tree.ids, List.length_singleton, Mondrian.Tree.height, List.mem_singleton] at hi hd hst ⊢
      refine ⟨_, reboxed_leaf _ h1 h2 h3, ?_⟩
      show adjustLoop start dim v onLeft tree (fuel + 1) i (some id) d stack (s.withNodes nodes) = _
      have e1 : rd (s.withNodes nodes).forest.nodes id = .ok n := rd_eq_ok_iff.2 h1
      rw [adjustLoop, if_pos (show i < (s.withNodes nodes).forest.nodes.length from (by omega : i < nodes.length))]
      simp only [e1, bind, Except.bind, h3, level_nat, wr_ok (-1 : Int) (show d < stack.length by rw [hc.1]; omega), h2.2.2.1, init, upd_box h1]
      rw [set_same (hc.2 d le_rfl (by omega)), if_neg (fun e => hst e.symm), h2.1]
  | .node id dt nd sp l r, par, fuel, i, d, stack, nodes, hnd, hst, hh, hc, hd, hi, ⟨w1, w2, w3⟩ => by
      obtain ⟨⟨n, h1, h2, h3, h4, h5, h6⟩, hl, hr⟩ := hh
      have hpl := height_pos l
      have hml : l.height ≤ Nat.max l.height r.height := Nat.le_max_left _ _
      have hmr : r.height ≤ Nat.max l.height r.height := Nat.le_max_right _ _
      have hnd' := hnd
      simp only [Mondrian.Tree.height] at hd
      simp only [Tree.ids, List.length_cons, List.length_append, List.mem_cons, List.mem_append, not_or] at hi hst ⊢
      simp only [Tree.ids, List.nodup_cons, List.mem_append, not_or, List.nodup_append'] at hnd'
      have ho : ∀ j, j ≠ id → (nodes.set id { n with box := some (clip onLeft dim v dt.box) })[j]? = nodes[j]? := fun j hj => List.getElem?_set_ne (fun e => hj e.symm)
      have hr0 : Holds (nodes.set id { n with box := some (clip onLeft dim v dt.box) }) (some id) r := holds_congr (fun j hj => ho j fun e => hnd'.1.2 (e ▸ hj)) hr
      have hl0 : Holds (nodes.set id { n with box := some (clip onLeft dim v dt.box) }) (some id) l := holds_congr (fun j hj => ho j fun e => hnd'.1.1 (e ▸ hj)) hl
      have len0 : (nodes.set id { n with box := some (clip onLeft dim v dt.box) }).length = nodes.length := List.length_set
      obtain ⟨nodes1, e1, e2⟩ := adjust_tree s r (some id) (fuel + 1 + steps l + 1) i (d + 1) (stack.set d 0) _ hnd'.2.2.1 hst.2.2 hr0 (hc.set 0)
        (by omega) (by omega) w3
      have hl1 : Holds nodes1 (some id) l := holds_congr (fun i hi => e1.other i fun hi' => hnd'.2.2.2 hi hi') hl0
      have h11 : nodes1[id]? = some { n with box := some (clip onLeft dim v dt.box) } := by rw [e1.other id hnd'.1.2]; exact List.getElem?_set_self (lt_of_get h1)
      have len1 := e1.length
      obtain ⟨nodes2, e3, e4⟩ := adjust_tree s l (some id) (fuel + 1) (i + r.ids.length) (d + 1) (stack.set d 1) nodes1 hnd'.2.1 hst.2.1 hl1 (hc.set 1)
        (by omega) (by omega) w2
      have len2 := e3.length
      obtain ⟨hre, h12⟩ := reboxed_node hnd h1 h2 h3 h4 h5 h6 e1 e3
      obtain ⟨nl, a1, a2⟩ := holds_root hre.holds.2.1
      obtain ⟨nr, b1, b2⟩ := holds_root hre.holds.2.2
      rw [mapBoxes_id] at a1 b1
      refine ⟨nodes2, hre, ?_⟩
      have c1 : ((d + 1 : Nat) : Int) - 1 = d := by omega
      show adjustLoop start dim v onLeft tree (fuel + (3 + steps l + steps r)) i (some id) d stack (s.withNodes nodes) = _
      rw [show fuel + (3 + steps l + steps r) = (fuel + 1 + steps l + 1 + steps r) + 1 by omega,
        adjust_right h1 h2.2.2.1 h3 h6 w1 _ _ _ _ hc (by omega) (by omega), e2, c1,
        adjust_left h11 h3 h5 _ _ _ _ hc (by omega) (by omega), e4, c1,
        adjust_up h12 h3 h5 h6 a1 b1 a2.2.2.1 b2.2.2.1 (by rw [mapBoxes_data]; exact allBoxes_root w2) (by rw [mapBoxes_data]; exact allBoxes_root w3) _ _ _ _ hc (by omega)
          (by omega), if_neg (fun e => hst.1 e.symm)]
      simp only [h2.1]
      congr 1
      omega

/-- The loop from any node of a tree that has at most 100 levels below it -/
theorem adjustBoxes_tree (s : State K F L) (t : Tree K F L) (par : Option Nat) (hnd : t.ids.Nodup) (hh : Holds s.forest.nodes par t)
    (hd : t.height ≤ 100) (hi : t.ids.length ≤ s.forest.nodes.length) (hw : AllBoxes (Wide onLeft dim v) t) :
    ∃ nodes', Reboxed (clip onLeft dim v) t par s.forest.nodes nodes' ∧ adjustBoxes s t.id dim v onLeft tree = .ok (s.withNodes nodes') := by
  have hs : s.withNodes s.forest.nodes = s := rfl
  generalize hN : s.forest.nodes = nodes at hh hi hs
  cases t with
  | leaf id dt =>
      obtain ⟨n, h1, h2, h3⟩ := hh
      refine ⟨_, reboxed_leaf _ h1 h2 h3, ?_⟩
      show adjustBoxes s id dim v onLeft tree = _
      rw [adjustBoxes_leaf s id dim v onLeft tree (hN ▸ h1) h3 h2.2.2.1]
      conv_lhs => rw [← hs]
      exact upd_box h1 _
  | node id dt nd sp l r =>
      obtain ⟨⟨n, h1, h2, h3, h4, h5, h6⟩, hl, hr⟩ := hh
      obtain ⟨w1, w2, w3⟩ := hw
      have hml : l.height ≤ Nat.max l.height r.height := Nat.le_max_left _ _
      have hmr : r.height ≤ Nat.max l.height r.height := Nat.le_max_right _ _
      have hpl := height_pos l
      have hnd' := hnd
      have hs1 := steps_le l
      have hs2 := steps_le r
      simp only [Mondrian.Tree.height] at hd
      simp only [Tree.ids, List.length_cons, List.length_append] at hi
      simp only [Tree.ids, List.nodup_cons, List.mem_append, not_or, List.nodup_append'] at hnd'
      have hc := clear_replicate
      obtain ⟨fuel, hf⟩ : ∃ fuel, 3 * nodes.length + 1 = (fuel + 1 + steps l + 1 + steps r) + 1 := ⟨3 * nodes.length + 1 - (3 + steps l + steps r), by omega⟩
      have ho : ∀ j, j ≠ id → (nodes.set id { n with box := some (clip onLeft dim v dt.box) })[j]? = nodes[j]? := fun j hj => List.getElem?_set_ne (fun e => hj e.symm)
      have hr0 : Holds (nodes.set id { n with box := some (clip onLeft dim v dt.box) }) (some id) r := holds_congr (fun j hj => ho j fun e => hnd'.1.2 (e ▸ hj)) hr
      have hl0 : Holds (nodes.set id { n with box := some (clip onLeft dim v dt.box) }) (some id) l := holds_congr (fun j hj => ho j fun e => hnd'.1.1 (e ▸ hj)) hl
      have len0 : (nodes.set id { n with box := some (clip onLeft dim v dt.box) }).length = nodes.length := List.length_set
      obtain ⟨nodes1, e1, e2⟩ := adjust_tree (start := id) (tree := tree) s r (some id) (fuel + 1 + steps l + 1) 0 (0 + 1) ((List.replicate 100 (-1)).set 0 0) _ hnd'.2.2.1
        hnd'.1.2 hr0 (hc.set 0) (by omega) (by omega) w3
      have hl1 : Holds nodes1 (some id) l := holds_congr (fun i hi => e1.other i fun hi' => hnd'.2.2.2 hi hi') hl0
      have h11 : nodes1[id]? = some { n with box := some (clip onLeft dim v dt.box) } := by rw [e1.other id hnd'.1.2]; exact List.getElem?_set_self (lt_of_get h1)
      have len1 := e1.length
      obtain ⟨nodes2, e3, e4⟩ := adjust_tree (start := id) (tree := tree) s l (some id) (fuel + 1) (0 + r.ids.length) (0 + 1) ((List.replicate 100 (-1)).set 0 1) nodes1
        hnd'.2.1 hnd'.1.1 hl1 (hc.set 1) (by omega) (by omega) w2
      have len2 := e3.length
      obtain ⟨hre, h12⟩ := reboxed_node hnd h1 h2 h3 h4 h5 h6 e1 e3
      obtain ⟨nl, a1, a2⟩ := holds_root hre.holds.2.1
      obtain ⟨nr, b1, b2⟩ := holds_root hre.holds.2.2
      rw [mapBoxes_id] at a1 b1
      refine ⟨nodes2, hre, ?_⟩
      have c1 : ((0 + 1 : Nat) : Int) - 1 = ((0 : Nat) : Int) := by omega
      have hb : adjustBoxes s id dim v onLeft tree =
          adjustLoop id dim v onLeft tree (3 * nodes.length + 1) 0 (some id) ((0 : Nat) : Int) (List.replicate 100 (-1)) (s.withNodes nodes) := by
        rw [hs, ← hN]; rfl
      show adjustBoxes s id dim v onLeft tree = _
      rw [hb, hf, adjust_right h1 h2.2.2.1 h3 h6 w1 _ _ _ _ hc (by omega) (by omega), e2, c1,
        adjust_left h11 h3 h5 _ _ _ _ hc (by omega) (by omega), e4, c1,
        adjust_up h12 h3 h5 h6 a1 b1 a2.2.2.1 b2.2.2.1 (by rw [mapBoxes_data]; exact allBoxes_root w2) (by rw [mapBoxes_data]; exact allBoxes_root w3) _ _ _ _ hc (by omega)
          (by omega), if_pos rfl]

end

end Orp.Coarse
