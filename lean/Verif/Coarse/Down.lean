import Verif.Coarse.PublicProps
import Verif.Coarse.NoTrimRun

/-!
`pass_data_point_down`, `count_fe_down` and `adjust_boxes`, called for any node of a tree.
-/

set_option linter.unusedSectionVars false

namespace Orp.Coarse

open Finset
open Mondrian (Node Box Forest Params upd init bump Tree Data plug ctxPar Holds HoldsAll lt_of_get upd_spec holds_congr id_mem_ids)

variable {K : Type} [Field K] [LinearOrder K] [IsStrictOrderedRing K] [FloorRing K] {F L : Nat}

/-! ### What passing a point down should do -/

/-- The box contains the point. -/
def Has (b : Box K F) (x : Fin F → K) : Prop := ∀ i, b.lower i ≤ x i ∧ x i ≤ b.upper i

/-- `b'` is the smallest box that contains the box `b` and the point. -/
def Grown (x : Fin F → K) (b b' : Box K F) : Prop := b.Inside b' ∧ Has b' x ∧ ∀ c : Box K F, b.Inside c → Has c x → b'.Inside c

/-- `t'` is `t` after it has received the point: the boxes of the nodes on the way of the point have grown to contain it, the leaf at the end of the way has counted it for
its label, and everything else is the same. -/
inductive Received (x : Fin F → K) (label : Fin L) : Tree K F L → Tree K F L → Prop where
  | leaf {id d b' c'} (hb : Grown x d.box b') (hc : ∀ i, c' i = if i = label then d.counts i + 1 else d.counts i) :
      Received x label (.leaf id d) (.leaf id { d with box := b', counts := c' })
  | left {id d dim sp l r b' l'} (hb : Grown x d.box b') (hx : x dim ≤ sp) (h : Received x label l l') :
      Received x label (.node id d dim sp l r) (.node id { d with box := b' } dim sp l' r)
  | right {id d dim sp l r b' r'} (hb : Grown x d.box b') (hx : sp < x dim) (h : Received x label r r') :
      Received x label (.node id d dim sp l r) (.node id { d with box := b' } dim sp l r')

/-! ### `pass_data_point_down` -/

theorem grown_extend (x : Fin F → K) (b : Box K F) : Grown x b (b.extend x) := by
  refine ⟨fun i => ⟨?_, ?_⟩, fun i => ⟨?_, ?_⟩, fun c h1 h2 i => ⟨?_, ?_⟩⟩
  · show (if x i < b.lower i then x i else b.lower i) ≤ b.lower i
    split <;> linarith
  · show b.upper i ≤ if b.upper i < x i then x i else b.upper i
    split <;> linarith
  · show (if x i < b.lower i then x i else b.lower i) ≤ x i
    split <;> linarith
  · show x i ≤ if b.upper i < x i then x i else b.upper i
    split <;> linarith
  · show c.lower i ≤ if x i < b.lower i then x i else b.lower i
    split
    · exact (h2 i).1
    · exact (h1 i).1
  · show (if b.upper i < x i then x i else b.upper i) ≤ c.upper i
    split
    · exact (h2 i).2
    · exact (h1 i).2

/-- the tree with the boxes and the counter that `pass_data_point_down` computes -/
def absorb (x : Fin F → K) (label : Fin L) : Tree K F L → Tree K F L
  | .leaf id d => .leaf id { d with box := d.box.extend x, counts := bump d.counts label }
  | .node id d dim sp l r =>
      if x dim ≤ sp then .node id { d with box := d.box.extend x } dim sp (absorb x label l) r
      else .node id { d with box := d.box.extend x } dim sp l (absorb x label r)

theorem absorb_id (x : Fin F → K) (label : Fin L) (t : Tree K F L) : (absorb x label t).id = t.id := by
  cases t with
  | leaf _ _ => rfl
  | node _ _ _ _ _ _ => rw [absorb]; split <;> rfl

theorem absorb_ids (x : Fin F → K) (label : Fin L) : ∀ t : Tree K F L, (absorb x label t).ids = t.ids
  | .leaf _ _ => rfl
  | .node _ _ _ _ l r => by
      rw [absorb]
      split <;> simp only [Tree.ids, absorb_ids x label l, absorb_ids x label r]

theorem received_absorb (x : Fin F → K) (label : Fin L) : ∀ t : Tree K F L, Received x label t (absorb x label t)
  | .leaf _ d => by
      refine .leaf (grown_extend x _) fun i => ?_
      by_cases hi : i = label
      · subst hi; simp [bump]
      · simp [bump, hi]
  | .node _ _ dim sp l r => by
      rw [absorb]
      split
      · rename_i hx
        exact .left (grown_extend x _) hx (received_absorb x label l)
      · rename_i hx
        exact .right (grown_extend x _) (not_le.1 hx) (received_absorb x label r)

theorem passDown_tree (x : Fin F → K) (label : Fin L) : ∀ (fuel : Nat) (t : Tree K F L) (par : Option Nat) (s : State K F L), t.height ≤ fuel → t.ids.Nodup →
    Holds s.forest.nodes par t → s.fading.length = s.forest.nodes.length →
    ∃ nodes' : List (Node K F L), nodes'.length = s.forest.nodes.length ∧ Holds nodes' par (absorb x label t) ∧
      (∀ i, i ∉ t.ids → nodes'[i]? = s.forest.nodes[i]?) ∧ passDown x label fuel t.id s = .ok (t.leafOf x, { s with
        forest := { s.forest with nodes := nodes' }
        fading := s.fading.set (t.leafOf x) (s.fading.getD (t.leafOf x) 0 + 1) })
  | 0, t, _, _, hh, _, _, _ => by have := height_pos t; omega
  | fuel + 1, .leaf id d, par, s, hh, hnd, ⟨n, h1, h2, h3⟩, hf => by
      obtain ⟨n1, u1, l1, g1⟩ := upd_spec (fun n : Node K F L => { n with box := some (d.box.extend x) }) h1
      have g1i := g1 id
      rw [if_pos rfl] at g1i
      obtain ⟨n2, u2, l2, g2⟩ := upd_spec (fun n : Node K F L => { n with counts := bump n.counts label }) g1i
      have g2i := g2 id
      rw [if_pos rfl] at g2i
      have hlt : id < s.fading.length := by rw [hf]; exact lt_of_get h1
      refine ⟨n2, l2.trans l1, ⟨_, g2i, ⟨h2.1, h2.2.1, rfl, by simp only [h2.2.2.2]⟩, h3⟩, fun i hi => ?_, ?_⟩
      · simp only [Tree.ids, List.mem_singleton] at hi
        rw [g2, if_neg hi, g1, if_neg hi]
      · show passDown x label (fuel + 1) id s = _
        rw [passDown_leaf x label fuel id s h1 h3 h2.2.2.1]
        simp only [State.upd, u1, countAt, u2, bind, Except.bind, pure, Except.pure, rd_eq_ok_iff.2 (List.getElem?_eq_getElem hlt), wr_ok _ hlt, Tree.leafOf,
          List.getD_eq_getElem?_getD, List.getElem?_eq_getElem hlt, Option.getD_some]
  | fuel + 1, .node id d dim sp l r, par, s, hh, hnd, ⟨⟨n, h1, h2, h3, h4, h5, h6⟩, hl, hr⟩, hf => by
      have hml : l.height ≤ Nat.max l.height r.height := Nat.le_max_left _ _
      have hmr : r.height ≤ Nat.max l.height r.height := Nat.le_max_right _ _
      simp only [Mondrian.Tree.height] at hh
      simp only [Tree.ids, List.nodup_cons, List.mem_append, not_or, List.nodup_append'] at hnd
      obtain ⟨n1, u1, l1, g1⟩ := upd_spec (fun n : Node K F L => { n with box := some (d.box.extend x) }) h1
      have g1i := g1 id
      rw [if_pos rfl] at g1i
      have g1o : ∀ i, i ≠ id → n1[i]? = s.forest.nodes[i]? := fun i hi => by rw [g1, if_neg hi]
      have hl1 : Holds n1 (some id) l := holds_congr (fun i hi => g1o i fun e => hnd.1.1 (e ▸ hi)) hl
      have hr1 : Holds n1 (some id) r := holds_congr (fun i hi => g1o i fun e => hnd.1.2 (e ▸ hi)) hr
      have hbase : passDown x label (fuel + 1) id s = passDown x label fuel (if sp < x dim then r.id else l.id) { s with forest := { s.forest with nodes := n1 } } := by
        rw [passDown]
        simp only [rd_eq_ok_iff.2 h1, h2.2.2.1, h3, h4, h5, h6, init, State.upd, u1, bind, Except.bind, pure, Except.pure]
        by_cases hx : sp < x dim
        · simp only [hx, if_true]
        · simp only [hx, if_false]
      by_cases hx : x dim ≤ sp
      · obtain ⟨n2, l2, ho, g2, e2⟩ := passDown_tree x label fuel l (some id) { s with forest := { s.forest with nodes := n1 } } (by omega) hnd.2.1 hl1 (hf.trans l1.symm)
        refine ⟨n2, l2.trans l1, ?_, fun i hi => ?_, ?_⟩
        · rw [absorb, if_pos hx]
          refine ⟨⟨_, (g2 id hnd.1.1).trans g1i, ⟨h2.1, h2.2.1, rfl, h2.2.2.2⟩, h3, h4, by rw [absorb_id]; exact h5, h6⟩, ho, ?_⟩
          exact holds_congr (fun i hi => g2 i fun hi' => hnd.2.2.2 hi' hi) hr1
        · simp only [Tree.ids, List.mem_cons, List.mem_append, not_or] at hi
          rw [g2 i hi.2.1]; exact g1o i hi.1
        · show passDown x label (fuel + 1) id s = _
          rw [hbase, if_neg (not_lt.2 hx), e2]
          simp only [Tree.leafOf, hx, if_true]
      · obtain ⟨n2, l2, ho, g2, e2⟩ := passDown_tree x label fuel r (some id) { s with forest := { s.forest with nodes := n1 } } (by omega) hnd.2.2.1 hr1 (hf.trans l1.symm)
        refine ⟨n2, l2.trans l1, ?_, fun i hi => ?_, ?_⟩
        · rw [absorb, if_neg hx]
          refine ⟨⟨_, (g2 id hnd.1.2).trans g1i, ⟨h2.1, h2.2.1, rfl, h2.2.2.2⟩, h3, h4, h5, by rw [absorb_id]; exact h6⟩, ?_, ho⟩
          exact holds_congr (fun i hi => g2 i fun hi' => hnd.2.2.2 hi hi') hl1
        · simp only [Tree.ids, List.mem_cons, List.mem_append, not_or] at hi
          rw [g2 i hi.2.2]; exact g1o i hi.1
        · show passDown x label (fuel + 1) id s = _
          rw [hbase, if_pos (not_le.1 hx), e2]
          simp only [Tree.leafOf, hx, if_false]

end Orp.Coarse
