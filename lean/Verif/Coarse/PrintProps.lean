import Verif.Coarse.Print
import Verif.Coarse.Same

/-!
Property C97: `print_nodes` prints every node of every tree once, and does not influence any result.
-/

set_option linter.unusedSectionVars false

namespace Orp.Coarse

open Finset
open Mondrian (Node Box Forest Params Tree Holds HoldsAll allIds upd init OnlyCounts lt_of_get exω exP pt)

variable {K : Type} [Field K] [LinearOrder K] [IsStrictOrderedRing K] [FloorRing K] {F L : Nat}

/-! ### Specification -/

/-- the nodes of a tree, each one before its children and the right subtree before the left one, with their depths; the last part says whether the node is a leaf -/
def listing : Tree K F L → (depth : Nat) → List (Nat × Nat × Bool)
  | .leaf id _, d => [(id, d, true)]
  | .node id _ _ _ l r, d => (id, d, false) :: (listing r (d + 1) ++ listing l (d + 1))

/-- the nodes of the trees from tree `i` on, with the numbers of the trees -/
def dump : (i : Nat) → List (Option (Tree K F L)) → List (Nat × Nat × Nat × Bool)
  | _, [] => []
  | i, none :: ts => dump (i + 1) ts
  | i, some t :: ts => (listing t 0).map (fun r => (i, r)) ++ dump (i + 1) ts

/-- the tree, the node, the depth and the kind of node that a line shows -/
def shown : Line K F L → Nat × Nat × Nat × Bool
  | .node _ tree id depth leaf _ _ => (tree, id, depth, leaf)
  | .score .. => (0, 0, 0, false)

/-- a line shows a node as it is in the memory, with the number of points so far -/
def Faithful (s : State K F L) : Line K F L → Prop
  | .node total _ id _ _ content forced => total = s.total ∧ s.forest.nodes[id]? = some content ∧ s.forced[id]? = some forced
  | .score .. => False

/-- `tree_printy` can print the tree -/
def Printable (o : Option (Tree K F L)) : Prop := ∃ t, o = some t ∧ t.height ≤ 101

/-- every node is listed exactly once -/
theorem listing_ids : ∀ (t : Tree K F L) (d : Nat), ((listing t d).map Prod.fst).Perm t.ids
  | .leaf _ _, _ => List.Perm.refl _
  | .node id _ _ _ l r, d => by
      simp only [listing, List.map_cons, List.map_append, Tree.ids]
      exact ((List.Perm.append (listing_ids r _) (listing_ids l _)).trans List.perm_append_comm).cons id

/-! ### The loop -/

section
variable (nodes : List (Node K F L)) (forced : List Int) (total tree : Nat)

/-- the line of a node -/
def rowAt (id d : Nat) (leaf : Bool) : List (Line K F L) :=
  match nodes[id]?, forced[id]? with
  | some n, some f => [.node total tree id d leaf n f]
  | _, _ => []

/-- the lines of a tree -/
def rows : Tree K F L → Nat → List (Line K F L)
  | .leaf id _, d => rowAt nodes forced total tree id d true
  | .node id _ _ _ l r, d => rowAt nodes forced total tree id d false ++ (rows r (d + 1) ++ rows l (d + 1))

theorem printLoop_tree (hfl : forced.length = nodes.length) : ∀ (t : Tree K F L) (par : Option Nat) (fuel i d : Nat) (stack : List Int) (out : List (Line K F L)),
    Holds nodes par t → Clear stack d → d + t.height ≤ 101 → i + t.ids.length ≤ nodes.length →
    printLoop nodes forced total tree (fuel + steps t) i (some t.id) d stack out =
      printLoop nodes forced total tree fuel (i + t.ids.length) par ((d : Int) - 1) stack (out ++ rows nodes forced total tree t d)
  | .leaf id dt, par, fuel, i, d, stack, out, ⟨n, h1, h2, h3⟩, hc, hd, hi => by
      simp only [Tree.ids, List.length_singleton] at hi ⊢
      have hf : forced[id]? = some (forced[id]'(by rw [hfl]; exact lt_of_get h1)) := List.getElem?_eq_getElem _
      show printLoop nodes forced total tree (fuel + 1) i (some id) d stack out = _
      rw [printLoop, if_pos ⟨by omega, by omega⟩]
      simp only [init, rd_eq_ok_iff.2 h1, rd_eq_ok_iff.2 hf, bind, Except.bind, level_nat, h3, rows, rowAt, h1, hf, h2.1]
  | .node id dt dim sp l r, par, fuel, i, d, stack, out, ⟨⟨n, h1, h2, h3, h4, h5, h6⟩, hl, hr⟩, hc, hd, hi => by
      have hpl := height_pos l
      have hml : l.height ≤ Nat.max l.height r.height := Nat.le_max_left _ _
      have hmr : r.height ≤ Nat.max l.height r.height := Nat.le_max_right _ _
      simp only [Mondrian.Tree.height] at hd
      simp only [Tree.ids, List.length_cons, List.length_append] at hi ⊢
      have hd' : d < 100 := by omega
      have hf : forced[id]? = some (forced[id]'(by rw [hfl]; exact lt_of_get h1)) := List.getElem?_eq_getElem _
      generalize forced[id]'(by rw [hfl]; exact lt_of_get h1) = fe at hf
      have e1 : ∀ fuel, printLoop nodes forced total tree (fuel + 1) i (some id) d stack out =
          printLoop nodes forced total tree fuel i (some r.id) ((d + 1 : Nat) : Int) (stack.set d 0) (out ++ rowAt nodes forced total tree id d false) := by
        intro fuel
        rw [printLoop, if_pos ⟨by omega, by omega⟩]
        simp only [init, rd_eq_ok_iff.2 h1, rd_eq_ok_iff.2 hf, bind, Except.bind, h3, level_nat, rd_eq_ok_iff.2 (hc.2 d le_rfl hd'), if_true,
          wr_ok (0 : Int) (show d < stack.length by rw [hc.1]; exact hd'), h6, rowAt, h1, hf]
        rfl
      have e2 : ∀ fuel i out, i < nodes.length → printLoop nodes forced total tree (fuel + 1) i (some id) d (stack.set d 0) out =
          printLoop nodes forced total tree fuel i (some l.id) ((d + 1 : Nat) : Int) (stack.set d 1) out := by
        intro fuel i out hi
        have hs : (stack.set d 0)[d]? = some 0 := List.getElem?_set_self (by rw [hc.1]; exact hd')
        rw [printLoop, if_pos ⟨hi, by omega⟩]
        simp only [init, rd_eq_ok_iff.2 h1, rd_eq_ok_iff.2 hf, bind, Except.bind, h3, level_nat, rd_eq_ok_iff.2 hs, h5,
          wr_ok (1 : Int) (show d < (stack.set d 0).length by rw [List.length_set, hc.1]; exact hd'), List.set_set]
        rfl
      have e3 : ∀ fuel i out, i < nodes.length → printLoop nodes forced total tree (fuel + 1) i (some id) d (stack.set d 1) out =
          printLoop nodes forced total tree fuel (i + 1) par ((d : Int) - 1) stack out := by
        intro fuel i out hi
        have hs : (stack.set d 1)[d]? = some 1 := List.getElem?_set_self (by rw [hc.1]; exact hd')
        rw [printLoop, if_pos ⟨hi, by omega⟩]
        simp only [init, rd_eq_ok_iff.2 h1, rd_eq_ok_iff.2 hf, bind, Except.bind, h3, level_nat, rd_eq_ok_iff.2 hs, h2.1,
          wr_ok (-1 : Int) (show d < (stack.set d 1).length by rw [List.length_set, hc.1]; exact hd'), hc.restore hd' 1]
        rfl
      have a1 := printLoop_tree hfl r (some id) (fuel + 1 + steps l + 1) i (d + 1) (stack.set d 0) (out ++ rowAt nodes forced total tree id d false) hr (hc.set 0)
        (by omega) (by omega)
      have a2 := printLoop_tree hfl l (some id) (fuel + 1) (i + r.ids.length) (d + 1) (stack.set d 1)
        (out ++ rowAt nodes forced total tree id d false ++ rows nodes forced total tree r (d + 1)) hl (hc.set 1) (by omega) (by omega)
      have c1 : ((d + 1 : Nat) : Int) - 1 = d := by omega
      show printLoop nodes forced total tree (fuel + (3 + steps l + steps r)) i (some id) d stack out = _
      rw [show fuel + (3 + steps l + steps r) = (fuel + 1 + steps l + 1 + steps r) + 1 by omega, e1, a1, c1, e2 _ _ _ (by omega), a2, c1, e3 _ _ _ (by omega)]
      simp only [rows, List.append_assoc]
      congr 1
      omega

theorem printLoop_deep (hfl : forced.length = nodes.length) : ∀ (t : Tree K F L) (par : Option Nat) (fuel i d : Nat) (stack : List Int) (out : List (Line K F L)),
    Holds nodes par t → Clear stack d → 102 ≤ d + t.height → d ≤ 100 → i + t.ids.length ≤ nodes.length → steps t ≤ fuel →
    printLoop nodes forced total tree fuel i (some t.id) d stack out = .error .ub
  | .leaf id dt, par, fuel, i, d, stack, out, h, hc, hd, hd2, hi, hf => by
      simp only [Mondrian.Tree.height] at hd
      omega
  | .node id dt dim sp l r, par, 0, i, d, stack, out, h, hc, hd, hd2, hi, hf => rfl
  | .node id dt dim sp l r, par, fuel + 1, i, d, stack, out, ⟨⟨n, h1, h2, h3, h4, h5, h6⟩, hl, hr⟩, hc, hd, hd2, hi, hfu => by
      have hpl := ids_pos l
      have hpr := ids_pos r
      have hmm : Nat.max l.height r.height ≤ l.height ∨ Nat.max l.height r.height ≤ r.height := by
        rcases Nat.le_total l.height r.height with h | h
        · exact Or.inr (Nat.max_eq_right h).le
        · exact Or.inl (Nat.max_eq_left h).le
      simp only [Mondrian.Tree.height] at hd
      simp only [steps] at hfu
      simp only [Tree.ids, List.length_cons, List.length_append] at hi
      have hf : forced[id]? = some (forced[id]'(by rw [hfl]; exact lt_of_get h1)) := List.getElem?_eq_getElem _
      generalize forced[id]'(by rw [hfl]; exact lt_of_get h1) = fe at hf
      show printLoop nodes forced total tree (fuel + 1) i (some id) d stack out = _
      by_cases hd' : d < 100
      · have e1 : ∀ fuel, printLoop nodes forced total tree (fuel + 1) i (some id) d stack out =
            printLoop nodes forced total tree fuel i (some r.id) ((d + 1 : Nat) : Int) (stack.set d 0) (out ++ [.node total tree id d false n fe]) := by
          intro fuel
          rw [printLoop, if_pos ⟨by omega, by omega⟩]
          simp only [init, rd_eq_ok_iff.2 h1, rd_eq_ok_iff.2 hf, bind, Except.bind, h3, level_nat, rd_eq_ok_iff.2 (hc.2 d le_rfl hd'), if_true,
            wr_ok (0 : Int) (show d < stack.length by rw [hc.1]; exact hd'), h6]
          rfl
        have e2 : ∀ fuel i out, i < nodes.length → printLoop nodes forced total tree (fuel + 1) i (some id) d (stack.set d 0) out =
            printLoop nodes forced total tree fuel i (some l.id) ((d + 1 : Nat) : Int) (stack.set d 1) out := by
          intro fuel i out hi
          have hs : (stack.set d 0)[d]? = some 0 := List.getElem?_set_self (by rw [hc.1]; exact hd')
          rw [printLoop, if_pos ⟨hi, by omega⟩]
          simp only [init, rd_eq_ok_iff.2 h1, rd_eq_ok_iff.2 hf, bind, Except.bind, h3, level_nat, rd_eq_ok_iff.2 hs, h5,
            wr_ok (1 : Int) (show d < (stack.set d 0).length by rw [List.length_set, hc.1]; exact hd'), List.set_set]
          rfl
        rw [e1]
        by_cases hrr : 102 ≤ d + 1 + r.height
        · exact printLoop_deep hfl r (some id) fuel i (d + 1) (stack.set d 0) _ hr (hc.set 0) hrr (by omega) (by omega) (by omega)
        · obtain ⟨f, rfl⟩ : ∃ f, fuel = f + 1 + steps r := ⟨fuel - 1 - steps r, by omega⟩
          rw [printLoop_tree nodes forced total tree hfl r (some id) (f + 1) i (d + 1) (stack.set d 0) _ hr (hc.set 0) (by omega) (by omega),
            show ((d + 1 : Nat) : Int) - 1 = d by omega, e2 _ _ _ (by omega)]
          exact printLoop_deep hfl l (some id) f _ (d + 1) (stack.set d 1) _ hl (hc.set 1) (by omega) (by omega) (by omega) (by omega)
      · have : stack[d]? = none := List.getElem?_eq_none (by rw [hc.1]; omega)
        rw [printLoop, if_pos ⟨by omega, by omega⟩]
        simp only [init, rd_eq_ok_iff.2 h1, rd_eq_ok_iff.2 hf, bind, Except.bind, h3, level_nat]
        simp only [rd, this]

end

/-- the lines of a tree show its nodes -/
theorem rows_spec (s : State K F L) (hfl : s.forced.length = s.forest.nodes.length) (tree : Nat) : ∀ (t : Tree K F L) (par : Option Nat) (d : Nat), Holds s.forest.nodes par t →
    (rows s.forest.nodes s.forced s.total tree t d).map shown = (listing t d).map (fun r => (tree, r)) ∧
      ∀ line ∈ rows s.forest.nodes s.forced s.total tree t d, Faithful s line := by
  have key : ∀ (id d : Nat) (leaf : Bool) (n : Node K F L), s.forest.nodes[id]? = some n →
      (rowAt s.forest.nodes s.forced s.total tree id d leaf).map shown = [(tree, id, d, leaf)] ∧
      ∀ line ∈ rowAt s.forest.nodes s.forced s.total tree id d leaf, Faithful s line := by
    intro id d leaf n hn
    have hf : s.forced[id]? = some (s.forced[id]'(by rw [hfl]; exact lt_of_get hn)) := List.getElem?_eq_getElem _
    unfold rowAt
    rw [hn, hf]
    refine ⟨rfl, fun line hl => ?_⟩
    rw [List.mem_singleton] at hl
    subst hl
    exact ⟨rfl, hn, hf⟩
  intro t
  induction t with
  | leaf id dt =>
      intro par d ⟨n, h1, _⟩
      exact key id d true n h1
  | node id dt dim sp l r ihl ihr =>
      intro par d ⟨⟨n, h1, _⟩, hl, hr⟩
      obtain ⟨a1, a2⟩ := key id d false n h1
      obtain ⟨b1, b2⟩ := ihr _ (d + 1) hr
      obtain ⟨c1, c2⟩ := ihl _ (d + 1) hl
      refine ⟨?_, fun line hm => ?_⟩
      · simp only [rows, listing, List.map_append, List.map_cons, a1, b1, c1]
        rfl
      · simp only [rows, List.mem_append] at hm
        rcases hm with hm | hm | hm
        · exact a2 line hm
        · exact b2 line hm
        · exact c2 line hm

/-- `tree_printy` for a printable tree and for one that is not -/
theorem printTree_spec {s : State K F L} {trees : List (Option (Tree K F L))} (hI : Inv s trees) {j : Nat} {o : Option (Tree K F L)} (hj : trees[j]? = some o) (tree : Nat) :
    (∀ t, o = some t → t.height ≤ 101 →
      printLoop s.forest.nodes s.forced s.total tree (3 * s.forest.nodes.length + 1) 0 (o.map Tree.id) 0 (List.replicate 100 (-1)) [] =
        .ok (rows s.forest.nodes s.forced s.total tree t 0)) ∧
    (0 < s.forest.nodes.length → ¬ Printable o →
      printLoop s.forest.nodes s.forced s.total tree (3 * s.forest.nodes.length + 1) 0 (o.map Tree.id) 0 (List.replicate 100 (-1)) [] = .error .ub) := by
  have hfl : s.forced.length = s.forest.nodes.length := hI.forced
  constructor
  · rintro t rfl hh
    have hrdy := hI.mem.ready hj
    have hlen := ready_length (fs := []) hrdy
    simp only [List.length_nil] at hlen
    have hs := steps_le t
    have := printLoop_tree s.forest.nodes s.forced s.total tree hfl t none (3 * s.forest.nodes.length + 1 - steps t) 0 0 (List.replicate 100 (-1)) [] hrdy.holds
      clear_replicate (by omega) (by omega)
    rw [Nat.sub_add_cancel (by omega), Int.natCast_zero] at this
    rw [Option.map_some, this]
    obtain ⟨f, hf⟩ : ∃ f, 3 * s.forest.nodes.length + 1 - steps t = f + 1 := ⟨3 * s.forest.nodes.length - steps t, by omega⟩
    rw [hf, printLoop, if_neg (fun h => absurd h.2 (by norm_num))]
    rfl
  · intro hn hp
    cases o with
    | none =>
        rw [Option.map_none, printLoop, if_pos ⟨hn, le_rfl⟩]
        rfl
    | some t =>
        have hh : 102 ≤ t.height := by
          by_contra hlt
          exact hp ⟨t, rfl, by omega⟩
        have hrdy := hI.mem.ready hj
        have hlen := ready_length (fs := []) hrdy
        simp only [List.length_nil] at hlen
        have hs := steps_le t
        have := printLoop_deep s.forest.nodes s.forced s.total tree hfl t none (3 * s.forest.nodes.length + 1) 0 0 (List.replicate 100 (-1)) [] hrdy.holds clear_replicate
          (by omega) (by omega) (by omega) (by omega)
        rw [Int.natCast_zero] at this
        exact this

theorem printRoots_spec {s : State K F L} {trees : List (Option (Tree K F L))} (hI : Inv s trees) : ∀ (ts : List (Option (Tree K F L))) (i : Nat), (∀ o ∈ ts, o ∈ trees) →
    ((∀ o ∈ ts, Printable o) → ∃ lines, printRoots s i (ts.map (fun t => t.map Tree.id)) = .ok lines ∧ lines.map shown = dump i ts ∧ ∀ line ∈ lines, Faithful s line) ∧
    (0 < s.forest.nodes.length → (∃ o ∈ ts, ¬ Printable o) → printRoots s i (ts.map (fun t => t.map Tree.id)) = .error .ub)
  | [], i, _ => ⟨fun _ => ⟨[], rfl, rfl, fun _ h => by cases h⟩, fun _ ⟨_, h, _⟩ => by cases h⟩
  | o :: ts, i, hm => by
      obtain ⟨ih1, ih2⟩ := printRoots_spec hI ts (i + 1) (fun o ho => hm o (List.mem_cons_of_mem _ ho))
      obtain ⟨j, hj⟩ := List.mem_iff_getElem?.1 (hm o (List.mem_cons_self ..))
      obtain ⟨t1, t2⟩ := printTree_spec hI hj i
      constructor
      · intro hp
        obtain ⟨lines, e1, e2, e3⟩ := ih1 (fun o ho => hp o (List.mem_cons_of_mem _ ho))
        obtain ⟨t, rfl, hh⟩ := hp o (List.mem_cons_self ..)
        obtain ⟨r1, r2⟩ := rows_spec s hI.forced i t none 0 (hI.mem.ready hj).holds
        refine ⟨rows s.forest.nodes s.forced s.total i t 0 ++ lines, ?_, ?_, fun line hl => ?_⟩
        · rw [List.map_cons, printRoots]
          simp only [t1 t rfl hh, e1, bind, Except.bind, pure, Except.pure]
        · rw [List.map_append, r1, e2, dump]
        · rcases List.mem_append.1 hl with hl | hl
          · exact r2 line hl
          · exact e3 line hl
      · intro hn hex
        rw [List.map_cons, printRoots]
        by_cases hp : Printable o
        · obtain ⟨t, rfl, hh⟩ := id hp
          have : ∃ o ∈ ts, ¬ Printable o := by
            obtain ⟨o', ho', hb⟩ := hex
            rcases List.mem_cons.1 ho' with rfl | ho'
            · exact absurd hp hb
            · exact ⟨o', ho', hb⟩
          simp only [t1 t rfl hh, ih2 hn this, bind, Except.bind]
        · simp only [t2 hn hp, bind, Except.bind]

/-- **C97** (partial) After every history, if there is no empty tree and no tree of height above 101: `printy` writes one line for each node of each tree, in the order of the
trees, every node before its children, with the depth of the node, and the line shows the node as it is. Otherwise, if there is a node at all, the behaviour is undefined. -/
theorem C97_dump_partial (c : Config K) (p : Params K) (ω : Nat → K) (maxSize sizeNode sizeBase : Nat) (junk : List Int) (last : Nat) (s0 : State K F L)
    (ops : List (Op K F L)) (h : Setting c p ω maxSize sizeNode sizeBase junk last s0 ops) (pos : Nat) (s : State K F L) (pos' : Nat)
    (hr : run c p ω ops s0 pos = .ok (s, pos')) :
    ∃ trees, HoldsAll s.forest trees ∧ trees.length = junk.length ∧
      ((∀ o ∈ trees, Printable o) → ∃ lines, printy s = .ok lines ∧ lines.map shown = dump 0 trees ∧ ∀ line ∈ lines, Faithful s line) ∧
      (0 < s.forest.nodes.length → (∃ o ∈ trees, ¬ Printable o) → printy s = .error .ub) := by
  obtain ⟨trees, e2, e3⟩ := h.good hr
  refine ⟨trees, e2.inv.mem.all, e3, ?_⟩
  have := printRoots_spec e2.inv trees 0 (fun o ho => ho)
  unfold printy
  rw [e2.inv.mem.all.roots]
  exact this

/-- **C97** In the lines for a tree every node of the tree occurs exactly once. -/
theorem C97_once (t : Tree K F L) (h : t.ids.Nodup) : ((listing t 0).map Prod.fst).Perm t.ids ∧ ((listing t 0).map Prod.fst).Nodup :=
  ⟨listing_ids t 0, (listing_ids t 0).nodup_iff.2 h⟩

/-- the lines of a forest -/
example : ((exRun (cfg .phoenix 0 .original .none) [0] (exOps.take 3)).bind (fun r => printy r.1)).map (fun l => l.map shown) =
    .ok [(0, 3, 0, false), (0, 4, 1, true), (0, 1, 1, false), (0, 2, 2, true), (0, 0, 2, true)] := by decide +kernel

end Orp.Coarse
