import Verif.Coarse.Pool

/-!
The loops that visit all nodes of a tree with a stack of 100 entries: `node_depth`, `tree_trim`, `tree_fade_counts`.
-/

set_option linter.unusedSectionVars false

namespace Orp.Coarse

open Mondrian (Node Tree Holds Data Frame plug ctxPar HoldsCtx lt_of_get init holds_plug set_same)

variable {K : Type} [Field K] [LinearOrder K] [IsStrictOrderedRing K] [FloorRing K] {F L : Nat}

/-- the number of turns the loops make in a tree -/
def steps : Tree K F L → Nat
  | .leaf _ _ => 1
  | .node _ _ _ _ l r => 3 + steps l + steps r

theorem steps_le : ∀ t : Tree K F L, steps t + 2 ≤ 3 * t.ids.length
  | .leaf _ _ => by simp [steps, Tree.ids]
  | .node _ _ _ _ l r => by
      have h1 := steps_le l
      have h2 := steps_le r
      simp only [steps, Tree.ids, List.length_cons, List.length_append]
      omega

theorem height_pos : ∀ t : Tree K F L, 1 ≤ t.height
  | .leaf _ _ => le_rfl
  | .node _ _ _ _ _ _ => by simp [Mondrian.Tree.height]

theorem ids_pos : ∀ t : Tree K F L, 1 ≤ t.ids.length
  | .leaf _ _ => le_rfl
  | .node _ _ _ _ _ _ => by simp [Tree.ids]

/-- the entries of the stack from `d` on are -1 -/
def Clear (stack : List Int) (d : Nat) : Prop := stack.length = 100 ∧ ∀ j, d ≤ j → j < 100 → stack[j]? = some (-1)

theorem Clear.mono {stack : List Int} {d d' : Nat} (h : Clear stack d) (hd : d ≤ d') : Clear stack d' :=
  ⟨h.1, fun j h1 h2 => h.2 j (by omega) h2⟩

theorem Clear.set {stack : List Int} {d : Nat} (h : Clear stack d) (v : Int) : Clear (stack.set d v) (d + 1) := by
  refine ⟨by rw [List.length_set]; exact h.1, fun j h1 h2 => ?_⟩
  rw [List.getElem?_set_ne (by omega)]
  exact h.2 j (by omega) h2

theorem clear_replicate : Clear (List.replicate 100 (-1)) 0 := by
  refine ⟨by simp, fun j _ h => ?_⟩
  rw [List.getElem?_replicate, if_pos h]

theorem Clear.restore {stack : List Int} {d : Nat} (h : Clear stack d) (hd : d < 100) (v : Int) : (stack.set d v).set d (-1) = stack := by
  rw [List.set_set]
  exact set_same (h.2 d le_rfl hd)

theorem level_nat (d : Nat) : level (d : Int) = .ok d := by
  unfold level
  rw [if_neg (by omega), Int.toNat_natCast]

/-! ### `node_depth` -/

/-- `node_depth` comes back from a subtree with the greatest depth reached. -/
theorem depthLoop_tree (nodes : List (Node K F L)) : ∀ (t : Tree K F L) (par : Option Nat) (fuel i d : Nat) (m : Int) (stack : List Int),
    Holds nodes par t → Clear stack d → d + t.height ≤ 101 → i + t.ids.length ≤ nodes.length →
    depthLoop nodes (fuel + steps t) i (some t.id) d m stack =
      depthLoop nodes fuel (i + t.ids.length) par ((d : Int) - 1) (max m ((d : Int) + t.height - 1)) stack
  | .leaf id dt, par, fuel, i, d, m, stack, ⟨n, h1, h2, h3⟩, hc, hd, hi => by
      simp only [Tree.ids, List.length_singleton] at hi ⊢
      have e : depthLoop nodes (fuel + steps (Tree.leaf id dt)) i (some id) d m stack =
          depthLoop nodes fuel (i + 1) n.parent ((d : Int) - 1) (if m < (d : Int) then (d : Int) else m) stack := by
        show depthLoop nodes (fuel + 1) i (some id) d m stack = _
        rw [depthLoop, if_pos ⟨by omega, by omega⟩]
        simp only [init, rd_eq_ok_iff.2 h1, bind, Except.bind, h3]
      show depthLoop nodes (fuel + steps (Tree.leaf id dt)) i (some id) d m stack = _
      rw [e, h2.1]
      congr 1
      simp only [Mondrian.Tree.height]
      split <;> omega
  | .node id dt dim sp l r, par, fuel, i, d, m, stack, ⟨⟨n, h1, h2, h3, h4, h5, h6⟩, hl, hr⟩, hc, hd, hi => by
      have hpl := height_pos l
      have hml : l.height ≤ Nat.max l.height r.height := Nat.le_max_left _ _
      have hmr : r.height ≤ Nat.max l.height r.height := Nat.le_max_right _ _
      simp only [Mondrian.Tree.height] at hd
      simp only [Tree.ids, List.length_cons, List.length_append] at hi ⊢
      have hd' : d < 100 := by omega
      have e1 : ∀ fuel, depthLoop nodes (fuel + 1) i (some id) d m stack = depthLoop nodes fuel i (some r.id) ((d + 1 : Nat) : Int) m (stack.set d 0) := by
        intro fuel
        rw [depthLoop, if_pos ⟨by omega, by omega⟩]
        simp only [init, rd_eq_ok_iff.2 h1, bind, Except.bind, h3, level_nat, rd_eq_ok_iff.2 (hc.2 d le_rfl hd'), if_true,
          wr_ok (0 : Int) (show d < stack.length by rw [hc.1]; exact hd'), h6]
        rfl
      have e2 : ∀ fuel i m, i < nodes.length → depthLoop nodes (fuel + 1) i (some id) d m (stack.set d 0) =
          depthLoop nodes fuel i (some l.id) ((d + 1 : Nat) : Int) m (stack.set d 1) := by
        intro fuel i m hi
        have hs : (stack.set d 0)[d]? = some 0 := List.getElem?_set_self (by rw [hc.1]; exact hd')
        rw [depthLoop, if_pos ⟨hi, by omega⟩]
        simp only [init, rd_eq_ok_iff.2 h1, bind, Except.bind, h3, level_nat, rd_eq_ok_iff.2 hs, h5,
          wr_ok (1 : Int) (show d < (stack.set d 0).length by rw [List.length_set, hc.1]; exact hd'), List.set_set]
        rfl
      have e3 : ∀ fuel i m, i < nodes.length → depthLoop nodes (fuel + 1) i (some id) d m (stack.set d 1) =
          depthLoop nodes fuel (i + 1) par ((d : Int) - 1) m stack := by
        intro fuel i m hi
        have hs : (stack.set d 1)[d]? = some 1 := List.getElem?_set_self (by rw [hc.1]; exact hd')
        rw [depthLoop, if_pos ⟨hi, by omega⟩]
        simp only [init, rd_eq_ok_iff.2 h1, bind, Except.bind, h3, level_nat, rd_eq_ok_iff.2 hs, h2.1,
          wr_ok (-1 : Int) (show d < (stack.set d 1).length by rw [List.length_set, hc.1]; exact hd'), hc.restore hd' 1]
        rfl
      have a1 := depthLoop_tree nodes r (some id) (fuel + 1 + steps l + 1) i (d + 1) m (stack.set d 0) hr (hc.set 0) (by omega) (by omega)
      have a2 := depthLoop_tree nodes l (some id) (fuel + 1) (i + r.ids.length) (d + 1) (max m (((d + 1 : Nat) : Int) + r.height - 1)) (stack.set d 1) hl
        (hc.set 1) (by omega) (by omega)
      have c1 : ((d + 1 : Nat) : Int) - 1 = d := by omega
      show depthLoop nodes (fuel + (3 + steps l + steps r)) i (some id) d m stack = _
      rw [show fuel + (3 + steps l + steps r) = (fuel + 1 + steps l + 1 + steps r) + 1 by omega, e1, a1, c1, e2 _ _ _ (by omega), a2, c1, e3 _ _ _ (by omega)]
      congr 1
      · omega
      · have := Nat.le_max_left l.height r.height
        simp only [Mondrian.Tree.height]
        rcases Nat.le_total l.height r.height with h | h
        · rw [show Nat.max l.height r.height = r.height from Nat.max_eq_right h]; omega
        · rw [show Nat.max l.height r.height = l.height from Nat.max_eq_left h]; omega

/-- `node_depth` is the height of the subtree, if that is at most 101. -/
theorem nodeDepth_spec {nodes : List (Node K F L)} {t : Tree K F L} {par : Option Nat} (h : Holds nodes par t) (hh : t.height ≤ 101)
    (hi : t.ids.length ≤ nodes.length) : nodeDepth nodes t.id = .ok (t.height : Int) := by
  have hs := steps_le t
  have hp := height_pos t
  have := depthLoop_tree nodes t par (3 * nodes.length + 1 - steps t) 0 0 0 (List.replicate 100 (-1)) h clear_replicate (by omega) (by omega)
  rw [Nat.sub_add_cancel (by omega)] at this
  unfold nodeDepth
  rw [Int.natCast_zero] at this
  rw [this]
  obtain ⟨f, hf⟩ : ∃ f, 3 * nodes.length + 1 - steps t = f + 1 := ⟨3 * nodes.length - steps t, by omega⟩
  rw [hf, depthLoop, if_neg (fun h => absurd h.2 (by norm_num))]
  simp only [pure, Except.pure, Except.ok.injEq]
  omega

/-- `node_depth` leaves its stack in a subtree that is too deep. -/
theorem depthLoop_deep (nodes : List (Node K F L)) : ∀ (t : Tree K F L) (par : Option Nat) (fuel i d : Nat) (m : Int) (stack : List Int),
    Holds nodes par t → Clear stack d → 102 ≤ d + t.height → d ≤ 100 → i + t.ids.length ≤ nodes.length → steps t ≤ fuel →
    depthLoop nodes fuel i (some t.id) d m stack = .error .ub
  | .leaf id dt, par, fuel, i, d, m, stack, h, hc, hd, hd2, hi, hf => by
      simp only [Mondrian.Tree.height] at hd
      omega
  | .node id dt dim sp l r, par, 0, i, d, m, stack, h, hc, hd, hd2, hi, hf => rfl
  | .node id dt dim sp l r, par, fuel + 1, i, d, m, stack, ⟨⟨n, h1, h2, h3, h4, h5, h6⟩, hl, hr⟩, hc, hd, hd2, hi, hf => by
      have hpl := ids_pos l
      have hpr := ids_pos r
      have hmm : Nat.max l.height r.height ≤ l.height ∨ Nat.max l.height r.height ≤ r.height := by
        rcases Nat.le_total l.height r.height with h | h
        · exact Or.inr (Nat.max_eq_right h).le
        · exact Or.inl (Nat.max_eq_left h).le
      simp only [Mondrian.Tree.height] at hd
      simp only [steps] at hf
      simp only [Tree.ids, List.length_cons, List.length_append] at hi
      show depthLoop nodes (fuel + 1) i (some id) d m stack = _
      by_cases hd' : d < 100
      · have e1 : ∀ fuel, depthLoop nodes (fuel + 1) i (some id) d m stack = depthLoop nodes fuel i (some r.id) ((d + 1 : Nat) : Int) m (stack.set d 0) := by
          intro fuel
          rw [depthLoop, if_pos ⟨by omega, by omega⟩]
          simp only [init, rd_eq_ok_iff.2 h1, bind, Except.bind, h3, level_nat, rd_eq_ok_iff.2 (hc.2 d le_rfl hd'), if_true,
            wr_ok (0 : Int) (show d < stack.length by rw [hc.1]; exact hd'), h6]
          rfl
        have e2 : ∀ fuel i m, i < nodes.length → depthLoop nodes (fuel + 1) i (some id) d m (stack.set d 0) =
            depthLoop nodes fuel i (some l.id) ((d + 1 : Nat) : Int) m (stack.set d 1) := by
          intro fuel i m hi
          have hs : (stack.set d 0)[d]? = some 0 := List.getElem?_set_self (by rw [hc.1]; exact hd')
          rw [depthLoop, if_pos ⟨hi, by omega⟩]
          simp only [init, rd_eq_ok_iff.2 h1, bind, Except.bind, h3, level_nat, rd_eq_ok_iff.2 hs, h5,
            wr_ok (1 : Int) (show d < (stack.set d 0).length by rw [List.length_set, hc.1]; exact hd'), List.set_set]
          rfl
        rw [e1]
        by_cases hrr : 102 ≤ d + 1 + r.height
        · exact depthLoop_deep nodes r (some id) fuel i (d + 1) m (stack.set d 0) hr (hc.set 0) hrr (by omega) (by omega) (by omega)
        · obtain ⟨f, rfl⟩ : ∃ f, fuel = f + 1 + steps r := ⟨fuel - 1 - steps r, by omega⟩
          rw [depthLoop_tree nodes r (some id) (f + 1) i (d + 1) m (stack.set d 0) hr (hc.set 0) (by omega) (by omega),
            show ((d + 1 : Nat) : Int) - 1 = d by omega, e2 _ _ _ (by omega)]
          exact depthLoop_deep nodes l (some id) f _ (d + 1) _ (stack.set d 1) hl (hc.set 1) (by omega) (by omega) (by omega) (by omega)
      · have : stack[d]? = none := List.getElem?_eq_none (by rw [hc.1]; omega)
        rw [depthLoop, if_pos ⟨by omega, by omega⟩]
        simp only [init, rd_eq_ok_iff.2 h1, bind, Except.bind, h3, level_nat]
        simp only [rd, this]

/-- `node_depth` is undefined behaviour in a tree of height 102 or more. -/
theorem nodeDepth_deep {nodes : List (Node K F L)} {t : Tree K F L} {par : Option Nat} (h : Holds nodes par t) (hh : 102 ≤ t.height)
    (hi : t.ids.length ≤ nodes.length) : nodeDepth nodes t.id = .error .ub := by
  have hs := steps_le t
  have := depthLoop_deep nodes t par (3 * nodes.length + 1) 0 0 0 (List.replicate 100 (-1)) h clear_replicate (by omega) (by omega) (by omega) (by omega)
  rw [Int.natCast_zero] at this
  exact this

/-- `unravel` counts the nodes above. -/
theorem unravel_spec {nodes : List (Node K F L)} : ∀ (fs : List (Frame K F L)) (t : Tree K F L) (fuel : Nat), HoldsCtx nodes fs t.id →
    Holds nodes (ctxPar fs) t → fs.length < fuel → unravel nodes fuel t.id = .ok fs.length
  | [], t, fuel + 1, _, ht, _ => by
      obtain ⟨n, h1, h2⟩ := Mondrian.holds_root ht
      simp only [unravel, rd_eq_ok_iff.2 h1, bind, Except.bind, h2.1, ctxPar, pure, Except.pure, List.length_nil]
  | f :: fs, t, fuel + 1, hc, ht, hf => by
      obtain ⟨n, h1, h2⟩ := Mondrian.holds_root ht
      have hall : Holds nodes none (plug (f :: fs) t) := holds_plug.2 ⟨hc, ht⟩
      rw [plug] at hall
      obtain ⟨a1, a2⟩ := holds_plug.1 hall
      have ih := unravel_spec fs (f.fill t) fuel a1 a2 (by simp only [List.length_cons] at hf; omega)
      rw [Mondrian.fill_id] at ih
      simp only [unravel, rd_eq_ok_iff.2 h1, bind, Except.bind, h2.1, ctxPar, ih, pure, Except.pure, List.length_cons]

/-! ### `tree_trim` and `tree_fade_counts` -/

/-- what is done at the leaves, from the right to the left -/
def foldLeaves {A : Type} (nodes : List (Node K F L)) (act : Nat → Node K F L → A → Res A) : Tree K F L → A → Res A
  | .leaf id _, a => do
      let n ← rd nodes id
      act id n a
  | .node _ _ _ _ l r, a => do
      let a ← foldLeaves nodes act r a
      foldLeaves nodes act l a

section
variable {A : Type} {nodes : List (Node K F L)} {act : Nat → Node K F L → A → Res A}

theorem walk_leaf {id : Nat} {n : Node K F L} (h1 : nodes[id]? = some n) (h3 : n.dim = none) (fuel i d : Nat) (stack : List Int)
    (hc : Clear stack d) (hd : d < 100) (hi : i < nodes.length) {a a' : A} (ha : act id n a = .ok a') :
    walk nodes act (fuel + 1) i (some id) d stack a = walk nodes act fuel (i + 1) n.parent ((d : Int) - 1) stack a' := by
  rw [walk, if_pos hi]
  simp only [rd_eq_ok_iff.2 h1, bind, Except.bind, h3, level_nat, wr_ok (-1 : Int) (show d < stack.length by rw [hc.1]; exact hd), ha]
  rw [set_same (hc.2 d le_rfl hd)]

theorem walk_right {id : Nat} {n : Node K F L} {dim : Fin F} {r : Nat} (h1 : nodes[id]? = some n) (h3 : n.dim = some dim) (h6 : n.right = some r)
    (fuel i d : Nat) (stack : List Int) (hc : Clear stack d) (hd : d < 100) (hi : i < nodes.length) (a : A) :
    walk nodes act (fuel + 1) i (some id) d stack a =
      if d = 99 then .ok (100, a) else walk nodes act fuel i (some r) ((d + 1 : Nat) : Int) (stack.set d 0) a := by
  rw [walk, if_pos hi]
  simp only [rd_eq_ok_iff.2 h1, bind, Except.bind, h3, level_nat, rd_eq_ok_iff.2 (hc.2 d le_rfl hd), if_true,
    wr_ok (0 : Int) (show d < stack.length by rw [hc.1]; exact hd), h6]
  by_cases hd' : d = 99
  · rw [if_pos (by omega), if_pos hd', hd']; rfl
  · rw [if_neg (by omega), if_neg hd']; rfl

theorem walk_left {id : Nat} {n : Node K F L} {dim : Fin F} {l : Nat} (h1 : nodes[id]? = some n) (h3 : n.dim = some dim) (h5 : n.left = some l)
    (fuel i d : Nat) (stack : List Int) (hc : Clear stack d) (hd : d < 99) (hi : i < nodes.length) (a : A) :
    walk nodes act (fuel + 1) i (some id) d (stack.set d 0) a = walk nodes act fuel i (some l) ((d + 1 : Nat) : Int) (stack.set d 1) a := by
  have hs : (stack.set d 0)[d]? = some 0 := List.getElem?_set_self (by rw [hc.1]; omega)
  rw [walk, if_pos hi]
  simp only [rd_eq_ok_iff.2 h1, bind, Except.bind, h3, level_nat, rd_eq_ok_iff.2 hs, h5,
    wr_ok (1 : Int) (show d < (stack.set d 0).length by rw [List.length_set, hc.1]; omega), List.set_set]
  rw [if_neg (by omega), if_pos trivial, if_neg (by omega)]
  rfl

theorem walk_up {id : Nat} {n : Node K F L} {dim : Fin F} (h1 : nodes[id]? = some n) (h3 : n.dim = some dim)
    (fuel i d : Nat) (stack : List Int) (hc : Clear stack d) (hd : d < 100) (hi : i < nodes.length) (a : A) :
    walk nodes act (fuel + 1) i (some id) d (stack.set d 1) a = walk nodes act fuel (i + 1) n.parent ((d : Int) - 1) stack a := by
  have hs : (stack.set d 1)[d]? = some 1 := List.getElem?_set_self (by rw [hc.1]; omega)
  rw [walk, if_pos hi]
  simp only [rd_eq_ok_iff.2 h1, bind, Except.bind, h3, level_nat, rd_eq_ok_iff.2 hs,
    wr_ok (-1 : Int) (show d < (stack.set d 1).length by rw [List.length_set, hc.1]; omega), hc.restore hd 1]
  rw [if_neg (by omega), if_neg (by omega)]

/-- The loop comes back from a subtree of height at most 100, and has visited its leaves. -/
theorem walk_tree : ∀ (t : Tree K F L) (par : Option Nat) (fuel i d : Nat) (stack : List Int) (a a' : A),
    Holds nodes par t → Clear stack d → d + t.height ≤ 100 → i + t.ids.length ≤ nodes.length → foldLeaves nodes act t a = .ok a' →
    walk nodes act (fuel + steps t) i (some t.id) d stack a = walk nodes act fuel (i + t.ids.length) par ((d : Int) - 1) stack a'
  | .leaf id dt, par, fuel, i, d, stack, a, a', ⟨n, h1, h2, h3⟩, hc, hd, hi, ha => by
      simp only [Tree.ids, List.length_singleton, Mondrian.Tree.height] at hi hd ⊢
      simp only [foldLeaves, rd_eq_ok_iff.2 h1, bind, Except.bind] at ha
      rw [← h2.1]
      exact walk_leaf h1 h3 fuel i d stack hc (by omega) (by omega) ha
  | .node id dt dim sp l r, par, fuel, i, d, stack, a, a', ⟨⟨n, h1, h2, h3, h4, h5, h6⟩, hl, hr⟩, hc, hd, hi, ha => by
      have hpl := height_pos l
      have hml : l.height ≤ Nat.max l.height r.height := Nat.le_max_left _ _
      have hmr : r.height ≤ Nat.max l.height r.height := Nat.le_max_right _ _
      simp only [Mondrian.Tree.height] at hd
      simp only [Tree.ids, List.length_cons, List.length_append] at hi ⊢
      simp only [foldLeaves, bind, Except.bind] at ha
      cases hra : foldLeaves nodes act r a with
      | error e => rw [hra] at ha; cases ha
      | ok a1 =>
        rw [hra] at ha
        have i1 := walk_tree r (some id) (fuel + 1 + steps l + 1) i (d + 1) (stack.set d 0) a a1 hr (hc.set 0) (by omega) (by omega) hra
        have i2 := walk_tree l (some id) (fuel + 1) (i + r.ids.length) (d + 1) (stack.set d 1) a1 a' hl (hc.set 1) (by omega) (by omega) ha
        have c1 : ((d + 1 : Nat) : Int) - 1 = d := by omega
        show walk nodes act (fuel + (3 + steps l + steps r)) i (some id) d stack a = _
        rw [show fuel + (3 + steps l + steps r) = (fuel + 1 + steps l + 1 + steps r) + 1 by omega,
          walk_right h1 h3 h6 _ _ _ _ hc (by omega) (by omega), if_neg (by omega), i1, c1, walk_left h1 h3 h5 _ _ _ _ hc (by omega) (by omega), i2, c1,
          walk_up h1 h3 _ _ _ _ hc (by omega) (by omega), h2.1]
        congr 1
        omega

theorem foldLeaves_inv (P : A → Prop) (hact : ∀ id n a, nodes[id]? = some n → P a → ∃ a', act id n a = .ok a' ∧ P a') : ∀ (t : Tree K F L) (par : Option Nat)
    (a : A), Holds nodes par t → P a → ∃ a', foldLeaves nodes act t a = .ok a' ∧ P a'
  | .leaf id dt, par, a, ⟨n, h1, _⟩, hP => by
      obtain ⟨a', e1, e2⟩ := hact id n a h1 hP
      exact ⟨a', by simp only [foldLeaves, rd_eq_ok_iff.2 h1, bind, Except.bind, e1], e2⟩
  | .node id dt dim sp l r, par, a, ⟨_, hl, hr⟩, hP => by
      obtain ⟨a1, e1, e2⟩ := foldLeaves_inv P hact r _ a hr hP
      obtain ⟨a2, e3, e4⟩ := foldLeaves_inv P hact l _ a1 hl e2
      exact ⟨a2, by simp only [foldLeaves, e1, bind, Except.bind, e3], e4⟩

/-- In a subtree that is too high the loop stops at depth 100. -/
theorem walk_deep (P : A → Prop) (hact : ∀ id n a, nodes[id]? = some n → P a → ∃ a', act id n a = .ok a' ∧ P a') : ∀ (t : Tree K F L) (par : Option Nat)
    (fuel i d : Nat) (stack : List Int) (a : A), Holds nodes par t → Clear stack d → d < 100 → 100 < d + t.height → i + t.ids.length ≤ nodes.length → P a →
    ∃ a', walk nodes act (fuel + steps t) i (some t.id) d stack a = .ok (100, a') ∧ P a'
  | .leaf id dt, par, fuel, i, d, stack, a, _, hc, hd, hh, hi, hP => by
      simp only [Mondrian.Tree.height] at hh
      omega
  | .node id dt dim sp l r, par, fuel, i, d, stack, a, ⟨⟨n, h1, h2, h3, h4, h5, h6⟩, hl, hr⟩, hc, hd, hh, hi, hP => by
      simp only [Mondrian.Tree.height] at hh
      simp only [Tree.ids, List.length_cons, List.length_append] at hi
      show ∃ a', walk nodes act (fuel + (3 + steps l + steps r)) i (some id) d stack a = _ ∧ _
      rw [show fuel + (3 + steps l + steps r) = (fuel + 1 + steps l + 1 + steps r) + 1 by omega, walk_right h1 h3 h6 _ _ _ _ hc hd (by omega)]
      by_cases hd' : d = 99
      · exact ⟨a, by rw [if_pos hd'], hP⟩
      · rw [if_neg hd']
        by_cases hr' : 100 < d + 1 + r.height
        · exact walk_deep P hact r (some id) _ i (d + 1) _ a hr (hc.set 0) (by omega) hr' (by omega) hP
        · have hmax : 100 < d + (l.height + 1) := by
            rcases Nat.le_total l.height r.height with h | h
            · rw [show Nat.max l.height r.height = r.height from Nat.max_eq_right h] at hh; omega
            · rw [show Nat.max l.height r.height = l.height from Nat.max_eq_left h] at hh; exact hh
          obtain ⟨a1, e1, e2⟩ := foldLeaves_inv P hact r _ a hr hP
          have c1 : ((d + 1 : Nat) : Int) - 1 = d := by omega
          rw [walk_tree r (some id) (fuel + 1 + steps l + 1) i (d + 1) (stack.set d 0) a a1 hr (hc.set 0) (by omega) (by omega) e1, c1,
            walk_left h1 h3 h5 _ _ _ _ hc (by omega) (by omega)]
          exact walk_deep P hact l (some id) (fuel + 1) _ (d + 1) _ a1 hl (hc.set 1) (by omega) (by omega) (by omega) e2

/-- The loop started at the root -/
theorem walk_root (t : Tree K F L) (a a' : A) (h : Holds nodes none t) (hh : t.height ≤ 100) (hi : t.ids.length ≤ nodes.length)
    (ha : foldLeaves nodes act t a = .ok a') :
    walk nodes act (3 * nodes.length + 1) 0 (some t.id) 0 (List.replicate 100 (-1)) a = .ok (-1, a') := by
  have hs := steps_le t
  have := walk_tree t none (3 * nodes.length + 1 - steps t) 0 0 (List.replicate 100 (-1)) a a' h clear_replicate (by omega) (by omega) ha
  rw [Nat.sub_add_cancel (by omega)] at this
  rw [show (0 : Int) = ((0 : Nat) : Int) from rfl, this]
  obtain ⟨f, hf⟩ : ∃ f, 3 * nodes.length + 1 - steps t = f + 1 := ⟨3 * nodes.length - steps t, by omega⟩
  rw [hf, walk]
  rfl

theorem walk_root_deep (P : A → Prop) (hact : ∀ id n a, nodes[id]? = some n → P a → ∃ a', act id n a = .ok a' ∧ P a') (t : Tree K F L) (a : A)
    (h : Holds nodes none t) (hh : 100 < t.height) (hi : t.ids.length ≤ nodes.length) (hP : P a) :
    ∃ a', walk nodes act (3 * nodes.length + 1) 0 (some t.id) 0 (List.replicate 100 (-1)) a = .ok (100, a') ∧ P a' := by
  have hs := steps_le t
  obtain ⟨a', e1, e2⟩ := walk_deep P hact t none (3 * nodes.length + 1 - steps t) 0 0 (List.replicate 100 (-1)) a h clear_replicate (by omega) (by omega)
    (by omega) hP
  rw [Nat.sub_add_cancel (by omega)] at e1
  exact ⟨a', e1, e2⟩

end

end Orp.Coarse
