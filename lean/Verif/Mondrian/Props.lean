import Verif.Mondrian.Run
import Verif.Utils.Props
import Mathlib.Algebra.Order.Ring.Rat
import Mathlib.Data.Rat.Floor
import Mathlib.Analysis.Complex.Exponential
import Mathlib.Algebra.Order.Archimedean.Real.Basic

/-!
Properties C52 – C58 and C69 of `MondrianForest`.

The theorems range over every history `ops` of calls of `train` and `predict` on a new object with `m` nodes and `n` trees, every sequence `ω` of
random numbers in `[0, 1[`, every `exp` and `log` and every ordered field. `run … = .ok (s, pos)` says that the history ended, in state `s`, without
undefined behaviour; `C57_partial` says when it does.
-/

namespace Orp.Mondrian

set_option linter.unusedSectionVars false

variable {K : Type} [Field K] [LinearOrder K] [IsStrictOrderedRing K] [FloorRing K] {F L : Nat}

/-! ### Concrete forests for the examples -/

/-- one feature, two labels, every random number is 1/2 except those at the positions in `zeros` -/
def exω (zeros : List Nat) (i : Nat) : ℚ := if i ∈ zeros then 0 else 1 / 2

/-- `exp` and `log` of the examples, with the signs of the real functions -/
def exP : Params ℚ := { lifetime := 10, base := 1 / 10, discount := 1, exp := fun x => if x = 0 then 1 else if 0 < x then 3 / 2 else 1 / 2, log := fun x => x - 1 }

def pt (a : ℚ) : Fin 1 → ℚ := fun _ => a

theorem exω_range (zeros : List Nat) (i : Nat) : 0 ≤ exω zeros i ∧ exω zeros i < 1 := by
  unfold exω
  split <;> norm_num

/-- three points, a prediction and a fourth point; the second tree node is introduced at time 1/2 -/
def exOps : List (Op ℚ 1 2) := [.train (pt 0) 0, .train (pt 1) 1, .predict (pt 3), .train (pt 2) 1]

example : (run exP (exω []) exOps (new 8 2) 0).map (fun r => r.1.nodes.map (fun n => (n.tau, n.parent, n.dim.isSome))) =
    .ok [(10, some 2, false), (10, some 4, false), (1 / 2, none, true), (10, some 6, false), (1 / 2, none, true), (10, some 4, false),
      (1, some 2, true), (10, some 6, false)] := by
  decide +kernel

/-! ### C52 -/

/-- **C52** After any history each tree of the forest is a binary tree over distinct nodes of the pool, with right links to children and parents
(`HoldsAll`), the nodes of different trees are different, and split times are between 0 and `lifetime` and do not decrease on the way down. -/
theorem C52_structure (p : Params K) (hlife : 0 ≤ p.lifetime) (ω : Nat → K) (hω : ∀ i, 0 ≤ ω i ∧ ω i < 1) (m n : Nat) (ops : List (Op K F L))
    (pos : Nat) (s : Forest K F L) (pos' : Nat) (h : run p ω ops (new m n) pos = .ok (s, pos')) :
    ∃ trees : List (Option (Tree K F L)), trees.length = n ∧ HoldsAll s trees ∧ (∀ i ∈ allIds trees, i < m) ∧
      ∀ t, some t ∈ trees → Times (· ≤ ·) p.lifetime 0 t := by
  obtain ⟨trees, lost, a1, a2, a3, a4⟩ := run_good p hlife ω hω (· ≤ ·) (fun a b h => h.le) (draw_le hω) m n ops pos _ h
  exact ⟨trees, a3, a1.all, fun i hi => a2 ▸ a1.ids_lt hi, fun t ht => (a4 _ ht).2⟩

/-- **C52** (partial) Split times strictly increase from 0 on the way down if no random number is 0. Missing: the random number 0, with which the
code introduces nodes that have the time of their parents, see `C52_times_not_strict`. -/
theorem C52_strict_times_partial (p : Params K) (hlife : 0 ≤ p.lifetime) (hlog : ∀ u, 0 < u → u < 1 → p.log u < 0) (ω : Nat → K)
    (hω : ∀ i, 0 < ω i ∧ ω i < 1) (m n : Nat) (ops : List (Op K F L)) (pos : Nat) (s : Forest K F L) (pos' : Nat)
    (h : run p ω ops (new m n) pos = .ok (s, pos')) :
    ∃ trees : List (Option (Tree K F L)), trees.length = n ∧ HoldsAll s trees ∧ (∀ i ∈ allIds trees, i < m) ∧
      ∀ t, some t ∈ trees → Times (· < ·) p.lifetime 0 t := by
  have hω' : ∀ i, 0 ≤ ω i ∧ ω i < 1 := fun i => ⟨(hω i).1.le, (hω i).2⟩
  obtain ⟨trees, lost, a1, a2, a3, a4⟩ := run_good p hlife ω hω' (· < ·) (fun a b h => h) (fun pos b x ptau tau c pos' hd =>
    (draw_spec hω' hd).2.2.2 (hlog _ (by have := (hω pos).2; linarith) (by have := (hω pos).1; linarith))) m n ops pos _ h
  exact ⟨trees, a3, a1.all, fun i hi => a2 ▸ a1.ids_lt hi, fun t ht => (a4 _ ht).2⟩

/-- **C52** (violation) With random numbers that may be 0, a split node (place 3 of the pool) can have the same time as its parent, the split node at
place 1. -/
theorem C52_times_not_strict : ∃ (p : Params ℚ) (ω : Nat → ℚ) (ops : List (Op ℚ 1 2)), (∀ i, 0 ≤ ω i ∧ ω i < 1) ∧
    (run p ω ops (new 8 1) 0).map (fun r => (r.1.nodes.map (fun n => (n.tau, n.parent, n.dim.isSome))).take 4) =
      .ok [(10, some 1, false), (0, none, true), (10, some 3, false), (0, some 1, true)] :=
  ⟨exP, exω [0, 3, 4], [.train (pt 0) 0, .train (pt 1) 1, .train (pt 2) 1], exω_range _, by decide +kernel⟩

theorem holds_unique {nodes : List (Node K F L)} : ∀ {t u : Tree K F L} {par par' : Option Nat}, Holds nodes par t → Holds nodes par' u → t.id = u.id →
    t = u
  | .leaf id d, .leaf id' d', par, par', ⟨n, h1, h2, h3⟩, ⟨n', h1', h2', h3'⟩, e => by
      simp only [Tree.id] at e
      subst e
      rw [h1] at h1'
      have := Option.some.inj h1'
      subst this
      have e1 : d.box = d'.box := Option.some.inj (h2.2.2.1.symm.trans h2'.2.2.1)
      have e2 : d.tau = d'.tau := h2.2.1.symm.trans h2'.2.1
      have e3 : d.counts = d'.counts := h2.2.2.2.symm.trans h2'.2.2.2
      cases d; cases d'; simp only at e1 e2 e3; subst e1 e2 e3; rfl
  | .leaf id d, .node id' d' dim' sp' l' r', par, par', ⟨n, h1, h2, h3⟩, ⟨⟨n', h1', h2', h3', _⟩, _⟩, e => by
      simp only [Tree.id] at e
      subst e
      rw [h1] at h1'
      have := Option.some.inj h1'
      subst this
      rw [h3] at h3'; cases h3'
  | .node id' d' dim' sp' l' r', .leaf id d, par', par, ⟨⟨n', h1', h2', h3', _⟩, _⟩, ⟨n, h1, h2, h3⟩, e => by
      simp only [Tree.id] at e
      subst e
      rw [h1] at h1'
      have := Option.some.inj h1'
      subst this
      rw [h3] at h3'; cases h3'
  | .node id d dim sp l r, .node id' d' dim' sp' l' r', par, par', ⟨⟨n, h1, h2, h3, h4, h5, h6⟩, hl, hr⟩,
      ⟨⟨n', h1', h2', h3', h4', h5', h6'⟩, hl', hr'⟩, e => by
      simp only [Tree.id] at e
      subst e
      rw [h1] at h1'
      have := Option.some.inj h1'
      subst this
      have el : l.id = l'.id := Option.some.inj (h5.symm.trans h5')
      have er : r.id = r'.id := Option.some.inj (h6.symm.trans h6')
      have := holds_unique hl hl' el
      have := holds_unique hr hr' er
      have e1 : d.box = d'.box := Option.some.inj (h2.2.2.1.symm.trans h2'.2.2.1)
      have e2 : d.tau = d'.tau := h2.2.1.symm.trans h2'.2.1
      have e3 : d.counts = d'.counts := h2.2.2.2.symm.trans h2'.2.2.2
      have e4 : dim = dim' := Option.some.inj (h3.symm.trans h3')
      have e5 : sp = sp' := Option.some.inj (h4.symm.trans h4')
      cases d; cases d'; simp only at e1 e2 e3; subst e1 e2 e3; simp_all

/-- The trees of a forest are determined by its state: the trees of the theorems below are the same ones. -/
theorem C52_trees_unique {s : Forest K F L} {trees trees' : List (Option (Tree K F L))} (h : HoldsAll s trees) (h' : HoldsAll s trees') : trees = trees' := by
  have e := h.roots.symm.trans h'.roots
  have hlen : trees.length = trees'.length := by simpa using congrArg List.length e
  refine List.ext_getElem hlen fun i h1 h2 => ?_
  have e1 : (trees[i]).map Tree.id = (trees'[i]).map Tree.id := by
    have := congrArg (fun l => l[i]?) e
    simp only [List.getElem?_map, List.getElem?_eq_getElem h1, List.getElem?_eq_getElem h2, Option.map_some, Option.some.injEq] at this
    exact this
  have m1 := List.getElem_mem h1
  have m2 := List.getElem_mem h2
  generalize trees[i] = a at *
  generalize trees'[i] = b at *
  cases a with
  | none => cases b with
    | none => rfl
    | some u => cases e1
  | some t => cases b with
    | none => cases e1
    | some u => rw [holds_unique (h.holds t m1) (h'.holds u m2) (Option.some.inj e1)]

/-! ### C53 -/

theorem Right.leaf_box : ∀ {t : Tree K F L} {pts : List (Point K F L)}, Right pts t → ∀ z ∈ pts, ∀ i,
    (t.route z.1).box.lower i ≤ z.1 i ∧ z.1 i ≤ (t.route z.1).box.upper i
  | .leaf _ _, _, h, z, hz, i => h.2.1.1 z hz i
  | .node _ _ dim sp l r, pts, h, z, hz, i => by
      by_cases hx : z.1 dim ≤ sp
      · simp only [Tree.route, if_pos hx]
        exact Right.leaf_box h.2.1 z (List.mem_filter.2 ⟨hz, by simpa using hx⟩) i
      · simp only [Tree.route, if_neg hx]
        exact Right.leaf_box h.2.2 z (List.mem_filter.2 ⟨hz, by simpa using hx⟩) i

theorem leafOf_mem (x : Fin F → K) : ∀ t : Tree K F L, t.leafOf x ∈ t.ids
  | .leaf _ _ => by simp [Tree.leafOf, Tree.ids]
  | .node _ _ dim sp l r => by
      simp only [Tree.leafOf, Tree.ids, List.mem_cons, List.mem_append]
      split
      · exact Or.inr (Or.inl (leafOf_mem x l))
      · exact Or.inr (Or.inr (leafOf_mem x r))

theorem countP_filter' {α : Type} (q r : α → Bool) (l : List α) : (l.filter q).countP r = l.countP (fun a => r a && q a) := by
  rw [List.countP_filter]

theorem Right.leaf_counts : ∀ {t : Tree K F L} {pts : List (Point K F L)}, t.ids.Nodup → Right pts t → ∀ (x : Fin F → K) (l : Fin L),
    (t.route x).counts l = pts.countP (fun w => t.leafOf w.1 = t.leafOf x ∧ w.2 = l)
  | .leaf _ _, pts, _, h, x, lab => by
      simp only [Tree.route, Tree.leafOf, true_and]
      rw [h.2.2]; rfl
  | .node _ _ dim sp l r, pts, hnd, h, x, lab => by
      simp only [Tree.ids, List.nodup_cons] at hnd
      obtain ⟨ndl, ndr, hdis⟩ := List.nodup_append'.1 hnd.2
      by_cases hx : x dim ≤ sp
      · simp only [Tree.route, Tree.leafOf, if_pos hx]
        rw [Right.leaf_counts ndl h.2.1 x lab, countP_filter']
        refine List.countP_congr fun w _ => ?_
        simp only [Bool.and_eq_true, decide_eq_true_eq]
        by_cases hw : w.1 dim ≤ sp
        · simp only [hw, and_true, if_true]
        · simp only [hw, and_false, false_iff, if_false]
          rintro ⟨e, -⟩
          exact hdis (leafOf_mem x l) (e ▸ leafOf_mem w.1 r)
      · simp only [Tree.route, Tree.leafOf, if_neg hx]
        rw [Right.leaf_counts ndr h.2.2 x lab, countP_filter']
        refine List.countP_congr fun w _ => ?_
        simp only [Bool.and_eq_true, decide_eq_true_eq]
        by_cases hw : w.1 dim ≤ sp
        · simp only [hw, not_true_eq_false, and_false, false_iff, if_true]
          rintro ⟨e, -⟩
          exact hdis (e ▸ leafOf_mem w.1 l) (leafOf_mem x r)
        · simp only [hw, not_false_eq_true, and_true, if_false]

theorem all_some : ∀ (l : List (Option (Tree K F L))), (∀ o ∈ l, o ≠ none) → ∃ ts : List (Tree K F L), l = ts.map some
  | [], _ => ⟨[], rfl⟩
  | none :: l, h => absurd rfl (h none (by simp))
  | some t :: l, h => by
      obtain ⟨ts, rfl⟩ := all_some l (fun o ho => h o (List.mem_cons_of_mem _ ho))
      exact ⟨t :: ts, rfl⟩

/-- **C53** After any history with at least one training point every tree is there; every training point is inside the box of the leaf it is routed to;
and the counters of the leaf that any point `x` is routed to are, for each label, the number of training points with that label that are routed to the same
leaf. The pool may be exhausted. -/
theorem C53_points_in_leaves (p : Params K) (hlife : 0 ≤ p.lifetime) (ω : Nat → K) (hω : ∀ i, 0 ≤ ω i ∧ ω i < 1) (m n : Nat) (ops : List (Op K F L))
    (pos : Nat) (s : Forest K F L) (pos' : Nat) (h : run p ω ops (new m n) pos = .ok (s, pos')) (hne : points ops ≠ []) :
    ∃ trees : List (Tree K F L), trees.length = n ∧ HoldsAll s (trees.map some) ∧ ∀ t ∈ trees,
      (∀ z ∈ points ops, ∀ i, (t.route z.1).box.lower i ≤ z.1 i ∧ z.1 i ≤ (t.route z.1).box.upper i) ∧
      ∀ (x : Fin F → K) (l : Fin L), (t.route x).counts l = (points ops).countP (fun w => t.leafOf w.1 = t.leafOf x ∧ w.2 = l) := by
  obtain ⟨trees, lost, a1, a2, a3, a4⟩ := run_good p hlife ω hω (· ≤ ·) (fun a b h => h.le) (draw_le hω) m n ops pos _ h
  obtain ⟨ts, rfl⟩ := all_some trees (by rintro o ho rfl; exact hne (a4 _ ho))
  refine ⟨ts, by simpa using a3, a1.all, fun t ht => ?_⟩
  have hm : some t ∈ ts.map some := List.mem_map.2 ⟨t, ht, rfl⟩
  have hR := (a4 _ hm).1
  obtain ⟨j, hj⟩ := List.mem_iff_getElem?.1 hm
  exact ⟨fun z hz i => hR.leaf_box z hz i, fun x l => hR.leaf_counts (a1.ready hj).nodup x l⟩

example : points exOps ≠ [] := by decide +kernel

/-! ### C54 -/

theorem hull_inside {pts qts : List (Point K F L)} {a b : Box K F} (hsub : ∀ z ∈ qts, z ∈ pts) (ha : IsHull qts a) (hb : IsHull pts b) : a.Inside b := by
  intro i
  obtain ⟨⟨z, hz, e⟩, ⟨w, hw, e'⟩⟩ := ha.2 i
  exact ⟨e ▸ (hb.1 z (hsub z hz) i).1, e' ▸ (hb.1 w (hsub w hw) i).2⟩

theorem Right.separates : ∀ {t : Tree K F L} {pts : List (Point K F L)}, Right pts t → Separates t
  | .leaf _ _, _, _ => trivial
  | .node _ d dim sp l r, pts, h => by
      have hl := h.2.1.hull
      have hr := h.2.2.hull
      refine ⟨hull_inside (fun z hz => (List.mem_filter.1 hz).1) hl h.1, hull_inside (fun z hz => (List.mem_filter.1 hz).1) hr h.1, ?_, ?_,
        h.2.1.separates, h.2.2.separates⟩
      · obtain ⟨-, ⟨z, hz, e⟩⟩ := hl.2 dim
        rw [← e]
        simpa using (List.mem_filter.1 hz).2
      · obtain ⟨⟨z, hz, e⟩, -⟩ := hr.2 dim
        rw [← e]
        simpa using (List.mem_filter.1 hz).2

/-- **C54** After any history, for every split node of every tree, the box of each child is inside its own box, the box of the left child is at or below the
split value in the split dimension, and that of the right child is above it (`Separates`); and the box of each node is the smallest one that contains the
training points routed to it, which for the left child are those with feature value at most the split value, for the right child the others
(`Right`). -/
theorem C54_splits_separate (p : Params K) (hlife : 0 ≤ p.lifetime) (ω : Nat → K) (hω : ∀ i, 0 ≤ ω i ∧ ω i < 1) (m n : Nat) (ops : List (Op K F L))
    (pos : Nat) (s : Forest K F L) (pos' : Nat) (h : run p ω ops (new m n) pos = .ok (s, pos')) :
    ∃ trees : List (Option (Tree K F L)), trees.length = n ∧ HoldsAll s trees ∧ ∀ t, some t ∈ trees → Separates t ∧ Right (points ops) t := by
  obtain ⟨trees, lost, a1, a2, a3, a4⟩ := run_good p hlife ω hω (· ≤ ·) (fun a b h => h.le) (draw_le hω) m n ops pos _ h
  exact ⟨trees, a3, a1.all, fun t ht => ⟨(a4 _ ht).1.separates, (a4 _ ht).1⟩⟩

/-! ### C55 -/

/-- **C55** (partial) The nodes of the trees are nodes of the pool, and every node that is not available belongs to a tree, except at most one; and there is such
an exception only when no node is available any more. Missing: the exception, see `C55_leak`. -/
theorem C55_pool_partial (p : Params K) (hlife : 0 ≤ p.lifetime) (ω : Nat → K) (hω : ∀ i, 0 ≤ ω i ∧ ω i < 1) (m n : Nat) (ops : List (Op K F L))
    (pos : Nat) (s : Forest K F L) (pos' : Nat) (h : run p ω ops (new m n) pos = .ok (s, pos')) :
    ∃ (trees : List (Option (Tree K F L))) (lost : List Nat), s.nodes.length = m ∧ HoldsAll s trees ∧ (∀ i ∈ allIds trees, i < m) ∧ lost.length ≤ 1 ∧
      (∀ i : Nat, i < m → i ∉ lost → ((∃ nd, s.nodes[i]? = some nd ∧ nd.available = true) ↔ i ∉ allIds trees)) ∧
      (lost ≠ [] → ∀ nd ∈ s.nodes, nd.available = false) := by
  obtain ⟨trees, lost, a1, a2, a3, a4⟩ := run_good p hlife ω hω (· ≤ ·) (fun a b h => h.le) (draw_le hω) m n ops pos _ h
  refine ⟨trees, lost, a2, a1.all, fun i hi => a2 ▸ a1.ids_lt hi, a1.one, fun i hi hl => ?_, fun hl nd hnd => ?_⟩
  · have e : (∃ nd, s.nodes[i]? = some nd ∧ nd.available = true) ↔ i ∈ avail s.nodes := by
      rw [mem_avail]; simp [Node.available]
    rw [e]
    constructor
    · exact fun h1 h2 => a1.used h2 h1
    · intro h2
      have := a1.cover.mem_iff.2 (List.mem_range.2 (a2.symm ▸ hi))
      rcases List.mem_append.1 this with h3 | h3
      · exact h3
      · rcases List.mem_append.1 h3 with h4 | h4
        · exact absurd h4 hl
        · exact absurd h4 h2
  · obtain ⟨j, hj⟩ := List.mem_iff_getElem?.1 hnd
    by_contra hne
    have : j ∈ avail s.nodes := mem_avail.2 ⟨nd, hj, by simpa [Node.available] using hne⟩
    rw [a1.empty hl] at this
    cases this

/-- **C55** (violation) There are histories after which a node of the pool is marked as used and belongs to no tree: a pool of two nodes, one tree and two
different points. -/
theorem C55_leak : ∃ (p : Params ℚ) (ω : Nat → ℚ) (ops : List (Op ℚ 1 2)) (s : Forest ℚ 1 2) (pos : Nat) (nd : Node ℚ 1 2), (∀ i, 0 ≤ ω i ∧ ω i < 1) ∧
    run p ω ops (new 2 1) 0 = .ok (s, pos) ∧ s.nodes[1]? = some nd ∧ nd.available = false ∧ ∀ trees, HoldsAll s trees → 1 ∉ allIds trees := by
  have h1 : (run exP (exω []) [.train (pt 0) 0, .train (pt 1) (1 : Fin 2)] (new 2 1) 0).map (fun r => r.1.roots) = .ok [some 0] := by decide +kernel
  have h2 : (run exP (exω []) [.train (pt 0) 0, .train (pt 1) (1 : Fin 2)] (new 2 1) 0).map (fun r => r.1.nodes.map (fun n => (n.available, n.dim))) =
      .ok [(false, none), (false, some 0)] := by decide +kernel
  cases h : run exP (exω []) [.train (pt 0) 0, .train (pt 1) (1 : Fin 2)] (new 2 1) 0 with
  | error e => rw [h] at h1; cases h1
  | ok r =>
      rw [h] at h1 h2
      have h1 : r.1.roots = [some 0] := Except.ok.inj h1
      have h2 : r.1.nodes.map (fun n => (n.available, n.dim)) = [(false, none), (false, some 0)] := Except.ok.inj h2
      obtain ⟨a, b, hab⟩ : ∃ a b, r.1.nodes = [a, b] := by
        have hl : r.1.nodes.length = 2 := by simpa using congrArg List.length h2
        exact List.length_eq_two.1 hl
      rw [hab] at h2
      simp only [List.map_cons, List.map_nil, List.cons.injEq, Prod.mk.injEq, and_true] at h2
      refine ⟨exP, exω [], _, r.1, r.2, b, exω_range _, h, by rw [hab]; rfl, h2.2.1, fun trees ht => ?_⟩
      have hr := h1.symm.trans ht.roots
      have hl : trees.length = 1 := by simpa using (congrArg List.length hr).symm
      obtain ⟨o, rfl⟩ := List.length_eq_one_iff.1 hl
      cases o with
      | none => simp at hr
      | some t =>
          have hid : t.id = 0 := by simpa using hr.symm
          have hh := ht.holds t (by simp)
          cases t with
          | leaf id d =>
              simp only [Tree.id] at hid
              subst hid
              simp [allIds, Tree.ids]
          | node id d dim sp l r =>
              simp only [Tree.id] at hid
              subst hid
              obtain ⟨⟨n, e1, -, e3, -⟩, -⟩ := hh
              rw [hab] at e1
              have := Option.some.inj e1
              subst this
              rw [h2.1.2] at e3
              cases e3

/-- **C55** (violation) If the pool has fewer nodes than there are trees, the first call of `train` uses a node outside the pool (`nodes[-1]`). -/
theorem C55_fewer_nodes_than_trees (p : Params K) (hlife : 0 ≤ p.lifetime) (ω : Nat → K) (m n : Nat) (hmn : m < n) (z : Point K F L) (pos : Nat) :
    train p ω z.1 z.2 (new m n) pos = .error .ub := by
  have key : ∀ (k i : Nat) (s : Forest K F L) (trees : List (Option (Tree K F L))) (lost : List Nat) (res : Option Bool), i + k = trees.length →
      Inv s trees lost → (avail s.nodes).length < k → (∀ (j : Nat) (o : Option (Tree K F L)), trees[j]? = some o → i ≤ j → o = none) →
      trainLoop p ω z.1 z.2 i k s pos res = .error .ub := by
    intro k
    induction k with
    | zero => intro i s trees lost res _ _ h; omega
    | succ k ih =>
        intro i s trees lost res hk hI hA hN
        have hlt : i < trees.length := by omega
        have hi : trees[i]? = some none := by
          have h1 := List.getElem?_eq_getElem hlt
          rw [h1, hN i _ h1 le_rfl]
        have := trainTree_none p hlife ω z.1 z.2 s trees lost hI i pos hi
        simp only [trainLoop, bind, Except.bind]
        cases hav : avail s.nodes with
        | nil => rw [hav] at this; simp only at this; rw [this]
        | cons a A =>
            rw [hav] at this hA
            obtain ⟨s', e1, e2, e3, e4⟩ := this
            rw [e1]
            simp only
            refine ih (i + 1) s' _ [] _ (by rw [List.length_set]; omega) e2 ?_ ?_
            · rw [e4]; simp only [List.length_cons] at hA; omega
            · intro j o hj hij
              rw [List.getElem?_set_ne (by omega)] at hj
              exact hN j o hj (by omega)
  refine key _ 0 (new m n) (List.replicate n none) [] none (by simp [new]) (inv_new m n) ?_ ?_
  · rw [avail_new]; simpa [new] using hmn
  · intro j o hj _
    exact List.eq_of_mem_replicate (List.mem_of_getElem? hj)

example : train exP (exω []) (pt 0) (0 : Fin 2) (new 2 3) 0 = .error .ub := C55_fewer_nodes_than_trees exP (by decide +kernel) _ 2 3 (by decide) (pt 0, 0) 0

/-! ### C56 -/

/-- **C56** In every state reached by a history, `predict` ends without undefined behaviour or division by zero and returns a label in range. The new state has
the same roots, and the same nodes except for the counters of split nodes. Calling `predict` again, with any point, returns what it would have returned
in the first state and changes nothing. -/
theorem C56_predict (p : Params K) (hlife : 0 ≤ p.lifetime) (h0 : p.exp 0 = 1) (hdisc : 0 ≤ p.discount) (ω : Nat → K)
    (hω : ∀ i, 0 ≤ ω i ∧ ω i < 1) (m n : Nat) (hn : 0 < n) (hL : 0 < L) (ops : List (Op K F L)) (pos : Nat) (s : Forest K F L) (pos' : Nat)
    (h : run p ω ops (new m n) pos = .ok (s, pos')) :
    ∃ s' : Forest K F L, s'.roots = s.roots ∧ s'.nodes.length = s.nodes.length ∧
      (∀ (i : Nat) (nd : Node K F L), s.nodes[i]? = some nd → ∃ c, s'.nodes[i]? = some { nd with counts := c } ∧ (nd.dim = none → c = nd.counts)) ∧
      ∀ x, ∃ l < L, predict p s x = .ok (s', l) ∧ predict p s' x = .ok (s', l) := by
  obtain ⟨trees, lost, a1, a2, a3, a4⟩ := run_good p hlife ω hω (· ≤ ·) (fun a b h => h.le) (draw_le hω) m n ops pos _ h
  obtain ⟨nodes', b1, b2, b3, b4⟩ := a1.predict_eq p
  refine ⟨{ s with nodes := nodes' }, rfl, b2.1, b2.2, fun x => ?_⟩
  obtain ⟨l, hl⟩ := label_ok p h0 hdisc x (recountAll trees) (by rw [recountAll, List.length_map]; omega) (fun t ht => by
    obtain ⟨o, ho, e⟩ := List.mem_map.1 ht
    cases o with
    | none => cases e
    | some t0 =>
        have := Option.some.inj e
        subst this
        exact (a4 _ ho).1.positive)
  obtain ⟨nodes'', c1, c2, c3, c4⟩ := b1.predict_eq p
  have e := same_nodes b1 c1 c2 c3
  refine ⟨l, label_lt hL hl, ?_, ?_⟩
  · rw [b4, hl]; rfl
  · rw [c4, recountAll_recountAll, hl, e]; rfl

example : (run exP (exω []) exOps (new 8 2) 0).bind (fun r => (predict exP r.1 (pt 2)).map (fun q => q.2)) = .ok 1 := by decide +kernel

/-! ### C57 -/

/-- **C57** (partial) With random numbers in `]0, 1[` no call reads an uninitialised value or does anything else that is undefined. Missing: the random
number 0, see `C57_uninitialised`. -/
theorem C57_partial (p : Params K) (hlife : 0 ≤ p.lifetime) (h0 : p.exp 0 = 1) (hdisc : 0 ≤ p.discount) (ω : Nat → K) (hω : ∀ i, 0 < ω i ∧ ω i < 1)
    (m n : Nat) (hn : 0 < n) (hmn : n ≤ m) (ops : List (Op K F L)) (pos : Nat) : ∃ r, run p ω ops (new m n) pos = .ok r :=
  run_ok p hlife h0 hdisc ω hω m n hn hmn ops pos

/-- The chosen dimension is one in which the point is outside the box, and the split value is strictly between the box and the point, or at the lower
end of that interval if the random number is 0. -/
theorem C57_split_partial (p : Params K) (ω : Nat → K) (hω : ∀ i, 0 ≤ ω i ∧ ω i < 1) (pos : Nat) (b : Box K F) (x : Fin F → K) (ptau tau : K) (c : Cut K F)
    (pos' : Nat) (h : draw p ω pos b x ptau tau = .ok (some c, pos')) : c.Ok b x := (draw_spec hω h).1

/-- **C57** (violation) If the random number for the dimension is 0, the first dimension is chosen even if the point is inside the box in it, and
uninitialised values are read: the points (0,0) and (0,1), second random number 0. -/
theorem C57_uninitialised : ∃ (p : Params ℚ) (ω : Nat → ℚ) (x y : Fin 2 → ℚ), (∀ i, 0 ≤ ω i ∧ ω i < 1) ∧
    (run p ω [.train x 0, .train y (1 : Fin 2)] (new 8 1) 0).map (fun r => r.2) = .error .ub :=
  ⟨exP, exω [1], ![0, 0], ![0, 1], exω_range _, by decide +kernel⟩

/-! ### C58 -/

/-- **C58** (violation) The value that `train` returns is always the indeterminate value of an uninitialised variable. -/
theorem C58_returns_indeterminate (p : Params K) (hlife : 0 ≤ p.lifetime) (ω : Nat → K) (hω : ∀ i, 0 ≤ ω i ∧ ω i < 1) (m n : Nat) (ops : List (Op K F L))
    (pos : Nat) (s : Forest K F L) (pos' : Nat) (h : run p ω ops (new m n) pos = .ok (s, pos')) (z : Point K F L) (s' : Forest K F L) (pos'' : Nat)
    (res : Option Bool) (ht : train p ω z.1 z.2 s pos' = .ok (s', pos'', res)) : res = none := by
  obtain ⟨trees, lost, a1, -⟩ := run_good p hlife ω hω (· ≤ ·) (fun a b h => h.le) (draw_le hω) m n ops pos _ h
  obtain ⟨_, _, -, -, b3, -⟩ := train_spec p hlife ω hω z s trees lost a1 pos' _ ht
  exact b3

/-- **C58** (partial) Whenever `train` ends, every tree took the point into account, so the right value to return would have been true. -/
theorem C58_all_trees_partial (p : Params K) (hlife : 0 ≤ p.lifetime) (ω : Nat → K) (hω : ∀ i, 0 ≤ ω i ∧ ω i < 1) (m n : Nat) (ops : List (Op K F L))
    (pos : Nat) (s : Forest K F L) (pos' : Nat) (h : run p ω ops (new m n) pos = .ok (s, pos')) (z : Point K F L) (s' : Forest K F L) (pos'' : Nat)
    (res : Option Bool) (ht : train p ω z.1 z.2 s pos' = .ok (s', pos'', res)) :
    ∃ trees : List (Tree K F L), trees.length = n ∧ HoldsAll s' (trees.map some) ∧ ∀ t ∈ trees, Right (points ops ++ [z]) t := by
  have h' : run p ω (ops ++ [.train z.1 z.2]) (new m n) pos = .ok (s', pos'') := by
    rw [run_snoc, h]
    simp only [Except.bind, exec, bind, ht, pure, Except.pure]
  obtain ⟨trees, lost, a1, a2, a3, a4⟩ := run_good p hlife ω hω (· ≤ ·) (fun a b h => h.le) (draw_le hω) m n _ pos _ h'
  have hp : points (ops ++ [.train z.1 z.2]) = points ops ++ [z] := by rw [points_append]; rfl
  rw [hp] at a4
  obtain ⟨ts, rfl⟩ := all_some trees (by rintro o ho rfl; have := a4 _ ho; simp [Good] at this)
  exact ⟨ts, by simpa using a3, a1.all, fun t ht => (a4 _ (List.mem_map.2 ⟨t, ht, rfl⟩)).1⟩

example : (train exP (exω []) (pt 0) (0 : Fin 2) (new 2 1) 0).map (fun r => r.2) = .ok (0, none) := by decide +kernel

/-! ### C69 -/

/-- a tree for copies of one point is a leaf -/
theorem Right.leaf_of_copies {t : Tree K F L} {z : Point K F L} {k : Nat} (h : Right (List.replicate k z) t) :
    ∃ id d, t = .leaf id d ∧ IsHull (List.replicate k z) d.box ∧ d.counts = histogram (List.replicate k z) := by
  cases t with
  | leaf id d => exact ⟨id, d, rfl, h.2.1, h.2.2⟩
  | node id d dim sp l r =>
      have h1 := h.2.1.ne_nil
      have h2 := h.2.2.ne_nil
      simp only [List.filter_replicate] at h1 h2
      by_cases hx : z.1 dim ≤ sp
      · simp [hx] at h2
      · simp [hx] at h1

/-- the score of a label in a tree for `k` copies of a point with label `y` -/
def copyScore (p : Params K) (k : Nat) (y : Fin L) (l : Fin L) : K :=
  if l = y then ((k : K) - p.exp (p.discount * p.lifetime)) / k + p.exp (p.discount * p.lifetime) * p.base / k else p.base

theorem histogram_copies (z : Point K F L) (k : Nat) (l : Fin L) : histogram (List.replicate k z) l = if l = z.2 then k else 0 := by
  unfold histogram
  rw [List.countP_replicate]
  by_cases h : z.2 = l
  · simp [h]
  · simp [h, Ne.symm h]

theorem scores_copies (p : Params K) (h0 : p.exp 0 = 1) {z : Point K F L} {k : Nat} (hk : 0 < k) {t : Tree K F L} (h : Right (List.replicate k z) t)
    (ht : Times (· ≤ ·) p.lifetime 0 t) : scores p z.1 t 0 1 (fun _ => p.base) (fun _ => 0) = .ok (copyScore p k z.2) := by
  obtain ⟨id, d, rfl, hh, hc⟩ := h.leaf_of_copies
  have ht : d.tau = p.lifetime := ht
  have hb : ∀ i, d.box.lower i = z.1 i ∧ d.box.upper i = z.1 i := by
    intro i
    obtain ⟨⟨a, ha, e1⟩, ⟨b, hb, e2⟩⟩ := hh.2 i
    rw [List.eq_of_mem_replicate ha] at e1
    rw [List.eq_of_mem_replicate hb] at e2
    exact ⟨e1.symm, e2.symm⟩
  have he : eta d.box z.1 = 0 := by
    unfold eta
    refine Finset.sum_eq_zero fun i _ => ?_
    rw [(hb i).1, (hb i).2, sub_self]
    simp [Utils.max]
  have hsum : ∑ i, (d.counts i : K) = k := by
    rw [hc]
    simp only [histogram_copies]
    rw [Finset.sum_congr rfl (g := fun i => if i = z.2 then (k : K) else 0) (fun i _ => by split <;> simp)]
    simp
  have htab : ∑ i, ((Utils.min (d.counts i) 1 : Nat) : K) = 1 := by
    rw [hc]
    simp only [histogram_copies, min_eq]
    rw [Finset.sum_congr rfl (g := fun i => if i = z.2 then (1 : K) else 0) (fun i _ => by
      split
      · have : min k 1 = 1 := by omega
        rw [this]; simp
      · simp)]
    simp
  simp only [scores, he, mul_zero, h0, sub_self, smooth, lt_irrefl, if_false, bind, Except.bind, pure, Except.pure, Except.ok.injEq]
  funext l
  simp only [zero_add, sub_zero, one_mul, meanOf, hsum, htab, ht, mul_one, copyScore]
  have hcl : d.counts l = if l = z.2 then k else 0 := by rw [hc, histogram_copies]
  by_cases hl : l = z.2
  · rw [if_pos hl] at hcl
    have hm : Utils.min k 1 = 1 := by rw [min_eq]; omega
    rw [if_pos hl, hcl, if_pos hk, hm]
    simp
  · rw [if_neg hl] at hcl
    rw [if_neg hl, hcl, if_neg (lt_irrefl 0)]

theorem totals_copies (p : Params K) (x : Fin F → K) (v : Fin L → K) : ∀ (trees : List (Option (Tree K F L))) (acc : Fin L → K),
    (∀ o ∈ trees, treeScores p x o = .ok v) → totals p x trees acc = .ok (fun l => acc l + trees.length * v l)
  | [], acc, _ => by simp [totals]
  | o :: os, acc, h => by
      simp only [totals, h o (by simp), bind, Except.bind]
      rw [totals_copies p x v os _ (fun o ho => h o (List.mem_cons_of_mem _ ho))]
      congr 1
      funext l
      rw [List.length_cons]
      push_cast
      ring

/-- what `predict` returns after training on `k` copies of a point -/
theorem predict_copies (p : Params K) (hlife : 0 ≤ p.lifetime) (h0 : p.exp 0 = 1) (ω : Nat → K) (hω : ∀ i, 0 ≤ ω i ∧ ω i < 1) (m n : Nat) (hn : 0 < n)
    (ops : List (Op K F L)) (pos : Nat) (s : Forest K F L) (pos' : Nat) (h : run p ω ops (new m n) pos = .ok (s, pos')) (z : Point K F L) (k : Nat)
    (hk : 0 < k) (hp : points ops = List.replicate k z) :
    ∃ s', predict p s z.1 = .ok (s', Utils.indexMax (List.ofFn (copyScore p k z.2))) := by
  obtain ⟨trees, lost, a1, a2, a3, a4⟩ := run_good p hlife ω hω (· ≤ ·) (fun a b h => h.le) (draw_le hω) m n ops pos _ h
  obtain ⟨nodes', b1, b2, b3, b4⟩ := a1.predict_eq p
  refine ⟨{ s with nodes := nodes' }, ?_⟩
  rw [hp] at a4
  have hlen : (recountAll trees).length = n := by rw [recountAll, List.length_map, a3]
  have ht : totals p z.1 (recountAll trees) (fun _ => 0) = .ok (fun l => 0 + (recountAll trees).length * copyScore p k z.2 l) := by
    refine totals_copies p z.1 _ _ _ fun o ho => ?_
    obtain ⟨o0, ho0, rfl⟩ := List.mem_map.1 ho
    have hg := (a4 o0 ho0).recount
    cases o0 with
    | none => have : List.replicate k z = [] := a4 _ ho0; simp at this; omega
    | some t => exact scores_copies p h0 hk hg.1 hg.2
  have hn0 : (n : K) ≠ 0 := by exact_mod_cast hn.ne'
  rw [b4]
  simp only [label, ht, bind, Except.bind, hlen, if_neg hn.ne', pure, Except.pure, Except.map]
  congr 5
  funext l
  rw [zero_add, mul_div_cancel_left₀ _ hn0]

theorem copyScore_self (p : Params K) (k : Nat) (hk : 0 < k) (y : Fin L) :
    copyScore p k y y = p.base + (1 - p.base) * ((k : K) - p.exp (p.discount * p.lifetime)) / k := by
  have : (k : K) ≠ 0 := by exact_mod_cast hk.ne'
  rw [copyScore, if_pos rfl]
  field_simp
  ring

/-- **C69** (partial) Trained on `k` copies of one point, the forest predicts the label of that point if `exp(discount · lifetime) < k`. Missing: fewer copies, see
`C69_other_label`. -/
theorem C69_copies_partial (p : Params K) (hlife : 0 ≤ p.lifetime) (h0 : p.exp 0 = 1) (hb : p.base < 1) (ω : Nat → K) (hω : ∀ i, 0 ≤ ω i ∧ ω i < 1)
    (m n : Nat) (hn : 0 < n) (ops : List (Op K F L)) (pos : Nat) (s : Forest K F L) (pos' : Nat) (h : run p ω ops (new m n) pos = .ok (s, pos'))
    (z : Point K F L) (k : Nat) (hk : 0 < k) (hp : points ops = List.replicate k z) (hD : p.exp (p.discount * p.lifetime) < k) :
    ∃ s', predict p s z.1 = .ok (s', z.2) := by
  obtain ⟨s', hs⟩ := predict_copies p hlife h0 ω hω m n hn ops pos s pos' h z k hk hp
  refine ⟨s', hs.trans ?_⟩
  have hL : 0 < L := lt_of_le_of_lt (Nat.zero_le _) z.2.2
  obtain ⟨hlt, hmax, -⟩ := Utils.C32_index_max (List.ofFn (copyScore p k z.2)) (by
    intro hnil; have := congrArg List.length hnil; simp at this; omega)
  congr 2
  by_contra hne
  have hk' : (0 : K) < k := by exact_mod_cast hk
  have hy : p.base < copyScore p k z.2 z.2 := by
    rw [copyScore_self p k hk]
    have : 0 < (1 - p.base) * ((k : K) - p.exp (p.discount * p.lifetime)) / k := div_pos (mul_pos (by linarith) (by linarith)) hk'
    linarith
  have h1 := hmax (copyScore p k z.2 z.2) (List.mem_ofFn.2 ⟨z.2, rfl⟩)
  have hlt' : Utils.indexMax (List.ofFn (copyScore p k z.2)) < L := by simpa using hlt
  rw [List.getElem_ofFn] at h1
  have h2 : copyScore p k z.2 ⟨Utils.indexMax (List.ofFn (copyScore p k z.2)), hlt'⟩ = p.base := by
    rw [copyScore, if_neg]
    intro e
    exact hne (congrArg Fin.val e)
  have h3 : copyScore p k z.2 z.2 ≤ p.base := h2 ▸ h1
  exact absurd hy (not_lt.2 h3)

/-- **C69** (violation) Trained on `k` copies of one point with `k < exp(discount · lifetime)`, the forest predicts another label for that point, if there is one. For
positive discount and lifetime and the real exponential this covers `k = 1`. -/
theorem C69_other_label (p : Params K) (hlife : 0 ≤ p.lifetime) (h0 : p.exp 0 = 1) (hb : p.base < 1) (ω : Nat → K) (hω : ∀ i, 0 ≤ ω i ∧ ω i < 1)
    (m n : Nat) (hn : 0 < n) (hL : 2 ≤ L) (ops : List (Op K F L)) (pos : Nat) (s : Forest K F L) (pos' : Nat)
    (h : run p ω ops (new m n) pos = .ok (s, pos')) (z : Point K F L) (k : Nat) (hk : 0 < k) (hp : points ops = List.replicate k z)
    (hD : k < p.exp (p.discount * p.lifetime)) : ∃ s' l, predict p s z.1 = .ok (s', l) ∧ l ≠ z.2 := by
  obtain ⟨s', hs⟩ := predict_copies p hlife h0 ω hω m n hn ops pos s pos' h z k hk hp
  refine ⟨s', _, hs, fun hne => ?_⟩
  obtain ⟨hlt, hmax, -⟩ := Utils.C32_index_max (List.ofFn (copyScore p k z.2)) (by
    intro hnil; have := congrArg List.length hnil; simp at this; omega)
  have hk' : (0 : K) < k := by exact_mod_cast hk
  have hy : copyScore p k z.2 z.2 < p.base := by
    rw [copyScore_self p k hk]
    have : (1 - p.base) * ((k : K) - p.exp (p.discount * p.lifetime)) / k < 0 :=
      div_neg_of_neg_of_pos (mul_neg_of_pos_of_neg (by linarith) (by linarith)) hk'
    linarith
  obtain ⟨w, hw⟩ : ∃ w : Fin L, w ≠ z.2 := by
    have : Nontrivial (Fin L) := Fin.nontrivial_iff_two_le.2 hL
    exact exists_ne z.2
  have h1 := hmax (copyScore p k z.2 w) (List.mem_ofFn.2 ⟨w, rfl⟩)
  rw [List.getElem_ofFn] at h1
  have h2 : copyScore p k z.2 w = p.base := by rw [copyScore, if_neg hw]
  have h3 : p.base ≤ copyScore p k z.2 z.2 := by
    rw [h2] at h1
    refine h1.trans (le_of_eq ?_)
    congr 1
    exact Fin.ext hne
  exact absurd hy (not_lt.2 h3)

/-- **C69** (violation) With the real exponential function, positive discount factor and lifetime and base measure below 1: after training on a single point, the
forest predicts a different label for it, whatever the point, its label and the random numbers. -/
theorem C69_single_point (p : Params ℝ) (he : p.exp = Real.exp) (hlife : 0 < p.lifetime) (hdisc : 0 < p.discount) (hb : p.base < 1) (ω : Nat → ℝ)
    (hω : ∀ i, 0 < ω i ∧ ω i < 1) (m n : Nat) (hn : 0 < n) (hmn : n ≤ m) (hL : 2 ≤ L) (z : Point ℝ F L) :
    ∃ s pos s' l, run p ω [.train z.1 z.2] (new m n) 0 = .ok (s, pos) ∧ predict p s z.1 = .ok (s', l) ∧ l ≠ z.2 := by
  have h0 : p.exp 0 = 1 := by rw [he]; exact Real.exp_zero
  obtain ⟨⟨s, pos⟩, hr⟩ := run_ok p hlife.le h0 hdisc.le ω hω m n hn hmn [.train z.1 z.2] 0
  obtain ⟨s', l, h1, h2⟩ := C69_other_label p hlife.le h0 hb ω (fun i => ⟨(hω i).1.le, (hω i).2⟩) m n hn hL _ 0 s pos hr z 1 one_pos rfl (by
    rw [he, Nat.cast_one]; exact Real.one_lt_exp_iff.2 (mul_pos hdisc hlife))
  exact ⟨s, pos, s', l, hr, h1, h2⟩

/-- one training point with label 1, lifetime 10, discount 1: label 0 is predicted; two copies of it: label 1 is predicted -/
example : (run exP (exω []) [.train (pt 5) (1 : Fin 2)] (new 8 2) 0).bind (fun r => (predict exP r.1 (pt 5)).map (fun q => q.2)) = .ok 0 ∧
    (run exP (exω []) [.train (pt 5) (1 : Fin 2), .train (pt 5) 1] (new 8 2) 0).bind (fun r => (predict exP r.1 (pt 5)).map (fun q => q.2)) = .ok 1 := by
  decide +kernel

end Orp.Mondrian
