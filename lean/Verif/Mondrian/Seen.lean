import Verif.Mondrian.ClosedRun
import Verif.Mondrian.Props

/-!
Property C170: training with a point inside the boxes of the leaves it is routed to, for instance one the forest was trained with before, changes nothing but the
counters of these leaves and uses no random numbers (mondrian.hpp:126-189, 449-457).
-/

set_option linter.unusedSectionVars false

namespace Orp.Mondrian

variable {K : Type} [Field K] [LinearOrder K] [IsStrictOrderedRing K] [FloorRing K] {F L : Nat}

/-- the tree with one more point counted in the leaf that `x` is routed to, all else as before (specification) -/
def Tree.addCount (x : Fin F → K) (label : Fin L) : Tree K F L → Tree K F L
  | .leaf id d => .leaf id { d with counts := fun l => if l = label then d.counts l + 1 else d.counts l }
  | .node id d dim sp l r => if x dim ≤ sp then .node id d dim sp (l.addCount x label) r else .node id d dim sp l (r.addCount x label)

/-- the point is in the box (specification) -/
def Box.Contains (b : Box K F) (x : Fin F → K) : Prop := ∀ i, b.lower i ≤ x i ∧ x i ≤ b.upper i

theorem extend_contains {b : Box K F} {x : Fin F → K} (h : b.Contains x) : b.extend x = b := by
  have h1 : ∀ i, ¬ x i < b.lower i := fun i => not_lt.2 (h i).1
  have h2 : ∀ i, ¬ b.upper i < x i := fun i => not_lt.2 (h i).2
  simp only [Box.extend, h1, h2, if_false]

theorem draw_contains (p : Params K) (ω : Nat → K) (pos : Nat) {b : Box K F} {x : Fin F → K} (h : b.Contains x) (ptau tau : K) :
    draw p ω pos b x ptau tau = .ok (none, pos) := by
  have hs : ∑ i, extent b x i = 0 := (sum_eq_zero_iff b x).2 h
  simp only [draw, hs, if_true]

/-- the box of the leaf is the hull of some of the points -/
theorem Right.route_hull : ∀ {t : Tree K F L} {pts : List (Point K F L)} (x : Fin F → K), Right pts t → ∃ sub, sub ⊆ pts ∧ IsHull sub (t.route x).box
  | .leaf _ _, pts, _, h => ⟨pts, fun _ h => h, h.2.1⟩
  | .node _ _ dim sp l r, pts, x, h => by
      by_cases hx : x dim ≤ sp
      · obtain ⟨sub, h1, h2⟩ := Right.route_hull x h.2.1
        exact ⟨sub, fun z hz => (List.mem_filter.1 (h1 hz)).1, by simpa only [Tree.route, if_pos hx] using h2⟩
      · obtain ⟨sub, h1, h2⟩ := Right.route_hull x h.2.2
        exact ⟨sub, fun z hz => (List.mem_filter.1 (h1 hz)).1, by simpa only [Tree.route, if_neg hx] using h2⟩

theorem Right.contains {t : Tree K F L} {pts : List (Point K F L)} (h : Right pts t) {x : Fin F → K} (hx : (t.route x).box.Contains x) : t.data.box.Contains x := by
  obtain ⟨sub, h1, h2⟩ := h.route_hull x
  intro i
  obtain ⟨⟨a, ha, ea⟩, ⟨b, hb, eb⟩⟩ := h2.2 i
  have hh := h.hull.1
  exact ⟨((hh a (h1 ha) i).1.trans_eq ea).trans (hx i).1, (hx i).2.trans (eb.symm.trans_le (hh b (h1 hb) i).2)⟩

theorem growWith_contains (p : Params K) (ω : Nat → K) (fresh : Option (Nat × Nat)) (x : Fin F → K) (label : Fin L) :
    ∀ (t : Tree K F L) (pts : List (Point K F L)) (ptau : K) (pos : Nat), Right pts t → (t.route x).box.Contains x →
      growWith p (draw p ω) fresh x label t ptau pos = .ok (t.addCount x label, pos)
  | .leaf id d, pts, ptau, pos, h, hx => by
      have hb : d.box.Contains x := hx
      simp only [growWith, draw_contains p ω pos hb, both, extend_contains hb, Tree.addCount]
      congr 4
      funext l
      simp only [bump, Function.update_apply]
      split
      · rename_i e; rw [e]
      · rfl
  | .node id d dim sp l r, pts, ptau, pos, h, hx => by
      have hb : d.box.Contains x := h.contains hx
      simp only [growWith, draw_contains p ω pos hb, both, extend_contains hb, Tree.addCount]
      by_cases hd : x dim ≤ sp
      · simp only [Tree.route, if_pos hd] at hx
        simp only [if_pos hd, growWith_contains p ω fresh x label l _ d.tau pos h.2.1 hx]
      · simp only [Tree.route, if_neg hd] at hx
        simp only [if_neg hd, growWith_contains p ω fresh x label r _ d.tau pos h.2.2 hx]

theorem trainLoop_contains (p : Params K) (hlife : 0 ≤ p.lifetime) (ω : Nat → K) (x : Fin F → K) (label : Fin L) (pts : List (Point K F L)) (res : Option Bool) (pos : Nat) :
    ∀ (todo before : List (Tree K F L)) (s : Forest K F L) (lost : List Nat), Inv s ((before ++ todo).map some) lost →
      (∀ t ∈ todo, Right pts t ∧ (t.route x).box.Contains x) →
      ∃ (s' : Forest K F L) (lost' : List Nat), trainLoop p ω x label before.length todo.length s pos res = .ok (s', pos, res) ∧
        Inv s' ((before ++ todo.map (Tree.addCount x label)).map some) lost'
  | [], before, s, lost, hI, _ => ⟨s, lost, rfl, by simpa using hI⟩
  | t :: todo, before, s, lost, hI, ht => by
      obtain ⟨h1, h2⟩ := ht t List.mem_cons_self
      have hi : ((before ++ t :: todo).map some)[before.length]? = some (some t) := by simp
      have h := trainTreeWith_some p hlife (draw p ω) x label (draw_fair_any p ω x) s _ lost hI before.length pos t hi (all_true t)
      rw [growWith_contains p ω _ x label t pts 0 pos h1 h2] at h
      obtain ⟨s1, lost1, a1, a2, -, -⟩ := h
      rw [trainTreeWith_draw] at a1
      have hset : ((before ++ t :: todo).map some).set before.length (some (t.addCount x label)) = (((before ++ [t.addCount x label]) ++ todo).map some) := by
        simp
      rw [hset] at a2
      obtain ⟨s', lost', b1, b2⟩ := trainLoop_contains p hlife ω x label pts res pos todo (before ++ [t.addCount x label]) s1 lost1 a2
        (fun t' ht' => ht t' (List.mem_cons_of_mem _ ht'))
      refine ⟨s', lost', ?_, by simpa using b2⟩
      simp only [List.length_append, List.length_singleton] at b1
      simp only [List.length_cons, trainLoop, a1, bind, Except.bind, if_true, b1]

/-- **C170** After any history, training with a point that is inside the box of the leaf it is routed to in every tree, whatever the label and the random numbers, and
even if the pool is exhausted: no random number is used, and the trees are as before but for the counter of the label in these leaves. -/
theorem C170_inside (p : Params K) (hlife : 0 ≤ p.lifetime) (ω : Nat → K) (hω : ∀ i, 0 ≤ ω i ∧ ω i < 1) (m n : Nat) (ops : List (Op K F L))
    (pos : Nat) (s : Forest K F L) (pos' : Nat) (h : run p ω ops (new m n) pos = .ok (s, pos')) (hne : points ops ≠ []) :
    ∃ trees : List (Tree K F L), trees.length = n ∧ HoldsAll s (trees.map some) ∧
      ∀ (x : Fin F → K) (label : Fin L) (ω' : Nat → K) (q : Nat), (∀ t ∈ trees, (t.route x).box.Contains x) →
        ∃ s' r, train p ω' x label s q = .ok (s', q, r) ∧ HoldsAll s' ((trees.map (Tree.addCount x label)).map some) := by
  obtain ⟨trees, lost, a1, a2, a3, a4⟩ := run_good p hlife ω hω (· ≤ ·) (fun a b h => h.le) (draw_le hω) m n ops pos _ h
  obtain ⟨ts, rfl⟩ := all_some trees (by rintro o ho rfl; exact hne (a4 _ ho))
  refine ⟨ts, by simpa using a3, a1.all, fun x label ω' q hx => ?_⟩
  obtain ⟨s', lost', b1, b2⟩ := trainLoop_contains p hlife ω' x label (points ops) none q ts [] s lost (by simpa using a1)
    (fun t ht => ⟨(a4 _ (List.mem_map.2 ⟨t, ht, rfl⟩)).1, hx t ht⟩)
  have hl : s.roots.length = ts.length := by rw [a1.all.roots]; simp
  exact ⟨s', none, by rw [train, hl]; exact b1, by simpa using b2.all⟩

/-- **C170** In particular training with a point the forest has been trained with before, with any label. -/
theorem C170_seen (p : Params K) (hlife : 0 ≤ p.lifetime) (ω : Nat → K) (hω : ∀ i, 0 ≤ ω i ∧ ω i < 1) (m n : Nat) (ops : List (Op K F L))
    (pos : Nat) (s : Forest K F L) (pos' : Nat) (h : run p ω ops (new m n) pos = .ok (s, pos')) (z : Point K F L) (hz : z ∈ points ops) (label : Fin L)
    (ω' : Nat → K) (q : Nat) :
    ∃ (trees : List (Tree K F L)) (s' : Forest K F L) (r : Option Bool), trees.length = n ∧ HoldsAll s (trees.map some) ∧
      train p ω' z.1 label s q = .ok (s', q, r) ∧ HoldsAll s' ((trees.map (Tree.addCount z.1 label)).map some) := by
  obtain ⟨trees, lost, a1, a2, a3, a4⟩ := run_good p hlife ω hω (· ≤ ·) (fun a b h => h.le) (draw_le hω) m n ops pos _ h
  obtain ⟨ts, rfl⟩ := all_some trees (by
    rintro o ho rfl
    have : points ops = [] := a4 _ ho
    rw [this] at hz
    cases hz)
  obtain ⟨s', lost', b1, b2⟩ := trainLoop_contains p hlife ω' z.1 label (points ops) none q ts [] s lost (by simpa using a1)
    (fun t ht => by
      have hR := (a4 _ (List.mem_map.2 ⟨t, ht, rfl⟩)).1
      exact ⟨hR, fun i => hR.leaf_box z hz i⟩)
  have hl : s.roots.length = ts.length := by rw [a1.all.roots]; simp
  exact ⟨ts, s', none, by simpa using a3, a1.all, by rw [train, hl]; exact b1, by simpa using b2.all⟩

/-- the hypotheses are met: a history that succeeds and one of its points -/
example : (pt 1, 1) ∈ points exOps ∧ (run exP (exω []) exOps (new 8 2) 0).isOk := by
  constructor
  · simp [exOps, points]
  · decide +kernel

/-- a new point, in contrast, does use random numbers: the position after the history and after one more training -/
example : (run exP (exω []) exOps (new 8 2) 0).bind (fun r => (train exP (exω []) (pt 1) 0 r.1 r.2).map (fun q => q.2.1 - r.2)) = .ok 0 ∧
    (run exP (exω []) exOps (new 8 2) 0).bind (fun r => (train exP (exω []) (pt 7) 0 r.1 r.2).map (fun q => decide (0 < q.2.1 - r.2))) = .ok true := by
  decide +kernel

end Orp.Mondrian
