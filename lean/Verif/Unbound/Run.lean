import Verif.Unbound.Compare

/-!
Histories of the unbounded forest: they end; what the heap looks like; the destructor.
-/

set_option linter.unusedSectionVars false

namespace Orp.Unbound

open Mondrian

variable {K : Type} [Field K] [LinearOrder K] [IsStrictOrderedRing K] [FloorRing K] {F L : Nat}

theorem run_snoc (p : Params K) (ω : Nat → K) : ∀ (as : List (Op K F L)) (b : Op K F L) (s : Forest K F L) (pos : Nat),
    run p ω (as ++ [b]) s pos = (run p ω as s pos).bind (fun r => exec p ω b r.1 r.2)
  | [], b, s, pos => by
      simp only [List.nil_append, run, bind, Except.bind]
      cases exec p ω b s pos <;> rfl
  | z :: as, b, s, pos => by
      simp only [List.cons_append, run, bind, Except.bind]
      cases exec p ω z s pos with
      | error e => rfl
      | ok q => exact run_snoc p ω as b q.1 q.2

/-- the state after a history -/
theorem run_good (p : Params K) (ω : Nat → K) (hω : ∀ i, 0 ≤ ω i ∧ ω i < 1) (R : K → K → Prop) (hR : ∀ a b, a < b → R a b)
    (hd : ∀ (pos : Nat) (b : Box K F) (x : Fin F → K) (ptau tau : K) (c : Cut K F) (pos' : Nat),
      Mondrian.draw p ω pos b x ptau tau = .ok (some c, pos') → R ptau c.tau) (n : Nat) (ops : List (Op K F L)) (pos : Nat) (r : Forest K F L × Nat)
    (h : run p ω ops (new n) pos = .ok r) :
    ∃ trees : List (Option (Mondrian.Tree K F L)), Inv r.1 trees ∧ trees.length = n ∧ r.1.points = (points ops).length ∧
      idealRun p ω n ops (contents (List.replicate n none)) pos = .ok (contents trees, r.2) ∧ ∀ o ∈ trees, Good R p.lifetime (points ops) o := by
  have h1 := run_ideal p ω hω R hR hd n ops (new n) (List.replicate n none) pos [] (inv_new n) (by simp) (by
    intro o ho; rw [List.eq_of_mem_replicate ho]; rfl)
  cases hid : idealRun p ω n ops (contents (List.replicate n none)) pos with
  | error e => rw [hid] at h1; rw [h] at h1; cases h1
  | ok q =>
      rw [hid] at h1
      obtain ⟨s', trees', b1, b2, b3, b4, b5, b6⟩ := h1
      rw [h] at b1
      have := Except.ok.inj b1
      subst this
      refine ⟨trees', b2, b4, ?_, ?_, by simpa using b6⟩
      · simpa [new] using b5
      · rw [← b3]

theorem idealLoop_ok (p : Params K) (ω : Nat → K) (hω : ∀ i, 0 < ω i ∧ ω i < 1) (x : Fin F → K) (label : Fin L) :
    ∀ (k i : Nat) (cs : List (Option (Mondrian.Tree K F L))) (pos : Nat), ∃ r, idealLoop p ω x label i k cs pos = .ok r
  | 0, i, cs, pos => ⟨_, rfl⟩
  | k + 1, i, cs, pos => by
      have : ∀ o : Option (Mondrian.Tree K F L), ∃ r, idealTree p ω x label o pos = .ok r := by
        intro o
        cases o with
        | none => exact ⟨_, rfl⟩
        | some t =>
            obtain ⟨r, hr⟩ := grow_ok p ω hω (some (0, 0)) x label t 0 pos
            exact ⟨_, by unfold idealTree; simp only [hr, Except.map]; rfl⟩
      obtain ⟨r, hr⟩ := this (cs[i]?).join
      unfold idealLoop
      rw [hr]
      exact idealLoop_ok p ω hω x label k (i + 1) _ _

/-- Histories end without undefined behaviour. -/
theorem run_ok (p : Params K) (h0 : p.exp 0 = 1) (hdisc : 0 ≤ p.discount) (ω : Nat → K) (hω : ∀ i, 0 < ω i ∧ ω i < 1)
    (n : Nat) (hn : 0 < n) (ops : List (Op K F L)) (pos : Nat) : ∃ r, run p ω ops (new n) pos = .ok r := by
  have hω' : ∀ i, 0 ≤ ω i ∧ ω i < 1 := fun i => ⟨(hω i).1.le, (hω i).2⟩
  induction ops using List.reverseRecOn with
  | nil => exact ⟨_, rfl⟩
  | append_singleton ops op ih =>
      obtain ⟨q, hq⟩ := ih
      obtain ⟨trees, a1, a2, -, -, a4⟩ := run_good p ω hω' (· ≤ ·) (fun a b h => h.le) (draw_le hω') n ops pos q hq
      rw [run_snoc, hq]
      simp only [Except.bind]
      cases op with
      | train x l =>
          have h1 := trainLoop_ideal p ω (fun i => (hω i).2.le) x l n 0 q.1 trees q.2 none (by omega) a1
          obtain ⟨u, hu⟩ := idealLoop_ok p ω hω x l n 0 (contents trees) q.2
          rw [hu] at h1
          obtain ⟨s', _, e1, -⟩ := h1
          simp only [exec, train, a1.roots_length, a2, e1, bind, Except.bind, pure, Except.pure]
          exact ⟨_, rfl⟩
      | predict x =>
          obtain ⟨u, hu⟩ := label_ok p h0 hdisc x trees (by omega) (fun t ht => by
            have := (a4 _ ht).1.positive
            rwa [a1.right t ht] at this)
          simp only [exec, a1.predict_eq p x, hu, bind, Except.bind, pure, Except.pure]
          exact ⟨_, rfl⟩

/-! ### The heap -/

/-- the node at place `i` splits -/
def splits (heap : List (Node K F L)) (i : Nat) : Bool := (heap[i]?).any (fun n => n.dim.isSome)

theorem tree_splits {heap : List (Node K F L)} : ∀ {t : Mondrian.Tree K F L} {par : Option Nat}, Holds heap par t →
    t.ids.length = 2 * t.ids.countP (splits heap) + 1
  | .leaf id d, par, ⟨n, h1, _, h3⟩ => by
      have : splits heap id = false := by simp [splits, h1, h3]
      simp [Mondrian.Tree.ids, this]
  | .node id d dim sp l r, par, ⟨⟨n, h1, _, h3, _⟩, hl, hr⟩ => by
      have : splits heap id = true := by simp [splits, h1, h3]
      have e1 := tree_splits hl
      have e2 := tree_splits hr
      simp only [Mondrian.Tree.ids, List.length_cons, List.length_append, List.countP_cons, List.countP_append, this, if_true]
      omega

theorem forest_splits {heap : List (Node K F L)} : ∀ {trees : List (Option (Mondrian.Tree K F L))}, (∀ t, some t ∈ trees → Holds heap none t) →
    (allIds trees).length = 2 * (allIds trees).countP (splits heap) + trees.countP Option.isSome
  | [], _ => rfl
  | none :: trees, h => by
      have := forest_splits (trees := trees) (fun t ht => h t (List.mem_cons_of_mem _ ht))
      simpa [allIds] using this
  | some t :: trees, h => by
      have e1 := forest_splits (trees := trees) (fun t ht => h t (List.mem_cons_of_mem _ ht))
      have e2 := tree_splits (h t (by simp))
      simp only [allIds, List.flatMap_cons, List.length_append, List.countP_append, List.countP_cons, Option.isSome_some, if_true] at e1 ⊢
      omega

theorem countP_range {α : Type} (q : α → Bool) (l : List α) : (List.range l.length).countP (fun i => (l[i]?).any q) = l.countP q := by
  induction l using List.reverseRecOn with
  | nil => rfl
  | append_singleton l a ih =>
      rw [List.length_append, List.length_singleton, List.range_succ, List.countP_append, List.countP_append, ← ih]
      congr 1
      · refine List.countP_congr fun i hi => ?_
        rw [List.getElem?_append_left (List.mem_range.1 hi)]
      · simp

/-- the counts of nodes -/
theorem Inv.counts {s : Forest K F L} {trees : List (Option (Mondrian.Tree K F L))} (h : Inv s trees) :
    s.heap.countP (fun n => n.dim.isSome) = s.internals ∧ s.heap.countP (fun n => n.dim.isNone) = s.leaves ∧
      trees.countP Option.isSome = s.roots.countP Option.isSome := by
  have e1 := forest_splits (fun t ht => h.all.holds t ht)
  have e2 : (allIds trees).countP (splits s.heap) = s.heap.countP (fun n => n.dim.isSome) := by
    rw [h.cover.countP_eq]; exact countP_range _ _
  have e3 : s.heap.countP (fun n => n.dim.isSome) + s.heap.countP (fun n => n.dim.isNone) = s.heap.length := by
    have := List.length_eq_countP_add_countP (fun n : Node K F L => n.dim.isSome) (l := s.heap)
    rw [this]
    congr 1
    refine List.countP_congr fun n _ => ?_
    cases n.dim <;> simp
  have h1 := h.total
  have h2 := h.extra
  have h3 := h.length
  simp only at e1
  rw [e2] at e1
  refine ⟨by omega, by omega, ?_⟩
  have hr : s.roots = trees.map (fun t => t.map Mondrian.Tree.id) := h.all.roots
  rw [hr, List.countP_map]
  refine List.countP_congr fun o _ => ?_
  cases o <;> simp

/-- the root of a tree has its data -/
theorem holds_root {heap : List (Node K F L)} {par : Option Nat} : ∀ {t : Mondrian.Tree K F L}, Holds heap par t →
    ∃ n, heap[t.id]? = some n ∧ n.counts = t.data.counts
  | .leaf _ _, ⟨n, h1, h2, _⟩ => ⟨n, h1, h2.2.2.2⟩
  | .node _ _ _ _ _ _, ⟨⟨n, h1, h2, _⟩, _⟩ => ⟨n, h1, h2.2.2.2⟩

theorem holds_counter {heap : List (Node K F L)} {i : Nat} {n : Node K F L} (hn : heap[i]? = some n) (hs : n.dim.isSome) :
    ∀ {t : Mondrian.Tree K F L} {par : Option Nat}, Holds heap par t → t.recount = t → i ∈ t.ids →
      ∃ a b na nb, n.left = some a ∧ n.right = some b ∧ heap[a]? = some na ∧ heap[b]? = some nb ∧ ∀ l, n.counts l = min 1 (na.counts l) + min 1 (nb.counts l)
  | .leaf id d, par, ⟨m, h1, _, h3⟩, hr, hi => by
      simp only [Mondrian.Tree.ids, List.mem_singleton] at hi
      subst hi
      rw [hn] at h1
      have := Option.some.inj h1
      subst this
      rw [h3] at hs; cases hs
  | .node id d dim sp tl tr, par, ⟨⟨m, h1, h2, h3, h4, h5, h6⟩, hl, hr⟩, hrec, hi => by
      simp only [Mondrian.Tree.recount] at hrec
      injection hrec with e1 e2 e3 e4 e5 e6
      simp only [Mondrian.Tree.ids, List.mem_cons, List.mem_append] at hi
      rcases hi with rfl | hi | hi
      · rw [hn] at h1
        have := Option.some.inj h1
        subst this
        obtain ⟨na, a1, a2⟩ := holds_root hl
        obtain ⟨nb, b1, b2⟩ := holds_root hr
        refine ⟨_, _, na, nb, h5, h6, a1, b1, fun l => ?_⟩
        have hc := congrArg (fun d : Data K F L => d.counts l) e2
        simp only [e5, e6] at hc
        rw [h2.2.2.2, ← hc, a2, b2]
      · exact holds_counter hn hs hl e5 hi
      · exact holds_counter hn hs hr e6 hi

/-! ### The destructor -/

theorem destroyNode_spec {heap : List (Node K F L)} (hb : Bare heap) : ∀ (t : Mondrian.Tree K F L) (par : Option Nat) (fuel : Nat) (freed : List Nat),
    Holds heap par t → t.height ≤ fuel → t.ids.Nodup → (∀ i ∈ t.ids, i ∉ freed) →
      ∃ out, destroyNode heap fuel (some t.id) freed = .ok out ∧ List.Perm out (t.ids ++ freed)
  | .leaf id d, par, fuel, freed, ⟨n, h1, _, h3⟩, hf, hnd, hd => by
      obtain ⟨f, rfl⟩ : ∃ f, fuel = f + 1 := ⟨fuel - 1, by simp only [Mondrian.Tree.height] at hf; omega⟩
      have hid : id ∉ freed := hd id (by simp [Mondrian.Tree.ids])
      obtain ⟨e1, e2⟩ := hb id n h1 h3
      refine ⟨id :: freed, ?_, by simp [Mondrian.Tree.ids]⟩
      show destroyNode heap (f + 1) (some id) freed = _
      simp only [destroyNode, if_neg hid, rd_eq_ok_iff.2 h1, bind, Except.bind, e1, e2, pure, Except.pure]
  | .node id d dim sp l r, par, fuel, freed, ⟨⟨n, h1, h2, h3, h4, h5, h6⟩, hl, hr⟩, hf, hnd, hd => by
      simp only [Mondrian.Tree.height] at hf
      obtain ⟨f, rfl⟩ : ∃ f, fuel = f + 1 := ⟨fuel - 1, by omega⟩
      have m1 : l.height ≤ Nat.max l.height r.height := Nat.le_max_left l.height r.height
      have m2 : r.height ≤ Nat.max l.height r.height := Nat.le_max_right l.height r.height
      simp only [Mondrian.Tree.ids, List.nodup_cons, List.mem_append, not_or] at hnd
      obtain ⟨⟨n1, n2⟩, n3⟩ := hnd
      obtain ⟨n4, n5, n6⟩ := List.nodup_append'.1 n3
      have hid : id ∉ freed := hd id (by simp [Mondrian.Tree.ids])
      obtain ⟨out1, o1, p1⟩ := destroyNode_spec hb l (some id) f freed hl (by omega) n4 (fun i hi => hd i (by simp [Mondrian.Tree.ids, hi]))
      obtain ⟨out2, o2, p2⟩ := destroyNode_spec hb r (some id) f out1 hr (by omega) n5 (fun i hi => by
        rw [p1.mem_iff, List.mem_append, not_or]
        exact ⟨fun hi' => n6 hi' hi, hd i (by simp [Mondrian.Tree.ids, hi])⟩)
      have hid2 : id ∉ out2 := by
        rw [p2.mem_iff, List.mem_append, p1.mem_iff, List.mem_append]
        simp only [not_or]
        exact ⟨n2, n1, hid⟩
      refine ⟨id :: out2, ?_, ?_⟩
      · show destroyNode heap (f + 1) (some id) freed = _
        simp only [destroyNode, if_neg hid, rd_eq_ok_iff.2 h1, bind, Except.bind, h5, h6, o1, o2, if_neg hid2, pure, Except.pure]
      · simp only [Mondrian.Tree.ids, List.cons_append, List.append_assoc]
        refine List.Perm.cons id (p2.trans ?_)
        refine (p1.append_left _).trans ?_
        rw [← List.append_assoc, ← List.append_assoc]
        exact List.perm_append_comm.append_right _

theorem destroy_spec {s : Forest K F L} (hb : Bare s.heap) : ∀ (trees : List (Option (Mondrian.Tree K F L))) (freed : List Nat),
    (∀ t, some t ∈ trees → Holds s.heap none t ∧ t.height ≤ s.heap.length) → (allIds trees).Nodup → (∀ i ∈ allIds trees, i ∉ freed) →
      ∃ out, destroy s (trees.map (fun t => t.map Mondrian.Tree.id)) freed = .ok out ∧ List.Perm out (allIds trees ++ freed)
  | [], freed, _, _, _ => ⟨freed, rfl, by simp [allIds]⟩
  | none :: trees, freed, h, hnd, hd => by
      obtain ⟨out, o1, o2⟩ := destroy_spec hb trees freed (fun t ht => h t (List.mem_cons_of_mem _ ht)) (by simpa [allIds] using hnd) (by simpa [allIds] using hd)
      refine ⟨out, ?_, by simpa [allIds] using o2⟩
      simp only [List.map_cons, Option.map_none, destroy, destroyNode, bind, Except.bind]
      exact o1
  | some t :: trees, freed, h, hnd, hd => by
      have hids : allIds (some t :: trees) = t.ids ++ allIds trees := by simp [allIds]
      rw [hids] at hnd hd ⊢
      obtain ⟨n1, n2, n3⟩ := List.nodup_append'.1 hnd
      obtain ⟨h1, h2⟩ := h t (by simp)
      obtain ⟨out1, o1, p1⟩ := destroyNode_spec hb t none s.heap.length freed h1 h2 n1 (fun i hi => hd i (by simp [hi]))
      obtain ⟨out2, o2, p2⟩ := destroy_spec hb trees out1 (fun t ht => h t (List.mem_cons_of_mem _ ht)) n2 (fun i hi => by
        rw [p1.mem_iff, List.mem_append, not_or]
        exact ⟨fun hi' => n3 hi' hi, hd i (by simp [hi])⟩)
      refine ⟨out2, ?_, ?_⟩
      · simp only [List.map_cons, Option.map_some, destroy, o1, bind, Except.bind]
        exact o2
      · refine p2.trans ((p1.append_left _).trans ?_)
        rw [← List.append_assoc]
        exact List.perm_append_comm.append_right _

end Orp.Unbound
