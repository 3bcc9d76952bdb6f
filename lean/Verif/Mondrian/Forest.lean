import Verif.Mondrian.Extend

/-!
Training a forest: the pool holds the trees, every other node is available, except at most one that is lost when the pool runs out.
-/

namespace Orp.Mondrian

set_option linter.unusedSectionVars false

variable {K : Type} [Field K] [LinearOrder K] [IsStrictOrderedRing K] [FloorRing K] {F L : Nat}

/-- the nodes of a tree, if there is one -/
def oids : Option (Tree K F L) → List Nat
  | some t => t.ids
  | none => []

theorem allIds_cons (o : Option (Tree K F L)) (os : List (Option (Tree K F L))) : allIds (o :: os) = oids o ++ allIds os := by
  cases o <;> rfl

theorem allIds_split : ∀ (trees : List (Option (Tree K F L))) (i : Nat) (o : Option (Tree K F L)), trees[i]? = some o →
    ∃ rest : List Nat, (allIds trees).Perm (oids o ++ rest) ∧ (∀ o', (allIds (trees.set i o')).Perm (oids o' ++ rest)) ∧
      (∀ (j : Nat) (u : Tree K F L), j ≠ i → trees[j]? = some (some u) → ∀ k ∈ u.ids, k ∈ rest)
  | [], i, o, h => by simp at h
  | a :: l, 0, o, h => by
      simp only [List.getElem?_cons_zero, Option.some.injEq] at h
      subst h
      refine ⟨allIds l, ?_, fun o' => ?_, fun j u hj hu k hk => ?_⟩
      · rw [allIds_cons]
      · rw [List.set_cons_zero, allIds_cons]
      · cases j with
        | zero => exact absurd rfl hj
        | succ j =>
            simp only [List.getElem?_cons_succ] at hu
            exact List.mem_flatMap.2 ⟨some u, List.mem_of_getElem? hu, hk⟩
  | a :: l, i + 1, o, h => by
      simp only [List.getElem?_cons_succ] at h
      obtain ⟨rest, h1, h2, h3⟩ := allIds_split l i o h
      have key : ∀ (A B : List Nat), (oids a ++ (A ++ B)).Perm (A ++ (oids a ++ B)) := by
        intro A B
        rw [← List.append_assoc, ← List.append_assoc]
        exact List.perm_append_comm.append_right B
      refine ⟨oids a ++ rest, ?_, fun o' => ?_, fun j u hj hu k hk => ?_⟩
      · rw [allIds_cons]; exact (h1.append_left _).trans (key _ _)
      · rw [List.set_cons_succ, allIds_cons]; exact ((h2 o').append_left _).trans (key _ _)
      · cases j with
        | zero =>
            simp only [List.getElem?_cons_zero, Option.some.injEq] at hu
            subst hu
            exact List.mem_append.2 (Or.inl hk)
        | succ j =>
            simp only [List.getElem?_cons_succ] at hu
            exact List.mem_append.2 (Or.inr (h3 j u (by omega) hu k hk))

/-- The invariant of the object. `lost` are the nodes that are neither available nor in a tree. -/
structure Inv (s : Forest K F L) (trees : List (Option (Tree K F L))) (lost : List Nat) : Prop where
  all : HoldsAll s trees
  clean : Clean s.nodes
  cover : List.Perm (avail s.nodes ++ (lost ++ allIds trees)) (List.range s.nodes.length)
  one : lost.length ≤ 1
  empty : lost ≠ [] → avail s.nodes = []

theorem avail_new (m n : Nat) : avail (new m n : Forest K F L).nodes = List.range m := by
  unfold avail
  have : (new m n : Forest K F L).nodes.length = m := by simp [new]
  rw [this, List.filter_eq_self]
  intro i hi
  have hi := List.mem_range.1 hi
  simp [new, List.getElem?_replicate, hi, Node.available, blank]

theorem inv_new (m n : Nat) : Inv (new m n : Forest K F L) (List.replicate n none) [] := by
  have hids : allIds (List.replicate n (none : Option (Tree K F L))) = [] := by
    unfold allIds
    rw [List.flatMap_eq_nil_iff]
    intro o ho
    rw [List.eq_of_mem_replicate ho]
  refine ⟨⟨?_, ?_, ?_⟩, ?_, ?_, by simp, by simp⟩
  · simp [new]
  · intro t ht
    cases List.eq_of_mem_replicate ht
  · rw [hids]; exact List.nodup_nil
  · intro i n hi _
    simp only [new, List.getElem?_replicate] at hi
    split at hi
    · have := Option.some.inj hi
      subst this
      exact ⟨rfl, rfl⟩
    · cases hi
  · rw [hids, avail_new]
    simp [new]

theorem Inv.nodup {s : Forest K F L} {trees : List (Option (Tree K F L))} {lost : List Nat} (h : Inv s trees lost) :
    (avail s.nodes ++ (lost ++ allIds trees)).Nodup := h.cover.nodup_iff.2 List.nodup_range

theorem Inv.used {s : Forest K F L} {trees : List (Option (Tree K F L))} {lost : List Nat} (h : Inv s trees lost) {i : Nat} (hi : i ∈ allIds trees) :
    i ∉ avail s.nodes := fun h' =>
  (List.nodup_append'.1 h.nodup).2.2 h' (List.mem_append.2 (Or.inr hi))

theorem mem_allIds {trees : List (Option (Tree K F L))} {i k : Nat} {t : Tree K F L} (h : trees[i]? = some (some t)) (hk : k ∈ t.ids) :
    k ∈ allIds trees := List.mem_flatMap.2 ⟨some t, List.mem_of_getElem? h, hk⟩

theorem Inv.root {s : Forest K F L} {trees : List (Option (Tree K F L))} {lost : List Nat} (h : Inv s trees lost) {i : Nat} {o : Option (Tree K F L)}
    (hi : trees[i]? = some o) : s.roots[i]? = some (o.map Tree.id) := by
  rw [h.all.roots, List.getElem?_map, hi]; rfl

theorem Inv.ready {s : Forest K F L} {trees : List (Option (Tree K F L))} {lost : List Nat} (h : Inv s trees lost) {i : Nat} {t : Tree K F L}
    (hi : trees[i]? = some (some t)) : Ready s i t := by
  refine ⟨h.all.holds t (List.mem_of_getElem? hi), ?_, h.root hi, fun k hk => h.used (mem_allIds hi hk), h.clean⟩
  obtain ⟨rest, h1, -⟩ := allIds_split trees i _ hi
  exact (List.nodup_append'.1 (h1.nodup_iff.1 h.all.nodup)).1

/-- replacing one tree -/
theorem Inv.set {s s' : Forest K F L} {trees : List (Option (Tree K F L))} {lost : List Nat} (h : Inv s trees lost) {i : Nat}
    {o : Option (Tree K F L)} (hi : trees[i]? = some o) {T : Tree K F L} (hholds : Holds s'.nodes none T) (hclean : Clean s'.nodes)
    (hroots : s'.roots = s.roots.set i (some T.id)) (hlen : s'.nodes.length = s.nodes.length)
    (hother : ∀ k, k ∉ oids o → k ∉ avail s.nodes → s'.nodes[k]? = s.nodes[k]?) {lost' : List Nat}
    (hcov : List.Perm (avail s'.nodes ++ (lost' ++ T.ids)) (avail s.nodes ++ (lost ++ oids o)))
    (hone : lost'.length ≤ 1) (hempty : lost' ≠ [] → avail s'.nodes = []) : Inv s' (trees.set i (some T)) lost' := by
  obtain ⟨rest, h1, h2, h3⟩ := allIds_split trees i o hi
  have hnd := h1.nodup_iff.1 h.all.nodup
  have hc : List.Perm (avail s'.nodes ++ (lost' ++ allIds (trees.set i (some T)))) (List.range s'.nodes.length) := by
    rw [hlen]
    refine List.Perm.trans ?_ h.cover
    have e1 : List.Perm (avail s'.nodes ++ (lost' ++ allIds (trees.set i (some T)))) ((avail s'.nodes ++ (lost' ++ T.ids)) ++ rest) := by
      rw [List.append_assoc, List.append_assoc]
      exact ((h2 (some T)).append_left _).append_left _
    have e2 : List.Perm ((avail s.nodes ++ (lost ++ oids o)) ++ rest) (avail s.nodes ++ (lost ++ allIds trees)) := by
      rw [List.append_assoc, List.append_assoc]
      exact (h1.symm.append_left _).append_left _
    exact e1.trans ((hcov.append_right rest).trans e2)
  refine ⟨⟨?_, ?_, ?_⟩, hclean, hc, hone, hempty⟩
  · rw [hroots, h.all.roots, List.map_set]; rfl
  · intro t ht
    obtain ⟨j, hj⟩ := List.mem_iff_getElem?.1 ht
    by_cases hji : j = i
    · subst hji
      rw [List.getElem?_set_self (lt_of_get hi)] at hj
      have := Option.some.inj (Option.some.inj hj)
      subst this
      exact hholds
    · rw [List.getElem?_set_ne (Ne.symm hji)] at hj
      refine holds_congr (fun k hk => ?_) (h.all.holds t (List.mem_of_getElem? hj))
      have hkr := h3 j t hji hj k hk
      exact hother k (fun hk' => (List.nodup_append'.1 hnd).2.2 hk' hkr) (h.used (mem_allIds hj hk))
  · have := hc.nodup_iff.2 List.nodup_range
    exact (List.nodup_append'.1 (List.nodup_append'.1 this).2.1).2.1

theorem height_le_ids : ∀ t : Tree K F L, t.height ≤ t.ids.length
  | .leaf _ _ => le_rfl
  | .node _ _ _ _ l r => by
      have h1 := height_le_ids l
      have h2 := height_le_ids r
      simp only [Tree.height, Tree.ids, List.length_cons, List.length_append]
      have : Nat.max l.height r.height ≤ l.ids.length + r.ids.length := Nat.max_le.2 ⟨by omega, by omega⟩
      omega

theorem Inv.ids_lt {s : Forest K F L} {trees : List (Option (Tree K F L))} {lost : List Nat} (h : Inv s trees lost) {k : Nat} (hk : k ∈ allIds trees) :
    k < s.nodes.length :=
  List.mem_range.1 (h.cover.mem_iff.1 (List.mem_append.2 (Or.inr (List.mem_append.2 (Or.inr hk)))))

theorem Inv.height_le {s : Forest K F L} {trees : List (Option (Tree K F L))} {lost : List Nat} (h : Inv s trees lost) {i : Nat} {t : Tree K F L}
    (hi : trees[i]? = some (some t)) : t.height ≤ s.nodes.length := by
  refine (height_le_ids t).trans ?_
  have hsub : t.ids ⊆ List.range s.nodes.length := fun k hk => List.mem_range.2 (h.ids_lt (mem_allIds hi hk))
  have := (List.subperm_of_subset (h.ready hi).nodup hsub).length_le
  simpa using this

/-- one tree of the forest, before and after training with a point -/
def Step (p : Params K) (ω : Nat → K) (z : Point K F L) (o o' : Option (Tree K F L)) : Prop :=
  match o with
  | none => ∃ id, o' = some (newLeaf p.lifetime id z.1 z.2)
  | some t => ∃ fresh pos t' pos', Grows p ω fresh z.1 z.2 t 0 pos t' pos' ∧ o' = some t'

theorem trainTree_some (p : Params K) (hlife : 0 ≤ p.lifetime) (ω : Nat → K) (hω : ∀ i, 0 ≤ ω i ∧ ω i < 1) (x : Fin F → K) (label : Fin L)
    (s : Forest K F L) (trees : List (Option (Tree K F L))) (lost : List Nat) (hI : Inv s trees lost) (i pos : Nat) (t : Tree K F L)
    (hi : trees[i]? = some (some t)) :
    match grow p ω (freshOf (avail s.nodes)) x label t 0 pos with
    | .error e => trainTree p ω x label i s pos = .error e
    | .ok (t', pos') => ∃ (s' : Forest K F L) (lost' : List Nat), trainTree p ω x label i s pos = .ok (s', pos', true) ∧
        Inv s' (trees.set i (some t')) lost' ∧ s'.nodes.length = s.nodes.length ∧
        Taken (avail s.nodes) (avail s'.nodes) t.ids t'.ids := by
  have h := extendBlock_spec p hlife ω hω x label i t [] s.nodes.length pos s (hI.height_le hi) (hI.ready hi)
  have hr := rd_eq_ok_iff.2 (hI.root hi)
  unfold trainTree
  simp only [hr, bind, Except.bind, Option.map_some]
  simp only [ctxTau, plug] at h
  cases hg : grow p ω (freshOf (avail s.nodes)) x label t 0 pos with
  | error e =>
      rw [hg] at h
      simp only at h ⊢
      rw [h]
  | ok q =>
      obtain ⟨t', pos'⟩ := q
      rw [hg] at h
      obtain ⟨s', e1, e2⟩ := h
      simp only [e1, pure, Except.pure]
      cases e2.taken with
      | same q1 q2 =>
          refine ⟨s', lost, rfl, hI.set hi e2.ready.holds e2.ready.clean e2.roots e2.length e2.other ?_ hI.one (fun h => ?_), e2.length, e2.taken⟩
          · rw [q1]; exact (q2.append_left _).append_left _
          · rw [q1]; exact hI.empty h
      | two a b q1 q2 =>
          have hl : lost = [] := by
            by_contra hne
            rw [hI.empty hne] at q1
            cases q1
          subst hl
          refine ⟨s', [], rfl, hI.set hi e2.ready.holds e2.ready.clean e2.roots e2.length e2.other ?_ (by simp) (by simp), e2.length, e2.taken⟩
          rw [q1]
          simp only [List.nil_append, List.cons_append, oids]
          refine (q2.append_left _).trans ?_
          exact List.perm_middle.trans (List.perm_middle.cons _)
      | lost a q1 q2 q3 =>
          have hl : lost = [] := by
            by_contra hne
            rw [hI.empty hne] at q1
            cases q1
          subst hl
          refine ⟨s', [a], rfl, hI.set hi e2.ready.holds e2.ready.clean e2.roots e2.length e2.other ?_ (by simp) (fun _ => q2), e2.length, e2.taken⟩
          rw [q1, q2]
          simp only [List.nil_append, List.cons_append, oids]
          exact q3.cons _

theorem trainTree_none (p : Params K) (hlife : 0 ≤ p.lifetime) (ω : Nat → K) (x : Fin F → K) (label : Fin L)
    (s : Forest K F L) (trees : List (Option (Tree K F L))) (lost : List Nat) (hI : Inv s trees lost) (i pos : Nat)
    (hi : trees[i]? = some none) :
    match avail s.nodes with
    | [] => trainTree p ω x label i s pos = .error .ub
    | a :: A => ∃ (s' : Forest K F L), trainTree p ω x label i s pos = .ok (s', pos, true) ∧
        Inv s' (trees.set i (some (newLeaf p.lifetime a x label))) [] ∧ s'.nodes.length = s.nodes.length ∧ avail s'.nodes = A := by
  have hr := rd_eq_ok_iff.2 (hI.root hi)
  unfold trainTree
  simp only [hr, bind, Except.bind, Option.map_none, availableNode_eq]
  cases hA : avail s.nodes with
  | nil => simp only [List.head?_nil]
  | cons a A =>
      have hma : a ∈ avail s.nodes := by rw [hA]; simp
      obtain ⟨m, hm, hneg⟩ := mem_avail.1 hma
      obtain ⟨hdim, hcnt⟩ := hI.clean a m hm hneg
      obtain ⟨n1, u1, l1, g1⟩ := upd_spec (fun (n : Node K F L) => { n with
            parent := none
            right := none
            left := none
            tau := 0 }) hm
      have g1a := g1 a
      rw [if_pos rfl] at g1a
      obtain ⟨n2, u2, l2, g2⟩ := upd_spec (fun (n : Node K F L) => { n with
        box := some { lower := x, upper := x }
        counts := bump n.counts label
        tau := p.lifetime }) g1a
      have hroot := hI.root hi
      have hlt : i < s.roots.length := lt_of_get hroot
      have g2' : ∀ j, j ≠ a → n2[j]? = s.nodes[j]? := by
        intro j hj
        rw [g2, if_neg hj, g1, if_neg hj]
      have g2a := g2 a
      rw [if_pos rfl] at g2a
      have hnl : lost = [] := by
        by_contra hne
        rw [hI.empty hne] at hA
        cases hA
      subst hnl
      have hnda := hA ▸ avail_nodup s.nodes
      have hav : avail n2 = A := by
        rw [avail_used (l2.trans l1) [a] ?_ ?_ ?_, hA]
        · have hnot := (List.nodup_cons.1 hnda).1
          rw [List.filter_cons]
          simp only [List.mem_singleton, not_true_eq_false, decide_false, Bool.false_eq_true, if_false]
          rw [List.filter_eq_self]
          intro j hj
          simp only [decide_eq_true_eq]
          rintro rfl
          exact hnot hj
        · intro j _ hj
          exact g2' j (by simpa using hj)
        · intro j hj
          rw [List.mem_singleton.1 hj, mem_avail, g2a]
          rintro ⟨n, e, hn⟩
          have := Option.some.inj e
          subst this
          exact absurd hn (not_lt.2 hlife)
        · intro j hj
          have hja : j ≠ a := by rintro rfl; exact hj hma
          rw [mem_avail, g2' j hja, ← mem_avail]
          exact hj
      simp only [List.head?_cons, wr_ok _ hlt, u1, sampleBlock, u2, pure, Except.pure]
      refine ⟨_, rfl, ?_, l2.trans l1, hav⟩
      refine hI.set hi ?_ ?_ rfl (l2.trans l1) ?_ ?_ (by simp) (by simp)
      · refine ⟨_, g2a, ⟨rfl, rfl, rfl, ?_⟩, hdim⟩
        rw [hcnt]
      · intro j n hj hn
        have hj' : n2[j]? = some n := hj
        have hja : j ≠ a := by
          rintro rfl
          rw [g2a] at hj'
          have := Option.some.inj hj'
          subst this
          exact absurd hn (not_lt.2 hlife)
        rw [g2' j hja] at hj'
        exact hI.clean j n hj' hn
      · intro k _ hk
        exact g2' k (by rintro rfl; exact hk hma)
      · show List.Perm (avail n2 ++ ([] ++ [a])) _
        rw [hav, hA]
        simp only [List.nil_append, oids, List.append_nil]
        exact List.perm_append_comm

/-- what one call of `train_tree` does, if it ends -/
theorem trainTree_spec (p : Params K) (hlife : 0 ≤ p.lifetime) (ω : Nat → K) (hω : ∀ i, 0 ≤ ω i ∧ ω i < 1) (x : Fin F → K) (label : Fin L)
    (s : Forest K F L) (trees : List (Option (Tree K F L))) (lost : List Nat) (hI : Inv s trees lost) (i pos : Nat) (o : Option (Tree K F L))
    (hi : trees[i]? = some o) (r : Forest K F L × Nat × Bool) (h : trainTree p ω x label i s pos = .ok r) :
    ∃ (o' : Option (Tree K F L)) (lost' : List Nat), Inv r.1 (trees.set i o') lost' ∧ r.1.nodes.length = s.nodes.length ∧ r.2.2 = true ∧
      Step p ω (x, label) o o' := by
  cases o with
  | none =>
      have := trainTree_none p hlife ω x label s trees lost hI i pos hi
      cases hA : avail s.nodes with
      | nil => rw [hA] at this; simp only at this; rw [this] at h; cases h
      | cons a A =>
          rw [hA] at this
          obtain ⟨s', e1, e2, e3, -⟩ := this
          rw [e1] at h
          cases h
          exact ⟨_, [], e2, e3, rfl, a, rfl⟩
  | some t =>
      have := trainTree_some p hlife ω hω x label s trees lost hI i pos t hi
      cases hg : grow p ω (freshOf (avail s.nodes)) x label t 0 pos with
      | error e => rw [hg] at this; simp only at this; rw [this] at h; cases h
      | ok q =>
          obtain ⟨t', pos'⟩ := q
          rw [hg] at this
          obtain ⟨s', lost', e1, e2, e3, -⟩ := this
          rw [e1] at h
          cases h
          exact ⟨some t', lost', e2, e3, rfl, _, pos, t', pos', grow_grows _ _ _ _ _ _ _ _ _ _ hg, rfl⟩

theorem trainLoop_spec (p : Params K) (hlife : 0 ≤ p.lifetime) (ω : Nat → K) (hω : ∀ i, 0 ≤ ω i ∧ ω i < 1) (x : Fin F → K) (label : Fin L) :
    ∀ (k i : Nat) (s : Forest K F L) (trees : List (Option (Tree K F L))) (lost : List Nat) (pos : Nat) (res : Option Bool)
      (r : Forest K F L × Nat × Option Bool), i + k = trees.length → Inv s trees lost → trainLoop p ω x label i k s pos res = .ok r →
      ∃ (trees' : List (Option (Tree K F L))) (lost' : List Nat), Inv r.1 trees' lost' ∧ r.1.nodes.length = s.nodes.length ∧ r.2.2 = res ∧
        trees'.length = trees.length ∧ ∀ (j : Nat) (o : Option (Tree K F L)), trees[j]? = some o →
          ∃ o', trees'[j]? = some o' ∧ (j < i → o' = o) ∧ (i ≤ j → Step p ω (x, label) o o')
  | 0, i, s, trees, lost, pos, res, r, hk, hI, h => by
      simp only [trainLoop, Except.ok.injEq] at h
      subst h
      refine ⟨trees, lost, hI, rfl, rfl, rfl, fun j o hj => ⟨o, hj, fun _ => rfl, fun hij => ?_⟩⟩
      have := lt_of_get hj
      omega
  | k + 1, i, s, trees, lost, pos, res, r, hk, hI, h => by
      simp only [trainLoop, bind, Except.bind] at h
      have hlt : i < trees.length := by omega
      cases ht : trainTree p ω x label i s pos with
      | error e => rw [ht] at h; cases h
      | ok q =>
          obtain ⟨s1, pos1, ok⟩ := q
          obtain ⟨o1, lost1, a1, a2, a3, a4⟩ := trainTree_spec p hlife ω hω x label s trees lost hI i pos _ (List.getElem?_eq_getElem hlt) _ ht
          simp only at a1 a2 a3
          subst a3
          rw [ht] at h
          simp only [if_true] at h
          obtain ⟨trees', lost', b1, b2, b3, b4, b5⟩ := trainLoop_spec p hlife ω hω x label k (i + 1) s1 _ lost1 pos1 res r
            (by rw [List.length_set]; omega) a1 h
          refine ⟨trees', lost', b1, b2.trans a2, b3, by rw [b4, List.length_set], fun j o hj => ?_⟩
          by_cases hji : j = i
          · subst hji
            rw [List.getElem?_eq_getElem hlt] at hj
            have := Option.some.inj hj
            subst this
            obtain ⟨o', c1, c2, -⟩ := b5 j o1 (List.getElem?_set_self hlt)
            refine ⟨o', c1, fun h => absurd h (lt_irrefl _), fun _ => ?_⟩
            rw [c2 (by omega)]; exact a4
          · obtain ⟨o', c1, c2, c3⟩ := b5 j o (by rw [List.getElem?_set_ne (Ne.symm hji)]; exact hj)
            exact ⟨o', c1, fun h => c2 (by omega), fun h => c3 (by omega)⟩

/-- all trees are grown, or none is and there are enough nodes for them -/
def Enough (s : Forest K F L) (trees : List (Option (Tree K F L))) (i k : Nat) : Prop :=
  (∀ o ∈ trees, o ≠ none) ∨ (k ≤ (avail s.nodes).length ∧ (∀ (j : Nat) (o : Option (Tree K F L)), trees[j]? = some o → i ≤ j → o = none) ∧
    (∀ (j : Nat) (o : Option (Tree K F L)), trees[j]? = some o → j < i → o ≠ none))

theorem trainLoop_ok (p : Params K) (hlife : 0 ≤ p.lifetime) (ω : Nat → K) (hω : ∀ i, 0 < ω i ∧ ω i < 1) (x : Fin F → K) (label : Fin L) :
    ∀ (k i : Nat) (s : Forest K F L) (trees : List (Option (Tree K F L))) (lost : List Nat) (pos : Nat) (res : Option Bool),
      i + k = trees.length → Inv s trees lost → Enough s trees i k →
      ∃ (r : Forest K F L × Nat × Option Bool), trainLoop p ω x label i k s pos res = .ok r
  | 0, i, s, trees, lost, pos, res, hk, hI, hE => ⟨_, rfl⟩
  | k + 1, i, s, trees, lost, pos, res, hk, hI, hE => by
      have hω' : ∀ i, 0 ≤ ω i ∧ ω i < 1 := fun i => ⟨(hω i).1.le, (hω i).2⟩
      simp only [trainLoop, bind, Except.bind]
      have hlt : i < trees.length := by omega
      cases ho : trees[i] with
      | none =>
          have hi : trees[i]? = some none := by rw [List.getElem?_eq_getElem hlt, ho]
          have hE' : k + 1 ≤ (avail s.nodes).length ∧ (∀ (j : Nat) (o : Option (Tree K F L)), trees[j]? = some o → i ≤ j → o = none) ∧
              (∀ (j : Nat) (o : Option (Tree K F L)), trees[j]? = some o → j < i → o ≠ none) := by
            rcases hE with h | h
            · exact absurd rfl (h none (List.mem_of_getElem? hi))
            · exact h
          obtain ⟨hE1, hE2, hE3⟩ := hE'
          have := trainTree_none p hlife ω x label s trees lost hI i pos hi
          cases hA : avail s.nodes with
          | nil => rw [hA] at hE1; simp at hE1
          | cons a A =>
              rw [hA] at this hE1
              obtain ⟨s', e1, e2, e3, e4⟩ := this
              rw [e1]
              simp only
              refine trainLoop_ok p hlife ω hω x label k (i + 1) s' _ [] pos _ (by rw [List.length_set]; omega) e2 (Or.inr ⟨?_, ?_, ?_⟩)
              · rw [e4]; simp only [List.length_cons] at hE1; omega
              · intro j o hj hij
                rw [List.getElem?_set_ne (by omega)] at hj
                exact hE2 j o hj (by omega)
              · intro j o hj hij
                by_cases hji : j = i
                · subst hji
                  rw [List.getElem?_set_self hlt] at hj
                  have := Option.some.inj hj
                  subst this
                  simp
                · rw [List.getElem?_set_ne (Ne.symm hji)] at hj
                  exact hE3 j o hj (by omega)
      | some t =>
          have hi : trees[i]? = some (some t) := by rw [List.getElem?_eq_getElem hlt, ho]
          have hE' : ∀ o ∈ trees, o ≠ none := by
            rcases hE with h | h
            · exact h
            · cases h.2.1 i _ hi le_rfl
          have := trainTree_some p hlife ω hω' x label s trees lost hI i pos t hi
          obtain ⟨q, hq⟩ := grow_ok p ω hω (freshOf (avail s.nodes)) x label t 0 pos
          rw [hq] at this
          obtain ⟨s', lost', e1, e2, e3, -⟩ := this
          rw [e1]
          simp only
          refine trainLoop_ok p hlife ω hω x label k (i + 1) s' _ lost' _ _ (by rw [List.length_set]; omega) e2 (Or.inl ?_)
          intro o ho
          rcases List.mem_or_eq_of_mem_set ho with h | h
          · exact hE' o h
          · rw [h]; simp

theorem Step.ne_none {p : Params K} {ω : Nat → K} {z : Point K F L} {o o' : Option (Tree K F L)} (h : Step p ω z o o') : o' ≠ none := by
  cases o with
  | none => obtain ⟨id, rfl⟩ := h; simp
  | some t => obtain ⟨_, _, t', _, _, rfl⟩ := h; simp

end Orp.Mondrian
