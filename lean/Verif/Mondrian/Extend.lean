import Verif.Mondrian.Pool

/-!
`extend_block` on the pool.
-/

set_option linter.unusedSectionVars false

namespace Orp.Mondrian

open Finset

variable {K : Type} [Field K] [LinearOrder K] [IsStrictOrderedRing K] [FloorRing K] {F L : Nat}

theorem lt_of_get {α : Type} {l : List α} {i : Nat} {a : α} (h : l[i]? = some a) : i < l.length := by
  by_contra hge
  rw [List.getElem?_eq_none (by omega)] at h; simp at h

theorem relink_spec (s : Forest K F L) (id tree np : Nat) {node : Node K F L} (hn : s.nodes[id]? = some node) {root : Option Nat}
    (hr : s.roots[tree]? = some root) {roots' : List (Option Nat)}
    (h : (node.parent = none ∧ root = some id ∧ roots' = s.roots.set tree (some np)) ∨
      (∃ q m, node.parent = some q ∧ s.nodes[q]? = some m ∧ roots' = s.roots)) :
    ∃ nodes', relink s id tree np = .ok { nodes := nodes', roots := roots' } ∧ nodes'.length = s.nodes.length ∧
      ∀ j, nodes'[j]? = if node.parent = some j then (s.nodes[j]?).map (fun m => relinked m id np) else s.nodes[j]? := by
  rcases h with ⟨h1, h2, rfl⟩ | ⟨q, m, h1, h2, rfl⟩
  · refine ⟨s.nodes, ?_, rfl, fun j => by simp [h1]⟩
    simp only [relink, rd_eq_ok_iff.2 hn, rd_eq_ok_iff.2 hr, bind, Except.bind, h1, h2, true_and, if_true, wr_ok _ (lt_of_get hr), pure, Except.pure]
  · obtain ⟨nodes', a1, a2, a3⟩ := upd_spec (fun m => if m.left = some id then { m with left := some np } else { m with right := some np }) h2
    refine ⟨nodes', ?_, a2, fun j => ?_⟩
    · simp only [relink, rd_eq_ok_iff.2 hn, rd_eq_ok_iff.2 hr, bind, Except.bind, h1, reduceCtorEq, false_and, if_false, a1, pure, Except.pure]
    · rw [a3 j, h1]
      by_cases hj : j = q
      · subst hj; simp [h2, relinked]
      · rw [if_neg hj, if_neg (by simpa using Ne.symm hj)]

theorem insertNodes_spec (p : Params K) (s : Forest K F L) (id tree np ns : Nat) (cut : Cut K F) (x : Fin F → K) (label : Fin L)
    {node a b : Node K F L} {bx : Box K F} (hn : s.nodes[id]? = some node) (hb : node.box = some bx) (ha : s.nodes[np]? = some a)
    (hs : s.nodes[ns]? = some b) (h1 : id ≠ np) (h2 : id ≠ ns) (h3 : np ≠ ns) {root : Option Nat} (hr : s.roots[tree]? = some root)
    {roots' : List (Option Nat)}
    (h : (node.parent = none ∧ root = some id ∧ roots' = s.roots.set tree (some np)) ∨
      (∃ q m, node.parent = some q ∧ s.nodes[q]? = some m ∧ q ≠ id ∧ q ≠ np ∧ q ≠ ns ∧ roots' = s.roots)) :
    ∃ nodes', insertNodes p s id tree np ns cut x label = .ok { nodes := nodes', roots := roots' } ∧ nodes'.length = s.nodes.length ∧
      ∀ j, nodes'[j]? =
        if j = np then some { a with
          box := some (bx.extend x)
          parent := node.parent
          left := some (if cut.right then id else ns)
          right := some (if cut.right then ns else id) }
        else if j = ns then some { b with
          counts := bump (fun _ => 0) label
          parent := some np
          box := some { lower := x, upper := x }
          tau := p.lifetime }
        else if j = id then some { node with parent := some np }
        else if node.parent = some j then (s.nodes[j]?).map (fun m => relinked m id np)
        else s.nodes[j]? := by
  obtain ⟨n1, a1, l1, g1⟩ := upd_spec (fun n => { n with box := some (bx.extend x) }) ha
  obtain ⟨n2, a2, l2, g2⟩ := upd_spec (nodes := n1) (i := ns) (n := b) (fun n => { n with counts := fun _ => 0 }) (by rw [g1, if_neg (Ne.symm h3), hs])
  have e2 : n2[id]? = some node := by rw [g2, if_neg h2, g1, if_neg h1, hn]
  obtain ⟨n3, a3, l3, g3⟩ := upd_spec (nodes := n2) (i := np) (n := { a with box := some (bx.extend x) }) (fun n => { n with parent := node.parent })
    (by rw [g2, if_neg h3, g1, if_pos rfl])
  have e3 : n3[id]? = some node := by rw [g3, if_neg h1, e2]
  have key : ∀ q, q ≠ np → q ≠ ns → n3[q]? = s.nodes[q]? := by
    intro q hq hq'
    rw [g3, if_neg hq, g2, if_neg hq', g1, if_neg hq]
  obtain ⟨n4, a4, l4, g4⟩ := relink_spec { s with nodes := n3 } id tree np e3 hr (roots' := roots') (by
    rcases h with h | ⟨q, m, h4, h5, h6, h7, h8, h9⟩
    · exact Or.inl h
    · exact Or.inr ⟨q, m, h4, by show n3[q]? = _; rw [key q h7 h8, h5], h9⟩)
  have hq : ∀ j, node.parent = some j → j ≠ id ∧ j ≠ np ∧ j ≠ ns := by
    intro j hj
    rcases h with h | ⟨q, m, h4, h5, h6, h7, h8, h9⟩
    · rw [h.1] at hj; cases hj
    · rw [h4] at hj; cases hj; exact ⟨h6, h7, h8⟩
  have e4 : n4[id]? = some node := by rw [g4, if_neg (fun hh => (hq _ hh).1 rfl)]; exact e3
  obtain ⟨n5, a5, l5, g5⟩ := upd_spec (fun n => { n with parent := some np }) e4
  have e5 : n5[ns]? = some { b with counts := fun _ => 0 } := by
    rw [g5, if_neg (Ne.symm h2), g4, if_neg (fun hh => (hq _ hh).2.2 rfl)]
    show n3[ns]? = _
    rw [g3, if_neg (Ne.symm h3), g2, if_pos rfl]
  obtain ⟨n6, a6, l6, g6⟩ := upd_spec (fun n => { n with parent := some np }) e5
  have e6 : n6[np]? = some { a with
      box := some (bx.extend x)
      parent := node.parent } := by
    rw [g6, if_neg h3, g5, if_neg (Ne.symm h1), g4, if_neg (fun hh => (hq _ hh).2.1 rfl)]
    show n3[np]? = _
    rw [g3, if_pos rfl]
  obtain ⟨n7, a7, l7, g7⟩ : ∃ n7, (if cut.right = true then upd n6 np (fun n => { n with
      right := some ns
      left := some id })
    else upd n6 np (fun n => { n with
      left := some ns
      right := some id }) : Res (List (Node K F L))) = .ok n7 ∧ n7.length = n6.length ∧ ∀ j, n7[j]? = if j = np then some { a with
          box := some (bx.extend x)
          parent := node.parent
          left := some (if cut.right then id else ns)
          right := some (if cut.right then ns else id) } else n6[j]? := by
    cases hc : cut.right
    · simpa using upd_spec (fun n => { n with
        left := some ns
        right := some id }) e6
    · simpa using upd_spec (fun n => { n with
        right := some ns
        left := some id }) e6
  have e7 : n7[ns]? = some { b with
      counts := fun _ => 0
      parent := some np } := by rw [g7, if_neg (Ne.symm h3), g6, if_pos rfl]
  obtain ⟨n8, a8, l8, g8⟩ := upd_spec (fun n => { n with
    box := some { lower := x, upper := x }
    counts := bump n.counts label
    tau := p.lifetime }) e7
  refine ⟨n8, ?_, by rw [l8, l7, l6, l5, l4]; show n3.length = _; rw [l3, l2, l1], fun j => ?_⟩
  · simp only [insertNodes, rd_eq_ok_iff.2 hn, bind, Except.bind, hb, init, a1, a2, rd_eq_ok_iff.2 e2, a3, a4, a5, a6, a7, sampleBlock, a8, pure, Except.pure]
  · rw [g8 j]
    by_cases j1 : j = np
    · subst j1; rw [if_neg h3, g7, if_pos rfl, if_pos rfl]
    · rw [if_neg j1]
      by_cases j2 : j = ns
      · subst j2; rw [if_pos rfl, if_pos rfl]
      · rw [if_neg j2, if_neg j2, g7, if_neg j1, g6, if_neg j2, g5]
        by_cases j3 : j = id
        · subst j3; rw [if_pos rfl, if_pos rfl]
        · rw [if_neg j3, if_neg j3, g4]
          simp only [key j j1 j2]

/-! ### The recursion -/

/-- What training one tree does to the pool: `A` are the places that were available. -/
inductive Taken (A A' : List Nat) (ids ids' : List Nat) : Prop where
  | same (h1 : A' = A) (h2 : List.Perm ids' ids)
  | two (a b : Nat) (h1 : A = a :: b :: A') (h2 : List.Perm ids' (a :: b :: ids))
  | lost (a : Nat) (h1 : A = [a]) (h2 : A' = []) (h3 : List.Perm ids' ids)

theorem ctxTau_spec {nodes : List (Node K F L)} {fs : List (Frame K F L)} {c : Nat} (h : HoldsCtx nodes fs c) :
    (match ctxPar fs with
      | some q => (rd nodes q).map (·.tau)
      | none => .ok 0 : Res K) = .ok (ctxTau fs) := by
  cases fs with
  | nil => rfl
  | cons f fs =>
      obtain ⟨⟨n, h1, h2, _⟩, _⟩ := h
      simp [ctxPar, ctxTau, rd_eq_ok_iff.2 h1, Except.map, h2.2.1]

theorem filter_two {a b : Nat} {r : List Nat} (h : (a :: b :: r).Nodup) : (a :: b :: r).filter (fun i => i ∉ [a, b]) = r := by
  simp only [List.nodup_cons, List.mem_cons, not_or] at h
  rw [List.filter_cons_of_neg (by simp), List.filter_cons_of_neg (by simp), List.filter_eq_self]
  intro i hi
  simp only [List.mem_cons, List.not_mem_nil, or_false, not_or, decide_eq_true_eq]
  exact ⟨fun e => h.1.2 (e ▸ hi), fun e => h.2.1 (e ▸ hi)⟩

/-- state of the pool before a tree is trained at the place looked at -/
structure Ready (s : Forest K F L) (tree : Nat) (T : Tree K F L) : Prop where
  holds : Holds s.nodes none T
  nodup : T.ids.Nodup
  root : s.roots[tree]? = some (some T.id)
  used : ∀ i ∈ T.ids, i ∉ avail s.nodes
  clean : Clean s.nodes

/-- state of the pool after a tree was trained -/
structure Done (s s' : Forest K F L) (tree : Nat) (T T' : Tree K F L) : Prop where
  ready : Ready s' tree T'
  roots : s'.roots = s.roots.set tree (some T'.id)
  length : s'.nodes.length = s.nodes.length
  other : ∀ i, i ∉ T.ids → i ∉ avail s.nodes → s'.nodes[i]? = s.nodes[i]?
  taken : Taken (avail s.nodes) (avail s'.nodes) T.ids T'.ids

theorem set_same {α : Type} {l : List α} {i : Nat} {a : α} (h : l[i]? = some a) : l.set i a = l := by
  have hi := lt_of_get h
  rw [List.getElem?_eq_getElem hi] at h
  apply List.ext_getElem?
  intro j
  rw [List.getElem?_set]
  split
  · rename_i e; subst e; simp [hi]; exact (Option.some.inj h).symm
  · rfl

theorem plug_id_cons (f : Frame K F L) (fs : List (Frame K F L)) (t t' : Tree K F L) : (plug (f :: fs) t).id = (plug (f :: fs) t').id := by
  induction fs generalizing f t t' with
  | nil => simp [plug, fill_id]
  | cons g fs ih => rw [plug, ih g (f.fill t) (f.fill t')]; rfl

theorem above_id (lifetime : K) (fr : Nat × Nat) (c : Cut K F) (t : Tree K F L) (x : Fin F → K) (label : Fin L) :
    (above lifetime fr c t x label).id = fr.1 := by unfold above; simp only; split <;> rfl

theorem above_ids (lifetime : K) (fr : Nat × Nat) (c : Cut K F) (t : Tree K F L) (x : Fin F → K) (label : Fin L) :
    List.Perm (above lifetime fr c t x label).ids (fr.1 :: fr.2 :: t.ids) := by
  unfold above
  simp only
  split
  · simp only [Tree.ids, newLeaf]
    exact List.Perm.cons _ List.perm_append_comm
  · simp only [Tree.ids, newLeaf]
    exact List.Perm.refl _

theorem tryInsert_above (p : Params K) (hlife : 0 ≤ p.lifetime) (s : Forest K F L) (tree : Nat) (cut : Cut K F) (x : Fin F → K) (label : Fin L)
    (fs : List (Frame K F L)) (t : Tree K F L) (hrdy : Ready s tree (plug fs t)) (hcut : 0 ≤ cut.tau) {fr : Nat × Nat}
    (hf : freshOf (avail s.nodes) = some fr) :
    ∃ s', tryInsert p s t.id tree (some cut) x label = .ok (s', false) ∧
      Done s s' tree (plug fs t) (plug fs (above p.lifetime fr cut t x label)) := by
  obtain ⟨np, ns⟩ := fr
  obtain ⟨rest, hA⟩ : ∃ rest, avail s.nodes = np :: ns :: rest := by
    unfold freshOf at hf
    split at hf
    · rename_i a b r h
      simp only [Option.some.injEq, Prod.mk.injEq] at hf
      exact ⟨r, by rw [h, hf.1, hf.2]⟩
    · cases hf
  have hAn := avail_nodup s.nodes
  rw [hA] at hAn
  have h3 : np ≠ ns := by intro h; subst h; simp at hAn
  have hmp : np ∈ avail s.nodes := by rw [hA]; simp
  have hms : ns ∈ avail s.nodes := by rw [hA]; simp
  obtain ⟨a, ha, hat⟩ := mem_avail.1 hmp
  obtain ⟨b, hb, hbt⟩ := mem_avail.1 hms
  obtain ⟨hctx, ht⟩ := holds_plug.1 hrdy.holds
  have hperm := plug_ids fs t
  have hnd := hperm.nodup_iff.1 hrdy.nodup
  obtain ⟨ndt, ndc, hdis⟩ := List.nodup_append'.1 hnd
  have hmem : ∀ i, i ∈ (plug fs t).ids ↔ i ∈ t.ids ∨ i ∈ ctxIds fs := by intro i; rw [hperm.mem_iff, List.mem_append]
  have hnp : np ∉ (plug fs t).ids := fun h => hrdy.used _ h hmp
  have hns : ns ∉ (plug fs t).ids := fun h => hrdy.used _ h hms
  have hid : t.id ∈ (plug fs t).ids := (hmem _).2 (Or.inl (id_mem_ids t))
  have h1 : t.id ≠ np := fun h => hnp (h ▸ hid)
  have h2 : t.id ≠ ns := fun h => hns (h ▸ hid)
  obtain ⟨node, hn, hhas⟩ := holds_root ht
  -- marking the parent
  obtain ⟨n1, u1, l1, g1⟩ := upd_spec (fun n => { n with
    dim := some cut.dim
    split := some cut.split
    tau := cut.tau }) ha
  have hav1 : avail n1 = ns :: rest := by
    rw [avail_used l1 [np] ?_ ?_ ?_, hA]
    · rw [List.filter_cons_of_neg (by simp), List.filter_eq_self]
      intro i hi
      simp only [List.nodup_cons] at hAn
      simp only [List.mem_singleton, decide_eq_true_eq]
      rintro rfl; exact hAn.1 hi
    · intro i _ hi
      rw [g1, if_neg (by simpa using hi)]
    · intro i hi
      rw [List.mem_singleton.1 hi, mem_avail, g1, if_pos rfl]
      rintro ⟨n, e, hneg⟩
      have := Option.some.inj e
      subst this
      exact absurd hneg (not_lt.2 hcut)
    · intro i hi
      rw [mem_avail, g1]
      split
      · rename_i e; subst e; exact absurd hmp hi
      · rw [← mem_avail]; exact hi
  -- the link from above
  have hpar : ∀ q, ctxPar fs = some q → q ∈ ctxIds fs := by
    intro q hq
    cases fs with
    | nil => cases hq
    | cons f fs => simp only [ctxPar, Option.some.injEq] at hq; subst hq; simp [ctxIds]
  have hparne : ∀ q, ctxPar fs = some q → q ≠ t.id ∧ q ≠ np ∧ q ≠ ns := by
    intro q hq
    have hq' := hpar q hq
    refine ⟨fun e => ?_, fun e => hnp (e ▸ (hmem _).2 (Or.inr hq')), fun e => hns (e ▸ (hmem _).2 (Or.inr hq'))⟩
    exact hdis (id_mem_ids t) (e ▸ hq')
  have hroots : (node.parent = none ∧ (some (plug fs t).id : Option Nat) = some t.id ∧
      s.roots.set tree (some (plug fs (above p.lifetime (np, ns) cut t x label)).id) = s.roots.set tree (some np)) ∨
      (∃ q m, node.parent = some q ∧ n1[q]? = some m ∧ q ≠ t.id ∧ q ≠ np ∧ q ≠ ns ∧
        s.roots.set tree (some (plug fs (above p.lifetime (np, ns) cut t x label)).id) = s.roots) := by
    rw [hhas.1]
    cases fs with
    | nil => exact Or.inl ⟨rfl, rfl, by simp only [plug, above_id]⟩
    | cons f fs =>
        obtain ⟨⟨m, hm, _⟩, _⟩ := hctx
        obtain ⟨q1, q2, q3⟩ := hparne f.id rfl
        refine Or.inr ⟨f.id, m, rfl, by rw [g1, if_neg q2]; exact hm, q1, q2, q3, ?_⟩
        rw [plug_id_cons f fs _ t]
        exact set_same hrdy.root
  obtain ⟨n2, u2, l2, g2⟩ := insertNodes_spec p { s with nodes := n1 } t.id tree np ns cut x label (node := node)
    (a := { a with
      dim := some cut.dim
      split := some cut.split
      tau := cut.tau }) (b := b) (bx := t.data.box) (by show n1[t.id]? = _; rw [g1, if_neg h1, hn]) hhas.2.2.1
    (by show n1[np]? = _; rw [g1, if_pos rfl]) (by show n1[ns]? = _; rw [g1, if_neg (Ne.symm h3), hb]) h1 h2 h3 hrdy.root hroots
  have hother : ∀ i, i ≠ np → i ≠ ns → i ≠ t.id → ctxPar fs ≠ some i → n2[i]? = s.nodes[i]? := by
    intro i i1 i2 i3 i4
    rw [g2, if_neg i1, if_neg i2, if_neg i3, if_neg (by rw [hhas.1]; exact i4)]
    show n1[i]? = _
    rw [g1, if_neg i1]
  have gpar : ∀ q m, ctxPar fs = some q → s.nodes[q]? = some m → n2[q]? = some (relinked m t.id np) := by
    intro q m hq hm
    obtain ⟨q1, q2, q3⟩ := hparne q hq
    rw [g2, if_neg q2, if_neg q3, if_neg q1, if_pos (by rw [hhas.1]; exact hq)]
    show (n1[q]?).map _ = _
    rw [g1, if_neg q2, hm]; rfl
  have gid : n2[t.id]? = some { node with parent := some np } := by rw [g2, if_neg h1, if_neg h2, if_pos rfl]
  -- availability
  have hav2 : avail n2 = rest := by
    rw [avail_used (l2.trans l1) [np, ns] ?_ ?_ ?_, hA]
    · exact filter_two hAn
    · intro i hi hi'
      simp only [List.mem_cons, List.not_mem_nil, or_false, not_or] at hi'
      refine hother i hi'.1 hi'.2 (fun e => hrdy.used _ (e ▸ hid) hi) (fun e => ?_)
      exact hrdy.used _ ((hmem _).2 (Or.inr (hpar _ e))) hi
    · intro i hi
      simp only [List.mem_cons, List.not_mem_nil, or_false] at hi
      rw [mem_avail, g2]
      rcases hi with rfl | rfl
      · rw [if_pos rfl]
        rintro ⟨n, e, hneg⟩
        have := Option.some.inj e
        subst this
        exact absurd hneg (not_lt.2 hcut)
      · rw [if_neg (Ne.symm h3), if_pos rfl]
        rintro ⟨n, e, hneg⟩
        have := Option.some.inj e
        subst this
        exact absurd hneg (not_lt.2 hlife)
    · intro i hi
      by_cases i1 : i = np
      · subst i1; exact absurd hmp hi
      by_cases i2 : i = ns
      · subst i2; exact absurd hms hi
      by_cases i3 : i = t.id
      · subst i3
        rw [mem_avail, gid]
        rintro ⟨n, e, hneg⟩
        have := Option.some.inj e
        subst this
        exact hi (mem_avail.2 ⟨node, hn, hneg⟩)
      by_cases i4 : ctxPar fs = some i
      · obtain ⟨m, hm⟩ := holds_mem hrdy.holds i ((hmem _).2 (Or.inr (hpar _ i4)))
        rw [mem_avail, gpar i m i4 hm]
        rintro ⟨n, e, hneg⟩
        have := Option.some.inj e
        subst this
        refine hi (mem_avail.2 ⟨m, hm, ?_⟩)
        unfold relinked at hneg
        split at hneg <;> exact hneg
      · rw [mem_avail, hother i i1 i2 i3 i4, ← mem_avail]; exact hi
  have hTperm : List.Perm (plug fs (above p.lifetime (np, ns) cut t x label)).ids (np :: ns :: (plug fs t).ids) := by
    refine (plug_ids fs _).trans ?_
    refine ((above_ids p.lifetime (np, ns) cut t x label).append_right _).trans ?_
    simp only [List.cons_append]
    exact List.Perm.cons _ (List.Perm.cons _ hperm.symm)
  refine ⟨{ nodes := n2, roots := s.roots.set tree (some (plug fs (above p.lifetime (np, ns) cut t x label)).id) }, ?_, ⟨?_, ?_, ?_, ?_, ?_⟩, rfl,
    l2.trans l1, ?_, ?_⟩
  · have e1 : (avail s.nodes).head? = some np := by rw [hA]; rfl
    have e2 : (avail n1).head? = some ns := by rw [hav1]; rfl
    simp only [tryInsert, availableNode_eq, e1, bind, Except.bind, u1, e2, u2, pure, Except.pure]
  · -- holds
    show Holds n2 none _
    rw [holds_plug, above_id]
    constructor
    · refine holdsCtx_relink hctx ndc (fun h => hdis (id_mem_ids t) h) ?_ gpar
      intro i hi hi'
      exact hother i (fun e => hnp (e ▸ (hmem _).2 (Or.inr hi))) (fun e => hns (e ▸ (hmem _).2 (Or.inr hi)))
        (fun e => hdis (id_mem_ids t) (e ▸ hi)) hi'
    · have ht' : Holds n2 (some np) t := by
        have := holds_update (par' := some np) (d' := t.data) ndt ht hn gid (fun i hi hi' => hother i (fun e => hnp (e ▸ (hmem _).2 (Or.inl hi)))
          (fun e => hns (e ▸ (hmem _).2 (Or.inl hi))) hi' (fun e => hdis hi (hpar _ e))) rfl rfl rfl rfl ⟨rfl, hhas.2⟩
        cases t <;> exact this
      have hl' : Holds n2 (some np) (newLeaf p.lifetime ns x label : Tree K F L) := by
        refine ⟨_, by rw [g2, if_neg (Ne.symm h3), if_pos rfl], ⟨rfl, rfl, rfl, rfl⟩, ?_⟩
        exact (hrdy.clean ns b hb hbt).1
      have hcl := (hrdy.clean np a ha hat).2
      have gnp := g2 np
      rw [if_pos rfl] at gnp
      unfold above
      simp only
      cases hc : cut.right
      · rw [if_neg (by simp)]
        refine ⟨⟨_, gnp, ⟨hhas.1, rfl, rfl, hcl⟩, rfl, rfl, ?_, ?_⟩, hl', ht'⟩
        · simp [hc, newLeaf, Tree.id]
        · simp [hc]
      · rw [if_pos rfl]
        refine ⟨⟨_, gnp, ⟨hhas.1, rfl, rfl, hcl⟩, rfl, rfl, ?_, ?_⟩, ht', hl'⟩
        · simp [hc]
        · simp [hc, newLeaf, Tree.id]
  · rw [hTperm.nodup_iff]
    simp only [List.nodup_cons, List.mem_cons, not_or]
    exact ⟨⟨h3, hnp⟩, hns, hrdy.nodup⟩
  · show (s.roots.set tree _)[tree]? = _
    rw [List.getElem?_set_self (lt_of_get hrdy.root)]
  · intro i hi hi'
    rw [hTperm.mem_iff] at hi
    rw [show avail _ = rest from hav2] at hi'
    simp only [List.mem_cons] at hi
    simp only [List.nodup_cons, List.mem_cons, not_or] at hAn
    rcases hi with rfl | rfl | hi
    · exact hAn.1.2 hi'
    · exact hAn.2.1 hi'
    · exact hrdy.used i hi (by rw [hA]; simp [hi'])
  · intro i n hi hneg
    have hi' : i ∈ avail n2 := mem_avail.2 ⟨n, hi, hneg⟩
    rw [hav2] at hi'
    have hiA : i ∈ avail s.nodes := by rw [hA]; simp [hi']
    simp only [List.nodup_cons, List.mem_cons, not_or] at hAn
    have : n2[i]? = s.nodes[i]? := by
      refine hother i (fun e => hAn.1.2 (e ▸ hi')) (fun e => hAn.2.1 (e ▸ hi')) (fun e => hrdy.used _ (e ▸ hid) hiA) (fun e => ?_)
      exact hrdy.used _ ((hmem _).2 (Or.inr (hpar _ e))) hiA
    exact hrdy.clean i n (by rw [← this]; exact hi) hneg
  · intro i hi hi'
    refine hother i (fun e => hi' (e ▸ hmp)) (fun e => hi' (e ▸ hms)) (fun e => hi (e ▸ hid)) (fun e => ?_)
    exact hi ((hmem _).2 (Or.inr (hpar _ e)))
  · exact .two np ns (by rw [show avail _ = rest from hav2]; exact hA) hTperm

theorem Ready.parts {s : Forest K F L} {tree : Nat} {fs : List (Frame K F L)} {t : Tree K F L} (h : Ready s tree (plug fs t)) :
    HoldsCtx s.nodes fs t.id ∧ Holds s.nodes (ctxPar fs) t ∧ t.ids.Nodup ∧ (∀ i ∈ t.ids, i ∉ ctxIds fs) ∧ (∀ i ∈ t.ids, i ∈ (plug fs t).ids) ∧
      (∀ i ∈ ctxIds fs, i ∈ (plug fs t).ids) := by
  have hperm := plug_ids fs t
  obtain ⟨ndt, ndc, hdis⟩ := List.nodup_append'.1 (hperm.nodup_iff.1 h.nodup)
  obtain ⟨hctx, ht⟩ := holds_plug.1 h.holds
  exact ⟨hctx, ht, ndt, fun i hi hi' => hdis hi hi', fun i hi => hperm.mem_iff.2 (List.mem_append.2 (Or.inl hi)),
    fun i hi => hperm.mem_iff.2 (List.mem_append.2 (Or.inr hi))⟩

theorem Done.trans {s s1 s2 : Forest K F L} {tree : Nat} {T T1 T2 : Tree K F L} (h : Done s s1 tree T T1) (hids : List.Perm T1.ids T.ids)
    (hA : avail s1.nodes = avail s.nodes ∨ ∃ a, avail s.nodes = [a] ∧ avail s1.nodes = []) (h2 : Done s1 s2 tree T1 T2) : Done s s2 tree T T2 := by
  refine ⟨h2.ready, ?_, h2.length.trans h.length, fun i hi hi' => ?_, ?_⟩
  · rw [h2.roots, h.roots, List.set_set]
  · rw [h2.other i (fun hh => hi (hids.mem_iff.1 hh)) ?_, h.other i hi hi']
    rcases hA with e | ⟨a, _, e⟩
    · rw [e]; exact hi'
    · rw [e]; simp
  · rcases hA with e | ⟨a, e1, e2⟩
    · cases h2.taken with
      | same q1 q2 => exact .same (q1.trans e) (q2.trans hids)
      | two a b q1 q2 => exact .two a b (e ▸ q1) (q2.trans (hids.cons _ |>.cons _))
      | lost a q1 q2 q3 => exact .lost a (e ▸ q1) q2 (q3.trans hids)
    · cases h2.taken with
      | same q1 q2 => exact .lost a e1 (q1.trans e2) (q2.trans hids)
      | two a b q1 q2 => rw [e2] at q1; cases q1
      | lost a q1 q2 q3 => rw [e2] at q1; cases q1

/-- changing the data of the node looked at -/
theorem done_update {s : Forest K F L} {tree : Nat} {fs : List (Frame K F L)} {t : Tree K F L} (h : Ready s tree (plug fs t)) {n n' : Node K F L}
    {nodes' : List (Node K F L)} (hn : s.nodes[t.id]? = some n) (hl : nodes'.length = s.nodes.length)
    (hg : ∀ j, nodes'[j]? = if j = t.id then some n' else s.nodes[j]?) {d' : Data K F L}
    (e1 : n'.dim = n.dim) (e2 : n'.split = n.split) (e3 : n'.left = n.left) (e4 : n'.right = n.right) (hh : n'.Has (ctxPar fs) d')
    (ht : n'.tau = n.tau) : Done s { s with nodes := nodes' } tree (plug fs t) (plug fs (t.withData d')) ∧ avail nodes' = avail s.nodes := by
  obtain ⟨hctx, hT, ndt, hdis, hin, hin'⟩ := h.parts
  have hid := id_mem_ids t
  have hA : avail nodes' = avail s.nodes := by
    refine avail_congr hl (fun i hi => ?_) (fun i hi => ?_)
    · rw [hg, if_neg]; rintro rfl; exact h.used _ (hin _ hid) hi
    · rw [mem_avail, hg]
      split
      · rename_i e; subst e
        rintro ⟨m, e, hneg⟩
        have := Option.some.inj e
        subst this
        exact hi (mem_avail.2 ⟨n, hn, by rw [← ht]; exact hneg⟩)
      · rw [← mem_avail]; exact hi
  have hperm : List.Perm (plug fs (t.withData d')).ids (plug fs t).ids := by
    refine (plug_ids fs _).trans ?_
    rw [withData_ids]
    exact (plug_ids fs t).symm
  have hrid : (plug fs (t.withData d')).id = (plug fs t).id := by
    cases fs with
    | nil => exact withData_id d' t
    | cons f fs => exact plug_id_cons f fs _ _
  refine ⟨⟨⟨?_, ?_, ?_, ?_, ?_⟩, ?_, hl, ?_, .same hA hperm⟩, hA⟩
  · rw [holds_plug, withData_id]
    refine ⟨holdsCtx_congr (fun i hi => ?_) hctx, ?_⟩
    · show nodes'[i]? = _
      rw [hg, if_neg]; rintro rfl; exact hdis _ hid hi
    · refine holds_update ndt hT hn (by show nodes'[t.id]? = _; rw [hg, if_pos rfl]) (fun i hi hi' => ?_) e1 e2 e3 e4 hh
      show nodes'[i]? = _
      rw [hg, if_neg hi']
  · rw [hperm.nodup_iff]; exact h.nodup
  · rw [hrid]; exact h.root
  · intro i hi
    rw [show avail _ = avail s.nodes from hA]
    exact h.used i (hperm.mem_iff.1 hi)
  · intro i m hi hneg
    have hi' : nodes'[i]? = some m := hi
    rw [hg] at hi'
    split at hi'
    · rename_i e; subst e
      have := Option.some.inj hi'
      subst this
      exact absurd (mem_avail.2 ⟨n, hn, by rw [← ht]; exact hneg⟩) (h.used _ (hin _ hid))
    · exact h.clean i m hi' hneg
  · rw [hrid, set_same h.root]
  · intro i hi _
    show nodes'[i]? = _
    rw [hg, if_neg]; rintro rfl; exact hi (hin _ hid)

theorem tryInsert_none (p : Params K) (s : Forest K F L) (tree : Nat) (cut : Option (Cut K F)) (x : Fin F → K) (label : Fin L)
    (fs : List (Frame K F L)) (t : Tree K F L) (hrdy : Ready s tree (plug fs t)) (hcut : ∀ c, cut = some c → 0 ≤ c.tau)
    (hf : both cut (freshOf (avail s.nodes)) = none) :
    ∃ s', tryInsert p s t.id tree cut x label = .ok (s', true) ∧ Done s s' tree (plug fs t) (plug fs t) ∧
      (avail s'.nodes = avail s.nodes ∨ ∃ a, avail s.nodes = [a] ∧ avail s'.nodes = []) := by
  have hself : Done s s tree (plug fs t) (plug fs t) :=
    ⟨hrdy, (set_same hrdy.root).symm, rfl, fun _ _ _ => rfl, .same rfl (List.Perm.refl _)⟩
  cases cut with
  | none => exact ⟨s, rfl, hself, Or.inl rfl⟩
  | some cut =>
    cases hA : avail s.nodes with
    | nil =>
        refine ⟨s, ?_, hself, Or.inl hA⟩
        simp only [tryInsert, availableNode_eq, hA, List.head?_nil]
    | cons a A =>
      cases A with
      | cons b A => rw [hA] at hf; simp [freshOf, both] at hf
      | nil =>
        have hma : a ∈ avail s.nodes := by rw [hA]; simp
        obtain ⟨m, hm, hneg⟩ := mem_avail.1 hma
        obtain ⟨n1, u1, l1, g1⟩ := upd_spec (fun n => { n with
          dim := some cut.dim
          split := some cut.split
          tau := cut.tau }) hm
        have hc := hcut cut rfl
        have hav : avail n1 = [] := by
          rw [avail_used l1 [a] ?_ ?_ ?_, hA]
          · simp
          · intro i _ hi
            rw [g1, if_neg (by simpa using hi)]
          · intro i hi
            rw [List.mem_singleton.1 hi, mem_avail, g1, if_pos rfl]
            rintro ⟨n, e, hneg⟩
            have := Option.some.inj e
            subst this
            exact absurd hneg (not_lt.2 hc)
          · intro i hi
            rw [mem_avail, g1]
            split
            · rename_i e; subst e; exact absurd hma hi
            · rw [← mem_avail]; exact hi
        refine ⟨{ s with nodes := n1 }, ?_, ⟨⟨?_, hrdy.nodup, hrdy.root, ?_, ?_⟩, (set_same hrdy.root).symm, l1, ?_, ?_⟩, Or.inr ⟨a, rfl, hav⟩⟩
        · have e2 : (avail n1).head? = none := by rw [hav]; rfl
          simp only [tryInsert, availableNode_eq, hA, List.head?_cons, bind, Except.bind, u1, e2, pure, Except.pure]
        · refine holds_congr (fun i hi => ?_) hrdy.holds
          show n1[i]? = _
          rw [g1, if_neg]; rintro rfl; exact hrdy.used _ hi hma
        · intro i _; rw [show avail _ = [] from hav]; simp
        · intro i n hi hneg
          exact absurd (mem_avail.2 ⟨n, hi, hneg⟩) (by rw [show avail _ = [] from hav]; simp)
        · intro i _ hi
          show n1[i]? = _
          rw [g1, if_neg]; rintro rfl; exact hi hma
        · exact .lost a hA hav (List.Perm.refl _)

theorem freshOf_eq {A A' : List Nat} (h : A' = A ∨ ∃ a, A = [a] ∧ A' = []) : freshOf A' = freshOf A := by
  rcases h with rfl | ⟨a, rfl, rfl⟩ <;> rfl

theorem ctxTau_nonneg {s : Forest K F L} {tree : Nat} {fs : List (Frame K F L)} {t : Tree K F L} (h : Ready s tree (plug fs t)) : 0 ≤ ctxTau fs := by
  cases fs with
  | nil => exact le_rfl
  | cons f fs =>
      obtain ⟨⟨⟨n, h1, h2, _⟩, _⟩, _, _, _, _, hin'⟩ := h.parts
      by_contra hneg
      refine h.used f.id (hin' _ (by simp [ctxIds])) (mem_avail.2 ⟨n, h1, ?_⟩)
      rw [h2.2.1]; exact not_le.1 hneg

/-- The first part of `extend_block`, up to the update of the box -/
theorem extend_head (p : Params K) (ω : Nat → K) (x : Fin F → K) (label : Fin L) (tree fuel : Nat) (fs : List (Frame K F L)) (t : Tree K F L)
    (pos : Nat) (s : Forest K F L) (hrdy : Ready s tree (plug fs t)) :
    extendBlock p ω x label tree (fuel + 1) t.id pos s = (do
      let (cut, pos) ← draw p ω pos t.data.box x (ctxTau fs) t.data.tau
      let (s, updateBox) ← tryInsert p s t.id tree cut x label
      if updateBox then do
        let node ← rd s.nodes t.id
        let b ← init node.box
        let nodes ← wr s.nodes t.id { node with box := some (b.extend x) }
        match node.dim with
        | some dim => do
            let sp ← init node.split
            let child ← init (if x dim ≤ sp then node.left else node.right)
            extendBlock p ω x label tree fuel child pos { s with nodes := nodes }
        | none => do
            let nodes ← upd nodes t.id (fun n => { n with counts := bump n.counts label })
            return ({ s with nodes := nodes }, pos)
      else return (s, pos)) := by
  obtain ⟨hctx, hT, -⟩ := hrdy.parts
  obtain ⟨n, hn, hh⟩ := holds_root hT
  have e1 := ctxTau_spec hctx
  rw [← hh.1] at e1
  rw [extendBlock]
  simp only [rd_eq_ok_iff.2 hn, bind, Except.bind]
  cases hpar : n.parent with
  | none =>
      rw [hpar] at e1
      have e2 : (0 : K) = ctxTau fs := Except.ok.inj e1
      simp only [hh.2.2.1, init, hh.2.1, e2]
      rfl
  | some q =>
      rw [hpar] at e1
      simp only at e1
      simp only [e1, hh.2.2.1, init, hh.2.1]
      rfl

/-- `extend_block` does to the tree what `grow` says -/
theorem extendBlock_spec (p : Params K) (hlife : 0 ≤ p.lifetime) (ω : Nat → K) (hω : ∀ i, 0 ≤ ω i ∧ ω i < 1) (x : Fin F → K) (label : Fin L)
    (tree : Nat) : ∀ (t : Tree K F L) (fs : List (Frame K F L)) (fuel pos : Nat) (s : Forest K F L), t.height ≤ fuel → Ready s tree (plug fs t) →
    match grow p ω (freshOf (avail s.nodes)) x label t (ctxTau fs) pos with
    | .error e => extendBlock p ω x label tree fuel t.id pos s = .error e
    | .ok (t', pos') => ∃ s', extendBlock p ω x label tree fuel t.id pos s = .ok (s', pos') ∧ Done s s' tree (plug fs t) (plug fs t')
  | .leaf id d, fs, 0, pos, s, hfuel, _ => by simp [Tree.height] at hfuel
  | .node id d dim sp l r, fs, 0, pos, s, hfuel, _ => by simp [Tree.height] at hfuel
  | .leaf id d, fs, fuel + 1, pos, s, hfuel, hrdy => by
      rw [extend_head p ω x label tree fuel fs _ pos s hrdy]
      have h0 := ctxTau_nonneg hrdy
      simp only [Tree.data, Tree.id]
      cases hd : draw p ω pos d.box x (ctxTau fs) d.tau with
      | error e =>
        have hgr : grow p ω (freshOf (avail s.nodes)) x label (.leaf id d) (ctxTau fs) pos = .error e := by rw [grow, hd]
        rw [hgr]; rfl
      | ok q =>
        obtain ⟨c, pos1⟩ := q
        have hcut : ∀ c', c = some c' → 0 ≤ c'.tau := by
          rintro c' rfl; exact h0.trans (draw_spec hω hd).2.1
        cases hb : both c (freshOf (avail s.nodes)) with
        | some q =>
          obtain ⟨rfl, hf⟩ := both_some hb
          obtain ⟨s', a1, a2⟩ := tryInsert_above p hlife s tree q.1 x label fs (.leaf id d) hrdy (hcut _ rfl) hf
          have hgr : grow p ω (freshOf (avail s.nodes)) x label (.leaf id d) (ctxTau fs) pos = .ok (above p.lifetime q.2 q.1 (.leaf id d) x label, pos1) := by
            rw [grow, hd]; simp only [hb]
          rw [hgr]
          refine ⟨s', ?_, a2⟩
          simp only [Tree.id] at a1
          simp [bind, Except.bind, a1, pure, Except.pure]
        | none =>
          obtain ⟨s1, a1, a2, a3⟩ := tryInsert_none p s tree c x label fs (.leaf id d) hrdy hcut hb
          simp only [Tree.id] at a1
          obtain ⟨-, hT, -⟩ := a2.ready.parts
          obtain ⟨n, hn, hh, hdim⟩ := hT
          obtain ⟨n2, u2, l2, g2⟩ := upd_spec (nodes := s1.nodes.set id { n with box := some (d.box.extend x) }) (i := id)
            (n := { n with box := some (d.box.extend x) }) (fun n => { n with counts := bump n.counts label })
            (by rw [List.getElem?_set_self (lt_of_get hn)])
          obtain ⟨b1, b2⟩ := done_update a2.ready (t := .leaf id d) (n := n) (n' := { n with
              box := some (d.box.extend x)
              counts := bump n.counts label }) (nodes' := n2) (d' := { tau := d.tau, box := d.box.extend x, counts := bump d.counts label })
            hn (by rw [l2, List.length_set]) (fun j => by
              rw [g2]
              by_cases hj : j = id
              · rw [if_pos hj, if_pos (show j = Tree.id (.leaf id d) from hj)]
              · rw [if_neg hj, if_neg (show ¬ j = Tree.id (.leaf id d) from hj), List.getElem?_set_ne (Ne.symm hj)]) rfl rfl rfl rfl ⟨hh.1, hh.2.1, rfl, by rw [hh.2.2.2]⟩ rfl
          have hgr : grow p ω (freshOf (avail s.nodes)) x label (.leaf id d) (ctxTau fs) pos =
              .ok (.leaf id { tau := d.tau, box := d.box.extend x, counts := bump d.counts label }, pos1) := by
            rw [grow, hd]; simp only [hb]
          rw [hgr]
          refine ⟨{ s1 with nodes := n2 }, ?_, a2.trans (List.Perm.refl _) a3 b1⟩
          simp only [bind, Except.bind, a1, rd_eq_ok_iff.2 hn, hh.2.2.1, init, wr_ok _ (lt_of_get hn), if_true]
          simp only [hdim] at u2 ⊢
          simp only [u2, pure, Except.pure]
  | .node id d dim sp l r, fs, fuel + 1, pos, s, hfuel, hrdy => by
      rw [extend_head p ω x label tree fuel fs _ pos s hrdy]
      have h0 := ctxTau_nonneg hrdy
      simp only [Tree.data, Tree.id]
      simp only [Tree.height] at hfuel
      have hfl : l.height ≤ fuel := le_trans (Nat.le_max_left l.height r.height) (Nat.le_of_succ_le_succ hfuel)
      have hfr : r.height ≤ fuel := le_trans (Nat.le_max_right l.height r.height) (Nat.le_of_succ_le_succ hfuel)
      cases hd : draw p ω pos d.box x (ctxTau fs) d.tau with
      | error e =>
        have hgr : grow p ω (freshOf (avail s.nodes)) x label (.node id d dim sp l r) (ctxTau fs) pos = .error e := by rw [grow, hd]
        rw [hgr]; rfl
      | ok q =>
        obtain ⟨c, pos1⟩ := q
        have hcut : ∀ c', c = some c' → 0 ≤ c'.tau := by
          rintro c' rfl; exact h0.trans (draw_spec hω hd).2.1
        cases hb : both c (freshOf (avail s.nodes)) with
        | some q =>
          obtain ⟨rfl, hf⟩ := both_some hb
          obtain ⟨s', a1, a2⟩ := tryInsert_above p hlife s tree q.1 x label fs (.node id d dim sp l r) hrdy (hcut _ rfl) hf
          have hgr : grow p ω (freshOf (avail s.nodes)) x label (.node id d dim sp l r) (ctxTau fs) pos = .ok (above p.lifetime q.2 q.1 (.node id d dim sp l r) x label, pos1) := by
            rw [grow, hd]; simp only [hb]
          rw [hgr]
          refine ⟨s', ?_, a2⟩
          simp only [Tree.id] at a1
          simp [bind, Except.bind, a1, pure, Except.pure]
        | none =>
          obtain ⟨s1, a1, a2, a3⟩ := tryInsert_none p s tree c x label fs (.node id d dim sp l r) hrdy hcut hb
          simp only [Tree.id] at a1
          obtain ⟨-, hT, -⟩ := a2.ready.parts
          obtain ⟨⟨n, hn, hh, hdim, hsp, hleft, hright⟩, -, -⟩ := hT
          obtain ⟨nodes1, hnodes1⟩ : ∃ q, q = s1.nodes.set id { n with box := some (d.box.extend x) } := ⟨_, rfl⟩
          have hw : wr s1.nodes id { n with box := some (d.box.extend x) } = .ok nodes1 := by rw [hnodes1, wr_ok _ (lt_of_get hn)]
          obtain ⟨b1, b2⟩ := done_update a2.ready (t := .node id d dim sp l r) (n := n) (n' := { n with
              box := some (d.box.extend x) }) (nodes' := nodes1)
            (d' := { tau := d.tau, box := d.box.extend x, counts := d.counts })
            hn (by rw [hnodes1, List.length_set]) (fun j => by
              rw [hnodes1]
              by_cases hj : j = id
              · rw [if_pos (show j = Tree.id (.node id d dim sp l r) from hj), hj, List.getElem?_set_self (lt_of_get hn)]
              · rw [if_neg (show ¬ j = Tree.id (.node id d dim sp l r) from hj), List.getElem?_set_ne (Ne.symm hj)]) rfl rfl rfl rfl ⟨hh.1, hh.2.1, rfl, hh.2.2.2⟩ rfl
          have b3 := a2.trans (List.Perm.refl _) a3 b1
          have hA2 : avail (nodes1) = avail s.nodes ∨
              ∃ a, avail s.nodes = [a] ∧ avail (nodes1) = [] := by rw [b2]; exact a3
          have hfresh := freshOf_eq hA2
          have hperm : List.Perm (plug fs (Tree.withData { tau := d.tau, box := d.box.extend x, counts := d.counts } (.node id d dim sp l r))).ids
              (plug fs (.node id d dim sp l r)).ids := by
            refine (plug_ids fs _).trans ?_
            rw [withData_ids]
            exact (plug_ids fs _).symm
          simp only [bind, Except.bind, a1, rd_eq_ok_iff.2 hn, hh.2.2.1, init, hw, if_true]
          simp only [hdim, hsp]
          by_cases hx : x dim ≤ sp
          · have ih := extendBlock_spec p hlife ω hω x label tree l (⟨id, { tau := d.tau, box := d.box.extend x, counts := d.counts }, dim, sp, true, r⟩ :: fs)
              fuel pos1 { s1 with nodes := nodes1 } hfl b1.ready
            simp only [if_pos hx, hleft]
            simp only [hfresh, ctxTau] at ih
            cases hg : grow p ω (freshOf (avail s.nodes)) x label l d.tau pos1 with
            | error e =>
              have hgr : grow p ω (freshOf (avail s.nodes)) x label (.node id d dim sp l r) (ctxTau fs) pos = .error e := by
                rw [grow, hd]; simp only [hb, if_pos hx, hg]
              rw [hg] at ih; rw [hgr]; exact ih
            | ok q =>
              obtain ⟨l', pos2⟩ := q
              have hgr : grow p ω (freshOf (avail s.nodes)) x label (.node id d dim sp l r) (ctxTau fs) pos =
                  .ok (.node id { tau := d.tau, box := d.box.extend x, counts := d.counts } dim sp l' r, pos2) := by
                rw [grow, hd]; simp only [hb, if_pos hx, hg]
              rw [hg] at ih; rw [hgr]
              obtain ⟨s', c1, c2⟩ := ih
              exact ⟨s', c1, b3.trans hperm hA2 c2⟩
          · have ih := extendBlock_spec p hlife ω hω x label tree r (⟨id, { tau := d.tau, box := d.box.extend x, counts := d.counts }, dim, sp, false, l⟩ :: fs)
              fuel pos1 { s1 with nodes := nodes1 } hfr b1.ready
            simp only [if_neg hx, hright]
            simp only [hfresh, ctxTau] at ih
            cases hg : grow p ω (freshOf (avail s.nodes)) x label r d.tau pos1 with
            | error e =>
              have hgr : grow p ω (freshOf (avail s.nodes)) x label (.node id d dim sp l r) (ctxTau fs) pos = .error e := by
                rw [grow, hd]; simp only [hb, if_neg hx, hg]
              rw [hg] at ih; rw [hgr]; exact ih
            | ok q =>
              obtain ⟨r', pos2⟩ := q
              have hgr : grow p ω (freshOf (avail s.nodes)) x label (.node id d dim sp l r) (ctxTau fs) pos =
                  .ok (.node id { tau := d.tau, box := d.box.extend x, counts := d.counts } dim sp l r', pos2) := by
                rw [grow, hd]; simp only [hb, if_neg hx, hg]
              rw [hg] at ih; rw [hgr]
              obtain ⟨s', c1, c2⟩ := ih
              exact ⟨s', c1, b3.trans hperm hA2 c2⟩

end Orp.Mondrian
