import Verif.Coarse.Model
import Verif.Mondrian.Predict

/-!
Taking nodes from the pool and putting two of them above a node of a tree.
-/

set_option linter.unusedSectionVars false

namespace Orp.Coarse

open Finset
open Mondrian (Node Box Forest Params Cut upd init extent cutAt bump sampleBlock Tree Data Frame plug ctxPar ctxTau ctxIds HoldsCtx Holds Ready avail mem_avail
  avail_nodup upd_spec avail_used lt_of_get newLeaf Clean relinked holds_plug plug_ids holds_root id_mem_ids holds_mem set_same plug_id_cons)

variable {K : Type} [Field K] [LinearOrder K] [IsStrictOrderedRing K] [FloorRing K] {F L : Nat}

/-! ### Available nodes -/

/-- the search visits all places -/
theorem scan_spec (nodes : List (Node K F L)) (last : Nat) : ∀ (k i : Nat), i + k ≤ nodes.length →
    (∃ id, scan nodes last i k = .ok (some id) ∧ id ∈ avail nodes) ∨
      (scan nodes last i k = .ok none ∧ ∀ j, i ≤ j → j < i + k → (j + last) % nodes.length ∉ avail nodes)
  | 0, i, _ => Or.inr ⟨rfl, fun j h1 h2 => by omega⟩
  | k + 1, i, h => by
      have hlt : (i + last) % nodes.length < nodes.length := Nat.mod_lt _ (by omega)
      have hg := List.getElem?_eq_getElem hlt
      cases ha : (nodes[(i + last) % nodes.length]).available with
      | true =>
          refine Or.inl ⟨(i + last) % nodes.length, ?_, mem_avail.2 ⟨_, hg, by simpa [Node.available] using ha⟩⟩
          simp only [scan, rd_eq_ok_iff.2 hg, bind, Except.bind, ha, if_true, pure, Except.pure]
      | false =>
          have e : scan nodes last i (k + 1) = scan nodes last (i + 1) k := by
            simp only [scan, rd_eq_ok_iff.2 hg, bind, Except.bind, ha, Bool.false_eq_true, if_false]
          rw [e]
          rcases scan_spec nodes last k (i + 1) (by omega) with h' | ⟨h1, h2⟩
          · exact Or.inl h'
          · refine Or.inr ⟨h1, fun j j1 j2 => ?_⟩
            rcases Nat.eq_or_lt_of_le j1 with rfl | j1
            · intro hm
              obtain ⟨n, e1, e2⟩ := mem_avail.1 hm
              rw [hg] at e1
              cases e1
              simp [Node.available] at ha
              linarith
            · exact h2 j (by omega) (by omega)

/-- every place is a place the search visits -/
theorem scan_onto {n last i : Nat} (h : i < n) : ∃ j, j < n ∧ (j + last) % n = i := by
  refine ⟨(i + (n - last % n)) % n, Nat.mod_lt _ (by omega), ?_⟩
  have hl : last % n < n := Nat.mod_lt _ (by omega)
  rw [Nat.mod_add_mod]
  have e : i + (n - last % n) + last = i + n * (1 + last / n) := by
    have := Nat.mod_add_div last n
    rw [Nat.mul_add]
    omega
  rw [e, Nat.add_mul_mod_self_left, Nat.mod_eq_of_lt h]

/-- If there is an available node, one is found. -/
theorem takeNode_some (s : State K F L) (h0 : s.free ≠ 0) (h : avail s.forest.nodes ≠ []) :
    ∃ id ∈ avail s.forest.nodes, takeNode s = .ok (some id, { s with last := id }) := by
  rcases scan_spec s.forest.nodes s.last s.forest.nodes.length 0 (by omega) with ⟨id, h1, h2⟩ | ⟨h1, h2⟩
  · exact ⟨id, h2, by simp only [takeNode, availableNode, if_neg h0, h1, bind, Except.bind, pure, Except.pure]⟩
  · obtain ⟨i, hi⟩ := List.exists_mem_of_ne_nil _ h
    obtain ⟨n, e, _⟩ := mem_avail.1 hi
    obtain ⟨j, j1, j2⟩ := scan_onto (last := s.last) (lt_of_get e)
    exact absurd hi (j2 ▸ h2 j (by omega) (by omega))

theorem takeNode_none (s : State K F L) (h : s.free = 0) : takeNode s = .ok (none, s) := by
  simp only [takeNode, availableNode, if_pos h, bind, Except.bind, pure, Except.pure]

/-! ### A new parent -/

/-- the tree with a new node above it; `np` and `ns` are the places of the new nodes and `cnt` the counters of the new parent -/
def aboveC (lifetime : K) (np ns : Nat) (c : Cut K F) (t : Tree K F L) (cnt : Fin L → Nat) (x : Fin F → K) (label : Fin L) : Tree K F L :=
  if c.right then .node np { tau := c.tau, box := t.data.box.extend x, counts := cnt } c.dim c.split t (newLeaf lifetime ns x label)
  else .node np { tau := c.tau, box := t.data.box.extend x, counts := cnt } c.dim c.split (newLeaf lifetime ns x label) t

theorem aboveC_id (lifetime : K) (np ns : Nat) (c : Cut K F) (t : Tree K F L) (cnt : Fin L → Nat) (x : Fin F → K) (label : Fin L) :
    (aboveC lifetime np ns c t cnt x label).id = np := by unfold aboveC; split <;> rfl

theorem aboveC_ids (lifetime : K) (np ns : Nat) (c : Cut K F) (t : Tree K F L) (cnt : Fin L → Nat) (x : Fin F → K) (label : Fin L) :
    List.Perm (aboveC lifetime np ns c t cnt x label).ids (np :: ns :: t.ids) := by
  unfold aboveC
  split
  · simp only [Tree.ids, newLeaf]
    exact List.Perm.cons _ List.perm_append_comm
  · simp only [Tree.ids, newLeaf]
    exact List.Perm.refl _

/-- what changes in the object when the tree `T` becomes `T'` -/
structure Done (s s' : State K F L) (tree : Nat) (T T' : Tree K F L) : Prop where
  ready : Ready s'.forest tree T'
  roots : s'.forest.roots = s.forest.roots.set tree (some T'.id)
  length : s'.forest.nodes.length = s.forest.nodes.length
  other : ∀ i, i ∉ T.ids → i ∉ avail s.forest.nodes → s'.forest.nodes[i]? = s.forest.nodes[i]?
  cover : List.Perm (avail s'.forest.nodes ++ T'.ids) (avail s.forest.nodes ++ T.ids)
  free : s'.free = (avail s'.forest.nodes).length
  bases : s'.bases = s.bases
  total : s'.total = s.total
  fading : s'.fading.length = s.fading.length
  forced : s'.forced.length = s.forced.length
  scores : (∀ v ∈ s.fading, 0 ≤ v) → ∀ v ∈ s'.fading, 0 ≤ v

theorem Done.refl {s : State K F L} {tree : Nat} {T : Tree K F L} (h : Ready s.forest tree T) (hf : s.free = (avail s.forest.nodes).length) :
    Done s s tree T T :=
  ⟨h, (set_same h.root).symm, rfl, fun _ _ _ => rfl, List.Perm.refl _, hf, rfl, rfl, rfl, rfl, fun h => h⟩

theorem Done.trans {s s1 s2 : State K F L} {tree : Nat} {T T1 T2 : Tree K F L} (h : Done s s1 tree T T1) (h2 : Done s1 s2 tree T1 T2) :
    Done s s2 tree T T2 := by
  refine ⟨h2.ready, by rw [h2.roots, h.roots, List.set_set], h2.length.trans h.length, fun i hi hi' => ?_, h2.cover.trans h.cover, h2.free,
    h2.bases.trans h.bases, h2.total.trans h.total, h2.fading.trans h.fading, h2.forced.trans h.forced, fun hp => h2.scores (h.scores hp)⟩
  have hm : i ∉ avail s1.forest.nodes ++ T1.ids := by
    rw [h.cover.mem_iff, List.mem_append]
    exact fun h => h.elim hi' hi
  rw [List.mem_append, not_or] at hm
  rw [h2.other i hm.2 hm.1, h.other i hi hi']

/-- Introducing a parent above a node -/
theorem insert_spec (c : Config K) (p : Params K) (hlife : 0 ≤ p.lifetime) (s : State K F L) (tree : Nat) (cut : Cut K F) (x : Fin F → K) (label : Fin L)
    (fs : List (Frame K F L)) (t : Tree K F L) (hrdy : Ready s.forest tree (plug fs t)) (hfree : s.free = (avail s.forest.nodes).length) (h2 : 2 ≤ s.free)
    (hcut : 0 ≤ cut.tau) :
    ∃ (np ns : Nat) (s' : State K F L), insert c p s t.id tree cut x label = .ok s' ∧
      Done s s' tree (plug fs t) (plug fs (aboveC p.lifetime np ns cut t (parentCounts c.extend (fun _ => 0) t.data.counts label) x label)) := by
  have hlen : 2 ≤ (avail s.forest.nodes).length := by omega
  obtain ⟨np, hmp, tk1⟩ := takeNode_some s (by omega) (by rintro h; rw [h] at hlen; simp at hlen)
  obtain ⟨a, ha, hat⟩ := mem_avail.1 hmp
  -- marking the parent
  obtain ⟨n1, u1, l1, g1⟩ := upd_spec (fun n => { n with
    dim := some cut.dim
    split := some cut.split
    tau := cut.tau }) ha
  have hav1 : avail n1 = (avail s.forest.nodes).filter (fun i => i ∉ [np]) := by
    refine avail_used l1 [np] ?_ ?_ ?_
    · intro i _ hi
      rw [g1, if_neg (by simpa using hi)]
    · intro i hi
      rw [List.mem_singleton.1 hi, mem_avail, g1, if_pos rfl]
      rintro ⟨n, e, hneg⟩
      have := Option.some.inj e
      subst this
      exact absurd hneg (not_lt.2 hcut)
    · intro i hi
      rw [mem_avail, g1]
      split
      · rename_i e; subst e; exact absurd hmp hi
      · rw [← mem_avail]; exact hi
  have hne1 : avail n1 ≠ [] := by
    rw [hav1]
    intro he
    rw [List.filter_eq_nil_iff] at he
    have : avail s.forest.nodes ⊆ [np] := by
      intro i hi
      have := he i hi
      simpa using this
    have := (List.subperm_of_subset (avail_nodup _) this).length_le
    simp at this
    omega
  obtain ⟨ns, hms', tk2⟩ := takeNode_some ({ s with
    forest := { s.forest with nodes := n1 }
    last := np } : State K F L) (by show s.free ≠ 0; omega) hne1
  have hms1 : ns ∈ avail n1 := hms'
  have hms : ns ∈ avail s.forest.nodes := by rw [hav1] at hms1; exact (List.mem_filter.1 hms1).1
  have h3 : np ≠ ns := by
    rw [hav1] at hms1
    have := (List.mem_filter.1 hms1).2
    simp only [List.mem_singleton, decide_eq_true_eq] at this
    exact Ne.symm this
  obtain ⟨b, hb, hbt⟩ := mem_avail.1 hms
  obtain ⟨hctx, ht⟩ := holds_plug.1 hrdy.holds
  have hperm := plug_ids fs t
  have hnd := hperm.nodup_iff.1 hrdy.nodup
  obtain ⟨ndt, ndc, hdis⟩ := List.nodup_append'.1 hnd
  have hmem : ∀ i, i ∈ (plug fs t).ids ↔ i ∈ t.ids ∨ i ∈ ctxIds fs := by intro i; rw [hperm.mem_iff, List.mem_append]
  have hnp : np ∉ (plug fs t).ids := fun h => hrdy.used _ h hmp
  have hns : ns ∉ (plug fs t).ids := fun h => hrdy.used _ h hms
  have hid : t.id ∈ (plug fs t).ids := (hmem _).2 (Or.inl (id_mem_ids t))
  have h1 : t.id ≠ np := fun h => hnp (h ▸ hid)
  have h2' : t.id ≠ ns := fun h => hns (h ▸ hid)
  obtain ⟨node, hn, hhas⟩ := holds_root ht
  have hn1 : n1[t.id]? = some node := by rw [g1, if_neg h1, hn]
  have hcl := (hrdy.clean np a ha hat).2
  -- the counters of the parent
  have g1p := g1 np
  rw [if_pos rfl] at g1p
  obtain ⟨n1b, u1b, l1b, g1b⟩ := upd_spec (fun n => { n with counts := parentCounts c.extend n.counts node.counts label }) g1p
  have gb : ∀ i, i ≠ np → n1b[i]? = s.forest.nodes[i]? := by
    intro i hi
    rw [g1b, if_neg hi, g1, if_neg hi]
  -- the link from above
  have hpar : ∀ q, ctxPar fs = some q → q ∈ ctxIds fs := by
    intro q hq
    cases fs with
    | nil => cases hq
    | cons f fs => simp only [ctxPar, Option.some.injEq] at hq; subst hq; simp [ctxIds]
  have hparne : ∀ q, ctxPar fs = some q → q ≠ t.id ∧ q ≠ np ∧ q ≠ ns := by
    intro q hq
    have hq' := hpar q hq
    refine ⟨fun e => ?_, fun e => hnp (e ▸ (hmem _).2 (Or.inr hq')), fun e => hns (e ▸ (hmem _).2 (Or.inr hq'))⟩
    exact hdis (id_mem_ids t) (e ▸ hq')
  generalize hT' : aboveC p.lifetime np ns cut t (parentCounts c.extend (fun _ => 0) t.data.counts label) x label = T'
  have hT'id : T'.id = np := by rw [← hT', aboveC_id]
  have hT'ids : List.Perm T'.ids (np :: ns :: t.ids) := by rw [← hT']; exact aboveC_ids ..
  have hroots : (node.parent = none ∧ (some (plug fs t).id : Option Nat) = some t.id ∧
      s.forest.roots.set tree (some (plug fs T').id) = s.forest.roots.set tree (some np)) ∨
      (∃ q m, node.parent = some q ∧ n1b[q]? = some m ∧ q ≠ t.id ∧ q ≠ np ∧ q ≠ ns ∧
        s.forest.roots.set tree (some (plug fs T').id) = s.forest.roots) := by
    rw [hhas.1]
    cases fs with
    | nil => exact Or.inl ⟨rfl, rfl, by simp only [plug, hT'id]⟩
    | cons f fs =>
        obtain ⟨⟨m, hm, _⟩, _⟩ := hctx
        obtain ⟨q1, q2, q3⟩ := hparne f.id rfl
        refine Or.inr ⟨f.id, m, rfl, by rw [gb _ q2]; exact hm, q1, q2, q3, ?_⟩
        rw [plug_id_cons f fs _ t]
        exact set_same hrdy.root
  obtain ⟨n2, u2, l2, g2⟩ := Mondrian.insertNodes_spec p { s.forest with nodes := n1b } t.id tree np ns cut x label (node := node)
    (a := { a with
      dim := some cut.dim
      split := some cut.split
      tau := cut.tau
      counts := parentCounts c.extend a.counts node.counts label }) (b := b) (bx := t.data.box) (by show n1b[t.id]? = _; rw [gb _ h1, hn]) hhas.2.2.1
    (by show n1b[np]? = _; rw [g1b, if_pos rfl]) (by show n1b[ns]? = _; rw [gb _ (Ne.symm h3), hb]) h1 h2' h3 hrdy.root hroots
  have l2' : n2.length = s.forest.nodes.length := by rw [l2]; show n1b.length = _; rw [l1b, l1]
  have hother : ∀ i, i ≠ np → i ≠ ns → i ≠ t.id → ctxPar fs ≠ some i → n2[i]? = s.forest.nodes[i]? := by
    intro i i1 i2 i3 i4
    rw [g2, if_neg i1, if_neg i2, if_neg i3, if_neg (by rw [hhas.1]; exact i4)]
    exact gb i i1
  have gpar : ∀ q m, ctxPar fs = some q → s.forest.nodes[q]? = some m → n2[q]? = some (relinked m t.id np) := by
    intro q m hq hm
    obtain ⟨q1, q2, q3⟩ := hparne q hq
    rw [g2, if_neg q2, if_neg q3, if_neg q1, if_pos (by rw [hhas.1]; exact hq)]
    show (n1b[q]?).map _ = _
    rw [gb q q2, hm]; rfl
  have gid : n2[t.id]? = some { node with parent := some np } := by rw [g2, if_neg h1, if_neg h2', if_pos rfl]
  -- availability
  have hav2 : avail n2 = (avail s.forest.nodes).filter (fun i => i ∉ [np, ns]) := by
    refine avail_used l2' [np, ns] ?_ ?_ ?_
    · intro i hi hi'
      simp only [List.mem_cons, List.not_mem_nil, or_false, not_or] at hi'
      refine hother i hi'.1 hi'.2 (fun e => hrdy.used _ (e ▸ hid) hi) (fun e => ?_)
      exact hrdy.used _ ((hmem _).2 (Or.inr (hpar _ e))) hi
    · intro i hi
      simp only [List.mem_cons, List.not_mem_nil, or_false] at hi
      rw [mem_avail, g2]
      rcases hi with rfl | rfl
      · rw [if_pos rfl]
        rintro ⟨n, e, hneg⟩
        have := Option.some.inj e
        subst this
        exact absurd hneg (not_lt.2 hcut)
      · rw [if_neg (Ne.symm h3), if_pos rfl]
        rintro ⟨n, e, hneg⟩
        have := Option.some.inj e
        subst this
        exact absurd hneg (not_lt.2 hlife)
    · intro i hi
      by_cases i1 : i = np
      · subst i1; exact absurd hmp hi
      by_cases i2 : i = ns
      · subst i2; exact absurd hms hi
      by_cases i3 : i = t.id
      · subst i3
        rw [mem_avail, gid]
        rintro ⟨n, e, hneg⟩
        have := Option.some.inj e
        subst this
        exact hi (mem_avail.2 ⟨node, hn, hneg⟩)
      by_cases i4 : ctxPar fs = some i
      · obtain ⟨m, hm⟩ := holds_mem hrdy.holds i ((hmem _).2 (Or.inr (hpar _ i4)))
        rw [mem_avail, gpar i m i4 hm]
        rintro ⟨n, e, hneg⟩
        have := Option.some.inj e
        subst this
        refine hi (mem_avail.2 ⟨m, hm, ?_⟩)
        unfold relinked at hneg
        split at hneg <;> exact hneg
      · rw [mem_avail, hother i i1 i2 i3 i4, ← mem_avail]; exact hi
  have hApm : List.Perm (avail s.forest.nodes) (np :: ns :: avail n2) := by
    refine (List.perm_ext_iff_of_nodup (avail_nodup _) ?_).2 fun i => ?_
    · rw [hav2]
      simp only [List.nodup_cons, List.mem_cons, not_or, List.mem_filter]
      refine ⟨⟨h3, ?_⟩, ?_, (avail_nodup _).filter _⟩ <;> simp
    · rw [hav2]
      simp only [List.mem_cons, List.mem_filter, List.not_mem_nil, or_false, decide_eq_true_eq, not_or]
      constructor
      · intro h
        by_cases i1 : i = np
        · exact Or.inl i1
        by_cases i2 : i = ns
        · exact Or.inr (Or.inl i2)
        exact Or.inr (Or.inr ⟨h, i1, i2⟩)
      · rintro (rfl | rfl | h)
        · exact hmp
        · exact hms
        · exact h.1
  have hAnd := hApm.nodup_iff.1 (avail_nodup _)
  simp only [List.nodup_cons, List.mem_cons, not_or] at hAnd
  have hsub : ∀ i ∈ avail n2, i ∈ avail s.forest.nodes := fun i hi => hApm.mem_iff.2 (by simp [hi])
  have hTperm : List.Perm (plug fs T').ids (np :: ns :: (plug fs t).ids) := by
    refine (plug_ids fs _).trans ?_
    refine (hT'ids.append_right _).trans ?_
    simp only [List.cons_append]
    exact List.Perm.cons _ (List.Perm.cons _ hperm.symm)
  refine ⟨np, ns, ({ s with
    forest := { nodes := n2, roots := s.forest.roots.set tree (some (plug fs T').id) }
    last := ns
    free := s.free - 2 } : State K F L), ?_, ⟨⟨?_, ?_, ?_, ?_, ?_⟩, ?_, l2', ?_, ?_, ?_, rfl, rfl, rfl, rfl, fun h => h⟩⟩
  · simp only [insert, tk1, init, u1, tk2, rd_eq_ok_iff.2 hn1, u1b, u2, bind, Except.bind, pure, Except.pure]
  · -- holds
    show Holds n2 none _
    rw [hT', holds_plug, hT'id]
    constructor
    · refine Mondrian.holdsCtx_relink hctx ndc (fun h => hdis (id_mem_ids t) h) ?_ gpar
      intro i hi hi'
      exact hother i (fun e => hnp (e ▸ (hmem _).2 (Or.inr hi))) (fun e => hns (e ▸ (hmem _).2 (Or.inr hi)))
        (fun e => hdis (id_mem_ids t) (e ▸ hi)) hi'
    · have ht' : Holds n2 (some np) t := by
        have := Mondrian.holds_update (par' := some np) (d' := t.data) ndt ht hn gid (fun i hi hi' => hother i (fun e => hnp (e ▸ (hmem _).2 (Or.inl hi)))
          (fun e => hns (e ▸ (hmem _).2 (Or.inl hi))) hi' (fun e => hdis hi (hpar _ e))) rfl rfl rfl rfl ⟨rfl, hhas.2⟩
        cases t <;> exact this
      have hl' : Holds n2 (some np) (newLeaf p.lifetime ns x label : Tree K F L) := by
        refine ⟨_, by rw [g2, if_neg (Ne.symm h3), if_pos rfl], ⟨rfl, rfl, rfl, rfl⟩, ?_⟩
        exact (hrdy.clean ns b hb hbt).1
      have gnp := g2 np
      rw [if_pos rfl] at gnp
      have hcnt : parentCounts c.extend a.counts node.counts label = parentCounts c.extend (fun _ => 0) t.data.counts label := by
        rw [hcl, hhas.2.2.2]
      rw [← hT']
      unfold aboveC
      cases hc : cut.right
      · rw [if_neg (by simp)]
        refine ⟨⟨_, gnp, ⟨hhas.1, rfl, rfl, hcnt⟩, rfl, rfl, ?_, ?_⟩, hl', ht'⟩
        · simp [hc, newLeaf, Tree.id]
        · simp [hc]
      · rw [if_pos rfl]
        refine ⟨⟨_, gnp, ⟨hhas.1, rfl, rfl, hcnt⟩, rfl, rfl, ?_, ?_⟩, ht', hl'⟩
        · simp [hc]
        · simp [hc, newLeaf, Tree.id]
  · rw [hT', hTperm.nodup_iff]
    simp only [List.nodup_cons, List.mem_cons, not_or]
    exact ⟨⟨h3, hnp⟩, hns, hrdy.nodup⟩
  · show (s.forest.roots.set tree _)[tree]? = _
    rw [hT', List.getElem?_set_self (lt_of_get hrdy.root)]
  · intro i hi hi'
    rw [hT', hTperm.mem_iff] at hi
    have hi'' : i ∈ avail n2 := hi'
    simp only [List.mem_cons] at hi
    rcases hi with rfl | rfl | hi
    · exact hAnd.1.2 hi''
    · exact hAnd.2.1 hi''
    · exact hrdy.used i hi (hsub i hi'')
  · intro i n hi hneg
    have hi' : i ∈ avail n2 := mem_avail.2 ⟨n, hi, hneg⟩
    have hiA := hsub i hi'
    have : n2[i]? = s.forest.nodes[i]? := by
      refine hother i (fun e => hAnd.1.2 (e ▸ hi')) (fun e => hAnd.2.1 (e ▸ hi')) (fun e => hrdy.used _ (e ▸ hid) hiA) (fun e => ?_)
      exact hrdy.used _ ((hmem _).2 (Or.inr (hpar _ e))) hiA
    exact hrdy.clean i n (by rw [← this]; exact hi) hneg
  · rw [hT']
  · intro i hi hi'
    refine hother i (fun e => hi' (e ▸ hmp)) (fun e => hi' (e ▸ hms)) (fun e => hi (e ▸ hid)) (fun e => ?_)
    exact hi ((hmem _).2 (Or.inr (hpar _ e)))
  · rw [hT']
    show List.Perm (avail n2 ++ _) _
    refine (hTperm.append_left _).trans ?_
    refine List.Perm.trans ?_ (hApm.symm.append_right _)
    simp only [List.cons_append]
    exact List.perm_middle.trans (List.perm_middle.cons _)
  · show s.free - 2 = _
    have := hApm.length_eq
    simp only [List.length_cons] at this
    show s.free - 2 = ((avail n2).length : Int)
    omega

/-- changing the data of the node looked at -/
theorem done_update {s s' : State K F L} {tree : Nat} {fs : List (Frame K F L)} {t : Tree K F L} (h : Ready s.forest tree (plug fs t))
    (hf : s.free = (avail s.forest.nodes).length) {n n' : Node K F L} (hn : s.forest.nodes[t.id]? = some n)
    (hl : s'.forest.nodes.length = s.forest.nodes.length) (hr : s'.forest.roots = s.forest.roots)
    (hg : ∀ j, s'.forest.nodes[j]? = if j = t.id then some n' else s.forest.nodes[j]?) {d' : Data K F L}
    (e1 : n'.dim = n.dim) (e2 : n'.split = n.split) (e3 : n'.left = n.left) (e4 : n'.right = n.right) (hh : n'.Has (ctxPar fs) d') (ht : n'.tau = n.tau)
    (f1 : s'.free = s.free) (f2 : s'.bases = s.bases) (f3 : s'.total = s.total) (f4 : s'.fading.length = s.fading.length)
    (f5 : s'.forced.length = s.forced.length) (f6 : (∀ v ∈ s.fading, 0 ≤ v) → ∀ v ∈ s'.fading, 0 ≤ v) : Done s s' tree (plug fs t) (plug fs (t.withData d')) := by
  obtain ⟨d, hA⟩ := Mondrian.done_update h hn hl hg e1 e2 e3 e4 hh ht
  have hs : ({ s.forest with nodes := s'.forest.nodes } : Forest K F L) = s'.forest := by
    show (⟨s'.forest.nodes, s.forest.roots⟩ : Forest K F L) = _
    rw [← hr]
  rw [hs] at d
  refine ⟨d.ready, d.roots, hl, d.other, ?_, by rw [hA, f1, hf], f2, f3, f4, f5, f6⟩
  rw [hA]
  refine List.Perm.append_left _ ?_
  refine (plug_ids fs _).trans ?_
  rw [Mondrian.withData_ids]
  exact (plug_ids fs t).symm

end Orp.Coarse
