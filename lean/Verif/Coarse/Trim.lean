import Verif.Coarse.Extend

/-!
`cut_block`, `tree_trim` and `tree_fade_counts`: what they do to a tree.
-/

set_option linter.unusedSectionVars false

namespace Orp.Coarse

open Finset
open Mondrian (Node Box Forest Params Cut upd init extent cutAt bump sampleBlock Tree Data Frame plug ctxPar ctxTau ctxIds HoldsCtx Holds Ready avail mem_avail
  avail_nodup upd_spec lt_of_get newLeaf holds_plug plug_ids holds_root id_mem_ids holds_mem relinked set_same)

variable {K : Type} [Field K] [LinearOrder K] [IsStrictOrderedRing K] [FloorRing K] {F L : Nat}

/-! ### `cut_block` -/

/-- the state after a node was released -/
def released (s : State K F L) (id : Nat) : State K F L := { s with
  forest := { s.forest with nodes := s.forest.nodes.set id resetNode }
  fading := s.fading.set id 0
  forced := s.forced.set id 0
  free := s.free + 1 }

theorem release_ok (s : State K F L) {id : Nat} (h : id < s.forest.nodes.length) (h1 : s.fading.length = s.forest.nodes.length)
    (h2 : s.forced.length = s.forest.nodes.length) : release s id = .ok (released s id) := by
  simp only [release, wr_ok _ h, wr_ok _ (show id < s.fading.length by rw [h1]; exact h), wr_ok _ (show id < s.forced.length by rw [h2]; exact h),
    bind, Except.bind, pure, Except.pure]
  rfl

theorem nodeReset_leaf (s : State K F L) {id : Nat} {n : Node K F L} (h : s.forest.nodes[id]? = some n) (hd : n.dim = none)
    (h1 : s.fading.length = s.forest.nodes.length) (h2 : s.forced.length = s.forest.nodes.length) : nodeReset s id = .ok (released s id) := by
  have hlt := lt_of_get h
  unfold nodeReset
  rw [resetLoop, if_pos (by omega)]
  simp only [rd_eq_ok_iff.2 h, hd, release_ok s hlt h1 h2, bind, Except.bind, pure, Except.pure]
  rfl

theorem cutBlock_nodes (s : State K F L) (tree : Nat) {f : Frame K F L} {fs : List (Frame K F L)} {id : Nat} {d : Data K F L}
    (h : Ready s.forest tree (plug (f :: fs) (.leaf id d))) (h1 : s.fading.length = s.forest.nodes.length)
    (h2 : s.forced.length = s.forest.nodes.length) :
    ∃ s', cutBlock s id tree = .ok s' ∧ s'.forest.roots = s.forest.roots.set tree (some (plug fs f.sib).id) ∧
      s'.forest.nodes.length = s.forest.nodes.length ∧
      (∀ j, s'.forest.nodes[j]? = if j = f.id ∨ j = id then some resetNode else if j = f.sib.id then (s.forest.nodes[j]?).map (fun n => { n with parent := ctxPar fs })
        else if ctxPar fs = some j then (s.forest.nodes[j]?).map (fun n => relinked n f.id f.sib.id) else s.forest.nodes[j]?) ∧
      s'.free = s.free + 2 ∧ s'.bases = s.bases ∧ s'.total = s.total ∧ s'.last = s.last ∧
      s'.fading = (s.fading.set f.id 0).set id 0 ∧ s'.forced = (s.forced.set f.id 0).set id 0 := by
  obtain ⟨⟨⟨m, hm, hmh, hmd, hms, hml, hmr⟩, hsib, hctx⟩, ⟨n, hn, hnh, hnd⟩⟩ := holds_plug.1 h.holds
  obtain ⟨b, hb, hbh⟩ := holds_root hsib
  have hndp := (plug_ids (f :: fs) (.leaf id d)).nodup_iff.1 h.nodup
  simp only [Tree.ids, ctxIds, List.singleton_append, List.nodup_cons, List.mem_cons, List.mem_append, not_or] at hndp
  obtain ⟨⟨n1, n2, n3⟩, ⟨n4, n5⟩, n6⟩ := hndp
  have hid : id ≠ f.id := n1
  have hidsib : id ≠ f.sib.id := fun e => n2 (e ▸ id_mem_ids f.sib)
  have hqsib : f.id ≠ f.sib.id := fun e => n4 (e ▸ id_mem_ids f.sib)
  have hlq := lt_of_get hm
  have hlid := lt_of_get hn
  have hlsib := lt_of_get hb
  have hsibeq : init (if m.right = some id then m.left else m.right) = .ok f.sib.id := by
    have hli : (Mondrian.Tree.leaf id d).id = id := rfl
    rw [hml, hmr, hli]
    cases f.left
    · simp [init]
    · have : ¬ f.sib.id = id := fun e => hidsib e.symm
      simp [init, this]
  have hpar : n.parent = some f.id := hnh.1
  unfold cutBlock
  simp only [rd_eq_ok_iff.2 hn, hpar, init, rd_eq_ok_iff.2 hm, bind, Except.bind]
  unfold init at hsibeq
  simp only [hsibeq]
  cases fs with
  | nil =>
      have hmp : m.parent = none := hmh.1
      have hlt := lt_of_get h.root
      have hn1 : (released s f.id).forest.nodes[id]? = some n := by
        show (s.forest.nodes.set f.id resetNode)[id]? = _
        rw [List.getElem?_set_ne (Ne.symm hid), hn]
      have hr2 := nodeReset_leaf (released s f.id) hn1 hnd (by simp [released, h1]) (by simp [released, h2])
      have hb1 : (released (released s f.id) id).forest.nodes[f.sib.id]? = some b := by
        show ((s.forest.nodes.set f.id resetNode).set id resetNode)[f.sib.id]? = _
        rw [List.getElem?_set_ne hidsib, List.getElem?_set_ne hqsib, hb]
      obtain ⟨n3', u3, l3, g3⟩ := upd_spec (fun n => { n with parent := none }) hb1
      have hw : wr (released (released s f.id) id).forest.roots tree (some f.sib.id) = .ok (s.forest.roots.set tree (some f.sib.id)) := wr_ok _ hlt
      simp only [hmp, release_ok s hlq h1 h2, hr2, hw, u3, pure, Except.pure]
      refine ⟨_, rfl, rfl, ?_, ?_, ?_, rfl, rfl, rfl, rfl, rfl⟩
      · show n3'.length = _
        rw [l3]
        simp [released]
      · intro j
        show n3'[j]? = _
        rw [g3]
        show (if j = f.sib.id then _ else ((s.forest.nodes.set f.id resetNode).set id resetNode)[j]?) = _
        by_cases j1 : j = f.id
        · subst j1
          rw [if_neg hqsib, if_pos (Or.inl rfl), List.getElem?_set_ne hid, List.getElem?_set_self hlq]
        by_cases j2 : j = id
        · subst j2
          rw [if_neg hidsib, if_pos (Or.inr rfl), List.getElem?_set_self (by simpa using hlid)]
        rw [if_neg (show ¬ (j = f.id ∨ j = id) from fun e => e.elim j1 j2)]
        by_cases j3 : j = f.sib.id
        · subst j3
          rw [if_pos rfl, if_pos rfl, hb]
          rfl
        · rw [if_neg j3, if_neg j3, if_neg (by simp [ctxPar]), List.getElem?_set_ne (Ne.symm j2), List.getElem?_set_ne (Ne.symm j1)]
      · show s.free + 1 + 1 = _
        omega
  | cons g fs =>
      obtain ⟨⟨k, hk, hkh, hkd, hks, hkl, hkr⟩, hgs, hctx'⟩ := hctx
      simp only [ctxIds, List.mem_cons, not_or] at n3 n5
      have hgq : g.id ≠ f.id := fun e => n5.1 e.symm
      have hgid : g.id ≠ id := fun e => n3.1 e.symm
      have hgsib : g.id ≠ f.sib.id := by
        intro e
        have := (List.nodup_append'.1 n6).2.2 (e ▸ id_mem_ids f.sib)
        simp [ctxIds] at this
      have hmp : m.parent = some g.id := hmh.1
      obtain ⟨a1, u1, l1, g1⟩ := upd_spec (fun n => if n.right = some f.id then { n with right := some f.sib.id } else { n with left := some f.sib.id }) hk
      have hb1 : a1[f.sib.id]? = some b := by rw [g1, if_neg (Ne.symm hgsib), hb]
      obtain ⟨a2, u2, l2, g2⟩ := upd_spec (fun n => { n with parent := some g.id }) hb1
      have l2' : a2.length = s.forest.nodes.length := by rw [l2, l1]
      have hr1 := release_ok ({ s with forest := { s.forest with nodes := a2 } } : State K F L) (id := f.id) (by show _ < a2.length; rw [l2']; exact hlq)
        (by show s.fading.length = a2.length; rw [l2', h1]) (by show s.forced.length = a2.length; rw [l2', h2])
      have hn1 : (released ({ s with forest := { s.forest with nodes := a2 } } : State K F L) f.id).forest.nodes[id]? = some n := by
        show (a2.set f.id resetNode)[id]? = _
        rw [List.getElem?_set_ne (Ne.symm hid), g2, if_neg hidsib, g1, if_neg (Ne.symm hgid), hn]
      have hr2 := nodeReset_leaf _ hn1 hnd (by simp [released, h1, l2']) (by simp [released, h2, l2'])
      simp only [hmp, u1, u2, hr1, hr2]
      refine ⟨_, rfl, ?_, ?_, ?_, ?_, rfl, rfl, rfl, rfl, rfl⟩
      · show s.forest.roots = _
        have hroot := h.root
        have : (plug (f :: g :: fs) (Mondrian.Tree.leaf id d)).id = (plug (g :: fs) f.sib).id := by
          rw [plug]
          exact Mondrian.plug_id_cons g fs _ _
        rw [← this]
        exact (set_same hroot).symm
      · show ((a2.set f.id resetNode).set id resetNode).length = _
        simp [l2']
      · intro j
        show ((a2.set f.id resetNode).set id resetNode)[j]? = _
        by_cases j1 : j = f.id
        · subst j1
          rw [if_pos (Or.inl rfl), List.getElem?_set_ne hid, List.getElem?_set_self (by rw [l2']; exact hlq)]
        by_cases j2 : j = id
        · subst j2
          rw [if_pos (Or.inr rfl), List.getElem?_set_self (by simpa [l2'] using hlid)]
        rw [if_neg (show ¬ (j = f.id ∨ j = id) from fun e => e.elim j1 j2), List.getElem?_set_ne (Ne.symm j2), List.getElem?_set_ne (Ne.symm j1), g2]
        by_cases j3 : j = f.sib.id
        · subst j3
          rw [if_pos rfl, if_pos rfl, hb]
          rfl
        rw [if_neg j3, if_neg j3, g1]
        by_cases j4 : j = g.id
        · subst j4
          rw [if_pos rfl, if_pos (show ctxPar (g :: fs) = some g.id from rfl), hk]
          simp only [Option.map_some, Option.some.injEq, relinked, hkl, hkr]
          have : ¬ g.sib.id = f.id := fun e => n5.2 (by rw [← e]; exact List.mem_append_left _ (id_mem_ids _))
          cases g.left <;> simp [this]
        · rw [if_neg j4, if_neg (by simpa [ctxPar] using Ne.symm j4)]
      · show s.free + 1 + 1 = _
        omega

theorem cutBlock_spec (s : State K F L) (tree : Nat) {f : Frame K F L} {fs : List (Frame K F L)} {id : Nat} {d : Data K F L}
    (h : Ready s.forest tree (plug (f :: fs) (.leaf id d))) (hf : s.free = (avail s.forest.nodes).length)
    (h1 : s.fading.length = s.forest.nodes.length) (h2 : s.forced.length = s.forest.nodes.length) :
    ∃ s', cutBlock s id tree = .ok s' ∧ Done s s' tree (plug (f :: fs) (.leaf id d)) (plug fs f.sib) ∧ s'.free = s.free + 2 ∧
      s'.fading = (s.fading.set f.id 0).set id 0 := by
  obtain ⟨s', e1, e2, e3, e4, e5, e6, e7, e8, e9, e10⟩ := cutBlock_nodes s tree h h1 h2
  have hall := holds_plug.1 h.holds
  obtain ⟨⟨⟨m, hm, hmh, -, -, -, -⟩, hsib, hctx⟩, ⟨n, hn, hnh, hnd⟩⟩ := hall
  obtain ⟨b, hb, hbh⟩ := holds_root hsib
  have hperm := plug_ids (f :: fs) (Mondrian.Tree.leaf id d)
  have hndp := hperm.nodup_iff.1 h.nodup
  have hperm' := plug_ids fs f.sib
  have hTp : List.Perm (plug (f :: fs) (Mondrian.Tree.leaf id d)).ids (id :: f.id :: (plug fs f.sib).ids) := by
    refine hperm.trans ?_
    simp only [Tree.ids, ctxIds, List.singleton_append]
    exact (hperm'.symm.cons _).cons _
  simp only [Tree.ids, ctxIds, List.singleton_append, List.nodup_cons, List.mem_cons, List.mem_append, not_or] at hndp
  obtain ⟨⟨n1, n2, n3⟩, ⟨n4, n5⟩, n6⟩ := hndp
  obtain ⟨n7, n8, n9⟩ := List.nodup_append'.1 n6
  have hused : ∀ i ∈ (plug (f :: fs) (Mondrian.Tree.leaf id d)).ids, i ∉ avail s.forest.nodes := h.used
  have hlq := lt_of_get hm
  have hlid := lt_of_get hn
  have hpar : ∀ q, ctxPar fs = some q → q ∈ ctxIds fs := by
    intro q hq
    cases fs with
    | nil => cases hq
    | cons f fs => simp only [ctxPar, Option.some.injEq] at hq; subst hq; simp [ctxIds]
  have hparne : ∀ q, ctxPar fs = some q → q ≠ f.id ∧ q ≠ id ∧ q ≠ f.sib.id := fun q hq =>
    ⟨fun e => n5 (e ▸ hpar q hq), fun e => n3 (e ▸ hpar q hq), fun e => n9 (id_mem_ids f.sib) (e ▸ hpar q hq)⟩
  have hother : ∀ i, i ≠ f.id → i ≠ id → i ≠ f.sib.id → ctxPar fs ≠ some i → s'.forest.nodes[i]? = s.forest.nodes[i]? := by
    intro i i1 i2 i3 i4
    rw [e4, if_neg (fun e => e.elim i1 i2), if_neg i3, if_neg i4]
  have gsib : s'.forest.nodes[f.sib.id]? = some { b with parent := ctxPar fs } := by
    rw [e4, if_neg (fun e => e.elim (fun e => n4 (e ▸ id_mem_ids f.sib)) (fun e => n2 (e ▸ id_mem_ids f.sib))), if_pos rfl, hb]
    rfl
  have gpar : ∀ q m, ctxPar fs = some q → s.forest.nodes[q]? = some m → s'.forest.nodes[q]? = some (relinked m f.id f.sib.id) := by
    intro q m hq hm
    obtain ⟨q1, q2, q3⟩ := hparne q hq
    rw [e4, if_neg (fun e => e.elim q1 q2), if_neg q3, if_pos hq, hm]
    rfl
  have hmemT : ∀ i, i ∈ (plug (f :: fs) (Mondrian.Tree.leaf id d)).ids ↔ i = id ∨ i = f.id ∨ i ∈ f.sib.ids ∨ i ∈ ctxIds fs := by
    intro i
    rw [hTp.mem_iff]
    simp only [List.mem_cons, hperm'.mem_iff, List.mem_append]
  -- availability
  have hmemA : ∀ i, i ∈ avail s'.forest.nodes ↔ i = id ∨ i = f.id ∨ i ∈ avail s.forest.nodes := by
    intro i
    by_cases i1 : i = f.id
    · subst i1
      rw [mem_avail, e4, if_pos (Or.inl rfl)]
      refine ⟨fun _ => Or.inr (Or.inl rfl), fun _ => ⟨_, rfl, ?_⟩⟩
      show (-1 : K) < 0
      linarith
    by_cases i2 : i = id
    · subst i2
      rw [mem_avail, e4, if_pos (Or.inr rfl)]
      refine ⟨fun _ => Or.inl rfl, fun _ => ⟨_, rfl, ?_⟩⟩
      show (-1 : K) < 0
      linarith
    have : (i ∈ avail s'.forest.nodes ↔ i ∈ avail s.forest.nodes) := by
      by_cases i3 : i = f.sib.id
      · subst i3
        rw [mem_avail, mem_avail, gsib, hb]
        simp
      by_cases i4 : ctxPar fs = some i
      · obtain ⟨m', hm'⟩ := holds_mem h.holds i ((hmemT i).2 (Or.inr (Or.inr (Or.inr (hpar _ i4)))))
        rw [mem_avail, mem_avail, gpar i m' i4 hm', hm']
        unfold relinked
        split <;> simp
      rw [mem_avail, mem_avail, hother i i1 i2 i3 i4]
    rw [this]
    tauto
  have hAp : List.Perm (avail s'.forest.nodes) (id :: f.id :: avail s.forest.nodes) := by
    refine (List.perm_ext_iff_of_nodup (avail_nodup _) ?_).2 fun i => by rw [hmemA]; simp
    simp only [List.nodup_cons, List.mem_cons, not_or]
    exact ⟨⟨n1, hused id ((hmemT id).2 (Or.inl rfl))⟩, hused f.id ((hmemT f.id).2 (Or.inr (Or.inl rfl))), avail_nodup _⟩
  have hTnd := hTp.nodup_iff.1 h.nodup
  simp only [List.nodup_cons, List.mem_cons, not_or] at hTnd
  refine ⟨s', e1, ⟨⟨?_, hTnd.2.2, ?_, ?_, ?_⟩, e2, e3, ?_, ?_, ?_, e6, e7, ?_, ?_, ?_⟩, e5, e9⟩
  · rw [holds_plug]
    constructor
    · refine Mondrian.holdsCtx_relink (c := f.id) hctx n8 n5 ?_ gpar
      intro i hi hi'
      exact hother i (fun e => n5 (e ▸ hi)) (fun e => n3 (e ▸ hi)) (fun e => n9 (id_mem_ids f.sib) (e ▸ hi)) hi'
    · have := Mondrian.holds_update (par' := ctxPar fs) (d' := f.sib.data) n7 hsib hb gsib (fun i hi hi' => hother i (fun e => n4 (e ▸ hi))
        (fun e => n2 (e ▸ hi)) hi' (fun e => n9 hi (hpar _ e))) rfl rfl rfl rfl ⟨rfl, hbh.2⟩
      have hw : f.sib.withData f.sib.data = f.sib := by cases f.sib <;> rfl
      rw [hw] at this
      exact this
  · rw [e2, List.getElem?_set_self (lt_of_get h.root)]
  · intro i hi
    rw [hmemA]
    rintro (rfl | rfl | hi')
    · exact hTnd.1.2 hi
    · exact hTnd.2.1 hi
    · exact hused i (by rw [hTp.mem_iff]; simp [hi]) hi'
  · intro i n' hi hneg
    have hi' : i ∈ avail s'.forest.nodes := mem_avail.2 ⟨n', hi, hneg⟩
    by_cases i12 : i = f.id ∨ i = id
    · rw [e4, if_pos i12] at hi
      have := Option.some.inj hi
      subst this
      exact ⟨rfl, rfl⟩
    have hiA : i ∈ avail s.forest.nodes := ((hmemA i).1 hi').elim (fun e => absurd (Or.inr e) i12) (fun e => e.elim (fun e => absurd (Or.inl e) i12) (fun e => e))
    have hnT : i ∉ (plug (f :: fs) (Mondrian.Tree.leaf id d)).ids := fun e => hused i e hiA
    rw [hmemT] at hnT
    push Not at hnT
    rw [hother i hnT.2.1 hnT.1 (fun e => hnT.2.2.1 (e ▸ id_mem_ids f.sib)) (fun e => hnT.2.2.2 (hpar _ e))] at hi
    exact h.clean i n' hi hneg
  · intro i hi hi'
    rw [hmemT] at hi
    push Not at hi
    exact hother i hi.2.1 hi.1 (fun e => hi.2.2.1 (e ▸ id_mem_ids f.sib)) (fun e => hi.2.2.2 (hpar _ e))
  · refine (hAp.append_right _).trans ?_
    refine List.Perm.trans ?_ (hTp.symm.append_left _)
    simp only [List.cons_append]
    exact ((List.perm_middle.trans (List.perm_middle.cons _)).symm).trans (List.Perm.refl _)
  · rw [e5, hf, hAp.length_eq]
    simp only [List.length_cons]
    push_cast
    ring
  · rw [e9]; simp
  · rw [e10]; simp
  · intro hp v hv
    rw [e9] at hv
    rcases List.mem_or_eq_of_mem_set hv with hv | rfl
    · rcases List.mem_or_eq_of_mem_set hv with hv | rfl
      · exact hp v hv
      · exact le_rfl
    · exact le_rfl

end Orp.Coarse
