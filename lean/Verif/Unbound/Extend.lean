import Verif.Unbound.Walk
import Verif.Utils.Closed

/-!
`extend_block` on the heap.
-/

set_option linter.unusedSectionVars false

namespace Orp.Unbound

open Mondrian Finset

variable {K : Type} [Field K] [LinearOrder K] [IsStrictOrderedRing K] [FloorRing K] {F L : Nat}

theorem pickDim_eq (ω : Nat → K) (pos : Nat) (e : Fin F → K) (he : ∀ i, 0 ≤ e i) (hs : 0 < ∑ i, e i) (h1 : ω pos ≤ 1) :
    pickDim ω pos e (∑ i, e i) = Mondrian.pickDim ω pos e (∑ i, e i) := by
  have hsum : (List.ofFn e).sum = ∑ i, e i := by rw [List.sum_ofFn]
  obtain ⟨r, a1, a2, a3, a4, a5, a6, a7⟩ := Utils.C29_cumulative (List.ofFn e) (by simpa [List.mem_ofFn] using he) (by rw [hsum]; exact hs)
  have a1' : Utils.turnIntoProbability (List.ofFn e) (∑ i, e i) = .ok r := by
    rw [← a1]
    unfold Utils.turnIntoProbability
    rw [if_neg (not_lt.2 hs.le), if_pos (by norm_num), Utils.foldl_add, zero_add, hsum]
  obtain ⟨b1, b2⟩ := Utils.C163_pick r a5 a7 h1
  have hlen : r.length = F := by rw [a2]; simp
  have hd : Utils.pick r (ω pos) < F := by omega
  simp only [pickDim, Mondrian.pickDim, a1', bind, Except.bind, hd, dif_pos, pure, Except.pure]

/-- Without rounding, both classes choose the same cut: the case that only the bounded forest guards against does not occur. -/
theorem draw_eq (p : Params K) (ω : Nat → K) (hω : ∀ i, ω i ≤ 1) (pos : Nat) (b : Box K F) (x : Fin F → K) (ptau tau : K) :
    draw p ω pos b x ptau tau = Mondrian.draw p ω pos b x ptau tau := by
  unfold draw Mondrian.draw
  simp only
  by_cases hs : ∑ i, extent b x i = 0
  · rw [if_pos hs, if_pos hs]
  · have hs' : 0 < ∑ i, extent b x i := lt_of_le_of_ne (sum_nonneg' b x) (Ne.symm hs)
    rw [if_neg hs, if_neg hs, pickDim_eq ω (pos + 1) (extent b x) (extent_nonneg b x) hs' (hω _)]

/-- state of the heap before a tree is trained at the place looked at -/
structure Ready (s : Forest K F L) (tree : Nat) (T : Tree K F L) : Prop where
  holds : Holds s.heap none T
  nodup : T.ids.Nodup
  root : s.roots[tree]? = some (some T.id)

/-- leaves have no children -/
def Bare (heap : List (Node K F L)) : Prop := ∀ (i : Nat) (n : Node K F L), heap[i]? = some n → n.dim = none → n.left = none ∧ n.right = none

theorem OnlyCounts.bare {a b : List (Node K F L)} (h : OnlyCounts a b) (ha : Bare a) : Bare b := by
  intro i n hn hd
  have hi : i < a.length := by rw [← h.1]; exact lt_of_get hn
  obtain ⟨c, hc⟩ := h.2 i _ (List.getElem?_eq_getElem hi)
  rw [hn] at hc
  have := Option.some.inj hc
  subst this
  exact ha i a[i] (List.getElem?_eq_getElem hi) hd

theorem ids_lt {heap : List (Node K F L)} {par : Option Nat} {t : Tree K F L} (h : Holds heap par t) : ∀ i ∈ t.ids, i < heap.length := by
  intro i hi
  obtain ⟨n, hn⟩ := holds_mem h i hi
  exact lt_of_get hn

theorem plug_nodup {fs : List (Frame K F L)} {t : Tree K F L} (h : (plug fs t).ids.Nodup) : (t.ids ++ ctxIds fs).Nodup :=
  (plug_ids fs t).nodup_iff.1 h

/-- The node at the place looked at changes. -/
theorem place_update {heap heap' : List (Node K F L)} {fs : List (Frame K F L)} {t : Tree K F L} {n n' : Node K F L} {d' : Data K F L}
    (h : Holds heap none (plug fs t)) (hnd : (plug fs t).ids.Nodup) (hn : heap[t.id]? = some n) (hn' : heap'[t.id]? = some n')
    (hc : ∀ i, i ≠ t.id → heap'[i]? = heap[i]?) (e1 : n'.dim = n.dim) (e2 : n'.split = n.split) (e3 : n'.left = n.left) (e4 : n'.right = n.right)
    (hh : n'.Has (ctxPar fs) d') : Holds heap' none (plug fs (t.withData d')) := by
  obtain ⟨hctx, ht⟩ := holds_plug.1 h
  obtain ⟨ndt, ndc, hdis⟩ := List.nodup_append'.1 (plug_nodup hnd)
  refine holds_plug.2 ⟨?_, ?_⟩
  · rw [withData_id]
    exact holdsCtx_congr (fun i hi => hc i (fun e => hdis (id_mem_ids t) (e ▸ hi))) hctx
  · exact holds_update ndt ht hn hn' (fun i _ hi => hc i hi) e1 e2 e3 e4 hh

/-- the frame of the new parent, for the place of the new leaf -/
def newFrame (np : Nat) (cut : Cut K F) (x : Fin F → K) (t : Tree K F L) : Frame K F L :=
  { id := np
    d := { tau := cut.tau, box := t.data.box.extend x, counts := fun _ => 0 }
    dim := cut.dim
    sp := cut.split
    left := !cut.right
    sib := t }

theorem newFrame_fill (np ns : Nat) (cut : Cut K F) (x : Fin F → K) (t : Tree K F L) (lifetime : K) (label : Fin L) :
    (newFrame np cut x t).fill (newLeaf lifetime ns x label) = above lifetime (np, ns) cut t x label := by
  unfold Frame.fill newFrame above
  cases cut.right <;> rfl

/-- the data of a `LeafNode` after its construction -/
def blankData : Data K F L := { tau := -1, box := { lower := fun _ => 0, upper := fun _ => 0 }, counts := fun _ => 0 }

theorem append_get {α : Type} (l : List α) (a b : α) (j : Nat) : (l ++ [a, b])[j]? =
    if j = l.length then some a else if j = l.length + 1 then some b else l[j]? := by
  by_cases h : j < l.length
  · rw [List.getElem?_append_left h, if_neg (by omega), if_neg (by omega)]
  · rw [List.getElem?_append_right (by omega)]
    split
    · rename_i e; subst e; simp
    · split
      · rename_i e; subst e; simp
      · rw [List.getElem?_eq_none (by simp; omega), List.getElem?_eq_none (by omega)]

theorem insertNodes_spec (s : Forest K F L) (id tree : Nat) (cut : Cut K F) (x : Fin F → K)
    {node : Node K F L} {bx : Box K F} (hn : s.heap[id]? = some node) (hb : node.box = some bx) {root : Option Nat} (hr : s.roots[tree]? = some root)
    {roots' : List (Option Nat)}
    (h : (node.parent = none ∧ root = some id ∧ roots' = s.roots.set tree (some s.heap.length)) ∨
      (∃ q m, node.parent = some q ∧ s.heap[q]? = some m ∧ q ≠ id ∧ roots' = s.roots)) :
    ∃ heap', insertNodes s id tree cut x = .ok { heap := heap', roots := roots', internals := s.internals + 1, leaves := s.leaves + 1, points := s.points } ∧
      heap'.length = s.heap.length + 2 ∧
      ∀ j, heap'[j]? =
        if j = s.heap.length then some { (blankInternal cut : Node K F L) with
          box := some (bx.extend x)
          parent := node.parent
          left := some (if cut.right then id else s.heap.length + 1)
          right := some (if cut.right then s.heap.length + 1 else id) }
        else if j = s.heap.length + 1 then some { (blankLeaf : Node K F L) with parent := some s.heap.length }
        else if j = id then some { node with parent := some s.heap.length }
        else if node.parent = some j then (s.heap[j]?).map (fun m => relinked m id s.heap.length)
        else s.heap[j]? := by
  have hid := lt_of_get hn
  have g0 := append_get s.heap (blankInternal cut : Node K F L) (blankLeaf : Node K F L)
  have e0 : (s.heap ++ [blankInternal cut, blankLeaf])[id]? = some node := by rw [g0, if_neg (by omega), if_neg (by omega), hn]
  obtain ⟨n1, a1, l1, g1⟩ := upd_spec (nodes := s.heap ++ [blankInternal cut, blankLeaf]) (i := s.heap.length) (n := blankInternal cut)
    (fun n => { n with box := some (bx.extend x) }) (by rw [g0, if_pos rfl])
  have e1 : n1[id]? = some node := by rw [g1, if_neg (by omega), e0]
  obtain ⟨n3, a3, l3, g3⟩ := upd_spec (nodes := n1) (i := s.heap.length) (n := { (blankInternal cut : Node K F L) with box := some (bx.extend x) })
    (fun n => { n with parent := node.parent }) (by rw [g1, if_pos rfl])
  have e3 : n3[id]? = some node := by rw [g3, if_neg (by omega), e1]
  have key : ∀ q, q ≠ s.heap.length → q ≠ s.heap.length + 1 → n3[q]? = s.heap[q]? := by
    intro q hq hq'
    rw [g3, if_neg hq, g1, if_neg hq, g0, if_neg hq, if_neg hq']
  have hq : ∀ j, node.parent = some j → j ≠ id ∧ j < s.heap.length := by
    intro j hj
    rcases h with h | ⟨q, m, h4, h5, h6, h9⟩
    · rw [h.1] at hj; cases hj
    · rw [h4] at hj; cases hj; exact ⟨h6, lt_of_get h5⟩
  obtain ⟨n4, a4, l4, g4⟩ := relink_spec { nodes := n3, roots := s.roots } id tree s.heap.length e3 hr (roots' := roots') (by
    rcases h with h | ⟨q, m, h4, h5, h6, h9⟩
    · exact Or.inl h
    · have := lt_of_get h5
      exact Or.inr ⟨q, m, h4, by show n3[q]? = _; rw [key q (by omega) (by omega), h5], h9⟩)
  have e4 : n4[id]? = some node := by rw [g4, if_neg (fun hh => (hq _ hh).1 rfl)]; exact e3
  obtain ⟨n5, a5, l5, g5⟩ := upd_spec (fun n => { n with parent := some s.heap.length }) e4
  have e5 : n5[s.heap.length + 1]? = some blankLeaf := by
    rw [g5, if_neg (by omega), g4, if_neg (fun hh => by have := (hq _ hh).2; omega)]
    show n3[s.heap.length + 1]? = _
    rw [g3, if_neg (by omega), g1, if_neg (by omega), g0, if_neg (by omega), if_pos rfl]
  obtain ⟨n6, a6, l6, g6⟩ := upd_spec (fun n => { n with parent := some s.heap.length }) e5
  have e6 : n6[s.heap.length]? = some { (blankInternal cut : Node K F L) with
      box := some (bx.extend x)
      parent := node.parent } := by
    rw [g6, if_neg (by omega), g5, if_neg (by omega), g4, if_neg (fun hh => by have := (hq _ hh).2; omega)]
    show n3[s.heap.length]? = _
    rw [g3, if_pos rfl]
  obtain ⟨n7, a7, l7, g7⟩ : ∃ n7, (if cut.right = true then upd n6 s.heap.length (fun n => { n with
      right := some (s.heap.length + 1)
      left := some id })
    else upd n6 s.heap.length (fun n => { n with
      left := some (s.heap.length + 1)
      right := some id }) : Res (List (Node K F L))) = .ok n7 ∧ n7.length = n6.length ∧
        ∀ j, n7[j]? = if j = s.heap.length then some { (blankInternal cut : Node K F L) with
          box := some (bx.extend x)
          parent := node.parent
          left := some (if cut.right then id else s.heap.length + 1)
          right := some (if cut.right then s.heap.length + 1 else id) } else n6[j]? := by
    cases hc : cut.right
    · simpa using upd_spec (fun n => { n with
        left := some (s.heap.length + 1)
        right := some id }) e6
    · simpa using upd_spec (fun n => { n with
        right := some (s.heap.length + 1)
        left := some id }) e6
  refine ⟨n7, ?_, ?_, fun j => ?_⟩
  · simp only [insertNodes, rd_eq_ok_iff.2 e0, bind, Except.bind, hb, init, a1, rd_eq_ok_iff.2 e1, a3, a4, a5, a6, a7, pure, Except.pure]
  · rw [l7, l6, l5, l4]
    show n3.length = _
    rw [l3, l1]; simp
  · rw [g7 j]
    by_cases j1 : j = s.heap.length
    · rw [if_pos j1, if_pos j1]
    · rw [if_neg j1, if_neg j1, g6]
      by_cases j2 : j = s.heap.length + 1
      · rw [if_pos j2, if_pos j2]
      · rw [if_neg j2, if_neg j2, g5]
        by_cases j3 : j = id
        · rw [if_pos j3, if_pos j3]
        · rw [if_neg j3, if_neg j3, g4]
          simp only [key j j1 j2]

/-- the new nodes are in the tree -/
theorem insert_holds (s : Forest K F L) (tree : Nat) (cut : Cut K F) (x : Fin F → K) (fs : List (Frame K F L)) (t : Tree K F L)
    (h : Ready s tree (plug fs t)) (hb : Bare s.heap) :
    ∃ s', insertNodes s t.id tree cut x = .ok s' ∧
      Holds s'.heap none (plug (newFrame s.heap.length cut x t :: fs) (.leaf (s.heap.length + 1) blankData)) ∧
      s'.roots = s.roots.set tree (some (plug (newFrame s.heap.length cut x t :: fs) (.leaf (s.heap.length + 1) blankData)).id) ∧
      s'.heap.length = s.heap.length + 2 ∧ s'.internals = s.internals + 1 ∧ s'.leaves = s.leaves + 1 ∧ s'.points = s.points ∧ Bare s'.heap ∧
      ∀ i, i ∉ (plug fs t).ids → i < s.heap.length → s'.heap[i]? = s.heap[i]? := by
  obtain ⟨hctx, ht⟩ := holds_plug.1 h.holds
  obtain ⟨ndt, ndc, hdis⟩ := List.nodup_append'.1 (plug_nodup h.nodup)
  obtain ⟨node, hn, hhas⟩ := holds_root ht
  have hlt := ids_lt h.holds
  have hmem : ∀ i, i ∈ (plug fs t).ids ↔ i ∈ t.ids ∨ i ∈ ctxIds fs := by intro i; rw [(plug_ids fs t).mem_iff, List.mem_append]
  have hidlt : t.id < s.heap.length := lt_of_get hn
  have hpar : ∀ q, ctxPar fs = some q → q ∈ ctxIds fs := by
    intro q hq
    cases fs with
    | nil => cases hq
    | cons f fs => simp only [ctxPar, Option.some.injEq] at hq; subst hq; simp [ctxIds]
  obtain ⟨heap', a1, a2, a3⟩ := insertNodes_spec s t.id tree cut x hn hhas.2.2.1 h.root
    (roots' := s.roots.set tree (some (plug (newFrame s.heap.length cut x t :: fs) (.leaf (s.heap.length + 1) blankData)).id)) (by
      rw [hhas.1]
      cases fs with
      | nil => exact Or.inl ⟨rfl, rfl, by rw [plug, plug, fill_id]; rfl⟩
      | cons f fs =>
          obtain ⟨⟨m, hm, _⟩, _⟩ := hctx
          refine Or.inr ⟨f.id, m, rfl, hm, fun e => hdis (id_mem_ids t) (e ▸ hpar _ rfl), ?_⟩
          rw [plug, plug_id_cons f fs _ t]
          exact set_same h.root)
  have hother : ∀ i, i ≠ t.id → ctxPar fs ≠ some i → i < s.heap.length → heap'[i]? = s.heap[i]? := by
    intro i i1 i2 i3
    rw [a3, if_neg (by omega), if_neg (by omega), if_neg i1, if_neg (by rw [hhas.1]; exact i2)]
  have gpar : ∀ q m, ctxPar fs = some q → s.heap[q]? = some m → heap'[q]? = some (relinked m t.id s.heap.length) := by
    intro q m hq hm
    have := lt_of_get hm
    have hne : q ≠ t.id := fun e => hdis (id_mem_ids t) (e ▸ hpar _ hq)
    rw [a3, if_neg (by omega), if_neg (by omega), if_neg hne, if_pos (by rw [hhas.1]; exact hq), hm]
    rfl
  have gid : heap'[t.id]? = some { node with parent := some s.heap.length } := by
    rw [a3, if_neg (by omega), if_neg (by omega), if_pos rfl]
  have gns : heap'[s.heap.length + 1]? = some { (blankLeaf : Node K F L) with parent := some s.heap.length } := by
    rw [a3, if_neg (by omega), if_pos rfl]
  have gnp := a3 s.heap.length
  rw [if_pos rfl] at gnp
  refine ⟨_, a1, ?_, rfl, a2, rfl, rfl, rfl, ?_, ?_⟩
  · show Holds heap' none _
    rw [holds_plug]
    refine ⟨⟨?_, ?_, ?_⟩, ⟨_, gns, ⟨rfl, rfl, rfl, rfl⟩, rfl⟩⟩
    · refine ⟨_, gnp, ⟨hhas.1, rfl, rfl, rfl⟩, rfl, rfl, ?_, ?_⟩
      · cases hc : cut.right <;> simp [newFrame, hc, Tree.id]
      · cases hc : cut.right <;> simp [newFrame, hc, Tree.id]
    · show Holds heap' (some s.heap.length) t
      have := holds_update (par' := some s.heap.length) (d' := t.data) ndt ht hn gid (fun i hi hi' => hother i hi' (fun e => hdis hi (hpar _ e))
        (hlt i ((hmem i).2 (Or.inl hi)))) rfl rfl rfl rfl ⟨rfl, hhas.2⟩
      cases t <;> exact this
    · show HoldsCtx heap' fs s.heap.length
      refine holdsCtx_relink hctx ndc (fun h => hdis (id_mem_ids t) h) ?_ gpar
      intro i hi hi'
      exact hother i (fun e => hdis (id_mem_ids t) (e ▸ hi)) hi' (hlt i ((hmem i).2 (Or.inr hi)))
  · intro i n hi hd
    rw [show Forest.heap _ = heap' from rfl, a3] at hi
    by_cases i1 : i = s.heap.length
    · rw [if_pos i1] at hi
      have := Option.some.inj hi
      subst this; cases hd
    rw [if_neg i1] at hi
    by_cases i2 : i = s.heap.length + 1
    · rw [if_pos i2] at hi
      have := Option.some.inj hi
      subst this; exact ⟨rfl, rfl⟩
    rw [if_neg i2] at hi
    by_cases i3 : i = t.id
    · rw [if_pos i3] at hi
      have := Option.some.inj hi
      subst this; exact hb t.id node hn hd
    rw [if_neg i3] at hi
    by_cases i4 : node.parent = some i
    · rw [if_pos i4] at hi
      rw [hhas.1] at i4
      cases fs with
      | nil => cases i4
      | cons f fs =>
          cases i4
          obtain ⟨⟨m, hm, _, hm', _⟩, _⟩ := hctx
          rw [hm] at hi
          have := Option.some.inj hi
          subst this
          have : (relinked m t.id s.heap.length).dim = m.dim := by unfold relinked; split <;> rfl
          rw [show Node.dim _ = _ from this, hm'] at hd
          cases hd
    · rw [if_neg i4] at hi
      exact hb i n hi hd
  · intro i hi hi'
    exact hother i (fun e => hi ((hmem i).2 (Or.inl (e ▸ id_mem_ids t)))) (fun e => hi ((hmem i).2 (Or.inr (hpar _ e)))) hi'

theorem length_ctxIds : ∀ fs : List (Frame K F L), fs.length ≤ (ctxIds fs).length
  | [] => le_rfl
  | f :: fs => by
      have := length_ctxIds fs
      simp only [ctxIds, List.length_cons, List.length_append]; omega

/-- The way to the root is shorter than the heap. -/
theorem depth_lt {heap : List (Node K F L)} {fs : List (Frame K F L)} {t : Tree K F L} (h : Holds heap none (plug fs t)) (hnd : (plug fs t).ids.Nodup) :
    fs.length < heap.length := by
  have hlt := ids_lt h
  have hsub : (plug fs t).ids ⊆ List.range heap.length := fun k hk => List.mem_range.2 (hlt k hk)
  have h1 := (List.subperm_of_subset hnd hsub).length_le
  have h2 := (plug_ids fs t).length_eq
  have h3 := length_ctxIds fs
  have h4 : 0 < t.ids.length := List.length_pos_of_mem (id_mem_ids t)
  rw [List.length_append] at h2
  rw [List.length_range] at h1
  omega

/-- `update_counters(label, 1)` of a leaf -/
theorem leaf_walk (k : Fin L) (heap : List (Node K F L)) (fs : List (Frame K F L)) (id : Nat) (d : Data K F L) (h : Holds heap none (plug fs (.leaf id d)))
    (hnd : (plug fs (.leaf id d)).ids.Nodup) :
    ∃ heap', updateCounters (some k) heap.length (some id) heap = .ok heap' ∧ OnlyCounts heap heap' ∧
      Holds heap' none (plug (refix (some k) fs (bump d.counts k)) (.leaf id { tau := d.tau, box := d.box, counts := bump d.counts k })) ∧
      ∀ i, i ∉ (plug fs (.leaf id d)).ids → heap'[i]? = heap[i]? := by
  have hlen := depth_lt h hnd
  obtain ⟨m, hm⟩ : ∃ m, heap.length = m + 1 := ⟨heap.length - 1, by omega⟩
  obtain ⟨hctx, n, h1, h2, h3⟩ := holds_plug.1 h
  obtain ⟨heap1, u1, u2, u3⟩ := upd_spec (fun n => { n with counts := bump n.counts k }) h1
  have hh := place_update (fs := fs) (t := .leaf id d) (heap' := heap1) (n' := { n with counts := bump n.counts k })
    (d' := { tau := d.tau, box := d.box, counts := bump d.counts k }) h hnd h1
    (by rw [u3]; exact if_pos rfl) (fun i hi => by rw [u3]; exact if_neg hi) rfl rfl rfl rfl ⟨h2.1, h2.2.1, h2.2.2.1, by rw [h2.2.2.2]⟩
  obtain ⟨c1, c2⟩ := holds_plug.1 hh
  obtain ⟨heap', a1, a2, a3, a4⟩ := updateCounters_spec (some k) fs _ heap1 m (by omega) c1 c2 (by rw [withData_ids]; exact plug_nodup hnd)
  refine ⟨heap', ?_, OnlyCounts.trans ⟨u2, fun i m hm => ?_⟩ a2, a3, fun i hi => ?_⟩
  · rw [hm]
    simp only [updateCounters, rd_eq_ok_iff.2 h1, bind, Except.bind, h3, u1, h2.1, a1]
  · rw [u3]
    split
    · rename_i e; subst e
      rw [h1] at hm
      have := Option.some.inj hm
      subst this
      exact ⟨_, rfl⟩
    · exact ⟨m.counts, hm⟩
  · rw [(plug_ids fs _).mem_iff, List.mem_append, not_or] at hi
    rw [a4 i hi.2, u3, if_neg (by simpa [Tree.ids] using hi.1)]

theorem sample_spec (p : Params K) (x : Fin F → K) (k : Fin L) (heap : List (Node K F L)) (fs : List (Frame K F L)) (id : Nat) (d : Data K F L)
    (h : Holds heap none (plug fs (.leaf id d))) (hnd : (plug fs (.leaf id d)).ids.Nodup) (hb : Bare heap) :
    ∃ heap', sampleBlock p heap id x k = .ok heap' ∧ heap'.length = heap.length ∧ Bare heap' ∧
      Holds heap' none (plug (refix (some k) fs (bump d.counts k)) (.leaf id { tau := p.lifetime, box := Box.point x, counts := bump d.counts k })) ∧
      ∀ i, i ∉ (plug fs (.leaf id d)).ids → heap'[i]? = heap[i]? := by
  have hmem : id ∈ (plug fs (.leaf id d)).ids := by rw [(plug_ids fs _).mem_iff]; simp [Tree.ids]
  obtain ⟨hctx, n, h1, h2, h3⟩ := holds_plug.1 h
  obtain ⟨heap1, u1, u2, u3⟩ := upd_spec (fun n => { n with box := some { lower := x, upper := x } }) h1
  have hh := place_update (fs := fs) (t := .leaf id d) (heap' := heap1) (n' := { n with box := some { lower := x, upper := x } })
    (d' := { tau := d.tau, box := Box.point x, counts := d.counts }) h hnd h1
    (by rw [u3]; exact if_pos rfl) (fun i hi => by rw [u3]; exact if_neg hi) rfl rfl rfl rfl ⟨h2.1, h2.2.1, rfl, h2.2.2.2⟩
  have hnd1 : (plug fs (.leaf id { tau := d.tau, box := Box.point x, counts := d.counts } : Tree K F L)).ids.Nodup := by
    rw [(plug_ids fs _).nodup_iff]; have := plug_nodup hnd; exact this
  have hb1 : Bare heap1 := by
    intro i m hm hd
    rw [u3] at hm
    split at hm
    · have := Option.some.inj hm
      subst this
      exact hb id n h1 hd
    · exact hb i m hm hd
  obtain ⟨heap2, a1, a2, a3, a4⟩ := leaf_walk k heap1 fs id _ hh hnd1
  obtain ⟨hctx2, n2, e1, e2, e3⟩ := holds_plug.1 a3
  have hnd2 : (plug (refix (some k) fs (bump d.counts k)) (.leaf id { tau := d.tau, box := Box.point x, counts := bump d.counts k } : Tree K F L)).ids.Nodup := by
    rw [(plug_ids _ _).nodup_iff, refix_ids]; have := plug_nodup hnd; exact this
  obtain ⟨heap3, v1, v2, v3⟩ := upd_spec (fun n => { n with tau := p.lifetime }) e1
  have hh3 := place_update (heap' := heap3) (n' := { n2 with tau := p.lifetime })
    (d' := { tau := p.lifetime, box := Box.point x, counts := bump d.counts k }) a3 hnd2 e1
    (by rw [v3]; exact if_pos rfl) (fun i hi => by rw [v3]; exact if_neg hi) rfl rfl rfl rfl ⟨e2.1, rfl, e2.2.2.1, e2.2.2.2⟩
  refine ⟨heap3, ?_, v2.trans (a2.1.trans u2), ?_, hh3, fun i hi => ?_⟩
  · simp only [sampleBlock, u1, bind, Except.bind, a1, v1]
  · intro i m hm hd
    rw [v3] at hm
    split at hm
    · have := Option.some.inj hm
      subst this
      exact a2.bare hb1 id n2 e1 hd
    · exact a2.bare hb1 i m hm hd
  · have hne : i ≠ id := fun e => hi (e ▸ hmem)
    have hi1 : i ∉ (plug fs (.leaf id { tau := d.tau, box := Box.point x, counts := d.counts } : Tree K F L)).ids := by
      rw [(plug_ids fs _).mem_iff] at hi ⊢; exact hi
    rw [v3, if_neg hne, a4 i hi1, u3, if_neg hne]

/-- What training one tree does to the heap. -/
structure Done (s s' : Forest K F L) (tree : Nat) (T T' : Tree K F L) : Prop where
  ready : Ready s' tree T'
  bare : Bare s'.heap
  roots : s'.roots = s.roots.set tree (some T'.id)
  other : ∀ i, i ∉ T.ids → i < s.heap.length → s'.heap[i]? = s.heap[i]?
  points : s'.points = s.points
  taken : (s'.heap.length = s.heap.length ∧ List.Perm T'.ids T.ids ∧ s'.internals = s.internals ∧ s'.leaves = s.leaves) ∨
    (s'.heap.length = s.heap.length + 2 ∧ List.Perm T'.ids (s.heap.length :: (s.heap.length + 1) :: T.ids) ∧ s'.internals = s.internals + 1 ∧
      s'.leaves = s.leaves + 1)

theorem refix_plug_id (w : Option (Fin L)) (c : Fin L → Nat) (fs : List (Frame K F L)) (t t' : Tree K F L) (h : t.id = t'.id) :
    (plug (refix w fs c) t).id = (plug fs t').id := by
  induction fs generalizing c t t' with
  | nil => exact h
  | cons f fs ih =>
      rw [plug, refix, plug]
      exact ih _ _ _ (by rw [fill_id, fill_id]; rfl)

/-- introducing two nodes -/
theorem insert_done (p : Params K) (s : Forest K F L) (tree : Nat) (cut : Cut K F) (x : Fin F → K) (label : Fin L) (fs : List (Frame K F L))
    (t : Tree K F L) (h : Ready s tree (plug fs t)) (hb : Bare s.heap) (ht : t.recount = t) (hs : SibsRight fs) :
    ∃ s1 heap1 heap2, insertNodes s t.id tree cut x = .ok s1 ∧ sampleBlock p s1.heap (s.heap.length + 1) x label = .ok heap1 ∧
      updateCounters none heap1.length (some s.heap.length) heap1 = .ok heap2 ∧
      Done s { s1 with heap := heap2 } tree (plug fs t) (plug fs (above p.lifetime (s.heap.length, s.heap.length + 1) cut t x label)).recount := by
  obtain ⟨s1, a1, a2, a3, a4, a5, a6, a7, a8, a9⟩ := insert_holds s tree cut x fs t h hb
  have hlt := ids_lt h.holds
  have hperm : ∀ d : Data K F L, List.Perm (plug (newFrame s.heap.length cut x t :: fs) (.leaf (s.heap.length + 1) d)).ids
      (s.heap.length :: (s.heap.length + 1) :: (plug fs t).ids) := by
    intro d
    refine (plug_ids _ _).trans ?_
    simp only [Tree.ids, ctxIds, newFrame, List.singleton_append]
    exact (List.Perm.swap _ _ _).trans (List.Perm.cons _ (List.Perm.cons _ (plug_ids fs t).symm))
  have hnd0 : (s.heap.length :: (s.heap.length + 1) :: (plug fs t).ids).Nodup := by
    simp only [List.nodup_cons, List.mem_cons, not_or]
    refine ⟨⟨by omega, fun hm => ?_⟩, fun hm => ?_, h.nodup⟩ <;> · have := hlt _ hm; omega
  have hnd : ∀ d : Data K F L, (plug (newFrame s.heap.length cut x t :: fs) (.leaf (s.heap.length + 1) d)).ids.Nodup := fun d =>
    (hperm d).nodup_iff.2 hnd0
  obtain ⟨heap1, b1, b2, b3, b4, b5⟩ := sample_spec p x label s1.heap _ _ _ a2 (hnd _) a8
  obtain ⟨gs, hgs⟩ : ∃ gs, gs = newFrame s.heap.length cut x t :: fs := ⟨_, rfl⟩
  have hp : ctxPar (refix (some label) gs (bump (fun _ => 0) label)) = some s.heap.length := by rw [refix_par, hgs]; rfl
  have hnd1 : (plug (refix (some label) gs (bump (fun _ => 0) label))
      (newLeaf p.lifetime (s.heap.length + 1) x label : Tree K F L)).ids.Nodup := by
    rw [(plug_ids _ _).nodup_iff, refix_ids, hgs]
    have := plug_nodup (hnd blankData)
    exact this
  rw [← hgs] at b4
  have b4' : Holds heap1 none (plug (refix (some label) gs (bump (fun _ => 0) label)) (newLeaf p.lifetime (s.heap.length + 1) x label)) := b4
  obtain ⟨c1, c2⟩ := holds_plug.1 b4'
  obtain ⟨heap2, d1, d2, d3, d4⟩ := updateCounters_spec none _ _ heap1 heap1.length (depth_lt b4' hnd1).le c1 c2 (plug_nodup hnd1)
  rw [hp] at d1
  have hfin : plug (refix none (refix (some label) gs (bump (fun _ => 0) label)) (newLeaf p.lifetime (s.heap.length + 1) x label : Tree K F L).data.counts)
      (newLeaf p.lifetime (s.heap.length + 1) x label : Tree K F L) =
      (plug fs (above p.lifetime (s.heap.length, s.heap.length + 1) cut t x label)).recount := by
    rw [refix_refix, plug_refix gs _ rfl ?_, hgs, plug, newFrame_fill]
    intro f hf
    rw [hgs] at hf
    rcases List.mem_cons.1 hf with rfl | hf
    · exact ht
    · exact hs f hf
  rw [hfin] at d3
  have hids : List.Perm (plug fs (above p.lifetime (s.heap.length, s.heap.length + 1) cut t x label)).recount.ids
      (s.heap.length :: (s.heap.length + 1) :: (plug fs t).ids) := by
    rw [recount_ids, ← newFrame_fill]
    exact hperm _
  have hroot : (plug fs (above p.lifetime (s.heap.length, s.heap.length + 1) cut t x label)).recount.id =
      (plug (newFrame s.heap.length cut x t :: fs) (.leaf (s.heap.length + 1) blankData)).id := by
    rw [recount_id, ← newFrame_fill]
    exact plug_id_cons (newFrame s.heap.length cut x t) fs _ _
  refine ⟨s1, heap1, heap2, a1, b1, d1, ⟨d3, hids.nodup_iff.2 hnd0, ?_⟩, d2.bare b3, ?_, ?_, a7, Or.inr ⟨?_, hids, a5, a6⟩⟩
  · show s1.roots[tree]? = _
    rw [a3, hroot, List.getElem?_set_self (lt_of_get h.root)]
  · show s1.roots = _
    rw [a3, hroot]
  · intro i hi hi'
    have hmem : ∀ d : Data K F L, i ∉ (plug (newFrame s.heap.length cut x t :: fs) (.leaf (s.heap.length + 1) d)).ids := by
      intro d hm
      rw [(hperm d).mem_iff] at hm
      simp only [List.mem_cons] at hm
      rcases hm with e | e | e
      · omega
      · omega
      · exact hi e
    show heap2[i]? = _
    rw [d4 i ?_, b5 i (hmem _), a9 i hi hi']
    rw [refix_ids, hgs]
    have := hmem blankData
    rw [(plug_ids _ _).mem_iff, List.mem_append, not_or] at this
    exact this.2
  · show heap2.length = _
    rw [d2.1, b2, a4]

theorem Done.trans {s s1 s2 : Forest K F L} {tree : Nat} {T T1 T2 : Tree K F L} (h : Done s s1 tree T T1) (hlen : s1.heap.length = s.heap.length)
    (hids : List.Perm T1.ids T.ids) (h2 : Done s1 s2 tree T1 T2) : Done s s2 tree T T2 := by
  have hc : s1.internals = s.internals ∧ s1.leaves = s.leaves := by
    rcases h.taken with ⟨_, _, h3, h4⟩ | ⟨h1, _⟩
    · exact ⟨h3, h4⟩
    · omega
  refine ⟨h2.ready, h2.bare, ?_, fun i hi hi' => ?_, h2.points.trans h.points, ?_⟩
  · rw [h2.roots, h.roots, List.set_set]
  · rw [h2.other i (fun hh => hi (hids.mem_iff.1 hh)) (by rw [hlen]; exact hi'), h.other i hi hi']
  · rcases h2.taken with ⟨a1, a2, a3, a4⟩ | ⟨a1, a2, a3, a4⟩
    · exact Or.inl ⟨a1.trans hlen, a2.trans hids, a3.trans hc.1, a4.trans hc.2⟩
    · rw [hlen] at a1 a2
      exact Or.inr ⟨a1, a2.trans (List.Perm.cons _ (List.Perm.cons _ hids)), by rw [a3, hc.1], by rw [a4, hc.2]⟩

/-- updating the box of the node looked at -/
theorem box_done (s : Forest K F L) (tree : Nat) (fs : List (Frame K F L)) (t : Tree K F L) (b : Box K F) (h : Ready s tree (plug fs t)) (hb : Bare s.heap)
    {n : Node K F L} (hn : s.heap[t.id]? = some n) (hh : n.Has (ctxPar fs) t.data) :
    ∃ heap1, upd s.heap t.id (fun n => { n with box := some b }) = .ok heap1 ∧ heap1.length = s.heap.length ∧
      List.Perm (plug fs (t.withData { tau := t.data.tau, box := b, counts := t.data.counts })).ids (plug fs t).ids ∧
      Done s { s with heap := heap1 } tree (plug fs t) (plug fs (t.withData { tau := t.data.tau, box := b, counts := t.data.counts })) := by
  obtain ⟨heap1, u1, u2, u3⟩ := upd_spec (fun n => { n with box := some b }) hn
  have hp : List.Perm (plug fs (t.withData { tau := t.data.tau, box := b, counts := t.data.counts })).ids (plug fs t).ids := by
    refine (plug_ids _ _).trans ?_
    rw [withData_ids]
    exact (plug_ids _ _).symm
  have hid : (plug fs (t.withData { tau := t.data.tau, box := b, counts := t.data.counts })).id = (plug fs t).id := by
    cases fs with
    | nil => exact withData_id _ t
    | cons f fs => exact plug_id_cons f fs _ _
  refine ⟨heap1, u1, u2, hp, ⟨?_, hp.nodup_iff.2 h.nodup, ?_⟩, ?_, ?_, ?_, rfl, Or.inl ⟨u2, hp, rfl, rfl⟩⟩
  · exact place_update h.holds h.nodup hn (heap' := heap1) (n' := { n with box := some b }) (by rw [u3]; exact if_pos rfl)
      (fun i hi => by rw [u3]; exact if_neg hi) rfl rfl rfl rfl ⟨hh.1, hh.2.1, rfl, hh.2.2.2⟩
  · show s.roots[tree]? = _
    rw [hid]; exact h.root
  · intro i m hm hd
    rw [show Forest.heap _ = heap1 from rfl, u3] at hm
    split at hm
    · have := Option.some.inj hm
      subst this
      exact hb t.id n hn hd
    · exact hb i m hm hd
  · show s.roots = _
    rw [hid]; exact (set_same h.root).symm
  · intro i hi _
    show heap1[i]? = _
    have hne : i ≠ t.id := fun e => hi (e ▸ (plug_ids fs t).mem_iff.2 (List.mem_append.2 (Or.inl (id_mem_ids t))))
    rw [u3, if_neg hne]

/-- the first steps of `extend_block` -/
theorem extend_head (p : Params K) (ω : Nat → K) (hω : ∀ i, ω i ≤ 1) (x : Fin F → K) (label : Fin L) (tree : Nat) (fuel : Nat) (s : Forest K F L)
    (fs : List (Frame K F L)) (t : Tree K F L) (pos : Nat) {n : Node K F L} (hn : s.heap[t.id]? = some n) (hh : n.Has (ctxPar fs) t.data)
    (hctx : HoldsCtx s.heap fs t.id) :
    extendBlock p ω x label tree (fuel + 1) t.id pos s = (do
      let (cut, pos) ← Mondrian.draw p ω pos t.data.box x (ctxTau fs) t.data.tau
      match cut with
      | some cut => do
        let np := s.heap.length
        let s ← insertNodes s t.id tree cut x
        let heap ← sampleBlock p s.heap (np + 1) x label
        let heap ← updateCounters none heap.length (some np) heap
        return ({ s with heap := heap }, pos)
      | none => do
        let heap ← upd s.heap t.id (fun n => { n with box := some (t.data.box.extend x) })
        match n.dim with
        | some dim => do
            let sp ← init n.split
            let child ← init (if x dim ≤ sp then n.left else n.right)
            extendBlock p ω x label tree fuel child pos { s with heap := heap }
        | none => do
            let heap ← updateCounters (some label) heap.length (some t.id) heap
            return ({ s with heap := heap }, pos)) := by
  rw [extendBlock]
  cases fs with
  | nil =>
      simp only [rd_eq_ok_iff.2 hn, bind, Except.bind, hh.1, ctxPar, ctxTau, hh.2.2.1, init, hh.2.1, draw_eq p ω hω]
      rfl
  | cons f fs =>
      obtain ⟨⟨m, h1, h2, _⟩, _⟩ := hctx
      simp only [rd_eq_ok_iff.2 hn, bind, Except.bind, hh.1, ctxPar, ctxTau, rd_eq_ok_iff.2 h1, Except.map, h2.2.1, hh.2.2.1, init, hh.2.1, draw_eq p ω hω]
      rfl

theorem both_none {c : Option (Cut K F)} {f : Nat × Nat} (h : both c (some f) = none) : c = none := by
  cases c
  · rfl
  · cases h

/-- `extend_block` trains the tree as `grow` says and leaves right counters. -/
theorem extendBlock_spec (p : Params K) (ω : Nat → K) (hω : ∀ i, ω i ≤ 1) (x : Fin F → K) (label : Fin L) (tree : Nat) :
    ∀ (t : Tree K F L) (fuel : Nat) (fs : List (Frame K F L)) (pos : Nat) (s : Forest K F L), t.height ≤ fuel → Ready s tree (plug fs t) → Bare s.heap →
      t.recount = t → SibsRight fs → CtxRight fs t.data.counts →
      match grow p ω (some (s.heap.length, s.heap.length + 1)) x label t (ctxTau fs) pos with
      | .error e => extendBlock p ω x label tree fuel t.id pos s = .error e
      | .ok (t', pos') => ∃ s', extendBlock p ω x label tree fuel t.id pos s = .ok (s', pos') ∧ Done s s' tree (plug fs t) (plug fs t').recount := by
  intro t
  induction t with
  | leaf id d =>
      intro fuel fs pos s hf h hb ht hs hc
      obtain ⟨fuel, rfl⟩ : ∃ k, fuel = k + 1 := ⟨fuel - 1, by simp [Mondrian.Tree.height] at hf; omega⟩
      obtain ⟨hctx, n, h1, h2, h3⟩ := holds_plug.1 h.holds
      have hhead := extend_head p ω hω x label tree fuel s fs (.leaf id d) pos h1 h2 hctx
      simp only [Mondrian.Tree.data] at hhead
      cases hd : Mondrian.draw p ω pos d.box x (ctxTau fs) d.tau with
      | error e =>
          have hg : grow p ω (some (s.heap.length, s.heap.length + 1)) x label (.leaf id d) (ctxTau fs) pos = .error e := by simp only [grow, hd]
          rw [hg, hhead]
          simp only [hd, bind, Except.bind]
      | ok q =>
          obtain ⟨c, pos1⟩ := q
          cases c with
          | some c =>
              have hg : grow p ω (some (s.heap.length, s.heap.length + 1)) x label (.leaf id d) (ctxTau fs) pos =
                  .ok (above p.lifetime (s.heap.length, s.heap.length + 1) c (.leaf id d) x label, pos1) := by simp only [grow, hd, both]
              rw [hg, hhead]
              obtain ⟨s1, heap1, heap2, a1, a2, a3, a4⟩ := insert_done p s tree c x label fs (.leaf id d) h hb ht hs
              exact ⟨_, by simp only [hd, bind, Except.bind, a1, a2, a3, pure, Except.pure], a4⟩
          | none =>
              have hg : grow p ω (some (s.heap.length, s.heap.length + 1)) x label (.leaf id d) (ctxTau fs) pos =
                  .ok (.leaf id { tau := d.tau, box := d.box.extend x, counts := bump d.counts label }, pos1) := by simp only [grow, hd, both]
              rw [hg, hhead]
              obtain ⟨heap1, a1, a2, a3, a4⟩ := box_done s tree fs (.leaf id d) (d.box.extend x) h hb h1 h2
              obtain ⟨heap2, b1, b2, b3, b4⟩ := leaf_walk label heap1 fs id _ a4.ready.holds a4.ready.nodup
              have b3 : Holds heap2 none (plug (refix (some label) fs (bump d.counts label))
                (.leaf id { tau := d.tau, box := d.box.extend x, counts := bump d.counts label })) := b3
              rw [refix_label label fs _ d.counts hc (fun j hj => by simp [bump, Function.update_apply, hj])] at b3
              have hfin := plug_refix fs (.leaf id { tau := d.tau, box := d.box.extend x, counts := bump d.counts label }) rfl hs
              rw [show (Mondrian.Tree.leaf id { tau := d.tau, box := d.box.extend x, counts := bump d.counts label } : Tree K F L).data.counts = bump d.counts label from rfl]
                at hfin
              have b5 : Holds heap2 none (plug fs (.leaf id { tau := d.tau, box := d.box.extend x, counts := bump d.counts label })).recount := by
                rw [← hfin]; exact b3
              have hp : List.Perm (plug fs (.leaf id { tau := d.tau, box := d.box.extend x, counts := bump d.counts label })).recount.ids
                  (plug fs (.leaf id d)).ids := by
                rw [recount_ids]
                exact (plug_ids _ _).trans (plug_ids fs (.leaf id d)).symm
              have hid : (plug fs (.leaf id { tau := d.tau, box := d.box.extend x, counts := bump d.counts label })).recount.id = (plug fs (.leaf id d)).id := by
                rw [recount_id]
                cases fs with
                | nil => rfl
                | cons f fs => exact plug_id_cons f fs _ _
              refine ⟨{ s with heap := heap2 }, ?_, ⟨b5, hp.nodup_iff.2 h.nodup, ?_⟩, b2.bare a4.bare, ?_, ?_, rfl, Or.inl ⟨b2.1.trans a2, hp, rfl, rfl⟩⟩
              · simp only [hd, bind, Except.bind, Mondrian.Tree.id] at a1 ⊢
                simp only [a1, h3, b1, pure, Except.pure]
              · rw [hid]; exact h.root
              · rw [hid]; exact (set_same h.root).symm
              · intro i hi hi'
                show heap2[i]? = _
                rw [b4 i (fun hh => hi (a3.mem_iff.1 hh))]
                exact a4.other i hi hi'
  | node id d dim sp l r ihl ihr =>
      intro fuel fs pos s hf h hb ht hs hc
      obtain ⟨fuel, rfl⟩ : ∃ k, fuel = k + 1 := ⟨fuel - 1, by simp [Mondrian.Tree.height] at hf; omega⟩
      have hfl : l.height ≤ fuel := by
        have : l.height ≤ Nat.max l.height r.height := Nat.le_max_left _ _
        simp only [Mondrian.Tree.height] at hf; omega
      have hfr : r.height ≤ fuel := by
        have : r.height ≤ Nat.max l.height r.height := Nat.le_max_right _ _
        simp only [Mondrian.Tree.height] at hf; omega
      obtain ⟨hctx, hnode⟩ := holds_plug.1 h.holds
      obtain ⟨⟨n, h1, h2, h3, h4, h5, h6⟩, hl, hr⟩ := hnode
      have hhead := extend_head p ω hω x label tree fuel s fs (.node id d dim sp l r) pos h1 h2 hctx
      simp only [Mondrian.Tree.data] at hhead
      cases hd : Mondrian.draw p ω pos d.box x (ctxTau fs) d.tau with
      | error e =>
          have hg : grow p ω (some (s.heap.length, s.heap.length + 1)) x label (.node id d dim sp l r) (ctxTau fs) pos = .error e := by simp only [grow, hd]
          rw [hg, hhead]
          simp only [hd, bind, Except.bind]
      | ok q =>
          obtain ⟨c, pos1⟩ := q
          cases c with
          | some c =>
              have hg : grow p ω (some (s.heap.length, s.heap.length + 1)) x label (.node id d dim sp l r) (ctxTau fs) pos =
                  .ok (above p.lifetime (s.heap.length, s.heap.length + 1) c (.node id d dim sp l r) x label, pos1) := by simp only [grow, hd, both]
              rw [hg, hhead]
              obtain ⟨s1, heap1, heap2, a1, a2, a3, a4⟩ := insert_done p s tree c x label fs (.node id d dim sp l r) h hb ht hs
              exact ⟨_, by simp only [hd, bind, Except.bind, a1, a2, a3, pure, Except.pure], a4⟩
          | none =>
              obtain ⟨heap1, a1, a2, a3, a4⟩ := box_done s tree fs (.node id d dim sp l r) (d.box.extend x) h hb h1 h2
              simp only [Mondrian.Tree.id] at a1
              have htl : l.recount = l ∧ r.recount = r ∧ d.counts = fun i => min 1 (l.data.counts i) + min 1 (r.data.counts i) := by
                simp only [Mondrian.Tree.recount, Mondrian.Tree.node.injEq, true_and] at ht
                obtain ⟨t1, t2, t3⟩ := ht
                refine ⟨t2, t3, ?_⟩
                rw [t2, t3] at t1
                exact (congrArg Data.counts t1).symm
              by_cases hx : x dim ≤ sp
              · have hchild : extendBlock p ω x label tree (fuel + 1) (Mondrian.Tree.node id d dim sp l r).id pos s =
                    extendBlock p ω x label tree fuel l.id pos1 { s with heap := heap1 } := by
                  rw [hhead]
                  simp only [hd, bind, Except.bind, Mondrian.Tree.id, a1, h3, h4, init, if_pos hx, h5]
                rw [hchild]
                obtain ⟨f, hfdef⟩ : ∃ f : Frame K F L, f = { id := id, d := { tau := d.tau, box := d.box.extend x, counts := d.counts }, dim := dim, sp := sp, left := true, sib := r } := ⟨_, rfl⟩
                have hrec := ihl fuel (f :: fs) pos1 { s with heap := heap1 } hfl (by subst hfdef; exact a4.ready) a4.bare htl.1
                  (by
                    intro g hg
                    rcases List.mem_cons.1 hg with rfl | hg
                    · subst hfdef; exact htl.2.1
                    · exact hs g hg)
                  (by
                    subst hfdef
                    refine ⟨?_, hc⟩
                    simp only [frameCounts, recomputed, if_true, min_eq]
                    exact htl.2.2)
                have hlen : ({ s with heap := heap1 } : Forest K F L).heap.length = s.heap.length := a2
                rw [hlen, show ctxTau (f :: fs) = d.tau by subst hfdef; rfl] at hrec
                cases hg : grow p ω (some (s.heap.length, s.heap.length + 1)) x label l d.tau pos1 with
                | error e =>
                    rw [hg] at hrec
                    have hgr : grow p ω (some (s.heap.length, s.heap.length + 1)) x label (.node id d dim sp l r) (ctxTau fs) pos = .error e := by
                      simp only [grow, hd, both, if_pos hx, hg]
                    rw [hgr]; exact hrec
                | ok q =>
                    obtain ⟨l', pos2⟩ := q
                    rw [hg] at hrec
                    have hgr : grow p ω (some (s.heap.length, s.heap.length + 1)) x label (.node id d dim sp l r) (ctxTau fs) pos =
                        .ok (.node id { tau := d.tau, box := d.box.extend x, counts := d.counts } dim sp l' r, pos2) := by
                      simp only [grow, hd, both, if_pos hx, hg]
                    rw [hgr]
                    obtain ⟨s', c1, c2⟩ := hrec
                    refine ⟨s', c1, ?_⟩
                    subst hfdef
                    exact a4.trans a2 a3 c2
              · have hchild : extendBlock p ω x label tree (fuel + 1) (Mondrian.Tree.node id d dim sp l r).id pos s =
                    extendBlock p ω x label tree fuel r.id pos1 { s with heap := heap1 } := by
                  rw [hhead]
                  simp only [hd, bind, Except.bind, Mondrian.Tree.id, a1, h3, h4, init, if_neg hx, h6]
                rw [hchild]
                obtain ⟨f, hfdef⟩ : ∃ f : Frame K F L, f = { id := id, d := { tau := d.tau, box := d.box.extend x, counts := d.counts }, dim := dim, sp := sp, left := false, sib := l } := ⟨_, rfl⟩
                have hrec := ihr fuel (f :: fs) pos1 { s with heap := heap1 } hfr (by subst hfdef; exact a4.ready) a4.bare htl.2.1
                  (by
                    intro g hg
                    rcases List.mem_cons.1 hg with rfl | hg
                    · subst hfdef; exact htl.1
                    · exact hs g hg)
                  (by
                    subst hfdef
                    refine ⟨?_, hc⟩
                    simp only [frameCounts, recomputed, Bool.false_eq_true, if_false, min_eq]
                    exact htl.2.2)
                have hlen : ({ s with heap := heap1 } : Forest K F L).heap.length = s.heap.length := a2
                rw [hlen, show ctxTau (f :: fs) = d.tau by subst hfdef; rfl] at hrec
                cases hg : grow p ω (some (s.heap.length, s.heap.length + 1)) x label r d.tau pos1 with
                | error e =>
                    rw [hg] at hrec
                    have hgr : grow p ω (some (s.heap.length, s.heap.length + 1)) x label (.node id d dim sp l r) (ctxTau fs) pos = .error e := by
                      simp only [grow, hd, both, if_neg hx, hg]
                    rw [hgr]; exact hrec
                | ok q =>
                    obtain ⟨r', pos2⟩ := q
                    rw [hg] at hrec
                    have hgr : grow p ω (some (s.heap.length, s.heap.length + 1)) x label (.node id d dim sp l r) (ctxTau fs) pos =
                        .ok (.node id { tau := d.tau, box := d.box.extend x, counts := d.counts } dim sp l r', pos2) := by
                      simp only [grow, hd, both, if_neg hx, hg]
                    rw [hgr]
                    obtain ⟨s', c1, c2⟩ := hrec
                    refine ⟨s', c1, ?_⟩
                    subst hfdef
                    exact a4.trans a2 a3 c2

end Orp.Unbound
