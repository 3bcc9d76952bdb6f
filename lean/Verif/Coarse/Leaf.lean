import Verif.Coarse.Count

/-!
The split of a leaf by `split_barycenter`.
-/

set_option linter.unusedSectionVars false

namespace Orp.Coarse

open Finset
open Mondrian (Node Box Forest Params Cut upd init extent cutAt bump sampleBlock Tree Data Frame plug ctxPar ctxTau ctxIds HoldsCtx Holds Ready avail mem_avail
  avail_nodup upd_spec avail_used lt_of_get newLeaf Clean relinked holds_plug plug_ids holds_root id_mem_ids holds_mem set_same plug_id_cons)

variable {K : Type} [Field K] [LinearOrder K] [IsStrictOrderedRing K] [FloorRing K] {F L : Nat}

/-- the part of a box below a value, or above -/
def sidePart (b : Box K F) (dim : Fin F) (v : K) (onLeft : Bool) : Box K F :=
  if onLeft then { b with upper := Function.update b.upper dim v } else { b with lower := Function.update b.lower dim v }

/-- the leaf with one more point -/
def give (id : Nat) (d : Data K F L) (x : Fin F → K) (label : Fin L) : Tree K F L :=
  .leaf id { tau := d.tau, box := d.box.extend x, counts := bump d.counts label }

/-- The tree with two leaves that replaces a leaf: the leaf keeps all its counters and gets the part of its box on one side of the split, the new leaf at place `ns` gets
the other part and no points; then the point is counted on its side of the split. -/
def splitTree (lifetime tau : K) (np ns id : Nat) (d : Data K F L) (dim : Fin F) (v : K) (onLeft : Bool) (x : Fin F → K) (label : Fin L) : Tree K F L :=
  let kept : Data K F L := { tau := d.tau, box := sidePart d.box dim v onLeft, counts := d.counts }
  let fresh : Data K F L := { tau := lifetime, box := sidePart d.box dim v (!onLeft), counts := fun _ => 0 }
  let idL := if onLeft then id else ns
  let idR := if onLeft then ns else id
  let dL := if onLeft then kept else fresh
  let dR := if onLeft then fresh else kept
  .node np { tau := tau, box := d.box.extend x, counts := fun _ => 0 } dim v
    (if v < x dim then .leaf idL dL else give idL dL x label) (if v < x dim then give idR dR x label else .leaf idR dR)

theorem splitTree_id (lifetime tau : K) (np ns id : Nat) (d : Data K F L) (dim : Fin F) (v : K) (onLeft : Bool) (x : Fin F → K) (label : Fin L) :
    (splitTree lifetime tau np ns id d dim v onLeft x label).id = np := rfl

theorem splitTree_ids (lifetime tau : K) (np ns id : Nat) (d : Data K F L) (dim : Fin F) (v : K) (onLeft : Bool) (x : Fin F → K) (label : Fin L) :
    List.Perm (splitTree lifetime tau np ns id d dim v onLeft x label).ids [np, ns, id] := by
  unfold splitTree give
  cases onLeft <;> by_cases hv : v < x dim
  · simp [Mondrian.Tree.ids, hv]
  · simp [Mondrian.Tree.ids, hv]
  · simp only [Mondrian.Tree.ids, hv, if_true, List.cons_append, List.nil_append]
    exact (List.Perm.swap ns id []).cons np
  · simp only [Mondrian.Tree.ids, hv, if_true, if_false, List.cons_append, List.nil_append]
    exact (List.Perm.swap ns id []).cons np

/-! ### The nodes during the split -/

/-- The nodes when `np`, `ns` and `id` have the contents `A`, `B`, `C`, and the link of the node `par` to `id` leads to `np` -/
structure Form (old nodes : List (Node K F L)) (np ns id : Nat) (par : Option Nat) (A B C : Node K F L) : Prop where
  length : nodes.length = old.length
  get : ∀ i, nodes[i]? = if i = np then some A else if i = ns then some B else if i = id then some C
    else if par = some i then (old[i]?).map (fun m => relinked m id np) else old[i]?

section

variable {old nodes : List (Node K F L)} {np ns id : Nat} {par : Option Nat} {A B C : Node K F L}

theorem Form.atNp (h : Form old nodes np ns id par A B C) : nodes[np]? = some A := by rw [h.get, if_pos rfl]

theorem Form.atNs (h : Form old nodes np ns id par A B C) (h1 : np ≠ ns) : nodes[ns]? = some B := by rw [h.get, if_neg (Ne.symm h1), if_pos rfl]

theorem Form.atId (h : Form old nodes np ns id par A B C) (h2 : id ≠ np) (h3 : id ≠ ns) : nodes[id]? = some C := by rw [h.get, if_neg h2, if_neg h3, if_pos rfl]

theorem Form.upd_np (h : Form old nodes np ns id par A B C) (f : Node K F L → Node K F L) :
    ∃ nodes', upd nodes np f = .ok nodes' ∧ Form old nodes' np ns id par (f A) B C := by
  obtain ⟨n, u, l, g⟩ := upd_spec f h.atNp
  refine ⟨n, u, l.trans h.length, fun i => ?_⟩
  rw [g]
  split
  · rfl
  · rename_i hi; rw [h.get, if_neg hi]

theorem Form.upd_ns (h : Form old nodes np ns id par A B C) (h1 : np ≠ ns) (f : Node K F L → Node K F L) :
    ∃ nodes', upd nodes ns f = .ok nodes' ∧ Form old nodes' np ns id par A (f B) C := by
  obtain ⟨n, u, l, g⟩ := upd_spec f (h.atNs h1)
  refine ⟨n, u, l.trans h.length, fun i => ?_⟩
  rw [g]
  by_cases hi : i = ns
  · subst hi; rw [if_pos rfl, if_neg (Ne.symm h1), if_pos rfl]
  · rw [if_neg hi, h.get, if_neg hi, if_neg hi]

theorem Form.upd_id (h : Form old nodes np ns id par A B C) (h2 : id ≠ np) (h3 : id ≠ ns) (f : Node K F L → Node K F L) :
    ∃ nodes', upd nodes id f = .ok nodes' ∧ Form old nodes' np ns id par A B (f C) := by
  obtain ⟨n, u, l, g⟩ := upd_spec f (h.atId h2 h3)
  refine ⟨n, u, l.trans h.length, fun i => ?_⟩
  rw [g]
  by_cases hi : i = id
  · subst hi; rw [if_pos rfl, if_neg h2, if_neg h3, if_pos rfl]
  · rw [if_neg hi, h.get, if_neg hi, if_neg hi]

theorem Form.set_id (h : Form old nodes np ns id par A B C) (h2 : id ≠ np) (h3 : id ≠ ns) (C' : Node K F L) : Form old (nodes.set id C') np ns id par A B C' := by
  have hlt := lt_of_get (h.atId h2 h3)
  refine ⟨by rw [List.length_set]; exact h.length, fun i => ?_⟩
  by_cases hi : i = id
  · subst hi; rw [List.getElem?_set_self hlt, if_neg h2, if_neg h3, if_pos rfl]
  · rw [List.getElem?_set_ne (Ne.symm hi), h.get, if_neg hi, if_neg hi]

end

/-! ### The loops at a leaf -/

theorem level_zero : level 0 = .ok 0 := rfl

theorem tourFrom_leaf {A : Type} (act : Node K F L → A → Res (Node K F L × A)) (nodes : List (Node K F L)) (id : Nat) (a : A) {n : Node K F L}
    (hn : nodes[id]? = some n) (hd : n.dim = none) {n' : Node K F L} {a' : A} (ha : act n a = .ok (n', a')) :
    tourFrom act nodes id a = .ok (true, nodes.set id n', a') := by
  have hlt := lt_of_get hn
  unfold tourFrom
  rw [tour, if_pos (by omega)]
  simp only [rd_eq_ok_iff.2 hn, level_zero, hd, bind, Except.bind, ha, wr_ok _ hlt, if_true, pure, Except.pure]
  rw [wr_ok _ (by simp)]
  rfl

theorem adjustBoxes_leaf (s : State K F L) (id : Nat) (dim : Fin F) (v : K) (onLeft : Bool) (tree : Nat) {n : Node K F L} {b : Box K F}
    (hn : s.forest.nodes[id]? = some n) (hd : n.dim = none) (hb : n.box = some b) :
    adjustBoxes s id dim v onLeft tree = s.upd id (fun n => { n with box := some (clip onLeft dim v b) }) := by
  have hlt := lt_of_get hn
  unfold adjustBoxes
  rw [adjustLoop, if_pos (by omega)]
  simp only [rd_eq_ok_iff.2 hn, level_zero, hd, hb, init, bind, Except.bind, if_true, pure, Except.pure]
  rw [wr_ok _ (by simp)]
  simp only
  cases s.upd id (fun n => { n with box := some (clip onLeft dim v b) }) <;> rfl

theorem passDown_leaf (x : Fin F → K) (label : Fin L) (fuel id : Nat) (s : State K F L) {n : Node K F L} {b : Box K F}
    (hn : s.forest.nodes[id]? = some n) (hd : n.dim = none) (hb : n.box = some b) :
    passDown x label (fuel + 1) id s = (do
      let s ← s.upd id (fun n => { n with box := some (b.extend x) })
      let s ← countAt s id label
      return (id, s)) := by
  rw [passDown]
  simp only [rd_eq_ok_iff.2 hn, hd, hb, init, bind, Except.bind]

theorem round_nat (n : Nat) : Utils.round (n : K) = n := by
  have h0 : (0 : K) ≤ n := Nat.cast_nonneg n
  unfold Utils.round Utils.trunc
  rw [if_neg (not_lt.2 h0), if_neg (by linarith [show (0 : K) < 1 / 2 by norm_num])]
  rw [Int.floor_eq_iff]
  constructor
  · push_cast; linarith [show (0 : K) < 1 / 2 by norm_num]
  · push_cast; linarith [show (1 : K) / 2 < 1 by norm_num]

/-- The box has been cut already: the leaf keeps all its counters. -/
theorem counterLeaf_cut (dim : Fin F) (v : K) (onLeft : Bool) (n : Node K F L) (b : Box K F) (h1 : b.lower dim < v) (h2 : v < b.upper dim)
    (hb : n.box = some (sidePart b dim v onLeft)) : counterLeaf dim v (!onLeft) n (fun _ => 0) = .ok (n, fun _ => 0) := by
  have hp : (if (!onLeft) = true then share (sidePart b dim v onLeft) dim v else 1 - share (sidePart b dim v onLeft) dim v) = 0 := by
    cases onLeft
    · have : b.upper dim - v ≠ 0 := ne_of_gt (sub_pos.2 h2)
      simp [share, sidePart, this, Utils.max, Utils.min]
    · have : v - b.lower dim ≠ 0 := ne_of_gt (sub_pos.2 h1)
      simp [share, sidePart, this, Utils.max, Utils.min, div_self this]
  unfold counterLeaf
  simp only [hb, init, bind, Except.bind, pure, Except.pure, hp, sub_zero, mul_one, mul_zero, round_nat]
  have hz : (Utils.round (0 : K)) = 0 := by simpa using round_nat (K := K) 0
  simp only [hz, Int.toNat_natCast, Int.toNat_zero, add_zero]
  rw [← hb]

theorem clip_cut (dim : Fin F) (v : K) (onLeft : Bool) (b : Box K F) (h1 : b.lower dim < v) (h2 : v < b.upper dim) :
    clip onLeft dim v (sidePart b dim v onLeft) = sidePart b dim v onLeft := by
  cases onLeft
  · have hm : Utils.max (b.upper dim) v = b.upper dim := by unfold Utils.max; split <;> [rfl; linarith]
    have hv : Utils.max v v = v := by unfold Utils.max; split <;> rfl
    simp [clip, sidePart, hm, hv]
  · have hm : Utils.min (b.lower dim) v = b.lower dim := by unfold Utils.min; split <;> [rfl; linarith]
    have hv : Utils.min v v = v := by unfold Utils.min; split <;> rfl
    simp [clip, sidePart, hm, hv]

theorem sideLeaf_ok (ω : Nat → K) (dim : Fin F) (v : K) {n : Node K F L} {b : Box K F} (hb : n.box = some b) (a : Int × Int × Nat) :
    ∃ l r pos, sideLeaf ω dim v n a = .ok (n, l, r, pos) := by
  unfold sideLeaf
  simp only [hb, init, bind, Except.bind, pure, Except.pure]
  split
  · split
    · exact ⟨_, _, _, rfl⟩
    · split <;> exact ⟨_, _, _, rfl⟩
  · split <;> exact ⟨_, _, _, rfl⟩

/-! ### Two nodes for a leaf -/

theorem two_nodes (s : State K F L) (hfree : s.free = (avail s.forest.nodes).length) (h2 : 2 ≤ s.free) (f : Node K F L → Node K F L) (hf : ∀ n, 0 ≤ (f n).tau) :
    ∃ np ns a b n1, np ∈ avail s.forest.nodes ∧ ns ∈ avail s.forest.nodes ∧ np ≠ ns ∧ s.forest.nodes[np]? = some a ∧ s.forest.nodes[ns]? = some b ∧
      a.tau < 0 ∧ b.tau < 0 ∧
      takeNode s = .ok (some np, { s with last := np }) ∧ upd s.forest.nodes np f = .ok n1 ∧ n1.length = s.forest.nodes.length ∧
      (∀ i, n1[i]? = if i = np then some (f a) else s.forest.nodes[i]?) ∧
      takeNode { s with
        forest := { s.forest with nodes := n1 }
        last := np } = .ok (some ns, { s with
        forest := { s.forest with nodes := n1 }
        last := ns }) := by
  have hlen : 2 ≤ (avail s.forest.nodes).length := by omega
  obtain ⟨np, hmp, tk1⟩ := takeNode_some s (by omega) (by rintro h; rw [h] at hlen; simp at hlen)
  obtain ⟨a, ha, hat⟩ := mem_avail.1 hmp
  obtain ⟨n1, u1, l1, g1⟩ := upd_spec f ha
  have hav1 : avail n1 = (avail s.forest.nodes).filter (fun i => i ∉ [np]) := by
    refine avail_used l1 [np] ?_ ?_ ?_
    · intro i _ hi
      rw [g1, if_neg (by simpa using hi)]
    · intro i hi
      rw [List.mem_singleton.1 hi, mem_avail, g1, if_pos rfl]
      rintro ⟨n, e, hneg⟩
      have := Option.some.inj e
      subst this
      exact absurd hneg (not_lt.2 (hf a))
    · intro i hi
      rw [mem_avail, g1]
      split
      · rename_i e; subst e; exact absurd hmp hi
      · rw [← mem_avail]; exact hi
  have hne1 : avail n1 ≠ [] := by
    rw [hav1]
    intro he
    rw [List.filter_eq_nil_iff] at he
    have : avail s.forest.nodes ⊆ [np] := by
      intro i hi
      have := he i hi
      simpa using this
    have := (List.subperm_of_subset (avail_nodup _) this).length_le
    simp at this
    omega
  obtain ⟨ns, hms', tk2⟩ := takeNode_some ({ s with
    forest := { s.forest with nodes := n1 }
    last := np } : State K F L) (by show s.free ≠ 0; omega) hne1
  have hms1 : ns ∈ avail n1 := hms'
  have hms : ns ∈ avail s.forest.nodes := by rw [hav1] at hms1; exact (List.mem_filter.1 hms1).1
  have h3 : np ≠ ns := by
    rw [hav1] at hms1
    have := (List.mem_filter.1 hms1).2
    simp only [List.mem_singleton, decide_eq_true_eq] at this
    exact Ne.symm this
  obtain ⟨b, hb, hbt⟩ := mem_avail.1 hms
  exact ⟨np, ns, a, b, n1, hmp, hms, h3, ha, hb, hat, hbt, tk1, u1, l1, g1, tk2⟩

/-- The leaf at place `id` has become a tree that consists of this node and of two more. -/
theorem done_two {s s' : State K F L} {tree : Nat} {fs : List (Frame K F L)} {id : Nat} {d : Data K F L} (hrdy : Ready s.forest tree (plug fs (.leaf id d)))
    (hfree : s.free = (avail s.forest.nodes).length) {np ns : Nat} (hmp : np ∈ avail s.forest.nodes) (hms : ns ∈ avail s.forest.nodes) (h3 : np ≠ ns)
    {A B C : Node K F L} (hF : Form s.forest.nodes s'.forest.nodes np ns id (ctxPar fs) A B C) (hA : 0 ≤ A.tau) (hB : 0 ≤ B.tau) (hC : 0 ≤ C.tau)
    {T' : Tree K F L} (hT'id : T'.id = np) (hT'ids : List.Perm T'.ids [np, ns, id]) (hT : Holds s'.forest.nodes (ctxPar fs) T')
    (hroots : s'.forest.roots = s.forest.roots.set tree (some (plug fs T').id)) (f1 : s'.free = s.free - 2) (f2 : s'.bases = s.bases) (f3 : s'.total = s.total)
    (f4 : s'.fading.length = s.fading.length) (f5 : s'.forced.length = s.forced.length) (f6 : (∀ v ∈ s.fading, 0 ≤ v) → ∀ v ∈ s'.fading, 0 ≤ v) :
    Done s s' tree (plug fs (.leaf id d)) (plug fs T') := by
  obtain ⟨hctx, ht⟩ := holds_plug.1 hrdy.holds
  have hperm := plug_ids fs (Mondrian.Tree.leaf id d)
  have hnd := hperm.nodup_iff.1 hrdy.nodup
  obtain ⟨ndt, ndc, hdis⟩ := List.nodup_append'.1 hnd
  have hidm : id ∈ (Mondrian.Tree.leaf id d : Tree K F L).ids := by simp [Mondrian.Tree.ids]
  have hmem : ∀ i, i ∈ (plug fs (Mondrian.Tree.leaf id d)).ids ↔ i = id ∨ i ∈ ctxIds fs := by
    intro i; rw [hperm.mem_iff, List.mem_append]; simp [Mondrian.Tree.ids]
  have hnp : np ∉ (plug fs (Mondrian.Tree.leaf id d)).ids := fun h => hrdy.used _ h hmp
  have hns : ns ∉ (plug fs (Mondrian.Tree.leaf id d)).ids := fun h => hrdy.used _ h hms
  have hid : id ∈ (plug fs (Mondrian.Tree.leaf id d)).ids := (hmem _).2 (Or.inl rfl)
  have h1 : id ≠ np := fun h => hnp (h ▸ hid)
  have h2' : id ≠ ns := fun h => hns (h ▸ hid)
  have hpar : ∀ q, ctxPar fs = some q → q ∈ ctxIds fs := by
    intro q hq
    cases fs with
    | nil => cases hq
    | cons f fs => simp only [ctxPar, Option.some.injEq] at hq; subst hq; simp [ctxIds]
  have hparne : ∀ q, ctxPar fs = some q → q ≠ id ∧ q ≠ np ∧ q ≠ ns := by
    intro q hq
    have hq' := hpar q hq
    refine ⟨fun e => ?_, fun e => hnp (e ▸ (hmem _).2 (Or.inr hq')), fun e => hns (e ▸ (hmem _).2 (Or.inr hq'))⟩
    exact hdis hidm (e ▸ hq')
  generalize hn2 : s'.forest.nodes = n2 at hF hT
  have l2' := hF.length
  have g2 := hF.get
  have hother : ∀ i, i ≠ np → i ≠ ns → i ≠ id → ctxPar fs ≠ some i → n2[i]? = s.forest.nodes[i]? := by
    intro i i1 i2 i3 i4
    rw [g2, if_neg i1, if_neg i2, if_neg i3, if_neg i4]
  have gpar : ∀ q m, ctxPar fs = some q → s.forest.nodes[q]? = some m → n2[q]? = some (relinked m id np) := by
    intro q m hq hm
    obtain ⟨q1, q2, q3⟩ := hparne q hq
    rw [g2, if_neg q2, if_neg q3, if_neg q1, if_pos hq, hm]; rfl
  have gid : n2[id]? = some C := by rw [g2, if_neg h1, if_neg h2', if_pos rfl]
  have hav2 : avail n2 = (avail s.forest.nodes).filter (fun i => i ∉ [np, ns]) := by
    refine avail_used l2' [np, ns] ?_ ?_ ?_
    · intro i hi hi'
      simp only [List.mem_cons, List.not_mem_nil, or_false, not_or] at hi'
      refine hother i hi'.1 hi'.2 (fun e => hrdy.used _ (e ▸ hid) hi) (fun e => ?_)
      exact hrdy.used _ ((hmem _).2 (Or.inr (hpar _ e))) hi
    · intro i hi
      simp only [List.mem_cons, List.not_mem_nil, or_false] at hi
      rw [mem_avail, g2]
      rcases hi with rfl | rfl
      · rw [if_pos rfl]
        rintro ⟨n, e, hneg⟩
        have := Option.some.inj e
        subst this
        exact absurd hneg (not_lt.2 hA)
      · rw [if_neg (Ne.symm h3), if_pos rfl]
        rintro ⟨n, e, hneg⟩
        have := Option.some.inj e
        subst this
        exact absurd hneg (not_lt.2 hB)
    · intro i hi
      by_cases i1 : i = np
      · subst i1; exact absurd hmp hi
      by_cases i2 : i = ns
      · subst i2; exact absurd hms hi
      by_cases i3 : i = id
      · subst i3
        rw [mem_avail, gid]
        rintro ⟨n, e, hneg⟩
        have := Option.some.inj e
        subst this
        exact absurd hneg (not_lt.2 hC)
      by_cases i4 : ctxPar fs = some i
      · obtain ⟨m, hm⟩ := holds_mem hrdy.holds i ((hmem _).2 (Or.inr (hpar _ i4)))
        rw [mem_avail, gpar i m i4 hm]
        rintro ⟨n, e, hneg⟩
        have := Option.some.inj e
        subst this
        refine hi (mem_avail.2 ⟨m, hm, ?_⟩)
        unfold relinked at hneg
        split at hneg <;> exact hneg
      · rw [mem_avail, hother i i1 i2 i3 i4, ← mem_avail]; exact hi
  have hApm : List.Perm (avail s.forest.nodes) (np :: ns :: avail n2) := by
    refine (List.perm_ext_iff_of_nodup (avail_nodup _) ?_).2 fun i => ?_
    · rw [hav2]
      simp only [List.nodup_cons, List.mem_cons, not_or, List.mem_filter]
      refine ⟨⟨h3, ?_⟩, ?_, (avail_nodup _).filter _⟩ <;> simp
    · rw [hav2]
      simp only [List.mem_cons, List.mem_filter, List.not_mem_nil, or_false, decide_eq_true_eq, not_or]
      constructor
      · intro h
        by_cases i1 : i = np
        · exact Or.inl i1
        by_cases i2 : i = ns
        · exact Or.inr (Or.inl i2)
        exact Or.inr (Or.inr ⟨h, i1, i2⟩)
      · rintro (rfl | rfl | h)
        · exact hmp
        · exact hms
        · exact h.1
  have hAnd := hApm.nodup_iff.1 (avail_nodup _)
  simp only [List.nodup_cons, List.mem_cons, not_or] at hAnd
  have hsub : ∀ i ∈ avail n2, i ∈ avail s.forest.nodes := fun i hi => hApm.mem_iff.2 (by simp [hi])
  have hTperm : List.Perm (plug fs T').ids (np :: ns :: (plug fs (Mondrian.Tree.leaf id d)).ids) := by
    refine (plug_ids fs _).trans ?_
    refine (hT'ids.append_right _).trans ?_
    simp only [List.cons_append]
    exact List.Perm.cons _ (List.Perm.cons _ hperm.symm)
  refine ⟨⟨?_, ?_, ?_, ?_, ?_⟩, hroots, by rw [hn2]; exact l2', ?_, ?_, ?_, f2, f3, f4, f5, f6⟩
  · rw [hn2, holds_plug, hT'id]
    refine ⟨Mondrian.holdsCtx_relink hctx ndc (fun h => hdis hidm h) ?_ gpar, hT⟩
    intro i hi hi'
    exact hother i (fun e => hnp (e ▸ (hmem _).2 (Or.inr hi))) (fun e => hns (e ▸ (hmem _).2 (Or.inr hi)))
      (fun e => hdis hidm (e ▸ hi)) hi'
  · rw [hTperm.nodup_iff]
    simp only [List.nodup_cons, List.mem_cons, not_or]
    exact ⟨⟨h3, hnp⟩, hns, hrdy.nodup⟩
  · rw [hroots, List.getElem?_set_self (lt_of_get hrdy.root)]
  · intro i hi hi'
    rw [hTperm.mem_iff] at hi
    rw [hn2] at hi'
    simp only [List.mem_cons] at hi
    rcases hi with rfl | rfl | hi
    · exact hAnd.1.2 hi'
    · exact hAnd.2.1 hi'
    · exact hrdy.used i hi (hsub i hi')
  · intro i n hi hneg
    rw [hn2] at hi
    have hi' : i ∈ avail n2 := mem_avail.2 ⟨n, hi, hneg⟩
    have hiA := hsub i hi'
    have : n2[i]? = s.forest.nodes[i]? := by
      refine hother i (fun e => hAnd.1.2 (e ▸ hi')) (fun e => hAnd.2.1 (e ▸ hi')) (fun e => hrdy.used _ (e ▸ hid) hiA) (fun e => ?_)
      exact hrdy.used _ ((hmem _).2 (Or.inr (hpar _ e))) hiA
    exact hrdy.clean i n (by rw [← this]; exact hi) hneg
  · intro i hi hi'
    rw [hn2]
    refine hother i (fun e => hi' (e ▸ hmp)) (fun e => hi' (e ▸ hms)) (fun e => hi (e ▸ hid)) (fun e => ?_)
    exact hi ((hmem _).2 (Or.inr (hpar _ e)))
  · rw [hn2]
    refine (hTperm.append_left _).trans ?_
    refine List.Perm.trans ?_ (hApm.symm.append_right _)
    simp only [List.cons_append]
    exact List.perm_middle.trans (List.perm_middle.cons _)
  · have := hApm.length_eq
    simp only [List.length_cons] at this
    rw [f1, hn2]
    omega

theorem Form.link {old N : List (Node K F L)} {np ns id : Nat} {A B C : Node K F L} (h : Form old N np ns id none A B C) (h1 : id ≠ np) (h2 : id ≠ ns)
    {R roots' : List (Option Nat)} {tree : Nat} {root : Option Nat} (hr : R[tree]? = some root)
    (hp : (C.parent = none ∧ root = some id ∧ roots' = R.set tree (some np)) ∨
      (∃ q m, C.parent = some q ∧ old[q]? = some m ∧ q ≠ id ∧ q ≠ np ∧ q ≠ ns ∧ roots' = R)) :
    ∃ N', Mondrian.relink ⟨N, R⟩ id tree np = .ok ⟨N', roots'⟩ ∧ Form old N' np ns id C.parent A B C := by
  obtain ⟨N', e, l, g⟩ := Mondrian.relink_spec (⟨N, R⟩ : Forest K F L) id tree np (h.atId h1 h2) hr (roots' := roots') (by
    rcases hp with hp | ⟨q, m, a1, a2, a3, a4, a5, a6⟩
    · exact Or.inl hp
    · refine Or.inr ⟨q, m, a1, ?_, a6⟩
      show N[q]? = _
      rw [h.get, if_neg a4, if_neg a5, if_neg a3, if_neg (by simp), a2])
  have hq : ∀ q, C.parent = some q → q ≠ id ∧ q ≠ np ∧ q ≠ ns := by
    intro q hq
    rcases hp with hp | ⟨q', m, a1, a2, a3, a4, a5, a6⟩
    · rw [hp.1] at hq; cases hq
    · rw [a1] at hq; cases hq; exact ⟨a3, a4, a5⟩
  refine ⟨N', e, l.trans h.length, fun i => ?_⟩
  rw [g]
  have hi := h.get i
  dsimp only at hi ⊢
  rw [hi]
  by_cases i1 : i = np
  · rw [if_pos i1, if_pos i1, if_neg (fun e => (hq i e).2.1 i1)]
  rw [if_neg i1, if_neg i1]
  by_cases i2 : i = ns
  · rw [if_pos i2, if_pos i2, if_neg (fun e => (hq i e).2.2 i2)]
  rw [if_neg i2, if_neg i2]
  by_cases i3 : i = id
  · rw [if_pos i3, if_pos i3, if_neg (fun e => (hq i e).1 i3)]
  rw [if_neg i3, if_neg i3, if_neg (fun h : none = some i => by cases h)]

theorem State.upd_mk {N N' : List (Node K F L)} {R : List (Option Nat)} {fd : List K} {fc : List Int} {bs : List Base} {fr : Int} {la tt i : Nat}
    {f : Node K F L → Node K F L} (h : Mondrian.upd N i f = .ok N') :
    State.upd (⟨⟨N, R⟩, fd, fc, bs, fr, la, tt⟩ : State K F L) i f = .ok ⟨⟨N', R⟩, fd, fc, bs, fr, la, tt⟩ := by
  simp only [State.upd, h, bind, Except.bind, pure, Except.pure]

theorem passDown_ok {N : List (Node K F L)} {R : List (Option Nat)} {fd : List K} {fc : List Int} {bs : List Base} {fr : Int} {la tt id : Nat} (x : Fin F → K)
    (label : Fin L) {n : Node K F L} {b : Box K F} (hn : N[id]? = some n) (hd : n.dim = none) (hb : n.box = some b) {j : Nat} {s' : State K F L}
    (h : passDown x label N.length id (⟨⟨N, R⟩, fd, fc, bs, fr, la, tt⟩ : State K F L) = .ok (j, s')) :
    ∃ N' fd', upd N id (fun n => { n with
      box := some (b.extend x)
      counts := bump n.counts label }) = .ok N' ∧ s' = ⟨⟨N', R⟩, fd', fc, bs, fr, la, tt⟩ ∧ fd'.length = fd.length ∧ ((∀ v ∈ fd, 0 ≤ v) → ∀ v ∈ fd', 0 ≤ v) := by
  have hlt := lt_of_get hn
  obtain ⟨k, hk⟩ : ∃ k, N.length = k + 1 := ⟨N.length - 1, by omega⟩
  rw [hk, passDown_leaf x label k id _ (n := n) (b := b) hn hd hb] at h
  obtain ⟨n1, u1, l1, g1⟩ := upd_spec (fun n : Node K F L => { n with box := some (b.extend x) }) hn
  have g1i := g1 id
  rw [if_pos rfl] at g1i
  obtain ⟨n2, u2, l2, g2⟩ := upd_spec (fun n : Node K F L => { n with counts := bump n.counts label }) g1i
  obtain ⟨n3, u3, l3, g3⟩ := upd_spec (fun n : Node K F L => { n with
      box := some (b.extend x)
      counts := bump n.counts label }) hn
  have e23 : n3 = n2 := by
    refine List.ext_getElem? fun i => ?_
    rw [g3, g2]
    by_cases hi : i = id
    · rw [if_pos hi, if_pos hi]
    · rw [if_neg hi, if_neg hi, g1, if_neg hi]
  subst e23
  simp only [State.upd_mk u1, countAt, u2, bind, Except.bind, pure, Except.pure] at h
  cases k1 : rd fd id with
  | error _ => simp only [k1, reduceCtorEq] at h
  | ok f =>
  cases k2 : wr fd id (f + 1) with
  | error _ => simp only [k1, k2, reduceCtorEq] at h
  | ok fd1 =>
  simp only [k1, k2, Except.ok.injEq, Prod.mk.injEq] at h
  refine ⟨n3, fd1, u3, h.2.symm, ?_, fun hp v hv => ?_⟩
  · rw [← (wr_eq_ok_iff.1 k2).2]; simp
  · rw [← (wr_eq_ok_iff.1 k2).2] at hv
    rcases List.mem_or_eq_of_mem_set hv with hv | rfl
    · exact hp v hv
    · have := hp f (List.mem_of_getElem? (rd_eq_ok_iff.1 k1))
      linarith

theorem splitAt_leaf (sc : SplitConfig K) (p : Params K) (ω : Nat → K) (s : State K F L) (id tree pos : Nat) (dim : Fin F) (v tau : K) (x : Fin F → K) (label : Fin L)
    {fs : List (Frame K F L)} {d : Data K F L} (hrdy : Ready s.forest tree (plug fs (.leaf id d))) (hfree : s.free = (avail s.forest.nodes).length) (h2 : 2 ≤ s.free)
    (hlife : 0 ≤ p.lifetime) (htau : 0 ≤ tau) (hv1 : d.box.lower dim < v) (hv2 : v < d.box.upper dim) {s' : State K F L} {pos' : Nat}
    (hr : splitAt sc p ω s id tree pos dim v tau x label = .ok (s', pos')) :
    ∃ (np ns : Nat) (onLeft : Bool), Done s s' tree (plug fs (.leaf id d)) (plug fs (splitTree p.lifetime tau np ns id d dim v onLeft x label)) := by
  obtain ⟨np, ns, a, b, n1, hmp, hms, h3, ha, hb, hat, hbt, tk1, u1, l1, g1, tk2⟩ := two_nodes s hfree h2 (fun n => { n with tau := tau }) (fun _ => htau)
  obtain ⟨hctx, ht⟩ := holds_plug.1 hrdy.holds
  obtain ⟨node, hn, hhas, hdim⟩ := ht
  obtain ⟨hpar, htaud, hbox, hcounts⟩ := hhas
  have hperm := plug_ids fs (Mondrian.Tree.leaf id d)
  have hnd := hperm.nodup_iff.1 hrdy.nodup
  obtain ⟨ndt, ndc, hdis⟩ := List.nodup_append'.1 hnd
  have hidm : id ∈ (Mondrian.Tree.leaf id d : Tree K F L).ids := by simp [Mondrian.Tree.ids]
  have hmem : ∀ i, i ∈ (plug fs (Mondrian.Tree.leaf id d)).ids ↔ i = id ∨ i ∈ ctxIds fs := by
    intro i; rw [hperm.mem_iff, List.mem_append]; simp [Mondrian.Tree.ids]
  have hnp : np ∉ (plug fs (Mondrian.Tree.leaf id d)).ids := fun h => hrdy.used _ h hmp
  have hns : ns ∉ (plug fs (Mondrian.Tree.leaf id d)).ids := fun h => hrdy.used _ h hms
  have hid : id ∈ (plug fs (Mondrian.Tree.leaf id d)).ids := (hmem _).2 (Or.inl rfl)
  have h4 : id ≠ np := fun h => hnp (h ▸ hid)
  have h5 : id ≠ ns := fun h => hns (h ▸ hid)
  have hparm : ∀ q, ctxPar fs = some q → q ∈ ctxIds fs := by
    intro q hq
    cases fs with
    | nil => cases hq
    | cons f fs => simp only [ctxPar, Option.some.injEq] at hq; subst hq; simp [ctxIds]
  have hparne : ∀ q, ctxPar fs = some q → q ≠ id ∧ q ≠ np ∧ q ≠ ns := by
    intro q hq
    have hq' := hparm q hq
    refine ⟨fun e => ?_, fun e => hnp (e ▸ (hmem _).2 (Or.inr hq')), fun e => hns (e ▸ (hmem _).2 (Or.inr hq'))⟩
    exact hdis hidm (e ▸ hq')
  have hcla := hrdy.clean np a ha hat
  have hclb := hrdy.clean ns b hb hbt
  have hnt : 0 ≤ node.tau := by
    by_contra hneg
    exact hrdy.used id hid (mem_avail.2 ⟨node, hn, not_le.1 hneg⟩)
  -- the root of the tree
  obtain ⟨roots', hroots, hlink⟩ : ∃ roots', roots' = s.forest.roots.set tree (some (plug fs (splitTree p.lifetime tau np ns id d dim v true x label)).id) ∧
      ((node.parent = none ∧ some (plug fs (Mondrian.Tree.leaf id d)).id = some id ∧ roots' = s.forest.roots.set tree (some np)) ∨
        (∃ q m, node.parent = some q ∧ s.forest.nodes[q]? = some m ∧ q ≠ id ∧ q ≠ np ∧ q ≠ ns ∧ roots' = s.forest.roots)) := by
    refine ⟨_, rfl, ?_⟩
    rw [hpar]
    cases fs with
    | nil => exact Or.inl ⟨rfl, rfl, rfl⟩
    | cons f fs' =>
        refine Or.inr ?_
        obtain ⟨m, hm⟩ := holds_mem hrdy.holds f.id ((hmem _).2 (Or.inr (hparm _ rfl)))
        obtain ⟨q1, q2, q3⟩ := hparne f.id rfl
        refine ⟨f.id, m, rfl, hm, q1, q2, q3, ?_⟩
        rw [plug_id_cons f fs' _ (Mondrian.Tree.leaf id d)]
        exact set_same hrdy.root
  have hF1 : Form s.forest.nodes n1 np ns id none { a with tau := tau } b node := by
    refine ⟨l1, fun i => ?_⟩
    rw [g1]
    by_cases i1 : i = np
    · rw [if_pos i1, if_pos i1]
    rw [if_neg i1, if_neg i1]
    by_cases i2 : i = ns
    · rw [if_pos i2, i2, hb]
    rw [if_neg i2]
    by_cases i3 : i = id
    · rw [if_pos i3, i3, hn]
    rw [if_neg i3, if_neg (by simp)]
  obtain ⟨⟨N, R⟩, fd, fc, bs, fr, la, tt⟩ := s
  dsimp only at *
  obtain ⟨n2, u2, hF2⟩ := hF1.upd_ns h3 (fun n => { n with tau := p.lifetime })
  obtain ⟨n3, u3, hF3⟩ := hF2.upd_np (fun n => { n with
    dim := some dim
    split := some v
    box := some (d.box.extend x) })
  obtain ⟨n4, u4, hF4⟩ := hF3.upd_ns h3 (fun n => { n with
    box := some d.box
    counts := fun _ => 0 })
  obtain ⟨n5, u5, hF5⟩ := hF4.link h4 h5 hrdy.root hlink
  obtain ⟨l, r, pos1, e6⟩ := sideLeaf_ok ω dim v hbox (0, 0, pos)
  have u6 := tourFrom_leaf (sideLeaf ω dim v) n5 id (0, 0, pos) (hF5.atId h4 h5) hdim e6
  unfold splitAt at hr
  simp only [bind, Except.bind, tk1, init, State.upd_mk u1, tk2, State.upd_mk u2, rd_eq_ok_iff.2 (hF2.atId h4 h5), hbox, State.upd_mk u3, State.upd_mk u4, u5, u6, pure, Except.pure] at hr
  generalize decide (r < l) = onLeft at hr
  obtain ⟨n6, u6', hF6⟩ := hF5.upd_np (fun n => { n with
    right := some (if onLeft then ns else id)
    left := some (if onLeft then id else ns) })
  obtain ⟨n7, u7, hF7⟩ := hF6.upd_id h4 h5 (fun n => { n with box := some (sidePart d.box dim v onLeft) })
  obtain ⟨n8, u8, hF8⟩ := hF7.upd_ns h3 (fun n => { n with box := some (sidePart d.box dim v (!onLeft)) })
  have e8 : (if onLeft = true then do
      let s ← State.upd (⟨⟨n5, roots'⟩, fd, fc, bs, fr - 2, ns, tt⟩ : State K F L) np (fun n => { n with
        right := some ns
        left := some id })
      let s ← s.upd id (fun n => { n with box := some { d.box with upper := Function.update d.box.upper dim v } })
      s.upd ns (fun n => { n with box := some { d.box with lower := Function.update d.box.lower dim v } })
    else do
      let s ← State.upd (⟨⟨n5, roots'⟩, fd, fc, bs, fr - 2, ns, tt⟩ : State K F L) np (fun n => { n with
        right := some id
        left := some ns })
      let s ← s.upd id (fun n => { n with box := some { d.box with lower := Function.update d.box.lower dim v } })
      s.upd ns (fun n => { n with box := some { d.box with upper := Function.update d.box.upper dim v } }) : Res (State K F L)) =
      .ok ⟨⟨n8, roots'⟩, fd, fc, bs, fr - 2, ns, tt⟩ := by
    cases onLeft
    · simp only [Bool.false_eq_true, if_false, sidePart, Bool.not_false, if_true] at u6' u7 u8 ⊢
      simp only [State.upd_mk u6', State.upd_mk u7, State.upd_mk u8, bind, Except.bind]
    · simp only [Bool.not_true, Bool.false_eq_true, if_false, sidePart, if_true] at u6' u7 u8 ⊢
      simp only [State.upd_mk u6', State.upd_mk u7, State.upd_mk u8, bind, Except.bind]
  simp only [bind, Except.bind] at e8
  obtain ⟨n9, u9, hF9⟩ := hF8.upd_np (fun n => { n with parent := node.parent })
  obtain ⟨n10, u10, hF10⟩ := hF9.upd_id h4 h5 (fun n => { n with parent := some np })
  obtain ⟨n11, u11, hF11⟩ := hF10.upd_ns h3 (fun n => { n with parent := some np })
  have u12 := tourFrom_leaf (counterLeaf dim v (!onLeft)) n11 id (fun _ => 0) (hF11.atId h4 h5) hdim (counterLeaf_cut dim v onLeft _ d.box hv1 hv2 rfl)
  have hF12 := hF11.set_id h4 h5 { node with
    box := some (sidePart d.box dim v onLeft)
    parent := some np }
  obtain ⟨n13, u13, hF13⟩ := hF12.upd_ns h3 (fun n => { n with counts := fun i => n.counts i + 0 })
  have u14' := fun fc' => adjustBoxes_leaf (⟨⟨n13, roots'⟩, fd, fc', bs, fr - 2, ns, tt⟩ : State K F L) id dim v onLeft tree (hF13.atId h4 h5) hdim rfl
  obtain ⟨n14, u14, hF14⟩ := hF13.upd_id h4 h5 (fun n => { n with box := some (clip onLeft dim v (sidePart d.box dim v onLeft)) })
  rw [clip_cut dim v onLeft d.box hv1 hv2] at hF14 u14' u14
  simp only [e8, State.upd_mk u9, State.upd_mk u10, State.upd_mk u11, u12] at hr
  cases k1 : rd fc id with
  | error _ => simp only [k1, reduceCtorEq] at hr
  | ok f =>
  cases k2 : distribute (K := K) sc.distribution f l r with
  | error _ => simp only [k1, k2, reduceCtorEq] at hr
  | ok w =>
  cases k3 : wr fc id w.1 with
  | error _ => simp only [k1, k2, k3, reduceCtorEq] at hr
  | ok fc1 =>
  cases k4 : wr fc1 ns w.2 with
  | error _ => simp only [k1, k2, k3, k4, reduceCtorEq] at hr
  | ok fc2 =>
  cases k5 : wr fc2 np 0 with
  | error _ => simp only [k1, k2, k3, k4, k5, reduceCtorEq] at hr
  | ok fc3 =>
  simp only [k1, k2, k3, k4, k5, State.upd_mk u13, u14', State.upd_mk u14, rd_eq_ok_iff.2 hF14.atNp] at hr
  have hfc : fc3.length = fc.length := by
    rw [← (wr_eq_ok_iff.1 k5).2, ← (wr_eq_ok_iff.1 k4).2, ← (wr_eq_ok_iff.1 k3).2]
    simp
  rw [hpar] at hF14
  clear e8 u14' u14 u13 u12 u11 u10 u9 u8 u7 u6' u6 u5 u4 u3 u2 hF13 hF12 hF11 hF10 hF9 hF8 hF7 hF6 hF5 hF4 hF3 hF2 hF1
  have hF : Form N n14 np ns id (ctxPar fs)
      { dim := some dim, split := some v, box := some (d.box.extend x), left := some (if onLeft then id else ns), right := some (if onLeft then ns else id), parent := ctxPar fs, tau := tau, counts := a.counts }
      { b with
        box := some (sidePart d.box dim v (!onLeft))
        parent := some np
        tau := p.lifetime
        counts := fun _ => 0 }
      { node with
        box := some (sidePart d.box dim v onLeft)
        parent := some np } := hF14
  clear hF14
  obtain ⟨cid, hcid⟩ : ∃ cid, cid = if v < x dim then (if onLeft = true then ns else id) else (if onLeft = true then id else ns) := ⟨_, rfl⟩
  have hcid' : (if v < x dim then some (if onLeft = true then ns else id) else some (if onLeft = true then id else ns)) = some cid := by
    rw [hcid]; split <;> rfl
  rw [hcid'] at hr
  dsimp only at hr
  cases k6 : passDown x label n14.length cid (⟨⟨n14, roots'⟩, fd, fc3, bs, fr - 2, ns, tt⟩ : State K F L) with
  | error _ => simp only [k6, reduceCtorEq] at hr
  | ok js =>
  obtain ⟨j, s1⟩ := js
  simp only [k6, Except.ok.injEq, Prod.mk.injEq] at hr
  obtain ⟨rfl, rfl⟩ := hr
  refine ⟨np, ns, onLeft, ?_⟩
  have hside : cid = id ∨ cid = ns := by
    rw [hcid]; cases onLeft <;> by_cases hv : v < x dim <;> simp [hv]
  rcases hside with rfl | rfl
  · obtain ⟨N', fd', hu, rfl, hl, hsc⟩ := passDown_ok x label (hF.atId h4 h5) hdim rfl k6
    obtain ⟨N'', hu', hF'⟩ := hF.upd_id h4 h5 (fun n => { n with
      box := some ((sidePart d.box dim v onLeft).extend x)
      counts := bump n.counts label })
    have : N'' = N' := Except.ok.inj (hu'.symm.trans hu)
    subst this
    refine done_two hrdy hfree hmp hms h3 hF' ?_ ?_ ?_ (splitTree_id ..) (splitTree_ids ..) ?_ ?_ rfl rfl rfl hl hfc hsc
    · exact htau
    · exact hlife
    · exact hnt
    · have e1 := hF'.atNp
      have e2 := hF'.atId h4 h5
      have e3 := hF'.atNs h3
      unfold splitTree give
      cases onLeft <;> by_cases hv : v < x dim
      · simp only [hv, if_true, if_false, Bool.false_eq_true]
        exact ⟨⟨_, e1, ⟨rfl, rfl, rfl, hcla.2⟩, rfl, rfl, rfl, rfl⟩, ⟨_, e3, ⟨rfl, rfl, rfl, rfl⟩, hclb.1⟩, ⟨_, e2, ⟨rfl, htaud, rfl, by rw [hcounts]⟩, hdim⟩⟩
      · simp [hv] at hcid; exact absurd hcid h5
      · simp [hv] at hcid; exact absurd hcid h5
      · simp only [hv, if_true, if_false]
        exact ⟨⟨_, e1, ⟨rfl, rfl, rfl, hcla.2⟩, rfl, rfl, rfl, rfl⟩, ⟨_, e2, ⟨rfl, htaud, rfl, by rw [hcounts]⟩, hdim⟩, ⟨_, e3, ⟨rfl, rfl, rfl, rfl⟩, hclb.1⟩⟩
    · rw [hroots]
      cases fs with
      | nil => rfl
      | cons f fs' => rw [plug_id_cons f fs' _ (splitTree p.lifetime tau np ns cid d dim v onLeft x label)]
  · obtain ⟨N', fd', hu, rfl, hl, hsc⟩ := passDown_ok x label (hF.atNs h3) hclb.1 rfl k6
    obtain ⟨N'', hu', hF'⟩ := hF.upd_ns h3 (fun n => { n with
      box := some ((sidePart d.box dim v (!onLeft)).extend x)
      counts := bump n.counts label })
    have : N'' = N' := Except.ok.inj (hu'.symm.trans hu)
    subst this
    refine done_two hrdy hfree hmp hms h3 hF' ?_ ?_ ?_ (splitTree_id ..) (splitTree_ids ..) ?_ ?_ rfl rfl rfl hl hfc hsc
    · exact htau
    · exact hlife
    · exact hnt
    · have e1 := hF'.atNp
      have e2 := hF'.atId h4 h5
      have e3 := hF'.atNs h3
      unfold splitTree give
      cases onLeft <;> by_cases hv : v < x dim
      · simp [hv] at hcid; exact absurd hcid.symm h5
      · simp only [hv, if_false, Bool.false_eq_true]
        exact ⟨⟨_, e1, ⟨rfl, rfl, rfl, hcla.2⟩, rfl, rfl, rfl, rfl⟩, ⟨_, e3, ⟨rfl, rfl, rfl, rfl⟩, hclb.1⟩, ⟨_, e2, ⟨rfl, htaud, rfl, hcounts⟩, hdim⟩⟩
      · simp only [hv, if_true]
        exact ⟨⟨_, e1, ⟨rfl, rfl, rfl, hcla.2⟩, rfl, rfl, rfl, rfl⟩, ⟨_, e2, ⟨rfl, htaud, rfl, hcounts⟩, hdim⟩, ⟨_, e3, ⟨rfl, rfl, rfl, rfl⟩, hclb.1⟩⟩
      · simp [hv] at hcid; exact absurd hcid.symm h5
    · rw [hroots]
      cases fs with
      | nil => rfl
      | cons f fs' => rw [plug_id_cons f fs' _ (splitTree p.lifetime tau np cid id d dim v onLeft x label)]

end Orp.Coarse
