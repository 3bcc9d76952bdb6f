import Verif.Coarse.OptTwin
import Verif.Coarse.Keep

/-!
The update of the counters on the way of a point, on trees: if the counters of all split nodes were right before the point was given to the tree, they are right
afterwards.
-/

set_option linter.unusedSectionVars false

namespace Orp.Coarse

open Finset
open Mondrian (Node Box Forest Params Cut upd init bump OnlyCounts Tree Data Frame plug ctxPar ctxIds HoldsCtx Holds newLeaf holds_plug plug_ids holds_root holds_mem
  holds_congr holdsCtx_congr upd_spec lt_of_get holds_fill avail mem_avail Clean recount_id recount_ids)

variable {K : Type} [Field K] [LinearOrder K] [IsStrictOrderedRing K] [FloorRing K] {F L : Nat}

/-- the counter `label` of a split node is computed from those of its children -/
def fixAt (label : Fin L) : Tree K F L → Tree K F L
  | .leaf id d => .leaf id d
  | .node id d dim sp l r =>
      .node id { d with counts := Function.update d.counts label (min 1 (l.data.counts label) + min 1 (r.data.counts label)) } dim sp l r

/-- the same for all split nodes above a place, from below -/
def up (label : Fin L) : List (Frame K F L) → Tree K F L → Tree K F L
  | [], t => t
  | f :: fs, t => up label fs (fixAt label (f.fill t))

/-- the same for all split nodes on the way of a point -/
def onWay (x : Fin F → K) (label : Fin L) : Tree K F L → Tree K F L
  | .leaf id d => .leaf id d
  | .node id d dim sp l r => if x dim ≤ sp then fixAt label (.node id d dim sp (onWay x label l) r) else fixAt label (.node id d dim sp l (onWay x label r))

theorem fixAt_id (label : Fin L) (t : Tree K F L) : (fixAt label t).id = t.id := by cases t <;> rfl

theorem fixAt_ids (label : Fin L) (t : Tree K F L) : (fixAt label t).ids = t.ids := by cases t <;> rfl

theorem up_ids (label : Fin L) : ∀ (fs : List (Frame K F L)) (t u : Tree K F L), t.ids = u.ids → (up label fs t).ids = (plug fs u).ids
  | [], _, _, h => h
  | f :: fs, t, u, h => by
      refine up_ids label fs _ _ ?_
      rw [fixAt_ids]
      unfold Frame.fill
      split <;> simp only [Tree.ids, h]

theorem onWay_ids (x : Fin F → K) (label : Fin L) : ∀ t : Tree K F L, (onWay x label t).ids = t.ids
  | .leaf _ _ => rfl
  | .node id d dim sp l r => by
      unfold onWay
      split <;> rw [fixAt_ids] <;> simp only [Tree.ids, onWay_ids x label l, onWay_ids x label r]

theorem onWay_id (x : Fin F → K) (label : Fin L) (t : Tree K F L) : (onWay x label t).id = t.id := by
  cases t with
  | leaf => rfl
  | node id d dim sp l r => unfold onWay; split <;> rfl

/-- the leaf of a point and the split nodes above it -/
theorem leaf_ctx (x : Fin F → K) (label : Fin L) : ∀ (t : Tree K F L) (fs : List (Frame K F L)), ∃ gs d,
    plug gs (.leaf (t.leafOf x) d) = plug fs t ∧ up label gs (.leaf (t.leafOf x) d) = up label fs (onWay x label t)
  | .leaf id d, fs => ⟨fs, d, rfl, rfl⟩
  | .node id d dim sp l r, fs => by
      unfold onWay Tree.leafOf
      by_cases hx : x dim ≤ sp
      · rw [if_pos hx, if_pos hx]
        exact leaf_ctx x label l (⟨id, d, dim, sp, true, r⟩ :: fs)
      · rw [if_neg hx, if_neg hx]
        exact leaf_ctx x label r (⟨id, d, dim, sp, false, l⟩ :: fs)

theorem getLeaf_spec (x : Fin F → K) {nodes : List (Node K F L)} : ∀ (t : Tree K F L) (par : Option Nat) (fuel : Nat), t.height ≤ fuel → Holds nodes par t →
    getLeaf nodes x fuel t.id = .ok (t.leafOf x)
  | .leaf id d, par, 0, hf, _ => by simp [Mondrian.Tree.height] at hf
  | .node id d dim sp l r, par, 0, hf, _ => by simp [Mondrian.Tree.height] at hf
  | .leaf id d, par, fuel + 1, hf, h => by
      obtain ⟨n, h1, -, h3⟩ := h
      simp only [getLeaf, Tree.id, rd_eq_ok_iff.2 h1, bind, Except.bind, h3, pure, Except.pure, Tree.leafOf]
  | .node id d dim sp l r, par, fuel + 1, hf, h => by
      obtain ⟨⟨n, h1, h2, h3, h4, h5, h6⟩, hl, hr⟩ := h
      simp only [Mondrian.Tree.height] at hf
      have hfl : l.height ≤ fuel := le_trans (Nat.le_max_left l.height r.height) (Nat.le_of_succ_le_succ hf)
      have hfr : r.height ≤ fuel := le_trans (Nat.le_max_right l.height r.height) (Nat.le_of_succ_le_succ hf)
      simp only [getLeaf, Tree.id, rd_eq_ok_iff.2 h1, bind, Except.bind, h3, h4, h5, h6, init, Tree.leafOf]
      by_cases hx : x dim ≤ sp
      · rw [if_pos hx, if_neg (not_lt.2 hx)]
        exact getLeaf_spec x l (some id) fuel hfl hl
      · rw [if_neg hx, if_pos (not_le.1 hx)]
        exact getLeaf_spec x r (some id) fuel hfr hr

theorem up_id_nil (label : Fin L) (t : Tree K F L) : up label [] t = t := rfl

/-- the loop goes up to the root, unless it meets node 0 -/
theorem pathLoop_spec (label : Fin L) : ∀ (fs : List (Frame K F L)) (t : Tree K F L) (fuel : Nat) (nodes : List (Node K F L)), fs.length ≤ fuel →
    (plug fs t).ids.Nodup → Holds nodes none (plug fs t) → (∀ f ∈ fs, f.id ≠ 0) →
    ∃ nodes', pathLoop label fuel (ctxPar fs) nodes = .ok nodes' ∧ Holds nodes' none (up label fs t) ∧ OnlyCounts nodes nodes' ∧
      ∀ i, i ∉ (plug fs t).ids → nodes'[i]? = nodes[i]?
  | [], t, fuel, nodes, _, _, h, _ => ⟨nodes, by cases fuel <;> rfl, h, .refl _, fun _ _ => rfl⟩
  | f :: fs, t, 0, nodes, hl, _, _, _ => by simp at hl
  | f :: fs, t, fuel + 1, nodes, hl, hnd, h, hz => by
      have hp : plug (f :: fs) t = plug fs (f.fill t) := rfl
      rw [hp] at h hnd
      obtain ⟨hctx, hfill⟩ := holds_plug.1 h
      obtain ⟨⟨n, h1, h2, h3, h4, h5, h6⟩, hs, ht⟩ := holds_fill.1 hfill
      obtain ⟨nt, hnt, et⟩ := holds_root ht
      obtain ⟨nsib, hns, es⟩ := holds_root hs
      have hperm := plug_ids fs (f.fill t)
      have hnd' := hperm.nodup_iff.1 hnd
      obtain ⟨ndf, -, hdis⟩ := List.nodup_append'.1 hnd'
      have hfi : (f.fill t).id = f.id := Mondrian.fill_id f t
      obtain ⟨nl, nr, hnl, hnr, el, er⟩ : ∃ nl nr, nodes[if f.left then t.id else f.sib.id]? = some nl ∧ nodes[if f.left then f.sib.id else t.id]? = some nr ∧
          nl.counts = (if f.left then t else f.sib).data.counts ∧ nr.counts = (if f.left then f.sib else t).data.counts := by
        cases f.left with
        | true => exact ⟨nt, nsib, hnt, hns, et.2.2.2, es.2.2.2⟩
        | false => exact ⟨nsib, nt, hns, hnt, es.2.2.2, et.2.2.2⟩
      obtain ⟨n1, u1, l1, g1⟩ := upd_spec (fun (n : Node K F L) => { n with counts := Function.update n.counts label (Utils.min 1 (nl.counts label) +
        Utils.min 1 (nr.counts label)) }) h1
      have hoc : OnlyCounts nodes n1 := by
        refine ⟨l1, fun i m hm => ?_⟩
        by_cases hi : i = f.id
        · subst hi
          rw [h1] at hm
          cases hm
          exact ⟨_, by rw [g1, if_pos rfl], fun h => by rw [h3] at h; cases h⟩
        · exact ⟨m.counts, by rw [g1, if_neg hi, hm], fun _ => rfl⟩
      have hfix : Holds n1 (ctxPar fs) (fixAt label (f.fill t)) := by
        have hc1 : ∀ i, i ≠ f.id → n1[i]? = nodes[i]? := fun i hi => by rw [g1, if_neg hi]
        have htne : ∀ i ∈ t.ids, i ≠ f.id := by
          rintro i hi rfl
          unfold Frame.fill at ndf
          split at ndf
          · simp only [Tree.ids, List.nodup_cons, List.mem_append, not_or] at ndf
            exact ndf.1.1 hi
          · simp only [Tree.ids, List.nodup_cons, List.mem_append, not_or] at ndf
            exact ndf.1.2 hi
        have hsne : ∀ i ∈ f.sib.ids, i ≠ f.id := by
          rintro i hi rfl
          unfold Frame.fill at ndf
          split at ndf
          · simp only [Tree.ids, List.nodup_cons, List.mem_append, not_or] at ndf
            exact ndf.1.2 hi
          · simp only [Tree.ids, List.nodup_cons, List.mem_append, not_or] at ndf
            exact ndf.1.1 hi
        have ht1 := holds_congr (fun i hi => hc1 i (htne i hi)) ht
        have hs1 := holds_congr (fun i hi => hc1 i (hsne i hi)) hs
        unfold Frame.fill
        have hn1 : n1[f.id]? = some { n with counts := Function.update n.counts label (Utils.min 1 (nl.counts label) + Utils.min 1 (nr.counts label)) } := by
          rw [g1, if_pos rfl]
        cases hfl : f.left with
        | true =>
            rw [hfl] at h5 h6 el er
            refine ⟨⟨_, hn1, ⟨h2.1, h2.2.1, h2.2.2.1, ?_⟩, h3, h4, h5, h6⟩, ht1, hs1⟩
            simp only [el, er, h2.2.2.2, Mondrian.min_eq, if_true]
        | false =>
            rw [hfl] at h5 h6 el er
            refine ⟨⟨_, hn1, ⟨h2.1, h2.2.1, h2.2.2.1, ?_⟩, h3, h4, h5, h6⟩, hs1, ht1⟩
            simp only [el, er, h2.2.2.2, Mondrian.min_eq, Bool.false_eq_true, if_false]
      have hctx1 : HoldsCtx n1 fs f.id := by
        rw [hfi] at hctx
        refine holdsCtx_congr (fun i hi => ?_) hctx
        rw [g1, if_neg]
        rintro rfl
        exact hdis (by rw [← hfi]; exact Mondrian.id_mem_ids _) hi
      have hids : (plug fs (fixAt label (f.fill t))).ids.Nodup ∧ ∀ i, i ∈ (plug fs (fixAt label (f.fill t))).ids ↔ i ∈ (plug fs (f.fill t)).ids := by
        have hp1 := plug_ids fs (fixAt label (f.fill t))
        rw [fixAt_ids] at hp1
        exact ⟨hp1.nodup_iff.2 hnd', fun i => by rw [hp1.mem_iff, hperm.mem_iff]⟩
      obtain ⟨n2, a1, a2, a3, a4⟩ := pathLoop_spec label fs (fixAt label (f.fill t)) fuel n1 (by simpa using hl) hids.1
        (holds_plug.2 ⟨by rw [fixAt_id, hfi]; exact hctx1, hfix⟩) (fun g hg => hz g (List.mem_cons_of_mem _ hg))
      refine ⟨n2, ?_, a2, hoc.trans a3, fun i hi => ?_⟩
      · have h0 : 0 < f.id ∧ f.id < nodes.length := ⟨Nat.pos_of_ne_zero (hz f (List.mem_cons_self ..)), lt_of_get h1⟩
        show pathLoop label (fuel + 1) (some f.id) nodes = _
        simp only [pathLoop, if_pos h0, rd_eq_ok_iff.2 h1, bind, Except.bind, h5, h6, init, rd_eq_ok_iff.2 hnl, rd_eq_ok_iff.2 hnr, u1, h2.1, a1]
      · rw [hp] at hi
        rw [a4 i (fun h => hi ((hids.2 i).1 h)), g1, if_neg]
        rintro rfl
        exact hi (hperm.mem_iff.2 (List.mem_append.2 (Or.inl (by rw [← hfi]; exact Mondrian.id_mem_ids _))))

/-- the split nodes of a tree -/
def splitIds : Tree K F L → List Nat
  | .leaf _ _ => []
  | .node id _ _ _ l r => id :: (splitIds l ++ splitIds r)

/-- the leaves of a tree -/
def leafIds : Tree K F L → List Nat
  | .leaf id _ => [id]
  | .node _ _ _ _ l r => leafIds l ++ leafIds r

theorem mem_ids_iff (i : Nat) : ∀ t : Tree K F L, i ∈ t.ids ↔ i ∈ splitIds t ∨ i ∈ leafIds t
  | .leaf _ _ => by simp [Tree.ids, splitIds, leafIds]
  | .node id d dim sp l r => by
      simp only [Tree.ids, splitIds, leafIds, List.mem_cons, List.mem_append, mem_ids_iff i l, mem_ids_iff i r]
      tauto

theorem leaf_not_split {i : Nat} : ∀ {t : Tree K F L}, t.ids.Nodup → i ∈ leafIds t → i ∉ splitIds t
  | .leaf _ _, _, _ => by simp [splitIds]
  | .node id d dim sp l r, hnd, hi => by
      simp only [Tree.ids, List.nodup_cons] at hnd
      obtain ⟨hid, hnd⟩ := hnd
      obtain ⟨ndl, ndr, hdis⟩ := List.nodup_append'.1 hnd
      simp only [splitIds, List.mem_cons, List.mem_append, not_or]
      simp only [leafIds, List.mem_append] at hi
      rcases hi with hi | hi
      · have hm := (mem_ids_iff i l).2 (Or.inr hi)
        exact ⟨fun h => hid (List.mem_append.2 (Or.inl (h ▸ hm))), leaf_not_split ndl hi, fun h => hdis hm ((mem_ids_iff i r).2 (Or.inl h))⟩
      · have hm := (mem_ids_iff i r).2 (Or.inr hi)
        exact ⟨fun h => hid (List.mem_append.2 (Or.inr (h ▸ hm))), fun h => hdis ((mem_ids_iff i l).2 (Or.inl h)) hm, leaf_not_split ndr hi⟩

theorem fill_splits (f : Frame K F L) (t : Tree K F L) (i : Nat) (h : i = f.id ∨ i ∈ splitIds t) : i ∈ splitIds (f.fill t) := by
  unfold Frame.fill
  split <;> simp only [splitIds, List.mem_cons, List.mem_append] <;> tauto

theorem plug_splits : ∀ (fs : List (Frame K F L)) (t : Tree K F L) (i : Nat), ((∃ f ∈ fs, f.id = i) ∨ i ∈ splitIds t) → i ∈ splitIds (plug fs t)
  | [], t, i, h => by
      rcases h with ⟨f, hf, -⟩ | h
      · cases hf
      · exact h
  | f :: fs, t, i, h => by
      refine plug_splits fs (f.fill t) i ?_
      rcases h with ⟨g, hg, rfl⟩ | h
      · rcases List.mem_cons.1 hg with rfl | hg
        · exact Or.inr (fill_splits _ _ _ (Or.inl rfl))
        · exact Or.inl ⟨g, hg, rfl⟩
      · exact Or.inr (fill_splits _ _ _ (Or.inr h))

/-! ### The counters -/

theorem recount_counts (id : Nat) (d : Data K F L) (dim : Fin F) (sp : K) (l r : Tree K F L) (i : Fin L) :
    (Mondrian.Tree.node id d dim sp l r).recount.data.counts i = min 1 (l.recount.data.counts i) + min 1 (r.recount.data.counts i) := rfl

/-- The counters of a split node: all but one are right, and this one is computed. -/
theorem fixAt_fresh (label : Fin L) {id : Nat} {d : Data K F L} {dim : Fin F} {sp : K} {l r l0 r0 : Tree K F L} (hl : l = l0.recount) (hr : r = r0.recount)
    (h : ∀ i, i ≠ label → d.counts i = min 1 (l.data.counts i) + min 1 (r.data.counts i)) :
    fixAt label (.node id d dim sp l r) = (Mondrian.Tree.node id d dim sp l0 r0).recount := by
  subst hl hr
  simp only [fixAt, Tree.recount, Mondrian.Tree.node.injEq, true_and, and_true]
  congr 1
  funext i
  by_cases hi : i = label
  · subst hi
    rw [Function.update_self]
  · rw [Function.update_of_ne hi]
    exact h i hi

/-- a tree with right counters is not changed -/
theorem onWay_fresh (x : Fin F → K) (label : Fin L) : ∀ {t : Tree K F L}, t.recount = t → onWay x label t = t
  | .leaf _ _, _ => rfl
  | .node id d dim sp l r, h => by
      have h' := h
      simp only [Tree.recount, Mondrian.Tree.node.injEq, true_and] at h
      obtain ⟨hd, hl, hr⟩ := h
      have hcnt : ∀ i, d.counts i = min 1 (l.data.counts i) + min 1 (r.data.counts i) := by
        intro i
        rw [hl, hr] at hd
        rw [← hd]
      unfold onWay
      rw [onWay_fresh x label hl, onWay_fresh x label hr]
      rw [ite_self]
      conv_rhs => rw [← h']
      exact fixAt_fresh label hl.symm hr.symm fun i _ => hcnt i

/-- The counters of all split nodes are right again after the update on the way of the point. -/
theorem Grows.fresh {c : Config K} (hc : c.extend = .original) {base : Base} {lifetime : K} {x : Fin F → K} {label : Fin L} {dist : Nat} {ptau : K} {t t' : Tree K F L}
    (h : Grows c base lifetime x label dist ptau t t') : t.recount = t → onWay x label t' = t'.recount ∧
      ∀ i, i ≠ label → min 1 (t'.recount.data.counts i) = min 1 (t.data.counts i) := by
  induction h with
  | @insert dist ptau t cut np ns h hm =>
      intro ht
      have hnew : ∀ i, i ≠ label → (newLeaf lifetime ns x label : Tree K F L).data.counts i = 0 := by
        intro i hi
        simp [newLeaf, Tree.data, bump, hi]
      have hpc : ∀ i, parentCounts c.extend (fun _ => 0) t.data.counts label i = min 1 (t.data.counts i) := by
        intro i
        rw [hc]
        exact Mondrian.min_eq _ _
      have hnl : onWay x label (newLeaf lifetime ns x label : Tree K F L) = newLeaf lifetime ns x label := rfl
      have hnr : (newLeaf lifetime ns x label : Tree K F L).recount = newLeaf lifetime ns x label := rfl
      unfold aboveC
      split
      · refine ⟨?_, fun i hi => ?_⟩
        · unfold onWay
          rw [onWay_fresh x label ht, hnl, ite_self]
          exact fixAt_fresh label ht.symm hnr.symm fun i hi => (hpc i).trans (by rw [hnew i hi]; simp)
        · rw [recount_counts, ht, hnr, hnew i hi]
          omega
      · refine ⟨?_, fun i hi => ?_⟩
        · unfold onWay
          rw [onWay_fresh x label ht, hnl, ite_self]
          exact fixAt_fresh label hnr.symm ht.symm fun i hi => (hpc i).trans (by rw [hnew i hi]; simp)
        · rw [recount_counts, ht, hnr, hnew i hi]
          omega
  | insertLeaf np ns h hm => rw [hc] at hm; cases hm
  | insertLeft np ns h hm => rw [hc] at hm; cases hm
  | insertRight np ns h hm => rw [hc] at hm; cases hm
  | leaf b' hb =>
      intro _
      refine ⟨rfl, fun i hi => ?_⟩
      simp [Tree.recount, Tree.data, bump, hi]
  | @left dist ptau id d dim sp l l' r b' hb hx hg ih =>
      intro ht
      simp only [Tree.recount, Mondrian.Tree.node.injEq, true_and] at ht
      obtain ⟨hd, hl, hr⟩ := ht
      obtain ⟨ih1, ih2⟩ := ih hl
      have hcnt : ∀ i, d.counts i = min 1 (l.data.counts i) + min 1 (r.data.counts i) := by
        intro i
        rw [hl, hr] at hd
        rw [← hd]
      have hw : wayCounts c d.counts label = d.counts := by unfold wayCounts; rw [hc, if_neg (by decide)]
      rw [hw]
      refine ⟨?_, fun i hi => ?_⟩
      · unfold onWay
        rw [if_pos hx]
        refine fixAt_fresh label ih1 hr.symm fun i hi => ?_
        rw [ih1, ih2 i hi]
        exact hcnt i
      · rw [recount_counts, ih2 i hi, hr]
        show _ = min 1 (d.counts i)
        rw [hcnt i]
  | @right dist ptau id d dim sp l r r' b' hb hx hg ih =>
      intro ht
      simp only [Tree.recount, Mondrian.Tree.node.injEq, true_and] at ht
      obtain ⟨hd, hl, hr⟩ := ht
      obtain ⟨ih1, ih2⟩ := ih hr
      have hcnt : ∀ i, d.counts i = min 1 (l.data.counts i) + min 1 (r.data.counts i) := by
        intro i
        rw [hl, hr] at hd
        rw [← hd]
      have hw : wayCounts c d.counts label = d.counts := by unfold wayCounts; rw [hc, if_neg (by decide)]
      rw [hw]
      refine ⟨?_, fun i hi => ?_⟩
      · unfold onWay
        rw [if_neg hx]
        refine fixAt_fresh label hl.symm ih1 fun i hi => ?_
        rw [ih1, ih2 i hi]
        exact hcnt i
      · rw [recount_counts, ih2 i hi, hl]
        show _ = min 1 (d.counts i)
        rw [hcnt i]
  | ghost hm => rw [hc] at hm; cases hm
  | drop hm => rw [hc] at hm; cases hm

/-- leaves stay leaves -/
theorem Grows.leaves {c : Config K} {base : Base} {lifetime : K} {x : Fin F → K} {label : Fin L} {dist : Nat} {ptau : K} {t t' : Tree K F L}
    (h : Grows c base lifetime x label dist ptau t t') : ∀ i ∈ leafIds t, i ∈ leafIds t' := by
  have habove : ∀ (np ns : Nat) (cut : Cut K F) (t : Tree K F L) (cnt : Fin L → Nat), ∀ i ∈ leafIds t, i ∈ leafIds (aboveC lifetime np ns cut t cnt x label) := by
    intro np ns cut t cnt i hi
    unfold aboveC
    split <;> simp [leafIds, hi]
  induction h with
  | insert np ns h hm => exact habove _ _ _ _ _
  | insertLeaf np ns h hm => exact fun i hi => habove _ _ _ (.leaf _ _) _ i hi
  | insertLeft np ns h hm hx hg ih =>
      intro i hi
      refine habove _ _ _ (.node _ _ _ _ _ _) _ i ?_
      simp only [leafIds, List.mem_append] at hi ⊢
      exact hi.imp_left (ih i)
  | insertRight np ns h hm hx hg ih =>
      intro i hi
      refine habove _ _ _ (.node _ _ _ _ _ _) _ i ?_
      simp only [leafIds, List.mem_append] at hi ⊢
      exact hi.imp_right (ih i)
  | leaf b' hb => exact fun i hi => hi
  | left b' hb hx hg ih =>
      intro i hi
      simp only [leafIds, List.mem_append] at hi ⊢
      exact hi.imp_left (ih i)
  | right b' hb hx hg ih =>
      intro i hi
      simp only [leafIds, List.mem_append] at hi ⊢
      exact hi.imp_right (ih i)
  | ghost hm =>
      intro i hi
      rename_i t
      cases t <;> exact hi
  | drop hm => exact fun i hi => hi

theorem recount_leaves : ∀ t : Tree K F L, leafIds t.recount = leafIds t
  | .leaf _ _ => rfl
  | .node _ _ _ _ l r => by simp only [Tree.recount, leafIds, recount_leaves l, recount_leaves r]

/-- Trees held by two pools that only differ in counters of split nodes -/
theorem holds_twin {nodes nodes' : List (Node K F L)} (hoc : OnlyCounts nodes nodes') : ∀ {t t' : Tree K F L} {par : Option Nat}, Holds nodes par t →
    Holds nodes' par t' → t'.id = t.id → t'.recount = t.recount
  | .leaf id d, t', par, ⟨n, h1, h2, h3⟩, h', hid => by
      obtain ⟨cnt, hc, hc'⟩ := hoc.2 _ n h1
      cases t' with
      | leaf id' d' =>
          obtain ⟨n', g1, g2, g3⟩ := h'
          simp only [Tree.id] at hid
          subst hid
          rw [hc] at g1
          have := Option.some.inj g1
          subst this
          have hcc := hc' h3
          subst hcc
          obtain ⟨a1, a2, a3, a4⟩ := h2
          obtain ⟨b1, b2, b3, b4⟩ := g2
          cases d
          cases d'
          simp only at a2 a3 a4 b2 b3 b4
          simp only [Tree.recount, Tree.leaf.injEq, true_and, Data.mk.injEq]
          exact ⟨b2.symm.trans a2, Option.some.inj (b3.symm.trans a3), b4.symm.trans a4⟩
      | node id' d' dim' sp' l' r' =>
          obtain ⟨⟨n', g1, g2, g3, -⟩, -⟩ := h'
          simp only [Tree.id] at hid
          subst hid
          rw [hc] at g1
          have := Option.some.inj g1
          subst this
          simp only [h3] at g3
          cases g3
  | .node id d dim sp l r, t', par, ⟨⟨n, h1, h2, h3, h4, h5, h6⟩, hl, hr⟩, h', hid => by
      obtain ⟨cnt, hc, hc'⟩ := hoc.2 _ n h1
      cases t' with
      | leaf id' d' =>
          obtain ⟨n', g1, g2, g3⟩ := h'
          simp only [Tree.id] at hid
          subst hid
          rw [hc] at g1
          have := Option.some.inj g1
          subst this
          simp only [h3] at g3
          cases g3
      | node id' d' dim' sp' l' r' =>
          obtain ⟨⟨n', g1, g2, g3, g4, g5, g6⟩, hl', hr'⟩ := h'
          simp only [Tree.id] at hid
          subst hid
          rw [hc] at g1
          have := Option.some.inj g1
          subst this
          simp only [h3, h4, h5, h6, Option.some.injEq] at g3 g4 g5 g6
          have el := holds_twin hoc hl hl' g5.symm
          have er := holds_twin hoc hr hr' g6.symm
          obtain ⟨a1, a2, a3, a4⟩ := h2
          obtain ⟨b1, b2, b3, b4⟩ := g2
          subst g3 g4
          cases d
          cases d'
          simp only at a2 a3 b2 b3
          simp only [Tree.recount, el, er, Mondrian.Tree.node.injEq, true_and, and_true, Data.mk.injEq]
          exact ⟨b2.symm.trans a2, Option.some.inj (b3.symm.trans a3)⟩

end Orp.Coarse
