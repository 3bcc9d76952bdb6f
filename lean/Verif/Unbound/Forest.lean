import Verif.Unbound.Extend
import Verif.Mondrian.Same

/-!
Training of the unbounded forest, and histories of calls.
-/

set_option linter.unusedSectionVars false

namespace Orp.Unbound

open Mondrian

variable {K : Type} [Field K] [LinearOrder K] [IsStrictOrderedRing K] [FloorRing K] {F L : Nat}

/-- Invariant: the heap holds the trees and nothing else, the counters of the split nodes are right, the counts of nodes are right. -/
structure Inv (s : Forest K F L) (trees : List (Option (Mondrian.Tree K F L))) : Prop where
  all : HoldsAll { nodes := s.heap, roots := s.roots } trees
  bare : Bare s.heap
  cover : List.Perm (allIds trees) (List.range s.heap.length)
  right : ∀ t, some t ∈ trees → t.recount = t
  total : s.heap.length = s.internals + s.leaves
  extra : s.leaves = s.internals + trees.countP Option.isSome

theorem inv_new (n : Nat) : Inv (new n : Forest K F L) (List.replicate n none) := by
  have hids : allIds (List.replicate n (none : Option (Mondrian.Tree K F L))) = [] := by
    unfold allIds
    rw [List.flatMap_eq_nil_iff]
    intro o ho
    rw [List.eq_of_mem_replicate ho]
  refine ⟨⟨?_, ?_, ?_⟩, ?_, ?_, ?_, rfl, ?_⟩
  · simp [new]
  · intro t ht
    have := List.eq_of_mem_replicate ht
    cases this
  · rw [hids]; exact List.nodup_nil
  · intro i n hn; simp [new] at hn
  · rw [hids]; simp [new]
  · intro t ht
    have := List.eq_of_mem_replicate ht
    cases this
  · show 0 = 0 + _
    rw [List.countP_replicate]; simp

theorem countP_set {α : Type} (q : α → Bool) : ∀ (l : List α) (i : Nat) (a b : α), l[i]? = some a →
    (l.set i b).countP q + (if q a then 1 else 0) = l.countP q + (if q b then 1 else 0)
  | [], i, a, b, h => by simp at h
  | c :: l, 0, a, b, h => by
      simp only [List.getElem?_cons_zero, Option.some.injEq] at h
      subst h
      simp only [List.set_cons_zero, List.countP_cons]
      omega
  | c :: l, i + 1, a, b, h => by
      have := countP_set q l i a b (by simpa using h)
      simp only [List.set_cons_succ, List.countP_cons]
      omega

theorem Inv.root {s : Forest K F L} {trees : List (Option (Mondrian.Tree K F L))} (h : Inv s trees) {i : Nat} {o : Option (Mondrian.Tree K F L)}
    (hi : trees[i]? = some o) : s.roots[i]? = some (o.map Mondrian.Tree.id) := by
  have := h.all.roots
  simp only at this
  rw [this, List.getElem?_map, hi]; rfl

theorem Inv.ready {s : Forest K F L} {trees : List (Option (Mondrian.Tree K F L))} (h : Inv s trees) {i : Nat} {t : Mondrian.Tree K F L}
    (hi : trees[i]? = some (some t)) : Ready s i t := by
  refine ⟨h.all.holds t (List.mem_of_getElem? hi), ?_, h.root hi⟩
  obtain ⟨rest, h1, -⟩ := allIds_split trees i _ hi
  exact (List.nodup_append'.1 (h1.nodup_iff.1 h.all.nodup)).1

theorem Inv.height_le {s : Forest K F L} {trees : List (Option (Mondrian.Tree K F L))} (h : Inv s trees) {i : Nat} {t : Mondrian.Tree K F L}
    (hi : trees[i]? = some (some t)) : t.height ≤ s.heap.length := by
  refine (height_le_ids t).trans ?_
  have hsub : t.ids ⊆ List.range s.heap.length := fun k hk => h.cover.mem_iff.1 (mem_allIds hi hk)
  have := (List.subperm_of_subset (h.ready hi).nodup hsub).length_le
  simpa using this

theorem Inv.length {s : Forest K F L} {trees : List (Option (Mondrian.Tree K F L))} (h : Inv s trees) : (allIds trees).length = s.heap.length := by
  rw [h.cover.length_eq, List.length_range]

/-- replacing one tree -/
theorem Inv.set {s s' : Forest K F L} {trees : List (Option (Mondrian.Tree K F L))} (h : Inv s trees) {i : Nat} {o : Option (Mondrian.Tree K F L)}
    (hi : trees[i]? = some o) {T : Mondrian.Tree K F L} (hholds : Holds s'.heap none T) (hbare : Bare s'.heap) (hT : T.recount = T)
    (hroots : s'.roots = s.roots.set i (some T.id)) (hother : ∀ k, k ∉ oids o → k < s.heap.length → s'.heap[k]? = s.heap[k]?) {k : Nat}
    (hlen : s'.heap.length = s.heap.length + k) (hids : List.Perm T.ids (List.range' s.heap.length k ++ oids o))
    (htotal : s'.heap.length = s'.internals + s'.leaves) (hextra : s'.leaves + s.internals + o.toList.length = s'.internals + s.leaves + 1) :
    Inv s' (trees.set i (some T)) := by
  obtain ⟨rest, h1, h2, h3⟩ := allIds_split trees i o hi
  have hnd := h1.nodup_iff.1 h.all.nodup
  have hc : List.Perm (allIds (trees.set i (some T))) (List.range s'.heap.length) := by
    refine (h2 (some T)).trans ?_
    refine (hids.append_right rest).trans ?_
    rw [List.append_assoc]
    refine ((h1.symm.trans h.cover).append_left _).trans ?_
    refine List.perm_append_comm.trans ?_
    rw [hlen, List.range_eq_range', List.range_eq_range', Nat.add_comm s.heap.length k, Nat.add_comm k]
    rw [← List.range'_append_1]
    simp
  refine ⟨⟨?_, ?_, hc.nodup_iff.2 List.nodup_range⟩, hbare, hc, ?_, htotal, ?_⟩
  · show s'.roots = _
    have := h.all.roots
    simp only at this
    rw [hroots, this, List.map_set]; rfl
  · intro t ht
    obtain ⟨j, hj⟩ := List.mem_iff_getElem?.1 ht
    by_cases hji : j = i
    · subst hji
      rw [List.getElem?_set_self (lt_of_get hi)] at hj
      have := Option.some.inj (Option.some.inj hj)
      subst this
      exact hholds
    · rw [List.getElem?_set_ne (Ne.symm hji)] at hj
      refine holds_congr (fun k hk => ?_) (h.all.holds t (List.mem_of_getElem? hj))
      have hkr := h3 j t hji hj k hk
      exact hother k (fun hk' => (List.nodup_append'.1 hnd).2.2 hk' hkr) (List.mem_range.1 (h.cover.mem_iff.1 (mem_allIds hj hk)))
  · intro t ht
    rcases List.mem_or_eq_of_mem_set ht with ht | ht
    · exact h.right t ht
    · have := Option.some.inj ht
      subst this; exact hT
  · have hcp := countP_set Option.isSome trees i o (some T) hi
    have := h.extra
    cases o with
    | none => simp at hcp hextra; omega
    | some t => simp at hcp hextra; omega

/-- Training one tree, on what the trees say: the forest with unlimited memory -/
def idealTree (p : Params K) (ω : Nat → K) (x : Fin F → K) (label : Fin L) : Option (Mondrian.Tree K F L) → Nat → Res (Option (Mondrian.Tree K F L) × Nat)
  | none, pos => .ok (some (newLeaf p.lifetime 0 x label), pos)
  | some t, pos => (grow p ω (some (0, 0)) x label t 0 pos).map (fun r => (some r.1.content, r.2))

def idealLoop (p : Params K) (ω : Nat → K) (x : Fin F → K) (label : Fin L) : Nat → Nat → List (Option (Mondrian.Tree K F L)) → Nat →
    Res (List (Option (Mondrian.Tree K F L)) × Nat)
  | _, 0, cs, pos => .ok (cs, pos)
  | i, k + 1, cs, pos =>
      match idealTree p ω x label (cs[i]?).join pos with
      | .error e => .error e
      | .ok (o, pos) => idealLoop p ω x label (i + 1) k (cs.set i o) pos

/-- what the trees of a forest say -/
def contents (trees : List (Option (Mondrian.Tree K F L))) : List (Option (Mondrian.Tree K F L)) := trees.map (fun t => t.map Mondrian.Tree.content)

theorem contents_set (trees : List (Option (Mondrian.Tree K F L))) (i : Nat) (o : Option (Mondrian.Tree K F L)) :
    contents (trees.set i o) = (contents trees).set i (o.map Mondrian.Tree.content) := by
  simp [contents, List.map_set]

theorem contents_get {trees : List (Option (Mondrian.Tree K F L))} {i : Nat} {o : Option (Mondrian.Tree K F L)} (h : trees[i]? = some o) :
    ((contents trees)[i]?).join = o.map Mondrian.Tree.content := by
  simp [contents, List.getElem?_map, h]

/-- growing a tree and growing what it says -/
theorem grow_ideal (p : Params K) (ω : Nat → K) (x : Fin F → K) (label : Fin L) (f : Nat × Nat) (t : Mondrian.Tree K F L) (pos : Nat) :
    idealTree p ω x label (some t.content) pos = (grow p ω (some f) x label t 0 pos).map (fun r => (some r.1.content, r.2)) := by
  have := grow_content p ω x label (fresh := some (0, 0)) (fresh' := some f) rfl t.content t 0 pos (content_content t)
  show (grow p ω (some (0, 0)) x label t.content 0 pos).map (fun r => (some r.1.content, r.2)) = _
  cases h1 : grow p ω (some (0, 0)) x label t.content 0 pos with
  | error e =>
      rw [h1] at this
      cases h2 : grow p ω (some f) x label t 0 pos with
      | error e' => rw [h2] at this; cases this; rfl
      | ok q => rw [h2] at this; cases this
  | ok q =>
      rw [h1] at this
      cases h2 : grow p ω (some f) x label t 0 pos with
      | error e' => rw [h2] at this; cases this
      | ok q' =>
          rw [h2] at this
          simp only [Except.map, Except.ok.injEq, Prod.mk.injEq, Option.some.injEq] at this ⊢
          exact this

/-- One step of training a tree -/
def Step (p : Params K) (ω : Nat → K) (z : Point K F L) (o o' : Option (Mondrian.Tree K F L)) : Prop :=
  ∃ o1, Mondrian.Step p ω z o o1 ∧ o' = o1.map Mondrian.Tree.recount

theorem trainTree_none (p : Params K) (ω : Nat → K) (x : Fin F → K) (label : Fin L) (s : Forest K F L) (trees : List (Option (Mondrian.Tree K F L)))
    (hI : Inv s trees) (i pos : Nat) (hi : trees[i]? = some none) :
    ∃ s', trainTree p ω x label i s pos = .ok (s', pos, true) ∧ Inv s' (trees.set i (some (newLeaf p.lifetime s.heap.length x label))) ∧
      s'.points = s.points := by
  have hr := rd_eq_ok_iff.2 (hI.root hi)
  have hrlt := lt_of_get (hI.root hi)
  have hget : ∀ j, (s.heap ++ [blankLeaf])[j]? = if j = s.heap.length then some (blankLeaf : Node K F L) else s.heap[j]? := by
    intro j
    by_cases h : j < s.heap.length
    · rw [List.getElem?_append_left h, if_neg (by omega)]
    · rw [List.getElem?_append_right (by omega)]
      split
      · rename_i e; subst e; simp
      · rw [List.getElem?_eq_none (by simp; omega), List.getElem?_eq_none (by omega)]
  have hb : Bare (s.heap ++ [blankLeaf]) := by
    intro j n hn hd
    rw [hget] at hn
    split at hn
    · have := Option.some.inj hn
      subst this; exact ⟨rfl, rfl⟩
    · exact hI.bare j n hn hd
  have hh : Holds (s.heap ++ [blankLeaf]) none (plug [] (.leaf s.heap.length blankData) : Mondrian.Tree K F L) :=
    ⟨blankLeaf, by rw [hget, if_pos rfl], ⟨rfl, rfl, rfl, rfl⟩, rfl⟩
  obtain ⟨heap', a1, a2, a3, a4, a5⟩ := sample_spec p x label _ [] s.heap.length blankData hh (by simp [plug, Mondrian.Tree.ids]) hb
  have hlen : heap'.length = s.heap.length + 1 := by rw [a2]; simp
  have hsum : s.heap.length = s.internals + s.leaves := hI.total
  refine ⟨{ s with
    heap := heap'
    roots := s.roots.set i (some s.heap.length)
    leaves := s.leaves + 1 }, ?_, ?_, rfl⟩
  · simp only [trainTree, hr, bind, Except.bind, Option.map_none, wr_ok _ hrlt, a1, pure, Except.pure]
  · refine hI.set hi (k := 1) a4 a3 rfl rfl ?_ hlen ?_ ?_ ?_
    · intro k _ hk
      show heap'[k]? = _
      rw [a5 k (by simp [plug, Mondrian.Tree.ids]; omega), hget, if_neg (by omega)]
    · simp [newLeaf, Mondrian.Tree.ids, oids]
    · show heap'.length = s.internals + (s.leaves + 1)
      omega
    · show s.leaves + 1 + s.internals + 0 = s.internals + s.leaves + 1
      omega

theorem trainTree_some (p : Params K) (ω : Nat → K) (hω : ∀ i, ω i ≤ 1) (x : Fin F → K) (label : Fin L) (s : Forest K F L)
    (trees : List (Option (Mondrian.Tree K F L))) (hI : Inv s trees) (i pos : Nat) (t : Mondrian.Tree K F L) (hi : trees[i]? = some (some t)) :
    match grow p ω (some (s.heap.length, s.heap.length + 1)) x label t 0 pos with
    | .error e => trainTree p ω x label i s pos = .error e
    | .ok (t', pos') => ∃ s', trainTree p ω x label i s pos = .ok (s', pos', true) ∧ Inv s' (trees.set i (some t'.recount)) ∧ s'.points = s.points := by
  have h := extendBlock_spec p ω hω x label i t s.heap.length [] pos s (hI.height_le hi) (hI.ready hi) hI.bare (hI.right t (List.mem_of_getElem? hi))
    (by intro f hf; cases hf) trivial
  have hr := rd_eq_ok_iff.2 (hI.root hi)
  have hsum : s.heap.length = s.internals + s.leaves := hI.total
  unfold trainTree
  simp only [hr, bind, Except.bind, Option.map_some]
  simp only [ctxTau, plug] at h
  cases hg : grow p ω (some (s.heap.length, s.heap.length + 1)) x label t 0 pos with
  | error e =>
      rw [hg] at h
      simp only at h ⊢
      rw [h]
  | ok q =>
      obtain ⟨t', pos'⟩ := q
      rw [hg] at h
      obtain ⟨s', e1, e2⟩ := h
      simp only [e1, pure, Except.pure]
      rcases e2.taken with ⟨q1, q2, q3, q4⟩ | ⟨q1, q2, q3, q4⟩
      · refine ⟨s', rfl, hI.set hi (k := 0) e2.ready.holds e2.bare (recount_recount _) e2.roots e2.other q1 ?_ ?_ ?_, e2.points⟩
        · simpa [oids] using q2
        · rw [q1, q3, q4]; exact hsum
        · rw [q3, q4]; simp; omega
      · refine ⟨s', rfl, hI.set hi (k := 2) e2.ready.holds e2.bare (recount_recount _) e2.roots e2.other q1 ?_ ?_ ?_, e2.points⟩
        · simpa [oids, List.range'] using q2
        · rw [q1, q3, q4]; omega
        · rw [q3, q4]; simp; omega

/-- Training one tree is the ideal training of what the tree says. -/
theorem trainTree_ideal (p : Params K) (ω : Nat → K) (hω : ∀ i, ω i ≤ 1) (x : Fin F → K) (label : Fin L) (s : Forest K F L)
    (trees : List (Option (Mondrian.Tree K F L))) (hI : Inv s trees) (i pos : Nat) (o : Option (Mondrian.Tree K F L)) (hi : trees[i]? = some o) :
    match idealTree p ω x label (o.map Mondrian.Tree.content) pos with
    | .error e => trainTree p ω x label i s pos = .error e
    | .ok (c, pos') => ∃ s' o', trainTree p ω x label i s pos = .ok (s', pos', true) ∧ Inv s' (trees.set i o') ∧ s'.points = s.points ∧
        c = o'.map Mondrian.Tree.content ∧ Step p ω (x, label) o o' := by
  cases o with
  | none =>
      obtain ⟨s', a1, a2, a3⟩ := trainTree_none p ω x label s trees hI i pos hi
      exact ⟨s', _, a1, a2, a3, rfl, some (newLeaf p.lifetime s.heap.length x label), ⟨s.heap.length, rfl⟩, rfl⟩
  | some t =>
      have h := trainTree_some p ω hω x label s trees hI i pos t hi
      rw [Option.map_some, grow_ideal p ω x label (s.heap.length, s.heap.length + 1)]
      cases hg : grow p ω (some (s.heap.length, s.heap.length + 1)) x label t 0 pos with
      | error e => rw [hg] at h; exact h
      | ok q =>
          obtain ⟨t', pos'⟩ := q
          rw [hg] at h
          obtain ⟨s', a1, a2, a3⟩ := h
          refine ⟨s', _, a1, a2, a3, ?_, some t', ⟨_, _, t', _, grow_grows _ _ _ _ _ _ _ _ _ _ hg, rfl⟩, rfl⟩
          simp [content_recount]

theorem trainLoop_ideal (p : Params K) (ω : Nat → K) (hω : ∀ i, ω i ≤ 1) (x : Fin F → K) (label : Fin L) :
    ∀ (k i : Nat) (s : Forest K F L) (trees : List (Option (Mondrian.Tree K F L))) (pos : Nat) (res : Option Bool), i + k = trees.length → Inv s trees →
      match idealLoop p ω x label i k (contents trees) pos with
      | .error e => trainLoop p ω x label i k s pos res = .error e
      | .ok (cs, pos') => ∃ s' trees', trainLoop p ω x label i k s pos res = .ok (s', pos', res) ∧ Inv s' trees' ∧ s'.points = s.points ∧
          cs = contents trees' ∧ trees'.length = trees.length ∧ ∀ (j : Nat) (o : Option (Mondrian.Tree K F L)), trees[j]? = some o →
            ∃ o', trees'[j]? = some o' ∧ (j < i → o' = o) ∧ (i ≤ j → Step p ω (x, label) o o')
  | 0, i, s, trees, pos, res, hk, hI => ⟨s, trees, rfl, hI, rfl, rfl, rfl, fun j o hj => ⟨o, hj, fun _ => rfl, fun hij => by
      have := lt_of_get hj; omega⟩⟩
  | k + 1, i, s, trees, pos, res, hk, hI => by
      have hilt : i < trees.length := by omega
      obtain ⟨o, ho⟩ : ∃ o, trees[i]? = some o := ⟨_, List.getElem?_eq_getElem hilt⟩
      have h1 := trainTree_ideal p ω hω x label s trees hI i pos o ho
      unfold idealLoop trainLoop
      rw [contents_get ho]
      cases hid : idealTree p ω x label (o.map Mondrian.Tree.content) pos with
      | error e =>
          rw [hid] at h1
          simp only at h1 ⊢
          simp only [h1, bind, Except.bind]
      | ok q =>
          obtain ⟨c, pos1⟩ := q
          rw [hid] at h1
          obtain ⟨s1, o1, a1, a2, a3, rfl, a5⟩ := h1
          have ih := trainLoop_ideal p ω hω x label k (i + 1) s1 (trees.set i o1) pos1 res (by simp; omega) a2
          simp only [a1, bind, Except.bind, if_true]
          rw [contents_set] at ih
          cases hl : idealLoop p ω x label (i + 1) k ((contents trees).set i (o1.map Mondrian.Tree.content)) pos1 with
          | error e => rw [hl] at ih; exact ih
          | ok q =>
              obtain ⟨cs, pos2⟩ := q
              rw [hl] at ih
              obtain ⟨s', trees', b1, b2, b3, b4, b5, b6⟩ := ih
              refine ⟨s', trees', b1, b2, b3.trans a3, b4, by rw [b5]; simp, fun j u hj => ?_⟩
              by_cases hji : j = i
              · subst hji
                rw [ho] at hj
                have := Option.some.inj hj
                subst this
                obtain ⟨o', c1, c2, c3⟩ := b6 j o1 (List.getElem?_set_self hilt)
                refine ⟨o', c1, fun h => by omega, fun _ => ?_⟩
                rw [c2 (by omega)]; exact a5
              · obtain ⟨o', c1, c2, c3⟩ := b6 j u (by rw [List.getElem?_set_ne (Ne.symm hji)]; exact hj)
                exact ⟨o', c1, fun h => c2 (by omega), fun h => c3 (by omega)⟩

theorem Inv.roots_length {s : Forest K F L} {trees : List (Option (Mondrian.Tree K F L))} (h : Inv s trees) : s.roots.length = trees.length := by
  have := h.all.roots
  simp only at this
  rw [this, List.length_map]

theorem Inv.points {s : Forest K F L} {trees : List (Option (Mondrian.Tree K F L))} (h : Inv s trees) (n : Nat) : Inv { s with points := n } trees :=
  ⟨h.all, h.bare, h.cover, h.right, h.total, h.extra⟩

theorem Inv.recountAll {s : Forest K F L} {trees : List (Option (Mondrian.Tree K F L))} (h : Inv s trees) : recountAll trees = trees := by
  unfold Mondrian.recountAll
  conv_rhs => rw [← List.map_id trees]
  apply List.map_congr_left
  intro o ho
  cases o with
  | none => rfl
  | some t => simp [h.right t ho]

/-- `predict` is the prediction from the trees. -/
theorem Inv.predict_eq {s : Forest K F L} {trees : List (Option (Mondrian.Tree K F L))} (h : Inv s trees) (p : Params K) (x : Fin F → K) :
    predict p s x = label p x trees := by
  have hr : s.roots = trees.map (fun t => t.map Mondrian.Tree.id) := h.all.roots
  have e := sumLoop_spec p { nodes := s.heap, roots := s.roots } x trees (fun _ => 0) (fun t ht => by
    obtain ⟨j, hj⟩ := List.mem_iff_getElem?.1 ht
    exact ⟨h.height_le hj, h.all.holds t ht⟩)
  rw [← hr] at e
  unfold predict label
  simp only [bind, Except.bind, e, h.roots_length]

/-- the histories of the forest with unlimited memory -/
def idealRun (p : Params K) (ω : Nat → K) (n : Nat) : List (Op K F L) → List (Option (Mondrian.Tree K F L)) → Nat →
    Res (List (Option (Mondrian.Tree K F L)) × Nat)
  | [], cs, pos => .ok (cs, pos)
  | .train x l :: ops, cs, pos =>
      match idealLoop p ω x l 0 n cs pos with
      | .error e => .error e
      | .ok (cs, pos) => idealRun p ω n ops cs pos
  | .predict x :: ops, cs, pos =>
      match label p x (recountAll cs) with
      | .error e => .error e
      | .ok _ => idealRun p ω n ops cs pos

theorem same_contents (trees : List (Option (Mondrian.Tree K F L))) : SameTrees (contents trees) trees := by
  simp only [SameTrees, contents, List.map_map]
  apply List.map_congr_left
  intro o _
  cases o with
  | none => rfl
  | some t => simp [content_content]

/-- what is true after a history of calls -/
theorem run_ideal (p : Params K) (ω : Nat → K) (hω : ∀ i, 0 ≤ ω i ∧ ω i < 1) (R : K → K → Prop) (hR : ∀ a b, a < b → R a b)
    (hd : ∀ (pos : Nat) (b : Box K F) (x : Fin F → K) (ptau tau : K) (c : Cut K F) (pos' : Nat),
      Mondrian.draw p ω pos b x ptau tau = .ok (some c, pos') → R ptau c.tau) (n : Nat) :
    ∀ (ops : List (Op K F L)) (s : Forest K F L) (trees : List (Option (Mondrian.Tree K F L))) (pos : Nat) (pts : List (Point K F L)), Inv s trees →
      trees.length = n → (∀ o ∈ trees, Good R p.lifetime pts o) →
      match idealRun p ω n ops (contents trees) pos with
      | .error e => run p ω ops s pos = .error e
      | .ok (cs, pos') => ∃ s' trees', run p ω ops s pos = .ok (s', pos') ∧ Inv s' trees' ∧ cs = contents trees' ∧ trees'.length = n ∧
          s'.points = s.points + (points ops).length ∧ ∀ o ∈ trees', Good R p.lifetime (pts ++ points ops) o
  | [], s, trees, pos, pts, hI, hn, hg => ⟨s, trees, rfl, hI, rfl, hn, rfl, by simpa [points] using hg⟩
  | .train x l :: ops, s, trees, pos, pts, hI, hn, hg => by
      have h1 := trainLoop_ideal p ω (fun i => (hω i).2.le) x l n 0 s trees pos none (by omega) hI
      have hrl : s.roots.length = n := by rw [hI.roots_length, hn]
      unfold idealRun run
      simp only [exec, train, hrl]
      cases hl : idealLoop p ω x l 0 n (contents trees) pos with
      | error e =>
          rw [hl] at h1
          simp only at h1 ⊢
          simp only [h1, bind, Except.bind]
      | ok q =>
          obtain ⟨cs, pos1⟩ := q
          rw [hl] at h1
          obtain ⟨s1, trees1, a1, a2, a3, rfl, a5, a6⟩ := h1
          have ih := run_ideal p ω hω R hR hd n ops { s1 with points := s1.points + 1 } trees1 pos1 (pts ++ [(x, l)]) (a2.points _) (a5.trans hn) (by
            intro o ho
            obtain ⟨j, hj⟩ := List.mem_iff_getElem?.1 ho
            have hjlt : j < trees.length := by rw [← a5]; exact lt_of_get hj
            obtain ⟨o', c1, -, c3⟩ := a6 j _ (List.getElem?_eq_getElem hjlt)
            rw [hj] at c1
            have := Option.some.inj c1
            subst this
            obtain ⟨o1, d1, rfl⟩ := c3 (Nat.zero_le _)
            exact (d1.good hR hω hd (hg _ (List.getElem_mem hjlt))).recount)
          simp only [a1, bind, Except.bind, pure, Except.pure]
          cases hr : idealRun p ω n ops (contents trees1) pos1 with
          | error e => rw [hr] at ih; exact ih
          | ok q =>
              obtain ⟨cs, pos2⟩ := q
              rw [hr] at ih
              obtain ⟨s', trees', b1, b2, b3, b4, b5, b6⟩ := ih
              refine ⟨s', trees', b1, b2, b3, b4, ?_, ?_⟩
              · rw [b5]
                simp only [points, List.length_cons, a3]
                omega
              · simpa [points] using b6
  | .predict x :: ops, s, trees, pos, pts, hI, hn, hg => by
      have h1 := hI.predict_eq p x
      rw [← hI.recountAll, ← label_congr p x (same_contents trees)] at h1
      unfold idealRun run
      simp only [exec, h1]
      cases label p x (recountAll (contents trees)) with
      | error e => rfl
      | ok q => exact run_ideal p ω hω R hR hd n ops s trees pos pts hI hn hg

end Orp.Unbound
