import Verif.Unbound.Forest

/-!
The bounded forest against the forest with unlimited memory.
-/

set_option linter.unusedSectionVars false

namespace Orp.Unbound

open Mondrian

variable {K : Type} [Field K] [LinearOrder K] [IsStrictOrderedRing K] [FloorRing K] {F L : Nat}

theorem set_ids_length {trees : List (Option (Mondrian.Tree K F L))} {i : Nat} {o : Option (Mondrian.Tree K F L)} (hi : trees[i]? = some o)
    (c : Option (Mondrian.Tree K F L)) : (allIds (trees.set i c)).length + (oids o).length = (allIds trees).length + (oids c).length := by
  obtain ⟨rest, h1, h2, -⟩ := allIds_split trees i o hi
  rw [(h2 c).length_eq, h1.length_eq, List.length_append, List.length_append]
  omega

theorem contents_ids_length (trees : List (Option (Mondrian.Tree K F L))) : (allIds (contents trees)).length = (allIds trees).length :=
  (same_contents trees).ids_length

theorem idealTree_mono {p : Params K} {ω : Nat → K} {x : Fin F → K} {label : Fin L} {o c : Option (Mondrian.Tree K F L)} {pos pos' : Nat}
    (h : idealTree p ω x label o pos = .ok (c, pos')) : (oids o).length ≤ (oids c).length := by
  cases o with
  | none => simp [oids]
  | some t =>
      have h : (grow p ω (some (0, 0)) x label t 0 pos).map (fun r => (some r.1.content, r.2)) = .ok (c, pos') := h
      cases hg : grow p ω (some (0, 0)) x label t 0 pos with
      | error e => rw [hg] at h; cases h
      | ok q =>
          rw [hg] at h
          simp only [Except.map, Except.ok.injEq, Prod.mk.injEq] at h
          obtain ⟨rfl, -⟩ := h
          have := grow_none p ω x label (0, 0) t 0 pos q.1 q.2 hg
          simp only [oids, content_length]
          omega

theorem idealLoop_mono {p : Params K} {ω : Nat → K} {x : Fin F → K} {label : Fin L} : ∀ (k i : Nat) (cs : List (Option (Mondrian.Tree K F L))) (pos : Nat)
    (cs' : List (Option (Mondrian.Tree K F L))) (pos' : Nat), i + k = cs.length → idealLoop p ω x label i k cs pos = .ok (cs', pos') →
    (allIds cs).length ≤ (allIds cs').length ∧ cs'.length = cs.length
  | 0, i, cs, pos, cs', pos', hk, h => by
      simp only [idealLoop, Except.ok.injEq, Prod.mk.injEq] at h
      obtain ⟨rfl, rfl⟩ := h
      exact ⟨le_rfl, rfl⟩
  | k + 1, i, cs, pos, cs', pos', hk, h => by
      obtain ⟨o, ho⟩ : ∃ o, cs[i]? = some o := ⟨_, List.getElem?_eq_getElem (by omega)⟩
      unfold idealLoop at h
      rw [ho, Option.join_some] at h
      cases hid : idealTree p ω x label o pos with
      | error e => rw [hid] at h; cases h
      | ok q =>
          obtain ⟨c, pos1⟩ := q
          rw [hid] at h
          obtain ⟨h1, h2⟩ := idealLoop_mono k (i + 1) (cs.set i c) pos1 cs' pos' (by simp; omega) h
          have h3 := set_ids_length ho c
          have h4 := idealTree_mono hid
          exact ⟨by omega, by rw [h2]; simp⟩

theorem idealRun_mono {p : Params K} {ω : Nat → K} {n : Nat} : ∀ (ops : List (Op K F L)) (cs : List (Option (Mondrian.Tree K F L))) (pos : Nat)
    (cs' : List (Option (Mondrian.Tree K F L))) (pos' : Nat), cs.length = n → idealRun p ω n ops cs pos = .ok (cs', pos') →
    (allIds cs).length ≤ (allIds cs').length
  | [], cs, pos, cs', pos', hn, h => by
      simp only [idealRun, Except.ok.injEq, Prod.mk.injEq] at h
      obtain ⟨rfl, rfl⟩ := h
      exact le_rfl
  | .train x l :: ops, cs, pos, cs', pos', hn, h => by
      unfold idealRun at h
      cases hl : idealLoop p ω x l 0 n cs pos with
      | error e => rw [hl] at h; cases h
      | ok q =>
          rw [hl] at h
          obtain ⟨h1, h2⟩ := idealLoop_mono n 0 cs pos q.1 q.2 (by omega) hl
          exact h1.trans (idealRun_mono ops q.1 q.2 cs' pos' (h2.trans hn) h)
  | .predict x :: ops, cs, pos, cs', pos', hn, h => by
      unfold idealRun at h
      cases hl : label p x (recountAll cs) with
      | error e => rw [hl] at h; cases h
      | ok q => rw [hl] at h; exact idealRun_mono ops cs pos cs' pos' hn h

theorem pool_count {s : Mondrian.Forest K F L} {trees : List (Option (Mondrian.Tree K F L))} {lost : List Nat} (h : Mondrian.Inv s trees lost) :
    (avail s.nodes).length + lost.length + (allIds trees).length = s.nodes.length := by
  have := h.cover.length_eq
  simp only [List.length_append, List.length_range] at this
  omega

/-- If the ideal training needs no more nodes than there are, the bounded forest does the same. -/
theorem bounded_tree (p : Params K) (hlife : 0 ≤ p.lifetime) (ω : Nat → K) (hω : ∀ i, 0 ≤ ω i ∧ ω i < 1) (x : Fin F → K) (label : Fin L)
    {s : Mondrian.Forest K F L} {trees : List (Option (Mondrian.Tree K F L))} {lost : List Nat} (hI : Mondrian.Inv s trees lost)
    (hP : (∀ o ∈ trees, o ≠ none) ∨ lost = []) {i pos : Nat} {o c : Option (Mondrian.Tree K F L)} {pos' : Nat} (hi : trees[i]? = some o)
    (hid : idealTree p ω x label (o.map Mondrian.Tree.content) pos = .ok (c, pos'))
    (hm : (allIds ((contents trees).set i c)).length ≤ s.nodes.length) :
    ∃ s' lost' o', Mondrian.trainTree p ω x label i s pos = .ok (s', pos', true) ∧ Mondrian.Inv s' (trees.set i o') lost' ∧
      s'.nodes.length = s.nodes.length ∧ c = o'.map Mondrian.Tree.content ∧ o' ≠ none ∧ (o = none → lost' = []) := by
  have hpc := pool_count hI
  have hci : (contents trees)[i]? = some (o.map Mondrian.Tree.content) := by simp [contents, hi]
  have hsl := set_ids_length hci c
  rw [contents_ids_length] at hsl
  cases o with
  | none =>
      simp only [Option.map_none, idealTree, Except.ok.injEq, Prod.mk.injEq] at hid
      obtain ⟨rfl, rfl⟩ := hid
      have hlost : lost = [] := by
        rcases hP with h | h
        · exact absurd rfl (h none (List.mem_of_getElem? hi))
        · exact h
      subst hlost
      have h := Mondrian.trainTree_none p hlife ω x label s trees [] hI i pos hi
      cases hA : avail s.nodes with
      | nil =>
          rw [hA] at hpc
          have e : (oids (some (newLeaf p.lifetime 0 x label : Mondrian.Tree K F L))).length = 1 := rfl
          have e' : (oids (Option.map Mondrian.Tree.content (none : Option (Mondrian.Tree K F L)))).length = 0 := rfl
          rw [e, e'] at hsl
          simp only [List.length_nil] at hpc
          omega
      | cons a A =>
          rw [hA] at h
          obtain ⟨s', e1, e2, e3, -⟩ := h
          exact ⟨s', [], _, e1, e2, e3, rfl, by simp, fun _ => rfl⟩
  | some t =>
      have h := Mondrian.trainTree_some p hlife ω hω x label s trees lost hI i pos t hi
      rw [Option.map_some] at hid
      cases hf : freshOf (avail s.nodes) with
      | some f =>
          rw [hf] at h
          rw [grow_ideal p ω x label f] at hid
          cases hg : grow p ω (some f) x label t 0 pos with
          | error e => rw [hg] at hid; cases hid
          | ok q =>
              rw [hg] at hid h
              simp only [Except.map, Except.ok.injEq, Prod.mk.injEq] at hid
              obtain ⟨rfl, rfl⟩ := hid
              obtain ⟨s', lost', e1, e2, e3, -⟩ := h
              exact ⟨s', lost', _, e1, e2, e3, rfl, by simp, by simp⟩
      | none =>
          rw [hf] at h
          rw [grow_ideal p ω x label (0, 0)] at hid
          cases hg : grow p ω (some (0, 0)) x label t 0 pos with
          | error e => rw [hg] at hid; cases hid
          | ok q =>
              rw [hg] at hid
              simp only [Except.map, Except.ok.injEq, Prod.mk.injEq] at hid
              obtain ⟨rfl, rfl⟩ := hid
              rcases grow_none p ω x label (0, 0) t 0 pos q.1 q.2 hg with ⟨-, h2⟩ | h2
              · rw [h2] at h
                obtain ⟨s', lost', e1, e2, e3, -⟩ := h
                exact ⟨s', lost', _, e1, e2, e3, rfl, by simp, by simp⟩
              · exfalso
                simp only [oids, Option.map_some, content_length] at hsl
                have h1 := hI.one
                have h3 := hI.empty
                cases hA : avail s.nodes with
                | nil => rw [hA] at hpc; simp at hpc; omega
                | cons a A =>
                    cases A with
                    | nil =>
                        have hl : lost = [] := by
                          by_contra hne
                          rw [h3 hne] at hA; cases hA
                        rw [hA, hl] at hpc; simp at hpc; omega
                    | cons b B => rw [hA] at hf; cases hf

/-- trees before `i` exist, the others do not, and no node is lost -/
def Young (trees : List (Option (Mondrian.Tree K F L))) (lost : List Nat) (i : Nat) : Prop :=
  lost = [] ∧ (∀ (j : Nat) (o : Option (Mondrian.Tree K F L)), trees[j]? = some o → i ≤ j → o = none) ∧
    (∀ (j : Nat) (o : Option (Mondrian.Tree K F L)), trees[j]? = some o → j < i → o ≠ none)

theorem phase_set {trees : List (Option (Mondrian.Tree K F L))} {lost lost' : List Nat} {i : Nat} {o o' : Option (Mondrian.Tree K F L)}
    (h : (∀ o ∈ trees, o ≠ none) ∨ Young trees lost i) (hi : trees[i]? = some o) (hn : o' ≠ none) (hl : o = none → lost' = []) :
    (∀ o ∈ trees.set i o', o ≠ none) ∨ Young (trees.set i o') lost' (i + 1) := by
  rcases h with h | ⟨-, h2, h3⟩
  · refine Or.inl fun u hu => ?_
    rcases List.mem_or_eq_of_mem_set hu with hu | hu
    · exact h u hu
    · rw [hu]; exact hn
  · refine Or.inr ⟨hl (h2 i o hi le_rfl), fun j u hj hij => ?_, fun j u hj hij => ?_⟩
    · rw [List.getElem?_set_ne (by omega)] at hj
      exact h2 j u hj (by omega)
    · by_cases hji : j = i
      · subst hji
        rw [List.getElem?_set_self (lt_of_get hi)] at hj
        have := Option.some.inj hj
        subst this
        exact hn
      · rw [List.getElem?_set_ne (Ne.symm hji)] at hj
        exact h3 j u hj (by omega)

theorem phase_end {trees : List (Option (Mondrian.Tree K F L))} {lost : List Nat} (h : (∀ o ∈ trees, o ≠ none) ∨ Young trees lost trees.length) :
    ∀ o ∈ trees, o ≠ none := by
  rcases h with h | ⟨-, -, h3⟩
  · exact h
  · intro o ho
    obtain ⟨j, hj⟩ := List.mem_iff_getElem?.1 ho
    exact h3 j o hj (lt_of_get hj)

theorem bounded_loop (p : Params K) (hlife : 0 ≤ p.lifetime) (ω : Nat → K) (hω : ∀ i, 0 ≤ ω i ∧ ω i < 1) (x : Fin F → K) (label : Fin L) :
    ∀ (k i : Nat) (s : Mondrian.Forest K F L) (trees : List (Option (Mondrian.Tree K F L))) (lost : List Nat) (pos : Nat) (res : Option Bool)
      (cs : List (Option (Mondrian.Tree K F L))) (pos' : Nat), i + k = trees.length → Mondrian.Inv s trees lost →
      ((∀ o ∈ trees, o ≠ none) ∨ Young trees lost i) → idealLoop p ω x label i k (contents trees) pos = .ok (cs, pos') →
      (allIds cs).length ≤ s.nodes.length →
      ∃ s' trees' lost', Mondrian.trainLoop p ω x label i k s pos res = .ok (s', pos', res) ∧ Mondrian.Inv s' trees' lost' ∧
        s'.nodes.length = s.nodes.length ∧ cs = contents trees' ∧ trees'.length = trees.length ∧ ∀ o ∈ trees', o ≠ none
  | 0, i, s, trees, lost, pos, res, cs, pos', hk, hI, hP, h, hm => by
      simp only [idealLoop, Except.ok.injEq, Prod.mk.injEq] at h
      obtain ⟨rfl, rfl⟩ := h
      have : i = trees.length := by omega
      subst this
      exact ⟨s, trees, lost, rfl, hI, rfl, rfl, rfl, phase_end hP⟩
  | k + 1, i, s, trees, lost, pos, res, cs, pos', hk, hI, hP, h, hm => by
      obtain ⟨o, ho⟩ : ∃ o, trees[i]? = some o := ⟨_, List.getElem?_eq_getElem (by omega)⟩
      unfold idealLoop at h
      rw [contents_get ho] at h
      cases hid : idealTree p ω x label (o.map Mondrian.Tree.content) pos with
      | error e => rw [hid] at h; cases h
      | ok q =>
          obtain ⟨c, pos1⟩ := q
          rw [hid] at h
          simp only at h
          have hmono := idealLoop_mono k (i + 1) _ pos1 cs pos' (by simp [contents]; omega) h
          obtain ⟨s1, lost1, o1, e1, e2, e3, rfl, e5, e6⟩ := bounded_tree p hlife ω hω x label hI (hP.imp_right (·.1)) ho hid (hmono.1.trans hm)
          rw [← contents_set] at h
          obtain ⟨s', trees', lost', b1, b2, b3, b4, b5, b6⟩ := bounded_loop p hlife ω hω x label k (i + 1) s1 (trees.set i o1) lost1 pos1 res cs pos'
            (by simp; omega) e2 (phase_set hP ho e5 e6) h (by rw [e3]; exact hm)
          refine ⟨s', trees', lost', ?_, b2, b3.trans e3, b4, by rw [b5]; simp, b6⟩
          simp only [Mondrian.trainLoop, e1, bind, Except.bind, if_true]
          exact b1

theorem recountAll_same (trees : List (Option (Mondrian.Tree K F L))) : contents (recountAll trees) = contents trees := (SameTrees.recount trees).symm

theorem recountAll_ne {trees : List (Option (Mondrian.Tree K F L))} (h : ∀ o ∈ trees, o ≠ none) : ∀ o ∈ recountAll trees, o ≠ none := by
  intro o ho
  obtain ⟨u, hu, rfl⟩ := List.mem_map.1 ho
  cases u with
  | none => exact absurd rfl (h none hu)
  | some t => simp

theorem recountAll_young {trees : List (Option (Mondrian.Tree K F L))} {lost : List Nat} (h : Young trees lost 0) : Young (recountAll trees) lost 0 := by
  refine ⟨h.1, fun j o hj _ => ?_, fun j o _ hj => by omega⟩
  simp only [recountAll, List.getElem?_map] at hj
  cases hu : trees[j]? with
  | none => rw [hu] at hj; cases hj
  | some u =>
      rw [hu] at hj
      have := h.2.1 j u hu (Nat.zero_le _)
      subst this
      simpa using hj.symm

theorem bounded_run (p : Params K) (hlife : 0 ≤ p.lifetime) (ω : Nat → K) (hω : ∀ i, 0 ≤ ω i ∧ ω i < 1) (n : Nat) :
    ∀ (ops : List (Op K F L)) (s : Mondrian.Forest K F L) (trees : List (Option (Mondrian.Tree K F L))) (lost : List Nat) (pos : Nat)
      (cs : List (Option (Mondrian.Tree K F L))) (pos' : Nat), trees.length = n → Mondrian.Inv s trees lost →
      ((∀ o ∈ trees, o ≠ none) ∨ Young trees lost 0) → idealRun p ω n ops (contents trees) pos = .ok (cs, pos') →
      (allIds cs).length ≤ s.nodes.length →
      ∃ s' trees' lost', Mondrian.run p ω ops s pos = .ok (s', pos') ∧ Mondrian.Inv s' trees' lost' ∧ s'.nodes.length = s.nodes.length ∧ cs = contents trees'
  | [], s, trees, lost, pos, cs, pos', hn, hI, hP, h, hm => by
      simp only [idealRun, Except.ok.injEq, Prod.mk.injEq] at h
      obtain ⟨rfl, rfl⟩ := h
      exact ⟨s, trees, lost, rfl, hI, rfl, rfl⟩
  | .train x l :: ops, s, trees, lost, pos, cs, pos', hn, hI, hP, h, hm => by
      unfold idealRun at h
      cases hl : idealLoop p ω x l 0 n (contents trees) pos with
      | error e => rw [hl] at h; cases h
      | ok q =>
          obtain ⟨cs1, pos1⟩ := q
          rw [hl] at h
          have h2 := idealLoop_mono n 0 _ pos cs1 pos1 (by simp [contents]; omega) hl
          have h3 := idealRun_mono ops cs1 pos1 cs pos' (by rw [h2.2]; simp [contents, hn]) h
          obtain ⟨s1, trees1, lost1, b1, b2, b3, rfl, b5, b6⟩ := bounded_loop p hlife ω hω x l n 0 s trees lost pos none cs1 pos1 (by omega) hI hP hl (h3.trans hm)
          obtain ⟨s', trees', lost', c1, c2, c3, c4⟩ := bounded_run p hlife ω hω n ops s1 trees1 lost1 pos1 cs pos' (b5.trans hn) b2 (Or.inl b6) h (by rw [b3]; exact hm)
          refine ⟨s', trees', lost', ?_, c2, c3.trans b3, c4⟩
          have hrl : s.roots.length = n := by rw [hI.all.roots, List.length_map, hn]
          simp only [Mondrian.run, Mondrian.exec, Mondrian.train, hrl, b1, bind, Except.bind, pure, Except.pure]
          exact c1
  | .predict x :: ops, s, trees, lost, pos, cs, pos', hn, hI, hP, h, hm => by
      unfold idealRun at h
      cases hl : label p x (recountAll (contents trees)) with
      | error e => rw [hl] at h; cases h
      | ok q =>
          rw [hl] at h
          simp only at h
          obtain ⟨nodes', d1, d2, -, d4⟩ := hI.predict_eq p
          have hp := d4 x
          rw [← label_congr p x (same_contents trees), hl] at hp
          rw [← recountAll_same] at h
          obtain ⟨s', trees', lost', c1, c2, c3, c4⟩ := bounded_run p hlife ω hω n ops { s with nodes := nodes' } (recountAll trees) lost pos cs pos' (by
            simp [recountAll, hn]) d1 (hP.imp recountAll_ne recountAll_young) h (by show _ ≤ nodes'.length; rw [d2.1]; exact hm)
          refine ⟨s', trees', lost', ?_, c2, c3.trans d2.1, c4⟩
          simp only [Mondrian.run, Mondrian.exec, hp, Except.map, bind, Except.bind, pure, Except.pure]
          exact c1

/-! ### From the bounded forest to the ideal one -/

/-- with two free nodes the bounded forest does what the ideal one does -/
theorem bounded_free (p : Params K) (hlife : 0 ≤ p.lifetime) (ω : Nat → K) (hω : ∀ i, 0 ≤ ω i ∧ ω i < 1) (x : Fin F → K) (label : Fin L)
    {s : Mondrian.Forest K F L} {trees : List (Option (Mondrian.Tree K F L))} {lost : List Nat} (hI : Mondrian.Inv s trees lost) {i pos : Nat}
    {o : Option (Mondrian.Tree K F L)} (hi : trees[i]? = some o) {r : Mondrian.Forest K F L × Nat × Bool}
    (h : Mondrian.trainTree p ω x label i s pos = .ok r) : ∃ lost' o', Mondrian.Inv r.1 (trees.set i o') lost' ∧
      (avail r.1.nodes).length ≤ (avail s.nodes).length ∧ (2 ≤ (avail s.nodes).length →
        idealTree p ω x label (o.map Mondrian.Tree.content) pos = .ok (o'.map Mondrian.Tree.content, r.2.1)) := by
  cases o with
  | none =>
      have h1 := Mondrian.trainTree_none p hlife ω x label s trees lost hI i pos hi
      cases hA : avail s.nodes with
      | nil => rw [hA, h] at h1; cases h1
      | cons a A =>
          rw [hA] at h1
          obtain ⟨s', e1, e2, e3, e4⟩ := h1
          rw [h] at e1
          have := Except.ok.inj e1
          subst this
          exact ⟨[], _, e2, by rw [e4]; simp, fun _ => rfl⟩
  | some t =>
      have h1 := Mondrian.trainTree_some p hlife ω hω x label s trees lost hI i pos t hi
      cases hg : grow p ω (freshOf (avail s.nodes)) x label t 0 pos with
      | error e => rw [hg] at h1; rw [h] at h1; cases h1
      | ok q =>
          rw [hg] at h1
          obtain ⟨s', lost', e1, e2, e3, e4⟩ := h1
          rw [h] at e1
          have := Except.ok.inj e1
          subst this
          refine ⟨lost', _, e2, ?_, fun h2 => ?_⟩
          · cases e4 with
            | same h1 h2 => rw [h1]
            | two a b h1 h2 => rw [h1]; simp only [List.length_cons]; omega
            | lost a h1 h2 h3 => rw [h1, h2]; simp
          · cases hA : avail s.nodes with
            | nil => rw [hA] at h2; simp at h2
            | cons a A =>
                cases A with
                | nil => rw [hA] at h2; simp at h2
                | cons b B =>
                    rw [hA] at hg
                    rw [Option.map_some, grow_ideal p ω x label (a, b)]
                    have hg : grow p ω (some (a, b)) x label t 0 pos = .ok q := hg
                    rw [hg]; rfl

theorem bounded_free_loop (p : Params K) (hlife : 0 ≤ p.lifetime) (ω : Nat → K) (hω : ∀ i, 0 ≤ ω i ∧ ω i < 1) (x : Fin F → K) (label : Fin L) :
    ∀ (k i : Nat) (s : Mondrian.Forest K F L) (trees : List (Option (Mondrian.Tree K F L))) (lost : List Nat) (pos : Nat) (res : Option Bool)
      (r : Mondrian.Forest K F L × Nat × Option Bool), i + k = trees.length → Mondrian.Inv s trees lost →
      Mondrian.trainLoop p ω x label i k s pos res = .ok r →
      ∃ trees' lost', Mondrian.Inv r.1 trees' lost' ∧ trees'.length = trees.length ∧ (avail r.1.nodes).length ≤ (avail s.nodes).length ∧
        (2 ≤ (avail r.1.nodes).length → idealLoop p ω x label i k (contents trees) pos = .ok (contents trees', r.2.1))
  | 0, i, s, trees, lost, pos, res, r, hk, hI, h => by
      simp only [Mondrian.trainLoop, Except.ok.injEq] at h
      subst h
      exact ⟨trees, lost, hI, rfl, le_rfl, fun _ => rfl⟩
  | k + 1, i, s, trees, lost, pos, res, r, hk, hI, h => by
      obtain ⟨o, ho⟩ : ∃ o, trees[i]? = some o := ⟨_, List.getElem?_eq_getElem (by omega)⟩
      simp only [Mondrian.trainLoop, bind, Except.bind] at h
      cases h1 : Mondrian.trainTree p ω x label i s pos with
      | error e => rw [h1] at h; cases h
      | ok q =>
          rw [h1] at h
          obtain ⟨lost1, o1, a1, a2, a3⟩ := bounded_free p hlife ω hω x label hI ho h1
          obtain ⟨trees', lost', b1, b2, b3, b4⟩ := bounded_free_loop p hlife ω hω x label k (i + 1) q.1 (trees.set i o1) lost1 q.2.1 _ r (by simp; omega) a1 h
          refine ⟨trees', lost', b1, by rw [b2]; simp, b3.trans a2, fun h2 => ?_⟩
          unfold idealLoop
          rw [contents_get ho, a3 (h2.trans (b3.trans a2))]
          simp only
          rw [← contents_set]
          exact b4 h2

theorem bounded_free_run (p : Params K) (hlife : 0 ≤ p.lifetime) (ω : Nat → K) (hω : ∀ i, 0 ≤ ω i ∧ ω i < 1) (n : Nat) :
    ∀ (ops : List (Op K F L)) (s : Mondrian.Forest K F L) (trees : List (Option (Mondrian.Tree K F L))) (lost : List Nat) (pos : Nat)
      (r : Mondrian.Forest K F L × Nat), trees.length = n → Mondrian.Inv s trees lost → Mondrian.run p ω ops s pos = .ok r →
      ∃ trees' lost', Mondrian.Inv r.1 trees' lost' ∧ (avail r.1.nodes).length ≤ (avail s.nodes).length ∧
        (2 ≤ (avail r.1.nodes).length → idealRun p ω n ops (contents trees) pos = .ok (contents trees', r.2))
  | [], s, trees, lost, pos, r, hn, hI, h => by
      simp only [Mondrian.run, Except.ok.injEq] at h
      subst h
      exact ⟨trees, lost, hI, le_rfl, fun _ => rfl⟩
  | .train x l :: ops, s, trees, lost, pos, r, hn, hI, h => by
      have hrl : s.roots.length = n := by rw [hI.all.roots, List.length_map, hn]
      simp only [Mondrian.run, Mondrian.exec, Mondrian.train, hrl, bind, Except.bind, pure, Except.pure] at h
      cases h1 : Mondrian.trainLoop p ω x l 0 n s pos none with
      | error e => rw [h1] at h; cases h
      | ok q =>
          rw [h1] at h
          obtain ⟨trees1, lost1, a1, a2, a3, a4⟩ := bounded_free_loop p hlife ω hω x l n 0 s trees lost pos none q (by omega) hI h1
          obtain ⟨trees', lost', b1, b2, b3⟩ := bounded_free_run p hlife ω hω n ops q.1 trees1 lost1 q.2.1 r (a2.trans hn) a1 h
          refine ⟨trees', lost', b1, b2.trans a3, fun h2 => ?_⟩
          unfold idealRun
          rw [a4 (h2.trans b2)]
          exact b3 h2
  | .predict x :: ops, s, trees, lost, pos, r, hn, hI, h => by
      obtain ⟨nodes', d1, d2, -, d4⟩ := hI.predict_eq p
      have hp := d4 x
      simp only [Mondrian.run, Mondrian.exec, hp, bind, Except.bind, pure, Except.pure] at h
      cases hl : label p x (recountAll trees) with
      | error e => rw [hl] at h; cases h
      | ok q =>
          rw [hl] at h
          simp only [Except.map] at h
          obtain ⟨trees', lost', b1, b2, b3⟩ := bounded_free_run p hlife ω hω n ops { s with nodes := nodes' } (recountAll trees) lost pos r (by
            simp [recountAll, hn]) d1 h
          rw [show avail ({ s with nodes := nodes' } : Mondrian.Forest K F L).nodes = avail s.nodes from d2.avail] at b2
          refine ⟨trees', lost', b1, b2, fun h2 => ?_⟩
          unfold idealRun
          rw [label_congr p x (same_contents trees), hl]
          simp only
          rw [← recountAll_same]
          exact b3 h2

end Orp.Unbound
