import Verif.Coarse.Select

/-!
The invariant of the object, and what the calls do to the trees.
-/

set_option linter.unusedSectionVars false

namespace Orp.Coarse

open Finset
open Mondrian (Node Box Forest Params Cut upd init extent cutAt bump sampleBlock Tree Data Frame plug ctxPar ctxTau ctxIds HoldsCtx Holds Ready avail mem_avail
  avail_nodup avail_used upd_spec lt_of_get newLeaf holds_plug plug_ids holds_root id_mem_ids holds_mem relinked set_same oids allIds)

variable {K : Type} [Field K] [LinearOrder K] [IsStrictOrderedRing K] [FloorRing K] {F L : Nat}

/-- The invariant of the object -/
structure Inv (s : State K F L) (trees : List (Option (Tree K F L))) : Prop where
  mem : Mondrian.Inv s.forest trees []
  free : s.free = (avail s.forest.nodes).length
  fading : s.fading.length = s.forest.nodes.length
  forced : s.forced.length = s.forest.nodes.length
  scores : ∀ v ∈ s.fading, 0 ≤ v
  bases : s.bases.length = trees.length

theorem Inv.done {s s' : State K F L} {trees : List (Option (Tree K F L))} (h : Inv s trees) {i : Nat} {t t' : Tree K F L} (hi : trees[i]? = some (some t))
    (hd : Done s s' i t t') : Inv s' (trees.set i (some t')) := by
  refine ⟨h.mem.set hi hd.ready.holds hd.ready.clean hd.roots hd.length hd.other ?_ (by simp) (by simp), hd.free, by rw [hd.fading, hd.length]; exact h.fading,
    by rw [hd.forced, hd.length]; exact h.forced, hd.scores h.scores, by rw [hd.bases, List.length_set]; exact h.bases⟩
  simp only [List.nil_append]
  exact hd.cover

/-- What training does to one tree; `few` says that there may be less nodes than trees. -/
def Step (c : Config K) (lifetime : K) (few : Prop) (base : Base) (x : Fin F → K) (label : Fin L) (o o' : Option (Tree K F L)) : Prop :=
  match o with
  | none => (∃ a, o' = some (newLeaf lifetime a x label)) ∨ (few ∧ o' = none)
  | some t => ∃ t', o' = some t' ∧ if c.extend = .none then t' = t else Grows c base lifetime x label 0 0 t t'

/-- A tree respects the depth limit. -/
def Low (c : Config K) (base : Base) (o : Option (Tree K F L)) : Prop := ∀ t, o = some t → c.isCobble = true → (t.height : Int) ≤ max 1 base.limit

theorem aboveC_height (lifetime : K) (np ns : Nat) (cut : Cut K F) (t : Tree K F L) (cnt : Fin L → Nat) (x : Fin F → K) (label : Fin L) :
    (aboveC lifetime np ns cut t cnt x label).height = t.height + 1 := by
  have := height_pos t
  unfold aboveC
  split
  · simp only [newLeaf, Mondrian.Tree.height, Nat.max_def]; split <;> omega
  · simp only [newLeaf, Mondrian.Tree.height, Nat.max_def]; split <;> omega

theorem Room.le {c : Config K} {base : Base} {dist : Nat} {t : Tree K F L} (h : Room c base dist t) (hc : c.isCobble = true) :
    ((t.height + dist + 1 : Nat) : Int) ≤ base.limit := by
  unfold Room at h
  rw [if_pos hc] at h
  exact h

/-- A tree grows within the limit only. -/
theorem Grows.height {c : Config K} {base : Base} {lifetime : K} {x : Fin F → K} {label : Fin L} (hc : c.isCobble = true) {dist : Nat} {ptau : K}
    {t t' : Tree K F L} (h : Grows c base lifetime x label dist ptau t t') : t'.height ≤ t.height ∨ ((t'.height + dist : Nat) : Int) ≤ base.limit := by
  induction h with
  | insert np ns h hm =>
      have := h.room.le hc
      right
      rw [aboveC_height]
      omega
  | insertLeaf np ns h hm =>
      have := h.room.le hc
      right
      rw [aboveC_height]
      simp only [Mondrian.Tree.height] at this ⊢
      omega
  | insertLeft np ns h hm hx hg ih =>
      have := h.room.le hc
      right
      rw [aboveC_height]
      simp only [Mondrian.Tree.height, Nat.max_def] at this ⊢
      split <;> split at this <;> omega
  | insertRight np ns h hm hx hg ih =>
      have := h.room.le hc
      right
      rw [aboveC_height]
      simp only [Mondrian.Tree.height, Nat.max_def] at this ⊢
      split <;> split at this <;> omega
  | leaf b' hb => exact Or.inl le_rfl
  | left b' hb hx hg ih =>
      simp only [Mondrian.Tree.height, Nat.max_def]
      split <;> split <;> omega
  | right b' hb hx hg ih =>
      simp only [Mondrian.Tree.height, Nat.max_def]
      split <;> split <;> omega
  | ghost hm =>
      rename_i t
      left
      cases t <;> exact le_rfl
  | drop hm => exact Or.inl le_rfl

theorem Step.low {c : Config K} {lifetime : K} {few : Prop} {base : Base} {x : Fin F → K} {label : Fin L} {o o' : Option (Tree K F L)}
    (h : Step c lifetime few base x label o o') (hl : Low c base o) : Low c base o' := by
  intro t' ht' hc
  cases o with
  | none =>
      rcases h with ⟨a, rfl⟩ | ⟨-, rfl⟩
      · cases ht'
        simp [newLeaf, Mondrian.Tree.height]
      · cases ht'
  | some t =>
      obtain ⟨t1, rfl, hg⟩ := h
      cases ht'
      have h0 := hl t rfl hc
      by_cases hm : c.extend = .none
      · rw [if_pos hm] at hg
        rw [hg]; exact h0
      · rw [if_neg hm] at hg
        rcases hg.height hc with h | h
        · exact le_trans (by exact_mod_cast h) h0
        · simp only [Nat.add_zero] at h
          exact le_trans h (le_max_right _ _)

theorem trainTree_some (bad : Prop) (c : Config K) (p : Params K) (hlife : 0 ≤ p.lifetime) (ω : Nat → K) (hω : ∀ i, 0 ≤ ω i ∧ ω i < 1) (hz : ∀ i, ω i = 0 → bad)
    (x : Fin F → K) (label : Fin L) (few : Prop) (base : Base) (hlim : c.isCobble = true → base.limit ≤ 101 ∨ bad) (s : State K F L)
    (trees : List (Option (Tree K F L))) (hI : Inv s trees) (i pos : Nat) (t : Tree K F L) (hi : trees[i]? = some (some t)) (hb : s.bases[i]? = some base)
    (hlow : Low c base (some t)) :
    Fails bad (trainTree c p ω x label i s pos) ∨ ∃ s' pos' t', trainTree c p ω x label i s pos = .ok (s', pos', if c.extend = .none then decide (2 < s.free) else true) ∧ Inv s' (trees.set i (some t')) ∧
      s'.forest.nodes.length = s.forest.nodes.length ∧ s'.bases = s.bases ∧ s'.total = s.total ∧ Step c p.lifetime few base x label (some t) (some t') := by
  have hr := rd_eq_ok_iff.2 (hI.mem.root hi)
  unfold trainTree
  simp only [hr, bind, Except.bind, Option.map_some]
  by_cases hm : c.extend = .none
  · rw [if_pos hm, if_pos hm]
    refine .inr ⟨s, pos, t, rfl, ?_, rfl, rfl, rfl, t, rfl, by rw [if_pos hm]⟩
    rw [set_same hi]
    exact hI
  · rw [if_neg hm, if_neg hm]
    rcases extendBlock_spec bad c hm p hlife ω hω hz x label i base hlim s.forest.nodes.length t (hI.mem.height_le hi) [] pos s
      (hI.mem.ready hi) hI.free hb hI.fading hI.forced (fun hc => by
        have h1 := hlow t rfl hc
        refine (hlim hc).imp_left fun h2 => ?_
        simp only [List.length_nil]
        omega) with ⟨hbad, e, he⟩ | ⟨s', pos', t', e1, e2, e3⟩
    · exact .inl ⟨hbad, e, by simp only [he]⟩
    simp only [e1, pure, Except.pure]
    exact .inr ⟨s', pos', t', rfl, hI.done hi e3, e3.length, e3.bases, e3.total, t', rfl, by rw [if_neg hm]; exact e2⟩

theorem trainTree_none (c : Config K) (p : Params K) (hlife : 0 ≤ p.lifetime) (ω : Nat → K) (x : Fin F → K) (label : Fin L) (s : State K F L)
    (trees : List (Option (Tree K F L))) (hI : Inv s trees) (i pos : Nat) (hi : trees[i]? = some none) :
    (avail s.forest.nodes = [] ∧ trainTree c p ω x label i s pos = .ok (s, pos, false)) ∨
    ∃ s' a, trainTree c p ω x label i s pos = .ok (s', pos, true) ∧ Inv s' (trees.set i (some (newLeaf p.lifetime a x label))) ∧
      s'.forest.nodes.length = s.forest.nodes.length ∧ s'.bases = s.bases ∧ s'.total = s.total ∧
      (avail s'.forest.nodes).length + 1 = (avail s.forest.nodes).length := by
  have hr := rd_eq_ok_iff.2 (hI.mem.root hi)
  unfold trainTree
  simp only [hr, bind, Except.bind, Option.map_none]
  by_cases hA : avail s.forest.nodes = []
  · refine Or.inl ⟨hA, ?_⟩
    have h0 : s.free = 0 := by rw [hI.free, hA]; rfl
    simp only [takeNode_none s h0, pure, Except.pure]
  · right
    have h0 : s.free ≠ 0 := by
      rw [hI.free]
      have := List.length_pos_iff.2 hA
      omega
    obtain ⟨a, hma, tk⟩ := takeNode_some s h0 hA
    obtain ⟨m, hm, hneg⟩ := mem_avail.1 hma
    obtain ⟨hdim, hcnt⟩ := hI.mem.clean a m hm hneg
    obtain ⟨n1, u1, l1, g1⟩ := upd_spec (fun (n : Node K F L) => { n with
          parent := none
          right := none
          left := none
          tau := 0 }) hm
    have g1a := g1 a
    rw [if_pos rfl] at g1a
    obtain ⟨n2, u2, l2, g2⟩ := upd_spec (fun (n : Node K F L) => { n with
      box := some { lower := x, upper := x }
      counts := bump n.counts label
      tau := p.lifetime }) g1a
    have hroot := hI.mem.root hi
    have hlt : i < s.forest.roots.length := lt_of_get hroot
    have g2' : ∀ j, j ≠ a → n2[j]? = s.forest.nodes[j]? := by
      intro j hj
      rw [g2, if_neg hj, g1, if_neg hj]
    have g2a := g2 a
    rw [if_pos rfl] at g2a
    have hav : avail n2 = (avail s.forest.nodes).filter (fun j => j ∉ [a]) := by
      refine avail_used (l2.trans l1) [a] ?_ ?_ ?_
      · intro j _ hj
        exact g2' j (by simpa using hj)
      · intro j hj
        rw [List.mem_singleton.1 hj, mem_avail, g2a]
        rintro ⟨n, e, hn⟩
        have := Option.some.inj e
        subst this
        exact absurd hn (not_lt.2 hlife)
      · intro j hj
        have hja : j ≠ a := by rintro rfl; exact hj hma
        rw [mem_avail, g2' j hja, ← mem_avail]
        exact hj
    have hperm : List.Perm (avail s.forest.nodes) (a :: avail n2) := by
      refine (List.perm_ext_iff_of_nodup (avail_nodup _) ?_).2 fun j => ?_
      · rw [hav]
        simp only [List.nodup_cons, List.mem_filter]
        exact ⟨by simp, (avail_nodup _).filter _⟩
      · rw [hav]
        simp only [List.mem_cons, List.mem_filter, List.not_mem_nil, or_false, decide_eq_true_eq]
        constructor
        · intro h
          by_cases e : j = a
          · exact Or.inl e
          · exact Or.inr ⟨h, e⟩
        · rintro (rfl | h)
          · exact hma
          · exact h.1
    have hlen := hperm.length_eq
    simp only [List.length_cons] at hlen
    simp only [tk, wr_ok _ hlt, u1, sampleBlock, u2, pure, Except.pure]
    refine ⟨_, a, rfl, ⟨?_, ?_, ?_, ?_, hI.scores, ?_⟩, l2.trans l1, rfl, rfl, hlen.symm⟩
    · refine hI.mem.set hi ?_ ?_ rfl (l2.trans l1) ?_ ?_ (by simp) (by simp)
      · refine ⟨_, g2a, ⟨rfl, rfl, rfl, ?_⟩, hdim⟩
        rw [hcnt]
      · intro j n hj hn
        have hj' : n2[j]? = some n := hj
        have hja : j ≠ a := by
          rintro rfl
          rw [g2a] at hj'
          have := Option.some.inj hj'
          subst this
          exact absurd hn (not_lt.2 hlife)
        exact hI.mem.clean j n (by rw [← g2' j hja]; exact hj') hn
      · intro k _ hk
        exact g2' k (by rintro rfl; exact hk hma)
      · simp only [List.nil_append, oids, List.append_nil]
        show List.Perm (avail n2 ++ (newLeaf p.lifetime a x label : Tree K F L).ids) _
        refine List.Perm.trans ?_ hperm.symm
        exact List.perm_append_comm
    · show s.free - 1 = ((avail n2).length : Int)
      rw [hI.free]
      omega
    · show s.fading.length = n2.length
      rw [hI.fading, l2, l1]
    · show s.forced.length = n2.length
      rw [hI.forced, l2, l1]
    · show s.bases.length = _
      rw [List.length_set]; exact hI.bases

/-- all trees are grown, or none is and there are enough nodes for them -/
def Enough (s : State K F L) (trees : List (Option (Tree K F L))) (i k : Nat) : Prop :=
  (∀ o ∈ trees, o ≠ none) ∨ (k ≤ (avail s.forest.nodes).length ∧ (∀ (j : Nat) (o : Option (Tree K F L)), trees[j]? = some o → i ≤ j → o = none) ∧
    (∀ (j : Nat) (o : Option (Tree K F L)), trees[j]? = some o → j < i → o ≠ none))

/-- training of one tree, if there is a node for its root -/
theorem trainTree_any (bad : Prop) (c : Config K) (p : Params K) (hlife : 0 ≤ p.lifetime) (ω : Nat → K) (hω : ∀ i, 0 ≤ ω i ∧ ω i < 1) (hz : ∀ i, ω i = 0 → bad)
    (x : Fin F → K) (label : Fin L) (few : Prop) (bases : List Base) (hlim : ∀ b ∈ bases, c.isCobble = true → b.limit ≤ 101 ∨ bad)
    (k i : Nat) (s : State K F L) (trees : List (Option (Tree K F L))) (pos : Nat) (hI : Inv s trees) (hb : s.bases = bases)
    (hlow : ∀ (j : Nat) (o : Option (Tree K F L)) (b : Base), trees[j]? = some o → bases[j]? = some b → Low c b o) (hE : few ∨ Enough s trees i (k + 1))
    (hlt : i < trees.length) (hltb : i < bases.length) :
    Fails bad (trainTree c p ω x label i s pos) ∨ ∃ s1 pos1 r o1, trainTree c p ω x label i s pos = .ok (s1, pos1, r) ∧ Inv s1 (trees.set i o1) ∧
      s1.forest.nodes.length = s.forest.nodes.length ∧ s1.bases = bases ∧ s1.total = s.total ∧ Step c p.lifetime few bases[i] x label trees[i] o1 ∧
      (c.extend ≠ .none → (r = true ↔ o1 ≠ none)) ∧ (few ∨ Enough s1 (trees.set i o1) (i + 1) k) := by
  have hbi : bases[i]? = some bases[i] := List.getElem?_eq_getElem hltb
  cases ho : trees[i] with
  | none =>
      have hi : trees[i]? = some none := by rw [List.getElem?_eq_getElem hlt, ho]
      rcases trainTree_none c p hlife ω x label s trees hI i pos hi with ⟨hA, e⟩ | ⟨s1, a, e1, e2, e3, e4, e5, e6⟩
      · have hfew : few := by
          rcases hE with h | h | h
          · exact h
          · exact absurd rfl (h none (List.mem_of_getElem? hi))
          · rw [hA] at h
            simp at h
        refine .inr ⟨s, pos, false, none, e, ?_, rfl, hb, rfl, Or.inr ⟨hfew, rfl⟩, fun _ => by simp, Or.inl hfew⟩
        rw [set_same hi]
        exact hI
      · refine .inr ⟨s1, pos, true, _, e1, e2, e3, e4.trans hb, e5, Or.inl ⟨a, rfl⟩, fun _ => by simp, ?_⟩
        rcases hE with h | h | ⟨hE1, hE2, hE3⟩
        · exact Or.inl h
        · exact absurd rfl (h none (List.mem_of_getElem? hi))
        · refine Or.inr (Or.inr ⟨by omega, ?_, ?_⟩)
          · intro j o hj hij
            rw [List.getElem?_set_ne (by omega)] at hj
            exact hE2 j o hj (by omega)
          · intro j o hj hij
            by_cases hji : j = i
            · subst hji
              rw [List.getElem?_set_self hlt] at hj
              have := Option.some.inj hj
              subst this
              simp
            · rw [List.getElem?_set_ne (Ne.symm hji)] at hj
              exact hE3 j o hj (by omega)
  | some t =>
      have hi : trees[i]? = some (some t) := by rw [List.getElem?_eq_getElem hlt, ho]
      rcases trainTree_some bad c p hlife ω hω hz x label few bases[i] (hlim _ (List.getElem_mem hltb)) s trees hI i pos t hi
        (by rw [hb]; exact hbi) (hlow i _ _ hi hbi) with hf | ⟨s1, pos1, t', e1, e2, e3, e4, e5, e6⟩
      · exact .inl hf
      refine .inr ⟨s1, pos1, _, some t', e1, e2, e3, e4.trans hb, e5, e6, fun hm => by simp [hm], ?_⟩
      rcases hE with h | h | h
      · exact Or.inl h
      · refine Or.inr (Or.inl fun o ho => ?_)
        rcases List.mem_or_eq_of_mem_set ho with h' | h'
        · exact h o h'
        · rw [h']; simp
      · cases h.2.1 i _ hi le_rfl

theorem trainLoop_spec (bad : Prop) (c : Config K) (p : Params K) (hlife : 0 ≤ p.lifetime) (ω : Nat → K) (hω : ∀ i, 0 ≤ ω i ∧ ω i < 1) (hz : ∀ i, ω i = 0 → bad)
    (x : Fin F → K) (label : Fin L) (few : Prop) (bases : List Base) (hlim : ∀ b ∈ bases, c.isCobble = true → b.limit ≤ 101 ∨ bad) :
    ∀ (k i : Nat) (s : State K F L) (trees : List (Option (Tree K F L))) (pos : Nat) (ok : Bool), i + k = trees.length → Inv s trees →
      s.bases = bases → (∀ (j : Nat) (o : Option (Tree K F L)) (b : Base), trees[j]? = some o → bases[j]? = some b → Low c b o) → (few ∨ Enough s trees i k) →
      Fails bad (trainLoop c p ω x label i k s pos ok) ∨ ∃ s' pos' ok' trees', trainLoop c p ω x label i k s pos ok = .ok (s', pos', ok') ∧ Inv s' trees' ∧
        s'.forest.nodes.length = s.forest.nodes.length ∧ s'.bases = bases ∧ s'.total = s.total ∧ trees'.length = trees.length ∧
        (c.extend ≠ .none → (ok' = true ↔ ok = true ∧ ∀ (j : Nat) (o' : Option (Tree K F L)), i ≤ j → trees'[j]? = some o' → o' ≠ none)) ∧
        ∀ (j : Nat) (o : Option (Tree K F L)) (b : Base), trees[j]? = some o → bases[j]? = some b →
          ∃ o', trees'[j]? = some o' ∧ (j < i → o' = o) ∧ (i ≤ j → Step c p.lifetime few b x label o o')
  | 0, i, s, trees, pos, ok, hk, hI, hb, hlow, hE => by
      refine .inr ⟨s, pos, ok, trees, rfl, hI, rfl, hb, rfl, rfl, fun _ => ⟨fun h => ⟨h, fun j o' hj ho => ?_⟩, fun h => h.1⟩, fun j o b hj _ => ⟨o, hj, fun _ => rfl, fun hij => ?_⟩⟩
      · have := lt_of_get ho
        omega
      · have := lt_of_get hj
        omega
  | k + 1, i, s, trees, pos, ok, hk, hI, hb, hlow, hE => by
      have hlt : i < trees.length := by omega
      have hltb : i < bases.length := by rw [← hb, hI.bases]; exact hlt
      have hbi : bases[i]? = some bases[i] := List.getElem?_eq_getElem hltb
      rcases trainTree_any bad c p hlife ω hω hz x label few bases hlim k i s trees pos hI hb hlow hE hlt hltb with hf | ⟨s1, pos1, r, o1, e1, e2, e3, e4, e5, e6, e7, e8⟩
      · exact .inl (by rw [trainLoop]; exact hf.bind _)
      have hlow1 : ∀ (j : Nat) (o : Option (Tree K F L)) (b : Base), j ≠ i → (trees.set i o1)[j]? = some o → bases[j]? = some b → Low c b o := by
        intro j o b hji hj hbj
        rw [List.getElem?_set_ne (Ne.symm hji)] at hj
        exact hlow j o b hj hbj
      rcases trainLoop_spec bad c p hlife ω hω hz x label few bases hlim k (i + 1) s1 (trees.set i o1) pos1 (ok && r)
        (by rw [List.length_set]; omega) e2 e4 (fun j o b hj hbj => by
          by_cases hji : j = i
          · subst hji
            rw [List.getElem?_set_self hlt] at hj
            cases hj
            rw [hbi] at hbj
            cases hbj
            exact e6.low (hlow j _ _ (List.getElem?_eq_getElem hlt) hbi)
          · exact hlow1 j o b hji hj hbj) e8 with ⟨hbad, err, he⟩ | ⟨s', pos', ok', trees', f1, f2, f3, f4, f5, f6, f7, f8⟩
      · exact .inl ⟨hbad, err, by simp only [trainLoop, e1, bind, Except.bind, he]⟩
      obtain ⟨o1', g1, g2, -⟩ := f8 i o1 _ (List.getElem?_set_self hlt) hbi
      have hg2 := g2 (by omega)
      subst hg2
      refine .inr ⟨s', pos', ok', trees', by simp only [trainLoop, e1, bind, Except.bind, f1], f2, f3.trans e3, f4, f5.trans e5, by rw [f6, List.length_set],
        fun hm => ?_, fun j o b hj hbj => ?_⟩
      · rw [f7 hm, Bool.and_eq_true, e7 hm, and_assoc]
        refine and_congr_right fun _ => ⟨fun h j o' hij ho' => ?_, fun h => ⟨h i _ le_rfl g1, fun j o' hij ho' => h j o' (by omega) ho'⟩⟩
        by_cases hji : j = i
        · subst hji
          rw [g1] at ho'
          cases ho'
          exact h.1
        · exact h.2 j o' (by omega) ho'
      · by_cases hji : j = i
        · subst hji
          rw [List.getElem?_eq_getElem hlt] at hj
          cases hj
          rw [hbi] at hbj
          cases hbj
          exact ⟨o1', g1, fun h => absurd h (lt_irrefl _), fun _ => e6⟩
        · obtain ⟨o', c1, c2, c3⟩ := f8 j o b (by rw [List.getElem?_set_ne (Ne.symm hji)]; exact hj) hbj
          exact ⟨o', c1, fun h => c2 (by omega), fun h => c3 (by omega)⟩

/-! ### Trimming and fading -/

theorem choice_congr {c : Config K} {f f' : List K} {t : Tree K F L} (h : ∀ k ∈ t.ids, f'[k]? = f[k]?) (z : Nat × Data K F L) : Choice c f' t z ↔ Choice c f t z := by
  have hs : ∀ y ∈ leaves t, score c f' y = score c f y := by
    intro y hy
    unfold score
    rw [List.getD_eq_getElem?_getD, List.getD_eq_getElem?_getD, h y.1 (leaf_id t y hy)]
  have hsum : ((leaves t).map (score c f')).sum = ((leaves t).map (score c f)).sum := by
    rw [List.map_congr_left hs]
  unfold Choice
  rw [hsum]
  refine and_congr_right fun hz => imp_congr_right fun _ => and_congr ⟨fun h' y hy => ?_, fun h' y hy => ?_⟩ (by rw [hs z hz])
  · rw [← hs z hz, ← hs y hy]; exact h' y hy
  · rw [hs z hz, hs y hy]; exact h' y hy

theorem trimmed_congr {c : Config K} {f f' : List K} {o : Option (Tree K F L)} (h : ∀ k ∈ oids o, f'[k]? = f[k]?) (o' : Option (Tree K F L)) :
    Trimmed c f' o o' ↔ Trimmed c f o o' := by
  cases o with
  | none => rfl
  | some t =>
      have hc := choice_congr (c := c) (f := f) (f' := f') (t := t) h
      simp only [Trimmed, hc]

/-- `tree_trim` for one tree -/
theorem trimStep_spec (c : Config K) (hc : c.trim ≠ .none) (ω : Nat → K) (hω : ∀ i, 0 ≤ ω i ∧ ω i < 1) (s : State K F L) (trees : List (Option (Tree K F L)))
    (hI : Inv s trees) (i pos : Nat) (o : Option (Tree K F L)) (hi : trees[i]? = some o) :
    ∃ s' pos' o', (do
        let (id, pos) ← trimTree c ω s i pos
        let root ← rd s.forest.roots i
        let s ← (match id with
          | none => .ok s
          | some id => if root ≠ some id ∧ id < s.forest.nodes.length then cutBlock s id i else .ok s : Res (State K F L))
        return (s, pos) : Res (State K F L × Nat)) = .ok (s', pos') ∧ Inv s' (trees.set i o') ∧ s'.forest.nodes.length = s.forest.nodes.length ∧ s'.bases = s.bases ∧
      s'.total = s.total ∧ Trimmed c s.fading o o' ∧ ∀ k, k ∉ oids o → s'.fading[k]? = s.fading[k]? := by
  have hroot := hI.mem.root hi
  cases o with
  | none =>
      rw [Option.map_none] at hroot
      simp only [trimTree_empty c ω s i pos hroot, rd_eq_ok_iff.2 hroot, bind, Except.bind, pure, Except.pure]
      refine ⟨s, pos, none, rfl, ?_, rfl, rfl, rfl, rfl, fun _ _ => rfl⟩
      rw [set_same hi]; exact hI
  | some t =>
      rw [Option.map_some] at hroot
      have hrdy := hI.mem.ready hi
      have hlen : t.ids.length ≤ s.forest.nodes.length := by
        have := ready_length (fs := []) hrdy
        omega
      obtain ⟨r, pos', e1, e2, e3⟩ := trimTree_spec c hc ω hω s i pos t hroot hrdy.holds hlen hI.fading hI.scores
      simp only [e1, rd_eq_ok_iff.2 hroot, bind, Except.bind, pure, Except.pure]
      have hkeep : Inv s (trees.set i (some t)) := by rw [set_same hi]; exact hI
      cases r with
      | none =>
          refine ⟨s, pos', some t, rfl, hkeep, rfl, rfl, rfl, Or.inr ⟨rfl, ?_⟩, fun _ _ => rfl⟩
          by_cases hh : t.height ≤ 100
          · exact Or.inr (Or.inr fun hz => e3 hh hz rfl)
          · exact Or.inr (Or.inl (by omega))
      | some id =>
          obtain ⟨z, rfl, hz⟩ := e2 id rfl
          obtain ⟨gs, g1, -⟩ := leaf_place t z hz.1 []
          have g1' : plug gs (.leaf z.1 z.2) = t := g1
          have hzlt : z.1 < s.forest.nodes.length := hI.mem.ids_lt (Mondrian.mem_allIds hi (leaf_id t z hz.1))
          cases gs with
          | nil =>
              have ht : t = .leaf z.1 z.2 := g1'.symm
              have hid : t.id = z.1 := by rw [ht]; rfl
              simp only [hid, ne_eq, not_true_eq_false, false_and, if_false]
              refine ⟨s, pos', some t, rfl, hkeep, rfl, rfl, rfl, Or.inr ⟨rfl, Or.inl ?_⟩, fun _ _ => rfl⟩
              rw [ht]; rfl
          | cons f fs =>
              have hnd := hrdy.nodup
              have hroots : ¬ t.id = z.1 := by
                intro e
                have hp := plug_ids (f :: fs) (Mondrian.Tree.leaf z.1 z.2)
                rw [g1'] at hp
                have hn := hp.nodup_iff.1 hnd
                have hctx := (List.nodup_cons.1 hn).1
                apply hctx
                show z.1 ∈ ctxIds (f :: fs)
                rw [← e, ← g1']
                have : ∀ (fs : List (Frame K F L)) (f : Frame K F L) (t : Tree K F L), (plug (f :: fs) t).id ∈ ctxIds (f :: fs) := by
                  intro fs
                  induction fs with
                  | nil => intro f t; simp [plug, Mondrian.fill_id, ctxIds]
                  | cons g fs ih =>
                      intro f t
                      rw [plug]
                      have := ih g (f.fill t)
                      rw [ctxIds]
                      simp only [List.mem_cons, List.mem_append]
                      exact Or.inr (Or.inr this)
                exact this fs f _
              have hcond : (some t.id ≠ some z.1 ∧ z.1 < s.forest.nodes.length) := ⟨fun e => hroots (Option.some.inj e), hzlt⟩
              simp only [if_pos hcond]
              have hrdy' : Ready s.forest i (plug (f :: fs) (.leaf z.1 z.2)) := by rw [g1']; exact hrdy
              obtain ⟨s', a1, a2, a3, a4⟩ := cutBlock_spec s i hrdy' hI.free hI.fading hI.forced
              simp only [a1]
              have hd : Done s s' i t (plug fs f.sib) := by rw [g1'] at a2; exact a2
              refine ⟨s', pos', some (plug fs f.sib), rfl, hI.done hi hd, hd.length, hd.bases, hd.total, Or.inl ⟨z, _, hz, ?_, rfl⟩, fun k hk => ?_⟩
              · have := removes_cut f fs z.1 z.2
                rw [g1'] at this
                exact this
              · have hp := plug_ids (f :: fs) (Mondrian.Tree.leaf z.1 z.2)
                rw [g1'] at hp
                have hk' : k ∉ t.ids := hk
                rw [hp.mem_iff] at hk'
                simp only [Tree.ids, ctxIds, List.mem_append, List.mem_cons, not_or] at hk'
                rw [a4, List.getElem?_set_ne (Ne.symm hk'.1.1), List.getElem?_set_ne (Ne.symm hk'.2.1)]

theorem trimLoop_spec (c : Config K) (hc : c.trim ≠ .none) (ω : Nat → K) (hω : ∀ i, 0 ≤ ω i ∧ ω i < 1) :
    ∀ (k i : Nat) (s : State K F L) (trees : List (Option (Tree K F L))) (pos : Nat), i + k = trees.length → Inv s trees →
      ∃ s' pos' trees', trimLoop c ω i k s pos = .ok (s', pos') ∧ Inv s' trees' ∧ s'.forest.nodes.length = s.forest.nodes.length ∧ s'.bases = s.bases ∧
        s'.total = s.total ∧ trees'.length = trees.length ∧
        ∀ (j : Nat) (o : Option (Tree K F L)), trees[j]? = some o → ∃ o', trees'[j]? = some o' ∧ (j < i → o' = o) ∧ (i ≤ j → Trimmed c s.fading o o')
  | 0, i, s, trees, pos, hk, hI => by
      refine ⟨s, pos, trees, rfl, hI, rfl, rfl, rfl, rfl, fun j o hj => ⟨o, hj, fun _ => rfl, fun hij => ?_⟩⟩
      have := lt_of_get hj
      omega
  | k + 1, i, s, trees, pos, hk, hI => by
      have hlt : i < trees.length := by omega
      have hi := List.getElem?_eq_getElem hlt
      obtain ⟨s1, pos1, o1, e1, e2, e3, e4, e5, e6, e7⟩ := trimStep_spec c hc ω hω s trees hI i pos _ hi
      obtain ⟨s', pos', trees', f1, f2, f3, f4, f5, f6, f7⟩ := trimLoop_spec c hc ω hω k (i + 1) s1 (trees.set i o1) pos1 (by rw [List.length_set]; omega) e2
      refine ⟨s', pos', trees', ?_, f2, f3.trans e3, f4.trans e4, f5.trans e5, by rw [f6, List.length_set], fun j o hj => ?_⟩
      · have hrw : trimLoop c ω i (k + 1) s pos = (do
            let (s, pos) ← (do
              let (id, pos) ← trimTree c ω s i pos
              let root ← rd s.forest.roots i
              let s ← (match id with
                | none => .ok s
                | some id => if root ≠ some id ∧ id < s.forest.nodes.length then cutBlock s id i else .ok s : Res (State K F L))
              return (s, pos) : Res (State K F L × Nat))
            trimLoop c ω (i + 1) k s pos) := by
          rw [trimLoop]
          simp only [bind, Except.bind, pure, Except.pure]
          cases trimTree c ω s i pos with
          | error e => rfl
          | ok q =>
              simp only
              cases rd s.forest.roots i with
              | error e => rfl
              | ok r =>
                  simp only
                  cases q.1 with
                  | none => rfl
                  | some id =>
                      simp only
                      split
                      · cases cutBlock s id i <;> rfl
                      · rfl
        rw [hrw, e1]
        simp only [bind, Except.bind]
        exact f1
      · by_cases hji : j = i
        · subst hji
          rw [hi] at hj
          cases hj
          obtain ⟨o', c1, c2, -⟩ := f7 j o1 (List.getElem?_set_self hlt)
          have := c2 (by omega)
          subst this
          exact ⟨o', c1, fun h => absurd h (lt_irrefl _), fun _ => e6⟩
        · obtain ⟨o', c1, c2, c3⟩ := f7 j o (by rw [List.getElem?_set_ne (Ne.symm hji)]; exact hj)
          refine ⟨o', c1, fun h => c2 (by omega), fun h => ?_⟩
          have := c3 (by omega)
          rw [trimmed_congr] at this
          · exact this
          · intro k hk
            refine e7 k fun hk' => ?_
            obtain ⟨rest, h1, h2, h3⟩ := Mondrian.allIds_split trees i _ hi
            have hnd := h1.nodup_iff.1 hI.mem.all.nodup
            cases o with
            | none => simp [oids] at hk
            | some t => exact (List.nodup_append'.1 hnd).2.2 hk' (h3 j t hji hj k hk)

theorem treeTrim_spec (c : Config K) (ω : Nat → K) (hω : ∀ i, 0 ≤ ω i ∧ ω i < 1) (s : State K F L) (trees : List (Option (Tree K F L))) (pos : Nat) (hI : Inv s trees) :
    ∃ s' pos' trees', treeTrim c ω s pos = .ok (s', pos') ∧ Inv s' trees' ∧ s'.forest.nodes.length = s.forest.nodes.length ∧ s'.bases = s.bases ∧
      s'.total = s.total ∧ trees'.length = trees.length ∧
      ∀ (j : Nat) (o : Option (Tree K F L)), trees[j]? = some o → ∃ o', trees'[j]? = some o' ∧ if c.trim = .none then o' = o else Trimmed c s.fading o o' := by
  unfold treeTrim
  by_cases hc : c.trim = .none
  · rw [if_pos hc]
    exact ⟨s, pos, trees, rfl, hI, rfl, rfl, rfl, rfl, fun j o hj => ⟨o, hj, by rw [if_pos hc]⟩⟩
  · rw [if_neg hc]
    have hroots : s.forest.roots.length = trees.length := by rw [hI.mem.all.roots, List.length_map]
    obtain ⟨s', pos', trees', f1, f2, f3, f4, f5, f6, f7⟩ := trimLoop_spec c hc ω hω s.forest.roots.length 0 s trees pos (by omega) hI
    refine ⟨s', pos', trees', f1, f2, f3, f4, f5, f6, fun j o hj => ?_⟩
    obtain ⟨o', c1, -, c3⟩ := f7 j o hj
    exact ⟨o', c1, by rw [if_neg hc]; exact c3 (Nat.zero_le _)⟩

theorem fadeLoop_spec (nodes : List (Node K F L)) : ∀ (trees : List (Option (Tree K F L))) (fading : List K), fading.length = nodes.length →
    (∀ v ∈ fading, 0 ≤ v) → (∀ t, some t ∈ trees → Holds nodes none t ∧ t.ids.length ≤ nodes.length) →
    ∃ fading', fadeLoop nodes (trees.map (fun t => t.map Tree.id)) fading = .ok fading' ∧ fading'.length = nodes.length ∧ ∀ v ∈ fading', 0 ≤ v
  | [], fading, h1, h2, _ => ⟨fading, rfl, h1, h2⟩
  | o :: trees, fading, h1, h2, h => by
      have hact : ∀ (id : Nat) (n : Node K F L) (a : List K), nodes[id]? = some n → (a.length = nodes.length ∧ ∀ v ∈ a, 0 ≤ v) →
          ∃ a', fadeLeaf id n a = .ok a' ∧ (a'.length = nodes.length ∧ ∀ v ∈ a', 0 ≤ v) := by
        intro id n a hn ha
        have hid : id < a.length := by rw [ha.1]; exact lt_of_get hn
        refine ⟨a.set id (a[id] * (995 / 1000)), by simp only [fadeLeaf, rd_eq_ok_iff.2 (List.getElem?_eq_getElem hid), wr_ok _ hid, bind, Except.bind],
          by simpa using ha.1, fun v hv => ?_⟩
        rcases List.mem_or_eq_of_mem_set hv with hv | rfl
        · exact ha.2 v hv
        · have := ha.2 _ (List.getElem_mem hid)
          positivity
      obtain ⟨r, w1, w2⟩ : ∃ r, walk nodes fadeLeaf (3 * nodes.length + 1) 0 (o.map Tree.id) 0 (List.replicate 100 (-1)) fading = .ok r ∧
          (r.2.length = nodes.length ∧ ∀ v ∈ r.2, 0 ≤ v) := by
        cases o with
        | none =>
            rw [Option.map_none, walk]
            exact ⟨_, rfl, h1, h2⟩
        | some t =>
            obtain ⟨a1, a2⟩ := h t (by simp)
            by_cases hh : t.height ≤ 100
            · obtain ⟨a', e1, e2⟩ := foldLeaves_inv (fun a : List K => a.length = nodes.length ∧ ∀ v ∈ a, 0 ≤ v) hact t none fading a1 ⟨h1, h2⟩
              exact ⟨_, walk_root t fading a' a1 hh a2 e1, e2⟩
            · obtain ⟨a', e1, e2⟩ := walk_root_deep (fun a : List K => a.length = nodes.length ∧ ∀ v ∈ a, 0 ≤ v) hact t fading a1 (by omega) a2 ⟨h1, h2⟩
              exact ⟨_, e1, e2⟩
      obtain ⟨fading', e1, e2, e3⟩ := fadeLoop_spec nodes trees r.2 w2.1 w2.2 (fun t ht => h t (List.mem_cons_of_mem _ ht))
      refine ⟨fading', ?_, e2, e3⟩
      rw [List.map_cons, fadeLoop]
      simp only [w1, bind, Except.bind]
      exact e1

theorem treeFade_spec (s : State K F L) (trees : List (Option (Tree K F L))) (hI : Inv s trees) :
    ∃ fading', treeFade s = .ok { s with fading := fading' } ∧ Inv { s with fading := fading' } trees := by
  obtain ⟨fading', e1, e2, e3⟩ := fadeLoop_spec s.forest.nodes trees s.fading hI.fading hI.scores (fun t ht => by
    obtain ⟨j, hj⟩ := List.mem_iff_getElem?.1 ht
    have := ready_length (fs := []) (hI.mem.ready hj)
    exact ⟨hI.mem.all.holds t ht, by omega⟩)
  refine ⟨fading', ?_, hI.mem, hI.free, e2, hI.forced, e3, hI.bases⟩
  unfold treeFade
  rw [hI.mem.all.roots]
  simp only [e1, bind, Except.bind, pure, Except.pure]

end Orp.Coarse
