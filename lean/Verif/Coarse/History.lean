import Verif.Coarse.Run

/-!
Histories of calls: the invariant.
-/

set_option linter.unusedSectionVars false

namespace Orp.Coarse

open Finset
open Mondrian (Node Box Forest Params Cut upd init extent cutAt bump sampleBlock Tree Data Frame plug ctxPar ctxTau ctxIds HoldsCtx Holds Ready avail mem_avail
  avail_nodup avail_used upd_spec lt_of_get newLeaf holds_plug plug_ids holds_root id_mem_ids holds_mem relinked set_same oids allIds recountAll OnlyCounts Positive)

variable {K : Type} [Field K] [LinearOrder K] [IsStrictOrderedRing K] [FloorRing K] {F L : Nat}

/-! ### The constructor -/

theorem avail_fresh (m : Nat) : avail (List.replicate m (resetNode : Node K F L)) = List.range m := by
  unfold avail
  rw [List.length_replicate, List.filter_eq_self]
  intro i hi
  have hi := List.mem_range.1 hi
  simp [List.getElem?_replicate, hi, Node.available, resetNode]

theorem inv_fresh (m n : Nat) (bases : List Base) (hb : bases.length = n) (last total : Nat) :
    Inv (⟨⟨List.replicate m resetNode, List.replicate n none⟩, List.replicate m 0, List.replicate m 0, bases, m, last, total⟩ : State K F L)
      (List.replicate n none) := by
  have hids : allIds (List.replicate n (none : Option (Tree K F L))) = [] := by
    unfold allIds
    rw [List.flatMap_eq_nil_iff]
    intro o ho
    rw [List.eq_of_mem_replicate ho]
  refine ⟨⟨⟨?_, ?_, ?_⟩, ?_, ?_, by simp, by simp⟩, ?_, by simp, by simp, ?_, by simp [hb]⟩
  · simp
  · intro t ht
    cases List.eq_of_mem_replicate ht
  · rw [hids]; exact List.nodup_nil
  · intro i n hi _
    simp only [List.getElem?_replicate] at hi
    split at hi
    · have := Option.some.inj hi
      subst this
      exact ⟨rfl, rfl⟩
    · cases hi
  · rw [hids, avail_fresh]
    simp
  · rw [avail_fresh, List.length_range]
  · intro v hv
    rw [List.eq_of_mem_replicate hv]

theorem initBases_spec (m : Management) (nodes trees : Nat) : ∀ (junk : List Int) (sizeLimit : Int) (bases : List Base),
    initBases m nodes trees sizeLimit junk = .ok bases → bases.length = junk.length ∧
      ((m = .cobble ∨ m = .optimisticCobble) → ∀ b ∈ bases, b.limit = sizeLimit)
  | [], sizeLimit, bases, h => by
      cases h
      exact ⟨rfl, by simp⟩
  | j :: junk, sizeLimit, bases, h => by
      unfold initBases at h
      cases h1 : limitOf m nodes trees sizeLimit with
      | error e => simp only [h1, bind, Except.bind] at h; cases h
      | ok a =>
          obtain ⟨lim, sl⟩ := a
          cases h2 : initBases m nodes trees sl junk with
          | error e => simp only [h1, h2, bind, Except.bind] at h; cases h
          | ok bs =>
              simp only [h1, h2, bind, Except.bind, pure, Except.pure] at h
              cases h
              obtain ⟨i1, i2⟩ := initBases_spec m nodes trees junk sl bs h2
              refine ⟨by simp [i1], fun hm b hb => ?_⟩
              have : lim = sizeLimit ∧ sl = sizeLimit := by
                rcases hm with rfl | rfl <;> · cases h1; exact ⟨rfl, rfl⟩
              rcases List.mem_cons.1 hb with rfl | hb
              · exact this.1
              · rw [i2 hm b hb]; exact this.2

/-- Everything that holds between two calls -/
structure Good (c : Config K) (few : Prop) (bases : List Base) (m : Nat) (s : State K F L) (trees : List (Option (Tree K F L))) : Prop where
  inv : Inv s trees
  same : s.bases = bases
  nodes : s.forest.nodes.length = m
  tree : ∀ (j : Nat) (o : Option (Tree K F L)) (b : Base), trees[j]? = some o → bases[j]? = some b → TreeOk c b o
  start : few ∨ (∀ o ∈ trees, o ≠ none) ∨ ((∀ o ∈ trees, o = none) ∧ trees.length ≤ m)

theorem Good.base {c : Config K} {few : Prop} {bases : List Base} {m : Nat} {s : State K F L} {trees : List (Option (Tree K F L))}
    (h : Good c few bases m s trees) {j : Nat} (hj : j < trees.length) : ∃ b, bases[j]? = some b ∧ b ∈ bases := by
  have : j < bases.length := by rw [← h.same, h.inv.bases]; exact hj
  exact ⟨bases[j], List.getElem?_eq_getElem this, List.getElem_mem _⟩

theorem new_spec (c : Config K) (maxSize sizeNode sizeBase : Nat) (junk : List Int) (last : Nat) (s : State K F L)
    (h : new c maxSize sizeNode sizeBase junk last = .ok s) (few : Prop) (hfew : s.forest.nodes.length < junk.length → few) :
    Good c few s.bases s.forest.nodes.length s (List.replicate junk.length none) ∧ s.total = 0 ∧ s.bases.length = junk.length ∧
      (c.isCobble = true → ∀ b ∈ s.bases, b.limit = c.sizeLimit) ∧ nodeCount maxSize sizeNode sizeBase junk.length = .ok s.forest.nodes.length := by
  unfold new at h
  cases h1 : nodeCount maxSize sizeNode sizeBase junk.length with
  | error e => simp only [h1, bind, Except.bind] at h; cases h
  | ok n =>
      cases h2 : initBases c.management n junk.length c.sizeLimit junk with
      | error e => simp only [h1, h2, bind, Except.bind] at h; cases h
      | ok bases =>
          simp only [h1, h2, bind, Except.bind, pure, Except.pure] at h
          have := Except.ok.inj h
          subst this
          obtain ⟨i1, i2⟩ := initBases_spec _ _ _ _ _ _ h2
          simp only [List.length_replicate] at hfew
          refine ⟨⟨inv_fresh n junk.length bases i1 last 0, rfl, rfl, ?_, ?_⟩, rfl, i1, ?_, by simp⟩
          · intro j o b hj hb
            rw [List.getElem?_replicate] at hj
            split at hj
            · have := Option.some.inj hj
              subst this
              refine ⟨fun t ht => ?_, fun t ht => ?_⟩ <;> cases ht
            · cases hj
          · by_cases hlt : n < junk.length
            · exact .inl (hfew hlt)
            · refine .inr (.inr ⟨fun o ho => List.eq_of_mem_replicate ho, ?_⟩)
              simp only [List.length_replicate]
              omega
          · intro hc b hb
            refine i2 ?_ b hb
            simpa [Config.isCobble] using hc

/-! ### The calls -/

/-- The effect of the trimming that `train` may do -/
def Pruned (c : Config K) (o o' : Option (Tree K F L)) : Prop := o' = o ∨ (c.trim ≠ .none ∧ ∃ f, Trimmed c f o o')

theorem Pruned.ok {c : Config K} {base : Base} {o o' : Option (Tree K F L)} (h : Pruned c o o') (hl : TreeOk c base o) : TreeOk c base o' := by
  rcases h with rfl | ⟨-, f, h⟩
  · exact hl
  · exact h.ok hl

theorem Pruned.ne_none {c : Config K} {o o' : Option (Tree K F L)} (h : Pruned c o o') : o = none ↔ o' = none := by
  rcases h with rfl | ⟨-, f, h⟩
  · exact Iff.rfl
  · exact h.ne_none

/-- From the trees after the call back to those before -/
theorem back {A : Type} {R : Nat → A → A → Prop} {l l' : List A} (hlen : l'.length = l.length)
    (h : ∀ j o, l[j]? = some o → ∃ o', l'[j]? = some o' ∧ R j o o') {j : Nat} {o' : A} (hj : l'[j]? = some o') : ∃ o, l[j]? = some o ∧ R j o o' := by
  have hlt : j < l.length := by rw [← hlen]; exact lt_of_get hj
  obtain ⟨o1, h1, h2⟩ := h j l[j] (List.getElem?_eq_getElem hlt)
  rw [hj] at h1
  cases h1
  exact ⟨_, List.getElem?_eq_getElem hlt, h2⟩

theorem Good.pruned {c : Config K} {few : Prop} {bases : List Base} {m : Nat} {s s' : State K F L} {trees trees' : List (Option (Tree K F L))}
    (h : Good c few bases m s trees) (hI : Inv s' trees') (hb : s'.bases = s.bases) (hn : s'.forest.nodes.length = s.forest.nodes.length)
    (hlen : trees'.length = trees.length) (hp : ∀ (j : Nat) (o : Option (Tree K F L)), trees[j]? = some o → ∃ o', trees'[j]? = some o' ∧ Pruned c o o') :
    Good c few bases m s' trees' := by
  refine ⟨hI, by rw [hb]; exact h.same, by rw [hn]; exact h.nodes, fun j o' b hj hbj => ?_, ?_⟩
  · obtain ⟨o, h1, h2⟩ := back (R := fun _ => Pruned c) hlen hp hj
    exact h2.ok (h.tree j o b h1 hbj)
  · rcases h.start with hs | hs | hs
    · exact .inl hs
    · refine .inr (.inl fun o' ho' => ?_)
      obtain ⟨j, hj⟩ := List.mem_iff_getElem?.1 ho'
      obtain ⟨o, h1, h2⟩ := back (R := fun _ => Pruned c) hlen hp hj
      exact fun e => hs o (List.mem_of_getElem? h1) (h2.ne_none.2 e)
    · refine .inr (.inr ⟨fun o' ho' => ?_, by rw [hlen]; exact hs.2⟩)
      obtain ⟨j, hj⟩ := List.mem_iff_getElem?.1 ho'
      obtain ⟨o, h1, h2⟩ := back (R := fun _ => Pruned c) hlen hp hj
      exact h2.ne_none.1 (hs.1 o (List.mem_of_getElem? h1))

theorem Good.enough {c : Config K} {few : Prop} {bases : List Base} {m : Nat} {s : State K F L} {trees : List (Option (Tree K F L))}
    (h : Good c few bases m s trees) : few ∨ Enough s trees 0 trees.length := by
  rcases h.start with hs | hs | hs
  · exact .inl hs
  · exact .inr (.inl hs)
  · refine .inr (.inr ⟨?_, fun j o hj _ => hs.1 o (List.mem_of_getElem? hj), fun j o hj hlt => absurd hlt (Nat.not_lt_zero _)⟩)
    have hids : allIds trees = [] := by
      unfold allIds
      rw [List.flatMap_eq_nil_iff]
      intro o ho
      rw [hs.1 o ho]
    have hc := h.inv.mem.cover.length_eq
    rw [hids] at hc
    simp only [List.append_nil, List.length_range] at hc
    rw [hc, h.nodes]
    exact hs.2

theorem train_spec (bad : Prop) (c : Config K) (p : Params K) (hlife : 0 ≤ p.lifetime) (ω : Nat → K) (hω : ∀ i, 0 ≤ ω i ∧ ω i < 1) (hz : ∀ i, ω i = 0 → bad)
    (x : Fin F → K) (label : Fin L) (few : Prop) (bases : List Base) (hlim : ∀ b ∈ bases, c.isCobble = true → b.limit ≤ 101 ∨ bad) (m : Nat)
    (s : State K F L) (trees : List (Option (Tree K F L))) (pos : Nat) (hG : Good c few bases m s trees) :
    Fails bad (train c p ω x label s pos) ∨ ∃ s' pos' r trees', train c p ω x label s pos = .ok (s', pos', r) ∧ Good c few bases m s' trees' ∧ s'.total = s.total + 1 ∧
      trees'.length = trees.length ∧ (c.extend ≠ .none → (r = true ↔ ∀ o ∈ trees', o ≠ none)) ∧
      ∀ (j : Nat) (o : Option (Tree K F L)) (b : Base), trees[j]? = some o → bases[j]? = some b →
        ∃ o1 o', trees'[j]? = some o' ∧ Pruned c o o1 ∧ Step c p.lifetime few b x label o1 o' := by
  -- fading
  obtain ⟨s1, e1, g1, t1⟩ : ∃ s1, (if c.trim = .fading then treeFade s else .ok s : Res (State K F L)) = .ok s1 ∧ Good c few bases m s1 trees ∧ s1.total = s.total := by
    by_cases hc : c.trim = .fading
    · obtain ⟨f, e1, e2⟩ := treeFade_spec s trees hG.inv
      exact ⟨_, by rw [if_pos hc]; exact e1, ⟨e2, hG.same, hG.nodes, hG.tree, hG.start⟩, rfl⟩
    · exact ⟨s, by rw [if_neg hc], hG, rfl⟩
  -- trimming
  obtain ⟨s2, pos2, trees2, e2, g2, t2, l2, p2⟩ : ∃ s2 pos2 trees2, (if c.trim ≠ .none ∧ s1.free ≤ 1 ∧ s1.total % 100 = 0 then treeTrim c ω s1 pos
      else .ok (s1, pos) : Res (State K F L × Nat)) = .ok (s2, pos2) ∧ Good c few bases m s2 trees2 ∧ s2.total = s1.total ∧ trees2.length = trees.length ∧
      ∀ (j : Nat) (o : Option (Tree K F L)), trees[j]? = some o → ∃ o', trees2[j]? = some o' ∧ Pruned c o o' := by
    by_cases hc : c.trim ≠ .none ∧ s1.free ≤ 1 ∧ s1.total % 100 = 0
    · rw [if_pos hc]
      obtain ⟨s2, pos2, trees2, f1, f2, f3, f4, f5, f6, f7⟩ := treeTrim_spec c ω hω s1 trees pos g1.inv
      have hp : ∀ (j : Nat) (o : Option (Tree K F L)), trees[j]? = some o → ∃ o', trees2[j]? = some o' ∧ Pruned c o o' := by
        intro j o hj
        obtain ⟨o', q1, q2⟩ := f7 j o hj
        rw [if_neg hc.1] at q2
        exact ⟨o', q1, .inr ⟨hc.1, _, q2⟩⟩
      exact ⟨s2, pos2, trees2, f1, g1.pruned f2 f4 f3 f6 hp, f5, f6, hp⟩
    · rw [if_neg hc]
      exact ⟨s1, pos, trees, rfl, g1, rfl, rfl, fun j o hj => ⟨o, hj, .inl rfl⟩⟩
  have hroots : s2.forest.roots.length = trees2.length := by rw [g2.inv.mem.all.roots, List.length_map]
  rcases trainLoop_spec bad c p hlife ω hω hz x label few bases hlim trees2.length 0 s2 trees2 pos2 true (by omega)
    g2.inv g2.same (fun j o b hj hb => (g2.tree j o b hj hb).1) g2.enough with ⟨hbad, err, he⟩ | ⟨s3, pos3, r, trees3, f1, f2, f3, f4, f5, f6, f7, f8⟩
  · refine .inl ⟨hbad, err, ?_⟩
    unfold train
    simp only [e1, e2, hroots, he, bind, Except.bind]
  have hstep : ∀ (j : Nat) (o : Option (Tree K F L)), trees2[j]? = some o → ∃ o', trees3[j]? = some o' ∧
      ∃ b, bases[j]? = some b ∧ Step c p.lifetime few b x label o o' := by
    intro j o hj
    obtain ⟨b, hb, -⟩ := g2.base (lt_of_get hj)
    obtain ⟨o', a1, -, a3⟩ := f8 j o b hj hb
    exact ⟨o', a1, b, hb, a3 (Nat.zero_le _)⟩
  refine .inr ⟨{ s3 with total := s3.total + 1 }, pos3, r, trees3, ?_, ⟨⟨f2.mem, f2.free, f2.fading, f2.forced, f2.scores, f2.bases⟩, f4, by rw [← g2.nodes]; exact f3, ?_, ?_⟩, ?_, ?_, ?_, ?_⟩
  · unfold train
    simp only [e1, e2, hroots, f1, bind, Except.bind, pure, Except.pure]
  · intro j o' b hj hb
    obtain ⟨o, h1, b', hb', h2⟩ := back (R := fun j o o' => ∃ b, bases[j]? = some b ∧ Step c p.lifetime few b x label o o') f6 hstep hj
    rw [hb] at hb'
    cases hb'
    exact h2.ok (g2.tree j o b h1 hb)
  · by_cases hf : few
    · exact .inl hf
    · refine .inr (.inl fun o' ho' => ?_)
      obtain ⟨j, hj⟩ := List.mem_iff_getElem?.1 ho'
      obtain ⟨o, h1, b', hb', h2⟩ := back (R := fun j o o' => ∃ b, bases[j]? = some b ∧ Step c p.lifetime few b x label o o') f6 hstep hj
      cases o with
      | none =>
          rcases h2 with ⟨a, rfl⟩ | ⟨h, -⟩
          · simp
          · exact absurd h hf
      | some t =>
          obtain ⟨t', rfl, -⟩ := h2
          simp
  · show s3.total + 1 = _
    rw [f5, t2, t1]
  · rw [f6, l2]
  · intro he
    refine (f7 he).trans ⟨fun h o' ho' => ?_, fun h => ⟨rfl, fun j o' _ hj => h o' (List.mem_of_getElem? hj)⟩⟩
    obtain ⟨j, hj⟩ := List.mem_iff_getElem?.1 ho'
    exact h.2 j o' (Nat.zero_le _) hj
  · intro j o b hj hb
    obtain ⟨o1, h1, h2⟩ := p2 j o hj
    obtain ⟨o', h3, b', hb', h4⟩ := hstep j o1 h1
    rw [hb] at hb'
    cases hb'
    exact ⟨o1, o', h3, h2, h4⟩

/-- Arguments of a call that are allowed: `predict` is not asked to use more trees than there are, nor none. -/
def Valid (n : Nat) : Op K F L → Prop
  | .predict _ use => 1 ≤ usedTrees n use ∧ usedTrees n use ≤ n
  | _ => True

/-- What a call may do to a tree -/
def Effect (c : Config K) (lifetime : K) (few : Prop) (base : Base) (op : Op K F L) (o o' : Option (Tree K F L)) : Prop :=
  match op with
  | .train x label => ∃ o1, Pruned c o o1 ∧ Step c lifetime few base x label o1 o'
  | .predict _ _ => o' = counted c o
  | .trim => Pruned c o o'
  | .fade => o' = o
  | .other _ => o' = o

theorem exec_spec (bad : Prop) (c : Config K) (p : Params K) (h0 : p.exp 0 = 1) (hd : 0 ≤ p.discount) (hlife : 0 ≤ p.lifetime) (ω : Nat → K)
    (hω : ∀ i, 0 ≤ ω i ∧ ω i < 1) (hz : ∀ i, ω i = 0 → bad)
    (few : Prop) (bases : List Base) (hlim : ∀ b ∈ bases, c.isCobble = true → b.limit ≤ 101 ∨ bad) (m : Nat)
    (op : Op K F L) (s : State K F L) (trees : List (Option (Tree K F L))) (pos : Nat) (hG : Good c few bases m s trees) (hv : Valid trees.length op) :
    Fails bad (exec c p ω op s pos) ∨ ∃ s' pos' trees', exec c p ω op s pos = .ok (s', pos') ∧ Good c few bases m s' trees' ∧ trees'.length = trees.length ∧
      ∀ (j : Nat) (o : Option (Tree K F L)) (b : Base), trees[j]? = some o → bases[j]? = some b → ∃ o', trees'[j]? = some o' ∧ Effect c p.lifetime few b op o o' := by
  cases op with
  | train x label =>
      rcases train_spec bad c p hlife ω hω hz x label few bases hlim m s trees pos hG with hf | ⟨s', pos', r, trees', e1, e2, e3, e4, e5, e6⟩
      · exact .inl (hf.bind _)
      refine .inr ⟨s', pos', trees', ?_, e2, e4, fun j o b hj hb => ?_⟩
      · unfold exec
        simp only [e1, bind, Except.bind, pure, Except.pure]
      · obtain ⟨o1, o', q1, q2, q3⟩ := e6 j o b hj hb
        exact ⟨o', q1, o1, q2, q3⟩
  | predict x use =>
      have hpos : ∀ t, some t ∈ trees → Pos c t := by
        intro t ht
        obtain ⟨j, hj⟩ := List.mem_iff_getElem?.1 ht
        obtain ⟨b, hb, -⟩ := hG.base (lt_of_get hj)
        exact (hG.tree j _ b hj hb).2 t rfl
      obtain ⟨nodes', l, e1, e2, e3, -, -, -⟩ := predict_spec c p h0 hd s trees hG.inv hpos x use hv.1 hv.2
      refine .inr ⟨_, pos, trees.map (counted c), ?_, ⟨e2, hG.same, by rw [← hG.nodes]; exact e3.1, ?_, ?_⟩, by simp, ?_⟩
      · unfold exec
        simp only [e1, bind, Except.bind, pure, Except.pure]
      · intro j o' b hj hb
        rw [List.getElem?_map] at hj
        obtain ⟨o, h1, rfl⟩ := Option.map_eq_some_iff.1 hj
        exact (hG.tree j o b h1 hb).counted
      · have hnn : ∀ o : Option (Tree K F L), counted c o = none ↔ o = none := by
          intro o
          unfold counted
          split <;> simp
        rcases hG.start with hs | hs | hs
        · exact .inl hs
        · refine .inr (.inl fun o' ho' => ?_)
          obtain ⟨o, h1, rfl⟩ := List.mem_map.1 ho'
          exact fun e => hs o h1 ((hnn o).1 e)
        · refine .inr (.inr ⟨fun o' ho' => ?_, by simpa using hs.2⟩)
          obtain ⟨o, h1, rfl⟩ := List.mem_map.1 ho'
          exact (hnn o).2 (hs.1 o h1)
      · intro j o b hj _
        exact ⟨_, by rw [List.getElem?_map, hj]; rfl, rfl⟩
  | trim =>
      obtain ⟨s2, pos2, trees2, f1, f2, f3, f4, f5, f6, f7⟩ := treeTrim_spec c ω hω s trees pos hG.inv
      have hp : ∀ (j : Nat) (o : Option (Tree K F L)), trees[j]? = some o → ∃ o', trees2[j]? = some o' ∧ Pruned c o o' := by
        intro j o hj
        obtain ⟨o', q1, q2⟩ := f7 j o hj
        refine ⟨o', q1, ?_⟩
        by_cases hc : c.trim = .none
        · rw [if_pos hc] at q2; exact .inl q2
        · rw [if_neg hc] at q2; exact .inr ⟨hc, _, q2⟩
      exact .inr ⟨s2, pos2, trees2, f1, hG.pruned f2 f4 f3 f6 hp, f6, fun j o b hj _ => hp j o hj⟩
  | fade =>
      obtain ⟨f, e1, e2⟩ := treeFade_spec s trees hG.inv
      refine .inr ⟨_, pos, trees, ?_, ⟨e2, hG.same, hG.nodes, hG.tree, hG.start⟩, rfl, fun j o b hj _ => ⟨o, hj, rfl⟩⟩
      unfold exec
      simp only [e1, bind, Except.bind, pure, Except.pure]
  | other last =>
      have hI := hG.inv
      exact .inr ⟨_, pos, trees, rfl, ⟨⟨hI.mem, hI.free, hI.fading, hI.forced, hI.scores, hI.bases⟩, hG.same, hG.nodes, hG.tree, hG.start⟩, rfl,
        fun j o b hj _ => ⟨o, hj, rfl⟩⟩

theorem run_snoc (c : Config K) (p : Params K) (ω : Nat → K) (op : Op K F L) : ∀ (ops : List (Op K F L)) (s : State K F L) (pos : Nat),
    run c p ω (ops ++ [op]) s pos = (do let (s, pos) ← run c p ω ops s pos; exec c p ω op s pos)
  | [], s, pos => by
      simp only [List.nil_append, run, bind, Except.bind]
      cases exec c p ω op s pos <;> rfl
  | op' :: ops, s, pos => by
      simp only [List.cons_append, run, bind, Except.bind]
      cases exec c p ω op' s pos with
      | error e => rfl
      | ok a => exact run_snoc c p ω op ops a.1 a.2

/-- A predicate on the tree at a place, after a history, kept by every call -/
structure Kept (c : Config K) (lifetime : K) (few : Prop) (n : Nat) (P : List (Op K F L) → Base → Option (Tree K F L) → Prop) : Prop where
  new : ∀ b, P [] b none
  step : ∀ ops op b o o', Valid n op → TreeOk c b o → P ops b o → Effect c lifetime few b op o o' → P (ops ++ [op]) b o'

/-- The cases in which a call may end in undefined behaviour: a random number 0, or a depth limit above 101 -/
def Bad (c : Config K) (ω : Nat → K) : Prop := (∃ i, ω i = 0) ∨ (c.isCobble = true ∧ 101 < c.sizeLimit)

/-- A history of calls that does not end in an error respects a predicate kept by every call. -/
theorem run_fine (c : Config K) (p : Params K) (h0 : p.exp 0 = 1) (hd : 0 ≤ p.discount) (hlife : 0 ≤ p.lifetime) (ω : Nat → K) (hω : ∀ i, 0 ≤ ω i ∧ ω i < 1)
    (few : Prop) (maxSize sizeNode sizeBase : Nat) (junk : List Int) (last : Nat) (s0 : State K F L)
    (hnew : new c maxSize sizeNode sizeBase junk last = .ok s0) (hfew : s0.forest.nodes.length < junk.length → few)
    (P : List (Op K F L) → Base → Option (Tree K F L) → Prop) (hP : Kept c p.lifetime few junk.length P) (pos : Nat)
    (ops : List (Op K F L)) (hv : ∀ op ∈ ops, Valid junk.length op) :
    Fails (Bad c ω) (run c p ω ops s0 pos) ∨
    ∃ s pos' trees, run c p ω ops s0 pos = .ok (s, pos') ∧ Good c few s0.bases s0.forest.nodes.length s trees ∧ trees.length = junk.length ∧
      ∀ (j : Nat) (o : Option (Tree K F L)) (b : Base), trees[j]? = some o → s0.bases[j]? = some b → P ops b o := by
  obtain ⟨g0, -, g2, g3, -⟩ := new_spec c maxSize sizeNode sizeBase junk last s0 hnew few hfew
  induction ops using List.reverseRecOn with
  | nil =>
      refine .inr ⟨s0, pos, _, rfl, g0, by simp, fun j o b hj _ => ?_⟩
      rw [List.getElem?_replicate] at hj
      split at hj
      · have := Option.some.inj hj
        subst this
        exact hP.new b
      · cases hj
  | append_singleton ops op ih =>
      rcases ih (fun op' h => hv op' (by simp [h])) with hf | ⟨s, pos1, trees, e1, e2, e3, e4⟩
      · rw [run_snoc]
        exact .inl (hf.bind _)
      have hvo := hv op (by simp)
      rcases exec_spec (Bad c ω) c p h0 hd hlife ω hω (fun i h => .inl ⟨i, h⟩) few s0.bases (fun b hb hc => by
          rw [g3 hc b hb]
          by_cases hl : c.sizeLimit ≤ 101
          · exact .inl hl
          · exact .inr (.inr ⟨hc, by omega⟩)) s0.forest.nodes.length op s trees
        pos1 e2 (by rw [e3]; exact hvo) with hf | ⟨s', pos', trees', f1, f2, f3, f4⟩
      · rw [run_snoc, e1]
        exact .inl hf
      refine .inr ⟨s', pos', trees', ?_, f2, by rw [f3, e3], fun j o' b hj hb => ?_⟩
      · rw [run_snoc, e1]
        exact f1
      · have hlt : j < trees.length := by rw [← f3]; exact lt_of_get hj
        have hj0 := List.getElem?_eq_getElem hlt
        obtain ⟨o1, h1, h2⟩ := f4 j _ b hj0 hb
        rw [hj] at h1
        cases h1
        exact hP.step ops op b _ _ hvo (e2.tree j _ b hj0 hb) (e4 j _ b hj0 hb) h2

/-- Without the bad cases a history of calls leads to a state without an error. -/
theorem run_spec (c : Config K) (p : Params K) (h0 : p.exp 0 = 1) (hd : 0 ≤ p.discount) (hlife : 0 ≤ p.lifetime) (ω : Nat → K) (hω : ∀ i, 0 < ω i ∧ ω i < 1)
    (hlim : c.isCobble = true → c.sizeLimit ≤ 101) (few : Prop) (maxSize sizeNode sizeBase : Nat) (junk : List Int) (last : Nat) (s0 : State K F L)
    (hnew : new c maxSize sizeNode sizeBase junk last = .ok s0) (hfew : s0.forest.nodes.length < junk.length → few)
    (P : List (Op K F L) → Base → Option (Tree K F L) → Prop) (hP : Kept c p.lifetime few junk.length P) (pos : Nat)
    (ops : List (Op K F L)) (hv : ∀ op ∈ ops, Valid junk.length op) :
    ∃ s pos' trees, run c p ω ops s0 pos = .ok (s, pos') ∧ Good c few s0.bases s0.forest.nodes.length s trees ∧ trees.length = junk.length ∧
      ∀ (j : Nat) (o : Option (Tree K F L)) (b : Base), trees[j]? = some o → s0.bases[j]? = some b → P ops b o := by
  refine (run_fine c p h0 hd hlife ω (fun i => ⟨(hω i).1.le, (hω i).2⟩) few maxSize sizeNode sizeBase junk last s0 hnew hfew P hP pos ops hv).resolve_left fun hf => ?_
  rcases hf.1 with ⟨i, hi⟩ | ⟨hc, hl⟩
  · exact absurd hi (hω i).1.ne'
  · exact absurd (hlim hc) (not_le.2 hl)

end Orp.Coarse
