import Verif.Coarse.LeafRun

/-!
Histories of calls with `EXTEND_BARYCENTER`, `SPLIT_TRIGGER_NONE` and any `SPLIT_HELPER`.
-/

set_option linter.unusedSectionVars false

namespace Orp.Coarse

open Finset
open Mondrian (Node Box Forest Params Cut upd init extent cutAt bump sampleBlock Tree Data Frame plug ctxPar ctxTau ctxIds HoldsCtx Holds Ready avail mem_avail
  avail_nodup avail_used upd_spec lt_of_get newLeaf holds_plug plug_ids holds_root id_mem_ids holds_mem relinked set_same oids allIds recountAll OnlyCounts Positive
  Point histogram Times)

variable {K : Type} [Field K] [LinearOrder K] [IsStrictOrderedRing K] [FloorRing K] {F L : Nat}

/-- What training does to one tree -/
def StepS (M : (Fin F → K) → Prop) (c : Config K) (lifetime : K) (few : Prop) (x : Fin F → K) (label : Fin L) (o o' : Option (Tree K F L)) : Prop :=
  match o with
  | none => (∃ a, o' = some (newLeaf lifetime a x label)) ∨ (few ∧ o' = none)
  | some t => ∃ t', o' = some t' ∧ GrowsS M c lifetime x label 0 t t'

/-- the times of the trees -/
def TimesAll (lifetime : K) (trees : List (Option (Tree K F L))) : Prop := ∀ t, some t ∈ trees → Times (· ≤ ·) lifetime 0 t

theorem TimesAll.set {lifetime : K} {trees : List (Option (Tree K F L))} (h : TimesAll lifetime trees) (i : Nat) (o : Option (Tree K F L))
    (ho : ∀ t, o = some t → Times (· ≤ ·) lifetime 0 t) : TimesAll lifetime (trees.set i o) := by
  intro t ht
  rcases List.mem_or_eq_of_mem_set ht with h' | h'
  · exact h t h'
  · exact ho t h'.symm

section

variable (c : Config K) (hc : c.extend = .barycenter) (sc : SplitConfig K) (htr : sc.trigger = .none) (p : Params K) (hlife : 0 < p.lifetime)
  (hlog : ∀ u, 0 < u → u ≤ 1 → p.log u ≤ 0) (ω : Nat → K) (hω : ∀ i, 0 < ω i ∧ ω i < 1)

include hc htr hlife hlog hω

theorem trainTreeSplit_spec (ex : Extra K F) (x : Fin F → K) (label : Fin L) (M : (Fin F → K) → Prop)
    (hM : ∀ (s : State K F L) (tree : Nat) (m : Fin F → K), barycenter sc ex s tree = .ok (some m) → M m) (few : Prop) (s : State K F L) (trees : List (Option (Tree K F L))) (hI : Inv s trees)
    (ht : TimesAll p.lifetime trees) (i : Nat) (o : Option (Tree K F L)) (hi : trees[i]? = some o) (hE : few ∨ Enough s trees i (trees.length - i)) (pos : Nat) (s' : State K F L) (pos' : Nat) (r : Bool)
    (hr : trainTreeSplit c sc p ω ex x label i s pos = .ok (s', pos', r)) :
    ∃ o', Inv s' (trees.set i o') ∧ TimesAll p.lifetime (trees.set i o') ∧ s'.forest.nodes.length = s.forest.nodes.length ∧ s'.bases = s.bases ∧ s'.total = s.total ∧
      StepS M c p.lifetime few x label o o' ∧ (r = true ↔ o' ≠ none) ∧ (few ∨ Enough s' (trees.set i o') (i + 1) (trees.length - (i + 1))) := by
  have hlt := lt_of_get hi
  have hroot := rd_eq_ok_iff.2 (hI.mem.root hi)
  rw [trainTreeSplit, hroot, ok_bind] at hr
  cases o with
  | none =>
      simp only [Option.map_none] at hr
      rcases trainTree_none c p hlife.le ω x label s trees hI i pos hi with ⟨hA, e⟩ | ⟨s1, a, e1, e2, e3, e4, e5, e6⟩
      · rw [e] at hr
        cases hr
        have hfew : few := by
          rcases hE with h | h | h
          · exact h
          · exact absurd rfl (h none (List.mem_of_getElem? hi))
          · rw [hA] at h
            have := h.1
            simp at this
            omega
        refine ⟨none, by rw [set_same hi]; exact hI, by rw [set_same hi]; exact ht, rfl, rfl, rfl, .inr ⟨hfew, rfl⟩, by simp, .inl hfew⟩
      · rw [e1] at hr
        cases hr
        refine ⟨_, e2, ht.set _ _ (fun t h => by cases h; rfl), e3, e4, e5, .inl ⟨a, rfl⟩, by simp, ?_⟩
        rcases hE with h | h | ⟨hE1, hE2, hE3⟩
        · exact Or.inl h
        · exact absurd rfl (h none (List.mem_of_getElem? hi))
        · refine Or.inr (Or.inr ⟨by omega, ?_, ?_⟩)
          · intro j o hj hij
            rw [List.getElem?_set_ne (by omega)] at hj
            exact hE2 j o hj (by omega)
          · intro j o hj hij
            by_cases hji : j = i
            · subst hji
              rw [List.getElem?_set_self hlt] at hj
              have := Option.some.inj hj
              subst this
              simp
            · rw [List.getElem?_set_ne (Ne.symm hji)] at hj
              exact hE3 j o hj (by omega)
  | some t =>
      simp only [Option.map_some, if_pos hc, htr] at hr
      rw [ok_bind] at hr
      obtain ⟨⟨s1, pos1⟩, he, hr⟩ := bind_ok hr
      cases hr
      have htm := ht t (List.mem_of_getElem? hi)
      obtain ⟨t', g1, g2⟩ := extendSplit_spec c hc sc htr p hlife hlog ω hω ex x label i 0 M (fun s m => hM s i m) _ t [] pos s _ _ (hI.mem.ready hi) hI.free hI.fading hI.forced htm hlife he
      refine ⟨some t', hI.done hi g2, ht.set _ _ (fun t1 h => by cases h; exact g1.times htm), g2.length, g2.bases, g2.total, ⟨t', rfl, g1⟩, by simp, ?_⟩
      rcases hE with h | h | h
      · exact Or.inl h
      · refine Or.inr (Or.inl fun o ho => ?_)
        rcases List.mem_or_eq_of_mem_set ho with h' | h'
        · exact h o h'
        · rw [h']; simp
      · cases h.2.1 i _ hi le_rfl

theorem trainLoopSplit_spec (ex : Extra K F) (x : Fin F → K) (label : Fin L) (M : (Fin F → K) → Prop)
    (hM : ∀ (s : State K F L) (tree : Nat) (m : Fin F → K), barycenter sc ex s tree = .ok (some m) → M m) (few : Prop) : ∀ (k i : Nat) (s : State K F L) (trees : List (Option (Tree K F L)))
    (pos : Nat) (ok : Bool) (s' : State K F L) (pos' : Nat) (ok' : Bool), i + k = trees.length → Inv s trees → TimesAll p.lifetime trees → (few ∨ Enough s trees i k) →
    trainLoopSplit c sc p ω ex x label i k s pos ok = .ok (s', pos', ok') →
    ∃ trees', Inv s' trees' ∧ TimesAll p.lifetime trees' ∧ s'.forest.nodes.length = s.forest.nodes.length ∧ s'.bases = s.bases ∧ s'.total = s.total ∧
      trees'.length = trees.length ∧ (ok' = true ↔ ok = true ∧ ∀ (j : Nat) (o' : Option (Tree K F L)), i ≤ j → trees'[j]? = some o' → o' ≠ none) ∧
      ∀ (j : Nat) (o : Option (Tree K F L)), trees[j]? = some o → ∃ o', trees'[j]? = some o' ∧ (j < i → o' = o) ∧ (i ≤ j → StepS M c p.lifetime few x label o o')
  | 0, i, s, trees, pos, ok, s', pos', ok', hk, hI, ht, hE, hr => by
      rw [trainLoopSplit] at hr
      cases hr
      refine ⟨trees, hI, ht, rfl, rfl, rfl, rfl, ⟨fun h => ⟨h, fun j o' hj ho => ?_⟩, fun h => h.1⟩, fun j o hj => ⟨o, hj, fun _ => rfl, fun hij => ?_⟩⟩
      · have := lt_of_get ho
        omega
      · have := lt_of_get hj
        omega
  | k + 1, i, s, trees, pos, ok, s', pos', ok', hk, hI, ht, hE, hr => by
      have hlt : i < trees.length := by omega
      have hi := List.getElem?_eq_getElem hlt
      rw [trainLoopSplit] at hr
      obtain ⟨⟨s1, pos1, r⟩, e1, hr⟩ := bind_ok hr
      obtain ⟨o1, e2, e3, e4, e5, e6, e7, e8, e9⟩ := trainTreeSplit_spec c hc sc htr p hlife hlog ω hω ex x label M hM few s trees hI ht i _ hi
        (by rw [show trees.length - i = k + 1 by omega]; exact hE) pos s1 pos1 r e1
      obtain ⟨trees', f1, f2, f3, f4, f5, f6, f7, f8⟩ := trainLoopSplit_spec ex x label M hM few k (i + 1) s1 (trees.set i o1) pos1 (ok && r) s' pos' ok'
        (by rw [List.length_set]; omega) e2 e3 (by rw [show trees.length - (i + 1) = k by omega] at e9; exact e9) hr
      obtain ⟨o1', g1, g2, -⟩ := f8 i o1 (List.getElem?_set_self hlt)
      have hg2 := g2 (by omega)
      subst hg2
      refine ⟨trees', f1, f2, f3.trans e4, f4.trans e5, f5.trans e6, by rw [f6, List.length_set], ?_, fun j o hj => ?_⟩
      · rw [f7, Bool.and_eq_true, e8, and_assoc]
        refine and_congr_right fun _ => ⟨fun h j o' hij ho' => ?_, fun h => ⟨h i _ le_rfl g1, fun j o' hij ho' => h j o' (by omega) ho'⟩⟩
        by_cases hji : j = i
        · subst hji
          rw [g1] at ho'
          cases ho'
          exact h.1
        · exact h.2 j o' (by omega) ho'
      · by_cases hji : j = i
        · subst hji
          rw [hi] at hj
          cases hj
          exact ⟨_, g1, fun h => absurd h (lt_irrefl _), fun _ => e7⟩
        · obtain ⟨o', q1, q2, q3⟩ := f8 j o (by rw [List.getElem?_set_ne (Ne.symm hji)]; exact hj)
          exact ⟨o', q1, fun h => q2 (by omega), fun h => q3 (by omega)⟩

end

/-! ### The calls -/

/-- Everything that holds between two calls -/
structure GoodS (lifetime : K) (few : Prop) (m : Nat) (s : State K F L) (trees : List (Option (Tree K F L))) : Prop where
  inv : Inv s trees
  times : TimesAll lifetime trees
  nodes : s.forest.nodes.length = m
  start : few ∨ (∀ o ∈ trees, o ≠ none) ∨ ((∀ o ∈ trees, o = none) ∧ trees.length ≤ m)

theorem Pruned.times {c : Config K} {lifetime : K} {o o' : Option (Tree K F L)} (hp : Pruned c o o') (h : ∀ t, o = some t → Times (· ≤ ·) lifetime 0 t) :
    ∀ t, o' = some t → Times (· ≤ ·) lifetime 0 t := by
  rcases hp with rfl | ⟨-, f, hp⟩
  · exact h
  · cases o with
    | none => cases hp; exact h
    | some t =>
        rcases hp with ⟨z, t', -, hr, rfl⟩ | ⟨rfl, -⟩
        · intro t1 e
          cases e
          exact hr.times (h t rfl)
        · exact h

theorem GoodS.pruned {c : Config K} {lifetime : K} {few : Prop} {m : Nat} {s s' : State K F L} {trees trees' : List (Option (Tree K F L))}
    (h : GoodS lifetime few m s trees) (hI : Inv s' trees') (hn : s'.forest.nodes.length = s.forest.nodes.length)
    (hlen : trees'.length = trees.length) (hp : ∀ (j : Nat) (o : Option (Tree K F L)), trees[j]? = some o → ∃ o', trees'[j]? = some o' ∧ Pruned c o o') :
    GoodS lifetime few m s' trees' := by
  refine ⟨hI, fun t' ht' => ?_, by rw [hn]; exact h.nodes, ?_⟩
  · obtain ⟨j, hj⟩ := List.mem_iff_getElem?.1 ht'
    obtain ⟨o, h1, h2⟩ := back (R := fun _ => Pruned c) hlen hp hj
    exact h2.times (fun t e => h.times t (by rw [← e]; exact List.mem_of_getElem? h1)) t' rfl
  · rcases h.start with hs | hs | hs
    · exact .inl hs
    · refine .inr (.inl fun o' ho' => ?_)
      obtain ⟨j, hj⟩ := List.mem_iff_getElem?.1 ho'
      obtain ⟨o, h1, h2⟩ := back (R := fun _ => Pruned c) hlen hp hj
      exact fun e => hs o (List.mem_of_getElem? h1) (h2.ne_none.2 e)
    · refine .inr (.inr ⟨fun o' ho' => ?_, by rw [hlen]; exact hs.2⟩)
      obtain ⟨j, hj⟩ := List.mem_iff_getElem?.1 ho'
      obtain ⟨o, h1, h2⟩ := back (R := fun _ => Pruned c) hlen hp hj
      exact h2.ne_none.1 (hs.1 o (List.mem_of_getElem? h1))

theorem GoodS.enough {lifetime : K} {few : Prop} {m : Nat} {s : State K F L} {trees : List (Option (Tree K F L))}
    (h : GoodS lifetime few m s trees) : few ∨ Enough s trees 0 trees.length := by
  rcases h.start with hs | hs | hs
  · exact .inl hs
  · exact .inr (.inl hs)
  · refine .inr (.inr ⟨?_, fun j o hj _ => hs.1 o (List.mem_of_getElem? hj), fun j o hj hlt => absurd hlt (Nat.not_lt_zero _)⟩)
    have hids : allIds trees = [] := by
      unfold allIds
      rw [List.flatMap_eq_nil_iff]
      intro o ho
      rw [hs.1 o ho]
    have hc := h.inv.mem.cover.length_eq
    rw [hids] at hc
    simp only [List.append_nil, List.length_range] at hc
    rw [hc, h.nodes]
    exact hs.2

/-- The nodes after `predict`, if it returns -/
theorem predict_inv (c : Config K) (p : Params K) (s : State K F L) (trees : List (Option (Tree K F L))) (hI : Inv s trees) (x : Fin F → K) (use : Option Nat)
    (s' : State K F L) (l : Nat) (hr : predict c p s x use = .ok (s', l)) : Inv s' (trees.map (counted c)) ∧ s'.forest.nodes.length = s.forest.nodes.length := by
  obtain ⟨nodes', a1, a2, a3⟩ : ∃ nodes', (if c.extend = .ghost then .ok s.forest.nodes
      else Mondrian.updateCounts s.forest.nodes.length s.forest.roots s.forest.nodes : Res (List (Node K F L))) = .ok nodes' ∧
      Mondrian.Inv { s.forest with nodes := nodes' } (trees.map (counted c)) [] ∧ OnlyCounts s.forest.nodes nodes' := by
    by_cases hg : c.extend = .ghost
    · refine ⟨_, if_pos hg, ?_, .refl _⟩
      have : trees.map (counted c) = trees := by
        conv_rhs => rw [← List.map_id trees]
        refine List.map_congr_left fun o _ => ?_
        unfold counted
        rw [if_pos hg]; rfl
      rw [this]
      exact hI.mem
    · obtain ⟨nodes', b1, b2, b3, b4⟩ := hI.mem.recount
      refine ⟨nodes', by rw [if_neg hg]; exact b1, ?_, b3⟩
      have : trees.map (counted c) = recountAll trees := by
        refine List.map_congr_left fun o _ => ?_
        unfold counted
        rw [if_neg hg]
      rw [this]
      exact b2
  have hav := a3.avail
  rw [predict, a1, ok_bind] at hr
  have hr : (if s.forest.roots.length < usedTrees s.forest.roots.length use ∨ usedTrees s.forest.roots.length use = 0 then .error .ub
      else Mondrian.sumLoop p { s.forest with nodes := nodes' } x (s.forest.roots.take (usedTrees s.forest.roots.length use)) (fun _ => 0) >>= fun sum =>
        .ok ({ s with forest := { s.forest with nodes := nodes' } }, Utils.indexMax (List.ofFn (fun i => sum i / (usedTrees s.forest.roots.length use : K))))) = .ok (s', l) := by
    cases use <;> exact hr
  split at hr
  · cases hr
  · obtain ⟨sum, -, hr⟩ := bind_ok hr
    cases hr
    refine ⟨⟨a2, ?_, ?_, ?_, hI.scores, ?_⟩, a3.1⟩
    · show s.free = ((avail nodes').length : Int)
      rw [hav]; exact hI.free
    · show s.fading.length = nodes'.length
      rw [a3.1]; exact hI.fading
    · show s.forced.length = nodes'.length
      rw [a3.1]; exact hI.forced
    · show s.bases.length = _
      rw [List.length_map]; exact hI.bases

/-- What a call may do to a tree -/
def EffectS (c : Config K) (lifetime : K) (few : Prop) (op : Op K F L) (o o' : Option (Tree K F L)) : Prop :=
  match op with
  | .train x label => ∃ M o1, Pruned c o o1 ∧ StepS M c lifetime few x label o1 o'
  | .predict _ _ => o' = counted c o
  | .trim => Pruned c o o'
  | .fade => o' = o
  | .other _ => o' = o

section

variable (c : Config K) (hc : c.extend = .barycenter) (sc : SplitConfig K) (htr : sc.trigger = .none) (p : Params K) (hlife : 0 < p.lifetime)
  (hlog : ∀ u, 0 < u → u ≤ 1 → p.log u ≤ 0) (ω : Nat → K) (hω : ∀ i, 0 < ω i ∧ ω i < 1)

include hc htr hlife hlog hω

theorem trainSplit_spec (M : (Fin F → K) → Prop) (few : Prop) (m : Nat) (x : Fin F → K) (label : Fin L) (s : State K F L) (ex : Extra K F) (pos : Nat) (trees : List (Option (Tree K F L)))
    (hG : GoodS p.lifetime few m s trees) (s' : State K F L) (ex' : Extra K F) (pos' : Nat) (r : Bool)
    (hM : ∀ (s : State K F L) (tree : Nat) (m : Fin F → K), barycenter sc ⟨fun i => ex.sum i * sc.fadingCount + x i, ex.count * sc.fadingCount + 1, ex.full⟩ s tree = .ok (some m) → M m)
    (hr : trainSplit c sc p ω x label s ex pos = .ok (s', ex', pos', r)) :
    ∃ trees', GoodS p.lifetime few m s' trees' ∧ s'.total = s.total + 1 ∧ trees'.length = trees.length ∧ (r = true ↔ ∀ o ∈ trees', o ≠ none) ∧
      ∀ (j : Nat) (o : Option (Tree K F L)), trees[j]? = some o → ∃ o1 o', trees'[j]? = some o' ∧ Pruned c o o1 ∧ StepS M c p.lifetime few x label o1 o' := by
  rw [trainSplit] at hr
  dsimp only at hr
  obtain ⟨s1, e1, hr⟩ := bind_ok hr
  have g1 : GoodS p.lifetime few m s1 trees ∧ s1.total = s.total := by
    split at e1
    · obtain ⟨f, q1, q2⟩ := treeFade_spec s trees hG.inv
      rw [q1] at e1
      cases e1
      exact ⟨⟨q2, hG.times, hG.nodes, hG.start⟩, rfl⟩
    · cases e1; exact ⟨hG, rfl⟩
  obtain ⟨g1, t1⟩ := g1
  obtain ⟨⟨s2, pos2⟩, e2, hr⟩ := bind_ok hr
  obtain ⟨trees2, g2, t2, l2, p2⟩ : ∃ trees2, GoodS p.lifetime few m s2 trees2 ∧ s2.total = s1.total ∧ trees2.length = trees.length ∧
      ∀ (j : Nat) (o : Option (Tree K F L)), trees[j]? = some o → ∃ o', trees2[j]? = some o' ∧ Pruned c o o' := by
    by_cases hcc : c.trim ≠ .none ∧ s1.free ≤ 1 ∧ s1.total % 100 = 0
    · rw [if_pos hcc] at e2
      obtain ⟨s3, pos3, trees2, f1, f2, f3, f4, f5, f6, f7⟩ := treeTrim_spec c ω (fun i => ⟨(hω i).1.le, (hω i).2⟩) s1 trees pos g1.inv
      rw [f1] at e2
      cases e2
      have hp : ∀ (j : Nat) (o : Option (Tree K F L)), trees[j]? = some o → ∃ o', trees2[j]? = some o' ∧ Pruned c o o' := by
        intro j o hj
        obtain ⟨o', q1, q2⟩ := f7 j o hj
        rw [if_neg hcc.1] at q2
        exact ⟨o', q1, .inr ⟨hcc.1, _, q2⟩⟩
      exact ⟨trees2, g1.pruned f2 f3 f6 hp, f5, f6, hp⟩
    · rw [if_neg hcc] at e2
      cases e2
      exact ⟨trees, g1, rfl, rfl, fun j o hj => ⟨o, hj, .inl rfl⟩⟩
  obtain ⟨⟨s3, pos3, ok⟩, e3, hr⟩ := bind_ok hr
  cases hr
  have hroots : s2.forest.roots.length = trees2.length := by rw [g2.inv.mem.all.roots, List.length_map]
  rw [hroots] at e3
  obtain ⟨trees3, f2, f3, f4, f5, f6, f7, f8, f9⟩ := trainLoopSplit_spec c hc sc htr p hlife hlog ω hω _ x label M hM few trees2.length 0 s2 trees2 pos2 true _ _ _ (by omega)
    g2.inv g2.times g2.enough e3
  have hstep : ∀ (j : Nat) (o : Option (Tree K F L)), trees2[j]? = some o → ∃ o', trees3[j]? = some o' ∧ StepS M c p.lifetime few x label o o' := by
    intro j o hj
    obtain ⟨o', a1, -, a3⟩ := f9 j o hj
    exact ⟨o', a1, a3 (Nat.zero_le _)⟩
  refine ⟨trees3, ⟨⟨f2.mem, f2.free, f2.fading, f2.forced, f2.scores, f2.bases⟩, f3, by rw [← g2.nodes]; exact f4, ?_⟩, ?_, ?_, ?_, ?_⟩
  · by_cases hf : few
    · exact .inl hf
    · refine .inr (.inl fun o' ho' => ?_)
      obtain ⟨j, hj⟩ := List.mem_iff_getElem?.1 ho'
      obtain ⟨o, h1, h2⟩ := back (R := fun _ => StepS M c p.lifetime few x label) f7 hstep hj
      cases o with
      | none =>
          rcases h2 with ⟨a, rfl⟩ | ⟨h, -⟩
          · simp
          · exact absurd h hf
      | some t =>
          obtain ⟨t', rfl, -⟩ := h2
          simp
  · show s3.total + 1 = _
    rw [f6, t2, t1]
  · rw [f7, l2]
  · refine f8.trans ⟨fun h o' ho' => ?_, fun h => ⟨rfl, fun j o' _ hj => h o' (List.mem_of_getElem? hj)⟩⟩
    obtain ⟨j, hj⟩ := List.mem_iff_getElem?.1 ho'
    exact h.2 j o' (Nat.zero_le _) hj
  · intro j o hj
    obtain ⟨o1, h1, h2⟩ := p2 j o hj
    obtain ⟨o', h3, h4⟩ := hstep j o1 h1
    exact ⟨o1, o', h3, h2, h4⟩

theorem execSplit_spec (few : Prop) (m : Nat) (op : Op K F L) (s : State K F L) (ex : Extra K F) (pos : Nat) (trees : List (Option (Tree K F L)))
    (hG : GoodS p.lifetime few m s trees) (s' : State K F L) (ex' : Extra K F) (pos' : Nat) (hr : execSplit c sc p ω op s ex pos = .ok (s', ex', pos')) :
    ∃ trees', GoodS p.lifetime few m s' trees' ∧ trees'.length = trees.length ∧
      ∀ (j : Nat) (o : Option (Tree K F L)), trees[j]? = some o → ∃ o', trees'[j]? = some o' ∧ EffectS c p.lifetime few op o o' := by
  cases op with
  | train x label =>
      rw [execSplit] at hr
      obtain ⟨⟨s1, ex1, pos1, r⟩, e1, hr⟩ := bind_ok hr
      cases hr
      obtain ⟨trees', f1, -, f3, -, f5⟩ := trainSplit_spec c hc sc htr p hlife hlog ω hω (fun _ => True) few m x label s ex pos trees hG _ _ _ _ (fun _ _ _ _ => trivial) e1
      refine ⟨trees', f1, f3, fun j o hj => ?_⟩
      obtain ⟨o1, o', q1, q2, q3⟩ := f5 j o hj
      exact ⟨o', q1, _, o1, q2, q3⟩
  | predict x use =>
      rw [execSplit] at hr
      · obtain ⟨⟨s1, pos1⟩, e1, hr⟩ := bind_ok hr
        cases hr
        rw [exec] at e1
        obtain ⟨⟨s2, l⟩, e2, e1⟩ := bind_ok e1
        cases e1
        obtain ⟨h1, h2⟩ := predict_inv c p s trees hG.inv x use _ _ e2
        have hnn : ∀ o : Option (Tree K F L), counted c o = none ↔ o = none := by
          intro o
          unfold counted
          split <;> simp
        refine ⟨_, ⟨h1, fun t ht => ?_, h2.trans hG.nodes, ?_⟩, by simp, fun j o hj => ⟨_, by rw [List.getElem?_map, hj]; rfl, rfl⟩⟩
        · obtain ⟨o, ho, e⟩ := List.mem_map.1 ht
          unfold counted at e
          split at e
          · subst e; exact hG.times t ho
          · cases o with
            | none => cases e
            | some t0 => cases e; exact Mondrian.recount_times (hG.times t0 ho)
        · rcases hG.start with hs | hs | hs
          · exact .inl hs
          · refine .inr (.inl fun o' ho' => ?_)
            obtain ⟨o, h1, rfl⟩ := List.mem_map.1 ho'
            exact fun e => hs o h1 ((hnn o).1 e)
          · refine .inr (.inr ⟨fun o' ho' => ?_, by simpa using hs.2⟩)
            obtain ⟨o, h1, rfl⟩ := List.mem_map.1 ho'
            exact (hnn o).2 (hs.1 o h1)
      · exact fun x l h => by cases h
  | trim =>
      rw [execSplit] at hr
      · obtain ⟨⟨s1, pos1⟩, e1, hr⟩ := bind_ok hr
        cases hr
        obtain ⟨s2, pos2, trees2, f1, f2, f3, f4, f5, f6, f7⟩ := treeTrim_spec c ω (fun i => ⟨(hω i).1.le, (hω i).2⟩) s trees pos hG.inv
        have e1 : treeTrim c ω s pos = .ok _ := e1
        rw [f1] at e1
        cases e1
        have hp : ∀ (j : Nat) (o : Option (Tree K F L)), trees[j]? = some o → ∃ o', trees2[j]? = some o' ∧ Pruned c o o' := by
          intro j o hj
          obtain ⟨o', q1, q2⟩ := f7 j o hj
          refine ⟨o', q1, ?_⟩
          by_cases hc : c.trim = .none
          · rw [if_pos hc] at q2; exact .inl q2
          · rw [if_neg hc] at q2; exact .inr ⟨hc, _, q2⟩
        exact ⟨trees2, hG.pruned f2 f3 f6 hp, f6, hp⟩
      · exact fun x l h => by cases h
  | fade =>
      rw [execSplit] at hr
      · obtain ⟨⟨s1, pos1⟩, e1, hr⟩ := bind_ok hr
        cases hr
        obtain ⟨f, q1, q2⟩ := treeFade_spec s trees hG.inv
        have e1 : (do let s ← treeFade s; return (s, pos) : Res (State K F L × Nat)) = .ok _ := e1
        rw [q1] at e1
        cases e1
        exact ⟨trees, ⟨q2, hG.times, hG.nodes, hG.start⟩, rfl, fun j o hj => ⟨o, hj, rfl⟩⟩
      · exact fun x l h => by cases h
  | other last =>
      rw [execSplit] at hr
      · obtain ⟨⟨s1, pos1⟩, e1, hr⟩ := bind_ok hr
        cases hr
        cases e1
        have hI := hG.inv
        exact ⟨trees, ⟨⟨hI.mem, hI.free, hI.fading, hI.forced, hI.scores, hI.bases⟩, hG.times, hG.nodes, hG.start⟩, rfl, fun j o hj => ⟨o, hj, rfl⟩⟩
      · exact fun x l h => by cases h

end

theorem runSplit_snoc (c : Config K) (sc : SplitConfig K) (p : Params K) (ω : Nat → K) (op : Op K F L) : ∀ (ops : List (Op K F L)) (s : State K F L) (ex : Extra K F) (pos : Nat),
    runSplit c sc p ω (ops ++ [op]) s ex pos = (do let (s, ex, pos) ← runSplit c sc p ω ops s ex pos; execSplit c sc p ω op s ex pos)
  | [], s, ex, pos => by
      simp only [List.nil_append, runSplit, bind, Except.bind]
      cases execSplit c sc p ω op s ex pos <;> rfl
  | op' :: ops, s, ex, pos => by
      simp only [List.cons_append, runSplit, bind, Except.bind]
      cases execSplit c sc p ω op' s ex pos with
      | error e => rfl
      | ok a => exact runSplit_snoc c sc p ω op ops a.1 a.2.1 a.2.2

/-- A predicate on the tree at a place, after a history, kept by every call -/
structure KeptS (c : Config K) (lifetime : K) (few : Prop) (P : List (Op K F L) → Option (Tree K F L) → Prop) : Prop where
  new : P [] none
  step : ∀ ops op o o', (∀ t, o = some t → Times (· ≤ ·) lifetime 0 t) → P ops o → EffectS c lifetime few op o o' → P (ops ++ [op]) o'

theorem runSplit_spec (c : Config K) (hc : c.extend = .barycenter) (sc : SplitConfig K) (htr : sc.trigger = .none) (p : Params K) (hlife : 0 < p.lifetime)
    (hlog : ∀ u, 0 < u → u ≤ 1 → p.log u ≤ 0) (ω : Nat → K) (hω : ∀ i, 0 < ω i ∧ ω i < 1)
    (few : Prop) (maxSize sizeNode sizeBase : Nat) (junk : List Int) (last : Nat) (s0 : State K F L)
    (hnew : new c maxSize sizeNode sizeBase junk last = .ok s0) (hfew : s0.forest.nodes.length < junk.length → few)
    (P : List (Op K F L) → Option (Tree K F L) → Prop) (hP : KeptS c p.lifetime few P) (ex : Extra K F) (pos : Nat)
    (ops : List (Op K F L)) (s : State K F L) (ex' : Extra K F) (pos' : Nat) (hr : runSplit c sc p ω ops s0 ex pos = .ok (s, ex', pos')) :
    ∃ trees, GoodS p.lifetime few s0.forest.nodes.length s trees ∧ trees.length = junk.length ∧
      ∀ (j : Nat) (o : Option (Tree K F L)), trees[j]? = some o → P ops o := by
  obtain ⟨g0, -, -, -, -⟩ := new_spec c maxSize sizeNode sizeBase junk last s0 hnew few hfew
  induction ops using List.reverseRecOn generalizing s ex' pos' with
  | nil =>
      rw [runSplit] at hr
      cases hr
      refine ⟨_, ⟨g0.inv, fun t ht => ?_, rfl, g0.start⟩, by simp, fun j o hj => ?_⟩
      · cases List.eq_of_mem_replicate ht
      · rw [List.getElem?_replicate] at hj
        split at hj
        · have := Option.some.inj hj
          subst this
          exact hP.new
        · cases hj
  | append_singleton ops op ih =>
      rw [runSplit_snoc] at hr
      obtain ⟨⟨s1, ex1, pos1⟩, e1, hr⟩ := bind_ok hr
      obtain ⟨trees, e2, e3, e4⟩ := ih s1 ex1 pos1 e1
      obtain ⟨trees', f2, f3, f4⟩ := execSplit_spec c hc sc htr p hlife hlog ω hω few _ op s1 ex1 pos1 trees e2 s ex' pos' hr
      refine ⟨trees', f2, by rw [f3, e3], fun j o' hj => ?_⟩
      obtain ⟨o, h1, h2⟩ := back (R := fun _ => EffectS c p.lifetime few op) f3 f4 hj
      exact hP.step ops op o o' (fun t e => e2.times t (by rw [← e]; exact List.mem_of_getElem? h1)) (e4 j o h1) h2

/-! ### The counters of the leaves -/

theorem held_split (lifetime tau : K) (np ns id : Nat) (d : Data K F L) (dim : Fin F) (v : K) (onLeft : Bool) (x : Fin F → K) (label : Fin L) :
    held (splitTree lifetime tau np ns id d dim v onLeft x label) = bump d.counts label := by
  funext i
  unfold splitTree
  cases onLeft <;> by_cases hv : v < x dim <;> simp only [hv, held, give, bump, Function.update_apply, if_true, if_false, Bool.false_eq_true] <;> split <;> simp_all <;> omega

/-- Each point is counted once. -/
theorem GrowsS.held_eq {M : (Fin F → K) → Prop} {c : Config K} {lifetime : K} {x : Fin F → K} {label : Fin L} {ptau : K} {t t' : Tree K F L} (h : GrowsS M c lifetime x label ptau t t') :
    held t' = bump (held t) label := by
  induction h with
  | insert np ns hok hle hlt => exact held_above ..
  | leaf => rfl
  | split np ns tau v dim onLeft m hM hm hv hx h1 h2 h3 h4 => exact held_split ..
  | left hx hg ih => simp only [held, ih, bump_add]
  | right hx hg ih => simp only [held, ih, bump_add']

/-- A leaf keeps its counters, to which the point may be added, and another leaf has counted nothing but the point. -/
theorem GrowsS.keeps {M : (Fin F → K) → Prop} {c : Config K} {lifetime : K} {x : Fin F → K} {label : Fin L} {ptau : K} {t t' : Tree K F L} (h : GrowsS M c lifetime x label ptau t t') :
    (∀ z ∈ leaves t, ∃ z' ∈ leaves t', z'.1 = z.1 ∧ (z'.2.counts = z.2.counts ∨ z'.2.counts = bump z.2.counts label)) ∧
    (∀ z' ∈ leaves t', (∃ z ∈ leaves t, z'.1 = z.1 ∧ (z'.2.counts = z.2.counts ∨ z'.2.counts = bump z.2.counts label)) ∨
      z'.2.counts = (fun _ => 0) ∨ z'.2.counts = bump (fun _ => 0) label) := by
  induction h with
  | @insert ptau t cut np ns hok hle hlt =>
      unfold aboveC
      constructor
      · intro z hz
        refine ⟨z, ?_, rfl, .inl rfl⟩
        split <;> simp [leaves, hz]
      · intro z' hz'
        split at hz' <;> simp only [leaves, newLeaf, List.mem_append, List.mem_singleton] at hz'
        · rcases hz' with rfl | hz'
          · exact .inr (.inr rfl)
          · exact .inl ⟨z', hz', rfl, .inl rfl⟩
        · rcases hz' with hz' | rfl
          · exact .inl ⟨z', hz', rfl, .inl rfl⟩
          · exact .inr (.inr rfl)
  | leaf => simp [leaves]
  | @split ptau id d np ns tau v dim onLeft m hM hm hv' hx h1 h2 h3 h4 =>
      unfold splitTree
      cases onLeft <;> by_cases hv : v < x dim <;> simp [hv, give, leaves]
  | @left ptau id d dim sp l l' r hx hg ih =>
      constructor
      · intro z hz
        rcases List.mem_append.1 hz with hz | hz
        · exact ⟨z, List.mem_append_left _ hz, rfl, .inl rfl⟩
        · obtain ⟨z', q1, q2⟩ := ih.1 z hz
          exact ⟨z', List.mem_append_right _ q1, q2⟩
      · intro z' hz'
        rcases List.mem_append.1 hz' with hz' | hz'
        · exact .inl ⟨z', List.mem_append_left _ hz', rfl, .inl rfl⟩
        · rcases ih.2 z' hz' with ⟨z, q1, q2⟩ | q
          · exact .inl ⟨z, List.mem_append_right _ q1, q2⟩
          · exact .inr q
  | @right ptau id d dim sp l r r' hx hg ih =>
      constructor
      · intro z hz
        rcases List.mem_append.1 hz with hz | hz
        · obtain ⟨z', q1, q2⟩ := ih.1 z hz
          exact ⟨z', List.mem_append_left _ q1, q2⟩
        · exact ⟨z, List.mem_append_right _ hz, rfl, .inl rfl⟩
      · intro z' hz'
        rcases List.mem_append.1 hz' with hz' | hz'
        · rcases ih.2 z' hz' with ⟨z, q1, q2⟩ | q
          · exact .inl ⟨z, List.mem_append_left _ q1, q2⟩
          · exact .inr q
        · exact .inl ⟨z', List.mem_append_right _ hz', rfl, .inl rfl⟩

/-- nothing is required -/
theorem keptS_true (c : Config K) (lifetime : K) (few : Prop) : KeptS (F := F) (L := L) c lifetime few (fun _ _ => True) :=
  ⟨trivial, fun _ _ _ _ _ _ _ => trivial⟩

end Orp.Coarse
