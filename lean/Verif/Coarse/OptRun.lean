import Verif.Coarse.OptTree

/-!
Histories with and without `UNBOUND_OPTIMIZE`: the objects stay the same up to the counters of split nodes, and with it these counters are always right.
-/

set_option linter.unusedSectionVars false

namespace Orp.Coarse

open Finset
open Mondrian (Node Box Forest Params Cut upd init bump OnlyCounts Tree Data Frame plug ctxPar ctxIds HoldsCtx Holds newLeaf holds_plug plug_ids holds_root holds_mem
  holds_congr holdsCtx_congr upd_spec lt_of_get holds_fill avail mem_avail Clean recount_id recount_ids allIds oids HoldsAll)

variable {K : Type} [Field K] [LinearOrder K] [IsStrictOrderedRing K] [FloorRing K] {F L : Nat}

theorem clean_onlyCounts {nodes nodes' : List (Node K F L)} (h : OnlyCounts nodes nodes') (hc : Clean nodes) : Clean nodes' := by
  intro i n' hn' ht
  obtain ⟨cnt, h1, h2⟩ := (OnlyCounts.symm h).2 i n' hn'
  obtain ⟨a, b⟩ := hc i _ h1 ht
  simp only at a b
  exact ⟨a, (h2 a).symm.trans b⟩

/-- the update of the counters on the way of the point -/
theorem updatePath_spec {s : State K F L} {trees : List (Option (Tree K F L))} (hI : Inv s trees) {i : Nat} {t : Tree K F L} (hi : trees[i]? = some (some t))
    (hz : 0 ∉ splitIds t) (x : Fin F → K) (label : Fin L) (hw : onWay x label t = t.recount) :
    ∃ s', updatePath s i x label = .ok s' ∧ Inv s' (trees.set i (some t.recount)) ∧ Twin s s' := by
  have hr := hI.mem.ready hi
  obtain ⟨gs, d, h1, h2⟩ := leaf_ctx x label t []
  simp only [plug, up] at h1 h2
  have hlen : gs.length ≤ s.forest.nodes.length := by
    have := ready_length (s := s.forest) (tree := i) (fs := gs) (t := .leaf (t.leafOf x) d) (by rw [h1]; exact hr)
    omega
  have hh : Holds s.forest.nodes none (plug gs (.leaf (t.leafOf x) d)) := by rw [h1]; exact hr.holds
  obtain ⟨nodes', a1, a2, a3, a4⟩ := pathLoop_spec label gs (.leaf (t.leafOf x) d) s.forest.nodes.length s.forest.nodes hlen (by rw [h1]; exact hr.nodup) hh
    (fun f hf h0 => hz (by rw [← h1]; exact plug_splits gs _ 0 (Or.inl ⟨f, hf, h0⟩)))
  rw [h2, hw] at a2
  rw [h1] at a4
  obtain ⟨-, n, hn, hn2, -⟩ := holds_plug.1 hh
  have hgl := getLeaf_spec x t none s.forest.nodes.length (hI.mem.height_le hi) hr.holds
  have hav : avail nodes' = avail s.forest.nodes := a3.avail
  refine ⟨{ s with forest := { s.forest with nodes := nodes' } }, ?_, ?_, ⟨a3, rfl, rfl, rfl, rfl, rfl, rfl, rfl⟩⟩
  · simp only [updatePath, rd_eq_ok_iff.2 hr.root, bind, Except.bind, init, hgl, rd_eq_ok_iff.2 hn, hn2.1, a1, pure, Except.pure]
  · refine hI.done hi ⟨⟨a2, by rw [recount_ids]; exact hr.nodup, by rw [recount_id]; exact hr.root, ?_, clean_onlyCounts a3 hr.clean⟩, ?_, a3.1, ?_, ?_, ?_, rfl, rfl, rfl,
      rfl, fun h => h⟩
    · rw [recount_ids]
      show ∀ i ∈ t.ids, i ∉ avail nodes'
      rw [hav]
      exact hr.used
    · rw [recount_id]
      exact (Mondrian.set_same hr.root).symm
    · exact fun k hk _ => a4 k hk
    · show List.Perm (avail nodes' ++ _) _
      rw [hav, recount_ids]
    · show s.free = ((avail nodes').length : Int)
      rw [hav]
      exact hI.free

/-! ### Node 0 -/

/-- node 0 is a leaf -/
def ZeroLeaf (trees : List (Option (Tree K F L))) : Prop := ∃ (j : Nat) (t : Tree K F L), trees[j]? = some (some t) ∧ 0 ∈ leafIds t

theorem ZeroLeaf.not_split {s : State K F L} {trees : List (Option (Tree K F L))} (hI : Inv s trees) (h : ZeroLeaf trees) {i : Nat} {t : Tree K F L}
    (hi : trees[i]? = some (some t)) : 0 ∉ splitIds t := by
  obtain ⟨j, u, hj, hu⟩ := h
  by_cases hij : i = j
  · subst hij
    rw [hi] at hj
    cases hj
    exact leaf_not_split (hI.mem.ready hi).nodup hu
  · intro h0
    obtain ⟨rest, h1, -, h3⟩ := Mondrian.allIds_split trees i _ hi
    have hnd := h1.nodup_iff.1 hI.mem.all.nodup
    exact (List.nodup_append'.1 hnd).2.2 ((mem_ids_iff 0 t).2 (Or.inl h0)) (h3 j u (Ne.symm hij) hj 0 ((mem_ids_iff 0 u).2 (Or.inr hu)))

/-- nothing is used yet, and the search for a node starts at node 0 -/
structure AtZero (s : State K F L) (trees : List (Option (Tree K F L))) : Prop where
  none : ∀ o ∈ trees, o = none
  last : s.last % s.forest.nodes.length = 0

theorem takeNode_zero (s : State K F L) (h0 : s.free ≠ 0) {n : Node K F L} (hn : s.forest.nodes[0]? = some n) (ha : n.available = true)
    (hl : s.last % s.forest.nodes.length = 0) : takeNode s = .ok (some 0, { s with last := 0 }) := by
  have hpos := lt_of_get hn
  obtain ⟨k, hk⟩ : ∃ k, s.forest.nodes.length = k + 1 := ⟨_, (Nat.succ_pred_eq_of_pos hpos).symm⟩
  unfold takeNode availableNode
  rw [if_neg h0]
  conv in (scan _ _ _ _) => rw [hk]
  unfold scan
  rw [Nat.zero_add, hl]
  simp only [rd_eq_ok_iff.2 hn, bind, Except.bind, ha, if_true, pure, Except.pure]

theorem allIds_none : ∀ (trees : List (Option (Tree K F L))), (∀ o ∈ trees, o = none) → allIds trees = []
  | [], _ => rfl
  | o :: os, h => by
      have := h o (List.mem_cons_self ..)
      subst this
      rw [Mondrian.allIds_cons, allIds_none os (fun o ho => h o (List.mem_cons_of_mem _ ho))]
      rfl

theorem trainTree_zero (c : Config K) (p : Params K) (ω : Nat → K) (x : Fin F → K) (label : Fin L) {s : State K F L} {trees : List (Option (Tree K F L))}
    (hI : Inv s trees) (h : AtZero s trees) {i : Nat} (hi : i < trees.length) (hm : 0 < s.forest.nodes.length) (pos : Nat) {s1 : State K F L} {pos1 : Nat} {r : Bool}
    (he : trainTree c p ω x label i s pos = .ok (s1, pos1, r)) : s1.forest.roots[i]? = some (some 0) := by
  have hr : s.forest.roots[i]? = some none := by
    have := hI.mem.root (List.getElem?_eq_getElem hi)
    rw [this, h.none _ (List.getElem_mem hi)]
    rfl
  have hcov := hI.mem.cover
  rw [allIds_none trees h.none] at hcov
  simp only [List.append_nil] at hcov
  have h0 : 0 ∈ avail s.forest.nodes := hcov.mem_iff.2 (List.mem_range.2 hm)
  obtain ⟨n, hn, hneg⟩ := mem_avail.1 h0
  have hfree : s.free ≠ 0 := by
    rw [hI.free]
    have := List.length_pos_of_mem h0
    omega
  have hav : n.available = true := by
    unfold Mondrian.Node.available
    exact decide_eq_true hneg
  unfold trainTree at he
  simp only [rd_eq_ok_iff.2 hr, bind, Except.bind, takeNode_zero s hfree hn hav h.last] at he
  cases hw : wr s.forest.roots i (some 0) with
  | error e => rw [hw] at he; cases he
  | ok roots =>
      have hroots : roots[i]? = some (some 0) := by
        unfold wr at hw
        split at hw
        · rename_i hlt
          cases hw
          exact List.getElem?_set_self hlt
        · cases hw
      rw [hw] at he
      simp only at he
      cases hu : upd s.forest.nodes 0 (fun n => { n with parent := none, right := none, left := none, tau := 0 }) with
      | error e => rw [hu] at he; cases he
      | ok n1 =>
          rw [hu] at he
          simp only at he
          cases hs : Mondrian.sampleBlock p n1 0 x label with
          | error e => rw [hs] at he; cases he
          | ok n2 =>
              rw [hs] at he
              cases he
              exact hroots

/-! ### Training -/

/-- the state in the middle of `train` with `UNBOUND_OPTIMIZE`: the next tree is `i`, `k` trees are left -/
structure Fresh (c : Config K) (bases : List Base) (m i k : Nat) (s : State K F L) (trees : List (Option (Tree K F L))) : Prop where
  inv : Inv s trees
  same : s.bases = bases
  nodes : s.forest.nodes.length = m
  tree : ∀ (j : Nat) (o : Option (Tree K F L)) (b : Base), trees[j]? = some o → bases[j]? = some b → TreeOk c b o
  enough : Enough s trees i k
  right : ∀ t, some t ∈ trees → t.recount = t

theorem Enough.twin {s s' : State K F L} {trees : List (Option (Tree K F L))} {i k j : Nat} {o o' : Option (Tree K F L)} (h : Enough s (trees.set j o) i k) (hs : Twin s s')
    (ho : o ≠ none) (ho' : o' ≠ none) (hj : j < trees.length) (hji : j < i) : Enough s' (trees.set j o') i k := by
  have hav : avail s'.forest.nodes = avail s.forest.nodes := hs.nodes.avail
  rcases h with h | ⟨h1, h2, h3⟩
  · left
    intro q hq
    rcases List.mem_iff_getElem?.1 hq with ⟨l, hl⟩
    by_cases hlj : l = j
    · subst hlj
      rw [List.getElem?_set_self hj] at hl
      cases hl
      exact ho'
    · rw [List.getElem?_set_ne (Ne.symm hlj)] at hl
      refine h q (List.mem_iff_getElem?.2 ⟨l, ?_⟩)
      rw [List.getElem?_set_ne (Ne.symm hlj)]
      exact hl
  · right
    refine ⟨by rw [hav]; exact h1, fun l q hl hil => ?_, fun l q hl hil => ?_⟩
    · have hlj : j ≠ l := by omega
      rw [List.getElem?_set_ne hlj] at hl
      exact h2 l q (by rw [List.getElem?_set_ne hlj]; exact hl) hil
    · by_cases hlj : j = l
      · subst hlj
        rw [List.getElem?_set_self hj] at hl
        cases hl
        exact ho'
      · rw [List.getElem?_set_ne hlj] at hl
        exact h3 l q (by rw [List.getElem?_set_ne hlj]; exact hl) hil

theorem RelR.ok_left {A B : Type} {R : A → B → Prop} {r : Res A} {b : B} (h : RelR R r (.ok b)) : ∃ a, r = .ok a ∧ R a b := by
  cases r with
  | error e => cases h
  | ok a => exact ⟨a, rfl, h⟩

theorem RelR.error_left {A B : Type} {R : A → B → Prop} {r : Res A} {e : Err} (h : RelR R r (.error e)) : r = .error e := by
  cases r with
  | error e' => exact congrArg _ h
  | ok a => cases h

/-- the results of the loops -/
def LoopRel (c : Config K) (bases : List Base) (m n : Nat) (a b : State K F L × Nat × Bool) : Prop :=
  Twin3 a b ∧ ∃ trees, Fresh c bases m n 0 b.1 trees ∧ trees.length = n ∧ ZeroLeaf trees

theorem trainLoop_twin (c : Config K) (hc : c.extend = .original) (p : Params K) (hlife : 0 ≤ p.lifetime) (ω : Nat → K) (hω : ∀ i, 0 ≤ ω i ∧ ω i < 1)
    (x : Fin F → K) (label : Fin L) (bases : List Base) (m : Nat) (hm : 0 < m) :
    ∀ (k i : Nat) (s s' : State K F L) (trees : List (Option (Tree K F L))) (pos : Nat) (ok : Bool), i + k = trees.length → Twin s s' →
      Fresh c bases m i k s' trees → ZeroLeaf trees ∨ (0 < k ∧ AtZero s' trees) →
      RelR (LoopRel c bases m trees.length) (trainLoop c p ω x label i k s pos ok) (trainLoopOpt c p ω x label i k s' pos ok)
  | 0, i, s, s', trees, pos, ok, hk, htw, hF, hZ => by
      have hi : i = trees.length := by omega
      subst hi
      exact ⟨⟨htw, rfl⟩, trees, hF, rfl, hZ.resolve_right fun h => absurd h.1 (lt_irrefl 0)⟩
  | k + 1, i, s, s', trees, pos, ok, hk, htw, hF, hZ => by
      have hlt : i < trees.length := by omega
      have hltb : i < bases.length := by rw [← hF.same, hF.inv.bases]; exact hlt
      have hbi : bases[i]? = some bases[i] := List.getElem?_eq_getElem hltb
      have hti : trees[i]? = some trees[i] := List.getElem?_eq_getElem hlt
      have hrel := like_trainTree c p ω x label i htw pos
      unfold trainLoop trainLoopOpt
      rcases trainTree_any True c p hlife ω hω (fun _ _ => trivial) x label False bases (fun _ _ _ => Or.inr trivial) k i s' trees pos hF.inv hF.same
        (fun j o b hj hb => (hF.tree j o b hj hb).1) (Or.inr hF.enough) hlt hltb with ⟨-, e, he⟩ | ⟨s1, pos1, r, o1, e1, e2, e3, e4, e5, e6, e7, e8⟩
      · rw [he] at hrel ⊢
        rw [hrel.error_left]
        rfl
      rw [e1] at hrel ⊢
      obtain ⟨⟨sP, posP, rP⟩, hP, htw1, hpe⟩ := hrel.ok_left
      simp only [Prod.mk.injEq] at hpe
      obtain ⟨rfl, rfl⟩ := hpe
      rw [hP]
      simp only at htw1
      -- the new tree
      have ho1 : ∃ t1, o1 = some t1 ∧ onWay x label t1 = t1.recount ∧ (∀ t, trees[i] = some t → ∀ k ∈ leafIds t, k ∈ leafIds t1) ∧
          (trees[i] = none → ∃ a, leafIds t1 = [a] ∧ t1.id = a) := by
        cases ho : trees[i] with
        | none =>
            rw [ho] at e6
            rcases e6 with ⟨a, rfl⟩ | ⟨hf, -⟩
            · exact ⟨_, rfl, rfl, fun t ht => (by cases ht), fun _ => ⟨a, rfl, rfl⟩⟩
            · exact hf.elim
        | some t =>
            rw [ho] at e6
            obtain ⟨t1, rfl, hg⟩ := e6
            rw [if_neg (by rw [hc]; decide)] at hg
            have hfr := hF.right t (by rw [← ho]; exact List.getElem_mem hlt)
            exact ⟨t1, rfl, (hg.fresh hc hfr).1, fun t' ht' => (by cases ht'; exact hg.leaves), fun h => (by cases h)⟩
      obtain ⟨t1, rfl, hway, hleaf, hnew⟩ := ho1
      have hset : (trees.set i (some t1))[i]? = some (some t1) := List.getElem?_set_self hlt
      have hzl : ZeroLeaf (trees.set i (some t1)) := by
        rcases hZ with ⟨j, u, hj, hu⟩ | ⟨-, haz⟩
        · by_cases hij : i = j
          · subst hij
            rw [hti] at hj
            exact ⟨i, t1, hset, hleaf u (Option.some.inj hj) 0 hu⟩
          · exact ⟨j, u, by rw [List.getElem?_set_ne hij]; exact hj, hu⟩
        · refine ⟨i, t1, hset, ?_⟩
          obtain ⟨a, ha, hid⟩ := hnew (haz.none _ (List.getElem_mem hlt))
          have hr0 := trainTree_zero c p ω x label hF.inv haz hlt (by rw [hF.nodes]; exact hm) pos e1
          rw [e2.mem.root hset] at hr0
          have := Option.some.inj (Option.some.inj hr0)
          rw [ha, ← hid, this]
          exact List.mem_singleton.2 rfl
      obtain ⟨s2, u1, u2, u3⟩ := updatePath_spec e2 hset (hzl.not_split e2 hset) x label hway
      rw [List.set_set] at u2
      simp only [bind, Except.bind, u1]
      have hE : Enough s2 (trees.set i (some t1.recount)) (i + 1) k :=
        (e8.resolve_left id).twin u3 (by simp) (by simp) hlt (Nat.lt_succ_self i)
      have hok : ∀ (j : Nat) (o : Option (Tree K F L)) (b : Base), (trees.set i (some t1.recount))[j]? = some o → bases[j]? = some b → TreeOk c b o := by
        intro j o b hj hb
        by_cases hij : i = j
        · subst hij
          rw [List.getElem?_set_self hlt] at hj
          cases hj
          rw [hbi] at hb
          cases hb
          have h1 := e6.ok (hF.tree i _ _ hti hbi)
          have h2 := h1.counted
          unfold counted at h2
          rw [if_neg (by rw [hc]; decide)] at h2
          exact h2
        · rw [List.getElem?_set_ne hij] at hj
          exact hF.tree j o b hj hb
      have hzl2 : ZeroLeaf (trees.set i (some t1.recount)) := by
        obtain ⟨j, u, hj, hu⟩ := hzl
        by_cases hij : i = j
        · subst hij
          rw [hset] at hj
          cases hj
          exact ⟨i, t1.recount, List.getElem?_set_self hlt, by rw [recount_leaves]; exact hu⟩
        · exact ⟨j, u, by rw [List.getElem?_set_ne hij] at hj ⊢; exact hj, hu⟩
      have ih := trainLoop_twin c hc p hlife ω hω x label bases m hm k (i + 1) sP s2 (trees.set i (some t1.recount)) posP (ok && rP) (by rw [List.length_set]; omega)
        (htw1.trans u3) ⟨u2, u3.bases.trans e4, by rw [u3.nodes.1, e3]; exact hF.nodes, hok, hE, fun t ht => by
          rcases List.mem_or_eq_of_mem_set ht with h | h
          · exact hF.right t h
          · cases h
            exact Mondrian.recount_recount t1⟩ (Or.inl hzl2)
      rw [List.length_set] at ih
      exact ih

/-! ### Fading -/

theorem like_walk {A : Type} {nodes nodes' : List (Node K F L)} (h : OnlyCounts nodes nodes') (act : Nat → Node K F L → A → Res A) : ∀ fuel i id depth stack a,
    walk nodes act fuel i id depth stack a = walk nodes' act fuel i id depth stack a := by
  intro fuel
  induction fuel with
  | zero => intros; rfl
  | succ fuel ih =>
      intro i id depth stack a
      cases id with
      | none => rfl
      | some id =>
          unfold walk
          rw [h.1]
          split
          · refine RelR.to_eq ((like_rd h _).bind fun n n' hn => .eq ?_)
            obtain ⟨d, rfl, hd⟩ := hn
            by_cases hdim : n.dim = none
            · have e : ({ n with counts := d } : Node K F L) = n := by rw [hd hdim]
              rw [e]
              simp only [ih]
            · obtain ⟨dim, hdim⟩ := Option.ne_none_iff_exists'.1 hdim
              simp only [hdim, ih]
          · rfl

theorem like_fadeLoop {nodes nodes' : List (Node K F L)} (h : OnlyCounts nodes nodes') : ∀ roots fading, fadeLoop nodes roots fading = fadeLoop nodes' roots fading := by
  intro roots
  induction roots with
  | nil => intros; rfl
  | cons r roots ih =>
      intro fading
      unfold fadeLoop
      rw [h.1, like_walk h fadeLeaf]
      simp only [ih]

theorem like_treeFade {s s' : State K F L} (h : Twin s s') : RelR Twin (treeFade s) (treeFade s') := by
  unfold treeFade
  rw [h.roots, h.fading, like_fadeLoop h.nodes]
  refine (RelR.eq rfl).bind fun f f' hf => ?_
  subst hf
  exact ⟨h.nodes, h.roots, rfl, h.forced, h.bases, h.free, h.last, h.total⟩

/-! ### Histories -/

/-- two objects, the second one with `UNBOUND_OPTIMIZE` -/
structure Pair (c : Config K) (bases : List Base) (m n : Nat) (s s' : State K F L) (trees' : List (Option (Tree K F L))) : Prop where
  twin : Twin s s'
  plain : ∃ trees, Good c False bases m s trees ∧ trees.length = n
  good : Good c False bases m s' trees'
  right : ∀ t, some t ∈ trees' → t.recount = t
  length : trees'.length = n

theorem Pair.start {c : Config K} {bases : List Base} {m n : Nat} {s s' : State K F L} {trees' : List (Option (Tree K F L))} (h : Pair c bases m n s s' trees') :
    Fresh c bases m 0 n s' trees' := by
  refine ⟨h.good.inv, h.good.same, h.good.nodes, h.good.tree, ?_, h.right⟩
  rcases h.good.start with hf | hs | ⟨h1, h2⟩
  · exact hf.elim
  · exact Or.inl hs
  · refine Or.inr ⟨?_, fun j o hj _ => h1 o (List.mem_of_getElem? hj), fun j o _ hj => absurd hj (Nat.not_lt_zero j)⟩
    have hcov := h.good.inv.mem.cover.length_eq
    rw [allIds_none trees' h1] at hcov
    simp only [List.append_nil, List.length_range] at hcov
    rw [hcov, h.good.nodes, ← h.length]
    exact h2

/-- the trees that are used for a prediction are the same -/
theorem Pair.trees {c : Config K} (hc : c.extend ≠ .ghost) {bases : List Base} {m n : Nat} {s s' : State K F L} {trees' : List (Option (Tree K F L))} (h : Pair c bases m n s s' trees')
    {trees : List (Option (Tree K F L))} (hg : Good c False bases m s trees) : trees.map (counted c) = trees' := by
  have hr := hg.inv.mem.all.roots
  have hr' := h.good.inv.mem.all.roots
  rw [h.twin.roots, hr] at hr'
  have hlen : trees.length = trees'.length := by simpa using congrArg List.length hr'
  refine List.ext_getElem? fun j => ?_
  rw [List.getElem?_map]
  cases hj : trees[j]? with
  | none =>
      rw [List.getElem?_eq_none_iff] at hj
      symm
      rw [Option.map_none, List.getElem?_eq_none_iff]
      omega
  | some o =>
      have hlt : j < trees'.length := by rw [← hlen]; exact lt_of_get hj
      have hj' := List.getElem?_eq_getElem hlt
      rw [hj']
      have hjr := congrArg (fun l => l[j]?) hr'
      simp only [List.getElem?_map, hj, hj', Option.map_some] at hjr
      have hjr := Option.some.inj hjr
      simp only [Option.map_some, counted, if_neg hc, Option.some.injEq]
      cases o with
      | none =>
          cases ho' : trees'[j] with
          | none => rfl
          | some t' => rw [ho'] at hjr; cases hjr
      | some t =>
          cases ho' : trees'[j] with
          | none => rw [ho'] at hjr; cases hjr
          | some t' =>
              rw [ho'] at hjr
              have hid := Option.some.inj hjr
              have hm' : some t' ∈ trees' := by rw [← ho']; exact List.getElem_mem hlt
              have := holds_twin h.twin.nodes (hg.inv.mem.all.holds t (List.mem_of_getElem? hj)) (h.good.inv.mem.all.holds t' hm') hid.symm
              rw [h.right t' hm'] at this
              rw [this]
              rfl

/-- a prediction from trees whose counters are right -/
theorem predictOpt_spec (c : Config K) (p : Params K) {s : State K F L} {trees : List (Option (Tree K F L))} (hI : Inv s trees) (x : Fin F → K) (use : Option Nat)
    (h1 : 1 ≤ usedTrees trees.length use) (h2 : usedTrees trees.length use ≤ trees.length) {l : Nat}
    (hl : Mondrian.label p x (trees.take (usedTrees trees.length use)) = .ok l) : predictOpt p s x use = .ok l := by
  have hroots : s.forest.roots = trees.map (fun t => t.map Tree.id) := hI.mem.all.roots
  have hlen : s.forest.roots.length = trees.length := by rw [hroots]; simp
  generalize hk : usedTrees trees.length use = k at h1 h2 hl
  have e := Mondrian.sumLoop_spec p s.forest x (trees.take k) (fun _ => 0) (fun t ht => by
    obtain ⟨j, hj⟩ := List.mem_iff_getElem?.1 (List.mem_of_mem_take ht)
    exact ⟨hI.mem.height_le hj, hI.mem.all.holds t (List.mem_of_mem_take ht)⟩)
  rw [List.map_take, ← hroots] at e
  have htk : (trees.take k).length = k := by rw [List.length_take]; omega
  unfold predictOpt
  unfold Mondrian.label at hl
  cases ht : Mondrian.totals p x (trees.take k) (fun _ => 0) with
  | error err => rw [ht] at hl; cases hl
  | ok sum =>
      rw [ht] at hl e
      simp only [bind, Except.bind, htk] at hl
      rw [if_neg (by omega)] at hl
      have hl' := Except.ok.inj hl
      cases use with
      | none =>
          have hk' : s.forest.roots.length = k := by rw [hlen, ← hk]; rfl
          simp only [hk']
          rw [if_neg (by omega)]
          simp only [e, bind, Except.bind, pure, Except.pure, hl']
      | some k' =>
          have hk' : k' = k := by rw [← hk]; rfl
          subst hk'
          simp only
          rw [if_neg (by omega)]
          simp only [e, bind, Except.bind, pure, Except.pure, hl']

/-- the same prediction -/
theorem Pair.predict {c : Config K} (hc : c.extend ≠ .ghost) {p : Params K} (h0 : p.exp 0 = 1) (hd : 0 ≤ p.discount) {bases : List Base} {m n : Nat} {s s' : State K F L}
    {trees' : List (Option (Tree K F L))} (h : Pair c bases m n s s' trees') (x : Fin F → K) (use : Option Nat) (h1 : 1 ≤ usedTrees n use) (h2 : usedTrees n use ≤ n) :
    ∃ s1 l, Coarse.predict c p s x use = .ok (s1, l) ∧ predictOpt p s' x use = .ok l ∧ Twin s s1 := by
  obtain ⟨trees, hg, hn⟩ := h.plain
  subst hn
  obtain ⟨nodes', l, a1, -, a3, -, -, a6⟩ := predict_spec c p h0 hd s trees hg.inv (fun t ht => by
    obtain ⟨j, hj⟩ := List.mem_iff_getElem?.1 ht
    obtain ⟨b, hb, -⟩ := hg.base (lt_of_get hj)
    exact (hg.tree j _ b hj hb).2 t rfl) x use h1 h2
  refine ⟨_, l, a1, ?_, ⟨a3, rfl, rfl, rfl, rfl, rfl, rfl, rfl⟩⟩
  rw [h.trees hc hg] at a6
  refine predictOpt_spec c p h.good.inv x use ?_ ?_ ?_
  · rw [h.length]; exact h1
  · rw [h.length]; exact h2
  · rw [h.length]; exact a6

/-- no other object uses the static variable of `available_node` before the first call of `train` -/
def Calm : List (Op K F L) → Prop
  | [] => True
  | .train _ _ :: _ => True
  | .other _ :: _ => False
  | .predict _ _ :: ops => Calm ops
  | .trim :: ops => Calm ops
  | .fade :: ops => Calm ops

/-- what the two objects have in common after a call, when `ops` is to come -/
def PairRel (c : Config K) (bases : List Base) (m n : Nat) (ops : List (Op K F L)) (a b : State K F L × Nat) : Prop :=
  a.2 = b.2 ∧ ∃ trees', Pair c bases m n a.1 b.1 trees' ∧ (ZeroLeaf trees' ∨ (AtZero b.1 trees' ∧ Calm ops))

theorem Fresh.good {c : Config K} {bases : List Base} {m n : Nat} {s : State K F L} {trees : List (Option (Tree K F L))} (h : Fresh c bases m n 0 s trees)
    (hn : trees.length = n) : Good c False bases m s trees := by
  refine ⟨h.inv, h.same, h.nodes, h.tree, Or.inr (Or.inl fun o ho => ?_)⟩
  rcases h.enough with h | ⟨-, -, h3⟩
  · exact h o ho
  · obtain ⟨j, hj⟩ := List.mem_iff_getElem?.1 ho
    exact h3 j o hj (by rw [← hn]; exact lt_of_get hj)

theorem Good.total {c : Config K} {few : Prop} {bases : List Base} {m : Nat} {s : State K F L} {trees : List (Option (Tree K F L))} (h : Good c few bases m s trees) (k : Nat) :
    Good c few bases m { s with total := k } trees := ⟨⟨h.inv.mem, h.inv.free, h.inv.fading, h.inv.forced, h.inv.scores, h.inv.bases⟩, h.same, h.nodes, h.tree, h.start⟩

/-- `train` of the two objects -/
theorem train_twin (c : Config K) (hc : c.extend = .original) (ht : c.trim = .none) (p : Params K) (hlife : 0 ≤ p.lifetime)
    (ω : Nat → K) (hω : ∀ i, 0 ≤ ω i ∧ ω i < 1) (bases : List Base) (m n : Nat) (hm : 0 < m) (hn : 0 < n)
    (x : Fin F → K) (label : Fin L) {s s' : State K F L} {trees' : List (Option (Tree K F L))} (h : Pair c bases m n s s' trees')
    (hz : ZeroLeaf trees' ∨ AtZero s' trees') (pos : Nat) :
    RelR (fun a b => a.2 = b.2 ∧ ∃ trees', Pair c bases m n a.1 b.1 trees' ∧ ZeroLeaf trees') (train c p ω x label s pos) (trainOpt c p ω x label s' pos) := by
  obtain ⟨trees, hg, hlen⟩ := h.plain
  have hr : s.forest.roots.length = n := by rw [hg.inv.mem.all.roots, List.length_map, hlen]
  have hr' : s'.forest.roots.length = n := by rw [h.twin.roots, hr]
  have hloop := trainLoop_twin c hc p hlife ω hω x label bases m hm n 0 s s' trees' pos true (by rw [h.length]; omega) h.twin h.start
    (hz.imp_right fun h => ⟨hn, h⟩)
  have hspec := train_spec True c p hlife ω hω (fun _ _ => trivial) x label False bases (fun _ _ _ => Or.inr trivial) m s trees pos hg
  have e1 : train c p ω x label s pos = (do
      let (s, pos, ok) ← trainLoop c p ω x label 0 n s pos true
      return ({ s with total := s.total + 1 }, pos, ok)) := by
    unfold train
    rw [if_neg (by rw [ht]; decide), ← hr]
    simp only [bind, Except.bind]
    rw [if_neg (fun h => h.1 ht)]
  have e2 : trainOpt c p ω x label s' pos = (do
      let (s, pos, ok) ← trainLoopOpt c p ω x label 0 n s' pos true
      return ({ s with total := s.total + 1 }, pos, ok)) := by
    unfold trainOpt
    rw [if_neg (by rw [ht]; decide), ← hr']
    simp only [bind, Except.bind]
    rw [if_neg (fun h => h.1 ht)]
  rw [h.length] at hloop
  rw [e1] at hspec ⊢
  rw [e2]
  cases hl : trainLoop c p ω x label 0 n s pos true with
  | error e =>
      rw [hl] at hloop
      cases hl' : trainLoopOpt c p ω x label 0 n s' pos true with
      | error e' =>
          rw [hl'] at hloop
          exact hloop
      | ok b => rw [hl'] at hloop; exact hloop.elim
  | ok a =>
      rw [hl] at hloop
      cases hl' : trainLoopOpt c p ω x label 0 n s' pos true with
      | error e' => rw [hl'] at hloop; exact hloop.elim
      | ok b =>
          rw [hl'] at hloop
          obtain ⟨a1, a2⟩ := a
          obtain ⟨b1, b2⟩ := b
          obtain ⟨⟨t1, t2⟩, trees1, f1, f2, f3⟩ := hloop
          simp only at t1 t2 f1
          subst t2
          rw [hl] at hspec
          rcases hspec with ⟨-, e, he⟩ | ⟨s1, pos1, r, treesP, g1, g2, g3, g4, -⟩
          · cases he
          · have g1' := Except.ok.inj g1
            simp only [Prod.mk.injEq] at g1'
            refine ⟨rfl, trees1, ⟨⟨t1.nodes, t1.roots, t1.fading, t1.forced, t1.bases, t1.free, t1.last, by simp only [t1.total]⟩, ⟨treesP, ?_, g4.trans hlen⟩,
              (f1.good f2).total _, f1.right, f2⟩, f3⟩
            simp only
            rw [g1'.1]
            exact g2

/-- a call for the two objects -/
theorem exec_twin (c : Config K) (hc : c.extend = .original) (ht : c.trim = .none) (p : Params K) (h0 : p.exp 0 = 1) (hd : 0 ≤ p.discount) (hlife : 0 ≤ p.lifetime)
    (ω : Nat → K) (hω : ∀ i, 0 ≤ ω i ∧ ω i < 1) (bases : List Base) (m n : Nat) (hm : 0 < m) (hn : 0 < n)
    (op : Op K F L) (ops : List (Op K F L)) {s s' : State K F L} {trees' : List (Option (Tree K F L))} (h : Pair c bases m n s s' trees')
    (hz : ZeroLeaf trees' ∨ (AtZero s' trees' ∧ Calm (op :: ops))) (hv : Valid n op) (pos : Nat) :
    RelR (PairRel c bases m n ops) (exec c p ω op s pos) (execOpt c p ω op s' pos) := by
  obtain ⟨trees, hg, hlen⟩ := h.plain
  have hspec := exec_spec True c p h0 hd hlife ω hω (fun _ _ => trivial) False bases (fun _ _ _ => Or.inr trivial) m op s trees pos hg (by rw [hlen]; exact hv)
  cases op with
  | train x label =>
      refine (train_twin c hc ht p hlife ω hω bases m n hm hn x label h (hz.imp_right fun h => h.1) pos).bind fun a b hab => ?_
      obtain ⟨a1, a2, a3⟩ := a
      obtain ⟨b1, b2, b3⟩ := b
      obtain ⟨e1, e2⟩ := hab
      simp only [Prod.mk.injEq] at e1
      obtain ⟨trees1, e2, e3⟩ := e2
      exact ⟨e1.1, trees1, e2, Or.inl e3⟩
  | predict x use =>
      obtain ⟨s1, l, e1, e2, e3⟩ := h.predict (by rw [hc]; decide) h0 hd x use hv.1 hv.2
      unfold exec at hspec ⊢
      unfold execOpt
      simp only [e1, e2, bind, Except.bind, pure, Except.pure] at hspec ⊢
      rcases hspec with ⟨-, e, he⟩ | ⟨s2, pos1, treesP, g1, g2, g3, -⟩
      · cases he
      · cases g1
        exact ⟨rfl, trees', ⟨e3.symm.trans h.twin, ⟨treesP, g2, g3.trans hlen⟩, h.good, h.right, h.length⟩, hz⟩
  | trim =>
      unfold exec execOpt treeTrim
      rw [if_pos ht, if_pos ht]
      exact ⟨rfl, trees', h, hz⟩
  | fade =>
      have hrel := like_treeFade h.twin
      obtain ⟨f, d1, d2⟩ := treeFade_spec s' trees' h.good.inv
      unfold exec at hspec ⊢
      unfold execOpt
      rw [d1] at hrel ⊢
      obtain ⟨s1, q1, q2⟩ := hrel.ok_left
      rw [q1] at hspec ⊢
      rcases hspec with ⟨-, e, he⟩ | ⟨s2, pos1, treesP, g1, g2, g3, -⟩
      · cases he
      · cases g1
        exact ⟨rfl, trees', ⟨q2, ⟨treesP, g2, g3.trans hlen⟩, ⟨d2, h.good.same, h.good.nodes, h.good.tree, h.good.start⟩, h.right, h.length⟩,
          hz.imp_right fun h => ⟨⟨h.1.none, h.1.last⟩, h.2⟩⟩
  | other last =>
      refine ⟨rfl, trees', ⟨⟨h.twin.nodes, h.twin.roots, h.twin.fading, h.twin.forced, h.twin.bases, h.twin.free, rfl, h.twin.total⟩, ⟨trees, ?_, hlen⟩, ?_, h.right, h.length⟩,
        hz.imp_right fun h => h.2.elim⟩
      · exact ⟨⟨hg.inv.mem, hg.inv.free, hg.inv.fading, hg.inv.forced, hg.inv.scores, hg.inv.bases⟩, hg.same, hg.nodes, hg.tree, hg.start⟩
      · exact ⟨⟨h.good.inv.mem, h.good.inv.free, h.good.inv.fading, h.good.inv.forced, h.good.inv.scores, h.good.inv.bases⟩, h.good.same, h.good.nodes, h.good.tree,
          h.good.start⟩

theorem run_twin (c : Config K) (hc : c.extend = .original) (ht : c.trim = .none) (p : Params K) (h0 : p.exp 0 = 1) (hd : 0 ≤ p.discount) (hlife : 0 ≤ p.lifetime)
    (ω : Nat → K) (hω : ∀ i, 0 ≤ ω i ∧ ω i < 1) (bases : List Base) (m n : Nat) (hm : 0 < m) (hn : 0 < n) : ∀ (ops : List (Op K F L)) {s s' : State K F L}
    {trees' : List (Option (Tree K F L))}, Pair c bases m n s s' trees' → (ZeroLeaf trees' ∨ (AtZero s' trees' ∧ Calm ops)) → (∀ op ∈ ops, Valid n op) → ∀ pos,
    RelR (PairRel c bases m n []) (run c p ω ops s pos) (runOpt c p ω ops s' pos)
  | [], s, s', trees', h, hz, hv, pos => ⟨rfl, trees', h, hz⟩
  | op :: ops, s, s', trees', h, hz, hv, pos => by
      unfold run runOpt
      refine (exec_twin c hc ht p h0 hd hlife ω hω bases m n hm hn op ops h hz (hv op (List.mem_cons_self ..)) pos).bind fun a b hab => ?_
      obtain ⟨s1, pos1⟩ := a
      obtain ⟨s1', pos1'⟩ := b
      obtain ⟨e1, trees1, e2, e3⟩ := hab
      simp only at e1
      subst e1
      exact run_twin c hc ht p h0 hd hlife ω hω bases m n hm hn ops e2 e3 (fun o ho => hv o (List.mem_cons_of_mem _ ho)) pos1

end Orp.Coarse
