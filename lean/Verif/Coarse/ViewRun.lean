import Verif.Coarse.ViewTrim
import Verif.Coarse.History

/-!
Two forests that differ in the places of their nodes, in the units and the origin of the features and in the names of the labels: training, prediction and
histories of calls.
-/

set_option linter.unusedSectionVars false

namespace Orp.Coarse

open Finset
open Mondrian (Node Box Forest Params Cut upd init extent cutAt bump sampleBlock Tree Data Frame plug ctxPar ctxTau ctxIds HoldsCtx Holds Ready avail mem_avail
  avail_nodup avail_used upd_spec lt_of_get newLeaf holds_plug plug_ids holds_root id_mem_ids holds_mem relinked set_same oids allIds allIds_split Change recountAll OnlyCounts)

variable {K : Type} [Field K] [LinearOrder K] [IsStrictOrderedRing K] [FloorRing K] {F L : Nat} {u : Change K F L} {π : Nat → Nat}

/-- the result of a call in both forests -/
def Alike (u : Change K F L) (r r' : State K F L × Nat) : Prop := r'.2 = r.2 ∧ ∃ π trees, Couple u π r.1 r'.1 trees

def SameB (u : Change K F L) (r r' : State K F L × Nat × Bool) : Prop := r'.2 = r.2 ∧ ∃ π trees, Couple u π r.1 r'.1 trees

/-! ### Training -/

theorem trainTree_fading (c : Config K) (p : Params K) (ω : Nat → K) (x : Fin F → K) (label : Fin L) (i pos : Nat) {s : State K F L} (h : s.forest.roots[i]? = some none)
    {s1 : State K F L} {r : Nat × Bool} (e : trainTree c p ω x label i s pos = .ok (s1, r)) : s1.fading = s.fading := by
  unfold trainTree at e
  simp only [rd_eq_ok_iff.2 h, takeNode, bind, Except.bind, pure, Except.pure] at e
  cases ha : availableNode s with
  | error err => simp only [ha] at e; cases e
  | ok o =>
      simp only [ha] at e
      cases o with
      | none =>
          simp only [Except.ok.injEq, Prod.mk.injEq] at e
          rw [← e.1]
      | some a =>
          simp only at e
          cases h1 : wr s.forest.roots i (some a) with
          | error err => simp only [h1] at e; cases e
          | ok roots =>
              simp only [h1] at e
              cases h2 : upd s.forest.nodes a (fun (n : Node K F L) => { n with
                parent := none
                right := none
                left := none
                tau := 0 }) with
              | error err => simp only [h2] at e; cases e
              | ok nodes =>
                  simp only [h2] at e
                  cases h3 : sampleBlock p nodes a x label with
                  | error err => simp only [h3] at e; cases e
                  | ok nodes' =>
                      simp only [h3, Except.ok.injEq, Prod.mk.injEq] at e
                      rw [← e.1]

theorem Couple.of_avail {s s' : State K F L} {trees : List (Option (Tree K F L))} (h : Couple u π s s' trees) :
    (∀ k, k < s.forest.nodes.length → k ∉ allIds trees → k ∈ Mondrian.avail s.forest.nodes) ∧
    (∀ k, k < s'.forest.nodes.length → k ∉ (allIds trees).map π → k ∈ Mondrian.avail s'.forest.nodes) := by
  constructor
  · intro k h1 h2
    have := h.l.mem.cover.mem_iff.2 (List.mem_range.2 h1)
    simp only [List.nil_append, List.mem_append] at this
    exact this.resolve_right h2
  · intro k h1 h2
    have := h.r.mem.cover.mem_iff.2 (List.mem_range.2 h1)
    simp only [List.nil_append, List.mem_append, seenAll_ids] at this
    exact this.resolve_right h2

theorem trainTree_seen (ha : 0 < u.a) (c : Config K) (p : Params K) (hlife : 0 ≤ p.lifetime) (ω : Nat → K) (hω : ∀ i, 0 ≤ ω i ∧ ω i < 1) (x : Fin F → K) (label : Fin L)
    {s s' : State K F L} {trees : List (Option (Tree K F L))} (h : Couple u π s s' trees) {i : Nat} (hi : i < trees.length) (pos : Nat) :
    RelR (fun r r' => r'.2 = r.2 ∧ ∃ π1 o1, Couple u π1 r.1 r'.1 (trees.set i o1)) (trainTree c p ω x label i s pos)
      (trainTree c (u.par p) ω (u.pt x) (u.σ label) i s' pos) := by
  obtain ⟨o, ho⟩ : ∃ o, trees[i]? = some o := ⟨_, List.getElem?_eq_getElem hi⟩
  have ho' := seenAll_get (u := u) (π := π) ho
  have hroot := h.l.mem.root ho
  have hroot' := h.r.mem.root ho'
  have hlife' : 0 ≤ (u.par p).lifetime := div_nonneg hlife ha.le
  cases o with
  | none =>
      rw [Option.map_none] at hroot ho'
      rw [Option.map_none, Option.map_none] at hroot'
      have hav := h.avail
      rcases trainTree_none c p hlife ω x label s trees h.l i pos ho with ⟨a0, a1⟩ | ⟨s1, a, a1, a2, a3, a4, a5, a6⟩
      · rcases trainTree_none c (u.par p) hlife' ω (u.pt x) (u.σ label) s' _ h.r i pos ho' with ⟨-, b1⟩ | ⟨s1', b, b1, b2, b3, b4, b5, b6⟩
        · rw [a1, b1]
          exact ⟨rfl, π, none, by rw [set_same ho]; exact h⟩
        · rw [a0] at hav
          simp only [List.length_nil] at hav
          omega
      · rcases trainTree_none c (u.par p) hlife' ω (u.pt x) (u.σ label) s' _ h.r i pos ho' with ⟨b0, -⟩ | ⟨s1', b, b1, b2, b3, b4, b5, b6⟩
        · rw [b0] at hav
          simp only [List.length_nil] at hav
          omega
        · have fa := trainTree_fading c p ω x label i pos hroot a1
          have fb := trainTree_fading c (u.par p) ω (u.pt x) (u.σ label) i pos hroot' b1
          rw [a1, b1]
          obtain ⟨rest, p1, p2, -⟩ := allIds_split trees i none ho
          obtain ⟨rest', p1', p2', -⟩ := allIds_split (seenAll u π trees) i none ho'
          simp only [oids, List.nil_append] at p1 p1'
          have hav0 := h.of_avail
          -- the new places were available
          have hma : a ∈ Mondrian.avail s.forest.nodes := by
            refine hav0.1 a ?_ (fun h' => ?_)
            · rw [← a3]
              exact a2.mem.ids_lt ((p2 _).mem_iff.2 (List.mem_append_left _ (by simp [oids, newLeaf, Tree.ids])))
            · have hnd := (p2 _).nodup_iff.1 a2.mem.all.nodup
              exact (List.nodup_append'.1 hnd).2.2 (by simp [oids, newLeaf, Tree.ids]) (p1.mem_iff.1 h')
          have hmb : b ∈ Mondrian.avail s'.forest.nodes := by
            refine hav0.2 b ?_ (fun h' => ?_)
            · rw [← b3]
              exact b2.mem.ids_lt ((p2' _).mem_iff.2 (List.mem_append_left _ (by simp [oids, newLeaf, Tree.ids])))
            · have hnd := (p2' _).nodup_iff.1 b2.mem.all.nodup
              rw [← seenAll_ids (u := u)] at h'
              exact (List.nodup_append'.1 hnd).2.2 (by simp [oids, newLeaf, Tree.ids]) (p1'.mem_iff.1 h')
          have hs : ∀ k ∈ Mondrian.avail s1.forest.nodes, k ∈ Mondrian.avail s.forest.nodes := by
            intro k hk
            refine hav0.1 k ?_ (fun h' => ?_)
            · obtain ⟨n, e, -⟩ := mem_avail.1 hk
              rw [← a3]; exact lt_of_get e
            · exact a2.mem.used ((p2 _).mem_iff.2 (List.mem_append_right _ (p1.mem_iff.1 h'))) hk
          have hs' : ∀ k ∈ Mondrian.avail s1'.forest.nodes, k ∈ Mondrian.avail s'.forest.nodes := by
            intro k hk
            refine hav0.2 k ?_ (fun h' => ?_)
            · obtain ⟨n, e, -⟩ := mem_avail.1 hk
              rw [← b3]; exact lt_of_get e
            · rw [← seenAll_ids (u := u)] at h'
              exact b2.mem.used ((p2' _).mem_iff.2 (List.mem_append_right _ (p1'.mem_iff.1 h'))) hk
          refine ⟨rfl, fun k => if k = a then b else π k, some (newLeaf p.lifetime a x label), h.set ho (fun k hk => ?_) a2 ?_ a3 b3 a4 b4 a5 b5 (fun k _ _ => by rw [fa])
            (fun k _ _ => by rw [fb]) (fun k hk => by rw [fa]; exact h.zl k (hs k hk)) (fun k hk => by rw [fb]; exact h.zr k (hs' k hk)) (fun k hk => ?_)⟩
          · exact if_neg (fun e => hk (by rw [e]; exact hma))
          · have : (some (newLeaf p.lifetime a x label)).map (seen u (fun k => if k = a then b else π k)) =
                some (newLeaf (u.par p).lifetime b (u.pt x) (u.σ label)) := by
              rw [Option.map_some, seen_newLeaf, if_pos rfl]
              rfl
            rw [this]
            exact b2
          · have hk' : k = a := by simpa [oids, newLeaf, Tree.ids] using hk
            subst hk'
            simp only [if_true]
            rw [fa, fb, h.zl k hma, h.zr b hmb]
  | some t =>
      rw [Option.map_some] at hroot
      rw [Option.map_some, Option.map_some] at hroot'
      unfold trainTree
      simp only [rd_eq_ok_iff.2 hroot, rd_eq_ok_iff.2 hroot', bind, Except.bind, pure, Except.pure]
      by_cases hc : c.extend = .none
      · rw [if_pos hc, if_pos hc]
        exact ⟨by rw [h.free], π, some t, by rw [set_same ho]; exact h⟩
      · rw [if_neg hc, if_neg hc, h.size]
        have hE := extendBlock_seen ha c p hlife ω hω x label i s.forest.nodes.length t [] π pos s s' (h.both ho)
        revert hE
        cases extendBlock c p ω x label i s.forest.nodes.length t.id pos s with
        | error e =>
            cases extendBlock c (u.par p) ω (u.pt x) (u.σ label) i s.forest.nodes.length (seen u π t).id pos s' with
            | error e' => exact fun h => h
            | ok q' => exact fun h => h.elim
        | ok q =>
            cases extendBlock c (u.par p) ω (u.pt x) (u.σ label) i s.forest.nodes.length (seen u π t).id pos s' with
            | error e' => exact fun h => h.elim
            | ok q' =>
                rintro ⟨e1, π1, t1, m⟩
                have m' : Moved u π π1 s s' q.1 q'.1 i t t1 := m
                exact ⟨by simp only [e1], π1, some t1, h.moved ho m'⟩

theorem trainLoop_seen (ha : 0 < u.a) (c : Config K) (p : Params K) (hlife : 0 ≤ p.lifetime) (ω : Nat → K) (hω : ∀ i, 0 ≤ ω i ∧ ω i < 1) (x : Fin F → K) (label : Fin L) :
    ∀ (k i : Nat) (π : Nat → Nat) (s s' : State K F L) (trees : List (Option (Tree K F L))) (pos : Nat) (ok : Bool), i + k = trees.length → Couple u π s s' trees →
      RelR (SameB u) (trainLoop c p ω x label i k s pos ok) (trainLoop c (u.par p) ω (u.pt x) (u.σ label) i k s' pos ok)
  | 0, i, π, s, s', trees, pos, ok, _, h => ⟨rfl, π, trees, h⟩
  | k + 1, i, π, s, s', trees, pos, ok, hk, h => by
      rw [trainLoop, trainLoop]
      refine RelR.bind (trainTree_seen ha c p hlife ω hω x label h (i := i) (by omega) pos) ?_
      rintro ⟨s1, pos1, b⟩ ⟨s1', pos1', b'⟩ ⟨e, π1, o1, h1⟩
      simp only [Prod.mk.injEq] at e
      obtain ⟨rfl, rfl⟩ := e
      exact trainLoop_seen ha c p hlife ω hω x label k (i + 1) π1 s1 s1' _ _ _ (by rw [List.length_set]; omega) h1

theorem train_seen (ha : 0 < u.a) (c : Config K) (p : Params K) (hlife : 0 ≤ p.lifetime) (ω : Nat → K) (hω : ∀ i, 0 ≤ ω i ∧ ω i < 1) (x : Fin F → K) (label : Fin L)
    {s s' : State K F L} {trees : List (Option (Tree K F L))} (h : Couple u π s s' trees) (pos : Nat) :
    RelR (SameB u) (train c p ω x label s pos) (train c (u.par p) ω (u.pt x) (u.σ label) s' pos) := by
  obtain ⟨s1, s1', e1, e2, h1⟩ : ∃ s1 s1', (if c.trim = .fading then treeFade s else .ok s : Res (State K F L)) = .ok s1 ∧
      (if c.trim = .fading then treeFade s' else .ok s' : Res (State K F L)) = .ok s1' ∧ Couple u π s1 s1' trees := by
    by_cases hc : c.trim = .fading
    · rw [if_pos hc, if_pos hc]; exact treeFade_seen h
    · rw [if_neg hc, if_neg hc]; exact ⟨s, s', rfl, rfl, h⟩
  obtain ⟨s2, s2', pos2, trees2, f1, f2, h2⟩ : ∃ s2 s2' pos2 trees2,
      (if c.trim ≠ .none ∧ s1.free ≤ 1 ∧ s1.total % 100 = 0 then treeTrim c ω s1 pos else .ok (s1, pos) : Res (State K F L × Nat)) = .ok (s2, pos2) ∧
      (if c.trim ≠ .none ∧ s1'.free ≤ 1 ∧ s1'.total % 100 = 0 then treeTrim c ω s1' pos else .ok (s1', pos) : Res (State K F L × Nat)) = .ok (s2', pos2) ∧
      Couple u π s2 s2' trees2 := by
    rw [h1.free, h1.total]
    by_cases hc : c.trim ≠ .none ∧ s1.free ≤ 1 ∧ s1.total % 100 = 0
    · rw [if_pos hc, if_pos hc]; exact treeTrim_seen c ω hω h1 pos
    · rw [if_neg hc, if_neg hc]; exact ⟨s1, s1', pos, trees, rfl, rfl, h1⟩
  unfold train
  simp only [e1, e2, bind, Except.bind, pure, Except.pure, f1, f2]
  rw [h2.roots.1, h2.roots.2]
  have hL := trainLoop_seen ha c p hlife ω hω x label trees2.length 0 π s2 s2' trees2 pos2 true (by omega) h2
  revert hL
  cases trainLoop c p ω x label 0 trees2.length s2 pos2 true with
  | error e =>
      cases trainLoop c (u.par p) ω (u.pt x) (u.σ label) 0 trees2.length s2' pos2 true with
      | error e' => exact fun h => h
      | ok q' => exact fun h => h.elim
  | ok q =>
      cases trainLoop c (u.par p) ω (u.pt x) (u.σ label) 0 trees2.length s2' pos2 true with
      | error e' => exact fun h => h.elim
      | ok q' =>
          rintro ⟨e, π3, trees3, h3⟩
          refine ⟨?_, π3, trees3, ?_⟩
          · simp only [e]
          · exact ⟨⟨h3.l.mem, h3.l.free, h3.l.fading, h3.l.forced, h3.l.scores, h3.l.bases⟩, ⟨h3.r.mem, h3.r.free, h3.r.fading, h3.r.forced, h3.r.scores, h3.r.bases⟩,
              h3.size, h3.bases, by show _ + 1 = _ + 1; rw [h3.total], h3.zl, h3.zr, h3.fading⟩

/-! ### Prediction -/

/-- the sum of the votes of the first `k` trees, from which `predict` takes the label -/
def ballot (c : Config K) (p : Params K) (s : State K F L) (x : Fin F → K) (k : Nat) : Res (Fin L → K) := do
  let nodes ← (if c.extend = .ghost then .ok s.forest.nodes
    else Mondrian.updateCounts s.forest.nodes.length s.forest.roots s.forest.nodes : Res (List (Node K F L)))
  Mondrian.sumLoop p { s.forest with nodes := nodes } x (s.forest.roots.take k) (fun _ => 0)

theorem seen_tree : ∀ t : Tree K F L, (seen u π t).anon = (u.tree t).anon
  | .leaf _ _ => rfl
  | .node _ _ _ _ l r => by simp only [seen, Change.tree, Tree.anon, seen_tree l, seen_tree r]

theorem seen_recount : ∀ t : Tree K F L, (seen u π t).recount = seen u π t.recount
  | .leaf _ _ => rfl
  | .node id d dim sp l r => by
      simp only [seen, Tree.recount, seen_recount l, seen_recount r, seen_data]
      rfl

theorem seenAll_counted (c : Config K) (trees : List (Option (Tree K F L))) : (seenAll u π trees).map (counted c) = seenAll u π (trees.map (counted c)) := by
  simp only [seenAll, List.map_map]
  refine List.map_congr_left fun o _ => ?_
  simp only [Function.comp, counted]
  split
  · rfl
  · cases o with
    | none => rfl
    | some t => simp only [Option.map_some, seen_recount]

theorem totals_seen (ha : 0 < u.a) (p : Params K) (x : Fin F → K) : ∀ (ts : List (Option (Tree K F L))) (acc : Fin L → K),
    Mondrian.totals (u.par p) (u.pt x) (seenAll u π ts) (u.fn acc) = (Mondrian.totals p x ts acc).map u.fn := by
  have key : ∀ (ts : List (Option (Tree K F L))) (acc : Fin L → K), Mondrian.totals (u.par p) (u.pt x) (seenAll u π ts) acc = Mondrian.totals (u.par p) (u.pt x) (u.trees ts) acc := by
    intro ts
    induction ts with
    | nil => intro acc; rfl
    | cons o os ih =>
        intro acc
        have e : Mondrian.treeScores (u.par p) (u.pt x) (o.map (seen u π)) = Mondrian.treeScores (u.par p) (u.pt x) (o.map u.tree) := by
          cases o with
          | none => rfl
          | some t =>
              simp only [Option.map_some, Mondrian.treeScores]
              rw [← Mondrian.scores_anon, seen_tree, Mondrian.scores_anon]
        show Mondrian.totals _ _ (o.map (seen u π) :: seenAll u π os) acc = Mondrian.totals _ _ (o.map u.tree :: u.trees os) acc
        simp only [Mondrian.totals, e, bind, Except.bind]
        cases Mondrian.treeScores (u.par p) (u.pt x) (o.map u.tree) with
        | error e => rfl
        | ok q => exact ih _
  intro ts acc
  rw [key]
  exact Mondrian.totals_change ha p x ts acc

/-- `predict` in terms of the trees -/
theorem predict_trees (c : Config K) (p : Params K) {s : State K F L} {trees : List (Option (Tree K F L))} (hI : Inv s trees) :
    ∃ nodes', OnlyCounts s.forest.nodes nodes' ∧ Inv { s with forest := { s.forest with nodes := nodes' } } (trees.map (counted c)) ∧
      (∀ x k, ballot c p s x k = Mondrian.totals p x ((trees.map (counted c)).take k) (fun _ => 0)) ∧
      ∀ x use, predict c p s x use = if trees.length < usedTrees trees.length use ∨ usedTrees trees.length use = 0 then .error .ub else
        (Mondrian.totals p x ((trees.map (counted c)).take (usedTrees trees.length use)) (fun _ => 0)).map
          (fun v => ({ s with forest := { s.forest with nodes := nodes' } }, Utils.indexMax (List.ofFn (fun i => v i / (usedTrees trees.length use : K))))) := by
  obtain ⟨nodes', a1, a2, a3⟩ : ∃ nodes', (if c.extend = .ghost then .ok s.forest.nodes
      else Mondrian.updateCounts s.forest.nodes.length s.forest.roots s.forest.nodes : Res (List (Node K F L))) = .ok nodes' ∧
      Mondrian.Inv { s.forest with nodes := nodes' } (trees.map (counted c)) [] ∧ OnlyCounts s.forest.nodes nodes' := by
    by_cases hg : c.extend = .ghost
    · refine ⟨_, if_pos hg, ?_, .refl _⟩
      have : trees.map (counted c) = trees := by
        conv_rhs => rw [← List.map_id trees]
        refine List.map_congr_left fun o _ => ?_
        unfold counted
        rw [if_pos hg]; rfl
      rw [this]
      exact hI.mem
    · obtain ⟨nodes', b1, b2, b3, b4⟩ := hI.mem.recount
      refine ⟨nodes', by rw [if_neg hg]; exact b1, ?_, b3⟩
      have : trees.map (counted c) = recountAll trees := by
        refine List.map_congr_left fun o _ => ?_
        unfold counted
        rw [if_neg hg]
      rw [this]
      exact b2
  have hroots : s.forest.roots = (trees.map (counted c)).map (fun t => t.map Tree.id) := a2.all.roots
  have hlen : s.forest.roots.length = trees.length := by rw [hroots]; simp
  have e : ∀ x k, Mondrian.sumLoop p { s.forest with nodes := nodes' } x (s.forest.roots.take k) (fun _ => 0) =
      Mondrian.totals p x ((trees.map (counted c)).take k) (fun _ => 0) := by
    intro x k
    have e := Mondrian.sumLoop_spec p { s.forest with nodes := nodes' } x ((trees.map (counted c)).take k) (fun _ => 0) (fun t ht => by
      obtain ⟨j, hj⟩ := List.mem_iff_getElem?.1 (List.mem_of_mem_take ht)
      exact ⟨a2.height_le hj, a2.all.holds t (List.mem_of_mem_take ht)⟩)
    rw [List.map_take, ← hroots] at e
    exact e
  refine ⟨nodes', a3, ⟨a2, ?_, ?_, ?_, hI.scores, ?_⟩, fun x k => ?_, fun x use => ?_⟩
  · show s.free = ((avail nodes').length : Int)
    rw [a3.avail]; exact hI.free
  · show s.fading.length = nodes'.length
    rw [a3.1]; exact hI.fading
  · show s.forced.length = nodes'.length
    rw [a3.1]; exact hI.forced
  · show s.bases.length = _
    rw [List.length_map]; exact hI.bases
  · unfold ballot
    simp only [a1, bind, Except.bind]
    exact e x k
  · unfold predict
    simp only [a1, bind, Except.bind, hlen]
    cases use with
    | none =>
        by_cases hk : trees.length < usedTrees trees.length none ∨ usedTrees trees.length none = 0
        · rw [if_pos hk]
          exact if_pos hk
        · rw [if_neg hk]
          refine (if_neg hk).trans ?_
          simp only [usedTrees, e]
          cases Mondrian.totals p x ((trees.map (counted c)).take trees.length) (fun _ => 0) <;> rfl
    | some k =>
        by_cases hk : trees.length < usedTrees trees.length (some k) ∨ usedTrees trees.length (some k) = 0
        · rw [if_pos hk]
          exact if_pos hk
        · rw [if_neg hk]
          refine (if_neg hk).trans ?_
          simp only [usedTrees, e]
          cases Mondrian.totals p x ((trees.map (counted c)).take k) (fun _ => 0) <;> rfl

theorem Couple.ballot (ha : 0 < u.a) (c : Config K) (p : Params K) {s s' : State K F L} {trees : List (Option (Tree K F L))} (h : Couple u π s s' trees) (x : Fin F → K) (k : Nat) :
    Coarse.ballot c (u.par p) s' (u.pt x) k = (Coarse.ballot c p s x k).map u.fn := by
  obtain ⟨-, -, -, a3, -⟩ := predict_trees c p h.l
  obtain ⟨-, -, -, b3, -⟩ := predict_trees c (u.par p) h.r
  rw [a3, b3, seenAll_counted]
  have : (seenAll u π (trees.map (counted c))).take k = seenAll u π ((trees.map (counted c)).take k) := by simp only [seenAll, List.map_take]
  rw [this]
  exact totals_seen ha p x _ (fun _ => 0)

theorem seenAll_length (trees : List (Option (Tree K F L))) : (seenAll u π trees).length = trees.length := by simp [seenAll]

theorem predict_seen (ha : 0 < u.a) (c : Config K) (p : Params K) {s s' : State K F L} {trees : List (Option (Tree K F L))} (h : Couple u π s s' trees) (x : Fin F → K)
    (use : Option Nat) : RelR (fun r r' => Couple u π r.1 r'.1 (trees.map (counted c))) (predict c p s x use) (predict c (u.par p) s' (u.pt x) use) := by
  obtain ⟨n1, a0, a1, a2, a3⟩ := predict_trees c p h.l
  obtain ⟨n1', b0, b1, b2, b3⟩ := predict_trees c (u.par p) h.r
  rw [a3, b3, seenAll_length]
  have hB := h.ballot ha c p x (usedTrees trees.length use)
  rw [a2, b2] at hB
  by_cases hk : trees.length < usedTrees trees.length use ∨ usedTrees trees.length use = 0
  · rw [if_pos hk, if_pos hk]
    exact rfl
  · rw [if_neg hk, if_neg hk, hB]
    have hids : allIds (trees.map (counted c)) = allIds trees := by
      have : trees.map (counted c) = trees ∨ trees.map (counted c) = recountAll trees := by
        by_cases hg : c.extend = .ghost
        · left
          conv_rhs => rw [← List.map_id trees]
          refine List.map_congr_left fun o _ => ?_
          unfold counted
          rw [if_pos hg]; rfl
        · right
          refine List.map_congr_left fun o _ => ?_
          unfold counted
          rw [if_neg hg]
      rcases this with e | e
      · rw [e]
      · rw [e, Mondrian.recountAll_ids]
    cases Mondrian.totals p x ((trees.map (counted c)).take (usedTrees trees.length use)) (fun _ => 0) with
    | error e => exact rfl
    | ok v =>
        refine ⟨a1, ?_, ?_, h.bases, h.total, fun k hk => ?_, fun k hk => ?_, fun k hk => ?_⟩
        · rw [← seenAll_counted]; exact b1
        · show n1'.length = n1.length
          rw [a0.1, b0.1, h.size]
        · exact h.zl k (by rw [← a0.avail]; exact hk)
        · exact h.zr k (by rw [← b0.avail]; exact hk)
        · exact h.fading k (by rw [hids] at hk; exact hk)

/-! ### Histories -/

/-- the call in the new units -/
def changeOp (u : Change K F L) : Op K F L → Op K F L
  | .train x label => .train (u.pt x) (u.σ label)
  | .predict x use => .predict (u.pt x) use
  | .trim => .trim
  | .fade => .fade
  | .other last => .other last

/-- a call of a member function of this object -/
def Op.own : Op K F L → Bool
  | .other _ => false
  | _ => true

theorem Couple.last {s s' : State K F L} {trees : List (Option (Tree K F L))} (h : Couple u π s s' trees) (i j : Nat) : Couple u π { s with last := i } { s' with last := j } trees :=
  ⟨⟨h.l.mem, h.l.free, h.l.fading, h.l.forced, h.l.scores, h.l.bases⟩, ⟨h.r.mem, h.r.free, h.r.fading, h.r.forced, h.r.scores, h.r.bases⟩, h.size, h.bases, h.total, h.zl,
    h.zr, h.fading⟩

theorem exec_seen (ha : 0 < u.a) (c : Config K) (p : Params K) (hlife : 0 ≤ p.lifetime) (ω : Nat → K) (hω : ∀ i, 0 ≤ ω i ∧ ω i < 1) (op : Op K F L)
    {s s' : State K F L} {trees : List (Option (Tree K F L))} (h : Couple u π s s' trees) (pos : Nat) :
    RelR (Alike u) (exec c p ω op s pos) (exec c (u.par p) ω (changeOp u op) s' pos) := by
  cases op with
  | train x label =>
      unfold exec changeOp
      refine RelR.bind (train_seen ha c p hlife ω hω x label h pos) ?_
      rintro ⟨s1, pos1, b⟩ ⟨s1', pos1', b'⟩ ⟨e, hp⟩
      simp only [Prod.mk.injEq] at e
      exact ⟨e.1, hp⟩
  | predict x use =>
      unfold exec changeOp
      refine RelR.bind (predict_seen ha c p h x use) ?_
      rintro ⟨s1, l⟩ ⟨s1', l'⟩ hp
      exact ⟨rfl, π, _, hp⟩
  | trim =>
      unfold exec changeOp
      obtain ⟨s1, s1', pos', trees1, e1, e2, e3⟩ := treeTrim_seen c ω hω h pos
      simp only [e1, e2]
      exact ⟨rfl, π, trees1, e3⟩
  | fade =>
      unfold exec changeOp
      obtain ⟨s1, s1', e1, e2, e3⟩ := treeFade_seen h
      simp only [e1, e2]
      exact ⟨rfl, π, trees, e3⟩
  | other last => exact ⟨rfl, π, trees, h.last last last⟩

theorem run_seen (ha : 0 < u.a) (c : Config K) (p : Params K) (hlife : 0 ≤ p.lifetime) (ω : Nat → K) (hω : ∀ i, 0 ≤ ω i ∧ ω i < 1) :
    ∀ (n : Nat) (ops ops' : List (Op K F L)) (π : Nat → Nat) (s s' : State K F L) (trees : List (Option (Tree K F L))) (pos : Nat), ops.length + ops'.length ≤ n →
      ops'.filter Op.own = (ops.filter Op.own).map (changeOp u) → Couple u π s s' trees →
      RelR (Alike u) (run c p ω ops s pos) (run c (u.par p) ω ops' s' pos) := by
  intro n
  induction n with
  | zero =>
      intro ops ops' π s s' trees pos hn _ h
      have e1 : ops = [] := List.eq_nil_of_length_eq_zero (by omega)
      have e2 : ops' = [] := List.eq_nil_of_length_eq_zero (by omega)
      subst e1 e2
      exact ⟨rfl, π, trees, h⟩
  | succ n ih =>
      intro ops ops' π s s' trees pos hn hf h
      cases ops with
      | cons op ops =>
          by_cases ho : op.own = true
          · -- the next call of this object
            cases ops' with
            | nil => rw [List.filter_cons, if_pos ho] at hf; cases hf
            | cons op' ops' =>
                by_cases ho' : op'.own = true
                · rw [List.filter_cons, if_pos ho', List.filter_cons, if_pos ho, List.map_cons, List.cons.injEq] at hf
                  rw [run, run, hf.1]
                  refine RelR.bind (exec_seen ha c p hlife ω hω op h pos) ?_
                  rintro ⟨s1, pos1⟩ ⟨s1', pos1'⟩ ⟨e, π1, trees1, h1⟩
                  simp only at e
                  subst e
                  simp only [List.length_cons] at hn
                  exact ih ops ops' π1 s1 s1' trees1 _ (by omega) hf.2 h1
                · rw [List.filter_cons, if_neg ho'] at hf
                  simp only [List.length_cons] at hn
                  cases op' with
                  | other last => exact ih (op :: ops) ops' π s _ trees pos (by simp only [List.length_cons]; omega) hf (h.last s.last last)
                  | train => exact absurd rfl ho'
                  | predict => exact absurd rfl ho'
                  | trim => exact absurd rfl ho'
                  | fade => exact absurd rfl ho'
          · rw [List.filter_cons, if_neg ho] at hf
            simp only [List.length_cons] at hn
            cases op with
            | other last => exact ih ops ops' π _ s' trees pos (by omega) hf (h.last last s'.last)
            | train => exact absurd rfl ho
            | predict => exact absurd rfl ho
            | trim => exact absurd rfl ho
            | fade => exact absurd rfl ho
      | nil =>
          cases ops' with
          | nil => exact ⟨rfl, π, trees, h⟩
          | cons op' ops' =>
              by_cases ho' : op'.own = true
              · rw [List.filter_cons, if_pos ho'] at hf; cases hf
              · rw [List.filter_cons, if_neg ho'] at hf
                simp only [List.length_cons] at hn
                cases op' with
                | other last => exact ih [] ops' π s _ trees pos (by simp only [List.length_nil]; omega) hf (h.last s.last last)
                | train => exact absurd rfl ho'
                | predict => exact absurd rfl ho'
                | trim => exact absurd rfl ho'
                | fade => exact absurd rfl ho'

/-- two new objects -/
theorem couple_new (u : Change K F L) {c : Config K} {maxSize sizeNode sizeBase : Nat} {junk : List Int} {last last' : Nat} {s s' : State K F L}
    (h : new c maxSize sizeNode sizeBase junk last = .ok s) (h' : new c maxSize sizeNode sizeBase junk last' = .ok s') :
    Couple u (fun k => k) s s' (List.replicate junk.length none) := by
  have h1 := (new_spec c maxSize sizeNode sizeBase junk last s h True (fun _ => trivial)).1.inv
  have h1' := (new_spec c maxSize sizeNode sizeBase junk last' s' h' True (fun _ => trivial)).1.inv
  unfold new at h h'
  cases e1 : nodeCount maxSize sizeNode sizeBase junk.length with
  | error e => simp only [e1, bind, Except.bind] at h; cases h
  | ok n =>
      simp only [e1, bind, Except.bind] at h h'
      cases e2 : initBases c.management n junk.length c.sizeLimit junk with
      | error e => simp only [e2] at h; cases h
      | ok bases =>
          simp only [e2, pure, Except.pure, Except.ok.injEq] at h h'
          have hs : seenAll u (fun k => k) (List.replicate junk.length (none : Option (Tree K F L))) = List.replicate junk.length none := by
            simp [seenAll]
          have hz : ∀ (k : Nat) (l : List (Node K F L)), l.length = n → k ∈ avail l → (List.replicate n (0 : K))[k]? = some 0 := by
            intro k l hl hk
            obtain ⟨m, e, -⟩ := mem_avail.1 hk
            have := lt_of_get e
            rw [List.getElem?_replicate, if_pos (by omega)]
          have hn : s.forest.nodes.length = n := by rw [← h]; simp
          have hn' : s'.forest.nodes.length = n := by rw [← h']; simp
          refine ⟨h1, by rw [hs]; exact h1', by rw [hn, hn'], by rw [← h, ← h'], by rw [← h, ← h'], fun k hk => ?_, fun k hk => ?_, fun k hk => ?_⟩
          · have : s.fading = List.replicate n 0 := by rw [← h]
            rw [this]; exact hz k _ hn hk
          · have : s'.fading = List.replicate n 0 := by rw [← h']
            rw [this]; exact hz k _ hn' hk
          · exfalso
            obtain ⟨i, t, hi, -⟩ : ∃ (i : Nat) (t : Tree K F L), (List.replicate junk.length (none : Option (Tree K F L)))[i]? = some (some t) ∧ True := by
              simp only [allIds, List.mem_flatMap, List.mem_replicate] at hk
              obtain ⟨o, ⟨-, rfl⟩, hk⟩ := hk
              simp [oids] at hk
            rw [List.getElem?_replicate] at hi
            split at hi <;> cases hi

end Orp.Coarse
