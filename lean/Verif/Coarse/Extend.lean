import Verif.Coarse.Walk

/-!
`extend_block0` to `extend_block4`: what they do to a tree.
-/

set_option linter.unusedSectionVars false

namespace Orp.Coarse

open Finset
open Mondrian (Node Box Forest Params Cut upd init extent cutAt bump sampleBlock Tree Data Frame plug ctxPar ctxTau ctxIds HoldsCtx Holds Ready avail mem_avail
  avail_nodup upd_spec lt_of_get newLeaf holds_plug plug_ids holds_root id_mem_ids holds_mem)

variable {K : Type} [Field K] [LinearOrder K] [IsStrictOrderedRing K] [FloorRing K] {F L : Nat}

/-- The tree management lets a subtree `t`, `dist` nodes below the root, get a new parent. -/
def Room (c : Config K) (base : Base) (dist : Nat) (t : Tree K F L) : Prop :=
  if c.isCobble then ((t.height + dist + 1 : Nat) : Int) ≤ base.limit
  else if c.management = .robur ∨ c.management = .pausingPhoenix then base.size < base.limit
  else True

/-- the counters of a split node on the way of a point -/
def wayCounts (c : Config K) (cnt : Fin L → Nat) (label : Fin L) : Fin L → Nat := if c.extend = .ghost then bump cnt label else cnt

/-- the box of a node on the way of a point -/
def WayBox (c : Config K) (b : Box K F) (x : Fin F → K) (b' : Box K F) : Prop := b' = newBox c b x ∨ (c.extend = .counterNoUpdate ∧ b' = b)

/-- what is known of a new parent -/
structure NewParent (c : Config K) (base : Base) (x : Fin F → K) (dist : Nat) (ptau : K) (t : Tree K F L) (cut : Cut K F) : Prop where
  ok : cut.Ok t.data.box x
  le : ptau ≤ cut.tau
  lt : cut.tau < t.data.tau
  room : Room c base dist t

/-- How a tree that is `dist` nodes below the root, below a parent with the time `ptau`, changes when it is trained with a point -/
inductive Grows (c : Config K) (base : Base) (lifetime : K) (x : Fin F → K) (label : Fin L) : Nat → K → Tree K F L → Tree K F L → Prop where
  /-- a new parent and a new leaf for the point -/
  | insert {dist ptau t cut} (np ns : Nat) (h : NewParent c base x dist ptau t cut) (hm : c.extend ≠ .counterNoUpdate) :
      Grows c base lifetime x label dist ptau t (aboveC lifetime np ns cut t (parentCounts c.extend (fun _ => 0) t.data.counts label) x label)
  /-- `EXTEND_COUNTER_NO_UPDATE`: a new parent and a new leaf for the point, which is also given to the old tree -/
  | insertLeaf {dist ptau id d cut} (np ns : Nat) (h : NewParent c base x dist ptau (.leaf id d) cut) (hm : c.extend = .counterNoUpdate) :
      Grows c base lifetime x label dist ptau (.leaf id d) (aboveC lifetime np ns cut (.leaf id { d with counts := bump d.counts label }) (fun _ => 0) x label)
  | insertLeft {dist ptau id d dim sp l l' r cut} (np ns : Nat) (h : NewParent c base x dist ptau (.node id d dim sp l r) cut)
      (hm : c.extend = .counterNoUpdate) (hx : x dim ≤ sp) (hg : Grows c base lifetime x label (dist + 2) d.tau l l') :
      Grows c base lifetime x label dist ptau (.node id d dim sp l r) (aboveC lifetime np ns cut (.node id d dim sp l' r) (fun _ => 0) x label)
  | insertRight {dist ptau id d dim sp l r r' cut} (np ns : Nat) (h : NewParent c base x dist ptau (.node id d dim sp l r) cut)
      (hm : c.extend = .counterNoUpdate) (hx : ¬ x dim ≤ sp) (hg : Grows c base lifetime x label (dist + 2) d.tau r r') :
      Grows c base lifetime x label dist ptau (.node id d dim sp l r) (aboveC lifetime np ns cut (.node id d dim sp l r') (fun _ => 0) x label)
  /-- the point is counted at a leaf -/
  | leaf {dist ptau id d} (b' : Box K F) (hb : WayBox c d.box x b') :
      Grows c base lifetime x label dist ptau (.leaf id d) (.leaf id { tau := d.tau, box := b', counts := bump d.counts label })
  | left {dist ptau id d dim sp l l' r} (b' : Box K F) (hb : WayBox c d.box x b') (hx : x dim ≤ sp)
      (hg : Grows c base lifetime x label (dist + 1) d.tau l l') :
      Grows c base lifetime x label dist ptau (.node id d dim sp l r) (.node id { tau := d.tau, box := b', counts := wayCounts c d.counts label } dim sp l' r)
  | right {dist ptau id d dim sp l r r'} (b' : Box K F) (hb : WayBox c d.box x b') (hx : ¬ x dim ≤ sp)
      (hg : Grows c base lifetime x label (dist + 1) d.tau r r') :
      Grows c base lifetime x label dist ptau (.node id d dim sp l r) (.node id { tau := d.tau, box := b', counts := wayCounts c d.counts label } dim sp l r')
  /-- `EXTEND_GHOST`: no node for the point, it is counted at the place where it leaves the tree -/
  | ghost {dist ptau t} (hm : c.extend = .ghost) :
      Grows c base lifetime x label dist ptau t (t.withData { t.data with counts := bump t.data.counts label })
  /-- `EXTEND_PARTIAL_UPDATE`: no node for the point, it is dropped -/
  | drop {dist ptau t} (hm : c.extend = .partialUpdate) : Grows c base lifetime x label dist ptau t t

/-! ### Errors -/

/-- The call ends in an error, which happens only if `bad`. -/
def Fails {A : Type} (bad : Prop) (r : Res A) : Prop := bad ∧ ∃ e, r = .error e

theorem Fails.bind {A B : Type} {bad : Prop} {r : Res A} (h : Fails bad r) (f : A → Res B) : Fails bad (r >>= f) := by
  obtain ⟨h, e, he⟩ := h
  exact ⟨h, e, by rw [he]; rfl⟩

theorem Fails.not {A : Type} {bad : Prop} {r : Res A} (h : Fails bad r) (hb : ¬ bad) : False := hb h.1

/-! ### The random choices -/

theorem pickDim_ok (ω : Nat → K) (pos : Nat) (e : Fin F → K) (he : ∀ i, 0 ≤ e i) (hs : 0 < ∑ i, e i) (h0 : 0 < ω pos) (h1 : ω pos < 1) :
    ∃ d : Fin F, pickDim ω pos e (∑ i, e i) = .ok (d, pos + 1) ∧ 0 < e d := by
  obtain ⟨d, h, hd⟩ := Mondrian.pickDim_ok ω pos e he hs h0 h1
  refine ⟨d, ?_, hd⟩
  unfold Mondrian.pickDim at h
  unfold pickDim
  cases hp : Utils.turnIntoProbability (List.ofFn e) (∑ i, e i) with
  | error y => rw [hp] at h; cases h
  | ok probs =>
      rw [hp] at h
      simp only [bind, Except.bind] at h ⊢
      by_cases hlt : Utils.pick probs (ω pos) < F
      · rw [dif_pos hlt] at h ⊢
        exact h
      · exfalso
        rw [dif_neg hlt] at h
        simp only [pure, Except.pure] at h
        split at h
        · simp only [Except.ok.injEq, Prod.mk.injEq] at h
          omega
        · cases h

theorem drawCut_ok (ω : Nat → K) (hω : ∀ i, 0 < ω i ∧ ω i < 1) (pos : Nat) (b : Box K F) (x : Fin F → K) (tau : K) (hs : extentSum b x ≠ 0) :
    ∃ cut pos', drawCut ω pos b x tau = .ok (cut, pos') ∧ cut.Ok b x ∧ cut.tau = tau := by
  have hs' : 0 < ∑ i, extent b x i := lt_of_le_of_ne (Mondrian.sum_nonneg' b x) (Ne.symm hs)
  obtain ⟨d, a1, a2⟩ := pickDim_ok ω pos (extent b x) (Mondrian.extent_nonneg b x) hs' (hω _).1 (hω _).2
  obtain ⟨cut, c1⟩ := Mondrian.cutAt_ok ω (pos + 1) tau (Mondrian.extent_pos a2)
  obtain ⟨c2, c3, _⟩ := Mondrian.cutAt_spec (hω _).1.le (hω _).2 c1
  exact ⟨cut, pos + 1 + 1, by simp only [drawCut, extentSum, a1, bind, Except.bind, c1], c2, c3⟩

/-- with random numbers that may be 0 -/
theorem drawCut_fine (bad : Prop) (ω : Nat → K) (hω : ∀ i, 0 ≤ ω i ∧ ω i < 1) (hz : ∀ i, ω i = 0 → bad) (pos : Nat) (b : Box K F) (x : Fin F → K) (tau : K)
    (hs : extentSum b x ≠ 0) :
    Fails bad (drawCut ω pos b x tau) ∨ ∃ cut pos', drawCut ω pos b x tau = .ok (cut, pos') ∧ cut.Ok b x ∧ cut.tau = tau := by
  by_cases h0 : ω pos = 0
  · cases hd : drawCut ω pos b x tau with
    | error e => exact .inl ⟨hz _ h0, e, rfl⟩
    | ok r =>
        obtain ⟨cut, pos'⟩ := r
        refine .inr ⟨cut, pos', rfl, ?_⟩
        unfold drawCut at hd
        cases hp : pickDim ω pos (extent b x) (extentSum b x) with
        | error e => simp only [hp, bind, Except.bind] at hd; cases hd
        | ok q =>
            simp only [hp, bind, Except.bind] at hd
            obtain ⟨c2, c3, _⟩ := Mondrian.cutAt_spec (hω _).1 (hω _).2 hd
            exact ⟨c2, c3⟩
  · right
    have hs' : 0 < ∑ i, extent b x i := lt_of_le_of_ne (Mondrian.sum_nonneg' b x) (Ne.symm hs)
    obtain ⟨d, a1, a2⟩ := pickDim_ok ω pos (extent b x) (Mondrian.extent_nonneg b x) hs' (lt_of_le_of_ne (hω _).1 (Ne.symm h0)) (hω _).2
    obtain ⟨cut, c1⟩ := Mondrian.cutAt_ok ω (pos + 1) tau (Mondrian.extent_pos a2)
    obtain ⟨c2, c3, _⟩ := Mondrian.cutAt_spec (hω _).1 (hω _).2 c1
    exact ⟨cut, pos + 1 + 1, by simp only [drawCut, extentSum, a1, bind, Except.bind, c1], c2, c3⟩

theorem expo_nonneg {p : Params K} {ω : Nat → K} {pos : Nat} {b : Box K F} {x : Fin F → K} (h : 0 ≤ (expo p ω pos b x).1) : extentSum b x ≠ 0 := by
  intro hs
  unfold expo at h
  rw [if_pos hs] at h
  simp only at h
  linarith

/-! ### Steps on one node -/

theorem ready_length {s : Forest K F L} {tree : Nat} {fs : List (Frame K F L)} {t : Tree K F L} (h : Ready s tree (plug fs t)) :
    fs.length + t.ids.length ≤ s.nodes.length := by
  have hsub : (plug fs t).ids ⊆ List.range s.nodes.length := fun k hk => by
    obtain ⟨n, hn⟩ := holds_mem h.holds k hk
    exact List.mem_range.2 (lt_of_get hn)
  have h1 := (List.subperm_of_subset h.nodup hsub).length_le
  rw [(plug_ids fs t).length_eq, List.length_append, List.length_range] at h1
  have h2 : ∀ fs : List (Frame K F L), fs.length ≤ (ctxIds fs).length := by
    intro fs
    induction fs with
    | nil => simp
    | cons f fs ih => simp only [ctxIds, List.length_cons, List.length_append]; omega
  have := h2 fs
  omega

/-- the test of the tree management -/
theorem paused_spec (c : Config K) (s : State K F L) (tree : Nat) {base : Base} (hb : s.bases[tree]? = some base) {fs : List (Frame K F L)}
    {t : Tree K F L} (h : Ready s.forest tree (plug fs t)) (hc : c.isCobble = true → t.height ≤ 101) :
    ∃ b, paused c s tree t.id = .ok b ∧ (b = false ↔ Room c base fs.length t) := by
  obtain ⟨hctx, ht, -, -, -, -⟩ := h.parts
  have hlen := ready_length h
  have hpos := ids_pos t
  unfold paused Room
  simp only [rd_eq_ok_iff.2 hb, bind, Except.bind]
  by_cases hcc : c.isCobble = true
  · have e1 := nodeDepth_spec ht (hc hcc) (by omega)
    have e2 := unravel_spec fs t s.forest.nodes.length hctx ht (by omega)
    simp only [hcc, if_true, e1, e2, pure, Except.pure, Except.ok.injEq]
    refine ⟨_, rfl, ?_⟩
    simp only [decide_eq_false_iff_not, not_lt]
    push_cast
    rfl
  · simp only [hcc, if_false, Bool.false_eq_true]
    by_cases hr : c.management = .robur ∨ c.management = .pausingPhoenix
    · simp only [hr, if_true, pure, Except.pure]
      exact ⟨_, rfl, by simp⟩
    · simp only [hr, if_false, pure, Except.pure]
      exact ⟨_, rfl, by simp⟩

theorem paused_fine (bad : Prop) (c : Config K) (s : State K F L) (tree : Nat) {base : Base} (hb : s.bases[tree]? = some base) {fs : List (Frame K F L)}
    {t : Tree K F L} (h : Ready s.forest tree (plug fs t)) (hc : c.isCobble = true → t.height ≤ 101 ∨ bad) :
    Fails bad (paused c s tree t.id) ∨ ∃ b, paused c s tree t.id = .ok b ∧ (b = false ↔ Room c base fs.length t) := by
  by_cases hd : c.isCobble = true ∧ ¬ t.height ≤ 101
  · obtain ⟨hctx, ht, -, -, -, -⟩ := h.parts
    have hlen := ready_length h
    refine .inl ⟨(hc hd.1).resolve_left hd.2, .ub, ?_⟩
    unfold paused
    simp only [rd_eq_ok_iff.2 hb, bind, Except.bind, hd.1, if_true, nodeDepth_deep ht (by omega) (by omega)]
  · exact .inr (paused_spec c s tree hb h (fun hcc => by
      by_contra hn
      exact hd ⟨hcc, hn⟩))

theorem bumpAt_spec (s : State K F L) (tree : Nat) {fs : List (Frame K F L)} {t : Tree K F L} (h : Ready s.forest tree (plug fs t))
    (hf : s.free = (avail s.forest.nodes).length) (label : Fin L) :
    ∃ nodes', upd s.forest.nodes t.id (fun n => { n with counts := bump n.counts label }) = .ok nodes' ∧
      Done s { s with forest := { s.forest with nodes := nodes' } } tree (plug fs t)
        (plug fs (t.withData { t.data with counts := bump t.data.counts label })) := by
  obtain ⟨hctx, ht, -, -, -, -⟩ := h.parts
  obtain ⟨n, hn, hh⟩ := holds_root ht
  obtain ⟨nodes', u1, l1, g1⟩ := upd_spec (fun n => { n with counts := bump n.counts label }) hn
  refine ⟨nodes', u1, done_update (s' := { s with forest := { s.forest with nodes := nodes' } }) h hf hn l1 rfl g1 rfl rfl rfl rfl ⟨hh.1, hh.2.1, hh.2.2.1, ?_⟩ rfl rfl rfl rfl rfl rfl (fun h => h)⟩
  show bump n.counts label = _
  rw [hh.2.2.2]

theorem countAt_spec (s : State K F L) (tree : Nat) {fs : List (Frame K F L)} {t : Tree K F L} (h : Ready s.forest tree (plug fs t))
    (hf : s.free = (avail s.forest.nodes).length) (hl : s.fading.length = s.forest.nodes.length) (label : Fin L) :
    ∃ s', countAt s t.id label = .ok s' ∧
      Done s s' tree (plug fs t) (plug fs (t.withData { t.data with counts := bump t.data.counts label })) := by
  obtain ⟨hctx, ht, -, -, -, -⟩ := h.parts
  obtain ⟨n, hn, hh⟩ := holds_root ht
  obtain ⟨nodes', u1, l1, g1⟩ := upd_spec (fun n => { n with counts := bump n.counts label }) hn
  have hlt : t.id < s.fading.length := by rw [hl]; exact lt_of_get hn
  unfold countAt
  simp only [u1, rd_eq_ok_iff.2 (List.getElem?_eq_getElem hlt), wr_ok _ hlt, bind, Except.bind, pure, Except.pure]
  refine ⟨_, rfl, done_update (s' := { s with
    forest := { s.forest with nodes := nodes' }
    fading := s.fading.set t.id (s.fading[t.id] + 1) }) h hf hn l1 rfl g1 rfl rfl rfl rfl ⟨hh.1, hh.2.1, hh.2.2.1, ?_⟩ rfl rfl rfl rfl (by simp) rfl (fun h v hv => by
      rcases List.mem_or_eq_of_mem_set hv with hv | rfl
      · exact h v hv
      · have := h _ (List.getElem_mem hlt)
        linarith)⟩
  show bump n.counts label = _
  rw [hh.2.2.2]

/-! ### Going down -/

/-- The recursive call does what is expected in a subtree. -/
def RecOk (bad : Prop) (c : Config K) (p : Params K) (base : Base) (x : Fin F → K) (label : Fin L) (tree : Nat)
    (rec : Nat → Nat → State K F L → Res (State K F L × Nat)) (t : Tree K F L) : Prop :=
  ∀ (fs : List (Frame K F L)) (pos : Nat) (s : State K F L), Ready s.forest tree (plug fs t) → s.free = (avail s.forest.nodes).length →
    s.bases[tree]? = some base → s.fading.length = s.forest.nodes.length → s.forced.length = s.forest.nodes.length →
    (c.isCobble = true → fs.length + t.height ≤ 101 ∨ bad) →
    Fails bad (rec t.id pos s) ∨ ∃ s' pos' t', rec t.id pos s = .ok (s', pos') ∧ Grows c base p.lifetime x label fs.length (ctxTau fs) t t' ∧ Done s s' tree (plug fs t) (plug fs t')

/-- what going down does to a tree -/
inductive Down (c : Config K) (base : Base) (lifetime : K) (x : Fin F → K) (label : Fin L) (dist : Nat) : Tree K F L → Tree K F L → Prop where
  | leaf {id d} : Down c base lifetime x label dist (.leaf id d) (.leaf id { d with counts := bump d.counts label })
  | left {id d dim sp l l' r} (hx : x dim ≤ sp) (hg : Grows c base lifetime x label (dist + 1) d.tau l l') :
      Down c base lifetime x label dist (.node id d dim sp l r) (.node id { d with counts := wayCounts c d.counts label } dim sp l' r)
  | right {id d dim sp l r r'} (hx : ¬ x dim ≤ sp) (hg : Grows c base lifetime x label (dist + 1) d.tau r r') :
      Down c base lifetime x label dist (.node id d dim sp l r) (.node id { d with counts := wayCounts c d.counts label } dim sp l r')

/-- the end of `descend` at a split node -/
theorem descend_back (c : Config K) (s s1 : State K F L) (tree : Nat) {fs : List (Frame K F L)} {id : Nat} {d : Data K F L} {dim : Fin F} {sp : K}
    {T l r : Tree K F L} (label : Fin L) (pos : Nat) (h : Done s s1 tree T (plug fs (.node id d dim sp l r))) :
    ∃ s', (if c.extend = .ghost then do
        let nodes ← upd s1.forest.nodes id (fun n => { n with counts := bump n.counts label })
        return ({ s1 with forest := { s1.forest with nodes := nodes } }, pos)
      else return (s1, pos) : Res (State K F L × Nat)) = .ok (s', pos) ∧
      Done s s' tree T (plug fs (.node id { d with counts := wayCounts c d.counts label } dim sp l r)) := by
  by_cases hg : c.extend = .ghost
  · obtain ⟨nodes', u1, d1⟩ := bumpAt_spec s1 tree h.ready h.free label
    have u1' : upd s1.forest.nodes id (fun n => { n with counts := bump n.counts label }) = .ok nodes' := u1
    rw [if_pos hg]
    simp only [u1', bind, Except.bind, pure, Except.pure, wayCounts, if_pos hg]
    exact ⟨_, rfl, h.trans d1⟩
  · rw [if_neg hg]
    simp only [pure, Except.pure, wayCounts, if_neg hg]
    exact ⟨_, rfl, h⟩

theorem descend_spec (bad : Prop) (c : Config K) (p : Params K) (base : Base) (x : Fin F → K) (label : Fin L) (tree : Nat)
    (rec : Nat → Nat → State K F L → Res (State K F L × Nat)) (t : Tree K F L)
    (hrec : ∀ id d dim sp l r, t = .node id d dim sp l r → RecOk bad c p base x label tree rec l ∧ RecOk bad c p base x label tree rec r)
    (fs : List (Frame K F L)) (pos : Nat) (s : State K F L) (h : Ready s.forest tree (plug fs t)) (hf : s.free = (avail s.forest.nodes).length)
    (hb : s.bases[tree]? = some base) (hl1 : s.fading.length = s.forest.nodes.length) (hl2 : s.forced.length = s.forest.nodes.length)
    (hc : c.isCobble = true → fs.length + t.height ≤ 101 ∨ bad) :
    Fails bad (descend c x label rec t.id pos s) ∨ ∃ s' pos' t', descend c x label rec t.id pos s = .ok (s', pos') ∧ Down c base p.lifetime x label fs.length t t' ∧
      Done s s' tree (plug fs t) (plug fs t') := by
  obtain ⟨hctx, ht, -, -, -, -⟩ := h.parts
  cases t with
  | leaf id d =>
      obtain ⟨n, h1, h2, h3⟩ := ht
      obtain ⟨s', e1, e2⟩ := countAt_spec s tree h hf hl1 label
      have e1' : countAt s id label = .ok s' := e1
      refine .inr ⟨s', pos, _, ?_, .leaf, e2⟩
      unfold descend
      simp only [Tree.id, rd_eq_ok_iff.2 h1, h3, e1', bind, Except.bind, pure, Except.pure]
  | node id d dim sp l r =>
      obtain ⟨⟨n, h1, h2, h3, h4, h5, h6⟩, hl, hr⟩ := ht
      obtain ⟨rl, rr⟩ := hrec id d dim sp l r rfl
      have hml : l.height ≤ Nat.max l.height r.height := Nat.le_max_left _ _
      have hmr : r.height ≤ Nat.max l.height r.height := Nat.le_max_right _ _
      simp only [Mondrian.Tree.height] at hc
      have hid : (Mondrian.Tree.node id d dim sp l r).id = id := rfl
      by_cases hx : x dim ≤ sp
      · rcases rl (⟨id, d, dim, sp, true, r⟩ :: fs) pos s h hf hb hl1 hl2 (fun hh => by
          refine (hc hh).imp_left fun this => ?_
          simp only [List.length_cons]; omega) with ⟨hbad, e, he⟩ | ⟨s1, pos1, l', a1, a2, a3⟩
        · refine .inl ⟨hbad, e, ?_⟩
          unfold descend
          simp only [hid, rd_eq_ok_iff.2 h1, h3, h4, h5, h6, init, bind, Except.bind]
          rw [if_pos hx]
          simp only [he]
        obtain ⟨s', b1, b2⟩ := descend_back c s s1 tree (T := plug fs (.node id d dim sp l r)) (fs := fs) label pos1 a3
        refine .inr ⟨s', pos1, _, ?_, .left hx a2, b2⟩
        unfold descend
        simp only [hid, rd_eq_ok_iff.2 h1, h3, h4, h5, h6, init, bind, Except.bind]
        rw [if_pos hx]
        simp only [a1]
        exact b1
      · rcases rr (⟨id, d, dim, sp, false, l⟩ :: fs) pos s h hf hb hl1 hl2 (fun hh => by
          refine (hc hh).imp_left fun this => ?_
          simp only [List.length_cons]; omega) with ⟨hbad, e, he⟩ | ⟨s1, pos1, r', a1, a2, a3⟩
        · refine .inl ⟨hbad, e, ?_⟩
          unfold descend
          simp only [hid, rd_eq_ok_iff.2 h1, h3, h4, h5, h6, init, bind, Except.bind]
          rw [if_neg hx]
          simp only [he]
        obtain ⟨s', b1, b2⟩ := descend_back c s s1 tree (T := plug fs (.node id d dim sp l r)) (fs := fs) label pos1 a3
        refine .inr ⟨s', pos1, _, ?_, .right hx a2, b2⟩
        unfold descend
        simp only [hid, rd_eq_ok_iff.2 h1, h3, h4, h5, h6, init, bind, Except.bind]
        rw [if_neg hx]
        simp only [a1]
        exact b1

/-! ### The recursion -/

/-- the frame of the new parent -/
def newFrame (lifetime : K) (np ns : Nat) (cut : Cut K F) (t : Tree K F L) (cnt : Fin L → Nat) (x : Fin F → K) (label : Fin L) : Frame K F L :=
  { id := np, d := { tau := cut.tau, box := t.data.box.extend x, counts := cnt }, dim := cut.dim, sp := cut.split, left := cut.right, sib := newLeaf lifetime ns x label }

theorem newFrame_fill (lifetime : K) (np ns : Nat) (cut : Cut K F) (t t' : Tree K F L) (cnt : Fin L → Nat) (x : Fin F → K) (label : Fin L)
    (h : t'.data.box = t.data.box) : (newFrame lifetime np ns cut t cnt x label).fill t' = aboveC lifetime np ns cut t' cnt x label := by
  unfold Frame.fill aboveC newFrame
  rw [h]

/-- one step, with what is read from the memory -/
theorem extendBlock_step (c : Config K) (p : Params K) (ω : Nat → K) (x : Fin F → K) (label : Fin L) (tree fuel pos : Nat) (s : State K F L)
    {fs : List (Frame K F L)} {t : Tree K F L} (h : Ready s.forest tree (plug fs t)) {n : Node K F L} (hn : s.forest.nodes[t.id]? = some n) {pause : Bool}
    (hp : paused c s tree t.id = .ok pause) :
    extendBlock c p ω x label tree (fuel + 1) t.id pos s = (do
      let e := (expo p ω pos t.data.box x).1
      let pos := (expo p ω pos t.data.box x).2
      if 0 ≤ e ∧ ctxTau fs + e < t.data.tau ∧ 2 ≤ s.free ∧ pause = false then do
        let (cut, pos) ← drawCut ω pos t.data.box x (ctxTau fs + e)
        let s ← insert c p s t.id tree cut x label
        if c.extend = .counterNoUpdate then descend c x label (extendBlock c p ω x label tree fuel) t.id pos s
        else return (s, pos)
      else if c.extend = .original ∨ c.extend = .barycenter ∨ e < 0 ∨ t.data.tau < ctxTau fs + e then do
        let nodes ← wr s.forest.nodes t.id { n with box := some (newBox c t.data.box x) }
        let forced ← (if c.extend = .barycenter ∧ 0 ≤ e ∧ ctxTau fs + e < t.data.tau then do
            let f ← rd s.forced t.id
            wr s.forced t.id (f + 1)
          else .ok s.forced : Res (List Int))
        descend c x label (extendBlock c p ω x label tree fuel) t.id pos { s with
          forest := { s.forest with nodes := nodes }
          forced := forced }
      else if c.extend = .ghost then do
        let s ← countAt s t.id label
        return (s, pos)
      else if c.extend = .counterNoUpdate then descend c x label (extendBlock c p ω x label tree fuel) t.id pos s
      else return (s, pos)) := by
  obtain ⟨hctx, ht, -, -, -, -⟩ := h.parts
  obtain ⟨n', hn', hhas⟩ := holds_root ht
  rw [hn] at hn'
  cases hn'
  have e1 := Mondrian.ctxTau_spec hctx
  rw [← hhas.1] at e1
  rw [extendBlock]
  simp only [rd_eq_ok_iff.2 hn, bind, Except.bind]
  cases hpar : n.parent with
  | none =>
      rw [hpar] at e1
      have e2 := Except.ok.inj e1
      simp only [hhas.2.2.1, init, hp, hhas.2.1, ← e2]
  | some q =>
      rw [hpar] at e1
      simp only at e1
      simp only [e1, hhas.2.2.1, init, hp, hhas.2.1]

theorem extendBlock_spec (bad : Prop) (c : Config K) (hm : c.extend ≠ .none) (p : Params K) (hlife : 0 ≤ p.lifetime) (ω : Nat → K)
    (hω : ∀ i, 0 ≤ ω i ∧ ω i < 1) (hz : ∀ i, ω i = 0 → bad) (x : Fin F → K) (label : Fin L) (tree : Nat) (base : Base)
    (hlim : c.isCobble = true → base.limit ≤ 101 ∨ bad) : ∀ (fuel : Nat) (t : Tree K F L),
    t.height ≤ fuel → RecOk bad c p base x label tree (extendBlock c p ω x label tree fuel) t
  | 0, t, hh => by have := height_pos t; omega
  | fuel + 1, t, hh => by
      intro fs pos s h hf hb hl1 hl2 hc
      have hrec : ∀ id d dim sp l r, t = .node id d dim sp l r → RecOk bad c p base x label tree (extendBlock c p ω x label tree fuel) l ∧
          RecOk bad c p base x label tree (extendBlock c p ω x label tree fuel) r := by
        intro id d dim sp l r ht
        subst ht
        have hml : l.height ≤ Nat.max l.height r.height := Nat.le_max_left _ _
        have hmr : r.height ≤ Nat.max l.height r.height := Nat.le_max_right _ _
        simp only [Mondrian.Tree.height] at hh
        exact ⟨extendBlock_spec bad c hm p hlife ω hω hz x label tree base hlim fuel l (by omega),
          extendBlock_spec bad c hm p hlife ω hω hz x label tree base hlim fuel r (by omega)⟩
      obtain ⟨hctx, ht, -, -, -, -⟩ := h.parts
      obtain ⟨n, hn, hhas⟩ := holds_root ht
      rcases paused_fine bad c s tree hb h (fun hh => (hc hh).imp_left fun this => by omega) with ⟨hbad, err, he⟩ | ⟨pause, hp1, hp2⟩
      · refine .inl ⟨hbad, err, ?_⟩
        rw [extendBlock]
        have e1 := Mondrian.ctxTau_spec hctx
        rw [← hhas.1] at e1
        simp only [rd_eq_ok_iff.2 hn, bind, Except.bind]
        cases hpar : n.parent with
        | none => simp only [hhas.2.2.1, init, he]
        | some q =>
            rw [hpar] at e1
            simp only at e1
            simp only [e1, hhas.2.2.1, init, he]
      have hct := Mondrian.ctxTau_nonneg h
      rw [extendBlock_step c p ω x label tree fuel pos s h hn hp1]
      simp only [bind, Except.bind]
      generalize he : (expo p ω pos t.data.box x).1 = e
      generalize (expo p ω pos t.data.box x).2 = pos1
      by_cases hin : 0 ≤ e ∧ ctxTau fs + e < t.data.tau ∧ 2 ≤ s.free ∧ pause = false
      · rw [if_pos hin]
        rcases drawCut_fine bad ω hω hz pos1 t.data.box x (ctxTau fs + e) (expo_nonneg (by rw [he]; exact hin.1)) with ⟨hbad, err, hd⟩ | ⟨cut, pos2, d1, d2, d3⟩
        · exact .inl ⟨hbad, err, by simp only [hd]⟩
        obtain ⟨np, ns, s1, i1, i2⟩ := insert_spec c p hlife s tree cut x label fs t h hf hin.2.2.1 (by rw [d3]; linarith [hin.1])
        have hNP : NewParent c base x fs.length (ctxTau fs) t cut :=
          ⟨d2, by rw [d3]; linarith [hin.1], by rw [d3]; exact hin.2.1, hp2.1 hin.2.2.2⟩
        simp only [d1, i1]
        by_cases hcn : c.extend = .counterNoUpdate
        · rw [if_pos hcn]
          have hcnt : parentCounts c.extend (fun _ => 0) t.data.counts label = fun _ => 0 := by rw [hcn]; rfl
          rw [hcnt] at i2
          have hfill := newFrame_fill p.lifetime np ns cut t t (fun _ => 0) x label rfl
          have hT1 : plug fs (aboveC p.lifetime np ns cut t (fun _ => 0) x label) = plug (newFrame p.lifetime np ns cut t (fun _ => 0) x label :: fs) t := by
            rw [plug, hfill]
          rw [hT1] at i2
          have hroom := hNP.room
          rcases descend_spec bad c p base x label tree (extendBlock c p ω x label tree fuel) t hrec
            (newFrame p.lifetime np ns cut t (fun _ => 0) x label :: fs) pos2 s1 i2.ready i2.free (by rw [i2.bases]; exact hb)
            (by rw [i2.fading, i2.length]; exact hl1) (by rw [i2.forced, i2.length]; exact hl2) (fun hcc => by
              unfold Room at hroom
              rw [if_pos hcc] at hroom
              refine (hlim hcc).imp_left fun this => ?_
              simp only [List.length_cons]
              omega) with ⟨hbad, err, hd⟩ | ⟨s', pos', t', e1, e2, e3⟩
          · exact .inl ⟨hbad, err, hd⟩
          have hbox : t'.data.box = t.data.box := by cases e2 <;> rfl
          have hT2 : plug (newFrame p.lifetime np ns cut t (fun _ => 0) x label :: fs) t' = plug fs (aboveC p.lifetime np ns cut t' (fun _ => 0) x label) := by
            rw [plug, newFrame_fill p.lifetime np ns cut t t' (fun _ => 0) x label hbox]
          rw [hT2] at e3
          refine .inr ⟨s', pos', _, e1, ?_, i2.trans e3⟩
          cases e2 with
          | leaf => exact .insertLeaf np ns hNP hcn
          | left hx hg =>
              rename_i id d dim sp l l' r
              have : wayCounts c d.counts label = d.counts := by unfold wayCounts; rw [hcn]; rfl
              rw [this]
              exact .insertLeft np ns hNP hcn hx hg
          | right hx hg =>
              rename_i id d dim sp l r r'
              have : wayCounts c d.counts label = d.counts := by unfold wayCounts; rw [hcn]; rfl
              rw [this]
              exact .insertRight np ns hNP hcn hx hg
        · rw [if_neg hcn]
          exact .inr ⟨s1, pos2, _, rfl, .insert np ns hNP hcn, i2⟩
      · rw [if_neg hin]
        by_cases hup : c.extend = .original ∨ c.extend = .barycenter ∨ e < 0 ∨ t.data.tau < ctxTau fs + e
        · rw [if_pos hup]
          have hlt := lt_of_get hn
          have hlt' : t.id < s.forced.length := by rw [hl2]; exact hlt
          obtain ⟨forced', q1, q2⟩ : ∃ forced', (if c.extend = .barycenter ∧ 0 ≤ e ∧ ctxTau fs + e < t.data.tau then do
              let f ← rd s.forced t.id
              wr s.forced t.id (f + 1)
            else .ok s.forced : Res (List Int)) = .ok forced' ∧ forced'.length = s.forced.length := by
            by_cases hq : c.extend = .barycenter ∧ 0 ≤ e ∧ ctxTau fs + e < t.data.tau
            · rw [if_pos hq]
              simp only [rd_eq_ok_iff.2 (List.getElem?_eq_getElem hlt'), wr_ok _ hlt', bind, Except.bind]
              exact ⟨_, rfl, by simp⟩
            · rw [if_neg hq]
              exact ⟨_, rfl, rfl⟩
          simp only [bind, Except.bind] at q1
          simp only [wr_ok _ hlt, q1]
          have dn := done_update (s' := { s with
              forest := { s.forest with nodes := s.forest.nodes.set t.id { n with box := some (newBox c t.data.box x) } }
              forced := forced' }) (n' := { n with box := some (newBox c t.data.box x) }) (d' := { t.data with box := newBox c t.data.box x }) h hf hn (by simp) rfl (fun j => by
              show (s.forest.nodes.set t.id _)[j]? = _
              rw [List.getElem?_set]
              by_cases hj : t.id = j
              · subst hj; rw [if_pos rfl, if_pos rfl, if_pos hlt]
              · rw [if_neg hj, if_neg (Ne.symm hj)]) rfl rfl rfl rfl ⟨hhas.1, hhas.2.1, rfl, hhas.2.2.2⟩ rfl rfl rfl rfl rfl q2 (fun h => h)
          generalize hs1 : ({ s with
              forest := { s.forest with nodes := s.forest.nodes.set t.id { n with box := some (newBox c t.data.box x) } }
              forced := forced' } : State K F L) = s1 at dn ⊢
          have hwid : (t.withData { t.data with box := newBox c t.data.box x }).id = t.id := Mondrian.withData_id _ t
          have hwh : (t.withData { t.data with box := newBox c t.data.box x }).height = t.height := by cases t <;> rfl
          rcases descend_spec bad c p base x label tree (extendBlock c p ω x label tree fuel)
            (t.withData { t.data with box := newBox c t.data.box x }) (by
              intro id d dim sp l r hw
              cases t with
              | leaf => cases hw
              | node id' d' dim' sp' l' r' =>
                  simp only [Tree.withData, Tree.node.injEq] at hw
                  obtain ⟨-, -, -, -, rfl, rfl⟩ := hw
                  exact hrec _ _ _ _ _ _ rfl)
            fs pos1 s1 dn.ready dn.free (by rw [dn.bases]; exact hb) (by rw [dn.fading, dn.length]; exact hl1) (by rw [dn.forced, dn.length]; exact hl2)
            (by rw [hwh]; exact hc) with ⟨hbad, err, hd⟩ | ⟨s', pos', t', e1, e2, e3⟩
          · rw [hwid] at hd
            exact .inl ⟨hbad, err, hd⟩
          rw [hwid] at e1
          refine .inr ⟨s', pos', t', e1, ?_, dn.trans e3⟩
          cases t with
          | leaf id d => cases e2; exact .leaf _ (Or.inl rfl)
          | node id d dim sp l r =>
              cases e2 with
              | left hx hg => exact .left _ (Or.inl rfl) hx hg
              | right hx hg => exact .right _ (Or.inl rfl) hx hg
        · rw [if_neg hup]
          by_cases hgh : c.extend = .ghost
          · rw [if_pos hgh]
            obtain ⟨s', a1, a2⟩ := countAt_spec s tree h hf hl1 label
            simp only [a1, pure, Except.pure]
            exact .inr ⟨s', pos1, _, rfl, .ghost hgh, a2⟩
          · rw [if_neg hgh]
            by_cases hcn : c.extend = .counterNoUpdate
            · rw [if_pos hcn]
              rcases descend_spec bad c p base x label tree (extendBlock c p ω x label tree fuel) t hrec fs pos1 s h hf hb hl1 hl2 hc with
                ⟨hbad, err, hd⟩ | ⟨s', pos', t', e1, e2, e3⟩
              · exact .inl ⟨hbad, err, hd⟩
              refine .inr ⟨s', pos', t', e1, ?_, e3⟩
              cases e2 with
              | leaf => exact .leaf _ (Or.inr ⟨hcn, rfl⟩)
              | left hx hg => exact .left _ (Or.inr ⟨hcn, rfl⟩) hx hg
              | right hx hg => exact .right _ (Or.inr ⟨hcn, rfl⟩) hx hg
            · rw [if_neg hcn]
              refine .inr ⟨s, pos1, t, rfl, .drop ?_, Done.refl h hf⟩
              cases hE : c.extend <;> simp_all

end Orp.Coarse
