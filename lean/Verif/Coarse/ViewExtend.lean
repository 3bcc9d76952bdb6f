import Verif.Coarse.View

/-!
Two forests that differ in the places of their nodes, in the units and the origin of the features and in the names of the labels: growing a tree.
-/

set_option linter.unusedSectionVars false

namespace Orp.Coarse

open Finset
open Mondrian (Node Box Forest Params Cut upd init extent cutAt bump sampleBlock Tree Data Frame plug ctxPar ctxTau ctxIds HoldsCtx Holds Ready avail mem_avail
  avail_nodup avail_used upd_spec lt_of_get newLeaf holds_plug plug_ids holds_root id_mem_ids holds_mem relinked set_same oids allIds Change)

variable {K : Type} [Field K] [LinearOrder K] [IsStrictOrderedRing K] [FloorRing K] {F L : Nat} {u : Change K F L} {π : Nat → Nat}

theorem seenF_congr {π' : Nat → Nat} : ∀ {fs : List (Frame K F L)}, (∀ k ∈ ctxIds fs, π' k = π k) → fs.map (seenF u π') = fs.map (seenF u π)
  | [], _ => rfl
  | f :: fs, h => by
      rw [List.map_cons, List.map_cons, seenF_congr (fs := fs) (fun k hk => h k (by simp [ctxIds, hk]))]
      congr 1
      unfold seenF
      rw [h f.id (by simp [ctxIds]), seen_congr (t := f.sib) (fun k hk => h k (by simp [ctxIds, hk]))]

/-- what is known about a place takenV from the pool -/
theorem takenV {s s1 : State K F L} {tree : Nat} {T T1 : Tree K F L} {new : List Nat} (h : Ready s.forest tree T) (d : Done s s1 tree T T1)
    (hp : List.Perm T1.ids (new ++ T.ids)) :
    (∀ k ∈ new, k ∈ avail s.forest.nodes) ∧ new.Nodup ∧ ∀ k ∈ avail s1.forest.nodes, k ∈ avail s.forest.nodes := by
  have hnd := hp.nodup_iff.1 d.ready.nodup
  obtain ⟨n1, n2, n3⟩ := List.nodup_append'.1 hnd
  refine ⟨fun k hk => ?_, n1, fun k hk => ?_⟩
  · have : k ∈ avail s.forest.nodes ++ T.ids := d.cover.mem_iff.1 (List.mem_append_right _ (hp.mem_iff.2 (List.mem_append_left _ hk)))
    rcases List.mem_append.1 this with h' | h'
    · exact h'
    · exact absurd h' (n3 hk)
  · have : k ∈ avail s.forest.nodes ++ T.ids := d.cover.mem_iff.1 (List.mem_append_left _ hk)
    rcases List.mem_append.1 this with h' | h'
    · exact h'
    · exact absurd hk (d.ready.used k (hp.mem_iff.2 (List.mem_append_right _ h')))

theorem insert_fading {c : Config K} {p : Params K} {s s1 : State K F L} {id tree : Nat} {cut : Cut K F} {x : Fin F → K} {label : Fin L}
    (h : insert c p s id tree cut x label = .ok s1) : s1.fading = s.fading := by
  have tk : ∀ {s s1 : State K F L} {o : Option Nat}, takeNode s = .ok (o, s1) → s1.fading = s.fading := by
    intro s s1 o h
    unfold takeNode at h
    cases ha : availableNode s with
    | error e => simp only [ha, bind, Except.bind] at h; cases h
    | ok q =>
        cases q with
        | none => simp only [ha, bind, Except.bind, pure, Except.pure, Except.ok.injEq, Prod.mk.injEq] at h; rw [← h.2]
        | some i => simp only [ha, bind, Except.bind, pure, Except.pure, Except.ok.injEq, Prod.mk.injEq] at h; rw [← h.2]
  unfold insert at h
  cases t1 : takeNode s with
  | error e => simp only [t1, bind, Except.bind] at h; cases h
  | ok q =>
    obtain ⟨o, s2⟩ := q
    have e1 := tk t1
    cases o with
    | none => simp only [t1, bind, Except.bind, init] at h; cases h
    | some np =>
      simp only [t1, bind, Except.bind, init] at h
      split at h
      · cases h
      · rename_i n1 _
        split at h
        · cases h
        · rename_i q2 t2
          obtain ⟨o2, s3⟩ := q2
          have e2 := tk t2
          simp only at e2 h
          cases o2 with
          | none => cases h
          | some ns =>
            simp only at h
            split at h
            · cases h
            · split at h
              · cases h
              · split at h
                · cases h
                · have := Except.ok.inj h
                  rw [← this]
                  show s3.fading = _
                  rw [e2, e1]

/-- A new parent in both forests -/
theorem insert_moved (ha : 0 < u.a) (c : Config K) (p : Params K) (hlife : 0 ≤ p.lifetime) {s s' : State K F L} {tree : Nat} {fs : List (Frame K F L)}
    {t : Tree K F L} (h : Both u π s s' tree (plug fs t)) (h2 : 2 ≤ s.free) (cut : Cut K F) (hcut : 0 ≤ cut.tau) (x : Fin F → K) (label : Fin L) :
    ∃ s1 s1' π1 np ns, insert c p s t.id tree cut x label = .ok s1 ∧ insert c (u.par p) s' (seen u π t).id tree (u.cut cut) (u.pt x) (u.σ label) = .ok s1' ∧
      Moved u π π1 s s' s1 s1' tree (plug fs t) (plug fs (aboveC p.lifetime np ns cut t (parentCounts c.extend (fun _ => 0) t.data.counts label) x label)) := by
  have hr := h.r
  rw [seen_plug] at hr
  obtain ⟨np, ns, s1, i1, i2⟩ := insert_spec c p hlife s tree cut x label fs t h.l h.lf h2 hcut
  obtain ⟨np', ns', s1', i1', i2'⟩ := insert_spec c (u.par p) (Mondrian.par_life ha p hlife) s' tree (u.cut cut) (u.pt x) (u.σ label) (fs.map (seenF u π))
    (seen u π t) hr h.rf (by rw [h.free]; exact h2) (div_nonneg hcut ha.le)
  have f1 := insert_fading i1
  have f1' := insert_fading i1'
  generalize hcnt : parentCounts c.extend (fun _ => 0) t.data.counts label = cnt at i2
  have hcnt' : parentCounts c.extend (fun _ => 0) (seen u π t).data.counts (u.σ label) = u.fn cnt := by
    rw [seen_data, ← hcnt]
    exact parentCounts_seen _ _ _
  rw [hcnt'] at i2'
  have hp : ∀ (life : K) (np ns : Nat) (cut : Cut K F) (fs : List (Frame K F L)) (t : Tree K F L) (cnt : Fin L → Nat) (x : Fin F → K) (label : Fin L),
      List.Perm (plug fs (aboveC life np ns cut t cnt x label)).ids ([np, ns] ++ (plug fs t).ids) := by
    intro life np ns cut fs t cnt x label
    refine (plug_ids fs _).trans ?_
    refine ((aboveC_ids life np ns cut t cnt x label).append_right _).trans ?_
    simp only [List.cons_append, List.nil_append]
    exact List.Perm.cons _ (List.Perm.cons _ (plug_ids fs t).symm)
  obtain ⟨a1, a2, a3⟩ := takenV h.l i2 (hp ..)
  obtain ⟨a1', a2', a3'⟩ := takenV hr i2' (hp ..)
  have hnp := a1 np (by simp)
  have hns := a1 ns (by simp)
  have hne : ns ≠ np := by
    simp only [List.nodup_cons, List.mem_singleton] at a2
    exact fun e => a2.1 e.symm
  let π1 : Nat → Nat := fun k => if k = np then np' else if k = ns then ns' else π k
  have k1 : π1 np = np' := if_pos rfl
  have k2 : π1 ns = ns' := by show (if ns = np then _ else _) = _; rw [if_neg hne, if_pos rfl]
  have k3 : ∀ k, k ∉ avail s.forest.nodes → π1 k = π k := by
    intro k hk
    show (if k = np then _ else _) = _
    rw [if_neg (fun e => hk (by rw [e]; exact hnp)), if_neg (fun e => hk (by rw [e]; exact hns))]
  have k4 : ∀ k ∈ (plug fs t).ids, π1 k = π k := fun k hk => k3 k (h.l.used k hk)
  have hids := plug_ids fs t
  have hT1 : seen u π1 (plug fs (aboveC p.lifetime np ns cut t cnt x label)) =
      plug (fs.map (seenF u π)) (aboveC (u.par p).lifetime np' ns' (u.cut cut) (seen u π t) (u.fn cnt) (u.pt x) (u.σ label)) := by
    rw [seen_plug, seen_aboveC ha, k1, k2, seenF_congr (fun k hk => k4 k (hids.mem_iff.2 (List.mem_append_right _ hk))),
      seen_congr (fun k hk => k4 k (hids.mem_iff.2 (List.mem_append_left _ hk)))]
    rfl
  refine ⟨s1, s1', π1, np, ns, i1, i1', k3, i2, ?_, a3, fun k _ _ => by rw [f1], fun k _ _ => by rw [f1'], fun k hk => by rw [f1]; exact h.zl k (a3 k hk),
    fun k hk => by rw [f1']; exact h.zr k (a3' k hk), fun k hk => ?_⟩
  · rw [seen_plug fs t, hT1]
    exact i2'
  · rw [f1, f1']
    have hk' := (hp ..).mem_iff.1 hk
    simp only [List.cons_append, List.nil_append, List.mem_cons] at hk'
    rcases hk' with rfl | rfl | hk'
    · rw [k1, h.zl _ hnp, h.zr _ (a1' _ (by simp))]
    · rw [k2, h.zl _ hns, h.zr _ (a1' _ (by simp))]
    · rw [k4 k hk', h.fading k hk']

/-- Changing the data of the node looked at, in both forests -/
theorem data_moved {s s' s1 s1' : State K F L} {tree : Nat} {fs : List (Frame K F L)} {t : Tree K F L} (h : Both u π s s' tree (plug fs t)) {d : Data K F L}
    (dl : Done s s1 tree (plug fs t) (plug fs (t.withData d)))
    (dr : Done s' s1' tree (plug (fs.map (seenF u π)) (seen u π t)) (plug (fs.map (seenF u π)) ((seen u π t).withData (u.data d))))
    (gl : ∀ k, k ≠ t.id → s1.fading[k]? = s.fading[k]?) (gr : ∀ k, k ≠ π t.id → s1'.fading[k]? = s'.fading[k]?)
    (g0 : s1'.fading[π t.id]? = s1.fading[t.id]?) : Moved u π π s s' s1 s1' tree (plug fs t) (plug fs (t.withData d)) := by
  have hp : ∀ (fs : List (Frame K F L)) (t : Tree K F L) (d : Data K F L), List.Perm (plug fs (t.withData d)).ids ([] ++ (plug fs t).ids) := by
    intro fs t d
    refine (plug_ids fs _).trans ?_
    rw [Mondrian.withData_ids]
    exact (plug_ids fs t).symm
  have hr := h.r
  rw [seen_plug] at hr
  obtain ⟨-, -, a3⟩ := takenV h.l dl (hp ..)
  obtain ⟨-, -, a3'⟩ := takenV hr dr (hp ..)
  have hid : t.id ∈ (plug fs t).ids := (plug_ids fs t).mem_iff.2 (List.mem_append_left _ (id_mem_ids t))
  have hid' : π t.id ∈ (seen u π (plug fs t)).ids := by rw [seen_ids]; exact List.mem_map_of_mem hid
  have hnd := h.r.nodup
  rw [seen_ids] at hnd
  refine ⟨fun _ _ => rfl, dl, by rw [seen_plug, seen_plug, seen_withData]; exact dr, a3, fun k hk _ => gl k (fun e => hk (e ▸ hid)),
    fun k hk _ => gr k (fun e => hk (e ▸ hid')), fun k hk => ?_, fun k hk => ?_, fun k hk => ?_⟩
  · rw [gl k (fun e => h.l.used _ hid (e ▸ a3 k hk))]
    exact h.zl k (a3 k hk)
  · rw [gr k (fun e => h.r.used _ hid' (e ▸ a3' k hk))]
    exact h.zr k (a3' k hk)
  · have hk' : k ∈ (plug fs t).ids := (hp ..).mem_iff.1 hk
    by_cases e : k = t.id
    · rw [e]; exact g0
    · rw [gl k e, gr (π k) (fun e' => e (List.inj_on_of_nodup_map hnd hk' hid e')), h.fading k hk']

theorem countAt_fading {s s1 : State K F L} {id : Nat} {label : Fin L} (h : countAt s id label = .ok s1) :
    ∃ f, s.fading[id]? = some f ∧ s1.fading = s.fading.set id (f + 1) := by
  unfold countAt at h
  cases h1 : upd s.forest.nodes id (fun n => { n with counts := bump n.counts label }) with
  | error e => simp only [h1, bind, Except.bind] at h; cases h
  | ok nodes =>
      simp only [h1, bind, Except.bind] at h
      cases h2 : rd s.fading id with
      | error e => simp only [h2] at h; cases h
      | ok f =>
          have h2' := rd_eq_ok_iff.1 h2
          simp only [h2, wr_ok _ (lt_of_get h2'), pure, Except.pure] at h
          refine ⟨f, h2', ?_⟩
          rw [← Except.ok.inj h]

theorem countAt_moved {s s' : State K F L} {tree : Nat} {fs : List (Frame K F L)} {t : Tree K F L} (h : Both u π s s' tree (plug fs t)) (label : Fin L) :
    ∃ s1 s1', countAt s t.id label = .ok s1 ∧ countAt s' (seen u π t).id (u.σ label) = .ok s1' ∧
      Moved u π π s s' s1 s1' tree (plug fs t) (plug fs (t.withData { t.data with counts := bump t.data.counts label })) := by
  have hr := h.r
  rw [seen_plug] at hr
  obtain ⟨s1, a1, a2⟩ := countAt_spec s tree h.l h.lf h.l1 label
  obtain ⟨s1', b1, b2⟩ := countAt_spec s' tree hr h.rf h.r1 (u.σ label)
  obtain ⟨f, f1, f2⟩ := countAt_fading a1
  obtain ⟨f', f1', f2'⟩ := countAt_fading b1
  rw [seen_id] at f1' f2'
  have hid : t.id ∈ (plug fs t).ids := (plug_ids fs t).mem_iff.2 (List.mem_append_left _ (id_mem_ids t))
  have hff : f' = f := by
    have := h.fading _ hid
    rw [f1, f1'] at this
    exact Option.some.inj this
  subst hff
  refine ⟨s1, s1', a1, b1, data_moved h a2 ?_ (fun k hk => by rw [f2, List.getElem?_set_ne (Ne.symm hk)])
    (fun k hk => by rw [f2', List.getElem?_set_ne (Ne.symm hk)]) ?_⟩
  · rw [seen_data] at b2
    have e : ({ u.data t.data with counts := bump (u.data t.data).counts (u.σ label) } : Data K F L) = u.data { t.data with counts := bump t.data.counts label } := by
      show Data.mk _ _ (bump (u.fn t.data.counts) (u.σ label)) = _
      rw [Mondrian.bump_change]
      rfl
    rw [e] at b2
    exact b2
  · rw [f2, f2', List.getElem?_set_self (lt_of_get f1), List.getElem?_set_self (lt_of_get f1')]

theorem bumpAt_moved {s s' : State K F L} {tree : Nat} {fs : List (Frame K F L)} {t : Tree K F L} (h : Both u π s s' tree (plug fs t)) (label : Fin L) :
    ∃ n1 n1', upd s.forest.nodes t.id (fun n => { n with counts := bump n.counts label }) = .ok n1 ∧
      upd s'.forest.nodes (seen u π t).id (fun n => { n with counts := bump n.counts (u.σ label) }) = .ok n1' ∧
      Moved u π π s s' { s with forest := { s.forest with nodes := n1 } } { s' with forest := { s'.forest with nodes := n1' } } tree (plug fs t)
        (plug fs (t.withData { t.data with counts := bump t.data.counts label })) := by
  have hr := h.r
  rw [seen_plug] at hr
  obtain ⟨n1, a1, a2⟩ := bumpAt_spec s tree h.l h.lf label
  obtain ⟨n1', b1, b2⟩ := bumpAt_spec s' tree hr h.rf (u.σ label)
  have hid : t.id ∈ (plug fs t).ids := (plug_ids fs t).mem_iff.2 (List.mem_append_left _ (id_mem_ids t))
  refine ⟨n1, n1', a1, b1, data_moved h a2 ?_ (fun k hk => rfl) (fun k hk => rfl) (h.fading _ hid)⟩
  rw [seen_data] at b2
  have e : ({ u.data t.data with counts := bump (u.data t.data).counts (u.σ label) } : Data K F L) = u.data { t.data with counts := bump t.data.counts label } := by
    show Data.mk _ _ (bump (u.fn t.data.counts) (u.σ label)) = _
    rw [Mondrian.bump_change]
    rfl
  rw [e] at b2
  exact b2

/-! ### Going down -/

/-- what both forests are after a call -/
def Out (u : Change K F L) (π : Nat → Nat) (s s' : State K F L) (tree : Nat) (fs : List (Frame K F L)) (t : Tree K F L) (r r' : State K F L × Nat) : Prop :=
  r'.2 = r.2 ∧ ∃ π1 t1, Moved u π π1 s s' r.1 r'.1 tree (plug fs t) (plug fs t1)

/-- The recursive calls do the same in both forests. -/
def RecV (u : Change K F L) (tree : Nat) (rec rec' : Nat → Nat → State K F L → Res (State K F L × Nat)) (t : Tree K F L) : Prop :=
  ∀ (fs : List (Frame K F L)) (π : Nat → Nat) (pos : Nat) (s s' : State K F L), Both u π s s' tree (plug fs t) →
    RelR (Out u π s s' tree fs t) (rec t.id pos s) (rec' (seen u π t).id pos s')

/-- the end of `descend` at a split node -/
theorem back_seen (c : Config K) {π1 : Nat → Nat} {s s' s1 s1' : State K F L} {tree : Nat} {fs : List (Frame K F L)} {t0 t : Tree K F L} (label : Fin L) (pos : Nat)
    (h : Both u π s s' tree (plug fs t0)) (m : Moved u π π1 s s' s1 s1' tree (plug fs t0) (plug fs t)) :
    RelR (Out u π s s' tree fs t0)
      (if c.extend = .ghost then do
        let nodes ← upd s1.forest.nodes t.id (fun n => { n with counts := bump n.counts label })
        return ({ s1 with forest := { s1.forest with nodes := nodes } }, pos)
      else return (s1, pos) : Res (State K F L × Nat))
      (if c.extend = .ghost then do
        let nodes ← upd s1'.forest.nodes (seen u π1 t).id (fun n => { n with counts := bump n.counts (u.σ label) })
        return ({ s1' with forest := { s1'.forest with nodes := nodes } }, pos)
      else return (s1', pos) : Res (State K F L × Nat)) := by
  by_cases hg : c.extend = .ghost
  · rw [if_pos hg, if_pos hg]
    obtain ⟨n1, n1', a1, a2, a3⟩ := bumpAt_moved (m.both h) label
    simp only [a1, a2, bind, Except.bind, pure, Except.pure]
    exact ⟨rfl, π1, _, m.trans a3⟩
  · rw [if_neg hg, if_neg hg]
    exact ⟨rfl, π1, t, m⟩

theorem descend_seen (ha : 0 < u.a) (c : Config K) (x : Fin F → K) (label : Fin L) (tree : Nat)
    (rec rec' : Nat → Nat → State K F L → Res (State K F L × Nat)) (hrec : ∀ t, RecV u tree rec rec' t) (t : Tree K F L)
    (fs : List (Frame K F L)) (π : Nat → Nat) (pos : Nat) (s s' : State K F L) (h : Both u π s s' tree (plug fs t)) :
    RelR (Out u π s s' tree fs t) (descend c x label rec t.id pos s) (descend c (u.pt x) (u.σ label) rec' (seen u π t).id pos s') := by
  have hr := h.r
  rw [seen_plug] at hr
  obtain ⟨-, ht, -, -, -, -⟩ := h.l.parts
  obtain ⟨-, ht', -, -, -, -⟩ := hr.parts
  cases t with
  | leaf id d =>
      obtain ⟨n, h1, h2, h3⟩ := ht
      obtain ⟨n', h1', h2', h3'⟩ := ht'
      obtain ⟨s1, s1', a1, a2, a3⟩ := countAt_moved h label
      have a1' : countAt s id label = .ok s1 := a1
      have a2' : countAt s' (π id) (u.σ label) = .ok s1' := a2
      unfold descend
      simp only [Tree.id, seen, rd_eq_ok_iff.2 h1, rd_eq_ok_iff.2 h1', h3, h3', a1', a2', bind, Except.bind, pure, Except.pure]
      exact ⟨rfl, π, _, a3⟩
  | node id d dim sp l r =>
      obtain ⟨⟨n, h1, h2, h3, h4, h5, h6⟩, hl, hrr⟩ := ht
      obtain ⟨⟨n', h1', h2', h3', h4', h5', h6'⟩, hl', hrr'⟩ := ht'
      have hx := Change.pt_le ha x sp dim
      have hid0 : (Mondrian.Tree.node id d dim sp l r).id = id := rfl
      have hid0' : (seen u π (Mondrian.Tree.node id d dim sp l r)).id = π id := rfl
      unfold descend
      simp only [hid0, hid0', rd_eq_ok_iff.2 h1, rd_eq_ok_iff.2 h1', h3, h3', h4, h4', h5, h5', h6, h6', init, bind, Except.bind, hx]
      by_cases hx' : x dim ≤ sp
      · rw [if_pos hx', if_pos hx']
        simp only
        have hR := hrec l (⟨id, d, dim, sp, true, r⟩ :: fs) π pos s s' h
        cases e1 : rec l.id pos s with
        | error e =>
            cases e2 : rec' (seen u π l).id pos s' with
            | error e' => rw [e1, e2] at hR; exact hR
            | ok q => rw [e1, e2] at hR; cases hR
        | ok q =>
            cases e2 : rec' (seen u π l).id pos s' with
            | error e' => rw [e1, e2] at hR; cases hR
            | ok q' =>
                rw [e1, e2] at hR
                obtain ⟨p1, π1, l1, m⟩ := hR
                simp only [p1]
                have := back_seen c label q.2 (fs := fs) (t0 := .node id d dim sp l r) (t := .node id d dim sp l1 r) h m
                have hid : π1 id = π id := m.keep id (h.l.used id ((plug_ids fs _).mem_iff.2 (by simp [Tree.ids])))
                have hid1 : (seen u π1 (Mondrian.Tree.node id d dim sp l1 r)).id = π id := hid
                have hid2 : (Mondrian.Tree.node id d dim sp l1 r).id = id := rfl
                simp only [hid1, hid2, bind, Except.bind] at this
                exact this
      · rw [if_neg hx', if_neg hx']
        simp only
        have hR := hrec r (⟨id, d, dim, sp, false, l⟩ :: fs) π pos s s' h
        cases e1 : rec r.id pos s with
        | error e =>
            cases e2 : rec' (seen u π r).id pos s' with
            | error e' => rw [e1, e2] at hR; exact hR
            | ok q => rw [e1, e2] at hR; cases hR
        | ok q =>
            cases e2 : rec' (seen u π r).id pos s' with
            | error e' => rw [e1, e2] at hR; cases hR
            | ok q' =>
                rw [e1, e2] at hR
                obtain ⟨p1, π1, r1, m⟩ := hR
                simp only [p1]
                have := back_seen c label q.2 (fs := fs) (t0 := .node id d dim sp l r) (t := .node id d dim sp l r1) h m
                have hid : π1 id = π id := m.keep id (h.l.used id ((plug_ids fs _).mem_iff.2 (by simp [Tree.ids])))
                have hid1 : (seen u π1 (Mondrian.Tree.node id d dim sp l r1)).id = π id := hid
                have hid2 : (Mondrian.Tree.node id d dim sp l r1).id = id := rfl
                simp only [hid1, hid2, bind, Except.bind] at this
                exact this

/-! ### The recursion -/

theorem forced_ok {l : List Int} {i : Nat} (h : i < l.length) (q : Prop) [Decidable q] : ∃ l', (if q then do
    let f ← rd l i
    wr l i (f + 1)
  else .ok l : Res (List Int)) = .ok l' ∧ l'.length = l.length := by
  by_cases hq : q
  · rw [if_pos hq]
    simp only [rd_eq_ok_iff.2 (List.getElem?_eq_getElem h), wr_ok _ h, bind, Except.bind]
    exact ⟨_, rfl, by simp⟩
  · rw [if_neg hq]
    exact ⟨_, rfl, rfl⟩

theorem box_done {s : State K F L} {tree : Nat} {fs : List (Frame K F L)} {t : Tree K F L} (h : Ready s.forest tree (plug fs t))
    (hf : s.free = (avail s.forest.nodes).length) {n : Node K F L} (hn : s.forest.nodes[t.id]? = some n) (b : Box K F) (forced' : List Int)
    (hl : forced'.length = s.forced.length) :
    Done s { s with
      forest := { s.forest with nodes := s.forest.nodes.set t.id { n with box := some b } }
      forced := forced' } tree (plug fs t) (plug fs (t.withData { t.data with box := b })) := by
  obtain ⟨-, ht, -, -, -, -⟩ := h.parts
  obtain ⟨n', hn', hhas⟩ := holds_root ht
  rw [hn] at hn'
  cases hn'
  have hlt := lt_of_get hn
  exact done_update (s' := { s with
      forest := { s.forest with nodes := s.forest.nodes.set t.id { n with box := some b } }
      forced := forced' }) (n' := { n with box := some b }) (d' := { t.data with box := b }) h hf hn (by simp) rfl (fun j => by
      show (s.forest.nodes.set t.id _)[j]? = _
      rw [List.getElem?_set]
      by_cases hj : t.id = j
      · subst hj; rw [if_pos rfl, if_pos rfl, if_pos hlt]
      · rw [if_neg hj, if_neg (Ne.symm hj)]) rfl rfl rfl rfl ⟨hhas.1, hhas.2.1, rfl, hhas.2.2.2⟩ rfl rfl rfl rfl rfl hl (fun h => h)

theorem extendBlock_err (c : Config K) (p : Params K) (ω : Nat → K) (x : Fin F → K) (label : Fin L) (tree fuel pos : Nat) (s : State K F L)
    {fs : List (Frame K F L)} {t : Tree K F L} (h : Ready s.forest tree (plug fs t)) {e : Err} (hp : paused c s tree t.id = .error e) :
    extendBlock c p ω x label tree (fuel + 1) t.id pos s = .error e := by
  obtain ⟨hctx, ht, -, -, -, -⟩ := h.parts
  obtain ⟨n, hn, hhas⟩ := holds_root ht
  have e1 := Mondrian.ctxTau_spec hctx
  rw [← hhas.1] at e1
  rw [extendBlock]
  simp only [rd_eq_ok_iff.2 hn, bind, Except.bind]
  cases hpar : n.parent with
  | none => simp only [hhas.2.2.1, init, hp]
  | some q =>
      rw [hpar] at e1
      simp only at e1
      simp only [e1, hhas.2.2.1, init, hp]

theorem Out.after {π1 : Nat → Nat} {s s' s1 s1' : State K F L} {tree : Nat} {fs : List (Frame K F L)} {t t1 : Tree K F L}
    (m : Moved u π π1 s s' s1 s1' tree (plug fs t) (plug fs t1)) {r r' : Res (State K F L × Nat)} (h : RelR (Out u π1 s1 s1' tree fs t1) r r') :
    RelR (Out u π s s' tree fs t) r r' := by
  cases r with
  | error e => cases r' with
    | error e' => exact h
    | ok q => cases h
  | ok q => cases r' with
    | error e => cases h
    | ok q' =>
        obtain ⟨h1, π2, t2, h2⟩ := h
        exact ⟨h1, π2, t2, m.trans h2⟩

theorem extendBlock_seen (ha : 0 < u.a) (c : Config K) (p : Params K) (hlife : 0 ≤ p.lifetime) (ω : Nat → K) (hω : ∀ i, 0 ≤ ω i ∧ ω i < 1)
    (x : Fin F → K) (label : Fin L) (tree : Nat) : ∀ (fuel : Nat) (t : Tree K F L),
    RecV u tree (extendBlock c p ω x label tree fuel) (extendBlock c (u.par p) ω (u.pt x) (u.σ label) tree fuel) t
  | 0, t => by
      intro fs π pos s s' h
      exact rfl
  | fuel + 1, t => by
      intro fs π pos s s' h
      have hrec := extendBlock_seen ha c p hlife ω hω x label tree fuel
      have hr := h.r
      rw [seen_plug] at hr
      have hpause := paused_seen c h
      cases hp : paused c s tree t.id with
      | error e =>
          rw [hp] at hpause
          rw [extendBlock_err c p ω x label tree fuel pos s h.l hp, extendBlock_err c (u.par p) ω (u.pt x) (u.σ label) tree fuel pos s' hr hpause]
          rfl
      | ok pause =>
      rw [hp] at hpause
      obtain ⟨-, ht, -, -, -, -⟩ := h.l.parts
      obtain ⟨-, ht', -, -, -, -⟩ := hr.parts
      obtain ⟨n, hn, hhas⟩ := holds_root ht
      obtain ⟨n', hn', hhas'⟩ := holds_root ht'
      have hct := Mondrian.ctxTau_nonneg h.l
      rw [extendBlock_step c p ω x label tree fuel pos s h.l hn hp,
        extendBlock_step c (u.par p) ω (u.pt x) (u.σ label) tree fuel pos s' hr hn' hpause]
      simp only [bind, Except.bind]
      have hbox : (seen u π t).data.box = u.box t.data.box := by rw [seen_data]; rfl
      have htau : (seen u π t).data.tau = t.data.tau / u.a := by rw [seen_data]; rfl
      obtain ⟨q1, q2⟩ := expo_seen ha p ω pos t.data.box x
      rw [hbox, htau, seen_ctxTau, q1]
      have hex := expo_nonneg (p := p) (ω := ω) (pos := pos) (b := t.data.box) (x := x)
      generalize (expo (u.par p) ω pos (u.box t.data.box) (u.pt x)).1 = e' at q2 ⊢
      generalize (expo p ω pos t.data.box x).1 = e at q2 hex ⊢
      generalize (expo p ω pos t.data.box x).2 = pos1
      have hdn : ∀ v : K, 0 ≤ v / u.a ↔ 0 ≤ v := fun v => ⟨fun h => by
        by_contra hn
        exact absurd h (not_le.2 (div_neg_of_neg_of_pos (not_le.1 hn) ha)), fun h => div_nonneg h ha.le⟩
      have c1 : (0 ≤ e' ∧ ctxTau fs / u.a + e' < t.data.tau / u.a ∧ 2 ≤ s'.free ∧ pause = false) ↔
          (0 ≤ e ∧ ctxTau fs + e < t.data.tau ∧ 2 ≤ s.free ∧ pause = false) := by
        rw [h.free]
        rcases q2 with q | ⟨q, q'⟩
        · rw [q, ← add_div, div_lt_div_iff_of_pos_right ha, hdn]
        · rw [q, q']
          exact ⟨fun h => absurd h.1 (by norm_num), fun h => absurd h.1 (by norm_num)⟩
      have c2 : (c.extend = .original ∨ c.extend = .barycenter ∨ e' < 0 ∨ t.data.tau / u.a < ctxTau fs / u.a + e') ↔
          (c.extend = .original ∨ c.extend = .barycenter ∨ e < 0 ∨ t.data.tau < ctxTau fs + e) := by
        rcases q2 with q | ⟨q, q'⟩
        · rw [q, ← add_div, div_lt_div_iff_of_pos_right ha, ← not_le, hdn, not_le]
        · rw [q, q']
          have : (-1 : K) < 0 := by norm_num
          exact ⟨fun _ => Or.inr (Or.inr (Or.inl this)), fun _ => Or.inr (Or.inr (Or.inl this))⟩
      by_cases hin : 0 ≤ e ∧ ctxTau fs + e < t.data.tau ∧ 2 ≤ s.free ∧ pause = false
      · rw [if_pos hin, if_pos (c1.2 hin)]
        have hs := hex hin.1
        have hee : e' = e / u.a := by
          rcases q2 with q | ⟨-, q⟩
          · exact q
          · rw [q] at hin
            exact absurd hin.1 (by norm_num)
        rw [hee, ← add_div, drawCut_seen ha ω pos1 t.data.box x (ctxTau fs + e) hs]
        rcases drawCut_fine True ω hω (fun _ _ => trivial) pos1 t.data.box x (ctxTau fs + e) hs with ⟨-, err, hd⟩ | ⟨cut, pos2, d1, d2, d3⟩
        · simp only [hd, Except.map]
          rfl
        · simp only [d1, Except.map]
          obtain ⟨s1, s1', π1, np, ns, i1, i2, m⟩ := insert_moved ha c p hlife h hin.2.2.1 cut (by rw [d3]; linarith [hin.1]) x label
          simp only [i1, i2]
          by_cases hcn : c.extend = .counterNoUpdate
          · rw [if_pos hcn, if_pos hcn]
            generalize parentCounts c.extend (fun _ => 0) t.data.counts label = cnt at m
            have hT1 : plug fs (aboveC p.lifetime np ns cut t cnt x label) = plug (newFrame p.lifetime np ns cut t cnt x label :: fs) t := by
              rw [plug, newFrame_fill _ _ _ _ _ _ _ _ _ rfl]
            have hB := m.both h
            rw [hT1] at hB
            have hD := descend_seen ha c x label tree _ _ hrec t (newFrame p.lifetime np ns cut t cnt x label :: fs) π1 pos2 s1 s1' hB
            have hid : (seen u π1 t).id = (seen u π t).id := by
              rw [seen_id, seen_id]
              exact m.keep _ (h.l.used _ ((plug_ids fs t).mem_iff.2 (List.mem_append_left _ (id_mem_ids t))))
            rw [hid] at hD
            refine Out.after m ?_
            cases r1 : descend c x label (extendBlock c p ω x label tree fuel) t.id pos2 s1 with
            | error e => cases r2 : descend c (u.pt x) (u.σ label) (extendBlock c (u.par p) ω (u.pt x) (u.σ label) tree fuel) (seen u π t).id pos2 s1' with
              | error e' => rw [r1, r2] at hD; exact hD
              | ok q => rw [r1, r2] at hD; cases hD
            | ok q => cases r2 : descend c (u.pt x) (u.σ label) (extendBlock c (u.par p) ω (u.pt x) (u.σ label) tree fuel) (seen u π t).id pos2 s1' with
              | error e' => rw [r1, r2] at hD; cases hD
              | ok q' =>
                  rw [r1, r2] at hD
                  obtain ⟨g1, π2, t2, g2⟩ := hD
                  refine ⟨g1, π2, (newFrame p.lifetime np ns cut t cnt x label).fill t2, ?_⟩
                  rw [hT1]
                  exact g2
          · rw [if_neg hcn, if_neg hcn]
            exact ⟨rfl, π1, _, m⟩
      · rw [if_neg hin, if_neg (fun h => hin (c1.1 h))]
        by_cases hup : c.extend = .original ∨ c.extend = .barycenter ∨ e < 0 ∨ t.data.tau < ctxTau fs + e
        · rw [if_pos hup, if_pos (c2.2 hup)]
          obtain ⟨fo, w1, w2⟩ := forced_ok (l := s.forced) (i := t.id) (by rw [h.l2]; exact lt_of_get hn)
            (c.extend = .barycenter ∧ 0 ≤ e ∧ ctxTau fs + e < t.data.tau)
          obtain ⟨fo', w1', w2'⟩ := forced_ok (l := s'.forced) (i := (seen u π t).id) (by rw [h.r2]; exact lt_of_get hn')
            (c.extend = .barycenter ∧ 0 ≤ e' ∧ ctxTau fs / u.a + e' < t.data.tau / u.a)
          simp only [bind, Except.bind] at w1 w1'
          simp only [wr_ok _ (lt_of_get hn), wr_ok _ (lt_of_get hn'), w1, w1', newBox_seen ha]
          have dl := box_done h.l h.lf hn (newBox c t.data.box x) fo w2
          have dr := box_done hr h.rf hn' (u.box (newBox c t.data.box x)) fo' w2'
          have hdat : ({ (seen u π t).data with box := u.box (newBox c t.data.box x) } : Data K F L) = u.data { t.data with box := newBox c t.data.box x } := by
            rw [seen_data]
            rfl
          rw [hdat] at dr
          have hid0 : t.id ∈ (plug fs t).ids := (plug_ids fs t).mem_iff.2 (List.mem_append_left _ (id_mem_ids t))
          have m := data_moved h dl dr (fun _ _ => rfl) (fun _ _ => rfl) (h.fading _ hid0)
          refine Out.after m ?_
          have hD := descend_seen ha c x label tree _ _ hrec _ fs π pos1 _ _ (m.both h)
          rw [Mondrian.withData_id, seen_withData, Mondrian.withData_id] at hD
          exact hD
        · rw [if_neg hup, if_neg (fun h => hup (c2.1 h))]
          by_cases hgh : c.extend = .ghost
          · rw [if_pos hgh, if_pos hgh]
            obtain ⟨s1, s1', a1, a2, a3⟩ := countAt_moved h label
            simp only [a1, a2, pure, Except.pure]
            exact ⟨rfl, π, _, a3⟩
          · rw [if_neg hgh, if_neg hgh]
            by_cases hcn : c.extend = .counterNoUpdate
            · rw [if_pos hcn, if_pos hcn]
              exact descend_seen ha c x label tree _ _ hrec t fs π pos1 s s' h
            · rw [if_neg hcn, if_neg hcn]
              exact ⟨rfl, π, t, Moved.refl h⟩

end Orp.Coarse
