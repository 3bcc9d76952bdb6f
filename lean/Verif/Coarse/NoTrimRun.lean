import Verif.Coarse.NoTrim
import Verif.Mondrian.Props

/-!
Without trimming, histories with the code of the splits are histories without it.
-/

set_option linter.unusedSectionVars false

namespace Orp.Coarse

open Finset
open Mondrian (Node Box Forest Params Cut upd init extent cutAt bump sampleBlock Tree Data Frame plug ctxPar ctxTau ctxIds HoldsCtx Holds Ready avail mem_avail
  avail_nodup upd_spec lt_of_get newLeaf holds_plug plug_ids holds_root id_mem_ids holds_mem set_same allIds recountAll OnlyCounts Times oids allIds_split mem_allIds)

variable {K : Type} [Field K] [LinearOrder K] [IsStrictOrderedRing K] [FloorRing K] {F L : Nat}

/-! ### `count_fe_down` -/

/-- the sum of the numbers of forced extensions on the route of a point -/
def wayForced (forced : List Int) (x : Fin F → K) : Tree K F L → Int
  | .leaf id _ => forced.getD id 0
  | .node id _ dim sp l r => forced.getD id 0 + (if x dim ≤ sp then wayForced forced x l else wayForced forced x r)

theorem countFe_spec (s : State K F L) (hl : s.forced.length = s.forest.nodes.length) (x : Fin F → K) : ∀ (fuel : Nat) (t : Tree K F L) (par : Option Nat),
    t.height ≤ fuel → Holds s.forest.nodes par t → countFe s x fuel t.id = .ok (wayForced s.forced x t)
  | 0, t, par, hh, _ => by have := height_pos t; omega
  | fuel + 1, t, par, hh, ht => by
      cases t with
      | leaf id d =>
          obtain ⟨n, h1, h2, h3⟩ := ht
          have hlt : id < s.forced.length := by rw [hl]; exact lt_of_get h1
          show countFe s x (fuel + 1) id = _
          rw [countFe, rd_eq_ok_iff.2 h1, ok_bind, rd_eq_ok_iff.2 (List.getElem?_eq_getElem hlt), ok_bind]
          simp only [h3, wayForced, List.getD_eq_getElem?_getD, List.getElem?_eq_getElem hlt, Option.getD_some, pure, Except.pure]
      | node id d dim sp l r =>
          obtain ⟨⟨n, h1, h2, h3, h4, h5, h6⟩, hl', hr⟩ := ht
          have hlt : id < s.forced.length := by rw [hl]; exact lt_of_get h1
          have hml : l.height ≤ Nat.max l.height r.height := Nat.le_max_left _ _
          have hmr : r.height ≤ Nat.max l.height r.height := Nat.le_max_right _ _
          simp only [Mondrian.Tree.height] at hh
          have il := countFe_spec s hl x fuel l _ (by omega) hl'
          have ir := countFe_spec s hl x fuel r _ (by omega) hr
          show countFe s x (fuel + 1) id = _
          rw [countFe, rd_eq_ok_iff.2 h1, ok_bind, rd_eq_ok_iff.2 (List.getElem?_eq_getElem hlt), ok_bind]
          simp only [h3, h4, h5, h6, init, ok_bind, wayForced, List.getD_eq_getElem?_getD, List.getElem?_eq_getElem hlt, Option.getD_some]
          by_cases hx : sp < x dim
          · rw [if_pos hx, if_neg (not_le.2 hx)]
            simp only [ok_bind, ir, pure, Except.pure]
          · rw [if_neg hx, if_pos (not_lt.1 hx)]
            simp only [ok_bind, il, pure, Except.pure]

/-! ### One tree -/

theorem Inv.avail_iff {s : State K F L} {trees : List (Option (Tree K F L))} (h : Inv s trees) (i : Nat) :
    i ∈ avail s.forest.nodes ↔ i < s.forest.nodes.length ∧ i ∉ allIds trees := by
  constructor
  · intro hi
    obtain ⟨n, hn, -⟩ := mem_avail.1 hi
    exact ⟨lt_of_get hn, fun hm => h.mem.used hm hi⟩
  · rintro ⟨h1, h2⟩
    have := h.mem.cover.mem_iff.2 (List.mem_range.2 h1)
    simp only [List.nil_append] at this
    exact (List.mem_append.1 this).resolve_right h2

theorem Unforced.inv {s s' : State K F L} {trees trees' : List (Option (Tree K F L))} (h : Unforced s) (hI : Inv s trees) (hI' : Inv s' trees')
    (hlen : s'.forest.nodes.length = s.forest.nodes.length) (hids : ∀ i ∈ allIds trees, i ∈ allIds trees')
    (hf : ∀ i, i ∉ allIds trees → s'.forced[i]? = s.forced[i]?) : Unforced s' := by
  intro i hi f hf'
  obtain ⟨h1, h2⟩ := (hI'.avail_iff i).1 hi
  have h3 : i ∉ allIds trees := fun h => h2 (hids i h)
  rw [hf i h3] at hf'
  exact h i ((hI.avail_iff i).2 ⟨by omega, h3⟩) f hf'

/-- What holds between two calls without trimming. -/
structure Quiet (c : Config K) (s : State K F L) (full : Nat) (trees : List (Option (Tree K F L))) : Prop where
  full : 0 < full → s.free ≤ 1
  unforced : Unforced s
  stuck : ∀ (j : Nat) (T : Tree K F L) (b : Base), trees[j]? = some (some T) → s.bases[j]? = some b → Stuck c b T 0 s

theorem allIds_set {trees : List (Option (Tree K F L))} {i : Nat} {o o' : Option (Tree K F L)} (hi : trees[i]? = some o) (h : ∀ k ∈ oids o, k ∈ oids o') :
    ∀ k ∈ allIds trees, k ∈ allIds (trees.set i o') := by
  intro k hk
  obtain ⟨rest, h1, h2, -⟩ := allIds_split trees i o hi
  rcases List.mem_append.1 (h1.mem_iff.1 hk) with hk | hk
  · exact (h2 o').mem_iff.2 (List.mem_append_left _ (h k hk))
  · exact (h2 o').mem_iff.2 (List.mem_append_right _ hk)

/-- two trees of the forest have no common node -/
theorem Inv.apart {s : State K F L} {trees : List (Option (Tree K F L))} (h : Inv s trees) {i j : Nat} {t u : Tree K F L} (hi : trees[i]? = some (some t))
    (hj : trees[j]? = some (some u)) (hij : j ≠ i) : ∀ k ∈ u.ids, k ∉ t.ids := by
  intro k hk hk'
  obtain ⟨rest, h1, -, h3⟩ := allIds_split trees i _ hi
  exact (List.nodup_append'.1 (h1.nodup_iff.1 h.mem.all.nodup)).2.2 hk' (h3 j u hij hj k hk)

theorem trainTree_empty_shift (c : Config K) (p : Params K) (ω ω' : Nat → K) (x : Fin F → K) (label : Fin L) (tree : Nat) (s : State K F L) (pos pos' : Nat)
    (hr : rd s.forest.roots tree = .ok none) : trainTree c p ω' x label tree s pos' = (trainTree c p ω x label tree s pos).map (put3 · pos') := by
  unfold trainTree
  rw [hr, ok_bind, ok_bind]
  simp only
  cases takeNode s with
  | error e => rfl
  | ok r =>
      obtain ⟨o, s1⟩ := r
      rw [ok_bind, ok_bind]
      cases o with
      | none => rfl
      | some id =>
          simp only
          cases wr s1.forest.roots tree (some id) with
          | error e => rfl
          | ok roots =>
              rw [ok_bind, ok_bind]
              cases upd s1.forest.nodes id _ with
              | error e => rfl
              | ok nodes =>
                  rw [ok_bind, ok_bind]
                  cases sampleBlock p nodes id x label with
                  | error e => rfl
                  | ok nodes => rfl

theorem trainTree_empty_keeps {c : Config K} {p : Params K} {ω : Nat → K} {x : Fin F → K} {label : Fin L} {tree : Nat} {s s' : State K F L} {pos pos' : Nat} {b : Bool}
    (hr : rd s.forest.roots tree = .ok none) (h : trainTree c p ω x label tree s pos = .ok (s', pos', b)) : s'.forced = s.forced ∧ s'.free ≤ s.free := by
  unfold trainTree at h
  rw [hr, ok_bind] at h
  obtain ⟨⟨o, s1⟩, h1, h⟩ := bind_ok h
  obtain ⟨k1, k2⟩ := takeNode_keeps h1
  cases o with
  | none => cases h; exact ⟨k1, k2.le⟩
  | some id =>
      obtain ⟨roots, -, h⟩ := bind_ok h
      obtain ⟨nodes, -, h⟩ := bind_ok h
      obtain ⟨nodes2, -, h⟩ := bind_ok h
      cases h
      exact ⟨k1, by show s1.free - 1 ≤ _; rw [k2]; omega⟩

theorem trainTree_same (c : Config K) (hc : c.extend = .barycenter) (sc : SplitConfig K) (p : Params K) (hlife : 0 ≤ p.lifetime) (ω : Nat → K)
    (hω : ∀ i, 0 ≤ ω i ∧ ω i < 1) (ex : Extra K F) (x : Fin F → K) (label : Fin L) (s : State K F L) (trees : List (Option (Tree K F L))) (hI : Inv s trees)
    (hq : Quiet c s ex.full trees) (i pos : Nat) (hi : i < trees.length) :
    Same put3 get3 ω pos (trainTreeSplit c sc p ω ex x label i s pos) (fun ω' pos' => trainTree c p ω' x label i s pos') ∧
      ∀ s' pos' r, trainTreeSplit c sc p ω ex x label i s pos = .ok (s', pos', r) →
        ∃ trees', Inv s' trees' ∧ Quiet c s' ex.full trees' ∧ trees'.length = trees.length ∧ s'.forest.nodes.length = s.forest.nodes.length := by
  cases ho : trees[i] with
  | none =>
      have hg : trees[i]? = some none := by rw [List.getElem?_eq_getElem hi, ho]
      have hr := rd_eq_ok_iff.2 (hI.mem.root hg)
      have e1 : trainTreeSplit c sc p ω ex x label i s pos = trainTree c p ω x label i s pos := by
        unfold trainTreeSplit
        rw [hr, ok_bind]
        rfl
      rw [e1]
      refine ⟨same_nil (fun a ha => ?_) (fun ω' pos' => trainTree_empty_shift c p ω ω' x label i s pos pos' hr), fun s' pos' r hres => ?_⟩
      · have := trainTree_empty_shift c p ω ω x label i s pos pos hr
        rw [ha] at this
        exact congrArg (·.2.1) (Except.ok.inj this)
      obtain ⟨k1, k2⟩ := trainTree_empty_keeps hr hres
      rcases trainTree_none c p hlife ω x label s trees hI i pos hg with ⟨-, e⟩ | ⟨s1, a, f1, f2, f3, f4, -, -⟩
      · rw [e] at hres
        cases hres
        exact ⟨trees, hI, hq, rfl, rfl⟩
      · rw [f1] at hres
        cases hres
        have hids : ∀ k ∈ allIds trees, k ∈ allIds (trees.set i (some (newLeaf p.lifetime a x label))) := allIds_set hg (by simp [oids])
        refine ⟨_, f2, ⟨fun h => k2.trans (hq.full h), hq.unforced.inv hI f2 f3 hids (fun k _ => by rw [k1]), fun j T b hj hb => ?_⟩, by simp, f3⟩
        rw [f4] at hb
        by_cases hji : j = i
        · subst hji
          rw [List.getElem?_set_self hi] at hj
          cases hj
          intro q hqm f hqf hpos
          exfalso
          rw [List.mem_singleton.1 hqm, k1] at hqf
          have ha : a ∈ avail s.forest.nodes := by
            have hnew : (trees.set j (some (newLeaf p.lifetime a x label)))[j]? = some (some (newLeaf p.lifetime a x label)) := List.getElem?_set_self hi
            have h1 := f2.mem.ids_lt (mem_allIds hnew (List.mem_singleton.2 rfl))
            refine (hI.avail_iff a).2 ⟨by rw [← f3]; exact h1, fun hm => ?_⟩
            obtain ⟨rest, r1, r2, -⟩ := allIds_split trees j _ hg
            have hm' : a ∈ rest := by simpa [oids] using r1.mem_iff.1 hm
            have hnd := (r2 (some (newLeaf p.lifetime a x label))).nodup_iff.1 f2.mem.all.nodup
            exact (List.nodup_append'.1 hnd).2.2 (List.mem_singleton.2 rfl) hm'
          exact absurd (hq.unforced a ha f hqf) (not_le.2 hpos)
        · rw [List.getElem?_set_ne (Ne.symm hji)] at hj
          exact (hq.stuck j T b hj hb).le k2 (fun k _ => by rw [k1])
  | some t =>
      have hg : trees[i]? = some (some t) := by rw [List.getElem?_eq_getElem hi, ho]
      have hr := rd_eq_ok_iff.2 (hI.mem.root hg)
      have hlb : i < s.bases.length := by rw [hI.bases]; exact hi
      have hb : s.bases[i]? = some s.bases[i] := List.getElem?_eq_getElem hlb
      obtain ⟨sum, hsum⟩ : ∃ sum, (match sc.trigger with
          | .total => .ok (s.total : Int)
          | .sfe => countFe s x s.forest.nodes.length t.id
          | _ => .ok 0 : Res Int) = .ok sum := by
        cases sc.trigger with
        | none => exact ⟨_, rfl⟩
        | positive => exact ⟨_, rfl⟩
        | total => exact ⟨_, rfl⟩
        | sfe => exact ⟨_, countFe_spec s hI.forced x _ t none (hI.mem.height_le hg) (hI.mem.ready hg).holds⟩
      have e1 : trainTreeSplit c sc p ω ex x label i s pos = (extendSplit c sc p ω ex x label i sum s.forest.nodes.length t.id pos s).map (fun r => (r.1, r.2, true)) := by
        unfold trainTreeSplit
        rw [hr, ok_bind]
        simp only [Option.map_some, hc, if_true]
        refine (eq_bind hsum _).trans ?_
        cases extendSplit c sc p ω ex x label i sum s.forest.nodes.length t.id pos s with
        | error e => rfl
        | ok r => rfl
      have e2 : ∀ ω' pos', trainTree c p ω' x label i s pos' = (extendBlock c p ω' x label i s.forest.nodes.length t.id pos' s).map (fun r => (r.1, r.2, true)) := by
        intro ω' pos'
        unfold trainTree
        rw [hr, ok_bind]
        simp only [Option.map_some, hc, reduceCtorEq, if_false]
        cases extendBlock c p ω' x label i s.forest.nodes.length t.id pos' s with
        | error e => rfl
        | ok r => rfl
      obtain ⟨⟨us, u1, u2, u3, u4⟩, g⟩ := extendSplit_same c hc sc p hlife ω hω ex x label i sum s.bases[i] s.forest.nodes.length t [] pos s (hI.mem.ready hg) hI.free hI.fading
        hI.forced hb hq.full hq.unforced (hq.stuck i t _ hg hb)
      rw [e1]
      refine ⟨⟨us, u1, u2, fun a ha => ?_, fun ω' pos' hd => ?_⟩, fun s' pos' r hres => ?_⟩
      · cases hx : extendSplit c sc p ω ex x label i sum s.forest.nodes.length t.id pos s with
        | error e => rw [hx] at ha; cases ha
        | ok q =>
            rw [hx] at ha
            cases ha
            exact u3 q hx
      · have := u4 ω' pos' hd
        beta_reduce at this ⊢
        rw [e2, this]
        cases extendSplit c sc p ω ex x label i sum s.forest.nodes.length t.id pos s with
        | error e => rfl
        | ok r => rfl
      · cases hx : extendSplit c sc p ω ex x label i sum s.forest.nodes.length t.id pos s with
        | error e => rw [hx] at hres; cases hres
        | ok q =>
            rw [hx] at hres
            cases hres
            obtain ⟨t', w⟩ := g q.1 q.2 hx
            have hd : Done s q.1 i t t' := w.done
            have hI' := hI.done hg hd
            refine ⟨_, hI', ⟨fun h => w.free.trans (hq.full h), hq.unforced.inv hI hI' hd.length (allIds_set hg w.ids) (fun k hk => ?_), fun j T b hj hb' => ?_⟩, by simp, hd.length⟩
            · exact w.forced k (fun hm => hk (mem_allIds hg hm))
            · rw [hd.bases] at hb'
              by_cases hji : j = i
              · subst hji
                rw [List.getElem?_set_self hi] at hj
                cases hj
                rw [hb] at hb'
                cases hb'
                exact w.stuck
              · rw [List.getElem?_set_ne (Ne.symm hji)] at hj
                exact (hq.stuck j T b hj hb').le w.free (fun k hk => w.forced k (hI.apart hg hj hji k hk))

/-! ### `train` -/

theorem trainLoop_same (c : Config K) (hc : c.extend = .barycenter) (sc : SplitConfig K) (p : Params K) (hlife : 0 ≤ p.lifetime) (ω : Nat → K)
    (hω : ∀ i, 0 ≤ ω i ∧ ω i < 1) (ex : Extra K F) (x : Fin F → K) (label : Fin L) : ∀ (k i : Nat) (s : State K F L) (trees : List (Option (Tree K F L))) (pos : Nat) (ok : Bool),
    Inv s trees → Quiet c s ex.full trees → i + k = trees.length →
    Same put3 get3 ω pos (trainLoopSplit c sc p ω ex x label i k s pos ok) (fun ω' pos' => trainLoop c p ω' x label i k s pos' ok) ∧
      ∀ s' pos' r, trainLoopSplit c sc p ω ex x label i k s pos ok = .ok (s', pos', r) →
        ∃ trees', Inv s' trees' ∧ Quiet c s' ex.full trees' ∧ trees'.length = trees.length
  | 0, i, s, trees, pos, ok, hI, hq, hk => by
      refine ⟨same_nil (fun a ha => by cases ha; rfl) (fun ω' pos' => rfl), fun s' pos' r hres => ?_⟩
      cases hres
      exact ⟨trees, hI, hq, rfl⟩
  | k + 1, i, s, trees, pos, ok, hI, hq, hk => by
      obtain ⟨⟨us, u1, u2, u3, u4⟩, g⟩ := trainTree_same c hc sc p hlife ω hω ex x label s trees hI hq i pos (by omega)
      rw [trainLoopSplit]
      cases hx : trainTreeSplit c sc p ω ex x label i s pos with
      | error e =>
          refine ⟨⟨us, u1, u2, fun a ha => by (cases ha), fun ω' pos' hd => ?_⟩, fun s' pos' r hres => by cases hres⟩
          have := u4 ω' pos' hd
          beta_reduce at this ⊢
          rw [trainLoop, this, hx]
          rfl
      | ok q =>
          obtain ⟨s1, pos1, r1⟩ := q
          obtain ⟨trees1, i1, i2, i3, -⟩ := g s1 pos1 r1 hx
          obtain ⟨⟨vs, v1, v2, v3, v4⟩, g2⟩ := trainLoop_same c hc sc p hlife ω hω ex x label k (i + 1) s1 trees1 pos1 (ok && r1) i1 i2 (by omega)
          obtain ⟨ja, jb⟩ := js_append u1 u2 (u3 _ hx).2 (u3 _ hx).1 v1 v2
          refine ⟨⟨us ++ vs, ja, jb, fun a ha => ⟨(u3 _ hx).1.trans (v3 a ha).1, fun j hj => ?_⟩, fun ω' pos' hd => ?_⟩, fun s' pos' r hres => ?_⟩
          · rcases List.mem_append.1 hj with hj | hj
            · exact ((u3 _ hx).2 j hj).trans_le (v3 a ha).1
            · exact (v3 a ha).2 j hj
          · rw [List.map_append] at hd
            obtain ⟨hd1, hd2⟩ := (draws_append _ _ _ _).1 hd
            rw [List.length_map] at hd2
            have h1 := u4 ω' pos' hd1
            have h2 := v4 ω' _ hd2
            beta_reduce at h1 h2 ⊢
            rw [trainLoop, h1, hx]
            rw [List.length_append, ← Nat.add_assoc]
            exact h2
          · obtain ⟨trees', j1, j2, j3⟩ := g2 s' pos' r hres
            exact ⟨trees', j1, j2, j3.trans i3⟩

/-- the part of the result of a call that is there without the code of the splits -/
def noExtra (r : State K F L × Extra K F × Nat) : State K F L × Nat := (r.1, r.2.2)

theorem recount_places (t : Tree K F L) : ∀ dist, places t.recount dist = places t dist := by
  have hh : ∀ t : Tree K F L, t.recount.height = t.height := by
    intro t
    induction t with
    | leaf id d => rfl
    | node id d dim sp l r ihl ihr => simp only [Mondrian.Tree.recount, Mondrian.Tree.height, ihl, ihr]
  induction t with
  | leaf id d => intro dist; rfl
  | node id d dim sp l r ihl ihr =>
      intro dist
      simp only [Mondrian.Tree.recount, places, hh, ihl, ihr]

theorem execSplit_same (c : Config K) (hc : c.extend = .barycenter) (htrim : c.trim = .none) (sc : SplitConfig K) (p : Params K) (h0 : p.exp 0 = 1) (hd : 0 ≤ p.discount)
    (hlife : 0 ≤ p.lifetime) (ω : Nat → K) (hω : ∀ i, 0 ≤ ω i ∧ ω i < 1) (bases : List Base) (m : Nat) (op : Op K F L) (s : State K F L)
    (trees : List (Option (Tree K F L))) (ex : Extra K F) (pos : Nat) (hG : Good c True bases m s trees) (hv : Valid trees.length op) (hq : Quiet c s ex.full trees) :
    Same put2 get2 ω pos ((execSplit c sc p ω op s ex pos).map noExtra) (fun ω' pos' => exec c p ω' op s pos') ∧
      ∀ s' ex' pos', execSplit c sc p ω op s ex pos = .ok (s', ex', pos') →
        ∃ trees', Good c True bases m s' trees' ∧ Quiet c s' ex'.full trees' ∧ trees'.length = trees.length := by
  -- it is enough to find trees that have no forced extensions
  suffices h : Same put2 get2 ω pos ((execSplit c sc p ω op s ex pos).map noExtra) (fun ω' pos' => exec c p ω' op s pos') ∧
      ∀ s' ex' pos', execSplit c sc p ω op s ex pos = .ok (s', ex', pos') → ∃ trees', Inv s' trees' ∧ Quiet c s' ex'.full trees' by
    refine ⟨h.1, fun s' ex' pos' hres => ?_⟩
    obtain ⟨trees', q1, q2⟩ := h.2 s' ex' pos' hres
    obtain ⟨js, -, -, -, u2⟩ := h.1
    generalize hus : js.map ω = us at u2
    have u1 : ∀ u ∈ us, ∃ j, u = ω j := by
      intro u hu
      rw [← hus] at hu
      obtain ⟨j, -, rfl⟩ := List.mem_map.1 hu
      exact ⟨j, rfl⟩
    have hω' : ∀ i, 0 ≤ us.getD i (ω 0) ∧ us.getD i (ω 0) < 1 := by
      intro i
      rw [List.getD_eq_getElem?_getD]
      cases hg : us[i]? with
      | none => exact hω 0
      | some u =>
          obtain ⟨j, rfl⟩ := u1 u (List.mem_of_getElem? hg)
          exact hω j
    have hdr : ∀ (us : List K) (pre : List K) (z : K), Draws us (fun i => (pre ++ us).getD i z) pre.length := by
      intro us
      induction us with
      | nil => intro pre z; trivial
      | cons u us ih =>
          intro pre z
          refine ⟨by simp, ?_⟩
          have := ih (pre ++ [u]) z
          simp only [List.append_assoc, List.singleton_append, List.length_append, List.length_cons, List.length_nil, Nat.zero_add] at this
          exact this
    have e := u2 (fun i => us.getD i (ω 0)) 0 (hdr us [] (ω 0))
    rw [hres] at e
    rcases exec_spec True c p h0 hd hlife (fun i => us.getD i (ω 0)) hω' (fun _ _ => trivial) True bases (fun _ _ _ => .inr trivial) m op s trees 0 hG hv with
      ⟨-, err, he⟩ | ⟨s2, pos2, trees2, f1, f2, f3, -⟩
    · beta_reduce at e
      rw [he] at e
      cases e
    · beta_reduce at e
      rw [f1] at e
      have e' := Except.ok.inj e
      have : s2 = s' := congrArg (·.1) e'
      subst this
      have := Mondrian.C52_trees_unique f2.inv.mem.all q1.mem.all
      subst this
      exact ⟨trees2, f2, q2, f3⟩
  have hI := hG.inv
  cases op with
  | train x label =>
      have hroots : s.forest.roots.length = trees.length := by rw [hI.mem.all.roots, List.length_map]
      generalize hex : ({ ex with
        sum := fun i => ex.sum i * sc.fadingCount + x i
        count := ex.count * sc.fadingCount + 1 } : Extra K F) = ex1
      have hfull : ex1.full = ex.full := by rw [← hex]
      obtain ⟨⟨us, u1, u2, u3, u4⟩, g⟩ := trainLoop_same c hc sc p hlife ω hω ex1 x label trees.length 0 s trees pos true hI (by rw [hfull]; exact hq) (by omega)
      have e1 : execSplit c sc p ω (.train x label) s ex pos = (trainLoopSplit c sc p ω ex1 x label 0 trees.length s pos true).map (fun r =>
          ({ r.1 with total := r.1.total + 1 }, if r.1.free ≤ 1 then { ex1 with full := ex1.full + 1 } else ex1, r.2.1)) := by
        unfold execSplit trainSplit
        simp only [htrim, hex, hroots, reduceCtorEq, if_false, not_true, false_and, ok_bind, ne_eq]
        cases trainLoopSplit c sc p ω ex1 x label 0 trees.length s pos true with
        | error e => rfl
        | ok r => subst hex; rfl
      have e2 : ∀ ω' pos', exec c p ω' (.train x label) s pos' = (trainLoop c p ω' x label 0 trees.length s pos' true).map (fun r =>
          ({ r.1 with total := r.1.total + 1 }, r.2.1)) := by
        intro ω' pos'
        unfold exec train
        simp only [htrim, hroots, reduceCtorEq, if_false, not_true, false_and, ok_bind, ne_eq]
        cases trainLoop c p ω' x label 0 trees.length s pos' true with
        | error e => rfl
        | ok r => rfl
      rw [e1]
      refine ⟨⟨us, u1, u2, fun a ha => ?_, fun ω' pos' hd => ?_⟩, fun s' ex' pos' hres => ?_⟩
      · cases hx : trainLoopSplit c sc p ω ex1 x label 0 trees.length s pos true with
        | error e => rw [hx] at ha; cases ha
        | ok q =>
            rw [hx] at ha
            cases ha
            exact u3 q hx
      · have := u4 ω' pos' hd
        beta_reduce at this ⊢
        rw [e2, this]
        cases trainLoopSplit c sc p ω ex1 x label 0 trees.length s pos true with
        | error e => rfl
        | ok r => rfl
      · cases hx : trainLoopSplit c sc p ω ex1 x label 0 trees.length s pos true with
        | error e => rw [hx] at hres; cases hres
        | ok q =>
            obtain ⟨s1, pos1, r1⟩ := q
            rw [hx] at hres
            cases hres
            obtain ⟨trees', i1, i2, -⟩ := g s1 pos1 r1 hx
            refine ⟨trees', ⟨i1.mem, i1.free, i1.fading, i1.forced, i1.scores, i1.bases⟩, ⟨?_, i2.unforced, i2.stuck⟩⟩
            show 0 < (if s1.free ≤ 1 then { ex1 with full := ex1.full + 1 } else ex1 : Extra K F).full → s1.free ≤ 1
            split
            · rename_i h; exact fun _ => h
            · exact i2.full
  | predict x use =>
      have hpos : ∀ t, some t ∈ trees → Pos c t := by
        intro t ht
        obtain ⟨j, hj⟩ := List.mem_iff_getElem?.1 ht
        obtain ⟨b, hb, -⟩ := hG.base (lt_of_get hj)
        exact (hG.tree j _ b hj hb).2 t rfl
      obtain ⟨nodes', l, f1, f2, f3, -, -, -⟩ := predict_spec c p h0 hd s trees hI hpos x use hv.1 hv.2
      unfold execSplit
      simp only [exec, f1, ok_bind]
      refine ⟨same_nil (fun a ha => by cases ha; rfl) (fun ω' pos' => rfl), fun s' ex' pos' hres => ?_⟩
      cases hres
      have hids : ∀ i, i ∈ allIds trees → i ∈ allIds (trees.map (counted c)) := by
        intro i hi
        have : trees.map (counted c) = recountAll trees := by
          unfold recountAll counted
          simp only [hc, reduceCtorEq, if_false]
        rw [this, Mondrian.recountAll_ids]
        exact hi
      refine ⟨trees.map (counted c), f2, ⟨hq.full, hq.unforced.inv hI f2 f3.1 hids (fun _ _ => rfl), fun j T b hj hb => ?_⟩⟩
      rw [List.getElem?_map] at hj
      obtain ⟨o, h1, h2⟩ := Option.map_eq_some_iff.1 hj
      unfold counted at h2
      simp only [hc, reduceCtorEq, if_false] at h2
      obtain ⟨t, rfl, rfl⟩ := Option.map_eq_some_iff.1 h2
      have := hq.stuck j t b h1 hb
      unfold Stuck at this ⊢
      rw [recount_places]
      exact this
  | trim =>
      unfold execSplit
      simp only [exec, treeTrim, htrim, if_true, ok_bind]
      refine ⟨same_nil (fun a ha => by cases ha; rfl) (fun ω' pos' => rfl), fun s' ex' pos' hres => ?_⟩
      cases hres
      exact ⟨trees, hI, hq⟩
  | fade =>
      obtain ⟨f, f1, f2⟩ := treeFade_spec s trees hI
      unfold execSplit
      simp only [exec, f1, ok_bind]
      refine ⟨same_nil (fun a ha => by cases ha; rfl) (fun ω' pos' => rfl), fun s' ex' pos' hres => ?_⟩
      cases hres
      exact ⟨trees, f2, ⟨hq.full, hq.unforced, hq.stuck⟩⟩
  | other last =>
      unfold execSplit
      simp only [exec, ok_bind]
      refine ⟨same_nil (fun a ha => by cases ha; rfl) (fun ω' pos' => rfl), fun s' ex' pos' hres => ?_⟩
      cases hres
      exact ⟨trees, ⟨hI.mem, hI.free, hI.fading, hI.forced, hI.scores, hI.bases⟩, ⟨hq.full, hq.unforced, hq.stuck⟩⟩

theorem runSplit_same (c : Config K) (hc : c.extend = .barycenter) (htrim : c.trim = .none) (sc : SplitConfig K) (p : Params K) (h0 : p.exp 0 = 1) (hd : 0 ≤ p.discount)
    (hlife : 0 ≤ p.lifetime) (ω : Nat → K) (hω : ∀ i, 0 ≤ ω i ∧ ω i < 1) (bases : List Base) (m : Nat) : ∀ (ops : List (Op K F L)) (s : State K F L)
    (trees : List (Option (Tree K F L))) (ex : Extra K F) (pos : Nat), Good c True bases m s trees → (∀ op ∈ ops, Valid trees.length op) → Quiet c s ex.full trees →
    Same put2 get2 ω pos ((runSplit c sc p ω ops s ex pos).map noExtra) (fun ω' pos' => run c p ω' ops s pos')
  | [], s, trees, ex, pos, hG, hv, hq => same_nil (fun a ha => by cases ha; rfl) (fun ω' pos' => rfl)
  | op :: ops, s, trees, ex, pos, hG, hv, hq => by
      obtain ⟨⟨us, u1, u2, u3, u4⟩, g⟩ := execSplit_same c hc htrim sc p h0 hd hlife ω hω bases m op s trees ex pos hG (hv op List.mem_cons_self) hq
      rw [runSplit]
      cases hx : execSplit c sc p ω op s ex pos with
      | error e =>
          refine ⟨us, u1, u2, fun a ha => by (cases ha), fun ω' pos' hd => ?_⟩
          have := u4 ω' pos' hd
          beta_reduce at this ⊢
          rw [run, this, hx]
          rfl
      | ok q =>
          obtain ⟨s1, ex1, pos1⟩ := q
          obtain ⟨trees1, i1, i2, i3⟩ := g s1 ex1 pos1 hx
          obtain ⟨vs, v1, v2, v3, v4⟩ := runSplit_same c hc htrim sc p h0 hd hlife ω hω bases m ops s1 trees1 ex1 pos1 i1
            (fun op hop => by rw [i3]; exact hv op (List.mem_cons_of_mem _ hop)) i2
          have u3' : pos ≤ pos1 ∧ ∀ j ∈ us, j < pos1 := u3 (s1, pos1) (by rw [hx]; rfl)
          obtain ⟨ja, jb⟩ := js_append u1 u2 u3'.2 u3'.1 v1 v2
          refine ⟨us ++ vs, ja, jb, fun a ha => ⟨u3'.1.trans (v3 a ha).1, fun j hj => ?_⟩, fun ω' pos' hd => ?_⟩
          · rcases List.mem_append.1 hj with hj | hj
            · exact (u3'.2 j hj).trans_le (v3 a ha).1
            · exact (v3 a ha).2 j hj
          · rw [List.map_append] at hd
            obtain ⟨hd1, hd2⟩ := (draws_append _ _ _ _).1 hd
            rw [List.length_map] at hd2
            have h1 := u4 ω' pos' hd1
            have h2 := v4 ω' _ hd2
            beta_reduce at h1 h2 ⊢
            rw [run, h1, hx]
            rw [List.length_append, ← Nat.add_assoc]
            exact h2

end Orp.Coarse
