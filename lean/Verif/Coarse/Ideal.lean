import Verif.Coarse.History
import Verif.Mondrian.Props
import Verif.Unbound.Compare

/-!
With `EXTEND_ORIGINAL` and a tree management that does not stop the growth, training a tree does what it does in the forest with unlimited memory, as long as
there is memory.
-/

set_option linter.unusedSectionVars false

namespace Orp.Coarse

open Finset
open Mondrian (Node Box Forest Params Tree Data Cut upd init extent bump avail lt_of_get newLeaf Ready Frame plug ctxTau grow above both draw
  holds_root content_node content_leaf oids allIds allIds_split recountAll SameTrees set_same)
open Unbound (idealTree idealLoop idealRun contents)

variable {K : Type} [Field K] [LinearOrder K] [IsStrictOrderedRing K] [FloorRing K] {F L : Nat}

/-! ### The random choices -/

/-- both forests draw the same dimension -/
theorem pickDim_same (ω : Nat → K) (pos : Nat) (e : Fin F → K) (he : ∀ i, 0 ≤ e i) (hs : 0 < ∑ i, e i) (h1 : ω pos < 1) :
    Mondrian.pickDim ω pos e (∑ i, e i) = pickDim ω pos e (∑ i, e i) := by
  have hsum : (List.ofFn e).sum = ∑ i, e i := by rw [List.sum_ofFn]
  obtain ⟨r, a1, a2, a3, a4, a5, a6, a7⟩ := Utils.C29_cumulative (List.ofFn e) (by simpa [List.mem_ofFn] using he) (by rw [hsum]; exact hs)
  have a1' : Utils.turnIntoProbability (List.ofFn e) (∑ i, e i) = .ok r := by
    rw [← a1]
    unfold Utils.turnIntoProbability
    rw [if_neg (not_lt.2 hs.le), if_pos (by norm_num), Utils.foldl_add, zero_add, hsum]
  obtain ⟨b1, -⟩ := Utils.C30_first_index_partial r a5 a7 h1
  have hlen : r.length = F := by rw [a2]; simp
  have hd : Utils.pick r (ω pos) < F := by omega
  unfold Mondrian.pickDim pickDim
  simp only [a1', bind, Except.bind, dif_pos hd]

/-- the choices of the two forests, if there is memory -/
theorem draw_same (p : Params K) (ω : Nat → K) (hω : ∀ i, 0 ≤ ω i ∧ ω i < 1) (pos : Nat) (b : Box K F) (x : Fin F → K) (ptau tau : K) :
    draw p ω pos b x ptau tau =
      if 0 ≤ (expo p ω pos b x).1 ∧ ptau + (expo p ω pos b x).1 < tau then
        (drawCut ω (expo p ω pos b x).2 b x (ptau + (expo p ω pos b x).1)).map (fun r => (some r.1, r.2))
      else .ok (none, (expo p ω pos b x).2) := by
  unfold draw
  simp only
  by_cases hs : ∑ i, extent b x i = 0
  · have he : expo p ω pos b x = (-1, pos) := by unfold expo extentSum; rw [if_pos hs]
    rw [if_pos hs, he, if_neg (fun h => absurd h.1 (by norm_num))]
  · have hs' : 0 < ∑ i, extent b x i := lt_of_le_of_ne (Mondrian.sum_nonneg' b x) (Ne.symm hs)
    have he : expo p ω pos b x = (p.log (1 - ω pos) / (-∑ i, extent b x i), pos + 1) := by unfold expo extentSum; rw [if_neg hs]
    rw [if_neg hs, he]
    simp only
    by_cases h : 0 ≤ p.log (1 - ω pos) / (-∑ i, extent b x i) ∧ ptau + p.log (1 - ω pos) / (-∑ i, extent b x i) < tau
    · rw [if_pos h, if_pos h]
      unfold drawCut extentSum
      rw [pickDim_same ω (pos + 1) _ (Mondrian.extent_nonneg b x) hs' (hω _).2]
      cases pickDim ω (pos + 1) (extent b x) (∑ i, extent b x i) with
      | error e => rfl
      | ok q =>
          simp only [bind, Except.bind]
          cases Mondrian.cutAt ω q.2 b x q.1 (ptau + p.log (1 - ω pos) / (-∑ i, extent b x i)) <;> rfl
    · rw [if_neg h, if_neg h]

/-! ### One tree -/

theorem aboveC_content (lifetime : K) (np ns : Nat) (f : Nat × Nat) (cut : Cut K F) (t : Tree K F L) (cnt : Fin L → Nat) (x : Fin F → K) (label : Fin L) :
    (aboveC lifetime np ns cut t cnt x label).content = (above lifetime f cut t x label).content := by
  unfold aboveC above
  split <;> simp only [content_node, newLeaf, content_leaf]

theorem above_length (lifetime : K) (f : Nat × Nat) (cut : Cut K F) (t : Tree K F L) (x : Fin F → K) (label : Fin L) :
    (above lifetime f cut t x label).ids.length = t.ids.length + 2 := by
  unfold above
  simp only
  split <;> simp [Tree.ids, newLeaf]

theorem node_content {id id' : Nat} {d : Data K F L} {dim : Fin F} {sp : K} {l l' r r' : Tree K F L} (hl : l.content = l'.content) (hr : r.content = r'.content) :
    (Mondrian.Tree.node id d dim sp l r).content = (Mondrian.Tree.node id' d dim sp l' r').content := by
  simp only [content_node, hl, hr]

/-- The recursive call does what growing without limits does, if there are two nodes or no node is needed. -/
def RecEx (p : Params K) (ω : Nat → K) (base : Base) (x : Fin F → K) (label : Fin L) (tree : Nat)
    (rec : Nat → Nat → State K F L → Res (State K F L × Nat)) (t : Tree K F L) : Prop :=
  ∀ (fs : List (Frame K F L)) (pos : Nat) (s : State K F L), Ready s.forest tree (plug fs t) → s.free = (avail s.forest.nodes).length →
    s.bases[tree]? = some base → s.fading.length = s.forest.nodes.length → s.forced.length = s.forest.nodes.length →
    match grow p ω (some (0, 0)) x label t (ctxTau fs) pos with
    | .error e => 2 ≤ s.free → rec t.id pos s = .error e
    | .ok (u, pos') => 2 ≤ s.free ∨ u.ids.length ≤ t.ids.length →
        ∃ s' t', rec t.id pos s = .ok (s', pos') ∧ t'.content = u.content ∧ Done s s' tree (plug fs t) (plug fs t')

/-- `grow` in one formula -/
theorem grow_step (p : Params K) (ω : Nat → K) (x : Fin F → K) (label : Fin L) (f : Nat × Nat) (t : Tree K F L) (ptau : K) (pos : Nat) :
    grow p ω (some f) x label t ptau pos =
      match draw p ω pos t.data.box x ptau t.data.tau with
      | .error e => .error e
      | .ok (some c, pos) => .ok (above p.lifetime f c t x label, pos)
      | .ok (none, pos) =>
        match t with
        | .leaf id d => .ok (.leaf id { tau := d.tau, box := d.box.extend x, counts := bump d.counts label }, pos)
        | .node id d dim sp l r =>
          if x dim ≤ sp then
            match grow p ω (some f) x label l d.tau pos with
            | .error e => .error e
            | .ok (l, pos) => .ok (.node id { tau := d.tau, box := d.box.extend x, counts := d.counts } dim sp l r, pos)
          else
            match grow p ω (some f) x label r d.tau pos with
            | .error e => .error e
            | .ok (r, pos) => .ok (.node id { tau := d.tau, box := d.box.extend x, counts := d.counts } dim sp l r, pos) := by
  cases t with
  | leaf id d =>
      rw [grow]
      simp only [Tree.data]
      cases draw p ω pos d.box x ptau d.tau with
      | error e => rfl
      | ok q =>
          obtain ⟨c, pos1⟩ := q
          cases c <;> rfl
  | node id d dim sp l r =>
      rw [grow]
      simp only [Tree.data]
      cases draw p ω pos d.box x ptau d.tau with
      | error e => rfl
      | ok q =>
          obtain ⟨c, pos1⟩ := q
          cases c <;> rfl

theorem extendBlock_exact (c : Config K) (hm : c.extend = .original) (p : Params K) (hlife : 0 ≤ p.lifetime) (ω : Nat → K)
    (hω : ∀ i, 0 ≤ ω i ∧ ω i < 1) (x : Fin F → K) (label : Fin L) (tree : Nat) (base : Base) (hnc : c.isCobble = false)
    (hroom : c.management = .robur ∨ c.management = .pausingPhoenix → base.size < base.limit) : ∀ (fuel : Nat) (t : Tree K F L),
    t.height ≤ fuel → RecEx p ω base x label tree (extendBlock c p ω x label tree fuel) t
  | 0, t, hh => by have := height_pos t; omega
  | fuel + 1, t, hh => by
      intro fs pos s h hf hb hl1 hl2
      obtain ⟨hctx, ht, -, -, -, -⟩ := h.parts
      obtain ⟨n, hn, hhas⟩ := holds_root ht
      obtain ⟨pause, hp1, hp2⟩ := paused_spec c s tree hb h (fun hc => by rw [hnc] at hc; cases hc)
      have hpf : pause = false := by
        rw [hp2]
        unfold Room
        rw [hnc, if_neg (by simp)]
        split
        · rename_i hq; exact hroom hq
        · trivial
      subst hpf
      have hct := Mondrian.ctxTau_nonneg h
      rw [grow_step, draw_same p ω hω, extendBlock_step c p ω x label tree fuel pos s h hn hp1]
      simp only [bind, Except.bind]
      generalize he : (expo p ω pos t.data.box x).1 = e
      generalize (expo p ω pos t.data.box x).2 = pos1
      by_cases hw : 0 ≤ e ∧ ctxTau fs + e < t.data.tau
      · rw [if_pos hw]
        cases hd : drawCut ω pos1 t.data.box x (ctxTau fs + e) with
        | error err =>
            simp only [Except.map]
            intro h2
            rw [if_pos ⟨hw.1, hw.2, h2, trivial⟩]
        | ok q =>
            obtain ⟨cut, pos2⟩ := q
            simp only [Except.map]
            intro h2
            have h2 : 2 ≤ s.free := by
              rcases h2 with h2 | h2
              · exact h2
              · rw [above_length] at h2; omega
            rw [if_pos ⟨hw.1, hw.2, h2, trivial⟩]
            have htau : cut.tau = ctxTau fs + e := by
              unfold drawCut at hd
              cases hq : pickDim ω pos1 (extent t.data.box x) (extentSum t.data.box x) with
              | error err => rw [hq] at hd; cases hd
              | ok q =>
                  rw [hq] at hd
                  exact (Mondrian.cutAt_spec (hω _).1 (hω _).2 hd).2.1
            obtain ⟨np, ns, s1, i1, i2⟩ := insert_spec c p hlife s tree cut x label fs t h hf h2 (by rw [htau]; linarith [hw.1])
            simp only [i1, if_neg (show ¬ c.extend = .counterNoUpdate by rw [hm]; decide), pure, Except.pure]
            exact ⟨s1, _, rfl, aboveC_content _ _ _ _ _ _ _ _ _, i2⟩
      · rw [if_neg hw, if_neg (fun hq => hw ⟨hq.1, hq.2.1⟩), if_pos (Or.inl hm)]
        have hlt := lt_of_get hn
        have hnb : newBox c t.data.box x = t.data.box.extend x := by unfold newBox; rw [if_neg (by rw [hm]; decide)]
        simp only [wr_ok _ hlt, if_neg (show ¬ (c.extend = .barycenter ∧ 0 ≤ e ∧ ctxTau fs + e < t.data.tau) from fun hq => hw hq.2), hnb]
        have dn := done_update (s' := { s with
            forest := { s.forest with nodes := s.forest.nodes.set t.id { n with box := some (t.data.box.extend x) } } })
            (n' := { n with box := some (t.data.box.extend x) }) (d' := { t.data with box := t.data.box.extend x }) h hf hn (by simp) rfl (fun j => by
            show (s.forest.nodes.set t.id _)[j]? = _
            rw [List.getElem?_set]
            by_cases hj : t.id = j
            · subst hj; rw [if_pos rfl, if_pos rfl, if_pos hlt]
            · rw [if_neg hj, if_neg (Ne.symm hj)]) rfl rfl rfl rfl ⟨hhas.1, hhas.2.1, rfl, hhas.2.2.2⟩ rfl rfl rfl rfl rfl rfl (fun h => h)
        generalize hs1 : ({ s with
            forest := { s.forest with nodes := s.forest.nodes.set t.id { n with box := some (t.data.box.extend x) } } } : State K F L) = s1 at dn ⊢
        have hfree : s1.free = s.free := by rw [← hs1]
        have hb1 : s1.bases[tree]? = some base := by rw [dn.bases]; exact hb
        have hl11 : s1.fading.length = s1.forest.nodes.length := by rw [dn.fading, dn.length]; exact hl1
        have hl21 : s1.forced.length = s1.forest.nodes.length := by rw [dn.forced, dn.length]; exact hl2
        cases t with
        | leaf id d =>
            simp only
            intro _
            have hr1 := dn.ready
            obtain ⟨-, ht1, -, -, -, -⟩ := hr1.parts
            obtain ⟨n1, g1, g2, g3⟩ := ht1
            obtain ⟨s', e1, e2⟩ := countAt_spec s1 tree dn.ready dn.free hl11 label
            have e1' : countAt s1 id label = .ok s' := e1
            refine ⟨s', _, ?_, ?_, dn.trans e2⟩
            · unfold descend
              simp only [Tree.id] at g1 ⊢
              simp only [rd_eq_ok_iff.2 g1, g3, e1', bind, Except.bind, pure, Except.pure]
            · rfl
        | node id d dim sp l r =>
            have hr1 := dn.ready
            obtain ⟨-, ht1, -, -, -, -⟩ := hr1.parts
            obtain ⟨⟨n1, h1, h2, h3, h4, h5, h6⟩, -, -⟩ := ht1
            have hml : l.height ≤ Nat.max l.height r.height := Nat.le_max_left _ _
            have hmr : r.height ≤ Nat.max l.height r.height := Nat.le_max_right _ _
            simp only [Mondrian.Tree.height] at hh
            have hid : (Mondrian.Tree.node id d dim sp l r).id = id := rfl
            have hdesc : ∀ rec : Nat → Nat → State K F L → Res (State K F L × Nat), descend c x label rec id pos1 s1 =
                rec (if x dim ≤ sp then l.id else r.id) pos1 s1 := by
              intro rec
              unfold descend
              simp only [rd_eq_ok_iff.2 h1, h3, h4, h5, h6, init, bind, Except.bind, if_neg (show ¬ c.extend = .ghost by rw [hm]; decide), pure, Except.pure]
              by_cases hx : x dim ≤ sp
              · simp only [if_pos hx]
                cases rec l.id pos1 s1 <;> rfl
              · simp only [if_neg hx]
                cases rec r.id pos1 s1 <;> rfl
            rw [hid, hdesc]
            simp only
            by_cases hx : x dim ≤ sp
            · rw [if_pos hx, if_pos hx]
              have ih := extendBlock_exact c hm p hlife ω hω x label tree base hnc hroom fuel l (by omega)
                (⟨id, { d with box := d.box.extend x }, dim, sp, true, r⟩ :: fs) pos1 s1 dn.ready dn.free hb1 hl11 hl21
              have hct1 : ctxTau ((⟨id, { d with box := d.box.extend x }, dim, sp, true, r⟩ : Frame K F L) :: fs) = d.tau := rfl
              rw [hct1] at ih
              cases hg : grow p ω (some (0, 0)) x label l d.tau pos1 with
              | error e =>
                  rw [hg] at ih
                  intro h2
                  exact ih (by rw [hfree]; exact h2)
              | ok q =>
                  obtain ⟨u, pos2⟩ := q
                  rw [hg] at ih
                  intro h2
                  obtain ⟨s', t', a1, a2, a3⟩ := ih (by
                    rw [hfree]
                    refine h2.imp_right fun h2 => ?_
                    simp only [Tree.ids, List.length_cons, List.length_append] at h2
                    omega)
                  exact ⟨s', .node id { d with box := d.box.extend x } dim sp t' r, a1, node_content a2 rfl, dn.trans a3⟩
            · rw [if_neg hx, if_neg hx]
              have ih := extendBlock_exact c hm p hlife ω hω x label tree base hnc hroom fuel r (by omega)
                (⟨id, { d with box := d.box.extend x }, dim, sp, false, l⟩ :: fs) pos1 s1 dn.ready dn.free hb1 hl11 hl21
              have hct1 : ctxTau ((⟨id, { d with box := d.box.extend x }, dim, sp, false, l⟩ : Frame K F L) :: fs) = d.tau := rfl
              rw [hct1] at ih
              cases hg : grow p ω (some (0, 0)) x label r d.tau pos1 with
              | error e =>
                  rw [hg] at ih
                  intro h2
                  exact ih (by rw [hfree]; exact h2)
              | ok q =>
                  obtain ⟨u, pos2⟩ := q
                  rw [hg] at ih
                  intro h2
                  obtain ⟨s', t', a1, a2, a3⟩ := ih (by
                    rw [hfree]
                    refine h2.imp_right fun h2 => ?_
                    simp only [Tree.ids, List.length_cons, List.length_append] at h2
                    omega)
                  exact ⟨s', .node id { d with box := d.box.extend x } dim sp l t', a1, node_content rfl a2, dn.trans a3⟩

/-- growing adds no node or two -/
theorem grow_length (p : Params K) (ω : Nat → K) (x : Fin F → K) (label : Fin L) (f : Nat × Nat) : ∀ (t : Tree K F L) (ptau : K) (pos : Nat) (u : Tree K F L)
    (pos' : Nat), grow p ω (some f) x label t ptau pos = .ok (u, pos') → u.ids.length = t.ids.length ∨ u.ids.length = t.ids.length + 2 := by
  intro t ptau pos u pos' h
  have := Mondrian.grow_grows p ω (some f) x label t ptau pos u pos' h
  clear h
  induction this with
  | above hd hf => right; exact above_length _ _ _ _ _ _
  | leaf hd hf => left; rfl
  | left hd hf hx hg ih =>
      simp only [Tree.ids, List.length_cons, List.length_append]
      omega
  | right hd hf hx hg ih =>
      simp only [Tree.ids, List.length_cons, List.length_append]
      omega

/-- trees lose no nodes by training -/
theorem Grows.length {c : Config K} {base : Base} {lifetime : K} {x : Fin F → K} {label : Fin L} {dist : Nat} {ptau : K} {t t' : Tree K F L}
    (h : Grows c base lifetime x label dist ptau t t') : t.ids.length ≤ t'.ids.length := by
  induction h with
  | insert np ns h hm => rw [(aboveC_ids _ _ _ _ _ _ _ _).length_eq]; simp only [List.length_cons]; omega
  | @ghost _ _ t hm => cases t <;> exact le_rfl
  | insertLeaf np ns h hm => rw [(aboveC_ids _ _ _ _ _ _ _ _).length_eq]; simp [Tree.ids]
  | insertLeft np ns h hm hx hg ih =>
      rw [(aboveC_ids _ _ _ _ _ _ _ _).length_eq]; simp only [Tree.ids, List.length_cons, List.length_append]; omega
  | insertRight np ns h hm hx hg ih =>
      rw [(aboveC_ids _ _ _ _ _ _ _ _).length_eq]; simp only [Tree.ids, List.length_cons, List.length_append]; omega
  | _ => first
    | exact le_rfl
    | (simp only [Tree.ids, List.length_cons, List.length_append]; omega)
    | skip

theorem free_count {s : State K F L} {trees : List (Option (Tree K F L))} (h : Inv s trees) :
    (avail s.forest.nodes).length + (allIds trees).length = s.forest.nodes.length := by
  have := Unbound.pool_count h.mem
  simpa using this

/-- The tree management does not stop the growth. -/
def Roomy (c : Config K) (bases : List Base) : Prop :=
  c.isCobble = false ∧ (c.management = .robur ∨ c.management = .pausingPhoenix → ∀ b ∈ bases, b.size < b.limit)

/-- Training of one tree is what it is without limits, if there are enough nodes. -/
theorem trainTree_exact (c : Config K) (hm : c.extend = .original) (p : Params K) (hlife : 0 ≤ p.lifetime) (ω : Nat → K) (hω : ∀ i, 0 ≤ ω i ∧ ω i < 1)
    (x : Fin F → K) (label : Fin L) {s : State K F L} {trees : List (Option (Tree K F L))} (hI : Inv s trees) (hroom : Roomy c s.bases) {i pos : Nat}
    {o : Option (Tree K F L)} (hi : trees[i]? = some o) :
    match idealTree p ω x label (o.map Tree.content) pos with
    | .error e => 2 ≤ s.free → trainTree c p ω x label i s pos = .error e
    | .ok (u, pos') => (allIds ((contents trees).set i u)).length ≤ s.forest.nodes.length →
        ∃ s' t', trainTree c p ω x label i s pos = .ok (s', pos', true) ∧ Inv s' (trees.set i (some t')) ∧ u = some t'.content ∧
          s'.forest.nodes.length = s.forest.nodes.length ∧ s'.bases = s.bases ∧ s'.total = s.total := by
  have hpc := free_count hI
  have hci : (contents trees)[i]? = some (o.map Tree.content) := by simp [contents, hi]
  have hsl := Unbound.set_ids_length hci
  rw [Unbound.contents_ids_length] at hsl
  cases o with
  | none =>
      rw [Option.map_none] at hsl ⊢
      simp only [idealTree]
      intro hle
      rcases trainTree_none c p hlife ω x label s trees hI i pos hi with ⟨hA, -⟩ | ⟨s', a, e1, e2, e3, e4, e5, -⟩
      · exfalso
        have := hsl (some (newLeaf p.lifetime 0 x label))
        rw [hA] at hpc
        have e : (oids (some (newLeaf p.lifetime 0 x label : Tree K F L))).length = 1 := rfl
        have e' : (oids (none : Option (Tree K F L))).length = 0 := rfl
        simp only [List.length_nil] at hpc
        omega
      · exact ⟨s', _, e1, e2, rfl, e3, e4, e5⟩
  | some t =>
      have hlt : i < s.bases.length := by rw [hI.bases]; exact lt_of_get hi
      have hr := rd_eq_ok_iff.2 (hI.mem.root hi)
      have hE := extendBlock_exact c hm p hlife ω hω x label i s.bases[i] hroom.1 (fun h => hroom.2 h _ (List.getElem_mem hlt)) s.forest.nodes.length t
        (hI.mem.height_le hi) [] pos s (hI.mem.ready hi) hI.free (List.getElem?_eq_getElem hlt) hI.fading hI.forced
      have hun : trainTree c p ω x label i s pos =
          (extendBlock c p ω x label i s.forest.nodes.length t.id pos s).map (fun r => (r.1, r.2, true)) := by
        unfold trainTree
        simp only [hr, bind, Except.bind, Option.map_some]
        rw [if_neg (by rw [hm]; simp)]
        cases extendBlock c p ω x label i s.forest.nodes.length t.id pos s <;> rfl
      rw [Option.map_some, Unbound.grow_ideal p ω x label (0, 0)]
      have h0 : ctxTau ([] : List (Frame K F L)) = 0 := rfl
      rw [h0] at hE
      cases hg : grow p ω (some (0, 0)) x label t 0 pos with
      | error e =>
          rw [hg] at hE
          simp only [Except.map]
          intro h2
          rw [hun, hE h2]; rfl
      | ok q =>
          obtain ⟨u, pos'⟩ := q
          rw [hg] at hE
          simp only [Except.map]
          intro hle
          have hgl := grow_length p ω x label (0, 0) t 0 pos u pos' hg
          have hs := hsl (some u.content)
          simp only [oids, Option.map_some, Mondrian.content_length] at hs
          obtain ⟨s', t', e1, e2, e3⟩ := hE (by
            have := hI.free
            rcases hgl with h | h
            · right; omega
            · left; omega)
          exact ⟨s', t', by rw [hun, e1]; rfl, hI.done hi e3, by rw [e2], e3.length, e3.bases, e3.total⟩

/-- From the coarse forest to the ideal one -/
theorem trainTree_free (c : Config K) (hm : c.extend = .original) (p : Params K) (hlife : 0 ≤ p.lifetime) (ω : Nat → K) (hω : ∀ i, 0 ≤ ω i ∧ ω i < 1)
    (x : Fin F → K) (label : Fin L) {s : State K F L} {trees : List (Option (Tree K F L))} (hI : Inv s trees) (hroom : Roomy c s.bases) {i pos : Nat}
    {o : Option (Tree K F L)} (hi : trees[i]? = some o) {r : State K F L × Nat × Bool} (h : trainTree c p ω x label i s pos = .ok r) :
    ∃ o', Inv r.1 (trees.set i o') ∧ r.1.bases = s.bases ∧ (avail r.1.forest.nodes).length ≤ (avail s.forest.nodes).length ∧
      (2 ≤ (avail s.forest.nodes).length → idealTree p ω x label (o.map Tree.content) pos = .ok (o'.map Tree.content, r.2.1)) := by
  cases o with
  | none =>
      rcases trainTree_none c p hlife ω x label s trees hI i pos hi with ⟨hA, e⟩ | ⟨s', a, e1, e2, e3, e4, e5, e6⟩
      · rw [h] at e
        cases e
        refine ⟨none, by rw [set_same hi]; exact hI, rfl, le_rfl, fun h2 => ?_⟩
        rw [hA] at h2
        simp at h2
      · rw [h] at e1
        cases e1
        exact ⟨_, e2, e4, by show (avail s'.forest.nodes).length ≤ _; omega, fun _ => rfl⟩
  | some t =>
      have hlt : i < s.bases.length := by rw [hI.bases]; exact lt_of_get hi
      rcases trainTree_some True c p hlife ω hω (fun _ _ => trivial) x label True s.bases[i] (fun _ => .inr trivial) s trees hI i pos t hi
        (List.getElem?_eq_getElem hlt) (fun _ _ hc => by rw [hroom.1] at hc; cases hc) with ⟨-, e, he⟩ | ⟨s', pos', t', e1, e2, e3, e4, e5, t1, ht1, hgr⟩
      · rw [h] at he; cases he
      · rw [h, if_neg (by rw [hm]; simp)] at e1
        cases e1
        cases ht1
        rw [if_neg (by rw [hm]; simp)] at hgr
        have hl := hgr.length
        have c1 := free_count hI
        have c2 := free_count e2
        have c3 := Unbound.set_ids_length hi (some t')
        simp only [oids] at c3
        refine ⟨some t', e2, e4, by simp only; omega, fun h2 => ?_⟩
        have hE := trainTree_exact c hm p hlife ω hω x label hI hroom (pos := pos) hi
        have hfree := hI.free
        cases hid : idealTree p ω x label (Option.map Tree.content (some t)) pos with
        | error e =>
            rw [hid] at hE
            rw [hE (by omega)] at h
            cases h
        | ok q =>
            obtain ⟨u, pos1⟩ := q
            rw [hid] at hE
            have hid' := hid
            rw [Option.map_some, Unbound.grow_ideal p ω x label (0, 0)] at hid'
            cases hg : grow p ω (some (0, 0)) x label t 0 pos with
            | error e => rw [hg] at hid'; cases hid'
            | ok q =>
                rw [hg] at hid'
                simp only [Except.map, Except.ok.injEq, Prod.mk.injEq] at hid'
                obtain ⟨rfl, rfl⟩ := hid'
                have hgl := grow_length p ω x label (0, 0) t 0 pos q.1 q.2 hg
                have hci : (contents trees)[i]? = some (some t.content) := by simp [contents, hi]
                have hsl := Unbound.set_ids_length hci (some q.1.content)
                rw [Unbound.contents_ids_length] at hsl
                simp only [oids, Mondrian.content_length] at hsl
                obtain ⟨s1, t1, f1, f2, f3, f4, f5, f6⟩ := hE (by omega)
                rw [h] at f1
                cases f1
                have hT : (trees.set i (some t'))[i]? = some (some t') := List.getElem?_set_self (lt_of_get hi)
                rw [Mondrian.C52_trees_unique e2.mem.all f2.mem.all, List.getElem?_set_self (lt_of_get hi)] at hT
                cases hT
                rw [f3, Option.map_some]

theorem trainLoop_exact (c : Config K) (hm : c.extend = .original) (p : Params K) (hlife : 0 ≤ p.lifetime) (ω : Nat → K) (hω : ∀ i, 0 ≤ ω i ∧ ω i < 1)
    (x : Fin F → K) (label : Fin L) (bases : List Base) (hroom : Roomy c bases) : ∀ (k i : Nat) (s : State K F L) (trees : List (Option (Tree K F L)))
      (pos : Nat) (ok : Bool) (cs : List (Option (Tree K F L))) (pos' : Nat), i + k = trees.length → Inv s trees → s.bases = bases →
      idealLoop p ω x label i k (contents trees) pos = .ok (cs, pos') → (allIds cs).length ≤ s.forest.nodes.length →
      ∃ s' trees', trainLoop c p ω x label i k s pos ok = .ok (s', pos', ok) ∧ Inv s' trees' ∧ cs = contents trees' ∧ trees'.length = trees.length ∧
        s'.forest.nodes.length = s.forest.nodes.length ∧ s'.bases = bases
  | 0, i, s, trees, pos, ok, cs, pos', hk, hI, hb, h, hle => by
      simp only [idealLoop, Except.ok.injEq, Prod.mk.injEq] at h
      obtain ⟨rfl, rfl⟩ := h
      exact ⟨s, trees, rfl, hI, rfl, rfl, rfl, hb⟩
  | k + 1, i, s, trees, pos, ok, cs, pos', hk, hI, hb, h, hle => by
      obtain ⟨o, ho⟩ : ∃ o, trees[i]? = some o := ⟨_, List.getElem?_eq_getElem (by omega)⟩
      unfold idealLoop at h
      rw [Unbound.contents_get ho] at h
      have hE := trainTree_exact c hm p hlife ω hω x label hI (hb ▸ hroom) (pos := pos) ho
      cases hid : idealTree p ω x label (o.map Tree.content) pos with
      | error e => rw [hid] at h; cases h
      | ok q =>
          obtain ⟨u, pos1⟩ := q
          rw [hid] at h hE
          simp only at h
          have hmono := Unbound.idealLoop_mono k (i + 1) _ pos1 cs pos' (by simp [contents]; omega) h
          obtain ⟨s1, t1, e1, e2, rfl, e4, e5, e6⟩ := hE (hmono.1.trans hle)
          rw [show some t1.content = (some t1).map Tree.content from rfl, ← Unbound.contents_set] at h
          obtain ⟨s', trees', b1, b2, b3, b4, b5, b6⟩ := trainLoop_exact c hm p hlife ω hω x label bases hroom k (i + 1) s1 (trees.set i (some t1)) pos1
            (ok && true) cs pos' (by simp; omega) e2 (e5.trans hb) h (by rw [e4]; exact hle)
          refine ⟨s', trees', ?_, b2, b3, by rw [b4]; simp, b5.trans e4, b6⟩
          simp only [trainLoop, e1, bind, Except.bind]
          rw [b1, Bool.and_true]

theorem trainLoop_free (c : Config K) (hm : c.extend = .original) (p : Params K) (hlife : 0 ≤ p.lifetime) (ω : Nat → K) (hω : ∀ i, 0 ≤ ω i ∧ ω i < 1)
    (x : Fin F → K) (label : Fin L) (bases : List Base) (hroom : Roomy c bases) : ∀ (k i : Nat) (s : State K F L) (trees : List (Option (Tree K F L)))
      (pos : Nat) (ok : Bool) (r : State K F L × Nat × Bool), i + k = trees.length → Inv s trees → s.bases = bases →
      trainLoop c p ω x label i k s pos ok = .ok r →
      ∃ trees', Inv r.1 trees' ∧ trees'.length = trees.length ∧ r.1.bases = bases ∧
        (avail r.1.forest.nodes).length ≤ (avail s.forest.nodes).length ∧
        (2 ≤ (avail r.1.forest.nodes).length → idealLoop p ω x label i k (contents trees) pos = .ok (contents trees', r.2.1))
  | 0, i, s, trees, pos, ok, r, hk, hI, hb, h => by
      simp only [trainLoop, Except.ok.injEq] at h
      subst h
      exact ⟨trees, hI, rfl, hb, le_rfl, fun _ => rfl⟩
  | k + 1, i, s, trees, pos, ok, r, hk, hI, hb, h => by
      obtain ⟨o, ho⟩ : ∃ o, trees[i]? = some o := ⟨_, List.getElem?_eq_getElem (by omega)⟩
      simp only [trainLoop, bind, Except.bind] at h
      cases h1 : trainTree c p ω x label i s pos with
      | error e => rw [h1] at h; cases h
      | ok q =>
          rw [h1] at h
          obtain ⟨o1, a1, a2, a3, a4⟩ := trainTree_free c hm p hlife ω hω x label hI (hb ▸ hroom) ho h1
          obtain ⟨trees', b1, b2, b3, b4, b5⟩ := trainLoop_free c hm p hlife ω hω x label bases hroom k (i + 1) q.1 (trees.set i o1) q.2.1 _ r (by simp; omega) a1
            (a2.trans hb) h
          refine ⟨trees', b1, by rw [b2]; simp, b3, b4.trans a3, fun h2 => ?_⟩
          unfold idealLoop
          rw [Unbound.contents_get ho, a4 (h2.trans (b4.trans a3))]
          simp only
          rw [← Unbound.contents_set]
          exact b5 h2

/-- `predict` with all trees -/
theorem predict_exact (c : Config K) (hg : c.extend ≠ .ghost) (p : Params K) {s : State K F L} {trees : List (Option (Tree K F L))} (hI : Inv s trees) :
    ∃ nodes', Inv { s with forest := { s.forest with nodes := nodes' } } (recountAll trees) ∧ Mondrian.OnlyCounts s.forest.nodes nodes' ∧
      ∀ x, predict c p s x none = (Mondrian.label p x (recountAll trees)).map (fun l => ({ s with forest := { s.forest with nodes := nodes' } }, l)) := by
  obtain ⟨nodes', b1, b2, b3, -⟩ := hI.mem.recount
  have hroots : s.forest.roots = (recountAll trees).map (fun t => t.map Tree.id) := b2.all.roots
  refine ⟨nodes', ⟨b2, ?_, ?_, ?_, hI.scores, ?_⟩, b3, fun x => ?_⟩
  · show s.free = ((avail nodes').length : Int)
    rw [b3.avail]; exact hI.free
  · show s.fading.length = nodes'.length
    rw [b3.1]; exact hI.fading
  · show s.forced.length = nodes'.length
    rw [b3.1]; exact hI.forced
  · show s.bases.length = _
    rw [recountAll, List.length_map]; exact hI.bases
  · have e := Mondrian.sumLoop_spec p { s.forest with nodes := nodes' } x (recountAll trees) (fun _ => 0) (fun t ht => by
      obtain ⟨j, hj⟩ := List.mem_iff_getElem?.1 ht
      exact ⟨b2.height_le hj, b2.all.holds t ht⟩)
    rw [← hroots] at e
    have hlen : s.forest.roots.length = (recountAll trees).length := by rw [hroots]; simp
    unfold predict
    rw [if_neg hg]
    simp only [b1, bind, Except.bind, List.take_length, e]
    unfold Mondrian.label
    by_cases h0 : s.forest.roots.length = 0
    · rw [if_pos (Or.inr h0)]
      have : recountAll trees = [] := List.eq_nil_of_length_eq_zero (by omega)
      rw [this]; rfl
    · rw [if_neg (by omega)]
      simp only [bind, Except.bind]
      cases Mondrian.totals p x (recountAll trees) (fun _ => 0) with
      | error err => rfl
      | ok sum =>
          simp only
          rw [if_neg (by omega), hlen]
          rfl

/-- The calls that the plain forest knows; the others leave the trees as they are. -/
def plainCall : Op K F L → Option (Mondrian.Op K F L)
  | .train x l => some (.train x l)
  | .predict x _ => some (.predict x)
  | .trim => none
  | .fade => none
  | .other _ => none

/-- A call without an explicit number of trees, and no call of `tree_trim` that has an effect -/
def PlainUse (c : Config K) : Op K F L → Prop
  | .predict _ use => use = none
  | .trim => c.trim = .none
  | _ => True

theorem Inv.other {s : State K F L} {trees : List (Option (Tree K F L))} (h : Inv s trees) (last : Nat) : Inv { s with last := last } trees :=
  ⟨h.mem, h.free, h.fading, h.forced, h.scores, h.bases⟩

theorem Inv.counted {s : State K F L} {trees : List (Option (Tree K F L))} (h : Inv s trees) (total : Nat) : Inv { s with total := total } trees :=
  ⟨h.mem, h.free, h.fading, h.forced, h.scores, h.bases⟩

theorem run_exact (c : Config K) (hm : c.extend = .original) (p : Params K) (hlife : 0 ≤ p.lifetime) (ω : Nat → K) (hω : ∀ i, 0 ≤ ω i ∧ ω i < 1)
    (bases : List Base) (hroom : Roomy c bases) (n : Nat) : ∀ (ops : List (Op K F L)) (s : State K F L) (trees : List (Option (Tree K F L))) (pos : Nat)
      (cs : List (Option (Tree K F L))) (pos' : Nat), (∀ op ∈ ops, PlainUse c op) → trees.length = n → Inv s trees → s.bases = bases →
      idealRun p ω n (ops.filterMap plainCall) (contents trees) pos = .ok (cs, pos') → (allIds cs).length ≤ s.forest.nodes.length →
      (c.trim ≠ .none → (allIds cs).length + 2 ≤ s.forest.nodes.length) →
      ∃ s' trees', run c p ω ops s pos = .ok (s', pos') ∧ Inv s' trees' ∧ cs = contents trees' ∧ s'.forest.nodes.length = s.forest.nodes.length
  | [], s, trees, pos, cs, pos', hP, hn, hI, hb, h, hle, hle2 => by
      simp only [List.filterMap_nil, idealRun, Except.ok.injEq, Prod.mk.injEq] at h
      obtain ⟨rfl, rfl⟩ := h
      exact ⟨s, trees, rfl, hI, rfl, rfl⟩
  | .train x l :: ops, s, trees, pos, cs, pos', hP, hn, hI, hb, h, hle, hle2 => by
      rw [List.filterMap_cons_some (show plainCall (.train x l) = some (Mondrian.Op.train x l) from rfl)] at h
      unfold idealRun at h
      cases hl : idealLoop p ω x l 0 n (contents trees) pos with
      | error e => rw [hl] at h; cases h
      | ok q =>
          obtain ⟨cs1, pos1⟩ := q
          rw [hl] at h
          have h2 := Unbound.idealLoop_mono n 0 _ pos cs1 pos1 (by simp [contents]; omega) hl
          have h3 := Unbound.idealRun_mono _ cs1 pos1 cs pos' (by rw [h2.2]; simp [contents, hn]) h
          have hc1 := h2.1
          rw [Unbound.contents_ids_length] at hc1
          obtain ⟨fad, hfad, hIf⟩ : ∃ fad, (if c.trim = .fading then treeFade s else .ok s : Res (State K F L)) = .ok { s with fading := fad } ∧
              Inv { s with fading := fad } trees := by
            by_cases ht : c.trim = .fading
            · obtain ⟨fad, e1, e2⟩ := treeFade_spec s trees hI
              exact ⟨fad, by rw [if_pos ht]; exact e1, e2⟩
            · exact ⟨s.fading, by rw [if_neg ht], hI⟩
          have hnt : ¬ (c.trim ≠ .none ∧ s.free ≤ 1 ∧ s.total % 100 = 0) := by
            rintro ⟨ht, hf, -⟩
            have := hle2 ht
            have h4 := free_count hI
            have h5 := hI.free
            omega
          obtain ⟨s1, trees1, b1, b2, rfl, b4, b5, b6⟩ := trainLoop_exact c hm p hlife ω hω x l bases hroom n 0 { s with fading := fad } trees pos true cs1 pos1
            (by omega) hIf hb hl (h3.trans hle)
          have b5' : s1.forest.nodes.length = s.forest.nodes.length := b5
          obtain ⟨s', trees', c1, c2, c3, c4⟩ := run_exact c hm p hlife ω hω bases hroom n ops { s1 with total := s1.total + 1 } trees1 pos1 cs pos'
            (fun op ho => hP op (List.mem_cons_of_mem _ ho)) (b4.trans hn) (b2.counted _) b6 h (by show _ ≤ s1.forest.nodes.length; rw [b5']; exact hle)
            (by show _ → _ ≤ s1.forest.nodes.length; rw [b5']; exact hle2)
          refine ⟨s', trees', ?_, c2, c3, c4.trans b5'⟩
          have hrl : s.forest.roots.length = n := by rw [hI.mem.all.roots, List.length_map, hn]
          simp only [run, exec, train, hfad, bind, Except.bind, pure, Except.pure]
          rw [if_neg hnt]
          simp only [hrl, b1]
          exact c1
  | .predict x use :: ops, s, trees, pos, cs, pos', hP, hn, hI, hb, h, hle, hle2 => by
      rw [List.filterMap_cons_some (show plainCall (.predict x use) = some (Mondrian.Op.predict x) from rfl)] at h
      have hu : use = none := hP _ (List.mem_cons_self)
      subst hu
      unfold idealRun at h
      cases hl : Mondrian.label p x (recountAll (contents trees)) with
      | error e => rw [hl] at h; cases h
      | ok q =>
          rw [hl] at h
          simp only at h
          obtain ⟨nodes', d1, d2, d4⟩ := predict_exact c (by rw [hm]; simp) p hI
          have hp := d4 x
          rw [← Mondrian.label_congr p x (Unbound.same_contents trees), hl] at hp
          rw [← Unbound.recountAll_same] at h
          obtain ⟨s', trees', c1, c2, c3, c4⟩ := run_exact c hm p hlife ω hω bases hroom n ops _ (recountAll trees) pos cs pos'
            (fun op ho => hP op (List.mem_cons_of_mem _ ho)) (by simp [recountAll, hn]) d1 hb h (by show _ ≤ nodes'.length; rw [d2.1]; exact hle)
            (by show _ → _ ≤ nodes'.length; rw [d2.1]; exact hle2)
          refine ⟨s', trees', ?_, c2, c3, c4.trans d2.1⟩
          simp only [run, exec, hp, Except.map, bind, Except.bind, pure, Except.pure]
          exact c1
  | .trim :: ops, s, trees, pos, cs, pos', hP, hn, hI, hb, h, hle, hle2 => by
      rw [List.filterMap_cons_none (show plainCall (.trim : Op K F L) = none from rfl)] at h
      have hu : c.trim = .none := hP _ (List.mem_cons_self)
      obtain ⟨s', trees', c1, c2, c3, c4⟩ := run_exact c hm p hlife ω hω bases hroom n ops s trees pos cs pos'
        (fun op ho => hP op (List.mem_cons_of_mem _ ho)) hn hI hb h hle hle2
      refine ⟨s', trees', ?_, c2, c3, c4⟩
      simp only [run, exec, treeTrim, if_pos hu, bind, Except.bind]
      exact c1
  | .fade :: ops, s, trees, pos, cs, pos', hP, hn, hI, hb, h, hle, hle2 => by
      rw [List.filterMap_cons_none (show plainCall (.fade : Op K F L) = none from rfl)] at h
      obtain ⟨fad, e1, e2⟩ := treeFade_spec s trees hI
      obtain ⟨s', trees', c1, c2, c3, c4⟩ := run_exact c hm p hlife ω hω bases hroom n ops { s with fading := fad } trees pos cs pos'
        (fun op ho => hP op (List.mem_cons_of_mem _ ho)) hn e2 hb h hle hle2
      refine ⟨s', trees', ?_, c2, c3, c4⟩
      simp only [run, exec, e1, bind, Except.bind, pure, Except.pure]
      exact c1
  | .other last :: ops, s, trees, pos, cs, pos', hP, hn, hI, hb, h, hle, hle2 => by
      rw [List.filterMap_cons_none (show plainCall (.other last : Op K F L) = none from rfl)] at h
      obtain ⟨s', trees', c1, c2, c3, c4⟩ := run_exact c hm p hlife ω hω bases hroom n ops { s with last := last } trees pos cs pos'
        (fun op ho => hP op (List.mem_cons_of_mem _ ho)) hn (hI.other last) hb h hle hle2
      exact ⟨s', trees', c1, c2, c3, c4⟩

theorem run_free (c : Config K) (hm : c.extend = .original) (ht : c.trim = .none) (p : Params K) (hlife : 0 ≤ p.lifetime) (ω : Nat → K)
    (hω : ∀ i, 0 ≤ ω i ∧ ω i < 1) (bases : List Base) (hroom : Roomy c bases) (n : Nat) : ∀ (ops : List (Op K F L)) (s : State K F L)
      (trees : List (Option (Tree K F L))) (pos : Nat) (r : State K F L × Nat), (∀ op ∈ ops, PlainUse c op) → trees.length = n → Inv s trees → s.bases = bases →
      run c p ω ops s pos = .ok r →
      ∃ trees', Inv r.1 trees' ∧ (avail r.1.forest.nodes).length ≤ (avail s.forest.nodes).length ∧
        (2 ≤ (avail r.1.forest.nodes).length → idealRun p ω n (ops.filterMap plainCall) (contents trees) pos = .ok (contents trees', r.2))
  | [], s, trees, pos, r, hP, hn, hI, hb, h => by
      simp only [run, Except.ok.injEq] at h
      subst h
      exact ⟨trees, hI, le_rfl, fun _ => rfl⟩
  | .train x l :: ops, s, trees, pos, r, hP, hn, hI, hb, h => by
      have hrl : s.forest.roots.length = n := by rw [hI.mem.all.roots, List.length_map, hn]
      simp only [run, exec, train, bind, Except.bind, pure, Except.pure, ht, ne_eq, not_true_eq_false, false_and, if_false, reduceCtorEq, hrl] at h
      cases h1 : trainLoop c p ω x l 0 n s pos true with
      | error e => rw [h1] at h; cases h
      | ok q =>
          rw [h1] at h
          obtain ⟨trees1, a1, a2, a3, a4, a5⟩ := trainLoop_free c hm p hlife ω hω x l bases hroom n 0 s trees pos true q (by omega) hI hb h1
          obtain ⟨trees', b1, b2, b3⟩ := run_free c hm ht p hlife ω hω bases hroom n ops { q.1 with total := q.1.total + 1 } trees1 q.2.1 r (fun op ho => hP op (List.mem_cons_of_mem _ ho))
            (a2.trans hn) (a1.counted _) a3 h
          refine ⟨trees', b1, b2.trans a4, fun h2 => ?_⟩
          rw [List.filterMap_cons_some (show plainCall (.train x l) = some (Mondrian.Op.train x l) from rfl)]
          unfold idealRun
          rw [a5 (h2.trans b2)]
          exact b3 h2
  | .predict x use :: ops, s, trees, pos, r, hP, hn, hI, hb, h => by
      have hu : use = none := hP _ (List.mem_cons_self)
      subst hu
      obtain ⟨nodes', d1, d2, d4⟩ := predict_exact c (by rw [hm]; simp) p hI
      have hp := d4 x
      simp only [run, exec, hp, bind, Except.bind, pure, Except.pure] at h
      cases hl : Mondrian.label p x (recountAll trees) with
      | error e => rw [hl] at h; cases h
      | ok q =>
          rw [hl] at h
          simp only [Except.map] at h
          obtain ⟨trees', b1, b2, b3⟩ := run_free c hm ht p hlife ω hω bases hroom n ops _ (recountAll trees) pos r
            (fun op ho => hP op (List.mem_cons_of_mem _ ho)) (by simp [recountAll, hn]) d1 hb h
          have b2' : (avail r.1.forest.nodes).length ≤ (avail s.forest.nodes).length := by rw [← d2.avail]; exact b2
          refine ⟨trees', b1, b2', fun h2 => ?_⟩
          rw [List.filterMap_cons_some (show plainCall (.predict x none) = some (Mondrian.Op.predict x) from rfl)]
          unfold idealRun
          rw [Mondrian.label_congr p x (Unbound.same_contents trees), hl]
          simp only
          rw [← Unbound.recountAll_same]
          exact b3 h2
  | .trim :: ops, s, trees, pos, r, hP, hn, hI, hb, h => by
      simp only [run, exec, treeTrim, if_pos ht, bind, Except.bind] at h
      rw [List.filterMap_cons_none (show plainCall (.trim : Op K F L) = none from rfl)]
      exact run_free c hm ht p hlife ω hω bases hroom n ops s trees pos r (fun op ho => hP op (List.mem_cons_of_mem _ ho)) hn hI hb h
  | .fade :: ops, s, trees, pos, r, hP, hn, hI, hb, h => by
      obtain ⟨fad, e1, e2⟩ := treeFade_spec s trees hI
      simp only [run, exec, e1, bind, Except.bind, pure, Except.pure] at h
      rw [List.filterMap_cons_none (show plainCall (.fade : Op K F L) = none from rfl)]
      exact run_free c hm ht p hlife ω hω bases hroom n ops { s with fading := fad } trees pos r (fun op ho => hP op (List.mem_cons_of_mem _ ho)) hn e2 hb h
  | .other last :: ops, s, trees, pos, r, hP, hn, hI, hb, h => by
      rw [List.filterMap_cons_none (show plainCall (.other last : Op K F L) = none from rfl)]
      exact run_free c hm ht p hlife ω hω bases hroom n ops { s with last := last } trees pos r (fun op ho => hP op (List.mem_cons_of_mem _ ho)) hn
        (hI.other last) hb h

end Orp.Coarse
