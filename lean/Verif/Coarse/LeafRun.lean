import Verif.Coarse.Leaf
import Verif.Coarse.Keep

/-!
Histories with `SPLIT_TRIGGER_NONE` and any split helper: the trees stay trees.
-/

set_option linter.unusedSectionVars false

namespace Orp.Coarse

open Finset
open Mondrian (Node Box Forest Params Cut upd init extent cutAt bump sampleBlock Tree Data Frame plug ctxPar ctxTau ctxIds HoldsCtx Holds Ready avail mem_avail
  avail_nodup upd_spec lt_of_get newLeaf holds_plug plug_ids holds_root id_mem_ids holds_mem set_same allIds recountAll OnlyCounts Times)

variable {K : Type} [Field K] [LinearOrder K] [IsStrictOrderedRing K] [FloorRing K] {F L : Nat}

/-! ### `split_barycenter` at a leaf -/

theorem abs_same (a : K) : Utils.abs a = |a| := by
  unfold Utils.abs
  split
  · rename_i h; rw [abs_of_neg h]; ring
  · rename_i h; rw [abs_of_nonneg (not_lt.1 h)]

theorem min_same (a b : K) : Utils.min a b = min a b := by
  unfold Utils.min
  split
  · rename_i h; rw [min_eq_left (le_of_lt h)]
  · rename_i h; rw [min_eq_right (not_lt.1 h)]

theorem max_same (a b : K) : Utils.max a b = max a b := by
  unfold Utils.max
  split
  · rename_i h; rw [max_eq_left (le_of_lt h)]
  · rename_i h; rw [max_eq_right (not_lt.1 h)]

theorem inside_of_extent {b : Box K F} {x : Fin F → K} (h : extentSum b x = 0) (i : Fin F) : b.lower i ≤ x i ∧ x i ≤ b.upper i := by
  have hz : extent b x i = 0 := (Finset.sum_eq_zero_iff_of_nonneg (fun i _ => Mondrian.extent_nonneg b x i)).1 h i (Finset.mem_univ _)
  unfold extent at hz
  constructor
  · by_contra hn
    rw [if_pos (by linarith [not_le.1 hn])] at hz
    split at hz <;> linarith [not_le.1 hn]
  · by_contra hn
    rw [if_pos (show x i - b.upper i > 0 by linarith [not_le.1 hn])] at hz
    split at hz <;> linarith [not_le.1 hn]

theorem newBox_inside (c : Config K) {b : Box K F} {x : Fin F → K} (hc : c.extend = .barycenter) (h : extentSum b x = 0) : newBox c b x = b := by
  unfold newBox
  rw [if_pos hc]
  obtain ⟨lo, up⟩ := b
  simp only [Box.mk.injEq]
  refine ⟨funext fun i => if_neg (not_lt.2 (inside_of_extent h i).1), funext fun i => if_neg (not_lt.2 (inside_of_extent h i).2)⟩

/-- the number `E` is negative only if the point is in the box -/
theorem expo_neg {p : Params K} (hlog : ∀ u, 0 < u → u ≤ 1 → p.log u ≤ 0) {ω : Nat → K} (hω : ∀ i, 0 < ω i ∧ ω i < 1) {pos : Nat} {b : Box K F} {x : Fin F → K}
    (h : (expo p ω pos b x).1 < 0) : extentSum b x = 0 := by
  by_contra hs
  unfold expo at h
  rw [if_neg hs] at h
  have hs' : 0 < extentSum b x := lt_of_le_of_ne (Mondrian.sum_nonneg' b x) (Ne.symm hs)
  have h1 := hlog (1 - ω pos) (by linarith [(hω pos).2]) (by linarith [(hω pos).1])
  have h2 : 0 ≤ p.log (1 - ω pos) / (-extentSum b x) := div_nonneg_of_nonpos h1 (by linarith)
  exact absurd h (not_lt.2 h2)

theorem weight_nonneg (b : Box K F) (m x : Fin F → K) (i : Fin F) : 0 ≤ baryWeight b m x i := by
  unfold baryWeight
  split
  · rw [abs_same]; exact abs_nonneg _
  · exact le_rfl

theorem weight_pos {b : Box K F} {m x : Fin F → K} {i : Fin F} (h : 0 < baryWeight b m x i) : b.lower i < m i ∧ m i < b.upper i ∧ m i ≠ x i := by
  unfold baryWeight at h
  split at h
  · rename_i hb
    refine ⟨hb.1, hb.2, fun e => ?_⟩
    rw [e, sub_self, abs_same, abs_zero] at h
    exact lt_irrefl _ h
  · exact absurd h (lt_irrefl _)

theorem splitBarycenter_leaf (sc : SplitConfig K) (p : Params K) (hlife : 0 < p.lifetime) (ω : Nat → K) (hω : ∀ i, 0 < ω i ∧ ω i < 1) (ex : Extra K F)
    (s : State K F L) (id tree pos : Nat) (x : Fin F → K) (label : Fin L) {fs : List (Frame K F L)} {d : Data K F L}
    (hrdy : Ready s.forest tree (plug fs (.leaf id d))) (hfree : s.free = (avail s.forest.nodes).length) (h2 : 2 ≤ s.free) (hx : extentSum d.box x = 0)
    (ht : d.tau = p.lifetime) (hlt : ctxTau fs < p.lifetime) {s' : State K F L} {pos' : Nat}
    (hr : splitBarycenter sc p ω ex s id tree pos (ctxTau fs) x label = .ok (some (s', pos'))) :
    ∃ (np ns : Nat) (tau v : K) (dim : Fin F) (onLeft : Bool) (m : Fin F → K), barycenter sc ex s tree = .ok (some m) ∧
      (d.box.lower dim < m dim ∧ m dim < d.box.upper dim) ∧ (min (m dim) (x dim) < v ∧ v < max (m dim) (x dim)) ∧ d.box.lower dim < v ∧ v < d.box.upper dim ∧ ctxTau fs < tau ∧ tau < p.lifetime ∧
      Done s s' tree (plug fs (.leaf id d)) (plug fs (splitTree p.lifetime tau np ns id d dim v onLeft x label)) := by
  obtain ⟨hctx, ⟨node, hn, hhas, hdim⟩, -, -, -, -⟩ := hrdy.parts
  unfold splitBarycenter at hr
  cases hb : barycenter sc ex s tree with
  | error e => simp only [hb, bind, Except.bind, reduceCtorEq] at hr
  | ok o =>
  cases o with
  | none => simp only [hb, bind, Except.bind, pure, Except.pure, Except.ok.injEq, reduceCtorEq] at hr
  | some m =>
  simp only [hb, bind, Except.bind, rd_eq_ok_iff.2 hn, hhas.2.2.1, init, hhas.2.1, pure, Except.pure] at hr
  by_cases hs : ∑ i, baryWeight d.box m x i = 0
  · rw [if_pos hs] at hr; cases hr
  rw [if_neg hs] at hr
  have hs' : 0 < ∑ i, baryWeight d.box m x i := lt_of_le_of_ne (Finset.sum_nonneg fun i _ => weight_nonneg _ _ _ i) (Ne.symm hs)
  obtain ⟨dim, e1, e2⟩ := pickDim_ok ω (pos + 1) (baryWeight d.box m x) (weight_nonneg _ _ _) hs' (hω _).1 (hω _).2
  simp only [e1] at hr
  generalize hv : ω (pos + 1 + 1) * (Utils.max (m dim) (x dim) - Utils.min (m dim) (x dim)) + Utils.min (m dim) (x dim) = v at hr
  generalize hta : ctxTau fs + (d.tau - ctxTau fs) * ω (pos + 1 + 1) = tau at hr
  obtain ⟨w1, w2, w3⟩ := weight_pos e2
  have hxin := inside_of_extent hx dim
  have hw := hω (pos + 1 + 1)
  have hmin : Utils.min (m dim) (x dim) = min (m dim) (x dim) := min_same _ _
  have hmax : Utils.max (m dim) (x dim) = max (m dim) (x dim) := max_same _ _
  rw [hmin, hmax] at hv
  have hlo : d.box.lower dim ≤ min (m dim) (x dim) := le_min w1.le hxin.1
  have hup : max (m dim) (x dim) ≤ d.box.upper dim := max_le w2.le hxin.2
  have hmm : min (m dim) (x dim) < max (m dim) (x dim) := min_lt_max.2 w3
  have v1' : min (m dim) (x dim) < v := by
    have := mul_pos hw.1 (sub_pos.2 hmm)
    rw [← hv]; linarith
  have v2' : v < max (m dim) (x dim) := by
    have := mul_lt_mul_of_pos_right hw.2 (sub_pos.2 hmm)
    rw [← hv]; linarith
  have v1 : d.box.lower dim < v := lt_of_le_of_lt hlo v1'
  have v2 : v < d.box.upper dim := lt_of_lt_of_le v2' hup
  have t1 : ctxTau fs < tau := by
    rw [← hta, ht]
    have := mul_pos (sub_pos.2 hlt) hw.1
    linarith
  have t2 : tau < p.lifetime := by
    rw [← hta, ht]
    have := mul_lt_mul_of_pos_left hw.2 (sub_pos.2 hlt)
    linarith
  have hct := Mondrian.ctxTau_nonneg hrdy
  cases hk : splitAt sc p ω s id tree (pos + 1 + 1 + 1) dim v tau x label with
  | error e => simp only [hk, reduceCtorEq] at hr
  | ok r =>
  simp only [hk, Except.ok.injEq, Option.some.injEq] at hr
  subst hr
  obtain ⟨np, ns, onLeft, hd⟩ := splitAt_leaf sc p ω s id tree (pos + 1 + 1 + 1) dim v tau x label hrdy hfree h2 hlife.le (hct.trans t1.le) v1 v2 hk
  exact ⟨np, ns, tau, v, dim, onLeft, m, rfl, ⟨w1, w2⟩, ⟨v1', v2'⟩, v1, v2, t1, t2, hd⟩

/-! ### Training one tree -/

theorem bind_ok {A B : Type} {r : Res A} {f : A → Res B} {b : B} (h : r >>= f = .ok b) : ∃ a, r = .ok a ∧ f a = .ok b := by
  cases r with
  | error e => cases h
  | ok a => exact ⟨a, rfl, h⟩

/-- How a tree below a parent with the time `ptau` changes when it is trained with a point; `M` holds for the barycenter used to split a leaf -/
inductive GrowsS (M : (Fin F → K) → Prop) (c : Config K) (lifetime : K) (x : Fin F → K) (label : Fin L) : K → Tree K F L → Tree K F L → Prop where
  /-- a new parent and a new leaf for the point -/
  | insert {ptau t cut} (np ns : Nat) (hok : cut.Ok t.data.box x) (hle : ptau ≤ cut.tau) (hlt : cut.tau < t.data.tau) :
      GrowsS M c lifetime x label ptau t (aboveC lifetime np ns cut t (fun _ => 0) x label)
  /-- the point is counted at a leaf -/
  | leaf {ptau id d} : GrowsS M c lifetime x label ptau (.leaf id d) (.leaf id { tau := d.tau, box := newBox c d.box x, counts := bump d.counts label })
  /-- a leaf that contains the point in its box is split between the barycenter and the point -/
  | split {ptau id d} (np ns : Nat) (tau v : K) (dim : Fin F) (onLeft : Bool) (m : Fin F → K) (hM : M m) (hm : d.box.lower dim < m dim ∧ m dim < d.box.upper dim)
      (hv : min (m dim) (x dim) < v ∧ v < max (m dim) (x dim)) (hx : ∀ i, d.box.lower i ≤ x i ∧ x i ≤ d.box.upper i) (h1 : d.box.lower dim < v) (h2 : v < d.box.upper dim) (h3 : ptau < tau)
      (h4 : tau < lifetime) : GrowsS M c lifetime x label ptau (.leaf id d) (splitTree lifetime tau np ns id d dim v onLeft x label)
  | left {ptau id d dim sp l l' r} (hx : x dim ≤ sp) (hg : GrowsS M c lifetime x label d.tau l l') :
      GrowsS M c lifetime x label ptau (.node id d dim sp l r) (.node id { d with box := newBox c d.box x } dim sp l' r)
  | right {ptau id d dim sp l r r'} (hx : ¬ x dim ≤ sp) (hg : GrowsS M c lifetime x label d.tau r r') :
      GrowsS M c lifetime x label ptau (.node id d dim sp l r) (.node id { d with box := newBox c d.box x } dim sp l r')

theorem splitTree_times {lifetime tau : K} {np ns id : Nat} {d : Data K F L} {dim : Fin F} {v : K} {onLeft : Bool} {x : Fin F → K} {label : Fin L} {ptau : K}
    (h3 : ptau < tau) (h4 : tau < lifetime) (ht : d.tau = lifetime) : Times (· ≤ ·) lifetime ptau (splitTree lifetime tau np ns id d dim v onLeft x label) := by
  refine ⟨h3.le, h4, ?_, ?_⟩
  · cases onLeft <;> by_cases hv : v < x dim <;> simp [hv, give, Times, ht]
  · cases onLeft <;> by_cases hv : v < x dim <;> simp [hv, give, Times, ht]

theorem GrowsS.times {M : (Fin F → K) → Prop} {c : Config K} {lifetime : K} {x : Fin F → K} {label : Fin L} {ptau : K} {t t' : Tree K F L}
    (h : GrowsS M c lifetime x label ptau t t') : Times (· ≤ ·) lifetime ptau t → Times (· ≤ ·) lifetime ptau t' := by
  induction h with
  | insert np ns hok hle hlt => intro ht; exact aboveC_times _ _ _ (times_tau ht hlt.le) hle (hlt.trans_le (times_root_le ht))
  | leaf => exact fun ht => ht
  | split np ns tau v dim onLeft m hM hm hv hx h1 h2 h3 h4 => exact fun ht => splitTree_times h3 h4 ht
  | left hx hg ih => exact fun ht => ⟨ht.1, ht.2.1, ih ht.2.2.1, ht.2.2.2⟩
  | right hx hg ih => exact fun ht => ⟨ht.1, ht.2.1, ht.2.2.1, ih ht.2.2.2⟩

theorem extendSplit_spec (c : Config K) (hc : c.extend = .barycenter) (sc : SplitConfig K) (htr : sc.trigger = .none) (p : Params K) (hlife : 0 < p.lifetime)
    (hlog : ∀ u, 0 < u → u ≤ 1 → p.log u ≤ 0) (ω : Nat → K) (hω : ∀ i, 0 < ω i ∧ ω i < 1) (ex : Extra K F) (x : Fin F → K) (label : Fin L) (tree : Nat)
    (sum : Int) (M : (Fin F → K) → Prop) (hM : ∀ (s : State K F L) (m : Fin F → K), barycenter sc ex s tree = .ok (some m) → M m) :
    ∀ (fuel : Nat) (t : Tree K F L) (fs : List (Frame K F L)) (pos : Nat) (s s' : State K F L) (pos' : Nat),
    Ready s.forest tree (plug fs t) → s.free = (avail s.forest.nodes).length → s.fading.length = s.forest.nodes.length → s.forced.length = s.forest.nodes.length →
    Times (· ≤ ·) p.lifetime (ctxTau fs) t → ctxTau fs < p.lifetime → extendSplit c sc p ω ex x label tree sum fuel t.id pos s = .ok (s', pos') →
    ∃ t', GrowsS M c p.lifetime x label (ctxTau fs) t t' ∧ Done s s' tree (plug fs t) (plug fs t')
  | 0, t, fs, pos, s, s', pos', _, _, _, _, _, _, hr => by rw [extendSplit] at hr; cases hr
  | fuel + 1, t, fs, pos, s, s', pos', h, hf, hl1, hl2, htm, hlt, hr => by
      have ih := extendSplit_spec c hc sc htr p hlife hlog ω hω ex x label tree sum M hM fuel
      obtain ⟨hctx, ht, -, -, -, -⟩ := h.parts
      obtain ⟨n, hn, hhas⟩ := holds_root ht
      have e1 := Mondrian.ctxTau_spec hctx
      rw [← hhas.1] at e1
      rw [extendSplit, rd_eq_ok_iff.2 hn, ok_bind] at hr
      obtain ⟨ptau, hpt, hr⟩ := bind_ok hr
      have hptau : ptau = ctxTau fs := by
        cases hpar : n.parent with
        | none => rw [hpar] at e1 hpt; exact (Except.ok.inj hpt).symm.trans (Except.ok.inj e1)
        | some q => rw [hpar] at e1 hpt; exact Except.ok.inj (hpt.symm.trans e1)
      subst hptau
      simp only [hhas.2.2.1, init, hhas.2.1] at hr
      rw [ok_bind] at hr
      obtain ⟨pause, hpause, hr⟩ := bind_ok hr
      generalize he : (expo p ω pos t.data.box x).1 = e at hr
      generalize (expo p ω pos t.data.box x).2 = pos1 at hr
      by_cases hin : 0 ≤ e ∧ ctxTau fs + e < t.data.tau ∧ 2 ≤ s.free ∧ pause = false
      · rw [if_pos hin, htr, if_pos rfl, ok_bind] at hr
        simp only [splits, Bool.false_eq_true, if_false] at hr
        obtain ⟨⟨cut, pos2⟩, hd, hr⟩ := bind_ok hr
        have hs := expo_nonneg (p := p) (ω := ω) (pos := pos) (b := t.data.box) (x := x) (by rw [he]; exact hin.1)
        obtain ⟨cut', pos2', d1, d2, d3⟩ := drawCut_ok ω hω _ t.data.box x (ctxTau fs + e) hs
        rw [d1] at hd
        cases hd
        obtain ⟨np, ns, s1, i1, i2⟩ := insert_spec c p hlife.le s tree cut x label fs t h hf hin.2.2.1 (by rw [d3]; linarith [hin.1, Mondrian.ctxTau_nonneg h])
        simp only [i1] at hr
        cases hr
        refine ⟨_, .insert np ns d2 (by rw [d3]; linarith [hin.1]) (by rw [d3]; exact hin.2.1), ?_⟩
        have hcnt : parentCounts c.extend (fun _ => 0) t.data.counts label = fun _ => 0 := by rw [hc]; rfl
        rw [hcnt] at i2
        exact i2
      · rw [if_neg hin] at hr
        have hltn := lt_of_get hn
        have hlt' : t.id < s.forced.length := by rw [hl2]; exact hltn
        rw [wr_ok _ hltn, ok_bind] at hr
        obtain ⟨forced', q1, hr⟩ := bind_ok hr
        have q2 : forced'.length = s.forced.length := by
          split at q1
          · obtain ⟨f, -, q1⟩ := bind_ok q1
            rw [← (wr_eq_ok_iff.1 q1).2]; simp
          · rw [← Except.ok.inj q1]
        have dn := done_update (s' := { s with
            forest := { s.forest with nodes := s.forest.nodes.set t.id { n with box := some (newBox c t.data.box x) } }
            forced := forced' }) (n' := { n with box := some (newBox c t.data.box x) }) (d' := { t.data with box := newBox c t.data.box x }) h hf hn (by simp) rfl (fun j => by
            show (s.forest.nodes.set t.id _)[j]? = _
            rw [List.getElem?_set]
            by_cases hj : t.id = j
            · subst hj; rw [if_pos rfl, if_pos rfl, if_pos hltn]
            · rw [if_neg hj, if_neg (Ne.symm hj)]) rfl rfl rfl rfl ⟨hhas.1, hhas.2.1, rfl, hhas.2.2.2⟩ rfl rfl rfl rfl rfl q2 (fun h => h)
        generalize hs1 : ({ s with
            forest := { s.forest with nodes := s.forest.nodes.set t.id { n with box := some (newBox c t.data.box x) } }
            forced := forced' } : State K F L) = s1 at dn hr
        have hfr : s1.free = s.free := by rw [← hs1]
        cases t with
        | leaf id d =>
            obtain ⟨n', hn', hh', hdim⟩ := ht
            have : n' = n := by
              have hn2 : s.forest.nodes[id]? = some n := hn
              rw [hn'] at hn2; exact Option.some.inj hn2
            subst this
            simp only [hdim] at hr
            obtain ⟨o, ho, hr⟩ := bind_ok hr
            cases o with
            | none =>
                obtain ⟨s2, hs2, hr⟩ := bind_ok hr
                cases hr
                obtain ⟨s3, a1, a2⟩ := countAt_spec s1 tree dn.ready dn.free (by rw [dn.fading, dn.length]; exact hl1) label
                have a1' : countAt s1 id label = .ok s3 := a1
                have hs2' : countAt s1 id label = .ok s' := by
                  rw [← hs1]
                  have hta : n'.tau = (Mondrian.Tree.leaf id d).data.tau := hhas.2.1
                  simp only [hdim, hta]
                  exact hs2
                rw [a1'] at hs2'
                cases hs2'
                exact ⟨_, .leaf, dn.trans a2⟩
            | some r =>
                cases hr
                split at ho
                · rename_i hcond
                  have hex : extentSum d.box x = 0 := expo_neg hlog hω (pos := pos) (by have he' : (expo p ω pos d.box x).1 = e := he; rw [he']; exact hcond.2.1)
                  have hbx : newBox c d.box x = d.box := newBox_inside c hc hex
                  have dn' : Done s s1 tree (plug fs (.leaf id d)) (plug fs (.leaf id d)) := by
                    have := dn
                    simp only [Tree.withData, Tree.data, hbx] at this
                    exact this
                  have ho2 : splitBarycenter sc p ω ex s1 id tree pos1 (ctxTau fs) x label = .ok (some (s', pos')) := by
                    rw [← hs1]
                    have hta : n'.tau = (Mondrian.Tree.leaf id d).data.tau := hhas.2.1
                    simp only [hdim, hta]
                    exact ho
                  obtain ⟨np, ns, tau, v, dim, onLeft, m, m1, m2, m3, v1, v2, t1, t2, hd⟩ := splitBarycenter_leaf sc p hlife ω hω ex s1 id tree _ x label dn'.ready dn'.free
                    (by rw [hfr]; exact hcond.2.2) hex htm hlt ho2
                  exact ⟨_, .split np ns tau v dim onLeft m (hM _ _ m1) m2 m3 (inside_of_extent hex) v1 v2 t1 t2, dn'.trans hd⟩
                · cases ho
        | node id d dim sp l r =>
            obtain ⟨⟨n', hn', hh', h3, h4, h5, h6⟩, hl, hr'⟩ := ht
            have : n' = n := by
              have hn2 : s.forest.nodes[id]? = some n := hn
              rw [hn'] at hn2; exact Option.some.inj hn2
            subst this
            simp only [h3, h4, h5, h6] at hr
            rw [ok_bind] at hr
            by_cases hx : x dim ≤ sp
            · rw [if_pos hx] at hr
              simp only at hr
              rw [ok_bind] at hr
              have hr2 : extendSplit c sc p ω ex x label tree sum fuel l.id pos1 s1 = .ok (s', pos') := by
                rw [← hs1]
                have hta : n'.tau = (Mondrian.Tree.node id d dim sp l r).data.tau := hhas.2.1
                simp only [h3, h4, h5, h6, hta]
                exact hr
              obtain ⟨l', g1, g2⟩ := ih l (⟨id, { d with box := newBox c d.box x }, dim, sp, true, r⟩ :: fs) _ s1 s' pos' dn.ready dn.free
                (by rw [dn.fading, dn.length]; exact hl1) (by rw [dn.forced, dn.length]; exact hl2) htm.2.2.1 htm.2.1 hr2
              exact ⟨_, .left hx g1, dn.trans g2⟩
            · rw [if_neg hx] at hr
              simp only at hr
              rw [ok_bind] at hr
              have hr2 : extendSplit c sc p ω ex x label tree sum fuel r.id pos1 s1 = .ok (s', pos') := by
                rw [← hs1]
                have hta : n'.tau = (Mondrian.Tree.node id d dim sp l r).data.tau := hhas.2.1
                simp only [h3, h4, h5, h6, hta]
                exact hr
              obtain ⟨r', g1, g2⟩ := ih r (⟨id, { d with box := newBox c d.box x }, dim, sp, false, l⟩ :: fs) _ s1 s' pos' dn.ready dn.free
                (by rw [dn.fading, dn.length]; exact hl1) (by rw [dn.forced, dn.length]; exact hl2) htm.2.2.2 htm.2.1 hr2
              exact ⟨_, .right hx g1, dn.trans g2⟩

end Orp.Coarse
